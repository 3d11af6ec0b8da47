import Verif.Str
import Verif.F64
import Verif.Mag
import Verif.Date
import Verif.Codec
import Verif.Model.Account
import Verif.Model.Amount
import Verif.Model.Csv
import Verif.Model.Entry
import Verif.Model.Env
import Verif.Model.Envelope
import Verif.Model.Flags
import Verif.Model.Frequency
import Verif.Model.Help
import Verif.Model.Importer
import Verif.Model.Ledger
import Verif.Model.Messages
import Verif.Model.Posting
import Verif.Model.Register
import Verif.Model.Utils
import Verif.Model.World
import Verif.Proofs.Amounts
import Verif.Proofs.Calendar
import Verif.Proofs.Check
import Verif.Proofs.Dates
import Verif.Proofs.Due
import Verif.Proofs.Entries
import Verif.Proofs.Loading
import Verif.Proofs.Messages
import Verif.Proofs.Numerals
import Verif.Proofs.Postings
import Verif.Proofs.Rounding
import Verif.Proofs.Scan
import Verif.Proofs.Segs
import Verif.Proofs.Strings
import Verif.Proofs.Text
import Verif.Props.Accept
import Verif.Props.Accounts
import Verif.Props.Again
import Verif.Props.Agree
import Verif.Props.Amounts
import Verif.Props.Anywhere
import Verif.Props.BalanceText
import Verif.Props.Beside
import Verif.Props.Blank
import Verif.Props.Blocks
import Verif.Props.Books
import Verif.Props.BooksApart
import Verif.Props.CarryForward
import Verif.Props.CloseTo
import Verif.Props.Columns
import Verif.Props.Commands
import Verif.Props.CommentRuns
import Verif.Props.Comments
import Verif.Props.Conserve
import Verif.Props.Cycles
import Verif.Props.DateFormat
import Verif.Props.DateImport
import Verif.Props.DayAfterDay
import Verif.Props.Days
import Verif.Props.DaysDoubles
import Verif.Props.Declare
import Verif.Props.Directives
import Verif.Props.Due
import Verif.Props.EndToEnd
import Verif.Props.Entries
import Verif.Props.EnvelopeAgree
import Verif.Props.EnvelopeBalance
import Verif.Props.EnvelopeCent
import Verif.Props.EnvelopeRegister
import Verif.Props.EnvelopeSums
import Verif.Props.EnvelopeText
import Verif.Props.Envelopes
import Verif.Props.Exact
import Verif.Props.Files
import Verif.Props.FillBalance
import Verif.Props.FillCent
import Verif.Props.FillDays
import Verif.Props.FillDoubles
import Verif.Props.FillOrder
import Verif.Props.FillSays
import Verif.Props.FillShown
import Verif.Props.FillText
import Verif.Props.FilledUp
import Verif.Props.Filling
import Verif.Props.FillsFirst
import Verif.Props.FirstMistake
import Verif.Props.FloatFills
import Verif.Props.FloatSums
import Verif.Props.Floats
import Verif.Props.HelpText
import Verif.Props.Import
import Verif.Props.ImportAgain
import Verif.Props.ImportRuns
import Verif.Props.Imported
import Verif.Props.Include
import Verif.Props.Inject
import Verif.Props.Ledger
import Verif.Props.LineEnds
import Verif.Props.Messages
import Verif.Props.NearTo
import Verif.Props.NewEnvelope
import Verif.Props.Notation
import Verif.Props.NowAndNext
import Verif.Props.Order
import Verif.Props.Ordering
import Verif.Props.OwnEntries
import Verif.Props.Pool
import Verif.Props.Postings
import Verif.Props.Priced
import Verif.Props.PricedDoubles
import Verif.Props.Priority
import Verif.Props.PutBack
import Verif.Props.Quotes
import Verif.Props.Rearrange
import Verif.Props.Records
import Verif.Props.Refuse
import Verif.Props.Register
import Verif.Props.RegisterExact
import Verif.Props.RegisterPriced
import Verif.Props.Reload
import Verif.Props.Renaming
import Verif.Props.Reports
import Verif.Props.RowData
import Verif.Props.Rules
import Verif.Props.Semantics
import Verif.Props.Sessions
import Verif.Props.SetAside
import Verif.Props.SeveralFiles
import Verif.Props.Shortest
import Verif.Props.Shuffle
import Verif.Props.Small
import Verif.Props.Spending
import Verif.Props.Splitting
import Verif.Props.Statement
import Verif.Props.StatementEnvelopes
import Verif.Props.StatementRegister
import Verif.Props.Table
import Verif.Props.ToTheCent
import Verif.Props.Undo
import Verif.Props.Written
