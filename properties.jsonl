{"id": "C01", "title": "A pool reports, per currency, the running sum of exactly that currency's amounts", "statement": "After any sequence of additions and subtractions of amounts, the amount a pool reports for a currency is the left-to-right sum of the amounts of that currency that were added (negated when subtracted), starting from the first; amounts of other currencies have no effect. In exact arithmetic that is the net sum, whatever the order of the operations.", "quantifier": "every finite sequence of += / -= on an initially empty pool, every currency symbol (or none), every magnitude", "why_tests_cant": "The number and interleaving of operations and currencies is unbounded.", "anchors": ["src/amount.rs: AmountPool, AddAssign<&Amount>, SubAssign<&Amount>, only"]}
{"id": "C02", "title": "A pool holds at most one line per currency", "statement": "However a pool is built up, it never holds two lines for the same currency, a currency has a line if and only if some amount of it was added or subtracted, and lines stay in first-seen order.", "quantifier": "every finite sequence of pool operations, including adding a whole pool to another", "why_tests_cant": "It is an invariant of every history, not of one.", "anchors": ["src/amount.rs: AmountPool::add_assign, sub_assign, add, sub, iter, len"]}
{"id": "C03", "title": "A pool is zero exactly when every currency in it is zero", "statement": "is_zero answers true if and only if the pool has no line whose magnitude differs from zero; an empty pool is zero.", "quantifier": "every pool", "why_tests_cant": "All pools of all lengths.", "anchors": ["src/amount.rs: AmountPool::is_zero"]}
{"id": "C04", "title": "Arithmetic across currencies is never performed silently", "statement": "Adding, subtracting or comparing two amounts of different currencies aborts; it never returns a number. With equal currencies it never aborts and keeps the currency.", "quantifier": "every pair of amounts", "why_tests_cant": "All pairs of symbols, including no symbol.", "anchors": ["src/amount.rs: Add, Sub, AddAssign, SubAssign, Ord for Amount"]}
{"id": "C05", "title": "Where the currency symbol stands in an amount does not matter", "statement": "For a number and a symbol made only of letters or signs, the four spellings symbol+number, number+symbol, `symbol number`, `number symbol` parse to the same amount: that number, that symbol.", "quantifier": "every numeral the parser accepts and every symbol without whitespace, digits, dash, dot or comma", "why_tests_cant": "Unbounded strings.", "anchors": ["src/amount.rs: Amount::parse, is_symbol_char, is_mag_char"]}
{"id": "C06", "title": "Which texts are amounts", "statement": "A text is accepted as an amount exactly when, after deleting every `--`, it consists of one or two whitespace-separated words and the digits, decimal symbols and dashes in it, read in order, spell a decimal numeral; any other text is rejected with a parse error and parsing never aborts the program.", "quantifier": "every text and every decimal symbol", "why_tests_cant": "Unbounded strings.", "anchors": ["src/amount.rs: Amount::parse"]}
{"id": "C07", "title": "Digit-group separators are ignored", "statement": "Inserting commas anywhere in an amount written with a decimal dot, or dots in one written with another decimal symbol, does not change the amount read.", "quantifier": "every amount text, every place", "why_tests_cant": "Unbounded strings and positions.", "anchors": ["src/amount.rs: Amount::parse, is_symbol_char"]}
{"id": "C08", "title": "A printed amount reads back as the same amount rounded to 8 decimals", "statement": "Printing an amount and parsing the text yields the same currency and the magnitude rounded to 8 decimal places, for every currency symbol that contains no whitespace, digit, dash, dot or comma. (Not so for symbols with an inner space.)", "quantifier": "every finite amount and every such symbol", "why_tests_cant": "All floating-point magnitudes and all symbols.", "anchors": ["src/amount.rs: Display for Amount, rounded_mag, parse"]}
{"id": "C09", "title": "Clauses of a posting may be written in any order", "statement": "Swapping the balance assertion clause (`! x`) with the price (`@ x`) or total cost (`= x`) clause of a posting line does not change the posting read.", "quantifier": "every account, amount, and pair of clauses", "why_tests_cant": "Unbounded token lists.", "anchors": ["src/posting.rs: ClassicPosting::parse, extract_amount"]}
{"id": "C10", "title": "Postings to undeclared accounts are rejected", "statement": "A journal entry that posts an amount to an account that is not declared earlier is rejected. (Code: true of ordinary postings, not of envelope postings.)", "quantifier": "every entry text and every set of declared accounts", "why_tests_cant": "All account sets and lines.", "anchors": ["src/posting.rs: ClassicPosting::validate, EnvelopePosting::parse"]}
{"id": "C11", "title": "A posting written by silverfox reads back as the same posting", "statement": "The text produced for a posting, parsed with the same declared accounts, gives the same account, envelope, amount, cost and balance assertion, magnitudes rounded to 8 decimals.", "quantifier": "every posting whose names and symbols are single tokens free of comment marks and clause operators", "why_tests_cant": "Doc comment on as_parsable promises it for all postings.", "anchors": ["src/posting.rs: as_parsable, Display, parse"]}
{"id": "C12", "title": "The native value of a posting", "statement": "A posting without a currency is worth its own magnitude; one with a currency is worth quantity times unit price, or its total cost, when that price is in the native currency; otherwise its value is unknown. Writing the price per unit or the equivalent total gives the same value. (Code: the sign of the quantity is lost with a total cost.)", "quantifier": "every posting", "why_tests_cant": "All magnitudes and clause combinations.", "anchors": ["src/posting.rs: get_original_native_value"]}
{"id": "C13", "title": "A blank posting makes a single-currency entry balance", "statement": "In an entry whose ordinary postings are all in one currency and one of which is blank, the inferred amount makes the postings sum to exactly zero (exact arithmetic). (Code: only if the entry has no envelope postings.)", "quantifier": "every entry of any number of postings", "why_tests_cant": "Unbounded posting lists.", "anchors": ["src/entry.rs: get_blank_amount"]}
{"id": "C14", "title": "A blank posting makes a mixed-currency entry balance in native value", "statement": "When the other postings are in several currencies, the inferred amount is native and makes the native values sum to zero; if one posting's native value is unknown the entry is refused.", "quantifier": "every entry", "why_tests_cant": "Unbounded posting lists.", "anchors": ["src/entry.rs: get_blank_amount, posting.rs: get_original_native_value"]}
{"id": "C15", "title": "An accepted entry has at most one blank posting", "statement": "Entry parsing rejects every entry with two or more blank postings, and every entry with a blank posting and two different currency symbols; nothing else is rejected by validation.", "quantifier": "every entry text", "why_tests_cant": "Unbounded.", "anchors": ["src/entry.rs: validate"]}
{"id": "C16", "title": "Every accepted entry balances", "statement": "An entry accepted by silverfox has postings that sum to zero. (Code: the documented balance check is missing.)", "quantifier": "every accepted entry", "why_tests_cant": "All entries.", "anchors": ["src/entry.rs: validate (doc comment lines 275-281)"]}
{"id": "C17", "title": "Inferring a blank amount never crashes", "statement": "For every accepted entry the blank amount is computed or reported as an error; the program does not abort. (Code: an entry whose only posting is blank aborts.)", "quantifier": "every accepted entry", "why_tests_cant": "All posting lists.", "anchors": ["src/entry.rs: get_blank_amount, validate"]}
{"id": "C18", "title": "The entry header is read field by field", "statement": "A header `date status description [payee]` is read into exactly these fields, and a header without a valid status is refused. (Code: a header that is only a date, or has ] before [, aborts.)", "quantifier": "every header line", "why_tests_cant": "Unbounded strings.", "anchors": ["src/entry.rs: parse_header"]}
{"id": "C19", "title": "An entry written by silverfox reads back as the same entry", "statement": "Parsing the text written for an entry gives the same date, status, description, payee and postings (magnitudes rounded to 8 decimals); the comment is dropped.", "quantifier": "every entry with single-line, comment-free, bracket-free texts", "why_tests_cant": "Unbounded.", "anchors": ["src/entry.rs: as_parsable, parse"]}
{"id": "C20", "title": "Statuses", "statement": "Exactly `?`, `~`, `*` are statuses; printing and parsing them are inverse.", "quantifier": "every status and every text", "why_tests_cant": "All strings.", "anchors": ["src/entry.rs: EntryStatus"]}
{"id": "C21", "title": "Comments are stripped to the first marker", "statement": "Stripping comments returns the longest prefix of the line before the first `;` or `//`; it is idempotent, and text after the marker never matters.", "quantifier": "every line", "why_tests_cant": "Unbounded strings.", "anchors": ["src/utils.rs: remove_comments"]}
{"id": "C22", "title": "Weekly due dates", "statement": "The next due date of a weekly envelope is the first date after today that falls on the chosen weekday, and the last due date is seven days earlier, on or before today.", "quantifier": "every date and weekday", "why_tests_cant": "All dates.", "anchors": ["src/envelope.rs: Frequency::get_next_due_date, get_last_due_date"]}
{"id": "C23", "title": "Monthly due dates", "statement": "The next due date of a monthly envelope is the first date after today that is the chosen day of its month, or the last day of a month that lacks that day.", "quantifier": "every date and day number", "why_tests_cant": "All dates, month lengths and leap years.", "anchors": ["src/envelope.rs: next_date_by_day_of_month, get_last_date_of_month"]}
{"id": "C24", "title": "Every-other-week due dates", "statement": "The next due date of a biweekly envelope is the first date after today that lies a whole number of fortnights after its starting date and not before it. (Code: false in the two weeks before the starting date.)", "quantifier": "every today and starting date", "why_tests_cant": "All dates.", "anchors": ["src/envelope.rs: get_next_due_date Biweekly, Envelope::get_next_due_date"]}
{"id": "C25", "title": "Every-other-month due dates", "statement": "The next due date of a bimonthly envelope lies an even number of months after the starting date, on the starting day of month (or the last day of a shorter month), and is the first such date after today. (Code: it may be today itself.)", "quantifier": "every today and starting date", "why_tests_cant": "All dates.", "anchors": ["src/envelope.rs: get_next_due_date Bimonthly"]}
{"id": "C26", "title": "Annual due dates", "statement": "The next due date of an annual envelope is after today. (Code: false once more than a year has passed since the starting date.)", "quantifier": "every today and starting date", "why_tests_cant": "All dates.", "anchors": ["src/envelope.rs: get_next_due_date Annually"]}
{"id": "C27", "title": "One-off due dates", "statement": "A one-off envelope is due on its date until that date arrives, and has no next due date from then on; an envelope without date never has one. (Code: false with a `starting` clause.)", "quantifier": "every date", "why_tests_cant": "All dates.", "anchors": ["src/envelope.rs: get_next_due_date Once/Never, Envelope::get_next_due_date"]}
{"id": "C28", "title": "Computing due dates never crashes", "statement": "For every schedule that the journal parser accepts and every day, the next and last due dates are computed without aborting. (Code: false for days 29-31 and for 29 February.)", "quantifier": "every schedule and date", "why_tests_cant": "All dates.", "anchors": ["src/envelope.rs: subtract_months, get_last_due_date"]}
{"id": "C29", "title": "The last due date brackets today", "statement": "For a recurring schedule last due date <= today < next due date, exactly one period apart.", "quantifier": "every recurring schedule and date", "why_tests_cant": "All dates.", "anchors": ["src/envelope.rs: get_last_due_date"]}
{"id": "C30", "title": "`every other 15th` means the 15th", "statement": "An `every other <weekday>` or `every other <day>` schedule is due on that weekday or day of month. (Code: the named day is parsed and then ignored; the starting date decides.)", "quantifier": "every schedule text", "why_tests_cant": "All texts.", "anchors": ["src/envelope.rs: Frequency::parse"]}
{"id": "C31", "title": "An envelope posting changes only the envelope it names", "statement": "Processing an entry that contains envelope postings changes an envelope exactly by the postings that name its account and its name; every other envelope is left untouched, and no automatic movement happens for that entry.", "quantifier": "every entry and every set of envelopes", "why_tests_cant": "Unbounded.", "anchors": ["src/envelope.rs: process_entry, process_manual_postings"]}
{"id": "C32", "title": "No money appears or vanishes in an envelope", "statement": "After any history of entries, the sum of what an envelope has ready now and has saved for next equals the sum of the movements applied to it.", "quantifier": "every sequence of entries, every day", "why_tests_cant": "Unbounded histories.", "anchors": ["src/envelope.rs: apply_amount"]}
{"id": "C33", "title": "Which pocket a movement goes to", "statement": "Withdrawals always come from the amount ready now; deposits dated before the last due date go to now, all others to next.", "quantifier": "every amount, date and schedule", "why_tests_cant": "All dates and amounts.", "anchors": ["src/envelope.rs: apply_amount"]}
{"id": "C34", "title": "When money moves automatically", "statement": "An entry without envelope postings moves money in an envelope only if it posts both to the envelope's account and to one of its `for` accounts.", "quantifier": "every entry and envelope", "why_tests_cant": "Unbounded.", "anchors": ["src/envelope.rs: infer"]}
{"id": "C35", "title": "How much money moves automatically", "statement": "The automatic movement is the smaller of what the account and the `for` accounts moved, with the sign of the account's change: spending takes from the envelope, a refund gives back. (Code: a refund takes from the envelope.)", "quantifier": "every entry", "why_tests_cant": "All postings lists.", "anchors": ["src/envelope.rs: infer lines 721-743"]}
{"id": "C36", "title": "An entry in another currency never crashes an envelope", "statement": "Processing an accepted entry either updates the envelopes or reports an error. (Code: a foreign-currency envelope posting, or a priced posting in the envelope's account, aborts.)", "quantifier": "every entry and envelope", "why_tests_cant": "All currency combinations.", "anchors": ["src/envelope.rs: infer, apply_amount; src/amount.rs: AddAssign"]}
{"id": "C37", "title": "Automatic filling never takes money out and skips what it must skip", "statement": "The fill amount of an envelope is never negative (nor NaN); it is zero for manual envelopes, envelopes with no due date, and envelopes already touched today.", "quantifier": "every envelope, available amount and day, all floating-point values", "why_tests_cant": "All states and floats.", "anchors": ["src/envelope.rs: get_filling_amount"]}
{"id": "C38", "title": "Filling never overfills an envelope", "statement": "A fill never brings the amount saved for next above the envelope's target. (Code: only if the envelope is not overdrawn.)", "quantifier": "every envelope and available amount", "why_tests_cant": "All states.", "anchors": ["src/envelope.rs: get_filling_amount"]}
{"id": "C39", "title": "Filling never spends more than the account has available", "statement": "The fills of an account's envelopes together never exceed the available amount of their currency, and never make it negative. (Code: false when an envelope is overdrawn.)", "quantifier": "every account with any number of envelopes", "why_tests_cant": "Unbounded envelopes.", "anchors": ["src/account.rs: get_filling_postings", "src/envelope.rs: get_filling_amount"]}
{"id": "C40", "title": "Conservative saving finishes just in time", "statement": "If an envelope with conservative funding is filled every day and the money is available, it holds exactly its target by the due date, not earlier, in equal instalments (exact arithmetic).", "quantifier": "every target, starting balance and number of days", "why_tests_cant": "Unbounded number of days.", "anchors": ["src/envelope.rs: get_filling_amount Conservative"]}
{"id": "C41", "title": "Aggressive saving saves all it can at once", "statement": "An aggressive fill is the largest amount allowed by the target and by the available money.", "quantifier": "every envelope and available amount", "why_tests_cant": "All states.", "anchors": ["src/envelope.rs: get_filling_amount Aggressive"]}
{"id": "C42", "title": "Filling twice a day is the same as filling once", "statement": "After the fill entry of a day has been processed, filling again on that day moves nothing. (Exact arithmetic; in floating point the second fill can move a rounding error.)", "quantifier": "every account with any envelopes", "why_tests_cant": "Unbounded.", "anchors": ["src/account.rs: get_filling_postings", "src/envelope.rs: get_filling_amount, last_transaction_date"]}
{"id": "C43", "title": "Filling never crashes", "statement": "Computing the fill postings of an account never aborts, as all amounts of an envelope share its currency and the available pool has a line for it.", "quantifier": "every account reachable by parsing and processing", "why_tests_cant": "All histories.", "anchors": ["src/account.rs: get_available_value", "src/envelope.rs: get_filling_amount assert_eq"]}
{"id": "C44", "title": "Available money is real money minus what envelopes hold", "statement": "For each currency, an account's available value is its real value minus the sum of now and next of all its envelopes in that currency.", "quantifier": "every account", "why_tests_cant": "Unbounded envelopes.", "anchors": ["src/account.rs: get_available_value"]}
{"id": "C45", "title": "Envelope movements never change real money", "statement": "An account's real value after any history is the sum of its ordinary postings, blank ones at their inferred amount; envelope postings have no effect on it.", "quantifier": "every history of entries", "why_tests_cant": "Unbounded.", "anchors": ["src/account.rs: process_entry"]}
{"id": "C46", "title": "Envelope names are unique in an account", "statement": "Declaring two envelopes of one name in an account is refused, so an envelope posting names one envelope. (Code: an expense and a goal may share a name, and each posting then counts twice.)", "quantifier": "every account declaration", "why_tests_cant": "All declarations.", "anchors": ["src/account.rs: add_envelope"]}
{"id": "C47", "title": "Entries are kept in date order", "statement": "After any sequence of insertions the entries are sorted by date, entries of one date in insertion order, and none is lost or duplicated.", "quantifier": "every sequence of entries", "why_tests_cant": "Unbounded.", "anchors": ["src/ledger/mod.rs: add_entry"]}
{"id": "C48", "title": "Blank lines and full-line comments between items do not matter", "statement": "Removing or adding blank lines and unindented comment lines anywhere in a journal does not change what is loaded.", "quantifier": "every journal text", "why_tests_cant": "Unbounded.", "anchors": ["src/ledger/mod.rs: add_from_str"]}
{"id": "C49", "title": "A trailing comment never changes the meaning of a line", "statement": "Appending a comment to a line of a journal does not change what is loaded. (Code: false for envelope headers ending in a date, weekday or `year`.)", "quantifier": "every journal line", "why_tests_cant": "Unbounded.", "anchors": ["src/ledger/mod.rs: add_from_str", "src/envelope.rs: extract_starting, Frequency::parse"]}
{"id": "C50", "title": "A comment line inside an envelope is ignored", "statement": "An indented comment line between the properties of an envelope is ignored. (Code: it aborts the program.)", "quantifier": "every envelope declaration", "why_tests_cant": "All declarations.", "anchors": ["src/envelope.rs: add_body line 455"]}
{"id": "C51", "title": "The balance report shows, per account, the sum of its postings", "statement": "For each account, the balance report shows the sum of all its ordinary postings, blank ones at their inferred amount. (Code: false: envelope postings are counted, and a blank posting that is the account's first counts as zero.)", "quantifier": "every list of entries", "why_tests_cant": "Unbounded.", "anchors": ["src/ledger/mod.rs: get_totals"]}
{"id": "C52", "title": "The balance report agrees with the account's real value", "statement": "For each declared account the reported balance equals the real value from which envelopes are funded.", "quantifier": "every history", "why_tests_cant": "Unbounded.", "anchors": ["src/ledger/mod.rs: get_totals", "src/account.rs: real_value"]}
{"id": "C53", "title": "Reports do not depend on hash-map iteration order", "statement": "What is loaded from a journal, and the balances, do not depend on the (random) iteration order of the account map.", "quantifier": "every journal and every iteration order", "why_tests_cant": "Random seeds cannot be enumerated.", "anchors": ["src/ledger/mod.rs: add_entry, fill_envelopes, get_totals"]}
{"id": "C54", "title": "Including a file is the same as pasting it", "statement": "An `include f` line loads exactly what pasting the contents of f in its place would load. (Code: relative paths are resolved against the last included file's directory.)", "quantifier": "every journal split", "why_tests_cant": "Unbounded.", "anchors": ["src/ledger/mod.rs: include, add_from_file"]}
{"id": "C55", "title": "Declaring an account again does not lose its history", "statement": "A repeated `account` line leaves the balances of the account intact. (Code: it resets real value and envelopes.)", "quantifier": "every journal", "why_tests_cant": "Unbounded.", "anchors": ["src/ledger/mod.rs: parse_account"]}
{"id": "C56", "title": "Directives act from their line on", "statement": "`date_format` affects the items after it only, and the last one wins; `currency` makes blank symbols mean that currency. (Code: `currency` has no effect at all.)", "quantifier": "every journal", "why_tests_cant": "Unbounded.", "anchors": ["src/ledger/mod.rs: set_date_format, set_currency"]}
{"id": "C57", "title": "Balance assertions are enforced", "statement": "A journal whose balance assertion fails is refused. (Code: assertions are parsed and never checked.)", "quantifier": "every journal", "why_tests_cant": "All journals.", "anchors": ["src/posting.rs: balance_assertion"]}
{"id": "C58", "title": "silverfox only ever appends to the journal", "statement": "Whatever the command, the old contents of the journal remain a prefix of the new contents and no other file changes; with --no-move, reporting commands change nothing.", "quantifier": "every command line, journal and day", "why_tests_cant": "All inputs.", "anchors": ["src/flags.rs: execute", "src/ledger/mod.rs: append_entry, fill_envelopes"]}
{"id": "C59", "title": "Loading errors leave the journal untouched", "statement": "If the journal cannot be loaded, nothing is written.", "quantifier": "every journal and command", "why_tests_cant": "All inputs.", "anchors": ["src/flags.rs: execute"]}
{"id": "C60", "title": "The file that was loaded is the file that is extended", "statement": "An automatic or imported entry is appended to the journal file that was loaded. (Code: false for a relative path with a directory, as the working directory has changed.)", "quantifier": "every path", "why_tests_cant": "All paths.", "anchors": ["src/ledger/mod.rs: add_from_file, append_entry"]}
{"id": "C61", "title": "A fill entry reloads to what was in memory", "statement": "After automatic filling, loading the extended journal again gives the same envelopes, real values and entries as held in memory, if the fill amounts have at most 8 decimals.", "quantifier": "every journal", "why_tests_cant": "Unbounded.", "anchors": ["src/ledger/mod.rs: fill_envelopes, append_entry", "src/entry.rs: as_parsable"]}
{"id": "C62", "title": "A fill entry holds no zero movement", "statement": "The generated entry is dated today, cleared, has only non-zero envelope postings and is omitted altogether if there is none. (Amounts are those in memory; as written, with 8 decimals, a tiny movement is a movement of 0.)", "quantifier": "every ledger", "why_tests_cant": "Unbounded.", "anchors": ["src/ledger/mod.rs: fill_envelopes"]}
{"id": "C63", "title": "The first matching rule block decides", "statement": "A CSV record is converted with the first `if` block one of whose patterns occurs in it (ignoring case), otherwise with the root rules.", "quantifier": "every rule file and record", "why_tests_cant": "Unbounded nesting of cloned rules.", "anchors": ["src/importer.rs: get_entry_from_record, applies_to"]}
{"id": "C64", "title": "A pattern matches within a field", "statement": "An `if` block applies to a record exactly when one of its fields contains a pattern. (Code: patterns also match across field borders.)", "quantifier": "every record and pattern", "why_tests_cant": "All strings.", "anchors": ["src/importer.rs: applies_to"]}
{"id": "C65", "title": "A later rule overrides an earlier one and `-` restores the default", "statement": "Of several values set for a rule the last counts, and `-` restores the default.", "quantifier": "every rule file", "why_tests_cant": "Unbounded.", "anchors": ["src/importer.rs: add_from_line"]}
{"id": "C66", "title": "An `if` block inherits the rules above it only", "statement": "Rules after an `if` block do not affect the block, rules above it do unless it overrides them, and the block does not affect the root rules.", "quantifier": "every rule file", "why_tests_cant": "Unbounded.", "anchors": ["src/importer.rs: add_from_str, Subrules::from"]}
{"id": "C67", "title": "Variables are replaced by the record's values", "statement": "Every %name% becomes the value of that column and %% a percent sign, whatever the iteration order of the variables. (Code: order matters if a value itself contains a %.)", "quantifier": "every template and record", "why_tests_cant": "All strings and orders.", "anchors": ["src/importer.rs: inject_variables"]}
{"id": "C68", "title": "The postings of an imported entry do not depend on hash order", "statement": "The set of postings made from a record, with their amounts, is the same for every hash-map iteration order. (Code: their order in the entry is not.)", "quantifier": "every rule file, record and order", "why_tests_cant": "Random seeds.", "anchors": ["src/importer.rs: get_entry_from_record"]}
{"id": "C69", "title": "A one-legged import is completed", "statement": "If the rules yield one posting, a blank one is added to expenses:unknown, income:unknown or unknown by the sign of the amount, so that the entry balances.", "quantifier": "every record", "why_tests_cant": "All amounts.", "anchors": ["src/importer.rs: get_entry_from_record lines 454-471"]}
{"id": "C70", "title": "A journal still loads after a successful import", "statement": "After a successful import the extended journal loads. (Code: false if expenses:unknown etc. are undeclared.)", "quantifier": "every journal and CSV file", "why_tests_cant": "All inputs.", "anchors": ["src/importer.rs: get_entry_from_record", "src/ledger/mod.rs: import_csv"]}
{"id": "C71", "title": "Import is all or nothing", "statement": "If one record of a CSV file cannot be imported, no entry is written. (Code: entries before the bad record stay.)", "quantifier": "every CSV file", "why_tests_cant": "All inputs.", "anchors": ["src/ledger/mod.rs: import_csv"]}
{"id": "C72", "title": "Imported entries are appended in record order, skipping the header rows", "statement": "Exactly the records after the first `skip` ones are imported, one entry each, in order.", "quantifier": "every CSV file", "why_tests_cant": "Unbounded.", "anchors": ["src/importer.rs: from_strs, next", "src/ledger/mod.rs: import_csv"]}
{"id": "C73", "title": "The register shows exactly the entries in range", "statement": "The register lists, in date order, the entries between the begin and end dates, both inclusive, that change a focused account by a non-zero amount.", "quantifier": "every ledger and range", "why_tests_cant": "Unbounded.", "anchors": ["src/ledger/register.rs: display", "src/entry.rs: as_register_data"]}
{"id": "C74", "title": "The running total is the sum of the lines so far", "statement": "In each register line, the running total of a currency is the sum of the amounts of that currency in the lines up to it.", "quantifier": "every register", "why_tests_cant": "Unbounded.", "anchors": ["src/ledger/register.rs: print_lines"]}
{"id": "C75", "title": "Command-line flags", "statement": "The first argument's first letter chooses the subcommand; flags may come in any order and the last value of a flag counts; an unknown flag or a missing value is an error and nothing is executed.", "quantifier": "every argument list", "why_tests_cant": "Unbounded.", "anchors": ["src/flags.rs: parse_from_env, try_from"]}
{"id": "C76", "title": "The progress bar always fits", "statement": "An envelope's progress bar is exactly 40 cells wide for all amounts, including infinite and NaN ones.", "quantifier": "every pair of floats", "why_tests_cant": "All floats.", "anchors": ["src/envelope.rs: make_bar"]}
{"id": "C77", "title": "Layout of an entry does not matter", "statement": "Two entry texts with the same lines up to indentation, spaces at line ends, blank lines and the kind of line end (LF or CRLF) are read as the same entry, or refused alike.", "quantifier": "every entry text, date format, decimal symbol and list of declared accounts", "why_tests_cant": "Unbounded texts.", "anchors": ["src/entry.rs: parse"]}
{"id": "C78", "title": "The register names where money comes from and goes to", "statement": "In the line of an entry, the left account is the one whose posting takes money away and the right one the one whose posting brings money; `(none)` if there is no such posting and `(multiple)` if there are several.", "quantifier": "every ledger and range", "why_tests_cant": "Unbounded.", "anchors": ["src/entry.rs: as_register_data", "src/ledger/register.rs: print_lines"]}
{"id": "C79", "title": "A command reports on the journal it was told to use", "statement": "A command works on the file of the last -f/--file, or else $SILVERFOX_FILE, or else $LEDGER_FILE, and does nothing without any of them; it prints the report it is named after, of that journal as loaded and (without --no-move) filled.", "quantifier": "every command line, environment and file system", "why_tests_cant": "Unbounded.", "anchors": ["src/flags.rs: execute, get_file_from_env"]}
{"id": "C80", "title": "The exit status tells whether the command was carried out", "statement": "The process ends with status zero exactly if the command was carried out. (Code: every reported error ends with status zero.)", "quantifier": "every command line and file system", "why_tests_cant": "All inputs.", "anchors": ["src/main.rs: main"]}
{"id": "C81", "title": "A command that fails leaves the files alone", "statement": "If a command reports an error, no file has changed. (Code: envelopes are filled before the command is looked at.)", "quantifier": "every command line and file system", "why_tests_cant": "All inputs.", "anchors": ["src/flags.rs: execute"]}
{"id": "C82", "title": "Filling does not depend on the order of hash maps", "statement": "Two runs on the same journal fill the same envelopes with the same amounts and leave the same accounts; the entry written has the same lines in some order.", "quantifier": "every journal and every pair of iteration orders", "why_tests_cant": "Quantifies over iteration orders, which a test cannot choose.", "anchors": ["src/ledger/mod.rs: fill_envelopes", "src/account.rs: get_filling_postings"]}
{"id": "C83", "title": "Files that include each other are reported", "statement": "A cycle of includes is an error. (Code: endless recursion; the program aborts.) For other journals the depth of the stack does not change what is loaded.", "quantifier": "every set of files that include each other", "why_tests_cant": "All cycles, all stack sizes.", "anchors": ["src/ledger/mod.rs: include, add_from_file"]}
{"id": "C84", "title": "Filling envelopes only sets money aside", "statement": "Filling envelopes leaves every account's real balance, adds to each envelope exactly its fill, and lowers what is available in each currency by exactly what was filled; with no envelope overdrawn, nothing goes below zero. (Code: false if an expense and a goal of an account have the same name.)", "quantifier": "every loaded journal, date and iteration order", "why_tests_cant": "Unbounded journals and amounts; all iteration orders.", "anchors": ["src/ledger/mod.rs: fill_envelopes", "src/account.rs: get_filling_postings, process_entry", "src/envelope.rs: process_entry"]}
{"id": "C85", "title": "A loaded journal can be reported on", "statement": "Once a journal is loaded (and filled), the balance, the register and the envelope report are all printed: none of them ends in an error or a crash. (Code: the register aborts if the journal's date format is not one that chrono can print.)", "quantifier": "every loaded journal, command line and iteration order", "why_tests_cant": "Unbounded journals, all floating-point values.", "anchors": ["src/flags.rs: execute", "src/ledger/mod.rs: display_flat_balance, display_envelopes", "src/envelope.rs: fmt, make_bar"]}
{"id": "C86", "title": "The envelope report shows every envelope and all its money", "statement": "The envelope report lists the accounts that have envelopes in order of their names; for each it shows what is available in every currency that is not zero, and every expense and then every goal with two amounts, now and next, that add up to what the envelope holds; the first is never negative.", "quantifier": "every loaded journal, date and iteration order", "why_tests_cant": "Unbounded journals and amounts; all iteration orders.", "anchors": ["src/account.rs: display_envelopes", "src/envelope.rs: fmt", "src/ledger/mod.rs: display_envelopes"]}
{"id": "C87", "title": "A journal is loaded or refused, never a crash", "statement": "Whatever stands in the files of a journal, loading it either succeeds or reports an error. (Code: false; it aborts on certain items, and only on those: an envelope with an indented comment line, a header with a date only or with brackets the wrong way round, a single posting without amount, an envelope that meets another currency or has a schedule without last due date; and on cycles of includes.)", "quantifier": "every set of files, date and iteration order", "why_tests_cant": "Unbounded texts and sets of files.", "anchors": ["src/ledger/mod.rs: from_file, add_from_file, parse_chunk", "src/account.rs: parse, process_entry", "src/entry.rs: parse", "src/envelope.rs: process_entry"]}
{"id": "C88", "title": "A journal means its items in order", "statement": "A text divides in exactly one way into items: a line that begins without white space and the lines that continue it. Loading a file gives a ledger exactly if that ledger comes from an empty one by reading all items in order, each once, where an include reads the items of that file in its place, and nothing else is read.", "quantifier": "every set of files", "why_tests_cant": "Unbounded texts and depth of includes; an exact characterisation, both ways.", "anchors": ["src/ledger/mod.rs: from_file, add_from_file, parse_chunk, include"]}
{"id": "C89", "title": "Writing and reading an amount again and again does not change it", "statement": "An amount typed with at most eight decimals and below 22 million is the same double after it was written and read. Any amount up to 22 million changes by at most 0.51e-8 plus 2^-51 of itself when it is first written, and not at all after that. (False of larger amounts: they may drift at every write.)", "quantifier": "every finite double of that size and every valid currency symbol", "why_tests_cant": "All doubles; the rounding of a product and a quotient cannot be enumerated.", "anchors": ["src/amount.rs: rounded_mag, fmt, parse"]}
{"id": "C90", "title": "Balances added up in doubles are near the exact sums", "statement": "Whatever is added to a pool and taken out of it, the balance reported differs from the exact sum by at most the number of amounts times 2^-52 times the sum of their absolute values; whole numbers of at most 2^53 in all are added exactly; amounts typed with at most eight decimals are shown with the exact sum to the last digit as long as the number of amounts plus three times their absolute sum is at most 2^51 hundred-millionths. The same holds of the balances the report shows. (A sum of zero need not be zero, and may be shown as -0.)", "quantifier": "every sequence of operations on a pool and every journal", "why_tests_cant": "Any number of additions of any doubles; error accumulates with each.", "anchors": ["src/amount.rs: AddAssign, SubAssign, only, fmt", "src/ledger/mod.rs: get_totals"]}
{"id": "C91", "title": "An account declaration means what it says", "statement": "An account declaration consists of a line with the name and, for each envelope, a header (kind, name, a due clause that is `no date`, `due <schedule>` or `by <schedule>`, perhaps `starting <date>`) and lines `amount`, `for` and `funding`. Reading it gives an account of that name with exactly the envelopes written, expenses and goals each in the order of the declaration: same name and kind; the schedule that the words describe (a day of the week by its short or long name in any case, a numeral with a suffix, every other one of these, a year, a date); the starting date; the last amount and funding method written, or none and manual; the accounts of the `for` lines; no money yet, in the currency of the amount. The indentation and the space after a key do not matter. (Code: false for names `starting` and `by`.)", "quantifier": "all declarations with any number of envelopes and properties, all names that are words (other than `starting` and `by`), all dates the date format reads, any indentation", "why_tests_cant": "The parser looks for words like ` by ` or `no date` anywhere in a line; whether a name or a date can be taken for one of them needs an argument over all names.", "anchors": ["src/account.rs: parse, parse_header, add_envelope", "src/envelope.rs: Frequency::parse, Envelope::parse, from_header, extract_frequency, extract_starting, add_body"]}
{"id": "C92", "title": "The register is a table", "statement": "In the block of every entry of the register each text (date, status, description, source, destination, amounts, totals) stands whole in its column, on its side of it, and the columns are the same for all entries: first lines are equally long, and so are the lines for further currencies. (Code: a line for a further currency is shifted to the right by the number of bytes by which descriptions and names exceed their characters.)", "quantifier": "for all entries, intervals, account filters, date formats and texts", "why_tests_cant": "alignment relates the widest of all entries to every single one; tests show a few registers of ASCII texts", "anchors": ["src/ledger/register.rs: display, get_maximum_lengths, print_lines"]}
{"id": "C93", "title": "A journal means the same on every day", "statement": "A journal that loads on one day loads on every other day, with the same entries, the same accounts with the same real values, and the same envelopes; each envelope holds the same money in all and each account has the same money available. Only how the money of an envelope is split into what is ready and what is saved for next depends on the day. (Code: with a bill on the 29th to 31st, every two months on such a day, or on 29 February, the journal may abort on some days.)", "quantifier": "every set of files, every two days", "why_tests_cant": "All journals and all pairs of days; unit tests run on the day they run.", "anchors": ["src/ledger/mod.rs: from_file, add_entry", "src/envelope.rs: process_entry, apply_amount, get_last_due_date"]}
{"id": "C94", "title": "As days pass, money is only released", "statement": "Between a day and a later one the last and the next due date of a schedule never go back, and the money of an envelope only moves from what is saved for next to what is ready, never the other way.", "quantifier": "every schedule, every journal, every two days in order", "why_tests_cant": "Monotone in time over the whole calendar and all journals; tests look at single days.", "anchors": ["src/envelope.rs: get_last_due_date, get_next_due_date, apply_amount"]}
{"id": "C95", "title": "What the entry of an imported record says", "statement": "When the columns of a record have different names and no percent signs occur in names or values, the entry made from the record by the rules has the date, description, state, payee and comment that their rules say once each %name% is replaced by the value in that column and %% by a percent sign (payee and comment left out when their rules are blank), and exactly one posting per account rule with the amount of the amount rule of the same number, read with the decimal sign of the rules; a single posting is completed with its other half. Rules that name a column twice make no entry of a record that reaches the second one.", "quantifier": "for all rules, records, known accounts and orders in which the tables may be visited", "why_tests_cant": "The rules, the names and values of columns and the orders of the hash tables are unbounded; tests try a few records in one order.", "anchors": ["src/importer.rs: get_entry_from_record, inject_variables"]}
{"id": "C96", "title": "A journal goes on loading, whatever is reported on whatever days", "statement": "A journal that loads goes on loading after any sequence of report commands, each on its own day, from its own directory and with its own order of hash tables: on every day it then loads with the entries it had plus entries that only move money to envelopes, dated on the days of the commands, and with the same accounts, real values and envelopes but for the money in them. (Code: with an expense and a goal of one name in different currencies, a balance report appends an entry with which the journal no longer loads.)", "quantifier": "for all journals, sequences of commands, days, directories and hash orders", "why_tests_cant": "It is an invariant of an unbounded sequence of program runs on changing days, each of which rewrites the input of the next.", "anchors": ["src/flags.rs: execute", "src/ledger/mod.rs: fill_envelopes, append_entry, from_file"]}
{"id": "C97", "title": "The balances of all accounts add up to zero", "statement": "In a journal in which every entry balances in a currency, the balances that the report shows for all accounts sum to zero in that currency; an entry in one currency with one blank posting always balances. (Code: the blank posting with which an account begins is left out, so the report does not add up; otherwise the sum is exactly what all postings move.)", "quantifier": "for all journals, sets of accounts and currencies", "why_tests_cant": "It relates all entries to all accounts of an unbounded journal; tests look at the balances of a few journals.", "anchors": ["src/ledger/mod.rs: get_totals, display_flat_balance", "src/entry.rs: get_blank_amount"]}
{"id": "C98", "title": "The register ends with the balance of the balance report", "statement": "The register of all days for some accounts ends, in each currency, with the sum of the balances that the balance report shows for these accounts. (Code: they differ by the blank postings with which an account begins.)", "quantifier": "for all journals, account filters and currencies", "why_tests_cant": "Two reports computed by different code from an unbounded list of entries; tests check each of them on its own.", "anchors": ["src/ledger/register.rs: display, print_lines", "src/ledger/mod.rs: get_totals", "src/entry.rs: as_register_data"]}
{"id": "C99", "title": "The order of the entries in a journal does not matter", "statement": "When entries that follow one another in a journal are put in another order, the journal loads as before, with the same entries, the same real value of every account in every currency, and the same money in each pocket of every envelope; if no two entries are of one day, the balance report and the register are the same too. (Code: of entries of one day, the first decides whether a blank posting is left out of the balance report; and whether an envelope was touched today, so that it is not filled, is decided by the entry written last.)", "quantifier": "for all journals, permutations of entries, included files, days and hash orders", "why_tests_cant": "There are as many orders as permutations of an unbounded journal; tests load a journal in the order it is written.", "anchors": ["src/ledger/mod.rs: add_from_str, add_entry, get_totals", "src/account.rs: process_entry", "src/envelope.rs: process_entry, apply_amount, get_filling_amount"]}
{"id": "C100", "title": "When money is short, the envelope due soonest is filled first", "statement": "If an account has too little money for all its envelopes, a fill serves the expense that is due soonest first, and goals and later expenses only with what is left. (Code: envelopes are served in the reverse of the order in which they are declared, goals before expenses, whatever their due dates; once one gets less than it wishes, those after it in its currency get nothing unless they are in debt.)", "quantifier": "for all accounts, amounts of money, numbers of envelopes and days", "why_tests_cant": "The number of envelopes and their amounts are unbounded; a test sees the order on one account.", "anchors": ["src/account.rs: parse, get_filling_postings", "src/envelope.rs: cmp, get_filling_amount"]}
{"id": "C101", "title": "More money never fills an envelope less", "statement": "Of two accounts with the same envelopes, the one that has at least as much real money in every currency fills every envelope at least as much, and has at least as much available afterwards (exact arithmetic).", "quantifier": "for all pairs of accounts that differ in their real money only, and all days", "why_tests_cant": "It compares two runs for all amounts of money and all numbers of envelopes competing for it; tests look at one run.", "anchors": ["src/account.rs: get_filling_postings, get_available_value", "src/envelope.rs: get_filling_amount"]}
{"id": "C102", "title": "How the lines of a file end does not matter", "statement": "A journal, the files it includes and the files of import rules may end each line in a line feed or in a carriage return and a line feed, and the last line in nothing: every sequence of reports prints the same, also when envelopes are filled and the journal is extended in between, and an import of the same table has the same rules and records. (Code: a byte order mark at the beginning of a journal is not ignored.)", "quantifier": "for all files, mixtures of line endings, sequences of commands, days and directories", "why_tests_cant": "The mixtures of endings over all lines of all files and the sequences of runs are unbounded; tests use one kind of ending.", "anchors": ["src/ledger/mod.rs: add_from_str, append_entry", "src/importer.rs: add_from_str"]}
{"id": "C103", "title": "A journal goes on loading, whatever is reported and imported", "statement": "A journal that loads still loads after any sequence of runs of the program, reports and imports mixed, on any days and from any directories: it then has the entries it had, moves to envelopes, and entries made of the imported records, and nothing else; its accounts and envelopes are the same but for their money.", "quantifier": "for all journals, all sequences of runs with their days, directories, arguments, tables and rules, and all days on which the journal is loaded afterwards", "why_tests_cant": "Each run appends text that the next run reads; a test follows one session, and the damage of one run shows only in a later one, on another day.", "anchors": ["src/flags.rs", "src/ledger/mod.rs", "src/importer.rs", "src/entry.rs"]}
{"id": "C104", "title": "Each entry is accepted or refused by itself", "statement": "Whether an entry is accepted depends on the declarations of accounts, envelopes and currency and not on the other entries: entries are accepted together just when each is accepted alone, and a journal of declarations and entries loads just when the declarations load and each entry loads alone after them. No entry makes a later one fail, and none makes a bad one pass.", "quantifier": "for all ledgers, all journals of declarations (with included files) and entries, all days and hash orders", "why_tests_cant": "It concerns every subset of an unbounded journal; tests load journals as they are written.", "anchors": ["src/ledger/mod.rs: add_entry, add_from_str", "src/account.rs: process_entry", "src/envelope.rs: process_entry", "src/entry.rs: validate"]}
{"id": "C105", "title": "Importing the same table again", "statement": "Importing a table that has been imported already adds nothing. (Code: it succeeds whenever the first import did, and appends exactly the same text to the journal once more, so that every record is there twice; no other file changes.)", "quantifier": "for all journals, tables, rules, days and hash orders", "why_tests_cant": "It compares two imports of any table into any journal; a test shows one pair.", "anchors": ["src/ledger/mod.rs: import_csv, append_entry", "src/importer.rs"]}
{"id": "C106", "title": "How the table of an import is written does not matter", "statement": "The records of an import are those of the table, however it is written: a value may stand between quotes, with quotes doubled, and may then hold commas, quotes and line ends; lines may end in line feeds or carriage returns, empty lines and a byte order mark are skipped, and the last line need not be ended. (Code: a quote that is not closed is not reported; it swallows the rest of the table, and the entry made of it can make the journal unreadable.)", "quantifier": "for all tables with records of one length, all their writings, all rules", "why_tests_cant": "Values hold any characters and tables any number of records; tests show a few quoted values.", "anchors": ["src/importer.rs: from_strs", "Cargo.toml: csv"]}
{"id": "C107", "title": "The balance report can be read back", "statement": "The text of the balance report, read line by line, names each account to which some posting is made, just once, in ascending order, and no other; for each currency of the account it has one amount, which reads as the total counted for it, rounded to 8 decimals. No amount of one account can be taken for one of another.", "quantifier": "for all journals (with currency symbols that can be written), all numbers of accounts and currencies, hash orders and days", "why_tests_cant": "Names have any length, accounts any number of currencies with amounts on lines of their own; a test compares one text.", "anchors": ["src/ledger/mod.rs: display_flat_balance, get_totals", "src/amount.rs: Display for AmountPool"]}
{"id": "C108", "title": "Filling envelopes leaves the balance report as it was", "statement": "Setting money aside in envelopes moves no money, so the balance report shows the same balances before and after a fill. (Code: envelope postings are counted, so that every balance grows by what is set aside in its account.)", "quantifier": "every journal, account and currency", "why_tests_cant": "All journals, schedules and dates.", "anchors": ["src/ledger/mod.rs: get_totals, fill_envelopes"]}
{"id": "C109", "title": "A journal that is written out is read as what is written", "statement": "A journal made of account declarations with envelopes, currency, date format and include directives, comments, empty lines, and entries in the form silverfox writes, loads without error provided each entry in turn is accepted, and yields exactly the declared accounts and the written entries (amounts to 8 decimals, without comments).", "quantifier": "every such journal, with any number of files", "why_tests_cant": "Unbounded journals; every combination of items and layouts.", "anchors": ["src/ledger/mod.rs: add_from_file, add_from_str, parse_chunk", "src/account.rs: parse", "src/envelope.rs: parse", "src/entry.rs: parse"]}
{"id": "C110", "title": "Asking for a report again on the same day changes nothing", "statement": "After a report has been asked for, asking for the same or another report later on the same day changes no file and prints what it would have printed in place of the first; and however often reports are asked for on one day, no envelope is given money more than once. (Code: amounts are written with 8 decimals while filling uses all digits, so a second run may move what rounding left over to a further envelope, as a movement of 0.)", "quantifier": "every journal, every sequence of report commands of one day, every directory and hash order", "why_tests_cant": "Any number of runs over files that the runs themselves extend; a test runs the program once.", "anchors": ["src/flags.rs: execute", "src/ledger/mod.rs: fill_envelopes, append_entry", "src/envelope.rs: get_filling_amount"]}
{"id": "C111", "title": "A failed command says what is wrong", "statement": "Whenever a command fails with an error, the report printed gives a reason: it is never one of the texts in which information or an explanation is said to be missing, the reason is never empty, a file error names the file, and an error in processing shows the entry. A command that does not fail prints no report.", "quantifier": "for all arguments, settings, files, days and hash orders, and all commands", "why_tests_cant": "Errors arise in some sixty places with an optional context and an optional message; a test sees one of them.", "anchors": ["src/errors.rs", "src/main.rs", "src/ledger/mod.rs", "src/entry.rs", "src/envelope.rs", "src/importer.rs"]}
{"id": "C112", "title": "What an error quotes stands in the journal", "statement": "An error of loading a journal quotes the journal: the file named by a file error is the journal itself or is named in an include; the context of a parse or validation error, or a word it sets in backticks, stands in one of the journal's files; the entry shown by a processing error is one read from them. (Code: up to whitespace and comments; from an amount any double minus is left out; and the quotation may be empty.)", "quantifier": "for all journals of any number of files, days and hash orders", "why_tests_cant": "Contexts are rebuilt from tokens in many places; a test compares one text.", "anchors": ["src/errors.rs", "src/ledger/mod.rs: add_from_str, parse_chunk", "src/entry.rs: parse, validate", "src/posting.rs", "src/amount.rs: parse", "src/account.rs", "src/envelope.rs"]}
{"id": "C113", "title": "An error is about what was added", "statement": "If a journal loads, and does not load any more after something was written at its end, starting on a line of its own that is not indented, then the error is about the added text, or about a file included by it.", "quantifier": "for all journals, all added texts, days and hash orders", "why_tests_cant": "It compares the error of every extension with every journal; tests have fixed journals.", "anchors": ["src/errors.rs", "src/ledger/mod.rs: add_from_str, parse_chunk"]}
{"id": "C114", "title": "The first mistake is the one that is reported", "statement": "If a journal does not load, it still does not load, with the same error in the same words, after any text is added at its end (beginning with an unindented line); the added text does not hide, replace or precede the first mistake.", "quantifier": "every journal, its included files (also files that include the journal), every added text and every command", "why_tests_cant": "Any journal and any text; the files may include each other, so the effect of a change to one file on the loading of all others must be followed.", "anchors": ["src/ledger/mod.rs: from_file, add_from_file, parse", "src/main.rs: main", "src/errors.rs"]}
{"id": "C115", "title": "The postings of an entry may be written in any order", "statement": "Writing the postings of any entries of a journal (and of its included files) in another order changes nothing: the journal loads if and only if it did, the accounts hold the same amounts, the envelopes are the same, the same fills are made, and the register, the envelope report and the balance report show the same.", "quantifier": "every journal with its included files and every rearrangement of the lines after the first in any of its entries; every command", "why_tests_cant": "Any number of files, entries and postings and any permutation of each; the amount left blank, prices, envelopes and several currencies all meet in one entry.", "anchors": ["src/entry.rs: Entry::parse, validate, get_blank_amount, get_register_data", "src/account.rs: process_entry", "src/ledger/mod.rs: add_entry, get_totals, display_register, display_envelopes"]}
{"id": "C116", "title": "The balance report is the sum of what is written", "statement": "For a journal that declares its accounts and then has entries, each line naming an account with an amount (a decimal numeral, with or without a currency symbol on either side) or left blank, `silverfox balance` prints a report that lists in order exactly the accounts that occur. The amount printed for an account and a currency is, to eight digits, the sum of the amounts written for it, a blank line counting for what is missing in its entry; every currency posted is listed once. This holds for an account that, where it is left blank, has occurred on an earlier day (otherwise see C51). No file changes.", "quantifier": "every such text: any number of accounts and entries, in any order of dates, any layout of the white space, any amounts and symbols, every day and hash order, and every way to give the flags", "why_tests_cant": "The claim joins the reading of the command line, the scanner, the parsers of entries and amounts, the blank amounts, sorting, summing and printing over all texts; a test runs one text.", "anchors": ["src/main.rs: main", "src/flags.rs", "src/ledger/mod.rs: from_file, parse, add_entry, display_flat_balance", "src/entry.rs: parse, get_blank_amount", "src/posting.rs: parse", "src/amount.rs: parse, display"]}
{"id": "C117", "title": "What is not posted to an account does not concern it", "statement": "Leave out of a journal, and of the files it includes, any entries that do not name any of some chosen accounts outside their comments. The journal still loads. Each chosen account has the same money, the same envelopes with the same contents, and the same entries in the same order. Filling would move the same amounts into its envelopes. The balance report has the same line for it or none as before, the envelope report has the same lines for it, and a register of the chosen accounts is the same to the last character, running totals and column widths included.", "quantifier": "every journal that loads with any included files, every choice of accounts and of entries left out, every day and hash order, exact or floating-point numbers", "why_tests_cant": "It compares all journals with all their thinned-out versions; a leak from one account to another would need the right pair of entries to show.", "anchors": ["src/ledger/mod.rs: add_entry, display_flat_balance, fill_envelopes", "src/account.rs: process_entry", "src/envelope.rs: process_entry, infer_auto_move", "src/ledger/register.rs: display"]}
{"id": "C118", "title": "The balance report is exact to the last digit although amounts are doubles", "statement": "If the amounts of a journal are written with at most eight decimals, and are not too large or too many (for each account and currency, the number of lines plus three, times the sum of the absolute amounts, a blank line counting as all the amounts of its entry times their number plus two, is at most 22,517,998), then what `silverfox balance` prints for an account and a currency is exactly the sum of what was written: no cent, and no hundred-millionth, is lost or gained by computing in binary floating point. In particular an amount below 22,517,998 with at most eight decimals is printed as what was written.", "quantifier": "for all journals of account declarations and well-written entries, all amounts of at most eight decimals within the bound, all orders of hash maps", "why_tests_cant": "0.1 + 0.2 is 0.30000000000000004 in doubles; whether rounding shows depends on all the amounts and their order. Tests with a few amounts cannot exclude a combination whose rounding errors add up to a visible digit.", "anchors": ["src/amount.rs: parse, display, round", "src/entry.rs: get_blank_amount", "src/ledger/mod.rs: display_flat_balance"]}
{"id": "C119", "title": "Importing a bank statement changes the balances by exactly what the statement says", "statement": "Take a journal of account declarations and entries, a CSV file with a header and rows of a date, a description and an amount, and a rules file that names the columns and the date format and books the amount to one account and the rest to another; the bank may use any decimal symbol that the rules file names, and points or commas between the digits. `silverfox import` succeeds, appends to the journal only, and touches no other file; and `silverfox balance` run afterwards, on any day, prints for every account and currency what the entries before came to, plus the sum of the rows for the first account, minus the sum of the rows for the second: to the last digit, with doubles.", "quantifier": "for all journals, statements and rules of that form, with amounts of at most eight decimals within the bound of C118, all orders of hash maps, both runs independent", "why_tests_cant": "The claim goes through all of the program: flags, journal reader, rules reader, CSV, the templates, printing an entry, reading it again, totals and the printed report. Examples only try a few amounts, and two runs of the program see different orders of the hash maps.", "anchors": ["src/importer.rs: from_file, add_rules, get_entry_from_record", "src/ledger/mod.rs: import_csv, append_entry, display_flat_balance", "src/entry.rs: as_parsable, parse", "src/posting.rs: Display for ClassicPosting", "src/amount.rs: parse, display"]}
{"id": "C120", "title": "The register is exact to the last digit", "statement": "`silverfox register` on a journal of account declarations and entries, written with amounts of at most eight decimals that are small enough together (the number of entries plus three, times the weights of their changes, at most 22.5 million), goes through the entries in the order of their days, those of one day as they stand in the file. For each entry it prints one line for each currency in which a line of the entry posts to an account beginning with 'asset', the first line headed by date, mark and description; the numeral in the amount column is exactly the change, and the numeral in the last column exactly the sum of the changes by all entries so far, to the last digit, although both were added up in doubles and the program leaves out entries in between. It leaves out only entries that change nothing. (It may list an entry that changes nothing, as 0, if its amounts do not cancel out in doubles.)", "quantifier": "all journals of the form described (any number of accounts, entries, lines, blank lines, currencies), all spellings of the command line, all worlds in which the journal is readable, every order of the hash maps, with the arithmetic of doubles", "why_tests_cant": "A unit test shows that one sum of doubles prints as expected; that no accumulation of rounding errors, in the entry or in the running total, in any order, ever reaches the last printed digit, and that skipping entries whose doubles cancel never skips a change, is a statement about all journals.", "anchors": ["src/ledger/register.rs: display, print_lines", "src/entry.rs: as_register_data", "src/amount.rs: fmt, add", "src/ledger/mod.rs: display_register"]}
{"id": "C121", "title": "The envelope report is the sum of what is written", "statement": "`silverfox envelopes --no-move` on a journal that declares accounts with envelopes and has entries lists, in the order of the names, every account with envelopes. Under 'available' it shows, for every currency of which there is something or something is lacking, what the lines bring to the account without what its envelopes hold. For each envelope it shows, against the amount written in its declaration and with a bar in proportion, what there is now (the sum of what was taken out, and of what was put in before the last due date of its schedule) and what is saved for the next due date (the sum of what was put in since); a debt counts against the latter. What is put in or taken out is what the lines that name the envelope say; an entry without such lines, with a line for the account and one for an account the envelope is `for`, moves the smaller of the two changes, the way the account changes. No file changes. Comments, blank lines and blanks at the ends of lines are allowed everywhere (but no comment at the first line of an envelope).", "quantifier": "all journals of that form (any number of accounts, envelopes, entries, lines and currencies, any schedule whose dates exist), all spellings of the command line, all worlds in which the journal is readable, every order of the hash maps; with exact arithmetic", "why_tests_cant": "A test tries a handful of entries and schedules. The claim relates the text of the journal to the text of the report for any number of entries before and after a due date, on any day, with manual and automatic movements mixed.", "anchors": ["src/ledger/mod.rs: display_envelopes, add_entry", "src/account.rs: process_entry, get_available_value, display_envelopes", "src/envelope.rs: apply_amount, process_entry, infer, display_summary, make_bar", "src/entry.rs: parse, get_amounts"]}
{"id": "C122", "title": "What filling the envelopes writes, from the text of the journal", "statement": "`silverfox envelopes` (without `--no-move`) on a journal that declares accounts with envelopes and has entries serves the envelopes of each account one after the other: the goals, last declared first, then the expenses, last declared first. Each gets what it wishes if that much is left of the money of its currency available in the account, otherwise what is left, but at least what it owes; then that much less is left. It wishes what its amount lacks (a fraction of it by the days to the next due date if it is filled conservatively; aggressively, no more than its amount). It gets nothing if it is filled by hand, if it will not be due again, or if the last entry that did something to it is of today. If any envelope gets something, then one entry is added at the end of the journal, of today, with one line for each envelope that gets something, showing the amount to eight digits; no other file changes. If none does, no file changes. What is printed is the report of C121 with that entry counted in. Comments, blank lines and blanks at the ends of lines are allowed everywhere (but no comment at the first line of an envelope).", "quantifier": "for all journals of declared accounts with envelopes and well-written entries, all schedules, ways of filling and currencies, all days but 0000-01-01, all orders of hash maps; exact arithmetic", "why_tests_cant": "It relates the text of any journal to the text that is appended to it and to the text printed; tests can only try journals.", "anchors": ["src/ledger/mod.rs:268-298", "src/account.rs:204-224", "src/envelope.rs:781-848", "src/ledger/mod.rs:186-197", "src/entry.rs:500-532", "src/flags.rs"]}
{"id": "C123", "title": "The envelope report with doubles is exact to the last digit", "statement": "With the doubles of the program: `silverfox envelopes --no-move` on a journal that declares accounts with envelopes and has entries, with amounts of at most eight decimals, so small and so few that (number of amounts + 3) times their weights stays below 22,517,998, prints for every envelope its goal, what there is now and what is saved for the next time, and for every account what is available in each currency, as numerals that are worth exactly the sums of what is written (C121), to the last digit. A currency of which something is available has a line. The bars show the share of the goal, rounded down, up to the rounding of the share. The condition that is needed besides: no entry without envelope lines leaves an account as it was while accounts one of its envelopes is for lose; such an entry can move money in the wrong direction (0.3 - 0.1 - 0.2 is less than nothing), and a currency of which nothing is left can have a line that shows 0. Comments, blank lines and blanks at the ends of lines are allowed everywhere (but no comment at the first line of an envelope).", "quantifier": "for all journals of declared accounts with envelopes and well-written entries with small amounts of at most eight decimals, all schedules and currencies, all days but 0000-01-01, all orders of hash maps; IEEE doubles", "why_tests_cant": "Rounding errors depend on every amount and on the order of all additions; a test can only try some of them.", "anchors": ["src/ledger/mod.rs: display_envelopes, add_entry", "src/account.rs: process_entry, get_available_value, display_envelopes", "src/envelope.rs: apply_amount, process_entry, infer, display_summary, make_bar", "src/amount.rs: AddAssign, Display", "src/entry.rs: parse, get_amounts"]}
{"id": "C124", "title": "Amounts and envelopes are ordered sensibly", "statement": "Amounts of one currency compare by what they are worth, and count as equal exactly if they are worth the same; envelopes compare by the day they are due next, those never due again last, and count as equal exactly if they are due on the same day. Comparing never aborts, and both are strict total orders. (Code: not for amounts that are not a number.)", "quantifier": "all pairs of amounts of one currency, all pairs of envelopes, all days", "why_tests_cant": "An order must be transitive and total over all values, including the extremes of doubles and all schedules; tests compare a few pairs.", "anchors": ["src/amount.rs: Ord, PartialEq for Amount", "src/envelope.rs: Ord, PartialEq for Envelope"]}
{"id": "C125", "title": "What the register knows about an entry", "statement": "For an entry that changes the accounts in focus the register has its day in the format asked for, status, description, payee in brackets, the accounts the money comes from and goes to, in full and by the last part of their names, and one name for the other side: the account that is not in focus, or `(conversion)` if both are. (Code: with several accounts on a side in focus the one name is `(multiple)`.)", "quantifier": "all entries, formats and filters", "why_tests_cant": "Names come from sets of accounts after inferring blanks; tests look at few entries.", "anchors": ["src/entry.rs: as_register_data"]}
{"id": "C126", "title": "Prices, totals, asserted balances and payees, from the text to the balance report", "statement": "On a journal whose lines may have prices (`@`), totals (`=`) and asserted balances (`!`) in any order, and whose titles may name payees, the balance report shows for every account and currency the sum of what the lines say. A line left blank brings what is missing in its entry: in the money of the journal if other lines have prices or are in several currencies. Asserted balances and payees do not matter. (Code: if all other lines are in one foreign currency, the price is ignored, and shares are paid for with shares.)", "quantifier": "all journals of declarations and entries with such lines", "why_tests_cant": "All texts, all numbers of entries, all orders of clauses; the blank amount depends on which other lines are priced.", "anchors": ["src/posting.rs: parse, get_original_native_value", "src/entry.rs: parse, get_blank_amount", "src/ledger/mod.rs: display_flat_balance", "src/flags.rs: execute"]}
{"id": "C127", "title": "The help can be followed", "statement": "Without arguments silverfox prints a help and changes nothing. Every command it announces can be given by the letter in brackets, followed by anything, and is then carried out; the example command in the message about a missing journal works. (Code: `new` never works; the example is refused because a flag cannot come first.)", "quantifier": "all command lines, journals and environments", "why_tests_cant": "That a command never works, or always does on journals that load, is about all journals and flags.", "anchors": ["src/flags.rs: parse_from_env, execute, display_help, TryFrom for Subcommand", "src/main.rs: main"]}
{"id": "C128", "title": "A journal kept in several files is reported as one", "statement": "For every journal spread over files of one directory that include each other in any places and to any depth, with accounts declared, date formats set and currencies named in any of them, `silverfox balance` prints the report on all the entries of all the files: exactly the accounts that occur, and for each currency one amount that is the sum of what the lines say to eight digits. An account can be used from the line that declares it on, in whatever file that is; a date format holds from the line that sets it on, across the borders of files in both directions.", "quantifier": "for all trees of files, items, entries, prices, formats and command lines", "why_tests_cant": "A test has one tree of includes; how formats and declarations cross the borders of files, at any depth, is an induction over all trees.", "anchors": ["src/ledger/mod.rs:42-200", "src/flags.rs", "src/entry.rs", "src/posting.rs"]}
{"id": "C129", "title": "With prices, the report of the program is exact to the last digit", "statement": "For every journal spread over files of one directory, with prices, totals, asserted balances, payees and date formats, whose amounts have at most eight decimals (and, in entries with a blank line, the prices, totals and their products too), in which no account is left blank before an earlier day and no entry is paid for in kind, and which is small enough, the program as it is, with doubles and their rounding in products and sums, prints for every account and currency a numeral worth exactly the sum of what the lines say.", "quantifier": "for all trees of files, entries, prices, amounts, orders of hash maps and command lines within the bounds", "why_tests_cant": "Every product and every sum of doubles is rounded; that the errors never reach the eighth digit, whatever the amounts, their number and their order, is a bound over all of them, not an example.", "anchors": ["src/posting.rs:345-380", "src/entry.rs: get_blank_amount", "src/amount.rs: Display, AddAssign", "src/flags.rs", "src/ledger/mod.rs"]}
{"id": "C130", "title": "With prices and several files, the register of the program is exact to the last digit", "statement": "For every journal spread over files of one directory, with prices, totals, asserted balances, payees and date formats, whose amounts have at most eight decimals (and, in entries with a blank line, the prices, totals and their products too), in which no entry is paid for in kind, and which is small enough, the program as it is, with doubles, goes through the entries in the order of their days, those of one day as they are written, and prints for each that touches an asset account one line for each currency: the date in the format that is set last in whatever file, the mark, the description without payee, the accounts that lose and gain, and numerals worth exactly the change and exactly the sum of all changes so far. Only entries that change nothing may be missing. In the library the same holds for any days and any accounts asked for.", "quantifier": "for all trees of files, entries, prices, amounts, days and accounts asked for, orders of hash maps and command lines within the bounds", "why_tests_cant": "Rounding errors add up along the running total; that they never reach the eighth digit is a bound over all journals. Order, formats and columns depend on all entries at once.", "anchors": ["src/ledger/register.rs", "src/entry.rs: as_register_data", "src/ledger/mod.rs:328-345", "src/posting.rs:345-380", "src/amount.rs: Display, AddAssign"]}
{"id": "C131", "title": "The register ends with what the balance report says", "statement": "On a journal in several files, with prices and within the bounds of doubles, the last total that `register` prints in a currency is worth exactly what `balance` prints in that currency for all accounts that begin with \"asset\" together; if it prints none, those come to nothing.", "quantifier": "for all trees of files, entries, currencies, orders of hash maps and pairs of command lines within the bounds", "why_tests_cant": "The two reports are computed along different ways with different roundings; that they agree to the last digit is a statement about all journals.", "anchors": ["src/ledger/register.rs", "src/ledger/mod.rs:206-258", "src/entry.rs", "src/amount.rs"]}
{"id": "C132", "title": "Journals with the same sums have the same report", "statement": "Closing the books, merging or splitting entries, adding an entry and its reversal, moving entries to other days or other files, writing out what was left blank: as long as for each account and currency the lines come to the same, the balance report says the same, to the last digit, for each account and currency.", "quantifier": "for all pairs of journals in several files with prices, within the bounds of doubles, with equal sums", "why_tests_cant": "A relation between any two journals; floating point sums depend on order and grouping, and only the rounding of what is printed makes them agree.", "anchors": ["src/ledger/mod.rs:206-258", "src/account.rs", "src/amount.rs: Display, AddAssign", "src/entry.rs: get_blank_amount"]}
{"id": "C133", "title": "Filling the envelopes day after day", "statement": "On any number of days, new entries may be written at the end of a journal that declares accounts with envelopes and has entries, and then `silverfox envelopes` is run. Every run succeeds. On each day it does what C122 says for a journal of the entries that are there on that day: the first ones, all news, and the entries the program itself has added on the days before, each with its amounts to eight digits (off by at most half of the eighth digit). What it adds is understood the next day exactly as it was written. No other file changes, and in the end the journal is again a journal of the same accounts with all these entries.", "quantifier": "all journals as in C122, all sequences of days (in any order) with any news, all spellings of the command line, every order of the hash maps; exact arithmetic", "why_tests_cant": "A test runs the program once or twice. The claim is about any number of runs, each of which reads the text the previous ones have written.", "anchors": ["src/ledger/mod.rs:186-197", "src/ledger/mod.rs:268-298", "src/entry.rs:500-532", "src/posting.rs:403-408", "src/envelope.rs:781-848", "src/utils.rs"]}
{"id": "C134", "title": "What filling the envelopes writes, with doubles", "statement": "The program as it is, with doubles: `silverfox envelopes` on a journal that declares accounts with envelopes and has entries with amounts of at most eight decimals, small enough. The envelopes of every account are served one after the other, goals before expenses and the last one first, from what is available in the account; each should get, in exact numbers, what it wishes, or what is left, but at least what it owes, and nothing if it rests; on the day it is due, an envelope filled bit by bit wishes all that is missing. What is written for it has at most eight decimals and is less than a hundred-millionth from that, so that an amount with eight decimals is written exactly. Only what is less than a hundred-millionth may have no line; an envelope that rests never has one. The entry is added to the end of the journal, nothing else changes on disk, and the run succeeds.", "quantifier": "for all journals with envelopes within the bounds, spellings of the command line, orders of the hash maps and file systems", "why_tests_cant": "Every envelope is paid out of what the previous ones have left, in rounded numbers, with a quotient by the number of days; that the errors never reach the eighth digit, whatever the number of envelopes, and that no comparison goes the wrong way because of them, is a bound over all journals.", "anchors": ["src/envelope.rs:781-848", "src/account.rs:120-164", "src/ledger/mod.rs:268-298", "src/amount.rs: Display, AddAssign, SubAssign", "src/posting.rs:403-408"]}
{"id": "C135", "title": "Filling the envelopes day after day, with doubles", "statement": "The program as it is, with doubles: on any number of days, new entries may be written at the end of a journal that declares accounts with envelopes and has entries, and then `silverfox envelopes` is run. As long as the journal keeps within the bounds of C134, every run succeeds and writes what C134 says for the entries that are there on that day: the first ones, all news, and the entries the program itself has added on the days before, with exactly the amounts that it has written, so that errors of the doubles do not carry over from one day to the next. No other file changes, and afterwards the journal is again a journal of the same accounts with all these entries. (What is printed during the run may differ from what the file says in the eighth digit.)", "quantifier": "all journals as in C134, all sequences of days (in any order) with any news, all spellings of the command line, every order of the hash maps", "why_tests_cant": "A test runs the program once or twice. Whether the errors of the doubles pile up over months of daily runs is a question about any number of runs, each of which reads the text the previous ones have written.", "anchors": ["src/ledger/mod.rs:186-197", "src/ledger/mod.rs:268-298", "src/entry.rs:500-532", "src/posting.rs:403-408", "src/envelope.rs:781-848", "src/amount.rs"]}
{"id": "C136", "title": "Full to the last digit, and shown as written", "statement": "The program as it is, with doubles: `silverfox envelopes` is run on a journal as in C134, and then `silverfox envelopes --no-move`. An envelope that asks for all that is missing (filled aggressively, or conservatively and due today or tomorrow), in an account where no envelope of its currency is in debt and where there is enough for what all of them ask for that day, is then full to the last digit: what the journal says is saved for it is exactly its amount, so that instalments that have been rounded day by day add up to the amount in the end. The second run shows exactly, to the last digit, what is written in the journal, with what the first run has added, and changes nothing.", "quantifier": "all journals as in C134 with enough money, all spellings of both command lines, every order of the hash maps", "why_tests_cant": "The last instalment is the difference of rounded numbers, taken from what other envelopes have left; that it makes the sum exactly the amount for every amount, number of days and envelopes is a claim about all doubles within the bounds.", "anchors": ["src/envelope.rs:781-848", "src/account.rs:120-164", "src/ledger/mod.rs:268-298", "src/posting.rs:403-408", "src/envelope.rs: Display", "src/amount.rs"]}
{"id": "C137", "title": "The balance report of a journal with envelopes is the sum of its ordinary lines", "statement": "The program as it is, with doubles: for a journal with declared envelopes and entries with ordinary lines and lines that move money in envelopes (as in C121), `silverfox balance --no-move` prints for every account and currency exactly, to the last digit, the sum of what the ordinary lines of the journal bring; setting money aside in an envelope of an account does not change what the account has.", "quantifier": "all journals as in C121 with amounts of at most eight decimals that are not too large, all accounts and currencies, all spellings of the command line, every order of the hash maps", "why_tests_cant": "A test has one journal. The claim is about the characters of every such journal and of the report, and about all sums of doubles within the bounds.", "anchors": ["src/ledger/mod.rs:206-257", "src/posting.rs:14-100", "src/entry.rs", "src/amount.rs"]}
{"id": "C138", "title": "The register of a journal with envelopes shows what its ordinary lines move", "statement": "The program as it is, with doubles: for a journal as in C137, `silverfox register --no-move` lists, in the order of the days, the entries whose ordinary lines change the accounts that begin with \"asset\", with exactly these changes and exactly the sums of all changes so far; an entry that only sets money aside in envelopes is not listed.", "quantifier": "all journals as in C121 with amounts of at most eight decimals that are not too large, all spellings of the command line, every order of the hash maps", "why_tests_cant": "A test has one journal. The claim is about every listing of every such journal, and about all sums of doubles within the bounds.", "anchors": ["src/ledger/register.rs", "src/entry.rs:395-470", "src/posting.rs:14-100", "src/amount.rs"]}
{"id": "C139", "title": "A bank statement imported into a journal with envelopes", "statement": "Importing a bank statement (csv, with rules naming the column of the day, of the description and of the amount, an account and a second account, and the decimal symbol of the bank) with --no-move into a journal with accounts, envelopes and entries only appends to the journal and leaves every other file alone. Afterwards, on any day, the envelope report says what it says of the journal to which an entry for each row was added by hand: what was spent according to the statement comes out of the envelopes that are for that account; and the balance report gives for each account and currency the exact sum of what the journal gave before, more by the sum of the statement for the account and less by it for the second account.", "quantifier": "every journal with envelopes, every statement and rules of that form, every spelling of the command line, every later day; with the doubles the program uses", "why_tests_cant": "The claim joins three runs of the program (an import and two reports) over unboundedly many journals, statements and envelopes; a test sees one of them, and cannot tell rounding that happens not to show from rounding that cannot.", "anchors": ["src/importer.rs:1-420", "src/ledger/mod.rs:186-257", "src/envelope.rs:608-771", "src/amount.rs:1-300"]}
{"id": "C140", "title": "The rows of an imported statement in the register", "statement": "After a bank statement has been imported, the register goes through the entries of the journal and the rows of the statement in the order of their days (on one day first the entries of the journal, then the rows as the statement has them). Each is listed with its day, its mark, its description, exactly the amount by which it changes the assets in each currency and exactly the sum of all changes so far, or is left out and changes nothing. If the statement is that of an asset account and the other account is none, every row with an amount other than zero has a line with its day, its description and exactly its amount.", "quantifier": "every journal, statement and rules of the described form, every spelling of both command lines, every later day; with the doubles the program uses; also beside envelopes with --no-move", "why_tests_cant": "Two runs of the program over unboundedly many journals and statements, whose rows are mixed with what was there; a test sees one order of days and one sum.", "anchors": ["src/importer.rs:1-420", "src/ledger/mod.rs:186-257", "src/ledger/register.rs:1-200", "src/entry.rs:200-420"]}
{"id": "C141", "title": "Every command fills the envelopes first, and all in the same way", "statement": "Whichever command is run on a journal with envelopes without --no-move, one and the same text is added to its end, the one C134 describes, and nothing else on disk changes; the reports succeed afterwards. A statement that is imported by the same command is written after this text and does not influence it: the journal then has its entries, the one for the envelopes, and those of the rows.", "quantifier": "all journals as in C134, all commands and spellings of the command line, all statements and rules as in C139, every order of the hash maps; with the doubles the program uses", "why_tests_cant": "A test runs one command on one journal. That the commands agree on every journal, and that what is imported in the same run never shows in what is set aside, is a claim about all pairs of runs.", "anchors": ["src/flags.rs:74-109", "src/ledger/mod.rs:186-197", "src/ledger/mod.rs:268-298", "src/importer.rs:1-420", "src/envelope.rs:781-848"]}
{"id": "C142", "title": "All the money of an account is in the envelope report, and in the balance report", "statement": "The envelope report can be read back from its lines: a paragraph for each account with envelopes and no other, in the order of the names; the envelopes by their names, expenses before goals; every figure an amount. What is available, what the envelopes have now and what is saved for the next time is together, in every currency, exactly the money written for the account. The balance report says the same of the account, to the last digit.", "quantifier": "all journals as in C123 (and C137 for the balance report) whose envelopes have currencies without a slash, all spellings of both command lines, every order of the hash maps; with the doubles the program uses", "why_tests_cant": "Whether the figures of a report add up, and whether two reports agree, is a claim about the sums over every journal; a test compares two numbers of one journal.", "anchors": ["src/ledger/mod.rs:206-266", "src/account.rs:137-250", "src/envelope.rs:608-771", "src/envelope.rs:883-928", "src/amount.rs:1-300"]}
{"id": "C143", "title": "Filling the envelopes moves no money: the balance report before and after", "statement": "Filling envelopes only sets money aside within an account. So when any command has filled the envelopes of a journal, the balance report of the journal says of every account, in every currency, exactly what it said before the command.", "quantifier": "all journals as in C134 and C137 with room for what is set aside, every command that fills the envelopes, all spellings of the command lines, every order of the hash maps; with the doubles the program uses", "why_tests_cant": "It relates two runs of one command with a run of any other command in between, over every journal; a test compares the figures of one journal.", "anchors": ["src/ledger/mod.rs:206-298", "src/flags.rs:74-109", "src/account.rs:204-224", "src/envelope.rs:781-848", "src/amount.rs:1-300"]}
{"id": "C144", "title": "Register and balance report agree on journals with envelopes", "statement": "On a journal with envelopes too, the register ends with what the balance report says: the last total that the register prints in a currency is exactly what the balance report prints in that currency for all accounts whose names begin with asset, together; and if the register has no total in that currency, they come to nothing.", "quantifier": "all journals as in C137 and C138, all spellings of both command lines, every order of the hash maps; with the doubles the program uses", "why_tests_cant": "Two reports sum the same amounts in different orders and groupings, with rounding at each step; that they agree to the last digit is a claim about every journal.", "anchors": ["src/ledger/mod.rs:206-266", "src/ledger/register.rs:1-203", "src/account.rs:137-250", "src/amount.rs:1-300"]}
{"id": "C145", "title": "A command that fills the envelopes reports the journal it leaves", "statement": "When a command fills the envelopes and then prints a report, the report is about the journal as it now stands in the file: the same command with --no-move, right afterwards, says the same of every account in every currency.", "quantifier": "all journals as in C134 and C137 with room for what is set aside, all spellings of both command lines, every order of the hash maps; with the doubles the program uses", "why_tests_cant": "It compares the figures the program has in memory after a fill with those it would get from the text it wrote, over every journal; a test compares them for one journal whose divisions happen to come out even.", "anchors": ["src/ledger/mod.rs:206-298", "src/account.rs:137-250", "src/envelope.rs:781-848", "src/posting.rs:388-451", "src/amount.rs:1-300", "src/entry.rs:160-260"]}
{"id": "C146", "title": "What is paid comes out of the envelope for it", "statement": "If one more payment is written in a journal, anywhere, by which an account with envelopes pays an amount to an account that one of its envelopes is for, the envelope report says that this envelope has exactly that much less (now and for the next time together); the other envelopes, what is available, and everything said of other accounts stay as they are. And if money comes back from there, the envelope has that much more.", "quantifier": "all journals as in C142, every entry of two lines at any place in them, all spellings of the command line, every order of the hash maps; with the doubles the program uses", "why_tests_cant": "It relates two runs of the program on journals that differ in one entry, for every journal and every entry; a test fixes both, usually with one envelope and one purchase.", "anchors": ["src/envelope.rs:608-771", "src/account.rs:100-250", "src/ledger/mod.rs:206-298"]}
{"id": "C147", "title": "A journal may write its dates in another format", "statement": "If the first line of a journal is `date_format F`, with any chrono format F that has no blanks, then every command (import too, if the rules name the format of the table and it is not the usual one) does exactly what it would do, without that line, for somebody who reads and writes dates as F says wherever the usual format %Y/%m/%d is meant: same report or same error, same changes to the files, in every included file too. In particular the envelope report of such a journal says what its entries and declarations mean (C123), and filling the envelopes adds the entry C134 describes, with the day written as F says; a bank statement imported as in C139 leaves a journal in the same format. A format with blanks is cut off at its first blank, so that a journal written that way is not readable.", "quantifier": "for all journals (any number of included files that name no format themselves), all formats without blanks, all calendars of parsing and writing dates, all command lines", "why_tests_cant": "Dates are read in entry headers and in `due`, `by` and `starting` clauses, and written in reports and in entries the program adds; tests use the usual format in a few places, and cannot show that none of these places has the usual format built in.", "anchors": ["src/ledger/mod.rs:133-146", "src/ledger/mod.rs:192", "src/entry.rs:165", "src/entry.rs:485", "src/envelope.rs:179", "src/envelope.rs:578", "src/ledger/mod.rs:336", "src/ledger/register.rs:9"]}
{"id": "C148", "title": "The reports of books kept apart add up", "statement": "If all entries of two journals are written into one, in any order and in any number of files, its balance report lists exactly the accounts that the two reports list, and says of every account, and of any accounts together, in every currency exactly what the two say, added. So it does not matter for the figures whether a household keeps one journal or several.", "quantifier": "all journals as in C129 (any number of files, currencies, prices, lines without an amount), all spellings of the command lines, every order of the hash maps; with the doubles the program uses", "why_tests_cant": "It relates three runs of the program over arbitrary pairs of journals; sums of doubles in different orders need not agree, and a test shows only that they do for one pair.", "anchors": ["src/ledger/mod.rs:206-266", "src/account.rs:137-250", "src/amount.rs:1-300", "src/posting.rs:1-120"]}
{"id": "C149", "title": "Accounts can be renamed and put together", "statement": "If the entries of a journal are booked to other accounts, by any rule that says for each account where its lines go, the balance report says of each account exactly what it said before of all the accounts that are booked there now, together, in every currency; and it lists exactly the accounts that something is booked to. So an account may be given another name, or several may be made one, and no money is lost or made.", "quantifier": "all journals as in C129, all rules from accounts to accounts, all spellings of the command lines, every order of the hash maps; with the doubles the program uses", "why_tests_cant": "It relates two runs of the program for every map from account names to account names; names with special meaning (prefixes, sort order, hash order) are just what a test with chosen names would miss.", "anchors": ["src/ledger/mod.rs:206-266", "src/account.rs:137-250", "src/amount.rs:1-300", "src/posting.rs:1-120"]}
{"id": "C150", "title": "What comes in is available, and what is set aside is in the envelope named", "statement": "If one more entry is written in a journal, anywhere, by which an account gets money from an account that none of its envelopes is for, the envelope report says that exactly that much more is available in the account, and nothing else differs. If the entry names envelopes, each has exactly what is written for it more, and what is set aside is not available any more: available is what the entry brings less what it sets aside, each currency for itself.", "quantifier": "all journals as in C142, every entry at any place in them, all spellings of the command line, every order of the hash maps; with the doubles the program uses", "why_tests_cant": "It relates two runs of the program on journals that differ in one entry, for every journal and every entry; a test fixes both.", "anchors": ["src/envelope.rs:608-771", "src/account.rs:100-250", "src/ledger/mod.rs:206-298", "src/posting.rs:320-451"]}
{"id": "C151", "title": "An entry with the opposite amounts undoes an entry", "statement": "If an entry and one with the same lines and the opposite amounts, in any order, on any day, with any title, are written in a journal, the balance report says of every account, and of any accounts together, in every currency exactly what it says without the two; besides, it lists the accounts of these entries. So a mistake can be undone without deleting anything.", "quantifier": "all journals as in C129 (several files, currencies, prices, lines without an amount), all entries, all spellings of the command lines, every order of the hash maps; with the doubles the program uses", "why_tests_cant": "It relates two runs over all journals and all entries; that adding and taking away again leaves exactly what was there is false of doubles in general, and a test shows only that it holds for one sum.", "anchors": ["src/ledger/mod.rs:206-266", "src/entry.rs:260-400", "src/posting.rs:1-120", "src/amount.rs:1-300"]}
{"id": "C152", "title": "A new journal can be begun with what the accounts and envelopes have", "statement": "A journal is closed and a new one begun that declares the same accounts and envelopes and begins with one entry: its ordinary lines bring to each account what it has, and its lines that name envelopes put into each envelope what it has. Whatever is entered from then on, `silverfox envelopes` says of the new journal what it says of the old one carried on: the same paragraphs and envelopes, as much money in each envelope, as much available in each currency. What there is now and what is saved for the next time, and the balance report, should be carried forward too.", "quantifier": "for all journals with envelopes (layout as in C121) in doubles, all entries before and after the closing, all accounts, envelopes and currencies", "why_tests_cant": "That two journals with different histories go on agreeing after every continuation is a statement about pairs of unbounded texts; a test compares two fixed reports.", "anchors": ["src/account.rs:167-260", "src/envelope.rs:60-260", "src/ledger.rs:262-330"]}
{"id": "C153", "title": "What is paid comes out of what there is now, and on the due date what is saved is there now", "statement": "The envelope report has two figures for each envelope: what there is now and what is saved for the next time. With one more payment of an amount `q` to an account an envelope is for, the report says that there is now `max(now - q, 0)` in it and that what is saved has become less only by what was missing, `next + min(now - q, 0)`. Money set aside on or after the last due date is added to what is saved, and to nothing else. As days pass, the report of the same journal only says more for now and less for the next time, with the same total and the same money available; once the due date has passed after all entries, everything the envelope has is there now.", "quantifier": "for all journals with envelopes (layout as in C121) in doubles, all payments anywhere in the journal, all amounts set aside, all pairs of days", "why_tests_cant": "The two figures are results of sums over all entries, each put on one side or the other by its day and sign; a test shows one report on one day.", "anchors": ["src/envelope.rs:60-260", "src/account.rs:167-260"]}
{"id": "C154", "title": "What the envelope report says of an account depends on its own entries only", "statement": "Two journals declare an account with the same envelopes and have the same entries that have a line for the account or name an envelope of it. However they differ otherwise, in the other accounts, in the other entries and in the order of the entries, `silverfox envelopes` says the same of the account: the same envelopes, for each what there is now and what is saved for the next time, and what is available in every currency.", "quantifier": "for all pairs of journals with envelopes (layout as in C121) in doubles, all accounts with envelopes, all orders of the entries", "why_tests_cant": "Pairs of journals of any length and all permutations of their entries; adding up doubles in another order gives other doubles, so that the printed figures agree needs a bound on the errors, not samples.", "anchors": ["src/account.rs:167-260", "src/envelope.rs:60-260", "src/ledger.rs:262-330"]}
{"id": "C155", "title": "Setting money aside and taking it back leaves the envelope report as it was", "statement": "An entry sets money aside in envelopes and a later one names the same envelopes with the opposite amounts. `silverfox envelopes` says of every envelope, and of what is available, the same as it says for the journal without the two entries.", "quantifier": "for all journals with envelopes (layout as in C121) in doubles, all places for the two entries, all envelopes and amounts", "why_tests_cant": "Journals of any length, in which the two entries change every partial sum in doubles after them; and the claim fails only for the division into now and next, which the sums alone do not show.", "anchors": ["src/envelope.rs:60-260", "src/account.rs:167-260", "src/ledger.rs:262-330"]}
{"id": "C156", "title": "The names of accounts and envelopes mean nothing to the reports of envelopes and balances", "statement": "A journal is written again with other names for the accounts and envelopes, distinct names for distinct ones, with the same days and the same amounts, in whatever notation. `silverfox envelopes` says of every account, under its other name, what it said before: the same envelopes in the same order under their other names, for each what there is now and what is saved for the next time, and what is available in every currency. `silverfox balance` lists the same accounts under their other names, and no others, with the same amount in every currency.", "quantifier": "for all journals with envelopes (layout as in C121) in doubles, all injective renamings of accounts and of envelopes, all notations of the amounts", "why_tests_cant": "All injective renamings, including those that make one name a prefix of another or exchange names: samples do not show that names are only ever compared for equality.", "anchors": ["src/envelope.rs:60-260", "src/account.rs:167-260", "src/ledger.rs:262-330"]}
{"id": "C157", "title": "An entry may be written as two of the same day", "statement": "The lines of an entry, none of them blank, are divided between two entries of the same day. `silverfox envelopes` says of every account what it said before: the same envelopes, for each what there is now and what is saved for the next time, and what is available in every currency. `silverfox balance` lists the same accounts with the same amount in every currency.", "quantifier": "for all journals with envelopes (layout as in C121) in doubles, all entries, all ways to divide the lines", "why_tests_cant": "All ways to divide the lines of entries of any length; the division changes the order in which doubles are added up, and whether an entry counts as one that names envelopes.", "anchors": ["src/envelope.rs:60-260", "src/account.rs:167-260", "src/ledger.rs:262-330"]}
{"id": "C158", "title": "A new envelope is empty and leaves the others as they are", "statement": "An envelope is declared in addition, anywhere among the envelopes of an account, and no entry names it or pays an account it is for. `silverfox envelopes` says of the new envelope that there is nothing now and nothing saved for the next time. Of the other envelopes, in the same order, of what is available in every currency, and of the other accounts it says what it said before.", "quantifier": "for all journals with envelopes (layout as in C121) in doubles, all new envelopes, expenses and goals, and all places for them", "why_tests_cant": "All journals, declarations and places; the new envelope could change the figures of others through the order in which doubles are taken off what is available, or by a name or account matched too widely.", "anchors": ["src/account.rs:60-260", "src/envelope.rs:60-260", "src/ledger.rs:262-330"]}
