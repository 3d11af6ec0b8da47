import Verif.Model.Env

/-
The CSV reader: `csv::ReaderBuilder::new().has_headers(false)` and `records()` (importer.rs:48-64), that is the
crates `csv` 1.3.1 and `csv-core` 0.1.12 with their defaults: comma, double quote, quotes doubled inside quotes, lines
ended by CR or LF, no comments, all records of one length. The crates are not part of /repo; this file says what is
assumed of them. `Env.csv` may be any function; theorems that need this one say `env.csv = csvRecords`.
-/

namespace Silverfox

/-- The states of the reader (`csv-core`, `NfaState`). The state after a CR, which only drops a LF, is the same as
`line` here, because empty lines are dropped anyway. -/
inductive CsvState where
  /-- at the beginning of a line -/
  | line
  /-- at the beginning of a field that is not the first -/
  | field
  /-- in a field without quotes -/
  | plain
  /-- inside quotes -/
  | quoted
  /-- after a quote inside quotes -/
  | quote
deriving DecidableEq, Repr

/-- `Terminator::CRLF` -/
def isLineEnd (c : Char) : Bool := c == '\n' || c == '\r'

/-- The records of a text: `csv-core`'s transitions. `f` is the field read so far and `r` the fields before it, both
backwards. At the end of the text an open record is completed. -/
def csvScan : CsvState → Str → List Str → Str → List (List Str)
  | .line, _, _, [] => []
  | .field, f, r, [] => [(f.reverse :: r).reverse]
  | .plain, f, r, [] => [(f.reverse :: r).reverse]
  | .quoted, f, r, [] => [(f.reverse :: r).reverse]
  | .quote, f, r, [] => [(f.reverse :: r).reverse]
  | .line, f, r, c :: cs =>
    if isLineEnd c then csvScan .line f r cs
    else if c = '"' then csvScan .quoted [] [] cs
    else if c = ',' then csvScan .field [] [[]] cs
    else csvScan .plain [c] [] cs
  | .field, f, r, c :: cs =>
    if c = '"' then csvScan .quoted [] r cs
    else if c = ',' then csvScan .field [] ([] :: r) cs
    else if isLineEnd c then (f.reverse :: r).reverse :: csvScan .line [] [] cs
    else csvScan .plain [c] r cs
  | .plain, f, r, c :: cs =>
    if c = ',' then csvScan .field [] (f.reverse :: r) cs
    else if isLineEnd c then (f.reverse :: r).reverse :: csvScan .line [] [] cs
    else csvScan .plain (c :: f) r cs
  | .quoted, f, r, c :: cs =>
    if c = '"' then csvScan .quote f r cs
    else csvScan .quoted (c :: f) r cs
  | .quote, f, r, c :: cs =>
    if c = '"' then csvScan .quoted (c :: f) r cs
    else if c = ',' then csvScan .field [] (f.reverse :: r) cs
    else if isLineEnd c then (f.reverse :: r).reverse :: csvScan .line [] [] cs
    else csvScan .plain (c :: f) r cs

/-- A byte order mark at the very beginning is dropped (`csv-core`, `strip_utf8_bom`). -/
def csvText : Str → Str
  | [] => []
  | c :: cs => if c = '\uFEFF' then cs else c :: cs

/-- `records()`: a record is unreadable if it has not as many fields as the first one (`csv`, `flexible` is off). -/
def csvRecords (s : Str) : List (Option (List Str)) :=
  match csvScan .line [] [] (csvText s) with
  | [] => []
  | r :: rs => some r :: rs.map fun x => if x.length = r.length then some x else none

end Silverfox
