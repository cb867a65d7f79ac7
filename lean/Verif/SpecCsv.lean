import Verif.Text
/-
Reading tables: comma-separated values as described by RFC 4180, with lines ended by a line feed, and decimal numbers with a
fixed number of digits after the point.
-/
namespace Verif

/-- Where a reader is: at the start of a field, in a field without quotes, in a quoted field, after a quote in a quoted field. -/
inductive CsvAt where
  | start
  | plain
  | quoted
  | closed
deriving DecidableEq

/-- The records of a text; `f` is the field read so far, `rec` the fields of the record before it.  No table if a quote stands
inside of a field without quotes, if something follows a quoted field, or if the last line is not ended. -/
def readCsv : CsvAt → Bytes → List Bytes → Bytes → Option (List (List Bytes))
  | .start, [], [], [] => some []
  | _, _, _, [] => none
  | .start, f, rec, c :: r =>
    if c = 34 then readCsv .quoted f rec r
    else if c = 44 then readCsv .start [] (rec ++ [f]) r
    else if c = 10 then (readCsv .start [] [] r).map fun l => (rec ++ [f]) :: l
    else readCsv .plain (f ++ [c]) rec r
  | .plain, f, rec, c :: r =>
    if c = 34 then none
    else if c = 44 then readCsv .start [] (rec ++ [f]) r
    else if c = 10 then (readCsv .start [] [] r).map fun l => (rec ++ [f]) :: l
    else readCsv .plain (f ++ [c]) rec r
  | .quoted, f, rec, c :: r => if c = 34 then readCsv .closed f rec r else readCsv .quoted (f ++ [c]) rec r
  | .closed, f, rec, c :: r =>
    if c = 34 then readCsv .quoted (f ++ [34]) rec r
    else if c = 44 then readCsv .start [] (rec ++ [f]) r
    else if c = 10 then (readCsv .start [] [] r).map fun l => (rec ++ [f]) :: l
    else none

/-- The table in a text. -/
def readTable (s : Bytes) : Option (List (List Bytes)) := readCsv .start [] [] s

/-- The field of a row below a name in the header. -/
def cell (header row : List Bytes) (name : Bytes) : Option Bytes :=
  ((header.zip row).find? fun x => decide (x.1 = name)).map Prod.snd

/-- A decimal number with `n` digits after the point, in units of the last digit. -/
def readFixed (n : Nat) (s : Bytes) : Option Int :=
  let b := if s.head? = some 45 then s.tail else s
  match split 46 b with
  | [int, frac] =>
    if int ≠ [] ∧ int.all isDigit = true ∧ frac.length = n ∧ frac.all isDigit = true then
      some ((if s.head? = some 45 then -1 else 1) * (digitsVal 0 (int ++ frac) : Nat))
    else none
  | _ => none

example : readTable b!"a,b\n\"x,\"\"y\",\n" = some [[b!"a", b!"b"], [b!"x,\"y", []]] := by decide +kernel
example : readTable b!"a,b" = none ∧ readTable b!"\"a\"b\n" = none := by decide +kernel
example : readFixed 2 b!"-37.56" = some (-3756) ∧ readFixed 2 b!"37.5" = none ∧ readFixed 2 b!"NaN" = none := by decide +kernel

end Verif
