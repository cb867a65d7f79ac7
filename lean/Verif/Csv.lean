import Verif.ExpFiles
/-
Tables written by `encoding/csv`, and the numbers in them written by `fmt` (used in exp/exp_scenario.go,
exp/sensor_data_save.go, exp/utils_temporal.go).

Errors of the file system are not modelled; a table is its whole text after the last `Flush`.
-/
namespace Verif

/-! ### `encoding/csv` -/

/-- The first character is a space by `unicode.IsSpace`. [part of `(*csv.Writer).Write`, exp/exp_scenario.go:258] -/
def leadsSpace : Bytes → Bool
  | [] => false
  | c :: r => isWs c || c == 11 || c == 12 ||
    [[0xC2, 0x85], [0xC2, 0xA0], [0xE1, 0x9A, 0x80], [0xE2, 0x80, 0x80], [0xE2, 0x80, 0x81], [0xE2, 0x80, 0x82],
      [0xE2, 0x80, 0x83], [0xE2, 0x80, 0x84], [0xE2, 0x80, 0x85], [0xE2, 0x80, 0x86], [0xE2, 0x80, 0x87],
      [0xE2, 0x80, 0x88], [0xE2, 0x80, 0x89], [0xE2, 0x80, 0x8A], [0xE2, 0x80, 0xA8], [0xE2, 0x80, 0xA9],
      [0xE2, 0x80, 0xAF], [0xE2, 0x81, 0x9F], [0xE3, 0x80, 0x80]].any fun p => hasPrefix (c :: r) p

/-- `fieldNeedsQuotes` of `encoding/csv` with a comma as separator. [part of `(*csv.Writer).Write`, exp/exp_scenario.go:258] -/
def needsQuotes (s : Bytes) : Bool :=
  !s.isEmpty && (decide (s = b!"\\.") || s.any (fun c => c == 10 || c == 13 || c == 34 || c == 44) || leadsSpace s)

/-- A field as written: in quotes if needed, quotes in it doubled. [part of `(*csv.Writer).Write`, exp/exp_scenario.go:258] -/
def csvField (s : Bytes) : Bytes :=
  if needsQuotes s then 34 :: (s.flatMap fun c => if c = 34 then [34, 34] else [c]) ++ [34] else s

/-- `(*csv.Writer).Write` (exp/exp_scenario.go:258). -/
def csvRecord (fs : List Bytes) : Bytes := joinWith 44 (fs.map csvField) ++ [10]

/-- The text of a file after the records were written and flushed. [exp/exp_scenario.go:128-150, 258] -/
def csvText (rs : List (List Bytes)) : Bytes := rs.flatMap csvRecord

/-! ### Numbers -/

/-- A whole number of 10^-n in decimals. [part of `%.2f`, exp/exp_scenario.go:256; `%.4f`, exp/sensor_data_save.go:111] -/
def fixedDigits (n v : Nat) : Bytes := natDigits (v / 10 ^ n) ++ 46 :: padded n (v % 10 ^ n)

/-- The magnitude of a number in 10^-n, rounded to the nearest, ties to even.
[part of `%.2f`, exp/exp_scenario.go:256; `%.4f`, exp/sensor_data_save.go:111] -/
def fixedValue (n m : Nat) (e : Int) : Nat := F64.divRound ((F64.ratio m e).1 * 10 ^ n) (F64.ratio m e).2

/-- `%.nf` for a positive `n` (exp/exp_scenario.go:254-256; exp/sensor_data_save.go:111). -/
def fmtFixed (n : Nat) : F64 → Bytes
  | .nan => b!"NaN"
  | .inf s => if s then b!"-Inf" else b!"+Inf"
  | .fin s m e _ => (if s then [45] else []) ++ fixedDigits n (fixedValue n m e)

/-- The text of a value in the files of the sensors (exp/sensor_data_save.go:109-114).  Simplification: arrays and objects, which are
never values of sensors, have no text. -/
def valueText : Js → Bytes
  | .num f => fmtFixed 4 f
  | .bool b => if b then b!"true" else b!"false"
  | .str s => s
  | .int n => itoa n
  | .null => b!"<nil>"
  | _ => []

example : csvRecord [b!"a", b!"", b!"b,c", b!"say \"x\"", b!" d"] = b!"a,,\"b,c\",\"say \"\"x\"\"\",\" d\"\n" := by decide +kernel
example : fmtFixed 2 (dec 50 1) = b!"50.00" ∧ fmtFixed 2 (dec 125 1000) = b!"0.12" ∧ fmtFixed 4 (dec (-37566) 1000) = b!"-37.5660" := by
  decide +kernel

end Verif
