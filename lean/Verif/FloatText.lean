import Verif.F64
/-
Reading and printing of `float64` as text: `strconv.ParseFloat(·, 64)` on plain decimal numbers and `%v`.
-/
namespace Verif

/-- The longest prefix of digits, and the rest (the loops at internal/tson/serialization.go:656-658, 661-663,
681-683). -/
def spanDigits : Bytes → Bytes × Bytes
  | [] => ([], [])
  | c :: r => if isDigit c then (c :: (spanDigits r).1, (spanDigits r).2) else ([], c :: r)

/-- The float nearest to `c * 10^k`; `none` if it overflows.
[`strconv.ParseFloat`, internal/tson/serialization.go:666] -/
def readDecimal (neg : Bool) (c : Nat) (k : Int) : Option F64 :=
  if 0 ≤ k then F64.ofRatio neg (c * 10 ^ k.toNat) 1 else F64.ofRatio neg c (10 ^ (-k).toNat)

/-- `strconv.ParseFloat` on an optional minus sign, the digits `int`, and the digits `frac` after a decimal point:
correctly rounded; `none` if there is no digit or the number overflows (internal/tson/serialization.go:666). -/
def parseFloat (neg : Bool) (int frac : Bytes) : Option F64 :=
  if int = [] ∧ frac = [] then none else readDecimal neg (digitsVal 0 (int ++ frac)) (- (frac.length : Int))

/-- `⌊p / q / 10^k⌋` with its remainder and divisor.
[part of `%v` on float64, internal/tson/serialization.go:74-83, 386, 425] -/
def decFloor (p q : Nat) (k : Int) : Nat × Nat × Nat :=
  let num := if 0 ≤ k then p else p * 10 ^ (-k).toNat
  let den := if 0 ≤ k then q * 10 ^ k.toNat else q
  (num / den, num % den, den)

/-- A decimal `c * 10^k` next to `p / q` that reads back as `f`; the closer one if there are two.
[part of `%v` on float64, internal/tson/serialization.go:74-83, 386, 425] -/
def pickDecimal (f : F64) (neg : Bool) (p q : Nat) (k : Int) : Option Nat :=
  let (c, r, d) := decFloor p q k
  let lo := decide (readDecimal neg c k = some f)
  let hi := decide (readDecimal neg (c + 1) k = some f)
  if lo && hi then (if 2 * r < d || (2 * r == d && c % 2 == 0) then some c else some (c + 1))
  else if lo then some c
  else if hi then some (c + 1)
  else none

/-- The search for the shortest decimal, from exponent `k` downwards; after `steps` steps the decimal is exact.
[part of `%v` on float64, internal/tson/serialization.go:74-83, 386, 425] -/
def searchDecimal (f : F64) (neg : Bool) (p q : Nat) : Nat → Int → Nat × Int
  | 0, k => ((decFloor p q k).1, k)
  | steps + 1, k =>
    match pickDecimal f neg p q k with
    | some c => (c, k)
    | none => searchDecimal f neg p q steps (k - 1)

/-- The value `m * 2^e` as a fraction. [part of `%v` on float64, internal/tson/serialization.go:74-83, 386, 425] -/
def F64.ratio (m : Nat) (e : Int) : Nat × Nat :=
  if 0 ≤ e then (m * 2 ^ e.toNat, 1) else (m, 2 ^ (-e).toNat)

/-- The shortest decimal `c * 10^k` that reads back as the float ("the smallest number of digits necessary to
represent the value uniquely", documentation of `strconv.FormatFloat` for precision -1).
[part of `%v` on float64, internal/tson/serialization.go:74-83, 386, 425] -/
def shortest (neg : Bool) (m : Nat) (e : Int) (h : F64.canon m e = true) : Nat × Int :=
  if m = 0 then (0, 0)
  else
    let (p, q) := F64.ratio m e
    searchDecimal (.fin neg m e h) neg p q (309 - min 0 e).toNat 309

/-- Decimal notation without exponent: `strconv`'s `%f` with all digits of `c * 10^k`.
[part of `%v` on float64, internal/tson/serialization.go:74-83, 386, 425] -/
def fmtPlain (c : Nat) (k : Int) : Bytes :=
  let ds := natDigits c
  if 0 ≤ k then ds ++ List.replicate k.toNat 48
  else
    let dp : Int := (ds.length : Int) + k
    if 0 < dp then ds.take dp.toNat ++ 46 :: ds.drop dp.toNat
    else 48 :: 46 :: (List.replicate (-dp).toNat 48 ++ ds)

/-- Notation with exponent: `strconv`'s `%e` with all digits of `c * 10^k`.
[part of `%v` on float64, internal/tson/serialization.go:74-83, 386, 425] -/
def fmtExp (c : Nat) (k : Int) : Bytes :=
  let ds := natDigits c
  let x : Int := (ds.length : Int) + k - 1
  let es := natDigits x.natAbs
  ds.take 1 ++ (if ds.length ≤ 1 then [] else 46 :: ds.drop 1) ++ 101 :: (if x < 0 then 45 else 43) ::
    (if es.length < 2 then 48 :: es else es)

/-- Is the exponent notation used?  `%v` on a float is `strconv`'s `'g'` with the shortest precision: the exponent
notation is used if the decimal exponent is less than -4 or at least 6 (`fmt.Println(1000000.0)` prints `1e+06`).
[part of `%v` on float64, internal/tson/serialization.go:74-83, 386, 425] -/
def usesExp (c : Nat) (k : Int) : Bool :=
  let x : Int := ((natDigits c).length : Int) + k - 1
  decide (x < -4) || decide (6 ≤ x)

/-- `fmt.Sprintf("%v", f)` on a `float64` (internal/tson/serialization.go:74-83, 311, 349, 386). -/
def fmtFloat : F64 → Bytes
  | .nan => b!"NaN"
  | .inf neg => if neg then b!"-Inf" else b!"+Inf"
  | .fin neg m e h =>
    let ck := shortest neg m e h
    let body := if usesExp ck.1 ck.2 then fmtExp ck.1 ck.2 else fmtPlain ck.1 ck.2
    if neg then 45 :: body else body

example : fmtFloat F64.zero = b!"0" := by decide
example : fmtFloat (F64.ofInt (-17)) = b!"-17" := by decide +kernel
example : fmtFloat ((F64.ofRatio false 1 10).getD .nan) = b!"0.1" := by decide +kernel

end Verif
