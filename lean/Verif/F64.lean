import Verif.Text
/-
IEEE-754 binary64 numbers (Go `float64`) as far as the code uses them:
equality, conversion from and to integers, correctly rounded decimal input.
Printing is in `Verif.FloatText`.
-/
namespace Verif

/-- `m * 2^e` is the canonical form of a finite binary64 magnitude. [numbers of internal/tson/tson.go:41] -/
def F64.canon (m : Nat) (e : Int) : Bool :=
  decide (m < 2 ^ 53) && decide (-1074 ≤ e) && decide (e ≤ 971) &&
    (decide (2 ^ 52 ≤ m) || decide (e = -1074))

/-- A Go `float64`.  All NaNs are identified (payloads are unobservable for the code).
[type of internal/tson/tson.go:41] -/
inductive F64 where
  | nan
  | inf (neg : Bool)
  | fin (neg : Bool) (m : Nat) (e : Int) (h : F64.canon m e = true)
deriving DecidableEq, Repr

namespace F64

/-- Go `==` on `float64`: NaN differs from everything, `-0 == 0`.
[used at internal/tsonpatch/tsonpatch.go:693; internal/logument/logument.go:461] -/
def feq : F64 → F64 → Bool
  | .inf a, .inf b => a == b
  | .fin a m e _, .fin b m' e' _ => (m == 0 && m' == 0) || (a == b && m == m' && e == e')
  | _, _ => false

/-- `num / den` rounded to the nearest integer, ties to even.
[part of number conversion, internal/tson/serialization.go:666; internal/tson/tson.go:472] -/
def divRound (num den : Nat) : Nat :=
  let q := num / den
  let r := num % den
  if 2 * r < den then q
  else if den < 2 * r then q + 1
  else if q % 2 = 0 then q else q + 1

/-- Round `p / q * 2^(-e)` to an integer, ties to even.
[part of number conversion, internal/tson/serialization.go:666; internal/tson/tson.go:472] -/
def scaleRound (p q : Nat) (e : Int) : Nat :=
  if 0 ≤ e then divRound p (q * 2 ^ e.toNat) else divRound (p * 2 ^ (-e).toNat) q

/-- `⌊log₂ (p / q)⌋` for positive `p`, `q`.
[part of number conversion, internal/tson/serialization.go:666; internal/tson/tson.go:472] -/
def floorLog2 (p q : Nat) : Int :=
  let l : Int := (p.log2 : Int) - (q.log2 : Int)
  -- 2^(l-1) < p/q < 2^(l+1)
  if 0 ≤ l then (if q * 2 ^ l.toNat ≤ p then l else l - 1)
  else (if q ≤ p * 2 ^ (-l).toNat then l else l - 1)

/-- A finite number from mantissa and exponent, if canonical; `none` on overflow.
[part of number conversion, internal/tson/serialization.go:666; internal/tson/tson.go:472] -/
def mk? (neg : Bool) (m : Nat) (e : Int) : Option F64 :=
  if h : canon m e = true then some (.fin neg m e h) else none

/-- The binary64 number nearest to `p / q` (`q > 0`), ties to even;
`none` if it overflows (`strconv.ErrRange`). [part of `strconv.ParseFloat`, internal/tson/serialization.go:666] -/
def ofRatio (neg : Bool) (p q : Nat) : Option F64 :=
  if p = 0 then mk? neg 0 (-1074)
  else
    let e := max (floorLog2 p q - 52) (-1074)
    let m := scaleRound p q e
    if m = 2 ^ 53 then mk? neg (2 ^ 52) (e + 1) else mk? neg m e

/-- Positive zero. [zero value of internal/tson/tson.go:41] -/
def zero : F64 := .fin false 0 (-1074) (by decide)

/-- Go `float64(n)` for an integer `n`
(internal/tsonpatch/tsonpatch.go:189, 240, 318: `case int`).
An `int` never overflows binary64; outside the `int` range the model returns infinity. -/
def ofInt (n : Int) : F64 := (ofRatio (decide (n < 0)) n.natAbs 1).getD (.inf (decide (n < 0)))

/-- Go `int64(f)` on amd64: truncation towards zero; NaN, infinities and values outside the
`int64` range give `math.MinInt64` (internal/tson/tson.go:470). -/
def toInt64 : F64 → Int
  | .nan => minInt64
  | .inf _ => minInt64
  | .fin neg m e _ =>
    let a : Nat := if 0 ≤ e then m * 2 ^ e.toNat else m / 2 ^ (-e).toNat
    let v : Int := if neg then - (a : Int) else a
    if minInt64 ≤ v ∧ v ≤ maxInt64 then v else minInt64

theorem feq_refl_of_ne_nan {f : F64} (h : f ≠ .nan) : feq f f = true := by
  cases f <;> simp_all [feq]

theorem feq_symm (a b : F64) : feq a b = feq b a := by
  cases a <;> cases b <;> simp only [feq] <;> grind

theorem feq_trans {a b c : F64} (h₁ : feq a b = true) (h₂ : feq b c = true) : feq a c = true := by
  cases a <;> cases b <;> cases c <;> simp only [feq] at * <;> grind

end F64

example : F64.ofInt 3 = .fin false (3 * 2 ^ 51) (-51) (by decide) := by decide
example : F64.ofInt (2 ^ 53 + 1) = F64.ofInt (2 ^ 53) := by decide
example : (F64.ofInt (-5)).toInt64 = -5 := by decide

end Verif
