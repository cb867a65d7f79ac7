import Verif.Basic
/-
The string functions of the Go standard library that the code uses
(`strings`, `strconv`), as far as the model needs them.
-/
namespace Verif

/-- The byte `/`. [internal/tson/tson.go:105; internal/tsonpatch/tsonpatch.go:156] -/
abbrev bSlash : UInt8 := 47
/-- The byte `~`. [internal/tson/tson.go:103; internal/tsonpatch/tsonpatch.go:436] -/
abbrev bTilde : UInt8 := 126
/-- The byte `.`. [internal/tsonpatch/tsonpatch.go:155] -/
abbrev bDot : UInt8 := 46
/-- The byte `0`. [internal/tsonpatch/tsonpatch.go:436] -/
abbrev bZero : UInt8 := 48
/-- The byte `1`. [internal/tsonpatch/tsonpatch.go:436] -/
abbrev bOne : UInt8 := 49

/-- `strings.Split(s, sep)` for a one-byte separator
(used at internal/tson/tson.go:105, internal/tsonpatch/tsonpatch.go:156). -/
def split (sep : UInt8) : Bytes → List Bytes
  | [] => [[]]
  | c :: r =>
    if c = sep then [] :: split sep r
    else match split sep r with
      | [] => [[c]]
      | p :: ps => (c :: p) :: ps

/-- `strings.NewReplacer("~1", "/", "~0", "~").Replace`
(internal/tsonpatch/tsonpatch.go:437, internal/tson/tson.go:103, internal/logument/logument.go:17):
one left-to-right pass. -/
def decode : Bytes → Bytes
  | [] => []
  | [c] => [c]
  | c :: d :: r =>
    if c = bTilde ∧ d = bOne then bSlash :: decode r
    else if c = bTilde ∧ d = bZero then bTilde :: decode r
    else c :: decode (d :: r)

/-- `strings.NewReplacer("~", "~0", "/", "~1").Replace`
(internal/tsonpatch/tsonpatch.go:436). -/
def encode : Bytes → Bytes
  | [] => []
  | c :: r =>
    if c = bTilde then bTilde :: bZero :: encode r
    else if c = bSlash then bTilde :: bOne :: encode r
    else c :: encode r

/-- `strings.ReplaceAll(path, ".", "/")` (internal/tsonpatch/tsonpatch.go:155). -/
def dotsToSlashes (s : Bytes) : Bytes := s.map fun c => if c = bDot then bSlash else c

/-- `strings.HasPrefix(s, prefix)` (internal/logument/logument.go:611, 648). -/
def hasPrefix (s pre : Bytes) : Bool := pre.isPrefixOf s

/-- Is the byte an ASCII digit?
[digits accepted by `strconv`, used at internal/tsonpatch/tsonpatch.go:428; internal/tson/tson.go:70; internal/tson/serialization.go:666, 688] -/
def isDigit (c : UInt8) : Bool := 48 ≤ c && c ≤ 57

/-- Value of an ASCII digit.
[part of `strconv.Atoi`, internal/tsonpatch/tsonpatch.go:428; internal/tson/tson.go:70, 90] -/
def digitVal (c : UInt8) : Nat := c.toNat - 48

/-- Value of a string of digits, most significant first, with an accumulator.
[part of `strconv.Atoi`, internal/tsonpatch/tsonpatch.go:428; internal/tson/tson.go:70, 90] -/
def digitsVal (acc : Nat) : Bytes → Nat
  | [] => acc
  | c :: r => digitsVal (acc * 10 + digitVal c) r

/-- Decimal digits of a natural number, most significant first (fuel bounds the recursion).
[part of `%d` and `strconv.FormatInt`, internal/tson/serialization.go:59, 240] -/
def natDigitsAux : Nat → Nat → Bytes → Bytes
  | 0, _, acc => acc
  | fuel + 1, n, acc =>
    let acc' := UInt8.ofNat (48 + n % 10) :: acc
    if n / 10 = 0 then acc' else natDigitsAux fuel (n / 10) acc'

/-- Decimal digits of a natural number (`strconv.FormatInt`, `%d` on non-negative numbers).
[used at internal/tson/serialization.go:59, 240] -/
def natDigits (n : Nat) : Bytes := natDigitsAux (n + 1) n []

/-- `strconv.Itoa` / `strconv.FormatInt(n, 10)` / `fmt.Sprintf("%d", n)`.
[used at internal/tson/serialization.go:59, 240; internal/tsonpatch/tsonpatch.go:441] -/
def itoa (n : Int) : Bytes :=
  if n < 0 then 45 :: natDigits n.natAbs else natDigits n.toNat

/-- Largest `int64`.
[range of `strconv.ParseInt`, internal/tson/serialization.go:688; internal/tsonpatch/tsonpatch.go:428] -/
abbrev maxInt64 : Int := 9223372036854775807
/-- Smallest `int64`.
[range of `strconv.ParseInt`, internal/tson/serialization.go:688; internal/tsonpatch/tsonpatch.go:428] -/
abbrev minInt64 : Int := -9223372036854775808

/-- Unsigned part of `strconv.Atoi`/`ParseInt(·, 10, 64)`: at least one digit, digits only.
[used at internal/tsonpatch/tsonpatch.go:428; internal/tson/tson.go:70, 90; internal/tson/serialization.go:688] -/
def parseDigits (s : Bytes) : Option Nat :=
  if s ≠ [] ∧ s.all isDigit then some (digitsVal 0 s) else none

/-- The value of an optionally signed decimal number.
[part of `strconv.Atoi`, internal/tsonpatch/tsonpatch.go:428; internal/tson/tson.go:70, 90] -/
def signedDigits : Bytes → Option Int
  | [] => none
  | c :: r =>
    if c = 43 then (parseDigits r).map Int.ofNat
    else if c = 45 then (parseDigits r).map fun n => - Int.ofNat n
    else (parseDigits (c :: r)).map Int.ofNat

/-- `strconv.Atoi` (and `strconv.ParseInt(s, 10, 64)`): optional sign, digits, int64 range;
`none` is the error return.
[used at internal/tsonpatch/tsonpatch.go:428; internal/tson/tson.go:70, 90; internal/tson/serialization.go:688] -/
def atoi (s : Bytes) : Option Int :=
  (signedDigits s).bind fun v => if minInt64 ≤ v ∧ v ≤ maxInt64 then some v else none

/-! ### Lemmas -/

theorem decode_encode (s : Bytes) : decode (encode s) = s := by
  induction s with
  | nil => rfl
  | cons c r ih =>
    by_cases h1 : c = bTilde
    · subst h1
      have : ¬ (bZero = bOne) := by decide
      simp [encode, decode, ih, this]
    · by_cases h2 : c = bSlash
      · subst h2
        have : ¬ (bSlash = bTilde) := by decide
        simp [encode, decode, ih, this]
      · simp only [encode, h1, h2, if_false]
        cases h : encode r with
        | nil => rw [h] at ih; simp [decode] at ih; simp [decode, ← ih]
        | cons d t => simp [decode, h1, ← h, ih]

theorem split_ne_nil (sep : UInt8) (s : Bytes) : split sep s ≠ [] := by
  cases s with
  | nil => simp [split]
  | cons c r =>
    simp only [split]
    split
    · simp
    · split <;> simp

/-- Joining pieces with a separator.
[specification of the inverse of `strings.Split`, internal/tson/tson.go:105; internal/tsonpatch/tsonpatch.go:156] -/
def joinWith (sep : UInt8) : List Bytes → Bytes
  | [] => []
  | [p] => p
  | p :: q :: ps => p ++ sep :: joinWith sep (q :: ps)

theorem split_of_not_mem (sep : UInt8) (s : Bytes) (h : sep ∉ s) : split sep s = [s] := by
  induction s with
  | nil => rfl
  | cons c r ih =>
    have hc : c ≠ sep := fun e => h (by simp [e])
    have hr : sep ∉ r := fun e => h (by simp [e])
    simp [split, hc, ih hr]

theorem split_append_sep (sep : UInt8) (p s : Bytes) (h : sep ∉ p) :
    split sep (p ++ sep :: s) = p :: split sep s := by
  induction p with
  | nil => simp [split]
  | cons c r ih =>
    have hc : c ≠ sep := fun e => h (by simp [e])
    have hr : sep ∉ r := fun e => h (by simp [e])
    simp [split, hc, ih hr]

theorem split_joinWith (sep : UInt8) (ps : List Bytes) (hne : ps ≠ [])
    (h : ∀ p ∈ ps, sep ∉ p) : split sep (joinWith sep ps) = ps := by
  induction ps with
  | nil => exact absurd rfl hne
  | cons p ps ih =>
    cases ps with
    | nil => simpa [joinWith] using split_of_not_mem sep p (h p (by simp))
    | cons q qs =>
      simp only [joinWith]
      rw [split_append_sep sep p _ (h p (by simp))]
      rw [ih (by simp) (fun x hx => h x (by simp [hx]))]

theorem joinWith_split (sep : UInt8) (s : Bytes) : joinWith sep (split sep s) = s := by
  induction s with
  | nil => rfl
  | cons c r ih =>
    simp only [split]
    cases hs : split sep r with
    | nil => exact absurd hs (split_ne_nil sep r)
    | cons p ps =>
      rw [hs] at ih
      split
      · rename_i hc; subst hc; simp [joinWith, ih]
      · cases ps with
        | nil => simp [joinWith] at ih ⊢; exact ih
        | cons q qs => simp [joinWith] at ih ⊢; exact ih

theorem split_no_sep (sep : UInt8) (s : Bytes) : ∀ p ∈ split sep s, sep ∉ p := by
  induction s with
  | nil => simp [split]
  | cons c r ih =>
    simp only [split]
    split
    · intro p hp; simp at hp
      rcases hp with rfl | hp
      · simp
      · exact ih p hp
    · rename_i hc
      cases hs : split sep r with
      | nil => exact absurd hs (split_ne_nil sep r)
      | cons q qs =>
        rw [hs] at ih
        intro p hp; simp at hp
        rcases hp with rfl | hp
        · have := ih q (by simp)
          simp [this, Ne.symm hc]
        · exact ih p (by simp [hp])

/-! Digits -/

theorem isDigit_ofNat {d : Nat} (h : d < 10) : isDigit (UInt8.ofNat (48 + d)) = true := by
  match d, h with
  | 0, _ | 1, _ | 2, _ | 3, _ | 4, _ | 5, _ | 6, _ | 7, _ | 8, _ | 9, _ => decide

theorem toNat_digit {d : Nat} (h : d < 10) : digitVal (UInt8.ofNat (48 + d)) = d := by
  match d, h with
  | 0, _ | 1, _ | 2, _ | 3, _ | 4, _ | 5, _ | 6, _ | 7, _ | 8, _ | 9, _ => decide

theorem digitsVal_nil (acc : Nat) : digitsVal acc [] = acc := rfl

theorem digitsVal_cons (acc : Nat) (c : UInt8) (r : Bytes) :
    digitsVal acc (c :: r) = digitsVal (acc * 10 + digitVal c) r := by rfl

theorem digitsVal_append (acc : Nat) (s t : Bytes) :
    digitsVal acc (s ++ t) = digitsVal (digitsVal acc s) t := by
  induction s generalizing acc with
  | nil => rfl
  | cons c r ih => simp only [digitsVal_cons, List.cons_append, ih]

theorem natDigitsAux_succ (fuel n : Nat) (acc : Bytes) :
    natDigitsAux (fuel + 1) n acc =
      if n / 10 = 0 then UInt8.ofNat (48 + n % 10) :: acc
      else natDigitsAux fuel (n / 10) (UInt8.ofNat (48 + n % 10) :: acc) := rfl

theorem natDigitsAux_append (fuel n : Nat) (acc : Bytes) :
    natDigitsAux fuel n acc = natDigitsAux fuel n [] ++ acc := by
  induction fuel generalizing n acc with
  | zero => simp [natDigitsAux]
  | succ f ih =>
    rw [natDigitsAux_succ, natDigitsAux_succ]
    generalize UInt8.ofNat (48 + n % 10) = d
    split
    · simp
    · rw [ih (n / 10) (d :: acc), ih (n / 10) [d], List.append_assoc]; rfl

theorem digitsVal_natDigitsAux (fuel n : Nat) (h : n < fuel) :
    digitsVal 0 (natDigitsAux fuel n []) = n := by
  induction fuel generalizing n with
  | zero => omega
  | succ f ih =>
    rw [natDigitsAux_succ]
    have hd := toNat_digit (Nat.mod_lt n (by omega : 10 > 0))
    generalize UInt8.ofNat (48 + n % 10) = d at hd
    split
    · rename_i h0
      simp only [digitsVal_cons, digitsVal_nil]; omega
    · rename_i h0
      rw [natDigitsAux_append, digitsVal_append, ih (n / 10) (by omega)]
      simp only [digitsVal_cons, digitsVal_nil]; omega

theorem natDigitsAux_isDigit (fuel n : Nat) : (natDigitsAux fuel n []).all isDigit = true := by
  induction fuel generalizing n with
  | zero => simp [natDigitsAux]
  | succ f ih =>
    rw [natDigitsAux_succ]
    have hd := isDigit_ofNat (Nat.mod_lt n (by omega : 10 > 0))
    generalize UInt8.ofNat (48 + n % 10) = d at hd
    split
    · simp [hd]
    · rw [natDigitsAux_append, List.all_append, ih]; simp [hd]

theorem natDigits_isDigit (n : Nat) : (natDigits n).all isDigit = true := natDigitsAux_isDigit _ _

theorem natDigits_ne_nil (n : Nat) : natDigits n ≠ [] := by
  rw [natDigits, natDigitsAux_succ]
  split
  · simp
  · rw [natDigitsAux_append]; simp

@[simp] theorem digitsVal_natDigits (n : Nat) : digitsVal 0 (natDigits n) = n :=
  digitsVal_natDigitsAux _ _ (by omega)

theorem parseDigits_natDigits (n : Nat) : parseDigits (natDigits n) = some n := by
  simp [parseDigits, natDigits_ne_nil, natDigits_isDigit]

theorem natDigits_injective {m n : Nat} (h : natDigits m = natDigits n) : m = n := by
  have := congrArg (digitsVal 0) h
  simpa using this

theorem isDigit_ne {c d : UInt8} (h : isDigit c = true) (hd : isDigit d = false) : c ≠ d := by
  rintro rfl; simp [h] at hd

theorem natDigits_head (n : Nat) : ∃ c r, natDigits n = c :: r ∧ isDigit c = true := by
  cases h : natDigits n with
  | nil => exact absurd h (natDigits_ne_nil n)
  | cons c r =>
    have := natDigits_isDigit n
    rw [h] at this
    simp at this
    exact ⟨c, r, rfl, this.1⟩

theorem atoi_natDigits {n : Nat} (h : (n : Int) ≤ maxInt64) : atoi (natDigits n) = some (n : Int) := by
  obtain ⟨c, r, hc, hd⟩ := natDigits_head n
  have hp := parseDigits_natDigits n
  rw [hc] at hp ⊢
  have h1 : c ≠ 43 := isDigit_ne hd (by decide)
  have h2 : c ≠ 45 := isDigit_ne hd (by decide)
  have : minInt64 ≤ (n : Int) := by simp only [minInt64]; omega
  simp [atoi, signedDigits, h1, h2, hp, this, h]

theorem not_mem_of_all_isDigit {s : Bytes} (h : s.all isDigit = true) {c : UInt8}
    (hc : isDigit c = false) : c ∉ s := by
  intro hm
  have := List.all_eq_true.1 h c hm
  simp [hc] at this

end Verif
