import Verif.SpecApply
/-
When an operation on an object document succeeds, fails and panics: statements used by C56 and C57.
They speak about the document and the keys of the path only.
-/
namespace Verif

/-- The text consists of the decimal digits of the number, perhaps with leading zeros. -/
def DecimalText (s : Bytes) (n : Nat) : Prop :=
  ∃ ds : List Nat, ds ≠ [] ∧ (∀ d ∈ ds, d < 10) ∧ s = ds.map (fun d => UInt8.ofNat (48 + d)) ∧
    n = ds.foldl (fun a d => 10 * a + d) 0

/-- The text denotes the `int`: decimal digits after an optional sign, in the range of 64 bits. -/
def IndexText (s : Bytes) (i : Int) : Prop :=
  (-(2 ^ 63) ≤ i ∧ i < 2 ^ 63) ∧
    ∃ n : Nat, (DecimalText s n ∧ i = n) ∨ (∃ r, s = 43 :: r ∧ DecimalText r n ∧ i = n) ∨
      (∃ r, s = 45 :: r ∧ DecimalText r n ∧ i = -n)

/-- No member `k`, or a nil one. -/
def Absent (m : List (Bytes × Tson)) (k : Bytes) : Prop := ∀ c, mget m k = some c → c = .null

/-- The keys below a member that has to be created allow a write: no key is a number, except that the last one may be
one that is not negative (then an array is created). -/
inductive FreshWrite : List Bytes → Prop
  | key (k) : atoi k = none → FreshWrite [k]
  | index (k i) : atoi k = some i → 0 ≤ i → FreshWrite [k]
  | down (k ks) : atoi k = none → FreshWrite ks → FreshWrite (k :: ks)

/-- The keys below a member that has to be created lead to a negative number. -/
inductive FreshPanic : List Bytes → Prop
  | index (k ks i) : atoi k = some i → i < 0 → FreshPanic (k :: ks)
  | down (k ks) : atoi k = none → FreshPanic ks → FreshPanic (k :: ks)

/-- A write of a supported value at this location succeeds: the path leads through objects to a member of an object, to
an index of an array that is not negative (what follows is ignored), or to a member to be created. -/
inductive CanWrite : Tson → List Bytes → Prop
  | last (m k) : CanWrite (.obj m) [k]
  | down (m k c ks) : mget m k = some (.obj c) → ks ≠ [] → CanWrite (.obj c) ks → CanWrite (.obj m) (k :: ks)
  | array (m k l i j ks) : mget m k = some (.arr l) → atoi i = some j → 0 ≤ j → CanWrite (.obj m) (k :: i :: ks)
  | fresh (m k ks) : Absent m k → FreshWrite ks → CanWrite (.obj m) (k :: ks)

/-- A write of a supported value at this location panics: the path leads through objects past a leaf, or to a negative
index of an array that exists or has to be created. -/
inductive WritePanics : Tson → List Bytes → Prop
  | leaf (m k p ts ks) : mget m k = some (.leaf p ts) → ks ≠ [] → WritePanics (.obj m) (k :: ks)
  | down (m k c ks) : mget m k = some (.obj c) → ks ≠ [] → WritePanics (.obj c) ks → WritePanics (.obj m) (k :: ks)
  | array (m k l i j ks) : mget m k = some (.arr l) → atoi i = some j → j < 0 → WritePanics (.obj m) (k :: i :: ks)
  | fresh (m k ks) : Absent m k → FreshPanic ks → WritePanics (.obj m) (k :: ks)

/-- A removal at this location succeeds: the path leads through objects to a member of an object (which need not exist)
or to an existing element of an array (what follows is ignored). -/
inductive CanRemove : Tson → List Bytes → Prop
  | last (m k) : CanRemove (.obj m) [k]
  | down (m k c ks) : mget m k = some (.obj c) → ks ≠ [] → CanRemove (.obj c) ks → CanRemove (.obj m) (k :: ks)
  | array (m k l i j ks) : mget m k = some (.arr l) → atoi i = some j → 0 ≤ j → j < l.length →
      CanRemove (.obj m) (k :: i :: ks)

/-- A removal at this location panics: the path leads through objects past a leaf, or to an index outside of an
array. -/
inductive RemovePanics : Tson → List Bytes → Prop
  | leaf (m k p ts ks) : mget m k = some (.leaf p ts) → ks ≠ [] → RemovePanics (.obj m) (k :: ks)
  | down (m k c ks) : mget m k = some (.obj c) → ks ≠ [] → RemovePanics (.obj c) ks → RemovePanics (.obj m) (k :: ks)
  | array (m k l i j ks) : mget m k = some (.arr l) → atoi i = some j → ¬ (0 ≤ j ∧ j < l.length) →
      RemovePanics (.obj m) (k :: i :: ks)

end Verif
