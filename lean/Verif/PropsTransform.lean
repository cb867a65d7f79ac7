import Verif.PropsExpQuery
/-
Property C62: the values of readings inside slices.
-/
namespace Verif

/-! ### Specification -/

/-- What is found along names of members and indexes of elements. -/
def Js.along : Js → List (Bytes ⊕ Nat) → Option Js
  | j, [] => some j
  | .obj m, .inl k :: st => (mget m k).bind fun c => c.along st
  | .arr l, .inr i :: st => (l[i]?).bind fun c => c.along st
  | _, _ :: _ => none
termination_by _ st => st

/-- The value `w` is reached along maps that are no readings and along slices. -/
inductive PassesTo : Js → List (Bytes ⊕ Nat) → Js → Prop
  | here (j) : PassesTo j [] j
  | member (m k c st w) : Plain m → mget m k = some c → PassesTo c st w → PassesTo (.obj m) (.inl k :: st) w
  | element (l : List Js) (i c st w) : l[i]? = some c → PassesTo c st w → PassesTo (.arr l) (.inr i :: st) w

/-! ### Lemmas -/

theorem transformL_map (l : List Js) : jsTransformL l = l.map jsTransform := by
  induction l with
  | nil => rw [jsTransformL]; rfl
  | cons j l ih => rw [jsTransformL, ih]; rfl

theorem along_nil (j : Js) : j.along [] = some j := by unfold Js.along; rfl

theorem PassesTo.transform {j w : Js} {st : List (Bytes ⊕ Nat)} (h : PassesTo j st w) :
    (jsTransform j).along st = some (jsTransform w) := by
  induction h with
  | here j => exact along_nil _
  | member m k c st w hp hm _ ih =>
    rw [transform_plain hp]
    unfold Js.along
    rw [mget_transformF, hm]
    exact ih
  | element l i c st w hl _ ih =>
    rw [jsTransform, transformL_map]
    unfold Js.along
    rw [List.getElem?_map, hl]
    exact ih

/-! ### C62 -/

/-- C62: also inside slices, of any depth, a reading becomes its value, a slice keeps its length, and anything else that
is no map or slice stays. -/
theorem C62_elements {j w : Js} {st : List (Bytes ⊕ Nat)} (h : PassesTo j st w) :
    (∀ r t v, w = .obj r → mget r b!"timestamp" = some t → mget r b!"value" = some v →
      (jsTransform j).along st = some (nilAsEmpty v)) ∧
    (∀ l, w = .arr l → ∃ l', (jsTransform j).along st = some (.arr l') ∧ l'.length = l.length) ∧
    (w.IsAtom → (jsTransform j).along st = some w) := by
  refine ⟨fun r t v e ht hv => ?_, fun l e => ?_, fun ha => ?_⟩
  · subst e; rw [h.transform, transform_sensor ht hv]
  · subst e; exact ⟨l.map jsTransform, by rw [h.transform, jsTransform, transformL_map], by simp⟩
  · rw [h.transform, transform_atom ha]

/-- A reading in a slice, and a string beside it. -/
def sliceDoc : Js := .obj [(b!"Doors", .arr [.obj [(b!"value", .bool true), (b!"timestamp", .num .zero)], .str b!"x"])]

example : (jsTransform sliceDoc).along [.inl b!"Doors", .inr 0] = some (.bool true) :=
  (C62_elements (.member _ b!"Doors" _ _ _ (by unfold Plain; simp [mget]) rfl
    (.element _ 0 _ [] _ rfl (.here _)))).1 _ (.num .zero) (.bool true) rfl rfl rfl

end Verif
