/-
Basic vocabulary of the model: byte strings, outcomes of Go calls, Go maps.
-/
namespace Verif

/-- Go `string` / `[]byte`: a sequence of bytes (no UTF-8 assumption).
[type of keys and strings, internal/tson/tson.go:31, 41; texts, internal/tson/serialization.go:37, 443] -/
abbrev Bytes := List UInt8

open Lean in
/-- `b!"abc"` is the byte string of an ASCII literal (elaborated to an explicit list of bytes). -/
macro:max "b!" s:str : term => do
  let bs := s.getString.toUTF8.toList
  let elems ← bs.mapM fun b => `(($(quote b.toNat) : UInt8))
  `(([ $(elems.toArray),* ] : List UInt8))

/-- Outcome of a Go call: a value, a non-nil `error`, or a panic.
Error texts are not modelled.
[e.g. internal/tsonpatch/tsonpatch.go:142-149; panics e.g. internal/logument/logument.go:40] -/
inductive Res (α : Type u) where
  | ok (a : α)
  | err
  | panic
deriving DecidableEq, Repr

namespace Res

/-- The outcome is a normal return with nil error.
[`err == nil`, e.g. internal/tsonpatch/tsonpatch.go:144; internal/logument/logument.go:532] -/
def isOk : Res α → Bool
  | .ok _ => true
  | _ => false

/-- Sequencing: `if err != nil { return nil, err }`, panics propagate.
[e.g. internal/tsonpatch/tsonpatch.go:144-146] -/
def bind (r : Res α) (f : α → Res β) : Res β :=
  match r with
  | .ok a => f a
  | .err => .err
  | .panic => .panic

/-- Post-processing of a successful result. [e.g. internal/tson/tson.go:233-238] -/
def map (f : α → β) (r : Res α) : Res β :=
  match r with
  | .ok a => .ok (f a)
  | .err => .err
  | .panic => .panic

@[simp] theorem bind_ok (a : α) (f : α → Res β) : (Res.ok a).bind f = f a := rfl
@[simp] theorem bind_err (f : α → Res β) : (Res.err : Res α).bind f = .err := rfl
@[simp] theorem bind_panic (f : α → Res β) : (Res.panic : Res α).bind f = .panic := rfl
@[simp] theorem map_ok (a : α) (f : α → β) : (Res.ok a).map f = .ok (f a) := rfl
@[simp] theorem map_err (f : α → β) : (Res.err : Res α).map f = .err := rfl
@[simp] theorem map_panic (f : α → β) : (Res.panic : Res α).map f = .panic := rfl

theorem bind_eq_ok {r : Res α} {f : α → Res β} {b : β} :
    r.bind f = .ok b ↔ ∃ a, r = .ok a ∧ f a = .ok b := by
  cases r <;> simp

theorem map_eq_ok {r : Res α} {f : α → β} {b : β} :
    r.map f = .ok b ↔ ∃ a, r = .ok a ∧ f a = b := by
  cases r <;> simp

end Res

/-! ### Go maps

A Go map is an association list.  The list order is the order in which `range` visits the map;
theorems quantify over the list and therefore over every iteration order.  `mset` is `m[k] = v`,
`mdel` is `delete(m, k)`, `mget` is `v, ok := m[k]`. -/

section Map
variable {κ : Type u} {ν : Type v} [DecidableEq κ]

/-- `v, ok := m[k]`. [e.g. internal/tson/tson.go:64; internal/tsonpatch/tsonpatch.go:210] -/
def mget : List (κ × ν) → κ → Option ν
  | [], _ => none
  | (k', v) :: m, k => if k' = k then some v else mget m k

/-- `m[k] = v` (an existing entry keeps its position). [e.g. internal/tsonpatch/tsonpatch.go:184, 231] -/
def mset : List (κ × ν) → κ → ν → List (κ × ν)
  | [], k, v => [(k, v)]
  | (k', v') :: m, k, v => if k' = k then (k', v) :: m else (k', v') :: mset m k v

/-- `delete(m, k)`. [internal/tsonpatch/tsonpatch.go:201] -/
def mdel : List (κ × ν) → κ → List (κ × ν)
  | [], _ => []
  | (k', v') :: m, k => if k' = k then mdel m k else (k', v') :: mdel m k

/-- The keys in iteration order.
[`range` over a map, e.g. internal/logument/logument.go:113, 645; internal/tson/serialization.go:111] -/
def mkeys (m : List (κ × ν)) : List κ := m.map Prod.fst

@[simp] theorem mget_nil (k : κ) : mget ([] : List (κ × ν)) k = none := rfl

theorem mget_cons (k' : κ) (v : ν) (m : List (κ × ν)) (k : κ) :
    mget ((k', v) :: m) k = if k' = k then some v else mget m k := rfl

theorem mget_mset_self (m : List (κ × ν)) (k : κ) (v : ν) : mget (mset m k v) k = some v := by
  induction m with
  | nil => simp [mset, mget]
  | cons p m ih =>
    obtain ⟨k', v'⟩ := p
    by_cases h : k' = k <;> simp [mset, mget, h, ih]

theorem mget_mset_ne (m : List (κ × ν)) {k k₂ : κ} (v : ν) (hne : k₂ ≠ k) :
    mget (mset m k v) k₂ = mget m k₂ := by
  induction m with
  | nil => simp [mset, mget, Ne.symm hne]
  | cons p m ih =>
    obtain ⟨k', v'⟩ := p
    by_cases h : k' = k
    · subst h; simp [mset, mget, Ne.symm hne]
    · simp only [mset, h, if_false, mget, ih]

theorem mget_mset (m : List (κ × ν)) (k k₂ : κ) (v : ν) :
    mget (mset m k v) k₂ = if k₂ = k then some v else mget m k₂ := by
  by_cases h : k₂ = k
  · subst h; simp [mget_mset_self]
  · simp [mget_mset_ne m v h, h]

theorem mget_mdel_self (m : List (κ × ν)) (k : κ) : mget (mdel m k) k = none := by
  induction m with
  | nil => simp [mdel]
  | cons p m ih =>
    obtain ⟨k', v'⟩ := p
    by_cases h : k' = k <;> simp [mdel, mget, h, ih]

theorem mget_mdel_ne (m : List (κ × ν)) {k k₂ : κ} (hne : k₂ ≠ k) :
    mget (mdel m k) k₂ = mget m k₂ := by
  induction m with
  | nil => simp [mdel]
  | cons p m ih =>
    obtain ⟨k', v'⟩ := p
    by_cases h : k' = k
    · subst h; simp [mdel, mget, Ne.symm hne, ih]
    · simp only [mdel, h, if_false, mget, ih]

theorem mget_eq_none {m : List (κ × ν)} {k : κ} : mget m k = none ↔ k ∉ mkeys m := by
  induction m with
  | nil => simp [mkeys]
  | cons p m ih =>
    obtain ⟨k', v'⟩ := p
    by_cases h : k' = k
    · subst h; simp [mget, mkeys]
    · have := ih
      simp only [mkeys] at this
      simp [mget, mkeys, h, this, Ne.symm h]

theorem mget_isSome {m : List (κ × ν)} {k : κ} : (∃ v, mget m k = some v) ↔ k ∈ mkeys m := by
  constructor
  · rintro ⟨v, hv⟩
    refine Classical.byContradiction fun h => ?_
    rw [mget_eq_none.2 h] at hv; simp at hv
  · intro h
    cases hv : mget m k with
    | none => exact absurd h (mget_eq_none.1 hv)
    | some v => exact ⟨v, rfl⟩

theorem mget_mem {m : List (κ × ν)} {k : κ} {v : ν} (h : mget m k = some v) : (k, v) ∈ m := by
  induction m with
  | nil => simp at h
  | cons p m ih =>
    obtain ⟨k', v'⟩ := p
    by_cases hk : k' = k
    · subst hk; simp [mget] at h; simp [h]
    · simp [mget, hk] at h
      exact List.mem_cons_of_mem _ (ih h)

theorem mem_mget {m : List (κ × ν)} (hn : (mkeys m).Nodup) {k : κ} {v : ν} (h : (k, v) ∈ m) :
    mget m k = some v := by
  induction m with
  | nil => simp at h
  | cons p m ih =>
    obtain ⟨k', v'⟩ := p
    simp only [mkeys, List.map_cons, List.nodup_cons] at hn
    rcases List.mem_cons.1 h with h | h
    · cases h; simp [mget]
    · have hk : k' ≠ k := by
        rintro rfl
        exact hn.1 (List.mem_map.2 ⟨_, h, rfl⟩)
      simp [mget, hk]
      exact ih hn.2 h

theorem mkeys_mset (m : List (κ × ν)) (k : κ) (v : ν) :
    mkeys (mset m k v) = if k ∈ mkeys m then mkeys m else mkeys m ++ [k] := by
  induction m with
  | nil => simp [mset, mkeys]
  | cons p m ih =>
    obtain ⟨k', v'⟩ := p
    by_cases h : k' = k
    · subst h; simp [mset, mkeys]
    · simp only [mkeys] at ih
      simp only [mset, h, if_false, mkeys, List.map_cons, ih, List.mem_cons, Ne.symm h, false_or]
      split <;> simp_all

theorem mem_mkeys_mset {m : List (κ × ν)} {k k₂ : κ} {v : ν} :
    k₂ ∈ mkeys (mset m k v) ↔ k₂ = k ∨ k₂ ∈ mkeys m := by
  rw [← mget_isSome, ← mget_isSome]
  rw [mget_mset]
  by_cases h : k₂ = k <;> simp [h]

theorem nodup_mkeys_mset {m : List (κ × ν)} (h : (mkeys m).Nodup) (k : κ) (v : ν) :
    (mkeys (mset m k v)).Nodup := by
  rw [mkeys_mset]
  split
  · exact h
  · rename_i hk
    rw [List.nodup_append]
    refine ⟨h, by simp, ?_⟩
    intro a ha b hb
    simp at hb; subst hb
    rintro rfl; exact hk ha

theorem mkeys_mdel (m : List (κ × ν)) (k : κ) :
    mkeys (mdel m k) = (mkeys m).filter (fun x => decide (x ≠ k)) := by
  induction m with
  | nil => simp [mdel, mkeys]
  | cons p m ih =>
    obtain ⟨k', v'⟩ := p
    simp only [mkeys] at ih
    by_cases h : k' = k
    · subst h; simp [mdel, mkeys, ih]
    · simp [mdel, mkeys, h, ih]

theorem nodup_mkeys_mdel {m : List (κ × ν)} (h : (mkeys m).Nodup) (k : κ) :
    (mkeys (mdel m k)).Nodup := by
  rw [mkeys_mdel]; exact h.filter _

end Map

end Verif
