import Verif.PropsDamage
/-
C10, C27: what a whole patch leaves behind.
-/
namespace Verif

/-- What the caller's document looks like after `ApplyPatch(t, ops)`, whatever the outcome. -/
def docAfterPatch (t : Tson) (ops : List Op) : Option Tson :=
  let r := Heap.store [] t
  (applyPatch r.1 r.2 ops).1.view r.2

theorem docAfterPatch_eq {m : List (Bytes × Tson)} (hm : (Tson.obj m).Wf) (ops : List Op) :
    docAfterPatch (.obj m) ops = some (applyPatchT (.obj m) ops).1 := by
  obtain ⟨-, F, hF, -⟩ := store_rep [] (.obj m) hm
  obtain ⟨a, ha⟩ := store_obj [] m
  rw [ha] at hF
  obtain ⟨G, hG, -⟩ := applyPatchLoop_obj ops hF .null
  unfold docAfterPatch applyPatch
  dsimp only
  rw [ha]
  exact hG.view

/-- C27: after a patch that is applied, the caller's document is the one with all its operations applied. -/
theorem C27_caller {m : List (Bytes × Tson)} (hm : (Tson.obj m).Wf) {ops : List Op} {t : Tson} (h : replay (.obj m) ops = .ok t) :
    docAfterPatch (.obj m) ops = some t := by
  rw [docAfterPatch_eq hm]
  rw [replay_eq ops hm] at h
  cases hT : (applyPatchT (.obj m) ops).2 with
  | ok => rw [hT] at h; cases h; rfl
  | err => rw [hT] at h; cases h
  | panic => rw [hT] at h; cases h

/-- **C10 for patches.**  A patch that fails has been applied up to an operation that fails in the same way, and the caller's document is what this operation
leaves of the document that the ones before it made (for which see `C10_error_exact` and `C10_panic_leaves`); the operations after it have no effect. -/
theorem C10_patch_exact {m : List (Bytes × Tson)} (hm : (Tson.obj m).Wf) {ops : List Op} (h : (patchDoc (.obj m) ops).isOk = false) :
    ∃ (pre : List Op) (op : Op) (post : List Op) (mt : List (Bytes × Tson)), ops = pre ++ op :: post ∧ replay (.obj m) pre = .ok (.obj mt) ∧ (Tson.obj mt).Wf ∧
      (applyDoc (.obj mt) op).isOk = false ∧ patchDoc (.obj m) ops = applyDoc (.obj mt) op ∧ docAfterPatch (.obj m) ops = docAfter (.obj mt) op := by
  have hne : ops ≠ [] := by
    rintro rfl
    unfold patchDoc at h
    simp only [C27_empty_fails] at h
    revert h
    simp [Heap.view, Heap.read, Res.isOk]
  rw [patchDoc_eq hm ops hne] at h ⊢
  rw [docAfterPatch_eq hm]
  clear hne
  induction ops generalizing m with
  | nil => simp [replay, Res.isOk] at h
  | cons op ops ih =>
    rw [replay] at h ⊢
    rw [applyDoc_eq hm] at h ⊢
    rw [applyPatchT]
    obtain ⟨m', hm'⟩ := applyOpT_obj m op
    have hd := docAfter_eq_obj hm op
    have ha := applyDoc_eq hm op
    have hok := fun t' => applyOpT_ok_obj hm op (t' := t')
    have hwf := fun t' => applyOpT_wf hm op (t' := t')
    rcases hT : applyOpT (.obj m) op with ⟨t', r'⟩
    rw [hT] at h hm' hd ha hok hwf
    dsimp only at hm' hd hok hwf
    subst hm'
    cases r' with
    | ok u =>
      simp only [Res.bind] at h ⊢
      have h1 := hok u rfl
      have h2 := hwf u rfl
      subst h1
      obtain ⟨pre, o, post, mt, e1, e2, e3, e4, e5, e6⟩ := ih h2 h
      refine ⟨op :: pre, o, post, mt, by rw [e1]; rfl, ?_, e3, e4, e5, e6⟩
      rw [replay, ha]
      exact e2
    | err => exact ⟨[], op, ops, m, rfl, rfl, hm, by rw [ha]; rfl, by rw [ha]; rfl, hd.symm⟩
    | panic => exact ⟨[], op, ops, m, rfl, rfl, hm, by rw [ha]; rfl, by rw [ha]; rfl, hd.symm⟩

/-- The first operation is kept, the second one does damage, the third one is never reached. -/
example : patchDoc (.obj [(b!"b", .obj [(b!"c", .leaf (.bool true) 2)])]) [⟨.add, b!"a", .bool true, 1⟩, ⟨.replace, b!"b/c", .nil, 9⟩, ⟨.add, b!"d", .bool true, 1⟩] = .err ∧
    docAfterPatch (.obj [(b!"b", .obj [(b!"c", .leaf (.bool true) 2)])]) [⟨.add, b!"a", .bool true, 1⟩, ⟨.replace, b!"b/c", .nil, 9⟩, ⟨.add, b!"d", .bool true, 1⟩] =
      some (.obj [(b!"b", .null), (b!"a", .leaf (.bool true) 1)]) := by decide

end Verif
