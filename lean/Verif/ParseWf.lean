import Verif.ParseInv
/-
Parsed documents have distinct keys.
-/
namespace Verif

/-- The parsed value, if any, is well-formed. -/
def WfRes : PRes Tson → Prop
  | .ok v _ => v.Wf
  | _ => True

theorem wfRes_suffixTs (p : Prim) (s : Bytes) : WfRes (suffixTs p s) := by
  rw [suffixTs_lex]
  cases lexOne s with
  | tok t r => cases t <;> trivial
  | _ => trivial

theorem wfRes_afterItem {close : UInt8} (hcl : close = 125 ∨ close = 93) {f : Bytes → PRes Tson} {d : Tson} {s : Bytes} (hd : d.Wf)
    (hf : ∀ r, r.length < s.length → WfRes (f r)) : WfRes (afterItem close f d s) := by
  rw [afterItem_lex hcl]
  cases e : lexOne s with
  | tok t r =>
    cases t with
    | punct c =>
      simp only
      split
      · exact hf r (lexOne_length e)
      · split
        · exact hd
        · trivial
    | _ => trivial
  | _ => trivial

theorem rewrap_wf {v w : Tson} {ts : Int} (hv : v.Wf) (h : rewrap v ts = some w) : w.Wf := by
  cases v with
  | null => cases h
  | leaf p old => cases h; trivial
  | obj m => cases h; exact hv
  | arr l => cases h; exact hv

theorem wf_mset {m : List (Bytes × Tson)} (h : (Tson.obj m).Wf) (k : Bytes) {v : Tson} (hv : v.Wf) : (Tson.obj (mset m k v)).Wf := by
  refine ⟨nodup_mkeys_mset h.1 k v, ?_⟩
  have h2 := (Tson.wfF_iff m).1 h.2
  clear h
  rw [Tson.wfF_iff]
  induction m with
  | nil => intro p hp; rw [List.mem_singleton.1 hp]; exact hv
  | cons q m ih =>
    have ih := ih fun p hp => h2 p (List.mem_cons_of_mem _ hp)
    intro p hp
    rw [mset] at hp
    split at hp
    · rcases List.mem_cons.1 hp with rfl | hp
      · exact hv
      · exact h2 p (List.mem_cons_of_mem _ hp)
    · rcases List.mem_cons.1 hp with rfl | hp
      · exact h2 _ (List.mem_cons_self ..)
      · exact ih p hp

theorem wfL_snoc {l : List Tson} (h : (Tson.arr l).Wf) {v : Tson} (hv : v.Wf) : (Tson.arr (l ++ [v])).Wf := by
  rw [Tson.Wf, Tson.wfL_iff] at *
  intro w hw
  rcases List.mem_append.1 hw with hw | hw
  · exact h w hw
  · rw [List.mem_singleton.1 hw]; exact hv

theorem wfRes_pMembers {n : Nat} (hv : ∀ s : Bytes, s.length < n → WfRes (pVal s))
    (hm : ∀ m (s : Bytes), s.length < n → (Tson.obj m).Wf → WfRes (pMembers m s))
    (m : List (Bytes × Tson)) {s : Bytes} (hl : s.length ≤ n) (hs : (Tson.obj m).Wf) : WfRes (pMembers m s) := by
  rw [pMembers_unfold]
  unfold memStep
  have hw := skipWs_length s
  cases h1 : parseString (skipWs s) with
  | none => trivial
  | some x =>
    obtain ⟨key, r⟩ := x
    have hlr := parseString_length h1
    simp only
    cases h2 : prefixTs r with
    | none => trivial
    | some x =>
      obtain ⟨ts, r2⟩ := x
      have hlr2 := prefixTs_length h2
      simp only
      cases h3 : expect 58 r2 with
      | none => trivial
      | some r3 =>
        have hlr3 := expect_length h3
        simp only [pVal_skipWs]
        have key2 := hv r3 (by omega)
        cases h4 : pVal r3 with
        | more => trivial
        | err => trivial
        | panic => trivial
        | ok v r4 =>
          rw [h4] at key2
          have hlr4 := pVal_shrinks _ _ _ h4
          simp only
          cases h5 : rewrap v ts with
          | none => trivial
          | some w =>
            have hst := wf_mset hs key (rewrap_wf key2 h5)
            exact wfRes_afterItem (.inl rfl) hst fun r hr => hm _ _ (by omega) hst

theorem wfRes_pElems {n : Nat} (hv : ∀ s : Bytes, s.length ≤ n → WfRes (pVal s))
    (he : ∀ l (s : Bytes), s.length < n → (Tson.arr l).Wf → WfRes (pElems l s))
    (l : List Tson) {s : Bytes} (hl : s.length ≤ n) (hs : (Tson.arr l).Wf) : WfRes (pElems l s) := by
  rw [pElems_unfold]
  unfold elemStep
  cases h2 : prefixTs s with
  | none => trivial
  | some x =>
    obtain ⟨ts, r2⟩ := x
    have hlr2 := prefixTs_length h2
    simp only
    have key2 := hv r2 (by omega)
    cases h4 : pVal r2 with
    | more => trivial
    | err => trivial
    | panic => trivial
    | ok v r4 =>
      rw [h4] at key2
      have hlr4 := pVal_shrinks _ _ _ h4
      simp only
      cases h5 : rewrap v ts with
      | none => trivial
      | some w =>
        have hst := wfL_snoc hs (rewrap_wf key2 h5)
        exact wfRes_afterItem (.inr rfl) hst fun r hr => he _ _ (by omega) hst

theorem wfRes_pVal {n : Nat} (hm : ∀ m (s : Bytes), s.length < n → (Tson.obj m).Wf → WfRes (pMembers m s))
    (he : ∀ l (s : Bytes), s.length < n → (Tson.arr l).Wf → WfRes (pElems l s)) {s : Bytes} (hl : s.length ≤ n) :
    WfRes (pVal s) := by
  rw [pVal_lex]
  cases e : lexOne s with
  | tok t r =>
    have hlr := lexOne_length e
    cases t with
    | ts n =>
      simp only
      cases e2 : lexOne r with
      | tok t x => cases t <;> trivial
      | _ => trivial
    | str x => exact wfRes_suffixTs _ _
    | num f => exact wfRes_suffixTs _ _
    | word b =>
      cases b with
      | none => trivial
      | some b => exact wfRes_suffixTs _ _
    | punct c =>
      have hm0 : WfRes (pMembers [] r) := hm [] r (by omega) ⟨by simp [mkeys], trivial⟩
      have he0 : WfRes (pElems [] r) := he [] r (by omega) trivial
      simp only
      by_cases h1 : c = 123
      · simp only [if_pos h1]
        cases e2 : lexOne r with
        | tok t x =>
          cases t with
          | punct d =>
            simp only
            split
            · exact ⟨by simp [mkeys], trivial⟩
            · exact hm0
          | _ => exact hm0
        | _ => exact hm0
      · simp only [if_neg h1]
        by_cases h2 : c = 91
        · simp only [if_pos h2]
          cases e2 : lexOne r with
          | tok t x =>
            cases t with
            | punct d =>
              simp only
              split
              · trivial
              · exact he0
            | _ => exact he0
          | _ => exact he0
        · simp only [if_neg h2]; trivial
  | _ => trivial

theorem wfRes_parse (n : Nat) : (∀ s : Bytes, s.length < n → WfRes (pVal s)) ∧
    (∀ m (s : Bytes), s.length < n → (Tson.obj m).Wf → WfRes (pMembers m s)) ∧
    (∀ l (s : Bytes), s.length < n → (Tson.arr l).Wf → WfRes (pElems l s)) := by
  induction n with
  | zero => exact ⟨fun s h => by omega, fun m s h => by omega, fun l s h => by omega⟩
  | succ n ih =>
    obtain ⟨hv, hm, he⟩ := ih
    have hv' : ∀ s : Bytes, s.length ≤ n → WfRes (pVal s) := fun s hl => wfRes_pVal hm he hl
    exact ⟨fun s hl => hv' s (by omega), fun m s hl hs => wfRes_pMembers hv hm m (by omega) hs,
      fun l s hl hs => wfRes_pElems hv' he l (by omega) hs⟩

/-- A parsed document has distinct keys in every object. -/
theorem unmarshal_wf {s : Bytes} {t : Tson} (h : unmarshal s = .ok t) : t.Wf := by
  rw [unmarshal_eq] at h
  have hp := (wfRes_parse (s.length + 1)).1 s (by omega)
  cases e : pVal s with
  | ok w r => rw [e] at h hp; cases h; exact hp
  | err => rw [e] at h; cases h
  | panic => rw [e] at h; cases h
  | more => rw [e] at h; cases h

end Verif
