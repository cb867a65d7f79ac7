import Verif.PropsExp
/-
Property C60: what the JSON patches of the simulation do.
-/
namespace Verif

/-- The member of a sensor. -/
def memberAt (doc : List (Bytes × Js)) (p k : Bytes) : Option Js := (Js.obj doc).at? (split bDot p ++ [k])

theorem split_member {k : Bytes} (h1 : bDot ∉ k) (h2 : bSlash ∉ k) : ∀ {p : Bytes}, bSlash ∉ p →
    split bSlash (dotsToSlashes (p ++ bSlash :: k)) = split bDot p ++ [k]
  | [], _ => by
    have : dotsToSlashes ([] ++ bSlash :: k) = bSlash :: k := by
      rw [List.nil_append, dotsToSlashes, List.map_cons, if_neg (by decide)]
      congr 1
      refine (List.map_congr_left fun c hc => ?_).trans (List.map_id _)
      exact if_neg (fun e : c = bDot => h1 (e ▸ hc))
    rw [this]
    conv => lhs; rw [split, if_pos rfl, split_of_not_mem _ _ h2]
    rfl
  | c :: p, h => by
    rw [List.mem_cons, not_or] at h
    have ih := split_member h1 h2 h.2
    rw [dotsToSlashes] at ih ⊢
    rw [List.cons_append, List.map_cons, split, ih, split]
    by_cases e : c = bDot
    · rw [if_pos e, if_pos rfl, if_pos e]; rfl
    · rw [if_neg e, if_neg (Ne.symm h.1), if_neg e]
      cases hs : split bDot p with
      | nil => exact absurd hs (split_ne_nil _ _)
      | cons a l => rfl

/-- One JSON patch at a member of a sensor. -/
theorem write_member {p k : Bytes} (h1 : bDot ∉ k) (h2 : bSlash ∉ k) (hp : bSlash ∉ p) (d : List (Bytes × Js)) (v : Js) (ps : List JPatch) :
    writePatches d (⟨b!"replace", p ++ bSlash :: k, v⟩ :: ps) = writePatches (docUpdate (fun _ => v) d (split bDot p ++ [k])) ps := by
  rw [writePatches, List.foldl_cons, split_member h1 h2 hp]; rfl

theorem member_self (d : List (Bytes × Js)) (p k : Bytes) (v : Js) :
    memberAt (docUpdate (fun _ => v) d (split bDot p ++ [k])) p k = some v := by
  have := at?_docUpdate_self (fun _ => v) (split bDot p ++ [k]) (by simp) d []
  rw [List.append_nil, at?_nil] at this
  exact this

theorem member_other (d : List (Bytes × Js)) {p q k l : Bytes} (v : Js)
    (h : p = q ∧ k ≠ l ∨ Incomparable (split bDot p) (split bDot q)) :
    memberAt (docUpdate (fun _ => v) d (split bDot p ++ [k])) q l = memberAt d q l := by
  refine at?_docUpdate_frame _ _ _ _ ?_
  rcases h with ⟨rfl, h⟩ | h
  · constructor
    · intro hp; simp [List.prefix_append_right_inj] at hp; exact h hp
    · intro hp; simp [List.prefix_append_right_inj] at hp; exact h hp.symm
  · have h1 := incomparable_value h [l]
    have h2 := incomparable_value ⟨h1.2, h1.1⟩ [k]
    exact ⟨h2.2, h2.1⟩

/-- What stays true while the patches are written. -/
structure PatchInv (s₀ : Sim) (rs : List Reading) (s : Sim) (d : List (Bytes × Js)) : Prop where
  keys : mkeys s.sensors = mkeys s₀.sensors
  value : ∀ p c, mget s.sensors p = some c → memberAt d p b!"value" = some c
  stamp : ∀ p t, p ∈ mkeys s₀.sensors → lastTime rs p = some t →
    memberAt d p b!"timestamp" = some (.int t) ∧ memberAt s.json p b!"timestamp" = some (.int t)

theorem lastTime_snoc (rs : List Reading) (r : Reading) (p : Bytes) :
    lastTime (rs ++ [r]) p = if r.path = p then some r.ts else lastTime rs p := by
  unfold lastTime
  rw [List.filter_append]
  by_cases h : r.path = p
  · simp [h]
  · simp [h]

theorem patch_step {eq : Js → Js → Bool} {s₀ s : Sim} {rs : List Reading} {d : List (Bytes × Js)} (hs : s₀.Start)
    (hsl : ∀ p ∈ mkeys s₀.sensors, bSlash ∉ p) (h : PatchInv s₀ rs s d) (r : Reading) (hr : r.path ∈ mkeys s₀.sensors) :
    ∃ ps, (s.step eq r).jsonPatches = s.jsonPatches ++ ps ∧ PatchInv s₀ (rs ++ [r]) (s.step eq r) (writePatches d ps) := by
  have hn := hsl _ hr
  have hap : ∀ q, q ∈ mkeys s₀.sensors → q ≠ r.path → Incomparable (split bDot r.path) (split bDot q) :=
    fun q hq hne => hs.apart r.path hr q hq (Ne.symm hne)
  have hjs : ∀ p t, p ∈ mkeys s₀.sensors → lastTime (rs ++ [r]) p = some t →
      memberAt (s.step eq r).json p b!"timestamp" = some (.int t) := by
    intro p t hp ht
    show memberAt (updateJsonDoc s.json r.path r.value r.ts) p _ = _
    rw [lastTime_snoc] at ht
    by_cases e : r.path = p
    · rw [if_pos e] at ht
      cases ht
      subst e
      exact (C58_json_written _ _ _ _).2
    · rw [if_neg e] at ht
      exact ((C58_frame _ _ _ _ _ (incomparable_value (hap p hp (Ne.symm e)) _)).1).trans (h.stamp p t hp ht).2
  by_cases hch : eq ((mget s.sensors r.path).getD .null) r.value = true
  · refine ⟨[⟨b!"replace", r.path ++ b!"/timestamp", .int r.ts⟩], by simp [Sim.step, hch], ?_, ?_, ?_⟩
    · simp only [Sim.step, hch]; exact h.keys
    · intro p c hc
      simp only [Sim.step, hch, Bool.not_true, Bool.false_eq_true, if_false] at hc
      rw [write_member (k := b!"timestamp") (by decide) (by decide) hn]
      have hp : p ∈ mkeys s₀.sensors := by rw [← h.keys]; exact mget_isSome.1 ⟨_, hc⟩
      refine (member_other d _ ?_).trans (h.value p c hc)
      by_cases e : p = r.path
      · exact .inl ⟨e.symm, by decide⟩
      · exact .inr (hap p hp e)
    · intro p t hp ht
      refine ⟨?_, hjs p t hp ht⟩
      rw [write_member (k := b!"timestamp") (by decide) (by decide) hn]
      rw [lastTime_snoc] at ht
      by_cases e : r.path = p
      · rw [if_pos e] at ht
        cases ht
        subst e
        exact member_self ..
      · rw [if_neg e] at ht
        exact (member_other d _ (.inr (hap p hp (Ne.symm e)))).trans (h.stamp p t hp ht).1
  · refine ⟨[⟨b!"replace", r.path ++ b!"/timestamp", .int r.ts⟩, ⟨b!"replace", r.path ++ b!"/value", r.value⟩], by simp [Sim.step, hch], ?_, ?_, ?_⟩
    · simp only [Sim.step, hch, Bool.not_false, if_true]
      rw [mkeys_mset, if_pos (by rw [h.keys]; exact hr)]; exact h.keys
    · intro p c hc
      simp only [Sim.step, hch, Bool.not_false, if_true] at hc
      rw [write_member (k := b!"timestamp") (by decide) (by decide) hn, write_member (k := b!"value") (by decide) (by decide) hn]
      by_cases e : p = r.path
      · subst e
        rw [mget_mset_self] at hc
        cases hc
        exact member_self ..
      · rw [mget_mset_ne _ _ e] at hc
        have hp : p ∈ mkeys s₀.sensors := by rw [← h.keys]; exact mget_isSome.1 ⟨_, hc⟩
        exact (member_other _ _ (.inr (hap p hp e))).trans ((member_other _ _ (.inr (hap p hp e))).trans (h.value p c hc))
    · intro p t hp ht
      refine ⟨?_, hjs p t hp ht⟩
      rw [write_member (k := b!"timestamp") (by decide) (by decide) hn, write_member (k := b!"value") (by decide) (by decide) hn]
      rw [lastTime_snoc] at ht
      by_cases e : r.path = p
      · rw [if_pos e] at ht
        cases ht
        subst e
        exact (member_other _ _ (.inl ⟨rfl, by decide⟩)).trans (member_self ..)
      · rw [if_neg e] at ht
        exact (member_other _ _ (.inr (hap p hp (Ne.symm e)))).trans ((member_other _ _ (.inr (hap p hp (Ne.symm e)))).trans (h.stamp p t hp ht).1)

theorem patch_run {eq : Js → Js → Bool} {s₀ : Sim} (hs : s₀.Start) (hsl : ∀ p ∈ mkeys s₀.sensors, bSlash ∉ p) :
    ∀ (rs' rs : List Reading) (s : Sim) (d : List (Bytes × Js)), PatchInv s₀ rs s d → (∀ r ∈ rs', r.path ∈ mkeys s₀.sensors) →
    ∃ ps, (s.run eq rs').jsonPatches = s.jsonPatches ++ ps ∧ PatchInv s₀ (rs ++ rs') (s.run eq rs') (writePatches d ps)
  | [], rs, s, d, h, _ => ⟨[], by simp [Sim.run], by rw [List.append_nil]; exact h⟩
  | r :: rs', rs, s, d, h, hr => by
    obtain ⟨ps, e1, h1⟩ := patch_step (eq := eq) hs hsl h r (hr r (by simp))
    obtain ⟨qs, e2, h2⟩ := patch_run hs hsl rs' (rs ++ [r]) (s.step eq r) _ h1 fun r' h' => hr r' (by simp [h'])
    refine ⟨ps ++ qs, by rw [run_cons, e2, e1, List.append_assoc], ?_⟩
    rw [run_cons, writePatches, List.foldl_append]
    rw [List.append_assoc] at h2
    exact h2

/-- **C60.** Writing the recorded JSON patches into the first JSON document gives, for every sensor, the value that the vehicle
keeps for it and the time of its last reading; the time is the one in the JSON document.  Missing: the value need not be the
one in the JSON document, see `C60_json_patches_fails`. -/
theorem C60_json_patches_partial (eq : Js → Js → Bool) (s : Sim) (hs : s.Start) (hsl : ∀ p ∈ mkeys s.sensors, bSlash ∉ p)
    (rs : List Reading) (hr : ∀ r ∈ rs, r.path ∈ mkeys s.sensors) (p : Bytes) :
    (∀ c, mget (s.run eq rs).sensors p = some c → valueAt (writePatches s.json (s.run eq rs).jsonPatches) p = some c) ∧
    (∀ t, p ∈ mkeys s.sensors → lastTime rs p = some t →
      (Js.obj (writePatches s.json (s.run eq rs).jsonPatches)).at? (split bDot p ++ [b!"timestamp"]) = some (.int t) ∧
      (Js.obj (s.run eq rs).json).at? (split bDot p ++ [b!"timestamp"]) = some (.int t)) := by
  obtain ⟨ps, e, h⟩ := patch_run (eq := eq) hs hsl rs [] s s.json ⟨rfl, hs.json, fun p t _ ht => by cases ht⟩ hr
  rw [hs.empty.1, List.nil_append] at e
  rw [e]
  rw [List.nil_append] at h
  exact ⟨h.value p, h.stamp p⟩

/-- The hypotheses hold for a vehicle with two sensors. -/
example : simDemo.Start ∧ (∀ p ∈ mkeys simDemo.sensors, bSlash ∉ p) ∧
    lastTime [⟨b!"Vehicle.Speed", .int 40, 8⟩, ⟨b!"Vehicle.Speed", .int 41, 9⟩] b!"Vehicle.Speed" = some 9 :=
  ⟨simDemo_start, by decide, by decide⟩

end Verif
