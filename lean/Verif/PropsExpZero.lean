import Verif.PropsExpTrack
/-
The two stores of the temporal experiments for readings that begin at time 0, as those of the simulation do.
-/
namespace Verif

/-! ### The values of a path -/

/-- All values that appear for a path come from its patches. -/
theorem perStep_from (q : Bytes) (P : Js → Prop) : ∀ (l : List TPatch) (x : List Per × Option (Js × Int)),
    (∀ p ∈ l, tPath p.path = q → p.Sets → P p.value) → (∀ a ∈ x.1, P a.d) → (∀ v s, x.2 = some (v, s) → P v) →
    (∀ a ∈ (l.foldl (perStep q) x).1, P a.d) ∧ ∀ v s, (l.foldl (perStep q) x).2 = some (v, s) → P v
  | [], _, _, h1, h2 => ⟨h1, h2⟩
  | p :: l, x, h, h1, h2 => by
    rw [List.foldl_cons]
    have hp : (∀ a ∈ (perStep q x p).1, P a.d) ∧ ∀ v s, (perStep q x p).2 = some (v, s) → P v := by
      unfold perStep
      split
      · rename_i hq
        split
        · rename_i hs
          have hv := h p (by simp) hq hs
          split
          · exact ⟨h1, fun v s e => by cases e; exact hv⟩
          · rename_i v s e
            split
            · exact ⟨h1, h2⟩
            · refine ⟨fun a ha => ?_, fun v s e => by cases e; exact hv⟩
              rcases List.mem_append.1 ha with ha | ha
              · exact h1 a ha
              · simp only [List.mem_singleton] at ha
                subst ha
                exact h2 v s e
        · split
          · split
            · exact ⟨h1, h2⟩
            · rename_i v s e
              refine ⟨fun a ha => ?_, fun v s e => by cases e⟩
              rcases List.mem_append.1 ha with ha | ha
              · exact h1 a ha
              · simp only [List.mem_singleton] at ha
                subst ha
                exact h2 v s e
          · exact ⟨h1, h2⟩
      · exact ⟨h1, h2⟩
    exact perStep_from q P l _ (fun p' h' => h p' (by simp [h'])) hp.1 hp.2

/-- A version converted from patches holds the value of a patch for its path, whatever the times are. -/
theorem versionsAt_from (o : TOracle) {now : Int} {ps : List TPatch} {ks : List Bytes}
    (hks : ∀ k ∈ ks, bDot ∉ k) {v : TVersion} (hv : v ∈ versionsAt (fromPatches o now ps) ks) :
    ∃ p ∈ ps, tPath p.path = joinWith bDot ks ∧ p.Sets ∧ v.data = p.value := by
  match ks, hks, hv with
  | [], _, hv => simp [versionsAt, tItemAt] at hv
  | [k], _, hv => rw [versionsAt_single] at hv; simp at hv
  | k :: k2 :: ks, hks, hv =>
    have hs := split_joinWith bDot (k :: k2 :: ks) (by simp) hks
    have hv' := versionsAt_fromPatches o now ps (q := joinWith bDot (k :: k2 :: ks)) (by rw [hs]; simp)
    rw [hs] at hv'
    rw [hv'] at hv
    obtain ⟨a, ha, rfl⟩ := List.mem_map.1 hv
    obtain ⟨f1, f2⟩ := perStep_from (joinWith bDot (k :: k2 :: ks))
      (fun x => ∃ p ∈ ps, tPath p.path = joinWith bDot (k :: k2 :: ks) ∧ p.Sets ∧ x = p.value) (o.sortPatches ps) ([], none)
      (fun p hp h1 h2 => ⟨p, (o.sortPatches_perm ps).mem_iff.1 hp, h1, h2, rfl⟩) (by simp) (by simp)
    rcases mem_pers.1 ha with ha | ⟨v, s, e, rfl⟩
    · exact f1 a ha
    · exact f2 v s e

/-- Patches at time 0: all periods but the last are empty. -/
theorem perStep_zero {q : Bytes} (P : Js → Prop) : ∀ (I : List TPatch) (acc : List Js) (v : Js),
    (∀ p ∈ I, tPath p.path = q ∧ p.Sets ∧ P p.value ∧ p.ts = 0) → (∀ x ∈ v :: acc, P x) →
    ∃ acc' v', I.foldl (perStep q) (acc.map fun x => ⟨0, -1, x⟩, some (v, 0)) = (acc'.map fun x => ⟨0, -1, x⟩, some (v', 0)) ∧
      ∀ x ∈ v' :: acc', P x
  | [], acc, v, _, h2 => ⟨acc, v, rfl, h2⟩
  | p :: I, acc, v, h, h2 => by
    have hp := h p (by simp)
    have hI : ∀ p ∈ I, tPath p.path = q ∧ p.Sets ∧ P p.value ∧ p.ts = 0 := fun x hx => h x (by simp [hx])
    rw [List.foldl_cons, perStep, if_pos hp.1, if_pos hp.2.1]
    dsimp only
    split
    · exact perStep_zero P I acc v hI h2
    · have := perStep_zero P I (acc ++ [v]) p.value hI (by
        intro x hx
        simp only [List.mem_cons, List.mem_append, List.not_mem_nil, or_false] at hx h2
        rcases hx with rfl | hx | rfl
        · exact hp.2.2.1
        · exact h2 x (.inr hx)
        · exact h2 x (.inl rfl))
      rw [hp.2.2.2]
      rwa [List.map_append] at this

/-- **The versions of a path in the TJSON store, for readings from time 0 on.**  The value at time 0 is the initial one or that
of a reading at time 0; before it there may be versions with an empty period. -/
theorem store_versions0 (o : TOracle) (now : Int) {m : List (Bytes × Js)} (hk : GoodKeys (.obj m)) (hp : PlainJson (.obj m))
    {rs ps L : List TPatch} (hrs : ReadingsFrom0 m rs) (hps : ps.Perm (initialPatches [] (.obj m) ++ rs)) {ks : List Bytes} {w : Js}
    (hsen : SensorAt m ks w) (hlen : 2 ≤ ks.length) (hL : ReadingsOn rs (joinWith bDot ks) L) :
    ∃ (acc : List Js) (v : Js), versionsAt (fromPatches o now ps) ks =
        acc.map (fun x => ⟨b!"0--1", x⟩) ++
          (periodsFrom now 0 v (changesFrom (some v) (L.filter fun r => decide (0 < r.ts)))).map versionOf ∧
      ∀ x ∈ v :: acc, x = w ∨ ∃ r ∈ L, r.ts = 0 ∧ x = r.value := by
  have hd := goodDoc_of_plain hk hp
  have hkeys := hsen.keys hk
  have hsplit := split_joinWith bDot ks hsen.ne_nil fun k hk' => (hkeys k hk').2.1
  have hq2 : 2 ≤ (split bDot (joinWith bDot ks)).length := by rw [hsplit]; exact hlen
  have hrec : Recorded w w := .atom hsen.atom
  have hks' : ∀ k ∈ ks, k ≠ [] ∧ bDot ∉ k := fun k hk' => ⟨(hkeys k hk').1, (hkeys k hk').2.1⟩
  have hts : ∀ r ∈ L, tPath r.path = joinWith bDot ks ∧ r.Sets ∧ 0 ≤ r.ts := by
    intro r hr
    have := List.mem_filter.1 (hL.all.mem_iff.1 hr)
    have h1 := hrs r this.1
    have h2 : r.path = joinWith bDot ks := by simpa using this.2
    refine ⟨?_, h1.1, h1.2.1⟩
    rw [h2]; exact tPath_joinWith fun k hk' => (hkeys k hk').2.2.1
  have hon : ∀ r ∈ rs, (tPath r.path = joinWith bDot ks ↔ r.path = joinWith bDot ks) := by
    intro r hr
    obtain ⟨-, -, -, -, -, ks', w', h6, h7⟩ := hrs r hr
    rw [h7, tPath_joinWith fun k hk' => (h6.keys hk k hk').2.2.1]
  have hv := versionsAt_fromPatches o now ps hq2
  rw [hsplit, perStep_filter] at hv
  rw [hv]
  clear hv
  obtain ⟨F, hF⟩ : ∃ F, F = (o.sortPatches ps).filter fun p => decide (tPath p.path = joinWith bDot ks) := ⟨_, rfl⟩
  rw [← hF]
  have hFp : F.Perm ((initialPatches [] (.obj m)).filter (fun p => decide (tPath p.path = joinWith bDot ks)) ++ L) := by
    rw [hF]
    refine (((o.sortPatches_perm ps).trans hps).filter _).trans ?_
    rw [List.filter_append]
    refine List.Perm.append_left _ ?_
    rw [List.filter_congr (q := fun r => decide (r.path = joinWith bDot ks))]
    · exact hL.all.symm
    · intro r hr
      simp [hon r hr]
  have hFs : F.Pairwise fun a b => a.ts ≤ b.ts := by rw [hF]; exact (o.sortPatches_sorted ps).filter _
  have hini : ∀ p ∈ (initialPatches [] (.obj m)).filter (fun p => decide (tPath p.path = joinWith bDot ks)),
      tPath p.path = joinWith bDot ks ∧ p.Sets ∧ p.value = w ∧ p.ts = 0 := by
    intro p hp'
    obtain ⟨h1, h2⟩ := List.mem_filter.1 hp'
    have h2 : tPath p.path = joinWith bDot ks := by simpa using h2
    refine ⟨h2, ?_⟩
    obtain ⟨w', u, hi, hr, rfl⟩ := initial_path hd hks' h1 h2
    have := hi.unique hd.unique (at_inside hsen.found)
    subst this
    exact ⟨.inl rfl, recorded_unique hr hrec, rfl⟩
  have hFL : F.filter (fun p => decide (0 < p.ts)) = L.filter fun r => decide (0 < r.ts) := by
    refine eq_of_ascending (f := TPatch.ts) ((hFp.filter _).trans ?_) (hFs.filter _) (hL.ascending.filter _)
    rw [List.filter_append, List.filter_eq_nil_iff.2, List.nil_append]
    intro p hp'; simp [(hini p hp').2.2.2]
  have hFI : ∀ p ∈ F.filter (fun p => decide (p.ts ≤ 0)),
      tPath p.path = joinWith bDot ks ∧ p.Sets ∧ (p.value = w ∨ ∃ r ∈ L, r.ts = 0 ∧ p.value = r.value) ∧ p.ts = 0 := by
    intro p hp'
    obtain ⟨h1, h2⟩ := List.mem_filter.1 hp'
    rcases List.mem_append.1 (hFp.mem_iff.1 h1) with h | h
    · obtain ⟨i1, i2, i3, i4⟩ := hini p h
      exact ⟨i1, i2, .inl i3, i4⟩
    · have := (hts p h).2.2
      simp only [decide_eq_true_eq] at h2
      have h0 : p.ts = 0 := by omega
      exact ⟨(hts p h).1, (hts p h).2.1, .inr ⟨p, h, h0, rfl⟩, h0⟩
  have hne : F.filter (fun p => decide (p.ts ≤ 0)) ≠ [] := by
    have hmem : (⟨b!"add", joinWith bDot ks, w, 0⟩ : TPatch) ∈ initialPatches [] (.obj m) :=
      (initial_iff hd _).2 ⟨ks, w, w, at_inside hsen.found, hrec, rfl⟩
    have : (⟨b!"add", joinWith bDot ks, w, 0⟩ : TPatch) ∈ F.filter fun p => decide (p.ts ≤ 0) := by
      refine List.mem_filter.2 ⟨hFp.mem_iff.2 (List.mem_append.2 (.inl (List.mem_filter.2 ⟨hmem, ?_⟩))), by simp⟩
      simp [tPath_joinWith fun k hk' => (hkeys k hk').2.2.1]
    exact List.ne_nil_of_mem this
  have hfold : ∃ (acc : List Js) (v : Js),
      (F.filter fun p => decide (p.ts ≤ 0)).foldl (perStep (joinWith bDot ks)) ([], none) =
        (acc.map fun x => ⟨0, -1, x⟩, some (v, 0)) ∧ ∀ x ∈ v :: acc, x = w ∨ ∃ r ∈ L, r.ts = 0 ∧ x = r.value := by
    generalize F.filter (fun p => decide (p.ts ≤ 0)) = I at hFI hne
    cases I with
    | nil => exact absurd rfl hne
    | cons p I =>
      have hp' := hFI p (by simp)
      rw [List.foldl_cons, perStep, if_pos hp'.1, if_pos hp'.2.1]
      dsimp only
      rw [hp'.2.2.2]
      exact perStep_zero (fun x => x = w ∨ ∃ r ∈ L, r.ts = 0 ∧ x = r.value) I [] p.value (fun x hx => hFI x (by simp [hx])) (by
        intro x hx
        simp only [List.mem_singleton] at hx
        subst hx
        exact hp'.2.2.1)
  obtain ⟨acc, v, e, hP⟩ := hfold
  refine ⟨acc, v, ?_, hP⟩
  rw [ascending_split (f := TPatch.ts) 0 hFs, List.foldl_append, e, hFL, perStep_readings now _ _ _ _ (by
      intro r hr
      obtain ⟨h1, h2⟩ := List.mem_filter.1 hr
      exact ⟨(hts r h1).1, (hts r h1).2.1, by simpa using h2⟩), List.map_append, List.map_map, List.map_map]
  have hz : fmtPeriod 0 (-1) = b!"0--1" := by decide
  rw [show (fun x : Js => (⟨b!"0--1", x⟩ : TVersion)) = Per.toV ∘ fun x => (⟨0, -1, x⟩ : Per) by
    funext x; simp only [Function.comp_apply, Per.toV, hz]]
  rfl

/-! ### The value at a time -/

theorem valueAfter_cons (v : Js) (r : TPatch) (l : List TPatch) : valueAfter v (r :: l) = valueAfter r.value l := by
  unfold valueAfter
  cases l with
  | nil => rfl
  | cons a l => rw [List.getLast?_cons_cons]; rw [List.getLast?_cons]; rfl

theorem valueAfter_irrel {v v' : Js} {l : List TPatch} (h : l ≠ []) : valueAfter v l = valueAfter v' l := by
  cases l with
  | nil => exact absurd rfl h
  | cons r l => rw [valueAfter_cons, valueAfter_cons]

theorem filter_none {L : List TPatch} {t : Int} (h : ∀ r ∈ L, t < r.ts) : L.filter (fun r => decide (r.ts ≤ t)) = [] := by
  rw [List.filter_eq_nil_iff]
  intro r hr
  have := h r hr
  simp; omega

theorem inPeriod_versionOf {s e t : Int} {v : Js} (h : 0 ≤ s ∧ 0 ≤ e ∧ s ≤ maxInt64 ∧ e ≤ maxInt64) :
    inPeriod t (versionOf (s, e, v)).period = decide (s ≤ t ∧ t ≤ e) := by
  unfold inPeriod
  rw [parse_versionOf (x := (s, e, v)) h]

theorem inPeriod_empty (t : Int) : inPeriod t b!"0--1" = decide (t = 0) := by
  unfold inPeriod
  rw [show parsePeriod b!"0--1" = (0, 0) by decide]
  apply decide_eq_decide.2
  omega

/-- The version picked among those of a path. -/
theorem periods_pick {now t : Int} (ht : t ≤ now) (h0 : 0 ≤ now) (h1 : now ≤ maxInt64) : ∀ (C : List TPatch) (s : Int) (v : Js)
    (last : Option Js), C.Pairwise (fun a b => a.ts < b.ts) → (∀ r ∈ C, s < r.ts ∧ 0 < r.ts ∧ r.ts ≤ maxInt64) → 0 ≤ s → s ≤ maxInt64 → s ≤ t →
    pickVersion t last ((periodsFrom now s v C).map versionOf) = some (valueAfter v (C.filter fun r => decide (r.ts ≤ t)))
  | [], s, v, last, _, _, hs0, hs1, hst => by
    simp only [periodsFrom, List.map_cons, List.map_nil, pickVersion]
    rw [if_pos (by rw [inPeriod_versionOf ⟨hs0, h0, hs1, h1⟩]; simp [hst, ht])]
    rfl
  | r :: C, s, v, last, hC, hr, hs0, hs1, hst => by
    rw [List.pairwise_cons] at hC
    have h2 := hr r (by simp)
    simp only [periodsFrom, List.map_cons, pickVersion]
    have hin := inPeriod_versionOf (s := s) (e := r.ts - 1) (t := t) (v := v) ⟨hs0, by omega, hs1, by omega⟩
    by_cases hrt : r.ts ≤ t
    · rw [if_neg (by rw [hin]; simp; omega), periods_pick ht h0 h1 C r.ts r.value _ hC.2
        (fun x hx => ⟨hC.1 x hx, (hr x (by simp [hx])).2⟩) (by omega) h2.2.2 hrt,
        List.filter_cons_of_pos (by simpa using hrt), valueAfter_cons]
    · rw [if_pos (by rw [hin]; simp; omega), filter_none (L := r :: C)]
      · rfl
      · intro x hx
        rcases List.mem_cons.1 hx with rfl | hx
        · omega
        · have := hC.1 x hx; omega

/-- Readings that repeat a value do not count. -/
theorem changes_value {t : Int} : ∀ (L : List TPatch) (v : Js), L.Pairwise (fun a b => a.ts < b.ts) →
    SameValue (valueAfter v ((changesFrom (some v) L).filter fun r => decide (r.ts ≤ t))) (valueAfter v (L.filter fun r => decide (r.ts ≤ t)))
  | [], v, _ => .inl rfl
  | r :: L, v, h => by
    have hsub : (changesFrom (some v) (r :: L)).Sublist (r :: L) := changesFrom_sublist _ _
    rw [List.pairwise_cons] at h
    by_cases hrt : r.ts ≤ t
    · rw [changesFrom, List.filter_cons_of_pos (by simpa using hrt), valueAfter_cons]
      split
      · rename_i heq
        by_cases he : L.filter (fun r => decide (r.ts ≤ t)) = []
        · have : (changesFrom (some v) L).filter (fun r => decide (r.ts ≤ t)) = [] := by
            have := (changesFrom_sublist L (some v)).filter fun r => decide (r.ts ≤ t)
            rw [he] at this
            exact List.sublist_nil.1 this
          rw [this, he]
          exact .inr heq
        · rw [valueAfter_irrel (v := r.value) (v' := v) he]
          exact changes_value L v h.2
      · rw [List.filter_cons_of_pos (by simpa using hrt), valueAfter_cons]
        exact changes_value L r.value h.2
    · have hno : ∀ x ∈ r :: L, t < x.ts := by
        intro x hx
        rcases List.mem_cons.1 hx with rfl | hx
        · omega
        · have := h.1 x hx; omega
      rw [filter_none hno, filter_none fun x hx => hno x (hsub.subset hx)]
      exact .inl rfl

/-- **The value the TJSON store shows.**  It is the last one read after time 0; without one, it is the initial value or one read
at time 0. -/
theorem store_value0 (o : TOracle) {now : Int} (h0 : 0 ≤ now) (h1 : now ≤ maxInt64) {m : List (Bytes × Js)} (hk : GoodKeys (.obj m))
    (hp : PlainJson (.obj m)) {rs ps L : List TPatch} (hrs : ReadingsFrom0 m rs) (hps : ps.Perm (initialPatches [] (.obj m) ++ rs))
    {ks : List Bytes} {w : Js} (hsen : SensorAt m ks w) (hlen : 2 ≤ ks.length) (hL : ReadingsOn rs (joinWith bDot ks) L) {t : Int}
    (ht0 : 0 ≤ t) (ht : t ≤ now) :
    ∃ j, (tSnapshot (fromPatches o now ps) t).at? ks = some j ∧
      ∃ v, (v = w ∨ ∃ r ∈ L, r.ts = 0 ∧ v = r.value) ∧
        SameValue j (valueAfter v (L.filter fun r => decide (r.ts ≤ t) && decide (0 < r.ts))) := by
  have hd := goodDoc_of_plain hk hp
  have hkeys := hsen.keys hk
  have hks' : ∀ k ∈ ks, k ≠ [] ∧ bDot ∉ k := fun k hk' => ⟨(hkeys k hk').1, (hkeys k hk').2.1⟩
  obtain ⟨acc, v, hv, hP⟩ := store_versions0 o now hk hp hrs hps hsen hlen hL
  obtain ⟨C, hC⟩ : ∃ C, C = changesFrom (some v) (L.filter fun r => decide (0 < r.ts)) := ⟨_, rfl⟩
  have hasc := hL.ascending.filter fun r : TPatch => decide (0 < r.ts)
  have hsub := changesFrom_sublist (L.filter fun r => decide (0 < r.ts)) (some v)
  rw [← hC] at hsub hv
  have hLm : ∀ r ∈ L, r ∈ rs := fun r hr => (List.mem_filter.1 (hL.all.mem_iff.1 hr)).1
  have hCr : ∀ r ∈ C, 0 < r.ts ∧ 0 < r.ts ∧ r.ts ≤ maxInt64 := by
    intro r hr
    obtain ⟨a, b⟩ := List.mem_filter.1 (hsub.subset hr)
    have b : 0 < r.ts := by simpa using b
    exact ⟨b, b, (hrs r (hLm r a)).2.2.1⟩
  have hpick : ∀ last, pickVersion t last ((periodsFrom now 0 v C).map versionOf) = some (valueAfter v (C.filter fun r => decide (r.ts ≤ t))) :=
    fun last => periods_pick ht h0 h1 C 0 v last (hasc.sublist hsub) hCr (Int.le_refl _) (by decide) ht0
  have hall : ∃ j, pickVersion t none (versionsAt (fromPatches o now ps) ks) = some j ∧
      ∃ v, (v = w ∨ ∃ r ∈ L, r.ts = 0 ∧ v = r.value) ∧
        SameValue j (valueAfter v (L.filter fun r => decide (r.ts ≤ t) && decide (0 < r.ts))) := by
    rw [hv]
    by_cases hacc : t = 0 ∧ acc ≠ []
    · obtain ⟨rfl, hne⟩ := hacc
      obtain ⟨x, acc', rfl⟩ := List.exists_cons_of_ne_nil hne
      refine ⟨x, ?_, x, hP x (by simp), .inl ?_⟩
      · rw [List.map_cons, List.cons_append, pickVersion, if_pos (by rw [inPeriod_empty]; rfl)]
      · rw [show (L.filter fun r => decide (r.ts ≤ 0) && decide (0 < r.ts)) = [] by
          rw [List.filter_eq_nil_iff]; intro r _; simp]
        rfl
    · have hskip : ∀ (acc : List Js) (last : Option Js) (vs : List TVersion), (t = 0 → acc = []) → ∃ last',
          pickVersion t last (acc.map (fun x => ⟨b!"0--1", x⟩) ++ vs) = pickVersion t last' vs := by
        intro acc
        induction acc with
        | nil => intro last vs _; exact ⟨last, rfl⟩
        | cons x acc ih =>
          intro last vs hne
          have : t ≠ 0 := fun h => by simpa using hne h
          obtain ⟨l', e⟩ := ih (some x) vs (fun h => absurd h this)
          refine ⟨l', ?_⟩
          rw [List.map_cons, List.cons_append, pickVersion, if_neg (by rw [inPeriod_empty]; simpa using this)]
          exact e
      obtain ⟨l', e⟩ := hskip acc none ((periodsFrom now 0 v C).map versionOf) (fun h => Classical.byContradiction fun hne => hacc ⟨h, hne⟩)
      rw [e, hpick]
      refine ⟨_, rfl, v, hP v (by simp), ?_⟩
      have := changes_value (t := t) (L.filter fun r => decide (0 < r.ts)) v hasc
      rw [← hC, List.filter_filter] at this
      exact this
  obtain ⟨j, hj, v', hv', hsame⟩ := hall
  refine ⟨j, ?_, v', hv', hsame⟩
  have hprim : ∀ v', (v' = w ∨ ∃ r ∈ L, r.ts = 0 ∧ v' = r.value) → v' ≠ .null ∧ ∀ n, v' ≠ .obj n := by
    rintro v' (rfl | ⟨r, hr, -, rfl⟩)
    · refine ⟨?_, ?_⟩
      · rintro rfl
        exact (plain_inside (at_inside hsen.found) hp).elim
      · rintro n rfl
        exact hsen.atom
    · have := hrs r (hLm r hr)
      refine ⟨this.2.2.2.2.1, ?_⟩
      intro n e
      rw [e] at this
      exact this.2.2.2.1
  have hval : ∀ (v' : Js) (l : List TPatch), (v' ≠ .null ∧ ∀ n, v' ≠ .obj n) → (∀ r ∈ l, r ∈ rs) →
      valueAfter v' l ≠ .null ∧ ∀ n, valueAfter v' l ≠ .obj n := by
    intro v' l hv' hl
    unfold valueAfter
    cases hg : l.getLast? with
    | none => exact hv'
    | some r =>
      have := hrs r (hl r (List.mem_of_getLast? hg))
      refine ⟨this.2.2.2.2.1, ?_⟩
      intro n e
      have e' : r.value = .obj n := e
      rw [e'] at this
      exact this.2.2.2.1
  have hjv := hval v' (L.filter fun r => decide (r.ts ≤ t) && decide (0 < r.ts)) (hprim v' hv') fun r hr => hLm r (List.mem_filter.1 hr).1
  obtain ⟨hn, ho⟩ := scalar_of_same hsame hjv.1 hjv.2
  refine C52_snapshot_partial (wf_fromPatches o now ps) ?_ (Shown.of_pick hj) hn ho
  intro ks₁ ks₂ he hne₁ hne₂
  by_cases hemp : versionsAt (fromPatches o now ps) ks₁ = []
  · exact .inl hemp
  · obtain ⟨x, hx, hsh⟩ := shown_of_ne_nil _ t hemp
    have hk1 : ∀ k ∈ ks₁, k ≠ [] ∧ bDot ∉ k := fun k hk' => hks' k (by rw [he]; simp [hk'])
    obtain ⟨p', hp', e1, -, e2⟩ := versionsAt_from o (fun k hk' => (hk1 k hk').2) hx
    rcases List.mem_append.1 (hps.mem_iff.1 hp') with h | h
    · obtain ⟨w', u, hi', hr, hpe⟩ := initial_path hd hk1 h e1
      have hi := at_inside hsen.found
      rw [he] at hi
      obtain ⟨c, hc, hcw⟩ := hi.split
      have := hc.unique hd.unique hi'
      subst this
      cases hr with
      | map _ =>
        rw [e2, hpe] at hsh
        exact .inr ⟨_, hsh⟩
      | atom ha =>
        cases hcw with
        | here => exact absurd rfl hne₂
        | member _ _ => exact ha.elim
        | element _ _ => exact ha.elim
    · obtain ⟨-, -, -, -, -, ks', w', h6, h7⟩ := hrs p' h
      rw [h7, tPath_joinWith fun k hk' => (h6.keys hk k hk').2.2.1] at e1
      have := joinWith_inj (fun k hk' => ⟨(h6.keys hk k hk').1, (h6.keys hk k hk').2.1⟩) hk1 e1
      subst this
      have := h6.prefix hsen (by rw [he]; exact List.prefix_append _ _)
      rw [he] at this
      have := congrArg List.length this
      simp at this
      exact absurd this hne₂

/-! ### The document of the logument -/

/-- The value the logument shows. -/
theorem looks_value {m : List (Bytes × Js)} (hk : GoodKeys (.obj m)) (hp : PlainJson (.obj m))
    {rs L : List TPatch} (hrs : ReadingsFrom0 m rs) {t : Int} {u : Tson}
    (hlook : LooksAt (sortT (stampT (.obj m))) (rs.map TPatch.toOp) t u) (hsome : ∃ r ∈ rs, r.ts ≤ t)
    {ks : List Bytes} {w : Js} (hsen : SensorAt m ks w) (hL : ReadingsOn rs (joinWith bDot ks) L) :
    ∃ p, Reaches u ks (.leaf p (((L.filter fun r => decide (r.ts ≤ t)).getLast?.map TPatch.ts).getD (-1))) ∧
      primJs p = valueAfter w (L.filter fun r => decide (r.ts ≤ t)) := by
  obtain ⟨r0, hr0, hr0t⟩ := hsome
  have hplain := plain_inside (at_inside hsen.found) hp
  obtain ⟨p0, hw0, hst⟩ := stamp_prim hplain hsen.atom
  have hLm : ∀ r, r ∈ L ↔ r ∈ rs ∧ r.path = joinWith bDot ks := fun r => by
    rw [hL.all.mem_iff, List.mem_filter]; simp
  cases hg : (L.filter fun r => decide (r.ts ≤ t)).getLast? with
  | none =>
    refine ⟨p0, ?_, by rw [valueAfter, hg, hw0]; rfl⟩
    have hnil := List.getLast?_eq_none_iff.1 hg
    show Reaches u ks (.leaf p0 (-1))
    rw [hlook.others ⟨r0.toOp, List.mem_map.2 ⟨r0, hr0, rfl⟩, hr0t⟩ ks ?_]
    · have := stamp_reaches hp hsen.found
      rwa [hst] at this
    · intro p hp' hpt
      obtain ⟨r, hr, rfl⟩ := List.mem_map.1 hp'
      obtain ⟨-, -, -, -, -, ks', w', h6, h7⟩ := hrs r hr
      simp only [TPatch.toOp, POp.toOp] at hpt ⊢
      rw [h7, writeParts_joinWith h6.ne_nil fun k hk' => (h6.keys hk k hk').2]
      have hne : ks' ≠ ks := by
        rintro rfl
        have := List.filter_eq_nil_iff.1 hnil r ((hLm r).2 ⟨hr, h7⟩)
        exact this (by simpa using hpt)
      exact ⟨fun h => hne (h6.prefix hsen h), fun h => hne (hsen.prefix h6 h).symm⟩
  | some r =>
    obtain ⟨hrL, hrt⟩ := List.mem_filter.1 (List.mem_of_getLast? hg)
    obtain ⟨hr, hrp⟩ := (hLm r).1 hrL
    have hrt : r.ts ≤ t := by simpa using hrt
    obtain ⟨h1', h2', h3', h4', h5', -⟩ := hrs r hr
    have hval : ∃ p, r.value = primJs p ∧ Writes r.toOp.value p := by
      simp only [TPatch.toOp, POp.toOp]
      revert h4' h5'
      cases r.value <;> intro h4 h5 <;> first | exact h4.elim | exact absurd rfl h5 | skip
      · exact ⟨.bool _, rfl, .bool _⟩
      · exact ⟨.num _, rfl, .num _⟩
      · exact ⟨.str _, rfl, .str _⟩
    obtain ⟨p, hpv, hpw⟩ := hval
    refine ⟨p, ?_, by rw [valueAfter, hg]; exact hpv.symm⟩
    have hwr := hlook.written r.toOp (List.mem_map.2 ⟨r, hr, rfl⟩) hrt ?_ ?_ p hpw
    · have hpe : writeParts r.toOp.path = ks := by
        show writeParts r.path = ks
        rw [hrp, writeParts_joinWith hsen.ne_nil fun k hk' => (hsen.keys hk k hk').2]
      rwa [hpe] at hwr
    · intro p' hp' hpe hpt hpne
      obtain ⟨r', hr', rfl⟩ := List.mem_map.1 hp'
      have hpe' : r'.path = r.path := hpe
      have hpt' : r'.ts ≤ t := hpt
      have hr'L : r' ∈ L.filter fun r => decide (r.ts ≤ t) :=
        List.mem_filter.2 ⟨(hLm r').2 ⟨hr', hpe'.trans hrp⟩, by simpa using hpt'⟩
      obtain ⟨X, hX⟩ := List.getLast?_eq_some_iff.1 hg
      have hasc := hL.ascending.filter fun r : TPatch => decide (r.ts ≤ t)
      rw [hX] at hr'L hasc
      rcases List.mem_append.1 hr'L with h | h
      · exact (List.pairwise_append.1 hasc).2.2 r' h r (by simp)
      · simp only [List.mem_singleton] at h
        exact absurd (by rw [h]) hpne
    · rcases h1' with h | h <;> simp only [TPatch.toOp, POp.toOp, h] <;> decide

/-- After a reading at a positive time, the readings at time 0 no longer matter. -/
theorem valueAfter_positive {L : List TPatch} (hL : L.Pairwise fun a b => a.ts < b.ts) {t : Int} (h : ∃ r ∈ L, 0 < r.ts ∧ r.ts ≤ t)
    (v w : Js) : valueAfter w (L.filter fun r => decide (r.ts ≤ t)) =
      valueAfter v (L.filter fun r => decide (r.ts ≤ t) && decide (0 < r.ts)) := by
  induction L generalizing w with
  | nil => obtain ⟨r, hr, -⟩ := h; simp at hr
  | cons x L ih =>
    rw [List.pairwise_cons] at hL
    obtain ⟨r, hr, h1, h2⟩ := h
    by_cases hx : 0 < x.ts
    · rw [show (x :: L).filter (fun r => decide (r.ts ≤ t) && decide (0 < r.ts)) = (x :: L).filter fun r => decide (r.ts ≤ t) by
        apply List.filter_congr
        intro y hy
        have : 0 < y.ts := by
          rcases List.mem_cons.1 hy with rfl | hy
          · exact hx
          · have := hL.1 y hy; omega
        simp [this]]
      apply valueAfter_irrel
      exact List.ne_nil_of_mem (List.mem_filter.2 ⟨hr, by simpa using h2⟩)
    · rw [List.filter_cons_of_neg (p := fun r : TPatch => decide (r.ts ≤ t) && decide (0 < r.ts)) (by simp; omega)]
      have hr' : r ∈ L := by
        rcases List.mem_cons.1 hr with rfl | hr
        · exact absurd h1 hx
        · exact hr
      rw [List.filter_cons_of_pos (by simp; omega), valueAfter_cons]
      exact ih hL.2 ⟨r, hr', h1, h2⟩ x.value

/-! ### C86: snapshots, tracks and events -/

/-- **C86, snapshots.**  Readings from time 0 on: at ascending times, the logument shows the last value read up to then, or the
initial one.  The TJSON store shows the last value read after time 0 up to then; without one, it shows the initial value or one
read at time 0.  So both agree if there is a reading after time 0, or none at time 0. -/
theorem C86_snapshots_partial (h : Heap) (o : TOracle) {now : Int} (h0 : 0 ≤ now) (h1 : now ≤ maxInt64) {doc m : List (Bytes × Js)}
    (hm : jsTransform (.obj doc) = .obj m) (hk : GoodKeys (.obj m)) (hp : PlainJson (.obj m)) (hdep : (Js.obj m).depth < 10000)
    {rs : List TPatch} (hrs : ReadingsFrom0 m rs) {ps : List TPatch} (hps : ps.Perm (createInitialPatches doc ++ rs))
    {qs : List (Oracle × Int)} (hq : qs.Pairwise (fun a b => a.2 ≤ b.2))
    (hqt : ∀ q ∈ qs, q.2 ≤ now ∧ ∃ r ∈ rs, r.ts ≤ q.2) :
    ∃ s, createLogument h doc rs = .ok s ∧ (s.queries qs).2.length = qs.length ∧
      ∀ (i : Nat) (q : Oracle × Int), qs[i]? = some q → ∃ u, (s.queries qs).2[i]? = some (.ok (some u)) ∧
        ∀ ks w L, SensorAt m ks w → 2 ≤ ks.length → ReadingsOn rs (joinWith bDot ks) L →
          (∃ p, Reaches u ks (.leaf p (((L.filter fun r => decide (r.ts ≤ q.2)).getLast?.map TPatch.ts).getD (-1))) ∧
            primJs p = valueAfter w (L.filter fun r => decide (r.ts ≤ q.2))) ∧
          (∃ j, (tSnapshot (fromPatches o now ps) q.2).at? ks = some j ∧ ∃ v, (v = w ∨ ∃ r ∈ L, r.ts = 0 ∧ v = r.value) ∧
            SameValue j (valueAfter v (L.filter fun r => decide (r.ts ≤ q.2) && decide (0 < r.ts)))) ∧
          (((∃ r ∈ L, 0 < r.ts ∧ r.ts ≤ q.2) ∨ ∀ r ∈ L, r.ts ≠ 0) → Agree u (tSnapshot (fromPatches o now ps) q.2) ks) := by
  have hL := sensorReadings_simple hk hrs
  have hM := sensorReadings_members hk hp hrs
  refine ⟨_, by rw [createLogument, hm, fromJson_plain hp trivial hdep], ?_⟩
  have hC := C68_queries_partial h (sortT_wf _ (stampT_wf _ hp)) (nullFree_hasNull _ (stampT_clean _ hp).2) hL hM hq
  refine ⟨hC.1, fun i q hi => ?_⟩
  obtain ⟨u, hu, hlook⟩ := hC.2 i q hi
  refine ⟨u, hu, fun ks w L hsen hlen hLs => ?_⟩
  obtain ⟨hqn, hsome⟩ := hqt q (List.mem_of_getElem? hi)
  have hq0 : 0 ≤ q.2 := by
    obtain ⟨r, hr, hrt⟩ := hsome
    have := (hrs r hr).2.1
    omega
  rw [createInitialPatches, hm] at hps
  obtain ⟨p, hp1, hp2⟩ := looks_value hk hp hrs hlook hsome hsen hLs
  obtain ⟨j, hj, v, hv, hsame⟩ := store_value0 o h0 h1 hk hp hrs hps hsen hlen hLs hq0 hqn
  refine ⟨⟨p, hp1, hp2⟩, ⟨j, hj, v, hv, hsame⟩, fun hcase => ⟨p, _, j, hp1, hj, ?_⟩⟩
  rw [hp2]
  rcases hcase with hpos | hno
  · rwa [valueAfter_positive hLs.ascending hpos v w]
  · have hvw : v = w := by
      rcases hv with rfl | ⟨r, hr, hr0, -⟩
      · rfl
      · exact absurd hr0 (hno r hr)
    subst hvw
    rwa [List.filter_congr (q := fun r => decide (r.ts ≤ q.2))] at hsame
    intro r hr
    have h1 := hno r hr
    have h2 := (hrs r (List.mem_filter.1 (hLs.all.mem_iff.1 hr)).1).2.1
    have : 0 < r.ts := by omega
    simp [this]

/-- The track of the TJSON store for readings from time 0 on. -/
theorem store_track0 (o : TOracle) {now : Int} (h0 : 0 ≤ now) (h1 : now ≤ maxInt64) {m : List (Bytes × Js)}
    (hk : GoodKeys (.obj m)) (hp : PlainJson (.obj m))
    {rs ps L : List TPatch} (hrs : ReadingsFrom0 m rs) (hps : ps.Perm (initialPatches [] (.obj m) ++ rs)) {ks : List Bytes} {w : Js}
    (hsen : SensorAt m ks w) (hlen : 2 ≤ ks.length) (hL : ReadingsOn rs (joinWith bDot ks) L) (a b : Int) :
    ∃ (acc : List Js) (v : Js), (∀ x ∈ v :: acc, x = w ∨ ∃ r ∈ L, r.ts = 0 ∧ x = r.value) ∧
      (∀ x ∈ periodsFrom now 0 v (changesFrom (some v) (L.filter fun r => decide (0 < r.ts))),
        parsePeriod (versionOf x).period = (x.1, x.2.1)) ∧
      ∀ o' : TOracle, ∃ B, tTrack o' (fromPatches o now ps) (joinWith bDot ks) a b = .ok B ∧
        B.Pairwise (fun x y => (parsePeriod x.period).1 ≤ (parsePeriod y.period).1) ∧
        B.Perm ((if a ≤ 0 ∧ 0 ≤ b then acc else []).map (fun x => ⟨b!"0--1", x⟩) ++
          ((periodsFrom now 0 v (changesFrom (some v) (L.filter fun r => decide (0 < r.ts)))).filter
            fun x => decide (x.1 ≤ b ∧ a ≤ x.2.1)).map versionOf) ∧
        (0 < a → B = ((periodsFrom now 0 v (changesFrom (some v) (L.filter fun r => decide (0 < r.ts)))).filter
            fun x => decide (x.1 ≤ b ∧ a ≤ x.2.1)).map versionOf) := by
  obtain ⟨acc, v, hv, hP⟩ := store_versions0 o now hk hp hrs hps hsen hlen hL
  have hsub := changesFrom_sublist (L.filter fun r => decide (0 < r.ts)) (some v)
  have hasc := hL.ascending.filter fun r : TPatch => decide (0 < r.ts)
  have hLr : ∀ r ∈ L.filter (fun r => decide (0 < r.ts)), 0 < r.ts ∧ r.ts ≤ maxInt64 := by
    intro r hr
    obtain ⟨h2, h3⟩ := List.mem_filter.1 hr
    have := hrs r (List.mem_filter.1 (hL.all.mem_iff.1 h2)).1
    exact ⟨by simpa using h3, this.2.2.1⟩
  generalize hC : changesFrom (some v) (L.filter fun r => decide (0 < r.ts)) = C at *
  have hpar : ∀ x ∈ periodsFrom now 0 v C, parsePeriod (versionOf x).period = (x.1, x.2.1) := fun x hx =>
    parse_versionOf (periods_bounds C 0 v (Int.le_refl _) (by decide) h0 h1 (fun r hr => hLr r (hsub.subset hr)) x hx)
  have hst := (periods_start (now := now) C 0 v (hasc.sublist hsub) (fun r hr => (hLr r (hsub.subset hr)).1)).1
  have hne : periodsFrom now 0 v C ≠ [] := by cases C <;> simp [periodsFrom]
  refine ⟨acc, v, hP, by rw [hC]; exact hpar, fun o' => ?_⟩
  rw [hC]
  generalize periodsFrom now 0 v C = Q at *
  unfold tTrack versionsAt at *
  rw [split_joinWith bDot ks hsen.ne_nil fun k hk' => (hsen.keys hk k hk').2.1]
  cases hi : tItemAt (fromPatches o now ps) ks with
  | none => rw [hi] at hv; simp at hv; exact absurd hv.2 hne
  | some it =>
    rw [hi] at hv
    dsimp only at hv ⊢
    have hf : it.versions.filter (fun v => decide ((parsePeriod v.period).1 ≤ b ∧ a ≤ (parsePeriod v.period).2)) =
        (if a ≤ 0 ∧ 0 ≤ b then acc else []).map (fun x => ⟨b!"0--1", x⟩) ++
          (Q.filter fun x => decide (x.1 ≤ b ∧ a ≤ x.2.1)).map versionOf := by
      rw [hv, List.filter_append]
      congr 1
      · rw [List.filter_map]
        have : ((fun v : TVersion => decide ((parsePeriod v.period).1 ≤ b ∧ a ≤ (parsePeriod v.period).2)) ∘
            fun x => (⟨b!"0--1", x⟩ : TVersion)) = fun _ => decide (a ≤ 0 ∧ 0 ≤ b) := by
          funext x
          simp only [Function.comp_apply]
          rw [show parsePeriod b!"0--1" = (0, 0) by decide]
          apply decide_eq_decide.2
          omega
        rw [this]
        split
        · rename_i hc
          rw [List.filter_eq_self.2]
          intro x _; simpa using hc
        · rename_i hc
          rw [List.filter_eq_nil_iff.2]
          intro x _; simpa using hc
      · rw [List.filter_map]
        congr 1
        apply List.filter_congr
        intro x hx
        simp only [Function.comp, hpar x hx]
    rw [hf]
    refine ⟨_, rfl, o'.sortVersions_sorted _, o'.sortVersions_perm _, fun ha => ?_⟩
    rw [if_neg (by omega), List.map_nil, List.nil_append]
    apply eq_of_ascending (f := fun v : TVersion => (parsePeriod v.period).1) (o'.sortVersions_perm _) (o'.sortVersions_sorted _)
    rw [List.pairwise_map]
    refine (hst.filter _).imp_of_mem fun {x y} hx hy h => ?_
    rw [hpar x (List.mem_filter.1 hx).1, hpar y (List.mem_filter.1 hy).1]
    exact h

/-- **C86, tracks.**  Readings from time 0 on, after the snapshots: the track of the logument has the readings in the window that
change the value, as in C85.  The track of the TJSON store begins with a value that is the initial one or was read at time 0, and
then has the values read after time 0 that change it; if the window contains time 0, there may be further values of time 0, each
with the period "0--1". -/
theorem C86_tracks_partial (h : Heap) (o : TOracle) {now : Int} (h0 : 0 ≤ now) (h1 : now ≤ maxInt64) {doc m : List (Bytes × Js)}
    (hm : jsTransform (.obj doc) = .obj m) (hk : GoodKeys (.obj m)) (hp : PlainJson (.obj m)) (hdep : (Js.obj m).depth < 10000)
    {rs : List TPatch} (hrs : ReadingsFrom0 m rs) {ps : List TPatch} (hps : ps.Perm (createInitialPatches doc ++ rs))
    {qs : List (Oracle × Int)} (hq : qs.Pairwise (fun a b => a.2 ≤ b.2)) (hne : qs ≠ []) {a b : Int} (hab : a ≤ b)
    {paths : List (TOracle × List Bytes)}
    (hpaths : ∀ p ∈ paths, 2 ≤ p.2.length ∧ ∃ w L, SensorAt m p.2 w ∧ ReadingsOn rs (joinWith bDot p.2) L) :
    ∃ s, createLogument h doc rs = .ok s ∧
      ∃ res, trackRun (s.queries qs).1.lgm (fromPatches o now ps) a b (paths.map fun p => (p.1, joinWith bDot p.2)) = .ok res ∧
        res.length = paths.length ∧
        ∀ (i : Nat) (o' : TOracle) (ks : List Bytes) (w : Js) (L : List TPatch), paths[i]? = some (o', ks) → SensorAt m ks w →
          ReadingsOn rs (joinWith bDot ks) L →
          ∃ A B, res[i]? = some (A, B) ∧
            A.flatMap Prod.snd = (changesFrom none (L.filter fun r => decide (a ≤ r.ts ∧ r.ts ≤ b))).map TPatch.toOp ∧
            A.length ≤ 1 ∧ (∀ e ∈ A, e.1 = 1 ∧ e.2 ≠ []) ∧
            ∃ (acc : List Js) (v : Js), (∀ x ∈ v :: acc, x = w ∨ ∃ r ∈ L, r.ts = 0 ∧ x = r.value) ∧
              B.Pairwise (fun x y => (parsePeriod x.period).1 ≤ (parsePeriod y.period).1) ∧
              B.Perm ((if a ≤ 0 ∧ 0 ≤ b then acc else []).map (fun x => ⟨b!"0--1", x⟩) ++
                ((periodsFrom now 0 v (changesFrom (some v) (L.filter fun r => decide (0 < r.ts)))).filter
                  fun x => decide (x.1 ≤ b ∧ a ≤ x.2.1)).map fun x => ⟨itoa x.1 ++ 45 :: itoa x.2.1, x.2.2⟩) ∧
              (0 < a → B = ((periodsFrom now 0 v (changesFrom (some v) (L.filter fun r => decide (0 < r.ts)))).filter
                  fun x => decide (x.1 ≤ b ∧ a ≤ x.2.1)).map fun x => ⟨itoa x.1 ++ 45 :: itoa x.2.1, x.2.2⟩) := by
  obtain ⟨s, hs, l, l1, l2, l3⟩ := created_recorded h hm hk hp hdep hrs hq hne
  refine ⟨s, hs, ?_⟩
  generalize (s.queries qs).1.lgm = g at l1
  rw [createInitialPatches, hm] at hps
  have hprim : ∀ r ∈ rs, r.value.IsPrim := fun r hr => (hrs r hr).2.2.2.1
  clear hs
  induction paths with
  | nil => exact ⟨[], rfl, rfl, by simp⟩
  | cons p paths ih =>
    obtain ⟨o', ks⟩ := p
    obtain ⟨res, e1, e2, e3⟩ := ih fun p hp' => hpaths p (by simp [hp'])
    obtain ⟨hlen, w, L, hsen, hL⟩ := hpaths _ (List.mem_cons_self ..)
    obtain ⟨tr, t1, t2⟩ := lgm_track l1 hL hprim l2 l3 hab
    obtain ⟨acc, v, hP, -, hT⟩ := store_track0 o h0 h1 hk hp hrs hps hsen hlen hL a b
    obtain ⟨T, u1, hT⟩ := hT o'
    refine ⟨(filterTrack (asTrack tr) (joinWith bDot ks), T) :: res, by
      simp only [List.map_cons, trackRun, t1, u1, e1, Res.map], by simp [e2], ?_⟩
    intro i o₂ ks₂ w₂ L₂ hi hsen₂ hL₂
    cases i with
    | succ i => exact e3 i o₂ ks₂ w₂ L₂ (by simpa using hi) hsen₂ hL₂
    | zero =>
      simp only [List.getElem?_cons_zero, Option.some.injEq, Prod.mk.injEq] at hi
      obtain ⟨rfl, rfl⟩ := hi
      have hLL : L = L₂ := eq_of_ascending (f := TPatch.ts) (hL.all.trans hL₂.all.symm)
        (hL.ascending.imp fun h => Int.le_of_lt h) hL₂.ascending
      have hww : w = w₂ := Option.some.inj (hsen.found.symm.trans hsen₂.found)
      subst hLL hww
      refine ⟨_, _, rfl, ?_, ?_, ?_, acc, v, hP, hT⟩
      · rw [filterTrack_asTrack, flatMap_asTrack, t2]
      · rw [filterTrack_asTrack]; unfold asTrack; split <;> simp
      · rw [filterTrack_asTrack]
        unfold asTrack
        split
        · simp
        · rename_i hn
          intro e he
          simp only [List.mem_singleton] at he
          subst he
          exact ⟨rfl, hn⟩

/-- The events of the TJSON store for readings from time 0 on. -/
theorem store_events0 (o : TOracle) {now : Int} (h0 : 0 ≤ now) (h1 : now ≤ maxInt64) {m : List (Bytes × Js)}
    (hk : GoodKeys (.obj m)) (hp : PlainJson (.obj m))
    {rs ps L : List TPatch} (hrs : ReadingsFrom0 m rs) (hps : ps.Perm (initialPatches [] (.obj m) ++ rs)) {ks : List Bytes} {w : Js}
    (hsen : SensorAt m ks w) (hlen : 2 ≤ ks.length) (hL : ReadingsOn rs (joinWith bDot ks) L) (a b : Int) :
    ∃ (acc : List Js) (v : Js), (∀ x ∈ v :: acc, x = w ∨ ∃ r ∈ L, r.ts = 0 ∧ x = r.value) ∧
      ∀ (o' : TOracle) (pred : Js → Bool), tFindEvents o' (fromPatches o now ps) (joinWith bDot ks) a b pred =
        .ok (((if a ≤ 0 ∧ 0 ≤ b then acc else []).filter pred).map (fun _ => 0) ++
          (((periodsFrom now 0 v (changesFrom (some v) (L.filter fun r => decide (0 < r.ts)))).filter
            fun x => decide (x.1 ≤ b ∧ a ≤ x.2.1)).filter fun x => pred x.2.2).map Prod.fst) := by
  obtain ⟨acc, v, hP, hpar, hT⟩ := store_track0 o h0 h1 hk hp hrs hps hsen hlen hL a b
  refine ⟨acc, v, hP, fun o' pred => ?_⟩
  obtain ⟨B, hB, hs, hperm, -⟩ := hT o'
  have hst : (periodsFrom now 0 v (changesFrom (some v) (L.filter fun r => decide (0 < r.ts)))).Pairwise (fun a b => a.1 < b.1) ∧
      ∀ x ∈ periodsFrom now 0 v (changesFrom (some v) (L.filter fun r => decide (0 < r.ts))), 0 ≤ x.1 :=
    periods_start (now := now) _ 0 v ((hL.ascending.filter _).sublist (changesFrom_sublist _ _)) (fun r hr => by
      have := (List.mem_filter.1 ((changesFrom_sublist _ _).subset hr)).2
      simpa using this)
  generalize periodsFrom now 0 v (changesFrom (some v) (L.filter fun r => decide (0 < r.ts))) = Q at *
  simp only [tFindEvents, hB, Res.map]
  congr 1
  have hp2 := (hperm.filter fun x => pred x.data).map fun x => (parsePeriod x.period).1
  rw [List.filter_append, List.map_append, List.filter_map, List.filter_map, List.map_map, List.map_map] at hp2
  have e1 : ((fun x : TVersion => (parsePeriod x.period).1) ∘ fun x => (⟨b!"0--1", x⟩ : TVersion)) = fun _ => (0 : Int) := by
    funext x
    simp only [Function.comp_apply]
    rw [show parsePeriod b!"0--1" = (0, 0) by decide]
  have e2 : ((Q.filter fun x => decide (x.1 ≤ b ∧ a ≤ x.2.1)).filter ((fun x : TVersion => pred x.data) ∘ versionOf)).map
      ((fun x : TVersion => (parsePeriod x.period).1) ∘ versionOf) =
      ((Q.filter fun x => decide (x.1 ≤ b ∧ a ≤ x.2.1)).filter fun x => pred x.2.2).map Prod.fst := by
    apply List.map_congr_left
    intro x hx
    have := (List.mem_filter.1 (List.mem_filter.1 hx).1).1
    simp only [Function.comp, hpar x this]
  rw [e1, e2] at hp2
  refine hp2.eq_of_pairwise (le := fun a b : Int => a ≤ b) (fun x y _ _ h1 h2 => Int.le_antisymm h1 h2) ?_ ?_
  · rw [List.pairwise_map]
    exact hs.filter _
  · rw [List.pairwise_append]
    refine ⟨?_, ?_, ?_⟩
    · rw [List.pairwise_map]
      exact List.Pairwise.imp_of_mem (R := fun _ _ => True) (fun _ _ _ => Int.le_refl _) (List.pairwise_of_forall fun _ _ => trivial)
    · rw [List.pairwise_map]
      exact ((hst.1.filter _).filter _).imp fun h => Int.le_of_lt h
    · intro x hx y hy
      obtain ⟨_, -, rfl⟩ := List.mem_map.1 hx
      obtain ⟨z, hz, rfl⟩ := List.mem_map.1 hy
      exact hst.2 z (List.mem_filter.1 (List.mem_filter.1 hz).1).1

/-- **C86, events.**  Readings from time 0 on, after the snapshots: the logument reports the readings in the window above the
threshold that change the value, as in C85.  The TJSON store reports when the values above the threshold that hold at some time of
the window began to hold, where the value at time 0 is the initial one or was read at time 0; if the window contains time 0, it may
report time 0 several times. -/
theorem C86_events_partial (h : Heap) (o : TOracle) {now : Int} (h0 : 0 ≤ now) (h1 : now ≤ maxInt64) {doc m : List (Bytes × Js)}
    (hm : jsTransform (.obj doc) = .obj m) (hk : GoodKeys (.obj m)) (hp : PlainJson (.obj m)) (hdep : (Js.obj m).depth < 10000)
    {rs : List TPatch} (hrs : ReadingsFrom0 m rs) {ps : List TPatch} (hps : ps.Perm (createInitialPatches doc ++ rs))
    {qs : List (Oracle × Int)} (hq : qs.Pairwise (fun a b => a.2 ≤ b.2)) (hne : qs ≠ []) {a b : Int} (hab : a ≤ b)
    {es : List EventQuery} (hes : ∀ e ∈ es, (∀ l, (e.order l).Perm l) ∧ ∃ ks w L, e.path = joinWith bDot ks ∧ 2 ≤ ks.length ∧
      SensorAt m ks w ∧ ReadingsOn rs e.path L) :
    ∃ s, createLogument h doc rs = .ok s ∧
      ∃ res, eventRun (s.queries qs).1.lgm (fromPatches o now ps) a b es = .ok res ∧ res.length = es.length ∧
        ∀ (i : Nat) (e : EventQuery) (ks : List Bytes) (w : Js) (L : List TPatch), es[i]? = some e → e.path = joinWith bDot ks →
          SensorAt m ks w → ReadingsOn rs e.path L →
          ∃ (acc : List Js) (v : Js), (∀ x ∈ v :: acc, x = w ∨ ∃ r ∈ L, r.ts = 0 ∧ x = r.value) ∧
            res[i]? = some
              (((changesFrom none (L.filter fun r => decide (a ≤ r.ts ∧ r.ts ≤ b))).filter fun r => exceeds e.threshold r.value).map
                TPatch.ts,
              ((if a ≤ 0 ∧ 0 ≤ b then acc else []).filter (exceeds e.threshold)).map (fun _ => 0) ++
                (((periodsFrom now 0 v (changesFrom (some v) (L.filter fun r => decide (0 < r.ts)))).filter
                  fun x => decide (x.1 ≤ b ∧ a ≤ x.2.1)).filter fun x => exceeds e.threshold x.2.2).map Prod.fst) := by
  obtain ⟨s, hs, l, l1, l2, l3⟩ := created_recorded h hm hk hp hdep hrs hq hne
  refine ⟨s, hs, ?_⟩
  generalize (s.queries qs).1.lgm = g at l1
  rw [createInitialPatches, hm] at hps
  have hprim : ∀ r ∈ rs, r.value.IsPrim := fun r hr => (hrs r hr).2.2.2.1
  clear hs
  induction es with
  | nil => exact ⟨[], rfl, rfl, by simp⟩
  | cons e es ih =>
    obtain ⟨res, e1, e2, e3⟩ := ih fun e he => hes e (by simp [he])
    obtain ⟨ho, ks, w, L, hpath, hlen, hsen, hL⟩ := hes _ (List.mem_cons_self ..)
    obtain ⟨T, t1, hT⟩ : ∃ T, findEvents e.order g e.path a b e.threshold = (g, .ok T) ∧ _ :=
      ⟨_, lgm_events l1 hL hprim l2 l3 hab ho e.threshold, rfl⟩
    obtain ⟨acc, v, hP, hU⟩ := store_events0 o h0 h1 hk hp hrs hps hsen hlen (hpath ▸ hL) a b
    obtain ⟨U, u1, hU⟩ : ∃ U, tFindEvents e.o (fromPatches o now ps) (joinWith bDot ks) a b (exceeds e.threshold) = .ok U ∧ _ :=
      ⟨_, hU e.o (exceeds e.threshold), rfl⟩
    rw [← hpath] at u1
    refine ⟨(T, U) :: res, by simp only [eventRun, t1, u1, e1, Res.map], by simp [e2], ?_⟩
    intro i e₂ ks₂ w₂ L₂ hi hpath₂ hsen₂ hL₂
    cases i with
    | succ i => exact e3 i e₂ ks₂ w₂ L₂ (by simpa using hi) hpath₂ hsen₂ hL₂
    | zero =>
      simp only [List.getElem?_cons_zero, Option.some.injEq] at hi
      subst hi
      have hLL : L = L₂ := eq_of_ascending (f := TPatch.ts) (hL.all.trans hL₂.all.symm)
        (hL.ascending.imp fun h => Int.le_of_lt h) hL₂.ascending
      have hks : ks = ks₂ := joinWith_inj (fun k hk' => ⟨(hsen.keys hk k hk').1, (hsen.keys hk k hk').2.1⟩)
        (fun k hk' => ⟨(hsen₂.keys hk k hk').1, (hsen₂.keys hk k hk').2.1⟩) (hpath.symm.trans hpath₂)
      subst hks
      have hww : w = w₂ := Option.some.inj (hsen.found.symm.trans hsen₂.found)
      subst hLL hww
      exact ⟨acc, v, hP, by rw [List.getElem?_cons_zero, hT, hU]⟩

/-! ### Examples -/

/-- Readings of the speed from time 0 on. -/
def zeroReadings : List TPatch := [speedAt 60 0, speedAt 20 60, speedAt 80 70]

theorem zeroReadings_from : ReadingsFrom0 [(b!"car", .obj [(b!"speed", .num (F64.ofInt 40))])] zeroReadings := by
  intro r hr
  simp only [zeroReadings, speedAt, List.mem_cons, List.not_mem_nil, or_false] at hr
  rcases hr with rfl | rfl | rfl <;>
    exact ⟨by decide, by simp only; decide, by simp only; decide, trivial, by simp, _, _, speedDoc_sensor, rfl⟩

theorem zeroReadings_on : ReadingsOn zeroReadings b!"car.speed" zeroReadings := ⟨by exact .refl _, by decide⟩

/-- The hypotheses of `C86_snapshots_partial` hold: after the reading at 60, both stores agree. -/
example : ∃ s, createLogument [] speedDoc zeroReadings = .ok s ∧
    ∃ u, (s.queries [(Oracle.plain, 25), (Oracle.plain, 65)]).2[1]? = some (.ok (some u)) ∧
      Agree u (tSnapshot (fromPatches tReverse 100 (zeroReadings ++ createInitialPatches speedDoc)) 65) [b!"car", b!"speed"] := by
  obtain ⟨s, h1, -, h3⟩ := C86_snapshots_partial [] tReverse (now := 100) (by decide) (by decide) speedDoc_eq speedDoc_keys
    speedDoc_plain (by decide) zeroReadings_from (List.perm_append_comm (l₁ := zeroReadings))
    (qs := [(Oracle.plain, 25), (Oracle.plain, 65)]) (by decide) (by
      intro q hq
      simp only [List.mem_cons, List.not_mem_nil, or_false] at hq
      rcases hq with rfl | rfl <;> exact ⟨by decide, speedAt 60 0, by simp [zeroReadings], by decide⟩)
  obtain ⟨u, h4, h5⟩ := h3 1 _ rfl
  exact ⟨s, h1, u, h4, (h5 _ _ _ speedDoc_sensor (by decide) zeroReadings_on).2.2
    (.inl ⟨speedAt 20 60, by simp [zeroReadings], by decide, by decide⟩)⟩

/-- The hypotheses of `C86_tracks_partial` hold: the window after time 0. -/
example : ∃ s, createLogument [] speedDoc zeroReadings = .ok s ∧
    ∃ A B, trackRun (s.queries [(Oracle.plain, 25)]).1.lgm
      (fromPatches tReverse 100 (zeroReadings ++ createInitialPatches speedDoc)) 50 65 [(tStable, b!"car.speed")] = .ok [(A, B)] ∧
      A.flatMap Prod.snd = [(speedAt 20 60).toOp] ∧ ∃ v, (v = .num (F64.ofInt 40) ∨ v = .num (F64.ofInt 60)) ∧
        B = [⟨b!"0-59", v⟩, ⟨b!"60-69", .num (F64.ofInt 20)⟩] := by
  obtain ⟨s, h1, res, h2, h3, h4⟩ := C86_tracks_partial [] tReverse (now := 100) (by decide) (by decide) speedDoc_eq speedDoc_keys
    speedDoc_plain (by decide) zeroReadings_from (List.perm_append_comm (l₁ := zeroReadings))
    (qs := [(Oracle.plain, 25)]) (by decide) (by simp) (a := 50) (b := 65) (by decide)
    (paths := [(tStable, [b!"car", b!"speed"])]) (by
      intro e he
      simp only [List.mem_singleton] at he
      subst he
      exact ⟨by decide, _, _, speedDoc_sensor, zeroReadings_on⟩)
  refine ⟨s, h1, ?_⟩
  obtain ⟨A, B, h5, h6, -, -, acc, v, h7, -, -, h8⟩ := h4 0 _ _ _ _ rfl speedDoc_sensor zeroReadings_on
  have h8 := h8 (by decide)
  have hv : v = .num (F64.ofInt 40) ∨ v = .num (F64.ofInt 60) := by
    rcases h7 v (by simp) with h | ⟨r, hr, e1, e2⟩
    · exact .inl h
    · simp only [zeroReadings, List.mem_cons, List.not_mem_nil, or_false] at hr
      rcases hr with rfl | rfl | rfl
      · exact .inr e2
      · exact absurd e1 (by decide)
      · exact absurd e1 (by decide)
  refine ⟨A, B, ?_, ?_, v, hv, ?_⟩
  · rw [show [(tStable, b!"car.speed")] = [(tStable, [b!"car", b!"speed"])].map fun p => (p.1, joinWith bDot p.2) from rfl, h2]
    match res, h3, h5 with
    | [x], _, h => simp at h; subst h; rfl
  · rw [h6]; decide +kernel
  · rw [h8]
    rcases hv with rfl | rfl <;> rfl

/-- The hypotheses of `C86_events_partial` hold: the TJSON store reports time 0, as both possible values are above 30. -/
example : ∃ s, createLogument [] speedDoc zeroReadings = .ok s ∧
    eventRun (s.queries [(Oracle.plain, 25), (Oracle.plain, 60)]).1.lgm
      (fromPatches tReverse 100 (zeroReadings ++ createInitialPatches speedDoc)) 50 80
      [⟨id, tStable, b!"car.speed", F64.ofInt 30⟩] = .ok [([70], [0, 70])] := by
  obtain ⟨s, h1, res, h2, h3, h4⟩ := C86_events_partial [] tReverse (now := 100) (by decide) (by decide) speedDoc_eq speedDoc_keys
    speedDoc_plain (by decide) zeroReadings_from (List.perm_append_comm (l₁ := zeroReadings))
    (qs := [(Oracle.plain, 25), (Oracle.plain, 60)]) (by decide) (by simp) (a := 50) (b := 80) (by decide)
    (es := [⟨id, tStable, b!"car.speed", F64.ofInt 30⟩]) (by
      intro e he
      simp only [List.mem_singleton] at he
      subst he
      exact ⟨fun l => .refl _, _, _, _, rfl, by decide, speedDoc_sensor, zeroReadings_on⟩)
  refine ⟨s, h1, ?_⟩
  obtain ⟨acc, v, h5, h6⟩ := h4 0 _ _ _ _ rfl rfl speedDoc_sensor zeroReadings_on
  have hv : v = .num (F64.ofInt 40) ∨ v = .num (F64.ofInt 60) := by
    rcases h5 v (by simp) with h | ⟨r, hr, e1, e2⟩
    · exact .inl h
    · simp only [zeroReadings, List.mem_cons, List.not_mem_nil, or_false] at hr
      rcases hr with rfl | rfl | rfl
      · exact .inr e2
      · exact absurd e1 (by decide)
      · exact absurd e1 (by decide)
  rw [if_neg (by decide)] at h6
  rw [h2]
  match res, h3, h6 with
  | [x], _, h =>
    simp only [List.getElem?_cons_zero, Option.some.injEq] at h
    subst h
    rcases hv with rfl | rfl <;> decide +kernel

/-- **C86, refuted: a time reported once.**  The speed is 40 at the beginning and 60 is read at time 0: the TJSON store reports time
0 twice, the logument once. -/
theorem C86_twice_fails : ∃ s, createLogument [] speedDoc [speedAt 60 0, speedAt 20 90] = .ok s ∧
    eventRun (s.queries [(Oracle.plain, 95)]).1.lgm
      (fromPatches tStable 100 (createInitialPatches speedDoc ++ [speedAt 60 0, speedAt 20 90])) 0 80
      [⟨id, tStable, b!"car.speed", F64.ofInt 30⟩] = .ok [([0], [0, 0])] :=
  ⟨_, rfl, by decide +kernel⟩

/-- **C86, refuted: readings after time 0 are kept.**  The speed is 40 at the beginning, 60 is read at time 0 and 40 again at 30.  If
the sort puts the reading at time 0 before the initial value, the TJSON store drops the reading at 30 as well: it shows 40 for all
times, and its track has no value that begins at 30. -/
theorem C86_dropped_fails : ∃ s, createLogument [] speedDoc [speedAt 60 0, speedAt 40 30] = .ok s ∧
    ∃ A, trackRun (s.queries [(Oracle.plain, 95)]).1.lgm
      (fromPatches tReverse 100 (createInitialPatches speedDoc ++ [speedAt 60 0, speedAt 40 30])) 0 80 [(tStable, b!"car.speed")] =
        .ok [(A, [⟨b!"0--1", .num (F64.ofInt 60)⟩, ⟨b!"0-100", .num (F64.ofInt 40)⟩])] ∧
      A.flatMap Prod.snd = [(speedAt 60 0).toOp, (speedAt 40 30).toOp] :=
  ⟨_, rfl, _, rfl, by decide +kernel⟩

end Verif
