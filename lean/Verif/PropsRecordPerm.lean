import Verif.PropsVersions
import Verif.PropsTemporal
/-
C02 with temporal snapshots and temporal slices.
-/
namespace Verif

/-! ### Specification -/

/-- The calls that do not compact the log.  They may re-sort a version. -/
def Call.keeps : Call → Bool
  | .track _ _ | .compact _ | .history _ _ => false
  | _ => true

/-- The operations accepted by one successful call that does not compact. -/
inductive Takes (s : St) : Call → List Op → Prop
  | plain {c l} (h : Accepts s c l) : Takes s c l
  | temporalSnapshot (o t) : Takes s (.temporalSnapshot o t) []
  | temporalSlice (o ti tj) : Takes s (.temporalSlice o ti tj) []

/-- The operations accepted over a call history without compaction: failing calls accept nothing. -/
inductive TakesAll : St → List Call → List Op → Prop
  | nil (s) : TakesAll s [] []
  | ok (s c cs r l l') : (step s c).2 = .ok r → Takes s c l → TakesAll (step s c).1 cs l' → TakesAll s (c :: cs) (l ++ l')
  | fail (s c cs l') : (step s c).2.isOk = false → TakesAll (step s c).1 cs l' → TakesAll s (c :: cs) l'

/-! ### One call -/

theorem patchOf_mset (g : Lgm) {v : Nat} {q q' : List Op} (hq : mget g.patches v = some q) (hp : q'.Perm q) (w : Nat) :
    (Lgm.patchOf { g with patches := mset g.patches v q' } w).Perm (g.patchOf w) := by
  unfold Lgm.patchOf
  dsimp only
  by_cases hw : v = w
  · subst hw
    rw [mget_mset_self, hq]
    exact hp
  · rw [mget_mset_ne _ _ (Ne.symm hw)]

theorem flatMap_perm {f g : Nat → List Op} : ∀ (l : List Nat), (∀ v ∈ l, (f v).Perm (g v)) → (l.flatMap f).Perm (l.flatMap g)
  | [], _ => by simp
  | v :: l, h => by
    rw [List.flatMap_cons, List.flatMap_cons]
    exact (h v (by simp)).append (flatMap_perm l fun w hw => h w (by simp [hw]))

theorem recorded_resort (g : Lgm) {v : Nat} {q q' : List Op} (hq : mget g.patches v = some q) (hp : q'.Perm q) :
    (recorded { g with patches := mset g.patches v q' }).Perm (recorded g) := by
  rw [recorded_eq, recorded_eq]
  exact (flatMap_perm _ fun w _ => patchOf_mset g hq hp w).append_right _

theorem temporalSnapshot_recorded {s : St} {n : Nat} (hn : s.lgm.Versions n) (o : Oracle) (t : Int) :
    (recorded (s.temporalSnapshot o t).1.lgm).Perm (recorded s.lgm) := by
  obtain ⟨g, hg, hr⟩ := s.temporalSnapshot_lgm o t
  have he : recorded g = recorded s.lgm := by
    rcases hg with rfl | rfl
    · rfl
    · exact recorded_append hn
  rw [← he]
  rcases hr with hr | ⟨v, q, h1, h2⟩
  · rw [hr]
  · rw [h2]; exact recorded_resort g h1 (o.sortOps_perm q)

theorem resort_recorded {s : St} (hs : ∃ n, s.lgm.Versions n) {c : Call} (hk : c.keeps = true) (hc : c.plain = false) :
    (recorded (step s c).1.lgm).Perm (recorded s.lgm) := by
  obtain ⟨n, hn⟩ := hs
  cases c with
  | temporalSnapshot o t => exact temporalSnapshot_recorded hn o t
  | temporalSlice o ti tj =>
    simp only [step]
    rcases St.temporalSlice_lgm hn o ti tj with h | h
    · rw [h]
    · rw [h]; exact temporalSnapshot_recorded hn o ti
  | _ => first | (simp [Call.plain] at hc; done) | (simp [Call.keeps] at hk; done)

theorem append_patchOf {g : Lgm} {n : Nat} (h : g.Versions n) {v : Nat} (hv : v ≤ n) : g.append.1.patchOf v = g.patchOf v := by
  rw [h.append]
  cases hp : g.pool with
  | none => rfl
  | some p =>
    unfold Lgm.patchOf
    dsimp only
    congr 1
    have : ∀ m : List (Nat × List Op), mget (m ++ [(n + 1, p)]) v = mget m v := by
      intro m
      induction m with
      | nil => simp only [List.nil_append, mget]; rw [if_neg (by omega)]
      | cons q m ih => obtain ⟨k, w⟩ := q; simp only [List.cons_append, mget, ih]
    exact this _

/-! ### C02 -/

/-- **C02.**  Temporal snapshots and temporal slices may be mixed in: over any history without compaction the recorded operations are
the ones before and the accepted ones, each as often as it was accepted.  Only the order inside a version can change. -/
theorem C02_resorted (s : St) (hs : Reachable s) (cs : List Call) (hc : ∀ c ∈ cs, c.keeps = true) :
    (∃ l, TakesAll s cs l) ∧ ∀ l, TakesAll s cs l → (recorded (run s cs).lgm).Perm (recorded s.lgm ++ l) := by
  induction cs generalizing s with
  | nil =>
    refine ⟨⟨_, .nil s⟩, fun l hl => ?_⟩
    cases hl; simp [run]
  | cons c cs ih =>
    have hc1 := hc c (by simp)
    obtain ⟨⟨l', hl'⟩, ih2⟩ := ih _ (hs.step c) (fun d hd => hc d (by simp [hd]))
    constructor
    · cases hr : (step s c).2 with
      | ok r =>
        by_cases hp : c.plain = true
        · obtain ⟨l, hl⟩ := accepts_total s c hp (by rw [hr]; rfl)
          exact ⟨_, .ok s c cs r l l' hr (.plain hl) hl'⟩
        · have : Takes s c [] := by
            cases c with
            | temporalSnapshot o t => exact .temporalSnapshot o t
            | temporalSlice o ti tj => exact .temporalSlice o ti tj
            | _ => first | (exact absurd rfl hp) | (simp [Call.keeps] at hc1; done)
          exact ⟨_, .ok s c cs r [] l' hr this hl'⟩
      | err => exact ⟨_, .fail s c cs l' (by rw [hr]; rfl) hl'⟩
      | panic => exact ⟨_, .fail s c cs l' (by rw [hr]; rfl) hl'⟩
    · intro l hl
      cases hl with
      | ok _ _ _ r l l' hr ha hrest =>
        simp only [run]
        refine (ih2 _ hrest).trans ?_
        rw [← List.append_assoc]
        refine List.Perm.append_right _ ?_
        cases ha with
        | plain ha => rw [step_recorded_ok hs.versions hr ha]
        | temporalSnapshot o t => rw [List.append_nil]; exact resort_recorded hs.versions rfl rfl
        | temporalSlice o ti tj => rw [List.append_nil]; exact resort_recorded hs.versions rfl rfl
      | fail _ _ _ l' hf hrest =>
        simp only [run]
        refine (ih2 _ hrest).trans (List.Perm.append_right _ ?_)
        by_cases hp : c.plain = true
        · rw [step_recorded_fail hs.versions hp hf]
        · exact resort_recorded hs.versions hc1 (by simpa using hp)

theorem step_version {s : St} {n : Nat} (hn : s.lgm.Versions n) {c : Call} (hc : c.keeps = true) {v : Nat} (hv : v ≤ n) :
    ((step s c).1.lgm.patchOf v).Perm (s.lgm.patchOf v) := by
  have ts : ∀ o t, ((s.temporalSnapshot o t).1.lgm.patchOf v).Perm (s.lgm.patchOf v) := by
    intro o t
    obtain ⟨g, hg, hr⟩ := s.temporalSnapshot_lgm o t
    have he : g.patchOf v = s.lgm.patchOf v := by
      rcases hg with rfl | rfl
      · rfl
      · exact append_patchOf hn hv
    rw [← he]
    rcases hr with hr | ⟨w, q, h1, h2⟩
    · rw [hr]
    · rw [h2]; exact patchOf_mset g h1 (o.sortOps_perm q) v
  cases c with
  | store a =>
    obtain ⟨p, hp⟩ := s.lgm.store_lgm a
    simp only [step, St.onLgm, hp]; exact .refl _
  | append => simp only [step, St.onLgm]; rw [append_patchOf hn hv]
  | set vk op =>
    obtain ⟨c, p, hp⟩ := s.set_lgm vk op
    simp only [step, hp]; exact .refl _
  | testSet vk op =>
    obtain ⟨c, p, hp⟩ := s.testSet_lgm vk op
    simp only [step, hp]; exact .refl _
  | snapshot w =>
    obtain ⟨sn, hp⟩ := s.snapshot_lgm hn w
    simp only [step, hp]; exact .refl _
  | temporalSnapshot o t => exact ts o t
  | slice vi vj =>
    obtain ⟨sn, hp⟩ := s.slice_lgm hn vi vj
    simp only [step, hp]; exact .refl _
  | temporalSlice o ti tj =>
    simp only [step]
    rcases St.temporalSlice_lgm hn o ti tj with h | h
    · rw [h]
    · rw [h]; exact ts o ti
  | temporalTrack ti tj =>
    simp only [step, St.onLgm, Lgm.temporalTrack]
    split
    · exact .refl _
    · split <;> exact .refl _
  | environment h => exact .refl _
  | _ => simp [Call.keeps] at hc

theorem step_grows {s : St} {n : Nat} (hn : s.lgm.Versions n) {c : Call} (hc : c.keeps = true) :
    ∃ m, n ≤ m ∧ (step s c).1.lgm.Versions m := by
  obtain ⟨m, hm⟩ := step_versions hn c
  refine ⟨m, ?_, hm⟩
  have app : ∀ m, s.lgm.append.1.Versions m → n ≤ m := by
    intro m hm
    have h1 := hm.1
    rw [hn.append] at h1
    have h2 := congrArg List.length h1
    cases hp : s.lgm.pool with
    | none => rw [hp] at h2; simp [hn.1] at h2; omega
    | some p => rw [hp] at h2; simp at h2; omega
  have same : (step s c).1.lgm.version = s.lgm.version → n ≤ m := by
    intro h
    have h1 := hm.1
    rw [h, hn.1] at h1
    have := congrArg List.length h1
    simp at this; omega
  have ts : ∀ o t, (s.temporalSnapshot o t).1.lgm.Versions m → n ≤ m := by
    intro o t hm
    obtain ⟨g, hg, hr⟩ := s.temporalSnapshot_lgm o t
    have he : (s.temporalSnapshot o t).1.lgm.version = g.version := by
      rcases hr with hr | ⟨w, q, h1, h2⟩
      · rw [hr]
      · rw [h2]
    have h1 := hm.1
    rw [he] at h1
    rcases hg with rfl | rfl
    · rw [hn.1] at h1
      have := congrArg List.length h1
      simp at this; omega
    · rw [hn.append] at h1
      have h2 := congrArg List.length h1
      cases hp : s.lgm.pool with
      | none => rw [hp] at h2; simp [hn.1] at h2; omega
      | some p => rw [hp] at h2; simp at h2; omega
  cases c with
  | store a =>
    obtain ⟨p, hp⟩ := s.lgm.store_lgm a
    exact same (by simp only [step, St.onLgm, hp])
  | append => exact app m hm
  | set vk op =>
    obtain ⟨c, p, hp⟩ := s.set_lgm vk op
    exact same (by simp only [step, hp])
  | testSet vk op =>
    obtain ⟨c, p, hp⟩ := s.testSet_lgm vk op
    exact same (by simp only [step, hp])
  | snapshot w =>
    obtain ⟨sn, hp⟩ := s.snapshot_lgm hn w
    exact same (by simp only [step, hp])
  | temporalSnapshot o t => exact ts o t hm
  | slice vi vj =>
    obtain ⟨sn, hp⟩ := s.slice_lgm hn vi vj
    exact same (by simp only [step, hp])
  | temporalSlice o ti tj =>
    simp only [step] at hm
    rcases St.temporalSlice_lgm hn o ti tj with h | h
    · exact same (by simp only [step, h])
    · rw [h] at hm; exact ts o ti hm
  | temporalTrack ti tj =>
    refine same ?_
    simp only [step, St.onLgm, Lgm.temporalTrack]
    split
    · rfl
    · split <;> rfl
  | environment h => exact same rfl
  | _ => simp [Call.keeps] at hc

theorem run_version {s : St} {n : Nat} (hn : s.lgm.Versions n) (cs : List Call) (hc : ∀ c ∈ cs, c.keeps = true) {v : Nat} (hv : v ≤ n) :
    ((run s cs).lgm.patchOf v).Perm (s.lgm.patchOf v) := by
  induction cs generalizing s n with
  | nil => exact .refl _
  | cons c cs ih =>
    obtain ⟨m, hm, hv'⟩ := step_grows hn (hc c (by simp))
    exact (ih hv' (fun d hd => hc d (by simp [hd])) (Nat.le_trans hv hm)).trans (step_version hn (hc c (by simp)) hv)

/-- **C02.**  A version that exists keeps its operations over any history without compaction, up to their order. -/
theorem C02_version_kept (s : St) (hs : Reachable s) (cs : List Call) (hc : ∀ c ∈ cs, c.keeps = true) {v : Nat} {p : List Op}
    (hp : mget s.lgm.patches v = some p) : ∃ p', mget (run s cs).lgm.patches v = some p' ∧ p'.Perm p := by
  obtain ⟨n, hn⟩ := hs.versions
  have hv := (hn.2.2 v).1 (mget_isSome.1 ⟨p, hp⟩)
  have key := run_version hn cs hc hv.2
  have hg : ∃ m, n ≤ m ∧ (run s cs).lgm.Versions m := by
    clear key hv hp hs
    induction cs generalizing s n with
    | nil => exact ⟨n, Nat.le_refl _, hn⟩
    | cons c cs ih =>
      obtain ⟨m, hm, hv'⟩ := step_grows hn (hc c (by simp))
      obtain ⟨k, hk, h⟩ := ih _ (fun d hd => hc d (by simp [hd])) m hv'
      exact ⟨k, Nat.le_trans hm hk, h⟩
  obtain ⟨m, hm, hr⟩ := hg
  have hmem := (hr.2.2 v).2 ⟨hv.1, Nat.le_trans hv.2 hm⟩
  cases hq : mget (run s cs).lgm.patches v with
  | none => exact absurd hmem (mget_eq_none.1 hq)
  | some p' =>
    refine ⟨p', rfl, ?_⟩
    simpa only [Lgm.patchOf, hq, hp, Option.getD_some] using key

/-- The order inside a version does change: the new version is sorted by the temporal snapshot, nothing is lost. -/
example : recorded (run demo [.store (.ops (some [demoOp b!"a" true 30, demoOp b!"a" false 20])), .append, .snapshot 2,
      .temporalSnapshot Oracle.plain 40, .set 0 (demoOp b!"b/d" true 50), .temporalSlice Oracle.plain 20 30]).lgm =
    recorded demo.lgm ++ [demoOp b!"a" false 20, demoOp b!"a" true 30, demoOp b!"b/d" true 50] := by
  decide +kernel

end Verif
