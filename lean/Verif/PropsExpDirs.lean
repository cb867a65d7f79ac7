import Verif.PropsExpFiles
/-
C87, C88: the directories of the simulated experiments, and the temporal experiments on them.
-/
namespace Verif

/-! ### Names of directories -/

/-- A time of the clock up to the year 9999. -/
structure Civil.Valid (c : Civil) : Prop where
  year : c.year ≤ 9999
  month : 1 ≤ c.month ∧ c.month ≤ 12
  day : 1 ≤ c.day ∧ c.day ≤ 31
  hour : c.hour ≤ 23
  minute : c.minute ≤ 59
  second : c.second ≤ 59

/-- An earlier time of the clock. -/
def Civil.Before (a b : Civil) : Prop :=
  a.year < b.year ∨ a.year = b.year ∧ (a.month < b.month ∨ a.month = b.month ∧ (a.day < b.day ∨ a.day = b.day ∧
    (a.hour < b.hour ∨ a.hour = b.hour ∧ (a.minute < b.minute ∨ a.minute = b.minute ∧ a.second < b.second))))

instance (a b : Civil) : Decidable (a.Before b) := by unfold Civil.Before; infer_instance

theorem natDigits_small {n : Nat} (h : n < 10) : natDigits n = [UInt8.ofNat (48 + n)] := by
  rw [natDigits, natDigitsAux_succ, if_pos (by omega), Nat.mod_eq_of_lt h]

theorem natDigits_step {n : Nat} (h : 10 ≤ n) : natDigits n = natDigits (n / 10) ++ [UInt8.ofNat (48 + n % 10)] := by
  rw [natDigits, natDigitsAux_succ, if_neg (by omega), natDigitsAux_append, natDigits, natDigitsAux_fuel (n / 10) n (n / 10 + 1) (by omega) (by omega)]

theorem padded_one {n : Nat} (h : n < 10) : padded 1 n = [UInt8.ofNat (48 + n)] := by
  rw [padded, natDigits_small h]; rfl

theorem padded_succ {w : Nat} (hw : 1 ≤ w) (n : Nat) : padded (w + 1) n = padded w (n / 10) ++ [UInt8.ofNat (48 + n % 10)] := by
  unfold padded
  by_cases h : n < 10
  · rw [natDigits_small h, Nat.div_eq_of_lt h, natDigits_small (by omega), Nat.mod_eq_of_lt h, List.length_singleton, List.length_singleton,
      Nat.add_sub_cancel]
    congr 1
    obtain ⟨w, rfl⟩ : ∃ v, w = v + 1 := ⟨w - 1, by omega⟩
    rw [Nat.add_sub_cancel]
    exact List.replicate_succ'
  · rw [natDigits_step (by omega), List.length_append, List.length_singleton, Nat.add_sub_add_right, List.append_assoc]

theorem padded_digits : ∀ {w : Nat}, 1 ≤ w → ∀ {n : Nat}, n < 10 ^ w → (padded w n).length = w ∧ (padded w n).all isDigit = true
  | 1, _, n, h => by
    have : ∀ n : Fin 10, (padded 1 n.val).length = 1 ∧ (padded 1 n.val).all isDigit = true := by decide +kernel
    exact this ⟨n, by omega⟩
  | w + 2, _, n, h => by
    obtain ⟨h1, h2⟩ := padded_digits (w := w + 1) (by omega) (n := n / 10) (by rw [Nat.pow_succ] at h; omega)
    have : ∀ d : Fin 10, isDigit (UInt8.ofNat (48 + d.val)) = true := by decide +kernel
    have hd := this ⟨n % 10, by omega⟩
    rw [padded_succ (by omega)]
    refine ⟨by rw [List.length_append, h1]; rfl, ?_⟩
    rw [List.all_append, h2, List.all_cons, hd]
    rfl

theorem digit_order : ∀ a b : Fin 10, (decide (UInt8.ofNat (48 + a.val) < UInt8.ofNat (48 + b.val)) = decide (a.val < b.val)) := by decide +kernel

theorem bytesLe_digit {a b : Nat} (ha : a < 10) (hb : b < 10) (s t : Bytes) :
    bytesLe (UInt8.ofNat (48 + a) :: s) (UInt8.ofNat (48 + b) :: t) = if a < b then true else if b < a then false else bytesLe s t := by
  have h1 := decide_eq_decide.1 (digit_order ⟨a, ha⟩ ⟨b, hb⟩)
  have h2 := decide_eq_decide.1 (digit_order ⟨b, hb⟩ ⟨a, ha⟩)
  simp only at h1 h2
  rw [bytesLe]
  simp only [h1, h2]

/-- Numbers with the same number of digits are compared like numbers. -/
theorem bytesLe_padded : ∀ {w : Nat}, 1 ≤ w → ∀ {a b : Nat}, a < 10 ^ w → b < 10 ^ w → ∀ s t : Bytes,
    bytesLe (padded w a ++ s) (padded w b ++ t) = if a < b then true else if b < a then false else bytesLe s t
  | 1, _, a, b, ha, hb, s, t => by
    rw [padded_one (by omega), padded_one (by omega)]
    exact bytesLe_digit (by omega) (by omega) s t
  | w + 2, _, a, b, ha, hb, s, t => by
    have ha' : a / 10 < 10 ^ (w + 1) := by rw [Nat.pow_succ] at ha; omega
    have hb' : b / 10 < 10 ^ (w + 1) := by rw [Nat.pow_succ] at hb; omega
    rw [padded_succ (w := w + 1) (by omega) a, padded_succ (w := w + 1) (by omega) b, List.append_assoc, List.append_assoc,
      bytesLe_padded (by omega) ha' hb']
    simp only [List.cons_append, List.nil_append]
    rw [bytesLe_digit (by omega) (by omega)]
    by_cases h1 : a / 10 < b / 10
    · rw [if_pos h1, if_pos (by omega)]
    · rw [if_neg h1]
      by_cases h2 : b / 10 < a / 10
      · rw [if_pos h2, if_neg (by omega), if_pos (by omega)]
      · rw [if_neg h2]
        by_cases h3 : a % 10 < b % 10
        · rw [if_pos h3, if_pos (by omega)]
        · rw [if_neg h3]
          by_cases h4 : b % 10 < a % 10
          · rw [if_pos h4, if_neg (by omega), if_pos (by omega)]
          · rw [if_neg h4, if_neg (by omega), if_neg (by omega)]

theorem bytesLe_padded_end {w : Nat} (hw : 1 ≤ w) {a b : Nat} (ha : a < 10 ^ w) (hb : b < 10 ^ w) :
    bytesLe (padded w a) (padded w b) = decide (a ≤ b) := by
  have h := bytesLe_padded hw ha hb [] []
  rw [List.append_nil, List.append_nil] at h
  rw [h]
  by_cases h1 : a < b
  · simp [h1, Nat.le_of_lt h1]
  · by_cases h2 : b < a
    · simp [h1, h2]
    · simp [h1, h2, bytesLe]; omega

/-- **C88, names.**  The order of the names is the order of the times. -/
theorem C88_names {a b : Civil} (ha : a.Valid) (hb : b.Valid) : bytesLe a.name b.name = true ↔ a.Before b ∨ a = b := by
  obtain ⟨a1, a2, a3, a4, a5, a6⟩ := ha
  obtain ⟨b1, b2, b3, b4, b5, b6⟩ := hb
  obtain ⟨ay, amo, ad, ah, ami, as⟩ := a
  obtain ⟨yb, bmo, bd, bh, bmi, bs⟩ := b
  simp only at a1 a2 a3 a4 a5 a6 b1 b2 b3 b4 b5 b6
  unfold Civil.name Civil.Before
  dsimp only
  rw [bytesLe_padded (by decide) (by omega) (by omega), bytesLe_padded (by decide) (by omega) (by omega),
    bytesLe_padded (by decide) (by omega) (by omega), bytesLe]
  simp only [show ¬ ((95 : UInt8) < 95) by decide, if_false]
  rw [bytesLe_padded (by decide) (by omega) (by omega), bytesLe_padded (by decide) (by omega) (by omega),
    bytesLe_padded_end (by decide) (by omega) (by omega)]
  simp only [Civil.mk.injEq]
  repeat' split
  all_goals simp only [decide_eq_true_eq, true_iff, Bool.false_eq_true, false_iff]
  all_goals omega

theorem Civil.Valid.stamp {t : Civil} (h : t.Valid) : isStamp t.name = true := by
  obtain ⟨a1, a2, a3, a4, a5, a6⟩ := h
  obtain ⟨y1, y2⟩ := padded_digits (w := 4) (by decide) (n := t.year) (by omega)
  obtain ⟨m1, m2⟩ := padded_digits (w := 2) (by decide) (n := t.month) (by omega)
  obtain ⟨d1, d2⟩ := padded_digits (w := 2) (by decide) (n := t.day) (by omega)
  obtain ⟨h1, h2⟩ := padded_digits (w := 2) (by decide) (n := t.hour) (by omega)
  obtain ⟨n1, n2⟩ := padded_digits (w := 2) (by decide) (n := t.minute) (by omega)
  obtain ⟨s1, s2⟩ := padded_digits (w := 2) (by decide) (n := t.second) (by omega)
  have e : t.name = (padded 4 t.year ++ padded 2 t.month ++ padded 2 t.day) ++ 95 :: (padded 2 t.hour ++ padded 2 t.minute ++ padded 2 t.second) := by
    simp only [Civil.name, List.append_assoc]
  have l8 : (padded 4 t.year ++ padded 2 t.month ++ padded 2 t.day).length = 8 := by simp [y1, m1, d1]
  have l6 : (padded 2 t.hour ++ padded 2 t.minute ++ padded 2 t.second).length = 6 := by simp [h1, n1, s1]
  have a8 : (padded 4 t.year ++ padded 2 t.month ++ padded 2 t.day).all isDigit = true := by simp only [List.all_append, y2, m2, d2]; rfl
  have a6' : (padded 2 t.hour ++ padded 2 t.minute ++ padded 2 t.second).all isDigit = true := by simp only [List.all_append, h2, n2, s2]; rfl
  rw [e]
  generalize padded 4 t.year ++ padded 2 t.month ++ padded 2 t.day = A at *
  generalize padded 2 t.hour ++ padded 2 t.minute ++ padded 2 t.second = B at *
  unfold isStamp
  have t1 : (A ++ 95 :: B).take 8 = A := by rw [← l8]; exact List.take_left
  have t2 : (A ++ 95 :: B)[8]? = some 95 := by rw [← l8]; simp
  have t3 : (A ++ 95 :: B).drop 9 = B := by
    rw [show (9 : Nat) = A.length + 1 by omega, List.drop_append]
    simp
  rw [t1, t2, t3, a8, a6']
  simp [l8, l6]

/-- The scenario directory holds no name twice, and its directories that look like times are named after times up to `t`. -/
structure UpTo (ds : List (Bytes × Dir)) (t : Civil) : Prop where
  names : (mkeys ds).Nodup
  files : ∀ d ∈ ds, (mkeys d.2).Nodup
  times : ∀ d ∈ ds, isStamp d.1 = true → ∃ u : Civil, u.Valid ∧ d.1 = u.name ∧ (u.Before t ∨ u = t)

/-- **C88.**  After an experiment, the latest directory is the one of this experiment: if the clock was never set back and the year
has four digits. -/
theorem C88_latest_partial {ds : List (Bytes × Dir)} {t : Civil} (ht : t.Valid) (hds : UpTo ds t) (r₀ r : Trip) :
    latestDir (saveExperiment ds t r₀ r) = some (t.name, ((mget ds t.name).getD []).saveRun r₀ r) := by
  refine latest_mem (nodup_mkeys_mset hds.names _ _) ht.stamp (mget_mset_self ..) fun d hd hs => ?_
  rcases mem_mset hd with rfl | hd
  · exact bytesLe_refl _
  · obtain ⟨u, hu, e, hle⟩ := hds.times d hd hs
    rw [e]
    exact (C88_names hu ht).2 hle

/-- The scenario directory stays as required. -/
theorem C88_upTo {ds : List (Bytes × Dir)} {t u : Civil} (ht : t.Valid) (hds : UpTo ds t) (hu : t.Before u ∨ t = u) (r₀ r : Trip) :
    UpTo (saveExperiment ds t r₀ r) u := by
  refine ⟨nodup_mkeys_mset hds.names _ _, fun d hd => ?_, fun d hd hs => ?_⟩
  · rcases mem_mset hd with rfl | hd
    · refine nodup_save (nodup_save (nodup_save (nodup_save (nodup_save (nodup_save ?_ _ _) _ _) _ _) _ _) _ _) _ _
      cases hg : mget ds t.name with
      | none => exact List.nodup_nil
      | some x => exact hds.files _ (mget_mem hg)
    · exact hds.files d hd
  · rcases mem_mset hd with rfl | hd
    · exact ⟨t, ht, rfl, hu⟩
    · obtain ⟨v, hv, e, hle⟩ := hds.times d hd hs
      refine ⟨v, hv, e, ?_⟩
      rcases hle with hle | rfl
      · rcases hu with hu | rfl
        · left; unfold Civil.Before at *; omega
        · exact .inl hle
      · exact hu

/-- **C88, refuted if the clock was set back.**  If there is a directory of a later time, the experiments never read the new one. -/
theorem C88_clock_fails {ds : List (Bytes × Dir)} {t u : Civil} (ht : t.Valid) (hu : u.Valid) (htu : t.Before u)
    (hmem : u.name ∈ mkeys ds) (r₀ r : Trip) : ∀ dir, latestDir (saveExperiment ds t r₀ r) ≠ some (t.name, dir) := by
  intro dir h
  unfold latestDir at h
  generalize hl : (saveExperiment ds t r₀ r).filter (fun d => isStamp d.1) = l at h
  have hmem' : u.name ∈ mkeys l := by
    have h1 : u.name ∈ mkeys (saveExperiment ds t r₀ r) := by
      unfold saveExperiment
      obtain ⟨v, hv⟩ := mget_isSome.2 hmem
      refine mget_isSome.1 ⟨v, ?_⟩
      rw [mget_mset_ne _ _ fun e => ?_]
      · exact hv
      · have := (C88_names hu ht).1 (by rw [e]; exact bytesLe_refl _)
        rcases this with k | rfl
        · unfold Civil.Before at *; omega
        · unfold Civil.Before at *; omega
    obtain ⟨d, hd, e⟩ := List.mem_map.1 h1
    rw [← hl]
    exact List.mem_map.2 ⟨d, List.mem_filter.2 ⟨hd, by rw [e]; exact hu.stamp⟩, e⟩
  obtain ⟨d, hd, e⟩ := List.mem_map.1 hmem'
  have hd' := (sortM_perm l).mem_iff.2 hd
  obtain ⟨a, ha⟩ := List.getLast?_eq_some_iff.1 h
  have hs := sortM_sorted l
  rw [ha] at hs hd'
  have hle : bytesLe u.name t.name = true := by
    rcases List.mem_append.1 hd' with hd' | hd'
    · have := (List.pairwise_append.1 hs).2.2 d hd' (t.name, dir) (List.mem_singleton.2 rfl)
      rw [e] at this
      exact this
    · rw [List.mem_singleton.1 hd'] at e
      rw [← e]
      exact bytesLe_refl _
  rcases (C88_names hu ht).1 hle with k | rfl
  · unfold Civil.Before at *; omega
  · unfold Civil.Before at *; omega

/-- **C88, refuted for years of five digits.**  No directory is found. -/
theorem C88_year_fails (r₀ r : Trip) : ∃ t : Civil, t.year = 10000 ∧ latestDir (saveExperiment [] t r₀ r) = none :=
  ⟨⟨10000, 1, 1, 0, 0, 0⟩, rfl, by
    have h : isStamp (Civil.name ⟨10000, 1, 1, 0, 0, 0⟩) = false := by decide +kernel
    unfold saveExperiment latestDir
    rw [mset, List.filter_cons_of_neg (by simp [h])]
    rfl⟩

/-- **C88, refuted for two experiments in one second.**  The second one has no directory of its own, and the patches found are
those of the second. -/
theorem C88_second_fails {ds : List (Bytes × Dir)} {t : Civil} (ht : t.Valid) (hds : UpTo ds t) (r₀ r r₀' r' : Trip)
    (hw : ∀ p ∈ r'.sim.tsonPatches, p.Writable) :
    (saveExperiment (saveExperiment ds t r₀ r) t r₀' r').length = (saveExperiment ds t r₀ r).length ∧
    ∃ dir, mget (saveExperiment (saveExperiment ds t r₀ r) t r₀' r') t.name = some dir ∧ dir.loadPatches = .ok (r'.sim.tsonPatches.map readBack) := by
  obtain ⟨s, h1, h2⟩ := C87_patches_partial hw
  have hn : (mkeys (((mget (saveExperiment ds t r₀ r) t.name).getD []).saveRun r₀' r')).Nodup :=
    (C88_upTo ht (C88_upTo ht hds (.inr rfl) r₀ r) (.inr rfl) r₀' r').files _ (mget_mem (mget_mset_self (saveExperiment ds t r₀ r) t.name _))
  constructor
  · have : mkeys (saveExperiment (saveExperiment ds t r₀ r) t r₀' r') = mkeys (saveExperiment ds t r₀ r) := by
      conv => lhs; rw [saveExperiment, mkeys_mset]
      exact if_pos (mget_isSome.1 ⟨_, mget_mset_self ds t.name _⟩)
    simpa [mkeys] using congrArg List.length this
  · refine ⟨_, mget_mset_self .., ?_⟩
    unfold Dir.loadPatches
    refine (loadFiles_one h2 _ (sortM_nodup hn)).1 ?_
    rw [mget_sortM hn, Dir.saveRun, mget_save, if_pos rfl, h1]

/-! ### C87: the data of a simulated experiment -/

theorem table_ascii : ∀ v ∈ vssSensors, ∀ c ∈ v.path, c < 0x80 := by decide +kernel

/-- The recorded patches can be written, and are read as they were. -/
theorem TripLog.writable {dur : Nat} (hdur : dur ≤ 2 ^ 53) {sim : Sim} (o : TripLog dur sim) :
    ∀ q ∈ sim.tsonPatches, q.Writable ∧ readBack q = q := by
  intro q hq
  obtain ⟨g0, g1, g2, g3, v, hv, e, -⟩ := o.readings q (o.kept.subset hq)
  obtain ⟨k1, k2, k3, k4⟩ := g3.ord
  obtain ⟨k5, -, -, k6, -⟩ := g3.dec
  have hp : ValidUtf8 q.path := valid_ascii fun c hc => table_ascii v hv c (by rw [e]; exact hc)
  have h53 : (2 : Nat) ^ 53 = 9007199254740992 := by decide
  have h63 : maxInt64 = 9223372036854775807 := rfl
  have h64 : minInt64 = -9223372036854775808 := rfl
  refine ⟨⟨k4, k3, by omega, by omega⟩, ?_⟩
  unfold readBack
  rw [k1, k2, k5, sanitize_valid hp, g0, show sanitize b!"replace" = b!"replace" by decide +kernel, ← g0]

theorem SensorAt.sorted {m : List (Bytes × Js)} {ks : List Bytes} {w : Js} (hp : PlainJson (.obj m)) (h : SensorAt m ks w)
    (hw : PlainScalar w) : SensorAt (sortM (ordAnyF m)) ks w := by
  have := at?_ord ks hp h.found
  rw [hw.ord.1, ordAny] at this
  exact ⟨this, h.atom, h.names⟩

/-- Timestamps of 64 bits. -/
def Draws.Clock (d : Draws) : Prop := ∀ p, minInt64 ≤ d.clock p ∧ d.clock p ≤ maxInt64

/-- **C87.**  The files of a simulated experiment, found again in the latest directory: the patches read are exactly the recorded
ones, and the document read is what the temporal experiments rely on. -/
theorem C87_handed_partial {dur : Nat} (hdur : dur ≤ 2 ^ 53) {d : Draws} (hd : d.Good) (hclk : d.Clock) {scenario : Bytes}
    (hs : scenario ∈ scenarioNames) {ds : List (Bytes × Dir)} {t : Civil}
    (ht : t.Valid) (hds : UpTo ds t) :
    ∃ r₀ r doc m dir, Trip.start d scenario = .ok r₀ ∧ experiment dur d scenario = .ok (some r) ∧
      r₀.vehicle.map SensorData.path = vssSensors.map VssSensor.path ∧
      latestDir (saveExperiment ds t r₀ r) = some (t.name, dir) ∧ dir.loadPatches = .ok r.sim.tsonPatches ∧ dir.loadDoc = .ok doc ∧
      Ready (NoSwitch dur scenario) r₀ r doc m := by
  obtain ⟨r₀, r, m, o, hpath, e2, h1, h2⟩ := handed (P := fun ts => ts.natAbs < 2 ^ 64) hdur (fun p => by
    have := hclk p
    have h63 : maxInt64 = 9223372036854775807 := rfl
    have h64 : minInt64 = -9223372036854775808 := rfl
    omega) hd hs
  have e2' := e2.sorted
  rw [ordAny, ordAny] at e2'
  obtain ⟨v1, -, -, -⟩ := e2'.valid fun _ h => h
  obtain ⟨-, v2, v3, v4⟩ := e2.valid fun _ h => h
  obtain ⟨f1, f2⟩ := e2'.transform
  obtain ⟨f3, f4⟩ := f2 _ _ rfl rfl
  have hw := o.writable hdur
  obtain ⟨s₂, p1, p2⟩ := C87_patches_partial fun q hq => (hw q hq).1
  rw [show r.sim.tsonPatches.map readBack = r.sim.tsonPatches by
    conv => rhs; rw [← List.map_id r.sim.tsonPatches]
    exact List.map_congr_left fun q hq => (hw q hq).2] at p2
  have hg := goodJs_ord _ v2 v3
  have hu := unmarshal_indented (iw := 2) hg ((sanT_ordAny_depth _ _).2 (by omega))
  rw [ordAny, v1, f3] at hu
  have hi : indented (marshalAny (.obj r₀.sim.json)) = .ok (appendIndent 2 .out 0 false (treeText (.obj (sortM (ordAnyF r₀.sim.json))))) := by
    rw [marshalAny, if_pos v3, anyText_ord, ordAny]; rfl
  have hn : (mkeys ((mget ds t.name).getD [])).Nodup := by
    cases hgd : mget ds t.name with
    | none => exact List.nodup_nil
    | some x => exact hds.files _ (mget_mem hgd)
  obtain ⟨l1, l2⟩ := saveRun_load hn (r₀ := r₀) (r := r) hi hu p1 p2
  refine ⟨r₀, r, _, sortM (ordAnyF m), _, o.first.start, o.runs, hpath, C88_latest_partial ht hds r₀ r, l1, l2,
    ⟨by rw [← f1, f3], e2'.inside, e2'.plain.1, by have := e2'.plain.2; omega, ?_, ?_⟩⟩
  · intro q hq
    obtain ⟨a1, a2, a3, a4, a5, ks, w, a6, a7⟩ := h1 q hq
    refine ⟨a1, a2, a3, a4, a5, ks, ordAny w, ⟨?_, ?_, a6.names⟩, a7⟩
    · have := at?_ord ks e2.plain.1 a6.found
      rw [ordAny] at this
      exact this
    · have := a6.atom
      cases w <;> first | exact this.elim | (simp only [ordAny]; exact this)
  · intro s hsm
    obtain ⟨a1, a2, a3, a4⟩ := h2 s hsm
    exact ⟨a1.sorted e2.plain.1 (o.first.plain₀ hs hsm), a2, a3, a4⟩

/-- **C87, simulation, files and experiments.**  A drive in traffic of more than 10 s is simulated and its files are written; then
the temporal experiments on the scenario directory end without panic and without error, and find what was recorded. -/
theorem C87_urban_partial (h : Heap) {dur : Nat} (hdur : 10000 < dur) (hdur' : dur ≤ 2 ^ 53) {d : Draws} (hd : d.Good) (hclk : d.Clock)
    {c : TemporalDraws} (hc : c.Good) (hn : dur ≤ c.now) (hn' : c.now ≤ maxInt64) {ds : List (Bytes × Dir)} {t : Civil} (ht : t.Valid)
    (hds : UpTo ds t) :
    ∃ (r₀ r : Trip) (res : TemporalResults) (T : List (List (Nat × List Op) × List TVersion)) (E : List (List Int × List Int)) (hi : Int),
      Trip.start d b!"urban_traffic" = .ok r₀ ∧ experiment dur d b!"urban_traffic" = .ok (some r) ∧
      temporalFiles h c (saveExperiment ds t r₀ r) = .ok (some res) ∧ hi < dur ∧ DriveResult True r₀ r hi res T E := by
  obtain ⟨r₀, r, doc, m, dir, h1, h2, hpath, h3, h4, h5, H⟩ := C87_handed_partial hdur' hd hclk (scenario := b!"urban_traffic") (by decide) ht hds
  obtain ⟨r₀', r', o⟩ := outcome (dur := dur) hd (scenario := b!"urban_traffic") (by decide) (fun k => absurd k (by decide))
  obtain rfl : r₀ = r₀' := by have := o.start; rw [h1] at this; cases this; rfl
  obtain rfl : r = r' := by have := o.runs; rw [h2] at this; cases this; rfl
  obtain ⟨hi, hT, k1, k2⟩ := urban_times hdur hdur' hd o
  obtain ⟨res, T, E, g1, g2⟩ := ready_run h hc (H.imp fun _ k => absurd k (by decide)) hpath hT k1 (by omega) (by omega) hn'
  refine ⟨r₀, r, res, T, E, hi, h1, h2, ?_, k2, g2⟩
  unfold temporalFiles
  rw [h3]
  dsimp only
  rw [h4]
  dsimp only
  rw [h5]
  dsimp only
  rw [g1]
  rfl

/-! ### The hypotheses hold -/

theorem halfDraws_clock : halfDraws.Clock := fun _ => by show minInt64 ≤ 1700000000000000000 ∧ 1700000000000000000 ≤ maxInt64; decide

/-- A time of the clock. -/
def someTime : Civil := ⟨2025, 7, 3, 9, 0, 12⟩

theorem someTime_valid : someTime.Valid := ⟨by decide, by decide, by decide, by decide, by decide, by decide⟩

theorem upTo_some : UpTo [(b!"20250702_235959", []), (b!"notes", [(b!"a", b!"b")])] someTime where
  names := by decide
  files := by decide
  times := by
    intro d hd hs
    simp only [List.mem_cons, List.not_mem_nil, or_false] at hd
    rcases hd with rfl | rfl
    · exact ⟨⟨2025, 7, 2, 23, 59, 59⟩, ⟨by decide, by decide, by decide, by decide, by decide, by decide⟩, by decide +kernel, .inl (by decide)⟩
    · exact absurd hs (by decide +kernel)

/-- A scenario directory in use: 300 s in traffic. -/
example : ∃ r₀ r res, Trip.start halfDraws b!"urban_traffic" = .ok r₀ ∧ experiment 300000 halfDraws b!"urban_traffic" = .ok (some r) ∧
    temporalFiles [] plainTemporal (saveExperiment [(b!"20250702_235959", []), (b!"notes", [(b!"a", b!"b")])] someTime r₀ r) = .ok (some res) ∧
    res.snapshots.length = 61 := by
  obtain ⟨r₀, r, res, T, E, hi, h1, h2, h3, -, h4⟩ := C87_urban_partial [] (dur := 300000) (by decide) (by decide) halfDraws_good halfDraws_clock
    plainTemporal_good (by decide) (by decide) someTime_valid upTo_some
  exact ⟨r₀, r, res, h1, h2, h3, h4.snapshots.1⟩

/-- Charging for 300 s. -/
example : ∃ r₀ r doc m dir, Trip.start halfDraws b!"battery_charging" = .ok r₀ ∧ experiment 300000 halfDraws b!"battery_charging" = .ok (some r) ∧
    r₀.vehicle.map SensorData.path = vssSensors.map VssSensor.path ∧
    latestDir (saveExperiment [] someTime r₀ r) = some (someTime.name, dir) ∧ dir.loadPatches = .ok r.sim.tsonPatches ∧ dir.loadDoc = .ok doc ∧
    Ready (NoSwitch 300000 b!"battery_charging") r₀ r doc m :=
  C87_handed_partial (by decide) halfDraws_good halfDraws_clock (by decide) someTime_valid ⟨List.nodup_nil, by simp, by simp⟩

/-- Patches with other values: a number, a string, an object, and a removal. -/
example : ∀ p ∈ ([⟨b!"replace", b!"Vehicle.Speed", .num (F64.ofInt 3), 100⟩, ⟨b!"add", b!"a.b", .obj [(b!"y", .str b!"\"x"), (b!"x", .null)], -5⟩,
    ⟨b!"remove", b!"a", .null, 0⟩] : List TPatch), p.Writable := by
  intro p hp
  simp only [List.mem_cons, List.not_mem_nil, or_false] at hp
  rcases hp with rfl | rfl | rfl
  · exact ⟨by decide +kernel, by simp [IntsOk], by simp [Js.depth], by decide, by decide⟩
  · exact ⟨by decide, by simp [IntsOk, IntsOkF], by simp [Js.depth, Js.depthF], by decide, by decide⟩
  · exact ⟨by decide, by simp [IntsOk], by simp [Js.depth], by decide, by decide⟩

/-- The clock is set back by an hour. -/
example (r₀ r : Trip) : ∀ dir, latestDir (saveExperiment [(Civil.name ⟨2025, 10, 26, 2, 59, 0⟩, [])] ⟨2025, 10, 26, 2, 1, 0⟩ r₀ r) ≠
    some (Civil.name ⟨2025, 10, 26, 2, 1, 0⟩, dir) :=
  C88_clock_fails (u := ⟨2025, 10, 26, 2, 59, 0⟩) ⟨by decide, by decide, by decide, by decide, by decide, by decide⟩
    ⟨by decide, by decide, by decide, by decide, by decide, by decide⟩ (by decide) (by simp [mkeys]) r₀ r

end Verif
