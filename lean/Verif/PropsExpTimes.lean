import Verif.ExpTrack
import Verif.FloatError
import Verif.PropsExpQuery
import Verif.PropsExpRun
/-
C84: the times at which the temporal experiments take snapshots.
-/
namespace Verif

open F64

theorem wrap64_eq {n : Int} (h1 : minInt64 ≤ n) (h2 : n ≤ maxInt64) : wrap64 n = n := by
  unfold wrap64 minInt64 maxInt64 at *
  omega

/-- The distance of a sample from the first one, in units. -/
def sampleUnits (n R i : Nat) : Nat := rounded (rounded i n * R) (2 ^ 1074)

theorem sampleUnits_mono {n R i j : Nat} (hn : 0 < n) (h : i ≤ j) : sampleUnits n R i ≤ sampleUnits n R j := by
  have h1 : rounded i n ≤ rounded j n := rounded_mono hn hn (Nat.mul_le_mul_right _ h)
  refine rounded_mono (Nat.two_pow_pos _) (Nat.two_pow_pos _) (Nat.mul_le_mul_right _ (Nat.mul_le_mul_right _ h1))

theorem rounded_zero (q : Nat) : rounded 0 q = 0 := by unfold rounded divRound; simp

theorem sampleUnits_zero (n R : Nat) : sampleUnits n R 0 = 0 := by
  unfold sampleUnits
  rw [rounded_zero, Nat.zero_mul, rounded_zero]

theorem sampleUnits_last {n R : Nat} (hn : 0 < n) (hR : R < 2 ^ 53) : sampleUnits n R n = R * 2 ^ 1074 := by
  have h1 : rounded n n = 2 ^ 1074 := by
    have : rounded n n = rounded 1 1 := by
      apply Nat.le_antisymm
      · exact rounded_mono hn (by decide) (by omega)
      · exact rounded_mono (by decide) hn (by omega)
    rw [this, rounded_nat (by decide), Nat.one_mul]
  unfold sampleUnits
  rw [h1]
  have hP : (0 : Nat) < 2 ^ 1074 := Nat.two_pow_pos _
  have : rounded (2 ^ 1074 * R) (2 ^ 1074) = rounded R 1 := by
    apply Nat.le_antisymm
    · exact rounded_mono hP (by decide) (by rw [Nat.mul_one, Nat.mul_comm]; exact Nat.le_refl _)
    · exact rounded_mono (by decide) hP (by rw [Nat.mul_one, Nat.mul_comm]; exact Nat.le_refl _)
  rw [this, rounded_nat hR]

theorem sampleTime_eq {lo hi : Int} {n R i : Nat} (hR : hi = lo + R) (hR' : R < 2 ^ 53) (hn : 0 < n) (hn' : n < 2 ^ 53) (hi' : i ≤ n)
    (h1 : minInt64 ≤ lo) (h2 : hi ≤ maxInt64) :
    sampleTime lo hi (n + 1 : Nat) i = lo + (sampleUnits n R i / 2 ^ 1074 : Nat) ∧ sampleUnits n R i / 2 ^ 1074 ≤ R := by
  obtain ⟨a1, a2, a3⟩ := div_units hi' hn hn'
  obtain ⟨b1, b2, b3⟩ := mul_units a1 a2 a3 hR'
  have hle : sampleUnits n R i / 2 ^ 1074 ≤ R := Nat.div_le_of_le_mul (by rw [Nat.mul_comm]; exact b3)
  refine ⟨?_, hle⟩
  have e1 : ((n + 1 : Nat) : Int) - 1 = (n : Nat) := by omega
  have e2 : wrap64 (hi - lo) = (R : Nat) := by
    rw [hR, show lo + (R : Int) - lo = (R : Int) by omega]
    refine wrap64_eq ?_ ?_ <;> unfold minInt64 maxInt64 at * <;> omega
  have ht : (mul (div (F64.ofInt i) (F64.ofInt n)) (F64.ofInt R)).toInt64 = ((sampleUnits n R i / 2 ^ 1074 : Nat) : Int) := by
    rw [toInt64_key b1 (by rw [b2]; exact Int.natCast_nonneg _), b2, Int.natCast_ediv, Int.natCast_pow]
    · rfl
    · rw [b2]
      have h3 := Int.ofNat_le.2 b3
      rw [Int.natCast_mul, Int.natCast_pow, show ((2 : Nat) : Int) = 2 from rfl] at h3
      refine Int.lt_of_le_of_lt h3 ?_
      exact Int.mul_lt_mul_of_pos_right (by omega) (Int.pow_pos (by decide))
  unfold sampleTime
  rw [e1, e2, ht]
  refine wrap64_eq ?_ ?_
  · omega
  · omega

/-- The whole part of the distance is the rounded down one, or one less if that is exact. -/
theorem sampleUnits_even {n R i : Nat} (hn : 0 < n) (hi : i ≤ n) (hn' : n < 2 ^ 50) (hR : n * R < 2 ^ 50) :
    n * (sampleUnits n R i / 2 ^ 1074) ≤ i * R ∧ i * R ≤ n * (sampleUnits n R i / 2 ^ 1074) + n := by
  obtain ⟨a1, a2⟩ := rounded_error i hn
  obtain ⟨b1, b2⟩ := rounded_error (rounded i n * R) (Nat.two_pow_pos 1074)
  have hd := Nat.div_add_mod (sampleUnits n R i) (2 ^ 1074)
  have hm := Nat.mod_lt (sampleUnits n R i) (Nat.two_pow_pos 1074)
  have hiR : i * R ≤ n * R := Nat.mul_le_mul_right _ hi
  have hbig : (2 : Nat) ^ 60 ≤ 2 ^ 1074 := Nat.pow_le_pow_right (by decide) (by decide)
  unfold sampleUnits at *
  generalize rounded (rounded i n * R) (2 ^ 1074) = k2 at *
  generalize rounded i n = k1 at *
  generalize (2 : Nat) ^ 1074 = P at *
  generalize k2 / P = f at *
  generalize k2 % P = g at *
  have hP : 0 < P := by omega
  have c1 : 2 ^ 53 * k2 ≤ 2 ^ 53 * (k1 * R) + k1 * R + 2 ^ 52 := by
    refine Nat.le_of_mul_le_mul_right ?_ hP
    simpa only [Nat.add_mul, Nat.mul_assoc] using b1
  have c2 : 2 ^ 53 * (k1 * R) ≤ 2 ^ 53 * k2 + k1 * R + 2 ^ 52 := by
    refine Nat.le_of_mul_le_mul_right ?_ hP
    simpa only [Nat.add_mul, Nat.mul_assoc] using b2
  have d1 := Nat.mul_le_mul_left n c1
  have d2 := Nat.mul_le_mul_left n c2
  have e1 := Nat.mul_le_mul_right R a1
  have e2 := Nat.mul_le_mul_right R a2
  have hV : n * k2 = n * f * P + n * g := by rw [← hd, Nat.mul_add, Nat.mul_comm P f, Nat.mul_assoc]
  have hg : n * g ≤ n * P := Nat.mul_le_mul_left _ (Nat.le_of_lt hm)
  have hXP : i * R * P ≤ (2 ^ 50 - 1) * P := Nat.mul_le_mul_right _ (by omega)
  have r1 : n * (2 ^ 53 * k2) = 2 ^ 53 * (n * k2) := Nat.mul_left_comm ..
  have r2 : n * (2 ^ 53 * (k1 * R)) = 2 ^ 53 * (n * (k1 * R)) := Nat.mul_left_comm ..
  have r3 : n * 2 ^ 52 = 2 ^ 52 * n := Nat.mul_comm ..
  have r4 : 2 ^ 53 * (k1 * n) * R = 2 ^ 53 * (n * (k1 * R)) := by
    rw [Nat.mul_assoc, Nat.mul_comm k1 n, Nat.mul_assoc]
  have r5 : 2 ^ 53 * (i * P) * R = 2 ^ 53 * (i * R * P) := by
    rw [Nat.mul_assoc, Nat.mul_right_comm]
  have r6 : i * P * R = i * R * P := Nat.mul_right_comm ..
  have r7 : 2 ^ 52 * n * R = 2 ^ 52 * (n * R) := Nat.mul_assoc ..
  rw [Nat.mul_add, Nat.mul_add, r1, r2, r3] at d1 d2
  rw [Nat.add_mul, Nat.add_mul, r4, r5, r6, r7] at e1 e2
  constructor
  · apply Nat.le_of_not_lt
    intro hc
    have hF : (i * R + 1) * P ≤ n * f * P := Nat.mul_le_mul_right _ hc
    rw [Nat.add_mul, Nat.one_mul] at hF
    generalize n * f * P = FP at *
    generalize n * (k1 * R) = W at *
    generalize i * R * P = XP at *
    generalize n * k2 = V at *
    generalize n * R = NR at *
    generalize n * g = G at *
    simp only [Nat.reducePow] at *
    omega
  · apply Nat.le_of_not_lt
    intro hc
    have hF : (n * f + n + 1) * P ≤ i * R * P := Nat.mul_le_mul_right _ hc
    rw [Nat.add_mul, Nat.add_mul, Nat.one_mul] at hF
    generalize n * f * P = FP at *
    generalize n * (k1 * R) = W at *
    generalize i * R * P = XP at *
    generalize n * k2 = V at *
    generalize n * R = NR at *
    generalize n * g = G at *
    generalize n * P = NP at *
    simp only [Nat.reducePow] at *
    omega

/-- `lo` and `hi` are the smallest and the largest time of the patches. -/
structure TimesOf (ps : List TPatch) (lo hi : Int) : Prop where
  first : ∃ p ∈ ps, p.ts = lo
  last : ∃ p ∈ ps, p.ts = hi
  all : ∀ p ∈ ps, lo ≤ p.ts ∧ p.ts ≤ hi

theorem TimesOf.range {ps : List TPatch} {lo hi : Int} (h : TimesOf ps lo hi) (now : Int) : timeRange now ps = (lo, hi) := by
  have hne : ps ≠ [] := by
    rintro rfl
    obtain ⟨p, hp, -⟩ := h.first
    cases hp
  obtain ⟨⟨p, hp, e1⟩, ⟨q, hq, e2⟩, h3⟩ := C66_range now hne
  obtain ⟨⟨p', hp', e1'⟩, ⟨q', hq', e2'⟩, h3'⟩ := h
  have := h3 p' hp'
  have := h3 q' hq'
  have := h3' p hp
  have := h3' q hq
  exact Prod.ext (by omega) (by omega)

theorem sampleTimes_eq {ps : List TPatch} {lo hi : Int} (h : TimesOf ps lo hi) (now : Int) (count : Nat) :
    sampleTimes now ps count = .ok ((List.range count).map (sampleTime lo hi count)) := by
  unfold sampleTimes
  rw [if_neg (by omega), h.range now]
  rfl

theorem sampleTimes_get {ps : List TPatch} {lo hi : Int} (h : TimesOf ps lo hi) (h1 : minInt64 ≤ lo) (h2 : hi ≤ maxInt64)
    (hR : hi - lo < 2 ^ 53) (now : Int) {count : Nat} (hc : 2 ≤ count) (hc' : count ≤ 2 ^ 53) :
    ∃ l R, hi = lo + (R : Nat) ∧ sampleTimes now ps count = .ok l ∧ l.length = count ∧
      ∀ i, i < count → l[i]? = some (lo + (sampleUnits (count - 1) R i / 2 ^ 1074 : Nat)) ∧ sampleUnits (count - 1) R i / 2 ^ 1074 ≤ R := by
  have hle : lo ≤ hi := by
    obtain ⟨p, hp, e⟩ := h.first
    have := h.all p hp
    omega
  obtain ⟨R, hR0⟩ := Int.eq_ofNat_of_zero_le (show 0 ≤ hi - lo by omega)
  refine ⟨_, R, by omega, sampleTimes_eq h now count, by simp, fun i hi' => ?_⟩
  obtain ⟨n, rfl⟩ : ∃ n, count = n + 1 := ⟨count - 1, by omega⟩
  have := sampleTime_eq (lo := lo) (hi := hi) (n := n) (R := R) (i := i) (by omega) (by omega) (by omega) (by omega) (by omega) h1 h2
  rw [Nat.add_sub_cancel]
  refine ⟨?_, this.2⟩
  rw [List.getElem?_map, List.getElem?_range hi', Option.map_some, this.1]

/-- **C84.**  The times at which snapshots are taken: as many as asked for, ascending, the first and the last time of the
patches included, none outside. -/
theorem C84_times_partial {ps : List TPatch} {lo hi : Int} (h : TimesOf ps lo hi) (h1 : minInt64 ≤ lo) (h2 : hi ≤ maxInt64)
    (hR : hi - lo < 2 ^ 53) (now : Int) {count : Nat} (hc : 2 ≤ count) (hc' : count ≤ 2 ^ 53) :
    ∃ l, sampleTimes now ps count = .ok l ∧ l.length = count ∧ l.head? = some lo ∧ l.getLast? = some hi ∧
      l.Pairwise (fun a b => a ≤ b) ∧ ∀ t ∈ l, lo ≤ t ∧ t ≤ hi := by
  obtain ⟨l, R, hRe, hl, hlen, hg⟩ := sampleTimes_get h h1 h2 hR now hc hc'
  refine ⟨l, hl, hlen, ?_, ?_, ?_, ?_⟩
  · rw [List.head?_eq_getElem?, (hg 0 (by omega)).1, sampleUnits_zero, Nat.zero_div]
    simp
  · rw [List.getLast?_eq_getElem?, hlen, (hg (count - 1) (by omega)).1, sampleUnits_last (by omega) (by omega),
      Nat.mul_div_cancel _ (Nat.two_pow_pos _), hRe]
  · rw [List.pairwise_iff_getElem]
    intro i j hi' hj' hij
    have a := (hg i (by omega)).1
    have b := (hg j (by omega)).1
    rw [List.getElem?_eq_getElem hi', Option.some.injEq] at a
    rw [List.getElem?_eq_getElem hj', Option.some.injEq] at b
    have := Nat.div_le_div_right (c := 2 ^ 1074) (sampleUnits_mono (n := count - 1) (R := R) (by omega) (Nat.le_of_lt hij))
    omega
  · intro t ht
    obtain ⟨i, hi', rfl⟩ := List.mem_iff_getElem.1 ht
    obtain ⟨a, b⟩ := hg i (by omega)
    rw [List.getElem?_eq_getElem hi', Option.some.injEq] at a
    omega

/-- **C84.**  They are spread evenly: each is the exact time rounded down, or one less if the exact time is whole. -/
theorem C84_even_partial {ps : List TPatch} {lo hi : Int} (h : TimesOf ps lo hi) (h1 : minInt64 ≤ lo) (h2 : hi ≤ maxInt64)
    (now : Int) {count : Nat} (hc : 2 ≤ count) (hc' : count ≤ 2 ^ 50) (hR : (count - 1) * (hi - lo) < 2 ^ 50) :
    ∃ l, sampleTimes now ps count = .ok l ∧ ∀ (i : Nat) (t : Int), l[i]? = some t →
      (count - 1) * (t - lo) ≤ i * (hi - lo) ∧ i * (hi - lo) ≤ (count - 1) * (t - lo) + (count - 1) := by
  have hle : lo ≤ hi := by
    obtain ⟨p, hp, e⟩ := h.first
    have := h.all p hp
    omega
  have hR' : hi - lo < 2 ^ 50 := by
    have : 1 * (hi - lo) ≤ (count - 1) * (hi - lo) := Int.mul_le_mul_of_nonneg_right (by omega) (by omega)
    omega
  obtain ⟨l, R, hRe, hl, hlen, hg⟩ := sampleTimes_get h h1 h2 (by omega) now hc (by omega)
  refine ⟨l, hl, fun i t ht => ?_⟩
  have hi' : i < count := by
    have := (List.getElem?_eq_some_iff.1 ht).1
    omega
  obtain ⟨a, -⟩ := hg i hi'
  rw [ht, Option.some.injEq] at a
  have e1 : hi - lo = (R : Nat) := by omega
  have e2 : t - lo = (sampleUnits (count - 1) R i / 2 ^ 1074 : Nat) := by omega
  have e3 : (count : Int) - 1 = (count - 1 : Nat) := by omega
  rw [e3, e1, ← Int.natCast_mul] at hR
  obtain ⟨k1, k2⟩ := sampleUnits_even (n := count - 1) (R := R) (i := i) (by omega) (by omega) (by omega) (by omega)
  rw [e1, e2, e3]
  generalize sampleUnits (count - 1) R i / 2 ^ 1074 = x at *
  constructor
  · rw [← Int.natCast_mul, ← Int.natCast_mul]; exact Int.ofNat_le.2 k1
  · rw [← Int.natCast_mul, ← Int.natCast_mul, ← Int.natCast_add]; exact Int.ofNat_le.2 k2

/-- **C84, refuted: exact times.**  Of 61 times over 300 s, the one at 55 s is 1 ms early, although the exact time is
whole. -/
theorem C84_exact_fails (now : Int) :
    let ps : List TPatch := [⟨b!"replace", b!"Vehicle.Speed", .bool true, 0⟩, ⟨b!"replace", b!"Vehicle.Speed", .bool false, 300000⟩]
    ∃ l, sampleTimes now ps 61 = .ok l ∧ l[11]? = some 54999 ∧ l[12]? = some 60000 ∧ (60 : Int) * 55000 = 11 * 300000 :=
  ⟨(List.range 61).map (sampleTime 0 300000 61), rfl, by decide +kernel, by decide +kernel, by decide⟩

/-- **C84, refuted: a single time.**  For one time, 0 is divided by 0, and the time is far outside. -/
theorem C84_single_fails (now : Int) :
    let ps : List TPatch := [⟨b!"replace", b!"Vehicle.Speed", .bool true, 5⟩, ⟨b!"replace", b!"Vehicle.Speed", .bool false, 300000⟩]
    sampleTimes now ps 1 = .ok [minInt64 + 5] := by
  show Res.ok [sampleTime 5 300000 1 0] = _
  rw [show sampleTime 5 300000 1 0 = minInt64 + 5 by decide +kernel]

/-- **C84 with C69.**  At all times the experiment takes snapshots at, the logument and the TJSON store show the same value
for every sensor inside a map whose readings up to that time have different times. -/
theorem C84_agree_partial (h : Heap) (o : TOracle) {now : Int} (h1 : now ≤ maxInt64) {doc m : List (Bytes × Js)}
    (hm : jsTransform (.obj doc) = .obj m) (hk : GoodKeys (.obj m)) (hp : PlainJson (.obj m)) (hdep : (Js.obj m).depth < 10000)
    {rs : List TPatch} (hrs : SensorReadings m rs) (hne : rs ≠ []) (hnow : ∀ r ∈ rs, r.ts ≤ now ∧ r.ts < 2 ^ 53)
    {ps : List TPatch} (hps : ps.Perm (createInitialPatches doc ++ rs)) (now' : Int) {count : Nat} (hc : 2 ≤ count) (hc' : count ≤ 2 ^ 53)
    (os : Nat → Oracle) :
    ∃ l s, sampleTimes now' rs count = .ok l ∧ createLogument h doc rs = .ok s ∧
      ∀ (i : Nat) (t : Int), l[i]? = some t →
        ∃ u, (s.queries (l.mapIdx fun i t => (os i, t))).2[i]? = some (.ok (some u)) ∧
          ∀ ks w, SensorAt m ks w → 2 ≤ ks.length →
            ((∀ r ∈ rs, r.path = joinWith bDot ks → t < r.ts) ∨ ∃ r, Governs rs (joinWith bDot ks) t r) →
            Agree u (tSnapshot (fromPatches o now ps) t) ks := by
  obtain ⟨hf, hla, hall⟩ := C66_range now' hne
  have hT : TimesOf rs (timeRange now' rs).1 (timeRange now' rs).2 := ⟨hf, hla, hall⟩
  generalize (timeRange now' rs).1 = lo at *
  generalize (timeRange now' rs).2 = hi at *
  obtain ⟨p, hpm, rfl⟩ := hf
  obtain ⟨q, hqm, rfl⟩ := hla
  have hp0 := (hrs p hpm).2.1
  have hqm' := (hrs q hqm).2.2.1
  have hqn := hnow q hqm
  obtain ⟨l, hl, hlen, -, -, hsort, hin⟩ := C84_times_partial hT (by unfold minInt64; omega) hqm' (by omega) now' hc hc'
  have hsort' : (l.mapIdx fun i t => (os i, t)).Pairwise (fun a b => a.2 ≤ b.2) := by
    rw [List.pairwise_iff_getElem] at hsort ⊢
    intro i j hi hj hij
    rw [List.length_mapIdx] at hi hj
    simp only [List.getElem_mapIdx]
    exact hsort i j hi hj hij
  have hq0 := (hrs q hqm).2.1
  obtain ⟨s, hs1, -, hs3⟩ := C69_agree_partial h o (now := now) (by omega) h1 hm hk hp hdep hrs hps hsort' (by
    intro x hx
    obtain ⟨i, hi, rfl⟩ := List.mem_mapIdx.1 hx
    have := hin _ (List.getElem_mem hi)
    exact ⟨by show l[i] ≤ now; omega, p, hpm, this.1⟩)
  refine ⟨l, s, hl, hs1, fun i t ht => ?_⟩
  refine hs3 i (os i, t) ?_
  rw [List.getElem?_mapIdx, ht]; rfl

/-- The times of the patches of a simulation. -/
def timedPatches : List TPatch :=
  [⟨b!"replace", b!"Vehicle.Speed", .bool true, 0⟩, ⟨b!"replace", b!"Vehicle.Speed", .bool false, 299900⟩,
   ⟨b!"replace", b!"Vehicle.Speed", .bool true, 7⟩]

theorem timedPatches_times : TimesOf timedPatches 0 299900 := by
  refine ⟨⟨_, List.mem_cons_self .., rfl⟩, ⟨_, List.mem_cons_of_mem _ (List.mem_cons_self ..), rfl⟩, ?_⟩
  decide

/-- 61 times over 299.9 s. -/
example : ∃ l, sampleTimes 0 timedPatches 61 = .ok l ∧ l.length = 61 ∧ l.head? = some 0 ∧ l.getLast? = some 299900 ∧
    l.Pairwise (fun a b => a ≤ b) ∧ ∀ t ∈ l, 0 ≤ t ∧ t ≤ 299900 :=
  C84_times_partial timedPatches_times (by decide) (by decide) (by decide) 0 (by decide) (by decide)

example : ∃ l, sampleTimes 0 timedPatches 61 = .ok l ∧ ∀ (i : Nat) (t : Int), l[i]? = some t →
    ((61 : Nat) - 1 : Int) * (t - 0) ≤ i * (299900 - 0) ∧ (i * (299900 - 0) : Int) ≤ ((61 : Nat) - 1) * (t - 0) + ((61 : Nat) - 1) :=
  C84_even_partial timedPatches_times (by decide) (by decide) 0 (by decide) (by decide) (by decide)

/-- Both stores at 5 times between the readings of `storeReadings`. -/
example : ∃ l s, sampleTimes 0 storeReadings 5 = .ok l ∧ createLogument [] storeDoc storeReadings = .ok s ∧
    ∀ (i : Nat) (t : Int), l[i]? = some t →
      ∃ u, (s.queries (l.mapIdx fun _ t => (Oracle.unstable, t))).2[i]? = some (.ok (some u)) ∧
        Agree u (tSnapshot (fromPatches tReverse 100 (storeReadings ++ createInitialPatches storeDoc)) t) [b!"car", b!"on"] := by
  obtain ⟨l, s, h1, h2, h3⟩ := C84_agree_partial [] tReverse (now := 100) (by decide) storeDoc_eq storeDoc_keys storeDoc_plain
    (by decide) storeReadings_sensor (by decide) (by decide) (List.perm_append_comm (l₁ := storeReadings)) 0 (count := 5) (by decide)
    (by decide) (fun _ => Oracle.unstable)
  refine ⟨l, s, h1, h2, fun i t ht => ?_⟩
  obtain ⟨u, h4, h5⟩ := h3 i t ht
  refine ⟨u, h4, h5 _ _ storeDoc_sensor (by decide) ?_⟩
  have hl : l = [20, 22, 25, 27, 30] := by
    have e : sampleTimes 0 storeReadings 5 = .ok [20, 22, 25, 27, 30] := by decide +kernel
    exact Res.ok.inj (h1.symm.trans e)
  subst hl
  have hrec : ∀ r ∈ storeReadings, r.ts ≤ t ↔ (r.ts = 20 ∨ r.ts = 30 ∧ t = 30) := by
    intro r hr
    rcases i with _ | _ | _ | _ | _ | i <;> cases ht <;> revert r hr <;> decide
  by_cases h30 : t = 30
  · refine .inr ⟨⟨b!"replace", b!"car.on", .bool true, 30⟩, by simp [storeReadings], by decide, Int.le_of_eq h30.symm, ?_⟩
    intro p hp _ _
    simp only [storeReadings, List.mem_cons, List.not_mem_nil, or_false] at hp
    rcases hp with rfl | rfl
    · exact .inr (by decide)
    · exact .inl rfl
  · refine .inr ⟨⟨b!"replace", b!"car.on", .bool false, 20⟩, by simp [storeReadings], by decide, ?_, ?_⟩
    · exact (hrec ⟨b!"replace", b!"car.on", .bool false, 20⟩ (by simp [storeReadings])).2 (.inl rfl)
    · intro p hp _ hle
      simp only [storeReadings, List.mem_cons, List.not_mem_nil, or_false] at hp
      rcases hp with rfl | rfl
      · exact .inl rfl
      · rcases (hrec ⟨b!"replace", b!"car.on", .bool true, 30⟩ (by simp [storeReadings])).1 hle with h | h
        · cases h
        · exact absurd h.2 h30

end Verif
