import Verif.ExpSched
/-
C80: when the sensors of the simulation are read, and how many readings are expected.
-/
namespace Verif

theorem mem_loopTimes {dur step : Nat} (hs : 0 < step) (n : Nat) : ∀ t, dur - t ≤ n →
    ∀ x, x ∈ loopTimes dur step t ↔ x < dur ∧ ∃ k, x = t + step * k := by
  induction n with
  | zero =>
    intro t ht x
    rw [loopTimes, if_neg (by omega)]
    refine ⟨fun h => absurd h List.not_mem_nil, ?_⟩
    rintro ⟨hx, k, rfl⟩
    have := Nat.le_add_right t (step * k)
    omega
  | succ n ih =>
    intro t ht x
    rw [loopTimes]
    by_cases h : t < dur
    · rw [if_pos ⟨h, hs⟩, List.mem_cons, ih (t + step) (by omega)]
      constructor
      · rintro (rfl | ⟨hx, k, rfl⟩)
        · exact ⟨h, 0, by simp⟩
        · exact ⟨hx, k + 1, by rw [Nat.mul_succ]; omega⟩
      · rintro ⟨hx, k, rfl⟩
        cases k with
        | zero => left; simp
        | succ k => exact .inr ⟨hx, k, by rw [Nat.mul_succ]; omega⟩
    · rw [if_neg (by omega)]
      refine ⟨fun h => absurd h List.not_mem_nil, ?_⟩
      rintro ⟨hx, k, rfl⟩
      have := Nat.le_add_right t (step * k)
      omega

theorem sorted_loopTimes {dur step : Nat} (hs : 0 < step) (n : Nat) : ∀ t, dur - t ≤ n →
    (loopTimes dur step t).Pairwise (· < ·) := by
  induction n with
  | zero => intro t ht; rw [loopTimes, if_neg (by omega)]; exact .nil
  | succ n ih =>
    intro t ht
    rw [loopTimes]
    split
    · rename_i h
      refine .cons ?_ (ih _ (by omega))
      intro x hx
      obtain ⟨-, k, rfl⟩ := (mem_loopTimes hs (dur - (t + step)) (t + step) (Nat.le_refl _) x).1 hx
      have := Nat.le_add_right (t + step) (step * k)
      omega
    · exact .nil

theorem length_loopTimes {dur step : Nat} (hs : 0 < step) (n : Nat) : ∀ t, dur - t ≤ n →
    (loopTimes dur step t).length = (dur - t + step - 1) / step := by
  induction n with
  | zero =>
    intro t ht
    rw [loopTimes, if_neg (by omega)]
    exact (Nat.div_eq_of_lt (by omega)).symm
  | succ n ih =>
    intro t ht
    rw [loopTimes]
    by_cases h : t < dur
    · rw [if_pos ⟨h, hs⟩, List.length_cons, ih _ (by omega)]
      have e : dur - t + step - 1 = (dur - t - 1) + step := by omega
      rw [e, Nat.add_div_right _ hs]
      by_cases h' : t + step ≤ dur
      · rw [show dur - (t + step) + step - 1 = dur - t - 1 by omega]
      · rw [show dur - (t + step) + step - 1 = step - 1 by omega, Nat.div_eq_of_lt (by omega), Nat.div_eq_of_lt (by omega)]
    · rw [if_neg (by omega)]
      exact (Nat.div_eq_of_lt (by omega)).symm

theorem mem_times {dur step : Nat} (hs : 0 < step) (x : Nat) : x ∈ loopTimes dur step 0 ↔ x < dur ∧ step ∣ x := by
  rw [mem_loopTimes hs dur 0 (by omega)]
  simp only [Nat.zero_add]
  rfl

theorem due_ok {t : Nat} {i : Int} (hi : i ≠ 0) : due t i = .ok (decide (i.natAbs ∣ t)) := by
  rw [due, if_neg hi]
  congr 1
  refine decide_eq_decide.2 ?_
  rw [← Int.dvd_iff_tmod_eq_zero, ← Int.natAbs_dvd, Int.natCast_dvd_natCast]

theorem readAt_ok (t : Nat) : ∀ ds : List Timed, (∀ d ∈ ds, d.interval ≠ 0) →
    readAt t ds = .ok ((ds.filter fun d => decide (d.interval.natAbs ∣ t)).map fun d => (t, d.path))
  | [], _ => rfl
  | d :: ds, h => by
    rw [readAt, due_ok (h d (by simp)), readAt_ok t ds fun e he => h e (by simp [he])]
    by_cases hd : d.interval.natAbs ∣ t <;> simp [Res.bind, Res.map, hd]

theorem readings_ok (order : Nat → List Timed) : ∀ ts : List Nat, (∀ t ∈ ts, ∀ d ∈ order t, d.interval ≠ 0) →
    readings order ts = .ok (ts.flatMap fun t => ((order t).filter fun d => decide (d.interval.natAbs ∣ t)).map fun d => (t, d.path))
  | [], _ => rfl
  | t :: ts, h => by
    rw [readings, readAt_ok t _ (h t (by simp)), readings_ok order ts fun e he => h e (by simp [he])]
    simp [Res.bind, Res.map]

/-- A sensor is read exactly at the times before the end that are multiples of the step and of its interval, and the
readings are in the order of time. -/
theorem C80_times {dur step : Nat} (hs : 0 < step) {ds : List Timed} (hi : ∀ d ∈ ds, d.interval ≠ 0)
    (order : Nat → List Timed) (ho : ∀ t, (order t).Perm ds) :
    ∃ rs, readings order (loopTimes dur step 0) = .ok rs ∧ rs.Pairwise (fun a b => a.1 ≤ b.1) ∧
      ∀ t p, (t, p) ∈ rs ↔ t < dur ∧ step ∣ t ∧ ∃ d ∈ ds, d.path = p ∧ d.interval ∣ (t : Int) := by
  refine ⟨_, readings_ok order _ fun t _ d hd => hi d ((ho t).mem_iff.1 hd), ?_, fun t p => ?_⟩
  · have := sorted_loopTimes (dur := dur) hs dur 0 (by omega)
    revert this
    generalize loopTimes dur step 0 = ts
    intro hts
    induction ts with
    | nil => exact .nil
    | cons t ts ih =>
      obtain ⟨h1, h2⟩ := List.pairwise_cons.1 hts
      rw [List.flatMap_cons, List.pairwise_append]
      refine ⟨?_, ih h2, ?_⟩
      · rw [List.pairwise_map]
        exact List.Pairwise.imp (R := fun _ _ => True) (fun _ => Nat.le_refl t) (List.pairwise_of_forall fun _ _ => trivial)
      · intro a ha b hb
        simp only [List.mem_map] at ha
        obtain ⟨d, -, rfl⟩ := ha
        simp only [List.mem_flatMap, List.mem_map] at hb
        obtain ⟨t', ht', d', -, rfl⟩ := hb
        exact Nat.le_of_lt (h1 t' ht')
  · simp only [List.mem_flatMap, List.mem_map, List.mem_filter, decide_eq_true_eq, mem_times hs]
    constructor
    · rintro ⟨t', ⟨h1, h2⟩, d, ⟨h3, h4⟩, h5⟩
      obtain ⟨rfl, rfl⟩ := Prod.mk.inj h5
      exact ⟨h1, h2, d, (ho t').mem_iff.1 h3, rfl, by rw [← Int.natAbs_dvd, Int.natCast_dvd_natCast]; exact h4⟩
    · rintro ⟨h1, h2, d, h3, rfl, h4⟩
      refine ⟨t, ⟨h1, h2⟩, d, ⟨(ho t).mem_iff.2 h3, ?_⟩, rfl⟩
      rw [← Int.natAbs_dvd, Int.natCast_dvd_natCast] at h4
      exact h4

/-- How often a sensor read every `i` milliseconds is read: every `lcm step i` milliseconds from 0 on. -/
theorem due_count {dur step i : Nat} (hs : 0 < step) (hi : 0 < i) :
    ((loopTimes dur step 0).filter fun t => decide (i ∣ t)).length = (dur + Nat.lcm step i - 1) / Nat.lcm step i := by
  have hl : 0 < Nat.lcm step i := Nat.lcm_pos hs hi
  rw [← Nat.sub_zero dur, ← length_loopTimes hl dur 0 (by omega), Nat.sub_zero]
  refine List.Perm.length_eq ((List.perm_ext_iff_of_nodup ?_ ?_).2 fun x => ?_)
  · exact ((sorted_loopTimes hs dur 0 (by omega)).imp (fun h => Nat.ne_of_lt h)).filter _
  · exact (sorted_loopTimes hl dur 0 (by omega)).imp (fun h => Nat.ne_of_lt h)
  · rw [List.mem_filter, mem_times hs, mem_times hl, decide_eq_true_eq, Nat.lcm_dvd_iff, and_assoc]

theorem sum_map_add {α : Type} (f g : α → Nat) (l : List α) :
    (l.map fun a => f a + g a).sum = (l.map f).sum + (l.map g).sum := by
  induction l with
  | nil => rfl
  | cons a l ih => simp only [List.map_cons, List.sum_cons, ih]; omega

theorem length_filter_sum {α : Type} (p : α → Bool) (l : List α) :
    (l.filter p).length = (l.map fun a => if p a then 1 else 0).sum := by
  induction l with
  | nil => rfl
  | cons a l ih =>
    rw [List.filter_cons]
    split <;> rename_i h <;> simp [h, ih] <;> omega

/-- The number of readings: for every sensor one for each multiple of `lcm step interval` before the end. -/
theorem C80_count {dur step : Nat} (hs : 0 < step) {ds : List Timed} (hi : ∀ d ∈ ds, d.interval ≠ 0)
    (order : Nat → List Timed) (ho : ∀ t, (order t).Perm ds) :
    ∃ rs, readings order (loopTimes dur step 0) = .ok rs ∧
      rs.length = (ds.map fun d => (dur + Nat.lcm step d.interval.natAbs - 1) / Nat.lcm step d.interval.natAbs).sum := by
  refine ⟨_, readings_ok order _ fun t _ d hd => hi d ((ho t).mem_iff.1 hd), ?_⟩
  have e : (ds.map fun d => (dur + Nat.lcm step d.interval.natAbs - 1) / Nat.lcm step d.interval.natAbs) =
      ds.map fun d => ((loopTimes dur step 0).filter fun t => decide (d.interval.natAbs ∣ t)).length := by
    refine List.map_congr_left fun d hd => ?_
    rw [due_count hs (by have := hi d hd; omega)]
  rw [e]
  generalize loopTimes dur step 0 = ts
  induction ts with
  | nil =>
    simp only [List.flatMap_nil, List.filter_nil, List.length_nil]
    clear e hi ho
    induction ds with
    | nil => rfl
    | cons d ds ih => simpa using ih
  | cons t ts ih =>
    rw [List.flatMap_cons, List.length_append, ih, List.length_map, ((ho t).filter _).length_eq, length_filter_sum, ← sum_map_add]
    congr 1
    refine List.map_congr_left fun d _ => ?_
    rw [List.filter_cons]
    split <;> rename_i h <;> simp [h] <;> omega

/-- The number of readings of one sensor, if paths are distinct. -/
theorem C80_each {dur step : Nat} (hs : 0 < step) {ds : List Timed} (hi : ∀ d ∈ ds, d.interval ≠ 0)
    (hn : ds.Pairwise fun a b => a.path ≠ b.path) {d : Timed} (hd : d ∈ ds)
    (order : Nat → List Timed) (ho : ∀ t, (order t).Perm ds) :
    ∃ rs, readings order (loopTimes dur step 0) = .ok rs ∧
      (rs.filter fun r => decide (r.2 = d.path)).length = (dur + Nat.lcm step d.interval.natAbs - 1) / Nat.lcm step d.interval.natAbs := by
  refine ⟨_, readings_ok order _ fun t _ d hd => hi d ((ho t).mem_iff.1 hd), ?_⟩
  rw [← due_count hs (by have := hi d hd; omega)]
  generalize loopTimes dur step 0 = ts
  have one : ∀ p : Timed → Bool, (ds.filter fun e => decide (e.path = d.path) && p e) = if p d then [d] else [] := by
    intro p
    clear hi ho
    induction ds with
    | nil => cases hd
    | cons e ds ih =>
      obtain ⟨h1, h2⟩ := List.pairwise_cons.1 hn
      rcases List.mem_cons.1 hd with rfl | hd'
      · have : (ds.filter fun e => decide (e.path = d.path) && p e) = [] := by
          refine List.filter_eq_nil_iff.2 fun e he => ?_
          simp [Ne.symm (h1 e he)]
        rw [List.filter_cons, this]
        simp
      · rw [List.filter_cons, ih h2 hd', if_neg (by simp [h1 d hd'])]
  induction ts with
  | nil => rfl
  | cons t ts ih =>
    rw [List.flatMap_cons, List.filter_append, List.length_append, ih, List.filter_map, List.length_map, List.filter_filter]
    have : ((order t).filter fun a => ((fun r : Nat × Bytes => decide (r.2 = d.path)) ∘ fun d => (t, d.path)) a && decide (a.interval.natAbs ∣ t)).length
        = if d.interval.natAbs ∣ t then 1 else 0 := by
      rw [((ho t).filter _).length_eq, show (fun a : Timed => ((fun r : Nat × Bytes => decide (r.2 = d.path)) ∘ fun d => (t, d.path)) a && decide (a.interval.natAbs ∣ t))
        = fun e => decide (e.path = d.path) && (fun e : Timed => decide (e.interval.natAbs ∣ t)) e from rfl, one]
      by_cases h : d.interval.natAbs ∣ t <;> simp [h]
    rw [this, List.filter_cons]
    by_cases h : d.interval.natAbs ∣ t <;> simp [h] <;> omega

/-- An interval of 0 stops the simulation with a panic. -/
theorem C80_zero_fails {dur step : Nat} (hd : 0 < dur) (hs : 0 < step) {ds : List Timed} {d : Timed} (hm : d ∈ ds) (h0 : d.interval = 0)
    (order : Nat → List Timed) (ho : ∀ t, (order t).Perm ds) : readings order (loopTimes dur step 0) = .panic := by
  have key : ∀ (t : Nat) (l : List Timed), d ∈ l → readAt t l = .panic := by
    intro t l
    induction l with
    | nil => intro h; cases h
    | cons e l ih =>
      intro h
      rw [readAt]
      by_cases he : e.interval = 0
      · rw [due, if_pos he]; rfl
      · rcases List.mem_cons.1 h with rfl | h
        · exact absurd h0 he
        · rw [due_ok he, ih h]; rfl
  rw [loopTimes, if_pos ⟨hd, hs⟩, readings, key 0 _ ((ho 0).mem_iff.2 hm)]
  rfl

/-- The estimate is the number of readings if there are no attributes and every interval is a multiple of the step that
divides the duration.  Missing: other intervals, see `C80_estimate_fails`. -/
theorem C80_estimate_partial {dur step : Nat} (hs : 0 < step) {ds : List Timed}
    (hi : ∀ d ∈ ds, d.group ≠ .attribute ∧ 0 < d.interval ∧ (step : Int) ∣ d.interval ∧ d.interval ∣ (dur : Int))
    (order : Nat → List Timed) (ho : ∀ t, (order t).Perm ds) :
    ∃ rs, readings order (loopTimes dur step 0) = .ok rs ∧ expectedUpdates dur ds = .ok rs.length := by
  obtain ⟨rs, h1, h2⟩ := C80_count (dur := dur) hs (fun d hd => by have := (hi d hd).2.1; omega) order ho
  refine ⟨rs, h1, ?_⟩
  rw [h2]
  clear h1 h2 ho
  induction ds with
  | nil => rfl
  | cons d ds ih =>
    obtain ⟨g, p, m, q⟩ := hi d (by simp)
    rw [expectedUpdates, if_neg g, if_neg (by omega), ih fun e he => hi e (by simp [he])]
    simp only [Res.map, List.map_cons, List.sum_cons]
    congr 1
    obtain ⟨n, hn⟩ : ∃ n : Nat, d.interval = n := ⟨d.interval.toNat, by omega⟩
    rw [hn] at p m q
    have hn0 : 0 < n := by omega
    have hm : step ∣ n := Int.natCast_dvd_natCast.1 m
    obtain ⟨k, hk⟩ := Int.natCast_dvd_natCast.1 q
    rw [hn, Int.natAbs_natCast, (Nat.lcm_eq_right_iff_dvd).2 hm, hk, Int.natCast_mul, Int.natCast_add]
    rw [Int.mul_tdiv_cancel_left _ (by omega)]
    have : (n * k + n - 1) / n = k := by
      refine Nat.div_eq_of_lt_le ?_ ?_
      · rw [Nat.mul_comm]; omega
      · rw [Nat.succ_mul, Nat.mul_comm]; omega
    rw [this]

/-- The sensors of the experiment. -/
def simSensors : List Timed := vssSensors.map VssSensor.timed

/-- The simulation of the experiment: the speed is to be read every 20 ms but is read every 100 ms; 34,082 readings are taken,
while 91,080 are expected. -/
theorem C80_estimate_fails (order : Nat → List Timed) (ho : ∀ t, (order t).Perm simSensors) :
    ∃ rs, readings order (loopTimes simDuration simStep 0) = .ok rs ∧
      (⟨b!"Vehicle.Speed", .high, 20⟩ : Timed) ∈ simSensors ∧ (rs.filter fun r => decide (r.2 = b!"Vehicle.Speed")).length = 3000 ∧
      rs.length = 34082 ∧ expectedUpdates simDuration simSensors = .ok 91080 := by
  have hi : ∀ d ∈ simSensors, d.interval ≠ 0 := by decide +kernel
  have hd : (⟨b!"Vehicle.Speed", .high, 20⟩ : Timed) ∈ simSensors := by decide +kernel
  obtain ⟨rs, h1, h2⟩ := C80_count (dur := simDuration) (step := simStep) (by decide) hi order ho
  obtain ⟨rs', h1', h3⟩ := C80_each (dur := simDuration) (step := simStep) (by decide) hi (by decide +kernel) hd order ho
  obtain rfl : rs = rs' := by rw [h1] at h1'; cases h1'; rfl
  refine ⟨rs, h1, hd, h3.trans (by decide +kernel), h2.trans (by decide +kernel), by decide +kernel⟩

/-! ### Examples -/

/-- Three sensors, read every 200, 300 and 150 ms. -/
def schedDemo : List Timed := [⟨b!"a", .high, 200⟩, ⟨b!"b", .low, 300⟩, ⟨b!"c", .medium, 150⟩]

example : readings (fun _ => schedDemo) (loopTimes 600 100 0) =
    .ok [(0, b!"a"), (0, b!"b"), (0, b!"c"), (200, b!"a"), (300, b!"b"), (300, b!"c"), (400, b!"a")] := by
  rw [readings_ok _ _ (fun _ _ => by decide +kernel)]
  have : loopTimes 600 100 0 = [0, 100, 200, 300, 400, 500] := by
    simp [loopTimes]
  rw [this]
  decide +kernel

/-- The sensor read every 150 ms is read at 0 and 300 only. -/
example (order : Nat → List Timed) (ho : ∀ t, (order t).Perm schedDemo) :
    ∃ rs, readings order (loopTimes 600 100 0) = .ok rs ∧ (300, b!"c") ∈ rs ∧ (150, b!"c") ∉ rs := by
  obtain ⟨rs, h, -, hm⟩ := C80_times (dur := 600) (step := 100) (by decide) (ds := schedDemo) (by decide +kernel) order ho
  exact ⟨rs, h, (hm _ _).2 (by decide +kernel), fun h => by revert h; rw [hm]; decide +kernel⟩

example (order : Nat → List Timed) (ho : ∀ t, (order t).Perm schedDemo) :
    ∃ rs, readings order (loopTimes 600 100 0) = .ok rs ∧ rs.length = 7 :=
  C80_count (dur := 600) (step := 100) (by decide) (ds := schedDemo) (by decide +kernel) order ho

example (order : Nat → List Timed) (ho : ∀ t, (order t).Perm schedDemo) :
    ∃ rs, readings order (loopTimes 600 100 0) = .ok rs ∧ (rs.filter fun r => decide (r.2 = b!"a")).length = 3 :=
  C80_each (dur := 600) (step := 100) (by decide) (ds := schedDemo) (by decide +kernel) (by decide +kernel)
    (d := ⟨b!"a", .high, 200⟩) (by decide +kernel) order ho

example (order : Nat → List Timed) (ho : ∀ t, (order t).Perm (⟨b!"z", .low, 0⟩ :: schedDemo)) :
    readings order (loopTimes 600 100 0) = .panic :=
  C80_zero_fails (by decide) (by decide) (List.mem_cons_self ..) rfl order ho

example (order : Nat → List Timed) (ho : ∀ t, (order t).Perm [⟨b!"a", .high, 200⟩, ⟨b!"b", .low, 300⟩]) :
    ∃ rs, readings order (loopTimes 600 100 0) = .ok rs ∧
      expectedUpdates 600 [⟨b!"a", .high, 200⟩, ⟨b!"b", .low, 300⟩] = .ok rs.length :=
  C80_estimate_partial (dur := 600) (step := 100) (by decide) (by decide +kernel) order ho

end Verif
