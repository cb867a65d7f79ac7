import Verif.PropsExpCsv
import Verif.PropsExpDirs
/-
C90: the sizes of the patches in the table of results.
-/
namespace Verif

/-! ### Strings -/

theorem jsonBody_ascii : ∀ (s : Bytes) (n : Nat), s.length ≤ n → (∀ c ∈ s, c < 0x80) → jsonStrBody n s = s.flatMap jsonByte
  | [], 0, _, _ => rfl
  | [], _ + 1, _, _ => rfl
  | c :: s, 0, h, _ => by simp at h
  | c :: s, n + 1, h, ha => by
    rw [jsonStrBody, if_pos (ha c (by simp)), List.flatMap_cons, jsonBody_ascii s n (by simpa using h) fun x hx => ha x (by simp [hx])]

theorem jsonStr_ascii {s : Bytes} (h : ∀ c ∈ s, c < 0x80) : (jsonStr s).length = (s.flatMap jsonByte).length + 2 := by
  unfold jsonStr
  rw [jsonBody_ascii s _ (Nat.le_refl _) h]
  simp

theorem jsonStr_append {s t : Bytes} (hs : ∀ c ∈ s, c < 0x80) (ht : ∀ c ∈ t, c < 0x80) :
    (jsonStr (s ++ t)).length = (jsonStr s).length + (t.flatMap jsonByte).length := by
  rw [jsonStr_ascii hs, jsonStr_ascii fun c hc => (List.mem_append.1 hc).elim (hs c) (ht c), List.flatMap_append, List.length_append]
  omega

/-! ### Slices -/

/-- The bytes of some texts with a comma after each. -/
def commaLen : List Bytes → Nat
  | [] => 0
  | b :: l => b.length + 1 + commaLen l

theorem commaLen_append (a b : List Bytes) : commaLen (a ++ b) = commaLen a + commaLen b := by
  induction a with
  | nil => simp [commaLen]
  | cons x a ih => simp only [List.cons_append, commaLen, ih]; omega

theorem join_len : ∀ {l : List Bytes}, l ≠ [] → (joinElems l).length + 1 = commaLen l
  | [b], _ => by simp [joinElems, commaLen]
  | b :: c :: l, _ => by
    have := join_len (l := c :: l) (by simp)
    rw [joinElems, commaLen]
    simp only [List.length_append, List.length_cons]
    omega

theorem jsonList_append {α : Type} {f : α → Res Bytes} : ∀ {a b : List α} {la lb : List Bytes}, jsonList f a = .ok la → jsonList f b = .ok lb →
    jsonList f (a ++ b) = .ok (la ++ lb)
  | [], b, la, lb, h1, h2 => by cases h1; exact h2
  | x :: a, b, la, lb, h1, h2 => by
    rw [jsonList] at h1
    rw [List.cons_append, jsonList]
    cases e : f x with
    | err => rw [e] at h1; cases h1
    | panic => rw [e] at h1; cases h1
    | ok t =>
      rw [e] at h1
      simp only [Res.bind] at h1 ⊢
      cases e2 : jsonList f a with
      | err => rw [e2] at h1; cases h1
      | panic => rw [e2] at h1; cases h1
      | ok l =>
        rw [e2] at h1
        cases h1
        rw [jsonList_append e2 h2]
        rfl

/-- A reading whose patches can be written. -/
structure Reading.Short (x : Reading) : Prop where
  ascii : ∀ c ∈ x.path, c < 0x80
  path : 13 ≤ x.path.length
  finite : x.value.finite = true

/-- The texts of the patches so far, with at least 51 bytes less for TSON with each update. -/
structure Sized (s : Sim) (J T U : List Bytes) : Prop where
  json : jsonList JPatch.json s.jsonPatches = .ok J
  tson : jsonList TPatch.json s.tsonPatches = .ok T
  set : jsonList TPatch.json s.setPatches = .ok U
  less : commaLen T + 51 * s.updates ≤ commaLen J
  some : s.updates = 0 ↔ J = []

theorem byte_len (c : UInt8) : 1 ≤ (jsonByte c).length := by
  unfold jsonByte
  split <;> first | decide | skip
  all_goals (repeat' split) <;> simp

theorem bytes_len : ∀ s : Bytes, s.length ≤ (s.flatMap jsonByte).length
  | [] => by simp
  | c :: s => by
    have := bytes_len s
    have := byte_len c
    simp only [List.length_cons, List.flatMap_cons, List.length_append]
    omega

theorem Sized.step {s : Sim} {J T U : List Bytes} (h : Sized s J T U) {x : Reading} (hx : x.Short) (eq : Js → Js → Bool) :
    ∃ J' T' U', Sized (s.step eq x) J' T' U' := by
  have m1 : marshalAny x.value = .ok (anyText x.value) := by rw [marshalAny, if_pos hx.finite]
  have m2 : marshalAny (.int x.ts) = .ok (itoa x.ts) := rfl
  have hs : (x.path.flatMap jsonByte).length + 2 = (jsonStr x.path).length := (jsonStr_ascii hx.ascii).symm
  have hl := bytes_len x.path
  have hp := hx.path
  have h1 : (jsonStr (x.path ++ b!"/timestamp")).length = (jsonStr x.path).length + 10 := by
    rw [jsonStr_append hx.ascii (by decide)]; rfl
  have h2 : (jsonStr (x.path ++ b!"/value")).length = (jsonStr x.path).length + 6 := by
    rw [jsonStr_append hx.ascii (by decide)]; rfl
  have hi : 1 ≤ (itoa x.ts).length := by
    have := itoa_ne_nil x.ts
    cases h : itoa x.ts with
    | nil => exact absurd h this
    | cons a b => simp
  have o : (jsonStr b!"replace").length = 9 := by decide +kernel
  have ju := h.some
  unfold Sim.step
  dsimp only
  cases hc : eq ((mget s.sensors x.path).getD .null) x.value with
  | true =>
    refine ⟨_, _, _, jsonList_append h.json (by simp only [Bool.not_true, Bool.false_eq_true, if_false, jsonList, JPatch.json, m2, Res.map, Res.bind]; rfl),
      by simpa using h.tson, jsonList_append h.set (by simp only [jsonList, TPatch.json, m1, Res.map, Res.bind]; rfl), ?_, ?_⟩
    · have := h.less
      rw [commaLen_append]
      simp only [commaLen, List.length_append, List.length_cons, List.length_nil]
      omega
    · simp
  | false =>
    refine ⟨_, _, _, jsonList_append h.json (by simp only [Bool.not_false, if_true, jsonList, JPatch.json, m1, m2, Res.map, Res.bind]; rfl),
      (by simp only [Bool.not_false, if_true]; exact jsonList_append h.tson (by simp only [jsonList, TPatch.json, m1, Res.map, Res.bind]; rfl)),
      jsonList_append h.set (by simp only [jsonList, TPatch.json, m1, Res.map, Res.bind]; rfl), ?_, ?_⟩
    · have := h.less
      rw [commaLen_append, commaLen_append]
      simp only [commaLen, List.length_append, List.length_cons, List.length_nil]
      omega
    · simp

theorem slice_size {α : Type} {f : α → Res Bytes} {ps : List α} {l : List Bytes} (h : jsonList f ps = .ok l) :
    ∃ s, jsonSlice f ps = .ok s ∧ s.length = (if l = [] then 2 else commaLen l + 1) ∧ (0 < s.length) := by
  refine ⟨91 :: (joinElems l ++ [93]), by rw [jsonSlice, h]; rfl, ?_, by simp⟩
  by_cases hl : l = []
  · rw [if_pos hl, hl]; rfl
  · have := join_len hl
    rw [if_neg hl]
    simp only [List.length_cons, List.length_append, List.length_nil]
    omega

theorem table_short : ∀ v ∈ vssSensors, (∀ c ∈ v.path, c < 0x80) ∧ 13 ≤ v.path.length := by decide +kernel

/-- **C90, sizes, partial.**  The sizes in `results.csv` are those of the texts of the patches.  Each update needs at least 50 bytes less
for TSON than for JSON.  The bandwidths are these sizes in KB by the seconds, shown to the last digit.  For drives of at
most 10^9 seconds; bandwidths of patches of less than 2^53 bytes. -/
theorem C90_sizes_partial {secs : Nat} (h9 : secs ≤ 10 ^ 9) {d : Draws} (hd : d.Good) (k : Clocks) {scenario : Bytes} (hs : scenario ∈ scenarioNames) :
    ∃ r dir h row j t u, experiment (secs * 1000) d scenario = .ok (some r) ∧ scenarioFiles secs d k scenario = .ok (some dir) ∧
      TableIn dir b!"results.csv" [h, row] ∧ jsonSlice JPatch.json r.sim.jsonPatches = .ok j ∧
      jsonSlice TPatch.json r.sim.tsonPatches = .ok t ∧ jsonSlice TPatch.json r.sim.setPatches = .ok u ∧
      number h row b!"JsonPatchSize" = some (j.length : Int) ∧ number h row b!"TsonPatchSize" = some (t.length : Int) ∧
      number h row b!"SetTsonPatchSize" = some (u.length : Int) ∧ t.length + 50 * r.sim.updates ≤ j.length ∧
      (0 < secs → j.length < 2 ^ 53 → ∃ s s', cell h row b!"JsonBandwidthUsage" = some s ∧ cell h row b!"TsonBandwidthUsage" = some s' ∧
        ShowsPct s j.length (102400 * secs) (j.length + secs) ∧ ShowsPct s' t.length (102400 * secs) (t.length + secs)) := by
  have h53 : (2 : Nat) ^ 53 = 9007199254740992 := by decide
  have h109 : (10 : Nat) ^ 9 = 1000000000 := by decide
  obtain ⟨r, T, dir, H⟩ := tables (secs := secs) hd k hs
  obtain ⟨r₀, r', o⟩ := ended (dur := secs * 1000) (by omega) hd hs
  obtain rfl : r = r' := by have := H.runs; rw [o.runs] at this; cases this; rfl
  obtain ⟨z1, z2, z3, z4, z5, z6⟩ := o.first.sim₀.empty
  obtain ⟨-, J, T', U, hz⟩ := experiment_inv (dur := secs * 1000) (by omega) hd hs (P := fun s => ∃ J T U, Sized s J T U)
    (fun s m ⟨J, T, U, h⟩ => ⟨J, T, U, h.json, h.tson, h.set, h.less, h.some⟩)
    (fun s x hx ⟨J, T, U, h⟩ => by
      obtain ⟨v, hv, e, -⟩ := hx.sensor
      have ha := table_short v hv
      rw [e] at ha
      exact h.step ⟨ha.1, ha.2, hx.value.ord.2.2.2⟩ isEqual) o.first.start o.runs
    ⟨[], [], [], by rw [z1]; rfl, by rw [z2]; rfl, by rw [z3]; rfl, by rw [z4]; decide, by simp [z4]⟩
  obtain ⟨j, j1, j2, -⟩ := slice_size hz.json
  obtain ⟨t, t1, t2, -⟩ := slice_size hz.tson
  obtain ⟨u, u1, -, -⟩ := slice_size hz.set
  have a1 : textSize (jsonSlice JPatch.json r.sim.jsonPatches) = j.length := by rw [j1]; rfl
  have a2 : textSize (jsonSlice TPatch.json r.sim.tsonPatches) = t.length := by rw [t1]; rfl
  have a3 : textSize (jsonSlice TPatch.json r.sim.setPatches) = u.length := by rw [u1]; rfl
  have hjt : t.length + 50 * r.sim.updates ≤ j.length := by
    have hl := hz.less
    have hsome := hz.some
    by_cases hJ : J = []
    · have := hsome.2 hJ
      rw [hJ] at hl j2
      rw [if_pos rfl] at j2
      rw [this] at hl ⊢
      have : commaLen T' = 0 := by simpa [commaLen] using hl
      have hT : T' = [] := by
        cases T' with
        | nil => rfl
        | cons a b => simp [commaLen] at this
      rw [if_pos hT] at t2
      omega
    · rw [if_neg hJ] at j2
      have : r.sim.updates ≠ 0 := fun e => hJ (hsome.1 e)
      split at t2 <;> omega
  refine ⟨r, dir, _, _, j, t, u, o.runs, H.files, H.results, j1, t1, u1, ?_, ?_, ?_, hjt, fun h0 hj => ⟨_, _, rfl, rfl, ?_, ?_⟩⟩
  · rw [← a1]; exact nat_reads _
  · rw [← a2]; exact nat_reads _
  · rw [← a3]; exact nat_reads _
  · rw [← a1] at hj ⊢
    exact C91_bandwidth hj h0 (by omega)
  · have ht : t.length < 2 ^ 53 := by omega
    rw [← a2] at ht ⊢
    exact C91_bandwidth ht h0 (by omega)

/-- The table of results of an hour of the mixed scenario. -/
example (k : Clocks) : ∃ r dir h row j t, experiment 3600000 halfDraws b!"mixed_scenario" = .ok (some r) ∧
    scenarioFiles 3600 halfDraws k b!"mixed_scenario" = .ok (some dir) ∧ TableIn dir b!"results.csv" [h, row] ∧
    jsonSlice JPatch.json r.sim.jsonPatches = .ok j ∧ jsonSlice TPatch.json r.sim.tsonPatches = .ok t ∧
    number h row b!"JsonPatchSize" = some (j.length : Int) ∧ t.length + 50 * r.sim.updates ≤ j.length := by
  obtain ⟨r, dir, h, row, j, t, u, h1, h2, h3, h4, h5, -, h6, -, -, h7, -⟩ :=
    C90_sizes_partial (secs := 3600) (by decide) halfDraws_good k (scenario := b!"mixed_scenario") (by decide)
  exact ⟨r, dir, h, row, j, t, h1, h2, h3, h4, h5, h6, h7⟩

end Verif
