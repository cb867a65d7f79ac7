import Verif.ExpTrack
import Verif.SpecExpTrack
import Verif.PropsExpRun
import Verif.PropsExpQuery
/-
C85: the tracks and events of the temporal experiments.
-/
namespace Verif

/-! ### Lists in the order of times -/

theorem eq_of_ascending {f : α → Int} : ∀ {a b : List α}, a.Perm b → a.Pairwise (fun x y => f x ≤ f y) →
    b.Pairwise (fun x y => f x < f y) → a = b
  | [], b, h, _, _ => by simpa using h.symm
  | x :: a, [], h, _, _ => by simp at h
  | x :: a, y :: b, h, ha, hb => by
    rw [List.pairwise_cons] at ha hb
    have hxy : x = y := by
      rcases List.mem_cons.1 (h.mem_iff.1 (List.mem_cons_self ..)) with e | hx
      · exact e
      · rcases List.mem_cons.1 (h.mem_iff.2 (List.mem_cons_self ..)) with e | hy
        · exact e.symm
        · have := ha.1 y hy
          have := hb.1 x hx
          omega
    subst hxy
    rw [eq_of_ascending h.cons_inv ha.2 hb.2]

theorem ascending_split {f : α → Int} (c : Int) : ∀ {l : List α}, l.Pairwise (fun x y => f x ≤ f y) →
    l = l.filter (fun x => decide (f x ≤ c)) ++ l.filter (fun x => decide (c < f x))
  | [], _ => rfl
  | x :: l, h => by
    rw [List.pairwise_cons] at h
    by_cases hx : f x ≤ c
    · rw [List.filter_cons_of_pos (by simpa using hx), List.filter_cons_of_neg (by simpa using hx), List.cons_append,
        ← ascending_split c h.2]
    · have h1 : l.filter (fun x => decide (f x ≤ c)) = [] := by
        rw [List.filter_eq_nil_iff]
        intro y hy
        have := h.1 y hy
        simp; omega
      have h2 : l.filter (fun x => decide (c < f x)) = l := by
        rw [List.filter_eq_self]
        intro y hy
        have := h.1 y hy
        simp; omega
      rw [List.filter_cons_of_neg (by simpa using hx), List.filter_cons_of_pos (by simpa using hx), h1, h2, List.nil_append]

/-! ### The track of the logument -/

/-- The operations that change the value. -/
def opChanges : Option GVal → List Op → List Op
  | _, [] => []
  | none, p :: l => p :: opChanges (some p.value) l
  | some v, p :: l => if GVal.goEq v p.value = some true then opChanges (some v) l else p :: opChanges (some p.value) l

/-- Values whose comparison does not panic. -/
def GVal.Simple (g : GVal) : Prop := ∀ k j, g ≠ .container k j

theorem goEq_simple {a b : GVal} (h : a.Simple) : GVal.goEq a b ≠ none := by
  cases a <;> cases b <;> simp [GVal.goEq]
  exact absurd rfl (h _ _)

theorem compactOps_on (q : Bytes) (a b : Int) : ∀ (l : List Op) (latest : List (Bytes × GVal)),
    (∀ p ∈ l, p.value.Simple) → (∀ k v, mget latest k = some v → v.Simple) →
    ∃ ps lat, compactOps (selWindow a b) latest l = some (ps, lat) ∧
      ps.filter (fun p => decide (p.path = q)) =
        opChanges (mget latest q) ((l.filter fun p => decide (p.path = q)).filter fun p => decide (a ≤ p.ts ∧ p.ts ≤ b))
  | [], latest, _, _ => ⟨[], latest, rfl, by simp [opChanges]⟩
  | p :: l, latest, h1, h2 => by
    have hl : ∀ p ∈ l, p.value.Simple := fun p' hp' => h1 p' (by simp [hp'])
    by_cases hw : a ≤ p.ts ∧ p.ts ≤ b
    · have hkeep : ∃ ps lat, compactOps (selWindow a b) (mset latest p.path p.value) l = some (ps, lat) ∧
          ps.filter (fun p => decide (p.path = q)) = opChanges (if q = p.path then some p.value else mget latest q)
            ((l.filter fun p => decide (p.path = q)).filter fun p => decide (a ≤ p.ts ∧ p.ts ≤ b)) := by
        have hms : ∀ k, mget (mset latest p.path p.value) k = if k = p.path then some p.value else mget latest k := by
          intro k
          split
          · rename_i e; subst e; exact mget_mset_self _ _ _
          · rename_i e; exact mget_mset_ne _ _ e
        obtain ⟨ps, lat, e1, e2⟩ := compactOps_on q a b l (mset latest p.path p.value) hl (by
          intro k v hv
          rw [hms] at hv
          split at hv
          · cases hv; exact h1 p (by simp)
          · exact h2 k v hv)
        exact ⟨ps, lat, e1, by rw [e2, hms]⟩
      have hsel : selWindow a b p = .compare := by simp [selWindow, inWindow, hw]
      by_cases hq : p.path = q
      · have hf : ((p :: l).filter fun p => decide (p.path = q)).filter (fun p => decide (a ≤ p.ts ∧ p.ts ≤ b)) =
            p :: ((l.filter fun p => decide (p.path = q)).filter fun p => decide (a ≤ p.ts ∧ p.ts ≤ b)) := by
          rw [List.filter_cons_of_pos (by simpa using hq), List.filter_cons_of_pos (by simpa using hw)]
        rw [hf]
        rw [if_pos hq.symm] at hkeep
        cases hg : mget latest q with
        | none =>
          obtain ⟨ps, lat, e1, e2⟩ := hkeep
          refine ⟨p :: ps, lat, ?_, ?_⟩
          · simp [compactOps, hsel, hq, hg, hq ▸ e1]
          · rw [List.filter_cons_of_pos (by simpa using hq), e2, opChanges]
        | some v =>
          cases hge : GVal.goEq v p.value with
          | none => exact absurd hge (goEq_simple (h2 _ _ hg))
          | some c =>
            cases c with
            | true =>
              obtain ⟨ps, lat, e1, e2⟩ := compactOps_on q a b l latest hl h2
              refine ⟨ps, lat, ?_, ?_⟩
              · simp [compactOps, hsel, hq, hg, hge, e1]
              · rw [e2, hg, opChanges, if_pos hge]
            | false =>
              obtain ⟨ps, lat, e1, e2⟩ := hkeep
              refine ⟨p :: ps, lat, ?_, ?_⟩
              · simp [compactOps, hsel, hq, hg, hge, hq ▸ e1]
              · rw [List.filter_cons_of_pos (by simpa using hq), e2, opChanges, if_neg (by rw [hge]; simp)]
      · have hf : ((p :: l).filter fun p => decide (p.path = q)) = l.filter fun p => decide (p.path = q) :=
          List.filter_cons_of_neg (by simpa using hq)
        rw [hf]
        rw [if_neg (Ne.symm hq)] at hkeep
        obtain ⟨ps, lat, e1, e2⟩ := hkeep
        have hout : (p :: ps).filter (fun p => decide (p.path = q)) = ps.filter fun p => decide (p.path = q) :=
          List.filter_cons_of_neg (by simpa using hq)
        cases hg : mget latest p.path with
        | none => exact ⟨p :: ps, lat, by simp [compactOps, hsel, hg, e1], by rw [hout, e2]⟩
        | some v =>
          cases hge : GVal.goEq v p.value with
          | none => exact absurd hge (goEq_simple (h2 _ _ hg))
          | some c =>
            cases c with
            | true =>
              obtain ⟨ps, lat, e1, e2⟩ := compactOps_on q a b l latest hl h2
              exact ⟨ps, lat, by simp [compactOps, hsel, hg, hge, e1], e2⟩
            | false => exact ⟨p :: ps, lat, by simp [compactOps, hsel, hg, hge, e1], by rw [hout, e2]⟩
    · have hsel : selWindow a b p = .skip := by simp [selWindow, inWindow, hw]
      obtain ⟨ps, lat, e1, e2⟩ := compactOps_on q a b l latest hl h2
      refine ⟨ps, lat, by simp [compactOps, hsel, e1], ?_⟩
      rw [e2]
      by_cases hq : p.path = q
      · rw [List.filter_cons_of_pos (by simpa using hq), List.filter_cons_of_neg (by simpa using hw)]
      · rw [List.filter_cons_of_neg (p := fun p : Op => decide (p.path = q)) (by simpa using hq)]

/-- Values of readings. -/
theorem goEq_readings {r r' : TPatch} (h : r.value.IsPrim) (h' : r'.value.IsPrim) :
    GVal.goEq r.toOp.value r'.toOp.value = some (jsEq r.value r'.value) := by
  simp only [TPatch.toOp, POp.toOp]
  revert h h'
  cases r.value <;> cases r'.value <;> intro h h' <;> first | exact h.elim | exact h'.elim | simp [PVal.gval, GVal.goEq, jsEq]

theorem simple_reading {r : TPatch} (h : r.value.IsPrim) : r.toOp.value.Simple := by
  simp only [TPatch.toOp, POp.toOp]
  revert h
  cases r.value <;> intro h <;> first | exact h.elim | (intro k j e; simp [PVal.gval] at e)

theorem opChanges_toOp : ∀ (L : List TPatch) (c : Option TPatch), (∀ r ∈ L, r.value.IsPrim) → (∀ r, c = some r → r.value.IsPrim) →
    opChanges (c.map fun r => r.toOp.value) (L.map TPatch.toOp) = (changesFrom (c.map TPatch.value) L).map TPatch.toOp
  | [], c, _, _ => by cases c <;> simp [opChanges, changesFrom]
  | r :: L, c, h, hc => by
    have ih := opChanges_toOp L (some r) (fun x hx => h x (by simp [hx])) (fun x hx => by cases hx; exact h r (by simp))
    simp only [Option.map_some] at ih
    cases c with
    | none => simp only [Option.map_none, List.map_cons, opChanges, changesFrom, ih]
    | some c =>
      have ih' := opChanges_toOp L (some c) (fun x hx => h x (by simp [hx])) hc
      simp only [Option.map_some] at ih'
      simp only [Option.map_some, List.map_cons, opChanges, changesFrom, goEq_readings (hc c rfl) (h r (by simp)),
        Option.some.injEq]
      split
      · exact ih'
      · rw [ih, List.map_cons]

/-- The operations recorded for a path. -/
theorem recorded_on {rs L : List TPatch} {l : List Op} {q : Bytes} (hL : ReadingsOn rs q L) (hp : l.Perm (rs.map TPatch.toOp))
    (hs : l.Pairwise fun a b => a.ts ≤ b.ts) : l.filter (fun p => decide (p.path = q)) = L.map TPatch.toOp := by
  apply eq_of_ascending (f := Op.ts)
  · refine (hp.filter _).trans ?_
    rw [List.filter_map]
    exact (hL.all.map TPatch.toOp).symm
  · exact hs.filter _
  · exact List.pairwise_map.2 (hL.ascending.imp fun h => h)

/-- A change on a path, as part of a track. -/
def asTrack (l : List Op) : List (Nat × List Op) := if l = [] then [] else [(1, l)]

/-- **The track of the logument, restricted to a path.** -/
theorem lgm_track {g : Lgm} {l : List Op} (hg : g.patches = [(1, l)]) {rs L : List TPatch} {q : Bytes} (hL : ReadingsOn rs q L)
    (hrs : ∀ r ∈ rs, r.value.IsPrim) (hp : l.Perm (rs.map TPatch.toOp)) (hs : l.Pairwise fun a b => a.ts ≤ b.ts) {a b : Int}
    (hab : a ≤ b) :
    ∃ ps, g.temporalTrack a b = (g, .ok (asTrack ps)) ∧
      ps.filter (fun p => decide (p.path = q)) =
        (changesFrom none (L.filter fun r => decide (a ≤ r.ts ∧ r.ts ≤ b))).map TPatch.toOp := by
  obtain ⟨ps, lat, e1, e2⟩ := compactOps_on q a b l [] (by
    intro p hp'
    obtain ⟨r, hr, rfl⟩ := List.mem_map.1 (hp.mem_iff.1 hp')
    exact simple_reading (hrs r hr)) (by simp [mget])
  have hk : sortedKeys g.patches = [1] := by rw [hg]; rfl
  have hpo : g.patchOf 1 = l := by simp [Lgm.patchOf, hg, mget]
  refine ⟨ps, ?_, ?_⟩
  · simp only [Lgm.temporalTrack, hk, trackVersions, hpo, e1, Option.map_some, asTrack]
    rw [if_neg (by omega)]
  · rw [e2, recorded_on hL hp hs, List.filter_map]
    have := opChanges_toOp (L.filter fun r => decide (a ≤ r.ts ∧ r.ts ≤ b)) none (by
      intro r hr
      have := hL.all.mem_iff.1 (List.mem_filter.1 hr).1
      exact hrs r (List.mem_filter.1 this).1) (by simp)
    exact this

theorem filterTrack_asTrack (ps : List Op) (q : Bytes) :
    filterTrack (asTrack ps) q = asTrack (ps.filter fun p => decide (p.path = q)) := by
  unfold asTrack
  split
  · rename_i h; subst h; simp [filterTrack]
  · simp only [filterTrack, List.filterMap_cons, List.filterMap_nil]
    split <;> rename_i h <;> split at h <;> simp_all

theorem flatMap_asTrack (ps : List Op) : (asTrack ps).flatMap Prod.snd = ps := by
  unfold asTrack
  split
  · rename_i h; simp [h]
  · simp

theorem order_asTrack {order : List (Nat × List Op) → List (Nat × List Op)} (h : ∀ l, (order l).Perm l) (ps : List Op) :
    order (asTrack ps) = asTrack ps := by
  have := h (asTrack ps)
  revert this
  unfold asTrack
  split
  · intro h; simpa using h
  · intro h; simpa using h

/-- The events of the logument. -/
theorem lgm_events {g : Lgm} {l : List Op} (hg : g.patches = [(1, l)]) {rs L : List TPatch} {q : Bytes} (hL : ReadingsOn rs q L)
    (hrs : ∀ r ∈ rs, r.value.IsPrim) (hp : l.Perm (rs.map TPatch.toOp)) (hs : l.Pairwise fun a b => a.ts ≤ b.ts) {a b : Int}
    (hab : a ≤ b) {order : List (Nat × List Op) → List (Nat × List Op)} (ho : ∀ l, (order l).Perm l) (thr : F64) :
    findEvents order g q a b thr =
      (g, .ok (((changesFrom none (L.filter fun r => decide (a ≤ r.ts ∧ r.ts ≤ b))).filter fun r => exceeds thr r.value).map
        TPatch.ts)) := by
  obtain ⟨ps, e1, e2⟩ := lgm_track hg hL hrs hp hs hab
  simp only [findEvents, e1, order_asTrack ho, flatMap_asTrack]
  have hsplit : ps.filter (isEvent q thr) = (ps.filter fun p => decide (p.path = q)).filter fun p =>
      match p.value with | .num f => F64.flt thr f | _ => false := by
    rw [List.filter_filter]
    apply List.filter_congr
    intro p _
    rw [isEvent, Bool.and_comm]
    cases p.value <;> rfl
  rw [hsplit, e2, List.filter_map, List.map_map]
  have : ((fun p : Op => match p.value with | .num f => F64.flt thr f | _ => false) ∘ TPatch.toOp) =
      fun r : TPatch => exceeds thr r.value := by
    funext r
    simp only [Function.comp, TPatch.toOp, POp.toOp]
    cases r.value <;> rfl
  rw [this]
  rfl

/-! ### The track of the TJSON store -/

/-- A period as the lemmas on the TJSON store see it. -/
def toPer (x : Int × Int × Js) : Per := ⟨x.1, x.2.1, x.2.2⟩

theorem perStep_filter (q : Bytes) : ∀ (l : List TPatch) (x : List Per × Option (Js × Int)),
    l.foldl (perStep q) x = (l.filter fun p => decide (tPath p.path = q)).foldl (perStep q) x
  | [], _ => rfl
  | p :: l, x => by
    by_cases h : tPath p.path = q
    · rw [List.filter_cons_of_pos (by simpa using h), List.foldl_cons, List.foldl_cons, perStep_filter q l]
    · rw [List.filter_cons_of_neg (by simpa using h), List.foldl_cons, perStep, if_neg h, perStep_filter q l]

theorem perStep_readings {q : Bytes} (now : Int) : ∀ (L : List TPatch) (acc : List Per) (v : Js) (s : Int),
    (∀ r ∈ L, tPath r.path = q ∧ r.Sets ∧ 0 < r.ts) →
    pers now (L.foldl (perStep q) (acc, some (v, s))) = acc ++ (periodsFrom now s v (changesFrom (some v) L)).map toPer
  | [], acc, v, s, _ => by simp [pers, changesFrom, periodsFrom, toPer]
  | r :: L, acc, v, s, h => by
    have hr := h r (by simp)
    have hL : ∀ r ∈ L, tPath r.path = q ∧ r.Sets ∧ 0 < r.ts := fun x hx => h x (by simp [hx])
    rw [List.foldl_cons, perStep, if_pos hr.1, if_pos hr.2.1, changesFrom]
    dsimp only
    split
    · exact perStep_readings now L acc v s hL
    · rw [perStep_readings now L _ r.value r.ts hL, periodsFrom, pred64_pos hr.2.2]
      simp [toPer]

theorem perStep_initial {q : Bytes} {w : Js} (hw : jsEq w w = true) : ∀ (I : List TPatch),
    (∀ p ∈ I, tPath p.path = q ∧ p.Sets ∧ p.value = w ∧ p.ts = 0) →
    I.foldl (perStep q) ([], some (w, 0)) = ([], some (w, 0))
  | [], _ => rfl
  | p :: I, h => by
    have hp := h p (by simp)
    rw [List.foldl_cons, perStep, if_pos hp.1, if_pos hp.2.1]
    dsimp only
    rw [hp.2.2.1, if_pos hw]
    exact perStep_initial hw I fun x hx => h x (by simp [hx])

theorem periods_start {now : Int} : ∀ (L : List TPatch) (s : Int) (v : Js), L.Pairwise (fun a b => a.ts < b.ts) →
    (∀ r ∈ L, s < r.ts) → (periodsFrom now s v L).Pairwise (fun a b => a.1 < b.1) ∧ ∀ x ∈ periodsFrom now s v L, s ≤ x.1
  | [], s, v, _, _ => by simp [periodsFrom]
  | r :: L, s, v, h, hs => by
    rw [List.pairwise_cons] at h
    obtain ⟨i1, i2⟩ := periods_start (now := now) L r.ts r.value h.2 h.1
    have := hs r (by simp)
    refine ⟨List.pairwise_cons.2 ⟨fun x hx => ?_, i1⟩, fun x hx => ?_⟩
    · have := i2 x hx
      dsimp only
      omega
    · rcases List.mem_cons.1 hx with rfl | hx
      · exact Int.le_refl _
      · have := i2 x hx
        omega

theorem periods_bounds {now : Int} : ∀ (L : List TPatch) (s : Int) (v : Js), 0 ≤ s → s ≤ maxInt64 → 0 ≤ now → now ≤ maxInt64 →
    (∀ r ∈ L, 0 < r.ts ∧ r.ts ≤ maxInt64) → ∀ x ∈ periodsFrom now s v L, 0 ≤ x.1 ∧ 0 ≤ x.2.1 ∧ x.1 ≤ maxInt64 ∧ x.2.1 ≤ maxInt64
  | [], s, v, h1, h2, h3, h4, _, x, hx => by
    simp only [periodsFrom, List.mem_singleton] at hx
    subst hx
    exact ⟨h1, h3, h2, h4⟩
  | r :: L, s, v, h1, h2, h3, h4, h5, x, hx => by
    have hr := h5 r (by simp)
    rcases List.mem_cons.1 hx with rfl | hx
    · dsimp only; omega
    · exact periods_bounds L r.ts r.value (by omega) hr.2 h3 h4 (fun y hy => h5 y (by simp [hy])) x hx

theorem changesFrom_sublist : ∀ (L : List TPatch) (c : Option Js), (changesFrom c L).Sublist L
  | [], c => by cases c <;> simp [changesFrom]
  | r :: L, none => by
    rw [changesFrom]
    exact (changesFrom_sublist L _).cons_cons _
  | r :: L, some v => by
    rw [changesFrom]
    split
    · exact (changesFrom_sublist L _).cons _
    · exact (changesFrom_sublist L _).cons_cons _

/-- The text of a version. -/
def versionOf (x : Int × Int × Js) : TVersion := ⟨itoa x.1 ++ 45 :: itoa x.2.1, x.2.2⟩

theorem parse_versionOf {x : Int × Int × Js} (h : 0 ≤ x.1 ∧ 0 ≤ x.2.1 ∧ x.1 ≤ maxInt64 ∧ x.2.1 ≤ maxInt64) :
    parsePeriod (versionOf x).period = (x.1, x.2.1) := parse_fmt h.1 h.2.1 h.2.2.1 h.2.2.2

/-- **The versions of a path in the TJSON store of the experiment.** -/
theorem store_versions (o : TOracle) (now : Int) {m : List (Bytes × Js)} (hk : GoodKeys (.obj m)) (hp : PlainJson (.obj m))
    {rs ps L : List TPatch} (hrs : SensorReadings m rs) (hps : ps.Perm (initialPatches [] (.obj m) ++ rs)) {ks : List Bytes} {w : Js}
    (hsen : SensorAt m ks w) (hlen : 2 ≤ ks.length) (hL : ReadingsOn rs (joinWith bDot ks) L) :
    versionsAt (fromPatches o now ps) (split bDot (joinWith bDot ks)) =
      (periodsFrom now 0 w (changesFrom (some w) L)).map versionOf := by
  have hd := goodDoc_of_plain hk hp
  have hkeys := hsen.keys hk
  have hq2 : 2 ≤ (split bDot (joinWith bDot ks)).length := by
    rw [split_joinWith _ _ hsen.ne_nil fun k hk' => (hkeys k hk').2.1]
    exact hlen
  have hrec : Recorded w w := .atom hsen.atom
  have hww := jsEq_recorded hd (at_inside hsen.found) hrec
  have hks' : ∀ k ∈ ks, k ≠ [] ∧ bDot ∉ k := fun k hk' => ⟨(hkeys k hk').1, (hkeys k hk').2.1⟩
  have hts : ∀ r ∈ L, tPath r.path = joinWith bDot ks ∧ r.Sets ∧ 0 < r.ts := by
    intro r hr
    have := List.mem_filter.1 (hL.all.mem_iff.1 hr)
    have h1 := hrs r this.1
    have h2 : r.path = joinWith bDot ks := by simpa using this.2
    refine ⟨?_, h1.1, h1.2.1⟩
    rw [h2]; exact tPath_joinWith fun k hk' => (hkeys k hk').2.2.1
  have hon : ∀ r ∈ rs, (tPath r.path = joinWith bDot ks ↔ r.path = joinWith bDot ks) := by
    intro r hr
    obtain ⟨-, -, -, -, -, ks', w', h6, h7⟩ := hrs r hr
    rw [h7, tPath_joinWith fun k hk' => (h6.keys hk k hk').2.2.1]
  rw [versionsAt_fromPatches o now ps hq2, perStep_filter]
  obtain ⟨F, hF⟩ : ∃ F, F = (o.sortPatches ps).filter fun p => decide (tPath p.path = joinWith bDot ks) := ⟨_, rfl⟩
  rw [← hF]
  have hFp : F.Perm ((initialPatches [] (.obj m)).filter (fun p => decide (tPath p.path = joinWith bDot ks)) ++ L) := by
    rw [hF]
    refine (((o.sortPatches_perm ps).trans hps).filter _).trans ?_
    rw [List.filter_append]
    refine List.Perm.append_left _ ?_
    rw [List.filter_congr (q := fun r => decide (r.path = joinWith bDot ks))]
    · exact hL.all.symm
    · intro r hr
      simp [hon r hr]
  have hFs : F.Pairwise fun a b => a.ts ≤ b.ts := by rw [hF]; exact (o.sortPatches_sorted ps).filter _
  have hini : ∀ p ∈ (initialPatches [] (.obj m)).filter (fun p => decide (tPath p.path = joinWith bDot ks)),
      tPath p.path = joinWith bDot ks ∧ p.Sets ∧ p.value = w ∧ p.ts = 0 := by
    intro p hp'
    obtain ⟨h1, h2⟩ := List.mem_filter.1 hp'
    have h2 : tPath p.path = joinWith bDot ks := by simpa using h2
    refine ⟨h2, ?_⟩
    obtain ⟨w', u, hi, hr, rfl⟩ := initial_path hd hks' h1 h2
    have := hi.unique hd.unique (at_inside hsen.found)
    subst this
    exact ⟨.inl rfl, recorded_unique hr hrec, rfl⟩
  have hFL : F.filter (fun p => decide (0 < p.ts)) = L := by
    refine eq_of_ascending (f := TPatch.ts) ((hFp.filter _).trans ?_) (hFs.filter _) hL.ascending
    rw [List.filter_append, List.filter_eq_nil_iff.2, List.nil_append, List.filter_eq_self.2]
    · intro r hr; simpa using (hts r hr).2.2
    · intro p hp'; simp [(hini p hp').2.2.2]
  have hFI : ∀ p ∈ F.filter (fun p => decide (p.ts ≤ 0)),
      tPath p.path = joinWith bDot ks ∧ p.Sets ∧ p.value = w ∧ p.ts = 0 := by
    intro p hp'
    obtain ⟨h1, h2⟩ := List.mem_filter.1 hp'
    rcases List.mem_append.1 (hFp.mem_iff.1 h1) with h | h
    · exact hini p h
    · have := (hts p h).2.2
      simp at h2
      omega
  have hne : F.filter (fun p => decide (p.ts ≤ 0)) ≠ [] := by
    have hmem : (⟨b!"add", joinWith bDot ks, w, 0⟩ : TPatch) ∈ initialPatches [] (.obj m) :=
      (initial_iff hd _).2 ⟨ks, w, w, at_inside hsen.found, hrec, rfl⟩
    have : (⟨b!"add", joinWith bDot ks, w, 0⟩ : TPatch) ∈ F.filter fun p => decide (p.ts ≤ 0) := by
      refine List.mem_filter.2 ⟨hFp.mem_iff.2 (List.mem_append.2 (.inl (List.mem_filter.2 ⟨hmem, ?_⟩))), by simp⟩
      simp [tPath_joinWith fun k hk' => (hkeys k hk').2.2.1]
    exact List.ne_nil_of_mem this
  have hfold : (F.filter fun p => decide (p.ts ≤ 0)).foldl (perStep (joinWith bDot ks)) ([], none) = ([], some (w, 0)) := by
    generalize F.filter (fun p => decide (p.ts ≤ 0)) = I at hFI hne
    cases I with
    | nil => exact absurd rfl hne
    | cons p I =>
      have hp' := hFI p (by simp)
      rw [List.foldl_cons, perStep, if_pos hp'.1, if_pos hp'.2.1]
      dsimp only
      rw [hp'.2.2.1, hp'.2.2.2]
      exact perStep_initial hww I fun x hx => hFI x (by simp [hx])
  rw [ascending_split (f := TPatch.ts) 0 hFs, List.foldl_append, hfold, hFL, perStep_readings now L _ _ _ hts, List.nil_append,
    List.map_map]
  rfl

/-- The track of the TJSON store of the experiment. -/
theorem store_track (o o' : TOracle) {now : Int} (h0 : 0 ≤ now) (h1 : now ≤ maxInt64) {m : List (Bytes × Js)}
    (hk : GoodKeys (.obj m)) (hp : PlainJson (.obj m))
    {rs ps L : List TPatch} (hrs : SensorReadings m rs) (hps : ps.Perm (initialPatches [] (.obj m) ++ rs)) {ks : List Bytes} {w : Js}
    (hsen : SensorAt m ks w) (hlen : 2 ≤ ks.length) (hL : ReadingsOn rs (joinWith bDot ks) L) (a b : Int) :
    tTrack o' (fromPatches o now ps) (joinWith bDot ks) a b =
      .ok (((periodsFrom now 0 w (changesFrom (some w) L)).filter fun x => decide (x.1 ≤ b ∧ a ≤ x.2.1)).map versionOf) ∧
    ∀ x ∈ periodsFrom now 0 w (changesFrom (some w) L), parsePeriod (versionOf x).period = (x.1, x.2.1) := by
  have hv := store_versions o now hk hp hrs hps hsen hlen hL
  have hsub := changesFrom_sublist L (some w)
  have hLr : ∀ r ∈ L, 0 < r.ts ∧ r.ts ≤ maxInt64 := by
    intro r hr
    have := hrs r (List.mem_filter.1 (hL.all.mem_iff.1 hr)).1
    exact ⟨this.2.1, this.2.2.1⟩
  generalize hC : changesFrom (some w) L = C at *
  have hpar : ∀ x ∈ periodsFrom now 0 w C, parsePeriod (versionOf x).period = (x.1, x.2.1) := fun x hx =>
    parse_versionOf (periods_bounds C 0 w (Int.le_refl _) (by decide) h0 h1 (fun r hr => hLr r (hsub.subset hr)) x hx)
  have hst := (periods_start (now := now) C 0 w (hL.ascending.sublist hsub) (fun r hr => (hLr r (hsub.subset hr)).1)).1
  have hne : periodsFrom now 0 w C ≠ [] := by cases C <;> simp [periodsFrom]
  refine ⟨?_, hpar⟩
  generalize periodsFrom now 0 w C = P at *
  unfold tTrack versionsAt at *
  cases hi : tItemAt (fromPatches o now ps) (split bDot (joinWith bDot ks)) with
  | none => rw [hi] at hv; simp at hv; exact absurd hv hne
  | some it =>
    rw [hi] at hv
    dsimp only at hv ⊢
    rw [hv, List.filter_map]
    have hf : P.filter ((fun v : TVersion => decide ((parsePeriod v.period).1 ≤ b ∧ a ≤ (parsePeriod v.period).2)) ∘ versionOf) =
        P.filter fun x => decide (x.1 ≤ b ∧ a ≤ x.2.1) := by
      apply List.filter_congr
      intro x hx
      simp only [Function.comp, hpar x hx]
    rw [hf]
    congr 1
    apply eq_of_ascending (f := fun v : TVersion => (parsePeriod v.period).1) (o'.sortVersions_perm _) (o'.sortVersions_sorted _)
    rw [List.pairwise_map]
    refine (hst.filter _).imp_of_mem fun {x y} hx hy h => ?_
    rw [hpar x (List.mem_filter.1 hx).1, hpar y (List.mem_filter.1 hy).1]
    exact h

/-- The events of the TJSON store of the experiment. -/
theorem store_events (o o' : TOracle) {now : Int} (h0 : 0 ≤ now) (h1 : now ≤ maxInt64) {m : List (Bytes × Js)}
    (hk : GoodKeys (.obj m)) (hp : PlainJson (.obj m))
    {rs ps L : List TPatch} (hrs : SensorReadings m rs) (hps : ps.Perm (initialPatches [] (.obj m) ++ rs)) {ks : List Bytes} {w : Js}
    (hsen : SensorAt m ks w) (hlen : 2 ≤ ks.length) (hL : ReadingsOn rs (joinWith bDot ks) L) (a b : Int) (pred : Js → Bool) :
    tFindEvents o' (fromPatches o now ps) (joinWith bDot ks) a b pred =
      .ok ((((periodsFrom now 0 w (changesFrom (some w) L)).filter fun x => decide (x.1 ≤ b ∧ a ≤ x.2.1)).filter
        fun x => pred x.2.2).map Prod.fst) := by
  obtain ⟨e1, e2⟩ := store_track o o' h0 h1 hk hp hrs hps hsen hlen hL a b
  simp only [tFindEvents, e1, Res.map]
  congr 1
  rw [List.filter_map, List.map_map]
  apply List.map_congr_left
  intro x hx
  have := (List.mem_filter.1 (List.mem_filter.1 hx).1).1
  simp only [Function.comp, e2 x this]

/-! ### The window -/

/-- What holds at the beginning of the window, followed by what begins in the window. -/
theorem periods_window {now a b : Int} (hab : a ≤ b) (han : a ≤ now) : ∀ (L : List TPatch) (s : Int) (v : Js),
    L.Pairwise (fun x y => x.ts < y.ts) → (∀ r ∈ L, s < r.ts) →
    ((periodsFrom now s v L).filter fun x => decide (x.1 ≤ b ∧ a ≤ x.2.1)).map (fun x => (x.1, x.2.2)) =
      ((((s, v) :: L.map fun r => (r.ts, r.value)).filter fun x => decide (x.1 ≤ a)).getLast?.toList.filter fun x => decide (x.1 < a)) ++
      ((s, v) :: L.map fun r => (r.ts, r.value)).filter fun x => decide (a ≤ x.1 ∧ x.1 ≤ b)
  | [], s, v, _, _ => by
    simp only [periodsFrom, List.map_nil]
    by_cases h1 : s < a
    · simp [h1, show s ≤ b by omega, han, show s ≤ a by omega, show ¬ a ≤ s by omega]
    · by_cases h2 : s = a
      · subst h2; simp [hab, han]
      · simp only [List.filter_cons, List.filter_nil, show ¬ s ≤ a by omega, show a ≤ s by omega, han]
        by_cases h3 : s ≤ b <;> simp [h3]
  | r :: L, s, v, hL, hs => by
    rw [List.pairwise_cons] at hL
    have hr := hs r (by simp)
    have ih := periods_window hab han L r.ts r.value hL.2 hL.1
    rw [periodsFrom, List.map_cons]
    by_cases h1 : r.ts ≤ a
    · rw [List.filter_cons_of_neg (by simp; omega), ih, List.filter_cons_of_pos (a := (s, v)) (by simp; omega),
        List.filter_cons_of_neg (a := (s, v)) (by simp; omega)]
      congr 3
      rw [List.filter_cons_of_pos (a := (r.ts, r.value)) (by simpa using h1)]
      rfl
    · have hnil : ((r.ts, r.value) :: L.map fun r => (r.ts, r.value)).filter (fun x => decide (x.1 ≤ a)) = [] := by
        rw [List.filter_eq_nil_iff]
        intro x hx
        have : r.ts ≤ x.1 := by
          rcases List.mem_cons.1 hx with rfl | hx
          · exact Int.le_refl _
          · obtain ⟨y, hy, rfl⟩ := List.mem_map.1 hx
            have := hL.1 y hy
            dsimp only
            omega
        simp; omega
      rw [hnil] at ih
      simp only [List.getLast?_nil, Option.toList_none, List.filter_nil, List.nil_append] at ih
      rw [List.filter_cons (x := (s, v)) (p := fun x => decide (x.1 ≤ a)), hnil]
      by_cases h2 : s < a
      · rw [List.filter_cons_of_pos (by simp; omega), List.map_cons, ih]
        rw [List.filter_cons_of_neg (a := (s, v)) (by simp; omega)]
        simp [show s ≤ a by omega, h2]
      · by_cases h3 : s ≤ b
        · rw [List.filter_cons_of_pos (by simp; omega), List.map_cons, ih,
            List.filter_cons_of_pos (a := (s, v)) (by simp; omega)]
          by_cases h4 : s ≤ a <;> simp [h4, h2]
        · rw [List.filter_cons_of_neg (by simp; omega), ih, List.filter_cons_of_neg (a := (s, v)) (by simp; omega)]
          by_cases h4 : s ≤ a <;> simp [h4, h2]

theorem changesFrom_changing : ∀ (L : List TPatch) (v : Js), Changing v L → changesFrom (some v) L = L
  | [], _, _ => rfl
  | r :: L, v, h => by
    rw [changesFrom, h.1, changesFrom_changing L r.value h.2]
    simp

theorem changing_suffix : ∀ (X Y : List TPatch) (v : Js), Changing v (X ++ Y) → ∃ v', Changing v' Y
  | [], _, v, h => ⟨v, h⟩
  | r :: X, Y, _, h => changing_suffix X Y r.value h.2

theorem changing_prefix : ∀ (X Y : List TPatch) (v : Js), Changing v (X ++ Y) → Changing v X
  | [], _, _, _ => trivial
  | r :: X, Y, _, h => ⟨h.1, changing_prefix X Y r.value h.2⟩

theorem changesFrom_window {L : List TPatch} {w : Js} (h : Changing w L) (hL : L.Pairwise fun a b => a.ts < b.ts) (a b : Int) :
    changesFrom none (L.filter fun r => decide (a ≤ r.ts ∧ r.ts ≤ b)) = L.filter fun r => decide (a ≤ r.ts ∧ r.ts ≤ b) := by
  have hle : L.Pairwise fun x y => x.ts ≤ y.ts := hL.imp fun h => Int.le_of_lt h
  have h1 := ascending_split (f := TPatch.ts) (a - 1) hle
  have h2 := ascending_split (f := TPatch.ts) b (hle.filter (p := fun r => decide (a - 1 < r.ts)))
  rw [h1] at h
  obtain ⟨v', h'⟩ := changing_suffix _ _ _ h
  rw [h2] at h'
  have h3 := changing_prefix _ _ _ h'
  rw [List.filter_filter] at h3
  rw [show (fun r : TPatch => decide (r.ts ≤ b) && decide (a - 1 < r.ts)) = fun r : TPatch => decide (a ≤ r.ts ∧ r.ts ≤ b) by
    funext r
    rw [Bool.eq_iff_iff]
    simp
    omega] at h3
  cases hF : L.filter (fun r => decide (a ≤ r.ts ∧ r.ts ≤ b)) with
  | nil => rfl
  | cons r X =>
    rw [hF] at h3
    rw [changesFrom, changesFrom_changing X r.value h3.2]

/-! ### C85 -/

/-- The state of the logument after the snapshots of the experiment. -/
theorem created_recorded (h : Heap) {doc m : List (Bytes × Js)} (hm : jsTransform (.obj doc) = .obj m) (hk : GoodKeys (.obj m))
    (hp : PlainJson (.obj m)) (hdep : (Js.obj m).depth < 10000) {rs : List TPatch} (hrs : ReadingsFrom0 m rs)
    {qs : List (Oracle × Int)} (hq : qs.Pairwise (fun a b => a.2 ≤ b.2)) (hne : qs ≠ []) :
    ∃ s, createLogument h doc rs = .ok s ∧ ∃ l, (s.queries qs).1.lgm.patches = [(1, l)] ∧ l.Perm (rs.map TPatch.toOp) ∧
      l.Pairwise fun a b => a.ts ≤ b.ts := by
  refine ⟨_, by rw [createLogument, hm, fromJson_plain hp trivial hdep], ?_⟩
  exact Queried.recorded_after (sensorReadings_simple hk hrs) qs
    (queried_new h (sortT_wf _ (stampT_wf _ hp)) (nullFree_hasNull _ (stampT_clean _ hp).2) (sensorReadings_members hk hp hrs))
    (by simp) hq (.inl hne)

/-- **C85, tracks.**  After the snapshots, the run of tracks ends without error.  For every path, the track of the logument
has the readings in the window that change the value, where the first one always counts; the track of the TJSON store has
the values, beginning with the initial one, that hold at some time of the window, each with the time from which and until
which it holds. -/
theorem C85_tracks_partial (h : Heap) (o : TOracle) {now : Int} (h0 : 0 ≤ now) (h1 : now ≤ maxInt64) {doc m : List (Bytes × Js)}
    (hm : jsTransform (.obj doc) = .obj m) (hk : GoodKeys (.obj m)) (hp : PlainJson (.obj m)) (hdep : (Js.obj m).depth < 10000)
    {rs : List TPatch} (hrs : SensorReadings m rs) {ps : List TPatch} (hps : ps.Perm (createInitialPatches doc ++ rs))
    {qs : List (Oracle × Int)} (hq : qs.Pairwise (fun a b => a.2 ≤ b.2)) (hne : qs ≠ []) {a b : Int} (hab : a ≤ b)
    {paths : List (TOracle × List Bytes)}
    (hpaths : ∀ p ∈ paths, 2 ≤ p.2.length ∧ ∃ w L, SensorAt m p.2 w ∧ ReadingsOn rs (joinWith bDot p.2) L) :
    ∃ s, createLogument h doc rs = .ok s ∧
      ∃ res, trackRun (s.queries qs).1.lgm (fromPatches o now ps) a b (paths.map fun p => (p.1, joinWith bDot p.2)) = .ok res ∧
        res.length = paths.length ∧
        ∀ (i : Nat) (o' : TOracle) (ks : List Bytes) (w : Js) (L : List TPatch), paths[i]? = some (o', ks) → SensorAt m ks w →
          ReadingsOn rs (joinWith bDot ks) L →
          ∃ A B, res[i]? = some (A, B) ∧
            A.flatMap Prod.snd = (changesFrom none (L.filter fun r => decide (a ≤ r.ts ∧ r.ts ≤ b))).map TPatch.toOp ∧
            A.length ≤ 1 ∧ (∀ e ∈ A, e.1 = 1 ∧ e.2 ≠ []) ∧
            B = ((periodsFrom now 0 w (changesFrom (some w) L)).filter fun x => decide (x.1 ≤ b ∧ a ≤ x.2.1)).map
              fun x => ⟨itoa x.1 ++ 45 :: itoa x.2.1, x.2.2⟩ := by
  obtain ⟨s, hs, l, l1, l2, l3⟩ := created_recorded h hm hk hp hdep hrs.from0 hq hne
  refine ⟨s, hs, ?_⟩
  generalize (s.queries qs).1.lgm = g at l1
  rw [createInitialPatches, hm] at hps
  have hprim : ∀ r ∈ rs, r.value.IsPrim := fun r hr => (hrs r hr).2.2.2.1
  clear hs
  induction paths with
  | nil => exact ⟨[], rfl, rfl, by simp⟩
  | cons p paths ih =>
    obtain ⟨o', ks⟩ := p
    obtain ⟨res, e1, e2, e3⟩ := ih fun p hp' => hpaths p (by simp [hp'])
    obtain ⟨hlen, w, L, hsen, hL⟩ := hpaths _ (List.mem_cons_self ..)
    obtain ⟨tr, t1, t2⟩ := lgm_track l1 hL hprim l2 l3 hab
    obtain ⟨T, u1, hT⟩ : ∃ T, tTrack o' (fromPatches o now ps) (joinWith bDot ks) a b = .ok T ∧ _ :=
      ⟨_, (store_track o o' h0 h1 hk hp hrs hps hsen hlen hL a b).1, rfl⟩
    refine ⟨(filterTrack (asTrack tr) (joinWith bDot ks), T) :: res, by
      simp only [List.map_cons, trackRun, t1, u1, e1, Res.map], by simp [e2], ?_⟩
    intro i o₂ ks₂ w₂ L₂ hi hsen₂ hL₂
    cases i with
    | succ i => exact e3 i o₂ ks₂ w₂ L₂ (by simpa using hi) hsen₂ hL₂
    | zero =>
      simp only [List.getElem?_cons_zero, Option.some.injEq, Prod.mk.injEq] at hi
      obtain ⟨rfl, rfl⟩ := hi
      have hLL : L = L₂ := eq_of_ascending (f := TPatch.ts) (hL.all.trans hL₂.all.symm)
        (hL.ascending.imp fun h => Int.le_of_lt h) hL₂.ascending
      have hww : w = w₂ := Option.some.inj (hsen.found.symm.trans hsen₂.found)
      subst hLL hww
      refine ⟨_, _, rfl, ?_, ?_, ?_, hT.symm⟩
      · rw [filterTrack_asTrack, flatMap_asTrack, t2]
      · rw [filterTrack_asTrack]; unfold asTrack; split <;> simp
      · rw [filterTrack_asTrack]
        unfold asTrack
        split
        · simp
        · rename_i hn
          intro e he
          simp only [List.mem_singleton] at he
          subst he
          exact ⟨rfl, hn⟩

/-- **C85, events.**  After the snapshots, the search for events ends without error.  The logument reports the readings in
the window above the threshold that change the value, where the first one always counts; the TJSON store reports when the
values above the threshold that hold at some time of the window began to hold. -/
theorem C85_events_partial (h : Heap) (o : TOracle) {now : Int} (h0 : 0 ≤ now) (h1 : now ≤ maxInt64) {doc m : List (Bytes × Js)}
    (hm : jsTransform (.obj doc) = .obj m) (hk : GoodKeys (.obj m)) (hp : PlainJson (.obj m)) (hdep : (Js.obj m).depth < 10000)
    {rs : List TPatch} (hrs : SensorReadings m rs) {ps : List TPatch} (hps : ps.Perm (createInitialPatches doc ++ rs))
    {qs : List (Oracle × Int)} (hq : qs.Pairwise (fun a b => a.2 ≤ b.2)) (hne : qs ≠ []) {a b : Int} (hab : a ≤ b)
    {es : List EventQuery} (hes : ∀ e ∈ es, (∀ l, (e.order l).Perm l) ∧ ∃ ks w L, e.path = joinWith bDot ks ∧ 2 ≤ ks.length ∧
      SensorAt m ks w ∧ ReadingsOn rs e.path L) :
    ∃ s, createLogument h doc rs = .ok s ∧
      ∃ res, eventRun (s.queries qs).1.lgm (fromPatches o now ps) a b es = .ok res ∧ res.length = es.length ∧
        ∀ (i : Nat) (e : EventQuery) (ks : List Bytes) (w : Js) (L : List TPatch), es[i]? = some e → e.path = joinWith bDot ks →
          SensorAt m ks w → ReadingsOn rs e.path L →
          res[i]? = some
            (((changesFrom none (L.filter fun r => decide (a ≤ r.ts ∧ r.ts ≤ b))).filter fun r => exceeds e.threshold r.value).map
              TPatch.ts,
            (((periodsFrom now 0 w (changesFrom (some w) L)).filter fun x => decide (x.1 ≤ b ∧ a ≤ x.2.1)).filter
              fun x => exceeds e.threshold x.2.2).map Prod.fst) := by
  obtain ⟨s, hs, l, l1, l2, l3⟩ := created_recorded h hm hk hp hdep hrs.from0 hq hne
  refine ⟨s, hs, ?_⟩
  generalize (s.queries qs).1.lgm = g at l1
  rw [createInitialPatches, hm] at hps
  have hprim : ∀ r ∈ rs, r.value.IsPrim := fun r hr => (hrs r hr).2.2.2.1
  clear hs
  induction es with
  | nil => exact ⟨[], rfl, rfl, by simp⟩
  | cons e es ih =>
    obtain ⟨res, e1, e2, e3⟩ := ih fun e he => hes e (by simp [he])
    obtain ⟨ho, ks, w, L, hpath, hlen, hsen, hL⟩ := hes _ (List.mem_cons_self ..)
    obtain ⟨T, t1, hT⟩ : ∃ T, findEvents e.order g e.path a b e.threshold = (g, .ok T) ∧ _ :=
      ⟨_, lgm_events l1 hL hprim l2 l3 hab ho e.threshold, rfl⟩
    obtain ⟨U, u1, hU⟩ : ∃ U, tFindEvents e.o (fromPatches o now ps) (joinWith bDot ks) a b (exceeds e.threshold) = .ok U ∧ _ :=
      ⟨_, store_events o e.o h0 h1 hk hp hrs hps hsen hlen (hpath ▸ hL) a b (exceeds e.threshold), rfl⟩
    rw [← hpath] at u1
    refine ⟨(T, U) :: res, by simp only [eventRun, t1, u1, e1, Res.map], by simp [e2], ?_⟩
    intro i e₂ ks₂ w₂ L₂ hi hpath₂ hsen₂ hL₂
    cases i with
    | succ i => exact e3 i e₂ ks₂ w₂ L₂ (by simpa using hi) hpath₂ hsen₂ hL₂
    | zero =>
      simp only [List.getElem?_cons_zero, Option.some.injEq] at hi
      subst hi
      have hLL : L = L₂ := eq_of_ascending (f := TPatch.ts) (hL.all.trans hL₂.all.symm)
        (hL.ascending.imp fun h => Int.le_of_lt h) hL₂.ascending
      have hks : ks = ks₂ := joinWith_inj (fun k hk' => ⟨(hsen.keys hk k hk').1, (hsen.keys hk k hk').2.1⟩)
        (fun k hk' => ⟨(hsen₂.keys hk k hk').1, (hsen₂.keys hk k hk').2.1⟩) (hpath.symm.trans hpath₂)
      subst hks
      have hww : w = w₂ := Option.some.inj (hsen.found.symm.trans hsen₂.found)
      subst hLL hww
      rw [List.getElem?_cons_zero, hT, hU]

/-- If every reading changes the value, both stores have the readings in the window; the TJSON store puts before them the
value that holds when the window begins, if it began earlier. -/
theorem window_agree {now a b : Int} (hab : a ≤ b) (han : a ≤ now) (ha : 0 < a) {L : List TPatch} {w : Js}
    (hL : L.Pairwise fun x y => x.ts < y.ts) (hpos : ∀ r ∈ L, 0 < r.ts) (hc : Changing w L) :
    changesFrom none (L.filter fun r => decide (a ≤ r.ts ∧ r.ts ≤ b)) = (L.filter fun r => decide (a ≤ r.ts ∧ r.ts ≤ b)) ∧
    ((periodsFrom now 0 w (changesFrom (some w) L)).filter fun x => decide (x.1 ≤ b ∧ a ≤ x.2.1)).map (fun x => (x.1, x.2.2)) =
      ((((0, w) :: L.map fun r => (r.ts, r.value)).filter fun x => decide (x.1 ≤ a)).getLast?.toList.filter fun x => decide (x.1 < a)) ++
      (L.filter fun r => decide (a ≤ r.ts ∧ r.ts ≤ b)).map fun r => (r.ts, r.value) := by
  refine ⟨changesFrom_window hc hL a b, ?_⟩
  rw [changesFrom_changing L w hc, periods_window hab han L 0 w hL hpos,
    List.filter_cons_of_neg (a := (0, w)) (p := fun x : Int × Js => decide (a ≤ x.1 ∧ x.1 ≤ b)) (by simp; omega), List.filter_map]
  rfl

/-- **C85, agreement.**  If every reading changes the value, the logument reports all readings in the window above the
threshold.  The TJSON store reports the same, and before them the time of the value that holds when the window begins, if it
began earlier and is above the threshold. -/
theorem C85_agree_partial (h : Heap) (o : TOracle) {now : Int} (h0 : 0 ≤ now) (h1 : now ≤ maxInt64) {doc m : List (Bytes × Js)}
    (hm : jsTransform (.obj doc) = .obj m) (hk : GoodKeys (.obj m)) (hp : PlainJson (.obj m)) (hdep : (Js.obj m).depth < 10000)
    {rs : List TPatch} (hrs : SensorReadings m rs) {ps : List TPatch} (hps : ps.Perm (createInitialPatches doc ++ rs))
    {qs : List (Oracle × Int)} (hq : qs.Pairwise (fun a b => a.2 ≤ b.2)) (hne : qs ≠ []) {a b : Int} (hab : a ≤ b)
    (ha : 0 < a) (han : a ≤ now)
    {es : List EventQuery} (hes : ∀ e ∈ es, (∀ l, (e.order l).Perm l) ∧ ∃ ks w L, e.path = joinWith bDot ks ∧ 2 ≤ ks.length ∧
      SensorAt m ks w ∧ ReadingsOn rs e.path L) :
    ∃ s, createLogument h doc rs = .ok s ∧
      ∃ res, eventRun (s.queries qs).1.lgm (fromPatches o now ps) a b es = .ok res ∧ res.length = es.length ∧
        ∀ (i : Nat) (e : EventQuery) (ks : List Bytes) (w : Js) (L : List TPatch), es[i]? = some e → e.path = joinWith bDot ks →
          SensorAt m ks w → ReadingsOn rs e.path L → Changing w L →
          ∃ before ev, res[i]? = some (ev, before ++ ev) ∧
            ev = (L.filter fun r => exceeds e.threshold r.value && decide (a ≤ r.ts ∧ r.ts ≤ b)).map TPatch.ts ∧
            before = ((((0, w) :: L.map fun r => (r.ts, r.value)).filter fun x => decide (x.1 ≤ a)).getLast?.toList.filter
              fun x => exceeds e.threshold x.2 && decide (x.1 < a)).map Prod.fst := by
  obtain ⟨s, hs, res, e1, e2, e3⟩ := C85_events_partial h o h0 h1 hm hk hp hdep hrs hps hq hne hab hes
  refine ⟨s, hs, res, e1, e2, ?_⟩
  intro i e ks w L hi hpath hsen hL hc
  obtain ⟨w1, w2⟩ := window_agree hab han ha hL.ascending (fun r hr => (hrs r (List.mem_filter.1 (hL.all.mem_iff.1 hr)).1).2.1) hc
  refine ⟨_, _, ?_, rfl, rfl⟩
  rw [e3 i e ks w L hi hpath hsen hL, w1, List.filter_filter]
  have hcomm : ∀ l : List (Int × Int × Js), (l.filter fun x => exceeds e.threshold x.2.2).map Prod.fst =
      ((l.map fun x => (x.1, x.2.2)).filter fun x => exceeds e.threshold x.2).map Prod.fst := by
    intro l
    rw [List.filter_map, List.map_map]
    rfl
  rw [hcomm, w2, List.filter_append, List.map_append, List.filter_filter, List.filter_map, List.map_map, List.filter_filter]
  rfl

/-! ### Examples -/

/-- A vehicle document with one sensor. -/
def speedDoc : List (Bytes × Js) :=
  [(b!"car", .obj [(b!"speed", .obj [(b!"timestamp", .num (F64.ofInt 1)), (b!"value", .num (F64.ofInt 40))])])]

/-- A reading of its speed. -/
def speedAt (v t : Int) : TPatch := ⟨b!"replace", b!"car.speed", .num (F64.ofInt v), t⟩

theorem speedDoc_eq : jsTransform (.obj speedDoc) = .obj [(b!"car", .obj [(b!"speed", .num (F64.ofInt 40))])] := by rfl

theorem speedDoc_inside {ks : List Bytes} {w : Js}
    (h : Js.Inside (.obj [(b!"car", .obj [(b!"speed", .num (F64.ofInt 40))])]) ks w) :
    ks = [] ∨ ks = [b!"car"] ∨ ks = [b!"car", b!"speed"] := by
  cases h with
  | here => exact .inl rfl
  | member hm h =>
    simp only [List.mem_cons, List.not_mem_nil, or_false, Prod.mk.injEq] at hm
    obtain ⟨rfl, rfl⟩ := hm
    cases h with
    | here => exact .inr (.inl rfl)
    | member hm h =>
      simp only [List.mem_cons, List.not_mem_nil, or_false, Prod.mk.injEq] at hm
      obtain ⟨rfl, rfl⟩ := hm
      cases h
      exact .inr (.inr rfl)

theorem speedDoc_keys : GoodKeys (.obj [(b!"car", .obj [(b!"speed", .num (F64.ofInt 40))])]) := by
  intro ks w h k hk
  rcases speedDoc_inside h with rfl | rfl | rfl <;> simp only [List.mem_cons, List.not_mem_nil, or_false] at hk
  · subst hk; decide
  · rcases hk with rfl | rfl <;> decide

theorem speedDoc_plain : PlainJson (.obj [(b!"car", .obj [(b!"speed", .num (F64.ofInt 40))])]) := by
  simp only [PlainJson, PlainJsonF, and_true]
  exact ⟨by decide, by repeat first | exact .nil | refine .ascii (by decide) ?_, by decide,
    by repeat first | exact .nil | refine .ascii (by decide) ?_, _, _, _, _, rfl⟩

theorem speedDoc_sensor : SensorAt [(b!"car", .obj [(b!"speed", .num (F64.ofInt 40))])] [b!"car", b!"speed"] (.num (F64.ofInt 40)) :=
  ⟨rfl, trivial, by decide⟩

/-- Readings of the speed that change it. -/
def speedReadings : List TPatch := [speedAt 60 20, speedAt 20 60, speedAt 80 70]

theorem speedReadings_sensor : SensorReadings [(b!"car", .obj [(b!"speed", .num (F64.ofInt 40))])] speedReadings := by
  intro r hr
  simp only [speedReadings, speedAt, List.mem_cons, List.not_mem_nil, or_false] at hr
  rcases hr with rfl | rfl | rfl <;>
    exact ⟨by decide, by simp only; decide, by simp only; decide, trivial, by simp, _, _, speedDoc_sensor, rfl⟩

theorem speedReadings_on : ReadingsOn speedReadings b!"car.speed" speedReadings := ⟨by exact .refl _, by decide⟩

/-- The hypotheses of `C85_agree_partial`, and so of `C85_events_partial`, hold: the TJSON store reports the value from 20,
which holds when the window begins at 50, and both stores report the reading at 70. -/
example : ∃ s, createLogument [] speedDoc speedReadings = .ok s ∧
    eventRun (s.queries [(Oracle.plain, 25), (Oracle.plain, 60)]).1.lgm
      (fromPatches tReverse 100 (speedReadings ++ createInitialPatches speedDoc)) 50 80
      [⟨id, tStable, b!"car.speed", F64.ofInt 30⟩] = .ok [([70], [20, 70])] := by
  obtain ⟨s, h1, res, h2, h3, h4⟩ := C85_agree_partial [] tReverse (now := 100) (by decide) (by decide) speedDoc_eq speedDoc_keys
    speedDoc_plain (by decide) speedReadings_sensor (List.perm_append_comm (l₁ := speedReadings))
    (qs := [(Oracle.plain, 25), (Oracle.plain, 60)]) (by decide) (by simp) (a := 50) (b := 80) (by decide) (by decide) (by decide)
    (es := [⟨id, tStable, b!"car.speed", F64.ofInt 30⟩]) (by
      intro e he
      simp only [List.mem_singleton] at he
      subst he
      exact ⟨fun l => .refl _, _, _, _, rfl, by decide, speedDoc_sensor, speedReadings_on⟩)
  refine ⟨s, h1, ?_⟩
  obtain ⟨before, ev, h5, h6, h7⟩ := h4 0 _ _ _ _ rfl rfl speedDoc_sensor speedReadings_on (by
    simp only [Changing, speedReadings]
    decide +kernel)
  have h6' : ev = [70] := by rw [h6]; decide +kernel
  have h7' : before = [20] := by rw [h7]; decide +kernel
  subst h6' h7'
  rw [h2]
  match res, h3, h5 with
  | [x], _, h => simp at h; subst h; rfl

/-- The hypotheses of `C85_tracks_partial` hold. -/
example : ∃ s, createLogument [] speedDoc speedReadings = .ok s ∧
    ∃ A B, trackRun (s.queries [(Oracle.plain, 25)]).1.lgm
      (fromPatches tReverse 100 (speedReadings ++ createInitialPatches speedDoc)) 50 65 [(tStable, b!"car.speed")] = .ok [(A, B)] ∧
      A.flatMap Prod.snd = [(speedAt 20 60).toOp] ∧ B.map TVersion.period = [b!"20-59", b!"60-69"] := by
  obtain ⟨s, h1, res, h2, h3, h4⟩ := C85_tracks_partial [] tReverse (now := 100) (by decide) (by decide) speedDoc_eq speedDoc_keys
    speedDoc_plain (by decide) speedReadings_sensor (List.perm_append_comm (l₁ := speedReadings))
    (qs := [(Oracle.plain, 25)]) (by decide) (by simp) (a := 50) (b := 65) (by decide)
    (paths := [(tStable, [b!"car", b!"speed"])]) (by
      intro e he
      simp only [List.mem_singleton] at he
      subst he
      exact ⟨by decide, _, _, speedDoc_sensor, speedReadings_on⟩)
  refine ⟨s, h1, ?_⟩
  obtain ⟨A, B, h5, h6, -, -, h7⟩ := h4 0 _ _ _ _ rfl speedDoc_sensor speedReadings_on
  refine ⟨A, B, ?_, ?_, ?_⟩
  · rw [show [(tStable, b!"car.speed")] = [(tStable, [b!"car", b!"speed"])].map fun p => (p.1, joinWith bDot p.2) from rfl, h2]
    match res, h3, h5 with
    | [x], _, h => simp at h; subst h; rfl
  · rw [h6]; decide +kernel
  · rw [h7]; decide +kernel

/-- **C85, refuted: both stores report the same events.**  The speed rises to 60 at 20, before the window from 50 to 80
begins: the TJSON store reports 20, the logument nothing. -/
theorem C85_before_fails : ∃ s, createLogument [] speedDoc [speedAt 60 20, speedAt 20 90] = .ok s ∧
    eventRun (s.queries [(Oracle.plain, 95)]).1.lgm
      (fromPatches tStable 100 (createInitialPatches speedDoc ++ [speedAt 60 20, speedAt 20 90])) 50 80
      [⟨id, tStable, b!"car.speed", F64.ofInt 30⟩] = .ok [([], [20])] :=
  ⟨_, rfl, by decide +kernel⟩

/-- **C85, refuted for readings that repeat the value.**  The logument reports the repeated value in the window, the TJSON
store when it was first read. -/
theorem C85_repeat_fails : ∃ s, createLogument [] speedDoc [speedAt 60 20, speedAt 60 70] = .ok s ∧
    eventRun (s.queries [(Oracle.plain, 95)]).1.lgm
      (fromPatches tStable 100 (createInitialPatches speedDoc ++ [speedAt 60 20, speedAt 60 70])) 50 80
      [⟨id, tStable, b!"car.speed", F64.ofInt 30⟩] = .ok [([70], [20])] :=
  ⟨_, rfl, by decide +kernel⟩

/-- **C85, refuted without snapshots before.**  The operations are still pending, and the logument reports nothing. -/
theorem C85_fresh_fails : ∃ s, createLogument [] speedDoc [speedAt 60 20, speedAt 20 90] = .ok s ∧
    eventRun s.lgm (fromPatches tStable 100 (createInitialPatches speedDoc ++ [speedAt 60 20, speedAt 20 90])) 10 80
      [⟨id, tStable, b!"car.speed", F64.ofInt 30⟩] = .ok [([], [0, 20])] :=
  ⟨_, rfl, by decide +kernel⟩

/-- **C85, refuted for paths that do not exist.**  One of them ends the run, and the tracks of the others are lost. -/
theorem C85_missing_fails : ∃ s, createLogument [] speedDoc speedReadings = .ok s ∧
    trackRun (s.queries [(Oracle.plain, 95)]).1.lgm (fromPatches tStable 100 (createInitialPatches speedDoc ++ speedReadings)) 10 80
      [(tStable, b!"car.speed"), (tStable, b!"car.fuel")] = .err :=
  ⟨_, rfl, by rfl⟩

end Verif
