import Verif.LogLemmas
import Verif.SpecCompact
/-
Lemmas about the compaction loops.
-/
namespace Verif

theorem Prim.goEq_iff (p q : Prim) (t : Int) : Prim.goEq p q = true ↔ SameGo (.leaf p t) (.leaf q t) := by
  constructor
  · intro h
    cases p <;> cases q <;> simp [Prim.goEq] at h
    · subst h; exact .leafStr _ _
    · exact .leafNum _ _ _ h
    · subst h; exact .leafBool _ _
  · intro h; cases h <;> simp_all [Prim.goEq]

theorem goEq_true {a b : GVal} : GVal.goEq a b = some true ↔ SameGo a b := by
  constructor
  · intro h
    cases a <;> cases b <;> simp [GVal.goEq] at h
    · exact .nil
    · subst h; exact .str _
    · exact .num _ _ h
    · subst h; exact .int _
    · subst h; exact .bool _
    · obtain ⟨h1, rfl⟩ := h; exact (Prim.goEq_iff _ _ _).1 h1
    · obtain ⟨rfl, rfl⟩ := h; exact .scalar _ _
  · intro h
    cases h <;> simp_all [GVal.goEq, Prim.goEq]

theorem goEq_none {a b : GVal} : GVal.goEq a b = none ↔ Uncomparable a b := by
  constructor
  · intro h
    cases a <;> cases b <;> simp [GVal.goEq] at h
    subst h
    exact ⟨_, _, _, rfl, rfl⟩
  · rintro ⟨k, i, j, rfl, rfl⟩; simp [GVal.goEq]

theorem goEq_false {a b : GVal} (h : GVal.goEq a b = some false) : ¬ SameGo a b := by
  intro h'; rw [goEq_true.2 h'] at h; simp at h

/-- `LastKept` as a function. -/
def lastKept (M : List Entry) (path : Bytes) : Option Op :=
  match M with
  | [] => none
  | e :: M =>
    match lastKept M path with
    | some y => some y
    | none => if e.kept = true ∧ e.op.path = path then some e.op else none

theorem lastKept_none {M : List Entry} {path : Bytes} :
    lastKept M path = none ↔ ∀ e ∈ M, e.kept = true → e.op.path ≠ path := by
  induction M with
  | nil => simp [lastKept]
  | cons e M ih =>
    simp only [lastKept, List.mem_cons, forall_eq_or_imp]
    cases h : lastKept M path with
    | some y =>
      simp only [reduceCtorEq, false_iff]
      intro hc
      rw [ih.2 hc.2] at h; simp at h
    | none =>
      have := ih.1 h
      by_cases hk : e.kept = true ∧ e.op.path = path
      · simp [hk]
      · simp only [hk, if_false, true_iff]
        exact ⟨fun h1 h2 => hk ⟨h1, h2⟩, this⟩

theorem lastKept_iff {M : List Entry} {path : Bytes} {y : Op} :
    lastKept M path = some y ↔ LastKept M path y := by
  induction M with
  | nil => simp [lastKept, LastKept]
  | cons e M ih =>
    simp only [lastKept]
    constructor
    · intro h
      cases hM : lastKept M path with
      | some y' =>
        rw [hM] at h ih
        obtain ⟨a, v, c, h1, h2, h3⟩ := ih.1 h
        exact ⟨e :: a, v, c, by rw [h1]; rfl, h2, h3⟩
      | none =>
        rw [hM] at h
        simp only at h
        split at h
        · rename_i hk
          cases h
          obtain ⟨v, o, k⟩ := e
          simp only at hk
          exact ⟨[], v, M, by simp [hk.1], hk.2, lastKept_none.1 hM⟩
        · simp at h
    · rintro ⟨a, v, c, h1, h2, h3⟩
      cases a with
      | nil =>
        simp only [List.nil_append, List.cons.injEq] at h1
        obtain ⟨rfl, rfl⟩ := h1
        rw [lastKept_none.2 h3]
        simp [h2]
      | cons e' a =>
        simp only [List.cons_append, List.cons.injEq] at h1
        obtain ⟨rfl, h1⟩ := h1
        rw [ih.2 ⟨a, v, c, h1, h2, h3⟩]

theorem lastKept_append (M N : List Entry) (path : Bytes) :
    lastKept (M ++ N) path = match lastKept N path with | some y => some y | none => lastKept M path := by
  induction M with
  | nil => cases h : lastKept N path <;> simp [lastKept, h]
  | cons e M ih =>
    simp only [List.cons_append, lastKept, ih]
    cases lastKept N path <;> rfl

theorem lastKept_path {M : List Entry} {path : Bytes} {y : Op} (h : lastKept M path = some y) :
    y.path = path ∧ y ∈ M.map Entry.op := by
  obtain ⟨a, v, c, h1, h2, h3⟩ := lastKept_iff.1 h
  exact ⟨h2, by rw [h1]; simp⟩

/-- The rule deciding whether an operation is kept. -/
def Rule (sel : Op → Sel) (before : List Entry) (o : Op) : Prop :=
  match sel o with
  | .skip => False
  | .keep => True
  | .compare => Changes before o

/-- All marks follow the rule, given what was kept before. -/
def MarkedFrom (sel : Op → Sel) (pre M : List Entry) : Prop :=
  ∀ a e b, M = a ++ e :: b → (e.kept = true ↔ Rule sel (pre ++ a) e.op)

theorem MarkedFrom.nil (sel : Op → Sel) (pre : List Entry) : MarkedFrom sel pre [] := by
  intro a e b h; simp at h

theorem MarkedFrom.cons {sel : Op → Sel} {pre M : List Entry} {e : Entry}
    (h1 : e.kept = true ↔ Rule sel pre e.op) (h2 : MarkedFrom sel (pre ++ [e]) M) :
    MarkedFrom sel pre (e :: M) := by
  intro a f b h
  cases a with
  | nil =>
    simp only [List.nil_append, List.cons.injEq] at h
    obtain ⟨rfl, rfl⟩ := h
    simpa using h1
  | cons g a =>
    simp only [List.cons_append, List.cons.injEq] at h
    obtain ⟨rfl, rfl⟩ := h
    simpa using h2 a f b rfl

theorem MarkedFrom.append {sel : Op → Sel} {pre M N : List Entry}
    (h1 : MarkedFrom sel pre M) (h2 : MarkedFrom sel (pre ++ M) N) : MarkedFrom sel pre (M ++ N) := by
  induction M generalizing pre with
  | nil => simpa using h2
  | cons e M ih =>
    refine .cons (by simpa using h1 [] e M rfl) (ih ?_ (by simpa using h2))
    intro a f b h
    have := h1 (e :: a) f b (by rw [h]; rfl)
    simpa using this

/-- The marks are determined by the rule. -/
theorem MarkedFrom.unique {sel : Op → Sel} {pre M N : List Entry} (h1 : MarkedFrom sel pre M)
    (h2 : MarkedFrom sel pre N) (hu : unmark M = unmark N) : M = N := by
  induction M generalizing pre N with
  | nil =>
    cases N with
    | nil => rfl
    | cons f N => simp [unmark] at hu
  | cons e M ih =>
    cases N with
    | nil => simp [unmark] at hu
    | cons f N =>
      obtain ⟨v, o, k⟩ := e
      obtain ⟨v', o', k'⟩ := f
      simp only [unmark, List.map_cons, List.cons.injEq, Prod.mk.injEq] at hu
      obtain ⟨⟨rfl, rfl⟩, hu⟩ := hu
      have hk : k = k' := by
        have e1 := h1 [] _ M rfl
        have e2 := h2 [] _ N rfl
        simp only at e1 e2
        have := e1.trans e2.symm
        cases k <;> cases k' <;> simp_all
      subst hk
      congr 1
      refine ih (pre := pre ++ [⟨v, o, k⟩]) ?_ ?_ hu
      · intro a f b h
        simpa using h1 (⟨v, o, k⟩ :: a) f b (by rw [h]; rfl)
      · intro a f b h
        simpa using h2 (⟨v, o, k⟩ :: a) f b (by rw [h]; rfl)

/-- What is assumed about a selection: an operation kept without comparison never shares its path with a
compared one. -/
def SelOk (sel : Op → Sel) (plain : Bytes → Prop) : Prop :=
  (∀ o, sel o = .keep → plain o.path) ∧ (∀ o, sel o = .compare → ¬ plain o.path)

/-- `latestValues` agrees with what was kept. -/
def Consistent (plain : Bytes → Prop) (latest : List (Bytes × GVal)) (pre : List Entry) : Prop :=
  ∀ path, ¬ plain path → mget latest path = (lastKept pre path).map Op.value

theorem Consistent.skip {plain latest pre v o} (h : Consistent plain latest pre) :
    Consistent plain latest (pre ++ [⟨v, o, false⟩]) := by
  intro path hp
  rw [h path hp, lastKept_append]
  simp [lastKept]

theorem Consistent.keep {plain latest pre v} {o : Op} (h : Consistent plain latest pre) (ho : plain o.path) :
    Consistent plain latest (pre ++ [⟨v, o, true⟩]) := by
  intro path hp
  rw [h path hp, lastKept_append]
  have : o.path ≠ path := by rintro rfl; exact hp ho
  simp [lastKept, this]

theorem Consistent.add {plain latest pre v} {o : Op} (h : Consistent plain latest pre) :
    Consistent plain (mset latest o.path o.value) (pre ++ [⟨v, o, true⟩]) := by
  intro path hp
  rw [mget_mset, lastKept_append]
  by_cases hq : path = o.path
  · subst hq; simp [lastKept]
  · have := Ne.symm hq
    simp [hq, lastKept, this, h path hp]

theorem compactOps_marks {sel : Op → Sel} {plain : Bytes → Prop} (hs : SelOk sel plain) (v : Nat)
    (ops : List Op) : ∀ (pre : List Entry) (latest : List (Bytes × GVal)), Consistent plain latest pre →
    match compactOps sel latest ops with
    | none => ∃ y ∈ pre.map Entry.op ++ ops, ∃ x ∈ ops, y.path = x.path ∧ Uncomparable y.value x.value
    | some (out, latest') => ∃ M, unmark M = ops.map (fun o => (v, o)) ∧
        keptOf M = out.map (fun o => (v, o)) ∧
        Consistent plain latest' (pre ++ M) ∧ MarkedFrom sel pre M := by
  induction ops with
  | nil =>
    intro pre latest hc
    exact ⟨[], rfl, rfl, by simpa using hc, .nil _ _⟩
  | cons o ops ih =>
    intro pre latest hc
    -- the common step: entry `o` with mark `k`, new map `latest₁`
    have main : ∀ (k : Bool) (latest₁ : List (Bytes × GVal)), (k = true ↔ Rule sel pre o) →
        Consistent plain latest₁ (pre ++ [⟨v, o, k⟩]) →
        match (compactOps sel latest₁ ops).map fun r => (if k then o :: r.1 else r.1, r.2) with
        | none => ∃ y ∈ pre.map Entry.op ++ (o :: ops), ∃ x ∈ o :: ops,
            y.path = x.path ∧ Uncomparable y.value x.value
        | some (out, latest') => ∃ M, unmark M = (o :: ops).map (fun o => (v, o)) ∧
            keptOf M = out.map (fun o => (v, o)) ∧
            Consistent plain latest' (pre ++ M) ∧ MarkedFrom sel pre M := by
      intro k latest₁ hk hc'
      have := ih _ _ hc'
      cases hr : compactOps sel latest₁ ops with
      | none =>
        rw [hr] at this
        obtain ⟨y, hy, x, hx, h⟩ := this
        refine ⟨y, ?_, x, by simp [hx], h⟩
        simpa using hy
      | some r =>
        obtain ⟨out, latest'⟩ := r
        rw [hr] at this
        obtain ⟨M, h1, h2, h3, h4⟩ := this
        refine ⟨⟨v, o, k⟩ :: M, ?_, ?_, by simpa using h3, .cons hk h4⟩
        · simp only [unmark, List.map_cons] at h1 ⊢; rw [h1]
        · simp only [keptOf, unmark] at h2 ⊢
          cases k <;> simp [h2]
    simp only [compactOps]
    cases hsel : sel o with
    | skip =>
      have := main false latest (by simp [Rule, hsel]) hc.skip
      simpa using this
    | keep =>
      have := main true latest (by simp [Rule, hsel]) (hc.keep (hs.1 o hsel))
      simpa using this
    | compare =>
      have hp := hs.2 o hsel
      have hl := hc o.path hp
      dsimp only
      cases hm : mget latest o.path with
      | none =>
        have hno : lastKept pre o.path = none := by
          rw [hm] at hl
          cases hq : lastKept pre o.path with
          | none => rfl
          | some y => rw [hq] at hl; simp at hl
        have := main true _ (by
          simp only [Rule, hsel, true_iff]
          intro y hy
          rw [lastKept_iff.2 hy] at hno; simp at hno) hc.add
        simpa using this
      | some prev =>
        obtain ⟨y, hy, hyv⟩ : ∃ y, lastKept pre o.path = some y ∧ y.value = prev := by
          rw [hm] at hl
          cases hq : lastKept pre o.path with
          | none => rw [hq] at hl; simp at hl
          | some y => rw [hq] at hl; simp at hl; exact ⟨y, rfl, hl.symm⟩
        dsimp only
        have hun : ∀ z, LastKept pre o.path z → z = y := by
          intro z hz
          have := lastKept_iff.2 hz
          rw [hy] at this; cases this; rfl
        cases he : GVal.goEq prev o.value with
        | none =>
          obtain ⟨h1, h2⟩ := lastKept_path hy
          exact ⟨y, by simp only [List.mem_append]; exact Or.inl h2, o, by simp, h1,
            by rw [hyv]; exact goEq_none.1 he⟩
        | some b =>
          cases b with
          | true =>
            have := main false latest (by
              simp only [Rule, hsel, Bool.false_eq_true, false_iff]
              intro hch
              exact hch y (lastKept_iff.1 hy) (by rw [hyv]; exact goEq_true.1 he)) hc.skip
            simpa using this
          | false =>
            have := main true _ (by
              simp only [Rule, hsel, true_iff]
              intro z hz
              rw [hun z hz, hyv]
              exact goEq_false he) hc.add
            simpa using this

theorem trackVersions_marks {g : Lgm} {sel : Op → Sel} {plain : Bytes → Prop} (hs : SelOk sel plain)
    (vs : List Nat) : ∀ (pre : List Entry) (latest : List (Bytes × GVal)), Consistent plain latest pre →
    match trackVersions g sel latest vs with
    | none => ∃ y ∈ pre.map Entry.op ++ vs.flatMap g.patchOf, ∃ x ∈ vs.flatMap g.patchOf,
        y.path = x.path ∧ Uncomparable y.value x.value
    | some r => ∃ M, unmark M = vs.flatMap (fun v => (g.patchOf v).map fun o => (v, o)) ∧
        keptOf M = entries r ∧ MarkedFrom sel pre M ∧
        (∀ vp ∈ r, vp.2 ≠ []) ∧ (mkeys r).Sublist vs := by
  induction vs with
  | nil => intro pre latest _; exact ⟨[], rfl, rfl, .nil _ _, by simp, by simp [mkeys]⟩
  | cons v vs ih =>
    intro pre latest hc
    have h1 := compactOps_marks hs v (g.patchOf v) pre latest hc
    simp only [trackVersions]
    cases hr : compactOps sel latest (g.patchOf v) with
    | none =>
      rw [hr] at h1
      obtain ⟨y, hy, x, hx, h⟩ := h1
      refine ⟨y, ?_, x, by simp [hx], h⟩
      simp only [List.flatMap_cons, List.mem_append] at hy ⊢
      grind only
    | some p =>
      obtain ⟨out, latest'⟩ := p
      rw [hr] at h1
      obtain ⟨M, m1, m2, m3, m4⟩ := h1
      have h2 := ih _ _ m3
      dsimp only
      cases ht : trackVersions g sel latest' vs with
      | none =>
        rw [ht] at h2
        obtain ⟨y, hy, x, hx, h⟩ := h2
        refine ⟨y, ?_, x, by simp only [List.flatMap_cons, List.mem_append]; exact Or.inr hx, h⟩
        have hM : M.map Entry.op = g.patchOf v := by
          have := congrArg (List.map Prod.snd) m1
          simpa [unmark, Function.comp_def] using this
        simp only [List.map_append, List.flatMap_cons, List.mem_append, hM] at hy ⊢
        grind only
      | some r =>
        rw [ht] at h2
        obtain ⟨N, n1, n2, n3, n4, n5⟩ := h2
        simp only [Option.map_some]
        refine ⟨M ++ N, ?_, ?_, m4.append n3, ?_, ?_⟩
        · simp only [unmark, List.map_append, List.flatMap_cons] at m1 n1 ⊢; rw [m1, n1]
        · have : keptOf (M ++ N) = keptOf M ++ keptOf N := by simp [keptOf, unmark]
          rw [this, m2, n2]
          by_cases ho : out = []
          · simp [ho]
          · simp [ho, entries]
        · by_cases ho : out = []
          · simpa [ho] using n4
          · simp only [ho, if_false, List.mem_cons, forall_eq_or_imp, ne_eq, not_false_eq_true, true_and]
            exact n4
        · by_cases ho : out = []
          · simp only [ho, if_true]; exact n5.trans (List.sublist_cons_self v vs)
          · simp only [ho, if_false, mkeys, List.map_cons]; exact n5.cons_cons v

theorem mset_of_mget [DecidableEq κ] {m : List (κ × ν)} {k : κ} {v : ν} (h : mget m k = some v) :
    mset m k v = m := by
  induction m with
  | nil => simp at h
  | cons p m ih =>
    obtain ⟨k', v'⟩ := p
    simp only [mget_cons] at h
    by_cases hk : k' = k
    · simp [hk] at h; simp [mset, hk, h]
    · simp [hk] at h; simp [mset, hk, ih h]

theorem compactVersions_marks {sel : Op → Sel} {plain : Bytes → Prop} (hs : SelOk sel plain)
    (vs : List Nat) (hnd : vs.Nodup) : ∀ (pre : List Entry) (latest : List (Bytes × GVal))
    (patches ps : List (Nat × List Op)) (b : Bool), Consistent plain latest pre →
    (∀ v ∈ vs, v ∈ mkeys patches) →
    compactVersions sel latest patches vs = (ps, b) →
    (∀ v, v ∉ vs → mget ps v = mget patches v) ∧ mkeys ps = mkeys patches ∧
    (b = false → ∃ y ∈ pre.map Entry.op ++ vs.flatMap (fun v => (mget patches v).getD []),
        ∃ x ∈ vs.flatMap (fun v => (mget patches v).getD []),
        y.path = x.path ∧ Uncomparable y.value x.value) ∧
    (b = true → ∃ M, unmark M = vs.flatMap (fun v => ((mget patches v).getD []).map fun o => (v, o)) ∧
        keptOf M = vs.flatMap (fun v => ((mget ps v).getD []).map fun o => (v, o)) ∧
        MarkedFrom sel pre M) := by
  induction vs with
  | nil =>
    intro pre latest patches ps b _ _ h
    simp only [compactVersions, Prod.mk.injEq] at h
    obtain ⟨rfl, rfl⟩ := h
    exact ⟨fun _ _ => rfl, rfl, by simp, fun _ => ⟨[], rfl, rfl, .nil _ _⟩⟩
  | cons v vs ih =>
    intro pre latest patches ps b hc hk h
    rw [List.nodup_cons] at hnd
    have h1 := compactOps_marks hs v ((mget patches v).getD []) pre latest hc
    simp only [compactVersions] at h
    cases hr : compactOps sel latest ((mget patches v).getD []) with
    | none =>
      rw [hr] at h h1
      simp only [Prod.mk.injEq] at h
      obtain ⟨rfl, rfl⟩ := h
      refine ⟨fun _ _ => rfl, rfl, fun _ => ?_, by simp⟩
      obtain ⟨y, hy, x, hx, h⟩ := h1
      refine ⟨y, ?_, x, by simp only [List.flatMap_cons, List.mem_append]; exact Or.inl hx, h⟩
      simp only [List.flatMap_cons, List.mem_append] at hy ⊢
      grind only
    | some p =>
      obtain ⟨out, latest'⟩ := p
      rw [hr] at h h1
      dsimp only at h
      obtain ⟨M, m1, m2, m3, m4⟩ := h1
      have hkeys : mkeys (mset patches v out) = mkeys patches := mkeys_mset_mem (hk v (by simp)) out
      have hget : ∀ w ∈ vs, mget (mset patches v out) w = mget patches w := by
        intro w hw
        exact mget_mset_ne _ _ (by rintro rfl; exact hnd.1 hw)
      obtain ⟨a1, a2, a3, a4⟩ := ih hnd.2 _ _ _ _ _ m3
        (fun w hw => by rw [hkeys]; exact hk w (by simp [hw])) h
      have hv : mget ps v = some out := by rw [a1 v hnd.1, mget_mset_self]
      have e1 : vs.flatMap (fun w => (mget (mset patches v out) w).getD []) =
          vs.flatMap (fun w => (mget patches w).getD []) := by
        rw [List.flatMap_def, List.flatMap_def]
        congr 1
        exact List.map_congr_left fun w hw => by rw [hget w hw]
      have e2 : vs.flatMap (fun w => ((mget (mset patches v out) w).getD []).map fun o => (w, o)) =
          vs.flatMap (fun w => ((mget patches w).getD []).map fun o => (w, o)) := by
        rw [List.flatMap_def, List.flatMap_def]
        congr 1
        exact List.map_congr_left fun w hw => by rw [hget w hw]
      rw [e1] at a3
      rw [e2] at a4
      refine ⟨fun w hw => ?_, by rw [a2, hkeys], fun hb => ?_, fun hb => ?_⟩
      · simp only [List.mem_cons, not_or] at hw
        rw [a1 w hw.2, mget_mset_ne _ _ hw.1]
      · obtain ⟨y, hy, x, hx, hh⟩ := a3 hb
        have hM : M.map Entry.op = (mget patches v).getD [] := by
          have := congrArg (List.map Prod.snd) m1
          simpa [unmark, Function.comp_def] using this
        refine ⟨y, ?_, x, by simp only [List.flatMap_cons, List.mem_append]; exact Or.inr hx, hh⟩
        simp only [List.map_append, List.flatMap_cons, List.mem_append, hM] at hy ⊢
        grind only
      · obtain ⟨N, n1, n2, n3⟩ := a4 hb
        refine ⟨M ++ N, ?_, ?_, m4.append n3⟩
        · simp only [unmark, List.map_append, List.flatMap_cons] at m1 n1 ⊢; rw [m1, n1]
        · have : keptOf (M ++ N) = keptOf M ++ keptOf N := by simp [keptOf, unmark]
          rw [this, m2, n2]
          simp [List.flatMap_cons, hv]

/-- Compacting a compacted list changes nothing. -/
theorem compactOps_idem (sel : Op → Sel) (ops : List Op) : ∀ {latest out latest'},
    compactOps sel latest ops = some (out, latest') → compactOps sel latest out = some (out, latest') := by
  induction ops with
  | nil =>
    intro latest out latest' h
    simp only [compactOps, Option.some.injEq, Prod.mk.injEq] at h
    obtain ⟨rfl, rfl⟩ := h
    rfl
  | cons o ops ih =>
    intro latest out latest' h
    simp only [compactOps] at h
    cases hsel : sel o with
    | skip => rw [hsel] at h; exact ih h
    | keep =>
      rw [hsel] at h
      simp only [Option.map_eq_some_iff, Prod.mk.injEq] at h
      obtain ⟨⟨out', l'⟩, h1, rfl, rfl⟩ := h
      simp [compactOps, hsel, ih h1]
    | compare =>
      rw [hsel] at h
      dsimp only at h
      cases hm : mget latest o.path with
      | none =>
        rw [hm] at h
        simp only [Option.map_eq_some_iff, Prod.mk.injEq] at h
        obtain ⟨⟨out', l'⟩, h1, rfl, rfl⟩ := h
        simp [compactOps, hsel, hm, ih h1]
      | some prev =>
        rw [hm] at h
        dsimp only at h
        cases he : GVal.goEq prev o.value with
        | none => rw [he] at h; simp at h
        | some b =>
          rw [he] at h
          cases b with
          | true => exact ih h
          | false =>
            simp only [Option.map_eq_some_iff, Prod.mk.injEq] at h
            obtain ⟨⟨out', l'⟩, h1, rfl, rfl⟩ := h
            simp [compactOps, hsel, hm, he, ih h1]

theorem compactVersions_idem (sel : Op → Sel) (vs : List Nat) (hnd : vs.Nodup) :
    ∀ {latest patches ps}, compactVersions sel latest patches vs = (ps, true) →
    ∀ qs, (∀ v ∈ vs, mget qs v = mget ps v) → compactVersions sel latest qs vs = (qs, true) := by
  induction vs with
  | nil => intro latest patches ps _ qs _; rfl
  | cons v vs ih =>
    intro latest patches ps h qs hq
    rw [List.nodup_cons] at hnd
    simp only [compactVersions] at h ⊢
    cases hr : compactOps sel latest ((mget patches v).getD []) with
    | none => rw [hr] at h; simp at h
    | some p =>
      obtain ⟨out, latest'⟩ := p
      rw [hr] at h
      dsimp only at h
      have hstay : ∀ (vs : List Nat), v ∉ vs → ∀ {latest patches ps b},
          compactVersions sel latest patches vs = (ps, b) → mget ps v = mget patches v := by
        intro vs
        induction vs with
        | nil => intro _ latest patches ps b h; simp only [compactVersions, Prod.mk.injEq] at h; rw [h.1]
        | cons w vs ihv =>
          intro hw latest patches ps b h
          simp only [List.mem_cons, not_or] at hw
          simp only [compactVersions] at h
          split at h
          · simp only [Prod.mk.injEq] at h; rw [h.1]
          · rw [ihv hw.2 h, mget_mset_ne _ _ hw.1]
      have hv : mget qs v = some out := by
        rw [hq v (by simp), hstay vs hnd.1 h, mget_mset_self]
      rw [hv]
      simp only [Option.getD_some, compactOps_idem sel _ hr, mset_of_mget hv]
      exact ih hnd.2 h qs fun w hw => hq w (by simp [hw])

end Verif
