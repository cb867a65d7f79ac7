import Verif.SpecTJson
/-
Lemmas about the TJSON store.
-/
namespace Verif

/-! ### Periods -/

theorem itoa_nonneg {n : Int} (h : 0 ≤ n) : itoa n = natDigits n.toNat := by
  simp only [itoa]; rw [if_neg (by omega)]

theorem split_digits (n : Nat) : split 45 (natDigits n) = [natDigits n] :=
  split_of_not_mem _ _ (not_mem_of_all_isDigit (natDigits_isDigit n) (by decide))

theorem parseIntLossy_digits {n : Nat} (h : (n : Int) ≤ maxInt64) : parseIntLossy (natDigits n) = n := by
  obtain ⟨c, r, hc, hd⟩ := natDigits_head n
  have hp := parseDigits_natDigits n
  rw [hc] at hp ⊢
  have h1 : c ≠ 43 := isDigit_ne hd (by decide)
  have h2 : c ≠ 45 := isDigit_ne hd (by decide)
  simp only [parseIntLossy, signedDigits, h1, h2, if_false, hp, Option.map_some]
  simp only [minInt64, maxInt64] at *
  have : Int.ofNat n = (n : Int) := rfl
  rw [this, if_neg (by omega), if_neg (by omega)]

theorem parse_fmt {s e : Int} (hs : 0 ≤ s) (he : 0 ≤ e) (hs' : s ≤ maxInt64) (he' : e ≤ maxInt64) :
    parsePeriod (fmtPeriod s e) = (s, e) := by
  have hn : (45 : UInt8) ∉ natDigits s.toNat := not_mem_of_all_isDigit (natDigits_isDigit _) (by decide)
  simp only [parsePeriod, fmtPeriod, itoa_nonneg hs, itoa_nonneg he]
  rw [split_append_sep _ _ _ hn, split_digits]
  simp only
  rw [parseIntLossy_digits (by omega), parseIntLossy_digits (by omega)]
  simp only [Int.toNat_of_nonneg hs, Int.toNat_of_nonneg he]

theorem split_length (c : UInt8) (s : Bytes) : (split c s).length = s.count c + 1 := by
  induction s with
  | nil => rfl
  | cons x r ih =>
    simp only [split]
    by_cases h : x = c
    · subst h; simp [ih]
    · rw [if_neg h, List.count_cons]
      have hb : (x == c) = false := by simpa using h
      cases hs : split c r with
      | nil => exact absurd hs (split_ne_nil c r)
      | cons p ps => rw [hs] at ih; simp only [hb] at *; simpa using ih

theorem count_digits (n : Nat) : (natDigits n).count 45 = 0 :=
  List.count_eq_zero.2 (not_mem_of_all_isDigit (natDigits_isDigit n) (by decide))

theorem count_itoa (n : Int) : (itoa n).count 45 = if n < 0 then 1 else 0 := by
  simp only [itoa]
  split <;> simp [count_digits]

theorem parse_fmt_neg {s e : Int} (h : s < 0 ∨ e < 0) : parsePeriod (fmtPeriod s e) = (0, 0) := by
  have hl := split_length 45 (fmtPeriod s e)
  have : (fmtPeriod s e).count 45 ≥ 2 := by
    simp only [fmtPeriod, List.count_append, List.count_cons, count_itoa]
    rcases h with h | h <;> simp [h] <;> split <;> omega
  simp only [parsePeriod]
  split
  · rename_i a b hab; rw [hab] at hl; simp at hl; omega
  · rfl

/-! ### AddItem -/

/-- The versions below an item. -/
def TItem.vAt (it : TItem) (ks : List Bytes) : List TVersion :=
  match it.at? ks with
  | some c => c.versions
  | none => []

theorem vAt_nil (it : TItem) : it.vAt [] = it.versions := by simp [TItem.vAt, TItem.at?]

theorem vAt_cons (it : TItem) (k : Bytes) (ks : List Bytes) :
    it.vAt (k :: ks) = match mget it.children k with | some c => c.vAt ks | none => [] := by
  simp only [TItem.vAt, TItem.at?]
  cases mget it.children k <;> simp

theorem vAt_new (p : Bytes) (ks : List Bytes) : (TItem.mk p [] []).vAt ks = [] := by
  cases ks with
  | nil => rfl
  | cons k ks => rw [vAt_cons]; rfl

theorem vAt_getD (cs : List (Bytes × TItem)) (k p : Bytes) (ks : List Bytes) :
    ((mget cs k).getD (.mk p [] [])).vAt ks = match mget cs k with | some c => c.vAt ks | none => [] := by
  cases mget cs k with
  | none => exact vAt_new p ks
  | some c => rfl

theorem addAt_one (per : Bytes) (v : Js) (p : Bytes) (vs : List TVersion) (cs : List (Bytes × TItem)) (k : Bytes) :
    (TItem.mk p vs cs).addAt per v [k] =
      match (mget cs k).getD (.mk per [] []) with
      | .mk p' vs' cs' => .mk p vs (mset cs k (.mk p' (vs' ++ [⟨per, v⟩]) cs')) := by
  rw [TItem.addAt]; rfl

theorem addAt_two (per : Bytes) (v : Js) (p : Bytes) (vs : List TVersion) (cs : List (Bytes × TItem)) (k k2 : Bytes)
    (ks : List Bytes) :
    (TItem.mk p vs cs).addAt per v (k :: k2 :: ks) =
      .mk p vs (mset cs k (((mget cs k).getD (.mk per [] [])).addAt per v (k2 :: ks))) := by
  rw [TItem.addAt]
  cases (mget cs k).getD (.mk per [] []) with
  | mk p' vs' cs' => rfl

theorem vAt_addAt (per : Bytes) (v : Js) (ks : List Bytes) : ∀ (it : TItem) (k : Bytes) (ks' : List Bytes),
    (it.addAt per v (k :: ks)).vAt ks' = it.vAt ks' ++ if ks' = k :: ks then [⟨per, v⟩] else [] := by
  induction ks with
  | nil =>
    intro it k ks'
    obtain ⟨p, vs, cs⟩ := it
    rw [addAt_one]
    have hg := fun r => vAt_getD cs k per r
    generalize (mget cs k).getD (.mk per [] []) = c at hg
    obtain ⟨p', vs', cs'⟩ := c
    cases ks' with
    | nil => simp [vAt_nil, TItem.versions]
    | cons k' r =>
      rw [vAt_cons, vAt_cons]
      simp only [TItem.children]
      by_cases hk : k' = k
      · subst hk
        rw [mget_mset_self, ← hg]
        cases r with
        | nil => simp [vAt_nil, TItem.versions]
        | cons a r => simp only [vAt_cons, TItem.children]; simp
      · rw [mget_mset_ne _ _ hk]; simp [hk]
  | cons k2 ks ih =>
    intro it k ks'
    obtain ⟨p, vs, cs⟩ := it
    rw [addAt_two]
    have hg := fun r => vAt_getD cs k per r
    generalize (mget cs k).getD (.mk per [] []) = c at hg
    cases ks' with
    | nil => simp [vAt_nil, TItem.versions]
    | cons k' r =>
      rw [vAt_cons, vAt_cons]
      simp only [TItem.children]
      by_cases hk : k' = k
      · subst hk
        rw [mget_mset_self, ← hg]
        simp only [ih]
        simp
      · rw [mget_mset_ne _ _ hk]; simp [hk]

theorem versionsAt_cons (d : TDoc) (k : Bytes) (ks : List Bytes) :
    versionsAt d (k :: ks) = match mget d k with | some c => c.vAt ks | none => [] := by
  simp only [versionsAt, tItemAt, TItem.vAt]
  cases mget d k <;> rfl

theorem versionsAt_empty (ks : List Bytes) : versionsAt [] ks = [] := by
  cases ks with
  | nil => rfl
  | cons k ks => rw [versionsAt_cons]; rfl

theorem versionsAt_addItem (d : TDoc) (path : Bytes) (s e : Int) (v : Js) (ks : List Bytes) :
    versionsAt (tAddItem d path s e v) ks =
      versionsAt d ks ++ if ks = split bDot path ∧ 2 ≤ ks.length then [⟨fmtPeriod s e, v⟩] else [] := by
  simp only [tAddItem]
  cases hp : split bDot path with
  | nil => exact absurd hp (split_ne_nil _ _)
  | cons k0 r0 =>
    cases ks with
    | nil => simp [versionsAt, tItemAt]
    | cons k ks =>
      rw [versionsAt_cons, versionsAt_cons]
      simp only
      by_cases hk : k = k0
      · subst hk
        rw [mget_mset_self]
        simp only
        rw [← vAt_getD _ _ (fmtPeriod s e)]
        cases r0 with
        | nil =>
          have : ¬(k :: ks = [k] ∧ 2 ≤ (k :: ks).length) := by rintro ⟨h, h'⟩; rw [h] at h'; simp at h'
          rw [if_neg this]; simp [TItem.addAt]
        | cons k1 r1 =>
          rw [vAt_addAt]
          by_cases hks : ks = k1 :: r1
          · subst hks; simp
          · simp [hks]
      · rw [mget_mset_ne _ _ hk]; simp [hk]

theorem split_inj {c : UInt8} {a b : Bytes} (h : split c a = split c b) : a = b := by
  rw [← joinWith_split c a, ← joinWith_split c b, h]

/-! ### FromTSONPatches, one path at a time -/

/-- A period with its value, as numbers. -/
structure Per where
  s : Int
  e : Int
  d : Js

/-- The version written for a period. -/
def Per.toV (p : Per) : TVersion := ⟨fmtPeriod p.s p.e, p.d⟩

/-- What a patch does to one path. -/
def perStep (q : Bytes) (st : List Per × Option (Js × Int)) (p : TPatch) : List Per × Option (Js × Int) :=
  if tPath p.path = q then
    if p.Sets then
      match st.2 with
      | none => (st.1, some (p.value, p.ts))
      | some (v, s) => if jsEq v p.value then st else (st.1 ++ [⟨s, pred64 p.ts, v⟩], some (p.value, p.ts))
    else if p.Removes then
      match st.2 with
      | none => st
      | some (v, s) => (st.1 ++ [⟨s, pred64 p.ts, v⟩], none)
    else st
  else st

/-- The state of the loop, seen from one path. -/
structure PathSim (q : Bytes) (st : TDoc × List (Bytes × (Js × Int))) (x : List Per × Option (Js × Int)) : Prop where
  vers : versionsAt st.1 (split bDot q) = x.1.map Per.toV
  cur : mget st.2 q = x.2
  nodup : (mkeys st.2).Nodup

theorem mget_mdel (m : List (Bytes × ν)) (k k₂ : Bytes) : mget (mdel m k) k₂ = if k₂ = k then none else mget m k₂ := by
  by_cases h : k₂ = k
  · subst h; simp [mget_mdel_self]
  · simp [mget_mdel_ne m h, h]

theorem pathSim_step {q : Bytes} (hq : 2 ≤ (split bDot q).length) {st : TDoc × List (Bytes × (Js × Int))}
    {x : List Per × Option (Js × Int)} (h : PathSim q st x) (p : TPatch) : PathSim q (tStep st p) (perStep q x p) := by
  obtain ⟨d, m⟩ := st
  obtain ⟨vs, cur⟩ := x
  obtain ⟨h1, h2, h3⟩ := h
  simp only at h1 h2 h3
  by_cases hp : tPath p.path = q
  · simp only [tStep, perStep, hp, if_true]
    by_cases hS : p.op = b!"add" ∨ p.op = b!"replace"
    · rw [h2, if_pos hS, if_pos (show p.Sets from hS)]
      cases cur with
      | none => exact ⟨h1, by simp [mget_mset_self], nodup_mkeys_mset h3 _ _⟩
      | some c =>
        obtain ⟨v, s⟩ := c
        simp only
        split
        · exact ⟨h1, h2, h3⟩
        · refine ⟨?_, by simp [mget_mset_self], nodup_mkeys_mset h3 _ _⟩
          simp only [versionsAt_addItem, h1, hq, and_self, if_true, List.map_append]; rfl
    · rw [if_neg hS, if_neg (show ¬ p.Sets from hS)]
      by_cases hR : p.op = b!"remove"
      · rw [h2, if_pos hR, if_pos (show p.Removes from hR)]
        cases cur with
        | none => exact ⟨h1, h2, h3⟩
        | some c =>
          obtain ⟨v, s⟩ := c
          refine ⟨?_, by simp [mget_mdel_self], nodup_mkeys_mdel h3 _⟩
          simp only [versionsAt_addItem, h1, hq, and_self, if_true, List.map_append]; rfl
      · rw [if_neg hR, if_neg (show ¬ p.Removes from hR)]; exact ⟨h1, h2, h3⟩
  · have hs : ¬ (split bDot q = split bDot (tPath p.path) ∧ 2 ≤ (split bDot q).length) :=
      fun h => hp (split_inj h.1).symm
    have hq' : q ≠ tPath p.path := fun h => hp h.symm
    simp only [tStep, perStep, hp, if_false]
    split
    · split
      · exact ⟨h1, by rw [mget_mset_ne _ _ hq']; exact h2, nodup_mkeys_mset h3 _ _⟩
      · split
        · exact ⟨h1, h2, h3⟩
        · refine ⟨?_, by rw [mget_mset_ne _ _ hq']; exact h2, nodup_mkeys_mset h3 _ _⟩
          simp only [versionsAt_addItem, if_neg hs, List.append_nil]; exact h1
    · split
      · split
        · exact ⟨h1, h2, h3⟩
        · refine ⟨?_, by rw [mget_mdel_ne _ hq']; exact h2, nodup_mkeys_mdel h3 _⟩
          simp only [versionsAt_addItem, if_neg hs, List.append_nil]; exact h1
      · exact ⟨h1, h2, h3⟩

theorem pathSim_foldl {q : Bytes} (hq : 2 ≤ (split bDot q).length) (l : List TPatch) :
    ∀ {st : TDoc × List (Bytes × (Js × Int))} {x : List Per × Option (Js × Int)}, PathSim q st x →
      PathSim q (l.foldl tStep st) (l.foldl (perStep q) x) := by
  induction l with
  | nil => exact fun h => h
  | cons p l ih => exact fun h => ih (pathSim_step hq h p)

theorem versionsAt_close {q : Bytes} (hq : 2 ≤ (split bDot q).length) (now : Int) (m : List (Bytes × (Js × Int))) :
    (mkeys m).Nodup → ∀ d : TDoc, versionsAt (m.foldl (tClose now) d) (split bDot q) =
      versionsAt d (split bDot q) ++ (match mget m q with | some (v, s) => [Per.toV ⟨s, now, v⟩] | none => []) := by
  induction m with
  | nil => intro _ d; simp
  | cons e m ih =>
    intro hn d
    obtain ⟨k, v, s⟩ := e
    have hn' : (mkeys m).Nodup := (List.nodup_cons.1 hn).2
    have hk : k ∉ mkeys m := (List.nodup_cons.1 hn).1
    rw [List.foldl_cons, ih hn']
    simp only [tClose, versionsAt_addItem, mget_cons]
    by_cases hkq : k = q
    · subst hkq
      simp [hq, mget_eq_none.2 hk, Per.toV]
    · have : ¬ (split bDot q = split bDot k ∧ 2 ≤ (split bDot q).length) := fun h => hkq (split_inj h.1).symm
      simp [hkq, if_neg this]

theorem mget_permT {m n : List (Bytes × ν)} (hp : m.Perm n) (hn : (mkeys n).Nodup) (k : Bytes) : mget m k = mget n k := by
  have hm : (mkeys m).Nodup := (hp.map Prod.fst).nodup_iff.2 hn
  cases h : mget m k with
  | none =>
    have : k ∉ mkeys n := fun hk => mget_eq_none.1 h ((hp.map Prod.fst).mem_iff.2 hk)
    exact (mget_eq_none.2 this).symm
  | some v => exact (mem_mget hn (hp.mem_iff.1 (mget_mem h))).symm

/-- All periods of a path. -/
def pers (now : Int) (x : List Per × Option (Js × Int)) : List Per :=
  x.1 ++ match x.2 with | some (v, s) => [⟨s, now, v⟩] | none => []

theorem versionsAt_fromPatches (o : TOracle) (now : Int) (ps : List TPatch) {q : Bytes}
    (hq : 2 ≤ (split bDot q).length) :
    versionsAt (fromPatches o now ps) (split bDot q) =
      (pers now ((o.sortPatches ps).foldl (perStep q) ([], none))).map Per.toV := by
  have h := pathSim_foldl hq (o.sortPatches ps) (st := ([], [])) (x := ([], none)) ⟨versionsAt_empty _, rfl, by simp [mkeys]⟩
  simp only [fromPatches]
  generalize (o.sortPatches ps).foldl tStep ([], []) = st at h
  generalize (o.sortPatches ps).foldl (perStep q) ([], none) = x at h
  have hp := o.order_perm st.2
  rw [versionsAt_close hq now _ ((hp.map Prod.fst).nodup_iff.2 h.nodup), mget_permT hp h.nodup, h.vers, h.cur, pers]
  cases x.2 with
  | none => simp
  | some c => simp

/-! ### The periods of a path and the value in force -/

theorem SameValue.refl (v : Js) : SameValue v v := Or.inl rfl

theorem inForce_append (q : Bytes) (t : Int) (l₁ l₂ : List TPatch) (c : Option Js) :
    inForce q t (l₁ ++ l₂) c = inForce q t l₂ (inForce q t l₁ c) := by
  induction l₁ generalizing c with
  | nil => rfl
  | cons p l ih => simp only [List.cons_append, inForce, ih]

/-- The periods of a path, the pending one included, say `r` about the time `t`. -/
def CoverRel (x : List Per × Option (Js × Int)) (t : Int) : Option Js → Prop
  | none => (∀ a ∈ x.1, ¬ (a.s ≤ t ∧ t ≤ a.e)) ∧ ∀ v s, x.2 = some (v, s) → t < s
  | some w =>
    (∃ a ∈ x.1, (a.s ≤ t ∧ t ≤ a.e) ∧ SameValue a.d w) ∨ ∃ v s, x.2 = some (v, s) ∧ s ≤ t ∧ SameValue v w

/-- Invariant of the loop for one path after the patches `done`. -/
structure PerInv (q : Bytes) (done : List TPatch) (x : List Per × Option (Js × Int)) : Prop where
  start : ∀ a ∈ x.1, ∃ p ∈ done, tPath p.path = q ∧ p.Sets ∧ a.s = p.ts ∧ a.d = p.value
  stop : ∀ a ∈ x.1, ∃ p ∈ done, tPath p.path = q ∧ 0 < p.ts ∧ a.e = p.ts - 1
  order : ∀ a ∈ x.1, a.s ≤ a.e + 1
  cur : ∀ v s, x.2 = some (v, s) → ∃ p ∈ done, tPath p.path = q ∧ p.Sets ∧ s = p.ts ∧ v = p.value
  before : ∀ v s, x.2 = some (v, s) → ∀ a ∈ x.1, a.e < s
  disj : x.1.Pairwise fun a b => a.e < b.s
  val : ∀ t, CoverRel x t (inForce q t done none)

theorem perInv_nil (q : Bytes) : PerInv q [] ([], none) :=
  ⟨by simp, by simp, by simp, by simp, by simp, by simp, by intro t; simp [inForce, CoverRel]⟩

theorem pred64_pos {n : Int} (h : 0 < n) : pred64 n = n - 1 := by
  simp only [pred64, minInt64]; rw [if_neg (by omega)]

theorem perInv_other {q : Bytes} {done : List TPatch} {x : List Per × Option (Js × Int)} (h : PerInv q done x)
    {p : TPatch} (hv : ∀ t, inForce q t (done ++ [p]) none = inForce q t done none) : PerInv q (done ++ [p]) x := by
  have up : ∀ {P : TPatch → Prop}, (∃ p' ∈ done, P p') → ∃ p' ∈ done ++ [p], P p' := by
    rintro P ⟨p', hp', h'⟩; exact ⟨p', List.mem_append_left _ hp', h'⟩
  exact ⟨fun a ha => up (h.start a ha), fun a ha => up (h.stop a ha), h.order, fun v s e => up (h.cur v s e), h.before,
    h.disj, fun t => by rw [hv]; exact h.val t⟩

theorem inForce_last (q : Bytes) (t : Int) (done : List TPatch) (p : TPatch) :
    inForce q t (done ++ [p]) none =
      if p.ts ≤ t ∧ tPath p.path = q then
        (if p.Sets then some p.value else if p.Removes then none else inForce q t done none)
      else inForce q t done none := by
  rw [inForce_append]; rfl

theorem perInv_step {q : Bytes} {done : List TPatch} {x : List Per × Option (Js × Int)} (h : PerInv q done x)
    {p : TPatch} (hs : ∀ p' ∈ done, p'.ts ≤ p.ts) (h0 : ∀ p' ∈ done, 0 ≤ p'.ts) (hp0 : 0 ≤ p.ts)
    (hz : ∀ p' ∈ done, p'.ts = 0 → p.ts = 0 → tPath p'.path = tPath p.path → p.Sets ∧ jsEq p'.value p.value = true) :
    PerInv q (done ++ [p]) (perStep q x p) := by
  have up : ∀ {P : TPatch → Prop}, (∃ p' ∈ done, P p') → ∃ p' ∈ done ++ [p], P p' := by
    rintro P ⟨p', hp', h'⟩; exact ⟨p', List.mem_append_left _ hp', h'⟩
  by_cases hq : tPath p.path ≠ q
  · simp only [perStep, hq, if_false]
    exact perInv_other h fun t => by rw [inForce_last, if_neg (fun hc => hq hc.2)]
  have hq : tPath p.path = q := Decidable.not_not.1 hq
  have hlast : p ∈ done ++ [p] := by simp
  have hends : ∀ a ∈ x.1, a.e < p.ts := by
    intro a ha
    obtain ⟨p', hp', _, _, he⟩ := h.stop a ha
    have := hs p' hp'; omega
  have hcur : ∀ v s, x.2 = some (v, s) → s ≤ p.ts ∧ (¬ (p.Sets ∧ jsEq v p.value = true) → 0 < p.ts) := by
    intro v s e
    obtain ⟨p', hp', hq', _, hsp, hv'⟩ := h.cur v s e
    have h1 := hs p' hp'
    have h2 := h0 p' hp'
    refine ⟨by omega, fun hne => ?_⟩
    by_cases hz0 : p.ts = 0
    · exact absurd (by rw [hv']; exact hz p' hp' (by omega) hz0 (hq'.trans hq.symm)) hne
    · omega
  obtain ⟨vs, cur⟩ := x
  simp only at hends hcur
  -- closing the pending period
  have hclose : ∀ v s, cur = some (v, s) → ¬ (p.Sets ∧ jsEq v p.value = true) →
      (∀ a ∈ vs ++ [⟨s, pred64 p.ts, v⟩], ∃ p' ∈ done ++ [p], tPath p'.path = q ∧ p'.Sets ∧ a.s = p'.ts ∧
        a.d = p'.value) ∧
      (∀ a ∈ vs ++ [⟨s, pred64 p.ts, v⟩], ∃ p' ∈ done ++ [p], tPath p'.path = q ∧ 0 < p'.ts ∧ a.e = p'.ts - 1) ∧
      (∀ a ∈ vs ++ [⟨s, pred64 p.ts, v⟩], a.s ≤ a.e + 1) ∧
      (∀ a ∈ vs ++ [⟨s, pred64 p.ts, v⟩], a.e < p.ts) ∧
      (vs ++ [Per.mk s (pred64 p.ts) v]).Pairwise (fun a b => a.e < b.s) := by
    intro v s e hne
    obtain ⟨hsp, hpos⟩ := hcur v s e
    have hpos := hpos hne
    rw [pred64_pos hpos]
    refine ⟨?_, ?_, ?_, ?_, ?_⟩
    · intro a ha
      rcases List.mem_append.1 ha with ha | ha
      · exact up (h.start a ha)
      · simp only [List.mem_singleton] at ha; subst ha; exact up (h.cur v s e)
    · intro a ha
      rcases List.mem_append.1 ha with ha | ha
      · exact up (h.stop a ha)
      · simp only [List.mem_singleton] at ha; subst ha; exact ⟨p, hlast, hq, hpos, rfl⟩
    · intro a ha
      rcases List.mem_append.1 ha with ha | ha
      · exact h.order a ha
      · simp only [List.mem_singleton] at ha; subst ha; simp only; omega
    · intro a ha
      rcases List.mem_append.1 ha with ha | ha
      · exact hends a ha
      · simp only [List.mem_singleton] at ha; subst ha; simp only; omega
    · refine List.pairwise_append.2 ⟨h.disj, by simp, ?_⟩
      intro a ha b hb
      simp only [List.mem_singleton] at hb; subst hb
      exact h.before v s e a ha
  -- the value before the patch, after closing
  have hearly : ∀ v s c, cur = some (v, s) → ¬ (p.Sets ∧ jsEq v p.value = true) → (∀ w s', c = some (w, s') → s' = p.ts) → ∀ t, t < p.ts →
      CoverRel (vs ++ [⟨s, pred64 p.ts, v⟩], c) t (inForce q t done none) := by
    intro v s c e hne hc t ht
    obtain ⟨hsp, hpos⟩ := hcur v s e
    have hpos := hpos hne
    have hv := h.val t
    rw [pred64_pos hpos]
    generalize inForce q t done none = r at hv
    cases r with
    | none =>
      refine ⟨?_, ?_⟩
      · intro a ha
        rcases List.mem_append.1 ha with ha | ha
        · exact hv.1 a ha
        · simp only [List.mem_singleton] at ha; subst ha
          have := hv.2 v s e; simp only; omega
      · intro w s' ew; have := hc w s' ew; omega
    | some w =>
      rcases hv with ⟨a, ha, hat, hw⟩ | ⟨v', s', e', hst, hw⟩
      · exact Or.inl ⟨a, List.mem_append_left _ ha, hat, hw⟩
      · simp only at e'
        rw [e] at e'; cases e'
        exact Or.inl ⟨_, List.mem_append_right _ (List.mem_singleton.2 rfl), ⟨hst, by simp only; omega⟩, hw⟩
  by_cases hS : p.Sets
  · simp only [perStep, hq, if_true, if_pos hS]
    cases cur with
    | none =>
      refine ⟨fun a ha => up (h.start a ha), fun a ha => up (h.stop a ha), h.order, ?_, ?_, h.disj, ?_⟩
      · rintro v s ⟨⟩; exact ⟨p, hlast, hq, hS, rfl, rfl⟩
      · rintro v s ⟨⟩ a ha; exact hends a ha
      · intro t
        rw [inForce_last]
        by_cases ht : p.ts ≤ t
        · rw [if_pos ⟨ht, hq⟩, if_pos hS]
          exact Or.inr ⟨_, _, rfl, ht, SameValue.refl _⟩
        · rw [if_neg (fun hc => ht hc.1)]
          have hv := h.val t
          generalize inForce q t done none = r at hv
          cases r with
          | none =>
            refine ⟨hv.1, ?_⟩
            rintro v s ⟨⟩; omega
          | some w =>
            rcases hv with hl | ⟨v', s', e', _⟩
            · exact Or.inl hl
            · cases e'
    | some c =>
      obtain ⟨v, s⟩ := c
      simp only
      split
      · rename_i heq
        refine ⟨fun a ha => up (h.start a ha), fun a ha => up (h.stop a ha), h.order, fun v s e => up (h.cur v s e),
          h.before, h.disj, ?_⟩
        intro t
        rw [inForce_last]
        by_cases ht : p.ts ≤ t
        · rw [if_pos ⟨ht, hq⟩, if_pos hS]
          have := (hcur v s rfl).1
          exact Or.inr ⟨_, _, rfl, by omega, Or.inr heq⟩
        · rw [if_neg (fun hc => ht hc.1)]; exact h.val t
      · rename_i hneq
        have hne : ¬ (p.Sets ∧ jsEq v p.value = true) := fun hc => hneq hc.2
        obtain ⟨h1, h2, h3, h4, h5⟩ := hclose v s rfl hne
        refine ⟨h1, h2, h3, ?_, ?_, h5, ?_⟩
        · rintro v s ⟨⟩; exact ⟨p, hlast, hq, hS, rfl, rfl⟩
        · rintro v s ⟨⟩ a ha; exact h4 a ha
        · intro t
          rw [inForce_last]
          by_cases ht : p.ts ≤ t
          · rw [if_pos ⟨ht, hq⟩, if_pos hS]
            exact Or.inr ⟨_, _, rfl, ht, SameValue.refl _⟩
          · rw [if_neg (fun hc => ht hc.1)]
            exact hearly v s _ rfl hne (by rintro w s' ⟨⟩; rfl) t (by omega)
  · by_cases hR : p.Removes
    · simp only [perStep, hq, if_true, if_neg hS, if_pos hR]
      cases cur with
      | none =>
        refine ⟨fun a ha => up (h.start a ha), fun a ha => up (h.stop a ha), h.order, fun v s e => up (h.cur v s e),
          h.before, h.disj, ?_⟩
        intro t
        rw [inForce_last]
        by_cases ht : p.ts ≤ t
        · rw [if_pos ⟨ht, hq⟩, if_neg hS, if_pos hR]
          refine ⟨?_, by simp⟩
          intro a ha; have := hends a ha; omega
        · rw [if_neg (fun hc => ht hc.1)]; exact h.val t
      | some c =>
        obtain ⟨v, s⟩ := c
        have hne : ¬ (p.Sets ∧ jsEq v p.value = true) := fun hc => hS hc.1
        obtain ⟨h1, h2, h3, h4, h5⟩ := hclose v s rfl hne
        refine ⟨h1, h2, h3, by simp, by simp, h5, ?_⟩
        intro t
        rw [inForce_last]
        by_cases ht : p.ts ≤ t
        · rw [if_pos ⟨ht, hq⟩, if_neg hS, if_pos hR]
          refine ⟨?_, by simp⟩
          intro a ha; have := h4 a ha; omega
        · rw [if_neg (fun hc => ht hc.1)]
          exact hearly v s _ rfl hne (by simp) t (by omega)
    · simp only [perStep, hq, if_true, if_neg hS, if_neg hR]
      exact perInv_other h fun t => by
        simp [inForce_last, hS, hR]

theorem perInv_foldl {q : Bytes} (rest : List TPatch) : ∀ (done : List TPatch) (x : List Per × Option (Js × Int)),
    PerInv q done x → (done ++ rest).Pairwise (fun a b => a.ts ≤ b.ts) → GoodTimes (done ++ rest) →
      PerInv q (done ++ rest) (rest.foldl (perStep q) x) := by
  induction rest with
  | nil => intro done x h _ _; simpa using h
  | cons p rest ih =>
    intro done x h hs hg
    have e : done ++ p :: rest = done ++ [p] ++ rest := by simp
    rw [List.foldl_cons, e]
    rw [e] at hs hg
    refine ih _ _ (perInv_step h ?_ ?_ ?_ ?_) hs hg
    · intro p' hp'
      have := (List.pairwise_append.1 (List.pairwise_append.1 hs).1).2.2
      exact this p' hp' p (by simp)
    · exact fun p' hp' => hg.nonneg p' (by simp [hp'])
    · exact hg.nonneg p (by simp)
    · intro p' hp'
      have := (List.pairwise_append.1 (List.pairwise_append.1 hg.zero).1).2.2
      intro h1 h2 h3
      have := this p' hp' p (by simp) h1 h2 h3
      exact ⟨this.2.1, this.2.2.1⟩

theorem GoodTimes.perm {l l' : List TPatch} (hp : l.Perm l') (h : GoodTimes l) : GoodTimes l' :=
  ⟨fun p hm => h.nonneg p (hp.mem_iff.2 hm), fun p hm => h.int64 p (hp.mem_iff.2 hm),
    hp.pairwise h.zero (fun hab h1 h2 he => have h := hab h2 h1 he.symm; ⟨h.2.1, h.1, h.2.2.2, h.2.2.1⟩)⟩

theorem perInv_sorted (o : TOracle) {ps : List TPatch} (hg : GoodTimes ps) (q : Bytes) :
    PerInv q (o.sortPatches ps) ((o.sortPatches ps).foldl (perStep q) ([], none)) := by
  have := perInv_foldl (o.sortPatches ps) [] ([], none) (perInv_nil q)
    (by simpa using o.sortPatches_sorted ps) (by simpa using hg.perm (o.sortPatches_perm ps).symm)
  simpa using this

/-- The latest patch decides, whatever the order of the others. -/
theorem inForce_governs {q : Bytes} {t : Int} {p : TPatch} (hon : p.On q) (ht : p.ts ≤ t) :
    ∀ l : List TPatch, l.Pairwise (fun a b => a.ts ≤ b.ts) → p ∈ l →
      (∀ p' ∈ l, p'.On q → p'.ts ≤ t → p' = p ∨ p'.ts < p.ts) → ∀ c,
      inForce q t l c = if p.Sets then some p.value else none := by
  have hkeep : ∀ l : List TPatch, (∀ p' ∈ l, p'.On q → p'.ts ≤ t → p' = p) → ∀ c,
      c = (if p.Sets then some p.value else none) → inForce q t l c = c := by
    intro l
    induction l with
    | nil => intro _ c _; rfl
    | cons a l ih =>
      intro h c hc
      have hih := ih (fun p' hp' => h p' (by simp [hp'])) c hc
      have hstep : (if a.ts ≤ t ∧ tPath a.path = q then
          (if a.Sets then some a.value else if a.Removes then none else c) else c) = c := by
        split
        · rename_i hc'
          by_cases hS : a.Sets
          · have := h a (by simp) ⟨hc'.2, Or.inl hS⟩ hc'.1
            subst this; rw [hc]; simp [hS]
          · by_cases hR : a.Removes
            · have := h a (by simp) ⟨hc'.2, Or.inr hR⟩ hc'.1
              subst this; rw [hc]; simp [hS, hR]
            · simp [hS, hR]
        · rfl
      rw [inForce, hstep, hih]
  intro l
  induction l with
  | nil => intro _ h; simp at h
  | cons a l ih =>
    intro hs hm hl c
    by_cases hin : p ∈ l
    · rw [inForce]
      exact ih (List.pairwise_cons.1 hs).2 hin (fun p' hp' => hl p' (by simp [hp'])) _
    · have ha : p = a := by simpa [hin] using hm
      subst ha
      rw [inForce]
      have hstep : (if p.ts ≤ t ∧ tPath p.path = q then
          (if p.Sets then some p.value else if p.Removes then none else c) else c) =
          if p.Sets then some p.value else none := by
        rw [if_pos ⟨ht, hon.1⟩]
        rcases hon.2 with h | h
        · simp [h]
        · by_cases hS : p.Sets <;> simp [h, hS]
      rw [hstep]
      refine hkeep l ?_ _ rfl
      intro p' hp' ho' ht'
      rcases hl p' (by simp [hp']) ho' ht' with h | h
      · exact h
      · have := (List.pairwise_cons.1 hs).1 p' hp'; omega

/-- Without a patch for the path nothing is in force. -/
theorem inForce_none {q : Bytes} {t : Int} : ∀ l : List TPatch, (∀ p ∈ l, p.On q → t < p.ts) → ∀ c,
    inForce q t l c = c := by
  intro l
  induction l with
  | nil => intro _ c; rfl
  | cons a l ih =>
    intro h c
    have hstep : (if a.ts ≤ t ∧ tPath a.path = q then
        (if a.Sets then some a.value else if a.Removes then none else c) else c) = c := by
      split
      · rename_i hc'
        by_cases hS : a.Sets
        · have := h a (by simp) ⟨hc'.2, Or.inl hS⟩; omega
        · by_cases hR : a.Removes
          · have := h a (by simp) ⟨hc'.2, Or.inr hR⟩; omega
          · simp [hS, hR]
      · rfl
    rw [inForce, hstep]
    exact ih (fun p hp => h p (by simp [hp])) c

/-! ### The versions of a path -/

theorem mem_pers {now : Int} {x : List Per × Option (Js × Int)} {a : Per} :
    a ∈ pers now x ↔ a ∈ x.1 ∨ ∃ v s, x.2 = some (v, s) ∧ a = ⟨s, now, v⟩ := by
  obtain ⟨vs, cur⟩ := x
  simp only [pers, List.mem_append]
  cases cur with
  | none => simp
  | some c =>
    obtain ⟨v, s⟩ := c
    simp only [List.mem_singleton, Option.some.injEq, Prod.mk.injEq]
    refine or_congr Iff.rfl ⟨fun h => ⟨v, s, ⟨rfl, rfl⟩, h⟩, ?_⟩
    rintro ⟨v', s', ⟨rfl, rfl⟩, h⟩; exact h

theorem parse_pers {o : TOracle} {ps : List TPatch} {q : Bytes} {now : Int} (hg : GoodTimes ps) (h0 : 0 ≤ now)
    (h1 : now ≤ maxInt64) {x : List Per × Option (Js × Int)} (hx : PerInv q (o.sortPatches ps) x) {a : Per}
    (ha : a ∈ pers now x) : parsePeriod a.toV.period = (a.s, a.e) := by
  have hm : ∀ p, p ∈ o.sortPatches ps → 0 ≤ p.ts ∧ p.ts ≤ maxInt64 := fun p hp =>
    have hp' := (o.sortPatches_perm ps).mem_iff.1 hp
    ⟨hg.nonneg p hp', hg.int64 p hp'⟩
  rcases mem_pers.1 ha with ha | ⟨v, s, e, rfl⟩
  · obtain ⟨p, hp, _, _, e1, _⟩ := hx.start a ha
    obtain ⟨p', hp', _, hpos, e2⟩ := hx.stop a ha
    have := hm p hp
    have := hm p' hp'
    exact parse_fmt (by omega) (by omega) (by omega) (by omega)
  · obtain ⟨p, hp, _, _, e1, _⟩ := hx.cur v s e
    have := hm p hp
    exact parse_fmt (by simp only; omega) (by simp only; omega) (by simp only; omega) (by simp only; omega)

theorem pers_disj {q : Bytes} {done : List TPatch} {now : Int} {x : List Per × Option (Js × Int)} (hx : PerInv q done x) :
    (pers now x).Pairwise fun a b => a.e < b.s := by
  obtain ⟨vs, cur⟩ := x
  cases cur with
  | none => simpa [pers] using hx.disj
  | some c =>
    obtain ⟨v, s⟩ := c
    refine List.pairwise_append.2 ⟨hx.disj, by simp, ?_⟩
    intro a ha b hb
    simp only [List.mem_singleton] at hb; subst hb
    exact hx.before v s rfl a ha

theorem pairwise_map_of {f : α → β} {R : α → α → Prop} {S : β → β → Prop} {l : List α}
    (h : l.Pairwise R) (hi : ∀ a ∈ l, ∀ b ∈ l, R a b → S (f a) (f b)) : (l.map f).Pairwise S := by
  rw [List.pairwise_map]
  refine List.Pairwise.imp_of_mem ?_ h
  exact fun ha hb hr => hi _ ha _ hb hr

/-- At most one of a list of disjoint periods covers a time. -/
theorem covers_unique {l : List TVersion}
    (h : l.Pairwise fun a b => (parsePeriod a.period).2 < (parsePeriod b.period).1) {t : Int} {a b : TVersion}
    (ha : a ∈ l) (hb : b ∈ l) (hat : Covers a t) (hbt : Covers b t) : a = b := by
  induction l with
  | nil => simp at ha
  | cons c l ih =>
    have h1 := (List.pairwise_cons.1 h).1
    have h2 := (List.pairwise_cons.1 h).2
    simp only [Covers] at hat hbt
    rcases List.mem_cons.1 ha with rfl | ha'
    · rcases List.mem_cons.1 hb with rfl | hb'
      · rfl
      · have := h1 b hb'; omega
    · rcases List.mem_cons.1 hb with rfl | hb'
      · have := h1 a ha'; omega
      · exact ih h2 ha' hb'

/-! ### Snapshots -/

theorem mget_tSnapF {t : Int} {cs : List (Bytes × TItem)} {k : Bytes} {it : TItem} (h : mget cs k = some it)
    (hn : it.snap t ≠ .null) : mget (tSnapF t cs) k = some (it.snap t) := by
  induction cs with
  | nil => simp at h
  | cons e cs ih =>
    obtain ⟨k', it'⟩ := e
    rw [mget_cons] at h
    by_cases hk : k' = k
    · subst hk
      simp only [if_true, Option.some.injEq] at h; subst h
      rw [tSnapF]
      generalize it'.snap t = j at hn
      cases j <;> simp [mget_cons] at hn ⊢
    · rw [if_neg hk] at h
      have := ih h
      rw [tSnapF]
      generalize it'.snap t = j
      cases j <;> simp [mget_cons, hk, this]

theorem mget_tSnapF_none {t : Int} {cs : List (Bytes × TItem)} {k : Bytes} (h : mget cs k = none) :
    mget (tSnapF t cs) k = none := by
  induction cs with
  | nil => rfl
  | cons e cs ih =>
    obtain ⟨k', it'⟩ := e
    rw [mget_cons] at h
    by_cases hk : k' = k
    · simp [hk] at h
    · rw [if_neg hk] at h
      have := ih h
      rw [tSnapF]
      generalize it'.snap t = j
      cases j <;> simp [mget_cons, hk, this]

theorem at_null {ks : List Bytes} {j : Js} (h : Js.null.at? ks = some j) : j = .null := by
  cases ks with
  | nil => simpa [Js.at?] using h.symm
  | cons k ks => simp [Js.at?] at h

/-! ### Items are maps -/

theorem mem_mset {m : List (Bytes × ν)} {k : Bytes} {v : ν} {e : Bytes × ν} (h : e ∈ mset m k v) :
    e = (k, v) ∨ e ∈ m := by
  induction m with
  | nil => simp only [mset, List.mem_singleton] at h; exact .inl h
  | cons a m ih =>
    simp only [mset] at h
    split at h
    · next hk =>
      rcases List.mem_cons.1 h with h | h
      · exact .inl (by rw [h]; simp_all)
      · exact .inr (List.mem_cons_of_mem _ h)
    · rcases List.mem_cons.1 h with h | h
      · exact .inr (by simp [h])
      · exact (ih h).imp id (List.mem_cons_of_mem _)

theorem wf_new (p : Bytes) (vs : List TVersion) : (TItem.mk p vs []).Wf := .mk (by simp [mkeys]) (by simp)

theorem wf_getD {cs : List (Bytes × TItem)} (h : ∀ e ∈ cs, e.2.Wf) (k p : Bytes) :
    ((mget cs k).getD (.mk p [] [])).Wf := by
  cases hg : mget cs k with
  | none => exact wf_new p []
  | some c => exact h _ (mget_mem hg)

theorem wf_addAt (per : Bytes) (v : Js) : ∀ (ks : List Bytes) (it : TItem), it.Wf → (it.addAt per v ks).Wf := by
  intro ks
  induction ks with
  | nil => intro it h; rw [TItem.addAt]; exact h
  | cons k ks ih =>
    intro it h
    cases h with
    | @mk p vs cs hn hc =>
      have hw := wf_getD hc k per
      have key : ∀ c : TItem, c.Wf → (TItem.mk p vs (mset cs k c)).Wf := fun c h' =>
        .mk (nodup_mkeys_mset hn k c) (fun e he => by
          rcases mem_mset he with rfl | he
          · exact h'
          · exact hc e he)
      rw [TItem.addAt]
      generalize (mget cs k).getD (.mk per [] []) = c at hw
      cases hw with
      | mk hn' hc' =>
        cases ks with
        | nil => exact key _ (.mk hn' hc')
        | cons k' ks => exact key _ (ih _ (.mk hn' hc'))

theorem wf_tAddItem {d : TDoc} (h : d.Wf) (path : Bytes) (s e : Int) (v : Js) : TDoc.Wf (tAddItem d path s e v) := by
  simp only [tAddItem]
  split
  · exact h
  · refine ⟨nodup_mkeys_mset h.1 _ _, fun x hx => ?_⟩
    rcases mem_mset hx with rfl | hx
    · exact wf_addAt _ _ _ _ (wf_getD h.2 _ _)
    · exact h.2 x hx

theorem wf_fromPatches (o : TOracle) (now : Int) (ps : List TPatch) : TDoc.Wf (fromPatches o now ps) := by
  have hstep : ∀ (l : List TPatch) (st : TDoc × List (Bytes × (Js × Int))), TDoc.Wf st.1 → TDoc.Wf (l.foldl tStep st).1 := by
    intro l
    induction l with
    | nil => exact fun _ h => h
    | cons p l ih =>
      intro st h
      rw [List.foldl_cons]
      refine ih _ ?_
      simp only [tStep]
      split
      · split
        · exact h
        · split
          · exact h
          · exact wf_tAddItem h _ _ _ _
      · split
        · split
          · exact h
          · exact wf_tAddItem h _ _ _ _
        · exact h
  have hclose : ∀ (l : List (Bytes × (Js × Int))) (d : TDoc), TDoc.Wf d → TDoc.Wf (l.foldl (tClose now) d) := by
    intro l
    induction l with
    | nil => exact fun _ h => h
    | cons p l ih => intro d h; rw [List.foldl_cons]; exact ih _ (wf_tAddItem h _ _ _ _)
  exact hclose _ _ (hstep _ _ ⟨by simp [mkeys], by simp⟩)

theorem mkeys_tSnapF (t : Int) (cs : List (Bytes × TItem)) : (mkeys (tSnapF t cs)).Sublist (mkeys cs) := by
  induction cs with
  | nil => exact .slnil
  | cons e cs ih =>
    obtain ⟨k, it⟩ := e
    rw [tSnapF]
    generalize it.snap t = j
    have h1 : (mkeys (tSnapF t cs)).Sublist (mkeys ((k, it) :: cs)) := ih.cons _
    have h2 : ∀ j, (mkeys ((k, j) :: tSnapF t cs)).Sublist (mkeys ((k, it) :: cs)) := fun j => ih.cons_cons _
    cases j <;> first | exact h1 | exact h2 _

theorem mget_foldl_mset {l : List (Bytes × ν)} {k : Bytes} (h : mget l k = none) : ∀ m : List (Bytes × ν),
    mget (l.foldl (fun m e => mset m e.1 e.2) m) k = mget m k := by
  induction l with
  | nil => intro m; rfl
  | cons e l ih =>
    intro m
    obtain ⟨k', v⟩ := e
    rw [mget_cons] at h
    by_cases hk : k' = k
    · simp [hk] at h
    · rw [if_neg hk] at h
      rw [List.foldl_cons, ih h, mget_mset_ne _ _ (Ne.symm hk)]

theorem mget_foldl_mset_mem {l : List (Bytes × ν)} (hn : (mkeys l).Nodup) {k : Bytes} {v : ν} (h : mget l k = some v) :
    ∀ m : List (Bytes × ν), mget (l.foldl (fun m e => mset m e.1 e.2) m) k = some v := by
  induction l with
  | nil => simp at h
  | cons e l ih =>
    intro m
    obtain ⟨k', v'⟩ := e
    simp only [mkeys, List.map_cons, List.nodup_cons] at hn
    rw [mget_cons] at h
    rw [List.foldl_cons]
    by_cases hk : k' = k
    · subst hk
      simp only [if_true, Option.some.injEq] at h; subst h
      have hnone : mget l k' = none := by
        cases hg : mget l k' with
        | none => rfl
        | some x => exact absurd (List.mem_map.2 ⟨_, mget_mem hg, rfl⟩) hn.1
      rw [mget_foldl_mset hnone, mget_mset_self]
    · rw [if_neg hk] at h
      exact ih hn.2 h _

/-- A child shown is the child. -/
theorem mget_tSnapF_some {t : Int} {cs : List (Bytes × TItem)} (hn : (mkeys cs).Nodup) {k : Bytes} {j : Js}
    (h : mget (tSnapF t cs) k = some j) : ∃ it, mget cs k = some it ∧ it.snap t = j := by
  cases hg : mget cs k with
  | none => rw [mget_tSnapF_none hg] at h; cases h
  | some it =>
    refine ⟨it, rfl, ?_⟩
    by_cases hnull : it.snap t = .null
    · exfalso
      have : ∀ (cs : List (Bytes × TItem)), (mkeys cs).Nodup → mget cs k = some it → mget (tSnapF t cs) k = none := by
        intro cs
        induction cs with
        | nil => intro _ _; rfl
        | cons e cs ih =>
          intro hn hg
          obtain ⟨k', it'⟩ := e
          simp only [mkeys, List.map_cons, List.nodup_cons] at hn
          rw [mget_cons] at hg
          by_cases hk : k' = k
          · subst hk
            simp only [if_true, Option.some.injEq] at hg; subst hg
            have hnone : mget cs k' = none := by
              cases hg : mget cs k' with
              | none => rfl
              | some x => exact absurd (List.mem_map.2 ⟨_, mget_mem hg, rfl⟩) hn.1
            rw [tSnapF, hnull]
            exact mget_tSnapF_none hnone
          · rw [if_neg hk] at hg
            have := ih hn.2 hg
            rw [tSnapF]
            generalize it'.snap t = j
            cases j <;> simp [mget_cons, hk, this]
      rw [this cs hn hg] at h; cases h
    · rw [mget_tSnapF hg hnull] at h; exact Option.some.inj h

/-- The item shows an object at the path, or has no versions there. -/
def Through (t : Int) (vs : List TVersion) : Prop := vs = [] ∨ ∃ m, pickVersion t none vs = some (.obj m)

theorem snap_at {t : Int} {j : Js} (hj : j ≠ .null) {c : TItem} (hc : c.snap t = j) : ∀ (ks : List Bytes) (it : TItem),
    it.Wf → it.at? ks = some c → (∀ ks₁ ks₂, ks = ks₁ ++ ks₂ → ks₂ ≠ [] → Through t (it.vAt ks₁)) →
    (it.snap t).at? ks = some j := by
  intro ks
  induction ks with
  | nil =>
    intro it _ h _
    simp only [TItem.at?, Option.some.injEq] at h; subst h
    simp [Js.at?, hc]
  | cons k ks ih =>
    intro it hw h hp
    cases hw with
    | @mk p vs cs hnd hcs =>
    have hvs : Through t vs := by
      have := hp [] (k :: ks) rfl (by simp)
      simpa [vAt_nil, TItem.versions] using this
    simp only [TItem.at?, TItem.children] at h
    cases hg : mget cs k with
    | none => simp [hg] at h
    | some c' =>
      rw [hg] at h
      simp only [Option.bind_some] at h
      have hrec := ih c' (hcs _ (mget_mem hg)) h (by
        intro ks₁ ks₂ e hne
        have := hp (k :: ks₁) ks₂ (by simp [e]) hne
        rw [vAt_cons] at this
        simpa [TItem.children, hg] using this)
      have hnn : c'.snap t ≠ .null := by
        intro hn; rw [hn] at hrec; exact hj (at_null hrec)
      have hm := mget_tSnapF (t := t) hg hnn
      have hce : cs.isEmpty = false := by
        cases cs with
        | nil => simp at hg
        | cons _ _ => rfl
      rcases hvs with rfl | ⟨m, hpick⟩
      · have hne : (tSnapF t cs).isEmpty = false := by
          cases hl : tSnapF t cs with
          | nil => rw [hl] at hm; simp at hm
          | cons _ _ => rfl
        rw [TItem.snap]
        simp [hce, pickVersion, hne, Js.at?, hm, hrec]
      · have hm' := mget_foldl_mset_mem ((mkeys_tSnapF t cs).nodup hnd) hm m
        rw [TItem.snap]
        simp [hce, hpick, Js.at?, hm', hrec]

/-- What is shown below an item comes from a version recorded on the way. -/
theorem snap_only {t : Int} {j : Js} (hj : j ≠ .null) (ho : ∀ m, j ≠ .obj m) : ∀ (ks : List Bytes) (it : TItem),
    it.Wf → (it.snap t).at? ks = some j →
    ∃ ks₁ ks₂ w, ks = ks₁ ++ ks₂ ∧ pickVersion t none (it.vAt ks₁) = some w ∧ w.at? ks₂ = some j := by
  intro ks
  induction ks with
  | nil =>
    intro it hw h
    cases hw with
    | @mk p vs cs hnd hcs =>
    simp only [Js.at?, Option.some.injEq] at h
    refine ⟨[], [], j, rfl, ?_, rfl⟩
    rw [vAt_nil, TItem.versions]
    rw [TItem.snap] at h
    by_cases he : (cs.isEmpty && vs.isEmpty) = true
    · rw [if_pos he] at h; exact absurd h.symm hj
    · rw [if_neg he] at h
      cases hp : pickVersion t none vs with
      | none =>
        rw [hp] at h
        simp only at h
        split at h
        · exact absurd h.symm hj
        · exact absurd h.symm (ho _)
      | some d =>
        rw [hp] at h
        cases d with
        | obj m => exact absurd h.symm (ho _)
        | _ => simpa using h
  | cons k ks ih =>
    intro it hw h
    cases hw with
    | @mk p vs cs hnd hcs =>
    have child : ∀ c, mget (tSnapF t cs) k = some c → c.at? ks = some j →
        ∃ ks₁ ks₂ w, k :: ks = ks₁ ++ ks₂ ∧ pickVersion t none ((TItem.mk p vs cs).vAt ks₁) = some w ∧
          w.at? ks₂ = some j := by
      intro c hc hj'
      obtain ⟨it', hg, rfl⟩ := mget_tSnapF_some hnd hc
      obtain ⟨ks₁, ks₂, w, e, h1, h2⟩ := ih it' (hcs _ (mget_mem hg)) hj'
      exact ⟨k :: ks₁, ks₂, w, by simp [e], by rw [vAt_cons]; simpa [TItem.children, hg] using h1, h2⟩
    rw [TItem.snap] at h
    by_cases he : (cs.isEmpty && vs.isEmpty) = true
    · rw [if_pos he] at h; simp [Js.at?] at h
    · rw [if_neg he] at h
      cases hp : pickVersion t none vs with
      | none =>
        rw [hp] at h
        simp only at h
        split at h
        · simp [Js.at?] at h
        · simp only [Js.at?] at h
          cases hg : mget (tSnapF t cs) k with
          | none => rw [hg] at h; simp at h
          | some c => rw [hg] at h; exact child c hg h
      | some d =>
        rw [hp] at h
        have top : ∀ d, pickVersion t none vs = some d → d.at? (k :: ks) = some j →
            ∃ ks₁ ks₂ w, k :: ks = ks₁ ++ ks₂ ∧ pickVersion t none ((TItem.mk p vs cs).vAt ks₁) = some w ∧
              w.at? ks₂ = some j :=
          fun d h1 h2 => ⟨[], k :: ks, d, rfl, by rw [vAt_nil]; exact h1, h2⟩
        cases d with
        | obj m =>
          simp only [Js.at?] at h
          cases hg : mget (tSnapF t cs) k with
          | none => rw [mget_foldl_mset hg] at h; exact top _ hp (by simpa [Js.at?] using h)
          | some c =>
            rw [mget_foldl_mset_mem ((mkeys_tSnapF t cs).nodup hnd) hg] at h
            exact child c hg h
        | _ => exact top _ hp h

/-- The version shown at a time: the first one covering it, otherwise the last one. -/
theorem pickVersion_spec (t : Int) : ∀ (vs : List TVersion) (last : Option Js),
    pickVersion t last vs =
      match vs.find? (fun v => decide (Covers v t)) with
      | some v => some v.data
      | none => match vs.getLast? with
        | some v => some v.data
        | none => last := by
  intro vs
  induction vs with
  | nil => intro last; rfl
  | cons v vs ih =>
    intro last
    rw [pickVersion]
    by_cases h : inPeriod t v.period = true
    · have : decide (Covers v t) = true := h
      simp [h, this]
    · have : decide (Covers v t) = false := Bool.eq_false_iff.2 h
      rw [if_neg h, ih, List.find?_cons, this]
      simp only
      cases vs.find? (fun v => decide (Covers v t)) with
      | some w => rfl
      | none =>
        cases vs with
        | nil => rfl
        | cons a l =>
          rw [List.getLast?_cons_cons]
          simp [List.getLast?_cons]

theorem snap_leaf {t : Int} {it : TItem} {d : Js} (h : pickVersion t none it.versions = some d)
    (hd : ∀ m, d ≠ .obj m) : it.snap t = d := by
  obtain ⟨p, vs, cs⟩ := it
  simp only [TItem.versions] at h
  have hv : vs.isEmpty = false := by
    cases vs with
    | nil => simp [pickVersion] at h
    | cons _ _ => rfl
  rw [TItem.snap]
  simp only [hv, Bool.and_false, h]
  cases d with
  | obj m => exact absurd rfl (hd m)
  | _ => rfl

theorem snap_obj {t : Int} {it : TItem} {m : List (Bytes × Js)} (h : pickVersion t none it.versions = some (.obj m)) :
    it.snap t = .obj ((tSnapF t it.children).foldl (fun m e => mset m e.1 e.2) m) := by
  obtain ⟨p, vs, cs⟩ := it
  simp only [TItem.versions] at h
  have hv : vs.isEmpty = false := by
    cases vs with
    | nil => simp [pickVersion] at h
    | cons _ _ => rfl
  rw [TItem.snap]
  simp [hv, h, TItem.children]

/-- `TemporalSnapshot` at a path whose ancestors have no versions of their own, or show objects. -/
theorem tSnapshot_at {d : TDoc} (hw : d.Wf) {t : Int} {ks : List Bytes} {it : TItem} (hi : tItemAt d ks = some it)
    (hp : ∀ ks₁ ks₂, ks = ks₁ ++ ks₂ → ks₁ ≠ [] → ks₂ ≠ [] → Through t (versionsAt d ks₁)) (hn : it.snap t ≠ .null) :
    (tSnapshot d t).at? ks = some (it.snap t) := by
  cases ks with
  | nil => simp [tItemAt] at hi
  | cons k ks =>
    simp only [tItemAt] at hi
    cases hg : mget d k with
    | none => simp [hg] at hi
    | some c =>
      rw [hg] at hi
      simp only [Option.bind_some] at hi
      have hrec := snap_at hn rfl ks c (hw.2 _ (mget_mem hg)) hi (by
        intro ks₁ ks₂ e hne
        have := hp (k :: ks₁) ks₂ (by simp [e]) (by simp) hne
        rw [versionsAt_cons] at this
        simpa [hg] using this)
      have hnn : c.snap t ≠ .null := by
        intro h0; rw [h0] at hrec; exact hn (at_null hrec)
      simp [tSnapshot, Js.at?, mget_tSnapF hg hnn, hrec]

/-- What a snapshot shows comes from a version recorded on the way. -/
theorem tSnapshot_only {d : TDoc} (hw : d.Wf) {t : Int} {j : Js} (hj : j ≠ .null) (ho : ∀ m, j ≠ .obj m) {ks : List Bytes}
    (h : (tSnapshot d t).at? ks = some j) :
    ∃ ks₁ ks₂ w, ks = ks₁ ++ ks₂ ∧ pickVersion t none (versionsAt d ks₁) = some w ∧ w.at? ks₂ = some j := by
  cases ks with
  | nil => simp only [tSnapshot, Js.at?, Option.some.injEq] at h; exact absurd h.symm (ho _)
  | cons k ks =>
    simp only [tSnapshot, Js.at?] at h
    cases hg : mget (tSnapF t d) k with
    | none => rw [hg] at h; simp at h
    | some c =>
      rw [hg] at h
      obtain ⟨it, hit, rfl⟩ := mget_tSnapF_some hw.1 hg
      obtain ⟨ks₁, ks₂, w, e, h1, h2⟩ := snap_only hj ho ks it (hw.2 _ (mget_mem hit)) h
      exact ⟨k :: ks₁, ks₂, w, by simp [e], by rw [versionsAt_cons, hit]; exact h1, h2⟩

/-! ### Ancestors of a converted path -/

theorem versionsAt_single_close (now : Int) (k : Bytes) (m : List (Bytes × (Js × Int))) : ∀ d : TDoc,
    versionsAt (m.foldl (tClose now) d) [k] = versionsAt d [k] := by
  induction m with
  | nil => intro d; rfl
  | cons e m ih => intro d; rw [List.foldl_cons, ih]; simp [tClose, versionsAt_addItem]

theorem versionsAt_single_step (k : Bytes) (st : TDoc × List (Bytes × (Js × Int))) (p : TPatch) :
    versionsAt (tStep st p).1 [k] = versionsAt st.1 [k] := by
  simp only [tStep]
  split
  · split
    · rfl
    · split
      · rfl
      · simp [versionsAt_addItem]
  · split
    · split
      · rfl
      · simp [versionsAt_addItem]
    · rfl

theorem versionsAt_single (o : TOracle) (now : Int) (ps : List TPatch) (k : Bytes) :
    versionsAt (fromPatches o now ps) [k] = [] := by
  simp only [fromPatches]
  rw [versionsAt_single_close]
  have : ∀ (l : List TPatch) (st : TDoc × List (Bytes × (Js × Int))),
      versionsAt (l.foldl tStep st).1 [k] = versionsAt st.1 [k] := by
    intro l
    induction l with
    | nil => intro st; rfl
    | cons p l ih => intro st; rw [List.foldl_cons, ih, versionsAt_single_step]
  rw [this]; exact versionsAt_empty _

theorem perStep_off {q : Bytes} : ∀ (l : List TPatch), (∀ p ∈ l, tPath p.path ≠ q) → ∀ x, l.foldl (perStep q) x = x := by
  intro l
  induction l with
  | nil => intro _ x; rfl
  | cons p l ih =>
    intro h x
    rw [List.foldl_cons]
    have : perStep q x p = x := by simp [perStep, h p (by simp)]
    rw [this]; exact ih (fun p' hp' => h p' (by simp [hp'])) x

theorem versionsAt_off (o : TOracle) (now : Int) {ps : List TPatch} {ks : List Bytes} (hks : ∀ k ∈ ks, bDot ∉ k)
    (h : ∀ p ∈ ps, tPath p.path ≠ joinWith bDot ks) : versionsAt (fromPatches o now ps) ks = [] := by
  match ks, hks, h with
  | [], _, _ => rfl
  | [k], _, _ => exact versionsAt_single o now ps k
  | k :: k2 :: ks, hks, h =>
    have hs := split_joinWith bDot (k :: k2 :: ks) (by simp) hks
    have := versionsAt_fromPatches o now ps (q := joinWith bDot (k :: k2 :: ks)) (by rw [hs]; simp)
    rw [hs] at this
    rw [this, perStep_off _ (fun p hp => h p ((o.sortPatches_perm ps).mem_iff.1 hp))]
    rfl

theorem joinWith_append (sep : UInt8) : ∀ (a b : List Bytes), a ≠ [] → b ≠ [] →
    joinWith sep (a ++ b) = joinWith sep a ++ sep :: joinWith sep b := by
  intro a
  induction a with
  | nil => intro b h; exact absurd rfl h
  | cons x a ih =>
    intro b _ hb
    cases a with
    | nil =>
      cases b with
      | nil => exact absurd rfl hb
      | cons y b => simp [joinWith]
    | cons y a =>
      have := ih b (by simp) hb
      simp only [List.cons_append, joinWith] at this ⊢
      rw [this]; simp

end Verif
