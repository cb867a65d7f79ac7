import Verif.SpecArrays
import Verif.PropsDiffOps
import Verif.JsonOrder
/-
Property C70: patches for arrays of different lengths.
-/
namespace Verif

/-! ### Equality -/

theorem EqPrim.symm {p q : Prim} (h : EqPrim p q) : EqPrim q p := by
  cases h with
  | str s => exact .str s
  | num a b h => exact .num b a (by rw [F64.feq_symm]; exact h)
  | bool b => exact .bool b

theorem EqPrim.trans {p q r : Prim} (h : EqPrim p q) (h' : EqPrim q r) : EqPrim p r := by
  cases h with
  | str s => exact h'
  | num a b h => cases h' with | num _ c h' => exact .num a c (F64.feq_trans h h')
  | bool b => exact h'

theorem EqDoc.symm {wt : Bool} {a b : Tson} (h : EqDoc wt a b) : EqDoc wt b a := by
  induction h with
  | null => exact .null
  | leaf p q t u h ht => exact .leaf q p u t h.symm fun e => (ht e).symm
  | obj m n hk _ ih => exact .obj n m (fun k => (hk k).symm) fun k v w hv hw => ih k w v hw hv
  | arr l k hl _ ih => exact .arr k l hl.symm fun i v w hv hw => ih i w v hw hv

theorem EqDoc.trans {wt : Bool} {a b c : Tson} (h : EqDoc wt a b) (h' : EqDoc wt b c) : EqDoc wt a c := by
  induction h generalizing c with
  | null => exact h'
  | leaf p q t u h ht =>
    cases h' with
    | leaf _ r _ s h' ht' => exact .leaf p r t s (h.trans h') fun e => (ht e).trans (ht' e)
  | obj m n hk _ ih =>
    cases h' with
    | obj _ n' hk' h' =>
      refine .obj m n' (fun k => (hk k).trans (hk' k)) fun k v w hv hw => ?_
      cases hx : mget n k with
      | none => have := hk k; rw [hv, hx] at this; cases this
      | some x => exact ih k v x hv hx (h' k x w hx hw)
  | arr l k hl _ ih =>
    cases h' with
    | arr _ k' hl' h' =>
      refine .arr l k' (hl.trans hl') fun i v w hv hw => ?_
      cases hx : k[i]? with
      | none =>
        rw [List.getElem?_eq_none_iff] at hx
        have := (List.getElem?_eq_some_iff.1 hv).1
        omega
      | some x => exact ih i v x hv hx (h' i x w hx hw)

theorem matchWithF_iff (f : Prim → Int → Prim → Int → Bool) (n : List (Bytes × Tson)) (m : List (Bytes × Tson)) :
    matchWithF f m n = true ↔ ∀ p ∈ m, ∃ w, mget n p.1 = some w ∧ matchWith f p.2 w = true := by
  induction m with
  | nil => simp [matchWithF]
  | cons p m ih =>
    obtain ⟨k, v⟩ := p
    simp only [matchWithF, Bool.and_eq_true, ih, List.forall_mem_cons]
    cases mget n k <;> simp

theorem matchWithL_iff (f : Prim → Int → Prim → Int → Bool) (l : List Tson) : ∀ k : List Tson,
    matchWithL f l k = true ↔ l.length = k.length ∧ ∀ (i : Nat) v w, l[i]? = some v → k[i]? = some w → matchWith f v w = true := by
  induction l with
  | nil => intro k; cases k <;> simp [matchWithL]
  | cons v l ih =>
    intro k
    cases k with
    | nil => simp [matchWithL]
    | cons w k =>
      simp only [matchWithL, Bool.and_eq_true, ih, List.length_cons, Nat.add_right_cancel_iff]
      constructor
      · rintro ⟨h, hl, hr⟩
        refine ⟨hl, fun i a b ha hb => ?_⟩
        cases i with
        | zero => simp only [List.getElem?_cons_zero, Option.some.injEq] at ha hb; subst ha; subst hb; exact h
        | succ i => exact hr i a b (by simpa using ha) (by simpa using hb)
      · rintro ⟨hl, hr⟩
        exact ⟨hr 0 v w rfl rfl, hl, fun i a b ha hb => hr (i + 1) a b (by simpa using ha) (by simpa using hb)⟩

theorem matchWith_iff {f : Prim → Int → Prim → Int → Bool} {R : Prim → Int → Prim → Int → Prop}
    (hf : ∀ p t q u, f p t q u = true ↔ R p t q u) (a : Tson) :
    ∀ b : Tson, a.Wf → (matchWith f a b = true ↔ LeafwiseMatch R a b) := by
  induction a using Tson.induction with
  | null =>
    intro b _
    constructor
    · intro h; simp [matchWith] at h
    · intro h; cases h
  | leaf p t =>
    intro b _
    constructor
    · intro h
      cases b <;> simp only [matchWith, Bool.false_eq_true] at h
      exact .leaf _ _ _ _ ((hf _ _ _ _).1 h)
    · intro h; cases h with | leaf _ q _ u h => exact (hf _ _ _ _).2 h
  | obj m ih =>
    intro b ha
    obtain ⟨hn, hw⟩ := ha
    rw [Tson.wfF_iff] at hw
    constructor
    · intro h
      cases b <;> simp only [matchWith, Bool.false_eq_true] at h
      rename_i n
      rw [Bool.and_eq_true, matchWithF_iff, List.all_eq_true] at h
      obtain ⟨h, h'⟩ := h
      refine .obj m n (fun k => ?_) fun k v w hv hw' => ?_
      · cases hm : mget m k with
        | some v =>
          obtain ⟨w, e, -⟩ := h _ (mget_mem hm)
          simp only at e
          rw [e]; rfl
        | none =>
          cases hx : mget n k with
          | none => rfl
          | some w =>
            have := h' _ (mget_mem hx)
            simp only at this
            rw [hm] at this; cases this
      · obtain ⟨w', e, h⟩ := h _ (mget_mem hv)
        simp only at e h
        rw [e] at hw'; cases hw'
        exact (ih _ (mget_mem hv) _ (hw _ (mget_mem hv))).1 h
    · intro h
      cases h with
      | obj _ n hk h =>
        simp only [matchWith]
        rw [Bool.and_eq_true, matchWithF_iff, List.all_eq_true]
        constructor
        · intro p hp
          have hv := mem_mget hn (show (p.1, p.2) ∈ m from hp)
          have := hk p.1
          rw [hv] at this
          obtain ⟨w, e⟩ := Option.isSome_iff_exists.1 this.symm
          exact ⟨w, e, (ih p hp w (hw p hp)).2 (h _ _ _ hv e)⟩
        · intro q hq
          rw [hk]
          obtain ⟨w, e⟩ := mget_isSome.2 (List.mem_map.2 ⟨q, hq, rfl⟩ : q.1 ∈ mkeys n)
          rw [e]; rfl
  | arr l ih =>
    intro b ha
    have ha := (Tson.wfL_iff l).1 ha
    constructor
    · intro h
      cases b <;> simp only [matchWith, Bool.false_eq_true] at h
      rename_i k
      rw [matchWithL_iff] at h
      exact .arr l k h.1 fun i v w hv hw =>
        (ih v (List.mem_of_getElem? hv) w (ha v (List.mem_of_getElem? hv))).1 (h.2 i v w hv hw)
    · intro h
      cases h with
      | arr _ k hl h =>
        simp only [matchWith]
        rw [matchWithL_iff]
        exact ⟨hl, fun i v w hv hw =>
          (ih v (List.mem_of_getElem? hv) w (ha v (List.mem_of_getElem? hv))).2 (h i v w hv hw)⟩

theorem deepEqF_iff (n : List (Bytes × Tson)) (m : List (Bytes × Tson)) :
    deepEqF m n = true ↔ ∀ p ∈ m, ∃ w, mget n p.1 = some w ∧ deepEq p.2 w = true := by
  induction m with
  | nil => simp [deepEqF]
  | cons p m ih =>
    obtain ⟨k, v⟩ := p
    simp only [deepEqF, Bool.and_eq_true, ih, List.forall_mem_cons]
    cases mget n k <;> simp

theorem deepEqL_iff (l : List Tson) : ∀ k : List Tson,
    deepEqL l k = true ↔ l.length = k.length ∧ ∀ (i : Nat) v w, l[i]? = some v → k[i]? = some w → deepEq v w = true := by
  induction l with
  | nil => intro k; cases k <;> simp [deepEqL]
  | cons v l ih =>
    intro k
    cases k with
    | nil => simp [deepEqL]
    | cons w k =>
      simp only [deepEqL, Bool.and_eq_true, ih, List.length_cons, Nat.add_right_cancel_iff]
      constructor
      · rintro ⟨h, hl, hr⟩
        refine ⟨hl, fun i a b ha hb => ?_⟩
        cases i with
        | zero => simp only [List.getElem?_cons_zero, Option.some.injEq] at ha hb; subst ha; subst hb; exact h
        | succ i => exact hr i a b (by simpa using ha) (by simpa using hb)
      · rintro ⟨hl, hr⟩
        exact ⟨hr 0 v w rfl rfl, hl, fun i a b ha hb => hr (i + 1) a b (by simpa using ha) (by simpa using hb)⟩

theorem deepEq_iff (a : Tson) : ∀ b : Tson, a.Wf → b.Wf → (deepEq a b = true ↔ EqDoc true a b) := by
  induction a using Tson.induction with
  | null =>
    intro b _ _
    constructor
    · intro h; cases b <;> simp only [deepEq, Bool.false_eq_true] at h; exact .null
    · intro h; cases h; rfl
  | leaf p t =>
    intro b _ _
    constructor
    · intro h
      cases b <;> simp only [deepEq, Bool.false_eq_true] at h
      rw [Bool.and_eq_true, goEq_iff, decide_eq_true_eq] at h
      exact .leaf _ _ _ _ h.1 fun _ => h.2
    · intro h
      cases h with
      | leaf _ q _ u h ht =>
        simp only [deepEq]
        rw [Bool.and_eq_true, goEq_iff, decide_eq_true_eq]
        exact ⟨h, ht rfl⟩
  | obj m ih =>
    intro b ha hb
    obtain ⟨hn, hw⟩ := ha
    rw [Tson.wfF_iff] at hw
    constructor
    · intro h
      cases b <;> simp only [deepEq, Bool.false_eq_true] at h
      rename_i n
      obtain ⟨hn', hw'⟩ := hb
      rw [Tson.wfF_iff] at hw'
      rw [Bool.and_eq_true, deepEqF_iff, decide_eq_true_eq] at h
      obtain ⟨hl, h⟩ := h
      have hk := partner_keys (R := fun v w => deepEq v w = true) hn hl h
      refine .obj m n (fun k => ?_) fun k v w hv hx => ?_
      · rw [Bool.eq_iff_iff, Option.isSome_iff_exists, Option.isSome_iff_exists, mget_isSome, mget_isSome]
        exact hk.mem_iff
      · obtain ⟨w', e, h⟩ := h _ (mget_mem hv)
        simp only at e h
        rw [e] at hx; cases hx
        exact (ih _ (mget_mem hv) _ (hw _ (mget_mem hv)) (hw' _ (mget_mem e))).1 h
    · intro h
      cases h with
      | obj _ n hk h =>
        obtain ⟨hn', hw'⟩ := hb
        rw [Tson.wfF_iff] at hw'
        simp only [deepEq]
        rw [Bool.and_eq_true, deepEqF_iff, decide_eq_true_eq]
        constructor
        · have : (mkeys m).Perm (mkeys n) := by
            rw [List.perm_ext_iff_of_nodup hn hn']
            intro k
            have := hk k
            rw [Bool.eq_iff_iff, Option.isSome_iff_exists, Option.isSome_iff_exists, mget_isSome, mget_isSome] at this
            exact this
          simpa [mkeys] using this.length_eq
        · intro p hp
          have hv := mem_mget hn (show (p.1, p.2) ∈ m from hp)
          have := hk p.1
          rw [hv] at this
          obtain ⟨w, e⟩ := Option.isSome_iff_exists.1 this.symm
          exact ⟨w, e, (ih p hp w (hw p hp) (hw' _ (mget_mem e))).2 (h _ _ _ hv e)⟩
  | arr l ih =>
    intro b ha hb
    have ha := (Tson.wfL_iff l).1 ha
    constructor
    · intro h
      cases b <;> simp only [deepEq, Bool.false_eq_true] at h
      rename_i k
      have hb := (Tson.wfL_iff k).1 hb
      rw [deepEqL_iff] at h
      exact .arr l k h.1 fun i v w hv hw => (ih v (List.mem_of_getElem? hv) w (ha v (List.mem_of_getElem? hv))
        (hb w (List.mem_of_getElem? hw))).1 (h.2 i v w hv hw)
    · intro h
      cases h with
      | arr _ k hl h =>
        have hb := (Tson.wfL_iff k).1 hb
        simp only [deepEq]
        rw [deepEqL_iff]
        exact ⟨hl, fun i v w hv hw => (ih v (List.mem_of_getElem? hv) w (ha v (List.mem_of_getElem? hv))
          (hb w (List.mem_of_getElem? hw))).2 (h i v w hv hw)⟩

/-! ### Unmatched elements -/

/-- The elements whose indices, counted from `j`, are not used. -/
def restOf (used : List Nat) (j : Nat) : List Tson → List Tson
  | [] => []
  | w :: mod => if j ∈ used then restOf used (j + 1) mod else w :: restOf used (j + 1) mod

theorem restOf_sub (used : List Nat) (mod : List Tson) : ∀ j, ∀ w ∈ restOf used j mod, w ∈ mod := by
  induction mod with
  | nil => simp [restOf]
  | cons x mod ih =>
    intro j w hw
    simp only [restOf] at hw
    split at hw
    · exact List.mem_cons_of_mem _ (ih _ _ hw)
    · rcases List.mem_cons.1 hw with rfl | hw
      · exact List.mem_cons_self
      · exact List.mem_cons_of_mem _ (ih _ _ hw)

theorem restOf_nil (mod : List Tson) : ∀ j, restOf [] j mod = mod := by
  induction mod with
  | nil => intro j; rfl
  | cons x mod ih => intro j; simp [restOf, ih]

theorem restOf_lt {r : Nat} {used : List Nat} (mod : List Tson) : ∀ j, r < j → restOf (r :: used) j mod = restOf used j mod := by
  induction mod with
  | nil => intro j _; rfl
  | cons x mod ih =>
    intro j hj
    have : j ≠ r := by omega
    simp only [restOf, List.mem_cons, this, false_or, ih (j + 1) (by omega)]

theorem findUnused_none {v : Tson} {used : List Nat} (mod : List Tson) : ∀ j, findUnused v used j mod = none →
    ∀ w ∈ restOf used j mod, deepEq v w = false := by
  induction mod with
  | nil => simp [restOf]
  | cons x mod ih =>
    intro j h w hw
    simp only [findUnused] at h
    simp only [restOf] at hw
    by_cases hj : j ∈ used
    · rw [if_pos hj] at h hw; exact ih _ h _ hw
    · rw [if_neg hj] at h hw
      by_cases he : deepEq v x = true
      · rw [if_pos he] at h; cases h
      · rw [if_neg he] at h
        rcases List.mem_cons.1 hw with rfl | hw
        · simpa using he
        · exact ih _ h _ hw

theorem findUnused_some {v : Tson} {used : List Nat} {r : Nat} (mod : List Tson) : ∀ j, findUnused v used j mod = some r →
    j ≤ r ∧ ∃ w ∈ mod, deepEq v w = true ∧
      ∀ P : Tson → Bool, (restOf used j mod).countP P = (restOf (r :: used) j mod).countP P + if P w then 1 else 0 := by
  induction mod with
  | nil => intro j h; cases h
  | cons x mod ih =>
    intro j h
    simp only [findUnused] at h
    by_cases hj : j ∈ used
    · rw [if_pos hj] at h
      obtain ⟨h1, w, hm, h2, h3⟩ := ih _ h
      refine ⟨by omega, w, List.mem_cons_of_mem _ hm, h2, fun P => ?_⟩
      simp only [restOf, hj, if_true, List.mem_cons, or_true]
      exact h3 P
    · rw [if_neg hj] at h
      by_cases he : deepEq v x = true
      · rw [if_pos he] at h
        cases h
        refine ⟨Nat.le_refl _, x, List.mem_cons_self, he, fun P => ?_⟩
        simp only [restOf, hj, if_false, List.mem_cons, true_or, if_true, List.countP_cons]
        rw [restOf_lt mod _ (by omega)]
      · rw [if_neg he] at h
        obtain ⟨h1, w, hm, h2, h3⟩ := ih _ h
        refine ⟨by omega, w, List.mem_cons_of_mem _ hm, h2, fun P => ?_⟩
        have : ¬ j = r := by omega
        simp only [restOf, hj, if_false, List.mem_cons, this, false_or, List.countP_cons]
        rw [h3 P]
        omega

open Classical in
theorem copies_eq {v : Tson} {l : List Tson} (hv : v.Wf) (hl : ∀ w ∈ l, w.Wf) : copies v l = l.countP (deepEq v) := by
  unfold copies
  apply List.countP_congr
  intro w hw
  rw [decide_eq_true_eq, deepEq_iff v w hv (hl w hw)]

theorem copies_append (v : Tson) (l k : List Tson) : copies v (l ++ k) = copies v l + copies v k := by
  simp [copies]

open Classical in
theorem copies_single (v w : Tson) : copies v [w] = if EqDoc true v w then 1 else 0 := by
  simp [copies, List.countP_cons]

theorem copies_zero {v : Tson} {l : List Tson} : copies v l = 0 ↔ ∀ w ∈ l, ¬ EqDoc true v w := by
  unfold copies
  rw [List.countP_eq_zero]
  simp

theorem processLoop_iff (mod : List Tson) (hm : ∀ w ∈ mod, w.Wf) (l : List Tson) :
    ∀ (used : List Nat) (pre : List Tson), (∀ v ∈ l, v.Wf) →
      (∀ v, v.Wf → copies v (restOf used 0 mod) = copies v mod - copies v pre) →
      ∀ i v, (i, v) ∈ processLoop mod used pre.length l ↔ pre.length ≤ i ∧ (pre ++ l)[i]? = some v ∧
        copies v mod ≤ copies v ((pre ++ l).take i) := by
  induction l with
  | nil =>
    intro used pre _ _ i v
    simp only [processLoop, List.not_mem_nil, List.append_nil, false_iff]
    rintro ⟨h, h', -⟩
    have := (List.getElem?_eq_some_iff.1 h').1
    omega
  | cons x l ih =>
    intro used pre hl hinv i v
    rw [List.forall_mem_cons] at hl
    have hr : ∀ u, ∀ w ∈ restOf u 0 mod, w.Wf := fun u w hw => hm w (restOf_sub u mod 0 w hw)
    have hsplit : ∀ used', (∀ v, v.Wf → copies v (restOf used' 0 mod) = copies v mod - copies v (pre ++ [x])) →
        ((i, v) ∈ processLoop mod used' (pre.length + 1) l ↔ pre.length + 1 ≤ i ∧ (pre ++ x :: l)[i]? = some v ∧
          copies v mod ≤ copies v ((pre ++ x :: l).take i)) := by
      intro used' h'
      have := ih used' (pre ++ [x]) hl.2 h' i v
      simpa using this
    have hcur : (pre ++ x :: l)[pre.length]? = some x := by simp
    have htake : (pre ++ x :: l).take pre.length = pre := by simp
    simp only [processLoop]
    cases hf : findUnused x used 0 mod with
    | some r =>
      simp only
      obtain ⟨-, w, hwm, he, hc⟩ := findUnused_some mod 0 hf
      rw [deepEq_iff x w hl.1 (hm w hwm)] at he
      have hpos : copies x (restOf used 0 mod) ≠ 0 := by
        rw [copies_eq hl.1 (hr used), hc, if_pos]
        · omega
        · exact (deepEq_iff x w hl.1 (hm w hwm)).2 he
      have hx := hinv x hl.1
      rw [hsplit (r :: used)]
      · constructor
        · rintro ⟨h1, h2⟩; exact ⟨by omega, h2⟩
        · rintro ⟨h1, h2, h3⟩
          refine ⟨?_, h2, h3⟩
          by_cases hi : i = pre.length
          · subst hi
            rw [hcur] at h2; cases h2
            rw [htake] at h3
            omega
          · omega
      · intro v hv
        have h1 := hinv v hv
        rw [copies_eq hv (hr used), hc, ← copies_eq hv (hr _)] at h1
        rw [copies_append, copies_single]
        by_cases hvx : EqDoc true v x
        · rw [if_pos ((deepEq_iff v w hv (hm w hwm)).2 (hvx.trans he))] at h1
          rw [if_pos hvx]; omega
        · have : ¬ deepEq v w = true := fun h =>
            hvx (((deepEq_iff v w hv (hm w hwm)).1 h).trans he.symm)
          rw [if_neg this] at h1
          rw [if_neg hvx]; omega
    | none =>
      simp only
      have hz := findUnused_none mod 0 hf
      have hx := hinv x hl.1
      have hx0 : copies x (restOf used 0 mod) = 0 := by
        rw [copies_zero]
        intro w hw h
        have := hz w hw
        rw [(deepEq_iff x w hl.1 (hr used w hw)).2 h] at this
        cases this
      rw [List.mem_cons, hsplit used]
      · constructor
        · rintro (h | ⟨h1, h2⟩)
          · cases h
            refine ⟨Nat.le_refl _, hcur, ?_⟩
            rw [htake]; omega
          · exact ⟨by omega, h2⟩
        · rintro ⟨h1, h2, h3⟩
          by_cases hi : i = pre.length
          · subst hi
            rw [hcur] at h2; cases h2
            exact .inl rfl
          · exact .inr ⟨by omega, h2, h3⟩
      · intro v hv
        have h1 := hinv v hv
        rw [copies_append, copies_single]
        by_cases hvx : EqDoc true v x
        · rw [if_pos hvx]
          have : copies v (restOf used 0 mod) = 0 := by
            rw [copies_zero] at hx0 ⊢
            exact fun w hw h => hx0 w hw (hvx.symm.trans h)
          omega
        · rw [if_neg hvx]; omega

theorem processLoop_ordered (mod : List Tson) (l : List Tson) : ∀ (used : List Nat) (i : Nat),
    (∀ p ∈ processLoop mod used i l, i ≤ p.1) ∧ ((processLoop mod used i l).map (·.1)).Pairwise (· < ·) := by
  induction l with
  | nil => intro used i; simp [processLoop]
  | cons x l ih =>
    intro used i
    simp only [processLoop]
    split
    · obtain ⟨h1, h2⟩ := ih (‹Nat› :: used) (i + 1)
      exact ⟨fun p hp => by have := h1 p hp; omega, h2⟩
    · obtain ⟨h1, h2⟩ := ih used (i + 1)
      constructor
      · intro p hp
        rcases List.mem_cons.1 hp with rfl | hp
        · exact Nat.le_refl _
        · have := h1 p hp; omega
      · rw [List.map_cons, List.pairwise_cons]
        refine ⟨fun j hj => ?_, h2⟩
        obtain ⟨p, hp, rfl⟩ := List.mem_map.1 hj
        have := h1 p hp
        simp only; omega

theorem processArray_iff {l k : List Tson} (hl : ∀ v ∈ l, v.Wf) (hk : ∀ v ∈ k, v.Wf) (i : Nat) (v : Tson) :
    (i, v) ∈ processArray l k ↔ Unmatched l k i v := by
  have := processLoop_iff k hk l [] [] hl (by intro v _; simp [restOf_nil, copies]) i v
  simpa [processArray, Unmatched] using this

/-! ### The operations -/

theorem addElems_ok {path : Bytes} (hp : GoodPath path) {k : List Tson} (r : List (Nat × Tson)) : ∀ {ops : List Op},
    (∀ p ∈ r, k[p.1]? = some p.2) → addElems path r = .ok ops → ElemWrites path k (fun _ => .add) (r.map (·.1)) ops := by
  induction r with
  | nil => intro ops _ h; simp only [addElems] at h; cases h; exact ⟨rfl, by simp⟩
  | cons p r ih =>
    obtain ⟨i, v⟩ := p
    intro ops hr h
    rw [List.forall_mem_cons] at hr
    cases v with
    | leaf q ts =>
      simp only [addElems, leafOp] at h
      cases ha : addElems path r with
      | ok ops' =>
        rw [ha] at h
        simp only [Res.map] at h
        cases h
        obtain ⟨h1, h2⟩ := ih hr.2 ha
        refine ⟨by simpa using h1, fun n j o hj ho => ?_⟩
        cases n with
        | zero =>
          simp only [List.map_cons, List.getElem?_cons_zero, Option.some.injEq] at hj ho
          subst hj; subst ho
          exact ⟨(makePath_eq hp (natDigits_key _)).1, rfl, q, hr.1, goValue_toGo q⟩
        | succ n => exact h2 n j o (by simpa using hj) (by simpa using ho)
      | err => rw [ha] at h; cases h
      | panic => rw [ha] at h; cases h
    | _ => simp only [addElems, leafOp] at h; cases h

theorem addElems_cases {path : Bytes} (r : List (Nat × Tson)) :
    ((∀ p ∈ r, IsLeaf p.2) → ∃ ops, addElems path r = .ok ops) ∧
    ((∃ p ∈ r, ¬ IsLeaf p.2) → addElems path r = .panic) := by
  induction r with
  | nil => simp [addElems]
  | cons p r ih =>
    obtain ⟨i, v⟩ := p
    cases v with
    | leaf q ts =>
      simp only [addElems, leafOp]
      constructor
      · intro h
        rw [List.forall_mem_cons] at h
        obtain ⟨ops, e⟩ := ih.1 h.2
        rw [e]; exact ⟨_, rfl⟩
      · rintro ⟨p, hp, h⟩
        rcases List.mem_cons.1 hp with rfl | hp
        · exact absurd ⟨q, ts, rfl⟩ h
        · rw [ih.2 ⟨p, hp, h⟩]; rfl
    | _ =>
      simp only [addElems, leafOp]
      refine ⟨fun h => ?_, fun _ => trivial⟩
      obtain ⟨_, _, e⟩ := h _ List.mem_cons_self
      cases e

theorem matches_leaf {v : Tson} {q : Prim} {u : Int} (hv : v.Wf) :
    (matchesValue v (.leaf q u) && matchTimestamp v (.leaf q u)) = true ↔ EqDoc true v (.leaf q u) := by
  rw [Bool.and_eq_true]
  cases v with
  | leaf p t =>
    simp only [matchesValue, matchTimestamp, matchWith, Bool.and_eq_true, decide_eq_true_eq, goEq_iff]
    constructor
    · rintro ⟨h, -, h'⟩; exact .leaf _ _ _ _ h fun _ => h'
    · intro h; cases h with | leaf _ _ _ _ h h' => exact ⟨h, h.kind, h' rfl⟩
  | _ =>
    simp only [matchesValue, matchTimestamp, matchWith, Bool.false_eq_true, false_and, false_iff]
    intro h; cases h

/-- Writing an element before others. -/
theorem ElemWrites.cons {path : Bytes} {k : List Tson} {kind : Nat → OpKind} {js : List Nat} {ops : List Op}
    (h : ElemWrites path k kind js ops) (hp : GoodPath path) {i : Nat} {q : Prim} {ts : Int} (hi : k[i]? = some (.leaf q ts))
    {K : OpKind} (hK : K = kind i) : ElemWrites path k kind (i :: js) (⟨K, makePathIdx path i, q.toGo, ts⟩ :: ops) := by
  obtain ⟨h1, h2⟩ := h
  refine ⟨by simpa using h1, fun n j o hj ho => ?_⟩
  cases n with
  | zero =>
    simp only [List.getElem?_cons_zero, Option.some.injEq] at hj ho
    subst hj; subst ho
    exact ⟨(makePath_eq hp (natDigits_key _)).1, hK, q, hi, goValue_toGo q⟩
  | succ n => exact h2 n j o (by simpa using hj) (by simpa using ho)

theorem ordered_cons {i : Nat} {js : List Nat} (h : js.Pairwise (· < ·)) (h' : ∀ j ∈ js, i + 1 ≤ j) :
    (i :: js).Pairwise (· < ·) := by
  rw [List.pairwise_cons]
  exact ⟨fun j hj => by have := h' j hj; omega, h⟩

theorem drop_split {l r : List Tson} {i : Nat} {v : Tson} (h : l.drop i = v :: r) : l[i]? = some v ∧ l.drop (i + 1) = r := by
  constructor
  · have := congrArg (·[0]?) h
    simpa using this
  · have := congrArg List.tail h
    simpa using this

theorem replaceElems_ok {path : Bytes} (hp : GoodPath path) {L K : List Tson} (hL : ∀ v ∈ L, v.Wf) (k : List Tson) :
    ∀ (l : List Tson) (i : Nat) {ops : List Op}, L.drop i = l → K.drop i = k → replaceElems path i l k = .ok ops →
      ∃ js, ElemWrites path K (fun j => if j < L.length then .replace else .add) js ops ∧ js.Pairwise (· < ·) ∧
        ∀ j, j ∈ js ↔ i ≤ j ∧ Changed L K j := by
  induction k with
  | nil =>
    intro l i ops _ hk h
    have : ops = [] := by cases l <;> simp only [replaceElems] at h <;> cases h <;> rfl
    subst this
    refine ⟨[], ⟨rfl, by simp⟩, .nil, fun j => ?_⟩
    simp only [List.not_mem_nil, false_iff]
    rintro ⟨hj, p, ts, h', -⟩
    have := (List.getElem?_eq_some_iff.1 h').1
    rw [List.drop_eq_nil_iff] at hk
    omega
  | cons w k ih =>
    intro l i ops hl hk h
    obtain ⟨hw, hk'⟩ := drop_split hk
    -- leaving out index `i`
    have skip : ∀ js : List Nat, (∀ j, j ∈ js ↔ i + 1 ≤ j ∧ Changed L K j) → ¬ Changed L K i →
        ∀ j, j ∈ js ↔ i ≤ j ∧ Changed L K j := by
      intro js h hc j
      rw [h]
      constructor
      · rintro ⟨h1, h2⟩; exact ⟨by omega, h2⟩
      · rintro ⟨h1, h2⟩
        by_cases hij : i = j
        · subst hij; exact absurd h2 hc
        · exact ⟨by omega, h2⟩
    have take : ∀ js : List Nat, (∀ j, j ∈ js ↔ i + 1 ≤ j ∧ Changed L K j) → Changed L K i →
        ∀ j, j ∈ i :: js ↔ i ≤ j ∧ Changed L K j := by
      intro js h hc j
      rw [List.mem_cons, h]
      constructor
      · rintro (rfl | ⟨h1, h2⟩)
        · exact ⟨Nat.le_refl _, hc⟩
        · exact ⟨by omega, h2⟩
      · rintro ⟨h1, h2⟩
        by_cases hij : j = i
        · exact .inl hij
        · exact .inr ⟨by omega, h2⟩
    cases l with
    | nil =>
      have hlen : L.length ≤ i := by rwa [List.drop_eq_nil_iff] at hl
      have hl' : L.drop (i + 1) = [] := by rw [List.drop_eq_nil_iff]; omega
      cases w with
      | leaf q u =>
        simp only [replaceElems, leafOp] at h
        cases hr : replaceElems path (i + 1) [] k with
        | ok ops' =>
          rw [hr] at h
          cases h
          obtain ⟨js, h1, h2, h3⟩ := ih [] (i + 1) hl' hk' hr
          have hc : Changed L K i := ⟨q, u, hw, fun v hv => by
            have := (List.getElem?_eq_some_iff.1 hv).1; omega⟩
          exact ⟨i :: js, h1.cons hp hw (by rw [if_neg (by omega)]), ordered_cons h2 fun j hj => ((h3 j).1 hj).1,
            take js h3 hc⟩
        | err => rw [hr] at h; cases h
        | panic => rw [hr] at h; cases h
      | _ => simp only [replaceElems, leafOp] at h; cases h
    | cons v l =>
      obtain ⟨hv, hl'⟩ := drop_split hl
      have hvw := hL v (List.mem_of_getElem? hv)
      have hlen := (List.getElem?_eq_some_iff.1 hv).1
      by_cases hm : (matchesValue v w && matchTimestamp v w) = true
      · simp only [replaceElems] at h
        rw [if_pos hm] at h
        obtain ⟨js, h1, h2, h3⟩ := ih l (i + 1) hl' hk' h
        refine ⟨js, h1, h2, skip js h3 ?_⟩
        rintro ⟨p, ts, e, hne⟩
        rw [hw] at e; cases e
        exact hne v hv ((matches_leaf hvw).1 hm)
      · simp only [replaceElems] at h
        rw [if_neg hm] at h
        cases w with
        | leaf q u =>
          simp only [leafOp] at h
          cases hr : replaceElems path (i + 1) l k with
          | ok ops' =>
            rw [hr] at h
            cases h
            obtain ⟨js, h1, h2, h3⟩ := ih l (i + 1) hl' hk' hr
            have hc : Changed L K i := ⟨q, u, hw, fun v' hv' he => by
              rw [hv] at hv'; cases hv'
              exact hm ((matches_leaf hvw).2 he)⟩
            exact ⟨i :: js, h1.cons hp hw (by rw [if_pos hlen]), ordered_cons h2 fun j hj => ((h3 j).1 hj).1,
              take js h3 hc⟩
          | err => rw [hr] at h; cases h
          | panic => rw [hr] at h; cases h
        | _ =>
          simp only [leafOp] at h
          obtain ⟨js, h1, h2, h3⟩ := ih l (i + 1) hl' hk' h
          refine ⟨js, h1, h2, skip js h3 ?_⟩
          rintro ⟨p, ts, e, hne⟩
          rw [hw] at e; cases e

theorem replaceElems_cases {path : Bytes} (k : List Tson) : ∀ (l : List Tson) (i : Nat),
    ((∀ w ∈ k.drop l.length, IsLeaf w) → ∃ ops, replaceElems path i l k = .ok ops) ∧
    ((∃ w ∈ k.drop l.length, ¬ IsLeaf w) → replaceElems path i l k = .panic) := by
  induction k with
  | nil => intro l i; cases l <;> simp [replaceElems]
  | cons w k ih =>
    intro l i
    cases l with
    | nil =>
      have ih := ih [] (i + 1)
      simp only [List.length_nil, List.drop_zero] at ih ⊢
      cases w with
      | leaf q u =>
        simp only [replaceElems, leafOp]
        constructor
        · intro h
          rw [List.forall_mem_cons] at h
          obtain ⟨ops, e⟩ := ih.1 h.2
          rw [e]; exact ⟨_, rfl⟩
        · rintro ⟨p, hp, h⟩
          rcases List.mem_cons.1 hp with rfl | hp
          · exact absurd ⟨q, u, rfl⟩ h
          · rw [ih.2 ⟨p, hp, h⟩]; rfl
      | _ =>
        simp only [replaceElems, leafOp]
        refine ⟨fun h => ?_, fun _ => trivial⟩
        obtain ⟨_, _, e⟩ := h _ List.mem_cons_self
        cases e
    | cons v l =>
      have ih := ih l (i + 1)
      simp only [List.length_cons, List.drop_succ_cons] at ih ⊢
      simp only [replaceElems]
      by_cases hm : (matchesValue v w && matchTimestamp v w) = true
      · rw [if_pos hm]; exact ih
      · rw [if_neg hm]
        cases leafOp OpKind.replace (makePathIdx path i) w with
        | none => exact ih
        | some o =>
          refine ⟨fun h => ?_, fun h => ?_⟩
          · obtain ⟨ops, e⟩ := ih.1 h
            simp only [e]; exact ⟨_, rfl⟩
          · simp only [ih.2 h]; rfl

/-- The removals of both functions. -/
theorem removed_ok {path : Bytes} (hp : GoodPath path) {l k : List Tson} (hl : ∀ v ∈ l, v.Wf) (hk : ∀ v ∈ k, v.Wf) :
    ∃ rs, ElemRemovals path rs
        ((processArray l k).map fun iv => (⟨.remove, makePathIdx path iv.1, .nil, 0⟩ : Op)).reverse ∧
      rs.Pairwise (· > ·) ∧ ∀ i, i ∈ rs ↔ ∃ v, Unmatched l k i v := by
  refine ⟨((processArray l k).map (·.1)).reverse, ?_, ?_, fun i => ?_⟩
  · unfold ElemRemovals
    rw [List.map_reverse, List.map_map]
    congr 2
    funext iv
    simp only [Function.comp, makePathIdx, (makePath_eq hp (natDigits_key iv.1)).1]
  · rw [List.pairwise_reverse]
    exact (processLoop_ordered k l [] 0).2
  · rw [List.mem_reverse, List.mem_map]
    constructor
    · rintro ⟨⟨j, v⟩, h, rfl⟩; exact ⟨v, (processArray_iff hl hk _ _).1 h⟩
    · rintro ⟨v, h⟩; exact ⟨(i, v), (processArray_iff hl hk _ _).2 h, rfl⟩

theorem pointer_good (ks : List Bytes) : ∀ {path : Bytes}, GoodPath path → (∀ k ∈ ks, k ≠ []) → GoodPath (path ++ pointer ks) := by
  induction ks with
  | nil => intro path h _; simpa [pointer] using h
  | cons k ks ih =>
    intro path h hk
    rw [List.forall_mem_cons] at hk
    rw [pointer_cons, ← List.append_assoc]
    exact ih (makePath_eq h hk.1).2 hk.2

theorem good_pointer {ks : List Bytes} (h : ∀ k ∈ ks, k ≠ []) : GoodPath (pointer ks) := by
  simpa using pointer_good ks (path := []) (by simp [GoodPath]) h

/-! ### C70 -/

/-- C70: the equality used to match elements of arrays is equality of the documents with their timestamps. -/
theorem C70_equal {a b : Tson} (ha : a.Wf) (hb : b.Wf) : deepEq a b = true ↔ EqDoc true a b := deepEq_iff a b ha hb

/-- C70: the comparison of values and the comparison of timestamps each look at one side of a leaf only, and at all
leaves; nil is never a match. -/
theorem C70_matches {a b : Tson} (ha : a.Wf) :
    (matchesValue a b = true ↔ LeafwiseMatch (fun p _ q _ => EqPrim p q) a b) ∧
    (matchTimestamp a b = true ↔ LeafwiseMatch (fun p t q u => SameType p q ∧ t = u) a b) := by
  constructor
  · exact matchWith_iff (fun p _ q _ => goEq_iff) a b ha
  · refine matchWith_iff (fun p t q u => ?_) a b ha
    rw [Bool.and_eq_true, decide_eq_true_eq, decide_eq_true_eq]
    constructor
    · rintro ⟨h, h'⟩
      refine ⟨?_, h'⟩
      cases p <;> cases q <;> first | constructor | cases h
    · rintro ⟨h, h'⟩
      exact ⟨by cases h <;> rfl, h'⟩

/-- C70: a patch between arrays of different lengths first removes, from the end, the elements of the old array that
have no partner in the new one, and then adds, from the start, the elements of the new array that have no partner in
the old one. -/
theorem C70_plain {l k : List Tson} {ks : List Bytes} {ops : List Op} (hl : (Tson.arr l).Wf) (hk : (Tson.arr k).Wf)
    (hne : l.length ≠ k.length) (hks : ∀ x ∈ ks, x ≠ []) (h : handleValues false (.arr l) (.arr k) (pointer ks) = .ok ops) :
    ∃ rs as removals additions, ops = removals ++ additions ∧
      ElemRemovals (pointer ks) rs removals ∧ rs.Pairwise (· > ·) ∧ (∀ i, i ∈ rs ↔ ∃ v, Unmatched l k i v) ∧
      ElemWrites (pointer ks) k (fun _ => .add) as additions ∧ as.Pairwise (· < ·) ∧
        (∀ i, i ∈ as ↔ ∃ v, Unmatched k l i v) := by
  have hl := (Tson.wfL_iff l).1 hl
  have hk := (Tson.wfL_iff k).1 hk
  have hp := good_pointer hks
  simp only [handleValues, if_pos hne, compareArray, Bool.false_eq_true, if_false] at h
  cases ha : addElems (pointer ks) (processArray k l) with
  | ok adds =>
    rw [ha] at h
    cases h
    obtain ⟨rs, h1, h2, h3⟩ := removed_ok hp hl hk
    refine ⟨rs, (processArray k l).map (·.1), _, adds, rfl, h1, h2, h3,
      addElems_ok hp _ (fun p hp => ((processArray_iff hk hl p.1 p.2).1 hp).1) ha, (processLoop_ordered l k [] 0).2, fun i => ?_⟩
    rw [List.mem_map]
    constructor
    · rintro ⟨⟨j, v⟩, h, rfl⟩; exact ⟨v, (processArray_iff hk hl _ _).1 h⟩
    · rintro ⟨v, h⟩; exact ⟨(i, v), (processArray_iff hk hl _ _).2 h, rfl⟩
  | err => rw [ha] at h; cases h
  | panic => rw [ha] at h; cases h

/-- C70: that succeeds exactly if all elements to be added are leaves; otherwise the program ends with a panic. -/
theorem C70_plain_succeeds {l k : List Tson} {path : Bytes} (hl : (Tson.arr l).Wf) (hk : (Tson.arr k).Wf)
    (hne : l.length ≠ k.length) :
    ((∀ i v, Unmatched k l i v → IsLeaf v) → ∃ ops, handleValues false (.arr l) (.arr k) path = .ok ops) ∧
    ((∃ i v, Unmatched k l i v ∧ ¬ IsLeaf v) → handleValues false (.arr l) (.arr k) path = .panic) := by
  have hl := (Tson.wfL_iff l).1 hl
  have hk := (Tson.wfL_iff k).1 hk
  simp only [handleValues, if_pos hne, compareArray, Bool.false_eq_true, if_false]
  constructor
  · intro h
    obtain ⟨ops, e⟩ := (addElems_cases (path := path) (processArray k l)).1 fun p hp =>
      h p.1 p.2 ((processArray_iff hk hl _ _).1 hp)
    rw [e]; exact ⟨_, rfl⟩
  · rintro ⟨i, v, h, hv⟩
    rw [(addElems_cases (path := path) (processArray k l)).2 ⟨(i, v), (processArray_iff hk hl _ _).2 h, hv⟩]
    rfl

/-- C70: the variant with timestamps removes the same elements, but then replaces, from the start, every element of
the new array that differs from the old element with the same index, and adds those with no such index. -/
theorem C70_times {l k : List Tson} {ks : List Bytes} {ops : List Op} (hl : (Tson.arr l).Wf) (hk : (Tson.arr k).Wf)
    (hne : l.length ≠ k.length) (hks : ∀ x ∈ ks, x ≠ []) (h : handleValues true (.arr l) (.arr k) (pointer ks) = .ok ops) :
    ∃ rs js removals writes, ops = removals ++ writes ∧
      ElemRemovals (pointer ks) rs removals ∧ rs.Pairwise (· > ·) ∧ (∀ i, i ∈ rs ↔ ∃ v, Unmatched l k i v) ∧
      ElemWrites (pointer ks) k (fun j => if j < l.length then .replace else .add) js writes ∧ js.Pairwise (· < ·) ∧
        (∀ j, j ∈ js ↔ Changed l k j) := by
  have hl := (Tson.wfL_iff l).1 hl
  have hk := (Tson.wfL_iff k).1 hk
  have hp := good_pointer hks
  simp only [handleValues, if_pos hne, compareArray, if_true] at h
  cases ha : replaceElems (pointer ks) 0 l k with
  | ok ws =>
    rw [ha] at h
    cases h
    obtain ⟨rs, h1, h2, h3⟩ := removed_ok hp hl hk
    obtain ⟨js, h4, h5, h6⟩ := replaceElems_ok hp hl k l 0 rfl rfl ha
    exact ⟨rs, js, _, ws, rfl, h1, h2, h3, h4, h5, fun j => by rw [h6]; simp⟩
  | err => rw [ha] at h; cases h
  | panic => rw [ha] at h; cases h

/-- C70: that succeeds exactly if the elements beyond the length of the old array are leaves. -/
theorem C70_times_succeeds {l k : List Tson} {path : Bytes} (hne : l.length ≠ k.length) :
    ((∀ w ∈ k.drop l.length, IsLeaf w) → ∃ ops, handleValues true (.arr l) (.arr k) path = .ok ops) ∧
    ((∃ w ∈ k.drop l.length, ¬ IsLeaf w) → handleValues true (.arr l) (.arr k) path = .panic) := by
  simp only [handleValues, if_pos hne, compareArray, if_true]
  constructor
  · intro h
    obtain ⟨ops, e⟩ := (replaceElems_cases (path := path) k l 0).1 h
    rw [e]; exact ⟨_, rfl⟩
  · intro h
    rw [(replaceElems_cases (path := path) k l 0).2 h]
    rfl

/-- Two arrays: `x` occurs twice in the first and once in the second, `n` has only a changed timestamp. -/
def arrA : List Tson := [.leaf (.str b!"x") 1, .leaf (.bool true) 2, .leaf (.str b!"x") 1]
def arrB : List Tson := [.leaf (.str b!"x") 1, .leaf (.bool true) 3]

example : (Tson.arr arrA).Wf ∧ (Tson.arr arrB).Wf ∧ arrA.length ≠ arrB.length ∧ (∀ x ∈ [b!"a"], x ≠ []) ∧
    handleValues false (.arr arrA) (.arr arrB) (pointer [b!"a"]) = .ok [⟨.remove, b!"/a/2", .nil, 0⟩,
      ⟨.remove, b!"/a/1", .nil, 0⟩, ⟨.add, b!"/a/1", .bool true, 3⟩] ∧
    handleValues true (.arr arrA) (.arr arrB) (pointer [b!"a"]) = .ok [⟨.remove, b!"/a/2", .nil, 0⟩,
      ⟨.remove, b!"/a/1", .nil, 0⟩, ⟨.replace, b!"/a/1", .bool true, 3⟩] ∧
    (∀ w ∈ arrB.drop arrA.length, IsLeaf w) := by
  refine ⟨by simp [arrA, Tson.Wf, Tson.WfL], by simp [arrB, Tson.Wf, Tson.WfL], by decide, by decide, by decide, by decide, ?_⟩
  simp [arrA, arrB]

end Verif
