import Verif.SpecMem
import Verif.LogLemmas
/-
Lemmas about the arrays of operations of a logument.
-/
namespace Verif

/-! ### Arrays -/

theorem Arrs.length_write (A : Arrs) (a i : Nat) (xs : List Op) : (A.write a i xs).length = A.length := by
  simp [Arrs.write]

theorem Arrs.write_ne (A : Arrs) {a b : Nat} (h : b ≠ a) (i : Nat) (xs : List Op) :
    (A.write a i xs).arr b = A.arr b := by
  unfold Arrs.write Arrs.arr
  rw [List.getElem?_set_ne (Ne.symm h)]

theorem Arrs.write_self (A : Arrs) {a : Nat} (h : a < A.length) (i : Nat) (xs : List Op) :
    (A.write a i xs).arr a = (A.arr a).take i ++ (xs ++ (A.arr a).drop (i + xs.length)) := by
  unfold Arrs.write Arrs.arr
  rw [List.getElem?_set_self h]; rfl

theorem Arrs.write_len (A : Arrs) {a i : Nat} {xs : List Op} (h : i + xs.length ≤ (A.arr a).length) (b : Nat) :
    ((A.write a i xs).arr b).length = (A.arr b).length := by
  by_cases hb : b = a
  · subst hb
    by_cases hl : b < A.length
    · rw [A.write_self hl]; simp; omega
    · have h1 : A.arr b = [] := by
        unfold Arrs.arr; rw [List.getElem?_eq_none (by omega)]; rfl
      have h2 : (A.write b i xs).arr b = [] := by
        unfold Arrs.arr; rw [List.getElem?_eq_none (by rw [Arrs.length_write]; omega)]; rfl
      rw [h1, h2]
  · rw [A.write_ne hb]

theorem Sl.Ok.write {A : Arrs} {t : Sl} (h : t.Ok A) {a i : Nat} {xs : List Op}
    (hl : i + xs.length ≤ (A.arr a).length) : t.Ok (A.write a i xs) :=
  ⟨by rw [Arrs.length_write]; exact h.lt, h.len, by rw [A.write_len hl]; exact h.room⟩

theorem Sl.Ok.length {A : Arrs} {s : Sl} (h : s.Ok A) : (s.ops A).length = s.len := by
  unfold Sl.ops
  have := h.len; have := h.room
  simp; omega

theorem ops_extend {A : Arrs} {s : Sl} (h : s.Ok A) {xs : List Op} (hx : s.len + xs.length ≤ s.cap) :
    Sl.ops (A.write s.addr (s.off + s.len) xs) { s with len := s.len + xs.length } = s.ops A ++ xs := by
  unfold Sl.ops
  dsimp only
  rw [A.write_self h.lt]
  have hr := h.room
  have h1 : ((A.arr s.addr).take (s.off + s.len)).drop s.off = ((A.arr s.addr).drop s.off).take s.len := by
    rw [List.drop_take]; congr 1; omega
  rw [List.drop_append_of_le_length (by simp; omega), h1,
    List.take_append, List.take_of_length_le (by simp; omega), List.take_append]
  congr 1
  have h2 : s.len + xs.length - (((A.arr s.addr).drop s.off).take s.len).length = xs.length := by simp; omega
  rw [h2]
  simp

theorem ops_over {A : Arrs} {s : Sl} (h : s.Ok A) {xs : List Op} (hx : xs.length = s.len) :
    s.ops (A.write s.addr s.off xs) = xs := by
  unfold Sl.ops
  rw [A.write_self h.lt]
  have hr := h.room
  have hl := h.len
  rw [List.drop_append_of_le_length (by simp; omega)]
  have h1 : ((A.arr s.addr).take s.off).drop s.off = [] := by
    apply List.drop_eq_nil_of_le; simp; omega
  rw [h1, List.nil_append, List.take_append_of_le_length (by omega), ← hx, List.take_length]

/-- The arrays there were are as they were. -/
def Extends (A B : Arrs) : Prop := A.length ≤ B.length ∧ ∀ a, a < A.length → B.arr a = A.arr a

theorem Extends.refl (A : Arrs) : Extends A A := ⟨Nat.le_refl _, fun _ _ => rfl⟩

theorem Extends.trans {A B C : Arrs} (h : Extends A B) (h' : Extends B C) : Extends A C :=
  ⟨Nat.le_trans h.1 h'.1, fun a ha => by rw [h'.2 a (Nat.lt_of_lt_of_le ha h.1), h.2 a ha]⟩

theorem extends_make (A : Arrs) (xs : List Op) (k : Nat) : Extends A (A.make xs k).1 := by
  refine ⟨by simp [Arrs.make], fun a ha => ?_⟩
  unfold Arrs.make Arrs.arr
  rw [List.getElem?_append_left ha]

theorem Sl.Ok.ext {A B : Arrs} {s : Sl} (h : s.Ok A) (he : Extends A B) : s.Ok B ∧ s.ops B = s.ops A := by
  have := he.2 s.addr h.lt
  exact ⟨⟨Nat.lt_of_lt_of_le h.lt he.1, h.len, by rw [this]; exact h.room⟩, by unfold Sl.ops; rw [this]⟩

theorem make_arr (A : Arrs) (xs : List Op) (k : Nat) :
    (A.make xs k).1.arr A.length = xs ++ List.replicate k zeroOp := by
  unfold Arrs.make Arrs.arr
  rw [List.getElem?_append_right (Nat.le_refl _)]
  simp

theorem make_ok (A : Arrs) (xs : List Op) (k : Nat) :
    (A.make xs k).2.Ok (A.make xs k).1 ∧ (A.make xs k).2.ops (A.make xs k).1 = xs ∧ (A.make xs k).2.addr = A.length := by
  have h := make_arr A xs k
  refine ⟨⟨by simp [Arrs.make], by simp [Arrs.make], ?_⟩, ?_, rfl⟩
  · change 0 + (xs.length + k) ≤ ((A.make xs k).1.arr A.length).length
    rw [h]; simp
  · change (((A.make xs k).1.arr A.length).drop 0).take xs.length = xs
    rw [h]; simp

/-- What `append` does. -/
theorem goAppend_spec {A : Arrs} {s : Sl} (h : s.Ok A) (xs : List Op) (k : Nat) :
    (goAppend A s xs k).2.Ok (goAppend A s xs k).1 ∧
    (goAppend A s xs k).2.ops (goAppend A s xs k).1 = s.ops A ++ xs ∧
    ((goAppend A s xs k).2.addr = s.addr ∨ (goAppend A s xs k).2.addr = A.length) ∧
    ∀ t : Sl, t.Ok A → t.addr ≠ s.addr →
      t.Ok (goAppend A s xs k).1 ∧ t.ops (goAppend A s xs k).1 = t.ops A ∧ t.addr ≠ (goAppend A s xs k).2.addr := by
  unfold goAppend
  split
  · rename_i hc
    have hl : s.off + s.len + xs.length ≤ (A.arr s.addr).length := by have := h.room; omega
    refine ⟨⟨by rw [Arrs.length_write]; exact h.lt, hc, by rw [A.write_len hl]; exact h.room⟩,
      ops_extend h hc, Or.inl rfl, fun t ht hn => ⟨ht.write hl, ?_, hn⟩⟩
    unfold Sl.ops
    rw [A.write_ne hn]
  · obtain ⟨h1, h2, h3⟩ := make_ok A (s.ops A ++ xs) k
    refine ⟨h1, h2, Or.inr h3, fun t ht _ => ?_⟩
    obtain ⟨h4, h5⟩ := ht.ext (extends_make A (s.ops A ++ xs) k)
    refine ⟨h4, h5, ?_⟩
    rw [h3]
    have := ht.lt
    omega

/-! ### The arrays of a logument -/

/-- The patches with the operations the slices show. -/
def loadP (A : Arrs) (ps : List (Nat × Sl)) : List (Nat × List Op) := ps.map fun x => (x.1, x.2.ops A)

theorem mkeys_loadP (A : Arrs) (ps : List (Nat × Sl)) : mkeys (loadP A ps) = mkeys ps := by
  simp [loadP, mkeys]

theorem mget_loadP (A : Arrs) (ps : List (Nat × Sl)) (v : Nat) : mget (loadP A ps) v = (mget ps v).map (Sl.ops A) := by
  induction ps with
  | nil => rfl
  | cons x ps ih =>
    obtain ⟨w, s⟩ := x
    simp only [loadP, List.map_cons, mget_cons] at ih ⊢
    split
    · rfl
    · exact ih

theorem loadP_congr {A B : Arrs} {ps : List (Nat × Sl)} (hk : (mkeys ps).Nodup)
    (h : ∀ v s, mget ps v = some s → s.ops B = s.ops A) : loadP B ps = loadP A ps := by
  unfold loadP
  apply List.map_congr_left
  intro x hx
  rw [h x.1 x.2 (mem_mget hk hx)]

theorem loadP_mset {A B : Arrs} {ps : List (Nat × Sl)} (hk : (mkeys ps).Nodup) {v : Nat} {s : Sl}
    (h : ∀ w t, w ≠ v → mget ps w = some t → t.ops B = t.ops A) :
    loadP B (mset ps v s) = mset (loadP A ps) v (s.ops B) := by
  induction ps with
  | nil => rfl
  | cons x ps ih =>
    obtain ⟨w, t⟩ := x
    simp only [mkeys, List.map_cons, List.nodup_cons] at hk
    have hne : ∀ w' t', mget ps w' = some t' → w' ≠ w := by
      rintro w' t' hm rfl
      exact hk.1 (mget_isSome.1 ⟨t', hm⟩)
    by_cases hw : w = v
    · subst hw
      simp only [mset, loadP, List.map_cons, if_pos]
      congr 1
      apply List.map_congr_left
      intro y hy
      have hm := mem_mget (v := y.2) (k := y.1) hk.2 hy
      rw [h y.1 y.2 (hne _ _ hm) (by rw [mget_cons, if_neg (Ne.symm (hne _ _ hm))]; exact hm)]
    · have ht := h w t hw (by rw [mget_cons, if_pos rfl])
      have := ih hk.2 fun w' t' h1 h2 => h w' t' h1 (by rw [mget_cons, if_neg (Ne.symm (hne _ _ h2))]; exact h2)
      simp only [mset, hw, if_false, loadP, List.map_cons, ht] at this ⊢
      rw [this]

theorem mset_slice {ps : List (Nat × Sl)} {v : Nat} {s : Sl} (h : mget ps v = some s) : mset ps v s = ps := by
  induction ps with
  | nil => simp at h
  | cons x ps ih =>
    obtain ⟨w, t⟩ := x
    rw [mget_cons] at h
    simp only [mset]
    split
    · rename_i hw; rw [if_pos hw] at h; cases h; rfl
    · rename_i hw; rw [if_neg hw] at h; rw [ih h]

/-- Changing the pool. -/
theorem Own.pool {A B : Arrs} {ps : List (Nat × Sl)} {q : Option Sl} (h : Own A ps q) {p : Option Sl}
    (hs : ∀ v s, mget ps v = some s → s.Ok B) (hp : ∀ t, p = some t → t.Ok B)
    (ha : ∀ v s t, mget ps v = some s → p = some t → s.addr ≠ t.addr) : Own B ps p :=
  ⟨h.keys, hs, hp, h.apart, ha⟩

/-- Giving a version a new array. -/
theorem Own.fresh {A B : Arrs} {ps : List (Nat × Sl)} {q : Option Sl} (h : Own A ps q) (he : Extends A B) {v : Nat}
    {s : Sl} (hs : s.Ok B) (hf : A.length ≤ s.addr) : Own B (mset ps v s) q := by
  refine ⟨nodup_mkeys_mset h.keys v s, ?_, fun p hp => ((h.poolOk p hp).ext he).1, ?_, ?_⟩
  · intro w t ht
    rw [mget_mset] at ht
    split at ht
    · cases ht; exact hs
    · exact ((h.ok w t ht).ext he).1
  · intro w w' t t' ht ht' hab
    rw [mget_mset] at ht ht'
    split at ht <;> split at ht'
    · omega
    · cases ht; have := (h.ok _ _ ht').lt; omega
    · cases ht'; have := (h.ok _ _ ht).lt; omega
    · exact h.apart w w' t t' ht ht' hab
  · intro w t p ht hp
    have := (h.poolOk p hp).lt
    rw [mget_mset] at ht
    split at ht
    · cases ht; omega
    · exact h.poolApart w t p ht hp

/-! ### Histories in which the caller keeps off -/

theorem load_patches (m : MSt) : m.load.lgm.patches = loadP m.arrs m.log.patches := rfl
theorem load_pool (m : MSt) : m.load.lgm.pool = m.log.pool.map (Sl.ops m.arrs) := rfl

theorem get_spec {m : MSt} (ho : m.Own) {a : MArg} {k : Nat} (hc : Careful m (.store a k)) {p : Option (List Op)}
    (hr : (a.load m.arrs).resolve = .ok p) :
    (a.get m.arrs k).2.map (Sl.ops (a.get m.arrs k).1) = p ∧ Extends m.arrs (a.get m.arrs k).1 ∧
    ∀ s, (a.get m.arrs k).2 = some s → s.Ok (a.get m.arrs k).1 ∧
      (∀ v t, mget m.log.patches v = some t → t.addr ≠ s.addr) ∧ ∀ t, m.log.pool = some t → t.addr ≠ s.addr := by
  have hnew : ∀ xs j, (∀ v t, mget m.log.patches v = some t → t.addr ≠ (m.arrs.make xs j).2.addr) ∧
      ∀ t, m.log.pool = some t → t.addr ≠ (m.arrs.make xs j).2.addr := by
    intro xs j
    rw [(make_ok m.arrs xs j).2.2]
    exact ⟨fun v t ht => by have := (ho.ok v t ht).lt; omega, fun t ht => by have := (ho.poolOk t ht).lt; omega⟩
  cases a with
  | text r =>
    cases r with
    | ok l =>
      simp only [MArg.load, StoreArg.resolve, Res.ok.injEq] at hr
      subst hr
      cases l with
      | none => exact ⟨rfl, .refl _, by simp [MArg.get]⟩
      | some l =>
        simp only [MArg.get]
        refine ⟨by simp [(make_ok m.arrs l k).2.1], extends_make _ _ _, ?_⟩
        intro s hs; cases hs
        exact ⟨(make_ok m.arrs l k).1, hnew l k⟩
    | err => simp [MArg.load, StoreArg.resolve] at hr
    | panic => simp [MArg.load, StoreArg.resolve] at hr
  | patch s =>
    simp only [MArg.load, StoreArg.resolve] at hr
    cases hr
    refine ⟨rfl, .refl _, ?_⟩
    intro t ht
    simp only [MArg.get] at ht
    subst ht
    exact ⟨hc.1, fun v u hu => Ne.symm (hc.2.1 v u hu), fun u hu => Ne.symm (hc.2.2 u hu)⟩
  | patches l =>
    simp only [MArg.load, StoreArg.resolve] at hr
    cases hr
    simp only [MArg.get]
    by_cases he : (l.map (opsOf m.arrs)).flatten = []
    · simp only [he, if_true]
      exact ⟨rfl, .refl _, by simp⟩
    · simp only [he, if_false]
      refine ⟨by simp [(make_ok m.arrs (l.map (opsOf m.arrs)).flatten k).2.1], extends_make _ _ _, ?_⟩
      intro s hs; cases hs
      exact ⟨(make_ok m.arrs _ k).1, hnew _ k⟩
  | op o =>
    simp only [MArg.load, StoreArg.resolve] at hr
    cases hr
    simp only [MArg.get]
    refine ⟨by simp [(make_ok m.arrs [o] 0).2.1], extends_make _ _ _, ?_⟩
    intro s hs; cases hs
    exact ⟨(make_ok m.arrs [o] 0).1, hnew [o] 0⟩
  | ops s =>
    simp only [MArg.load, StoreArg.resolve] at hr
    cases hr
    refine ⟨rfl, .refl _, ?_⟩
    intro t ht
    simp only [MArg.get] at ht
    subst ht
    exact ⟨hc.1, fun v u hu => Ne.symm (hc.2.1 v u hu), fun u hu => Ne.symm (hc.2.2 u hu)⟩
  | other => simp [MArg.load, StoreArg.resolve] at hr

theorem opsOf_eq (A : Arrs) (s : Option Sl) : opsOf A s = (s.map (Sl.ops A)).getD [] := by cases s <;> rfl

theorem mem_store {m : MSt} (ho : m.Own) {a : MArg} {k : Nat} (hc : Careful m (.store a k)) :
    (m.store a k).1.Own ∧ (m.store a k).1.load = ⟨m.heap, (m.load.lgm.store (a.load m.arrs)).1⟩ ∧
      (m.store a k).2 = (m.load.lgm.store (a.load m.arrs)).2 := by
  unfold MSt.store Lgm.store
  cases hr : (a.load m.arrs).resolve with
  | err => exact ⟨ho, rfl, rfl⟩
  | panic => exact ⟨ho, rfl, rfl⟩
  | ok p =>
    obtain ⟨h1, h2, h3⟩ := get_spec ho hc hr
    dsimp only
    rw [load_pool]
    have hp2 : loadP (a.get m.arrs k).1 m.log.patches = loadP m.arrs m.log.patches :=
      loadP_congr ho.keys fun v s hs => ((ho.ok v s hs).ext h2).2
    cases hq : m.log.pool with
    | none =>
      simp only [Option.map_none]
      refine ⟨?_, ?_, trivial⟩
      · exact Own.pool ho (fun v s hs => ((ho.ok v s hs).ext h2).1) (fun t ht => (h3 t ht).1)
          (fun v s t hs ht => (h3 t ht).2.1 v s hs)
      · simp only [MSt.load, MSt.withPool, MLog.load, h1]
        congr 2
    | some q =>
      simp only [Option.map_some]
      have hqo := ho.poolOk q hq
      obtain ⟨hq1, hq2⟩ := hqo.ext h2
      obtain ⟨g1, g2, g3, g4⟩ := goAppend_spec hq1 (opsOf (a.get m.arrs k).1 (a.get m.arrs k).2) k
      have hv : ∀ v s, mget m.log.patches v = some s →
          s.Ok (goAppend (a.get m.arrs k).1 q (opsOf (a.get m.arrs k).1 (a.get m.arrs k).2) k).1 ∧
          s.ops (goAppend (a.get m.arrs k).1 q (opsOf (a.get m.arrs k).1 (a.get m.arrs k).2) k).1 = s.ops m.arrs ∧
          s.addr ≠ (goAppend (a.get m.arrs k).1 q (opsOf (a.get m.arrs k).1 (a.get m.arrs k).2) k).2.addr := by
        intro v s hs
        obtain ⟨e1, e2⟩ := (ho.ok v s hs).ext h2
        obtain ⟨f1, f2, f3⟩ := g4 s e1 (ho.poolApart v s q hs hq)
        exact ⟨f1, by rw [f2, e2], f3⟩
      refine ⟨?_, ?_, trivial⟩
      · refine Own.pool ho (fun v s hs => (hv v s hs).1) (fun t ht => ?_) (fun v s t hs ht => ?_)
        · cases ht; exact g1
        · cases ht; exact (hv v s hs).2.2
      · have hp3 := loadP_congr ho.keys fun v s hs => (hv v s hs).2.1
        have g5 := g2
        simp only [hq2, opsOf_eq, h1] at g5 hp3
        simp only [MSt.load, MSt.withPool, MLog.load, Option.map_some, opsOf_eq, h1, g5]
        congr 2

theorem mem_append {m : MSt} (ho : m.Own) {n : Nat} (hn : m.load.lgm.Versions n) :
    m.append.1.Own ∧ m.append.1.load = ⟨m.heap, m.load.lgm.append.1⟩ ∧ m.append.2 = m.load.lgm.append.2 ∧
      m.append.1.heap = m.heap := by
  unfold MSt.append Lgm.append
  rw [hn.isGrown, load_pool]
  simp only [Bool.true_eq_false, if_false]
  cases hq : m.log.pool with
  | none => exact ⟨ho, rfl, rfl, rfl⟩
  | some p =>
    have hl : m.log.version.getLast? = some n := hn.last
    have hl' : m.load.lgm.version.getLast? = some n := hn.last
    have hnone : mget m.log.patches (n + 1) = none := by
      cases hm : mget m.log.patches (n + 1) with
      | none => rfl
      | some s =>
        have := mget_isSome.1 ⟨s, hm⟩
        rw [← mkeys_loadP m.arrs, ← load_patches, hn.2.2] at this
        omega
    have hnone' : mget m.load.lgm.patches (n + 1) = none := by rw [load_patches, mget_loadP, hnone]; rfl
    simp only [Option.map_some, hl, hl', hnone, hnone']
    refine ⟨⟨nodup_mkeys_mset ho.keys _ _, ?_, by simp, ?_, by simp⟩, ?_, trivial, trivial⟩
    · intro v s hs
      rw [mget_mset] at hs
      split at hs
      · cases hs; exact ho.poolOk _ hq
      · exact ho.ok v s hs
    · intro v w s t hs ht hab
      rw [mget_mset] at hs ht
      split at hs <;> split at ht
      · omega
      · cases hs; exact absurd hab.symm (ho.poolApart _ _ _ ht hq)
      · cases ht; exact absurd hab (ho.poolApart _ _ _ hs hq)
      · exact ho.apart v w s t hs ht hab
    · simp only [MSt.load, MLog.load]
      congr 2
      exact loadP_mset ho.keys fun w t _ _ => rfl

theorem mem_addOp {m : MSt} (ho : m.Own) (op : Op) (k : Nat) :
    (m.addOp op k).Own ∧
      (m.addOp op k).load = ⟨m.heap, { m.load.lgm with pool := some (m.load.lgm.pool.getD [] ++ [op]) }⟩ := by
  unfold MSt.addOp
  rw [load_pool]
  cases hq : m.log.pool with
  | none =>
    obtain ⟨h1, h2, h3⟩ := make_ok m.arrs [op] 0
    have he := extends_make m.arrs [op] 0
    refine ⟨Own.pool ho (fun v s hs => ((ho.ok v s hs).ext he).1) (fun t ht => by cases ht; exact h1)
      (fun v s t hs ht => by cases ht; have := (ho.ok v s hs).lt; rw [h3]; omega), ?_⟩
    have hp := loadP_congr ho.keys fun v s hs => ((ho.ok v s hs).ext he).2
    simp only [MSt.load, MSt.withPool, MLog.load, Option.map_some, h2] at hp ⊢
    congr 2
  | some q =>
    obtain ⟨g1, g2, g3, g4⟩ := goAppend_spec (ho.poolOk q hq) [op] k
    have hv : ∀ v s, mget m.log.patches v = some s → _ := fun v s hs => g4 s (ho.ok v s hs) (ho.poolApart v s q hs hq)
    refine ⟨Own.pool ho (fun v s hs => (hv v s hs).1) (fun t ht => by cases ht; exact g1)
      (fun v s t hs ht => by cases ht; exact (hv v s hs).2.2), ?_⟩
    have hp := loadP_congr ho.keys fun v s hs => (hv v s hs).2.1
    simp only [MSt.load, MSt.withPool, MLog.load, Option.map_some, g2, Option.getD_some] at hp ⊢
    congr 2

theorem mem_set {m : MSt} (ho : m.Own) (vk : Nat) (op : Op) (k : Nat) :
    (m.set op k).1.Own ∧ (m.set op k).1.load = (m.load.set vk op).1 ∧ (m.set op k).2 = (m.load.set vk op).2 := by
  unfold MSt.set St.set
  by_cases hk : op.kind ≠ .replace ∧ op.kind ≠ .add
  · simp only [if_pos hk]; exact ⟨ho, trivial, trivial⟩
  · simp only [if_neg hk]
    have e : applyOperation m.load.heap m.load.lgm.current op = applyOperation m.heap m.log.current op := rfl
    rw [e]
    rcases applyOperation m.heap m.log.current op with ⟨h, r⟩
    cases r with
    | ok v =>
      obtain ⟨h1, h2⟩ := mem_addOp (m := { m with heap := h, log := { m.log with current := v } }) ho op k
      exact ⟨h1, h2, rfl⟩
    | err => exact ⟨ho, rfl, rfl⟩
    | panic => exact ⟨ho, rfl, rfl⟩

theorem mem_testSet {m : MSt} (ho : m.Own) (vk : Nat) (op : Op) (k : Nat) :
    (m.testSet op k).1.Own ∧ (m.testSet op k).1.load = (m.load.testSet vk op).1 ∧
      (m.testSet op k).2 = (m.load.testSet vk op).2 := by
  unfold MSt.testSet St.testSet
  by_cases hk : op.kind ≠ .replace ∧ op.kind ≠ .add
  · simp only [if_pos hk]; exact ⟨ho, trivial, trivial⟩
  · simp only [if_neg hk]
    by_cases hk2 : op.kind = .add
    · simp only [if_pos hk2]; exact mem_set ho vk op k
    · simp only [if_neg hk2]
      have e : m.load.lgm.version.getLast? = m.log.version.getLast? := rfl
      rw [e]
      cases m.log.version.getLast? with
      | none => exact ⟨ho, rfl, rfl⟩
      | some last =>
        dsimp only
        have e2 : m.load.heap.view (m.load.lgm.snap last) = m.heap.view (m.load.lgm.snap last) := rfl
        rw [e2]
        cases m.heap.view (m.load.lgm.snap last) with
        | none => exact ⟨ho, rfl, rfl⟩
        | some doc =>
          dsimp only
          cases getValue doc op.path with
          | ok v =>
            dsimp only
            split
            · exact ⟨ho, rfl, rfl⟩
            · exact mem_set ho vk op k
          | err => exact mem_set ho vk _ k
          | panic => exact ⟨ho, rfl, rfl⟩

theorem mem_keep {m : MSt} (ho : m.Own) {s : St} (hp : s.lgm.patches = m.load.lgm.patches)
    (hq : s.lgm.pool = m.load.lgm.pool) : (m.keep s).Own ∧ (m.keep s).load = s := by
  refine ⟨ho, ?_⟩
  obtain ⟨h, ⟨v, c, sn, ps, po⟩⟩ := s
  simp only at hp hq
  subst hp; subst hq
  rfl

theorem keep_self (m : MSt) : m.keep ⟨m.heap, m.load.lgm⟩ = m := rfl

theorem mem_temporalApply {m : MSt} (ho : m.Own) (o : Oracle) (t : Int) (v : Nat) (base : HVal) :
    (m.temporalApply o t v base).1.Own ∧
      (m.temporalApply o t v base).1.load = (m.load.temporalApply o t v base).1 ∧
      (m.temporalApply o t v base).2 = (m.load.temporalApply o t v base).2 := by
  unfold MSt.temporalApply St.temporalApply
  have e : m.load.heap = m.heap := rfl
  rw [load_patches, mget_loadP, e]
  dsimp only
  generalize (o.orderOps (pickLatest t [] (o.sortOps (m.load.lgm.patchOf (v + 1))))).map Prod.snd = latest
  have key : ∀ h', Verif.Own (match mget m.log.patches (v + 1) with
        | some s => m.arrs.write s.addr s.off (o.sortOps (m.load.lgm.patchOf (v + 1)))
        | none => m.arrs) m.log.patches m.log.pool ∧
      MSt.load ⟨h', (match mget m.log.patches (v + 1) with
        | some s => m.arrs.write s.addr s.off (o.sortOps (m.load.lgm.patchOf (v + 1)))
        | none => m.arrs), m.log⟩ = ⟨h', match (mget m.log.patches (v + 1)).map (Sl.ops m.arrs) with
        | some _ => { m.load.lgm with patches := mset (loadP m.arrs m.log.patches) (v + 1) (o.sortOps (m.load.lgm.patchOf (v + 1))) }
        | none => m.load.lgm⟩ := by
    intro h'
    cases hs : mget m.log.patches (v + 1) with
    | none => exact ⟨ho, rfl⟩
    | some s =>
      dsimp only
      have hok := ho.ok _ _ hs
      have hlen : (o.sortOps (m.load.lgm.patchOf (v + 1))).length = s.len := by
        rw [(o.sortOps_perm _).length_eq]
        unfold Lgm.patchOf
        rw [load_patches, mget_loadP, hs]
        exact hok.length
      have hl : s.off + (o.sortOps (m.load.lgm.patchOf (v + 1))).length ≤ (m.arrs.arr s.addr).length := by
        rw [hlen]; have := hok.room; have := hok.len; omega
      refine ⟨⟨ho.keys, fun w t ht => (ho.ok w t ht).write hl, fun p hp => (ho.poolOk p hp).write hl, ho.apart,
        ho.poolApart⟩, ?_⟩
      have h1 := ops_over hok hlen
      have h2 := loadP_mset (A := m.arrs) (B := m.arrs.write s.addr s.off (o.sortOps (m.load.lgm.patchOf (v + 1))))
        (s := s) ho.keys (v := v + 1) fun w t hw ht => by
          unfold Sl.ops
          rw [Arrs.write_ne]
          exact fun hab => hw (ho.apart w (v + 1) t s ht hs hab)
      rw [mset_slice hs, h1] at h2
      have h3 : m.log.pool.map (Sl.ops (m.arrs.write s.addr s.off (o.sortOps (m.load.lgm.patchOf (v + 1))))) =
          m.log.pool.map (Sl.ops m.arrs) := by
        cases hp : m.log.pool with
        | none => rfl
        | some p =>
          simp only [Option.map_some]
          unfold Sl.ops
          rw [Arrs.write_ne]
          exact Ne.symm (ho.poolApart _ _ _ hs hp)
      generalize o.sortOps (m.load.lgm.patchOf (v + 1)) = ops at h2 h3
      change St.mk h' ⟨m.log.version, m.log.current, m.log.snaps, loadP (m.arrs.write s.addr s.off ops) m.log.patches,
        m.log.pool.map (Sl.ops (m.arrs.write s.addr s.off ops))⟩ = _
      rw [h2, h3]
      rfl
  rcases applyPatch m.heap base latest with ⟨h', r⟩
  obtain ⟨k1, k2⟩ := key h'
  cases r <;> exact ⟨k1, k2, rfl⟩

theorem mem_temporalSnapshot {m : MSt} (ho : m.Own) {n : Nat} (hn : m.load.lgm.Versions n) (o : Oracle) (t : Int) :
    (m.temporalSnapshot o t).1.Own ∧ (m.temporalSnapshot o t).1.load = (m.load.temporalSnapshot o t).1 ∧
      (m.temporalSnapshot o t).2 = (m.load.temporalSnapshot o t).2 := by
  unfold MSt.temporalSnapshot St.temporalSnapshot
  have e1 : m.load.lgm.version = m.log.version := rfl
  have e2 : m.load.lgm.snaps = m.log.snaps := rfl
  rw [e1, e2]
  cases hv : m.log.version with
  | nil => exact ⟨ho, rfl, rfl⟩
  | cons v0 vs =>
    dsimp only
    cases chooseVersion m.load t v0 (sortedKeys m.log.snaps) with
    | none => exact ⟨ho, rfl, rfl⟩
    | some v =>
      dsimp only
      cases (v0 :: vs).getLast? with
      | none => exact ⟨ho, rfl, rfl⟩
      | some last =>
        dsimp only
        by_cases hge : v ≥ last
        · simp only [if_pos hge]
          rw [load_pool]
          cases hp : m.log.pool with
          | none => exact ⟨ho, rfl, rfl⟩
          | some p =>
            simp only [Option.map_some]
            obtain ⟨a1, a2, a3, a4⟩ := mem_append ho hn
            have := mem_temporalApply a1 o t v (m.load.lgm.snap v)
            rw [a2] at this
            exact this
        · simp only [if_neg hge]
          exact mem_temporalApply ho o t v (m.load.lgm.snap v)

theorem restrict_loadP (A : Arrs) {ps : List (Nat × Sl)} (i j : Nat) :
    (restrict ps default i j).map (fun x => (x.1, x.2.ops A)) = restrict (loadP A ps) [] i j := by
  unfold restrict sortedKeys
  rw [mkeys_loadP, List.map_map]
  apply List.map_congr_left
  intro v hv
  have hm : v ∈ mkeys ps := mem_sortNat.1 (List.mem_filter.1 hv).1
  obtain ⟨s, hs⟩ := mget_isSome.2 hm
  simp only [Function.comp, mget_loadP, hs, Option.map_some, Option.getD_some]

theorem mem_slice {m : MSt} (ho : m.Own) {n : Nat} (hn : m.load.lgm.Versions n) (vi vj : Nat) :
    (m.slice vi vj).1.Own ∧ (m.slice vi vj).1.load = (m.load.slice vi vj).1 ∧
      (m.slice vi vj).2.map (MRet.load (m.slice vi vj).1.arrs) = (m.load.slice vi vj).2.map .lgm := by
  obtain ⟨sn, hsn⟩ := St.slice_lgm hn vi vj
  have hk := mem_keep ho (s := (m.load.slice vi vj).1) (by rw [hsn]) (by rw [hsn])
  refine ⟨hk.1, hk.2, ?_⟩
  have hpat : ∀ g, (m.load.slice vi vj).2 = .ok g → g.patches = restrict (loadP m.arrs m.log.patches) [] vi vj ∧
      g.pool = none := by
    intro g hg
    unfold St.slice at hg
    rw [hn.checkRange] at hg
    by_cases hr : vi ≤ vj ∧ vj ≤ n
    · simp only [hr, and_self, decide_true] at hg
      split at hg
      · rcases hS : St.snapshot ⟨m.load.heap, m.load.lgm⟩ vi with ⟨s', w⟩
        rw [hS] at hg
        cases w with
        | ok t => simp only [Res.ok.injEq] at hg; subst hg; exact ⟨rfl, rfl⟩
        | err => simp at hg
        | panic => simp at hg
      · simp only [Res.ok.injEq] at hg; subst hg; exact ⟨rfl, rfl⟩
    · simp only [hr, decide_false] at hg
      simp at hg
  change ((m.load.slice vi vj).2.map fun g => MRet.slice ⟨g.version, g.current, g.snaps, restrict m.log.patches default vi vj, none⟩).map
    (MRet.load m.arrs) = _
  cases hR : (m.load.slice vi vj).2 with
  | err => rfl
  | panic => rfl
  | ok g =>
    obtain ⟨h1, h2⟩ := hpat g hR
    obtain ⟨v, c, sn, ps, po⟩ := g
    simp only at h1 h2
    subst h1; subst h2
    simp only [Res.map, MRet.load, MLog.load, restrict_loadP, Option.map_none]

theorem mem_temporalSlice {m : MSt} (ho : m.Own) {n : Nat} (hn : m.load.lgm.Versions n) (o : Oracle) (ti tj : Int) :
    (m.temporalSlice o ti tj).1.Own ∧ (m.temporalSlice o ti tj).1.load = (m.load.temporalSlice o ti tj).1 ∧
      (m.temporalSlice o ti tj).2 = (m.load.temporalSlice o ti tj).2 := by
  obtain ⟨t1, t2, t3⟩ := mem_temporalSnapshot ho hn o ti
  unfold MSt.temporalSlice St.temporalSlice
  rw [hn.isContinuous]
  dsimp only
  rw [keep_self]
  have e : m.load.heap = m.heap := rfl
  rw [e]
  by_cases hgt : ti > tj
  · simp only [if_pos hgt]; exact ⟨ho, rfl, trivial⟩
  · simp only [if_neg hgt]
    cases windowSnaps ⟨m.heap, m.load.lgm⟩ ti tj (sortedKeys m.load.lgm.snaps) with
    | none => exact ⟨ho, rfl, rfl⟩
    | some snaps =>
      dsimp only
      by_cases hs : snaps = []
      · simp only [if_pos hs]
        cases (windowPatches m.load.lgm ti tj (sortedKeys m.load.lgm.patches)).1 with
        | nil => exact ⟨ho, rfl, rfl⟩
        | cons start vs =>
          dsimp only
          have e2 : (⟨m.heap, m.load.lgm⟩ : St) = m.load := rfl
          rw [e2]
          rcases hS : m.load.temporalSnapshot o ti with ⟨s', w⟩
          rcases hM : m.temporalSnapshot o ti with ⟨m', w'⟩
          rw [hS, hM] at t2 t3
          rw [hM] at t1
          simp only at t1 t2 t3
          subst t3
          cases w' <;> exact ⟨t1, t2, rfl⟩
      · simp only [if_neg hs]; exact ⟨ho, rfl, trivial⟩

/-- The loops writing back compacted patches. -/
theorem mem_compactVersions (sel : Op → Sel) (q : Option Sl) (vs : List Nat) : ∀ {latest} {A : Arrs} {ps : List (Nat × Sl)},
    Own A ps q →
    Own (compactMem sel latest A ps vs).1.1 (compactMem sel latest A ps vs).1.2 q ∧
    loadP (compactMem sel latest A ps vs).1.1 (compactMem sel latest A ps vs).1.2 =
      (compactVersions sel latest (loadP A ps) vs).1 ∧
    (compactMem sel latest A ps vs).2 = (compactVersions sel latest (loadP A ps) vs).2 ∧
    Extends A (compactMem sel latest A ps vs).1.1 := by
  induction vs with
  | nil => intro latest A ps h; exact ⟨h, rfl, rfl, .refl A⟩
  | cons v vs ih =>
    intro latest A ps h
    have e : (mget (loadP A ps) v).getD [] = opsOf A (mget ps v) := by rw [mget_loadP, opsOf_eq]
    simp only [compactMem, compactVersions, e]
    cases hc : compactOps sel latest (opsOf A (mget ps v)) with
    | none => exact ⟨h, rfl, rfl, .refl A⟩
    | some r =>
      obtain ⟨out, lat⟩ := r
      dsimp only
      obtain ⟨m1, m2, m3⟩ := make_ok A out ((opsOf A (mget ps v)).length - out.length)
      have he := extends_make A out ((opsOf A (mget ps v)).length - out.length)
      have hf := h.fresh he (v := v) m1 (Nat.le_of_eq m3.symm)
      obtain ⟨i1, i2, i3, i4⟩ := ih (latest := lat) hf
      have hl := loadP_mset (A := A) (B := (A.make out ((opsOf A (mget ps v)).length - out.length)).1) h.keys (v := v)
        (s := (A.make out ((opsOf A (mget ps v)).length - out.length)).2) fun w t _ ht => ((h.ok w t ht).ext he).2
      rw [m2] at hl
      rw [hl] at i2 i3
      exact ⟨i1, i2, i3, he.trans i4⟩

theorem mem_track {m : MSt} (ho : m.Own) {n : Nat} (hn : m.load.lgm.Versions n) (vi vj : Nat) :
    (m.track vi vj).1.Own ∧ (m.track vi vj).1.load = ⟨m.heap, (m.load.lgm.track vi vj).1⟩ ∧
      (m.track vi vj).2.map (MRet.load (m.track vi vj).1.arrs) = (m.load.lgm.track vi vj).2.map .patches := by
  unfold MSt.track Lgm.track
  rw [hn.checkRange]
  by_cases hr : vi ≤ vj ∧ vj ≤ n
  · simp only [hr, and_self, decide_true]
    rw [keep_self]
    have hk : mkeys (restrict (loadP m.arrs m.log.patches) [] vi vj) = mkeys (restrict m.log.patches default vi vj) := by
      rw [← restrict_loadP m.arrs]; simp [mkeys]
    obtain ⟨c1, c2, c3, c4⟩ := mem_compactVersions (fun _ => .compare) m.log.pool
      (sortNat (mkeys (restrict m.log.patches default vi vj))) (latest := []) ho
    rw [load_patches, hk]
    rcases hM : compactMem (fun _ => .compare) [] m.arrs m.log.patches
      (sortNat (mkeys (restrict m.log.patches default vi vj))) with ⟨⟨A, ps⟩, b⟩
    rcases hV : compactVersions (fun _ => .compare) [] (loadP m.arrs m.log.patches)
      (sortNat (mkeys (restrict m.log.patches default vi vj))) with ⟨ps', b'⟩
    rw [hM] at c1 c4
    rw [hM, hV] at c2 c3
    simp only at c1 c2 c3 c4
    subst c2; subst c3
    have hq : m.log.pool.map (Sl.ops A) = m.log.pool.map (Sl.ops m.arrs) := by
      cases hp : m.log.pool with
      | none => rfl
      | some p => simp only [Option.map_some, ((ho.poolOk p hp).ext c4).2]
    have hload : MSt.load { m with arrs := A, log := { m.log with patches := ps } } =
        ⟨m.heap, { m.load.lgm with patches := loadP A ps }⟩ := by
      simp only [MSt.load, MLog.load, hq]; rfl
    cases b with
    | false => exact ⟨c1, hload, rfl⟩
    | true =>
      refine ⟨c1, hload, ?_⟩
      simp only [Res.map, MRet.load, ← restrict_loadP m.arrs]
      congr 2
      apply List.map_congr_left
      intro x hx
      have : x.1 ∈ mkeys m.log.patches := (mem_restrict_keys.1 (List.mem_map.2 ⟨x, hx, rfl⟩)).1
      obtain ⟨s, hs⟩ := mget_isSome.2 this
      have hx2 : x.2 = s := by
        unfold restrict at hx
        obtain ⟨w, -, rfl⟩ := List.mem_map.1 hx
        simp [hs]
      rw [hx2, ((ho.ok _ _ hs).ext c4).2]
  · simp only [hr, decide_false]
    exact ⟨ho, rfl, rfl⟩

theorem mem_compact {m : MSt} (ho : m.Own) {n : Nat} (hn : m.load.lgm.Versions n) (pre : Bytes) :
    (m.compact pre).1.Own ∧ (m.compact pre).1.load = ⟨m.heap, (m.load.lgm.compact pre).1⟩ ∧
      (m.compact pre).2 = (m.load.lgm.compact pre).2 ∧ (m.compact pre).1.heap = m.heap := by
  unfold MSt.compact Lgm.compact
  rw [hn.isContinuous]
  dsimp only
  rw [keep_self]
  have hk : sortedKeys m.load.lgm.patches = sortedKeys m.log.patches := by
    unfold sortedKeys; rw [load_patches, mkeys_loadP]
  rw [hk, load_patches]
  obtain ⟨c1, c2, c3, c4⟩ := mem_compactVersions (selPrefix pre) m.log.pool (sortedKeys m.log.patches) (latest := []) ho
  rcases hM : compactMem (selPrefix pre) [] m.arrs m.log.patches (sortedKeys m.log.patches) with ⟨⟨A, ps⟩, b⟩
  rcases hV : compactVersions (selPrefix pre) [] (loadP m.arrs m.log.patches) (sortedKeys m.log.patches) with ⟨ps', b'⟩
  rw [hM] at c1 c4
  rw [hM, hV] at c2 c3
  simp only at c1 c2 c3 c4
  subst c2; subst c3
  have hq : m.log.pool.map (Sl.ops A) = m.log.pool.map (Sl.ops m.arrs) := by
    cases hp : m.log.pool with
    | none => rfl
    | some p => simp only [Option.map_some, ((ho.poolOk p hp).ext c4).2]
  have hload : MSt.load { m with arrs := A, log := { m.log with patches := ps } } =
      ⟨m.heap, { m.load.lgm with patches := loadP A ps }⟩ := by
    simp only [MSt.load, MLog.load, hq]; rfl
  cases b <;> exact ⟨c1, hload, rfl, rfl⟩

theorem mem_history {m : MSt} (ho : m.Own) {n : Nat} (hn : m.load.lgm.Versions n) (o : Oracle) (pre : Bytes) :
    (m.history o pre).1.Own ∧ (m.history o pre).1.load = (m.load.history o pre).1 ∧
      (m.history o pre).2 = (m.load.history o pre).2 := by
  obtain ⟨c1, c2, c3, c4⟩ := mem_compact ho hn pre
  unfold MSt.history St.history
  rw [hn.isContinuous]
  dsimp only
  rw [keep_self]
  rcases hM : m.compact pre with ⟨m', w⟩
  rcases hV : m.load.lgm.compact pre with ⟨g, w'⟩
  rw [hM] at c1 c4
  rw [hM, hV] at c2 c3
  simp only at c1 c2 c3 c4
  subst c3
  have e1 : m'.load.lgm = g := by rw [c2]
  have e2 : m.load.heap = m.heap := rfl
  cases w with
  | err => exact ⟨c1, c2, rfl⟩
  | panic => exact ⟨c1, c2, rfl⟩
  | ok u =>
    dsimp only
    rw [e1, c4, e2]
    split
    · exact ⟨c1, c2, rfl⟩
    · cases m.heap.view (g.snap 0) with
      | none => exact ⟨c1, c2, rfl⟩
      | some doc =>
        dsimp only
        cases addInitial doc (collectPatches pre [] (o.orderPatches g.patches)) <;> exact ⟨c1, c2, rfl⟩

/-! ### All calls -/

theorem map_map {α β γ : Type} (r : Res α) (f : α → β) (g : β → γ) : (r.map f).map g = r.map fun a => g (f a) := by
  cases r <;> rfl

theorem mem_step {m : MSt} (ho : m.Own) {n : Nat} (hn : m.load.lgm.Versions n) {c : MCall} (hc : Careful m c) :
    (mstep m c).1.Own ∧ match c.load m.arrs with
      | some c' => (mstep m c).1.load = (step m.load c').1 ∧
          (mstep m c).2.map (MRet.load (mstep m c).1.arrs) = (step m.load c').2
      | none => (mstep m c).1.load = m.load := by
  cases c with
  | store a k =>
    obtain ⟨h1, h2, h3⟩ := mem_store ho hc
    refine ⟨h1, h2, ?_⟩
    simp only [mstep, step, St.onLgm, map_map, h3]; rfl
  | append =>
    obtain ⟨h1, h2, h3, -⟩ := mem_append ho hn
    refine ⟨h1, h2, ?_⟩
    simp only [mstep, step, St.onLgm, map_map, h3]; rfl
  | set vk op k =>
    obtain ⟨h1, h2, h3⟩ := mem_set ho vk op k
    refine ⟨h1, h2, ?_⟩
    simp only [mstep, step, map_map, h3]; rfl
  | testSet vk op k =>
    obtain ⟨h1, h2, h3⟩ := mem_testSet ho vk op k
    refine ⟨h1, h2, ?_⟩
    simp only [mstep, step, map_map, h3]; rfl
  | snapshot v =>
    obtain ⟨sn, hsn⟩ := St.snapshot_lgm hn v
    obtain ⟨h1, h2⟩ := mem_keep ho (s := (m.load.snapshot v).1) (by rw [hsn]) (by rw [hsn])
    refine ⟨h1, h2, ?_⟩
    simp only [mstep, step, map_map]; rfl
  | temporalSnapshot o t =>
    obtain ⟨h1, h2, h3⟩ := mem_temporalSnapshot ho hn o t
    refine ⟨h1, h2, ?_⟩
    simp only [mstep, step, map_map, h3]; rfl
  | slice vi vj => exact mem_slice ho hn vi vj
  | temporalSlice o ti tj =>
    obtain ⟨h1, h2, h3⟩ := mem_temporalSlice ho hn o ti tj
    refine ⟨h1, h2, ?_⟩
    simp only [mstep, step, map_map, h3]; rfl
  | track vi vj => exact mem_track ho hn vi vj
  | temporalTrack ti tj =>
    have hg : (m.load.lgm.temporalTrack ti tj).1 = m.load.lgm := by
      unfold Lgm.temporalTrack
      split
      · rfl
      · split <;> rfl
    obtain ⟨h1, h2⟩ := mem_keep ho (s := ⟨m.heap, (m.load.lgm.temporalTrack ti tj).1⟩) (by rw [hg]) (by rw [hg])
    refine ⟨h1, h2, ?_⟩
    simp only [mstep, step, St.onLgm, map_map]; rfl
  | compact pre =>
    obtain ⟨h1, h2, h3, -⟩ := mem_compact ho hn pre
    refine ⟨h1, h2, ?_⟩
    simp only [mstep, step, St.onLgm, map_map, h3]; rfl
  | history o pre =>
    obtain ⟨h1, h2, h3⟩ := mem_history ho hn o pre
    refine ⟨h1, h2, ?_⟩
    simp only [mstep, step, map_map, h3]; rfl
  | caller B =>
    obtain ⟨b1, b2, b3⟩ := hc
    have hk : ∀ s : Sl, s.Ok m.arrs → B.arr s.addr = m.arrs.arr s.addr → s.Ok B ∧ s.ops B = s.ops m.arrs := by
      intro s hs he
      exact ⟨⟨Nat.lt_of_lt_of_le hs.lt b1, hs.len, by rw [he]; exact hs.room⟩, by unfold Sl.ops; rw [he]⟩
    refine ⟨⟨ho.keys, fun v s hs => (hk s (ho.ok v s hs) (b2 v s hs)).1,
      fun p hp => (hk p (ho.poolOk p hp) (b3 p hp)).1, ho.apart, ho.poolApart⟩, ?_⟩
    have hp := loadP_congr ho.keys fun v s hs => (hk s (ho.ok v s hs) (b2 v s hs)).2
    have hq : m.log.pool.map (Sl.ops B) = m.log.pool.map (Sl.ops m.arrs) := by
      cases hp : m.log.pool with
      | none => rfl
      | some p => simp only [Option.map_some, (hk p (ho.poolOk p hp) (b3 p hp)).2]
    simp only [mstep, MSt.load, MLog.load, hq]
    congr 2

end Verif
