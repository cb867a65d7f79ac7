import Verif.ApplyTree
/-
`Rep h v t F`: the heap value `v` denotes the tree `t` in heap `h`, and `F` is the set of
cells it owns.  There is no sharing inside the document (all cells are reached exactly once).
-/
namespace Verif

/-- A set of heap addresses. [not in the code; storage of internal/tson/tson.go:31, 36] -/
abbrev Foot := Nat → Prop

/-- Two footprints have no common address. [not in the code; storage of internal/tson/tson.go:31, 36] -/
def Disj (F G : Foot) : Prop := ∀ x, F x → ¬ G x

/-- A list of heap values denotes a list of trees, pairwise without sharing.
[not in the code; relates the heap to documents of internal/tson/tson.go:25-49] -/
inductive RepL (h : Heap) : List HVal → List Tson → Foot → Prop
  | nil : RepL h [] [] (fun _ => False)
  | null {vs ts F} : RepL h vs ts F → RepL h (.null :: vs) (.null :: ts) F
  | leaf {vs ts F p s} : RepL h vs ts F → RepL h (.leaf p s :: vs) (.leaf p s :: ts) F
  | obj {vs ts a m tm F₁ F₂} :
      h[a]? = some (.map m) → mkeys m = mkeys tm → (mkeys m).Nodup →
      RepL h (m.map Prod.snd) (tm.map Prod.snd) F₁ → RepL h vs ts F₂ →
      ¬ F₁ a → ¬ F₂ a → Disj F₁ F₂ →
      RepL h (.obj a :: vs) (.obj tm :: ts) (fun x => x = a ∨ F₁ x ∨ F₂ x)
  | arr {vs ts a n l tl F₁ F₂} :
      h[a]? = some (.back l) → n ≤ l.length →
      RepL h (l.take n) tl F₁ → RepL h vs ts F₂ →
      ¬ F₁ a → ¬ F₂ a → Disj F₁ F₂ →
      RepL h (.arr a n :: vs) (.arr tl :: ts) (fun x => x = a ∨ F₁ x ∨ F₂ x)

/-- The heap value `v` denotes the tree `t` and owns the cells `F`.
[not in the code; relates the heap to documents of internal/tson/tson.go:25-49] -/
def Rep (h : Heap) (v : HVal) (t : Tson) (F : Foot) : Prop := RepL h [v] [t] F

theorem Foot.ext {F G : Foot} (h : ∀ x, F x ↔ G x) : F = G := funext fun x => propext (h x)

theorem RepL.congr {h vs ts F G} (hr : RepL h vs ts F) (e : ∀ x, F x ↔ G x) : RepL h vs ts G :=
  Foot.ext e ▸ hr

theorem RepL.frame {h h' : Heap} {vs ts F} (hr : RepL h vs ts F)
    (hf : ∀ x, F x → h'[x]? = h[x]?) : RepL h' vs ts F := by
  induction hr with
  | nil => exact .nil
  | null _ ih => exact .null (ih hf)
  | leaf _ ih => exact .leaf (ih hf)
  | @obj vs ts a m tm F₁ F₂ h1 h2 h3 _ _ h6 h7 h8 ih1 ih2 =>
    exact .obj (by rw [hf a (Or.inl rfl)]; exact h1) h2 h3
      (ih1 fun x hx => hf x (Or.inr (Or.inl hx))) (ih2 fun x hx => hf x (Or.inr (Or.inr hx))) h6 h7 h8
  | @arr vs ts a n l tl F₁ F₂ h1 h2 _ _ h6 h7 h8 ih1 ih2 =>
    exact .arr (by rw [hf a (Or.inl rfl)]; exact h1) h2
      (ih1 fun x hx => hf x (Or.inr (Or.inl hx))) (ih2 fun x hx => hf x (Or.inr (Or.inr hx))) h6 h7 h8

theorem Rep.frame {h h' : Heap} {v t F} (hr : Rep h v t F)
    (hf : ∀ x, F x → h'[x]? = h[x]?) : Rep h' v t F := RepL.frame hr hf

theorem RepL.lt {h : Heap} {vs ts F} (hr : RepL h vs ts F) : ∀ x, F x → x < h.length := by
  induction hr with
  | nil => simp
  | null _ ih => exact ih
  | leaf _ ih => exact ih
  | obj h1 h2 h3 _ _ h6 h7 h8 ih1 ih2 =>
    rintro x (rfl | hx | hx)
    · exact (List.getElem?_eq_some_iff.1 h1).1
    · exact ih1 x hx
    · exact ih2 x hx
  | arr h1 h2 _ _ h6 h7 h8 ih1 ih2 =>
    rintro x (rfl | hx | hx)
    · exact (List.getElem?_eq_some_iff.1 h1).1
    · exact ih1 x hx
    · exact ih2 x hx

theorem Rep.lt {h : Heap} {v t F} (hr : Rep h v t F) : ∀ x, F x → x < h.length := RepL.lt hr

theorem RepL.length {h : Heap} {vs ts F} (hr : RepL h vs ts F) : vs.length = ts.length := by
  induction hr <;> simp_all

theorem RepL.cons {h : Heap} {v t vs ts F G} (hv : Rep h v t F) (hs : RepL h vs ts G)
    (hd : Disj F G) : RepL h (v :: vs) (t :: ts) (fun x => F x ∨ G x) := by
  unfold Rep at hv
  cases hv with
  | null hn => cases hn; exact (RepL.null hs).congr (by simp)
  | leaf hn => cases hn; exact (RepL.leaf hs).congr (by simp)
  | obj h1 h2 h3 h4 hn h6 h7 h8 =>
    cases hn
    refine (RepL.obj h1 h2 h3 h4 hs h6 ?_ ?_).congr ?_
    · exact hd _ (Or.inl rfl)
    · intro x hx; exact hd x (Or.inr (Or.inl hx))
    · intro x; simp [or_assoc]
  | arr h1 h2 h4 hn h6 h7 h8 =>
    cases hn
    refine (RepL.arr h1 h2 h4 hs h6 ?_ ?_).congr ?_
    · exact hd _ (Or.inl rfl)
    · intro x hx; exact hd x (Or.inr (Or.inl hx))
    · intro x; simp [or_assoc]

theorem RepL.uncons {h : Heap} {v vs ts' F} (hr : RepL h (v :: vs) ts' F) :
    ∃ t ts F₁ F₂, ts' = t :: ts ∧ Rep h v t F₁ ∧ RepL h vs ts F₂ ∧ Disj F₁ F₂ ∧
      F = fun x => F₁ x ∨ F₂ x := by
  cases hr with
  | null hn => exact ⟨_, _, _, _, rfl, .null .nil, hn, by simp [Disj], by simp⟩
  | leaf hn => exact ⟨_, _, _, _, rfl, .leaf .nil, hn, by simp [Disj], by simp⟩
  | @obj _ _ a m tm F₁ F₂ h1 h2 h3 h4 hn h6 h7 h8 =>
    refine ⟨_, _, _, _, rfl, .obj h1 h2 h3 h4 .nil h6 (by simp) (by simp [Disj]), hn, ?_, ?_⟩
    · rintro x (rfl | hx | hx)
      · exact h7
      · exact h8 x hx
      · exact hx.elim
    · exact Foot.ext fun x => by simp [or_assoc]
  | @arr _ _ a n l tl F₁ F₂ h1 h2 h4 hn h6 h7 h8 =>
    refine ⟨_, _, _, _, rfl, .arr h1 h2 h4 .nil h6 (by simp) (by simp [Disj]), hn, ?_, ?_⟩
    · rintro x (rfl | hx | hx)
      · exact h7
      · exact h8 x hx
      · exact hx.elim
    · exact Foot.ext fun x => by simp [or_assoc]

theorem Rep.null {h : Heap} : Rep h .null .null (fun _ => False) := RepL.null .nil

theorem Rep.leaf {h : Heap} {p s} : Rep h (.leaf p s) (.leaf p s) (fun _ => False) := RepL.leaf .nil

theorem Rep.mk_obj {h : Heap} {a m tm F} (h1 : h[a]? = some (.map m)) (h2 : mkeys m = mkeys tm)
    (h3 : (mkeys m).Nodup) (h4 : RepL h (m.map Prod.snd) (tm.map Prod.snd) F) (h5 : ¬ F a) :
    Rep h (.obj a) (.obj tm) (fun x => x = a ∨ F x) :=
  (RepL.obj h1 h2 h3 h4 .nil h5 (by simp) (by simp [Disj])).congr (by simp)

theorem Rep.mk_arr {h : Heap} {a n l tl F} (h1 : h[a]? = some (.back l)) (h2 : n ≤ l.length)
    (h4 : RepL h (l.take n) tl F) (h5 : ¬ F a) :
    Rep h (.arr a n) (.arr tl) (fun x => x = a ∨ F x) :=
  (RepL.arr h1 h2 h4 .nil h5 (by simp) (by simp [Disj])).congr (by simp)

theorem Rep.inv_obj {h : Heap} {a t F} (hr : Rep h (.obj a) t F) :
    ∃ m tm F₁, t = .obj tm ∧ h[a]? = some (.map m) ∧ mkeys m = mkeys tm ∧ (mkeys m).Nodup ∧
      RepL h (m.map Prod.snd) (tm.map Prod.snd) F₁ ∧ ¬ F₁ a ∧ F = fun x => x = a ∨ F₁ x := by
  unfold Rep at hr
  cases hr with
  | @obj _ _ _ m tm F₁ F₂ h1 h2 h3 h4 hn h6 h7 h8 =>
    cases hn
    exact ⟨m, tm, F₁, rfl, h1, h2, h3, h4, h6, Foot.ext (by simp)⟩

theorem Rep.inv_arr {h : Heap} {a n t F} (hr : Rep h (.arr a n) t F) :
    ∃ l tl F₁, t = .arr tl ∧ h[a]? = some (.back l) ∧ n ≤ l.length ∧ tl.length = n ∧
      RepL h (l.take n) tl F₁ ∧ ¬ F₁ a ∧ F = fun x => x = a ∨ F₁ x := by
  unfold Rep at hr
  cases hr with
  | @arr _ _ _ n l tl F₁ F₂ h1 h2 h4 hn h6 h7 h8 =>
    cases hn
    have := h4.length
    refine ⟨l, tl, F₁, rfl, h1, h2, ?_, h4, h6, Foot.ext (by simp)⟩
    simp at this; omega

theorem Rep.inv_null {h : Heap} {t F} (hr : Rep h .null t F) : t = .null ∧ F = fun _ => False := by
  unfold Rep at hr
  cases hr with
  | null hn => cases hn; exact ⟨rfl, rfl⟩

theorem Rep.inv_leaf {h : Heap} {p s t F} (hr : Rep h (.leaf p s) t F) :
    t = .leaf p s ∧ F = fun _ => False := by
  unfold Rep at hr
  cases hr with
  | leaf hn => cases hn; exact ⟨rfl, rfl⟩

/-! ### Focusing on one element -/

theorem RepL.focus {h : Heap} {vs ts F} (hr : RepL h vs ts F) (i : Nat) (v : HVal)
    (hi : vs[i]? = some v) :
    ∃ t Fv Fr, ts[i]? = some t ∧ Rep h v t Fv ∧ Disj Fv Fr ∧ (F = fun x => Fv x ∨ Fr x) ∧
      ∀ (h' : Heap) v' t' G, Rep h' v' t' G → (∀ x, Fr x → h'[x]? = h[x]?) → Disj G Fr →
        RepL h' (vs.set i v') (ts.set i t') (fun x => G x ∨ Fr x) := by
  induction vs generalizing ts F i with
  | nil => simp at hi
  | cons u us ih =>
    obtain ⟨t, ts', F₁, F₂, rfl, hu, hus, hd, rfl⟩ := hr.uncons
    cases i with
    | zero =>
      simp at hi; subst hi
      refine ⟨t, F₁, F₂, rfl, hu, hd, rfl, ?_⟩
      intro h' v' t' G hG hf hGd
      simp only [List.set_cons_zero]
      exact RepL.cons hG (hus.frame hf) hGd
    | succ j =>
      simp at hi
      obtain ⟨t₀, Fv, Fr, h1, h2, h3, h4, h5⟩ := ih hus j hi
      refine ⟨t₀, Fv, fun x => F₁ x ∨ Fr x, by simpa using h1, h2, ?_, ?_, ?_⟩
      · intro x hx hc
        rcases hc with hc | hc
        · exact hd x hc (by rw [h4]; exact Or.inl hx)
        · exact h3 x hx hc
      · subst h4; exact Foot.ext fun x => by grind
      · intro h' v' t' G hG hf hGd
        simp only [List.set_cons_succ]
        have hrest := h5 h' v' t' G hG (fun x hx => hf x (Or.inr hx))
          (fun x hx hc => hGd x hx (Or.inr hc))
        refine (RepL.cons (hu.frame fun x hx => hf x (Or.inl hx)) hrest ?_).congr ?_
        · intro x hx hc
          rcases hc with hc | hc
          · exact hGd x hc (Or.inl hx)
          · exact hd x hx (by rw [h4]; exact Or.inr hc)
        · intro x; grind

theorem RepL.snoc {h : Heap} {vs ts F v t G} (hr : RepL h vs ts F) (hv : Rep h v t G)
    (hd : Disj F G) : RepL h (vs ++ [v]) (ts ++ [t]) (fun x => F x ∨ G x) := by
  induction vs generalizing ts F with
  | nil => cases hr; exact hv.congr (by simp)
  | cons u us ih =>
    obtain ⟨t', ts', F₁, F₂, rfl, hu, hus, hd', rfl⟩ := hr.uncons
    have := ih hus (fun x hx => hd x (Or.inr hx))
    refine (RepL.cons hu this ?_).congr ?_
    · intro x hx hc
      rcases hc with hc | hc
      · exact hd' x hx hc
      · exact hd x (Or.inl hx) hc
    · intro x; simp only [or_assoc]

theorem RepL.append {h : Heap} {vs ts F us ss G} (hr : RepL h vs ts F) (hu : RepL h us ss G)
    (hd : Disj F G) : RepL h (vs ++ us) (ts ++ ss) (fun x => F x ∨ G x) := by
  induction vs generalizing ts F with
  | nil => cases hr; exact hu.congr (by simp)
  | cons u us' ih =>
    obtain ⟨t', ts', F₁, F₂, rfl, hu', hus, hd', rfl⟩ := hr.uncons
    have := ih hus (fun x hx => hd x (Or.inr hx))
    refine (RepL.cons hu' this ?_).congr ?_
    · intro x hx hc
      rcases hc with hc | hc
      · exact hd' x hx hc
      · exact hd x (Or.inl hx) hc
    · intro x; simp only [or_assoc]

theorem RepL.eraseIdx {h : Heap} {vs ts F} (hr : RepL h vs ts F) (i : Nat) :
    ∃ G, RepL h (vs.eraseIdx i) (ts.eraseIdx i) G ∧ ∀ x, G x → F x := by
  induction vs generalizing ts F i with
  | nil => cases hr; exact ⟨_, .nil, fun _ h => h⟩
  | cons u us ih =>
    obtain ⟨t', ts', F₁, F₂, rfl, hu, hus, hd', rfl⟩ := hr.uncons
    cases i with
    | zero => exact ⟨F₂, by simpa using hus, fun x hx => Or.inr hx⟩
    | succ j =>
      obtain ⟨G, hG, hs⟩ := ih hus j
      refine ⟨_, RepL.cons hu hG ?_, ?_⟩
      · intro x hx hc; exact hd' x hx (hs x hc)
      · rintro x (hx | hx)
        · exact Or.inl hx
        · exact Or.inr (hs x hx)

theorem RepL.replicate_null {h : Heap} (n : Nat) :
    RepL h (List.replicate n .null) (List.replicate n .null) (fun _ => False) := by
  induction n with
  | zero => exact .nil
  | succ n ih => exact .null ih

/-! ### Association lists -/

section
variable {κ : Type u} {ν : Type v} {μ : Type w} [DecidableEq κ]

theorem mset_of_not_mem {m : List (κ × ν)} {k : κ} (h : k ∉ mkeys m) (v : ν) :
    mset m k v = m ++ [(k, v)] := by
  induction m with
  | nil => rfl
  | cons p m ih =>
    obtain ⟨k', v'⟩ := p
    simp [mkeys] at h
    have hk : k' ≠ k := fun e => h.1 e.symm
    simp [mset, hk]
    exact ih (by simpa [mkeys] using h.2)

/-- Position of a key. [not in the code; position in the iteration order of internal/tson/tson.go:31] -/
def keyPos (m : List (κ × ν)) (k : κ) : Nat := (mkeys m).idxOf k

theorem keyPos_cons (k' : κ) (v : ν) (m : List (κ × ν)) (k : κ) :
    keyPos ((k', v) :: m) k = if k' = k then 0 else keyPos m k + 1 := by
  by_cases h : k' = k
  · subst h; simp [keyPos, mkeys]
  · have hb : (k' == k) = false := by simpa using h
    simp [keyPos, mkeys, List.idxOf_cons, h, hb]

theorem mget_eq_getElem {m : List (κ × ν)} {k : κ} {v : ν} (h : mget m k = some v) :
    (m.map Prod.snd)[keyPos m k]? = some v := by
  induction m with
  | nil => simp at h
  | cons p m ih =>
    obtain ⟨k', v'⟩ := p
    rw [keyPos_cons]
    by_cases hk : k' = k
    · subst hk; simp [mget] at h; simp [h]
    · simp [mget, hk] at h
      simp [hk]; simpa using ih h

theorem mget_of_keys {m : List (κ × ν)} {tm : List (κ × μ)} (hk : mkeys m = mkeys tm) {k : κ}
    {t : μ} (h : (tm.map Prod.snd)[keyPos m k]? = some t) (hm : k ∈ mkeys m) : mget tm k = some t := by
  induction m generalizing tm with
  | nil => simp [mkeys] at hm
  | cons p m ih =>
    obtain ⟨k', v'⟩ := p
    cases tm with
    | nil => simp [mkeys] at hk
    | cons q tm =>
      obtain ⟨k'', t'⟩ := q
      simp [mkeys] at hk
      obtain ⟨rfl, hk⟩ := hk
      rw [keyPos_cons] at h
      by_cases he : k' = k
      · subst he; simp at h; simp [mget, h]
      · simp [he] at h
        simp [mget, he]
        simp [mkeys, Ne.symm he] at hm
        exact ih (by simpa [mkeys] using hk) (by simpa using h) (by simpa [mkeys] using hm)

theorem mset_map_snd {m : List (κ × ν)} {k : κ} (hm : k ∈ mkeys m) (v : ν) :
    (mset m k v).map Prod.snd = (m.map Prod.snd).set (keyPos m k) v := by
  induction m with
  | nil => simp [mkeys] at hm
  | cons p m ih =>
    obtain ⟨k', v'⟩ := p
    rw [keyPos_cons]
    by_cases hk : k' = k
    · subst hk; simp [mset]
    · simp [mkeys, Ne.symm hk] at hm
      simp [mset, hk]
      exact ih (by simpa [mkeys] using hm)

theorem keyPos_congr {m : List (κ × ν)} {tm : List (κ × μ)} (hk : mkeys m = mkeys tm) (k : κ) :
    keyPos m k = keyPos tm k := by simp [keyPos, hk]

theorem mset_mset (m : List (κ × ν)) (k : κ) (v w : ν) : mset (mset m k v) k w = mset m k w := by
  induction m with
  | nil => simp [mset]
  | cons p m ih =>
    obtain ⟨k', v'⟩ := p
    by_cases hk : k' = k
    · subst hk; simp [mset]
    · simp [mset, hk, ih]

theorem mset_mget_self (m : List (κ × ν)) (k : κ) (v : ν) (h : mget m k = some v) :
    mset m k v = m := by
  induction m with
  | nil => simp at h
  | cons p m ih =>
    obtain ⟨k', v'⟩ := p
    by_cases hk : k' = k
    · subst hk; simp [mget] at h; simp [mset, h]
    · simp [mget, hk] at h; simp [mset, hk, ih h]

theorem mdel_of_not_mem {m : List (κ × ν)} {k : κ} (h : k ∉ mkeys m) : mdel m k = m := by
  induction m with
  | nil => rfl
  | cons p m ih =>
    obtain ⟨k', v'⟩ := p
    simp [mkeys] at h
    have hk : k' ≠ k := fun e => h.1 e.symm
    simp [mdel, hk]
    exact ih (by simpa [mkeys] using h.2)

theorem mdel_map_snd {m : List (κ × ν)} {k : κ} (hn : (mkeys m).Nodup) (hm : k ∈ mkeys m) :
    (mdel m k).map Prod.snd = (m.map Prod.snd).eraseIdx (keyPos m k) := by
  induction m with
  | nil => simp [mkeys] at hm
  | cons p m ih =>
    obtain ⟨k', v'⟩ := p
    rw [keyPos_cons]
    simp only [mkeys, List.map_cons, List.nodup_cons] at hn
    by_cases hk : k' = k
    · subst hk
      simp [mdel]
      rw [mdel_of_not_mem (by simpa [mkeys] using hn.1)]
    · simp [mkeys, Ne.symm hk] at hm
      simp [mdel, hk]
      exact ih hn.2 (by simpa [mkeys] using hm)

theorem mkeys_mset_congr {m : List (κ × ν)} {tm : List (κ × μ)} (hk : mkeys m = mkeys tm) (k : κ)
    (v : ν) (t : μ) : mkeys (mset m k v) = mkeys (mset tm k t) := by
  rw [mkeys_mset, mkeys_mset, hk]

theorem mkeys_mdel_congr {m : List (κ × ν)} {tm : List (κ × μ)} (hk : mkeys m = mkeys tm) (k : κ) :
    mkeys (mdel m k) = mkeys (mdel tm k) := by
  rw [mkeys_mdel, mkeys_mdel, hk]

end

/-! ### Focusing on one member of an object -/

theorem Rep.objFocus {h : Heap} {a : Nat} {t : Tson} {F : Foot} (hr : Rep h (.obj a) t F)
    (k : Bytes) :
    ∃ m tm Fc Fr, t = .obj tm ∧ h[a]? = some (.map m) ∧
      ((∃ c tc, mget m k = some c ∧ mget tm k = some tc ∧ Rep h c tc Fc) ∨
        (mget m k = none ∧ mget tm k = none ∧ Fc = fun _ => False)) ∧
      ¬ Fc a ∧ ¬ Fr a ∧ Disj Fc Fr ∧ (F = fun x => x = a ∨ Fc x ∨ Fr x) ∧
      ∀ (h' : Heap) w s G, Rep h' w s G → (∀ x, Fr x → h'[x]? = h[x]?) → ¬ G a → Disj G Fr →
        h'[a]? = some (.map (mset m k w)) →
        Rep h' (.obj a) (.obj (mset tm k s)) (fun x => x = a ∨ G x ∨ Fr x) := by
  obtain ⟨m, tm, F₁, rfl, h1, h2, h3, h4, h5, rfl⟩ := hr.inv_obj
  by_cases hk : k ∈ mkeys m
  · obtain ⟨c, hc⟩ := mget_isSome.2 hk
    have hce := mget_eq_getElem hc
    obtain ⟨tc, Fv, Fr, g1, g2, g3, g4, g5⟩ := h4.focus _ _ hce
    have htc := mget_of_keys h2 g1 hk
    subst g4
    refine ⟨m, tm, Fv, Fr, rfl, h1, Or.inl ⟨c, tc, hc, htc, g2⟩, ?_, ?_, g3, rfl, ?_⟩
    · exact fun hx => h5 (Or.inl hx)
    · exact fun hx => h5 (Or.inr hx)
    · intro h' w s G hG hf hGa hGd ha
      have := g5 h' w s G hG hf hGd
      refine Rep.mk_obj ha (mkeys_mset_congr h2 _ _ _) (nodup_mkeys_mset h3 _ _) ?_ ?_
      · rw [mset_map_snd hk, mset_map_snd (by rwa [← h2]), ← keyPos_congr h2]
        exact this
      · rintro (hx | hx)
        · exact hGa hx
        · exact h5 (Or.inr hx)
  · have hk' : k ∉ mkeys tm := by rwa [← h2]
    refine ⟨m, tm, fun _ => False, F₁, rfl, h1,
      Or.inr ⟨mget_eq_none.2 hk, mget_eq_none.2 hk', rfl⟩, by simp, h5, by simp [Disj], ?_, ?_⟩
    · exact Foot.ext (by simp)
    · intro h' w s G hG hf hGa hGd ha
      refine (Rep.mk_obj (F := fun x => F₁ x ∨ G x) ha (mkeys_mset_congr h2 _ _ _)
        (nodup_mkeys_mset h3 _ _) ?_ ?_).congr ?_
      · rw [mset_of_not_mem hk, mset_of_not_mem hk']
        simp only [List.map_append, List.map_cons, List.map_nil]
        exact RepL.snoc (h4.frame hf) hG (fun x hx hc => hGd x hc hx)
      · rintro (hx | hx)
        · exact h5 hx
        · exact hGa hx
      · intro x; grind

theorem Rep.objDelete {h : Heap} {a : Nat} {tm : List (Bytes × Tson)} {F : Foot}
    (hr : Rep h (.obj a) (.obj tm) F) (k : Bytes) :
    ∃ G, Rep (h.mapDel a k) (.obj a) (.obj (mdel tm k)) G ∧ ∀ x, G x → F x := by
  obtain ⟨m, tm', F₁, he, h1, h2, h3, h4, h5, rfl⟩ := hr.inv_obj
  cases he
  have hget : h.getMap a = m := by simp [Heap.getMap, h1]
  have hlt : a < h.length := (List.getElem?_eq_some_iff.1 h1).1
  have ha : (h.mapDel a k)[a]? = some (.map (mdel m k)) := by
    simp [Heap.mapDel, hget, hlt]
  have hf : ∀ x, F₁ x → (h.mapDel a k)[x]? = h[x]? := by
    intro x hx
    have : a ≠ x := by rintro rfl; exact h5 hx
    simp [Heap.mapDel, this]
  by_cases hk : k ∈ mkeys m
  · obtain ⟨G, hG, hs⟩ := (h4.frame hf).eraseIdx (keyPos m k)
    refine ⟨_, Rep.mk_obj (F := G) ha (mkeys_mdel_congr h2 _) (nodup_mkeys_mdel h3 _) ?_ ?_, ?_⟩
    · rw [mdel_map_snd h3 hk, mdel_map_snd (by rwa [← h2]) (by rwa [← h2]), ← keyPos_congr h2]
      exact hG
    · exact fun hx => h5 (hs _ hx)
    · rintro x (hx | hx)
      · exact Or.inl hx
      · exact Or.inr (hs _ hx)
  · refine ⟨_, Rep.mk_obj (F := F₁) ha (mkeys_mdel_congr h2 _) (nodup_mkeys_mdel h3 _) ?_ h5, ?_⟩
    · rw [mdel_of_not_mem hk, mdel_of_not_mem (by rwa [← h2])]
      exact h4.frame hf
    · exact fun x hx => hx

end Verif
