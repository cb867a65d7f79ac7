import Verif.SpecJson
import Verif.QuoteLemmas
import Verif.FloatLemmas
/-
Lemmas on the pieces of the JSON conversions: key sorting, UTF-8 sanitizing, timestamps as floats.
-/
namespace Verif

/-! ### Sorting by key -/

theorem bytesLe_refl (s : Bytes) : bytesLe s s = true := by
  induction s with
  | nil => rfl
  | cons c s ih => simp [bytesLe, ih]

theorem bytesLe_total (a b : Bytes) : bytesLe a b = true ∨ bytesLe b a = true := by
  induction a generalizing b with
  | nil => exact .inl rfl
  | cons c a ih =>
    cases b with
    | nil => exact .inr rfl
    | cons d b =>
      simp only [bytesLe]
      by_cases h1 : c < d
      · simp [h1]
      · by_cases h2 : d < c
        · simp [h2]
        · simp [h1, h2, ih b]

theorem bytesLe_antisymm {a b : Bytes} (h1 : bytesLe a b = true) (h2 : bytesLe b a = true) : a = b := by
  induction a generalizing b with
  | nil => cases b with
    | nil => rfl
    | cons d b => simp [bytesLe] at h2
  | cons c a ih =>
    cases b with
    | nil => simp [bytesLe] at h1
    | cons d b =>
      simp only [bytesLe] at h1 h2
      by_cases h3 : c < d
      · have h4 : ¬ d < c := by simp only [UInt8.lt_iff_toNat_lt] at h3 ⊢; omega
        simp [h3, h4] at h2
      · by_cases h4 : d < c
        · simp [h3, h4] at h1
        · simp only [if_neg h3, if_neg h4] at h1 h2
          have : c = d := by
            rw [← UInt8.toNat_inj]
            simp only [UInt8.lt_iff_toNat_lt] at h3 h4; omega
          rw [this, ih h1 h2]

theorem bytesLe_trans {a b c : Bytes} (h1 : bytesLe a b = true) (h2 : bytesLe b c = true) : bytesLe a c = true := by
  induction a generalizing b c with
  | nil => rfl
  | cons x a ih =>
    cases b with
    | nil => simp [bytesLe] at h1
    | cons y b =>
      cases c with
      | nil => simp [bytesLe] at h2
      | cons z c =>
        simp only [bytesLe, UInt8.lt_iff_toNat_lt] at h1 h2 ⊢
        by_cases a1 : x.toNat < y.toNat
        · by_cases b1 : y.toNat < z.toNat
          · rw [if_pos (by omega)]
          · rw [if_neg b1] at h2
            by_cases b2 : z.toNat < y.toNat
            · rw [if_pos b2] at h2; cases h2
            · rw [if_pos (by omega)]
        · rw [if_neg a1] at h1
          by_cases a2 : y.toNat < x.toNat
          · rw [if_pos a2] at h1; cases h1
          · rw [if_neg a2] at h1
            by_cases b1 : y.toNat < z.toNat
            · rw [if_pos (by omega)]
            · rw [if_neg b1] at h2
              by_cases b2 : z.toNat < y.toNat
              · rw [if_pos b2] at h2; cases h2
              · rw [if_neg b2] at h2
                rw [if_neg (by omega), if_neg (by omega)]
                exact ih h1 h2

theorem insertM_perm (p : Bytes × α) (m : List (Bytes × α)) : (insertM p m).Perm (p :: m) := by
  induction m with
  | nil => exact .refl _
  | cons q m ih =>
    simp only [insertM]
    split
    · exact .refl _
    · exact (ih.cons q).trans (.swap p q m)

theorem sortM_perm (m : List (Bytes × α)) : (sortM m).Perm m := by
  induction m with
  | nil => exact .refl _
  | cons p m ih => exact (insertM_perm p (sortM m)).trans (ih.cons p)

theorem sortM_length (m : List (Bytes × α)) : (sortM m).length = m.length := (sortM_perm m).length_eq

theorem mkeys_perm {m n : List (Bytes × α)} (h : m.Perm n) : (mkeys m).Perm (mkeys n) := h.map Prod.fst

theorem sortM_nodup {m : List (Bytes × α)} (h : (mkeys m).Nodup) : (mkeys (sortM m)).Nodup :=
  (mkeys_perm (sortM_perm m)).symm.nodup h

theorem mget_perm {m n : List (Bytes × α)} (h : m.Perm n) (hn : (mkeys m).Nodup) (k : Bytes) : mget m k = mget n k := by
  have hn' : (mkeys n).Nodup := (mkeys_perm h).nodup hn
  cases e : mget m k with
  | some v => exact (mem_mget hn' (h.subset (mget_mem e))).symm
  | none =>
    have : k ∉ mkeys n := fun hk => mget_eq_none.1 e ((mkeys_perm h).mem_iff.2 hk)
    exact (mget_eq_none.2 this).symm

theorem mget_sortM {m : List (Bytes × α)} (hn : (mkeys m).Nodup) (k : Bytes) : mget (sortM m) k = mget m k :=
  (mget_perm (sortM_perm m).symm hn k).symm

/-- Apply a function to the values. -/
def mapV (f : α → β) (m : List (Bytes × α)) : List (Bytes × β) := m.map fun p => (p.1, f p.2)

theorem insertM_mapV (f : α → β) (p : Bytes × α) (m : List (Bytes × α)) :
    insertM (p.1, f p.2) (mapV f m) = mapV f (insertM p m) := by
  induction m with
  | nil => rfl
  | cons q m ih =>
    simp only [mapV, List.map_cons, insertM] at ih ⊢
    split
    · rfl
    · rw [ih]; rfl

theorem sortM_mapV (f : α → β) (m : List (Bytes × α)) : sortM (mapV f m) = mapV f (sortM m) := by
  induction m with
  | nil => rfl
  | cons p m ih =>
    have : sortM (mapV f (p :: m)) = insertM (p.1, f p.2) (sortM (mapV f m)) := rfl
    rw [this, ih, insertM_mapV]; rfl

theorem mkeys_mapV (f : α → β) (m : List (Bytes × α)) : mkeys (mapV f m) = mkeys m := by
  simp [mkeys, mapV, Function.comp_def]

theorem mget_mapV (f : α → β) (m : List (Bytes × α)) (k : Bytes) : mget (mapV f m) k = (mget m k).map f := by
  induction m with
  | nil => rfl
  | cons p m ih =>
    obtain ⟨k', v⟩ := p
    have : mapV f ((k', v) :: m) = (k', f v) :: mapV f m := rfl
    rw [this, mget_cons, mget_cons, ih]
    split <;> rfl

theorem mapV_mapV (f : α → β) (g : β → γ) (m : List (Bytes × α)) : mapV g (mapV f m) = mapV (fun v => g (f v)) m := by
  simp [mapV, Function.comp_def]

theorem mapV_length (f : α → β) (m : List (Bytes × α)) : (mapV f m).length = m.length := by simp [mapV]

theorem mapV_congr {f g : α → β} {m : List (Bytes × α)} (h : ∀ p ∈ m, f p.2 = g p.2) : mapV f m = mapV g m := by
  unfold mapV
  exact List.map_congr_left fun p hp => by rw [h p hp]

theorem insertM_sorted {p : Bytes × α} {m : List (Bytes × α)}
    (h : m.Pairwise fun a b => bytesLe a.1 b.1 = true) :
    (insertM p m).Pairwise fun a b => bytesLe a.1 b.1 = true := by
  induction m with
  | nil => simp [insertM]
  | cons q m ih =>
    simp only [insertM]
    rw [List.pairwise_cons] at h
    split
    · rename_i hle
      rw [List.pairwise_cons, List.pairwise_cons]
      refine ⟨fun x hx => ?_, h⟩
      rcases List.mem_cons.1 hx with rfl | hx
      · exact hle
      · exact bytesLe_trans hle (h.1 x hx)
    · rename_i hle
      rw [List.pairwise_cons]
      refine ⟨fun x hx => ?_, ih h.2⟩
      rcases List.mem_cons.1 ((insertM_perm p m).subset hx) with rfl | hx
      · exact (bytesLe_total x.1 q.1).resolve_left hle
      · exact h.1 x hx

theorem sortM_sorted (m : List (Bytes × α)) : (sortM m).Pairwise fun a b => bytesLe a.1 b.1 = true := by
  induction m with
  | nil => exact .nil
  | cons p m ih => exact insertM_sorted ih

/-- Maps with the same entries are sorted into the same list. -/
theorem sortM_eq {m n : List (Bytes × α)} (h : m.Perm n) (hn : (mkeys m).Nodup) : sortM m = sortM n := by
  refine List.Perm.eq_of_pairwise (le := fun a b => bytesLe a.1 b.1 = true) ?_ (sortM_sorted m) (sortM_sorted n)
    ((sortM_perm m).trans (h.trans (sortM_perm n).symm))
  intro a b ha hb h1 h2
  have hk := bytesLe_antisymm h1 h2
  have ha' : (a.1, a.2) ∈ m := (sortM_perm m).subset ha
  have hb' : (b.1, b.2) ∈ m := h.symm.subset ((sortM_perm n).subset hb)
  have e1 := mem_mget hn ha'
  have e2 := mem_mget hn hb'
  rw [hk, e2] at e1
  exact Prod.ext hk (Option.some.inj e1).symm

theorem sortM_idem {m : List (Bytes × α)} (hn : (mkeys m).Nodup) : sortM (sortM m) = sortM m :=
  sortM_eq (sortM_perm m) (sortM_nodup hn)

/-! ### Filling a map -/

theorem foldl_mset_fresh (m : List (Bytes × α)) : ∀ acc, (mkeys (acc ++ m)).Nodup →
    m.foldl (fun acc p => mset acc p.1 p.2) acc = acc ++ m := by
  induction m with
  | nil => intro acc _; simp
  | cons p m ih =>
    intro acc h
    obtain ⟨k, v⟩ := p
    have hk : k ∉ mkeys acc := by
      intro hk
      simp only [mkeys, List.map_append, List.map_cons] at h hk
      exact (List.nodup_append.1 h).2.2 k hk k (by simp) rfl
    have hm : mset acc k v = acc ++ [(k, v)] := by
      clear h ih
      induction acc with
      | nil => rfl
      | cons q acc ih =>
        obtain ⟨k', v'⟩ := q
        simp only [mkeys, List.map_cons, List.mem_cons, not_or] at hk
        rw [mset, if_neg (fun h => hk.1 h.symm), ih hk.2]; rfl
    rw [List.foldl_cons, hm, ih]
    · simp
    · simpa using h

theorem fillMap_nodup {m : List (Bytes × Js)} (h : (mkeys m).Nodup) : fillMap m = m := by
  unfold fillMap
  rw [foldl_mset_fresh m [] h]; rfl

/-! ### UTF-8 -/

theorem sanitizeN_valid {s : Bytes} (h : ValidUtf8 s) : ∀ {n : Nat}, s.length ≤ n → sanitizeN n s = s := by
  induction h with
  | nil => intro n _; cases n <;> rfl
  | ascii hc _ ih =>
    intro n hn
    cases n with
    | zero => simp at hn
    | succ n =>
      rw [sanitizeN, if_pos hc, ih (by simp only [List.length_cons] at hn; omega)]
  | rune hr _ ih =>
    rename_i r s _
    intro n hn
    obtain ⟨c, l, hc, hge⟩ := utf8Enc_cons hr
    have hat := runeAt_utf8Enc hr s
    have hlen : (utf8Enc r).length = l.length + 1 := by rw [hc]; rfl
    cases n with
    | zero => rw [hc] at hn; simp at hn
    | succ n =>
      rw [hc, List.cons_append] at hat
      rw [hc, List.cons_append, sanitizeN, if_neg hge, hat]
      simp only [← List.cons_append, ← hc]
      rw [List.take_left, List.drop_left, ih (by rw [List.length_append] at hn; omega)]

theorem sanitize_valid {s : Bytes} (h : ValidUtf8 s) : sanitize s = s := sanitizeN_valid h (Nat.le_refl _)

/-! ### Timestamps as floats -/

theorem toInt64_feq {f g : F64} (h : F64.feq f g = true) : f.toInt64 = g.toInt64 := by
  cases f <;> cases g <;> simp only [F64.feq] at h
  all_goals try (cases h; done)
  · rfl
  · rename_i a m e h1 b m' e' h2
    simp only [Bool.or_eq_true, Bool.and_eq_true, beq_iff_eq] at h
    rcases h with ⟨rfl, rfl⟩ | ⟨⟨rfl, rfl⟩, rfl⟩
    · simp [F64.toInt64]
    · rfl

/-- Integers up to 2^53 are exact. -/
theorem ofInt_exact {n : Int} (h1 : -9007199254740992 ≤ n) (h2 : n ≤ 9007199254740992) : (F64.ofInt n).toInt64 = n := by
  by_cases h0 : n = 0
  · subst h0; decide +kernel
  by_cases hmax : n.natAbs = 9007199254740992
  · have : n = 9007199254740992 ∨ n = -9007199254740992 := by omega
    rcases this with rfl | rfl <;> decide
  have hpos : n.natAbs ≠ 0 := by omega
  have hlt : n.natAbs < 2 ^ 53 := by simp only [Nat.reducePow]; omega
  have hlo := Nat.log2_self_le hpos
  have hhi := Nat.lt_log2_self (n := n.natAbs)
  have hL : n.natAbs.log2 < 53 := (Nat.log2_lt hpos).2 hlt
  generalize n.natAbs.log2 = L at *
  have e1 : n.natAbs * 2 ^ (52 - L) < 2 ^ 53 := by
    have : n.natAbs * 2 ^ (52 - L) < 2 ^ (L + 1) * 2 ^ (52 - L) :=
      Nat.mul_lt_mul_of_pos_right hhi (Nat.two_pow_pos _)
    rwa [← Nat.pow_add, show L + 1 + (52 - L) = 53 by omega] at this
  have e2 : 2 ^ 52 ≤ n.natAbs * 2 ^ (52 - L) := by
    have : 2 ^ L * 2 ^ (52 - L) ≤ n.natAbs * 2 ^ (52 - L) := Nat.mul_le_mul_right _ hlo
    rwa [← Nat.pow_add, show L + (52 - L) = 52 by omega] at this
  have hc : F64.canon (n.natAbs * 2 ^ (52 - L)) ((L : Int) - 52) = true := by
    simp only [F64.canon, Bool.and_eq_true, Bool.or_eq_true, decide_eq_true_eq]
    exact ⟨⟨⟨e1, by omega⟩, by omega⟩, .inl e2⟩
  have hr := F64.ofRatio_exact (neg := decide (n < 0)) (p := n.natAbs) (q := 1) hc (by omega) (by
    rw [show (-((L : Int) - 52)).toNat = 52 - L by omega, show ((L : Int) - 52).toNat = 0 by omega]; simp)
  unfold F64.ofInt
  rw [hr, Option.getD_some, F64.toInt64]
  have ha : (if 0 ≤ (L : Int) - 52 then n.natAbs * 2 ^ (52 - L) * 2 ^ ((L : Int) - 52).toNat
      else n.natAbs * 2 ^ (52 - L) / 2 ^ (-((L : Int) - 52)).toNat) = n.natAbs := by
    split
    · rw [show ((L : Int) - 52).toNat = 0 by omega, show 52 - L = 0 by omega]; simp
    · rw [show (-((L : Int) - 52)).toNat = 52 - L by omega]
      exact Nat.mul_div_cancel _ (Nat.two_pow_pos _)
  simp only [ha]
  have hv : (if decide (n < 0) = true then -(n.natAbs : Int) else (n.natAbs : Int)) = n := by
    split <;> rename_i h <;> simp only [decide_eq_true_eq] at h <;> omega
  rw [hv, if_pos]
  unfold minInt64 maxInt64
  omega

end Verif
