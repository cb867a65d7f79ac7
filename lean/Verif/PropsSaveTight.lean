import Verif.PropsVssSave
import Verif.FloatError
/-
C77: which data sets are saved as an empty file, which lines of a patch cannot be written, and how plain numbers are rounded.
-/
namespace Verif

/-- The map is a reading with this value: exactly the keys `value` and `timestamp`, the latter a number. -/
def ReadingMap (m : List (Bytes × Js)) (v : Js) : Prop :=
  m.length = 2 ∧ mget m b!"value" = some v ∧ ((∃ f, mget m b!"timestamp" = some (.num f)) ∨ ∃ n, mget m b!"timestamp" = some (.int n))

/-- Data that `MarshalIndent` refuses: somewhere an integer outside a reading, or a reading whose value is nil, a map or an array. -/
inductive Unsavable : Js → Prop
  | int (n : Int) : Unsavable (.int n)
  | reading {m : List (Bytes × Js)} {v : Js} : ReadingMap m v → (v = .null ∨ (∃ m', v = .obj m') ∨ ∃ l, v = .arr l) → Unsavable (.obj m)
  | member {m : List (Bytes × Js)} {k : Bytes} {w : Js} : (∀ v, ¬ ReadingMap m v) → (k, w) ∈ m → Unsavable w → Unsavable (.obj m)
  | elem {l : List Js} {w : Js} : w ∈ l → Unsavable w → Unsavable (.arr l)

theorem checkLeaf_readingMap {m : List (Bytes × Js)} {v : Js} : (∃ ts, checkLeaf m = some (v, ts)) ↔ ReadingMap m v := by
  unfold checkLeaf ReadingMap
  by_cases h : m.length = 2
  · rw [if_pos h]
    constructor
    · rintro ⟨ts, e⟩
      split at e
      · rename_i h1 h2
        cases e
        exact ⟨h, h1, .inl ⟨_, h2⟩⟩
      · rename_i h1 h2
        cases e
        exact ⟨h, h1, .inr ⟨_, h2⟩⟩
      · cases e
    · rintro ⟨-, h1, ⟨f, h2⟩ | ⟨n, h2⟩⟩
      · rw [h1, h2]; exact ⟨_, rfl⟩
      · rw [h1, h2]; exact ⟨_, rfl⟩
  · rw [if_neg h]
    constructor
    · rintro ⟨ts, e⟩; cases e
    · rintro ⟨k, -⟩; exact absurd k h

theorem checkLeaf_noMap {m : List (Bytes × Js)} (h : checkLeaf m = none) (v : Js) : ¬ ReadingMap m v := by
  intro k
  obtain ⟨ts, e⟩ := checkLeaf_readingMap.2 k
  rw [h] at e; cases e

mutual
theorem anyIndent_iff (P : Nat → Bool) (cur ind : Bytes) (ctx : Ctx) : ∀ v : Js,
    (Unsavable v → anyIndent P cur ind ctx v = .err) ∧ (¬ Unsavable v → ∃ s, anyIndent P cur ind ctx v = .ok s ∧ (ctx = .top → ∀ m, v = .obj m → s ≠ []))
  | .null => ⟨fun h => (by cases h), fun _ => ⟨_, (by rw [anyIndent]), fun _ _ k => (by cases k)⟩⟩
  | .bool b => ⟨fun h => (by cases h), fun _ => ⟨_, (by rw [anyIndent]), fun _ _ k => (by cases k)⟩⟩
  | .num f => ⟨fun h => (by cases h), fun _ => ⟨_, (by rw [anyIndent]), fun _ _ k => (by cases k)⟩⟩
  | .int n => ⟨fun _ => (by rw [anyIndent]), fun h => absurd (.int n) h⟩
  | .str s => ⟨fun h => (by cases h), fun _ => ⟨_, (by rw [anyIndent]), fun _ _ k => (by cases k)⟩⟩
  | .arr l => by
    obtain ⟨h1, h2⟩ := anyElems_iff P cur ind true l
    constructor
    · intro h
      cases h with
      | elem hm hu => rw [anyIndent, h1 ⟨_, hm, hu⟩]; rfl
    · intro h
      obtain ⟨s, e⟩ := h2 fun ⟨w, hm, hu⟩ => h (.elem hm hu)
      exact ⟨_, by rw [anyIndent, e]; rfl, fun _ _ k => by cases k⟩
  | .obj m => by
    obtain ⟨h1, h2⟩ := anyMembers_iff P cur ind true m
    cases hc : checkLeaf m with
    | none =>
      have hn := checkLeaf_noMap hc
      constructor
      · intro h
        cases h with
        | reading hr _ => exact absurd hr (hn _)
        | member _ hm hu => simp only [anyIndent, hc]; rw [h1 ⟨_, _, hm, hu⟩]; rfl
      · intro h
        obtain ⟨s, e⟩ := h2 fun ⟨k, w, hm, hu⟩ => h (.member hn hm hu)
        exact ⟨_, by simp only [anyIndent, hc]; rw [e]; rfl, fun _ _ _ k => by cases k⟩
    | some x =>
      obtain ⟨v, ts⟩ := x
      have hr := checkLeaf_readingMap.1 ⟨ts, hc⟩
      constructor
      · intro h
        cases h with
        | reading hr' hv =>
          obtain ⟨ts', e⟩ := checkLeaf_readingMap.2 hr'
          rw [hc] at e
          cases e
          simp only [anyIndent, hc]
          rcases hv with rfl | ⟨m', rfl⟩ | ⟨l, rfl⟩ <;> rfl
        | member hn _ _ => exact absurd hr (hn _)
      · intro h
        simp only [anyIndent, hc]
        have hne : ∀ s : Bytes, ctx = .top → leafInCtx ctx s ts ≠ [] := by
          rintro s rfl
          simp [leafInCtx]
        cases v with
        | null => exact absurd (.reading hr (.inl rfl)) h
        | obj m' => exact absurd (.reading hr (.inr (.inl ⟨_, rfl⟩))) h
        | arr l => exact absurd (.reading hr (.inr (.inr ⟨_, rfl⟩))) h
        | bool b => exact ⟨_, rfl, fun k _ _ => hne _ k⟩
        | num f => exact ⟨_, rfl, fun k _ _ => hne _ k⟩
        | int n => exact ⟨_, rfl, fun k _ _ => hne _ k⟩
        | str s => exact ⟨_, rfl, fun k _ _ => hne _ k⟩
theorem anyMembers_iff (P : Nat → Bool) (cur ind : Bytes) (first : Bool) : ∀ m : List (Bytes × Js),
    ((∃ k w, (k, w) ∈ m ∧ Unsavable w) → anyMembers P cur ind first m = .err) ∧
    (¬ (∃ k w, (k, w) ∈ m ∧ Unsavable w) → ∃ s, anyMembers P cur ind first m = .ok s)
  | [] => ⟨fun ⟨_, _, h, _⟩ => (by cases h), fun _ => ⟨_, by rw [anyMembers]⟩⟩
  | (k, v) :: m => by
    obtain ⟨a1, a2⟩ := anyIndent_iff P (cur ++ ind) ind .object v
    obtain ⟨b1, b2⟩ := anyMembers_iff P cur ind false m
    by_cases hv : Unsavable v
    · refine ⟨fun _ => by rw [anyMembers, a1 hv]; rfl, fun h => absurd ⟨k, v, by simp, hv⟩ h⟩
    · obtain ⟨s, e, -⟩ := a2 hv
      rw [anyMembers, e]
      constructor
      · rintro ⟨k', w, hm, hu⟩
        rcases List.mem_cons.1 hm with h | h
        · cases h; exact absurd hu hv
        · simp only [Res.bind]; rw [b1 ⟨_, _, h, hu⟩]; rfl
      · intro h
        obtain ⟨s', e'⟩ := b2 fun ⟨k', w, hm, hu⟩ => h ⟨k', w, List.mem_cons_of_mem _ hm, hu⟩
        simp only [Res.bind]
        rw [e']
        exact ⟨_, rfl⟩
theorem anyElems_iff (P : Nat → Bool) (cur ind : Bytes) (first : Bool) : ∀ l : List Js,
    ((∃ w, w ∈ l ∧ Unsavable w) → anyElems P cur ind first l = .err) ∧
    (¬ (∃ w, w ∈ l ∧ Unsavable w) → ∃ s, anyElems P cur ind first l = .ok s)
  | [] => ⟨fun ⟨_, h, _⟩ => (by cases h), fun _ => ⟨_, by rw [anyElems]⟩⟩
  | v :: l => by
    obtain ⟨a1, a2⟩ := anyIndent_iff P (cur ++ ind) ind .array v
    obtain ⟨b1, b2⟩ := anyElems_iff P cur ind false l
    by_cases hv : Unsavable v
    · refine ⟨fun _ => by rw [anyElems, a1 hv]; rfl, fun h => absurd ⟨v, by simp, hv⟩ h⟩
    · obtain ⟨s, e, -⟩ := a2 hv
      rw [anyElems, e]
      constructor
      · rintro ⟨w, hm, hu⟩
        rcases List.mem_cons.1 hm with h | h
        · cases h; exact absurd hu hv
        · simp only [Res.bind]; rw [b1 ⟨_, h, hu⟩]; rfl
      · intro h
        obtain ⟨s', e'⟩ := b2 fun ⟨w, hm, hu⟩ => h ⟨w, List.mem_cons_of_mem _ hm, hu⟩
        simp only [Res.bind]
        rw [e']
        exact ⟨_, rfl⟩
end

/-- C77: saving a data set never panics, and the file is empty exactly if the data contains something that is refused: an integer
outside a reading, or a reading whose value is nil, a map or an array. -/
theorem C77_empty (P : Nat → Bool) (m : List (Bytes × Js)) : ∃ txt, vssSave P (.obj m) = .ok txt ∧ (txt = [] ↔ Unsavable (.obj m)) := by
  obtain ⟨h1, h2⟩ := anyIndent_iff P [] b!"    " .top (.obj m)
  by_cases h : Unsavable (.obj m)
  · exact ⟨[], by rw [vssSave, h1 h], by simp [h]⟩
  · obtain ⟨s, e, k⟩ := h2 h
    exact ⟨s, by rw [vssSave, e], by simp [h, k rfl m rfl]⟩

/-! ### Lines of a patch -/

/-- C77: a line can be written exactly if it is a map whose timestamp is a number; otherwise saving panics. -/
theorem C77_line (P : Nat → Bool) (i : Js) :
    (∃ txt, vssSave P (.arr [i]) = .ok txt) ∧ (∃ d f, i = .obj d ∧ mget d b!"timestamp" = some (.num f)) ∨
    vssSave P (.arr [i]) = .panic ∧ ¬ ∃ d f, i = .obj d ∧ mget d b!"timestamp" = some (.num f) := by
  rw [vssSave, saveItems]
  cases i with
  | obj d =>
    simp only [saveItem]
    split
    · rename_i f h
      exact .inl ⟨⟨_, rfl⟩, d, f, rfl, h⟩
    · rename_i h
      refine .inr ⟨rfl, ?_⟩
      rintro ⟨d', f, e, hf⟩
      cases e
      exact h f hf
  | _ => exact .inr ⟨rfl, by rintro ⟨d, f, e, -⟩; cases e⟩

theorem saveItems_panic (P : Nat → Bool) : ∀ (l : List Js) (i : Js), i ∈ l → (∀ d f, i = .obj d → mget d b!"timestamp" ≠ some (.num f)) →
    saveItems P l = .panic
  | [j], i, hi, h => by
    obtain rfl : i = j := by simpa using hi
    rw [saveItems]
    cases i with
    | obj d =>
      simp only [saveItem]
      split
      · rename_i f hf; exact absurd hf (h d f rfl)
      · rfl
    | _ => rfl
  | j :: j' :: l, i, hi, h => by
    rw [saveItems]
    · rcases List.mem_cons.1 hi with rfl | hi
      · have : saveItem P i = .panic := by
          cases i with
          | obj d =>
            simp only [saveItem]
            split
            · rename_i f hf; exact absurd hf (h d f rfl)
            · rfl
          | _ => rfl
        rw [this]; rfl
      · rw [saveItems_panic P (j' :: l) i hi h]
        unfold saveItem
        split
        · split <;> rfl
        · rfl
    · intro k; cases k

/-- C77: one line that cannot be written makes saving of the whole patch panic. -/
theorem C77_lines_panic (P : Nat → Bool) {l : List Js} {i : Js} (hi : i ∈ l) (h : ∀ d f, i = .obj d → mget d b!"timestamp" ≠ some (.num f)) :
    vssSave P (.arr l) = .panic := by
  rw [vssSave, saveItems_panic P l i hi h]; rfl

/-- C77: a line without operation or path is written with the text Go has for it. -/
theorem C77_unnamed_line (P : Nat → Bool) {d : List (Bytes × Js)} (h1 : mget d b!"op" = none) (h2 : mget d b!"path" = none) {f : F64}
    (h3 : mget d b!"timestamp" = some (.num f)) (h4 : mget d b!"value" = none) :
    vssSave P (.arr [.obj d]) =
      .ok (b!"[\n    { \"op\": \"%!s(<nil>)\", \"path\": \"%!s(<nil>)\", \"value\": <nil>, \"timestamp\": " ++ itoa f.toInt64 ++ b!" }\n]") := by
  simp only [vssSave, saveItems, saveItem, h1, h2, h3, h4, fmtS, fmtGo, Res.map]
  simp

/-! ### Plain numbers -/

theorem divRound_even (a : Nat) {d : Nat} (hd : 0 < d) (h : 2 * (F64.divRound a d * d) = 2 * a + d ∨ 2 * a = 2 * (F64.divRound a d * d) + d) :
    F64.divRound a d % 2 = 0 := by
  have ha := Nat.div_add_mod a d
  have ra := Nat.mod_lt a hd
  have e : (a / d + 1) * d = d * (a / d) + d := by rw [Nat.add_mul, Nat.one_mul, Nat.mul_comm]
  have e' : a / d * d = d * (a / d) := Nat.mul_comm _ _
  unfold F64.divRound at h ⊢
  dsimp only at h ⊢
  repeat' split
  all_goals simp only [*, if_true, if_false] at h
  all_goals first | omega | skip
  all_goals generalize d * (a / d) = x at *; omega

/-- C77: a plain number is written as a whole number next to it, the even one of two, with its sign. -/
theorem C77_whole {f : F64} (hf : f.IsFin) : ∃ n : Nat, fmtWhole f = (if f.signBit then [45] else []) ++ natDigits n ∧
    2 * (n * 2 ^ 1074) ≤ 2 * f.units.natAbs + 2 ^ 1074 ∧ 2 * f.units.natAbs ≤ 2 * (n * 2 ^ 1074) + 2 ^ 1074 ∧
    (2 * (n * 2 ^ 1074) = 2 * f.units.natAbs + 2 ^ 1074 ∨ 2 * f.units.natAbs = 2 * (n * 2 ^ 1074) + 2 ^ 1074 → n % 2 = 0) := by
  obtain ⟨neg, m, e, hc, rfl⟩ := hf
  have hu : (F64.fin neg m e hc).units.natAbs = m * 2 ^ (e + 1074).toNat := by
    rw [F64.units_eq]
    have : ∀ a : Nat, (if neg then -(a : Int) else (a : Int)).natAbs = a := by intro a; split <;> omega
    exact this _
  rw [hu]
  obtain ⟨-, hlo, -⟩ := F64.canon_iff.1 hc
  refine ⟨_, rfl, ?_⟩
  by_cases h : 0 ≤ e
  · rw [if_pos h]
    have : m * 2 ^ (e + 1074).toNat = m * 2 ^ e.toNat * 2 ^ 1074 := by
      rw [Nat.mul_assoc, ← Nat.pow_add, show (e + 1074).toNat = e.toNat + 1074 by omega]
    rw [this]
    have hP := Nat.two_pow_pos 1074
    generalize m * 2 ^ e.toNat * 2 ^ 1074 = A at *
    generalize 2 ^ 1074 = P at *
    omega
  · rw [if_neg h]
    have hd : 0 < 2 ^ (-e).toNat := Nat.two_pow_pos _
    obtain ⟨e1, e2⟩ := F64.divRound_error m hd
    have e3 := divRound_even m hd
    generalize F64.divRound m (2 ^ (-e).toNat) = n at *
    have hs : 2 ^ (-e).toNat * 2 ^ (e + 1074).toNat = 2 ^ 1074 := by
      rw [← Nat.pow_add, show (-e).toNat + (e + 1074).toNat = 1074 by omega]
    have hk := Nat.two_pow_pos (e + 1074).toNat
    rw [← hs]
    generalize 2 ^ (e + 1074).toNat = K at *
    generalize 2 ^ (-e).toNat = D at *
    have a1 : 2 * (n * (D * K)) = 2 * (n * D) * K := by rw [Nat.mul_assoc 2, Nat.mul_assoc n]
    have a2 : 2 * (m * K) + D * K = (2 * m + D) * K := by rw [Nat.add_mul, Nat.mul_assoc]
    have a3 : 2 * (n * (D * K)) + D * K = (2 * (n * D) + D) * K := by rw [a1, Nat.add_mul]
    rw [a2, a3, a1, ← Nat.mul_assoc 2 m K]
    refine ⟨Nat.mul_le_mul_right _ e1, Nat.mul_le_mul_right _ e2, fun h => e3 ?_⟩
    exact h.imp (Nat.eq_of_mul_eq_mul_right hk) (Nat.eq_of_mul_eq_mul_right hk)

/-! ### Examples -/

example : Unsavable (.obj [(b!"a", readingJs (.bool true) 1), (b!"b", .arr [.int 3])]) :=
  .member (fun v h => by have := h.2.1; simp [mget] at this) (k := b!"b") (w := .arr [.int 3]) (by simp) (.elem (by simp) (.int 3))

example : ¬ Unsavable (.obj [(b!"a", readingJs (.int 3) 1)]) := by
  obtain ⟨txt, h, k⟩ := C77_empty (fun _ => true) [(b!"a", readingJs (.int 3) 1)]
  intro hu
  rw [k.2 hu] at h
  revert h
  decide

/-- 2.5 and 3.5. -/
example : fmtWhole (.fin false 5629499534213120 (-51) (by decide)) = b!"2" ∧ fmtWhole (.fin false 7881299347898368 (-51) (by decide)) = b!"4" := by decide +kernel

example : vssSave (fun _ => true) (.arr [.obj [(b!"op", .str b!"add"), (b!"timestamp", .num .zero)], .obj [(b!"op", .str b!"add")]]) = .panic :=
  C77_lines_panic _ (i := .obj [(b!"op", .str b!"add")]) (by simp) (by intro d f h; cases h; simp [mget])

end Verif
