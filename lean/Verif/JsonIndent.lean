import Verif.ExpFiles
import Verif.PropsPlainMap
/-
What `json.MarshalIndent` writes, and how it is read.
-/
namespace Verif

/-! ### The layout -/

/-- The members of an object, one on a line. -/
def indMembers (iw : Nat) (d : Nat) : List (Bytes × Bytes) → Bytes
  | [] => []
  | [(k, v)] => jsonStr k ++ 58 :: 32 :: v
  | (k, v) :: p :: m => jsonStr k ++ 58 :: 32 :: (v ++ 44 :: (newline iw d ++ indMembers iw d (p :: m)))

/-- The elements of an array, one on a line. -/
def indElems (iw : Nat) (d : Nat) : List Bytes → Bytes
  | [] => []
  | [v] => v
  | v :: w :: l => v ++ 44 :: (newline iw d ++ indElems iw d (w :: l))

/-- An object. -/
def indObj (iw : Nat) (d : Nat) (m : List (Bytes × Bytes)) : Bytes :=
  if m = [] then b!"{}" else 123 :: (newline iw (d + 1) ++ (indMembers iw (d + 1) m ++ (newline iw d ++ [125])))

/-- An array. -/
def indArr (iw : Nat) (d : Nat) (l : List Bytes) : Bytes :=
  if l = [] then b!"[]" else 91 :: (newline iw (d + 1) ++ (indElems iw (d + 1) l ++ (newline iw d ++ [93])))

mutual
/-- The indented text of a value. -/
def indText (iw : Nat) (d : Nat) : Js → Bytes
  | .obj m => indObj iw d (indTextF iw (d + 1) m)
  | .arr l => indArr iw d (indTextL iw (d + 1) l)
  | j => treeText j
/-- The indented texts of the members. -/
def indTextF (iw : Nat) (d : Nat) : List (Bytes × Js) → List (Bytes × Bytes)
  | [] => []
  | (k, v) :: m => (k, indText iw d v) :: indTextF iw d m
/-- The indented texts of the elements. -/
def indTextL (iw : Nat) (d : Nat) : List Js → List Bytes
  | [] => []
  | v :: l => indText iw d v :: indTextL iw d l
end

/-- A text and its indented form at every depth. -/
def Indents (iw : Nat) (s : Bytes) (t : Nat → Bytes) : Prop := ∀ d need rest, appendIndent iw .out d need (s ++ rest) =
  (if need then newline iw (d + 1) else []) ++ (t (if need then d + 1 else d) ++ appendIndent iw .out (if need then d + 1 else d) false rest)

/-! ### Literals -/

/-- A byte of a number or of a word. -/
def Quiet (c : UInt8) : Prop := isWs c = false ∧ c ≠ 125 ∧ c ≠ 93 ∧ c ≠ 123 ∧ c ≠ 91 ∧ c ≠ 44 ∧ c ≠ 58 ∧ c ≠ 34

instance (c : UInt8) : Decidable (Quiet c) := inferInstanceAs (Decidable (_ ∧ _))

theorem append_quiet (d : Nat) (rest : Bytes) : ∀ s : Bytes, (∀ c ∈ s, Quiet c) →
    appendIndent iw .out d false (s ++ rest) = s ++ appendIndent iw .out d false rest
  | [], _ => rfl
  | c :: s, h => by
    obtain ⟨h1, h2, h3, h4, h5, h6, h7, h8⟩ := h c (by simp)
    rw [List.cons_append, appendIndent, if_neg (by simp [h1]), if_neg (by simp [h2, h3])]
    simp only [Bool.false_eq_true, if_false, List.nil_append]
    rw [if_neg (by simp [h4, h5]), if_neg h6, if_neg h7, if_neg h8, append_quiet d rest s fun x hx => h x (by simp [hx])]
    rfl

theorem indents_quiet {s : Bytes} (hs : s ≠ []) (h : ∀ c ∈ s, Quiet c) : Indents iw s fun _ => s := by
  intro d need rest
  obtain ⟨c, s, rfl⟩ : ∃ c r, s = c :: r := List.exists_cons_of_ne_nil hs
  obtain ⟨h1, h2, h3, h4, h5, h6, h7, h8⟩ := h c (by simp)
  have h45 : ¬ (c = 123 ∨ c = 91) := by simp [h4, h5]
  rw [List.cons_append, appendIndent, if_neg (by simp [h1]), if_neg (by simp [h2, h3])]
  simp only [if_neg h45, if_neg h6, if_neg h7, if_neg h8]
  rw [append_quiet _ rest s fun x hx => h x (by simp [hx])]
  cases need <;> rfl

theorem append_string (d : Nat) (need : Bool) : ∀ (n : Nat) (s r : Bytes), s.length ≤ n → skipLit s = some r →
    ∃ w, s = w ++ r ∧ appendIndent iw .str d need s = w ++ appendIndent iw .out d need r := by
  intro n
  induction n with
  | zero =>
    intro s r hs h
    cases s with
    | nil => cases h
    | cons c s => simp at hs
  | succ n ih =>
    intro s r hs h
    cases s with
    | nil => cases h
    | cons c s =>
      by_cases h34 : c = 34
      · subst h34
        rw [skipLit_end] at h
        cases h
        exact ⟨[34], rfl, by rw [appendIndent, if_pos rfl]; rfl⟩
      · by_cases h92 : c = 92
        · subst h92
          cases s with
          | nil => simp [skipLit] at h
          | cons e s =>
            rw [skipLit_escape] at h
            obtain ⟨w, rfl, e2⟩ := ih s r (by simp at hs; omega) h
            exact ⟨92 :: e :: w, rfl, by rw [appendIndent, if_neg (by decide), if_pos rfl, appendIndent, e2]; rfl⟩
        · rw [skipLit_other h34 h92] at h
          obtain ⟨w, rfl, e2⟩ := ih s r (by simp at hs; omega) h
          exact ⟨c :: w, rfl, by rw [appendIndent, if_neg h34, if_neg h92, e2]; rfl⟩

theorem append_jsonStr (k : Bytes) (d : Nat) (need : Bool) (rest : Bytes) : appendIndent iw .out d need (jsonStr k ++ rest) =
    (if need then newline iw (d + 1) else []) ++ (jsonStr k ++ appendIndent iw .out (if need then d + 1 else d) false rest) := by
  have hr := litReads_json k ((jsonStrBody k.length k).length + 1) rest (by omega)
  have hs := readStr_skip _ hr
  obtain ⟨w, e1, e2⟩ := append_string (if need then d + 1 else d) false _ _ _ (Nat.le_refl _) hs
  have ew : w = jsonStrBody k.length k ++ [34] := by
    have : (jsonStrBody k.length k ++ [34]) ++ rest = w ++ rest := by rw [← e1]; simp
    exact (List.append_cancel_right this).symm
  have hc : jsonStr k ++ rest = 34 :: (jsonStrBody k.length k ++ 34 :: rest) := by simp [jsonStr]
  rw [hc, appendIndent, if_neg (by decide), if_neg (by decide)]
  have h45 : ¬ ((34 : UInt8) = 123 ∨ (34 : UInt8) = 91) := by decide
  simp only [if_neg h45, if_neg (show ¬ (34 : UInt8) = 44 by decide), if_neg (show ¬ (34 : UInt8) = 58 by decide), if_true]
  rw [e2, ew]
  cases need <;> simp [jsonStr]

theorem indents_jsonStr (k : Bytes) : Indents iw (jsonStr k) fun _ => jsonStr k := fun d need rest => append_jsonStr k d need rest

theorem quiet_digit {c : UInt8} (h : isDigit c = true) : Quiet c := by
  have : ∀ n : Fin 256, isDigit (UInt8.ofNat n.val) = true → Quiet (UInt8.ofNat n.val) := by decide +kernel
  have e : UInt8.ofNat (⟨c.toNat, c.toNat_lt⟩ : Fin 256).val = c := by simp
  have := this ⟨c.toNat, c.toNat_lt⟩
  rw [e] at this
  exact this h

theorem quiet_natDigits (n : Nat) : ∀ c ∈ natDigits n, Quiet c := by
  intro c hc
  exact quiet_digit (List.all_eq_true.1 (natDigits_isDigit n) c hc)

theorem quiet_itoa (n : Int) : ∀ c ∈ itoa n, Quiet c := by
  intro c hc
  unfold itoa at hc
  split at hc
  · rcases List.mem_cons.1 hc with rfl | hc
    · decide
    · exact quiet_natDigits _ c hc
  · exact quiet_natDigits _ c hc

theorem quiet_plain (n : Nat) (k : Int) : ∀ c ∈ fmtPlain n k, Quiet c := by
  intro c hc
  unfold fmtPlain at hc
  dsimp only at hc
  split at hc
  · rcases List.mem_append.1 hc with hc | hc
    · exact quiet_natDigits _ c hc
    · rw [(List.mem_replicate.1 hc).2]; decide
  · split at hc
    · rcases List.mem_append.1 hc with hc | hc
      · exact quiet_natDigits _ c (List.mem_of_mem_take hc)
      · rcases List.mem_cons.1 hc with rfl | hc
        · decide
        · exact quiet_natDigits _ c (List.mem_of_mem_drop hc)
    · rcases List.mem_cons.1 hc with rfl | hc
      · decide
      · rcases List.mem_cons.1 hc with rfl | hc
        · decide
        · rcases List.mem_append.1 hc with hc | hc
          · rw [(List.mem_replicate.1 hc).2]; decide
          · exact quiet_natDigits _ c hc

theorem quiet_exp (n : Nat) (k : Int) : ∀ c ∈ jsonExp n k, Quiet c := by
  intro c hc
  unfold jsonExp at hc
  dsimp only at hc
  rcases List.mem_append.1 hc with hc | hc
  · rcases List.mem_append.1 hc with hc | hc
    · exact quiet_natDigits _ c (List.mem_of_mem_take hc)
    · split at hc
      · cases hc
      · rcases List.mem_cons.1 hc with rfl | hc
        · decide
        · exact quiet_natDigits _ c (List.mem_of_mem_drop hc)
  · rcases List.mem_cons.1 hc with rfl | hc
    · decide
    · rcases List.mem_cons.1 hc with rfl | hc
      · split <;> decide
      · exact quiet_natDigits _ c hc

theorem quiet_number (f : F64) : ∀ c ∈ jsonNum f, Quiet c := by
  intro c hc
  cases f with
  | fin neg m e h =>
    rw [jsonNum] at hc
    have hb : ∀ c ∈ (if m ≠ 0 ∧ jsonUsesExp m e = true then jsonExp (shortest neg m e h).1 (shortest neg m e h).2
        else fmtPlain (shortest neg m e h).1 (shortest neg m e h).2), Quiet c := by
      intro c hc
      split at hc
      · exact quiet_exp _ _ c hc
      · exact quiet_plain _ _ c hc
    split at hc
    · rcases List.mem_cons.1 hc with rfl | hc
      · decide
      · exact hb c hc
    · exact hb c hc
  | _ => cases hc

/-! ### Objects and arrays -/

theorem indMembers_cons (d : Nat) (k v : Bytes) (m : List (Bytes × Bytes)) :
    indMembers iw d ((k, v) :: m) = jsonStr k ++ 58 :: 32 :: (v ++ (if m = [] then [] else 44 :: (newline iw d ++ indMembers iw d m))) := by
  cases m with
  | nil => simp [indMembers]
  | cons p m => simp [indMembers]

theorem indElems_cons (d : Nat) (v : Bytes) (l : List Bytes) :
    indElems iw d (v :: l) = v ++ (if l = [] then [] else 44 :: (newline iw d ++ indElems iw d l)) := by
  cases l with
  | nil => simp [indElems]
  | cons p m => simp [indElems]

theorem append_colon (d : Nat) (rest : Bytes) : appendIndent iw .out d false (58 :: rest) = 58 :: 32 :: appendIndent iw .out d false rest := by
  rw [appendIndent, if_neg (by decide), if_neg (by decide)]; rfl

theorem append_comma (d : Nat) (rest : Bytes) : appendIndent iw .out d false (44 :: rest) = 44 :: (newline iw d ++ appendIndent iw .out d false rest) := by
  rw [appendIndent, if_neg (by decide), if_neg (by decide)]; rfl

theorem append_close (d : Nat) (c : UInt8) (h : c = 125 ∨ c = 93) (rest : Bytes) :
    appendIndent iw .out (d + 1) false (c :: rest) = newline iw d ++ c :: appendIndent iw .out d false rest := by
  rw [appendIndent, if_neg (by rcases h with rfl | rfl <;> decide), if_pos h, if_neg (by decide)]; rfl

theorem append_empty (d : Nat) (c : UInt8) (h : c = 125 ∨ c = 93) (rest : Bytes) :
    appendIndent iw .out d true (c :: rest) = c :: appendIndent iw .out d false rest := by
  rw [appendIndent, if_neg (by rcases h with rfl | rfl <;> decide), if_pos h, if_pos rfl]

theorem append_open (d : Nat) (need : Bool) (c : UInt8) (h : c = 123 ∨ c = 91) (rest : Bytes) :
    appendIndent iw .out d need (c :: rest) = (if need then newline iw (d + 1) else []) ++ c :: appendIndent iw .out (if need then d + 1 else d) true rest := by
  rw [appendIndent, if_neg (by rcases h with rfl | rfl <;> decide), if_neg (by rcases h with rfl | rfl <;> decide)]
  dsimp only
  rw [if_pos h]
  cases need <;> rfl

/-- The members after the opening brace, when the depth is already that of the members. -/
theorem append_members (d : Nat) (rest : Bytes) : ∀ m : List (Bytes × Bytes × (Nat → Bytes)), m ≠ [] → (∀ x ∈ m, Indents iw x.2.1 x.2.2) →
    appendIndent iw .out d false (joinMembers (m.map fun x => (x.1, x.2.1)) ++ rest) =
      indMembers iw d (m.map fun x => (x.1, x.2.2 d)) ++ appendIndent iw .out d false rest
  | [], h, _ => absurd rfl h
  | (k, s, t) :: m, _, hm => by
    have h1 := hm (k, s, t) (by simp)
    simp only at h1
    rw [List.map_cons, joinMembers_cons, List.map_cons, indMembers_cons]
    rw [List.append_assoc, append_jsonStr]
    simp only [Bool.false_eq_true, if_false, List.nil_append, List.cons_append, List.append_assoc]
    rw [append_colon, h1 d false]
    simp only [Bool.false_eq_true, if_false, List.nil_append]
    by_cases hnil : m = []
    · subst hnil
      simp
    · rw [if_neg (by simpa using hnil), if_neg (by simpa using hnil)]
      simp only [List.cons_append, List.append_assoc]
      rw [append_comma, append_members d rest m hnil fun x hx => hm x (by simp [hx])]

theorem append_elems (d : Nat) (rest : Bytes) : ∀ m : List (Bytes × (Nat → Bytes)), m ≠ [] → (∀ x ∈ m, Indents iw x.1 x.2) →
    appendIndent iw .out d false (joinElems (m.map fun x => x.1) ++ rest) = indElems iw d (m.map fun x => x.2 d) ++ appendIndent iw .out d false rest
  | [], h, _ => absurd rfl h
  | (s, t) :: m, _, hm => by
    have h1 := hm (s, t) (by simp)
    simp only at h1
    rw [List.map_cons, joinElems_cons, List.map_cons, indElems_cons]
    rw [List.append_assoc, h1 d false]
    simp only [Bool.false_eq_true, if_false, List.nil_append, List.append_assoc]
    by_cases hnil : m = []
    · subst hnil
      simp
    · rw [if_neg (by simpa using hnil), if_neg (by simpa using hnil)]
      simp only [List.cons_append, List.append_assoc]
      rw [append_comma, append_elems d rest m hnil fun x hx => hm x (by simp [hx])]

/-- After an opening brace, what does not begin with a closing one is indented further. -/
theorem append_need {d : Nat} {c : UInt8} (h : isWs c = false) (h1 : c ≠ 125) (h2 : c ≠ 93) (r : Bytes) :
    appendIndent iw .out d true (c :: r) = newline iw (d + 1) ++ appendIndent iw .out (d + 1) false (c :: r) := by
  have hw : ¬ isWs c = true := by simp [h]
  have hc : ¬ (c = 125 ∨ c = 93) := by simp [h1, h2]
  simp only [appendIndent, if_neg hw, if_neg hc, if_true, Bool.false_eq_true, if_false, List.nil_append]

/-- The first byte of a text. -/
def Opens (s : Bytes) : Prop := ∃ c r, s = c :: r ∧ isWs c = false ∧ c ≠ 125 ∧ c ≠ 93

theorem indents_obj (m : List (Bytes × Bytes × (Nat → Bytes))) (hm : ∀ x ∈ m, Indents iw x.2.1 x.2.2) :
    Indents iw (123 :: (joinMembers (m.map fun x => (x.1, x.2.1)) ++ [125])) fun d => indObj iw d (m.map fun x => (x.1, x.2.2 (d + 1))) := by
  intro d need rest
  rw [List.cons_append, append_open d need 123 (.inl rfl)]
  congr 1
  generalize (if need then d + 1 else d) = d'
  by_cases hnil : m = []
  · subst hnil
    simp only [List.map_nil, joinMembers, List.nil_append, List.cons_append, indObj, if_true]
    rw [append_empty d' 125 (.inl rfl)]
  · have h := append_members (d' + 1) (125 :: rest) m hnil hm
    rw [List.append_assoc, List.singleton_append]
    have hc : ∃ r, joinMembers (m.map fun x => (x.1, x.2.1)) ++ 125 :: rest = 34 :: r := by
      obtain ⟨x, m', rfl⟩ : ∃ x m', m = x :: m' := List.exists_cons_of_ne_nil hnil
      rw [List.map_cons, joinMembers_cons]
      exact ⟨_, by simp only [jsonStr, List.cons_append]; rfl⟩
    obtain ⟨r, e⟩ := hc
    rw [e] at h ⊢
    rw [append_need (by decide) (by decide) (by decide), h, append_close d' 125 (.inl rfl)]
    unfold indObj
    dsimp only
    rw [if_neg (by simpa using hnil)]
    simp

theorem indents_arr (m : List (Bytes × (Nat → Bytes))) (hm : ∀ x ∈ m, Indents iw x.1 x.2 ∧ Opens x.1) :
    Indents iw (91 :: (joinElems (m.map fun x => x.1) ++ [93])) fun d => indArr iw d (m.map fun x => x.2 (d + 1)) := by
  intro d need rest
  rw [List.cons_append, append_open d need 91 (.inr rfl)]
  congr 1
  generalize (if need then d + 1 else d) = d'
  by_cases hnil : m = []
  · subst hnil
    simp only [List.map_nil, joinElems, List.nil_append, List.cons_append, indArr, if_true]
    rw [append_empty d' 93 (.inr rfl)]
  · have h := append_elems (d' + 1) (93 :: rest) m hnil fun x hx => (hm x hx).1
    rw [List.append_assoc, List.singleton_append]
    have hc : ∃ c r, joinElems (m.map fun x => x.1) ++ 93 :: rest = c :: r ∧ isWs c = false ∧ c ≠ 125 ∧ c ≠ 93 := by
      obtain ⟨x, m', rfl⟩ : ∃ x m', m = x :: m' := List.exists_cons_of_ne_nil hnil
      obtain ⟨c, r, e, h1⟩ := (hm x (by simp)).2
      rw [List.map_cons, joinElems_cons, e]
      exact ⟨c, _, by simp only [List.cons_append]; rfl, h1⟩
    obtain ⟨c, r, e, c1, c2, c3⟩ := hc
    rw [e] at h ⊢
    rw [append_need c1 c2 c3, h, append_close d' 93 (.inr rfl)]
    unfold indArr
    dsimp only
    rw [if_neg (by simpa using hnil)]
    simp

theorem treeText_opens {j : Js} (h : GoodJs j) : Opens (treeText j) := by
  obtain ⟨c, r, e, h1, h2⟩ := treeText_head h
  refine ⟨c, r, e, h1, ?_, h2⟩
  rintro rfl
  cases j with
  | null => cases e
  | bool b => cases b <;> cases e
  | num f => rw [treeText] at e; exact absurd rfl (quiet_number f 125 (by rw [e]; simp)).2.1
  | int n => rw [treeText] at e; exact absurd rfl (quiet_itoa n 125 (by rw [e]; simp)).2.1
  | str s => rw [treeText, jsonStr] at e; cases e
  | obj m => rw [treeText] at e; cases e
  | arr l => rw [treeText] at e; cases e

theorem indTextF_eq (d : Nat) (m : List (Bytes × Js)) : indTextF iw d m = m.map fun p => (p.1, indText iw d p.2) := by
  induction m with
  | nil => rfl
  | cons p m ih => obtain ⟨k, v⟩ := p; rw [indTextF, ih]; rfl

theorem indTextL_eq (d : Nat) (l : List Js) : indTextL iw d l = l.map (indText iw d) := by
  induction l with
  | nil => rfl
  | cons v l ih => rw [indTextL, ih]; rfl

/-- **The indented text of a value.** -/
theorem indents_tree (j : Js) : GoodJs j → Indents iw (treeText j) fun d => indText iw d j := by
  induction j using Js.induction with
  | null => intro _; simp only [indText, treeText]; exact indents_quiet (by decide) (by decide)
  | bool b => intro _; simp only [indText, treeText]; cases b <;> exact indents_quiet (by decide) (by decide)
  | num f =>
    rintro ⟨neg, m, e, hc, rfl⟩
    simp only [indText, treeText]
    obtain ⟨c, r, e', -⟩ := jsonNum_head (neg := neg) hc
    exact indents_quiet (by rw [e']; exact List.cons_ne_nil _ _) (quiet_number _)
  | int n =>
    intro _
    simp only [indText, treeText]
    obtain ⟨c, r, e', -⟩ := itoa_head n
    exact indents_quiet (by rw [e']; exact List.cons_ne_nil _ _) (quiet_itoa _)
  | str s => intro _; simp only [indText, treeText]; exact indents_jsonStr s
  | obj m ih =>
    intro hg
    have hg' := goodJsF_iff.1 hg
    have := indents_obj (m.map fun p => (p.1, treeText p.2, fun d => indText iw d p.2)) (by
      intro x hx
      obtain ⟨p, hp, rfl⟩ := List.mem_map.1 hx
      exact ih p hp (hg' p hp))
    simp only [List.map_map] at this
    simp only [treeText, indText, treeTextF_eq, indTextF_eq]
    exact this
  | arr l ih =>
    intro hg
    have hg' := goodJsL_iff.1 hg
    have := indents_arr (l.map fun p => (treeText p, fun d => indText iw d p)) (by
      intro x hx
      obtain ⟨p, hp, rfl⟩ := List.mem_map.1 hx
      exact ⟨ih p hp (hg' p hp), treeText_opens (hg' p hp)⟩)
    simp only [List.map_map] at this
    simp only [treeText, indText, treeTextL_eq, indTextL_eq]
    exact this

end Verif
