import Verif.LexSpace
/-
What the tokens of a text say about the outcome of parsing it.
-/
namespace Verif

/-- Every token of the text satisfies `Q`. -/
def TokAll (Q : Tok → Prop) (s : Bytes) : Prop := ∀ t ∈ (tokens s).1, Q t

theorem TokAll.skipWs {Q : Tok → Prop} {s : Bytes} (h : TokAll Q s) : TokAll Q (skipWs s) := by
  unfold TokAll; rw [tokens_skipWs]; exact h

theorem TokAll.tok {Q : Tok → Prop} {s r : Bytes} {t : Tok} (h : TokAll Q s) (hl : lexOne s = .tok t r) :
    Q t ∧ TokAll Q r := by
  have e := tokens_unfold s
  rw [hl] at e
  simp only at e
  constructor
  · exact h t (by rw [e]; simp)
  · intro x hx; exact h x (by rw [e]; simp [hx])

/-- A timestamp inside a container: 0 or the value of a token. -/
def Src (Q : Tok → Prop) (ts : Int) : Prop := ts = 0 ∨ Q (.ts ts)

/-- A parsed value. -/
def ValOk (Q : Tok → Prop) : Tson → Prop
  | .null => Q (.word none)
  | .leaf _ ts => ts = -1 ∨ Q (.ts ts)
  | .obj m => ∀ ts ∈ stampsF m, Src Q ts
  | .arr l => ∀ ts ∈ stampsL l, Src Q ts

/-- The outcome of parsing. -/
def ResOk (Q : Tok → Prop) : PRes Tson → Prop
  | .ok v r => TokAll Q r ∧ ValOk Q v
  | .panic => Q (.word none)
  | _ => True

theorem suffixTs_inv {Q : Tok → Prop} {p : Prim} {s : Bytes} (h : TokAll Q s) : ResOk Q (suffixTs p s) := by
  rw [suffixTs_lex]
  cases e : lexOne s with
  | tok t r =>
    obtain ⟨h1, h2⟩ := h.tok e
    cases t with
    | ts n => exact ⟨h2, .inr h1⟩
    | _ => exact ⟨h.skipWs, .inl rfl⟩
  | badTs => trivial
  | eof => exact ⟨h.skipWs, .inl rfl⟩
  | bad => exact ⟨h.skipWs, .inl rfl⟩

theorem afterItem_inv {Q : Tok → Prop} {close : UInt8} (hcl : close = 125 ∨ close = 93) {f : Bytes → PRes Tson}
    {d : Tson} {s : Bytes} (h : TokAll Q s) (hd : ValOk Q d)
    (hf : ∀ r, r.length < s.length → TokAll Q r → ResOk Q (f r)) : ResOk Q (afterItem close f d s) := by
  rw [afterItem_lex hcl]
  cases e : lexOne s with
  | tok t r =>
    obtain ⟨-, h2⟩ := h.tok e
    cases t with
    | punct c =>
      simp only
      split
      · exact hf r (lexOne_length e) h2
      · split
        · exact ⟨h2, hd⟩
        · trivial
    | _ => trivial
  | _ => trivial

theorem stampsF_mset {m : List (Bytes × Tson)} {k : Bytes} {v : Tson} {ts : Int} (h : ts ∈ stampsF (mset m k v)) :
    ts ∈ stampsF m ∨ ts ∈ stamps v := by
  induction m with
  | nil => simp only [mset, stampsF, List.append_nil] at h; exact .inr h
  | cons p m ih =>
    obtain ⟨k', v'⟩ := p
    simp only [mset] at h
    split at h
    · simp only [stampsF, List.mem_append] at h ⊢
      rcases h with h | h
      · exact .inr h
      · exact .inl (.inr h)
    · simp only [stampsF, List.mem_append] at h ⊢
      rcases h with h | h
      · exact .inl (.inl h)
      · rcases ih h with h | h
        · exact .inl (.inr h)
        · exact .inr h

theorem stampsL_append (a b : List Tson) : stampsL (a ++ b) = stampsL a ++ stampsL b := by
  induction a with
  | nil => rfl
  | cons v a ih => simp only [List.cons_append, stampsL, ih, List.append_assoc]

theorem parseTs_range {s r : Bytes} {n : Int} (h : parseTs s = some (n, r)) :
    n = -1 ∨ (0 ≤ n ∧ n ≤ 9223372036854775807) := by
  unfold parseTs at h
  split at h
  · cases h
  · split at h
    · cases h; exact .inl rfl
    · dsimp only at h
      split at h
      · cases h
      · split at h
        · cases h
        · rename_i hv
          split at h
          · cases h
          · simp only [Option.some.injEq, Prod.mk.injEq] at h
            right
            omega

theorem lexOne_range {s r : Bytes} {n : Int} (h : lexOne s = .tok (.ts n) r) :
    n = -1 ∨ (0 ≤ n ∧ n ≤ 9223372036854775807) := by
  rcases lexOne_cases s with ⟨h', e⟩ | ⟨r', h', ⟨n, x, hp, e⟩ | ⟨hp, e⟩⟩ | ⟨r', h', ⟨n, x, hp, e⟩ | ⟨hp, e⟩⟩ |
    ⟨c, r', h', hc, ⟨n, x, hp, e⟩ | ⟨hp, e⟩⟩ | ⟨c, r', h', hc, e⟩ | ⟨c, r', h', -, -, -, -, e⟩
  all_goals rw [e] at h
  all_goals try (cases h; done)
  · cases h; exact parseTs_range hp
  · rcases lexWord_cases (c :: r') with hw | ⟨b, x, hw⟩ <;> rw [hw] at h <;> cases h

/-- A value put into a container. -/
theorem rewrap_inv {Q : Tok → Prop} {v w : Tson} {ts : Int} (hv : ValOk Q v) (ht : Src Q ts) (h1 : -1 ≤ ts)
    (h : rewrap v ts = some w) : ∀ n ∈ stamps w, Src Q n := by
  cases v with
  | null => cases h
  | leaf p old =>
    simp only [rewrap, Option.some.injEq] at h
    subst h
    intro n hn
    simp only [stamps, List.mem_cons, List.not_mem_nil, or_false] at hn
    subst hn
    by_cases h0 : 0 ≤ ts
    · rw [if_pos h0]; exact ht
    · rw [if_neg h0]
      have h2 : ts = -1 := by omega
      subst h2
      rcases hv with rfl | hv
      · exact ht
      · exact .inr hv
  | obj m => cases h; exact hv
  | arr l => cases h; exact hv

theorem rewrap_none {v : Tson} {ts : Int} (h : rewrap v ts = none) : v = .null := by
  cases v <;> simp_all [rewrap]

/-- The optional timestamp in front of an element or a member's value. -/
theorem prefixTs_inv {Q : Tok → Prop} {s r : Bytes} {ts : Int} (h : TokAll Q s) (hp : prefixTs s = some (ts, r)) :
    TokAll Q r ∧ Src Q ts ∧ -1 ≤ ts ∧ r.length ≤ s.length := by
  refine ⟨?_, ?_, ?_, prefixTs_length hp⟩
  all_goals
    rw [prefixTs_lex] at hp
    cases e : lexOne s with
    | tok t x =>
      rw [e] at hp
      obtain ⟨h1, h2⟩ := h.tok e
      cases t with
      | ts n =>
        cases hp
        have := lexOne_range e
        first
          | exact h2
          | exact .inr h1
          | omega
      | _ =>
        cases hp
        first
          | exact h.skipWs
          | exact .inl rfl
          | omega
    | badTs => rw [e] at hp; cases hp
    | eof =>
      rw [e] at hp
      cases hp
      first
        | exact h.skipWs
        | exact .inl rfl
        | omega
    | bad =>
      rw [e] at hp
      cases hp
      first
        | exact h.skipWs
        | exact .inl rfl
        | omega

theorem pMembers_inv {Q : Tok → Prop} {n : Nat} (hv : ∀ s : Bytes, s.length < n → TokAll Q s → ResOk Q (pVal s))
    (hm : ∀ m (s : Bytes), s.length < n → TokAll Q s → (∀ ts ∈ stampsF m, Src Q ts) → ResOk Q (pMembers m s))
    (m : List (Bytes × Tson)) {s : Bytes} (hl : s.length ≤ n) (h : TokAll Q s) (hs : ∀ ts ∈ stampsF m, Src Q ts) :
    ResOk Q (pMembers m s) := by
  rw [pMembers_unfold]
  unfold memStep
  have hw := skipWs_length s
  cases h1 : parseString (skipWs s) with
  | none => trivial
  | some x =>
    obtain ⟨key, r⟩ := x
    have hr : TokAll Q r := by
      rw [parseString_lex] at h1
      cases e : lexOne (skipWs s) with
      | tok t y =>
        rw [e] at h1
        cases t with
        | str z => cases h1; exact (h.skipWs.tok e).2
        | _ => cases h1
      | _ => rw [e] at h1; cases h1
    have hlr := parseString_length h1
    simp only
    cases h2 : prefixTs r with
    | none => trivial
    | some x =>
      obtain ⟨ts, r2⟩ := x
      obtain ⟨q1, q2, q3, q4⟩ := prefixTs_inv hr h2
      simp only
      cases h3 : expect 58 r2 with
      | none => trivial
      | some r3 =>
        have hlr3 := expect_length h3
        have hr3 : TokAll Q r3 := by
          rw [expect_colon] at h3
          cases e : lexOne r2 with
          | tok t y =>
            rw [e] at h3
            cases t with
            | punct c =>
              simp only at h3
              split at h3
              · cases h3; exact (q1.tok e).2
              · cases h3
            | _ => cases h3
          | _ => rw [e] at h3; cases h3
        simp only [pVal_skipWs]
        have key2 := hv r3 (by omega) hr3
        cases h4 : pVal r3 with
        | more => trivial
        | err => trivial
        | panic => rw [h4] at key2; exact key2
        | ok v r4 =>
          rw [h4] at key2
          have hlr4 := pVal_shrinks _ _ _ h4
          simp only
          cases h5 : rewrap v ts with
          | none => have := rewrap_none h5; subst this; exact key2.2
          | some w =>
            have hst : ∀ ts ∈ stampsF (mset m key w), Src Q ts := fun n hn =>
              (stampsF_mset hn).elim (hs n) (rewrap_inv key2.2 q2 q3 h5 n)
            exact afterItem_inv (.inl rfl) key2.1 hst fun r hr ht => hm _ _ (by omega) ht hst

theorem pElems_inv {Q : Tok → Prop} {n : Nat} (hv : ∀ s : Bytes, s.length ≤ n → TokAll Q s → ResOk Q (pVal s))
    (he : ∀ l (s : Bytes), s.length < n → TokAll Q s → (∀ ts ∈ stampsL l, Src Q ts) → ResOk Q (pElems l s))
    (l : List Tson) {s : Bytes} (hl : s.length ≤ n) (h : TokAll Q s) (hs : ∀ ts ∈ stampsL l, Src Q ts) :
    ResOk Q (pElems l s) := by
  rw [pElems_unfold]
  unfold elemStep
  cases h2 : prefixTs s with
  | none => trivial
  | some x =>
    obtain ⟨ts, r2⟩ := x
    obtain ⟨q1, q2, q3, q4⟩ := prefixTs_inv h h2
    simp only
    have key2 := hv r2 (by omega) q1
    cases h4 : pVal r2 with
    | more => trivial
    | err => trivial
    | panic => rw [h4] at key2; exact key2
    | ok v r4 =>
      rw [h4] at key2
      have hlr4 := pVal_shrinks _ _ _ h4
      simp only
      cases h5 : rewrap v ts with
      | none => have := rewrap_none h5; subst this; exact key2.2
      | some w =>
        have hst : ∀ ts ∈ stampsL (l ++ [w]), Src Q ts := fun n hn => by
          rw [stampsL_append, List.mem_append] at hn
          refine hn.elim (hs n) fun hn => rewrap_inv key2.2 q2 q3 h5 n ?_
          simpa [stampsL] using hn
        exact afterItem_inv (.inr rfl) key2.1 hst fun r hr ht => he _ _ (by omega) ht hst

theorem pVal_inv {Q : Tok → Prop} {n : Nat}
    (hm : ∀ m (s : Bytes), s.length < n → TokAll Q s → (∀ ts ∈ stampsF m, Src Q ts) → ResOk Q (pMembers m s))
    (he : ∀ l (s : Bytes), s.length < n → TokAll Q s → (∀ ts ∈ stampsL l, Src Q ts) → ResOk Q (pElems l s))
    {s : Bytes} (hl : s.length ≤ n) (h : TokAll Q s) : ResOk Q (pVal s) := by
  rw [pVal_lex]
  cases e : lexOne s with
  | tok t r =>
    obtain ⟨q1, q2⟩ := h.tok e
    have hlr := lexOne_length e
    cases t with
    | ts n =>
      simp only
      cases e2 : lexOne r with
      | tok t x =>
        cases t with
        | str y => exact ⟨(q2.tok e2).2, .inr q1⟩
        | num y => exact ⟨(q2.tok e2).2, .inr q1⟩
        | _ => trivial
      | _ => trivial
    | str x => exact suffixTs_inv q2
    | num f => exact suffixTs_inv q2
    | word b =>
      cases b with
      | none => exact ⟨q2, q1⟩
      | some b => exact suffixTs_inv q2
    | punct c =>
      have hm0 : ResOk Q (pMembers [] r) := hm [] r (by omega) q2 (by simp [stampsF])
      have he0 : ResOk Q (pElems [] r) := he [] r (by omega) q2 (by simp [stampsL])
      simp only
      by_cases h1 : c = 123
      · simp only [if_pos h1]
        cases e2 : lexOne r with
        | tok t x =>
          cases t with
          | punct d =>
            simp only
            split
            · exact ⟨(q2.tok e2).2, by simp [ValOk, stampsF]⟩
            · exact hm0
          | _ => exact hm0
        | _ => exact hm0
      · simp only [if_neg h1]
        by_cases h2 : c = 91
        · simp only [if_pos h2]
          cases e2 : lexOne r with
          | tok t x =>
            cases t with
            | punct d =>
              simp only
              split
              · exact ⟨(q2.tok e2).2, by simp [ValOk, stampsL]⟩
              · exact he0
            | _ => exact he0
          | _ => exact he0
        · simp only [if_neg h2]; trivial
  | _ => trivial

theorem parse_inv (Q : Tok → Prop) (n : Nat) : (∀ s : Bytes, s.length < n → TokAll Q s → ResOk Q (pVal s)) ∧
    (∀ m (s : Bytes), s.length < n → TokAll Q s → (∀ ts ∈ stampsF m, Src Q ts) → ResOk Q (pMembers m s)) ∧
    (∀ l (s : Bytes), s.length < n → TokAll Q s → (∀ ts ∈ stampsL l, Src Q ts) → ResOk Q (pElems l s)) := by
  induction n with
  | zero => exact ⟨fun s h => by omega, fun m s h => by omega, fun l s h => by omega⟩
  | succ n ih =>
    obtain ⟨hv, hm, he⟩ := ih
    have hv' : ∀ s : Bytes, s.length ≤ n → TokAll Q s → ResOk Q (pVal s) := fun s hl h => pVal_inv hm he hl h
    exact ⟨fun s hl h => hv' s (by omega) h, fun m s hl h hs => pMembers_inv hv hm m (by omega) h hs,
      fun l s hl h hs => pElems_inv hv' he l (by omega) h hs⟩

/-- The outcome of parsing a text, by its tokens. -/
theorem pVal_ok (s : Bytes) : ResOk (fun t => t ∈ (tokens s).1) (pVal s) :=
  (parse_inv _ (s.length + 1)).1 s (by omega) fun _ h => h

/-- A timestamp token is -1 or a non-negative `int64`. -/
theorem tokens_range (n : Nat) : ∀ {s : Bytes} {ts : Int}, s.length < n → Tok.ts ts ∈ (tokens s).1 →
    ts = -1 ∨ (0 ≤ ts ∧ ts ≤ 9223372036854775807) := by
  induction n with
  | zero => intro s ts h; omega
  | succ n ih =>
    intro s ts hl h
    rw [tokens_unfold] at h
    cases e : lexOne s with
    | tok t r =>
      rw [e] at h
      simp only [List.mem_cons] at h
      rcases h with h | h
      · subst h; exact lexOne_range e
      · exact ih (by have := lexOne_length e; omega) h
    | eof => rw [e] at h; simp at h
    | bad => rw [e] at h; simp at h
    | badTs => rw [e] at h; simp at h

/-- The token `null` comes from the text `null`. -/
theorem tokens_null (n : Nat) : ∀ {s : Bytes}, s.length < n → Tok.word none ∈ (tokens s).1 →
    ∃ a b, s = a ++ (b!"null" ++ b) := by
  induction n with
  | zero => intro s h; omega
  | succ n ih =>
    intro s hl h
    rw [tokens_unfold] at h
    cases e : lexOne s with
    | tok t r =>
      rw [e] at h
      simp only [List.mem_cons] at h
      rcases h with h | h
      · subst h
        obtain ⟨w, -, es⟩ := skipWs_split s
        rcases lexOne_cases s with ⟨h', e'⟩ | ⟨r', h', ⟨n, x, hp, e'⟩ | ⟨hp, e'⟩⟩ | ⟨r', h', ⟨n, x, hp, e'⟩ | ⟨hp, e'⟩⟩ |
          ⟨c, r', h', hc, ⟨n, x, hp, e'⟩ | ⟨hp, e'⟩⟩ | ⟨c, r', h', hc, e'⟩ | ⟨c, r', h', -, -, -, -, e'⟩
        all_goals rw [e'] at e
        all_goals try (cases e; done)
        unfold lexWord at e
        split at e
        · cases e
        · split at e
          · cases e
          · split at e
            · rename_i hp
              obtain ⟨y, hy⟩ := hasPrefix_iff.1 hp
              exact ⟨w, y, by rw [← hy, ← h']; exact es⟩
            · cases e
      · obtain ⟨u, eu, -⟩ := lexOne_prefix e
        obtain ⟨a, b, hab⟩ := ih (by have := lexOne_length e; omega) h
        exact ⟨u ++ a, b, by rw [eu, hab, List.append_assoc]⟩
    | eof => rw [e] at h; simp at h
    | bad => rw [e] at h; simp at h
    | badTs => rw [e] at h; simp at h

end Verif
