import Verif.SpecVssTight
import Verif.PropsVssGen
import Verif.CompactLemmas
/-
C71-C74: the keys removed from a catalogue, data without leaf nodes, paths with indices, ranges of drawn numbers.
-/
namespace Verif

/-- C71: the keys removed from a catalogue are the six descriptive ones. -/
theorem C71_catalogue {d r : Js} (h : newVss d = .ok r) {ks : List Bytes} {v : Js} (hv : ¬ IsMap v) :
    JsAt r ks v ↔ JsAt d ks v ∧ Survives [b!"description", b!"uuid", b!"type", b!"comment", b!"deprecated", b!"deprecation"] d ks :=
  C71_values h hv

example : ∃ r, newVss vssCat = .ok r ∧ (JsAt r [b!"V", b!"children", b!"S", b!"datatype"] (.str b!"float") ↔
    JsAt vssCat [b!"V", b!"children", b!"S", b!"datatype"] (.str b!"float") ∧
      Survives [b!"description", b!"uuid", b!"type", b!"comment", b!"deprecated", b!"deprecation"] vssCat
        [b!"V", b!"children", b!"S", b!"datatype"]) :=
  ⟨_, rfl, C71_catalogue rfl (by rintro ⟨m, h⟩; cases h)⟩

/-- C72: data that is not a map has no leaf nodes. -/
theorem C72_root {d : Js} (h : ¬ IsMap d) : leafNodes d = [] := by
  cases d with
  | obj m => exact absurd ⟨m, rfl⟩ h
  | _ => rfl

example : leafNodes (.str b!"x") = [] := C72_root (by rintro ⟨m, h⟩; cases h)

/-! ### C73: paths with indices -/

/-- What a change at a step means. -/
structure StepPut (s : VssStep) (m : List (Bytes × Js)) (j : Js) (n : List (Bytes × Js)) : Prop where
  self : s.find n = some j
  keeps : ∀ t w, s.Apart t → t.find m = some w → t.find n = some w
  only : ∀ t w, s.Apart t → t.find n = some w → t.find m = some w ∨ w = .null
  same : s.find m = some j → n = m

theorem put_name (m : List (Bytes × Js)) (k : Bytes) (j : Js) : StepPut (.name k) m j (mset m k j) where
  self := mget_mset_self m k j
  keeps t w ht h := by
    cases t with
    | name b => exact (mget_mset_ne m j (fun e => ht e.symm)).trans h
    | index i =>
      simp only [VssStep.find] at h ⊢
      rw [mget_mset_ne m j (fun e => ht e.symm)]
      exact h
  only t w ht h := by
    left
    cases t with
    | name b => exact (mget_mset_ne m j (fun e => ht e.symm)).symm.trans h
    | index i =>
      simp only [VssStep.find] at h ⊢
      rw [mget_mset_ne m j (fun e => ht e.symm)] at h
      exact h
  same h := mset_of_mget h

/-- The array made long enough. -/
theorem arrayFor_ok {m : List (Bytes × Js)} {i : Int} {arr : List Js} (h : arrayFor m i = .ok arr) :
    0 ≤ i ∧ i.toNat < arr.length ∧ (mget m b!"array" = none ∨ ∃ l, mget m b!"array" = some (.arr l)) ∧
      (∀ t : Nat, ∀ w, (VssStep.index t).find m = some w → arr[t]? = some w) ∧
      (∀ t : Nat, ∀ w, arr[t]? = some w → (VssStep.index t).find m = some w ∨ (w = .null ∧ (VssStep.index t).find m = none)) ∧
      ∀ l, mget m b!"array" = some (.arr l) → i.toNat < l.length → arr = l := by
  unfold arrayFor at h
  split at h
  · cases h
  · rename_i hi
    split at h
    · rename_i ha
      cases h
      refine ⟨by omega, by simp, .inl ha, ?_, ?_, ?_⟩
      · intro t w hw; simp [VssStep.find, ha] at hw
      · intro t w hw
        right
        simp only [List.getElem?_replicate] at hw
        split at hw
        · cases hw; exact ⟨rfl, by simp [VssStep.find, ha]⟩
        · cases hw
      · intro l hl; rw [ha] at hl; cases hl
    · rename_i l ha
      cases h
      refine ⟨by omega, by simp; omega, .inr ⟨l, ha⟩, ?_, ?_, ?_⟩
      · intro t w hw
        simp only [VssStep.find, ha] at hw
        rw [if_pos (by omega), Int.toNat_natCast] at hw
        have := (List.getElem?_eq_some_iff.1 hw).1
        rw [List.getElem?_append_left this]
        exact hw
      · intro t w hw
        simp only [VssStep.find, ha]
        rw [if_pos (by omega), Int.toNat_natCast]
        by_cases ht : t < l.length
        · rw [List.getElem?_append_left ht] at hw; exact .inl hw
        · rw [List.getElem?_append_right (by omega), List.getElem?_replicate] at hw
          split at hw
          · cases hw; exact .inr ⟨rfl, List.getElem?_eq_none (by omega)⟩
          · cases hw
      · intro l' hl' hlt
        rw [ha] at hl'
        cases hl'
        rw [show i.toNat + 1 - l.length = 0 by omega]
        simp
    · cases h

theorem put_index {m : List (Bytes × Js)} {i : Int} {arr : List Js} (h : arrayFor m i = .ok arr) (j : Js) :
    StepPut (.index i) m j (mset m b!"array" (.arr (arr.set i.toNat j))) := by
  obtain ⟨h1, h2, h3, h4, h5, h6⟩ := arrayFor_ok h
  refine ⟨?_, ?_, ?_, ?_⟩
  · simp only [VssStep.find, mget_mset_self]
    rw [if_pos h1, List.getElem?_set_self h2]
  · intro t w ht hw
    cases t with
    | name b => exact (mget_mset_ne m _ ht).trans hw
    | index t =>
      simp only [VssStep.find, mget_mset_self]
      by_cases h0 : 0 ≤ t
      · rw [if_pos h0, List.getElem?_set_ne (by intro e; apply ht; omega)]
        exact h4 t.toNat w (by rw [Int.toNat_of_nonneg h0]; exact hw)
      · exfalso
        simp only [VssStep.find] at hw
        split at hw
        · rw [if_neg h0] at hw; cases hw
        · cases hw
  · intro t w ht hw
    cases t with
    | name b => exact .inl ((mget_mset_ne m _ ht).symm.trans hw)
    | index t =>
      simp only [VssStep.find, mget_mset_self] at hw
      split at hw
      · rename_i h0
        rw [List.getElem?_set_ne (by intro e; apply ht; omega)] at hw
        have := h5 t.toNat w hw
        rw [Int.toNat_of_nonneg h0] at this
        exact this.imp id fun h => h.1
      · cases hw
  · intro hs
    simp only [VssStep.find] at hs
    split at hs
    · rename_i l hl
      rw [if_pos h1] at hs
      obtain ⟨hlt, e⟩ := List.getElem?_eq_some_iff.1 hs
      have := h6 l hl hlt
      subst this
      refine mset_of_mget ?_
      rw [hl, ← e, List.set_getElem_self]
    · cases hs

/-- One part of the path. -/
theorem build_step {m n : List (Bytes × Js)} {v : Js} {part : Bytes} {parts : List Bytes} {s : VssStep} (hs : vssStep part = some s)
    (h : buildNested m v (part :: parts) = .ok n) :
    (parts = [] ∧ StepPut s m v n) ∨
    (parts ≠ [] ∧ ∃ m₀ n', (s.find m = some (.obj m₀) ∨ (m₀ = [] ∧ ((s.find m = none ∨ (s.find m = some .null ∧ ∃ i, s = .index i))))) ∧
      buildNested m₀ v parts = .ok n' ∧ StepPut s m (.obj n') n) ∨
    (parts ≠ [] ∧ n = m ∧ ∃ k w, s = .name k ∧ mget m k = some w ∧ w.isMap = false) := by
  rw [buildNested] at h
  unfold vssStep at hs
  by_cases hb : part.head? = some 91 ∧ part.getLast? = some 93
  · have hb' : isBracketed part = true := by simp [isBracketed, hb.1, hb.2]
    rw [if_pos hb'] at h
    rw [if_pos hb, List.drop_one] at hs
    cases ha : atoi part.tail.dropLast with
    | none => rw [ha] at hs; cases hs
    | some i =>
      rw [ha] at hs
      cases hs
      rw [show inBrackets part = part.tail.dropLast from rfl, ha] at h
      dsimp only at h
      cases har : arrayFor m i with
      | ok arr =>
        rw [har] at h
        simp only [Res.bind] at h
        obtain ⟨h1, h2, h3, h4, h5, h6⟩ := arrayFor_ok har
        by_cases hp : parts = []
        · rw [if_pos hp] at h
          cases h
          exact .inl ⟨hp, put_index har v⟩
        · rw [if_neg hp] at h
          right; left
          refine ⟨hp, ?_⟩
          split at h
          · rename_i hg
            cases hb : buildNested [] v parts with
            | ok n' =>
              rw [hb] at h
              cases h
              refine ⟨[], n', .inr ⟨rfl, ?_⟩, hb, put_index har _⟩
              have := h5 i.toNat _ hg
              rw [Int.toNat_of_nonneg h1] at this
              rcases this with h | ⟨-, h⟩
              · exact .inr ⟨h, i, rfl⟩
              · exact .inl h
            | _ => rw [hb] at h; cases h
          · rename_i n0 hg
            cases hb : buildNested n0 v parts with
            | ok n' =>
              rw [hb] at h
              cases h
              refine ⟨n0, n', .inl ?_, hb, put_index har _⟩
              have := h5 i.toNat _ hg
              rw [Int.toNat_of_nonneg h1] at this
              rcases this with h | ⟨h, -⟩
              · exact h
              · cases h
            | _ => rw [hb] at h; cases h
          · cases h
      | _ => rw [har] at h; cases h
  · have hb' : isBracketed part = false := by
      rw [Bool.eq_false_iff]
      intro k
      simp [isBracketed] at k
      exact hb k
    rw [if_neg (by rw [hb']; simp)] at h
    rw [if_neg hb] at hs
    cases hs
    by_cases hp : parts = []
    · rw [if_pos hp] at h
      cases h
      exact .inl ⟨hp, put_name m part v⟩
    · rw [if_neg hp] at h
      right
      split at h
      · rename_i hg
        cases hb : buildNested [] v parts with
        | ok n' =>
          rw [hb] at h
          cases h
          exact .inl ⟨hp, [], n', .inr ⟨rfl, .inl hg⟩, hb, put_name ..⟩
        | _ => rw [hb] at h; cases h
      · rename_i n0 hg
        cases hb : buildNested n0 v parts with
        | ok n' =>
          rw [hb] at h
          cases h
          exact .inl ⟨hp, n0, n', .inl hg, hb, put_name ..⟩
        | _ => rw [hb] at h; cases h
      · rename_i w hne hg
        cases h
        refine .inr ⟨hp, rfl, part, w, rfl, hg, ?_⟩
        cases w with
        | obj x => exact absurd rfl (hne x)
        | _ => rfl

theorem build_skip {m : List (Bytes × Js)} {v : Js} {part : Bytes} {parts : List Bytes} (hs : vssStep part = none) :
    buildNested m v (part :: parts) = buildNested m v parts := by
  rw [buildNested]
  unfold vssStep at hs
  split at hs
  · rename_i hb
    rw [if_pos (by simp [isBracketed, hb.1, hb.2])]
    rw [Option.map_eq_none_iff, List.drop_one] at hs
    rw [show inBrackets part = part.tail.dropLast from rfl, hs]
  · cases hs

theorem steps_ne {parts : List Bytes} {p : Bytes} (hl : parts.getLast? = some p) (hp : vssStep p ≠ none) : parts.filterMap vssStep ≠ [] := by
  intro h
  rw [List.filterMap_eq_nil_iff] at h
  exact hp (h p (List.mem_of_getLast? hl))

/-- C73: what a call does for a path with names and indices, whose last part is one of them.  If a member on the way is not a map, the
map stays as it is.  Otherwise the value is found by the path, everything off the path is kept, and nothing but nil is new there. -/
theorem C73_path {v : Js} : ∀ {parts : List Bytes} {m n : List (Bytes × Js)} {p : Bytes}, parts.getLast? = some p → vssStep p ≠ none →
    buildNested m v parts = .ok n →
    (Obstructed m (parts.filterMap vssStep) → n = m) ∧
    (¬ Obstructed m (parts.filterMap vssStep) → findSteps (.obj n) (parts.filterMap vssStep) = some v) ∧
    ∀ qs w, StepsApart (parts.filterMap vssStep) qs →
      (findSteps (.obj m) qs = some w → findSteps (.obj n) qs = some w) ∧
      (findSteps (.obj n) qs = some w → findSteps (.obj m) qs = some w ∨ w = .null)
  | [], _, _, _, hl, _, _ => by cases hl
  | part :: parts, m, n, p, hl, hp, h => by
    cases hs : vssStep part with
    | none =>
      rw [build_skip hs] at h
      rw [List.filterMap_cons_none hs]
      cases parts with
      | nil => simp only [List.getLast?_singleton, Option.some.injEq] at hl; subst hl; exact absurd hs hp
      | cons q parts => exact C73_path (by rw [List.getLast?_cons_cons] at hl; exact hl) hp h
    | some s =>
      rw [List.filterMap_cons_some hs]
      have hlast : parts ≠ [] → parts.getLast? = some p := by
        intro hne
        cases parts with
        | nil => exact absurd rfl hne
        | cons q parts => rw [List.getLast?_cons_cons] at hl; exact hl
      rcases build_step hs h with ⟨rfl, hput⟩ | ⟨hne, m₀, n', hm₀, hn', hput⟩ | ⟨hne, rfl, k, w, rfl, hk, hw⟩
      · refine ⟨fun ho => ?_, fun _ => ?_, fun qs w hq => ?_⟩
        · cases ho with
          | next _ _ _ _ _ ho => cases ho
        · simp [findSteps, hput.self]
        · cases hq with
          | here _ b _ bs hab =>
            simp only [findSteps]
            refine ⟨fun hf => ?_, fun hf => ?_⟩
            · obtain ⟨j, e1, e2⟩ := Option.bind_eq_some_iff.1 hf
              rw [hput.keeps b j hab e1]
              exact e2
            · obtain ⟨j, e1, e2⟩ := Option.bind_eq_some_iff.1 hf
              rcases hput.only b j hab e1 with e3 | rfl
              · left; rw [e3]; exact e2
              · right
                cases bs with
                | nil => simp only [findSteps, Option.some.injEq] at e2; exact e2.symm
                | cons b' bs => cases e2
          | next _ _ bs hq => cases hq
      · obtain ⟨i1, i2, i3⟩ := C73_path (hlast hne) hp hn'
        have hob : Obstructed m (s :: parts.filterMap vssStep) → Obstructed m₀ (parts.filterMap vssStep) ∧ s.find m = some (.obj m₀) := by
          intro ho
          generalize parts.filterMap vssStep = ss at *
          cases ho with
          | here _ k w s' ss hk hw =>
            have hk' : (VssStep.name k).find m = some w := hk
            rcases hm₀ with h1 | ⟨-, h1 | ⟨-, i, h1⟩⟩
            · rw [hk'] at h1; cases h1; cases hw
            · rw [hk'] at h1; cases h1
            · cases h1
          | next _ n0 _ _ hf ho =>
            rcases hm₀ with h1 | ⟨-, h1 | ⟨h1, -⟩⟩
            · rw [hf] at h1; cases h1; exact ⟨ho, hf⟩
            · rw [hf] at h1; cases h1
            · rw [hf] at h1; cases h1
        refine ⟨fun ho => ?_, fun ho => ?_, fun qs w hq => ?_⟩
        · obtain ⟨o1, o2⟩ := hob ho
          have := i1 o1
          subst this
          exact hput.same o2
        · simp only [findSteps, hput.self, Option.bind_some]
          refine i2 fun o1 => ho ?_
          rcases hm₀ with h1 | ⟨rfl, -⟩
          · exact .next _ _ _ _ h1 o1
          · exfalso
            generalize parts.filterMap vssStep = ss at o1
            cases o1 with
            | here _ k w s' ss hk hw => simp [mget] at hk
            | next _ n0 s' ss hf _ => cases s' <;> simp [VssStep.find, mget] at hf
        · cases hq with
          | here _ b _ bs hab =>
            simp only [findSteps]
            refine ⟨fun hf => ?_, fun hf => ?_⟩
            · obtain ⟨j, e1, e2⟩ := Option.bind_eq_some_iff.1 hf
              rw [hput.keeps b j hab e1]
              exact e2
            · obtain ⟨j, e1, e2⟩ := Option.bind_eq_some_iff.1 hf
              rcases hput.only b j hab e1 with e3 | rfl
              · left; rw [e3]; exact e2
              · right
                cases bs with
                | nil => simp only [findSteps, Option.some.injEq] at e2; exact e2.symm
                | cons b' bs => cases e2
          | next _ _ bs hq =>
            simp only [findSteps, hput.self, Option.bind_some]
            rcases hm₀ with h1 | ⟨rfl, h1⟩
            · rw [h1]
              exact i3 bs w hq
            · have hne' : bs ≠ [] := by
                intro e
                generalize parts.filterMap vssStep = ss at hq
                subst e
                cases hq
              obtain ⟨b, bs', rfl⟩ := List.exists_cons_of_ne_nil hne'
              have hempty : findSteps (.obj []) (b :: bs') = none := by
                cases b <;> simp [findSteps, VssStep.find, mget]
              refine ⟨fun hf => ?_, fun hf => ?_⟩
              · rcases h1 with h1 | ⟨h1, -⟩
                · rw [h1] at hf; cases hf
                · rw [h1] at hf; cases hf
              · rcases (i3 _ w hq).2 hf with h2 | h2
                · rw [hempty] at h2; cases h2
                · exact .inr h2
      · have hne' := steps_ne (hlast hne) hp
        obtain ⟨s', ss, hss⟩ := List.exists_cons_of_ne_nil hne'
        have ho : Obstructed n (.name k :: parts.filterMap vssStep) := by rw [hss]; exact .here _ _ _ _ _ hk hw
        exact ⟨fun _ => rfl, fun h => absurd ho h, fun qs w _ => ⟨id, .inl⟩⟩

/-- C73: building from nothing panics exactly for a negative index, and is never an error. -/
theorem C73_fresh (v : Js) : ∀ (parts : List Bytes), (buildNested [] v parts = .panic ↔ ∃ i : Int, i < 0 ∧ .index i ∈ parts.filterMap vssStep) ∧
    buildNested [] v parts ≠ .err
  | [] => by simp [buildNested]
  | part :: parts => by
    have ih := C73_fresh v parts
    cases hs : vssStep part with
    | none => rw [build_skip hs, List.filterMap_cons_none hs]; exact ih
    | some s =>
      rw [List.filterMap_cons_some hs, buildNested]
      unfold vssStep at hs
      by_cases hb : part.head? = some 91 ∧ part.getLast? = some 93
      · have hb' : isBracketed part = true := by simp [isBracketed, hb.1, hb.2]
        rw [if_pos hb']
        rw [if_pos hb, List.drop_one] at hs
        cases ha : atoi part.tail.dropLast with
        | none => rw [ha] at hs; cases hs
        | some i =>
          rw [ha] at hs
          cases hs
          rw [show inBrackets part = part.tail.dropLast from rfl, ha]
          dsimp only
          by_cases hi : i < 0
          · rw [show arrayFor [] i = .panic by unfold arrayFor; rw [if_pos hi]]
            simp only [Res.bind, true_iff]
            exact ⟨⟨i, hi, by simp⟩, by simp⟩
          · rw [show arrayFor [] i = .ok (List.replicate (i.toNat + 1) .null) by unfold arrayFor; rw [if_neg hi]; rfl]
            simp only [Res.bind]
            have hex : (∃ j : Int, j < 0 ∧ VssStep.index j ∈ VssStep.index i :: parts.filterMap vssStep) ↔
                ∃ j : Int, j < 0 ∧ VssStep.index j ∈ parts.filterMap vssStep := by
              constructor
              · rintro ⟨j, h1, h2⟩
                rcases List.mem_cons.1 h2 with h | h
                · cases h; exact absurd h1 hi
                · exact ⟨j, h1, h⟩
              · rintro ⟨j, h1, h2⟩; exact ⟨j, h1, by simp [h2]⟩
            rw [hex]
            by_cases hp : parts = []
            · subst hp; simp
            · rw [if_neg hp, List.getElem?_replicate, if_pos (by omega)]
              cases hr : buildNested [] v parts <;> rw [hr] at ih <;> simp [Res.map] at ih ⊢ <;> first | exact ih | skip
      · have hb' : isBracketed part = false := by
          rw [Bool.eq_false_iff]
          intro k
          simp [isBracketed] at k
          exact hb k
        rw [if_neg (by rw [hb']; simp)]
        rw [if_neg hb] at hs
        cases hs
        have hex : (∃ j : Int, j < 0 ∧ VssStep.index j ∈ VssStep.name part :: parts.filterMap vssStep) ↔
            ∃ j : Int, j < 0 ∧ VssStep.index j ∈ parts.filterMap vssStep := by simp
        rw [hex]
        by_cases hp : parts = []
        · subst hp; simp
        · rw [if_neg hp]
          simp only [mget]
          cases hr : buildNested [] v parts <;> rw [hr] at ih <;> simp [Res.map] at ih ⊢ <;> first | exact ih | skip

/-- A path with an index: the value is the second element. -/
example : ∃ n, buildNested [] (.bool true) [b!"V", b!"[1]", b!"S"] = .ok n ∧
    findSteps (.obj n) [.name b!"V", .index 1, .name b!"S"] = some (.bool true) := by
  refine ⟨_, rfl, (C73_path (m := []) (parts := [b!"V", b!"[1]", b!"S"]) (p := b!"S") rfl (by decide) rfl).2.1 ?_⟩
  intro ho
  have e : [b!"V", b!"[1]", b!"S"].filterMap vssStep = [.name b!"V", .index 1, .name b!"S"] := by decide
  rw [e] at ho
  cases ho with
  | here _ _ _ _ _ h _ => cases h
  | next _ _ _ _ h _ => cases h

/-- A member on the way that is not a map. -/
example : buildNested [(b!"V", .bool true)] (.bool false) [b!"V", b!"S"] = .ok [(b!"V", .bool true)] := by rfl

example : Obstructed [(b!"V", .bool true)] ([b!"V", b!"S"].filterMap vssStep) := .here _ b!"V" (.bool true) _ _ rfl rfl

example : buildNested [] (.bool true) [b!"V", b!"[-1]"] = .panic := (C73_fresh _ _).1.2 ⟨-1, by decide, by decide⟩

/-- C73, refuted: a value is stored whatever its path is.  After a last part in brackets that is not an index, the value is lost. -/
theorem C73_brackets_fails : buildNested [] (.bool true) [b!"V", b!"[x]"] = .ok [(b!"V", .obj [])] := by rfl

/-! ### C74: ranges -/

/-- C74: the range of the numbers drawn for an integer type without allowed values. -/
theorem C74_range_partial {md : List (Bytes × Js)} {dt : Bytes} (hd : mget md b!"datatype" = some (.str dt)) (ha : mget md b!"allowed" = none)
    {lo hi : Int} (hr : drawnRange dt = some (lo, hi)) (ts : Int) {d : Draw} (hf : d.Fair md) :
    ∃ k, drawValue md ts d = .ok (some (.obj [(b!"value", .int k), (b!"timestamp", .int ts)])) ∧ lo ≤ k ∧ k ≤ hi := by
  have h100 := below100_int (hf.hundred 0)
  have h200 := hf.upTo200
  have h101 := hf.upTo100 0
  unfold drawnRange at hr
  split at hr
  · rename_i h
    cases hr
    rcases h with rfl | rfl <;> exact ⟨(d.hundred 0).toInt64, by simp [drawValue, hd, isStr_str, vssLeaf], by omega, by omega⟩
  · split at hr
    · rename_i h
      cases hr
      rcases h with rfl | rfl <;> exact ⟨(d.upTo200 : Int) - 100, by simp [drawValue, hd, ha, isStr_str, vssLeaf], by omega, by omega⟩
    · split at hr
      · rename_i h
        cases hr
        rcases h with rfl | rfl <;> exact ⟨(d.upTo100 0 : Int), by simp [drawValue, hd, ha, isStr_str, vssLeaf], by omega, by omega⟩
      · cases hr

/-- A fair draw. -/
example : ∃ k, drawValue [(b!"datatype", .str b!"int16")] 7 ⟨false, true, fun _ => F64.ofInt 5, 0, 3, fun _ => 4, fun _ => 5, fun _ => 2⟩ =
    .ok (some (.obj [(b!"value", .int k), (b!"timestamp", .int 7)])) ∧ -100 ≤ k ∧ k ≤ 100 :=
  C74_range_partial (dt := b!"int16") rfl rfl (by decide) 7
    ⟨fun _ => below100_five, (by intro l h; cases h), by decide, fun _ => (by decide : 4 ≤ 100), fun _ => (by decide : 5 < 20), fun _ => (by decide : 2 < 5)⟩

end Verif
