import Verif.PropsJson
import Verif.PropsCodec
/-
Details of the texts that the main theorems leave open: the escapes for control characters (C33), the sorted form of a
document with nil (C41) and the unexported parser on timestamps that are not floating-point numbers (C42).
-/
namespace Verif

/-- C33: how the text shows control characters: seven have an escape of one letter, the others and DEL are written as
`\x` with two hexadecimal digits. -/
theorem C33_control_text (P : Nat → Bool) :
    quote P [7] = b!"\"\\a\"" ∧ quote P [8] = b!"\"\\b\"" ∧ quote P [9] = b!"\"\\t\"" ∧ quote P [10] = b!"\"\\n\"" ∧
    quote P [11] = b!"\"\\v\"" ∧ quote P [12] = b!"\"\\f\"" ∧ quote P [13] = b!"\"\\r\"" ∧
    ∀ c : UInt8, c < 32 ∧ (c < 7 ∨ 13 < c) ∨ c = 127 →
      ∃ h l : UInt8, quote P [c] = [34, 92, 120, h, l, 34] ∧ h = UInt8.ofNat (48 + c.toNat / 16) ∧
        l = UInt8.ofNat (if c.toNat % 16 < 10 then 48 + c.toNat % 16 else 87 + c.toNat % 16) := by
  refine ⟨rfl, rfl, rfl, rfl, rfl, rfl, rfl, fun c hc => ⟨_, _, ?_, rfl, rfl⟩⟩
  have key : ∀ n : Fin 256, (UInt8.ofNat n < 32 ∧ (UInt8.ofNat n < 7 ∨ 13 < UInt8.ofNat n) ∨ UInt8.ofNat n = 127) →
      (UInt8.ofNat n < 0x80) ∧ escByte (UInt8.ofNat n) =
        [92, 120, UInt8.ofNat (48 + (UInt8.ofNat n).toNat / 16),
          UInt8.ofNat (if (UInt8.ofNat n).toNat % 16 < 10 then 48 + (UInt8.ofNat n).toNat % 16 else 87 + (UInt8.ofNat n).toNat % 16)] := by
    decide +kernel
  have hn : UInt8.ofNat c.toNat = c := by simp
  have := key ⟨c.toNat, c.toNat_lt⟩
  simp only [hn] at this
  obtain ⟨h1, h2⟩ := this hc
  simp only [quote, List.length_singleton, quoteBody, if_pos h1, h2]
  rfl

example : quote (fun _ => true) [127] = b!"\"\\x7f\"" := by decide

theorem toSorted_ok (t : Tson) : (∃ j, toSortedInterface t = .ok j) ↔ NullFree t := by
  induction t using Tson.induction with
  | null => simp [toSortedInterface, NullFree]
  | leaf p ts => simp [toSortedInterface, NullFree]
  | obj m ih =>
    rw [toSortedInterface, NullFree]
    have : (∃ j, toSortedF m = .ok j) ↔ NullFreeF m := by
      induction m with
      | nil => simp [toSortedF, NullFreeF]
      | cons x m ihm =>
        obtain ⟨k, v⟩ := x
        rw [NullFreeF, ← ih (k, v) List.mem_cons_self, ← ihm fun p hp => ih p (List.mem_cons_of_mem _ hp), toSortedF]
        cases toSortedInterface v <;> cases toSortedF m <;> simp [Res.bind, Res.map]
    rw [← this]
    cases toSortedF m <;> simp [Res.map]
  | arr l ih =>
    rw [toSortedInterface, NullFree]
    have : (∃ j, toSortedL l = .ok j) ↔ NullFreeL l := by
      induction l with
      | nil => simp [toSortedL, NullFreeL]
      | cons v l ihl =>
        rw [NullFreeL, ← ih v List.mem_cons_self, ← ihl fun p hp => ih p (List.mem_cons_of_mem _ hp), toSortedL]
        cases toSortedInterface v <;> cases toSortedL l <;> simp [Res.bind, Res.map]
    rw [← this]
    cases toSortedL l <;> simp [Res.map]

/-- C41: the sorted form exists for the documents without nil only; for the others `ToCompatibleTsonBytesSorted` returns an
error. -/
theorem C41_nil (t : Tson) (h : ¬ NullFree t) : toCompatibleSorted t = .err := by
  unfold toCompatibleSorted
  cases e : toSortedInterface t with
  | ok j => exact absurd ((toSorted_ok t).1 ⟨j, e⟩) h
  | err => rfl
  | panic => exact absurd e (toSortedInterface_ne_panic t)

example : ¬ NullFree (.obj [(b!"a", .leaf (.bool true) 1), (b!"b", .null)]) := by simp [NullFree, NullFreeF]

/-- C42: the unexported parser accepts timestamps of the Go type `float64` only; with an `int64` it panics, whatever the
value is. -/
theorem C42_int_panics (v : Js) (n : Int) :
    parseValueAny (.obj [(b!"value", v), (b!"timestamp", .int n)]) = .panic ∧
    parseValueAny (.obj [(b!"timestamp", .int n), (b!"value", v)]) = .panic := by
  constructor <;> rfl

end Verif
