import Verif.PropsPatchText
import Verif.PropsTJson
/-
C45: members of an operation's text that are null.  C48: periods with bounds beyond int64.
-/
namespace Verif

/-! ### Specification -/

/-- A member other than `value` that is null. [fields at internal/tsonpatch/tsonpatch.go:82-85] -/
def idleMember : Bytes × Jt → Bool
  | (k, .null) => foldName k ≠ b!"VALUE"
  | _ => false

/-- The operation's text without such members. [fields at internal/tsonpatch/tsonpatch.go:82-85] -/
def dropIdle : Jt → Jt
  | .obj m => .obj (m.filter fun x => !idleMember x)
  | j => j

/-! ### Lemmas -/

theorem decodeField_idle (o : POp) {k : Bytes} {v : Jt} (h : idleMember (k, v) = true) : decodeField o k v = .ok o := by
  cases v <;> simp only [idleMember, Bool.false_eq_true, decide_eq_true_eq] at h
  unfold decodeField
  dsimp only
  rw [if_neg h]
  simp only [decodeStr, decodeInt, Res.map_ok]
  split
  · rfl
  · split
    · rfl
    · split <;> rfl

theorem decodeFields_idle (m : List (Bytes × Jt)) : ∀ o : POp,
    decodeFields o (m.filter fun x => !idleMember x) = decodeFields o m := by
  induction m with
  | nil => intro o; rfl
  | cons x m ih =>
    intro o
    obtain ⟨k, v⟩ := x
    cases h : idleMember (k, v) with
    | true =>
      simp only [List.filter_cons, h, Bool.not_true, Bool.false_eq_true, if_false, decodeFields, decodeField_idle o h,
        Res.bind_ok]
      exact ih o
    | false =>
      simp only [List.filter_cons, h, Bool.not_false, if_true, decodeFields]
      exact congrArg _ (funext ih)

theorem decodeOps_idle (l : List Jt) : decodeOps (l.map dropIdle) = decodeOps l := by
  induction l with
  | nil => rfl
  | cons j l ih =>
    simp only [List.map_cons, decodeOps, ih]
    congr 1
    cases j <;> simp only [dropIdle, decodeOp]
    exact decodeFields_idle _ _

theorem parseIntLossy_beyond (n : Nat) :
    parseIntLossy (natDigits n) = if (n : Int) ≤ maxInt64 then (n : Int) else maxInt64 := by
  by_cases h : (n : Int) ≤ maxInt64
  · rw [if_pos h, parseIntLossy_digits h]
  · rw [if_neg h]
    obtain ⟨c, r, hc, hd⟩ := natDigits_head n
    have hp := parseDigits_natDigits n
    rw [hc] at hp ⊢
    have h1 : c ≠ 43 := isDigit_ne hd (by decide)
    have h2 : c ≠ 45 := isDigit_ne hd (by decide)
    simp only [parseIntLossy, signedDigits, h1, h2, if_false, hp, Option.map_some]
    simp only [minInt64, maxInt64] at *
    have : Int.ofNat n = (n : Int) := rfl
    rw [this, if_neg (by omega), if_pos (by omega)]

/-! ### C45 and C48 -/

/-- C45: a text whose operations have members `op`, `path` or `timestamp` (in any spelling) that are null, or unknown
members that are null, is read like the text without these members. -/
theorem C45_null_members {s s' : Bytes} {l : List Jt} (h : readText s = some (.arr l))
    (h' : readText s' = some (.arr (l.map dropIdle))) : unmarshalPatch s' = unmarshalPatch s := by
  simp only [unmarshalPatch, h, h', decodeOps_idle]

example : unmarshalPatch b!"[{\"op\":\"add\",\"path\":\"/a\",\"value\":true}]" =
    unmarshalPatch b!"[{\"op\":\"add\",\"path\":\"/a\",\"Path\":null,\"value\":true,\"op\":null,\"x\":null}]" :=
  C45_null_members
    (l := [.obj [(b!"op", .str b!"add"), (b!"path", .str b!"/a"), (b!"Path", .null), (b!"value", .bool true),
      (b!"op", .null), (b!"x", .null)]]) (by rfl) (by rfl)

/-- C45: but a member `value` that is null replaces an earlier value. -/
theorem C45_null_value_fails :
    unmarshalPatch b!"[{\"op\":\"add\",\"path\":\"/a\",\"value\":true,\"value\":null}]" =
      .ok (some [⟨b!"add", b!"/a", .any .null, 0⟩]) ∧
    unmarshalPatch b!"[{\"op\":\"add\",\"path\":\"/a\",\"value\":true}]" =
      .ok (some [⟨b!"add", b!"/a", .any (.bool true), 0⟩]) := ⟨by rfl, by rfl⟩

/-- C48: a period whose bounds are any numbers without sign is read with each bound cut off at the largest int64. -/
theorem C48_beyond (n k : Nat) : parsePeriod (natDigits n ++ 45 :: natDigits k) =
    (if (n : Int) ≤ maxInt64 then (n : Int) else maxInt64, if (k : Int) ≤ maxInt64 then (k : Int) else maxInt64) := by
  have hn : (45 : UInt8) ∉ natDigits n := not_mem_of_all_isDigit (natDigits_isDigit _) (by decide)
  simp only [parsePeriod]
  rw [split_append_sep _ _ _ hn, split_digits]
  simp only [parseIntLossy_beyond]

example : parsePeriod b!"7-99999999999999999999" = (7, 9223372036854775807) := by decide +kernel

end Verif
