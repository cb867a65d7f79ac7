import Verif.PropsExpDirs
/-
The numbered files of an experiment (exp/doc_data_save.go, lines 46-56 and 77-87): single patches and snapshots.  Nothing in the
code calls these functions; the property is what a caller may expect of them.
-/
namespace Verif

/-- What a numbered file holds. [exp/doc_data_save.go:46-56, 77-87] -/
inductive Numbered where
  | jsonPatch | tsonPatch | jsonSnapshot | tsonSnapshot
deriving Repr, DecidableEq

/-- The start of the name. [exp/doc_data_save.go:48, 54, 79, 85] -/
def Numbered.stem : Numbered → Bytes
  | .jsonPatch => b!"json_patch_"
  | .tsonPatch => b!"tson_patch_"
  | .jsonSnapshot => b!"json_snapshot_"
  | .tsonSnapshot => b!"tson_snapshot_"

/-- The width of the number. [exp/doc_data_save.go:48, 54, 79, 85] -/
def Numbered.width : Numbered → Nat
  | .jsonPatch => 4
  | .tsonPatch => 4
  | .jsonSnapshot => 9
  | .tsonSnapshot => 9

/-- `%04d` and `%09d`: zeros up to the width, in which the sign of a negative number counts.
[`fmt.Sprintf` at exp/doc_data_save.go:48, 54, 79, 85] -/
def zeroPadded (w : Nat) (n : Int) : Bytes :=
  if n < 0 then 45 :: padded (w - 1) n.natAbs else padded w n.toNat

/-- The name of a numbered file. [exp/doc_data_save.go:48, 54, 79, 85] -/
def Numbered.file (k : Numbered) (n : Int) : Bytes := k.stem ++ (zeroPadded k.width n ++ b!".json")

/-- `SaveJSONPatch`, `SaveTSONPatch`, `SaveJSONSnapshot` and `SaveTSONSnapshot` (exp/doc_data_save.go:46-56, 77-87) of data with the
given JSON text. -/
def Dir.saveNumbered (dir : Dir) (k : Numbered) (n : Int) (s : Res Bytes) : Dir := dir.save (k.file n) s

/-! ### Names -/

/-- What a digit string stands for. -/
def decimal (s : Bytes) : Nat := s.foldl (fun a c => 10 * a + (c.toNat - 48)) 0

theorem decimal_snoc (s : Bytes) (c : UInt8) : decimal (s ++ [c]) = 10 * decimal s + (c.toNat - 48) := by
  simp [decimal, List.foldl_append]

theorem digit_toNat {d : Nat} (h : d < 10) : (UInt8.ofNat (48 + d)).toNat - 48 = d := by
  rw [UInt8.toNat_ofNat']
  omega

theorem decimal_natDigits (n : Nat) : decimal (natDigits n) = n := by
  induction n using Nat.strongRecOn with
  | ind n ih =>
    by_cases h : n < 10
    · rw [natDigits_small h]
      simp only [decimal, List.foldl_cons, List.foldl_nil]
      rw [digit_toNat h]
      omega
    · rw [natDigits_step (by omega), decimal_snoc, ih (n / 10) (by omega), digit_toNat (by omega)]
      omega

theorem decimal_zeros (k : Nat) (s : Bytes) : decimal (List.replicate k 48 ++ s) = decimal s := by
  induction k with
  | zero => simp
  | succ k ih =>
    rw [List.replicate_succ, List.cons_append]
    rw [← ih]
    simp [decimal]

theorem decimal_padded (w n : Nat) : decimal (padded w n) = n := by
  rw [padded, decimal_zeros, decimal_natDigits]

theorem padded_allDigits (w n : Nat) : (padded w n).all isDigit = true := by
  simp only [padded, List.all_append, natDigits_isDigit, Bool.and_true, List.all_eq_true]
  intro c hc
  rw [List.eq_of_mem_replicate hc]
  decide

theorem zeroPadded_injective {w : Nat} {m n : Int} (h : zeroPadded w m = zeroPadded w n) : m = n := by
  have no45 : ∀ (v k j : Nat) (t : Bytes), 45 :: t ≠ padded v k := by
    intro v k j t e
    have := padded_allDigits v k
    rw [← e] at this
    simp [isDigit] at this
  unfold zeroPadded at h
  split at h <;> split at h
  · have := congrArg decimal (List.cons.inj h).2
    rw [decimal_padded, decimal_padded] at this
    omega
  · exact absurd h (no45 _ _ 0 _)
  · exact absurd h.symm (no45 _ _ 0 _)
  · have := congrArg decimal h
    rw [decimal_padded, decimal_padded] at this
    omega

/-- **C98, names.**  Two numbered files have the same name only if they hold the same kind of data and have the same number. -/
theorem C98_names {k l : Numbered} {m n : Int} (h : k.file m = l.file n) : k = l ∧ m = n := by
  have hk : k = l := by
    have h6 := congrArg (fun s => s.take 6) h
    cases k <;> cases l <;> first | rfl | (exfalso; revert h6; simp [Numbered.file, Numbered.stem])
  subst hk
  refine ⟨rfl, ?_⟩
  have h1 := List.append_cancel_left h
  exact zeroPadded_injective (List.append_cancel_right h1)

example : Numbered.jsonSnapshot.file 1500 = b!"json_snapshot_000001500.json" ∧ Numbered.tsonPatch.file (-7) = b!"tson_patch_-007.json" ∧
    Numbered.jsonPatch.file 123456 = b!"json_patch_123456.json" := by decide +kernel

/-- **C98, order.**  Numbers from zero on that fit the width are in the order of the names. -/
theorem C98_order_partial {k : Numbered} {m n : Int} (hm : 0 ≤ m) (hn : 0 ≤ n) (hm' : m < 10 ^ k.width) (hn' : n < 10 ^ k.width) :
    bytesLe (k.file m) (k.file n) = true ↔ m ≤ n := by
  have front : ∀ (p s t : Bytes), bytesLe (p ++ s) (p ++ t) = bytesLe s t := by
    intro p
    induction p with
    | nil => intro s t; rfl
    | cons c p ih => intro s t; simp [bytesLe, ih]
  have hw : 1 ≤ k.width := by cases k <;> decide
  have cast : ((10 ^ k.width : Nat) : Int) = 10 ^ k.width := by cases k <;> rfl
  rw [Numbered.file, Numbered.file, front]
  rw [zeroPadded, zeroPadded, if_neg (by omega), if_neg (by omega)]
  rw [bytesLe_padded hw (by omega) (by omega)]
  by_cases h1 : m.toNat < n.toNat
  · simp [h1]; omega
  · by_cases h2 : n.toNat < m.toNat
    · simp [h1, h2]; omega
    · have : m = n := by omega
      subst this
      simp [bytesLe]

example : bytesLe (Numbered.jsonSnapshot.file 99999) (Numbered.jsonSnapshot.file 100000) = true := by decide +kernel

/-- **C98, order, refuted.**  Above the width and below zero the names are in another order. -/
theorem C98_order_fails (k : Numbered) :
    (∃ m n : Int, 0 ≤ m ∧ m < n ∧ bytesLe (k.file m) (k.file n) = false) ∧
    ∃ m n : Int, m < n ∧ n < 0 ∧ bytesLe (k.file m) (k.file n) = false := by
  cases k
  · exact ⟨⟨9999, 10000, by decide, by decide, by decide +kernel⟩, -2, -1, by decide, by decide, by decide +kernel⟩
  · exact ⟨⟨9999, 10000, by decide, by decide, by decide +kernel⟩, -2, -1, by decide, by decide, by decide +kernel⟩
  · exact ⟨⟨999999999, 1000000000, by decide, by decide, by decide +kernel⟩, -2, -1, by decide, by decide, by decide +kernel⟩
  · exact ⟨⟨999999999, 1000000000, by decide, by decide, by decide +kernel⟩, -2, -1, by decide, by decide, by decide +kernel⟩

/-! ### Contents -/

/-- A call that saves a numbered file. -/
structure Saving where
  kind : Numbered
  number : Int
  text : Res Bytes

/-- A sequence of calls. [exp/doc_data_save.go:46-56, 77-87] -/
def Dir.saveAll (dir : Dir) (xs : List Saving) : Dir := xs.foldl (fun (d : Dir) x => Dir.saveNumbered d x.kind x.number x.text) dir

/-- The contents a call asks for, if there are any. -/
def Saving.content (x : Saving) : Option Bytes :=
  match x.text with
  | .ok s => some (appendIndent 2 .out 0 false s)
  | _ => none

theorem saveNumbered_read (dir : Dir) (x : Saving) (name : Bytes) :
    mget (dir.saveNumbered x.kind x.number x.text) name =
      if x.kind.file x.number = name then (x.content.or (mget dir name)) else mget dir name := by
  obtain ⟨k, n, t⟩ := x
  cases t with
  | ok s =>
    simp only [Dir.saveNumbered, Dir.save, indented, Res.map, Saving.content]
    by_cases h : k.file n = name
    · subst h; simp [mget_mset]
    · simp [mget_mset, h, Ne.symm h]
  | err => simp [Dir.saveNumbered, Dir.save, indented, Res.map, Saving.content]
  | panic => simp [Dir.saveNumbered, Dir.save, indented, Res.map, Saving.content]

/-- **C98, contents.**  After any sequence of calls a file with the name of a kind and a number holds what the last call with this
kind and number and a text asked for; without such a call it is as before.  All other files are as before. -/
theorem C98_contents (dir : Dir) (xs : List Saving) :
    (∀ k n, mget (Dir.saveAll dir xs) (k.file n) =
      (((xs.filter fun x => decide (x.kind = k ∧ x.number = n)).filterMap Saving.content).getLast?).or (mget dir (k.file n))) ∧
    ∀ name, (∀ x ∈ xs, x.kind.file x.number ≠ name) →
      mget (Dir.saveAll dir xs) name = mget dir name := by
  constructor
  · intro k n
    induction xs generalizing dir with
    | nil => simp [Dir.saveAll]
    | cons x xs ih =>
      rw [show Dir.saveAll dir (x :: xs) = Dir.saveAll (Dir.saveNumbered dir x.kind x.number x.text) xs from rfl, ih, saveNumbered_read]
      by_cases h : x.kind = k ∧ x.number = n
      · obtain ⟨rfl, rfl⟩ := h
        simp only [if_pos, List.filter_cons, and_self, decide_true, List.filterMap_cons]
        cases hc : x.content with
        | none => simp
        | some c =>
          simp only [List.getLast?_cons]
          cases ((List.filter (fun y => decide (y.kind = x.kind ∧ y.number = x.number)) xs).filterMap Saving.content).getLast? <;> simp
      · rw [if_neg (fun e => h (C98_names e))]
        simp [h]
  · intro name hn
    induction xs generalizing dir with
    | nil => rfl
    | cons x xs ih =>
      rw [show Dir.saveAll dir (x :: xs) = Dir.saveAll (Dir.saveNumbered dir x.kind x.number x.text) xs from rfl, ih _ (fun y hy => hn y (List.mem_cons_of_mem _ hy)), saveNumbered_read,
        if_neg (hn x List.mem_cons_self)]

example : mget (Dir.saveAll [] [⟨.jsonSnapshot, 5, .ok b!"0"⟩, ⟨.jsonSnapshot, 5, .ok b!"1"⟩, ⟨.tsonSnapshot, 5, .ok b!"2"⟩, ⟨.jsonSnapshot, 5, .err⟩])
    b!"json_snapshot_000000005.json" = some b!"1" := by decide +kernel

/-- The files the rest of the experiment writes and reads. [exp/doc_data_save.go:37, 42, 60, 65, 70, 75] -/
def plainFiles : List Bytes :=
  [b!"initial_json.json", b!"initial_tson.json", b!"final_json.json", b!"final_tson.json", b!"all_json_patches.json",
    b!"all_tson_patches.json"]

/-- **C98, the other files.**  No numbered file has the name of one of the files an experiment is read from. -/
theorem C98_apart (k : Numbered) (n : Int) : k.file n ∉ plainFiles := by
  intro h
  simp only [plainFiles, List.mem_cons, List.not_mem_nil, or_false] at h
  rcases h with h | h | h | h | h | h <;>
    (have h6 := congrArg (fun s => s.take 4) h; cases k <;> (revert h6; simp [Numbered.file, Numbered.stem]))

theorem loadFiles_value : ∀ fs : List (Bytes × Bytes), (mkeys fs).Nodup →
    loadFiles fs = match mget fs b!"all_tson_patches.json" with | none => .ok [] | some s => readPatches s
  | [], _ => rfl
  | (k, v) :: fs, hn => by
    obtain ⟨hn1, hn2⟩ := List.nodup_cons.1 (show (k :: mkeys fs).Nodup from hn)
    have ih := loadFiles_value fs hn2
    rw [mget_cons, loadFiles]
    by_cases hk : k = b!"all_tson_patches.json"
    · rw [if_pos hk, if_pos hk]
      have hnone : mget fs b!"all_tson_patches.json" = none := mget_eq_none.2 (hk ▸ hn1)
      rw [hnone] at ih
      rw [ih]
      cases hv : readPatches v <;> simp [Res.bind, Res.map, hv]
    · rw [if_neg hk, if_neg hk]
      exact ih

theorem nodup_saveAll : ∀ (xs : List Saving) (dir : Dir), (mkeys dir).Nodup → (mkeys (Dir.saveAll dir xs)).Nodup
  | [], _, h => h
  | x :: xs, dir, h => nodup_saveAll xs (Dir.saveNumbered dir x.kind x.number x.text) (nodup_save h _ _)

/-- **C98, reading.**  Numbered files change nothing of what is read from a directory: neither the document nor the patches.  In
particular no saved single patch and no saved snapshot is ever read. -/
theorem C98_reading {dir : Dir} (hd : (mkeys dir).Nodup) (xs : List Saving) :
    (Dir.saveAll dir xs).loadDoc = dir.loadDoc ∧ (Dir.saveAll dir xs).loadPatches = dir.loadPatches := by
  have keep : ∀ name ∈ plainFiles, mget (Dir.saveAll dir xs) name = mget dir name := fun name hn =>
    (C98_contents dir xs).2 name (fun x _ e => C98_apart x.kind x.number (e ▸ hn))
  have hn := nodup_saveAll xs dir hd
  constructor
  · rw [Dir.loadDoc, Dir.loadDoc, keep _ (by simp [plainFiles])]
  · rw [Dir.loadPatches, Dir.loadPatches, loadFiles_value _ (sortM_nodup hn), loadFiles_value _ (sortM_nodup hd), mget_sortM hn,
      mget_sortM hd, keep _ (by simp [plainFiles])]

example : (Dir.saveAll [] [⟨.tsonPatch, 0, .ok b!"{}"⟩]).loadPatches = .ok [] := (C98_reading (by decide) _).2

end Verif
