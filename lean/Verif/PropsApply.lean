import Verif.ApplyLemmas
/-
Properties C10, C24, C25, C26, C27: applying operations and patches to a document.

A location written by an operation is `writeParts op.path`; `writeParts_pointer` below says which
keys these are for a path spelled from keys.
-/
namespace Verif

theorem decode_not_mem {c : UInt8} (h1 : c ≠ bSlash) (h2 : c ≠ bTilde) (s : Bytes) (h : c ∉ s) :
    c ∉ decode s := by
  fun_induction decode s with
  | case1 => exact h
  | case2 d => exact h
  | case3 x y r _ ih => simp at h ⊢; exact ⟨h1, ih (by simp_all)⟩
  | case4 x y r _ _ ih => simp at h ⊢; exact ⟨h2, ih (by simp_all)⟩
  | case5 x y r _ _ ih => simp only [List.mem_cons, not_or] at h ⊢; exact ⟨h.1, ih (by simp_all)⟩

theorem dotsToSlashes_of_not_mem (s : Bytes) (h : bDot ∉ s) : dotsToSlashes s = s := by
  unfold dotsToSlashes
  induction s with
  | nil => rfl
  | cons c s ih =>
    simp only [List.mem_cons, not_or] at h
    simp only [List.map_cons, ih h.2, Ne.symm h.1, if_false]

/-- A path without dots writes to the location that is read with a leading separator. -/
theorem writeParts_eq_readParts (path : Bytes) (h : bDot ∉ path) :
    readParts (bSlash :: path) = writeParts path := by
  unfold readParts writeParts
  rw [decode_slash_cons, dotsToSlashes_of_not_mem _ (decode_not_mem (by decide) (by decide) _ h)]
  simp [split]

theorem encode_not_mem {c : UInt8} (h0 : c ≠ bZero) (h1 : c ≠ bOne) (h2 : c ≠ bTilde) (s : Bytes)
    (h : c ∉ s) : c ∉ encode s := by
  induction s with
  | nil => exact h
  | cons d s ih =>
    simp only [List.mem_cons, not_or] at h
    simp only [encode]
    repeat' split
    all_goals simp only [List.mem_cons, not_or]
    · exact ⟨h2, h0, ih h.2⟩
    · exact ⟨h2, h1, ih h.2⟩
    · exact ⟨h.1, ih h.2⟩

theorem pointer_not_mem (ks : List Bytes) (h : ∀ k ∈ ks, bDot ∉ k) : bDot ∉ pointer ks := by
  induction ks with
  | nil => simp [pointer]
  | cons k ks ih =>
    simp only [pointer, List.mem_cons, List.mem_append, not_or]
    refine ⟨by decide, encode_not_mem (by decide) (by decide) (by decide) _ (h k (by simp)), ih fun k' hk => ?_⟩
    exact h k' (by simp [hk])

/-- The keys written by a path spelled as a pointer without its leading separator. -/
theorem writeParts_pointer (ks : List Bytes) (hne : ks ≠ []) (hs : ∀ k ∈ ks, bSlash ∉ k)
    (hd : ∀ k ∈ ks, bDot ∉ k) : writeParts (pointer ks).tail = ks := by
  have h1 : bSlash :: (pointer ks).tail = pointer ks := by
    cases ks with
    | nil => exact absurd rfl hne
    | cons k ks => rfl
  have h2 : bDot ∉ (pointer ks).tail := fun h => pointer_not_mem ks hd (List.mem_of_mem_tail h)
  rw [← writeParts_eq_readParts _ h2, h1]
  exact readParts_pointer ks hne hs

theorem cls_set {k : OpKind} (h : k = .add ∨ k = .replace) : k.cls = .set := by
  rcases h with rfl | rfl <;> rfl

theorem take_ne_nil {ks : List Bytes} {n : Nat} (h0 : 0 < n) (hne : ks ≠ []) : ks.take n ≠ [] := by
  intro h
  rw [List.take_eq_nil_iff] at h
  rcases h with h | h
  · omega
  · exact hne h

/-! ### C24 -/

/-- C24, every object document and path: a successful `add`/`replace` leaves a leaf with the written
value and timestamp at the addressed location, or (only if an array lies on the way) at the element of
that array, cutting the path short. -/
theorem C24_written_leaf (m : List (Bytes × Tson)) (hm : (Tson.obj m).Wf) (op : Op) (p : Prim)
    (hk : op.kind = .add ∨ op.kind = .replace) (hv : Writes op.value p) (t' : Tson)
    (h : applyDoc (.obj m) op = .ok t') :
    ∃ n, 0 < n ∧ n ≤ (writeParts op.path).length ∧
      Reaches t' ((writeParts op.path).take n) (.leaf p op.ts) ∧
      (n = (writeParts op.path).length ∨
        ∃ l, Reaches (.obj m) ((writeParts op.path).take (n - 1)) (.arr l)) := by
  rw [applyDoc_eq hm] at h
  rcases hT : applyOpT (.obj m) op with ⟨o, r⟩
  rw [hT] at h
  simp only at h
  subst h
  obtain ⟨n, h1, h2, h3, h4⟩ := applyT_readback (writes_iff.1 hv) (cls_set hk) _ (split_ne_nil' _) m o t' hT
  refine ⟨n, h1, h2, (getParts_ok_iff _ (take_ne_nil h1 (split_ne_nil' _)) _ _).1 h3, ?_⟩
  rcases h4 with h4 | ⟨l, h4⟩
  · exact Or.inl h4
  · right
    refine ⟨l, (getParts_ok_iff _ ?_ _ _).1 h4⟩
    intro hc; rw [hc] at h4; simp [getParts] at h4

/-- C24 in the form "written at a pointer, read at the same pointer" for keys without '/' and '.'
when no array lies on the way.  Missing compared to the full statement: the path given to the write must
not have the leading separator (`C24_leading_slash_fails`), dots (`C24_dot_fails`), and arrays on the way
(`C24_below_array_fails`). -/
theorem C24_read_back_partial (m : List (Bytes × Tson)) (hm : (Tson.obj m).Wf) (op : Op) (p : Prim)
    (ks : List Bytes) (hne : ks ≠ []) (hs : ∀ k ∈ ks, bSlash ∉ k) (hd : ∀ k ∈ ks, bDot ∉ k)
    (hpath : op.path = (pointer ks).tail)
    (harr : ∀ n l, n < ks.length → ¬ Reaches (.obj m) (ks.take n) (.arr l))
    (hk : op.kind = .add ∨ op.kind = .replace) (hv : Writes op.value p) (t' : Tson)
    (h : applyDoc (.obj m) op = .ok t') :
    getValue t' (pointer ks) = .ok (.leaf p op.ts) := by
  obtain ⟨n, h1, h2, h3, h4⟩ := C24_written_leaf m hm op p hk hv t' h
  rw [hpath, writeParts_pointer ks hne hs hd] at h2 h3 h4
  rw [(C23_getValue_partial t' ks hne hs).1]
  rcases h4 with h4 | ⟨l, h4⟩
  · rw [h4, List.take_length] at h3; exact h3
  · exact absurd h4 (harr (n - 1) l (by omega))

/-- C24 for array elements: a path ending in an element of an array that is reached through objects is
read back too (the array grows if the index is beyond its end). -/
theorem C24_element_read_back (m : List (Bytes × Tson)) (hm : (Tson.obj m).Wf) (op : Op) (p : Prim)
    (ks : List Bytes) (hne : ks ≠ []) (hs : ∀ k ∈ ks, bSlash ∉ k) (hd : ∀ k ∈ ks, bDot ∉ k)
    (hpath : op.path = (pointer ks).tail)
    (harr : ∀ n l, n + 1 < ks.length → ¬ Reaches (.obj m) (ks.take n) (.arr l))
    (hk : op.kind = .add ∨ op.kind = .replace) (hv : Writes op.value p) (t' : Tson)
    (h : applyDoc (.obj m) op = .ok t') :
    getValue t' (pointer ks) = .ok (.leaf p op.ts) := by
  obtain ⟨n, h1, h2, h3, h4⟩ := C24_written_leaf m hm op p hk hv t' h
  rw [hpath, writeParts_pointer ks hne hs hd] at h2 h3 h4
  rw [(C23_getValue_partial t' ks hne hs).1]
  rcases h4 with h4 | ⟨l, h4⟩
  · rw [h4, List.take_length] at h3; exact h3
  · by_cases hn : n = ks.length
    · rw [hn, List.take_length] at h3; exact h3
    · exact absurd h4 (harr (n - 1) l (by omega))

/-- Example for C24: a nested path whose parents do not exist yet. -/
example : applyDoc (.obj [(b!"a", .leaf (.bool true) 1)])
      ⟨.add, (pointer [b!"b~", b!"c"]).tail, .str b!"x", 7⟩ =
    .ok (.obj [(b!"a", .leaf (.bool true) 1), (b!"b~", .obj [(b!"c", .leaf (.str b!"x") 7)])]) := by decide

/-- C24 fails for a path with leading separator, i.e. for the very string accepted by `GetValue`:
the value is stored below a member with an empty name and not found again. -/
theorem C24_leading_slash_fails :
    applyDoc (.obj []) ⟨.add, b!"/a", .bool true, 7⟩ =
      .ok (.obj [(b!"", .obj [(b!"a", .leaf (.bool true) 7)])]) ∧
    getValue (.obj [(b!"", .obj [(b!"a", .leaf (.bool true) 7)])]) b!"/a" = .err := by decide

/-- C24 fails for a key with a dot, which the write splits but the lookup does not. -/
theorem C24_dot_fails :
    applyDoc (.obj []) ⟨.add, b!"a.b", .bool true, 7⟩ =
      .ok (.obj [(b!"a", .obj [(b!"b", .leaf (.bool true) 7)])]) ∧
    getValue (.obj [(b!"a", .obj [(b!"b", .leaf (.bool true) 7)])]) b!"/a.b" = .err := by decide

/-- C24 fails below an array element: the rest of the path is dropped and the whole element
overwritten. -/
theorem C24_below_array_fails :
    applyDoc (.obj [(b!"a", .arr [.obj [(b!"b", .leaf (.bool false) 1), (b!"c", .leaf (.bool false) 2)]])])
        ⟨.replace, b!"a/0/b", .bool true, 7⟩ = .ok (.obj [(b!"a", .arr [.leaf (.bool true) 7])]) ∧
    getValue (.obj [(b!"a", .arr [.leaf (.bool true) 7])]) b!"/a/0/b" = .err := by decide

/-- C24 fails for unsupported values: the call succeeds, nothing is written, and the array is replaced
by one of its elements. -/
theorem C24_unsupported_value_fails :
    applyDoc (.obj [(b!"a", .arr [.leaf (.bool true) 1, .leaf (.bool false) 2])])
        ⟨.replace, b!"a/1", .container 0 0, 7⟩ = .ok (.obj [(b!"a", .leaf (.bool false) 2)]) := by decide

/-! ### C25 -/

theorem Apart.ne_nil {t ps qs} (h : Apart t ps qs) : qs ≠ [] := by cases h <;> simp
theorem ApartElem.ne_nil {t ps qs} (h : ApartElem t ps qs) : qs ≠ [] := by cases h <;> simp

/-- C25, for locations parting at an object reached through objects (missing: locations below arrays,
see `C25_elements_partial`, and `C25_array_fails`): any successful operation leaves them as they were. -/
theorem C25_frame_partial (m : List (Bytes × Tson)) (hm : (Tson.obj m).Wf) (op : Op) (t' : Tson)
    (h : applyDoc (.obj m) op = .ok t') (qs : List Bytes) (ha : Apart (.obj m) (writeParts op.path) qs)
    (u : Tson) : Reaches t' qs u ↔ Reaches (.obj m) qs u := by
  rw [applyDoc_eq hm] at h
  rcases hT : applyOpT (.obj m) op with ⟨o, r⟩
  rw [hT] at h
  simp only at h
  subst h
  have hq := ha.ne_nil
  rw [← getParts_ok_iff qs hq, ← getParts_ok_iff qs hq, applyT_frame op ha hT]

/-- C25 for elements of an array: writing an element leaves all other existing elements alone. -/
theorem C25_elements_partial (m : List (Bytes × Tson)) (hm : (Tson.obj m).Wf) (op : Op) (t' : Tson) (p : Prim)
    (hk : op.kind ≠ .remove) (hv : Writes op.value p)
    (h : applyDoc (.obj m) op = .ok t') (qs : List Bytes) (ha : ApartElem (.obj m) (writeParts op.path) qs)
    (u : Tson) : Reaches t' qs u ↔ Reaches (.obj m) qs u := by
  rw [applyDoc_eq hm] at h
  rcases hT : applyOpT (.obj m) op with ⟨o, r⟩
  rw [hT] at h
  simp only at h
  subst h
  have hq := ha.ne_nil
  rw [← getParts_ok_iff qs hq, ← getParts_ok_iff qs hq, applyT_frame_elem op hk (writes_iff.1 hv) ha hT]

/-- Example for C25: siblings at two levels. -/
example : let t := Tson.obj [(b!"a", .leaf (.bool true) 1),
      (b!"b", .obj [(b!"c", .leaf (.bool true) 2), (b!"d", .leaf (.bool true) 3)])]
    Apart t (writeParts b!"b/c") [b!"a"] ∧ Apart t (writeParts b!"b/c") [b!"b", b!"d"] ∧
    applyDoc t ⟨.replace, b!"b/c", .bool false, 9⟩ = .ok (.obj [(b!"a", .leaf (.bool true) 1),
      (b!"b", .obj [(b!"c", .leaf (.bool false) 9), (b!"d", .leaf (.bool true) 3)])]) := by
  refine ⟨?_, ?_, by decide⟩
  · exact .here _ _ _ _ _ (by decide)
  · exact .down _ _ _ _ _ rfl (.here _ _ _ _ _ (by decide))

/-- C25 fails below an array: a sibling of the addressed member is lost. -/
theorem C25_array_fails :
    applyDoc (.obj [(b!"a", .arr [.obj [(b!"b", .leaf (.bool false) 1), (b!"c", .leaf (.bool false) 2)]])])
        ⟨.replace, b!"a/0/b", .bool true, 7⟩ = .ok (.obj [(b!"a", .arr [.leaf (.bool true) 7])]) ∧
    getValue (.obj [(b!"a", .arr [.obj [(b!"b", .leaf (.bool false) 1), (b!"c", .leaf (.bool false) 2)]])])
        b!"/a/0/c" = .ok (.leaf (.bool false) 2) ∧
    getValue (.obj [(b!"a", .arr [.leaf (.bool true) 7])]) b!"/a/0/c" = .err := by decide

/-! ### C26 -/

/-- C26: removing a location whose parent is an object (reached through objects) succeeds, and
afterwards nothing is found at or below it; by `C25_frame_partial` all other locations are untouched. -/
theorem C26_remove_member (m : List (Bytes × Tson)) (hm : (Tson.obj m).Wf) (op : Op)
    (hk : op.kind = .remove) (hp : InObject (.obj m) (writeParts op.path)) :
    ∃ t', applyDoc (.obj m) op = .ok t' ∧ ∀ qs u, ¬ Reaches t' (writeParts op.path ++ qs) u := by
  obtain ⟨t', h1, h2⟩ := applyT_remove_obj op hk hp
  refine ⟨t', ?_, ?_⟩
  · rw [applyDoc_eq hm]; unfold applyOpT; rw [h1]
  · intro qs u hu
    have := h2 qs
    rw [(getParts_ok_iff _ (by simp [split_ne_nil']) _ _).2 hu] at this
    cases this

/-- C26: removing an existing element of an array (reached through objects) shifts exactly the later
elements down by one; a missing element is a panic. -/
theorem C26_remove_element (m : List (Bytes × Tson)) (hm : (Tson.obj m).Wf) (op : Op)
    (hk : op.kind = .remove) (ks : List Bytes) (key : Bytes) (i : Nat) (hi : atoi key = some (i : Int))
    (hpath : writeParts op.path = ks ++ [key]) (l : List Tson) (hp : ThroughObjects (.obj m) ks (.arr l)) :
    (i < l.length → ∃ t', applyDoc (.obj m) op = .ok t' ∧
      ThroughObjects t' ks (.arr (l.take i ++ l.drop (i + 1)))) ∧
    (l.length ≤ i → applyDoc (.obj m) op = .panic) := by
  obtain ⟨h1, h2⟩ := applyT_remove_arr op hk hp key i hi []
  rw [applyDoc_eq hm]
  unfold applyOpT
  rw [hpath]
  constructor
  · intro h
    obtain ⟨t', h3, h4⟩ := h1 h
    rw [List.eraseIdx_eq_take_drop_succ] at h4
    exact ⟨t', by rw [h3], h4⟩
  · exact h2

example : InObject (.obj [(b!"b", .obj [(b!"c", .leaf (.bool true) 2), (b!"d", .leaf (.bool true) 3)])])
    (writeParts b!"b/c") := .down _ _ _ _ rfl (.here _ _)

example : applyDoc (.obj [(b!"b", .obj [(b!"c", .leaf (.bool true) 2), (b!"d", .leaf (.bool true) 3)])])
    ⟨.remove, b!"b/c", .nil, 0⟩ = .ok (.obj [(b!"b", .obj [(b!"d", .leaf (.bool true) 3)])]) := by decide

example : applyDoc (.obj [(b!"a", .arr [.leaf (.bool true) 1, .leaf (.bool true) 2, .leaf (.bool true) 3])])
    ⟨.remove, b!"a/1", .nil, 0⟩ = .ok (.obj [(b!"a", .arr [.leaf (.bool true) 1, .leaf (.bool true) 3])]) := by
  decide

/-- Below an array element the rest of the path is dropped: the whole element is removed. -/
theorem C26_below_array_fails :
    applyDoc (.obj [(b!"a", .arr [.obj [(b!"b", .leaf (.bool false) 1), (b!"c", .leaf (.bool false) 2)]])])
        ⟨.remove, b!"a/0/b", .nil, 0⟩ = .ok (.obj [(b!"a", .arr [])]) := by decide

/-! ### C27 -/

theorem patchDoc_eq {m : List (Bytes × Tson)} (hm : (Tson.obj m).Wf) (ops : List Op) (hne : ops ≠ []) :
    patchDoc (.obj m) ops = replay (.obj m) ops := by
  rw [replay_eq ops hm]
  obtain ⟨-, F, hF, -⟩ := store_rep [] (.obj m) hm
  obtain ⟨a, ha⟩ := store_obj [] m
  rw [ha] at hF
  obtain ⟨G, hG, -, -, -, hout⟩ := applyPatchLoop_obj ops hF .null
  unfold patchDoc applyPatch
  dsimp only
  rw [ha]
  rcases hR : applyPatchLoop (Heap.store [] (.obj m)).1 (.obj a) .null ops with ⟨h, r⟩
  rw [hR] at hG hout
  simp only at hG hout
  subst hout
  cases (applyPatchT (.obj m) ops).2 with
  | ok => simp [hne, hG.view]
  | err => rfl
  | panic => rfl

/-- C27: on an object document `ApplyPatch` of a non-empty patch has the effect of its operations one
after another, each on the result of the previous one. -/
theorem C27_sequential (m : List (Bytes × Tson)) (hm : (Tson.obj m).Wf) (ops : List Op) (hne : ops ≠ []) :
    patchDoc (.obj m) ops = replay (.obj m) ops := patchDoc_eq hm ops hne

/-- C27: splitting a patch into two non-empty patches does not matter (missing: empty parts, see
`C27_empty_fails`). -/
theorem C27_split_partial (m : List (Bytes × Tson)) (hm : (Tson.obj m).Wf) (p q : List Op) (hp : p ≠ [])
    (hq : q ≠ []) :
    patchDoc (.obj m) (p ++ q) = (patchDoc (.obj m) p).bind fun t => patchDoc t q := by
  rw [patchDoc_eq hm _ (by simp [hp]), patchDoc_eq hm _ hp, replay_append]
  cases hr : replay (.obj m) p with
  | ok t =>
    obtain ⟨⟨m', rfl⟩, hw⟩ := replay_obj hm hr
    simp only [Res.bind_ok]
    rw [patchDoc_eq hw _ hq]
  | err => rfl
  | panic => rfl

/-- C27: the document returned is the input document itself, changed in place. -/
theorem C27_in_place (h : Heap) (a : Nat) (t : Tson) (F : Foot) (hr : Rep h (.obj a) t F) (ops : List Op)
    (hne : ops ≠ []) (h' : Heap) (v : HVal) (hp : applyPatch h (.obj a) ops = (h', .ok v)) : v = .obj a := by
  obtain ⟨G, -, -, -, -, hout⟩ := applyPatchLoop_obj ops hr .null
  unfold applyPatch at hp
  rw [hp] at hout
  simp only [hne, if_false] at hout
  cases hT : (applyPatchT t ops).2 <;> rw [hT] at hout <;> simp at hout
  exact hout

/-- C27 fails for the empty patch: nil is returned instead of the document. -/
theorem C27_empty_fails (h : Heap) (v : HVal) : applyPatch h v [] = (h, .ok .null) := rfl

/-- C27 fails for a root array: every operation starts from the original slice header, so an
append followed by another operation is lost. -/
theorem C27_root_array_fails :
    patchDoc (.arr []) [⟨.add, b!"0", .bool true, 1⟩, ⟨.add, b!"1", .bool false, 2⟩] =
      .ok (.arr [.null, .leaf (.bool false) 2]) ∧
    replay (.arr []) [⟨.add, b!"0", .bool true, 1⟩, ⟨.add, b!"1", .bool false, 2⟩] =
      .ok (.arr [.leaf (.bool true) 1, .leaf (.bool false) 2]) := by decide

example : patchDoc (.obj []) [⟨.add, b!"a/x", .bool true, 1⟩, ⟨.add, b!"b", .bool true, 2⟩, ⟨.remove, b!"a/x", .nil, 3⟩] =
    .ok (.obj [(b!"a", .obj []), (b!"b", .leaf (.bool true) 2)]) := by decide

/-! ### C10 -/

/-- C10 for one-segment paths (missing: deeper paths, see `C10_error_damages_fails`): a failing
operation leaves the document as it was. -/
theorem C10_single_segment_partial (m : List (Bytes × Tson)) (hm : (Tson.obj m).Wf) (op : Op) (k : Bytes)
    (hp : writeParts op.path = [k]) (h : (applyDoc (.obj m) op).isOk = false) :
    docAfter (.obj m) op = some (.obj m) := by
  rw [docAfter_eq_obj hm]
  rw [applyDoc_eq hm] at h
  unfold applyOpT at h ⊢
  rw [hp] at h ⊢
  congr 1
  revert h
  unfold applyT
  dsimp only
  repeat' split
  all_goals simp [Res.isOk]

/-- C10, what remains true in general: a failing operation changes nothing outside the root member
named by the first path segment. -/
theorem C10_damage_confined_partial (m : List (Bytes × Tson)) (hm : (Tson.obj m).Wf) (op : Op) (k : Bytes)
    (hk : (writeParts op.path).head? ≠ some k) :
    ∃ m', docAfter (.obj m) op = some (.obj m') ∧ ∀ u, Reaches (.obj m') [k] u ↔ Reaches (.obj m) [k] u := by
  rw [docAfter_eq_obj hm]
  obtain ⟨m', hm'⟩ := applyOpT_obj m op
  refine ⟨m', by rw [hm'], fun u => ?_⟩
  rw [← childOf_ok_iff, ← childOf_ok_iff, ← hm']
  unfold applyOpT
  cases hw : writeParts op.path with
  | nil => exact absurd hw (split_ne_nil' _)
  | cons part rest =>
    rw [hw] at hk
    rw [applyT_other_member m part rest op k (by simpa using Ne.symm hk)]

/-- C10 fails: an error below the root replaces the whole member on the way by nil. -/
theorem C10_error_damages_fails :
    applyDoc (.obj [(b!"b", .obj [(b!"c", .leaf (.bool true) 2), (b!"d", .leaf (.bool true) 3)])])
        ⟨.replace, b!"b/c", .nil, 9⟩ = .err ∧
    docAfter (.obj [(b!"b", .obj [(b!"c", .leaf (.bool true) 2), (b!"d", .leaf (.bool true) 3)])])
        ⟨.replace, b!"b/c", .nil, 9⟩ = some (.obj [(b!"b", .null)]) := by decide

/-- C10 fails for panics too: a container created on the way stays behind. -/
theorem C10_panic_damages_fails :
    applyDoc (.obj []) ⟨.add, b!"a/-1", .bool true, 9⟩ = .panic ∧
    docAfter (.obj []) ⟨.add, b!"a/-1", .bool true, 9⟩ = some (.obj [(b!"a", .arr [])]) := by decide

example : writeParts b!"b" = [b!"b"] ∧
    (applyDoc (.obj [(b!"b", .leaf (.bool true) 1)]) ⟨.replace, b!"b", .nil, 9⟩).isOk = false := by decide

end Verif
