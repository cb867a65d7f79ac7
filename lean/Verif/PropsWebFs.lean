import Verif.WebFs
import Verif.PropsWebDemo
import Verif.PropsExpOut
/-
C96: which files the requests of the web demonstration read.  C97: what a start of the web demonstration does to the data.
-/
namespace Verif

/-! ### Places and paths -/

theorem FsNode.at?_append (t : FsNode) (a b : List Bytes) : t.at? (a ++ b) = (t.at? a).bind fun c => c.at? b := by
  induction a generalizing t with
  | nil => rfl
  | cons k ks ih =>
    show (t.child k).bind (fun c => c.at? (ks ++ b)) = ((t.child k).bind fun c => c.at? ks).bind fun c => c.at? b
    cases t.child k with
    | none => rfl
    | some c => exact ih c

theorem FsNode.at?_snoc {t : FsNode} {a : List Bytes} {m : List (Bytes × FsNode)} (h : t.at? a = some (.dir m)) (k : Bytes) :
    t.at? (a ++ [k]) = mget m k := by
  rw [FsNode.at?_append, h]
  show (mget m k).bind (fun c => some c) = mget m k
  cases mget m k <;> rfl

/-- Parts of a path that are names. -/
def NamePart (p : Bytes) : Prop := p ≠ [] ∧ p ≠ b!"." ∧ p ≠ b!".."

theorem walk_append (root : FsNode) : ∀ (ps qs loc : List Bytes),
    walk root loc (ps ++ qs) = (walk root loc ps).bind fun l => walk root l qs := by
  intro ps
  induction ps with
  | nil => intro qs loc; rfl
  | cons p ps ih =>
    intro qs loc
    rw [List.cons_append, walk, walk]
    split
    · split
      · exact ih _ _
      · split
        · exact ih _ _
        · split
          · exact ih _ _
          · rfl
    · rfl

theorem walk_dir {root : FsNode} {loc ps l : List Bytes} (hp : ps ≠ []) (h : walk root loc ps = some l) : ∃ m, root.at? loc = some (.dir m) := by
  cases ps with
  | nil => exact absurd rfl hp
  | cons p ps =>
    rw [walk] at h
    split at h
    · next m hm => exact ⟨m, hm⟩
    · cases h

theorem walk_name {root : FsNode} {loc ps l : List Bytes} {p : Bytes} (hp : NamePart p) (h : walk root loc (p :: ps) = some l) :
    ∃ m n, root.at? loc = some (.dir m) ∧ root.at? (loc ++ [p]) = some n ∧ walk root (loc ++ [p]) ps = some l := by
  rw [walk] at h
  split at h
  · next m hm =>
    rw [if_neg (by rintro (e | e); exact hp.1 e; exact hp.2.1 e), if_neg hp.2.2] at h
    split at h
    · next hs =>
      obtain ⟨n, hn⟩ := Option.isSome_iff_exists.1 hs
      exact ⟨m, n, hm, by rw [FsNode.at?_snoc hm, hn], h⟩
    · cases h
  · cases h

theorem at?_init {root : FsNode} : ∀ {a : List Bytes} {b : List Bytes} {n : FsNode}, b ≠ [] → root.at? (a ++ b) = some n →
    ∃ m, root.at? a = some (.dir m) := by
  intro a b n hb h
  rw [FsNode.at?_append] at h
  cases hc : root.at? a with
  | none => rw [hc] at h; cases h
  | some c =>
    rw [hc] at h
    cases b with
    | nil => exact absurd rfl hb
    | cons k ks =>
      cases c with
      | dir m => exact ⟨m, rfl⟩
      | file f => cases h

/-- Names are followed one by one. -/
theorem walk_names {root : FsNode} : ∀ {ps loc l : List Bytes}, (∀ p ∈ ps, NamePart p) →
    (walk root loc ps = some l → l = loc ++ ps ∧ (ps ≠ [] → ∃ n, root.at? (loc ++ ps) = some n)) ∧
    ((∃ n, root.at? (loc ++ ps) = some n) → walk root loc ps = some (loc ++ ps)) := by
  intro ps
  induction ps with
  | nil => intro loc l _; exact ⟨fun h => by cases h; simp, fun _ => by simp [walk]⟩
  | cons p ps ih =>
    intro loc l hp
    have hp0 := hp p (by simp)
    have hps := fun q hq => hp q (List.mem_cons_of_mem _ hq)
    have e : loc ++ p :: ps = (loc ++ [p]) ++ ps := by simp
    constructor
    · intro h
      obtain ⟨m, n, hm, hn, h'⟩ := walk_name hp0 h
      obtain ⟨h1, h2⟩ := (ih (loc := loc ++ [p]) hps).1 h'
      refine ⟨by rw [h1, e], fun _ => ?_⟩
      rw [e]
      by_cases hc : ps = []
      · subst hc
        exact ⟨n, by simpa using hn⟩
      · exact h2 hc
    · rintro ⟨n, hn⟩
      rw [e] at hn ⊢
      have hnext := (ih (loc := loc ++ [p]) (l := l) hps).2 ⟨n, hn⟩
      obtain ⟨m, hm⟩ := at?_init (a := loc) (b := p :: ps) (by simp) (by rw [e]; exact hn)
      have hs : (mget m p).isSome := by
        rw [← FsNode.at?_snoc hm]
        rw [FsNode.at?_append] at hn
        cases hc : root.at? (loc ++ [p]) with
        | none => rw [hc] at hn; cases hn
        | some c => rfl
      rw [walk, hm]
      dsimp only
      rw [if_neg (by rintro (e | e); exact hp0.1 e; exact hp0.2.1 e), if_neg hp0.2.2, if_pos hs]
      exact hnext

/-- Reading a path of names reads the file of that place. -/
theorem fsRead_names {root : FsNode} {cwd : List Bytes} {path : Bytes} (hp : ∀ p ∈ split bSlash path, NamePart p) (b : Bytes) :
    fsRead root cwd path = some b ↔ root.at? (cwd ++ split bSlash path) = some (.file b) := by
  unfold fsRead
  constructor
  · intro h
    split at h
    · next l hl =>
      rw [((walk_names hp).1 hl).1] at h
      split at h
      · next b' hb => cases h; exact hb
      · cases h
    · cases h
  · intro h
    rw [(walk_names (l := []) hp).2 ⟨_, h⟩]
    dsimp only
    rw [h]

/-- Splitting after a text without separators: it goes to the first part. -/
theorem split_prefix {c : UInt8} : ∀ {x : Bytes} (s : Bytes), c ∉ x → ∃ h t, split c s = h :: t ∧ split c (x ++ s) = (x ++ h) :: t := by
  intro x
  induction x with
  | nil =>
    intro s _
    cases hs : split c s with
    | nil => exact absurd hs (split_ne_nil _ _)
    | cons h t => exact ⟨h, t, rfl, hs⟩
  | cons a x ih =>
    intro s hx
    obtain ⟨h, t, h1, h2⟩ := ih s (fun e => hx (List.mem_cons_of_mem _ e))
    refine ⟨h, t, h1, ?_⟩
    rw [List.cons_append, split, if_neg (fun e => hx (by simp [e])), h2]
    rfl

theorem split_sep (c : UInt8) : ∀ (a s : Bytes), split c (a ++ c :: s) = split c a ++ split c s := by
  intro a
  induction a with
  | nil => intro s; simp [split]
  | cons x a ih =>
    intro s
    rw [List.cons_append, split, split]
    split
    · rw [ih]; rfl
    · rw [ih]
      cases ha : split c a with
      | nil => exact absurd ha (split_ne_nil _ _)
      | cons h t => rfl

theorem first_sep {c : UInt8} : ∀ {s : Bytes}, c ∈ s → ∃ a b, s = a ++ c :: b ∧ c ∉ a := by
  intro s
  induction s with
  | nil => intro h; cases h
  | cons x s ih =>
    intro h
    by_cases hx : x = c
    · exact ⟨[], s, by simp [hx], by simp⟩
    · obtain ⟨a, b, rfl, hn⟩ := ih (by simpa [Ne.symm hx] using h)
      exact ⟨x :: a, b, rfl, by simp [Ne.symm hx, hn]⟩

theorem digits_name (n : Nat) : NamePart (natDigits n) := by
  refine ⟨natDigits_ne_nil n, fun e => ?_, fun e => ?_⟩
  · have := natDigits_isDigit n
    rw [e] at this
    exact absurd this (by decide)
  · have := natDigits_isDigit n
    rw [e] at this
    exact absurd this (by decide)

theorem name_of_long {p : Bytes} (h : 3 ≤ p.length) : NamePart p := by
  refine ⟨?_, ?_, ?_⟩ <;> (intro e; subst e; revert h; decide)

/-! ### C96 -/

/-- The directories of the data: every car has a number, and its patches are files. -/
structure DataDirs (root : FsNode) (cwd : List Bytes) : Prop where
  numbered : ∀ k m, root.at? (cwd ++ [b!"dataset", b!"car_" ++ k]) = some (.dir m) → ∃ i, k = natDigits i
  files : ∀ k f n, root.at? (cwd ++ [b!"dataset", b!"car_" ++ k, b!"patches", f]) = some n → ∃ b, n = .file b

/-- No directory called `tson` or `patches`, anywhere, has a directory in it whose name is the number of a car. -/
def NoOther (root : FsNode) (cwd : List Bytes) : Prop :=
  ∀ k m, root.at? (cwd ++ [b!"dataset", b!"car_" ++ k]) = some (.dir m) →
    ∀ loc s m', s = b!"tson" ∨ s = b!"patches" → root.at? (loc ++ [s, k]) ≠ some (.dir m')

/-- A path for a car whose text has a slash leads nowhere. -/
theorem slash_car {root : FsNode} {cwd : List Bytes} (hd : DataDirs root cwd) (ho : NoOther root cwd) {car s x : Bytes} (hc : bSlash ∈ car)
    (hs : s = b!"tson" ∨ s = b!"patches") : walk root cwd (split bSlash (b!"dataset/car_" ++ (car ++ (bSlash :: (s ++ bSlash :: (car ++ x)))))) = none := by
  obtain ⟨k, rest, rfl, hk⟩ := first_sep hc
  have hs' : bSlash ∉ s := by rcases hs with rfl | rfl <;> decide
  have e : split bSlash (b!"dataset/car_" ++ ((k ++ bSlash :: rest) ++ (bSlash :: (s ++ bSlash :: ((k ++ bSlash :: rest) ++ x))))) =
      b!"dataset" :: (b!"car_" ++ k) :: (split bSlash rest ++ (s :: k :: split bSlash (rest ++ x))) := by
    have e1 : b!"dataset/car_" ++ ((k ++ bSlash :: rest) ++ (bSlash :: (s ++ bSlash :: ((k ++ bSlash :: rest) ++ x)))) =
        b!"dataset" ++ bSlash :: ((b!"car_" ++ k) ++ bSlash :: (rest ++ bSlash :: (s ++ bSlash :: (k ++ bSlash :: (rest ++ x))))) := by
      simp
    rw [e1, split_append_sep _ _ _ (by decide), split_append_sep _ _ _ (by
      intro h
      rcases List.mem_append.1 h with h | h
      · exact absurd h (by decide)
      · exact hk h), split_sep, split_append_sep _ _ _ hs', split_append_sep _ _ _ hk]
  rw [e]
  cases hw : walk root cwd (b!"dataset" :: (b!"car_" ++ k) :: (split bSlash rest ++ (s :: k :: split bSlash (rest ++ x)))) with
  | none => rfl
  | some l =>
    exfalso
    obtain ⟨m1, n1, h1, h2, h3⟩ := walk_name (name_of_long (by decide)) hw
    obtain ⟨m2, n2, h4, h5, h6⟩ := walk_name (name_of_long (by simp)) h3
    obtain ⟨m3, h7⟩ := walk_dir (by simp) h6
    have h7' : root.at? (cwd ++ [b!"dataset", b!"car_" ++ k]) = some (.dir m3) := by rw [← h7]; simp
    obtain ⟨i, hi⟩ := hd.numbered k m3 h7'
    rw [walk_append] at h6
    cases hr : walk root (cwd ++ [b!"dataset"] ++ [b!"car_" ++ k]) (split bSlash rest) with
    | none => rw [hr] at h6; cases h6
    | some loc =>
      rw [hr] at h6
      dsimp only [Option.bind] at h6
      have hns : NamePart s := by rcases hs with rfl | rfl <;> exact name_of_long (by decide)
      obtain ⟨m5, n5, h8, h9, h10⟩ := walk_name hns h6
      obtain ⟨m6, n6, h11, h12, h13⟩ := walk_name (hi ▸ digits_name i) h10
      obtain ⟨m7, h14⟩ := walk_dir (split_ne_nil _ _) h13
      refine ho k m3 h7' loc s m7 hs ?_
      rw [← h14]
      simp

theorem fsRead_none {root : FsNode} {cwd : List Bytes} {path : Bytes} (h : walk root cwd (split bSlash path) = none) : fsRead root cwd path = none := by
  unfold fsRead
  rw [h]

/-- The parts of a path of a request without slashes. -/
theorem split_request {car s x : Bytes} (hc : bSlash ∉ car) (hs : bSlash ∉ s) (hx : bSlash ∉ x) :
    split bSlash (b!"dataset/car_" ++ (car ++ (bSlash :: (s ++ bSlash :: (car ++ x))))) = [b!"dataset", b!"car_" ++ car, s, car ++ x] := by
  have e1 : b!"dataset/car_" ++ (car ++ (bSlash :: (s ++ bSlash :: (car ++ x)))) =
      b!"dataset" ++ bSlash :: ((b!"car_" ++ car) ++ bSlash :: (s ++ bSlash :: (car ++ x))) := by simp
  rw [e1, split_append_sep _ _ _ (by decide), split_append_sep _ _ _ (by
    intro h
    rcases List.mem_append.1 h with h | h
    · exact absurd h (by decide)
    · exact hc h), split_append_sep _ _ _ hs, split_of_not_mem _ _ (by
    intro h
    rcases List.mem_append.1 h with h | h
    · exact hc h
    · exact hx h)]

/-- Reading a path of a request without slashes. -/
theorem read_request (root : FsNode) (cwd : List Bytes) {car s x : Bytes} (hc : bSlash ∉ car) (hs : s = b!"tson" ∨ s = b!"patches") (hx : bSlash ∉ x)
    (hl : 3 ≤ x.length) : (fsRead root cwd (b!"dataset/car_" ++ (car ++ (bSlash :: (s ++ bSlash :: (car ++ x)))))).getD [] =
      match root.at? (cwd ++ [b!"dataset", b!"car_" ++ car, s, car ++ x]) with
      | some (.file b) => b
      | _ => [] := by
  have hs' : bSlash ∉ s := by rcases hs with rfl | rfl <;> decide
  have hsp := split_request hc hs' hx
  have hn : ∀ p ∈ split bSlash (b!"dataset/car_" ++ (car ++ (bSlash :: (s ++ bSlash :: (car ++ x))))), NamePart p := by
    rw [hsp]
    intro p hp
    simp only [List.mem_cons, List.not_mem_nil, or_false] at hp
    rcases hp with rfl | rfl | rfl | rfl
    · exact name_of_long (by decide)
    · exact name_of_long (by simp)
    · rcases hs with rfl | rfl <;> exact name_of_long (by decide)
    · exact name_of_long (by simp; omega)
  have hr := fsRead_names (root := root) (cwd := cwd) hn
  rw [hsp] at hr
  cases hf : fsRead root cwd (b!"dataset/car_" ++ (car ++ (bSlash :: (s ++ bSlash :: (car ++ x))))) with
  | some b => rw [(hr b).1 hf]; rfl
  | none =>
    split
    · next b hb => rw [(hr b).2 hb] at hf; cases hf
    · rfl

/-- The file that an update request is meant for. -/
def wanted (car patch : Bytes) : List Bytes :=
  if patch = [] then [b!"dataset", b!"car_" ++ car, b!"tson", car ++ b!"_1.tson"]
  else [b!"dataset", b!"car_" ++ car, b!"patches", car ++ 95 :: (patch ++ b!".json")]

/-- **C96.**  A request whose texts have no slash gets the file it is meant for, or nothing. -/
theorem C96_plain (root : FsNode) (cwd : List Bytes) {car patch : Bytes} (hc : bSlash ∉ car) (hp : bSlash ∉ patch) :
    updateHandler root cwd car patch = match root.at? (cwd ++ wanted car patch) with
      | some (.file b) => b
      | _ => [] := by
  unfold updateHandler wanted
  by_cases h : patch = []
  · rw [if_pos h, if_pos h]
    exact read_request root cwd (s := b!"tson") (x := b!"_1.tson") hc (.inl rfl) (by decide) (by decide)
  · rw [if_neg h, if_neg h]
    exact read_request root cwd (s := b!"patches") (x := 95 :: (patch ++ b!".json")) hc (.inr rfl) (by
      intro e
      rcases List.mem_cons.1 e with e | e
      · exact absurd e (by decide)
      · rcases List.mem_append.1 e with e | e
        · exact hp e
        · exact absurd e (by decide)) (by simp)

/-- **C96.**  If no directory called `tson` or `patches` outside of the data has a directory in it that is named like a car, an
update request of any two texts gets the file of the data it is meant for, or nothing. -/
theorem C96_only_partial {root : FsNode} {cwd : List Bytes} (hd : DataDirs root cwd) (ho : NoOther root cwd) (car patch : Bytes) :
    updateHandler root cwd car patch = [] ∨
      bSlash ∉ car ∧ bSlash ∉ patch ∧ root.at? (cwd ++ wanted car patch) = some (.file (updateHandler root cwd car patch)) := by
  by_cases hc : bSlash ∈ car
  · left
    unfold updateHandler
    split
    · have := fsRead_none (slash_car hd ho (x := b!"_1.tson") hc (.inl rfl))
      exact congrArg (fun o => o.getD []) this
    · have := fsRead_none (slash_car hd ho (x := 95 :: (patch ++ b!".json")) hc (.inr rfl))
      exact congrArg (fun o => o.getD []) this
  · by_cases hp : bSlash ∈ patch
    · left
      unfold updateHandler
      rw [if_neg (by rintro rfl; cases hp)]
      obtain ⟨p, q, rfl, hpn⟩ := first_sep hp
      have e1 : b!"dataset/car_" ++ (car ++ (b!"/patches/" ++ (car ++ 95 :: ((p ++ bSlash :: q) ++ b!".json")))) =
          (b!"dataset/car_" ++ (car ++ (bSlash :: (b!"patches" ++ bSlash :: (car ++ 95 :: p))))) ++ bSlash :: (q ++ b!".json") := by simp
      have hx : bSlash ∉ 95 :: p := by
        intro e
        rcases List.mem_cons.1 e with e | e
        · exact absurd e (by decide)
        · exact hpn e
      rw [e1, fsRead_none]
      · rfl
      rw [split_sep, split_request hc (by decide) hx]
      cases hw : walk root cwd ([b!"dataset", b!"car_" ++ car, b!"patches", car ++ 95 :: p] ++ split bSlash (q ++ b!".json")) with
      | none => rfl
      | some l =>
        exfalso
        rw [walk_append] at hw
        cases hr : walk root cwd [b!"dataset", b!"car_" ++ car, b!"patches", car ++ 95 :: p] with
        | none => rw [hr] at hw; cases hw
        | some loc =>
          rw [hr] at hw
          obtain ⟨m1, n1, h1, h2, h3⟩ := walk_name (name_of_long (by decide)) hr
          obtain ⟨m2, n2, h4, h5, h6⟩ := walk_name (name_of_long (by simp)) h3
          obtain ⟨m3, n3, h7, h8, h9⟩ := walk_name (name_of_long (by decide)) h6
          obtain ⟨m4, h10⟩ := walk_dir (split_ne_nil _ _) hw
          have hfile : ∀ n, root.at? (cwd ++ [b!"dataset"] ++ [b!"car_" ++ car] ++ [b!"patches"] ++ [car ++ 95 :: p]) = some n → ∃ b, n = .file b := by
            intro n hn
            exact hd.files car (car ++ 95 :: p) n (by rw [← hn]; simp)
          have hu : (95 : UInt8) ∈ car ++ 95 :: p := by simp
          obtain ⟨m5, n5, -, h11, h12⟩ := walk_name ⟨(fun e => by rw [e] at hu; cases hu), (fun e => by rw [e] at hu; exact absurd hu (by decide)),
            (fun e => by rw [e] at hu; exact absurd hu (by decide))⟩ h9
          rw [walk] at h12
          cases h12
          obtain ⟨b, hb⟩ := hfile _ h10
          cases hb
    · have h := C96_plain root cwd hc hp
      cases hn : root.at? (cwd ++ wanted car patch) with
      | none => rw [hn] at h; exact .inl h
      | some n =>
        rw [hn] at h
        cases n with
        | dir m => exact .inl h
        | file b => exact .inr ⟨hc, hp, by rw [h]⟩

/-! ### Generated data -/

theorem mget_mapIdx {α β : Type} {key : Nat → Bytes} (hk : ∀ i j, key i = key j → i = j) {f : Nat → α → β} {l : List α} (i : Nat) :
    mget (l.mapIdx fun j x => (key j, f j x)) (key i) = (l[i]?).map (f i) := by
  induction l generalizing key f i with
  | nil => rfl
  | cons x l ih =>
    rw [List.mapIdx_cons, mget]
    cases i with
    | zero => simp
    | succ i =>
      have h0 : key 0 ≠ key (i + 1) := fun e => by have := hk _ _ e; omega
      rw [if_neg h0]
      exact ih (key := fun j => key (j + 1)) (f := fun j => f (j + 1)) (fun a b e => by have := hk _ _ e; omega) i

theorem carName_inj : ∀ i j, b!"car_" ++ natDigits (i + 1) = b!"car_" ++ natDigits (j + 1) → i = j := fun i j e => by
  have := natDigits_injective (List.append_cancel_left (as := b!"car_") e)
  omega

theorem fileName_inj (c : Nat) (x : Bytes) : ∀ i j, natDigits c ++ 95 :: (natDigits (i + 1) ++ x) = natDigits c ++ 95 :: (natDigits (j + 1) ++ x) → i = j :=
  fun i j e => by
    have := List.append_cancel_left e
    rw [List.cons.injEq] at this
    have := natDigits_injective (List.append_cancel_right this.2)
    omega

theorem mget_carDirs (cars : List (List (Bytes × Bytes))) (i : Nat) :
    mget (carDirs cars) (b!"car_" ++ natDigits (i + 1)) = (cars[i]?).map (carDir (i + 1)) :=
  mget_mapIdx (key := fun i => b!"car_" ++ natDigits (i + 1)) carName_inj i

/-- The directory `dataset` after the generation of the files. -/
def generatedDir (info : Bytes) (cars : List (List (Bytes × Bytes))) : FsNode := .dir ((b!"metadata.json", .file info) :: carDirs cars)

theorem generated_dirs {root : FsNode} {cwd : List Bytes} {info : Bytes} {cars : List (List (Bytes × Bytes))}
    (h : root.at? (cwd ++ [b!"dataset"]) = some (generatedDir info cars)) : DataDirs root cwd := by
  have hcar : ∀ k n, root.at? (cwd ++ [b!"dataset", b!"car_" ++ k]) = some n → ∃ i files, k = natDigits (i + 1) ∧ n = carDir (i + 1) files := by
    intro k n hn
    rw [show cwd ++ [b!"dataset", b!"car_" ++ k] = (cwd ++ [b!"dataset"]) ++ [b!"car_" ++ k] by simp, FsNode.at?_snoc h, mget,
      if_neg (by intro e; cases e)] at hn
    obtain ⟨i, hi, e⟩ := List.mem_mapIdx.1 (mget_mem hn)
    rw [Prod.mk.injEq] at e
    exact ⟨i, _, (List.append_cancel_left (as := b!"car_") e.1).symm, e.2.symm⟩
  refine ⟨fun k m hm => ?_, fun k f n hn => ?_⟩
  · obtain ⟨i, files, rfl, -⟩ := hcar k _ hm
    exact ⟨i + 1, rfl⟩
  · rw [show cwd ++ [b!"dataset", b!"car_" ++ k, b!"patches", f] = (cwd ++ [b!"dataset", b!"car_" ++ k]) ++ [b!"patches", f] by simp,
      FsNode.at?_append] at hn
    cases hc : root.at? (cwd ++ [b!"dataset", b!"car_" ++ k]) with
    | none => rw [hc] at hn; cases hn
    | some c =>
      rw [hc] at hn
      obtain ⟨i, files, -, rfl⟩ := hcar k c hc
      have hn' : mget (files.mapIdx fun j f => (natDigits (i + 1) ++ 95 :: (natDigits (j + 1) ++ b!".json"), FsNode.file f.2)) f = some n := by
        have : ∀ o : Option FsNode, o.bind (fun c => some c) = o := fun o => by cases o <;> rfl
        rw [← hn]
        exact (this _).symm
      obtain ⟨j, hj, e⟩ := List.mem_mapIdx.1 (mget_mem hn')
      rw [Prod.mk.injEq] at e
      exact ⟨_, e.2.symm⟩

/-- **C96.**  After the generation of the files, a request for a car gets its first data set, and a request for one of its patches
gets that patch. -/
theorem C96_served {root : FsNode} {cwd : List Bytes} {info : Bytes} {cars : List (List (Bytes × Bytes))}
    (h : root.at? (cwd ++ [b!"dataset"]) = some (generatedDir info cars)) {i : Nat} {files : List (Bytes × Bytes)} (hi : cars[i]? = some files) :
    (∀ f, files[0]? = some f → updateHandler root cwd (natDigits (i + 1)) [] = f.1) ∧
    ∀ (j : Nat) f, files[j]? = some f → updateHandler root cwd (natDigits (i + 1)) (natDigits (j + 1)) = f.2 := by
  have hs : ∀ n, bSlash ∉ natDigits n := fun n => natDigits_no (by decide) n
  have hc : root.at? (cwd ++ [b!"dataset", b!"car_" ++ natDigits (i + 1)]) = some (carDir (i + 1) files) := by
    rw [show cwd ++ [b!"dataset", b!"car_" ++ natDigits (i + 1)] = (cwd ++ [b!"dataset"]) ++ [b!"car_" ++ natDigits (i + 1)] by simp,
      FsNode.at?_snoc h, mget, if_neg (by intro e; cases e), mget_carDirs, hi]
    rfl
  have hb : ∀ o : Option FsNode, o.bind (fun c => some c) = o := fun o => by cases o <;> rfl
  constructor
  · intro f hf
    rw [C96_plain _ _ (hs _) (by simp)]
    have : root.at? (cwd ++ wanted (natDigits (i + 1)) []) = some (.file f.1) := by
      rw [show cwd ++ wanted (natDigits (i + 1)) [] = (cwd ++ [b!"dataset", b!"car_" ++ natDigits (i + 1)]) ++ [b!"tson", natDigits (i + 1) ++ b!"_1.tson"] by
        simp [wanted], FsNode.at?_append, hc]
      have e := mget_mapIdx (fileName_inj (i + 1) b!".tson") (f := fun _ (f : Bytes × Bytes) => FsNode.file f.1) (l := files) 0
      rw [hf] at e
      exact (hb _).trans e
    rw [this]
  · intro j f hf
    rw [C96_plain _ _ (hs _) (hs _)]
    have : root.at? (cwd ++ wanted (natDigits (i + 1)) (natDigits (j + 1))) = some (.file f.2) := by
      rw [show cwd ++ wanted (natDigits (i + 1)) (natDigits (j + 1)) = (cwd ++ [b!"dataset", b!"car_" ++ natDigits (i + 1)]) ++
        [b!"patches", natDigits (i + 1) ++ 95 :: (natDigits (j + 1) ++ b!".json")] by simp [wanted, natDigits_ne_nil], FsNode.at?_append, hc]
      have e := mget_mapIdx (fileName_inj (i + 1) b!".json") (f := fun _ (f : Bytes × Bytes) => FsNode.file f.2) (l := files) j
      rw [hf] at e
      exact (hb _).trans e
    rw [this]

/-- The server in `/srv` with generated data of one car, another directory with patches, and a file outside of the data. -/
def someTree : FsNode := .dir [(b!"srv", .dir [(b!"dataset", generatedDir b!"{}" [[(b!"{}", b!"[]")]])]),
  (b!"home", .dir [(b!"patches", .dir [(b!"1", .dir [])])]), (b!"home_key.json", .file b!"secret")]

/-- **C96** fails in general: with a directory `patches/1` elsewhere, a text with slashes reads a file outside of the data. -/
theorem C96_outside_fails : ∃ (root : FsNode) (cwd : List Bytes) (car patch : Bytes), DataDirs root cwd ∧
    root.at? (cwd ++ wanted car patch) = none ∧ root.at? [b!"home_key.json"] = some (.file b!"secret") ∧
    updateHandler root cwd car patch = b!"secret" :=
  ⟨someTree, [b!"srv"], b!"1/../../../home", b!"key", generated_dirs (cars := [[(b!"{}", b!"[]")]]) rfl, by rfl, by rfl, by decide +kernel⟩

/-- Files beside the data do not matter. -/
theorem alone_noOther {es : List (Bytes × FsNode)} (he : ∀ x ∈ es, ∃ b, x.2 = .file b) {info : Bytes} {cars : List (List (Bytes × Bytes))} :
    NoOther (.dir ((b!"dataset", generatedDir info cars) :: es)) [] := by
  intro k m _ loc s m' hs hn
  have hs1 : s ≠ b!"dataset" ∧ s ≠ b!"metadata.json" ∧ ∀ n, s ≠ b!"car_" ++ natDigits n := by
    rcases hs with rfl | rfl <;> exact ⟨by decide, by decide, fun n e => by cases e⟩
  -- a place that begins with an entry of the root
  have root1 : ∀ a r n, FsNode.at? (.dir ((b!"dataset", generatedDir info cars) :: es)) (a :: r) = some n → r ≠ [] →
      a = b!"dataset" ∧ (generatedDir info cars).at? r = some n := by
    intro a r n h hr
    rw [FsNode.at?, FsNode.child, mget] at h
    split at h
    · next e => exact ⟨e.symm, h⟩
    · exfalso
      cases hg : mget es a with
      | none => rw [hg] at h; cases h
      | some x =>
        rw [hg] at h
        obtain ⟨b, hb⟩ := he _ (mget_mem hg)
        dsimp only at hb
        subst hb
        cases r with
        | nil => exact hr rfl
        | cons c r => cases h
  have data1 : ∀ a r n, (generatedDir info cars).at? (a :: r) = some n → r ≠ [] → ∃ i files, a = b!"car_" ++ natDigits (i + 1) ∧ (carDir (i + 1) files).at? r = some n := by
    intro a r n h hr
    rw [generatedDir, FsNode.at?, FsNode.child, mget] at h
    split at h
    · cases r with
      | nil => exact absurd rfl hr
      | cons c r => cases h
    · cases hg : mget (carDirs cars) a with
      | none => rw [hg] at h; cases h
      | some x =>
        rw [hg] at h
        obtain ⟨i, hi, e⟩ := List.mem_mapIdx.1 (mget_mem hg)
        rw [Prod.mk.injEq] at e
        refine ⟨i, cars[i], e.1.symm, ?_⟩
        rw [e.2]
        exact h
  have car1 : ∀ i files a b r n, (carDir i files).at? (a :: b :: r) = some n → (∃ t, n = .file t) := by
    intro i files a b r n h
    have fin : ∀ (f : Nat → Bytes × Bytes → Bytes) (g : Bytes × Bytes → Bytes),
        (FsNode.dir (files.mapIdx fun j x => (f j x, .file (g x)))).at? (b :: r) = some n → ∃ t, n = .file t := by
      intro f g h
      rw [FsNode.at?, FsNode.child] at h
      cases hg : mget (files.mapIdx fun j x => (f j x, FsNode.file (g x))) b with
      | none => rw [hg] at h; cases h
      | some x =>
        rw [hg] at h
        obtain ⟨j, hj, e⟩ := List.mem_mapIdx.1 (mget_mem hg)
        rw [Prod.mk.injEq] at e
        rw [← e.2] at h
        cases r with
        | nil => cases h; exact ⟨_, rfl⟩
        | cons c r => cases h
    rw [carDir, FsNode.at?, FsNode.child, mget] at h
    split at h
    · exact fin (fun j _ => natDigits i ++ 95 :: (natDigits (j + 1) ++ b!".tson")) (fun f => f.1) h
    · rw [mget] at h
      split at h
      · exact fin (fun j _ => natDigits i ++ 95 :: (natDigits (j + 1) ++ b!".json")) (fun f => f.2) h
      · cases h
  cases loc with
  | nil => exact hs1.1 (root1 s [k] _ hn (by simp)).1
  | cons a loc =>
    obtain ⟨-, h1⟩ := root1 a (loc ++ [s, k]) _ hn (by simp)
    cases loc with
    | nil =>
      obtain ⟨i, files, e, -⟩ := data1 s [k] _ h1 (by simp)
      exact hs1.2.2 _ e
    | cons b loc =>
      obtain ⟨i, files, -, h2⟩ := data1 b (loc ++ [s, k]) _ h1 (by simp)
      cases loc with
      | nil =>
        obtain ⟨t, e⟩ := car1 _ _ _ _ _ _ h2
        cases e
      | cons c loc =>
        obtain ⟨d, r, e⟩ : ∃ d r, loc ++ [s, k] = d :: r := by
          cases loc with
          | nil => exact ⟨_, _, rfl⟩
          | cons d l => exact ⟨_, _, rfl⟩
        rw [List.cons_append, e] at h2
        obtain ⟨t, e⟩ := car1 _ _ _ _ _ _ h2
        cases e

/-- A tree that meets the conditions of `C96_only_partial`; what two requests get. -/
example : ∃ root : FsNode, DataDirs root [] ∧ NoOther root [] ∧ updateHandler root [] b!"1" [] = b!"{}" ∧
    updateHandler root [] b!"1/../../home" b!"key" = [] ∧ homeHandler root [] = b!"<html>" :=
  ⟨.dir [(b!"dataset", generatedDir b!"{}" [[(b!"{}", b!"[]")]]), (b!"index.html", .file b!"<html>"), (b!"home_key.json", .file b!"secret")],
    generated_dirs (cars := [[(b!"{}", b!"[]")]]) rfl, alone_noOther (by simp), by decide +kernel, by decide +kernel, by decide +kernel⟩

/-- **C96, patches.**  The texts that a patch request takes are those of the files of the car; whatever the query is, nothing else is
read. -/
theorem C96_patch (root : FsNode) (cwd : List Bytes) (car maxpatch : Int) :
    (patchTexts root cwd car maxpatch).1 =
      (match root.at? (cwd ++ [b!"dataset", b!"car_" ++ itoa car, b!"tson", itoa car ++ b!"_1.tson"]) with | some (.file b) => b | _ => []) ∧
    (patchTexts root cwd car maxpatch).2.length = (maxpatch - 1).toNat ∧
    ∀ i, i < (maxpatch - 1).toNat → (patchTexts root cwd car maxpatch).2[i]? = some
      (match root.at? (cwd ++ [b!"dataset", b!"car_" ++ itoa car, b!"patches", itoa car ++ 95 :: (natDigits (i + 2) ++ b!".json")]) with
        | some (.file b) => b | _ => []) := by
  have hs : ∀ n : Nat, bSlash ∉ natDigits n := fun n => natDigits_no (by decide) n
  have hc : bSlash ∉ itoa car := by
    unfold itoa
    split
    · intro h
      rcases List.mem_cons.1 h with h | h
      · exact absurd h (by decide)
      · exact hs _ h
    · exact hs _
  refine ⟨read_request root cwd (s := b!"tson") (x := b!"_1.tson") hc (.inl rfl) (by decide) (by decide), by simp [patchTexts], fun i hi => ?_⟩
  have := read_request root cwd (s := b!"patches") (x := 95 :: (natDigits (i + 2) ++ b!".json")) hc (.inr rfl) (by
    intro e
    rcases List.mem_cons.1 e with e | e
    · exact absurd e (by decide)
    · rcases List.mem_append.1 e with e | e
      · exact hs _ e
      · exact absurd e (by decide)) (by simp)
  rw [patchTexts]
  dsimp only
  rw [List.getElem?_map, List.getElem?_range hi, Option.map_some, Option.some.injEq]
  exact this

/-- **C96, patches.**  Two file systems with the same directory of the car give the same response. -/
theorem C96_patch_frame (P : Nat → Bool) (root root' : FsNode) (cwd : List Bytes) (car patch : Bytes)
    (h : ∀ a b, root.at? (cwd ++ [b!"dataset", b!"car_" ++ itoa (atoiValue car), a, b]) =
      root'.at? (cwd ++ [b!"dataset", b!"car_" ++ itoa (atoiValue car), a, b])) :
    patchRequest P root cwd car patch = patchRequest P root' cwd car patch := by
  obtain ⟨a1, a2, a3⟩ := C96_patch root cwd (atoiValue car) (atoiValue patch)
  obtain ⟨b1, b2, b3⟩ := C96_patch root' cwd (atoiValue car) (atoiValue patch)
  have e1 : (patchTexts root cwd (atoiValue car) (atoiValue patch)).1 = (patchTexts root' cwd (atoiValue car) (atoiValue patch)).1 := by
    rw [a1, b1, h]
  have e2 : (patchTexts root cwd (atoiValue car) (atoiValue patch)).2 = (patchTexts root' cwd (atoiValue car) (atoiValue patch)).2 := by
    refine List.ext_getElem? fun i => ?_
    by_cases hi : i < (atoiValue patch - 1).toNat
    · rw [a3 i hi, b3 i hi, h]
    · rw [List.getElem?_eq_none (by omega), List.getElem?_eq_none (by omega)]
  unfold patchRequest
  dsimp only
  rw [e1, e2]

/-! ### C97 -/

theorem FsNode.put_other : ∀ {ks ls : List Bytes} {t n : FsNode}, ¬ ks <+: ls → ¬ ls <+: ks → (t.put ks n).at? ls = t.at? ls := by
  intro ks
  induction ks with
  | nil => intro ls t n h; exact absurd List.nil_prefix h
  | cons k ks ih =>
    intro ls t n h1 h2
    cases ls with
    | nil => exact absurd List.nil_prefix h2
    | cons l ls =>
      cases t with
      | file b => rfl
      | dir m =>
        rw [FsNode.put, FsNode.at?, FsNode.at?, FsNode.child, FsNode.child]
        by_cases e : k = l
        · subst e
          have h1' : ¬ ks <+: ls := fun h => h1 (List.cons_prefix_cons.2 ⟨rfl, h⟩)
          have h2' : ¬ ls <+: ks := fun h => h2 (List.cons_prefix_cons.2 ⟨rfl, h⟩)
          rw [mget_mset_self]
          show FsNode.at? _ ls = _
          rw [ih h1' h2']
          cases mget m k with
          | some c => rfl
          | none =>
            cases ls with
            | nil => exact absurd List.nil_prefix h2'
            | cons x ls => rfl
        · rw [mget_mset, if_neg (Ne.symm e)]

/-- Putting an entry into a directory. -/
theorem FsNode.put_child : ∀ {a : List Bytes} {t : FsNode} {m : List (Bytes × FsNode)}, t.at? a = some (.dir m) → ∀ (k : Bytes) (n : FsNode),
    (t.put (a ++ [k]) n).at? a = some (.dir (mset m k n)) := by
  intro a
  induction a with
  | nil =>
    intro t m h k n
    cases h
    rfl
  | cons x a ih =>
    intro t m h k n
    cases t with
    | file b => cases h
    | dir es =>
      rw [FsNode.at?, FsNode.child] at h
      cases hx : mget es x with
      | none => rw [hx] at h; cases h
      | some c =>
        rw [hx] at h
        rw [List.cons_append, FsNode.put, FsNode.at?, FsNode.child, mget_mset_self, hx]
        exact ih h k n

theorem FsNode.put_self {a : List Bytes} {t : FsNode} {m : List (Bytes × FsNode)} (h : t.at? a = some (.dir m)) (k : Bytes) (n : FsNode) :
    (t.put (a ++ [k]) n).at? (a ++ [k]) = some n := by
  rw [FsNode.at?_snoc (FsNode.put_child h k n), mget_mset_self]

/-- Neither place lies inside the other. -/
def Beside (a b : List Bytes) : Prop := ¬ a <+: b ∧ ¬ b <+: a

theorem beside_longer {a b : List Bytes} (h : Beside a b) (c : List Bytes) : Beside (a ++ c) b := by
  refine ⟨fun e => h.1 ((List.prefix_append a c).trans e), fun e => ?_⟩
  rcases List.prefix_or_prefix_of_prefix e (List.prefix_append a c) with e | e
  · exact h.2 e
  · exact h.1 e

/-- The directory after `PrepareOutputDir` and `SaveMetadata`: everything that was in it is gone. -/
theorem prepared {root : FsNode} {cwd : List Bytes} {m : List (Bytes × FsNode)} (hc : root.at? cwd = some (.dir m))
    (hf : ∀ b, root.at? (dataPlace cwd) ≠ some (.file b)) (args : List (Bytes × Arg)) :
    (saveMetadata (prepareOutputDir root cwd) cwd args).at? (dataPlace cwd) =
      some (.dir [(b!"metadata.json", .file (metadataText args))]) ∧
    ∀ loc, Beside (dataPlace cwd) loc → (saveMetadata (prepareOutputDir root cwd) cwd args).at? loc = root.at? loc := by
  have e : prepareOutputDir root cwd = root.put (dataPlace cwd) (.dir []) := by
    unfold prepareOutputDir
    split
    · next b hb => exact absurd hb (hf b)
    · rfl
  have h1 : (prepareOutputDir root cwd).at? (dataPlace cwd) = some (.dir []) := by
    rw [e]
    exact FsNode.put_self hc _ _
  have e2 : saveMetadata (prepareOutputDir root cwd) cwd args =
      (prepareOutputDir root cwd).put (dataPlace cwd ++ [b!"metadata.json"]) (.file (metadataText args)) := by
    unfold saveMetadata
    rw [h1]
  refine ⟨?_, fun loc hl => ?_⟩
  · rw [e2]
    exact FsNode.put_child h1 _ _
  · have hl2 := beside_longer hl [b!"metadata.json"]
    rw [e2, FsNode.put_other hl2.1 hl2.2, e, FsNode.put_other hl.1 hl.2]

/-- **C97** fails for every start: the program never serves a request.  Either the numbers of cars or files are missing, and it ends
without a change, or it panics, and then all the data that was there is lost and only the metadata is written. -/
theorem C97_start_fails {root : FsNode} {cwd : List Bytes} {m : List (Bytes × FsNode)} (hc : root.at? cwd = some (.dir m))
    (hf : ∀ b, root.at? (dataPlace cwd) ≠ some (.file b)) (line : Option Flags) (texts : GenArgs → List (List (Bytes × Bytes))) :
    ((∃ f, line = some f ∧ (f.cars < 0 ∨ f.files < 0)) ∧ webDemo root cwd line texts = (root, .ends)) ∨
    (¬ (∃ f, line = some f ∧ (f.cars < 0 ∨ f.files < 0)) ∧ (webDemo root cwd line texts).2 = .panics ∧
      (∃ info, (webDemo root cwd line texts).1.at? (dataPlace cwd) = some (.dir [(b!"metadata.json", .file info)])) ∧
      ∀ loc, Beside (dataPlace cwd) loc → (webDemo root cwd line texts).1.at? loc = root.at? loc) := by
  have gen : ∀ args, genArgs args = .panic → generateVss root cwd args texts = (saveMetadata (prepareOutputDir root cwd) cwd args, .panic) := by
    intro args h
    unfold generateVss generateFiles
    rw [h]
  cases line with
  | none =>
    right
    have h := (C78_generate_fails [] 0 0 (dec 2 10) (dec 1 10)).2
    have e : webDemo root cwd none texts = (saveMetadata (prepareOutputDir root cwd) cwd (defaultArgs (dec 2 10) (dec 1 10)), .panics) := by
      unfold webDemo
      dsimp only
      rw [gen _ h]
    obtain ⟨p1, p2⟩ := prepared hc hf (defaultArgs (dec 2 10) (dec 1 10))
    rw [e]
    exact ⟨(by rintro ⟨f, h, -⟩; cases h), rfl, ⟨_, p1⟩, p2⟩
  | some f =>
    by_cases hn : f.cars < 0 ∨ f.files < 0
    · left
      refine ⟨⟨f, rfl, hn⟩, ?_⟩
      unfold webDemo
      dsimp only
      rw [if_pos hn]
    · right
      have h := (C78_generate_fails f.dataset f.cars f.files f.changeRate f.size).1
      have e : webDemo root cwd (some f) texts =
          (saveMetadata (prepareOutputDir root cwd) cwd (parseArgs f.dataset f.cars f.files f.changeRate f.size), .panics) := by
        unfold webDemo
        dsimp only
        rw [if_neg hn, gen _ h]
      obtain ⟨p1, p2⟩ := prepared hc hf (parseArgs f.dataset f.cars f.files f.changeRate f.size)
      rw [e]
      refine ⟨?_, rfl, ⟨_, p1⟩, p2⟩
      rintro ⟨f', e', h'⟩
      cases e'
      exact hn h'

/-- The data of a tree with generated data is gone after a start. -/
example (texts : GenArgs → List (List (Bytes × Bytes))) : ∃ info, (webDemo someTree [b!"srv"] none texts).1.at? [b!"srv", b!"dataset"] =
    some (.dir [(b!"metadata.json", .file info)]) := by
  rcases C97_start_fails (root := someTree) (cwd := [b!"srv"]) rfl (by intro b e; cases e) none texts with ⟨⟨f, h, -⟩, -⟩ | ⟨-, -, h, -⟩
  · cases h
  · exact h

/-- **C97.**  With the missing rate, the files are generated, and the requests get them. -/
theorem C97_generated_partial {root : FsNode} {cwd : List Bytes} {m : List (Bytes × FsNode)} (hc : root.at? cwd = some (.dir m))
    (hf : ∀ b, root.at? (dataPlace cwd) ≠ some (.file b)) {args : List (Bytes × Arg)} {a : GenArgs} (ha : genArgs args = .ok a)
    (texts : GenArgs → List (List (Bytes × Bytes))) :
    (generateVss root cwd args texts).2 = .ok () ∧
    (generateVss root cwd args texts).1.at? (dataPlace cwd) = some (generatedDir (metadataText args) (texts a)) ∧
    (∀ loc, Beside (dataPlace cwd) loc → (generateVss root cwd args texts).1.at? loc = root.at? loc) ∧
    ∀ (i : Nat) files, (texts a)[i]? = some files →
      (∀ f, files[0]? = some f → updateHandler (generateVss root cwd args texts).1 cwd (natDigits (i + 1)) [] = f.1) ∧
      ∀ (j : Nat) f, files[j]? = some f → updateHandler (generateVss root cwd args texts).1 cwd (natDigits (i + 1)) (natDigits (j + 1)) = f.2 := by
  obtain ⟨p1, p2⟩ := prepared hc hf args
  have e : generateVss root cwd args texts = ((saveMetadata (prepareOutputDir root cwd) cwd args).put (dataPlace cwd)
      (generatedDir (metadataText args) (texts a)), .ok ()) := by
    unfold generateVss generateFiles
    rw [ha]
    dsimp only
    rw [p1]
    rfl
  have hself : (generateVss root cwd args texts).1.at? (dataPlace cwd) = some (generatedDir (metadataText args) (texts a)) := by
    rw [e]
    obtain ⟨m', hm'⟩ := at?_init (a := cwd) (b := [b!"dataset"]) (by simp) p1
    exact FsNode.put_self hm' _ _
  refine ⟨by rw [e], hself, fun loc hl => ?_, fun i files hi => C96_served hself hi⟩
  rw [e]
  exact (FsNode.put_other hl.1 hl.2).trans (p2 loc hl)

example : genArgs (parseArgs b!"vss.json" 1 1 (dec 2 10) (dec 1 10) ++ [(b!"maintain_rate", .float (dec 0 1))]) =
    .ok ⟨b!"vss.json", 1, 1, dec 2 10, dec 0 1, dec 1 10⟩ := rfl

/-- **C97.**  If `dataset` is a file, a start changes nothing. -/
theorem C97_file {root : FsNode} {cwd : List Bytes} {b : Bytes} (h : root.at? (dataPlace cwd) = some (.file b)) (line : Option Flags)
    (texts : GenArgs → List (List (Bytes × Bytes))) : (webDemo root cwd line texts).1 = root := by
  have e : ∀ args, saveMetadata (prepareOutputDir root cwd) cwd args = root := by
    intro args
    have : prepareOutputDir root cwd = root := by unfold prepareOutputDir; rw [h]
    rw [this]
    unfold saveMetadata
    rw [h]
  have g : ∀ args, (generateVss root cwd args texts).1 = root := by
    intro args
    unfold generateVss generateFiles
    rw [e]
    cases genArgs args with
    | ok a => dsimp only; rw [h]
    | err => rfl
    | panic => rfl
  unfold webDemo
  cases line with
  | none =>
    dsimp only
    have := g (defaultArgs (dec 2 10) (dec 1 10))
    generalize generateVss root cwd (defaultArgs (dec 2 10) (dec 1 10)) texts = r at *
    obtain ⟨r', x⟩ := r
    cases x <;> exact this
  | some f =>
    dsimp only
    split
    · rfl
    · have := g (parseArgs f.dataset f.cars f.files f.changeRate f.size)
      generalize generateVss root cwd (parseArgs f.dataset f.cars f.files f.changeRate f.size) texts = r at *
      obtain ⟨r', x⟩ := r
      cases x <;> exact this

example : FsNode.at? (.dir [(b!"dataset", .file b!"x")]) (dataPlace []) = some (.file b!"x") := rfl

theorem atoiValue_digits {n : Nat} (h : (n : Int) ≤ maxInt64) : atoiValue (natDigits n) = n := by
  have e : signedDigits (natDigits n) = some (n : Int) := by
    have := C89_int (n : Int)
    rwa [itoa_nonneg (by omega), Int.toNat_natCast] at this
  have h1 : ¬ ((n : Int) < minInt64) := by
    have : minInt64 < 0 := by decide
    omega
  unfold atoiValue
  rw [e]
  dsimp only
  rw [if_neg h1, if_neg (by omega)]

/-- **C96, patches.**  After the generation, a patch request is answered from the first data set of the car and its patches up to the
number in the query. -/
theorem C96_response (P : Nat → Bool) {root : FsNode} {cwd : List Bytes} {info : Bytes} {cars : List (List (Bytes × Bytes))}
    (h : root.at? (cwd ++ [b!"dataset"]) = some (generatedDir info cars)) {i : Nat} {f : Bytes × Bytes} {files : List (Bytes × Bytes)}
    (hi : cars[i]? = some (f :: files)) (hi' : ((i + 1 : Nat) : Int) ≤ maxInt64) {n : Nat} (hn : n ≤ files.length) (hn' : ((n + 1 : Nat) : Int) ≤ maxInt64) :
    patchRequest P root cwd (natDigits (i + 1)) (natDigits (n + 1)) = patchHandler P f.1 ((files.take n).map fun x => x.2) := by
  have hcar : itoa ((i + 1 : Nat) : Int) = natDigits (i + 1) := by rw [itoa_nonneg (by omega), Int.toNat_natCast]
  obtain ⟨h1, h2, h3⟩ := C96_patch root cwd ((i + 1 : Nat) : Int) ((n + 1 : Nat) : Int)
  have hlen : (((n + 1 : Nat) : Int) - 1).toNat = n := by omega
  obtain ⟨s1, s2⟩ := C96_served h hi
  have hs : ∀ n, bSlash ∉ natDigits n := fun n => natDigits_no (by decide) n
  have e1 : (patchTexts root cwd ((i + 1 : Nat) : Int) ((n + 1 : Nat) : Int)).1 = f.1 := by
    rw [h1, hcar]
    have := s1 f rfl
    rw [C96_plain _ _ (hs _) (by simp)] at this
    simpa [wanted] using this
  have e2 : (patchTexts root cwd ((i + 1 : Nat) : Int) ((n + 1 : Nat) : Int)).2 = (files.take n).map fun x => x.2 := by
    refine List.ext_getElem? fun j => ?_
    by_cases hj : j < n
    · have hj' : j < files.length := by omega
      rw [h3 j (by omega), hcar]
      have := s2 (j + 1) files[j] (by simp [hj'])
      rw [C96_plain _ _ (hs _) (hs _)] at this
      rw [List.getElem?_map, List.getElem?_take_of_lt hj, List.getElem?_eq_getElem hj', Option.map_some, Option.some.injEq]
      simpa [wanted, natDigits_ne_nil] using this
    · rw [List.getElem?_eq_none (by omega), List.getElem?_eq_none (by simp; omega)]
  unfold patchRequest
  rw [atoiValue_digits hi', atoiValue_digits hn']
  dsimp only
  rw [e1, e2]

example (P : Nat → Bool) : patchRequest P someTree [b!"srv"] b!"1" b!"1" = patchHandler P b!"{}" [] :=
  C96_response P (cars := [[(b!"{}", b!"[]")]]) (root := someTree) (cwd := [b!"srv"]) rfl (i := 0) rfl (by decide) (n := 0) (by decide) (by decide)

/-- **C96, main page.**  The main page is the file `index.html` of the working directory, or nothing. -/
theorem C96_home (root : FsNode) (cwd : List Bytes) :
    homeHandler root cwd = match root.at? (cwd ++ [b!"index.html"]) with | some (.file b) => b | _ => [] := by
  have hsp : split bSlash b!"index.html" = [b!"index.html"] := by decide +kernel
  have hn : ∀ p ∈ split bSlash b!"index.html", NamePart p := by
    rw [hsp]
    intro p hp
    rw [List.mem_singleton.1 hp]
    exact name_of_long (by decide)
  have hr := fsRead_names (root := root) (cwd := cwd) hn
  rw [hsp] at hr
  unfold homeHandler
  cases hf : fsRead root cwd b!"index.html" with
  | some b => rw [(hr b).1 hf]; rfl
  | none =>
    split
    · next b hb => rw [(hr b).2 hb] at hf; cases hf
    · rfl

end Verif
