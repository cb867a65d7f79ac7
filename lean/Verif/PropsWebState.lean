import Verif.PropsWebPage
import Verif.PropsExpOut
/-
C102: the coloured parts.  C103: snapshots saved on the page of the demo.
-/
namespace Verif

/-! ### C102: coloured parts -/

/-- The inside of a JSON string: units that need no escape, short escapes, and `\uXXXX`. -/
inductive StringBody : Units → Prop where
  | nil : StringBody []
  | plain {c : Nat} {s : Units} (h1 : c ≠ 34) (h2 : c ≠ 92) (h : StringBody s) : StringBody (c :: s)
  | short {d : Nat} {s : Units} (h1 : d ≠ 117) (h : StringBody s) : StringBody (92 :: d :: s)
  | code {a b c d : Nat} {s : Units} (ha : alnumUnit a = true) (hb : alnumUnit b = true) (hc : alnumUnit c = true) (hd : alnumUnit d = true)
      (h : StringBody s) : StringBody (92 :: 117 :: a :: b :: c :: d :: s)

theorem alnum_plain {c : Nat} (h : alnumUnit c = true) : c ≠ 34 ∧ c ≠ 92 := by
  constructor
  · rintro rfl; exact absurd h (by decide)
  · rintro rfl; exact absurd h (by decide)

theorem strRest_plain {c : Nat} (h1 : c ≠ 34) (h2 : c ≠ 92) (r : Units) : strRest (c :: r) = (strRest r).map fun p => (c :: p.1, p.2) := by
  rw [strRest.eq_def]; simp only [h1, h2, if_false]

theorem strRest_body {s : Units} (h : StringBody s) (r : Units) : strRest (s ++ 34 :: r) = some (s ++ [34], r) := by
  induction h with
  | nil => rw [List.nil_append, strRest.eq_def]; rfl
  | plain h1 h2 _ ih => rw [List.cons_append, strRest_plain h1 h2, ih]; rfl
  | short h1 _ ih =>
    rw [List.cons_append, List.cons_append, strRest.eq_def]
    simp [h1, ih]
  | code ha hb hc hd _ ih =>
    have e1 := alnum_plain hc
    have e2 := alnum_plain hd
    simp only [List.cons_append]
    rw [strRest.eq_def]
    simp [ha, hb, strRest_plain e1.1 e1.2, strRest_plain e2.1 e2.2, ih]

/-- **C102, names.**  A string followed by a colon is taken together with the colon, and coloured as a key. -/
theorem C102_key {s : Units} (h : StringBody s) (w r : Units) (hw : ∀ c ∈ w, spaceUnit c = true) :
    tokenAt (34 :: (s ++ 34 :: (w ++ 58 :: r))) = some (34 :: (s ++ 34 :: (w ++ [58])), r) ∧
      tokenClass (34 :: (s ++ 34 :: (w ++ [58]))) = units b!"key" := by
  constructor
  · have hd : (w ++ 58 :: r).dropWhile spaceUnit = 58 :: r := by
      rw [List.dropWhile_append_of_pos hw]; rfl
    have ht : (w ++ 58 :: r).takeWhile spaceUnit = w := by
      rw [List.takeWhile_append_of_pos hw]; simp [List.takeWhile, spaceUnit]
    rw [tokenAt, if_pos rfl, strRest_body h]
    simp [colonRest, hd, ht]
  · have : (34 :: (s ++ 34 :: (w ++ [58]))).getLast? = some 58 := by
      have : 34 :: (s ++ 34 :: (w ++ [58])) = (34 :: (s ++ 34 :: w)) ++ [58] := by simp
      rw [this, List.getLast?_append]; rfl
    rw [tokenClass, if_pos (by rfl), if_pos this]

/-- **C102, strings.**  A string without a colon after it is coloured as a string. -/
theorem C102_string {s : Units} (h : StringBody s) (r : Units) (hr : (r.dropWhile spaceUnit).head? ≠ some 58) :
    tokenAt (34 :: (s ++ 34 :: r)) = some (34 :: (s ++ [34]), r) ∧ tokenClass (34 :: (s ++ [34])) = units b!"string" := by
  constructor
  · have hc : colonRest r = ([], r) := by
      unfold colonRest
      cases e : r.dropWhile spaceUnit with
      | nil => rfl
      | cons c t =>
        rw [e] at hr
        have : c ≠ 58 := fun x => hr (by rw [x]; rfl)
        simp [this]
    rw [tokenAt, if_pos rfl, strRest_body h]
    simp [hc]
  · have : (34 :: (s ++ [34])).getLast? = some 34 := by
      rw [← List.cons_append, List.getLast?_append]; rfl
    rw [tokenClass, if_pos (by rfl), if_neg (by rw [this]; decide)]

/-- **C102, words.** -/
theorem C102_words (r : Units) :
    (tokenAt (units b!"true" ++ r) = some (units b!"true", r) ∧ tokenClass (units b!"true") = units b!"boolean") ∧
      (tokenAt (units b!"false" ++ r) = some (units b!"false", r) ∧ tokenClass (units b!"false") = units b!"boolean") ∧
      (tokenAt (units b!"null" ++ r) = some (units b!"null", r) ∧ tokenClass (units b!"null") = units b!"null") :=
  ⟨⟨rfl, by decide⟩, ⟨rfl, by decide⟩, ⟨rfl, by decide⟩⟩

example : StringBody (units b!"a\\n\\u00e9") :=
  .plain (by decide) (by decide) (.short (by decide) (.code rfl rfl rfl rfl .nil))

/-! ### C103: names -/

theorem cut_digits {a b : Nat} {x y : Bytes} (h : natDigits a ++ 95 :: x = natDigits b ++ 95 :: y) : a = b ∧ x = y := by
  have e := congrArg (split 95) h
  rw [split_append_sep 95 _ _ (natDigits_no (by decide) a), split_append_sep 95 _ _ (natDigits_no (by decide) b)] at e
  have := natDigits_injective (List.cons.inj e).1
  subst this
  exact ⟨rfl, by simpa using h⟩

/-- **C103, names.**  Snapshots of different cars or patches have different names, so none overwrites another. -/
theorem C103_names {c c' p p' : Nat} (hp : 1 ≤ p) (hp' : 1 ≤ p') : savedName c p = savedName c' p' ↔ c = c' ∧ p = p' := by
  constructor
  · intro h
    unfold savedName at h
    simp only [List.append_assoc] at h
    have h := List.append_cancel_left h
    obtain ⟨rfl, h2⟩ := cut_digits h
    have h3 := List.append_cancel_left (as := b!"patch_") h2
    have := natDigits_injective (List.append_cancel_right h3)
    exact ⟨rfl, by omega⟩
  · rintro ⟨rfl, rfl⟩; rfl

/-! ### C103: the wrong snapshots -/

/-- A server whose answers tell what was asked. -/
def tellingServer : PageServer :=
  ⟨fun c => units (b!"car " ++ natDigits c), fun c p => units (b!"patch " ++ natDigits c ++ b!" " ++ natDigits p),
    fun c p => units (b!"result " ++ natDigits c ++ b!" " ++ natDigits p)⟩

/-- **C103 is violated** by a change of the selection: after "Append" for the first patch and its answer, the user chooses the second
patch and waits for all answers; "Snapshot" then stores the result of the first patch under the name of the second. -/
theorem C103_selection_fails :
    let p := (Page.start tellingServer).run tellingServer (fun _ => none)
      [.arrive 0, .arrive 0, .arrive 0, .click, .arrive 0, .patch 3, .arrive 0, .click]
    p.pending = [] ∧ p.snapshots = [(b!"car_1_patch_2 Snapshot", units b!"result 1 2")] ∧
      savedName 1 3 = b!"car_1_patch_2 Snapshot" ∧ tellingServer.patched 1 3 = units b!"result 1 3" := by
  decide +kernel

/-- The same for cars: the result of the first car is stored under the name of the second. -/
theorem C103_car_fails :
    let p := (Page.start tellingServer).run tellingServer (fun _ => none)
      [.arrive 0, .arrive 0, .arrive 0, .click, .arrive 0, .car 2, .arrive 0, .arrive 0, .click]
    p.pending = [] ∧ p.snapshots = [(b!"car_2_patch_1 Snapshot", units b!"result 1 2")] ∧
      savedName 2 2 = b!"car_2_patch_1 Snapshot" ∧ tellingServer.patched 2 2 = units b!"result 2 2" := by
  decide +kernel

/-- **C103 is violated** by a second press before the answer: an empty snapshot is stored. -/
theorem C103_early_fails :
    ((Page.start tellingServer).run tellingServer (fun _ => none) [.arrive 0, .arrive 0, .arrive 0, .click, .click]).snapshots =
      [(b!"car_1_patch_1 Snapshot", [])] := by
  decide +kernel

/-- The view of a patch can stay behind, too: the answers of two choices may arrive in the other order; the page then shows the patch
of the earlier choice beside the later selection. -/
theorem C103_order_fails :
    let p := (Page.start tellingServer).run tellingServer (fun _ => none)
      [.arrive 0, .arrive 0, .arrive 0, .patch 3, .patch 4, .arrive 1, .arrive 0]
    p.pending = [] ∧ p.patch = 4 ∧ htmlText p.patchView = some (units b!"patch 1 3") := by
  decide +kernel

/-! ### C103: the right snapshots -/

/-- The parts of the page that only choices and presses change. -/
theorem updateSnapshotView_same (pretty : Units → Option Units) (p : Page) :
    (p.updateSnapshotView pretty).car = p.car ∧ (p.updateSnapshotView pretty).patch = p.patch ∧
      (p.updateSnapshotView pretty).isAppended = p.isAppended ∧ (p.updateSnapshotView pretty).result = p.result ∧
      (p.updateSnapshotView pretty).snapshots = p.snapshots ∧ (p.updateSnapshotView pretty).pending = p.pending ∧
      (p.updateSnapshotView pretty).options = p.options ∧ (p.updateSnapshotView pretty).selected = p.selected := by
  unfold Page.updateSnapshotView
  split
  · split
    · exact ⟨rfl, rfl, rfl, rfl, rfl, rfl, rfl, rfl⟩
    · exact ⟨rfl, rfl, rfl, rfl, rfl, rfl, rfl, rfl⟩
  · exact ⟨rfl, rfl, rfl, rfl, rfl, rfl, rfl, rfl⟩

/-- Events that leave the selection alone. -/
def Waiting : PageEvent → Prop
  | .arrive _ => True
  | .snapshot _ => True
  | _ => False

/-- A request for a result is open. -/
def Page.awaits (p : Page) : Prop := ∃ t, (Block.result, t) ∈ p.pending

/-- While the page waits: either the result asked for is open, and it is the only one, or it is shown. -/
def Expects (pretty : Units → Option Units) (t : Units) (p : Page) : Prop :=
  (∀ u, (Block.result, u) ∈ p.pending → u = t) ∧ (p.awaits ∨ p.result = blockHtml pretty t)

theorem waiting_step {srv : PageServer} {pretty : Units → Option Units} {t : Units} {p : Page} {e : PageEvent} (he : Waiting e)
    (h : Expects pretty t p) :
    Expects pretty t (p.step srv pretty e) ∧ (p.step srv pretty e).car = p.car ∧ (p.step srv pretty e).patch = p.patch ∧
      (p.step srv pretty e).isAppended = p.isAppended ∧ (p.step srv pretty e).snapshots = p.snapshots := by
  cases e with
  | car | patch | click => exact he.elim
  | snapshot name =>
    obtain ⟨h1, h2, h3, h4, h5, h6, -⟩ := updateSnapshotView_same pretty { p with selected := some name }
    refine ⟨?_, h1, h2, h3, h5⟩
    show Expects pretty t (Page.updateSnapshotView pretty { p with selected := some name })
    unfold Expects Page.awaits
    rw [h4, h6]
    exact h
  | arrive i =>
    unfold Page.step
    dsimp only
    cases e : p.pending[i]? with
    | none => exact ⟨h, rfl, rfl, rfl, rfl⟩
    | some q =>
      obtain ⟨b, u⟩ := q
      have hm : ∀ x, x ∈ p.pending.eraseIdx i → x ∈ p.pending := fun x hx => List.mem_of_mem_eraseIdx hx
      have hother : b ≠ .result → ∀ v, (Block.result, v) ∈ p.pending → (Block.result, v) ∈ p.pending.eraseIdx i := by
        intro hb v hv
        obtain ⟨j, hj, ej⟩ := List.mem_iff_getElem.1 hv
        refine List.mem_eraseIdx_iff_getElem.2 ⟨j, hj, ?_, ej⟩
        rintro rfl
        rw [List.getElem?_eq_getElem hj, ej] at e
        cases e
        exact hb rfl
      cases b with
      | view =>
        refine ⟨⟨fun v hv => ?_, ?_⟩, rfl, rfl, rfl, rfl⟩
        · rcases List.mem_append.1 hv with hv | hv
          · exact h.1 v (hm _ hv)
          · cases List.mem_singleton.1 hv
        · rcases h.2 with ⟨v, hv⟩ | h2
          · exact .inl ⟨v, List.mem_append_left _ (hother (by decide) v hv)⟩
          · exact .inr h2
      | patch =>
        refine ⟨⟨fun v hv => h.1 v (hm _ hv), ?_⟩, rfl, rfl, rfl, rfl⟩
        rcases h.2 with ⟨v, hv⟩ | h2
        · exact .inl ⟨v, hother (by decide) v hv⟩
        · exact .inr h2
      | result =>
        have : u = t := h.1 u (List.mem_of_getElem? e)
        subst this
        exact ⟨⟨fun v hv => h.1 v (hm _ hv), .inr rfl⟩, rfl, rfl, rfl, rfl⟩

theorem waiting_run {srv : PageServer} {pretty : Units → Option Units} {t : Units} : ∀ (es : List PageEvent) {p : Page},
    (∀ e ∈ es, Waiting e) → Expects pretty t p →
    Expects pretty t (p.run srv pretty es) ∧ (p.run srv pretty es).car = p.car ∧ (p.run srv pretty es).patch = p.patch ∧
      (p.run srv pretty es).isAppended = p.isAppended ∧ (p.run srv pretty es).snapshots = p.snapshots
  | [], _, _, h => ⟨h, rfl, rfl, rfl, rfl⟩
  | e :: es, p, hes, h => by
    obtain ⟨h0, h1, h2, h3, h4⟩ := waiting_step (srv := srv) (hes e (List.mem_cons_self ..)) h
    obtain ⟨g0, g1, g2, g3, g4⟩ := waiting_run es (fun e he => hes e (List.mem_cons_of_mem _ he)) h0
    exact ⟨g0, g1.trans h1, g2.trans h2, g3.trans h3, g4.trans h4⟩

/-- **C103, snapshots.**  If no result is awaited when the user presses "Append", if they leave the selection alone until they press
"Snapshot", and if the answer is there by then, the page stores what the server answered for the selected car and patch, under the name of
this car and patch, keeps the snapshots under other names, selects the new one, and is ready for the next round. -/
theorem C103_saved_partial (srv : PageServer) (pretty : Units → Option Units) (p : Page) (es : List PageEvent)
    (h0 : p.isAppended = false) (hp : ¬ p.awaits) (hes : ∀ e ∈ es, Waiting e)
    (hq : ¬ ((p.step srv pretty .click).run srv pretty es).awaits) :
    let r := p.run srv pretty (.click :: es ++ [.click])
    let t := srv.patched p.car p.patch
    (∀ name, mget r.snapshots name = if name = savedName p.car p.patch then some ((pretty t).getD t) else mget p.snapshots name) ∧
      r.selected = some (savedName p.car p.patch) ∧ savedName p.car p.patch ∈ r.options ∧ r.isAppended = false ∧ ¬ r.awaits := by
  intro r t
  have hc : p.step srv pretty .click = { p with pending := p.pending ++ [(.result, t)], isAppended := true } := by
    show (if p.isAppended = true then _ else _) = _
    rw [h0]; rfl
  have hE : Expects pretty t (p.step srv pretty .click) := by
    rw [hc]
    refine ⟨fun u hu => ?_, .inl ⟨t, List.mem_append_right _ (List.mem_singleton.2 rfl)⟩⟩
    rcases List.mem_append.1 hu with hu | hu
    · exact absurd ⟨u, hu⟩ hp
    · cases List.mem_singleton.1 hu; rfl
  obtain ⟨g0, g1, g2, g3, g4⟩ := waiting_run (srv := srv) es hes hE
  have hr : r = ((p.step srv pretty .click).run srv pretty es).step srv pretty .click := by
    show List.foldl _ _ _ = _
    rw [List.foldl_append]; rfl
  rw [hr]
  generalize hqq : (p.step srv pretty .click).run srv pretty es = q at *
  have a1 : q.car = p.car := by rw [g1, hc]
  have a2 : q.patch = p.patch := by rw [g2, hc]
  have a3 : q.isAppended = true := by rw [g3, hc]
  have a4 : q.snapshots = p.snapshots := by rw [g4, hc]
  have a5 : (htmlText q.result).getD [] = (pretty t).getD t := by
    rcases g0.2 with h | h
    · exact absurd h hq
    · rw [h, C102_block]; rfl
  have hs : q.step srv pretty .click = { q.saveSnapshot pretty with isAppended := false } := by
    show (if q.isAppended = true then _ else _) = _
    rw [a3]; rfl
  rw [hs]
  unfold Page.saveSnapshot Page.awaits
  dsimp only
  rw [a1, a2, a4, a5]
  obtain ⟨-, -, -, -, h5, h6, h7, h8⟩ := updateSnapshotView_same pretty
    { q with
      car := p.car
      patch := p.patch
      snapshots := mset p.snapshots (savedName p.car p.patch) ((pretty t).getD t)
      options := if savedName p.car p.patch ∈ q.options then q.options else q.options ++ [savedName p.car p.patch]
      selected := some (savedName p.car p.patch) }
  refine ⟨fun name => ?_, h8, ?_, rfl, ?_⟩
  · rw [h5]
    exact mget_mset ..
  · rw [h7]
    dsimp only
    split
    · assumption
    · exact List.mem_append_right _ (List.mem_singleton.2 rfl)
  · rw [h6]; exact hq

/-- **C103, views.**  Choosing a snapshot that is not empty shows it. -/
theorem C103_view (srv : PageServer) (pretty : Units → Option Units) (p : Page) (name : Bytes) (t : Units) (ht : mget p.snapshots name = some t)
    (hne : t ≠ []) : htmlText (p.step srv pretty (.snapshot name)).snapshotView = some ((pretty t).getD t) := by
  have : (p.step srv pretty (.snapshot name)).snapshotView = blockHtml pretty t := by
    show (Page.updateSnapshotView pretty _).snapshotView = _
    unfold Page.updateSnapshotView
    simp [ht, hne]
  rw [this]
  exact C102_block pretty t

/-- **C103, the button.**  Nothing but presses changes what the button does: choices of cars and patches never set it back. -/
theorem C103_button (srv : PageServer) (pretty : Units → Option Units) (p : Page) (e : PageEvent) :
    (p.step srv pretty e).isAppended = (match e with | .click => !p.isAppended | _ => p.isAppended) := by
  cases e with
  | car | patch => rfl
  | snapshot name => exact (updateSnapshotView_same pretty _).2.2.1
  | click =>
    show (if p.isAppended = true then _ else _ : Page).isAppended = _
    cases h : p.isAppended <;> rfl
  | arrive i =>
    show (match p.pending[i]? with | none => _ | some (.view, t) => _ | some (.patch, t) => _ | some (.result, t) => _ : Page).isAppended = _
    split <;> rfl

/-- A round on the page for the second patch of the third car. -/
example :
    let p := (Page.start tellingServer).run tellingServer (fun _ => none) [.arrive 0, .arrive 0, .car 3, .patch 3]
    p.isAppended = false ∧ (∀ e ∈ [PageEvent.arrive 3, .arrive 0], Waiting e) ∧
      p.pending.map Prod.fst = [.patch, .view, .patch] ∧
      ((p.step tellingServer (fun _ => none) .click).run tellingServer (fun _ => none) [.arrive 3, .arrive 0]).pending.map Prod.fst =
        [.view, .patch] ∧
      (p.run tellingServer (fun _ => none) [.click, .arrive 3, .arrive 0, .click]).snapshots =
        [(b!"car_3_patch_2 Snapshot", units b!"result 3 3")] := by
  refine ⟨by decide +kernel, ?_, by decide +kernel, by decide +kernel, by decide +kernel⟩
  intro e he
  rcases List.mem_cons.1 he with rfl | he
  · trivial
  · rcases List.mem_cons.1 he with rfl | he
    · trivial
    · cases he

end Verif
