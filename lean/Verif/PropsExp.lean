import Verif.SpecExp
import Verif.TJsonLemmas
/-
Properties C58-C61: the documents and patches of the simulated vehicle.
-/
namespace Verif

theorem at?_nil (j : Js) : j.at? [] = some j := by unfold Js.at?; rfl

theorem at?_cons (m : List (Bytes × Js)) (k : Bytes) (ks : List Bytes) :
    (Js.obj m).at? (k :: ks) = (mget m k).bind fun c => c.at? ks := by rw [Js.at?]

theorem at?_scalar {j : Js} (h : j.IsScalar) (k : Bytes) (ks : List Bytes) : j.at? (k :: ks) = none := by
  cases j <;> first | exact h.elim | rw [Js.at?]; simp

/-- Below a member, the map that replaces everything else is as good as the member itself. -/
theorem at?_subMap (c : Option Js) (k : Bytes) (ks : List Bytes) :
    (Js.obj (subMap c)).at? (k :: ks) = c.bind fun j => j.at? (k :: ks) := by
  rcases c with _ | j
  · simp [subMap, at?_cons]
  · cases j <;> first | rfl | (rw [Option.bind_some, at?_scalar (by trivial)]; simp [subMap, at?_cons])

theorem at?_docUpdate_frame (leaf : Option Js → Js) :
    ∀ (ks : List Bytes) (m : List (Bytes × Js)) (qs : List Bytes), Incomparable ks qs →
      (Js.obj (docUpdate leaf m ks)).at? qs = (Js.obj m).at? qs
  | [], _, _, h => absurd (List.nil_prefix) h.1
  | _ :: _, _, [], h => absurd (List.nil_prefix) h.2
  | [k], m, q :: qs, h => by
    have hne : q ≠ k := fun e => h.1 (by subst e; exact ⟨qs, rfl⟩)
    rw [docUpdate, at?_cons, at?_cons, mget_mset_ne _ _ hne]
  | k :: k' :: ks, m, q :: qs, h => by
    by_cases e : q = k
    · subst e
      have h' : Incomparable (k' :: ks) qs :=
        ⟨fun hp => h.1 (List.cons_prefix_cons.2 ⟨rfl, hp⟩), fun hp => h.2 (List.cons_prefix_cons.2 ⟨rfl, hp⟩)⟩
      rw [docUpdate, at?_cons, mget_mset_self, Option.bind_some, at?_docUpdate_frame leaf (k' :: ks) _ qs h', at?_cons]
      cases qs with
      | nil => exact absurd List.nil_prefix h'.2
      | cons r qs => exact at?_subMap _ _ _
    · rw [docUpdate, at?_cons, at?_cons, mget_mset_ne _ _ e]

theorem at?_docUpdate_self (leaf : Option Js → Js) :
    ∀ (ks : List Bytes) (_ : ks ≠ []) (m : List (Bytes × Js)) (rs : List Bytes),
      (Js.obj (docUpdate leaf m ks)).at? (ks ++ rs) = (leaf ((Js.obj m).at? ks)).at? rs
  | [k], _, m, rs => by
    rw [docUpdate, List.cons_append, at?_cons, mget_mset_self, Option.bind_some, List.nil_append, at?_cons]
    congr 2
    cases mget m k with
    | none => rfl
    | some c => exact (at?_nil c).symm
  | k :: k' :: ks, _, m, rs => by
    rw [docUpdate, List.cons_append, at?_cons, mget_mset_self, Option.bind_some,
      at?_docUpdate_self leaf (k' :: ks) (by simp), at?_subMap, at?_cons m]

theorem at?_docUpdate_above (leaf : Option Js → Js) :
    ∀ (ks : List Bytes) (m : List (Bytes × Js)) (qs rs : List Bytes), ks = qs ++ rs → rs ≠ [] →
      ∃ n, (Js.obj (docUpdate leaf m ks)).at? qs = some (.obj n)
  | ks, m, [], rs, _, _ => ⟨_, at?_nil _⟩
  | [k], m, q :: qs, rs, h, hr => by
    simp only [List.cons_append, List.cons.injEq] at h
    exact absurd (List.append_eq_nil_iff.1 h.2.symm).2 hr
  | k :: k' :: ks, m, q :: qs, rs, h, hr => by
    simp only [List.cons_append, List.cons.injEq] at h
    obtain ⟨rfl, h⟩ := h
    rw [docUpdate, at?_cons, mget_mset_self, Option.bind_some]
    exact at?_docUpdate_above leaf (k' :: ks) _ qs rs h hr

/-! ### C58: updating a document -/

/-- C58: after an update the document holds the value and the timestamp at the path of the sensor. -/
theorem C58_json_written (doc : List (Bytes × Js)) (path : Bytes) (v : Js) (ts : Int) :
    valueAt (updateJsonDoc doc path v ts) path = some v ∧
    (Js.obj (updateJsonDoc doc path v ts)).at? (split bDot path ++ [b!"timestamp"]) = some (.int ts) := by
  have hn : split bDot path ≠ [] := split_ne_nil _ _
  unfold valueAt updateJsonDoc
  rw [at?_docUpdate_self _ _ hn, at?_docUpdate_self _ _ hn]
  rcases (Js.obj doc).at? (split bDot path) with _ | j
  · exact ⟨rfl, rfl⟩
  · cases j with
    | obj n =>
      simp only [jsonNode, at?_cons]
      rw [mget_mset_ne _ _ (by decide), mget_mset_self, mget_mset_self]
      exact ⟨at?_nil _, at?_nil _⟩
    | _ => exact ⟨rfl, rfl⟩

/-- The same for the TSON document. -/
theorem C58_tson_written (doc : List (Bytes × Js)) (path : Bytes) (v : Js) (ts : Int) :
    valueAt (updateTsonDoc doc path v ts) path = some v ∧
    (Js.obj (updateTsonDoc doc path v ts)).at? (split bDot path ++ [b!"_ts"]) = some (.int ts) := by
  have hn : split bDot path ≠ [] := split_ne_nil _ _
  unfold valueAt updateTsonDoc
  rw [at?_docUpdate_self _ _ hn, at?_docUpdate_self _ _ hn]
  exact ⟨rfl, rfl⟩

/-- C58: every location that neither contains the sensor nor lies inside it is left as it was, in both documents. -/
theorem C58_frame (doc : List (Bytes × Js)) (path : Bytes) (v : Js) (ts : Int) (qs : List Bytes)
    (h : Incomparable (split bDot path) qs) :
    (Js.obj (updateJsonDoc doc path v ts)).at? qs = (Js.obj doc).at? qs ∧
    (Js.obj (updateTsonDoc doc path v ts)).at? qs = (Js.obj doc).at? qs :=
  ⟨at?_docUpdate_frame _ _ _ _ h, at?_docUpdate_frame _ _ _ _ h⟩

/-- C58, inside the sensor: the JSON document keeps every other member of it. -/
theorem C58_json_inside (doc : List (Bytes × Js)) (path : Bytes) (v : Js) (ts : Int) (k : Bytes) (rs : List Bytes)
    (h1 : k ≠ b!"value") (h2 : k ≠ b!"timestamp") :
    (Js.obj (updateJsonDoc doc path v ts)).at? (split bDot path ++ k :: rs) =
      (Js.obj doc).at? (split bDot path ++ k :: rs) := by
  have hn : split bDot path ≠ [] := split_ne_nil _ _
  have happ : ∀ (ks : List Bytes) (j : Js) (rs : List Bytes), j.at? (ks ++ rs) = (j.at? ks).bind fun c => c.at? rs := by
    intro ks
    induction ks with
    | nil => intro j rs; rw [at?_nil]; rfl
    | cons k ks ih =>
      intro j rs
      rw [List.cons_append]
      cases j with
      | obj m =>
        rw [at?_cons, at?_cons]
        cases mget m k with
        | none => rfl
        | some c => exact ih c rs
      | _ => rw [at?_scalar (by trivial), at?_scalar (by trivial)]; rfl
  unfold updateJsonDoc
  rw [at?_docUpdate_self _ _ hn, happ]
  rcases (Js.obj doc).at? (split bDot path) with _ | j
  · simp [jsonNode, at?_cons, mget_cons, Ne.symm h1, Ne.symm h2]
  · cases j with
    | obj n => rw [Option.bind_some, jsonNode, at?_cons, at?_cons, mget_mset_ne _ _ h2, mget_mset_ne _ _ h1]
    | _ =>
      rw [Option.bind_some]
      conv => rhs; rw [at?_scalar (by trivial)]
      simp [jsonNode, at?_cons, mget_cons, Ne.symm h1, Ne.symm h2]

/-- C58 fails for the TSON document: the members inside the updated sensor are lost. -/
theorem C58_tson_inside_fails :
    let doc := [(b!"A", Js.obj [(b!"value", .bool true), (b!"_ts", .int 1), (b!"B", .bool true)])]
    (Js.obj doc).at? [b!"A", b!"B"] = some (.bool true) ∧
    (Js.obj (updateTsonDoc doc b!"A" (.bool false) 2)).at? [b!"A", b!"B"] = none ∧
    (Js.obj (updateJsonDoc doc b!"A" (.bool false) 2)).at? [b!"A", b!"B"] = some (.bool true) := ⟨rfl, rfl, rfl⟩

/-- C58 fails on the way to the sensor: a value there is replaced by a map, in both documents. -/
theorem C58_above_fails :
    (Js.obj (updateJsonDoc [(b!"A", .bool true)] b!"A.B" (.bool false) 2)).at? [b!"A"] =
      some (.obj [(b!"B", .obj [(b!"value", .bool false), (b!"timestamp", .int 2)])]) ∧
    (Js.obj (updateTsonDoc [(b!"A", .bool true)] b!"A.B" (.bool false) 2)).at? [b!"A"] =
      some (.obj [(b!"B", .obj [(b!"value", .bool false), (b!"_ts", .int 2)])]) := ⟨rfl, rfl⟩

example : Incomparable (split bDot b!"Vehicle.Speed") (split bDot b!"Vehicle.Chassis.Brake") :=
  ⟨by decide, by decide⟩

/-! ### C59: building the documents -/

/-- Nothing but maps lies on the way to the last key. -/
def Passable (m : List (Bytes × Js)) (ks : List Bytes) : Prop :=
  ∀ qs rs x, ks = qs ++ rs → rs ≠ [] → (Js.obj m).at? qs = some x → ¬ x.IsScalar

theorem docAdd_eq (leaf : Js) : ∀ (ks : List Bytes) (m : List (Bytes × Js)), Passable m ks →
    docAdd leaf m ks = .ok (docUpdate (fun _ => leaf) m ks)
  | [], _, _ => rfl
  | [_], _, _ => rfl
  | k :: k' :: ks, m, h => by
    have hsub : Passable (subMap (mget m k)) (k' :: ks) := by
      intro qs rs x he hr hx
      cases qs with
      | nil => rw [at?_nil] at hx; cases hx; exact id
      | cons q qs =>
        rw [at?_subMap] at hx
        exact h (k :: q :: qs) rs x (by rw [he]; rfl) hr (by rw [at?_cons]; exact hx)
    have ih := docAdd_eq leaf (k' :: ks) _ hsub
    rw [docAdd, docUpdate]
    cases hm : mget m k with
    | none => rw [hm] at ih; simp only [subMap] at ih ⊢; rw [ih]; rfl
    | some c =>
      cases c with
      | obj n => rw [hm] at ih; simp only [subMap] at ih ⊢; rw [ih]; rfl
      | _ =>
        refine absurd ?_ (h [k] (k' :: ks) _ rfl (by simp) (by rw [at?_cons, hm]; exact at?_nil _))
        trivial

/-- What the document holds after adding the sensors `ss`: exactly their nodes. -/
def Holds (node : Sensor → Js) (ss : List Sensor) (m : List (Bytes × Js)) : Prop :=
  ∀ p x, x.IsScalar →
    ((Js.obj m).at? p = some x ↔ ∃ s ∈ ss, ∃ rs, p = split bDot s.path ++ rs ∧ (node s).at? rs = some x)

theorem holds_add {node : Sensor → Js} {ss : List Sensor} {m : List (Bytes × Js)} (h : Holds node ss m) (s : Sensor)
    (hi : ∀ s' ∈ ss, Incomparable (split bDot s'.path) (split bDot s.path)) :
    Passable m (split bDot s.path) ∧ Holds node (ss ++ [s]) (docUpdate (fun _ => node s) m (split bDot s.path)) := by
  have hn : split bDot s.path ≠ [] := split_ne_nil _ _
  refine ⟨?_, ?_⟩
  · intro qs rs x he hr hx hs
    obtain ⟨s', hs', rs', hq, -⟩ := (h qs x hs).1 hx
    exact (hi s' hs').1 (by rw [he, hq, List.append_assoc]; exact List.prefix_append _ _)
  · intro p x hx
    by_cases h1 : split bDot s.path <+: p
    · obtain ⟨rs, rfl⟩ := h1
      rw [at?_docUpdate_self _ _ hn]
      refine ⟨fun hr => ⟨s, by simp, rs, rfl, hr⟩, ?_⟩
      rintro ⟨s', hs', rs', he, hr⟩
      rcases List.mem_append.1 hs' with hs' | hs'
      · exfalso
        have h1 := hi s' hs'
        rcases List.prefix_or_prefix_of_prefix (l₁ := split bDot s'.path) (l₂ := split bDot s.path)
          (by rw [he]; exact List.prefix_append _ _) (List.prefix_append _ _) with hp | hp
        · exact h1.1 hp
        · exact h1.2 hp
      · simp only [List.mem_singleton] at hs'
        subst hs'
        rw [List.append_cancel_left he]; exact hr
    · have hno : ¬ ∃ rs, p = split bDot s.path ++ rs ∧ (node s).at? rs = some x := fun ⟨rs, he, _⟩ =>
        h1 ⟨rs, he.symm⟩
      have hss : (∃ s' ∈ ss ++ [s], ∃ rs, p = split bDot s'.path ++ rs ∧ (node s').at? rs = some x) ↔
          ∃ s' ∈ ss, ∃ rs, p = split bDot s'.path ++ rs ∧ (node s').at? rs = some x := by
        constructor
        · rintro ⟨s', hs', hr⟩
          rcases List.mem_append.1 hs' with hs' | hs'
          · exact ⟨s', hs', hr⟩
          · simp only [List.mem_singleton] at hs'
            subst hs'
            exact absurd hr hno
        · rintro ⟨s', hs', hr⟩
          exact ⟨s', by simp [hs'], hr⟩
      rw [hss, ← h p x hx]
      by_cases h2 : p <+: split bDot s.path
      · obtain ⟨rs, he⟩ := h2
        have hr : rs ≠ [] := fun hr => h1 (by rw [← he, hr, List.append_nil]; exact List.prefix_refl _)
        obtain ⟨n, e⟩ := at?_docUpdate_above (fun _ => node s) _ m p rs he.symm hr
        rw [e]
        constructor
        · intro e'; cases e'; exact hx.elim
        · intro e'
          obtain ⟨s', hs', rs', hq, -⟩ := (h p x hx).1 e'
          exact absurd (by rw [← he, hq, List.append_assoc]; exact List.prefix_append _ _) (hi s' hs').1
      · rw [at?_docUpdate_frame _ _ _ _ ⟨h1, h2⟩]

theorem holds_nil (node : Sensor → Js) : Holds node [] [] := by
  intro p x hx
  cases p with
  | nil => rw [at?_nil]; simp; intro h; subst h; exact hx
  | cons k ks => rw [at?_cons]; simp

theorem vehicle_holds {f : List (Bytes × Js) → List Sensor → Res (List (Bytes × Js))} {node : Sensor → Js}
    (f0 : ∀ m, f m [] = .ok m)
    (f1 : ∀ m s ss, f m (s :: ss) = (docAdd (node s) m (split bDot s.path)).bind fun m' => f m' ss) :
    ∀ (ss done : List Sensor) (m : List (Bytes × Js)),
      (done ++ ss).Pairwise (fun a b => Incomparable (split bDot a.path) (split bDot b.path)) → Holds node done m →
      ∃ m', f m ss = .ok m' ∧ Holds node (done ++ ss) m'
  | [], done, m, _, h => ⟨m, f0 m, by rw [List.append_nil]; exact h⟩
  | s :: ss, done, m, hp, h => by
    have hi : ∀ s' ∈ done, Incomparable (split bDot s'.path) (split bDot s.path) := fun s' hs' =>
      (List.pairwise_append.1 hp).2.2 s' hs' s (by simp)
    obtain ⟨h1, h2⟩ := holds_add h s hi
    obtain ⟨m', h3, h4⟩ := vehicle_holds f0 f1 ss (done ++ [s]) _ (by rw [List.append_assoc]; exact hp) h2
    refine ⟨m', ?_, by rw [List.append_assoc] at h4; exact h4⟩
    rw [f1, docAdd_eq _ _ _ h1]
    exact h3

/-- C59 for sensors none of which lies inside another: building the documents does not panic, and each holds exactly the
nodes of the sensors, whatever the order of the map iterations. -/
theorem C59_built_partial (ss : List Sensor)
    (h : ss.Pairwise (fun a b => Incomparable (split bDot a.path) (split bDot b.path))) :
    (∃ m, vehicleJson [] ss = .ok m ∧ ∀ p x, x.IsScalar → ((Js.obj m).at? p = some x ↔
      ∃ s ∈ ss, ∃ rs, p = split bDot s.path ++ rs ∧
        (Js.obj [(b!"value", s.value), (b!"timestamp", .int s.ts)]).at? rs = some x)) ∧
    (∃ m, vehicleTson [] ss = .ok m ∧ ∀ p x, x.IsScalar → ((Js.obj m).at? p = some x ↔
      ∃ s ∈ ss, ∃ rs, p = split bDot s.path ++ rs ∧
        (Js.obj [(b!"value", s.value), (b!"_ts", .int s.ts)]).at? rs = some x)) :=
  ⟨vehicle_holds (node := fun s => jsonNode s.value s.ts none) (fun _ => rfl) (fun _ _ _ => rfl) ss [] [] h (holds_nil _),
   vehicle_holds (node := fun s => tsonNode s.value s.ts) (fun _ => rfl) (fun _ _ _ => rfl) ss [] [] h (holds_nil _)⟩

theorem Incomparable.symm {ps qs : List Bytes} (h : Incomparable ps qs) : Incomparable qs ps := ⟨h.2, h.1⟩

theorem apart (ss : List Sensor) (h : ss.Pairwise (fun a b => Incomparable (split bDot a.path) (split bDot b.path))) :
    ∀ a ∈ ss, ∀ b ∈ ss, a.path ≠ b.path → Incomparable (split bDot a.path) (split bDot b.path) := by
  induction h with
  | nil => intro a ha; cases ha
  | @cons s ss h1 _ ih =>
    intro a ha b hb hne
    rcases List.mem_cons.1 ha with rfl | ha' <;> rcases List.mem_cons.1 hb with rfl | hb'
    · exact absurd rfl hne
    · exact h1 b hb'
    · exact (h1 a ha').symm
    · exact ih a ha' b hb' hne

/-- C59: the simulation starts with documents that hold the values of the sensors. -/
theorem C59_start_partial (ss : List Sensor)
    (h : ss.Pairwise (fun a b => Incomparable (split bDot a.path) (split bDot b.path)))
    (hv : ∀ s ∈ ss, s.value.IsScalar) {mj mt : List (Bytes × Js)} (hj : vehicleJson [] ss = .ok mj)
    (ht : vehicleTson [] ss = .ok mt) :
    Sim.Start { sensors := ss.map fun s => (s.path, s.value), json := mj, tson := mt } := by
  obtain ⟨⟨mj', hj', hjv⟩, ⟨mt', ht', htv⟩⟩ := C59_built_partial ss h
  rw [hj] at hj'
  rw [ht] at ht'
  cases hj'
  cases ht'
  have look : ∀ (ss : List Sensor) p v, mget (ss.map fun s => (s.path, s.value)) p = some v →
      ∃ s ∈ ss, s.path = p ∧ s.value = v := by
    intro ss
    induction ss with
    | nil => intro p v h; cases h
    | cons s ss ih =>
      intro p v h
      rw [List.map_cons, mget_cons] at h
      split at h
      · next e => cases h; exact ⟨s, by simp, e, rfl⟩
      · obtain ⟨s', h1, h2⟩ := ih p v h
        exact ⟨s', by simp [h1], h2⟩
  refine ⟨?_, ?_, ?_, ⟨rfl, rfl, rfl, rfl, rfl, rfl⟩⟩
  · intro p v hp
    obtain ⟨s, hs, rfl, rfl⟩ := look ss p v hp
    exact (hjv _ _ (hv s hs)).2 ⟨s, hs, _, rfl, by rw [at?_cons]; exact at?_nil _⟩
  · intro p v hp
    obtain ⟨s, hs, rfl, rfl⟩ := look ss p v hp
    exact (htv _ _ (hv s hs)).2 ⟨s, hs, _, rfl, by rw [at?_cons]; exact at?_nil _⟩
  · intro p hp q hq hne
    simp only [mkeys, List.map_map, List.mem_map, Function.comp_apply] at hp hq
    obtain ⟨a, ha, rfl⟩ := hp
    obtain ⟨b, hb, rfl⟩ := hq
    exact apart ss h a ha b hb hne

/-- C59 fails for a sensor inside another one: what is kept depends on the order of the map iteration. -/
theorem C59_order_fails :
    let a : Sensor := ⟨b!"A", .bool true, 1⟩
    let b : Sensor := ⟨b!"A.B", .bool false, 2⟩
    (∃ m, vehicleJson [] [a, b] = .ok m ∧ valueAt m b!"A" = some (.bool true) ∧ valueAt m b!"A.B" = some (.bool false)) ∧
    (∃ m, vehicleJson [] [b, a] = .ok m ∧ valueAt m b!"A" = some (.bool true) ∧ valueAt m b!"A.B" = none) :=
  ⟨⟨_, rfl, rfl, rfl⟩, ⟨_, rfl, rfl, rfl⟩⟩

/-- C59 fails for a sensor inside the value of another one: panic. -/
theorem C59_panic_fails :
    vehicleJson [] [⟨b!"A", .bool true, 1⟩, ⟨b!"A.value.B", .bool false, 2⟩] = .panic := rfl

/-- The sensors of the experiments satisfy the hypothesis (all paths of exp/vss_config.go). -/
example : ([b!"Vehicle.CurrentLocation.Latitude", b!"Vehicle.CurrentLocation.Longitude",
    b!"Vehicle.CurrentLocation.Altitude", b!"Vehicle.Speed", b!"Vehicle.Acceleration.Longitudinal",
    b!"Vehicle.Acceleration.Lateral", b!"Vehicle.Chassis.SteeringWheel.Angle",
    b!"Vehicle.Powertrain.CombustionEngine.Speed", b!"Vehicle.Powertrain.TractionBattery.StateOfCharge.Current",
    b!"Vehicle.Powertrain.TractionBattery.Temperature", b!"Vehicle.Powertrain.FuelSystem.Level",
    b!"Vehicle.Chassis.Axle.Row1.Wheel.Left.Tire.Pressure", b!"Vehicle.Chassis.Axle.Row1.Wheel.Right.Tire.Pressure",
    b!"Vehicle.Chassis.Brake.PedalPosition", b!"Vehicle.Chassis.Accelerator.PedalPosition",
    b!"Vehicle.Body.Lights.Headlight.IsActive", b!"Vehicle.Body.Lights.TurnSignal.Left.IsActive",
    b!"Vehicle.Body.Lights.TurnSignal.Right.IsActive", b!"Vehicle.VehicleIdentification.VIN",
    b!"Vehicle.VehicleIdentification.Model", b!"Vehicle.Powertrain.TractionBattery.Charging.IsCharging",
    b!"Vehicle.Powertrain.TractionBattery.Charging.ChargingRate",
    b!"Vehicle.Powertrain.TractionBattery.Charging.TimeRemaining"].map (split bDot)).Pairwise
      (fun a b => ¬ a <+: b ∧ ¬ b <+: a) := by decide +kernel

/-! ### C60: the documents during the simulation -/

theorem incomparable_value {ps qs : List Bytes} (h : Incomparable ps qs) (r : List Bytes) : Incomparable ps (qs ++ r) := by
  refine ⟨fun hp => ?_, fun hp => h.2 ((List.prefix_append _ _).trans hp)⟩
  rcases List.prefix_or_prefix_of_prefix hp (List.prefix_append qs r) with h1 | h1
  · exact h.1 h1
  · exact h.2 h1

theorem valueAt_update {doc : List (Bytes × Js)} {p q : Bytes} (h : Incomparable (split bDot p) (split bDot q)) (v : Js)
    (ts : Int) : valueAt (updateJsonDoc doc p v ts) q = valueAt doc q ∧ valueAt (updateTsonDoc doc p v ts) q = valueAt doc q :=
  C58_frame doc p v ts _ (incomparable_value h _)

/-- What stays true during the simulation. -/
structure SimInv (eq : Js → Js → Bool) (s₀ : Sim) (rs : List Reading) (s : Sim) : Prop where
  keys : mkeys s.sensors = mkeys s₀.sensors
  json : ∀ p v₀, mget s₀.sensors p = some v₀ → valueAt s.json p = some (lastReading rs p v₀)
  tson : ∀ p c, mget s.sensors p = some c → valueAt s.tson p = some c
  close : ∀ p c j, mget s.sensors p = some c → valueAt s.json p = some j → c = j ∨ eq c j = true

theorem lastReading_snoc (rs : List Reading) (r : Reading) (p : Bytes) (v₀ : Js) :
    lastReading (rs ++ [r]) p v₀ = if r.path = p then r.value else lastReading rs p v₀ := by
  unfold lastReading
  rw [List.filter_append]
  by_cases h : r.path = p
  · simp [h]
  · simp [h]

theorem sim_step {eq : Js → Js → Bool} {s₀ s : Sim} {rs : List Reading} (hs : s₀.Start) (h : SimInv eq s₀ rs s) (r : Reading)
    (hr : r.path ∈ mkeys s₀.sensors) : SimInv eq s₀ (rs ++ [r]) (s.step eq r) := by
  have hap : ∀ q, q ∈ mkeys s₀.sensors → q ≠ r.path → Incomparable (split bDot r.path) (split bDot q) :=
    fun q hq hne => hs.apart r.path hr q hq (Ne.symm hne)
  have hkeys : mkeys (s.step eq r).sensors = mkeys s₀.sensors := by
    simp only [Sim.step]
    split
    · rw [mkeys_mset, if_pos (by rw [h.keys]; exact hr)]; exact h.keys
    · exact h.keys
  have hjson : ∀ p v₀, mget s₀.sensors p = some v₀ →
      valueAt (s.step eq r).json p = some (lastReading (rs ++ [r]) p v₀) := by
    intro p v₀ hp
    rw [lastReading_snoc]
    by_cases e : r.path = p
    · subst e
      rw [if_pos rfl]
      exact (C58_json_written _ _ _ _).1
    · rw [if_neg e]
      show valueAt (updateJsonDoc s.json r.path r.value r.ts) p = _
      rw [(valueAt_update (hap p (mget_isSome.1 ⟨_, hp⟩) (Ne.symm e)) _ _).1]
      exact h.json p v₀ hp
  refine ⟨hkeys, hjson, ?_, ?_⟩
  · intro p c hc
    by_cases hch : eq ((mget s.sensors r.path).getD .null) r.value = true
    · simp only [Sim.step, hch, Bool.not_true, Bool.false_eq_true, if_false] at hc ⊢
      exact h.tson p c hc
    · simp only [Sim.step, hch, Bool.not_false, if_true] at hc ⊢
      by_cases e : p = r.path
      · subst e
        rw [mget_mset_self] at hc
        cases hc
        exact (C58_tson_written _ _ _ _).1
      · rw [mget_mset_ne _ _ e] at hc
        have hq : p ∈ mkeys s₀.sensors := by rw [← h.keys]; exact mget_isSome.1 ⟨_, hc⟩
        rw [(valueAt_update (hap p hq e) _ _).2]
        exact h.tson p c hc
  · intro p c j hc hj
    have hq : p ∈ mkeys s₀.sensors := by rw [← hkeys]; exact mget_isSome.1 ⟨_, hc⟩
    by_cases e : p = r.path
    · subst e
      obtain ⟨v₀, hv₀⟩ := mget_isSome.2 hr
      rw [hjson _ v₀ hv₀, lastReading_snoc, if_pos rfl] at hj
      cases hj
      by_cases hch : eq ((mget s.sensors r.path).getD .null) r.value = true
      · right
        simp only [Sim.step, hch, Bool.not_true, Bool.false_eq_true, if_false] at hc
        rw [hc] at hch
        exact hch
      · left
        simp only [Sim.step, hch, Bool.not_false, if_true] at hc
        rw [mget_mset_self] at hc
        cases hc
        rfl
    · have hj' : valueAt s.json p = some j := by
        rw [← (valueAt_update (hap p hq e) r.value r.ts).1]
        exact hj
      refine h.close p c j ?_ hj'
      by_cases hch : eq ((mget s.sensors r.path).getD .null) r.value = true
      · simp only [Sim.step, hch, Bool.not_true, Bool.false_eq_true, if_false] at hc
        exact hc
      · simp only [Sim.step, hch, Bool.not_false, if_true] at hc
        rw [mget_mset_ne _ _ e] at hc
        exact hc

theorem sim_run {eq : Js → Js → Bool} {s₀ : Sim} (hs : s₀.Start) : ∀ (rs' rs : List Reading) (s : Sim),
    SimInv eq s₀ rs s → (∀ r ∈ rs', r.path ∈ mkeys s₀.sensors) → SimInv eq s₀ (rs ++ rs') (s.run eq rs')
  | [], rs, s, h, _ => by rw [List.append_nil]; exact h
  | r :: rs', rs, s, h, hr => by
    have h1 := sim_run hs rs' (rs ++ [r]) (s.step eq r) (sim_step hs h r (hr r (by simp))) fun r' h' => hr r' (by simp [h'])
    rw [List.append_assoc] at h1
    exact h1

theorem sim_init {eq : Js → Js → Bool} {s₀ : Sim} (hs : s₀.Start) : SimInv eq s₀ [] s₀ :=
  ⟨rfl, fun p v h => hs.json p v h, fun p c h => hs.tson p c h, fun p c j hc hj => by
    rw [hs.json p c hc] at hj; cases hj; exact Or.inl rfl⟩

/-- C60: after any readings of the sensors the JSON document holds the last reading of every sensor, the TSON document
holds what the vehicle keeps as the value of the sensor, and the two are the same or considered equal: the differences
that are ignored do not add up. -/
theorem C60_documents (eq : Js → Js → Bool) (s : Sim) (hs : s.Start) (rs : List Reading)
    (hr : ∀ r ∈ rs, r.path ∈ mkeys s.sensors) (p : Bytes) (v₀ : Js) (hp : mget s.sensors p = some v₀) :
    ∃ c j, mget (s.run eq rs).sensors p = some c ∧ valueAt (s.run eq rs).tson p = some c ∧
      valueAt (s.run eq rs).json p = some j ∧ j = lastReading rs p v₀ ∧ (c = j ∨ eq c j = true) := by
  have h := sim_run (eq := eq) hs rs [] s (sim_init hs) hr
  rw [List.nil_append] at h
  obtain ⟨c, hc⟩ := (mget_isSome (m := (s.run eq rs).sensors) (k := p)).2 (by rw [h.keys]; exact mget_isSome.1 ⟨_, hp⟩)
  exact ⟨c, _, hc, h.tson p c hc, h.json p v₀ hp, rfl, h.close p c _ hc (h.json p v₀ hp)⟩

theorem run_cons (eq : Js → Js → Bool) (s : Sim) (r : Reading) (rs : List Reading) :
    s.run eq (r :: rs) = (s.step eq r).run eq rs := rfl

theorem tson_replay (eq : Js → Js → Bool) : ∀ (rs : List Reading) (s : Sim),
    ∃ ps, (s.run eq rs).tsonPatches = s.tsonPatches ++ ps ∧
      (s.run eq rs).tson = ps.foldl (fun d p => updateTsonDoc d p.path p.value p.ts) s.tson ∧
      (s.run eq rs).sensors = ps.foldl (fun d p => mset d p.path p.value) s.sensors
  | [], s => ⟨[], by simp [Sim.run], rfl, rfl⟩
  | r :: rs, s => by
    obtain ⟨ps, h1, h2, h3⟩ := tson_replay eq rs (s.step eq r)
    rw [run_cons]
    by_cases hch : eq ((mget s.sensors r.path).getD .null) r.value = true
    · refine ⟨ps, ?_, ?_, ?_⟩
      · rw [h1]; simp [Sim.step, hch]
      · rw [h2]; simp [Sim.step, hch]
      · rw [h3]; simp [Sim.step, hch]
    · refine ⟨⟨b!"replace", r.path, r.value, r.ts⟩ :: ps, ?_, ?_, ?_⟩
      · rw [h1]; simp [Sim.step, hch]
      · rw [h2]; simp [Sim.step, hch]
      · rw [h3]; simp [Sim.step, hch]

/-- C60: writing the recorded TSON patches into the first TSON document gives the last one. -/
theorem C60_tson_patches (eq : Js → Js → Bool) (s : Sim) (hs : s.Start) (rs : List Reading) :
    (s.run eq rs).tson = (s.run eq rs).tsonPatches.foldl (fun d p => updateTsonDoc d p.path p.value p.ts) s.tson := by
  obtain ⟨ps, h1, h2, -⟩ := tson_replay eq rs s
  rw [hs.empty.2.1, List.nil_append] at h1
  rw [h2, h1]

/-- C60 fails for the JSON patches: whenever two different values are considered equal, there is a simulation after which
writing the recorded JSON patches into the first JSON document does not give the last one. -/
theorem C60_json_patches_fails (eq : Js → Js → Bool) (a b : Js) (he : eq a b = true) (hne : a ≠ b) :
    ∃ (s : Sim) (rs : List Reading), s.Start ∧ (∀ r ∈ rs, r.path ∈ mkeys s.sensors) ∧
      valueAt (writePatches s.json (s.run eq rs).jsonPatches) b!"A" = some a ∧
      valueAt (s.run eq rs).json b!"A" = some b ∧ a ≠ b := by
  refine ⟨{ sensors := [(b!"A", a)], json := [(b!"A", jsonNode a 0 none)], tson := [(b!"A", tsonNode a 0)] },
    [⟨b!"A", b, 1⟩], ⟨?_, ?_, ?_, ?_⟩, ?_, ?_, ?_, hne⟩
  · intro p v h
    rw [mget_cons] at h
    split at h
    · subst_vars; cases h; rfl
    · cases h
  · intro p v h
    rw [mget_cons] at h
    split at h
    · subst_vars; cases h; rfl
    · cases h
  · intro p hp q hq hn
    simp [mkeys] at hp hq
    exact absurd (hp.trans hq.symm) hn
  · exact ⟨rfl, rfl, rfl, rfl, rfl, rfl⟩
  · intro r hr
    simp at hr
    subst hr
    simp [mkeys]
  · have : (Sim.run eq { sensors := [(b!"A", a)], json := [(b!"A", jsonNode a 0 none)], tson := [(b!"A", tsonNode a 0)] }
        [⟨b!"A", b, 1⟩]).jsonPatches = [⟨b!"replace", b!"A/timestamp", .int 1⟩] := by
      simp [Sim.run, Sim.step, mget_cons, he]
    rw [this]
    rfl
  · exact (C58_json_written _ _ _ _).1

/-! ### C61: the numbers of patches -/

/-- C61: the counters and the numbers of patches that the experiment reports fit together, whatever is read. -/
theorem C61_counts (eq : Js → Js → Bool) (s : Sim) (hs : s.Start) (rs : List Reading) :
    let t := s.run eq rs
    t.updates = rs.length ∧ t.updates = t.changes + t.unchanged ∧
    t.setPatches.length = t.updates ∧ t.tsonPatches.length = t.changes ∧
    t.jsonPatches.length = t.updates + t.changes := by
  have key : ∀ (rs : List Reading) (s : Sim),
      (s.run eq rs).updates = s.updates + rs.length ∧
      (s.run eq rs).changes + (s.run eq rs).unchanged = s.changes + s.unchanged + rs.length ∧
      (s.run eq rs).setPatches.length = s.setPatches.length + rs.length ∧
      (s.run eq rs).tsonPatches.length + s.changes = s.tsonPatches.length + (s.run eq rs).changes ∧
      (s.run eq rs).jsonPatches.length + s.changes = s.jsonPatches.length + rs.length + (s.run eq rs).changes := by
    intro rs
    induction rs with
    | nil => intro s; simp [Sim.run]
    | cons r rs ih =>
      intro s
      rw [run_cons]
      obtain ⟨h1, h2, h3, h4, h5⟩ := ih (s.step eq r)
      by_cases hch : eq ((mget s.sensors r.path).getD .null) r.value = true
      · simp only [Sim.step, hch, Bool.not_true, Bool.false_eq_true, if_false, List.length_append, List.length_cons,
          List.length_nil] at h1 h2 h3 h4 h5 ⊢
        omega
      · simp only [Sim.step, hch, Bool.not_false, if_true, List.length_append, List.length_cons,
          List.length_nil] at h1 h2 h3 h4 h5 ⊢
        omega
  obtain ⟨h1, h2, h3, h4, h5⟩ := key rs s
  obtain ⟨e1, e2, e3, e4, e5, e6⟩ := hs.empty
  rw [e1] at h5
  rw [e2] at h4
  rw [e3] at h3
  simp only [List.length_nil] at h3 h4 h5
  omega

/-- C61: the patches recorded for every reading are the readings, and the TSON patches are some of them in the same
order, namely those that changed the value kept for the sensor. -/
theorem C61_patches (eq : Js → Js → Bool) (s : Sim) (hs : s.Start) (rs : List Reading) :
    let t := s.run eq rs
    t.setPatches = rs.map (fun r => ⟨b!"replace", r.path, r.value, r.ts⟩) ∧ t.tsonPatches.Sublist t.setPatches := by
  have key : ∀ (rs : List Reading) (s : Sim), ∃ ps,
      (s.run eq rs).setPatches = s.setPatches ++ rs.map (fun r => ⟨b!"replace", r.path, r.value, r.ts⟩) ∧
      (s.run eq rs).tsonPatches = s.tsonPatches ++ ps ∧
      ps.Sublist (rs.map (fun r => (⟨b!"replace", r.path, r.value, r.ts⟩ : TPatch))) := by
    intro rs
    induction rs with
    | nil => intro s; exact ⟨[], by simp [Sim.run]⟩
    | cons r rs ih =>
      intro s
      rw [run_cons]
      obtain ⟨ps, h1, h2, h3⟩ := ih (s.step eq r)
      by_cases hch : eq ((mget s.sensors r.path).getD .null) r.value = true
      · exact ⟨ps, by rw [h1]; simp [Sim.step], by rw [h2]; simp [Sim.step, hch], h3.cons _⟩
      · exact ⟨⟨b!"replace", r.path, r.value, r.ts⟩ :: ps, by rw [h1]; simp [Sim.step], by rw [h2]; simp [Sim.step, hch],
          h3.cons_cons _⟩
  obtain ⟨ps, h1, h2, h3⟩ := key rs s
  obtain ⟨-, e2, e3, -⟩ := hs.empty
  rw [e3, List.nil_append] at h1
  rw [e2, List.nil_append] at h2
  refine ⟨h1, ?_⟩
  rw [h1, h2]
  exact h3

/-- The hypotheses hold for a vehicle with two sensors; here one reading of each is ignored as equal. -/
def simDemo : Sim :=
  { sensors := [(b!"Vehicle.Speed", .int 30), (b!"Vehicle.Body.Light", .bool true)]
    json := [(b!"Vehicle", .obj [(b!"Speed", jsonNode (.int 30) 5 none),
      (b!"Body", .obj [(b!"Light", jsonNode (.bool true) 5 none)])])]
    tson := [(b!"Vehicle", .obj [(b!"Speed", tsonNode (.int 30) 5), (b!"Body", .obj [(b!"Light", tsonNode (.bool true) 5)])])] }

theorem simDemo_start : simDemo.Start :=
  C59_start_partial [⟨b!"Vehicle.Speed", .int 30, 5⟩, ⟨b!"Vehicle.Body.Light", .bool true, 5⟩]
    (by unfold Incomparable; decide) (by simp [Js.IsScalar]) rfl rfl

example :
    let eq : Js → Js → Bool := fun a b => match a, b with
      | .int m, .int n => decide ((m - n).natAbs < 2)
      | .bool a, .bool b => a == b
      | _, _ => false
    let t := simDemo.run eq [⟨b!"Vehicle.Speed", .int 31, 0⟩, ⟨b!"Vehicle.Speed", .int 32, 20⟩, ⟨b!"Vehicle.Speed", .int 31, 40⟩]
    valueAt t.json b!"Vehicle.Speed" = some (.int 31) ∧ valueAt t.tson b!"Vehicle.Speed" = some (.int 32) ∧
    t.tsonPatches.length = 1 ∧ t.jsonPatches.length = 4 := ⟨rfl, rfl, rfl, rfl⟩

end Verif
