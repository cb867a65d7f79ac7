import Verif.PropsWebDemo
/-
C78: which arguments the web demonstration needs.
-/
namespace Verif

/-- C78: the data is generated from the arguments exactly if all six are there with their types; with anything else the generation panics. -/
theorem C78_args (m : List (Bytes × Arg)) :
    (∀ a, genArgs m = .ok a ↔ mget m b!"dataset" = some (.str a.dataset) ∧ mget m b!"cars" = some (.int a.cars) ∧ mget m b!"files" = some (.int a.files) ∧
      mget m b!"change_rate" = some (.float a.changeRate) ∧ mget m b!"maintain_rate" = some (.float a.maintainRate) ∧ mget m b!"size" = some (.float a.size)) ∧
    ((∀ a, genArgs m ≠ .ok a) → genArgs m = .panic) := by
  unfold genArgs strArg intArg floatArg
  generalize mget m b!"dataset" = x1
  generalize mget m b!"cars" = x2
  generalize mget m b!"files" = x3
  generalize mget m b!"change_rate" = x4
  generalize mget m b!"maintain_rate" = x5
  generalize mget m b!"size" = x6
  rcases x1 with _ | (x1 | x1 | x1) <;> try (refine ⟨fun a => ⟨fun k => (by cases k), fun k => by cases k.1⟩, fun _ => rfl⟩)
  rcases x2 with _ | (x2 | x2 | x2) <;> try (refine ⟨fun a => ⟨fun k => (by cases k), fun k => by cases k.2.1⟩, fun _ => rfl⟩)
  rcases x3 with _ | (x3 | x3 | x3) <;> try (refine ⟨fun a => ⟨fun k => (by cases k), fun k => by cases k.2.2.1⟩, fun _ => rfl⟩)
  rcases x4 with _ | (x4 | x4 | x4) <;> try (refine ⟨fun a => ⟨fun k => (by cases k), fun k => by cases k.2.2.2.1⟩, fun _ => rfl⟩)
  rcases x5 with _ | (x5 | x5 | x5) <;> try (refine ⟨fun a => ⟨fun k => (by cases k), fun k => by cases k.2.2.2.2.1⟩, fun _ => rfl⟩)
  rcases x6 with _ | (x6 | x6 | x6) <;> try (refine ⟨fun a => ⟨fun k => (by cases k), fun k => by cases k.2.2.2.2.2⟩, fun _ => rfl⟩)
  refine ⟨fun a => ⟨fun k => ?_, fun k => ?_⟩, fun k => absurd rfl (k _)⟩
  · cases k
    exact ⟨rfl, rfl, rfl, rfl, rfl, rfl⟩
  · obtain ⟨d, c, f, r, q, s⟩ := a
    obtain ⟨k1, k2, k3, k4, k5, k6⟩ := k
    cases k1; cases k2; cases k3; cases k4; cases k5; cases k6
    rfl

/-- The number of cars given as a text. -/
example : genArgs [(b!"dataset", .str b!"vss.json"), (b!"cars", .str b!"5"), (b!"files", .int 10), (b!"change_rate", .float (F64.ofInt 1)),
    (b!"maintain_rate", .float (F64.ofInt 0)), (b!"size", .float (F64.ofInt 1))] = .panic :=
  (C78_args _).2 fun a k => by
    have := ((C78_args _).1 a).1 k
    cases this.2.1

end Verif
