import Verif.PropsExpValue
import Verif.ExpLoop
/-
C83: how the patterns of the sensors are set (exp/scenario.go:121-191).
-/
namespace Verif

/-- **C83, patterns set.**  Only a pattern that varies around a constant can panic: exactly if neither the value of the sensor nor the
default one is a number. -/
theorem C83_pattern_panics (scenario path pattern : Bytes) (v : VssSensor) (value : Js) :
    patternParams scenario path pattern v value = .panic ↔
      pattern = b!"constant_with_noise" ∧ (∀ f, value ≠ .num f) ∧ ∀ f, v.value ≠ .num f := by
  unfold patternParams
  dsimp only
  constructor
  · intro h
    split at h
    · cases h
    split at h
    · cases h
    split at h
    · cases h
    split at h
    · rename_i hp
      refine ⟨hp, ?_⟩
      split at h
      · cases h
      · cases h
      · rename_i h1 h2
        exact ⟨fun f e => h1 f e, fun f e => h2 f e⟩
    split at h <;> cases h
  · rintro ⟨rfl, h1, h2⟩
    rw [if_neg (by decide), if_neg (by decide), if_neg (by decide), if_pos rfl]
    split
    · exact absurd rfl (h1 _)
    · rename_i f e; exact absurd e (h2 _)
    · rfl

/-- **C83, patterns set.**  The parameters of a pattern: limits and steps come from the table, and a sensor that varies around a constant
varies around its present value, or the default one if that is not a number. -/
theorem C83_pattern_params (scenario path : Bytes) (v : VssSensor) (value : Js) :
    (∃ ps, patternParams scenario path b!"random_walk" v value = .ok ps ∧ mget ps b!"min" = some v.min ∧ mget ps b!"max" = some v.max ∧
      mget ps b!"step_size" = some (F64.mul (F64.sub v.max v.min) (dec 1 100))) ∧
    (∃ ps, patternParams scenario path b!"linear" v value = .ok ps ∧ mget ps b!"min" = some v.min ∧ mget ps b!"max" = some v.max ∧
      mget ps b!"slope" = some (slopeFor scenario path)) ∧
    (∃ ps, patternParams scenario path b!"sinusoidal" v value = .ok ps ∧
      mget ps b!"amplitude" = some (F64.mul (F64.sub v.max v.min) (dec 1 10)) ∧ mget ps b!"period" = some (dec 5000 1) ∧
      mget ps b!"baseline" = some (F64.mul (F64.add v.min v.max) (dec 5 10))) ∧
    (∀ f, value = .num f ∨ ((∀ g, value ≠ .num g) ∧ v.value = .num f) → ∃ ps, patternParams scenario path b!"constant_with_noise" v value = .ok ps ∧
      mget ps b!"baseline" = some f ∧ mget ps b!"noise" = some (F64.mul (F64.sub v.max v.min) (dec 1 100))) ∧
    patternParams scenario path b!"toggle" v value = .ok [(b!"toggle_probability", dec 5 100)] ∧
    ∀ p, p ≠ b!"random_walk" → p ≠ b!"linear" → p ≠ b!"sinusoidal" → p ≠ b!"constant_with_noise" → p ≠ b!"toggle" →
      patternParams scenario path p v value = .ok [] := by
  unfold patternParams
  dsimp only
  refine ⟨⟨_, by rw [if_pos rfl], rfl, rfl, rfl⟩, ⟨_, by rw [if_neg (by decide), if_pos rfl], rfl, rfl, rfl⟩,
    ⟨_, by rw [if_neg (by decide), if_neg (by decide), if_pos rfl], rfl, rfl, rfl⟩, fun f h => ?_,
    by rw [if_neg (by decide), if_neg (by decide), if_neg (by decide), if_neg (by decide), if_pos rfl],
    fun p h1 h2 h3 h4 h5 => by rw [if_neg h1, if_neg h2, if_neg h3, if_neg h4, if_neg h5]⟩
  rw [if_neg (by decide), if_neg (by decide), if_neg (by decide), if_pos rfl]
  rcases h with rfl | ⟨h, e⟩
  · exact ⟨_, rfl, rfl, rfl⟩
  · cases value with
    | num g => exact absurd rfl (h g)
    | _ => rw [e]; exact ⟨_, rfl, rfl, rfl⟩

/-- **C83, slopes.**  Of the sensors with a linear pattern only the charge of the battery grows, and only when charging; on the highway
it falls twice as fast as in traffic. -/
theorem C83_slopes :
    (∀ v ∈ vssSensors, ∀ scenario ∈ scenarioNames, v.pattern? scenario = some b!"linear" →
      (F64.flt F64.zero (slopeFor scenario v.path) = true ↔ scenario = b!"battery_charging" ∧ v.path = batteryPath)) ∧
    slopeFor b!"battery_charging" batteryPath = dec 1 10 ∧ slopeFor b!"urban_traffic" batteryPath = dec (-1) 10 ∧
    slopeFor b!"highway_cruising" batteryPath = dec (-2) 10 ∧
    slopeFor b!"battery_charging" b!"Vehicle.Powertrain.TractionBattery.Charging.TimeRemaining" = dec (-5) 10 := by
  decide +kernel

example : ∃ v ∈ vssSensors, v.pattern? b!"battery_charging" = some b!"linear" ∧ v.path ≠ batteryPath := by decide +kernel
example : patternParams b!"urban_traffic" b!"x" b!"constant_with_noise" (vssSensors.head (by decide)) (.num (dec 7 1)) ≠ .panic := by
  intro h
  exact ((C83_pattern_panics ..).1 h).2.1 _ rfl

end Verif
