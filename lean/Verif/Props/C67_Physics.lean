import Verif.Model.Physics
import Verif.Spec.GasState
import Mathlib.Tactic.FieldSimp
import Mathlib.Tactic.Ring
import Mathlib.Tactic.LinearCombination
import Mathlib.Tactic.FinCases
import Mathlib.Data.Fin.VecNotation
import Mathlib.Tactic.NormNum
import Mathlib.Analysis.Real.Sqrt
import Mathlib.Algebra.BigOperators.Ring.Finset

/-!
# C67 relations of the physical model
-/
namespace OpenSBLI.Phys
open Finset

variable {d : ℕ}

theorem dot_eq (x y : Fin d → ℝ) : dot x y = ∑ i, x i * y i := by
  have h : ∀ (l : List (Fin d)) (a : ℝ), l.foldl (fun out i => out + x i * y i) a = a + (l.map fun i => x i * y i).sum := by
    intro l
    induction l with
    | nil => simp
    | cons i l ih => intro a; simp only [List.foldl_cons, ih, List.map_cons, List.sum_cons]; ring
  rw [dot, h, zero_add, ← List.ofFn_eq_map, List.sum_ofFn]

/-- The arrays of the derived variables hold their relations. -/
structure Consistent (v : Vals d) : Prop where
  rho_ne : v.rho ≠ 0
  velocity : ∀ i, v.u i = velocityRelation v i
  pressure : v.p = pressureRelation v
  temperature : v.T = temperatureRelation v

/-- **C67, pressure.** Both pressure formulas give the pressure of a perfect gas with the conservative state. -/
theorem C67_pressure (v : Vals d) (hρ : v.rho ≠ 0) :
    pressureConservative v = Spec.pressureOf v.gama v.rho v.rhou v.rhoE ∧
    ((∀ i, v.u i = v.rhou i / v.rho) → pressureRelation v = Spec.pressureOf v.gama v.rho v.rhou v.rhoE) := by
  have hs : ∑ i, v.rhou i * v.rhou i = ∑ i, v.rhou i ^ 2 := Finset.sum_congr rfl fun i _ => by ring
  constructor
  · rw [pressureConservative, Spec.pressureOf, dot_eq, hs]; field_simp
  · intro hu
    have : ∑ i, v.u i * v.u i = (∑ i, v.rhou i ^ 2) / v.rho ^ 2 := by
      rw [div_eq_mul_inv, Finset.sum_mul]; exact Finset.sum_congr rfl fun i _ => by rw [hu]; field_simp
    rw [pressureRelation, Spec.pressureOf, dot_eq, this]
    field_simp

/-- **C67, temperature.** Both temperature formulas give the temperature of the conservative state. -/
theorem C67_temperature (v : Vals d) (hρ : v.rho ≠ 0) :
    temperatureConservative v = Spec.temperatureOf v.gama v.Minf v.rho v.rhou v.rhoE ∧
    ((∀ i, v.u i = v.rhou i / v.rho) → temperatureRelation v = Spec.temperatureOf v.gama v.Minf v.rho v.rhou v.rhoE) := by
  obtain ⟨h1, h2⟩ := C67_pressure v hρ
  constructor
  · rw [Spec.temperatureOf, ← h1, temperatureConservative, pressureConservative]; ring
  · intro hu
    rw [Spec.temperatureOf, ← h2 hu, temperatureRelation, pressureRelation]; ring

/-- **C67, equation of state.** Pressure and temperature given by the model obey `p = ρ T / (γ M²)`, in either form. -/
theorem C67_equation_of_state (v : Vals d) (hρ : v.rho ≠ 0) (hγ : v.gama ≠ 0) (hM : v.Minf ≠ 0) :
    pressureRelation v = v.rho * temperatureRelation v / (v.gama * v.Minf ^ 2) ∧
    pressureConservative v = v.rho * temperatureConservative v / (v.gama * v.Minf ^ 2) := by
  constructor
  · rw [pressureRelation, temperatureRelation]; field_simp
  · rw [pressureConservative, temperatureConservative]; field_simp

/-- **C67, velocity and momentum relations are inverse.** -/
theorem C67_velocity_momentum (v : Vals d) (hρ : v.rho ≠ 0) (i : Fin d) :
    (v.u i = velocityRelation v i ↔ v.rhou i = momentumRelation v i) := by
  rw [velocityRelation, momentumRelation, eq_div_iff hρ, eq_comm]

/-- **C67, sound speed (partial).** The relation returned for the speed of sound is the square of the speed of sound; the claim that it is
the speed itself holds for speed zero or one only. -/
theorem C67_sound_speed_partial (v : Vals d) (h : 0 ≤ v.gama * v.p / v.rho) :
    soundRelation v = Real.sqrt (v.gama * v.p / v.rho) ^ 2 ∧
    (soundRelation v = Real.sqrt (v.gama * v.p / v.rho) ↔ v.gama * v.p / v.rho = 0 ∨ v.gama * v.p / v.rho = 1) := by
  have hsq := Real.sq_sqrt h
  refine ⟨by rw [hsq]; rfl, ?_⟩
  have : soundRelation v = Real.sqrt (v.gama * v.p / v.rho) ^ 2 := by rw [hsq]; rfl
  rw [this]
  constructor
  · intro e
    have e' : Real.sqrt (v.gama * v.p / v.rho) * (Real.sqrt (v.gama * v.p / v.rho) - 1) = 0 := by linear_combination e
    rcases mul_eq_zero.1 e' with h0 | h1
    · left; rw [← hsq, h0]; ring
    · right; rw [← hsq, sub_eq_zero.1 h1]; ring
  · rintro (e | e) <;> rw [e] <;> simp

/-- **C67, finding.** For air at unit density and unit pressure the relation is not the speed of sound. -/
theorem C67_sound_speed_wrong : ∃ v : Vals 2, v.rho = 1 ∧ v.p = 1 ∧ v.gama = 7 / 5 ∧
    soundRelation v ≠ Real.sqrt (v.gama * v.p / v.rho) := by
  refine ⟨⟨1, 0, 1, 1, 1, 1, 0, 7 / 5, 1⟩, rfl, rfl, rfl, ?_⟩
  rw [Ne, (C67_sound_speed_partial _ (by norm_num)).2]
  norm_num

/-- **C67, names.** Velocity and momentum are vectors of the dimension of the problem, component `i` named by its number. -/
theorem C67_vector_names (ndim : ℕ) :
    (accessor ndim .velocity).length = ndim ∧ (accessor ndim .momentum).length = ndim ∧
    ∀ i < ndim, (accessor ndim .velocity)[i]? = some ("u" ++ toString i) ∧ (accessor ndim .momentum)[i]? = some ("rhou" ++ toString i) := by
  refine ⟨by simp [accessor], by simp [accessor], fun i hi => ?_⟩
  simp [accessor, hi]

/-- **C67, finding.** The viscosity accessor returns the momentum components, in every dimension. -/
theorem C67_viscosity_is_momentum (ndim : ℕ) :
    accessor ndim .viscosity = accessor ndim .momentum ∧ "mu" ∉ accessor ndim .viscosity := by
  refine ⟨rfl, ?_⟩
  simp only [accessor, List.mem_map, not_exists, not_and]
  intro i _ h
  have := congrArg String.toList h
  simp [String.toList_append] at this

/-- A consistent point: two dimensions, moving gas. -/
example : Consistent (⟨2, ![2, 4], 11, 12 / 5, 42 / 25, 1, ![1, 2], 7 / 5, 1⟩ : Vals 2) := by
  refine ⟨by norm_num, ?_, ?_, ?_⟩
  · intro i; fin_cases i <;> norm_num [velocityRelation]
  · simp only [pressureRelation, dot_eq, Fin.sum_univ_two]; norm_num
  · simp only [temperatureRelation, dot_eq, Fin.sum_univ_two]; norm_num

end OpenSBLI.Phys
