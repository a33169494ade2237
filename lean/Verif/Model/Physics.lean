import Mathlib.Data.Real.Basic
import Mathlib.Algebra.BigOperators.Fin
import Mathlib.Data.List.FinRange

/-!
# Relations of the physical model

Model of `NSphysics` (`physical_models/ns_physics.py` 56-173) and `dot` (`utilities/helperfunctions.py` 50-62). Every relation is the value of the
symbolic formula for given values of the arrays it names.
-/
namespace OpenSBLI.Phys

/-- Values of the arrays and constants at a grid point, by the names of lines 68-91. -/
structure Vals (d : ℕ) where
  rho : ℝ
  rhou : Fin d → ℝ
  rhoE : ℝ
  p : ℝ
  T : ℝ
  a : ℝ
  u : Fin d → ℝ
  gama : ℝ
  Minf : ℝ

variable {d : ℕ} (v : Vals d)

/-- `dot`, helperfunctions.py 50-62, for two lists of the same length. -/
noncomputable def dot (x y : Fin d → ℝ) : ℝ := (List.finRange d).foldl (fun out i => out + x i * y i) 0

/-- Line 69. -/
def densityRelation : ℝ := v.rho
/-- Line 82. -/
noncomputable def velocityRelation (i : Fin d) : ℝ := v.rhou i / v.rho
/-- Line 86. -/
def momentumRelation (i : Fin d) : ℝ := v.u i * v.rho
/-- Line 93. -/
noncomputable def soundRelation : ℝ := v.gama * v.p / v.rho
/-- Line 95. -/
noncomputable def pressureRelation : ℝ := (v.gama - 1) * (v.rhoE - 1 / 2 * v.rho * dot v.u v.u)
/-- Line 96. -/
noncomputable def pressureConservative : ℝ := (v.gama - 1) * (v.rhoE - 1 / 2 * dot v.rhou v.rhou / v.rho)
/-- Lines 98-99. -/
noncomputable def temperatureRelation : ℝ :=
  (v.rhoE - 1 / 2 * v.rho * dot v.u v.u) * (v.gama * (v.gama - 1) * v.Minf ^ 2) / v.rho
/-- Lines 100-101. -/
noncomputable def temperatureConservative : ℝ :=
  (v.rhoE - 1 / 2 * dot v.rhou v.rhou / v.rho) * (v.gama * (v.gama - 1) * v.Minf ^ 2) / v.rho

/-- Names returned by the accessor methods without `relation` (lines 121-173); `viscosity` (169-171, which replaces the property of 110-119)
returns the momentum components. -/
inductive Quantity
  | density | momentum | totalEnergy | pressure | soundSpeed | velocity | temperature | viscosity

def accessor (ndim : ℕ) : Quantity → List String
  | .density => ["rho"]
  | .momentum => (List.range ndim).map fun i => "rhou" ++ toString i
  | .totalEnergy => ["rhoE"]
  | .pressure => ["p"]
  | .soundSpeed => ["a"]
  | .velocity => (List.range ndim).map fun i => "u" ++ toString i
  | .temperature => ["T"]
  | .viscosity => (List.range ndim).map fun i => "rhou" ++ toString i

end OpenSBLI.Phys
