import Mathlib.Data.Real.Basic
import Mathlib.Algebra.BigOperators.Fin

/-!
# Gas state and mirror image, stated without reference to the code
-/
namespace OpenSBLI.Spec
open Finset

/-- Pressure of a perfect gas from density, momentum and total energy per volume: total energy minus kinetic
energy `|m|²/(2ρ)` is internal energy, and `p = (γ-1)` times it. -/
noncomputable def pressureOf {d : ℕ} (γ ρ : ℝ) (m : Fin d → ℝ) (E : ℝ) : ℝ :=
  (γ - 1) * (E - (∑ i, m i ^ 2) / (2 * ρ))

/-- Non-dimensional temperature, from the equation of state `p = ρ T / (γ M²)`. -/
noncomputable def temperatureOf {d : ℕ} (γ M ρ : ℝ) (m : Fin d → ℝ) (E : ℝ) : ℝ :=
  γ * M ^ 2 * pressureOf γ ρ m E / ρ

/-- Scalar product. -/
def inner {d : ℕ} (a b : Fin d → ℝ) : ℝ := ∑ i, a i * b i

/-- `m'` is the mirror image of `m` in the plane with normal `N`: the component along the normal changes
sign, every tangential component stays. -/
def IsMirror {d : ℕ} (N m m' : Fin d → ℝ) : Prop :=
  inner N m' = - inner N m ∧ ∀ w : Fin d → ℝ, inner w N = 0 → inner w m' = inner w m

/-- `m'` is the tangential part of `m` with respect to the plane with normal `N`. -/
def IsTangentialPart {d : ℕ} (N m m' : Fin d → ℝ) : Prop :=
  inner N m' = 0 ∧ ∀ w : Fin d → ℝ, inner w N = 0 → inner w m' = inner w m

end OpenSBLI.Spec
