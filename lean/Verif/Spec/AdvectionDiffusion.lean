import Verif.Spec.Convergence

/-!
# Advection and diffusion with constant coefficients

What simulations are compared with in C102: periodic solutions of parabolic differential equations.
-/
namespace OpenSBLI.Order
open Sim
open scoped ContDiff

variable {D n : ℕ}

/-- Smooth solutions `U i t x` of `∂U_i/∂t = Σ_d (A d i ∂U_i/∂x_d + K d i ∂²U_i/∂x_d²)`, periodic with period `L d` in direction `d`. -/
structure SolvesParabolic (A K : Fin D → Fin n → ℝ) (L : E D) (U : Fin n → ℝ → E D → ℝ) : Prop where
  smooth : ∀ i, ContDiff ℝ ∞ fun p : ℝ × E D => U i p.1 p.2
  periodic : ∀ i t (k : Fin D → ℤ) x, U i t (x + fun d => k d * L d) = U i t x
  equation : ∀ i t x, deriv (fun s => U i s x) t = ∑ d, (A d i * pd d (U i t) x + K d i * pd d (pd d (U i t)) x)

/-- The right hand sides of a problem are those of such equations. -/
def IsParabolic (S : Setup D n) (I : Interp D) (A K : Fin D → Fin n → ℝ) : Prop :=
  ∀ i (f : String → P D → ℝ) x, (S.rhs i).eval I (memOf f) x = ∑ d, (A d i * I.cd d 1 (f (S.sol i)) x + K d i * I.cd d 2 (f (S.sol i)) x)

/-- The limits within which no new maxima arise: diffusion dominates between neighbours, and the time step is at most that of a random walk. -/
structure Diffusive (A K : Fin D → Fin n → ℝ) (δ : E D) (dt : ℝ) : Prop where
  peclet : ∀ d i, |A d i| * δ d ≤ 2 * K d i
  step : ∀ i, dt * ∑ d, 2 * K d i / δ d ^ 2 ≤ 1

/-- All components at all grid points differ by at most `ε`. -/
def Within (np : Fin D → ℤ) (q v : Fin n → P D → ℝ) (ε : ℝ) : Prop := ∀ i x, Grid np x → |q i x - v i x| ≤ ε

end OpenSBLI.Order
