import Verif.Spec.Order
import Verif.Props.C77_Periodic
import Mathlib.Analysis.Real.Sqrt

/-!
# Linear hyperbolic systems with constant coefficients

What simulations are compared with in C88: periodic solutions of differential equations.
-/
namespace OpenSBLI.Order
open Sim
open scoped ContDiff

variable {D n : ℕ}

/-- Smooth solutions `U i t x` of `∂U_i/∂t = Σ_d Σ_j M d i j ∂U_j/∂x_d`, periodic with period `L d` in direction `d`. -/
structure Solves (M : Fin D → Fin n → Fin n → ℝ) (L : E D) (U : Fin n → ℝ → E D → ℝ) : Prop where
  smooth : ∀ i, ContDiff ℝ ∞ fun p : ℝ × E D => U i p.1 p.2
  periodic : ∀ i t (k : Fin D → ℤ) x, U i t (x + fun d => k d * L d) = U i t x
  equation : ∀ i t x, deriv (fun s => U i s x) t = ∑ d, ∑ j, M d i j * pd d (U j t) x

/-- The right hand sides of a problem are those of such a system. -/
def IsSystem {n : ℕ} (S : Setup D n) (I : Interp D) (M : Fin D → Fin n → Fin n → ℝ) : Prop :=
  ∀ i (f : String → P D → ℝ) x, (S.rhs i).eval I (memOf f) x = ∑ d, ∑ j, M d i j * I.cd d 1 (f (S.sol j)) x

/-- Grids of the periodic box with corner `x₀`: spacings at most `h`, `np d` points in direction `d`, and at least as many points as the formulas reach. -/
structure Covers (S : Setup D n) (L δ : E D) (h : ℝ) : Prop where
  box : ∀ d, S.np d * δ d = L d
  fine : ∀ d, 0 < δ d ∧ δ d ≤ h
  small : h ≤ 1
  points : ∀ d, S.h ≤ S.np d

/-- The time step is within the limit of stability: `μ d` bounds the sums of the coefficients `Σ_j |M d i j|` of a direction. -/
def Stable (order : ℕ) (M : Fin D → Fin n → Fin n → ℝ) (δ : E D) (dt : ℝ) : Prop :=
  ∃ μ : Fin D → ℝ, (∀ d, 0 ≤ μ d) ∧ (∀ d i, ∑ j, |M d i j| ≤ μ d) ∧ dt * ∑ d, μ d * (∑ p ∈ Central.points order, |Central.weight ℝ order 1 p|) / δ d ≤ √3

/-- The mean square over components and grid points of a difference is at most the square of `ε`. -/
def MeanSquare (np : Fin D → ℤ) (q : Fin n → P D → ℝ) (v : Fin n → P D → ℝ) (ε : ℝ) : Prop :=
  ∑ i, ∑ x ∈ gridPoints np, (q i x - v i x) ^ 2 ≤ n * (gridPoints np).card * ε ^ 2

end OpenSBLI.Order
