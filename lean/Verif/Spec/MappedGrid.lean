import Verif.Model.Simulation
import Mathlib.LinearAlgebra.Matrix.Adjugate

/-!
# Grids given by a mapping

`X i x` is coordinate `i` of the point with indices `x`, given for all indices. Written without the metric terms of the code generator.
-/
namespace OpenSBLI.Sim

variable {D : ℕ}

/-- The derivatives of the coordinates by finite differences. -/
def jacobi (I : Interp D) (X : Fin D → P D → ℝ) (x : P D) : Matrix (Fin D) (Fin D) ℝ := Matrix.of fun i j => I.cd j 1 (X i) x

/-- A mapping of a periodic box: from one period to the next all coordinates grow by constants. -/
def Wraps (np : Fin D → ℤ) (X : Fin D → P D → ℝ) : Prop := ∀ i d, ∃ L : ℝ, ∀ x, X i (shift x d (np d)) = X i x + L

/-- The metric identities: the surfaces of every cell are closed. -/
def MetricIdentities (I : Interp D) (X : Fin D → P D → ℝ) : Prop := ∀ j x, ∑ k, I.cd k 1 (fun y => (jacobi I X y).adjugate k j) x = 0

end OpenSBLI.Sim
