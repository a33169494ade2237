import Verif.Model.Llf

/-!
# Advection of one quantity by a uniform velocity

A scalar scheme: the product of velocity and quantity is reconstructed from the side the flow comes from. No eigenvectors, no flux splitting.
-/
namespace OpenSBLI.Spec

variable {D : ℕ}

/-- The value at the interface after the current point, of a quantity with values `ρ` along a line: reconstruction of `U ρ` from upwind. -/
noncomputable def upwind (s : Llf.Scheme) (U : ℝ) (ρ : ℤ → ℝ) : ℝ :=
  if 0 ≤ U then s.recon .right fun p => U * ρ p else s.recon .left fun p => U * ρ p

/-- The rate of change: minus the sum over the directions of the differences of the fluxes at the two interfaces of a point. -/
noncomputable def advection (s : Llf.Scheme) (dirs : List (Fin D)) (U delta : Fin D → ℝ) (ρ : (Fin D → ℤ) → ℝ) (x : Fin D → ℤ) : ℝ :=
  (dirs.map fun d => -((upwind s (U d) (fun p => ρ (Function.update x d (x d + p))) - upwind s (U d) fun p => ρ (Function.update x d (x d - 1 + p))) / delta d)).sum

end OpenSBLI.Spec
