import Verif.Spec.Simulation
import Verif.Model.ShockProgram

/-!
# The right hand side a shock capturing simulation should evaluate

Written with the values `f` of the datasets as functions of the point: no kernels, no work arrays, no ranges.
-/
namespace OpenSBLI.Sim

variable {D n : ℕ}

/-- The Lax-Friedrichs flux between `x` and its neighbour in direction `d`: reconstruction of the characteristic fluxes along the line through `x`, with eigenvectors at averages of the two neighbours of an interface. -/
noncomputable def numericalFlux (C : Shock D n) (I : Interp D) (f : String → P D → ℝ) (d : Fin D) (x : P D) : Fin n → ℝ :=
  let at' : ℤ → P D := fun y => Function.update x d (x d + y)
  let mean : ℤ → Mem D := fun y => memOf fun t _ => C.avg (fun s => f s (at' y)) (fun s => f s (at' (y + 1))) t
  Llf.interfaceFlux C.scheme
    { f := fun y i => (C.flux d i).eval I (memOf f) (at' y)
      q := fun y i => f (C.sol i) (at' y)
      ev := fun y i => (C.ev d i).eval I (memOf f) (at' y)
      LEV := fun y i j => (C.lev d i j).eval I (mean y) x
      REV := fun y i j => (C.rev d i j).eval I (mean y) x } 0

/-- The sum of the flux differences with their coefficients, and the other terms. -/
noncomputable def shockRhs (C : Shock D n) (I : Interp D) (f : String → P D → ℝ) (i : Fin n) (x : P D) : ℝ :=
  (C.dirs.map fun d => (C.coef d i).eval I (memOf f) x * ((numericalFlux C I f d x i - numericalFlux C I f d (Function.update x d (x d - 1)) i) / I.const (C.spacing d))).sum +
    (C.rhs i).eval I (memOf f) x

end OpenSBLI.Sim
