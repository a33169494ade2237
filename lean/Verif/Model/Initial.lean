import Verif.Model.Simulation

/-!
# Initial conditions given by equations

Model of `GridBasedInitialisation.spatial_discretisation` (initialisation/gridbasedinit.py 46-57) in the programs of `Model/Simulation.lean`.
-/
namespace OpenSBLI.Sim

variable {D : ℕ}

/-- The kernel of the equations, in order, on the grid and five halo points on every side (`CentralHalos_defdec`, scheme.py 47-60). The equations may contain the indices
of the point; how they are printed is said by `Text.fns`. -/
def initialKernel (np : Fin D → ℤ) (eqs : List (Arr × (Interp D → Mem D → P D → ℝ))) : FnKer D := ⟨rangeOf np 5 (List.finRange D), eqs⟩

/-- Their entry in the program, before the time loop (gridbasedinit.py 16-28). -/
def initialItem (np : Fin D → ℤ) (eqs : List (Arr × (Interp D → Mem D → P D → ℝ))) : Alg.Item (Call D) := .nonSimulation 0 [.before] [.fn (initialKernel np eqs)]

end OpenSBLI.Sim
