import Verif.Model.Simulation
import Verif.Model.AlgorithmMB

/-!
# The program of a simulation on several blocks

All blocks have copies of the same equations (`MultiBlock.set_equations`, multiblock/blockcollection.py 50-53, and `set_discretisation_schemes`, 44-48) and own arrays; only their sizes and boundaries differ. The kernels of a block read and
write arrays of that block (block.py `work_array`, dataset names ending in `_B` and the number of the block); the exchange of an interface copies the solution arrays of one block into the arrays of the same names of another
(core/boundary_conditions/multi_block.py 41-92, `apply_interface_bc` of the simulation equations passes the solution arrays).
-/
namespace OpenSBLI.Sim

variable {D n B : ℕ}

/-- The equations on a block of another size. -/
def Setup.sized (S : Setup D n) (np : Fin D → ℤ) : Setup D n := { S with np := np }

/-- What a kernel of the program does: something on one block, or the exchange of an interface. -/
inductive CallMB (D B : ℕ) where
  | on (b : Fin B) (c : Call D)
  | link (l : MultiBlock.Link D B)

/-- The entry of the simulation equations of block `b`: `apply_interface_bc` appends the exchanges to the boundary kernels of the block itself (blockcollection.py 68-79). -/
def Setup.itemMB (S : Setup D n) (t : Temporal) (b : Fin B) (links : List (MultiBlock.Link D B)) (spatial : List (Ker D)) : Alg.ItemMB (CallMB D B) :=
  .plain (.simulation ((S.startKernels t).map fun k => .on b (.comp k)) [] ((S.advanceKernels t).map fun k => .on b (.comp k)) (.on b .bc :: links.map .link) (spatial.map fun k => .on b (.comp k)))

/-- The exchange of an interface on the solution arrays of all blocks. -/
def runLink (np : Fin B → Fin D → ℤ) (h : ℤ) (sol : Fin n → String) (l : MultiBlock.Link D B) (m : Fin B → Mem D) : Fin B → Mem D := fun b =>
  runBc sol (fun _ i => l.run np h (fun c => m c (.data (sol i))) b) (m b)

/-- Effect of an event on the arrays of all blocks. Every block has its own constants, as the spacings of the grids, and boundary conditions `own`. -/
def execMB (I : Fin B → Interp D) (pts : Ranges.Kernel D → List (P D)) (np : Fin B → Fin D → ℤ) (h : ℤ) (sol : Fin n → String) (own : Fin B → (Fin n → P D → ℝ) → Fin n → P D → ℝ) :
    Alg.Event (CallMB D B) → (Fin B → Mem D) → Fin B → Mem D
  | .call (.on b c) e, m => Function.update m b (exec (I b) pts sol (own b) (.call c e) (m b))
  | .call (.link l) _, m => runLink np h sol l m
  | _, m => m

end OpenSBLI.Sim
