import Verif.Model.SimulationText
import Verif.Model.BoundaryMore

/-!
# The text of boundary conditions

The equations of a boundary condition (`Model/Boundary.lean`: one program along a normal line) as equations of a kernel of the program: datasets displaced in the
direction of the boundary, `GridVariable`s, numbers and constants.

Simplified: SymPy's order of terms and simplifications are not modelled, except in `symmetryText`; the numbers of `Model/Boundary.lean` are
spelled as constants (`gama`, `Minf`) or digits by a function.
-/
namespace OpenSBLI.Bc
open OpenSBLI.CCode

variable {D : ℕ}

/-- How the cells and numbers of the equations are written: the direction of the boundary, the names of the arrays (followed by the number of the block), those of
the grid variables, and the numbers. -/
structure Spelling (D : ℕ) where
  dir : Fin D
  array : Var D → String
  var : Loc → String
  lit : ℝ → Sym D

/-- The names the conditions give to their grid variables (isothermal_wall.py 41, 47, 58, 61, 70-71; inlet_pressure_extrapolate.py 39-41; pressure_outlet.py 39; inlet_Lawal.py 44). -/
def Loc.name : Loc → String
  | .pwall => "Pwall"
  | .u i k => "u" ++ toString i ++ toString k
  | .tAbove => "T_above"
  | .t i => "T" ++ toString i
  | .rhoHalo i => "rho_halo_" ++ toString i
  | .x0 => "x0"
  | .rhob => "rhob"
  | .ub i => "ub" ++ toString i
  | .pb => "pb"
  | .ab => "ab"
  | .localE => "local_rhoE"
  | .uLawal i => "u" ++ toString i

variable (N : Spelling D)

/-- A cell: a dataset with its location displaced (`convert_dataset_base_expr_to_datasets`, bc_core.py 94-102, `increment_dataset`, helperfunctions.py 33-47), or
a grid variable. -/
def Spelling.cell : Cell D → Sym D
  | .data v k => .data (N.array v) (Pi.single N.dir k)
  | .loc l => .gvar (N.var l)

/-- The same on the left of an equation. -/
def Spelling.lhs : Cell D → Lhs D
  | .data v k => .data (N.array v) (Pi.single N.dir k)
  | .loc l => .gvar (N.var l)

/-- A right hand side. SymPy has no differences and quotients. -/
def Expr.sym : Expr D → Sym D
  | .num r => N.lit r
  | .cell c => N.cell c
  | .add a b => .add a.sym b.sym
  | .sub a b => .add a.sym (.mul (.num (-1)) b.sym)
  | .mul a b => .mul a.sym b.sym
  | .div a b => .mul a.sym (.pow b.sym (.num (-1)))
  | .neg a => .mul (.num (-1)) a.sym
  | .sqrt a => .pow a.sym (.num (1 / 2))
  | .abs a => .fn "fabs" a.sym
  | .rpow a b => .pow a.sym b.sym
  | .ge a b x y => .pw .ge a.sym b.sym x.sym y.sym

/-- The equations of the kernel, `kernel.add_equation`. -/
def text (prog : List (Assign D)) : List (Eqn D) := prog.map fun a => .assign ⟨N.lhs a.target, a.rhs.sym N⟩

/-- The kernel of a boundary condition (`bc_plane_kernel`, bc_core.py 158-167). -/
def planeCall (b : Ranges.Block D) (dir : Fin D) (side : Bool) (eqs : List (Eqn D)) : Sim.BcCall D := .kernel (Ranges.bcPlaneKernel b dir side) eqs

/-! ### Symmetry on a Cartesian grid

There the metric is the identity matrix (`FD_metrics`), its row for the boundary direction the unit vector, and SymPy simplifies
`m - 2*(n.m)*n` (symmetry.py 32-42) to `-m` for the component normal to the boundary and to `m` for the others. -/

/-- The row of the identity matrix. -/
noncomputable def cartesian (dir : Fin D) (i : Fin D) : Expr D := .num (if i = dir then 1 else 0)

/-- The simplified right hand sides at an offset. -/
def mirrored (arrays : List (Arr D)) (k : ℤ) : List (Sym D) :=
  arrays.flatMap fun
    | .scalar v => [N.cell (.data v k)]
    | .vector m => (List.finRange D).map fun i : Fin D => if i = N.dir then .mul (.num (-1)) (N.cell (.data (m i) k)) else N.cell (.data (m i) k)

/-- The text of `SymmetryBC.apply` (symmetry.py 23-50). -/
def symmetryText (arrays : List (Arr D)) (s : Side) (n : ℕ) : List (Eqn D) :=
  (mirrorIndices s n).flatMap fun p => ((flatten arrays).zip (mirrored N arrays p.2)).map fun q => .assign ⟨N.lhs (.data q.1 p.1), q.2⟩

end OpenSBLI.Bc
