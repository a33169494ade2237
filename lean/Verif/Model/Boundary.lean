import Mathlib.Analysis.Real.Sqrt
import Mathlib.Analysis.SpecialFunctions.Pow.Real
import Mathlib.Data.Fin.VecNotation
import Verif.Model.Closures

/-!
# Boundary condition kernels as sequential programs along a normal line

A boundary condition builds one kernel: a list of equations executed in order at
every point of the boundary plane
(/repo/opensbli/core/boundary_conditions/*.py, `kernel.add_equation`; the code writer prints
them in list order, /repo/opensbli/code_generation/opsc.py:334-405).
All datasets in those equations are displaced along the boundary-normal direction only, so
the model keeps, per boundary point, the line of grid points through it: offset `0` is the boundary
point, and offsets `±k` lie inside or in the halo depending on the side.

Modelled: the list of equations, in order, with right-hand sides as expression trees; relocation
of expressions (`increment_dataset`, `convert_dataset_base_expr_to_datasets`); sequential execution.
Simplified: real arithmetic instead of doubles; the number of halos is the parameter `n`
(`abs(halos[direction][side])`); displacement in the directions tangential to the boundary is not
represented (none of the modelled conditions uses it).
-/

namespace OpenSBLI.Bc

/-- The arrays the boundary conditions touch.
`rho`, `mom i`, `rhoE` are the conservative variables of
/repo/opensbli/physical_models/ns_physics.py:50-80; `aux k` stands for any other array on the block
(metric terms, coordinates). -/
inductive Var (d : ℕ) where
  | rho | mom (i : Fin d) | rhoE | aux (k : ℕ)
  deriving DecidableEq

/-- The `GridVariable`s (kernel-local doubles) the boundary conditions create.
The Python names are `Pwall`, `u%d%d`, `T_above`, `T%d`, `rho_halo_%d`
(isothermal_wall.py:47,58,61,70,71), `x0` (isothermal_wall.py:41), `rhob`, `ub%d`, `pb`, `ab`
(inlet_pressure_extrapolate.py:39-41), `local_rhoE` (pressure_outlet.py:39), `u%d` (inlet_Lawal.py:44).
Simplification: distinct constructors stand for distinct names; the printed names are distinct as
long as the component index is a single digit. -/
inductive Loc where
  | pwall | u (i t : ℕ) | tAbove | t (i : ℕ) | rhoHalo (i : ℕ) | x0
  | rhob | ub (i : ℕ) | pb | ab | localE | uLawal (i : ℕ)
  deriving DecidableEq

/-- A storage cell: an array at an offset along the normal line, or a kernel-local variable. -/
inductive Cell (d : ℕ) where
  | data (v : Var d) (k : ℤ) | loc (l : Loc)
  deriving DecidableEq

/-- Right-hand sides: the SymPy expression constructors the modelled boundary conditions use.
`ge a b x y` is `Piecewise((x, a >= b), (y, True))`. -/
inductive Expr (d : ℕ) where
  | num (r : ℝ) | cell (c : Cell d)
  | add (a b : Expr d) | sub (a b : Expr d) | mul (a b : Expr d) | div (a b : Expr d)
  | neg (a : Expr d) | sqrt (a : Expr d) | abs (a : Expr d) | rpow (a b : Expr d)
  | ge (a b x y : Expr d)

namespace Expr
variable {d : ℕ}

instance : Add (Expr d) := ⟨.add⟩
instance : Sub (Expr d) := ⟨.sub⟩
instance : Mul (Expr d) := ⟨.mul⟩
instance : Div (Expr d) := ⟨.div⟩
instance : Neg (Expr d) := ⟨.neg⟩

/-- Dataset of variable `v` at offset `k`. -/
def dat (v : Var d) (k : ℤ) : Expr d := .cell (.data v k)

/-- A kernel-local variable as an expression. -/
def lv (l : Loc) : Expr d := .cell (.loc l)

/-- Python's built-in `sum` of a list of expressions. -/
def sum (l : List (Expr d)) : Expr d := l.foldl .add (.num 0)

/-- Value of an expression in a store (the C code the printed expression compiles to, over the
reals). -/
noncomputable def eval (st : Cell d → ℝ) : Expr d → ℝ
  | num r => r
  | cell c => st c
  | add a b => eval st a + eval st b
  | sub a b => eval st a - eval st b
  | mul a b => eval st a * eval st b
  | div a b => eval st a / eval st b
  | neg a => - eval st a
  | sqrt a => Real.sqrt (eval st a)
  | abs a => |eval st a|
  | rpow a b => (eval st a) ^ (eval st b)
  | ge a b x y => if eval st a ≥ eval st b then eval st x else eval st y

/-- Apply a relocation to every cell of an expression. -/
def mapCells (f : Cell d → Cell d) : Expr d → Expr d
  | num r => num r
  | cell c => cell (f c)
  | add a b => add (mapCells f a) (mapCells f b)
  | sub a b => sub (mapCells f a) (mapCells f b)
  | mul a b => mul (mapCells f a) (mapCells f b)
  | div a b => div (mapCells f a) (mapCells f b)
  | neg a => neg (mapCells f a)
  | sqrt a => sqrt (mapCells f a)
  | abs a => abs (mapCells f a)
  | rpow a b => rpow (mapCells f a) (mapCells f b)
  | ge a b x y => ge (mapCells f a) (mapCells f b) (mapCells f x) (mapCells f y)

/-- All cells occurring in an expression (`expression.atoms(DataSet)` plus the grid variables). -/
def cells : Expr d → List (Cell d)
  | num _ => []
  | cell c => [c]
  | add a b => cells a ++ cells b
  | sub a b => cells a ++ cells b
  | mul a b => cells a ++ cells b
  | div a b => cells a ++ cells b
  | neg a => cells a
  | sqrt a => cells a
  | abs a => cells a
  | rpow a b => cells a ++ cells b
  | ge a b x y => cells a ++ cells b ++ (cells x ++ cells y)

/-- `convert_dataset_base_expr_to_datasets(expression, index)`
(/repo/opensbli/core/boundary_conditions/bc_core.py:94-102): every dataset of the expression is taken
at the given location, whatever its location was. -/
def setLoc (e : Expr d) (k : ℤ) : Expr d :=
  e.mapCells fun | .data v _ => .data v k | .loc l => .loc l

/-- One pass of the loop of `increment_dataset`
(/repo/opensbli/utilities/helperfunctions.py:42-46): all occurrences of the dataset `(v,o)` are
replaced by `(v,o+k)`. -/
def replaceStep (k : ℤ) (e : Expr d) (c : Var d × ℤ) : Expr d :=
  e.mapCells fun x => if x = .data c.1 c.2 then .data c.1 (c.2 + k) else x

/-- `increment_dataset(expression, direction, value)`
(/repo/opensbli/utilities/helperfunctions.py:33-47): the loop runs over `order`, the datasets of the
expression in the (unspecified) iteration order of a Python set, and rewrites the expression one
dataset at a time. -/
def increment (order : List (Var d × ℤ)) (e : Expr d) (k : ℤ) : Expr d :=
  order.foldl (replaceStep k) e

/-- The intended effect of `increment_dataset`: every dataset is displaced by `k` at once.
`Verif/Props/C25_C29_Boundary.lean` proves that the loop above computes this for expressions all of whose
datasets lie at one location (the only expressions the boundary conditions displace), and that it does not in
general. -/
def shift (e : Expr d) (k : ℤ) : Expr d :=
  e.mapCells fun | .data v o => .data v (o + k) | .loc l => .loc l

end Expr

open Expr

/-- One kernel equation `OpenSBLIEq(target, rhs)`. -/
structure Assign (d : ℕ) where
  target : Cell d
  rhs : Expr d

/-- Execute the equations of a kernel in list order. -/
noncomputable def run {d : ℕ} (prog : List (Assign d)) (st : Cell d → ℝ) : Cell d → ℝ :=
  prog.foldl (fun s a => Function.update s a.target (a.rhs.eval s)) st

/-- Boundary side: `left` is Python's side `0`, `right` is side `1`. -/
inductive Side where
  | left | right
  deriving DecidableEq

/-- `from_side_factor` of `set_side_factor` (bc_core.py:189-197): direction of the halo. -/
def Side.fromF : Side → ℤ
  | .left => -1 | .right => 1

/-- `to_side_factor` of `set_side_factor` (bc_core.py:189-197): direction of the interior. -/
def Side.toF : Side → ℤ
  | .left => 1 | .right => -1

/-- `create_boundary_equations` (bc_core.py:169-187): for each index pair and each pair of left and
right expressions, the left dataset at the first index is assigned the right expression with all its datasets at
the second index. -/
def createBoundaryEquations {d : ℕ} (left : List (Var d)) (right : List (Expr d))
    (idx : List (ℤ × ℤ)) : List (Assign d) :=
  idx.flatMap fun p => (left.zip right).map fun lr => ⟨.data lr.1 p.1, lr.2.setLoc p.2⟩

/-- `[(from*t, to*t) for t in range(1, n+1)]` (symmetry.py:46, isothermal_wall.py:52,
zero_gradient_outlet.py:15). -/
def mirrorIndices (s : Side) (n : ℕ) : List (ℤ × ℤ) :=
  (List.range' 1 n).map fun (t : ℕ) => (s.fromF * (t : ℤ), s.toF * (t : ℤ))

/-- An entry of `arrays`: a scalar array or a vector of arrays. -/
inductive Arr (d : ℕ) where
  | scalar (v : Var d) | vector (m : Fin d → Var d)

/-- `flatten(arrays)`. -/
def flatten {d : ℕ} (arrays : List (Arr d)) : List (Var d) :=
  arrays.flatMap fun | .scalar v => [v] | .vector m => (List.finRange d).map m

/-- The conservative variables in the order the solver passes them: density, momentum, energy. -/
def consArrays (d : ℕ) : List (Arr d) := [.scalar .rho, .vector .mom, .scalar .rhoE]

/-- `unit_normals = direction_metric/normalisation` (symmetry.py:26-28): the row of the metric for the
boundary direction divided by its Euclidean length. -/
def unitNormal {d : ℕ} (row : Fin d → Expr d) (i : Fin d) : Expr d :=
  row i / .sqrt (Expr.sum ((List.finRange d).map fun (j : Fin d) => row j * row j))

/-- `Matrix(ar).T - c*contra_variant_vector*unit_normals` (symmetry.py:34-35 with `c = 2`,
:38 with `c = 1`). -/
def reflected {d : ℕ} (row : Fin d → Expr d) (c : ℝ) (m : Fin d → Var d) (i : Fin d) : Expr d :=
  dat (m i) 0 - .num c * Expr.sum ((List.finRange d).map fun (j : Fin d) => unitNormal row j * dat (m j) 0)
    * unitNormal row i

/-- The right-hand sides of symmetry.py:32-42: scalars unchanged, vectors with their normal
component scaled by `1 - c`. -/
def reflectedRhs {d : ℕ} (row : Fin d → Expr d) (c : ℝ) (arrays : List (Arr d)) : List (Expr d) :=
  arrays.flatMap fun
    | .scalar v => [dat v 0]
    | .vector m => (List.finRange d).map (reflected row c m)

/-- `SymmetryBC.apply` (symmetry.py:23-50). -/
def symmetry {d : ℕ} (row : Fin d → Expr d) (arrays : List (Arr d)) (s : Side) (n : ℕ) :
    List (Assign d) :=
  createBoundaryEquations (flatten arrays) (reflectedRhs row 2 arrays) (mirrorIndices s n)

/-- `InviscidWallBC.apply` (inviscid_wall.py:23-52): the symmetry equations followed by the boundary
point, which takes the tangential part of the first interior point. -/
def inviscidWall {d : ℕ} (row : Fin d → Expr d) (arrays : List (Arr d)) (s : Side) (n : ℕ) :
    List (Assign d) :=
  symmetry row arrays s n ++
    createBoundaryEquations (flatten arrays) (reflectedRhs row 1 arrays) [(0, s.toF)]

/-- `ExtrapolationBC.apply` (extrapolation.py:29-58); `none` is the `ValueError`. -/
def extrapolation {d : ℕ} (arrays : List (Arr d)) (order : ℤ) (s : Side) (n : ℕ) :
    Option (List (Assign d)) :=
  let cons := flatten arrays
  if order = 0 then
    some <| ((List.range (n + 1)).map fun (i : ℕ) => s.fromF * (i : ℤ)).flatMap fun i =>
      createBoundaryEquations cons (cons.map fun v => dat v 0) [(i, s.toF)]
  else if order = 1 then
    let pts := (List.range' 1 n).map fun (i : ℕ) => s.fromF * (i : ℤ)
    match s with
    | .left => some <| pts.flatMap fun i => cons.map fun v =>
        ⟨.data v i, .num 2 * dat v ((i + 1) * s.toF) - dat v ((i + 2) * s.toF)⟩
    | .right => some <| pts.flatMap fun i => cons.map fun v =>
        ⟨.data v i, .num 2 * dat v ((i - 1) * s.fromF) - dat v ((i - 2) * s.fromF)⟩
  else none

/-- `ZeroGradientOutletBC.apply` (zero_gradient_outlet.py:11-23). -/
def zeroGradient {d : ℕ} (arrays : List (Arr d)) (s : Side) (n : ℕ) : List (Assign d) :=
  let cons := flatten arrays
  createBoundaryEquations cons (cons.map fun v => dat v 0) [(0, s.toF)] ++
    createBoundaryEquations cons (cons.map fun v => dat v 0) (mirrorIndices s n)

/-- `dot(NS.momentum(), NS.momentum())` (helperfunctions.dot, ns_physics.py:97). -/
def momSq (d : ℕ) : Expr d :=
  Expr.sum ((List.finRange d).map fun (i : Fin d) => dat (.mom i) 0 * dat (.mom i) 0)

/-- `NS.pressure(relation=True, conservative=True)` (ns_physics.py:97). -/
noncomputable def pressure (d : ℕ) (γ : ℝ) : Expr d :=
  (.num γ - .num 1) * (dat .rhoE 0 - .num (1 / 2) * momSq d / dat .rho 0)

/-- `NS.temperature(relation=True, conservative=True)` (ns_physics.py:101-102). -/
noncomputable def temperature (d : ℕ) (γ M : ℝ) : Expr d :=
  (dat .rhoE 0 - .num (1 / 2) * momSq d / dat .rho 0) *
    (.num γ * (.num γ - .num 1) * (.num M * .num M)) / dat .rho 0

/-- First part of `IsothermalWallBC.apply` (isothermal_wall.py:38-44): the coordinate local, zero
momentum on the wall, then the equations the user passed. -/
def isothermalWallPart (d : ℕ) (user : List (Assign d)) : List (Assign d) :=
  [⟨.loc .x0, dat (.aux 0) 0⟩] ++
    ((List.finRange d).map fun (i : Fin d) => ⟨.data (.mom i) 0, .num 0⟩) ++ user

/-- The wall energy equation users pass to `IsothermalWallBC`, e.g.
/repo/apps/katzer_SBLI/katzer_SBLI.py (`rhoE = rho*Twall/(Minf**2*gama*(gama-1))`). -/
noncomputable def wallEnergy (d : ℕ) (γ M Tw : ℝ) : Assign d :=
  ⟨.data .rhoE 0, dat .rho 0 * .num Tw / (.num M * .num M * .num γ * (.num γ - .num 1))⟩

/-- `halo_velocities` (isothermal_wall.py:54-59). -/
def isothermalVelocities (d : ℕ) (s : Side) (n : ℕ) : List (Assign d) :=
  (List.finRange d).flatMap fun (i : Fin d) => (List.range' 1 n).map fun (t : ℕ) =>
    ⟨.loc (.u i.1 t), dat (.mom i) (s.toF * (t : ℤ)) / dat .rho (s.toF * (t : ℤ))⟩

/-- The entries appended to `halo_densities` by iteration `i` (isothermal_wall.py:73,83). -/
noncomputable def isoDensity (d : ℕ) (γ M : ℝ) (s : Side) (i : ℕ) : List (Assign d) :=
  [⟨.loc (.rhoHalo i), lv .pwall * .num γ * .num M * .num M / lv (.t i)⟩,
   ⟨.data .rho (s.fromF * (i : ℤ)), lv (.rhoHalo i)⟩]

/-- The entries appended to `halo_momentum` by iteration `i` (isothermal_wall.py:76-78). -/
def isoMomentum (d : ℕ) (s : Side) (i : ℕ) : List (Assign d) :=
  (List.finRange d).map fun (j : Fin d) =>
    ⟨.data (.mom j) (s.fromF * (i : ℤ)), -(lv (.rhoHalo i)) * lv (.u j.1 i)⟩

/-- The entry appended to `halo_energy` by iteration `i` (isothermal_wall.py:81-82). -/
noncomputable def isoEnergy (d : ℕ) (γ : ℝ) (s : Side) (i : ℕ) : List (Assign d) :=
  [⟨.data .rhoE (s.fromF * (i : ℤ)),
    lv .pwall / (.num γ - .num 1) + .num (1 / 2) * lv (.rhoHalo i) *
      Expr.sum ((List.finRange d).map fun (j : Fin d) => lv (.u j.1 i) * lv (.u j.1 i))⟩]

/-- Iteration `i` of the loop isothermal_wall.py:68-86. The lists are cumulative and are added to the
kernel in every iteration, so the equations of earlier iterations are repeated. -/
noncomputable def isoIteration (d : ℕ) (γ M Tw : ℝ) (s : Side) (i : ℕ) : List (Assign d) :=
  [⟨.loc (.t i), .num ((i : ℝ) + 1) * .num Tw - .num (i : ℝ) * lv .tAbove⟩] ++
    (List.range' 1 i).flatMap (isoDensity d γ M s) ++
    (List.range' 1 i).flatMap (isoMomentum d s) ++
    (List.range' 1 i).flatMap (isoEnergy d γ s)

/-- Second part of `IsothermalWallBC.apply` (isothermal_wall.py:47-86). -/
noncomputable def isothermalHaloPart (d : ℕ) (γ M Tw : ℝ) (s : Side) (n : ℕ) : List (Assign d) :=
  [⟨.loc .pwall, (pressure d γ).shift 0⟩] ++ isothermalVelocities d s n ++
    [⟨.loc .tAbove, (temperature d γ M).shift s.toF⟩] ++
    (List.range' 1 n).flatMap (isoIteration d γ M Tw s)

/-- `IsothermalWallBC.apply` (isothermal_wall.py:32-88). -/
noncomputable def isothermalWall (d : ℕ) (γ M Tw : ℝ) (user : List (Assign d)) (s : Side) (n : ℕ) :
    List (Assign d) :=
  isothermalWallPart d user ++ isothermalHaloPart d γ M Tw s n

/-- `T_wall` of adiabatic_wall.py:42-50. -/
noncomputable def adiabaticTwall (d : ℕ) (γ M : ℝ) (s : Side) : Expr d :=
  .num (6 / 11) * (.num 3 * (temperature d γ M).shift s.toF
    + .num (1 / 3) * (temperature d γ M).shift (3 * s.toF)
    - .num (3 / 2) * (temperature d γ M).shift (2 * s.toF))

/-- `AdiabaticWallBC.apply` (adiabatic_wall.py:28-69): densities, then momenta (wall first), then
energies (wall first). -/
noncomputable def adiabaticWall (d : ℕ) (γ M : ℝ) (s : Side) (n : ℕ) : List (Assign d) :=
  ((List.range' 1 n).map fun (i : ℕ) =>
      ⟨.data .rho (s.fromF * (i : ℤ)), dat .rho (s.toF * (i : ℤ))⟩) ++
    (((List.finRange d).map fun (j : Fin d) => ⟨.data (.mom j) 0, dat .rho 0 * .num 0⟩) ++
      (List.range' 1 n).flatMap fun (i : ℕ) => (List.finRange d).map fun (j : Fin d) =>
        ⟨.data (.mom j) (s.fromF * (i : ℤ)), -(dat (.mom j) (s.toF * (i : ℤ)))⟩) ++
    ([⟨.data .rhoE 0, dat .rho 0 * adiabaticTwall d γ M s / (.num γ * .num M * .num M)
        / (.num γ - .num 1)⟩] ++
      (List.range' 1 n).map fun (i : ℕ) =>
        ⟨.data .rhoE (s.fromF * (i : ℤ)), dat .rhoE (s.toF * (i : ℤ))⟩)

/-- `deriv_coeffs[side]` (adiabatic_wall_Carpenter.py:27): row 0 of the Carpenter boundary matrix,
negated on the upper side. The matrix is the one of `Closure.bc4` (the same formulas,
adiabatic_wall_Carpenter.py:30-50 and Carpenter_scheme.py). -/
noncomputable def derivCoeffs (s : Side) (i : Fin 6) : ℝ :=
  match s with
  | .left => Closure.bc4 0 i
  | .right => - Closure.bc4 0 i

/-- `AdiabaticWall_CarpenterBC.apply` (adiabatic_wall_Carpenter.py:52-85): zero momentum, the five
interior temperatures, the wall temperature from the zero derivative, the wall energy. -/
noncomputable def adiabaticCarpenter (d : ℕ) (γ M : ℝ) (arrays : List (Arr d)) (s : Side) :
    List (Assign d) :=
  (arrays.flatMap fun
    | .scalar _ => []
    | .vector m => (List.finRange d).map fun (j : Fin d) => ⟨.data (m j) 0, .num 0⟩) ++
  ((List.range' 1 5).map fun (i : ℕ) => ⟨.loc (.t i), (temperature d γ M).shift ((i : ℤ) * s.toF)⟩) ++
  [⟨.loc (.t 0), .num (-1) * Expr.sum ((List.finRange 5).map fun (i : Fin 5) =>
      .num (derivCoeffs s i.succ) * lv (.t (i.1 + 1))) / .num (derivCoeffs s 0)⟩,
   ⟨.data .rhoE 0, dat .rho 0 * lv (.t 0) / (.num M * .num M * .num γ * (.num γ - .num 1))⟩]

/-- `PressureOutletBC.__init__`/`apply` (pressure_outlet.py:21-52); `none` is the `ValueError` for
side `0`. The factors are fixed to the upper side in the code. -/
noncomputable def pressureOutlet (d : ℕ) (γ pb : ℝ) (s : Side) (n : ℕ) : Option (List (Assign d)) :=
  if s = .right then
    let cons := flatten (consArrays d)
    let rhs := [dat .rho 0] ++ (List.finRange d).map (fun (i : Fin d) => dat (.mom i) 0) ++
      [.num pb / (.num γ - .num 1) + .num (1 / 2) * momSq d / dat .rho 0]
    some <| [⟨.loc .localE, dat .rhoE 0⟩] ++ ((0 : ℤ) :: (List.range' 1 n).map fun (i : ℕ) => (i : ℤ)).flatMap
      fun i => createBoundaryEquations cons rhs [(i, -1)]
  else none

/-- `InletTransferBC.__init__`/`apply` (inlet_transfer.py:15-32); `none` is the `ValueError` for
side `1`. -/
def inletTransfer {d : ℕ} (arrays : List (Arr d)) (s : Side) : Option (List (Assign d)) :=
  if s = .left then
    let cons := flatten arrays
    some (createBoundaryEquations cons (cons.map fun v => dat v 0) [(0, -1)])
  else none

/-- `InletPressureExtrapolateBC.__init__`/`apply` (inlet_pressure_extrapolate.py:21-66); `dir` is the
boundary direction, `n` is `abs(halos[0][0])`; `none` is the `ValueError` for side `1`. -/
noncomputable def inletPressure (d : ℕ) (γ : ℝ) (dir : Fin d) (s : Side) (n : ℕ) :
    Option (List (Assign d)) :=
  if s = .left then
    some <| [⟨.loc .rhob, dat .rho 0⟩] ++
      ((List.finRange d).map fun (i : Fin d) => ⟨.loc (.ub i.1), .abs (dat (.mom i) 0 / dat .rho 0)⟩) ++
      [⟨.loc .pb, (.num γ - .num 1) * (dat .rhoE 0 - .num (1 / 2) * lv .rhob *
          Expr.sum ((List.finRange d).map fun (i : Fin d) => lv (.ub i.1) * lv (.ub i.1)))⟩,
       ⟨.loc .ab, .sqrt (.num γ * lv .pb / lv .rhob)⟩] ++
      ((flatten (consArrays d)).map fun v =>
        ⟨.data v 0, .ge (lv (.ub dir.1)) (lv .ab) (dat v (-1)) (dat v 0)⟩) ++
      ((List.range n).map fun (i : ℕ) =>
        ⟨.data .rhoE (-(i : ℤ) - 1),
          .ge (lv (.ub dir.1)) (lv .ab) (dat .rhoE (-(i : ℤ) - 1)) (dat .rhoE 0)⟩)
  else none

/-- `T_halo` (inlet_Lawal.py:53). -/
noncomputable def lawalT (d : ℕ) (γ : ℝ) : Expr d :=
  .num 1 - .num (1 / 2) * (.num γ - .num 1) *
    Expr.sum ((List.finRange d).map fun (i : Fin d) => lv (.uLawal i.1) * lv (.uLawal i.1))

/-- `rho_halo` (inlet_Lawal.py:55). -/
noncomputable def lawalRho (d : ℕ) (γ : ℝ) : Expr d :=
  .rpow (.num 1 + .num (1 / 2) * (.num γ - .num 1) *
      (Expr.sum ((List.finRange d).map fun (i : Fin d) => lv (.uLawal i.1) * lv (.uLawal i.1))
        / lawalT d γ))
    (.num (-1) / (.num γ - .num 1))

/-- `InletLawalBC.__init__`/`apply` (inlet_Lawal.py:19-69); `none` is the `ValueError` for side `1`. -/
noncomputable def inletLawal (d : ℕ) (γ : ℝ) (s : Side) (n : ℕ) : Option (List (Assign d)) :=
  if s = .left then
    let pts := (List.range (n + 1)).map fun (i : ℕ) => s.fromF * (i : ℤ)
    some <| [⟨.loc .localE, dat .rhoE 0⟩] ++
      ((List.finRange d).map fun (i : Fin d) => ⟨.loc (.uLawal i.1), dat (.mom i) 1 / dat .rho 1⟩) ++
      (pts.map fun k => ⟨.data .rho k, lawalRho d γ⟩) ++
      (pts.flatMap fun k => (List.finRange d).map fun (i : Fin d) =>
        ⟨.data (.mom i) k, lawalRho d γ * lv (.uLawal i.1)⟩) ++
      (pts.map fun k => ⟨.data .rhoE k,
        lawalRho d γ * lawalT d γ / (.num γ * (.num γ - .num 1)) + .num (1 / 2) * lawalRho d γ *
          Expr.sum ((List.finRange d).map fun (i : Fin d) => lv (.uLawal i.1) * lv (.uLawal i.1))⟩)
  else none

end OpenSBLI.Bc
