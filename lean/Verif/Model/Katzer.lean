import Mathlib.Analysis.SpecialFunctions.Sqrt
import Mathlib.Analysis.SpecialFunctions.Pow.Real
import Mathlib.Data.Fin.VecNotation

/-!
# Boundary-layer initialisation

Model of `utilities/katzer_init.py` (similarity solution 36-180, initial state 256-545) and `utilities/simple_katzer_init.py` (60-110) over the reals. `odeint` is a parameter, `poly.polyfit` and the interpolation
(`numerical_functions.py`, C57) are not used here: coefficients and interpolated profiles are parameters.
-/
namespace OpenSBLI.Katzer
open Function

/-! ## Similarity solution -/

/-- Parameters of `Boundary_layer_profile`; `suth` is `110.40/Tinf`. -/
structure Params where
  pr : ℝ
  gama : ℝ
  xmach : ℝ
  suth : ℝ
  /-- negative for an adiabatic wall -/
  Tw : ℝ

/-- `c`, katzer_init.py 43. -/
noncomputable def cOf (suth g : ℝ) : ℝ := Real.sqrt g * (1 + suth) / (g + suth)

/-- `dcdg`, 44-45. -/
noncomputable def dcdg (suth g : ℝ) : ℝ := (1 / (2 * Real.sqrt g) - Real.sqrt g / (g + suth)) * ((1 + suth) / (g + suth))

/-- `compbl`, 36-49. -/
noncomputable def compbl (p : Params) (v : Fin 5 → ℝ) : Fin 5 → ℝ :=
  let c := cOf p.suth (v 3)
  let cp := dcdg p.suth (v 3) * v 4
  ![v 1, v 2, -v 2 * (cp + v 0) / c, v 4, -v 4 * (cp + p.pr * v 0) / c - p.pr * (p.gama - 1) * p.xmach ^ 2 * v 2 ^ 2]

/-- State of the iteration: `vstart`, `v`, `dv` and `soln`. -/
structure Shoot (P : Type) where
  vstart : Fin 5 → ℝ
  v0 : ℝ
  v1 : ℝ
  dv0 : ℝ
  dv1 : ℝ
  soln : P

variable {P : Type}

/-- Index of `vstart` the second unknown is put into, 93-96, 107-110, 117-120. -/
noncomputable def slot (p : Params) : Fin 5 := if p.Tw < 0 then 3 else 4

/-- Initial values, 72-86; `empty` is the zero array of line 70. -/
noncomputable def start (p : Params) (empty : P) : Shoot P :=
  let vs : Fin 5 → ℝ := if 0 < p.Tw then update (fun _ => 0) 3 p.Tw else fun _ => 0
  let v1 : ℝ := if 0 < p.Tw then 0 else if p.Tw < 0 then 1 + 0.5 * 0.84 * (p.gama - 1) * p.xmach ^ 2 else 4.5
  let v0 : ℝ := if 0 < p.Tw then 0 else if p.Tw < 0 then 0.47 * v1 ^ (0.21 : ℝ) else 0.494891
  ⟨vs, v0, v1, v0 * 0.01, if p.Tw < 0 then v1 * 0.01 else 0.1, empty⟩

/-- One pass of the loop, 92-135: `inl` leaves the loop (102). `solve` is `odeint` on the given start values, `uEnd` and `TEnd` are `soln[1, nstep]` and `soln[3, nstep]`. -/
noncomputable def pass (p : Params) (solve : (Fin 5 → ℝ) → P) (uEnd TEnd : P → ℝ) (s : Shoot P) : Shoot P ⊕ Shoot P :=
  let vs := update (update s.vstart 2 s.v0) (slot p) (if p.Tw < 0 then s.v1 else 1.141575)
  let s0 := solve vs
  if |uEnd s0 - 1| + |TEnd s0 - 1| < 1 / 10 ^ 10 then .inl { s with vstart := vs, soln := s0 }
  else
    let vs1 := update (update vs 2 (s.v0 + s.dv0)) (slot p) s.v1
    let s1 := solve vs1
    let vs2 := update (update vs1 2 s.v0) (slot p) (s.v1 + s.dv1)
    let s2 := solve vs2
    let f0 := uEnd s0 - 1
    let f1 := TEnd s0 - 1
    let al11 := ((uEnd s1 - 1) - f0) / s.dv0
    let al21 := ((TEnd s1 - 1) - f1) / s.dv0
    let al12 := ((uEnd s2 - 1) - f0) / s.dv1
    let al22 := ((TEnd s2 - 1) - f1) / s.dv1
    let det := al11 * al22 - al21 * al12
    let dv0 := (-al22 * f0 + al12 * f1) / det
    let dv1 := (al21 * f0 - al11 * f1) / det
    .inr ⟨vs2, s.v0 + dv0, s.v1 + dv1, dv0, dv1, s2⟩

/-- The loop over `k`, 91-135. -/
noncomputable def shoot (p : Params) (solve : (Fin 5 → ℝ) → P) (uEnd TEnd : P → ℝ) : ℕ → Shoot P → Shoot P
  | 0, s => s
  | k + 1, s => match pass p solve uEnd TEnd s with
    | .inl s => s
    | .inr s => shoot p solve uEnd TEnd k s

/-- `generate_boundary_layer_profile`, 51-141: the solution kept and `Twall`. -/
noncomputable def similarity (p : Params) (solve : (Fin 5 → ℝ) → P) (uEnd TEnd : P → ℝ) (empty : P) : P × ℝ :=
  let s := shoot p solve uEnd TEnd 5 (start p empty)
  (s.soln, s.v1)

/-- `z` of `integrate_boundary_layer`, 157-161; `e1` is `eta[1]`, `T` is `soln[3, :]`. -/
noncomputable def zOf (e1 : ℝ) (T : ℕ → ℝ) : ℕ → ℝ
  | 0 => 0
  | i + 1 => zOf e1 T i + e1 * 0.5 * (T (i + 1) + T i)

/-- `sumd`, 162-164. -/
noncomputable def sumd (e1 : ℝ) (u T : ℕ → ℝ) : ℕ → ℝ
  | 0 => 0
  | i + 1 => sumd e1 u T i + e1 * 0.5 * ((T (i + 1) - u (i + 1)) + (T i - u i))

/-- `y`, 169-174. -/
noncomputable def yOf (e1 : ℝ) (u T : ℕ → ℝ) (n i : ℕ) : ℝ := zOf e1 T i / sumd e1 u T n

/-! ## Continuity -/

/-- `delsx`, 489-497. -/
noncomputable def delsx (re scale : ℝ) : ℝ := Real.sqrt 2 * scale * (0.5 * re / scale ^ 2) / Real.sqrt (0.5 * (re / scale) ^ 2)

/-- `drudx[j]`, 503-510, with `mom` the interpolated product of density and velocity. -/
noncomputable def drudx (re scale : ℝ) (mom : ℝ → ℝ) (y : ℝ) : ℝ :=
  let x0 := 0.5 * re / scale ^ 2
  let delta : ℝ := 0.001
  let d := delsx re scale
  let dstarp := d * Real.sqrt ((x0 + delta) / x0)
  let dstarm := d * Real.sqrt ((x0 - delta) / x0)
  (mom (y / dstarp) - mom (y / dstarm)) / (2 * delta)

/-- Index `j-1` of a Python array of `n` elements. -/
def before (n j : ℕ) : ℕ := if j = 0 then n - 1 else j - 1

/-- The loop of lines 501-511 over `j`: arrays `ya2`, `drudx` and `rhov` after `j` passes. -/
noncomputable def continuity (re scale : ℝ) (mom : ℝ → ℝ) (n : ℕ) (y : ℕ → ℝ) : ℕ → (ℕ → ℝ) × (ℕ → ℝ) × (ℕ → ℝ)
  | 0 => (fun j => delsx re scale * y j, fun _ => 0, fun _ => 0)
  | j + 1 =>
    let (ya, du, rv) := continuity re scale mom n y j
    let ya := update ya j (delsx re scale * ya j)
    let du := update du j (drudx re scale mom (ya j))
    (ya, du, update rv j (rv (before n j) - 0.5 * (ya j - ya (before n j)) * (du j + du (before n j))))

/-- `solve_continuity`, 480-512. -/
noncomputable def solveContinuity (re scale : ℝ) (mom : ℝ → ℝ) (n : ℕ) (y : ℕ → ℝ) : ℕ → ℝ := (continuity re scale mom n y n).2.2

/-- `find_edge_of_bl`, 536-545, on an array of `n` elements: `none` when the loop leaves it (`IndexError`). -/
noncomputable def findEdge (n : ℕ) (var : ℕ → ℝ) (tol : ℝ) (index : ℕ) : Option ℕ :=
  if index < n then (if |var index - var (index - 1)| > tol then findEdge n var tol (index + 1) else some index) else none
termination_by n - index

/-! ## Initial state -/

/-- Names in the equations: variables of the kernel, arrays, constants. -/
inductive Var where
  | grid (s : String)
  | data (s : String)
  | const (s : String)
  deriving DecidableEq

abbrev Env := Var → ℝ

/-- An equation `lhs = rhs` of the kernel, evaluated at one point. -/
abbrev Assign := Var × (Env → ℝ)

/-- The equations of the kernel at one point, in order. -/
def run (eqs : List Assign) (e : Env) : Env := eqs.foldl (fun e a => update e a.1 (a.2 e)) e

/-- `sum([coeff*x**power ...])` with the powers descending, 337-338. -/
noncomputable def descending (coeffs : List ℝ) (x : ℝ) : ℝ :=
  ((coeffs.zip (List.range coeffs.length).reverse).map fun q => q.1 * x ^ q.2).sum

/-- `fit_polynomial`, 469-478: the fitted coefficients, which are ascending, reversed. -/
def fitted (ascending : List ℝ) : List ℝ := ascending.reverse

/-- `Piecewise((a, x < edge), (b, True))`. -/
noncomputable def piecewise (x edge a b : ℝ) : ℝ := if x < edge then a else b

/-- `form_equation`, katzer_init.py 327-340 and simple_katzer_init.py 74-86; `free` is `variable[edge]`. -/
noncomputable def formEquation (name : String) (coeffs : List ℝ) (coord : Var) (edge free : ℝ) : Assign :=
  (.grid name, fun e => piecewise (e coord) edge (descending coeffs (e coord)) free)

/-- Density, momentum in the first two directions and the energy, 408-414 and 445-452; `kinetic` is the sum of squares. -/
noncomputable def rhoEquation : Assign := (.grid "rho", fun e => 1 / e (.grid "T"))
def store (name : String) : Assign := (.data name, fun e => e (.grid name))
noncomputable def energy (kinetic : Env → ℝ) : Assign :=
  (.data "rhoE", fun e => e (.grid "rho") * e (.grid "T") / (e (.const "gama") * (e (.const "gama") - 1) * e (.const "Minf") ^ 2) + 0.5 * kinetic e / e (.grid "rho"))

/-- A profile: coefficients in descending order and the value outside. -/
structure Fit where
  coeffs : List ℝ
  free : ℝ

/-- `generate_one_wall_equations`, 395-417 and simple_katzer_init.py 88-110. -/
noncomputable def oneWall (ndim : ℕ) (rhou rhov T : Fit) (coord : Var) (edge : ℝ) : List Assign :=
  [formEquation "rhou0" rhou.coeffs coord edge rhou.free, formEquation "rhou1" rhov.coeffs coord edge rhov.free, formEquation "T" T.coeffs coord edge T.free,
    rhoEquation, store "rho", store "rhou0", store "rhou1", energy fun e => e (.grid "rhou0") ^ 2 + e (.grid "rhou1") ^ 2] ++
  if ndim = 3 then [(.data "rhou2", fun _ => 0)] else []

/-- Profiles of a wall with side walls: momentum, scaled temperature, wall-normal momentum; edge. -/
structure Wall where
  rhou : List ℝ
  g : List ℝ
  normal : Fit
  edge : ℝ

/-- `generate_two_wall_equations` with `form_mixed_equation`, 342-393 and 419-453. `coord1` is the coordinate of the first direction with a boundary layer, `coord2` that of direction 2, whatever the second one is
(431-432); `L` is `domain_length`. -/
noncomputable def twoWall (w1 w2 : Wall) (coord1 coord2 : Var) (L : ℝ) : List Assign :=
  let loc : Var := .grid "local_coord"
  [(loc, fun e => if e coord2 ≤ L / 2 then e coord2 else L - e coord2),
    (.grid "side_fact", fun e => if e coord2 ≤ L / 2 then 1 else -1),
    (.grid "rhou0_1", fun e => piecewise (e coord1) w1.edge (descending w1.rhou (e coord1)) 1),
    (.grid "rhou0_2", fun e => piecewise (e loc) w2.edge (descending w2.rhou (e loc)) 1),
    (.grid "rhou0", fun e => e (.grid "rhou0_1") * e (.grid "rhou0_2")),
    (.grid "T_1", fun e => piecewise (e coord1) w1.edge (descending w1.g (e coord1)) 1),
    (.grid "T_2", fun e => piecewise (e loc) w2.edge (descending w2.g (e loc)) 1),
    (.grid "T", fun e => e (.grid "T_1") * e (.grid "T_2") * (1 - e (.const "Twall")) + e (.const "Twall")),
    (.grid "rhou1", fun e => piecewise (e coord1) w1.edge (descending w1.normal.coeffs (e coord1) * e (.grid "rhou0_2")) (w1.normal.free * e (.grid "rhou0_2"))),
    (.grid "rhou2", fun e => e (.grid "side_fact") * piecewise (e loc) w2.edge (descending w2.normal.coeffs (e loc) * e (.grid "rhou0_1"))
      (w2.normal.free * (1 - (e loc - w2.edge) / (0.5 * L - w2.edge)) * e (.grid "rhou0_1"))),
    rhoEquation, store "rho", store "rhou0", store "rhou1", store "rhou2",
    energy fun e => e (.grid "rhou0") ^ 2 + e (.grid "rhou1") ^ 2 + e (.grid "rhou2") ^ 2]

/-- `check_inputs` (218-226; simple_katzer_init.py 27-33 has no last check) and the choice of 265-310: the equations for the given directions, `inputs` being the pairs of flag and coordinate. -/
noncomputable def initial (ndim nCoeffs : ℕ) (inputs : List (Bool × Var)) (rhou rhov T : Fit) (edge : ℝ) (w1 w2 : Wall) (L : ℝ) : Except String (List Assign) :=
  let flags := (inputs.filter Prod.fst).length
  if flags < 1 then .error "Provide the directions to apply a boundary layer profile in."
  else if inputs.length ≠ ndim then .error "The list of polynomial directions must match the dimensions of the problem."
  else if nCoeffs < 10 then .error "Higher number of polynomial coefficients are required for a good polynomial fit."
  else match inputs.filter Prod.fst with
    | [(_, c)] => .ok (oneWall ndim rhou rhov T c edge)
    | [(_, c), _] => match inputs[2]? with
      | some (_, c2) => .ok (twoWall w1 w2 c c2 L)
      | none => .error "list index out of range"
    | _ => .error "Boundary layer initialisation is not implemented for walls in 3 dimensions."

end OpenSBLI.Katzer
