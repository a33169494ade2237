import Verif.Model.Llf
import Verif.Model.Filters
import Verif.Model.Ranges
import Verif.Model.Central

/-!
# The WENO filter

Model of `filters/WENO_filter.py`, of `post_process` and `central_diff_formula` (schemes/spatial/shock_capturing.py 388-451), of the sensor of each wave (72-96 and weno.py 436-452) and of the branch of
`LLFWeno.discretise` for equations outside the simulation (weno.py 523-548).

Arrays are functions of the grid point, arithmetic is over the reals. The equations are those without metrics or with stretching only (`create_weno_equations`, 80-85 and 98-103); the general curvilinear
equations are not modelled. The eigensystem and the central derivative of the sensor are parameters (C16, C18).
-/
namespace OpenSBLI.WenoFilter
open Weno Llf Filters Matrix

noncomputable section

/-! ## Interface fluxes -/

/-- The weights of `central_diff_formula`, shock_capturing.py 391-398; `none` is the `NotImplementedError`. `order` is the order given to the scheme. -/
def centralWeights (order : ℕ) : Option (List ℚ) :=
  if order + 1 = 4 then some [-1/12, 7/12, 7/12, -1/12]
  else if order + 1 = 6 then some [1/60, -8/60, 37/60, 37/60, -8/60, 1/60]
  else if order + 1 = 8 then some [-1/280, 29/840, -139/840, 533/840, 533/840, -139/840, 29/840, -1/280]
  else none

/-- `formula`, shock_capturing.py 400-401: the weights with the columns `CF_i0, CF_i1, …`, which hold the characteristic flux at the sorted stencil points (shock_capturing.py 498-504). -/
def centralFlux (w : List ℚ) (pts : List ℤ) (CF : ℤ → ℝ) : ℝ := (List.zipWith (fun (a : ℚ) p => (a : ℝ) * CF p) w pts).sum

/-- `numpy.min(opt_weights)`, weno.py 447. -/
def smallest (k : ℕ) (d : ℕ → ℝ) : ℝ := (List.range k).foldl (fun m r => min m (d r)) (d 0)

/-- The sensor equation of one side, weno.py 441-448, at the weights of that side's reconstruction. -/
def sideSensor (side : Side) (k : ℕ) (dz : ℝ) (d : ℕ → ℝ) (f : ℤ → ℝ) : ℝ :=
  wenoSensor k d (omega k (alphaJS d fun r => beta side k r dz f)) (smallest k d)

/-- The variable `rj` of a wave, shock_capturing.py 91-95: the sensor of the right reconstruction, then the larger one of it and the sensor of the left reconstruction. Without sensor equations
(`shock_filter` not given to the scheme, or TENO) nothing is assigned and the variable keeps the `0.0` of its declaration (opsc.py 401-402). Sensor equations exist for the JS form used by the filter only. -/
def waveSensor (sensors : Bool) (s : Scheme) (pos neg : ℤ → ℝ) : ℝ :=
  match sensors, s with
  | true, .weno _ k dz d =>
    let rj := sideSensor .right k dz (d .right) pos
    max rj (sideSensor .left k dz (d .left) neg)
  | _, _ => 0

/-- Characteristic flux of wave `i` at the points of the stencil around the interface `x + 1/2`. -/
def waveFlux {n : ℕ} (l : Line n) (x : ℤ) (i : Fin n) : ℤ → ℝ := fun p => (l.LEV x *ᵥ l.f (x + p)) i
/-- Characteristic solution of wave `i`. -/
def waveState {n : ℕ} (l : Line n) (x : ℤ) (i : Fin n) : ℤ → ℝ := fun p => (l.LEV x *ᵥ l.q (x + p)) i
/-- Splitting speed of wave `i`. -/
def waveSpeed {n : ℕ} (s : Scheme) (l : Line n) (x : ℤ) (i : Fin n) : ℝ := maxWave s.stencilPoints fun p => l.ev (x + p) i

/-- `rj` of wave `i`. -/
def sensorOf {n : ℕ} (sensors : Bool) (s : Scheme) (l : Line n) (x : ℤ) (i : Fin n) : ℝ :=
  waveSensor sensors s (fun p => positive (waveFlux l x i p) (waveState l x i p) (waveSpeed s l x i))
    (fun p => negative (waveFlux l x i p) (waveState l x i p) (waveSpeed s l x i))

/-- `post_process`, shock_capturing.py 438-446: with the flag `block.shock_filter` every reconstructed characteristic is replaced by `rj*(Recon - central)` before it is transformed back. `sensors` says whether the
scheme has sensor equations. `none` is the exception of `central_diff_formula`. -/
def interfaceOut {n : ℕ} (flag sensors : Bool) (order : ℕ) (s : Scheme) (l : Line n) (x : ℤ) : Option (Fin n → ℝ) :=
  if flag then
    (centralWeights order).map fun w =>
      l.REV x *ᵥ fun i => sensorOf sensors s l x i * (characteristic s l x i - centralFlux w s.stencilPoints (waveFlux l x i))
  else some (interfaceFlux s l x)

/-! ## Kernels -/

/-- A grid point. -/
abbrev P (D : ℕ) := Fin D → ℤ

/-- The arrays written by the relations: velocity, pressure, speed of sound, Mach number control. -/
structure Prims (D : ℕ) where
  u : Fin D → ℝ
  p : ℝ
  a : ℝ
  mach : ℝ

/-- Arrays of the block: the solution (`rho`, `rhou_i`, `rhoE`), those of the relations, the work arrays `wk…` and the sensor `kappa`. -/
structure Arrays (D : ℕ) where
  q : P D → Fin (D+2) → ℝ
  prim : P D → Prims D
  work : ℕ → P D → ℝ
  kappa : P D → ℝ

/-- Dissipation sensor, WENO_filter.py 250-258. -/
inductive Sensor where
  | ducros
  | constant
  | other
  deriving DecidableEq

/-- Classes of boundary conditions (core/boundary_conditions). -/
inductive Bc where
  | adiabaticWall | adiabaticWallCarpenter | isothermalWall
  | forcingStrip | inviscidWall | inviscidWall2D | symmetry | split | periodic | interface
  | dirichlet | extrapolation | inletTransfer | inletPressureExtrapolate | inletLawal | pressureOutlet | zeroGradientOutlet
  deriving DecidableEq

/-- `isinstance(bc, WallBC)`: the bases of the classes. -/
def Bc.isWall : Bc → Bool
  | .adiabaticWall => true
  | .adiabaticWallCarpenter => true
  | .isothermalWall => true
  | _ => false

/-- What the filter and its discretisation depend on. -/
structure Setup (D : ℕ) where
  /-- order of the scheme -/
  order : ℕ
  sensor : Sensor
  mach : Bool
  /-- boundary conditions of the block, `none` before they are set -/
  boundaries : Option (Fin D → Bc × Bc)
  /-- `block.work_index` when the filter is made -/
  start : ℕ
  /-- `block.work_index` when the sensor equation is discretised -/
  sensorStart : ℕ
  /-- whether the scheme for the central derivatives is `StoreSome` -/
  storeSome : Bool
  /-- the derivatives of the sensor (velocity component, direction) in the order in which their set is listed -/
  listing : List (Fin D × Fin D)

/-- `self.k`, weno.py 383. -/
def Setup.k {D : ℕ} (S : Setup D) : ℕ := (S.order + 1) / 2

/-- Kernels of the filter. Numbers are those of work arrays. -/
inductive Ker (D : ℕ) where
  /-- constituent relations on the solution, WENO_filter.py 145-181 -/
  | relations
  /-- reconstruction in a direction, weno.py 533-542 -/
  | recon (d : Fin D) (target : Fin (D+2) → ℕ)
  /-- a derivative of the sensor stored by `Central`, scheme.py 117-136 -/
  | derivative (target : ℕ) (i j : Fin D)
  /-- the sensor, from stored derivatives or with local ones (`StoreSome`) -/
  | sensor (source : Option (Fin D → Fin D → ℕ))
  /-- the application -/
  | apply (source : Fin D → Fin (D+2) → ℕ) (sensor : Sensor) (mach : Bool)

/-- Work array of component `c` in direction `d`, `create_reconstruction_work_array` (opensblifunctions.py 602-605): one after another. -/
def reconWork {D : ℕ} (start : ℕ) (d : Fin D) (c : Fin (D+2)) : ℕ := start + d * (D+2) + c

/-- Work array of a derivative of the sensor. -/
def derivativeWork {D : ℕ} (S : Setup D) (i j : Fin D) : ℕ := S.sensorStart + S.listing.idxOf (i, j)

/-- Kernels of the sensor: `Central` writes one per derivative and one for the equation, `StoreSome` one. -/
def sensorKernels {D : ℕ} (S : Setup D) : List (Ker D) :=
  if S.storeSome then [.sensor none]
  else (S.listing.mapIdx fun n ij => Ker.derivative (S.sensorStart + n) ij.1 ij.2) ++ [.sensor (some (derivativeWork S))]

/-- `main`, WENO_filter.py 307-340, with the exceptions in the order in which they are raised: the weights during the discretisation (320), the boundary conditions (338), the sensor in `filter_application`
(250-258; one dimension raises in `ducros_equations`). The kernels are in the order of `component_counter` (C42). -/
def program {D : ℕ} (S : Setup D) : Except String (List (Ker D)) :=
  match centralWeights S.order, S.boundaries with
  | none, _ => .error "NotImplementedError"
  | some _, none => .error "ValueError"
  | some _, some _ =>
    let pre := Ker.relations :: (List.finRange D).map fun d => Ker.recon d (reconWork S.start d)
    match S.sensor with
    | .other => .error "NotImplementedError"
    | .constant => .ok (pre ++ [.apply (reconWork S.start) .constant S.mach])
    | .ducros =>
      if D = 2 ∨ D = 3 then .ok (pre ++ sensorKernels S ++ [.apply (reconWork S.start) .ducros S.mach]) else .error "ValueError"

/-- `detect_wall_boundaries`, WENO_filter.py 49-61. -/
def walls {D : ℕ} (S : Setup D) (d : Fin D) : Bool × Bool :=
  match S.boundaries with
  | none => (false, false)
  | some b => ((b d).1.isWall, (b d).2.isWall)

/-! ## Running the kernels -/

/-- Eigensystem of each direction: eigenvalues at a point from velocity and speed of sound, eigenvector matrices from averaged density, velocity and speed of sound. -/
structure Eigen (D : ℕ) where
  ev : Fin D → (Fin D → ℝ) → ℝ → Fin (D+2) → ℝ
  LEV : Fin D → ℝ → (Fin D → ℝ) → ℝ → Matrix (Fin (D+2)) (Fin (D+2)) ℝ
  REV : Fin D → ℝ → (Fin D → ℝ) → ℝ → Matrix (Fin (D+2)) (Fin (D+2)) ℝ

/-- Numerical parameters: `gama`, `dt`, `shock_filter_control`, spacings, numbers of points, stretching factors (one on a uniform mesh), eigensystem, central derivative of an array in a direction, the symbolic spacing of
the indicators and the optimal weights. -/
structure Params (D : ℕ) where
  g : ℝ
  dt : ℝ
  control : ℝ
  delta : Fin D → ℝ
  np : Fin D → ℤ
  stretch : Fin D → P D → ℝ
  eig : Eigen D
  cd : Fin D → (P D → ℝ) → P D → ℝ
  dz : ℝ
  d : Side → ℕ → ℝ

/-- The equations of the relations kernel, WENO_filter.py 152-172. -/
def primitives {D : ℕ} (g : ℝ) (q : Fin (D+2) → ℝ) : Prims D :=
  let inv_rho := 1 / q 0
  let p := (g - 1) * (q (Fin.last _) - 1 / 2 * (∑ i : Fin D, q i.succ.castSucc ^ 2) * inv_rho)
  { u := fun i => q i.succ.castSucc * inv_rho
    p := p
    a := Real.sqrt (g * p * inv_rho)
    mach := yeeSensor (localMach g (q 0) (fun i => q i.succ.castSucc) (q (Fin.last _))) }

/-- Fluxes in direction `d`, WENO_filter.py 82-84: `rho*u_j`, `rhou_i*u_j + KD(_i,_j)*p`, `(p+rhoE)*u_j`. -/
def fluxes {D : ℕ} (d : Fin D) (q : Fin (D+2) → ℝ) (v : Prims D) : Fin (D+2) → ℝ :=
  Fin.cons (q 0 * v.u d) (Fin.snoc (fun i : Fin D => q i.succ.castSucc * v.u d + if i = d then v.p else 0) ((v.p + q (Fin.last _)) * v.u d))

/-- The values on the grid line through `x` in direction `d`, positions relative to `x`; the eigenvectors at an interface are taken at simple averages of its two points (WENO_filter.py 313, shock_capturing.py 48). -/
def lineOf {D : ℕ} (E : Eigen D) (q : P D → Fin (D+2) → ℝ) (v : P D → Prims D) (d : Fin D) (x : P D) : Line (D+2) where
  f := fun y => fluxes d (q (shift x d y)) (v (shift x d y))
  q := fun y => q (shift x d y)
  ev := fun y => E.ev d (v (shift x d y)).u (v (shift x d y)).a
  LEV := fun y => E.LEV d (simpleAverage (q (shift x d y) 0) (q (shift x d (y+1)) 0))
    (fun i => simpleAverage ((v (shift x d y)).u i) ((v (shift x d (y+1))).u i)) (simpleAverage (v (shift x d y)).a (v (shift x d (y+1))).a)
  REV := fun y => E.REV d (simpleAverage (q (shift x d y) 0) (q (shift x d (y+1)) 0))
    (fun i => simpleAverage ((v (shift x d y)).u i) ((v (shift x d (y+1))).u i)) (simpleAverage (v (shift x d y)).a (v (shift x d (y+1))).a)

/-- The scheme of the filter, WENO_filter.py 313. -/
def scheme {D : ℕ} (S : Setup D) (N : Params D) : Scheme := .weno .JS S.k N.dz N.d

/-- Range of a kernel of the filter: the grid and the halo sets handed to `create_kernel`. -/
def range {D : ℕ} (np : Fin D → ℤ) (h : Fin D → Finset Ranges.HaloType × Finset Ranges.HaloType) : Ranges.Kernel D :=
  (List.finRange D).foldl (fun k d => (k.setHaloRange d false (h d).1).setHaloRange d true (h d).2) (Ranges.Kernel.onGrid fun d => (0, np d))

/-- Halo sets of the relations: `WenoHalos(order)` on every side (weno.py 17-32, WENO_filter.py 174-176). -/
def relationsRange {D : ℕ} (S : Setup D) (np : Fin D → ℤ) : Ranges.Kernel D :=
  range np fun _ => ({(-(S.k : ℤ), (S.k : ℤ) + 1)}, {(-(S.k : ℤ), (S.k : ℤ) + 1)})

/-- Halo sets of a reconstruction: one point on both sides of its direction (weno.py 24-29, shock_capturing.py 146-155). -/
def reconRange {D : ℕ} (np : Fin D → ℤ) (d : Fin D) : Ranges.Kernel D :=
  range np fun j => if j = d then ({(-1, 1)}, {(-1, 1)}) else (∅, ∅)

/-- Kernels without halos; those with stored derivatives ignore the halos they were given (C70). -/
def gridRange {D : ℕ} (np : Fin D → ℤ) : Ranges.Kernel D := Ranges.Kernel.onGrid fun d => (0, np d)

/-- The sensor equation, shock_sensors.py 45-47 and WENO_filter.py 206-210; 0 stands for the exception (C54), `program` has raised then. -/
def sensorValue {D : ℕ} (mach : Bool) (v : Prims D) (grad : Fin D → Fin D → ℝ) : ℝ :=
  (if mach then v.mach else 1) * (ducrosSensor D grad).getD 0

open Classical in
/-- Effect of a kernel. -/
def run {D : ℕ} (S : Setup D) (N : Params D) : Ker D → Arrays D → Arrays D
  | .relations, s => { s with prim := fun x => if (relationsRange S N.np).visits x then primitives N.g (s.q x) else s.prim x }
  | .recon d target, s => { s with
    work := fun n x =>
      if (reconRange N.np d).visits x then
        (match (List.finRange (D+2)).find? (fun c => decide (target c = n)) with
        | some c => ((interfaceOut true true S.order (scheme S N) (lineOf N.eig s.q s.prim d x) 0).getD 0) c
        | none => s.work n x)
      else s.work n x }
  | .derivative target i j, s => { s with
    work := fun n x =>
      if n = target ∧ (gridRange N.np).visits x then N.cd j (fun y => (s.prim y).u i) x else s.work n x }
  | .sensor source, s => { s with
    kappa := fun x =>
      if (gridRange N.np).visits x then
        sensorValue S.mach (s.prim x) fun i j => N.stretch j x * (match source with
          | some w => s.work (w i j) x
          | none => N.cd j (fun y => (s.prim y).u i) x)
      else s.kappa x }
  | .apply source sensor mach, s => { s with
    q := fun x c =>
      if (gridRange N.np).visits x then
        wenoFilterUpdate (walls S) N.np N.control N.dt
          (match sensor with
            | .ducros => kappaMax s.kappa x
            | _ => if mach then 1 * (s.prim x).mach else 1)
          (-∑ d, N.stretch d x * ((s.work (source d c) x - s.work (source d c) (shift x d (-1))) / N.delta d))
          (s.q x c) x
      else s.q x c }

/-- All kernels in order. -/
def runAll {D : ℕ} (S : Setup D) (N : Params D) (ks : List (Ker D)) (s : Arrays D) : Arrays D := ks.foldl (fun s k => run S N k s) s

/-! ## Metrics of the eigensystem -/

/-- Classes of equations set on the block which matter here. -/
inductive EqClass where
  | metrics (diagonal : Bool)
  | other
  deriving DecidableEq

/-- Metrics used by `generate_eig_system`, euler_eigensystem.py 50-56: `block.fd_metrics` (block.py 288-311) is the identity unless a metric class has been set on the block, two are an error (`none`); `true` stands
for the metrics of the transformation, `false` for the identity. -/
def eigenUsesMetrics (classes : List EqClass) : Option Bool :=
  match classes.filter (· ≠ .other) with
  | [] => some false
  | [.metrics diagonal] => some (!diagonal)
  | _ => none

end

end OpenSBLI.WenoFilter
