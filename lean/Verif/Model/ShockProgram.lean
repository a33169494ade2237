import Verif.Model.Simulation
import Verif.Model.Llf

/-!
# The whole program of a simulation with a shock capturing scheme

`LLFWeno.discretise` and `LLFTeno.discretise` (schemes/spatial/weno.py 486-521, teno.py 489-530; not the adaptive TENO of 516-521) with what they call in schemes/spatial/shock_capturing.py, followed by a central scheme for the remaining
derivatives: the spatial kernels which `SimulationEquations.spatial_discretisation` (equation_types/opensbliequations.py 269-322) collects from both, put into the program by `Model/Simulation.lean`.

Simplified: the reconstruction kernel is one function from arrays to interface fluxes (`Llf.interfaceFlux`); its equations in grid variables are those of `Model/ReconKernel.lean`, and compute these fluxes (C81). Eigenvalues and eigenvectors are given as expressions of
datasets. The shock capturing scheme is listed on the block before the central one, as in the applications. Every equation has one shock capturing derivative in every direction in which there are any; otherwise
matrices of different sizes are multiplied (shock_capturing.py 497-508). Without a central scheme the problem has `order = 0`.
-/
namespace OpenSBLI.Sim

variable {D n : ℕ}

/-- A problem. `toSetup` holds what concerns the central scheme: its right hand sides are those of the equations with the shock capturing derivatives replaced by zero. The right hand side of equation `i` is
`Σ coef d i * WD_d(flux d i)` over the directions, in increasing order (weno.py 504), plus that rest. `ev`, `lev` and `rev` are the entries of the eigenvalue matrix and of the eigenvector matrices, `avg` the averaging of
the values at two points, `avgReads t` the datasets it reads for `t`, `spacing` the constants `Delta%dblock%d`. -/
structure Shock (D n : ℕ) extends Setup D n where
  scheme : Llf.Scheme
  dirs : List (Fin D)
  coef : Fin D → Fin n → Ex D
  flux : Fin D → Fin n → Ex D
  ev : Fin D → Fin n → Ex D
  lev : Fin D → Fin n → Fin n → Ex D
  rev : Fin D → Fin n → Fin n → Ex D
  avg : (String → ℝ) → (String → ℝ) → String → ℝ
  avgReads : String → List String
  spacing : Fin D → String

/-- The `k` of `WenoHalos` and `TenoHalos`, weno.py 24 and teno.py 26-29; TENO of order 8 cannot be constructed. -/
def schemeK : Llf.Scheme → ℤ
  | .weno _ k _ _ => k
  | .teno _ _ _ => 3

/-- `halotype`, weno.py 26, teno.py 30. -/
def haloType (s : Llf.Scheme) : Ranges.HaloType := (-schemeK s, schemeK s + 1)

/-- Halos on both sides of some directions, by repeated `set_halo_range` (kernel.py 110-117). -/
def haloOn (k : Ranges.Kernel D) (t : Ranges.HaloType) (dirs : List (Fin D)) : Ranges.Kernel D :=
  dirs.foldl (fun k d => (k.setHaloRange d false {t}).setHaloRange d true {t}) k

/-! ## Constituent relations -/

/-- `required_symbols`, shock_capturing.py 311-316. -/
def Shock.symbols (C : Shock D n) (d : Fin D) : List String :=
  (List.finRange n).flatMap fun i => (C.flux d i).datas ++ (C.ev d i).datas ++ (List.finRange n).flatMap fun j => (C.lev d i j).datas ++ (C.rev d i j).datas

/-- All datasets in the dictionaries the schemes return: the symbols of the directions (shock_capturing.py 119-131), all datasets of the equations (133-144), and those required by the central scheme. -/
def Shock.required (C : Shock D n) (s : String) : Prop :=
  (∃ d ∈ C.dirs, s ∈ C.symbols d) ∨ (∃ i, s = C.sol i) ∨ (∃ d ∈ C.dirs, ∃ i, s ∈ (C.coef d i).datas) ∨ (∃ i, s ∈ (C.rhs i).datas) ∨ C.toSetup.required s

/-- `required_constituent_relations_symbols[s]`, shock_capturing.py 98-117. -/
def Shock.wenoDirs (C : Shock D n) (s : String) : List (Fin D) := C.dirs.filter fun d => decide (s ∈ C.symbols d)

/-- The range of a relation: shock_capturing.py 123-130, merged with that of the central scheme (opensbliequations.py 301-304). -/
def Shock.relRange (C : Shock D n) (s : String) : Ranges.Kernel D :=
  (haloOn (Ranges.Kernel.onGrid fun d => (0, C.np d)) (haloType C.scheme) (C.wenoDirs s)).mergeHaloRange (rangeOf C.np C.h (C.crDirs s)).halos

/-! ## Reconstruction -/

/-- Values of averaged datasets, as arrays. -/
def averaged (avg : (String → ℝ) → (String → ℝ) → String → ℝ) (m : Mem D) (l r : P D) : Mem D
  | .data t => fun _ => avg (fun s => m (.data s) l) (fun s => m (.data s) r) t
  | a => m a

/-- The values along the line through `x` in direction `d`, from the arrays: fluxes and solution shifted to the points (shock_capturing.py 450-462 and 497-510), eigenvalues there (512-522), eigenvectors with averages of
a point and the next one (302-317 and averaging.py). -/
def Shock.line (C : Shock D n) (I : Interp D) (m : Mem D) (d : Fin D) (x : P D) : Llf.Line n where
  f := fun y i => (C.flux d i).eval I m (shift x d y)
  q := fun y i => m (.data (C.sol i)) (shift x d y)
  ev := fun y i => (C.ev d i).eval I m (shift x d y)
  LEV := fun y => Matrix.of fun i j => (C.lev d i j).eval I (averaged C.avg m (shift x d y) (shift x d (y + 1))) x
  REV := fun y => Matrix.of fun i j => (C.rev d i j).eval I (averaged C.avg m (shift x d y) (shift x d (y + 1))) x

/-- What the reconstruction kernel stores at a point, weno.py 512-514. -/
noncomputable def Shock.interface (C : Shock D n) (I : Interp D) (m : Mem D) (d : Fin D) (x : P D) : Fin n → ℝ := Llf.interfaceFlux C.scheme (C.line I m d x) 0

/-- Work arrays, one for every direction and equation (weno.py 507-508). -/
def Shock.reconWork (C : Shock D n) (d : Fin D) (i : Fin n) : ℕ := C.w0 + C.dirs.idxOf d * n + i

/-- The reconstruction kernel of a direction, weno.py 510-515 and shock_capturing.py 146-155. -/
noncomputable def Shock.reconKernel (C : Shock D n) (d : Fin D) : FnKer D :=
  ⟨haloOn (Ranges.Kernel.onGrid fun d => (0, C.np d)) (-1, 1) [d], (List.finRange n).map fun i : Fin n => (.work (C.reconWork d i), fun I m x => C.interface I m d x i)⟩

/-! ## Residuals -/

/-- All functions, derivatives of other schemes among them, replaced by zero, shock_capturing.py 25-29. -/
def Ex.zeroDer : Ex D → Ex D
  | .cd _ _ _ => .num 0
  | .fn _ _ => .num 0
  | .add a b => .add a.zeroDer b.zeroDer
  | .mul a b => .mul a.zeroDer b.zeroDer
  | .pow a b => .pow a.zeroDer b.zeroDer
  | e => e

/-- The difference of neighbouring interface fluxes over the spacing, core/opensblifunctions.py 588-593. -/
noncomputable def Shock.difference (C : Shock D n) (I : Interp D) (m : Mem D) (d : Fin D) (i : Fin n) (x : P D) : ℝ :=
  (m (.work (C.reconWork d i)) x - m (.work (C.reconWork d i)) (shift x d (-1))) / I.const (C.spacing d)

/-- `evaluate_residuals`, shock_capturing.py 21-34: the residuals are set, on the grid. -/
noncomputable def Shock.residualKernel (C : Shock D n) : FnKer D :=
  ⟨Ranges.Kernel.onGrid fun d => (0, C.np d), (List.finRange n).map fun i : Fin n =>
    (.res i, fun I m x => (C.dirs.map fun d => (C.coef d i).zeroDer.eval I m x * C.difference I m d i x).sum + (C.rhs i).zeroDer.eval I m x)⟩

/-- Exceptions: `constituent_relations` is unbound when there are no derivatives for the scheme (weno.py 517-521), or the relations cannot be sorted. -/
inductive ShockErr where
  | unbound
  | sort (e : SortDict.Err)

/-- All spatial kernels (opensbliequations.py 440-441): the relations, those of the shock capturing scheme, those of the central scheme, which has no convective derivatives. -/
noncomputable def Shock.spatial (C : Shock D n) : Except ShockErr (List (Call D)) :=
  if C.dirs = [] then .error .unbound else
  match C.relOrder with
  | .error e => .error (.sort e)
  | .ok order => .ok ((order.filterMap fun s => C.relKernelOn (C.relRange s) s).map .comp ++
      (C.dirs.map fun d => .fn (C.reconKernel d)) ++ [.fn C.residualKernel] ++ C.viscKernels.map .comp)

/-! ## Boundaries -/

/-- `boundary_halos` of the block: the central scheme asks for its halos in all directions (scheme.py 102-112), the shock capturing scheme in the directions of its derivatives (shock_capturing.py 153-154). -/
def Shock.block (C : Shock D n) : Ranges.Block D where
  np := C.np
  boundaryHalos := fun d =>
    let s := (if d ∈ C.dirs then {haloType C.scheme} else ∅) ∪ {(-C.h, C.h)}
    (s, s)

/-- The exchanges of a block periodic in all directions, on every solution array; the halos are those of direction 0 (bc_core.py 145-156). -/
def Shock.exchange [NeZero D] (C : Shock D n) (v : Fin n → P D → ℝ) : Fin n → P D → ℝ := fun i => Ranges.exchangeAll C.np (Ranges.haloValues C.block) (List.finRange D) (v i)

/-! ## Averages -/

/-- `SimpleAverage`, averaging.py 36-58. -/
noncomputable def simpleAvg (l r : String → ℝ) (t : String) : ℝ := Llf.simpleAverage (l t) (r t)

/-- The values `RoeAverage` reads at a point. -/
def primOf (d : ℕ) (v : String → ℝ) : Llf.Prim d := ⟨v "rho", fun i => v s!"u{i.val}", v "p", v "rhoE"⟩

/-- `RoeAverage`, averaging.py 69-112, for the symbols of the eigensystem: density, velocities and speed of sound; other datasets are metric terms. -/
noncomputable def roeAvg (d : ℕ) (g : ℝ) (l r : String → ℝ) (t : String) : ℝ :=
  if t = "rho" then Llf.roeRho (primOf d l) (primOf d r)
  else if t = "a" then Llf.roeA g (primOf d l) (primOf d r)
  else match (List.finRange d).find? fun i => decide (t = s!"u{i.val}") with
    | some i => Llf.roeU (primOf d l) (primOf d r) i
    | none => Llf.simpleAverage (l t) (r t)

/-- What it reads. -/
def roeReads (d : ℕ) (t : String) : List String := t :: "rho" :: "p" :: "rhoE" :: (List.finRange d).map fun i => s!"u{i.val}"

end OpenSBLI.Sim
