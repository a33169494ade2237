import Verif.Model.MetricProgram

/-!
# Second derivatives on mapped grids

The transformed second derivatives (equation_types/metric.py 149-205, core/opensblifunctions.py 534-543) and the kernels `MetricsEquation.spatial_discretisation` makes for them (metric.py 241-273): after the metric terms their halos are
filled (`metric_boundary_condition`, 315-332), then the derivatives `SDijk` of the metric terms are evaluated.
-/
namespace OpenSBLI.Sim
open OpenSBLI.Metric (fdValue sdStored)

variable {D n : ℕ}

/-- `SD%d%d%d`, metric.py 181. -/
def sdName (k i l : Fin D) : String := s!"SD{k.val}{i.val}{l.val}"

/-! ## Equations -/

/-- A factor of a term: metric terms equal to one are not written. -/
def withMetric (cur str : Fin D → Bool) (k j : Fin D) (e : Ex D) : Option (Ex D) :=
  match fdValue cur str k j with
  | .zero => none
  | .one => some e
  | .stored => some (.mul (.arr (.data (metricName k j))) e)

/-- `CentralDerivative(f, xi_k, xi_l)` as it is discretised: `_sanitise`, opensblifunctions.py 340-353, called when the equations are discretised (scheme.py 194, `_sanitise_equation`, opensbliequations.py 184-196), nests derivatives in different directions, the lower direction inside. -/
def secondOf (k l : Fin D) (e : Ex D) : Ex D := if k = l then .cd k 2 e else .cd (max k l) 1 (.cd (min k l) 1 e)

/-- The terms of the second derivative in Cartesian directions `i` and `j`, `MetricDer(MetricDer(f, x_i), x_j)` (metric.py 221-225) with the substitutions of 189: the chain rule applied twice. Simplified: written out as a sum. -/
def secondTerms (cur str : Fin D → Bool) (i j : Fin D) (e : Ex D) : List (Ex D) :=
  (List.finRange D).flatMap fun l => (List.finRange D).flatMap fun k =>
    ((withMetric cur str k i (secondOf k l e)).bind (withMetric cur str l j)).toList ++
    (if sdStored cur str k i l then (withMetric cur str l j (.mul (.arr (.data (sdName k i l))) (.cd k 1 e))).toList else [])

/-- `classical_strong_differentiabilty_transformation_sd`, opensblifunctions.py 541-542. -/
def secondTransformed (cur str : Fin D → Bool) (i j : Fin D) (e : Ex D) : Ex D :=
  match secondTerms cur str i j e with
  | [] => .num 0
  | t :: l => l.foldl .add t

/-- A term of an equation: a coefficient times a first or second derivative in Cartesian directions. -/
structure Term (D : ℕ) where
  coef : Ex D
  dir : Fin D
  second : Option (Fin D)
  arg : Ex D

/-- `apply_transformation`, metric.py 227-234, of one term. -/
def Term.mapped (cur str : Fin D → Bool) (t : Term D) : Ex D :=
  .mul t.coef (match t.second with
    | none => transformed cur str t.dir t.arg
    | some j => secondTransformed cur str t.dir j t.arg)

/-- `apply_transformation` of a right hand side. -/
def mappedTerms (cur str : Fin D → Bool) : List (Term D) → Ex D
  | [] => .num 0
  | t :: l => l.foldl (fun e t => .add e (t.mapped cur str)) (t.mapped cur str)

/-! ## Halos of the metric terms -/

/-- How the halos of the metric terms are filled in a direction: `PeriodicBC` if the boundary is periodic (metric.py 326-328), otherwise `MetricBoundaryCondition` (329-331). -/
inductive Fill where
  | periodic
  | mirror
  deriving DecidableEq

/-- The index of the point a halo point gets its value from. Periodic exchanges copy from the other end (core/boundary_conditions/periodic.py, C24); `MetricBoundaryCondition.apply`, metric.py 372-379, copies from the point at the same
distance on the other side of the boundary point. -/
def Fill.source (f : Fill) (np : ℤ) (i : ℤ) : ℤ :=
  match f with
  | .periodic => i % np
  | .mirror => if i < 0 then -i else if np ≤ i then 2 * (np - 1) - i else i

/-- The point a point gets its value from when the halos of direction `d` are filled. -/
def sourcePoint (fill : Fin D → Fill) (np : Fin D → ℤ) (d : Fin D) (x : P D) : P D := Function.update x d ((fill d).source (np d) (x d))

/-- What the metric terms and their derivatives are computed with: besides the flags, how the halos are filled, the order in which the set of derivatives of the metric terms is listed, and the index of their first work array. -/
structure Metrics2 (D : ℕ) extends Metrics D where
  fill : Fin D → Fill
  sders : List (Fin D × Fin D × Fin D)
  w1 : ℕ

/-- All derivatives, once each. -/
structure Metrics2.Listed (M : Metrics2 D) : Prop where
  first : M.toMetrics.Listed
  nodup : M.sders.Nodup
  mem : ∀ p, p ∈ M.sders ↔ sdStored M.cur M.str p.1 p.2.1 p.2.2 = true

/-- `arrays`, metric.py 316-318: the stored metric terms and the determinant. -/
def Metrics2.filled (M : Metrics2 D) : List Arr :=
  (((List.finRange D).flatMap fun k => (List.finRange D).map fun j => (k, j)).filter fun p => decide (fdValue M.cur M.str p.1 p.2 = .stored)).map (fun p => .data (metricName p.1 p.2)) ++ [.data "detJ"]

/-- The boundary kernels of both sides of direction `d`. Simplified: one kernel over all points including halos, in which points which are no halo points in this direction get their own value; the code runs over the boundary plane,
halos of the other directions included (core/boundary_conditions/bc_core.py, `bc_plane_kernel`), and writes the halo points at fixed distances. -/
def Metrics2.fillKernel (M : Metrics2 D) (np : Fin D → ℤ) (h : ℤ) (d : Fin D) : FnKer D :=
  ⟨rangeOf np h (List.finRange D), M.filled.map fun a => (a, fun _ m x => m a (sourcePoint M.fill np d x))⟩

/-- Work array of a derivative of a metric term, scheme.py 307-309. -/
def Metrics2.work2 (M : Metrics2 D) (p : Fin D × Fin D × Fin D) : ℕ := M.w1 + M.sders.idxOf p

/-- The kernels of the derivatives of the metric terms, scheme.py 316-322. -/
def Metrics2.sdKernels (M : Metrics2 D) (np : Fin D → ℤ) (h : ℤ) : List (Ker D) :=
  M.sders.map fun p => ⟨rangeOf np h [], [(.work (M.work2 p), .cd p.2.2 1 (.arr (.data (metricName p.1 p.2.1))))]⟩

/-- The kernel of the equations `SDijk` (`generate_sd_metrics_equations`, metric.py 207-212), scheme.py 128-133. -/
def Metrics2.sdEval (M : Metrics2 D) (np : Fin D → ℤ) (h : ℤ) : FnKer D :=
  ⟨rangeOf np h [], M.sders.map fun p => (.data (sdName p.1 p.2.1 p.2.2), fun _ m x => m (.work (M.work2 p)) x)⟩

/-- All kernels, metric.py 253-268. -/
noncomputable def Metrics2.kernels (M : Metrics2 D) (np : Fin D → ℤ) (h : ℤ) : List (Call D) :=
  M.toMetrics.kernels np h ++ (List.finRange D).map (fun d => .fn (M.fillKernel np h d)) ++ (if M.sders = [] then [] else (M.sdKernels np h).map .comp ++ [.fn (M.sdEval np h)])

/-- Their entry in the program: before the time loop, after the initial conditions (metric.py 24-25). -/
noncomputable def Metrics2.item (M : Metrics2 D) (np : Fin D → ℤ) (h : ℤ) : Alg.Item (Call D) := .nonSimulation 1 [.before] (M.kernels np h)

end OpenSBLI.Sim
