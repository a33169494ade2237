import Verif.Model.Metric
import Verif.Model.Simulation

/-!
# Simulations on mapped grids

The equations of a simulation after `apply_transformation` (equation_types/metric.py 227-234) and the kernels which compute the metric terms before the time loop (`MetricsEquation.spatial_discretisation`, metric.py 241-273, with
`Central.discretise` and `general_discretisation`, schemes/spatial/scheme.py 113-136 and 299-328), in the programs of `Model/Simulation.lean`.

Simplified: equations with first derivatives of expressions without derivatives; the second metric terms `SDijk`, which such equations do not contain, and the exchange of the halos of the metric terms (metric.py 260), which such
equations do not read, are left out. SymPy multiplies numbers into the sums which replace the derivatives; the terms are the same.
-/
namespace OpenSBLI.Sim
open OpenSBLI.Metric (fdValue)

variable {D n : ℕ}

/-- `D%d%d`, metric.py 79. -/
def metricName (k j : Fin D) : String := s!"D{k.val}{j.val}"

/-- The arrays of the Cartesian coordinates, metric.py 46 and 104: the symbol of the coordinates and a number. -/
def coordName (symbol : String) (i : Fin D) : String := s!"{symbol}{i.val}"

/-! ## Equations -/

/-- The terms of a transformed derivative: one for each curvilinear direction (metric.py 113-120), those with a vanishing metric term disappear, metric terms equal to one are not written. -/
def metricTerms (cur str : Fin D → Bool) (j : Fin D) (e : Ex D) : List (Ex D) :=
  (List.finRange D).filterMap fun k => match fdValue cur str k j with
    | .zero => none
    | .one => some (.cd k 1 e)
    | .stored => some (.mul (.arr (.data (metricName k j))) (.cd k 1 e))

/-- `classical_strong_differentiabilty_transformation`, core/opensblifunctions.py 534-543: the derivative in Cartesian direction `j`. -/
def transformed (cur str : Fin D → Bool) (j : Fin D) (e : Ex D) : Ex D :=
  match metricTerms cur str j e with
  | [] => .num 0
  | t :: l => l.foldl .add t

/-- `apply_transformation`, metric.py 227-234, for first derivatives; others are not treated. -/
def Ex.mapped (cur str : Fin D → Bool) : Ex D → Ex D
  | .cd j 1 e => transformed cur str j e
  | .add a b => .add (a.mapped cur str) (b.mapped cur str)
  | .mul a b => .mul (a.mapped cur str) (b.mapped cur str)
  | .pow a b => .pow (a.mapped cur str) (b.mapped cur str)
  | .fn f e => .fn f (e.mapped cur str)
  | e => e

/-! ## Metric terms -/

/-- What the metric terms are computed with: the flags of `generate_transformations` (metric.py 42-43), the symbol of the coordinates, the order in which the set of derivatives is listed (`get_local_function`, scheme.py 138-143),
as pairs of Cartesian coordinate and direction, and the index of the first work array. -/
structure Metrics (D : ℕ) where
  cur : Fin D → Bool
  str : Fin D → Bool
  symbol : String
  ders : List (Fin D × Fin D)
  w0 : ℕ

/-- All derivatives in the equations of the metric terms, once each. -/
structure Metrics.Listed (M : Metrics D) : Prop where
  nodup : M.ders.Nodup
  mem : ∀ p, p ∈ M.ders ↔ fdValue M.cur M.str p.1 p.2 = .stored

/-- Work array of a derivative, scheme.py 307-309. -/
def Metrics.work (M : Metrics D) (p : Fin D × Fin D) : ℕ := M.w0 + M.ders.idxOf p

/-- The kernels of the derivatives of the coordinates, scheme.py 316-322. -/
def Metrics.derKernels (M : Metrics D) (np : Fin D → ℤ) (h : ℤ) : List (Ker D) :=
  M.ders.map fun p => ⟨rangeOf np h [], [(.work (M.work p), .cd p.2 1 (.arr (.data (coordName M.symbol p.1))))]⟩

/-- The kernel of the metric terms, scheme.py 128-133: the equations of `generate_fd_metrics_equations` (metric.py 137-147) with work arrays in place of the derivatives. Equations are made for the stored metric terms only, as those between
numbers are not of the type `Equality` (metric.py 144). -/
noncomputable def Metrics.evalKernel (M : Metrics D) (np : Fin D → ℤ) (h : ℤ) : FnKer D :=
  ⟨rangeOf np h [],
    (.data "detJ", fun _ m x => Metric.detJ M.cur M.str (Matrix.of fun i j => m (.work (M.work (i, j))) x)) ::
    (((List.finRange D).flatMap fun k => (List.finRange D).map fun j => (k, j)).filter fun p => decide (fdValue M.cur M.str p.1 p.2 = .stored)).map fun p =>
      (.data (metricName p.1 p.2), fun _ m x => Metric.fdMetric M.cur M.str (Matrix.of fun i j => m (.work (M.work (i, j))) x) p.1 p.2)⟩

/-- All kernels of the metric terms; none if there are no derivatives (scheme.py 123, 327-328). -/
noncomputable def Metrics.kernels (M : Metrics D) (np : Fin D → ℤ) (h : ℤ) : List (Call D) :=
  if M.ders = [] then [] else (M.derKernels np h).map .comp ++ [.fn (M.evalKernel np h)]

/-- Their entry in the program: before the time loop, after the initial conditions (metric.py 24-25). -/
noncomputable def Metrics.item (M : Metrics D) (np : Fin D → ℤ) (h : ℤ) : Alg.Item (Call D) := .nonSimulation 1 [.before] (M.kernels np h)

end OpenSBLI.Sim
