import Verif.Model.Metric
import Verif.Model.AlgorithmMB

/-!
# Metric terms at block interfaces

Model of `MetricsEquation.apply_interface_bc`, `fd_interface_factors` and `MetricInterfaceBC`, equation_types/metric.py 290-313 and 335-363, with
`InterfaceBC.set_kernel_range`, core/boundary_conditions/multi_block.py 23-39, and of the first part of the metric kernels of all blocks, multiblock/algorithm.py 504-506.
-/
namespace OpenSBLI.Metric
open Ranges MultiBlock

variable {n : ℕ}

/-- The arrays of the metric class: `Dij` and `detJ`. -/
inductive Term (n : ℕ) where
  | metric (i j : Fin n)
  | det
  deriving DecidableEq

/-- The entries of `FD_metrics[:]` which are data objects, row by row: `isinstance(a, DataObject)`, metric.py 291-292 and 303-308. -/
def storedEntries (cur str : Fin n → Bool) : List (Fin n × Fin n) :=
  ((List.finRange n).flatMap fun i => (List.finRange n).map fun j => (i, j)).filter fun p => fdValue cur str p.1 p.2 = .stored

/-- `arrays`, metric.py 291-292. -/
def interfaceArrays (cur str : Fin n → Bool) : List (Term n) := ((storedEntries cur str).map fun p => .metric p.1 p.2) ++ [.det]

/-- `fd_interface_factors`, metric.py 299-313. -/
def interfaceFactors (cur str : Fin n → Bool) (direction : Fin n) : List ℝ := ((storedEntries cur str).map fun p => interfaceFactor direction p.1) ++ [-1]

/-- `generate_boundary_kernel` for an interface with `halo_ranges[direction][side]` set afterwards: multi_block.py 23-39 (no point of the grid), bc_core.py 158-167, metric.py 357. -/
def interfacePlaneKernel (b : Block n) (direction : Fin n) (side : Bool) : Kernel n :=
  { ranges := Function.update b.ranges direction (if side then ((b.ranges direction).2, (b.ranges direction).2) else ((b.ranges direction).1, (b.ranges direction).1))
    halos := fun d => if d = direction then (if side then (∅, (b.boundaryHalos d).2) else ((b.boundaryHalos d).1, ∅)) else b.boundaryHalos d }

instance (k : Kernel n) (x : Fin n → ℤ) : Decidable (k.visits x) := inferInstanceAs (Decidable (∀ _, _))

/-- The kernel of `MetricInterfaceBC`, metric.py 349-358: at every point of its range the equations `ar = factor * ar`, one for each pair of array and factor. -/
noncomputable def signKernel (cur str : Fin n → Bool) (b : Block n) (direction : Fin n) (side : Bool) (st : Term n → (Fin n → ℤ) → ℝ) (t : Term n) (x : Fin n → ℤ) : ℝ :=
  if (interfacePlaneKernel b direction side).visits x then
    ((interfaceArrays cur str).zip (interfaceFactors cur str direction)).foldl (fun v e => if e.1 = t then e.2 * v else v) (st t x)
  else st t x

/-- The arrays of all blocks. -/
abbrev Arrays (n B : ℕ) := Fin B → Term n → (Fin n → ℤ) → ℝ

section Phase
variable [NeZero n] {B : ℕ} (cur str : Fin n → Bool) (shared : Bool) (blocks : Fin B → Block n)

/-- The exchange of one interface, `block.apply_interface_bc(arrays, …)`, metric.py 341: all arrays of the list. -/
def pushTerms (st : Arrays n B) (l : Link n B) : Arrays n B :=
  Function.update st l.dst fun t =>
    if t ∈ interfaceArrays cur str then
      transfer (interface shared (blocks l.src).np (blocks l.dst).np (haloValues (blocks l.dst)) l.direction l.side l.target) l.target (st l.src t) (st l.dst t)
    else st l.dst t

/-- The kernel on the other block, metric.py 343-359. -/
noncomputable def flipTerms (st : Arrays n B) (l : Link n B) : Arrays n B :=
  Function.update st l.dst (signKernel cur str (blocks l.dst) l.target.direction l.target.side (st l.dst))

/-- `fd_kernels` of all blocks, one after another (algorithm.py 505-506): the kernels of the block itself, `own b` (evaluation and conditions on its own sides, metric.py 255-261), then the exchanges of its
interfaces, then the kernels changing signs (metric.py 341-359). -/
noncomputable def metricPhase (own : Fin B → (Term n → (Fin n → ℤ) → ℝ) → Term n → (Fin n → ℤ) → ℝ) (links : Fin B → List (Link n B)) (st : Arrays n B) : Arrays n B :=
  (List.finRange B).foldl (fun st b => (links b).foldl (flipTerms cur str blocks) ((links b).foldl (pushTerms cur str shared blocks) (Function.update st b (own b (st b))))) st

end Phase

end OpenSBLI.Metric
