import Verif.Model.Ranges
import Verif.Model.Central
import Verif.Model.Llf
import Mathlib.Data.List.Infix
import Mathlib.Algebra.Group.Pi.Basic

/-!
# Allocation of arrays and the points accessed by the generated kernels

Model of `code_generation/opsc.py` (`get_max_halos` and `declare_dataset`, 679-722), `core/kernel.py`
(`update_block_datasets` 295-312), `core/block.py` (`get_all_scheme_halos` 277-286), and of the ranges given to the kernels by
`schemes/spatial/scheme.py`, `shock_capturing.py`, and `core/boundary_conditions`.
-/
namespace OpenSBLI.Mem
open Ranges

variable {n : ℕ}

/-- `'Residual' in str(dset) or 'tempRK' in str(dset) or 'RKold' in str(dset)`, opsc.py 707. -/
def noHalos (name : String) : Prop :=
  "Residual".toList <:+: name.toList ∨ "tempRK".toList <:+: name.toList ∨ "RKold".toList <:+: name.toList

instance (name : String) : Decidable (noHalos name) := by unfold noHalos; infer_instance

/-- Depths declared for an array: none (opsc.py 707-708) or those of `CentralHalos_defdec` (scheme.py 47-60) given to every array in
every direction by `update_block_datasets` (kernel.py 307-310). -/
def declaredHalos (name : String) : ℤ × ℤ := if noHalos name then (0, 0) else (-5, 5)

/-- Index `x` is inside the memory of the array, halos included (`ops_decl_dat` with `base = 0`, `size = np`). -/
def Allocated (np : Fin n → ℤ) (name : String) (x : Fin n → ℤ) : Prop :=
  ∀ d, (declaredHalos name).1 ≤ x d ∧ x d < np d + (declaredHalos name).2

/-- The offset by `j` points in a direction. -/
def along (direction : Fin n) (j : ℤ) : Fin n → ℤ := Function.update (0 : Fin n → ℤ) direction j

/-- A kernel with the (array, relative offset) pairs its equations access. -/
structure Access (n : ℕ) where
  kernel : Kernel n
  accesses : Set (String × (Fin n → ℤ))

/-- All points touched by the parallel loop. -/
def Access.Touches (a : Access n) (name : String) (y : Fin n → ℤ) : Prop :=
  ∃ x o, a.kernel.visits x ∧ (name, o) ∈ a.accesses ∧ y = fun d => x d + o d

/-- Request of a halo type on both sides of every listed direction: the pattern of scheme.py 165-171, 223-224, 278-279, 379-380 and
shock_capturing.py 128-129, 151-152. -/
def requestBoth (t : HaloType) (k : Kernel n) (dirs : List (Fin n)) : Kernel n :=
  dirs.foldl (fun k d => (k.setHaloRange d false {t}).setHaloRange d true {t}) k

/-- Kernel of a central derivative in `direction` of array `arg` (scheme.py 225-229, 319-323 with no one-sided closure): the grid, with the halos of the directions of the
derivatives around it (`traverse` 376-380). -/
def centralDerivative (np : Fin n → ℤ) (order : ℕ) (arg work : String) (direction : Fin n) (outer : List (Fin n)) : Access n :=
  { kernel := requestBoth (Central.halos order) (Kernel.onGrid fun d => (0, np d)) outer
    accesses := { a | a = (work, 0) ∨ ∃ j ∈ Central.points order, a = (arg, along direction j) } }

/-- Kernel evaluating point by point (constituent relations: scheme.py 163-171, shock_capturing.py 121-131; products to be differentiated:
scheme.py 214-224) on the grid and the halos of the directions in which the result is differentiated. -/
def pointwise (np : Fin n → ℤ) (t : HaloType) (names : Set String) (dirs : List (Fin n)) : Access n :=
  { kernel := requestBoth t (Kernel.onGrid fun d => (0, np d)) dirs
    accesses := { a | a.1 ∈ names ∧ a.2 = 0 } }

/-- `WenoHalos(order)` (weno.py 24-31; `k = (order+1)/2`) and `TenoHalos` (teno.py 25-33; orders 5 and 6, the ones modelled). -/
def schemeHalos : Llf.Scheme → HaloType
  | .weno _ k _ _ => (-(k : ℤ), k + 1)
  | .teno _ _ _ => (-3, 4)

/-- Kernel of the reconstruction in a direction, shock_capturing.py 147-155: one extra point on each side (`reconstruction=True`); it reads
the solution and fluxes `args` at the stencil points and both sides of the interface, and writes the work arrays. -/
def reconstruction (np : Fin n → ℤ) (s : Llf.Scheme) (args works : Set String) (direction : Fin n) : Access n :=
  { kernel := requestBoth (-1, 1) (Kernel.onGrid fun d => (0, np d)) [direction]
    accesses := { a | (a.1 ∈ works ∧ a.2 = 0) ∨
      (a.1 ∈ args ∧ ∃ j : ℤ, (j ∈ s.stencilPoints ∨ j = 0 ∨ j = 1) ∧ a.2 = along direction j) } }

/-- Kernel of the conservative derivative from the interface fluxes (shock_capturing.py 21-34; offsets 0 and -1 in the direction of each
flux). -/
def fluxDifference (np : Fin n → ℤ) (work : Fin n → String) (residual : String) : Access n :=
  { kernel := Kernel.onGrid fun d => (0, np d)
    accesses := { a | a = (residual, 0) ∨ ∃ d, ∃ j : ℤ, (j = 0 ∨ j = -1) ∧ a = (work d, along d j) } }

/-- A boundary condition kernel filling `depth` halo points of a side from points inside (`bc_plane_kernel`; symmetry.py, extrapolation.py,
walls: offsets `±i`, `i ≤ depth`, along the direction). -/
def boundary (b : Block n) (names : Set String) (direction : Fin n) (side : Bool) (depth : ℤ) : Access n :=
  { kernel := bcPlaneKernel b direction side
    accesses := { a | a.1 ∈ names ∧ ∃ j : ℤ, -depth ≤ j ∧ j ≤ depth ∧ a.2 = along direction j } }

/-! ## Nested derivatives -/

/-- Expressions with central derivatives: other operations keep only their arguments. -/
inductive Dx (n : ℕ) where
  | atom
  | op (a b : Dx n)
  | der (direction : Fin n) (arg : Dx n)
deriving DecidableEq

/-- The derivatives met by `postorder_traversal`, scheme.py 360-367. -/
def Dx.postorder : Dx n → List (Dx n)
  | .atom => []
  | .op a b => a.postorder ++ b.postorder
  | .der d a => a.postorder ++ [.der d a]

/-- Direction of a derivative. -/
def Dx.dir? : Dx n → Option (Fin n)
  | .der d _ => some d
  | _ => none

/-- Halo requests made by `traverse` (scheme.py 369-380) for one derivative: every inner derivative is requested in the direction of the
*next* derivative of the traversal. -/
def Dx.requests (e : Dx n) : List (Dx n × Fin n) :=
  (e.postorder.zip e.postorder.tail).filterMap fun p => p.2.dir?.map fun d => (p.1, d)

/-- Directions requested for the kernel of the derivative `c`, over all the derivatives `cds` of the equations (scheme.py 316-318). -/
def requestedFor (cds : List (Dx n)) (c : Dx n) : List (Fin n) :=
  (cds.flatMap Dx.requests).filterMap fun p => if p.1 = c then some p.2 else none

/-- Kernel of a derivative among the derivatives `cds` of the equations. -/
def derivativeKernel (np : Fin n → ℤ) (order : ℕ) (cds : List (Dx n)) (c : Dx n) : Kernel n :=
  requestBoth (Central.halos order) (Kernel.onGrid fun d => (0, np d)) (requestedFor cds c)

/-- Derivatives directly inside an expression (not inside another derivative): the stored work arrays its kernel reads. -/
def Dx.direct : Dx n → List (Dx n)
  | .atom => []
  | .op a b => a.direct ++ b.direct
  | .der d a => [.der d a]

end OpenSBLI.Mem
