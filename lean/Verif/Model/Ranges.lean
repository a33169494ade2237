import Mathlib.Data.Finset.Lattice.Fold
import Mathlib.Data.Finset.Insert
import Mathlib.Algebra.Order.Group.Int
import Mathlib.Algebra.Order.Group.Unbundled.Abs
import Mathlib.Data.Finset.Prod

/-!
# Iteration ranges, halo requests, boundary planes and periodic exchanges

Model of `core/kernel.py` (`set_halo_range`, `merge_halo_range`, `total_range`, 105-125 and 214-230),
`utilities/helperfunctions.py` (`get_min_max_halo_values` 13-30),
`core/boundary_conditions/bc_core.py` (`set_kernel_range`, `get_halo_values`, `bc_plane_kernel`,
128-167), `core/boundary_conditions/periodic.py` and the meaning of an OPS halo transfer.
-/
namespace OpenSBLI.Ranges

/-- A halo type: the values of `get_halos(0)` and `get_halos(1)` (scheme.py 32-44, weno.py 17-32).
Python compares halo objects by identity; only these two numbers are ever used. -/
abbrev HaloType := ℤ × ℤ

/-- One `[set(), set()]` entry of `boundary_halos` or `halo_ranges`. -/
abbrev HaloSets := Finset HaloType × Finset HaloType

/-- Lower part of `get_min_max_halo_values`, helperfunctions.py 18-22: `min` over the set, `0` for an
empty set. -/
def minHalo (s : Finset HaloType) : ℤ := if h : s.Nonempty then s.inf' h Prod.fst else 0

/-- Upper part, lines 23-27: `max` over the set, `0` for an empty set. -/
def maxHalo (s : Finset HaloType) : ℤ := if h : s.Nonempty then s.sup' h Prod.snd else 0

variable {n : ℕ}

/-- A computational kernel, as far as its range is concerned. -/
structure Kernel (n : ℕ) where
  /-- `ranges` -/
  ranges : Fin n → ℤ × ℤ
  /-- `halo_ranges` -/
  halos : Fin n → HaloSets

/-- A kernel over the grid without halos: `set_grid_range` (kernel.py 105-108) on a new kernel. -/
def Kernel.onGrid (ranges : Fin n → ℤ × ℤ) : Kernel n := ⟨ranges, fun _ => (∅, ∅)⟩

/-- `set_halo_range`, kernel.py 110-117, adding a set of types on a side (`false` is side 0). -/
def Kernel.setHaloRange (k : Kernel n) (direction : Fin n) (side : Bool) (types : Finset HaloType) :
    Kernel n :=
  ⟨k.ranges, Function.update k.halos direction
      (if side then ((k.halos direction).1, (k.halos direction).2 ∪ types)
        else ((k.halos direction).1 ∪ types, (k.halos direction).2))⟩

/-- `merge_halo_range`, kernel.py 119-125. -/
def Kernel.mergeHaloRange (k : Kernel n) (h : Fin n → HaloSets) : Kernel n :=
  { k with halos := fun d => ((k.halos d).1 ∪ (h d).1, (k.halos d).2 ∪ (h d).2) }

/-- `total_range`, kernel.py 222-229 (the branch with numerical ranges). -/
def Kernel.totalRange (k : Kernel n) (d : Fin n) : ℤ × ℤ :=
  ((k.ranges d).1 + minHalo (k.halos d).1, (k.ranges d).2 + maxHalo (k.halos d).2)

/-- Grid points visited by the parallel loop of a kernel (OPS ranges are half open). -/
def Kernel.visits (k : Kernel n) (x : Fin n → ℤ) : Prop :=
  ∀ d, (k.totalRange d).1 ≤ x d ∧ x d < (k.totalRange d).2

/-- A block: number of points and the halos requested by the schemes. -/
structure Block (n : ℕ) where
  np : Fin n → ℤ
  boundaryHalos : Fin n → HaloSets

/-- `block.ranges`, grid.py 138-145: `[0, np]`. -/
def Block.ranges (b : Block n) (d : Fin n) : ℤ × ℤ := (0, b.np d)

/-- `set_kernel_range` and `bc_plane_kernel`, bc_core.py 128-143 and 158-167. -/
def bcPlaneKernel (b : Block n) (direction : Fin n) (side : Bool) : Kernel n :=
  { ranges := Function.update b.ranges direction
      (if side then ((b.ranges direction).2 - 1, (b.ranges direction).2)
        else ((b.ranges direction).1, (b.ranges direction).1 + 1))
    halos := fun d => if d = direction then (∅, ∅) else b.boundaryHalos d }

/-- `get_halo_values`, bc_core.py 145-156: for every direction the values of direction 0. -/
def haloValues [NeZero n] (b : Block n) (_ : Fin n) : ℤ × ℤ :=
  (minHalo (b.boundaryHalos 0).1, maxHalo (b.boundaryHalos 0).2)

/-- Arguments of an OPS halo transfer. -/
structure Transfer (n : ℕ) where
  size : Fin n → ℤ
  src : Fin n → ℤ
  dst : Fin n → ℤ

/-- `PeriodicBC.get_transfers`, periodic.py 42-56, for index bounds `lower = 0`, `upper = np`. -/
def periodicTransfer (np : Fin n → ℤ) (halos : Fin n → ℤ × ℤ) (direction : Fin n) (side : Bool) :
    Transfer n :=
  { size := Function.update (fun d => (np d + 0) + (abs (halos d).1 + abs (halos d).2)) direction
      (if side then abs (halos direction).2 else abs (halos direction).1)
    src := Function.update (fun d => (halos d).1) direction
      (if side then np direction + (halos direction).1 else 0)
    dst := Function.update (fun d => (halos d).1) direction
      (if side then 0 + (halos direction).1 else np direction) }

/-- Meaning of `ops_halo_transfer` with identity orientation (opsc.py 555-593): the source box is
read completely and then written to the destination box. -/
def Transfer.apply {α : Type} (t : Transfer n) (a : (Fin n → ℤ) → α) (x : Fin n → ℤ) : α :=
  if ∀ d, t.dst d ≤ x d ∧ x d < t.dst d + t.size d then a fun d => x d - t.dst d + t.src d else a x

/-- The two exchanges of a direction in the order of `apply_boundary_conditions`
(block.py 203-209): side 0, then side 1. -/
def exchangeDirection {α : Type} (np : Fin n → ℤ) (halos : Fin n → ℤ × ℤ) (a : (Fin n → ℤ) → α)
    (direction : Fin n) : (Fin n → ℤ) → α :=
  (periodicTransfer np halos direction true).apply
    ((periodicTransfer np halos direction false).apply a)

/-- All exchanges, for the list of periodic directions in increasing order. -/
def exchangeAll {α : Type} (np : Fin n → ℤ) (halos : Fin n → ℤ × ℤ) (dirs : List (Fin n))
    (a : (Fin n → ℤ) → α) : (Fin n → ℤ) → α :=
  dirs.foldl (exchangeDirection np halos) a

end OpenSBLI.Ranges
