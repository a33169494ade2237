import Verif.Model.Ranges
import Verif.Model.Registry

/-!
# Dirichlet and split boundary conditions

Model of `core/boundary_conditions/dirichlet.py` (28-41), of `arbitrary_bc_plane_kernel` and `SplitBC`
(`core/boundary_conditions/bc_core.py` 105-127 and 200-219), of `ConstantIndexed` (`core/opensbliobjects.py` 187-245) and of the branch of
`Kernel.total_range` for ranges held in arrays (`core/kernel.py` 216-220).
-/
namespace OpenSBLI.Ranges

variable {n : ℕ}

/-- `DirichletBC.apply` on a full plane, dirichlet.py 28-41: `bc_plane_kernel`, then the halos of the boundary side are added. -/
def dirichletKernel (b : Block n) (direction : Fin n) (side : Bool) : Kernel n :=
  { bcPlaneKernel b direction side with
    halos := Function.update (bcPlaneKernel b direction side).halos direction
      (if side then (((bcPlaneKernel b direction side).halos direction).1, (b.boundaryHalos direction).2)
        else ((b.boundaryHalos direction).1, ((bcPlaneKernel b direction side).halos direction).2)) }

/-- The user's equations, `dataset = expression` at the location of the loop. -/
def dirichletEquations (eqs : List (String × Ker.Expr n)) : List (Ker.Eqn n) :=
  eqs.map fun q => .assign ⟨.data q.1 0, q.2⟩

/-- Names of the arrays, bc_core.py 117 and 120: `'split_range_%d%d%d' % (direction, side, split_number)`. The block does not occur. -/
def splitName (pre : String) (direction : ℕ) (side : Bool) (no : ℕ) : String :=
  pre ++ toString direction ++ (if side then "1" else "0") ++ toString no

/-- An array of `2 * ndim` integers, `none` for the default `"Input"` (opensbliobjects.py 208). -/
abbrev Entries := List (Option ℤ)

/-- `ConstantIndexed(name, Idx('no', 2*ndim))`, bc_core.py 116-122. -/
def newEntries (n : ℕ) : Entries := List.replicate (2 * n) none

/-- Assignment to the halo array in dirichlet.py 36-37; the value is `halos[direction][side]` of `get_halo_values`. -/
def splitDirichletHalo [NeZero n] (b : Block n) (direction : Fin n) (side : Bool) : Entries :=
  (newEntries n).set (2 * direction.1 + (if side then 1 else 0))
    (some (if side then (haloValues b direction).2 else (haloValues b direction).1))

/-- Value of an array element in the running program: the declared one or the user's input. -/
def entry (e : Entries) (input : ℕ → ℤ) (i : ℕ) : ℤ := ((e[i]?).join).getD (input i)

/-- `total_range` for array ranges, kernel.py 216-220: `range[i] + halo[i]` for `i` in `0 .. 2*ndim-1`. -/
def splitTotalRange (R H : ℕ → ℤ) (d : Fin n) : ℤ × ℤ :=
  (R (2 * d.1) + H (2 * d.1), R (2 * d.1 + 1) + H (2 * d.1 + 1))

/-- Points visited by a kernel whose range is held in arrays. -/
def splitVisits (R H : ℕ → ℤ) (x : Fin n → ℤ) : Prop :=
  ∀ d : Fin n, (splitTotalRange R H d).1 ≤ x d ∧ x d < (splitTotalRange R H d).2

/-- `SplitBC.apply`, bc_core.py 210-216: conditions are numbered in the order given; for every one the two arrays are handed to
`ConstantsToDeclare` (bc_core.py 123-124). Here for a split into `k` Dirichlet conditions. -/
def splitConstants [NeZero n] (b : Block n) (direction : Fin n) (side : Bool) (k : ℕ) : List (Reg.Const Entries) :=
  (List.range k).flatMap fun no =>
    [⟨splitName "split_range_" direction.1 side no, some (newEntries n)⟩,
     ⟨splitName "split_halo_range_" direction.1 side no, some (splitDirichletHalo b direction side)⟩]

end OpenSBLI.Ranges
