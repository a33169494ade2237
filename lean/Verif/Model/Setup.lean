import Mathlib.Data.List.Basic

/-!
# Setting up a block

Model of `core/boundary_conditions/bc_core.py` (`set_boundary_types` 30-44), `core/block.py` (`apply_boundary_conditions` 199-216, `set_equations` 218-225,
`sort_equation_classes` 227-236).
-/
namespace OpenSBLI.Setup

/-! ## Boundary conditions -/

/-- A boundary condition as created by the user: its own direction and side (bc_core.py 71-79), which its `apply` uses, and the rest of it. -/
structure Bc (B : Type) where
  direction : ℕ
  side : ℕ
  kind : B
  deriving DecidableEq

/-- `list(zip(it, it))` for one iterator `it`: consecutive pairs. -/
def pairs {A : Type} : List A → List (A × A)
  | a :: b :: l => (a, b) :: pairs l
  | _ => []

/-- `set_boundary_types`, bc_core.py 30-44; `none` is the `ValueError`. The list is given flattened; the conversion of data objects to datasets is not
modelled. -/
def setBoundaryTypes {A : Type} (ndim : ℕ) (types : List A) : Option (List (A × A)) := if types.length ≠ ndim * 2 then none else some (pairs types)

/-- `boundary_types[direction][side]` -/
def at? {A : Type} (bt : List (A × A)) (direction side : ℕ) : Option A :=
  match bt[direction]?, side with
  | some p, 0 => some p.1
  | some p, 1 => some p.2
  | _, _ => none

/-- `apply_boundary_conditions`, block.py 199-216: the conditions in the order in which they are applied. -/
def applied {A : Type} (bt : List (A × A)) : List A := bt.flatMap fun p => [p.1, p.2]

/-! ## Equation classes -/

/-- The loop of `sort_equation_classes`, block.py 232-235: `n` is the number of remaining indices, `no` the current one; the list is changed while it is
being iterated over. -/
def sortLoop {E : Type} (isCR : E → Bool) : ℕ → ℕ → List E → List E
  | 0, _, l => l
  | n + 1, no, l =>
    match l[no]? with
    | none => l
    | some eq => if isCR eq then sortLoop isCR n (no + 1) (eq :: l.eraseIdx no) else sortLoop isCR n (no + 1) l

/-- `sort_equation_classes` -/
def sortClasses {E : Type} (isCR : E → Bool) (l : List E) : List E := sortLoop isCR l.length 0 l

/-- `set_equations`, block.py 218-225, on the list of equation classes. -/
def setEquations {E : Type} (isCR : E → Bool) (l new : List E) : List E := sortClasses isCR (l ++ new)

end OpenSBLI.Setup
