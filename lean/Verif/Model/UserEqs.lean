import Verif.Model.Memory
import Mathlib.Data.Real.Basic

/-!
# User defined equations, initialisation on the grid, post-processing

Model of `utilities/user_defined_kernels.py` 42-100, `initialisation/gridbasedinit.py` 46-57, `postprocess/post_process_eq.py` 81-154 and of the general branch of
`Central.discretise` (`schemes/spatial/scheme.py` 117-136, 299-327).

Arrays are functions of the grid point. A discretised derivative is an operator on arrays (C18-C23), everything else is evaluated point by point. Derivatives inside derivatives are
modelled only where said so.
-/
namespace OpenSBLI.User

/-- Right hand sides. Functions and operators act point by point; `cd` is a central derivative. -/
inductive Ex where
  | num (n : ℤ)
  | data (name : String)
  | work (i : ℕ)
  | cd (dir : ℕ) (e : Ex)
  | un (f : String) (e : Ex)
  | bin (f : String) (a b : Ex)
  deriving DecidableEq

/-- `atoms(CentralDerivative)`. -/
def Ex.cds : Ex → List Ex
  | .cd d e => .cd d e :: e.cds
  | .un _ e => e.cds
  | .bin _ a b => a.cds ++ b.cds
  | _ => []

/-- `subs(old, new)`. -/
def Ex.replace (old new : Ex) : Ex → Ex
  | .num n => if .num n = old then new else .num n
  | .data s => if .data s = old then new else .data s
  | .work i => if .work i = old then new else .work i
  | .cd d e => if .cd d e = old then new else .cd d (Ex.replace old new e)
  | .un f e => if .un f e = old then new else .un f (Ex.replace old new e)
  | .bin f a b => if .bin f a b = old then new else .bin f (Ex.replace old new a) (Ex.replace old new b)

/-- `subs(dictionary)`, one replacement after another. -/
def Ex.subs (pairs : List (Ex × Ex)) (e : Ex) : Ex := pairs.foldl (fun e p => Ex.replace p.1 p.2 e) e

/-- What a kernel writes. -/
inductive Target where
  | data (name : String)
  | work (i : ℕ)
  deriving DecidableEq

/-- An equation of a kernel. -/
structure Eqn where
  lhs : Target
  rhs : Ex
  deriving DecidableEq

/-- A kernel: whether it is evaluated in the halos requested by the user, else on the grid, and its equations in order. -/
structure Ker where
  halos : Bool
  eqs : List Eqn
  deriving DecidableEq

/-- An equation of the user: `dataset = expression`. -/
structure UEq where
  lhs : String
  rhs : Ex
  deriving DecidableEq

/-- Right hand side of the kernel of derivative `c`: the derivatives inside it are replaced by their work arrays (`traverse`, scheme.py 360-387). -/
def inside (pairs : List (Ex × Ex)) (c : Ex) : Ex :=
  match c with
  | .cd d e => .cd d (Ex.subs pairs e)
  | e => e

/-- `Central.discretise` on the equations of a class, scheme.py 117-136 and 299-327: `cds` are their derivatives in the order in which the set yields them, `w` the work index, stored before and reset
afterwards (118-120). One kernel per derivative, in the order of the dictionary, then one kernel with all equations, in which the derivatives are replaced (320-324). Nothing without derivatives
(326-327, 133-134). -/
def discretise (w : ℕ) (cds : List Ex) (qs : List UEq) : List Ker :=
  if cds = [] then [] else
  (cds.mapIdx fun i c => ⟨false, [⟨.work (w + i), inside (cds.mapIdx fun i c => (c, Ex.work (w + i))) c⟩]⟩) ++
    [⟨false, qs.map fun q => ⟨.data q.lhs, Ex.subs (cds.mapIdx fun i c => (inside (cds.mapIdx fun i c => (c, Ex.work (w + i))) c, Ex.work (w + i))) q.rhs⟩⟩]

/-- `UserDefinedEquations.spatial_discretisation`, user_defined_kernels.py 42-91: every equation separately (64-71); without any kernel, one kernel with all equations (74-85). `order` gives the
order in which the set of the derivatives of an equation is listed. -/
def kernels (w : ℕ) (order : UEq → List Ex) (eqs : List UEq) : List Ker :=
  let derived := eqs.flatMap fun q => discretise w (order q) [q]
  if derived = [] then [⟨true, eqs.map fun q => ⟨.data q.lhs, q.rhs⟩⟩] else derived

/-! ## Running the kernels -/

/-- Arrays, and the meaning of derivatives, functions and operators. -/
structure Env (P : Type) where
  data : String → P → ℝ
  work : ℕ → P → ℝ
  cd : ℕ → (P → ℝ) → P → ℝ
  un : String → ℝ → ℝ
  bin : String → ℝ → ℝ → ℝ

variable {P : Type} [DecidableEq P]

/-- Value of an expression at every point. -/
def Ex.eval (v : Env P) : Ex → P → ℝ
  | .num n => fun _ => n
  | .data s => v.data s
  | .work i => v.work i
  | .cd d e => v.cd d (e.eval v)
  | .un f e => fun x => v.un f (e.eval v x)
  | .bin f a b => fun x => v.bin f (a.eval v x) (b.eval v x)

/-- Write one element. -/
def Env.set (v : Env P) (t : Target) (x : P) (a : ℝ) : Env P :=
  match t with
  | .data s => { v with data := fun s' y => if s' = s ∧ y = x then a else v.data s' y }
  | .work i => { v with work := fun i' y => if i' = i ∧ y = x then a else v.work i' y }

/-- The kernel function at one point. -/
def atPoint (eqs : List Eqn) (v : Env P) (x : P) : Env P := eqs.foldl (fun v q => v.set q.lhs x (q.rhs.eval v x)) v

/-- The parallel loop of a kernel over its points, in some order. -/
def runKer (grid haloed : List P) (k : Ker) (v : Env P) : Env P := (if k.halos then haloed else grid).foldl (atPoint k.eqs) v

/-- All kernels in order. -/
def run (grid haloed : List P) (ks : List Ker) (v : Env P) : Env P := ks.foldl (fun v k => runKer grid haloed k v) v

/-! ## Ranges -/

open Ranges in
/-- Range of the single kernel, user_defined_kernels.py 77-82: the grid and the halo objects given by the user for every direction and side. -/
def userRange {n : ℕ} (np : Fin n → ℤ) (halos : Option (Fin n → HaloType × HaloType)) : Kernel n :=
  match halos with
  | none => Kernel.onGrid fun d => (0, np d)
  | some h => (List.finRange n).foldl (fun k d => (k.setHaloRange d false {(h d).1}).setHaloRange d true {(h d).2}) (Kernel.onGrid fun d => (0, np d))

open Ranges in
/-- Range of the initialisation kernel, gridbasedinit.py 48-53: the grid and the five points of `CentralHalos_defdec` (scheme.py 47-60) on every side. -/
def initRange {n : ℕ} (np : Fin n → ℤ) : Kernel n :=
  (List.finRange n).foldl (fun k d => (k.setHaloRange d false {(-5, 5)}).setHaloRange d true {(-5, 5)}) (Kernel.onGrid fun d => (0, np d))

/-! ## Post-processing -/

/-- The constituent relations known to the block, name and expression. -/
abbrev Relations := List (String × Ex)

/-- `dictionary[key] = kernel`: an existing key keeps its place. -/
def dictSet (d : List (Target × Ker)) (k : Target) (v : Ker) : List (Target × Ker) :=
  if k ∈ d.map Prod.fst then d.map fun x => if x.1 = k then (k, v) else x else d ++ [(k, v)]

/-- The datasets required by the scheme in the order of its dictionary, each with the kernel of the relation for it, post_process_eq.py 107-115; those without a relation are only
noted (115). -/
def postRequired (rel : Relations) (required : List String) : List (Target × Ker) :=
  required.filterMap fun s => (rel.find? fun r => r.1 = s).map fun r => (.data s, ⟨false, [⟨.data s, r.2⟩]⟩)

/-- Kernels of a relation on its own, `eq.kernels` (opensbliequations.py 485-491): none without derivatives. -/
def relationKernels (w : ℕ) (order : UEq → List Ex) (r : String × Ex) : List Ker := discretise w (order ⟨r.1, r.2⟩) [⟨r.1, r.2⟩]

/-- The kernels of the other arrays in the equations for which there is a relation, post_process_eq.py 116-121: stored under the array their first equation assigns. -/
def postMissing (w : ℕ) (order : UEq → List Ex) (rel : Relations) (rest : List String) (d : List (Target × Ker)) : List (Target × Ker) :=
  rest.foldl (fun d s => match rel.find? fun r => r.1 = s with
    | none => d
    | some r => (relationKernels w order r).foldl (fun d k => match k.eqs with
      | [] => d
      | q :: _ => dictSet d q.lhs k) d) d

/-- All kernels of a post-processing class, post_process_eq.py 99-124: those of the constituent relations in the order of the dictionary (`sort_constituents`, 136-154; `sort_dictionary` is never called), then
those of the equations, discretised together (106). `required` is the dictionary of the scheme, `rest` the remaining arrays of the equations, `cds` their derivatives. -/
def postKernels (w : ℕ) (order : UEq → List Ex) (rel : Relations) (required rest : List String) (cds : List Ex) (eqs : List UEq) : List Ker :=
  (postMissing w order rel rest (postRequired rel required)).map Prod.snd ++ discretise w cds eqs

end OpenSBLI.User
