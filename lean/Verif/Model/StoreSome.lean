import Mathlib.Data.Real.Basic
import Mathlib.Algebra.BigOperators.Group.List.Basic
import Mathlib.Data.List.Dedup
import Mathlib.Logic.Function.Basic

/-!
# Derivatives stored or evaluated on the fly

Model of /repo/opensbli/optimisations/StoreSome.py. A field is the contents of an array, a function of the grid point; a discretised derivative is an operator on fields (its weights
and boundary closures are the subject of C16 to C23, the ranges of the kernels that of C62 and C63). A grid variable is local to a point, so it too is written as a function of the point.
-/
namespace OpenSBLI.Store

/-- Expressions: numbers, datasets, constants such as `Re`, work arrays, grid variables, central derivatives, other functions (for example WENO derivatives or a sine), sums and products. -/
inductive Ex where
  | num (n : ℤ)
  | data (name : String)
  | par (name : String)
  | work (i : ℕ)
  | gv (i : ℕ)
  | cd (dir : ℕ) (e : Ex)
  | fn (name : String) (e : Ex)
  | add (a b : Ex)
  | mul (a b : Ex)
  deriving DecidableEq

/-- `atoms(CentralDerivative)`: all derivatives in an expression, nested ones included. -/
def Ex.cds : Ex → List Ex
  | .cd d e => .cd d e :: e.cds
  | .fn _ e => e.cds
  | .add a b => a.cds ++ b.cds
  | .mul a b => a.cds ++ b.cds
  | _ => []

/-- `expr.has(parameter)`. -/
def Ex.hasPar (p : String) : Ex → Bool
  | .par q => p == q
  | .cd _ e => e.hasPar p
  | .fn _ e => e.hasPar p
  | .add a b => a.hasPar p || b.hasPar p
  | .mul a b => a.hasPar p || b.hasPar p
  | _ => false

/-- `expr.subs(old, new)`: every occurrence, outermost first. -/
def Ex.replace (old new : Ex) : Ex → Ex
  | .num n => if .num n = old then new else .num n
  | .data s => if .data s = old then new else .data s
  | .par s => if .par s = old then new else .par s
  | .work i => if .work i = old then new else .work i
  | .gv i => if .gv i = old then new else .gv i
  | .cd d e => if .cd d e = old then new else .cd d (Ex.replace old new e)
  | .fn f e => if .fn f e = old then new else .fn f (Ex.replace old new e)
  | .add a b => if .add a b = old then new else .add (Ex.replace old new a) (Ex.replace old new b)
  | .mul a b => if .mul a b = old then new else .mul (Ex.replace old new a) (Ex.replace old new b)

/-- Several replacements one after another. -/
def Ex.subs (pairs : List (Ex × Ex)) (e : Ex) : Ex := pairs.foldl (fun e p => Ex.replace p.1 p.2 e) e

/-- Replacing the functions that are not central derivatives by zero, scheme.py 349-357. -/
def Ex.zeroFns : Ex → Ex
  | .fn _ _ => .num 0
  | .cd d e => .cd d e.zeroFns
  | .add a b => .add a.zeroFns b.zeroFns
  | .mul a b => .mul a.zeroFns b.zeroFns
  | e => e

/-- A right hand side: the terms of a sum or a single product (`bare = false`), or a single derivative, symbol or function (`bare = true`), which the classification skips
(scheme.py 335-347). -/
structure Eqn where
  bare : Bool
  terms : List Ex

/-- `derivatives_to_store`, StoreSome.py 21-30: every function in every direction. -/
def toStore (fns : List String) (dirs : List ℕ) : List Ex := fns.flatMap fun a => dirs.map fun b => .cd b (.data a)

/-- `subs_dict`, StoreSome.py 83-86: the stored derivatives with their work arrays, numbered from zero because the index has been reset (line 73). -/
def storedPairs (fns : List String) (dirs : List ℕ) : List (Ex × Ex) := (toStore fns dirs).mapIdx fun i d => (d, .work i)

/-- The equations after line 103. -/
def Eqn.store (fns : List String) (dirs : List ℕ) (e : Eqn) : Eqn := ⟨e.bare, e.terms.map (Ex.subs (storedPairs fns dirs))⟩

/-- One part of a classified right hand side, scheme.py 329-358 with `parameter = Re`: the viscous (`true`) or convective (`false`) terms. -/
def Eqn.part (viscous : Bool) (e : Eqn) : List Ex :=
  if e.bare then [] else (e.terms.filter fun t => t.hasPar "Re" == viscous).map Ex.zeroFns

/-- All derivatives in a list of right hand sides; the code makes a set of them, so that their order is arbitrary. -/
def allCds (rhs : List (List Ex)) : List Ex := rhs.flatMap fun ts => ts.flatMap Ex.cds

/-- `SS`, StoreSome.py 138-161, for the derivatives `cds` in the order in which the loop meets them (a set, sorted by direction or by text): assignments of grid variables and right hand sides;
`none` without derivatives. -/
def ss (cds : List Ex) (rhs : List (List Ex)) : Option (List (ℕ × Ex) × List (List Ex)) :=
  if cds = [] then none
  else some (cds.mapIdx fun i d => (i, d), rhs.map fun ts => ts.map (Ex.subs (cds.mapIdx fun i d => (d, .gv i))))

/-! ## Running the kernels -/

/-- The arrays and operators the program works with. -/
structure Env (P : Type) where
  data : String → P → ℝ
  par : String → ℝ
  fn : String → (P → ℝ) → P → ℝ
  /-- the discretised derivative in each direction -/
  op : ℕ → (P → ℝ) → P → ℝ
  work : ℕ → P → ℝ
  gv : ℕ → P → ℝ

/-- Value of an expression. -/
def Ex.eval {P : Type} (v : Env P) : Ex → P → ℝ
  | .num n => fun _ => n
  | .data s => v.data s
  | .par s => fun _ => v.par s
  | .work i => v.work i
  | .gv i => v.gv i
  | .cd d e => v.op d (e.eval v)
  | .fn f e => v.fn f (e.eval v)
  | .add a b => fun x => a.eval v x + b.eval v x
  | .mul a b => fun x => a.eval v x * b.eval v x

/-- Value of a sum of terms. -/
def evalSum {P : Type} (v : Env P) (ts : List Ex) (x : P) : ℝ := (ts.map fun t => t.eval v x).sum

/-- The kernels of the stored derivatives, lines 84-96 and 116-118. -/
def runStored {P : Type} (fns : List String) (dirs : List ℕ) (v : Env P) : Env P :=
  (storedPairs fns dirs).foldl (fun v p => match p.2 with
    | .work i => { v with work := Function.update v.work i (p.1.eval v) }
    | _ => v) v

/-- The assignments of grid variables at the head of a kernel, line 156. -/
def runLocal {P : Type} (evals : List (ℕ × Ex)) (v : Env P) : Env P :=
  evals.foldl (fun v p => { v with gv := Function.update v.gv p.1 (p.2.eval v) }) v

/-- One residual kernel, lines 111-114 and 119-132: the residual is set to the convective part, or increased by the viscous part. -/
def runKernel {P : Type} (viscous : Bool) (k : Option (List (ℕ × Ex) × List (List Ex))) (v : Env P) (res : List (P → ℝ)) : List (P → ℝ) :=
  match k with
  | none => res
  | some (evals, rhs) =>
    if viscous then List.zipWith (fun r ts x => r x + evalSum (runLocal evals v) ts x) res rhs
    else rhs.map fun ts => evalSum (runLocal evals v) ts

/-- `sbli_rhs_discretisation`, lines 71-136, and running its kernels: `order` is the order in which the two calls of `SS` meet the derivatives. -/
def rhs {P : Type} (order : Bool → List Ex) (fns : List String) (dirs : List ℕ) (eqs : List Eqn) (v : Env P) (res : List (P → ℝ)) : List (P → ℝ) :=
  let eqs := eqs.map (Eqn.store fns dirs)
  let conv := ss (order false) (eqs.map (Eqn.part false))
  let visc := ss (order true) (eqs.map (Eqn.part true))
  let v := if conv.isSome || visc.isSome then runStored fns dirs v else v
  runKernel true visc v (runKernel false conv v res)

/-! ## The scheme as an object -/

/-- The attribute `derivatives_to_store`: the method, or the list by which line 26 replaces it on the object. -/
inductive Attribute where
  | method
  | list (l : List Ex)
  deriving DecidableEq

/-- Line 80: calling the attribute; a list cannot be called (`none`). -/
def callToStore (a : Attribute) (fns : List String) (dirs : List ℕ) : Option Attribute :=
  match a with
  | .method => some (.list (toStore fns dirs))
  | .list _ => none

/-- `check_missing_constituent_relations`, lines 53-69: `required` and the left hand sides of the first class of constituent relations of the block; `CR[0]` raises when there is none. -/
def checkMissing (required : List String) (classes : List (List String)) (arrays : List String) : Option (List String) :=
  match classes with
  | [] => none
  | lhs :: _ => some (required ++ (arrays.filter fun a => !required.contains a && lhs.contains a))

end OpenSBLI.Store
