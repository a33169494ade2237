import Mathlib.Data.List.Basic
import Mathlib.Logic.Function.Basic

/-!
# Work arrays

Model of `WorkDataSet` (core/grid.py 7-114), `update_work` (core/opensblifunctions.py 368-376) and of their use in `Central.sbli_rhs_discretisation` and `general_discretisation`
(schemes/spatial/scheme.py 187-271 and 299-327). A field, the contents of one array, is a value of a type `F`; a derivative is an operator on fields. Ranges of points are the
subject of C36 and C63.
-/
namespace OpenSBLI.Work

/-- `work_index` and `stored_index`, grid.py 16-17. -/
structure Index where
  index : ℕ
  stored : ℕ
  deriving DecidableEq

/-- `increase_work_index`, `store_work_index`, `reset_work_to_stored`, `reset_work_index`, grid.py 90-114. -/
def Index.increase (w : Index) : Index := { w with index := w.index + 1 }
@[inherit_doc Index.increase] def Index.store (w : Index) : Index := { w with stored := w.index }
@[inherit_doc Index.increase] def Index.resetToStored (w : Index) : Index := { w with index := w.stored }
@[inherit_doc Index.increase] def Index.reset (w : Index) : Index := { w with index := 0 }

/-! ## Convective derivatives -/

/-- A derivative of an expression: the value of the expression, the discretised operator, and whether more than one dataset occurs (`len(v.required_datasets) > 1`), in which case the
expression is first evaluated into a work array. -/
structure Der (F : Type) where
  arg : F
  op : F → F
  several : Bool

/-- One statement of the generated kernels. -/
inductive Instr (F : Type) where
  /-- `wk = expression`, scheme.py 221-222. -/
  | local (target : ℕ) (d : Der F)
  /-- `v.work = discretised derivative` of the work array `source`, or of the dataset itself, scheme.py 225-230. -/
  | der (target : ℕ) (source : Option ℕ) (d : Der F)

/-- Executing one statement over the grid. -/
def Instr.run {F : Type} (env : ℕ → F) : Instr F → ℕ → F
  | .local t d => Function.update env t d.arg
  | .der t (some s) d => Function.update env t (d.op (env s))
  | .der t none d => Function.update env t (d.op d.arg)

/-- The loop body over the derivatives of one direction, scheme.py 216-233: work arrays for the expressions are taken while walking along. The derivatives carry the index
of their own work array. Gives the local statements, the derivative statements and the index state. -/
def groupLoop {F : Type} : List (ℕ × Der F) → Index → List (Instr F) × List (Instr F) × Index
  | [], w => ([], [], w)
  | (t, d) :: rest, w =>
    if d.several then
      let (ls, ds, w') := groupLoop rest w.increase
      (.local w.index d :: ls, .der t (some w.index) d :: ds, w')
    else
      let (ls, ds, w') := groupLoop rest w
      (ls, .der t none d :: ds, w')

/-- One direction, scheme.py 209-238: store the index, walk, reset to the stored index; the local evaluations come first (scheme.py 240-241). -/
def group {F : Type} (ders : List (ℕ × Der F)) (w : Index) : List (Instr F) × Index :=
  let (ls, ds, w') := groupLoop ders w.store
  (ls ++ ds, w'.resetToStored)

/-- All directions one after another. -/
def groups {F : Type} : List (List (ℕ × Der F)) → Index → List (Instr F) × Index
  | [], w => ([], w)
  | g :: gs, w =>
    let (i, w') := group g w
    let (is, w'') := groups gs w'
    (i ++ is, w'')

/-- `update_work` for the derivatives of one direction: the next index each. -/
def number {F : Type} : List (Der F) → Index → List (ℕ × Der F) × Index
  | [], w => ([], w)
  | d :: ds, w => let (r, w') := number ds w.increase; ((w.index, d) :: r, w')

/-- `update_work` for all directions, scheme.py 202-204. -/
def numberAll {F : Type} : List (List (Der F)) → Index → List (List (ℕ × Der F)) × Index
  | [], w => ([], w)
  | g :: gs, w =>
    let (r, w') := number g w
    let (rs, w'') := numberAll gs w'
    (r :: rs, w'')

/-- The convective part: works for all derivatives, then the statements of all directions. The result is the numbered derivatives, the statements and the index state. -/
def convective {F : Type} (gs : List (List (Der F))) (w : Index) : List (List (ℕ × Der F)) × List (Instr F) × Index :=
  let (numbered, w') := numberAll gs w
  let (instrs, w'') := groups numbered w'
  (numbered, instrs, w'')

/-- Executing a list of statements. -/
def exec {F : Type} (is : List (Instr F)) (env : ℕ → F) : ℕ → F := is.foldl Instr.run env

/-! ## Viscous derivatives -/

/-- A derivative which may contain other derivatives of the list: the directions occurring in it (`atoms(CoordinateObject)`), the positions of the inner derivatives and the discretised operator, a
function of the work arrays of the inner derivatives (scheme.py 318-319). -/
structure NDer (F : Type) where
  directions : List ℕ
  inner : List ℕ
  op : List F → F

/-- The sort key, scheme.py 260: `len(x.atoms(CoordinateObject))`, the number of different directions. -/
def NDer.key {F : Type} (d : NDer F) : ℕ := d.directions.dedup.length

/-- The order of the kernels, scheme.py 260: stable sort of the derivatives, which come from a set in arbitrary order. -/
def kernelOrder {F : Type} (ders : List (NDer F)) : List ℕ :=
  (List.range ders.length).mergeSort fun i j => decide (((ders[i]?.map NDer.key).getD 0) ≤ ((ders[j]?.map NDer.key).getD 0))

/-- Running the kernels: derivative `i` writes work array `i` (the index was reset before, scheme.py 254, and each derivative takes the next one, 308-309). -/
def runKernels {F : Type} (ders : List (NDer F)) (order : List ℕ) (env : ℕ → F) : ℕ → F :=
  order.foldl (fun env i => match ders[i]? with
    | some d => Function.update env i (d.op (d.inner.map env))
    | none => env) env

/-- The viscous part. -/
def viscous {F : Type} (ders : List (NDer F)) (env : ℕ → F) : ℕ → F := runKernels ders (kernelOrder ders) env

/-! ## Replacing the derivatives in the equations -/

/-- Expressions of equations: datasets, work arrays, derivatives, sums and products. -/
inductive Ex where
  | data (name : String)
  | work (i : ℕ)
  | cd (dir : ℕ) (e : Ex)
  | add (a b : Ex)
  | mul (a b : Ex)
  deriving DecidableEq

/-- Replacing every occurrence of one expression. -/
def Ex.replace : Ex → Ex → Ex → Ex
  | .data s, old, new => if .data s = old then new else .data s
  | .work i, old, new => if .work i = old then new else .work i
  | .cd d a, old, new => if .cd d a = old then new else .cd d (a.replace old new)
  | .add a b, old, new => if .add a b = old then new else .add (a.replace old new) (b.replace old new)
  | .mul a b, old, new => if .mul a b = old then new else .mul (a.replace old new) (b.replace old new)

/-- `discretized_equations[no].subs(work_arry_subs)`, scheme.py 320-324: one replacement after another, in the order the substitution chooses. The key of a derivative with inner
derivatives is the expression in which the inner ones have already been replaced (`work_arry_subs[expr] = der.work`). -/
def Ex.subs (e : Ex) (pairs : List (Ex × ℕ)) : Ex := pairs.foldl (fun e p => e.replace p.1 (.work p.2)) e

/-- No derivative is left. -/
def Ex.resolved : Ex → Bool
  | .data _ => true
  | .work _ => true
  | .cd _ _ => false
  | .add a b => a.resolved && b.resolved
  | .mul a b => a.resolved && b.resolved

end OpenSBLI.Work
