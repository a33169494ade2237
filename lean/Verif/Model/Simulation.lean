import Verif.Model.Ranges
import Verif.Model.SortDict
import Verif.Model.Algorithm
import Mathlib.Data.Real.Basic
import Mathlib.Data.List.Dedup
import Mathlib.Data.List.FinRange

/-!
# The whole program of a simulation with central differences

From the simulation equations and the constituent relations to the memory after the run: `SimulationEquations.spatial_discretisation`, `sort_constituents` and `all_spatial_kernels`
(equation_types/opensbliequations.py 269-352 and 440-441), `Central.sbli_rhs_discretisation` with all it calls (schemes/spatial/scheme.py 145-388), the kernels of `RungeKutta` (schemes/temporal/rk_sbli.py 73-140) and
`RungeKuttaLS` (schemes/temporal/rk_LS.py 116-178), put into the program of `Model/Algorithm.lean` and run on arrays.

Simplified: the kernels of the boundary conditions are one function on the solution arrays; the constituent relations contain no derivatives (opensbliequations.py 307 then adds the relation to the kernel of the
scheme); one spatial scheme; `store_derivatives` is on. Sets and dictionaries are listed in an order given as an argument.
-/
namespace OpenSBLI.Sim

/-- Points of the arrays. -/
abbrev P (D : ℕ) := Fin D → ℤ

/-- Arrays: named datasets, `wk%d`, `Residual%d` (opensbliequations.py 245) and the register of the time integration for an equation, `*_RKold` or `tempRK_*` (rk_sbli.py 139, rk_LS.py 177). -/
inductive Arr where
  | data (s : String)
  | work (i : ℕ)
  | res (i : ℕ)
  | reg (i : ℕ)
  deriving DecidableEq

/-- Expressions. `cd d k e` is the `CentralDerivative` of `e`, `k` times in direction `d`; mixed derivatives have been nested (`_sanitise`, core/opensblifunctions.py 341-353). `indexed t` is `t[stage]`, `fn` a SymPy function. -/
inductive Ex (D : ℕ) where
  | num (q : ℚ)
  | const (c : String)
  | indexed (t : String)
  | arr (a : Arr)
  | cd (d : Fin D) (k : ℕ) (e : Ex D)
  | add (a b : Ex D)
  | mul (a b : Ex D)
  | pow (a b : Ex D)
  | fn (f : String) (e : Ex D)
  deriving DecidableEq

variable {D n : ℕ}

/-- Arrays occurring. -/
def Ex.arrs : Ex D → List Arr
  | .arr a => [a]
  | .cd _ _ e => e.arrs
  | .add a b => a.arrs ++ b.arrs
  | .mul a b => a.arrs ++ b.arrs
  | .pow a b => a.arrs ++ b.arrs
  | .fn _ e => e.arrs
  | _ => []

/-- `atoms(DataSet)`, by name. -/
def Ex.datas (e : Ex D) : List String := e.arrs.filterMap fun | .data s => some s | _ => none

/-- `atoms(CentralDerivative)`, and the order of `postorder_traversal` (scheme.py 363-369). -/
def Ex.cds : Ex D → List (Ex D)
  | .cd d k e => e.cds ++ [.cd d k e]
  | .add a b => a.cds ++ b.cds
  | .mul a b => a.cds ++ b.cds
  | .pow a b => a.cds ++ b.cds
  | .fn _ e => e.cds
  | _ => []

/-- `get_direction[0]` and the differentiated expression. -/
def Ex.dir : Ex D → Option (Fin D)
  | .cd d _ _ => some d
  | _ => none

@[inherit_doc Ex.dir] def Ex.arg : Ex D → Ex D
  | .cd _ _ e => e
  | e => e

/-- `expr.has(ConstantObject("Re"))`, scheme.py 195 and 338. -/
def Ex.hasRe : Ex D → Bool
  | .const c => c == "Re"
  | .cd _ _ e => e.hasRe
  | .add a b => a.hasRe || b.hasRe
  | .mul a b => a.hasRe || b.hasRe
  | .pow a b => a.hasRe || b.hasRe
  | .fn _ e => e.hasRe
  | _ => false

/-- Functions which are not derivatives are replaced by zero, scheme.py 349-357. -/
def Ex.zeroFn : Ex D → Ex D
  | .fn _ _ => .num 0
  | .cd d k e => .cd d k e.zeroFn
  | .add a b => .add a.zeroFn b.zeroFn
  | .mul a b => .mul a.zeroFn b.zeroFn
  | .pow a b => .pow a.zeroFn b.zeroFn
  | e => e

/-- The arguments of a sum. -/
def Ex.terms : Ex D → List (Ex D)
  | .add a b => a.terms ++ b.terms
  | e => [e]

/-- The terms looked at, scheme.py 335-347: those of a sum, a product as a whole, nothing else. -/
def Ex.classified : Ex D → List (Ex D)
  | .add a b => a.terms ++ b.terms
  | .mul a b => [.mul a b]
  | _ => []

/-- `Add` of terms, from `S.Zero` on. -/
def Ex.sum (l : List (Ex D)) : Ex D := l.foldl .add (.num 0)

/-- `containing_terms`, scheme.py 333-358. -/
def Ex.viscous (e : Ex D) : Ex D := (Ex.sum (e.classified.filter fun t => t.hasRe)).zeroFn

/-- `other_terms`. -/
def Ex.convective (e : Ex D) : Ex D := (Ex.sum (e.classified.filter fun t => !t.hasRe)).zeroFn

/-- Derivatives replaced by work arrays, the outermost first. The order of the single replacements is treated in C48. -/
def Ex.resolve (work : Ex D → Option ℕ) : Ex D → Ex D
  | .cd d k e => match work (.cd d k e) with
    | some i => .arr (.work i)
    | none => .cd d k (e.resolve work)
  | .add a b => .add (a.resolve work) (b.resolve work)
  | .mul a b => .mul (a.resolve work) (b.resolve work)
  | .pow a b => .pow (a.resolve work) (b.resolve work)
  | .fn f e => .fn f (e.resolve work)
  | e => e

/-- A problem: the block, the order of the scheme, the time-advanced arrays and right hand sides of the simulation equations, the constituent relations, the work index at the beginning, `block.known_datasets`; and the
orders in which sets and dictionaries list the derivatives of the convective terms by direction (`convective_grouped`), the derivatives of the viscous terms, and the required datasets. -/
structure Setup (D n : ℕ) where
  np : Fin D → ℤ
  order : ℕ
  sol : Fin n → String
  rhs : Fin n → Ex D
  rel : List (String × Ex D)
  w0 : ℕ
  known : List String
  groups : List (Fin D × List (Ex D))
  vcds : List (Ex D)
  keys : List String

/-- All convective derivatives. -/
def Setup.flat (S : Setup D n) : List (Ex D) := S.groups.flatMap Prod.snd

/-- `int(order/2)`, scheme.py 37. -/
def Setup.h (S : Setup D n) : ℤ := ((S.order / 2 : ℕ) : ℤ)

/-- The datasets in `required_constituent_relations`: those in derivatives (scheme.py 159-172), those in the convective terms (174-185 and 245, when there are convective derivatives) and those in the viscous terms (257). -/
def Setup.required (S : Setup D n) (s : String) : Prop :=
  (∃ c ∈ S.flat ++ S.vcds, s ∈ c.datas) ∨ (S.groups ≠ [] ∧ ∃ i, s ∈ (S.rhs i).convective.datas) ∨ ∃ i, s ∈ (S.rhs i).viscous.datas

/-- The orders list what they should: `group_by_direction` (scheme.py 145-157), `get_local_function` (138-143) and the keys of the dictionary of required datasets. -/
structure Setup.Listed (S : Setup D n) : Prop where
  groupDirs : (S.groups.map Prod.fst).Nodup
  groupDir : ∀ g ∈ S.groups, ∀ c ∈ g.2, c.dir = some g.1
  groupNonempty : ∀ g ∈ S.groups, g.2 ≠ []
  flatNodup : S.flat.Nodup
  flatMem : ∀ c, c ∈ S.flat ↔ ∃ i, c ∈ (S.rhs i).convective.cds
  vcdsNodup : S.vcds.Nodup
  vcdsMem : ∀ c, c ∈ S.vcds ↔ ∃ i, c ∈ (S.rhs i).viscous.cds
  keysNodup : S.keys.Nodup
  keysMem : ∀ s, s ∈ S.keys ↔ S.required s

/-- A kernel: range and equations in order. -/
structure Ker (D : ℕ) where
  range : Ranges.Kernel D
  eqs : List (Arr × Ex D)

/-- The grid range with `CentralHalos` on both sides of the directions listed: `set_grid_range` and repeated `set_halo_range` (kernel.py 105-117). -/
def rangeOf (np : Fin D → ℤ) (h : ℤ) (dirs : List (Fin D)) : Ranges.Kernel D :=
  dirs.foldl (fun k d => (k.setHaloRange d false {(-h, h)}).setHaloRange d true {(-h, h)}) (Ranges.Kernel.onGrid fun d => (0, np d))

/-! ## Constituent relations -/

/-- Directions in which a dataset is differentiated, `update_range_of_constituent_relations` (scheme.py 159-172), called for the convective derivatives (217) and then the viscous ones (317). -/
def Setup.crDirs (S : Setup D n) (s : String) : List (Fin D) := ((S.flat ++ S.vcds).filter fun c => decide (s ∈ c.datas)).filterMap Ex.dir

/-- The relation for a dataset, `cr_dictionary` (opensbliequations.py 293-295). -/
def Setup.relation (S : Setup D n) (s : String) : Option (Ex D) := (S.rel.find? fun r => r.1 = s).map Prod.snd

/-- The kernel evaluating the relation of a required dataset on a range, opensbliequations.py 299-310. -/
def Setup.relKernelOn (S : Setup D n) (range : Ranges.Kernel D) (s : String) : Option (Ker D) := (S.relation s).map fun e => ⟨range, [(.data s, e)]⟩

/-- The kernel of a required dataset with its relation, scheme.py 167-171, 182-184. -/
def Setup.relKernel (S : Setup D n) (s : String) : Option (Ker D) := S.relKernelOn (rangeOf S.np S.h (S.crDirs s)) s

/-- `sort_constituents`, opensbliequations.py 335-352: required datasets without a relation (`cls.requires`) and the datasets known to the block are there already. -/
def Setup.relOrder (S : Setup D n) : Except SortDict.Err (List String) :=
  SortDict.sortDictionary (((S.keys.filter fun s => (S.relation s).isNone) ++ S.known).dedup) (S.keys.filterMap fun s => (S.relation s).map fun e => (s, e.datas))

/-- The kernels in that order, 348-352. -/
def Setup.relKernels (S : Setup D n) : Except SortDict.Err (List (Ker D)) :=
  match S.relOrder with
  | .error e => .error e
  | .ok order => .ok (order.filterMap S.relKernel)

/-! ## Convective terms -/

/-- `len(v.required_datasets) > 1`, scheme.py 218. -/
def Ex.several (c : Ex D) : Bool := decide (1 < c.datas.dedup.length)

/-- Work array of a convective derivative: the next index each, in the order of the groups (scheme.py 202-204). -/
def Setup.convWork (S : Setup D n) (c : Ex D) : ℕ := S.w0 + S.flat.idxOf c

/-- Work array of the expression under a derivative: after all those of the derivatives, in the order of the group; every group starts anew (scheme.py 214, 218-220, 238). The counter itself is the subject of C48. -/
def Setup.localWork (S : Setup D n) (g : List (Ex D)) (c : Ex D) : ℕ := S.w0 + S.flat.length + (g.filter Ex.several).idxOf c

/-- Kernels of one direction, scheme.py 209-241. -/
def Setup.groupKernels (S : Setup D n) (g : Fin D × List (Ex D)) : List (Ker D) :=
  (if g.2.filter Ex.several = [] then [] else
    [⟨rangeOf S.np S.h [g.1], (g.2.filter Ex.several).map fun c => (.work (S.localWork g.2 c), c.arg)⟩]) ++
  g.2.map fun c => ⟨rangeOf S.np S.h [], [(.work (S.convWork c), match c with
    | .cd d k e => .cd d k (if c.several then .arr (.work (S.localWork g.2 c)) else e)
    | e => e)]⟩

/-- All kernels of the convective terms, scheme.py 199-252: the residual is set; nothing without convective derivatives. -/
def Setup.convKernels (S : Setup D n) : List (Ker D) :=
  if S.groups = [] then [] else
  S.groups.flatMap S.groupKernels ++
    [⟨rangeOf S.np S.h [], (List.finRange n).map fun i : Fin n => (.res i, (S.rhs i).convective.resolve fun c => if c ∈ S.flat then some (S.convWork c) else none)⟩]

/-! ## Viscous terms -/

/-- Work array of a viscous derivative, after `reset_work_index` (scheme.py 254 and 308-309). -/
def Setup.viscWork (S : Setup D n) (c : Ex D) : Option ℕ := if c ∈ S.vcds then some (S.vcds.idxOf c) else none

/-- Directions in which the kernel of a derivative is extended, `traverse` (scheme.py 360-387): for every derivative, each derivative inside gets the direction of the next one in the traversal. -/
def Setup.viscDirs (S : Setup D n) (c : Ex D) : List (Fin D) :=
  S.vcds.flatMap fun o => ((o.cds.zip o.cds.tail).filter fun p => decide (p.1 = c)).filterMap fun p => p.2.dir

/-- The kernel of a viscous derivative, scheme.py 316-322: the derivatives inside are replaced by their work arrays. -/
def Setup.viscKernel (S : Setup D n) (c : Ex D) : Ker D :=
  ⟨rangeOf S.np S.h (S.viscDirs c), [(.work (S.vcds.idxOf c), match c with
    | .cd d k e => .cd d k (e.resolve S.viscWork)
    | e => e)]⟩

/-- `len(x.atoms(CoordinateObject))`, scheme.py 260: the number of different directions. -/
def Ex.coords (c : Ex D) : ℕ := (c.cds.filterMap Ex.dir).dedup.length

/-- All kernels of the viscous terms, scheme.py 255-267: a stable sort of the derivatives, then the terms are added to the residual; nothing without viscous derivatives. -/
def Setup.viscKernels (S : Setup D n) : List (Ker D) :=
  if S.vcds = [] then [] else
  ((S.vcds.mergeSort fun a b => decide (a.coords ≤ b.coords)).map S.viscKernel) ++
    [⟨rangeOf S.np S.h [], (List.finRange n).map fun i : Fin n => (.res i, .add (.arr (.res i)) ((S.rhs i).viscous.resolve S.viscWork))⟩]

/-- `all_spatial_kernels`, opensbliequations.py 440-441. -/
def Setup.spatial (S : Setup D n) : Except SortDict.Err (List (Ker D)) :=
  match S.relKernels with
  | .error e => .error e
  | .ok r => .ok (r ++ S.convKernels ++ S.viscKernels)

/-! ## Time integration -/

/-- The two schemes. -/
inductive Temporal where
  | rk
  | lowStorage
  deriving DecidableEq

/-- "Save equations", rk_sbli.py 126-133; `RungeKuttaLS` has no start kernel. -/
def Setup.startKernels (S : Setup D n) : Temporal → List (Ker D)
  | .rk => [⟨rangeOf S.np S.h [], (List.finRange n).map fun i : Fin n => (.reg i, .arr (.data (S.sol i)))⟩]
  | .lowStorage => []

/-- The kernels of a stage: rk_sbli.py 103-124 (stage update, then solution update), rk_LS.py 139-166. -/
def Setup.advanceKernels (S : Setup D n) : Temporal → List (Ker D)
  | .rk =>
    [⟨rangeOf S.np S.h [], (List.finRange n).map fun i : Fin n => (.data (S.sol i), .add (.arr (.reg i)) (.mul (.mul (.const "dt") (.indexed "rknew")) (.arr (.res i))))⟩,
     ⟨rangeOf S.np S.h [], (List.finRange n).map fun i : Fin n => (.reg i, .add (.arr (.reg i)) (.mul (.mul (.const "dt") (.indexed "rkold")) (.arr (.res i))))⟩]
  | .lowStorage =>
    [⟨rangeOf S.np S.h [], (List.finRange n).flatMap fun i : Fin n =>
      [(.reg i, .add (.mul (.indexed "rkA") (.arr (.reg i))) (.mul (.const "dt") (.arr (.res i)))),
       (.data (S.sol i), .add (.arr (.data (S.sol i))) (.mul (.indexed "rkB") (.arr (.reg i))))]⟩]

/-- All arrays. -/
abbrev Mem (D : ℕ) := Arr → P D → ℝ

/-- The point `j` steps away in direction `d`, as `increment_dataset` shifts the index of a dataset (utilities/helperfunctions.py 33-47). -/
def shift (x : P D) (d : Fin D) (j : ℤ) : P D := Function.update x d (x d + j)

/-- Meaning of constants, coefficient tables, derivatives, powers and functions. -/
structure Interp (D : ℕ) where
  const : String → ℝ
  table : String → List ℝ
  stage : ℤ
  cd : Fin D → ℕ → (P D → ℝ) → P D → ℝ
  pow : ℝ → ℝ → ℝ
  fn : String → ℝ → ℝ

/-- A kernel given by the values its equations compute from the arrays at a point, given the meaning of constants and functions, for equations which are not expressions of `Ex` (`Model/ShockProgram.lean`). -/
structure FnKer (D : ℕ) where
  range : Ranges.Kernel D
  eqs : List (Arr × (Interp D → Mem D → P D → ℝ))

/-- What the program calls: kernels, and the boundary conditions of the block. -/
inductive Call (D : ℕ) where
  | comp (k : Ker D)
  | bc
  | fn (k : FnKer D)

/-- The entry of the simulation equations in the program. -/
def Setup.item (S : Setup D n) (t : Temporal) (spatial : List (Ker D)) : Alg.Item (Call D) :=
  .simulation ((S.startKernels t).map .comp) [] ((S.advanceKernels t).map .comp) [.bc] (spatial.map .comp)

/-! ## Running -/

/-- Value of an expression. -/
def Ex.eval (I : Interp D) (m : Mem D) : Ex D → P D → ℝ
  | .num z => fun _ => z
  | .const c => fun _ => I.const c
  | .indexed t => fun _ => (I.table t).getD I.stage.toNat 0
  | .arr a => m a
  | .cd d k e => I.cd d k (e.eval I m)
  | .add a b => fun x => a.eval I m x + b.eval I m x
  | .mul a b => fun x => a.eval I m x * b.eval I m x
  | .pow a b => fun x => I.pow (a.eval I m x) (b.eval I m x)
  | .fn f e => fun x => I.fn f (e.eval I m x)

/-- Write one element. -/
def Mem.set (m : Mem D) (a : Arr) (x : P D) (v : ℝ) : Mem D := fun b y => if b = a ∧ y = x then v else m b y

/-- The kernel function at one point: its equations in order. -/
def atPoint (I : Interp D) (eqs : List (Arr × Ex D)) (m : Mem D) (x : P D) : Mem D := eqs.foldl (fun m q => m.set q.1 x (q.2.eval I m x)) m

/-- The parallel loop over the points of a kernel, listed in some order. -/
def runKer (I : Interp D) (pts : Ranges.Kernel D → List (P D)) (k : Ker D) (m : Mem D) : Mem D := (pts k.range).foldl (atPoint I k.eqs) m

/-- The same for a kernel given by functions. -/
def runFn (I : Interp D) (pts : Ranges.Kernel D → List (P D)) (k : FnKer D) (m : Mem D) : Mem D :=
  (pts k.range).foldl (fun m x => k.eqs.foldl (fun m q => m.set q.1 x (q.2 I m x)) m) m

/-- The boundary conditions, on the solution arrays only (opensbliequations.py 409-413). -/
def runBc (sol : Fin n → String) (B : (Fin n → P D → ℝ) → Fin n → P D → ℝ) (m : Mem D) : Mem D
  | .data s => match (List.finRange n).find? fun i : Fin n => sol i = s with
    | some i => B (fun j => m (.data (sol j))) i
    | none => m (.data s)
  | a => m a

/-- Effect of an event of the program. Output and monitors change no array. -/
def exec (I : Interp D) (pts : Ranges.Kernel D → List (P D)) (sol : Fin n → String) (B : (Fin n → P D → ℝ) → Fin n → P D → ℝ) : Alg.Event (Call D) → Mem D → Mem D
  | .call (.comp k) e, m => runKer { I with stage := e.stage.getD 0 } pts k m
  | .call .bc _, m => runBc sol B m
  | .call (.fn k) _, m => runFn I pts k m
  | _, m => m

end OpenSBLI.Sim
