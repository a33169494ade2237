import Mathlib.Data.Fintype.Pi
import Mathlib.Data.Finset.Union
import Mathlib.Data.Finset.Image
import Mathlib.Data.Rat.Defs
import Mathlib.Algebra.Group.Pi.Basic
import Mathlib.Algebra.Group.Int.Defs

/-!
# Computational kernels: equations, emitted loops and argument lists

Model of `core/kernel.py` (`Kernel`), of the parts of `code_generation/opsc.py` that print a kernel body and a kernel header
(`kernel_computation_opsc` 334-405, `_print_DataSet` 125-134, `_print_Indexed` 141-151) and of `GroupedPiecewise`
(`core/opensbliobjects.py` 585-661).

Symbolic expressions are modelled by a small syntax whose operations are uninterpreted: the meaning of a program is given relative to an
arbitrary `Interp`, so every theorem holds for real arithmetic and for floating point arithmetic alike.
-/
namespace OpenSBLI.Ker

/-- Index of a `ConstantIndexed` (opensbliobjects.py 184-207): a loop symbol of the main program or an integer literal. -/
inductive IIdx
  | sym (s : String)
  | lit (n : ℕ)
deriving DecidableEq

variable (d : ℕ)

/-- Symbolic expressions in `d` dimensions. Names stand for the printed names of the sympy objects:
`data` is a `DataSet` (base and relative offsets), `const` a `ConstantObject`, `iconst` a `ConstantIndexed`, `glob` a `GlobalValue`,
`gvar` a `GridVariable`, `idx` a `Grididx`. -/
inductive Expr
  | num (q : ℚ)
  | data (b : String) (off : Fin d → ℤ)
  | const (c : String)
  | iconst (b : String) (i : IIdx)
  | glob (g : String)
  | gvar (v : String)
  | idx (k : Fin d)
  | un (f : String) (x : Expr)
  | bin (f : String) (x y : Expr)

/-- Conditions of a `GroupedPiecewise`. -/
inductive Cond
  | tt
  | rel (r : String) (x y : Expr d)
  | and (c e : Cond)
  | or (c e : Cond)
  | not (c : Cond)

/-- Left hand sides. -/
inductive Lhs
  | data (b : String) (off : Fin d → ℤ)
  | gvar (v : String)
  | glob (g : String)

/-- An `OpenSBLIEquation` (opensbliequations.py 150-182). -/
structure Assign where
  lhs : Lhs d
  rhs : Expr d

/-- Entries of `Kernel.equations`: an equation or a `GroupedPiecewise`, a list of (equations, condition) pairs. -/
inductive Eqn
  | assign (a : Assign d)
  | piecewise (branches : List (List (Assign d) × Cond d))

variable {d}

/-! ## Atoms, as collected by sympy's `atoms` -/

/-- `atoms(DataSet)`: accesses (base, offsets). -/
def Expr.accesses : Expr d → List (String × (Fin d → ℤ))
  | .data b o => [(b, o)]
  | .un _ x => x.accesses
  | .bin _ x y => x.accesses ++ y.accesses
  | _ => []

/-- `atoms(DataSetBase)`. -/
def Expr.bases (e : Expr d) : Finset String := (e.accesses.map Prod.fst).toFinset

def Cond.accesses : Cond d → List (String × (Fin d → ℤ))
  | .tt => []
  | .rel _ x y => x.accesses ++ y.accesses
  | .and c e => c.accesses ++ e.accesses
  | .or c e => c.accesses ++ e.accesses
  | .not c => c.accesses

def Cond.bases (c : Cond d) : Finset String := (c.accesses.map Prod.fst).toFinset

def Lhs.accesses : Lhs d → List (String × (Fin d → ℤ))
  | .data b o => [(b, o)]
  | _ => []

def Lhs.bases (l : Lhs d) : Finset String := (l.accesses.map Prod.fst).toFinset

/-- `atoms(ConstantIndexed)`. -/
def Expr.iconsts : Expr d → Finset (String × IIdx)
  | .iconst b i => {(b, i)}
  | .un _ x => x.iconsts
  | .bin _ x y => x.iconsts ∪ y.iconsts
  | _ => ∅

def Cond.iconsts : Cond d → Finset (String × IIdx)
  | .tt => ∅
  | .rel _ x y => x.iconsts ∪ y.iconsts
  | .and c e => c.iconsts ∪ e.iconsts
  | .or c e => c.iconsts ∪ e.iconsts
  | .not c => c.iconsts

/-- `atoms(GlobalValue)`. -/
def Expr.globs : Expr d → Finset String
  | .glob g => {g}
  | .un _ x => x.globs
  | .bin _ x y => x.globs ∪ y.globs
  | _ => ∅

def Cond.globs : Cond d → Finset String
  | .tt => ∅
  | .rel _ x y => x.globs ∪ y.globs
  | .and c e => c.globs ∪ e.globs
  | .or c e => c.globs ∪ e.globs
  | .not c => c.globs

def Lhs.globs : Lhs d → Finset String
  | .glob g => {g}
  | _ => ∅

/-- Does `atoms(Grididx)` find something. -/
def Expr.usesIdx : Expr d → Bool
  | .idx _ => true
  | .un _ x => x.usesIdx
  | .bin _ x y => x.usesIdx || y.usesIdx
  | _ => false

def Cond.usesIdx : Cond d → Bool
  | .tt => false
  | .rel _ x y => x.usesIdx || y.usesIdx
  | .and c e => c.usesIdx || e.usesIdx
  | .or c e => c.usesIdx || e.usesIdx
  | .not c => c.usesIdx

/-- Finite union over a list. -/
def unionAll {α β : Type} [DecidableEq β] (l : List α) (f : α → Finset β) : Finset β := l.foldr (fun a s => f a ∪ s) ∅

/-- `lhs_datasetbases`, opensbliequations.py 175-177 and opensbliobjects.py 621-633. -/
def Eqn.lhsBases : Eqn d → Finset String
  | .assign a => a.lhs.bases
  | .piecewise bs => unionAll bs fun b => unionAll b.1 fun a => a.lhs.bases

/-- `rhs_datasetbases`, opensbliequations.py 179-181 and opensbliobjects.py 649-661 (conditions are read). -/
def Eqn.rhsBases : Eqn d → Finset String
  | .assign a => a.rhs.bases
  | .piecewise bs => unionAll bs fun b => (unionAll b.1 fun a => a.rhs.bases) ∪ b.2.bases

def Eqn.accesses : Eqn d → List (String × (Fin d → ℤ))
  | .assign a => a.lhs.accesses ++ a.rhs.accesses
  | .piecewise bs => bs.flatMap fun b => (b.1.flatMap fun a => a.lhs.accesses ++ a.rhs.accesses) ++ b.2.accesses

def Eqn.iconsts : Eqn d → Finset (String × IIdx)
  | .assign a => a.rhs.iconsts
  | .piecewise bs => unionAll bs fun b => (unionAll b.1 fun a => a.rhs.iconsts) ∪ b.2.iconsts

def Eqn.globs : Eqn d → Finset String
  | .assign a => a.lhs.globs ∪ a.rhs.globs
  | .piecewise bs => unionAll bs fun b => (unionAll b.1 fun a => a.lhs.globs ∪ a.rhs.globs) ∪ b.2.globs

def Eqn.usesIdx : Eqn d → Bool
  | .assign a => a.rhs.usesIdx
  | .piecewise bs => bs.any fun b => (b.1.any fun a => a.rhs.usesIdx) || b.2.usesIdx

/-! ## `Kernel` properties -/

/-- `Kernel.lhs_datasetbases`, kernel.py 127-136. -/
def lhsBases (eqs : List (Eqn d)) : Finset String := unionAll eqs Eqn.lhsBases

/-- `Kernel.rhs_datasetbases`, kernel.py 138-146. -/
def rhsBases (eqs : List (Eqn d)) : Finset String := unionAll eqs Eqn.rhsBases

/-- `Kernel.IndexedConstants`, kernel.py 156-162. -/
def indexedConstants (eqs : List (Eqn d)) : Finset (String × IIdx) := unionAll eqs Eqn.iconsts

/-- `Kernel.global_variables`, kernel.py 164-171: all globals are collected in the first set, the second stays empty. -/
def globalVariables (eqs : List (Eqn d)) : Finset String × Finset String := (unionAll eqs Eqn.globs, ∅)

/-- `Kernel.grid_indices_used`, kernel.py 173-179. -/
def gridIndicesUsed (eqs : List (Eqn d)) : Bool := eqs.any Eqn.usesIdx

/-- All dataset accesses, `eq.atoms(DataSet)` over all equations (kernel.py 183-187). -/
def accesses (eqs : List (Eqn d)) : List (String × (Fin d → ℤ)) := eqs.flatMap Eqn.accesses

/-- `Kernel.get_stencils`, kernel.py 181-197: for a dataset, the set of its offsets. -/
def stencilOf (eqs : List (Eqn d)) (b : String) : Finset (Fin d → ℤ) :=
  (((accesses eqs).filter fun a => a.1 = b).map Prod.snd).toFinset

/-- Access modes, kernel.py 61. -/
inductive Access
  | read | write | rw
deriving DecidableEq

/-- `ins`, `outs`, `inouts` of kernel.py 237-241 and opsc.py 336-340. -/
def insSet (eqs : List (Eqn d)) : Finset String := rhsBases eqs \ (rhsBases eqs ∩ lhsBases eqs)
def outsSet (eqs : List (Eqn d)) : Finset String := lhsBases eqs \ (rhsBases eqs ∩ lhsBases eqs)
def inoutsSet (eqs : List (Eqn d)) : Finset String := rhsBases eqs ∩ lhsBases eqs

/-- Iteration order of Python sets: unspecified, but the same set object contents built the same way is listed in the same order in the
header and in the call. An enumeration lists every element once. -/
structure Enum (α : Type) where
  list : Finset α → List α
  mem : ∀ s a, a ∈ list s ↔ a ∈ s
  nodup : ∀ s, (list s).Nodup

/-- Arguments of `ops_par_loop`. -/
inductive Arg
  /-- `ops_arg_dat(name, 1, stencil, type, access)` -/
  | dat (b : String) (a : Access)
  /-- `ops_arg_gbl(&base[index], 1, type, OPS_READ)` -/
  | iconst (b : String) (i : IIdx) (a : Access)
  /-- `ops_arg_gbl(&name, 1, type, access)` -/
  | glob (g : String) (a : Access)
  /-- `ops_arg_idx()` -/
  | idx
deriving DecidableEq

/-- Arguments of the call in the order of `Kernel.opsc_code`, kernel.py 253-271; `none` for a kernel without equations (242) and when both
global sets share a variable (264). -/
def callArgs (E : Enum String) (EI : Enum (String × IIdx)) (eqs : List (Eqn d)) : Option (List Arg) :=
  let g := globalVariables eqs
  if eqs.isEmpty || g.1 ∩ g.2 ≠ ∅ then none else
  some <| (E.list (insSet eqs)).map (Arg.dat · .read) ++ (E.list (outsSet eqs)).map (Arg.dat · .write) ++
    (E.list (inoutsSet eqs)).map (Arg.dat · .rw) ++
    (EI.list (indexedConstants eqs)).map (fun c => Arg.iconst c.1 c.2 .read) ++
    (E.list g.1).map (Arg.glob · .read) ++ (E.list g.2).map (Arg.glob · .write) ++
    (if gridIndicesUsed eqs then [Arg.idx] else [])

/-- Parameters of the emitted kernel function; `const` qualified ones cannot be assigned. -/
inductive Param
  /-- pointer parameter for a dataset -/
  | dat (b : String) (isConst : Bool)
  /-- pointer parameter for an indexed constant -/
  | iconst (b : String) (isConst : Bool)
  /-- pointer parameter for a global -/
  | glob (g : String) (isConst : Bool)
  /-- `const int *idx` -/
  | idx
deriving DecidableEq

/-- Parameters in the order of `kernel_computation_opsc`, opsc.py 341-362. -/
def headerParams (E : Enum String) (EI : Enum (String × IIdx)) (eqs : List (Eqn d)) : Option (List Param) :=
  let g := globalVariables eqs
  if g.1 ∩ g.2 ≠ ∅ then none else
  some <| (E.list (insSet eqs)).map (Param.dat · true) ++ (E.list (outsSet eqs)).map (Param.dat · false) ++
    (E.list (inoutsSet eqs)).map (Param.dat · false) ++
    (E.list g.1).map (Param.glob · true) ++ (E.list g.2).map (Param.glob · false) ++
    (EI.list (indexedConstants eqs)).map (fun c => Param.iconst c.1 true) ++
    (if gridIndicesUsed eqs then [Param.idx] else [])

/-- `all_dataset_inps`, opsc.py 342-348. -/
def datasetInps (E : Enum String) (eqs : List (Eqn d)) : List String :=
  let g := globalVariables eqs
  E.list (insSet eqs) ++ E.list (outsSet eqs) ++ E.list (inoutsSet eqs) ++ E.list g.1 ++ E.list g.2

/-- Number `n` of the macro `OPS_ACCn` used to print accesses to a dataset: the dictionary of opsc.py 364-365. -/
def accNumber (E : Enum String) (eqs : List (Eqn d)) (b : String) : Option ℕ := (datasetInps E eqs).findIdx? (· = b)

/-- Name of the C parameter declared by the header (opsc.py 322-332). -/
def Param.name : Param → String
  | .dat b _ => b
  | .iconst b _ => b
  | .glob g _ => g
  | .idx => "idx"

/-- Index printed inside the kernel for an indexed constant: symbols are replaced by 0 (`_print_Indexed`, opsc.py 147-151). -/
def IIdx.printed : IIdx → ℕ
  | .sym _ => 0
  | .lit n => n

/-! ## Meaning of a kernel -/

/-- Interpretation of numbers, functions, operators and relations on a type of values. -/
structure Interp (V : Type) where
  num : ℚ → V
  un : String → V → V
  bin : String → V → V → V
  rel : String → V → V → Bool
  ofIdx : ℤ → V

/-- Contents of memory outside a kernel call. -/
structure Store (d : ℕ) (V : Type) where
  data : String → (Fin d → ℤ) → V
  const : String → V
  iconst : String → IIdx → V
  glob : String → V

/-- Memory seen by one execution of the kernel function: the store and the local grid variables. -/
structure Point (d : ℕ) (V : Type) where
  store : Store d V
  loc : String → V

variable {V : Type}

/-- Value of an expression at grid point `p`. -/
def Expr.eval (I : Interp V) (p : Fin d → ℤ) (s : Point d V) : Expr d → V
  | .num q => I.num q
  | .data b o => s.store.data b (p + o)
  | .const c => s.store.const c
  | .iconst b i => s.store.iconst b i
  | .glob g => s.store.glob g
  | .gvar v => s.loc v
  | .idx k => I.ofIdx (p k)
  | .un f x => I.un f (x.eval I p s)
  | .bin f x y => I.bin f (x.eval I p s) (y.eval I p s)

def Cond.eval (I : Interp V) (p : Fin d → ℤ) (s : Point d V) : Cond d → Bool
  | .tt => true
  | .rel r x y => I.rel r (x.eval I p s) (y.eval I p s)
  | .and c e => c.eval I p s && e.eval I p s
  | .or c e => c.eval I p s || e.eval I p s
  | .not c => !c.eval I p s

/-- Write one array element. -/
def Store.setData (st : Store d V) (b : String) (x : Fin d → ℤ) (v : V) : Store d V :=
  { st with data := fun b' x' => if b' = b ∧ x' = x then v else st.data b' x' }

/-- Effect of an emitted assignment at grid point `p`. -/
def Assign.exec (I : Interp V) (p : Fin d → ℤ) (a : Assign d) (s : Point d V) : Point d V :=
  match a.lhs with
  | .data b o => { s with store := s.store.setData b (p + o) (a.rhs.eval I p s) }
  | .gvar v => { s with loc := Function.update s.loc v (a.rhs.eval I p s) }
  | .glob g => { s with store := { s.store with glob := Function.update s.store.glob g (a.rhs.eval I p s) } }

def execAssigns (I : Interp V) (p : Fin d → ℤ) (as : List (Assign d)) (s : Point d V) : Point d V :=
  as.foldl (fun s a => a.exec I p s) s

/-- The `if`/`else if`/`else` chain emitted for a `GroupedPiecewise`, opsc.py 373-397. -/
def execBranches (I : Interp V) (p : Fin d → ℤ) : List (List (Assign d) × Cond d) → Point d V → Point d V
  | [], s => s
  | (as, c) :: bs, s => if c.eval I p s then execAssigns I p as s else execBranches I p bs s

def Eqn.exec (I : Interp V) (p : Fin d → ℤ) (e : Eqn d) (s : Point d V) : Point d V :=
  match e with
  | .assign a => a.exec I p s
  | .piecewise bs => execBranches I p bs s

/-- One call of the kernel function: local variables start at `0.0` (opsc.py 401-402), equations run in order. -/
def execPoint (I : Interp V) (eqs : List (Eqn d)) (st : Store d V) (p : Fin d → ℤ) : Store d V :=
  (eqs.foldl (fun (s : Point d V) (e : Eqn d) => e.exec I p s) ⟨st, fun _ => I.num 0⟩).store

/-- `ops_par_loop` over a list of points in that order. -/
def execLoop (I : Interp V) (eqs : List (Eqn d)) (pts : List (Fin d → ℤ)) (st : Store d V) : Store d V :=
  pts.foldl (execPoint I eqs) st

end OpenSBLI.Ker
