import Verif.Model.Kernel
import Mathlib.Data.List.Sort

/-!
# Names and registries: kernel counters, stencils, constants, rational constants

Model of `core/block.py` (`KernelCounter` 18-48, `blockname` 75-77), `core/kernel.py` (`Kernel.__init__` 63-75,
`ConstantsToDeclare` 23-36, `StencilObject` 46-59, `update_block_datasets` 314-324) and `code_generation/opsc.py`
(`RationalCounter` 21-45, `_print_Rational` 65-77, `pow_to_constant` 163-187, `ops_stencils_declare` 526-532,
`define_constants` 625-655) and `utilities/helperfunctions.py` (`get_inverse_deltas` 64-77).
-/
namespace OpenSBLI.Reg

/-- Python's `%0wd` for a natural number. -/
def padded (w n : ℕ) : String :=
  String.ofList (List.replicate (w - (Nat.toDigits 10 n).length) '0' ++ Nat.toDigits 10 n)

/-- `blockname`, block.py 75-77: `'opensbliblock%02d'`. -/
def blockName (b : ℕ) : String := "opensbliblock" ++ padded 2 b

/-- `kernelname`, kernel.py 72: block name + `"Kernel%03d"`. -/
def kernelName (b k : ℕ) : String := blockName b ++ "Kernel" ++ padded 3 k

/-- `KernelCounter`, block.py 18-25. -/
structure Counter where
  counter : ℕ := 0
  stored : ℕ := 0

/-- What can happen to the counter of a block: creation of a kernel (kernel.py 71-73) and the counter methods (block.py 27-48). -/
inductive CounterOp
  | create | increase | store | reset | resetToStored

/-- New counter and the name given to a kernel created on block `b`. -/
def Counter.step (b : ℕ) (c : Counter) : CounterOp → Counter × Option String
  | .create => ({ c with counter := c.counter + 1 }, some (kernelName b c.counter))
  | .increase => ({ c with counter := c.counter + 1 }, none)
  | .store => ({ c with stored := c.counter }, none)
  | .reset => ({ c with counter := 0 }, none)
  | .resetToStored => ({ c with counter := c.stored }, none)

/-- Names of the kernels created by a history of operations on numbered blocks. -/
def kernelNames : (ℕ → Counter) → List (ℕ × CounterOp) → List String
  | _, [] => []
  | s, (b, op) :: h =>
    let r := (s b).step b op
    r.2.toList ++ kernelNames (Function.update s b r.1) h

/-! ## Stencils -/

variable {d : ℕ}

/-- Name of the stencil created as number `k` on block `b`, kernel.py 317: `'stencil_%d_%02d'`. -/
def stencilName (b k : ℕ) : String := "stencil_" ++ toString b ++ "_" ++ padded 2 k

/-- `block_stencils`: a dictionary from stencils to names, in order of insertion. -/
abbrev Stencils (d : ℕ) := List (Finset (Fin d → ℤ) × String)

/-- Lookup of a stencil (kernel.py 316-320): insert with a new name when absent. -/
def register (b : ℕ) (r : Stencils d) (s : Finset (Fin d → ℤ)) : Stencils d :=
  if s ∈ r.map Prod.fst then r else r ++ [(s, stencilName b r.length)]

/-- Name of a registered stencil. -/
def nameOf (r : Stencils d) (s : Finset (Fin d → ℤ)) : Option String := r.lookup s

/-- `update_block_datasets` 314-324 for a kernel: every dataset in the order of the stencil dictionary; returns the registry and
`stencil_names`. -/
def registerKernel (b : ℕ) (dsets : List String) (eqs : List (Ker.Eqn d)) (r : Stencils d) : Stencils d × List (String × Option String) :=
  dsets.foldl (fun acc x =>
    let r' := register b acc.1 (Ker.stencilOf eqs x)
    (r', acc.2 ++ [(x, nameOf r' (Ker.stencilOf eqs x))])) (r, [])

/-- Lexicographic order on offsets, as Python compares tuples. -/
def offLe (x y : Fin d → ℤ) : Bool := decide (List.ofFn x ≤ List.ofFn y)

/-- `sort_stencil_indices`, kernel.py 54-59. -/
noncomputable def sortStencil (s : Finset (Fin d → ℤ)) : List (Fin d → ℤ) := s.toList.mergeSort offLe

/-- Entries of the integer array printed by `ops_stencils_declare`, opsc.py 530. -/
noncomputable def stencilArray (s : Finset (Fin d → ℤ)) : List ℤ := (sortStencil s).flatMap List.ofFn

/-! ## Constants -/

/-- A `ConstantObject`: its name and value; `none` is the default `"Input"`. `K` stands for sympy expressions. -/
structure Const (K : Type) where
  name : String
  value : Option K

/-- `ConstantsToDeclare.add_constant`, kernel.py 26-36: constants are compared by name. -/
def addConstant {K : Type} (l : List (Const K)) (c : Const K) : List (Const K) :=
  if c.name ∈ l.map Const.name then l else l ++ [c]

/-- `add_constant` for a list of constants, kernel.py 32-34. -/
def addConstants {K : Type} (l cs : List (Const K)) : List (Const K) := cs.foldl addConstant l

/-- `RationalCounter` and the constants declared so far. -/
structure Rc (K : Type) where
  counter : ℕ
  /-- `existing` -/
  existing : List (K × String)
  constants : List (Const K)

/-- The name patterns used: `rc%d` (opsc.py 25), `rcinv%d` (170), `inv_%d` (helperfunctions.py 74). -/
inductive Prefix
  | rc | rcinv | inv

def Prefix.str : Prefix → String
  | .rc => "rc"
  | .rcinv => "rcinv"
  | .inv => "inv_"

variable {K : Type} [DecidableEq K]

/-- A request for a named constant of a given value: reuse when the value exists, otherwise `get_next_rational_constant`
(opsc.py 35-42, 74-77, 175-183; helperfunctions.py 68-77). -/
def Rc.request (s : Rc K) (p : Prefix) (k : K) : Rc K × String :=
  match s.existing.lookup k with
  | some n => (s, n)
  | none =>
    let name := p.str ++ toString s.counter
    (⟨s.counter + 1, s.existing ++ [(k, name)], addConstant s.constants ⟨name, some k⟩⟩, name)

/-- Names of the constants of a registry. -/
def Rc.names (s : Rc K) : List String := s.constants.map Const.name

/-- State after a sequence of requests. -/
def Rc.requests (s : Rc K) (l : List (Prefix × K)) : Rc K := l.foldl (fun s r => (s.request r.1 r.2).1) s

/-- What happens to the constants before the kernels are written: one is registered (`add_constant`, by the grid, grid.py 168-173, by
`dataobjects_to_datasets_on_block`, block.py 132-135, by schemes and boundary conditions), or one is requested: the inverse powers of the grid spacing when
a derivative is discretised (`get_inverse_deltas`, helperfunctions.py 64-77, called in opensblifunctions.py 518-519). -/
inductive Rc.Op (K : Type)
  | add (c : Const K)
  | request (p : Prefix) (k : K)

def Rc.perform (s : Rc K) : Rc.Op K → Rc K
  | .add c => { s with constants := addConstant s.constants c }
  | .request p k => (s.request p k).1

/-- The registry after a history. -/
def Rc.performs (s : Rc K) (ops : List (Rc.Op K)) : Rc K := ops.foldl Rc.perform s

/-- The registry at the start of Python: `RationalCounter.__init__`, opsc.py 24-27, and `ConstantsToDeclare`, kernel.py 22-24. -/
def Rc.empty : Rc K := ⟨0, [], []⟩

/-- Value declared for a name in the generated program: C assigns the constants in order (opsc.py 480-483). -/
def declared (l : List (Const K)) (n : String) : Option (Option K) := (l.find? fun c => c.name = n).map Const.value

/-- Generated assignments `name = value;` executed in order: values are expressions in the constants assigned before, `inputs` are the
values substituted for `"Input"` (opsc.py 480-483 and 625-636). -/
def runConstants {V : Type} (eval : (String → V) → K → V) (inputs : String → V) (l : List (Const K)) (env : String → V) : String → V :=
  l.foldl (fun env c => Function.update env c.name (match c.value with | some k => eval env k | none => inputs c.name)) env

end OpenSBLI.Reg
