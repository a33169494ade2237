import Verif.Model.Registry
import Mathlib.Data.List.Basic

/-!
# The generated program

Model of `code_generation/algorithm/algorithm.py`: the tree of components (`MainPrg` 22-78, `Condition` 81-137, `DoLoop` 140-192, `Timers` 249-327),
the assembly of the program (`TraditionalAlgorithmRK.generate_solution` 384-477), the meaning of the C code printed by the components, the
input/output objects of `core/io_hdf5.py` 19-140 and the collection of kernels of `code_generation/opsc.py` (`loop_alg` 595-609).

Kernels are abstract (`K`). The multi-block assembly (`multiblock/algorithm.py` 449-533) is in `Model/AlgorithmMB.lean`.
-/
namespace OpenSBLI.Alg

/-- Loop variables of the generated program: `iter` and `stage`. -/
inductive Var where
  | iter
  | stage
  deriving DecidableEq, Repr

/-- Conditions: `(iter+1) % f == 0` (algorithm.py 457) and `(iter+1) % f == 0 || iter == 0` (434). -/
inductive Cond where
  | every (f : ℕ)
  | everyOrFirst (f : ℕ)
  deriving DecidableEq, Repr

/-- Places in the algorithm, common.py. `inTheSimulation 0` stands for `frequency=False`. -/
inductive Place where
  | before
  | after
  | inTheSimulation (frequency : ℕ)
  deriving DecidableEq, Repr

/-- An `iohdf5` object: its number, whether it writes (the alternative is reading), its optional user-given file name and its places. -/
structure IO where
  id : ℕ
  write : Bool
  name : Option String
  places : List Place
  deriving DecidableEq, Repr

/-- `iohdf5.__new__`, io_hdf5.py 20-49: the places chosen from `save_every` (0 stands for `None`) and the type of the object. -/
def IO.new (id : ℕ) (write : Bool) (name : Option String) (saveEvery : ℕ) : IO where
  id := id
  write := write
  name := name
  places := if write then (if saveEvery = 0 then [] else [.inTheSimulation saveEvery]) ++ [.after] else [.before]

/-- Components of a program. `bound` is the exclusive bound of the `Idx` of a loop. -/
inductive Node (K : Type) where
  | kernel (k : K)
  | io (o : IO) (dynamicFname : Bool)
  | monitor
  | loop (v : Var) (bound : ℤ) (body : List (Node K))
  | cond (c : Cond) (body : List (Node K))
  | timers (body : List (Node K))

variable {K : Type}

/-! ## Meaning of the printed code -/

/-- Values of the loop variables; a variable has a value only inside its loop. -/
structure Env where
  iter : Option ℤ
  stage : Option ℤ
  deriving DecidableEq, Repr

def Env.set (e : Env) : Var → ℤ → Env
  | .iter, x => { e with iter := some x }
  | .stage, x => { e with stage := some x }

/-- What a run of the program does: a kernel is called, a file is written (with the number in its name when it has one), the monitor runs. -/
inductive Event (K : Type) where
  | call (k : K) (e : Env)
  | write (o : IO) (number : Option ℤ) (e : Env)
  | monitor (e : Env)
  deriving DecidableEq

/-- The C loop `for(int v=x; v<=upper; v++)`, algorithm.py 186. -/
def cFor {E : Type} (body : ℤ → List E) (x upper : ℤ) : List E :=
  if x ≤ upper then body x ++ cFor body (x + 1) upper else []
termination_by (upper + 1 - x).toNat
decreasing_by omega

/-- Value of a condition, with the remainder of C. -/
def Cond.holds (c : Cond) (e : Env) : Bool :=
  match e.iter, c with
  | some i, .every f => (i + 1).tmod f == 0
  | some i, .everyOrFirst f => (i + 1).tmod f == 0 || i == 0
  | none, _ => false

mutual
/-- Events of the code of a component. A loop runs from the lower bound 0 of its `Idx` to the upper bound, `bound - 1`. Reading objects print
nothing (io_hdf5.py 127-129). The control parameter of a dynamic name is `iter + 1` (algorithm.py 461). -/
def Node.run (e : Env) : Node K → List (Event K)
  | .kernel k => [.call k e]
  | .io o dyn => if o.write then [.write o (if dyn then e.iter.map (· + 1) else none) e] else []
  | .monitor => [.monitor e]
  | .loop v bound body => cFor (fun x : ℤ => runAll (e.set v x) body) 0 (bound - 1)
  | .cond c body => if c.holds e then runAll e body else []
  | .timers body => runAll e body

def runAll (e : Env) : List (Node K) → List (Event K)
  | [] => []
  | n :: ns => n.run e ++ runAll e ns
end

/-! ## Assembly -/

/-- Equation classes of the temporal scheme's `solution` dictionary, in its order. -/
inductive Item (K : Type) where
  | simulation (startKernels endKernels kernels boundary spatial : List K)
  | nonSimulation (order : ℤ) (places : List Place) (kernels : List K)
  | constituent
  | other

/-- What `generate_solution` needs. `monitorFrequency` is present when a simulation monitor is given. -/
structure Input (K : Type) where
  temporalSchemes : ℕ
  items : List (Item K)
  stages : ℤ
  niter : ℤ
  monitorFrequency : Option ℕ
  ios : List IO

/-- State of the loop over the items, algorithm.py 396-417. -/
structure Acc (K : Type) where
  bc : List K := []
  advance : List K := []
  start : List K := []
  finish : List K := []
  spatial : List K := []
  nonSim : List (ℤ × List Place × List K) := []

/-- Algorithm.py 404-417: note that the boundary and spatial kernels are assigned, the others accumulated. -/
def Acc.add (a : Acc K) : Item K → Except String (Acc K)
  | .simulation s f k b sp => .ok { a with start := a.start ++ s, finish := a.finish ++ f, advance := a.advance ++ k, bc := b, spatial := sp }
  | .nonSimulation o p k => .ok { a with nonSim := a.nonSim ++ [(o, p, k)] }
  | .constituent => .ok a
  | .other => .error "Equations class can not be classified"

/-- Components placed before, within and after the time loop. -/
structure Placed (K : Type) where
  before : List (Node K) := []
  inTime : List (Node K) := []
  after : List (Node K) := []

/-- Algorithm.py 419-428. -/
def Placed.addKernels (k : List K) (a : Placed K) : Place → Except String (Placed K)
  | .before => .ok { a with before := a.before ++ k.map .kernel }
  | .after => .ok { a with after := a.after ++ k.map .kernel }
  | .inTheSimulation f => if f ≠ 0 then .error "In Non-simulation equations" else .ok { a with inTime := a.inTime ++ k.map .kernel }

/-- Algorithm.py 447-465. -/
def Placed.addIO (o : IO) (a : Placed K) : Place → Placed K
  | .before => { a with before := a.before ++ [.io o false] }
  | .after => { a with after := a.after ++ [.io o false] }
  | .inTheSimulation f => { a with inTime := a.inTime ++ [.cond (.every f) [.io o true]] }

/-- `sorted(non_simulation_eqs, key=lambda x: x.order)`, a stable sort. -/
def sortByOrder (l : List (ℤ × List Place × List K)) : List (ℤ × List Place × List K) := l.mergeSort (fun a b => decide (a.1 ≤ b.1))

/-- Algorithm.py 433-438: the optional monitor. -/
def monitorNodes : Option ℕ → List (Node K)
  | some f => [.cond (.everyOrFirst f) [.monitor]]
  | none => []

/-- Algorithm.py 430-474: the components of the main program, from the classified kernels and the placed components. -/
def assemble (inp : Input K) (a : Acc K) (p : Placed K) : List (Node K) :=
  let p : Placed K := { p with inTime := p.inTime ++ monitorNodes inp.monitorFrequency }
  let inner : Node K := .loop .stage inp.stages ((a.spatial ++ a.advance ++ a.bc).map .kernel)
  let p := inp.ios.foldl (fun p o => o.places.foldl (Placed.addIO o) p) p
  let tloop : Node K := .loop .iter inp.niter ((a.bc ++ a.start).map .kernel ++ [inner] ++ p.inTime ++ a.finish.map .kernel)
  p.before ++ [.timers [tloop]] ++ p.after

/-- `generate_solution`, algorithm.py 384-477. -/
def generate (inp : Input K) : Except String (List (Node K)) :=
  if inp.temporalSchemes > 1 then .error "Found more than one temporal scheme on the block"
  else match inp.items.foldlM Acc.add ({} : Acc K) with
    | .error e => .error e
    | .ok a =>
      match (sortByOrder a.nonSim).foldlM (fun p (x : ℤ × List Place × List K) => x.2.1.foldlM (Placed.addKernels x.2.2) p) ({} : Placed K) with
      | .error e => .error e
      | .ok p => if inp.temporalSchemes = 0 then .error "IndexError" else .ok (assemble inp a p)

/-- The run of a whole program. -/
def runProgram (prg : List (Node K)) : List (Event K) := runAll { iter := none, stage := none } prg

/-! ## Input and output -/

/-- `hdf5write_opsc_code`, io_hdf5.py 99-125: the exception for a user-given name together with periodic output. -/
def IO.codeRaises (o : IO) (dynamicFname : Bool) : Bool := o.write && o.name.isSome && dynamicFname

mutual
/-- Whether printing the code of a component raises. -/
def Node.printRaises : Node K → Bool
  | .kernel _ => false
  | .io o dyn => o.codeRaises dyn
  | .monitor => false
  | .loop _ _ body => printAllRaises body
  | .cond _ body => printAllRaises body
  | .timers body => printAllRaises body

def printAllRaises : List (Node K) → Bool
  | [] => false
  | n :: ns => n.printRaises || printAllRaises ns
end

/-- Name of the file of a write event without a user-given name; `%06d` for the iteration number. -/
def fileName (number : Option ℕ) : String :=
  match number with
  | some m => "opensbli_output_" ++ Reg.padded 6 m ++ ".h5"
  | none => "opensbli_output.h5"

/-- Variables declared by the printed code in the scope of `main`, outside all loops and conditions: the timers' four variables (algorithm.py
255-261, 301-317) and the buffer of each unnamed output object (io_hdf5.py 100, 113; `block_number` is 0 for one block). Definitions and
declarations of constants, datasets and stencils are not listed. -/
def Node.declares : Node K → List String
  | .io o _ => if o.write && o.name.isNone then ["name0"] else []
  | .timers _ => ["cpu_start0", "elapsed_start0", "cpu_end0", "elapsed_end0"]
  | _ => []

def mainDeclares (prg : List (Node K)) : List String := prg.flatMap Node.declares

/-! ## Collecting kernels -/

mutual
/-- `_generate`, opsc.py 598-606, on one component: components are entered, kernels collected once. -/
def Node.collect [DecidableEq K] (acc : List K) : Node K → List K
  | .kernel k => if k ∈ acc then acc else acc ++ [k]
  | .io _ _ => acc
  | .monitor => acc
  | .loop _ _ body => collectAll acc body
  | .cond _ body => collectAll acc body
  | .timers body => collectAll acc body

def collectAll [DecidableEq K] (acc : List K) : List (Node K) → List K
  | [] => acc
  | n :: ns => collectAll (n.collect acc) ns
end

/-- `loop_alg(algorithm, Kernel)`, opsc.py 595-609. -/
def loopAlg [DecidableEq K] (prg : List (Node K)) : List K := prg.foldl (fun acc c => collectAll acc [c]) []

end OpenSBLI.Alg
