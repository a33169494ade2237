import Verif.Model.Algorithm
import Verif.Model.CCode
import Mathlib.Data.List.Sort

/-!
# The text of the generated program

Model of the text written by `OPSC` (`code_generation/opsc.py`): the order of the writing (`__init__` 255-282), the preamble (`before_main` 445-468), the
definitions and declarations (`opsc_def_decs` 470-524, `ops_stencils_declare` 526-532, `declare_block` 617-622, `define_constants` 625-654,
`declare_ops_constants` 656-662, `declare_dataset` 692-721), the halo exchanges (`bc_exchange_call_code` 555-593), the kernel functions
(`kernel_computation_opsc` 333-405, `write_kernels` 407-432) and the code of the components: kernels (`core/kernel.py` 233-281), exchanges
(`core/boundary_conditions/exchange.py` 53-57), outputs (`core/io_hdf5.py` 89-125), monitors (`core/diagnostics/simulation_monitors.py` 62-190), loops,
conditions and timers (`code_generation/algorithm/algorithm.py` 56-64, 113-137, 170-192, 288-327), for one block.

The text is represented by the names it declares and uses, with the kind of thing each name is meant to stand for, and by its nested blocks. Types,
literals, the names of OPS and C library functions and the positions of arguments are not represented (arguments: C32).
-/
namespace OpenSBLI.Prog
open OpenSBLI.Reg OpenSBLI.CCode OpenSBLI.Alg

/-- What a name stands for: `value` a number (a constant or a variable of a kernel), `table` an array of constants, `block` an `ops_block`, `data` an
`ops_dat`, `ints` an array of integers, `stencil` an `ops_stencil`, `group` an `ops_halo_group`, `halo` an `ops_halo`, `function` a kernel, `param` a
pointer parameter of a kernel, `counter` a loop variable, `text` a character buffer, `clock` a timer variable, `file` the log file, `handle` an
`ops_reduction`, `library` a name of the included headers. -/
inductive Kind
  | value | table | block | data | ints | stencil | group | halo | function | param | counter | text | clock | file | handle | library
deriving DecidableEq, Repr

/-- C text: a declaration, an occurrence of a name, a block in braces. An initialised declaration is the occurrences of the initialiser followed by the
declaration. -/
inductive Stmt
  | decl (name : String) (kind : Kind)
  | use (name : String) (kind : Kind)
  | block (body : List Stmt)
deriving Repr

/-- Occurrences of several names. -/
def uses (k : Kind) (l : List String) : List Stmt := l.map (.use · k)

/-! ## Names -/

/-- `"iteration_range_%d_block%d"`, kernel.py 246. -/
def rangeName (b n : ℕ) : String := "iteration_range_" ++ toString n ++ "_block" ++ toString b

/-- `"exchange%d_block%d"`, exchange.py 12, 22-24. -/
def groupName (b n : ℕ) : String := "exchange" ++ toString n ++ "_block" ++ toString b

/-- `'block%dnp0:%d'`, grid.py 130: the numbers of points of the block. -/
def shapeName (b dir : ℕ) : String := "block" ++ toString b ++ "np" ++ toString dir

def shapeNames (b d : ℕ) : List String := (List.range d).map (shapeName b)

/-- `"Delta%dblock%d"`, grid.py 156. -/
def deltaName (b dir : ℕ) : String := "Delta" ++ toString dir ++ "block" ++ toString b

/-! ## Kernel functions -/

variable {d : ℕ}

/-- Names occurring in a C expression. -/
def exprUses : CExpr d → List Stmt
  | .ilit _ => []
  | .dlit _ => []
  | .flt _ => []
  | .var n => [.use n .value]
  | .access b _ => [.use b .param]
  | .deref g => [.use g .param]
  | .idx _ => [.use "idx" .param]
  | .add x y => exprUses x ++ exprUses y
  | .mul x y => exprUses x ++ exprUses y
  | .div x y => exprUses x ++ exprUses y
  | .pow x y => exprUses x ++ exprUses y
  | .fmod x y => exprUses x ++ exprUses y
  | .fmax x y => exprUses x ++ exprUses y
  | .call _ x => exprUses x
  | .tern _ a b x y => exprUses a ++ exprUses b ++ (exprUses x ++ exprUses y)

def condUses : CCond d → List Stmt
  | .tt => []
  | .rel _ x y => exprUses x ++ exprUses y
  | .and c e => condUses c ++ condUses e
  | .or c e => condUses c ++ condUses e
  | .not c => condUses c
  | .assign x y => exprUses x ++ exprUses y

def lhsUses : CCode.Lhs d → List Stmt
  | .data b _ => [.use b .param]
  | .gvar v => [.use v .value]

def assignUses (a : CAssign d) : List Stmt := lhsUses a.lhs ++ exprUses a.rhs

/-- A line of a kernel body; the branches of an `if` are blocks. -/
def lineText : Line d → List Stmt
  | .assign a => assignUses a
  | .ifL c b => condUses c ++ [.block (b.flatMap assignUses)]
  | .elifL c b => condUses c ++ [.block (b.flatMap assignUses)]
  | .elseL b => [.block (b.flatMap assignUses)]

/-- `atoms(DataSet)` of an expression, with the offsets. -/
def symData : Sym d → List (String × (Fin d → ℤ))
  | .data b o => [(b, o)]
  | .add x y => symData x ++ symData y
  | .mul x y => symData x ++ symData y
  | .pow x y => symData x ++ symData y
  | .mod x y => symData x ++ symData y
  | .max x y => symData x ++ symData y
  | .fn _ x => symData x
  | .pw _ a b x y => symData a ++ symData b ++ (symData x ++ symData y)
  | _ => []

/-- Whether an expression contains a `Grididx`. -/
def symIdx : Sym d → Bool
  | .idx _ => true
  | .add x y => symIdx x || symIdx y
  | .mul x y => symIdx x || symIdx y
  | .pow x y => symIdx x || symIdx y
  | .mod x y => symIdx x || symIdx y
  | .max x y => symIdx x || symIdx y
  | .fn _ x => symIdx x
  | .pw _ a b x y => symIdx a || symIdx b || (symIdx x || symIdx y)
  | _ => false

/-- `atoms(Globalvariable)`. -/
def symGlobs : Sym d → List String
  | .glob g => [g]
  | .add x y => symGlobs x ++ symGlobs y
  | .mul x y => symGlobs x ++ symGlobs y
  | .pow x y => symGlobs x ++ symGlobs y
  | .mod x y => symGlobs x ++ symGlobs y
  | .max x y => symGlobs x ++ symGlobs y
  | .fn _ x => symGlobs x
  | .pw _ a b x y => symGlobs a ++ symGlobs b ++ (symGlobs x ++ symGlobs y)
  | _ => []

/-- `atoms(GridVariable)`. -/
def symGvars : Sym d → List String
  | .gvar v => [v]
  | .add x y => symGvars x ++ symGvars y
  | .mul x y => symGvars x ++ symGvars y
  | .pow x y => symGvars x ++ symGvars y
  | .mod x y => symGvars x ++ symGvars y
  | .max x y => symGvars x ++ symGvars y
  | .fn _ x => symGvars x
  | .pw _ a b x y => symGvars a ++ symGvars b ++ (symGvars x ++ symGvars y)
  | _ => []

/-- `atoms(ConstantObject)`. -/
def symConsts : Sym d → List String
  | .const c => [c]
  | .add x y => symConsts x ++ symConsts y
  | .mul x y => symConsts x ++ symConsts y
  | .pow x y => symConsts x ++ symConsts y
  | .mod x y => symConsts x ++ symConsts y
  | .max x y => symConsts x ++ symConsts y
  | .fn _ x => symConsts x
  | .pw _ a b x y => symConsts a ++ symConsts b ++ (symConsts x ++ symConsts y)
  | _ => []

def condSyms : CCode.Cond d → List (Sym d)
  | .tt => []
  | .rel _ x y => [x, y]
  | .and c e => condSyms c ++ condSyms e
  | .or c e => condSyms c ++ condSyms e
  | .not c => condSyms c

/-- The left hand side of an equation as an expression. -/
def lhsSym : CCode.Lhs d → Sym d
  | .data b o => .data b o
  | .gvar v => .gvar v

def assignSyms (a : Assign d) : List (Sym d) := [lhsSym a.lhs, a.rhs]

def eqnSyms : Eqn d → List (Sym d)
  | .assign a => assignSyms a
  | .grouped bs => bs.flatMap fun b => b.1.flatMap assignSyms ++ condSyms b.2

/-- A kernel: its equations; the `ConstantIndexed` objects in them, with the loop variable of their index if it is one (`CCode` does not represent
these objects, so they are listed beside the equations); the two arrays of constants a split boundary condition takes its range from (bc_core.py
109-126). -/
structure Kern (d : ℕ) where
  eqs : List (Eqn d)
  indexed : List (String × Option String) := []
  split : Option (String × String) := none

/-- All expressions of a kernel. -/
def Kern.syms (k : Kern d) : List (Sym d) := k.eqs.flatMap eqnSyms

/-- `lhs_datasetbases` and `rhs_datasetbases` together, each once. The order, that of Python sets, is not significant here (C32). -/
def Kern.bases (k : Kern d) : List String := ((k.syms.flatMap symData).map Prod.fst).dedup

/-- `get_stencils`, kernel.py 185-201, for one dataset. -/
def Kern.stencil (k : Kern d) (x : String) : Finset (Fin d → ℤ) :=
  (((k.syms.flatMap symData).filter fun a => a.1 = x).map Prod.snd).toFinset

def Kern.usesIdx (k : Kern d) : Bool := k.syms.any symIdx

def Kern.globs (k : Kern d) : List String := (k.syms.flatMap symGlobs).dedup

/-- The parameters of the kernel function, opsc.py 342-363. -/
def Kern.params (k : Kern d) : List String :=
  k.bases ++ k.globs ++ k.indexed.map Prod.fst ++ if k.usesIdx then ["idx"] else []

/-- Grid variables of a kernel, each once, opsc.py 366-369. -/
def Kern.gvars (k : Kern d) : List String := (k.syms.flatMap symGvars).dedup

/-- `kernel_computation_opsc`, opsc.py 333-405: the function of a kernel, given the printed lines of its body. -/
def functionText (b n : ℕ) (k : Kern d) (body : List (Line d)) : List Stmt :=
  [.decl (kernelName b n) .function, .block (k.params.map (.decl · .param) ++ k.gvars.map (.decl · .value) ++ body.flatMap lineText)]

/-! ## The block -/

/-- What a component of the algorithm is: a kernel, or the exchange of the halos of some arrays (the numbers of both come from the kernel counter of
the block, periodic.py 31-39). -/
inductive Comp (d : ℕ)
  | kernel (k : Kern d)
  | exchange (arrays : List String)

/-- `SimulationMonitor`: the monitored arrays, `NaNcheck`, whether there is an output file. -/
structure Mon where
  arrays : List String
  nan : Bool := true
  file : Bool := true

/-- What the writing of a program starts from. Kernels and exchanges are identified by their number. -/
structure Input (d : ℕ) where
  /-- block number -/
  b : ℕ
  comp : ℕ → Comp d
  /-- the kernels that were given to the block (`update_block_datasets`), in order -/
  created : List ℕ
  /-- constants registered by `dataobjects_to_datasets_on_block`, by schemes and by boundary conditions, in order -/
  constants : List (Const (Sym d))
  /-- the inverse powers of the grid spacing requested when the derivatives were discretised (`get_inverse_deltas`, helperfunctions.py 64-77) -/
  inverses : List (Sym d) := []
  /-- arrays of constants (`ConstantIndexed`) and their values: numbers, `none` for `"Input"` -/
  tables : List (String × List (Option ℚ))
  /-- arrays of each output object -/
  ioArrays : ℕ → List String
  /-- arrays read from a file -/
  readArrays : List String := []
  monitor : Option Mon := none
  prg : List (Node ℕ)

variable (inp : Input d)

/-- The kernel of a number, if it is one. -/
def Input.kern? (n : ℕ) : Option (Kern d) :=
  match inp.comp n with
  | .kernel k => some k
  | .exchange _ => none

/-- The arrays of an exchange. -/
def Input.exch? (n : ℕ) : Option (List String) :=
  match inp.comp n with
  | .kernel _ => none
  | .exchange l => some l

/-- `loop_alg(algorithm, Kernel)`, opsc.py 595-609. -/
def Input.kernels : List (ℕ × Kern d) := (loopAlg inp.prg).filterMap fun n => (inp.kern? n).map (n, ·)

/-- `loop_alg(algorithm, Exchange)`. -/
def Input.exchanges : List (ℕ × List String) := (loopAlg inp.prg).filterMap fun n => (inp.exch? n).map (n, ·)

/-- Constants registered before the kernels are written: those of the grid (grid.py 168-173), of the time integration (rk_sbli.py 38, 47, rk_LS.py 58,
67) and the others. -/
def Input.registered : List (Const (Sym d)) :=
  addConstants [] ((shapeNames inp.b d ++ (List.range d).map (deltaName inp.b) ++ ["niter", "dt"]).map (fun n => ⟨n, none⟩) ++ inp.constants)

/-- The registry before and after `write_kernels`, opsc.py 274 and 425-430. Simplified: the inverse powers are requested after all other constants are
registered, the order of the declarations and the numbers in the names do not matter here. -/
def Input.start : Rc (Sym d) := (⟨0, [], inp.registered⟩ : Rc (Sym d)).requests (inp.inverses.map fun k => (.inv, k))

def Input.printed : List (List (Line d)) × Rc (Sym d) := printKernels (inp.kernels.map fun k => k.2.eqs) inp.start

/-- `write_kernels`: the functions in the header of the block. -/
def Input.functions : List Stmt :=
  (inp.kernels.zip inp.printed.1).flatMap fun k => functionText inp.b k.1.1 k.1.2 k.2

/-- `block_datasets`: the arrays of all kernels (kernel.py 295-313). -/
def Input.arrays : List String := (inp.created.flatMap fun n => ((inp.kern? n).map Kern.bases).getD []).dedup

/-- `block_stencils`: the stencils of all kernels with their names (kernel.py 315-324). -/
def Input.stencils : Stencils d :=
  inp.created.foldl (fun r n => match inp.kern? n with
    | some k => k.bases.foldl (fun r x => register inp.b r (k.stencil x)) r
    | none => r) []

/-! ## Definitions and declarations -/

/-- `define_constants` for a `ConstantObject`, opsc.py 628-632: the value is printed with `rational=True`. -/
def defineConstant (c : Const (Sym d)) (s : Rc (Sym d)) : List Stmt × Rc (Sym d) :=
  match c.value with
  | none => ([.use c.name .value], s)
  | some e => let p := (print ⟨true, false⟩ e s).1; (.use c.name .value :: exprUses p.1, p.2)

def defineConstants : List (Const (Sym d)) → Rc (Sym d) → List Stmt × Rc (Sym d)
  | [], s => ([], s)
  | c :: l, s =>
    let p := defineConstant c s
    let q := defineConstants l p.2
    (p.1 ++ q.1, q.2)

/-- The loop over the constants, opsc.py 480-483. Constants registered while the values are printed (fractions inside a modulus) are appended to the
list and visited by the same loop; they are numbers, the printing of which registers nothing. -/
def Input.definitions : List Stmt × Rc (Sym d) :=
  let s := inp.printed.2
  let p := defineConstants s.constants s
  let q := defineConstants (p.2.constants.drop s.constants.length) p.2
  (p.1 ++ q.1, q.2)

/-- `define_constants` for a `ConstantIndexed`, opsc.py 633-642: its values are numbers, so no name occurs in them. (In the text the arrays of constants
stand among the constants, in the order of registration; here they follow them.) -/
def tableText (t : String × List (Option ℚ)) : List Stmt := [.decl t.1 .table]

/-- `declare_dataset`, opsc.py 692-721. -/
def arrayText (x : String) : List Stmt :=
  [.decl x .data,
   .block (if x ∈ inp.readArrays then [.use x .data, .use (blockName inp.b) .block]
     else ["halo_p", "halo_m"].map (.decl · .ints) ++ uses .value (shapeNames inp.b d) ++ ["size", "base", "value"].map (.decl · .ints) ++
       [.use x .data, .use (blockName inp.b) .block] ++ uses .ints ["size", "base", "halo_m", "halo_p", "value"])]

/-- `str.lower` and the order of `sorted`, opsc.py 507. -/
def lowerLe (x y : String) : Prop := x.toLower ≤ y.toLower

instance : DecidableRel lowerLe := fun x y => inferInstanceAs (Decidable (x.toLower ≤ y.toLower))

/-- `ops_stencils_declare`, opsc.py 526-532. -/
def stencilText (s : Finset (Fin d → ℤ) × String) : List Stmt :=
  [.decl (s.2 ++ "temp") .ints, .use (s.2 ++ "temp") .ints, .decl s.2 .stencil]

/-- `bc_exchange_call_code`, opsc.py 555-593. -/
def exchangeText (e : ℕ × List String) : List Stmt :=
  let halos := (List.range e.2.length).map fun i => "halo" ++ toString i
  [.decl (groupName inp.b e.1) .group,
   .block (uses .value (shapeNames inp.b d) ++ ["halo_iter", "from_base", "to_base", "from_dir", "to_dir"].map (.decl · .ints) ++
     ((halos.zip e.2).flatMap fun h =>
       [.use h.2 .data, .use h.2 .data] ++ uses .ints ["halo_iter", "from_base", "to_base", "from_dir", "to_dir"] ++ [.decl h.1 .halo]) ++
     uses .halo halos ++ [.decl "grp" .halo, .use (groupName inp.b e.1) .group, .use "grp" .halo])]

/-- `opsc_def_decs`, opsc.py 470-524. -/
def Input.defDecs : List Stmt :=
  let s := inp.definitions.2
  inp.definitions.1 ++ inp.tables.flatMap tableText ++ uses .value (s.constants.map Const.name) ++
  [.decl (blockName inp.b) .block] ++
  ((inp.arrays.insertionSort lowerLe).flatMap (arrayText inp)) ++
  inp.stencils.flatMap stencilText ++
  inp.exchanges.flatMap (exchangeText inp)

/-! ## The components -/

/-- Names in the iteration range of a kernel, kernel.py 217-231: the numbers of points, or the arrays of a split boundary condition. -/
def rangeUses (k : Kern d) : List Stmt :=
  match k.split with
  | none => uses .value (shapeNames inp.b d)
  | some r => uses .table [r.1, r.2]

/-- `Kernel.opsc_code`, kernel.py 233-281. -/
def kernelText (n : ℕ) (k : Kern d) : List Stmt :=
  rangeUses inp k ++ [.decl (rangeName inp.b n) .ints, .use (kernelName inp.b n) .function, .use (blockName inp.b) .block,
    .use (rangeName inp.b n) .ints] ++
  (k.bases.flatMap fun x => [.use x .data, .use ((nameOf inp.stencils (k.stencil x)).getD "") .stencil]) ++
  (k.indexed.flatMap fun c => .use c.1 .table :: uses .counter c.2.toList) ++ uses .counter k.globs

/-- Names declared and used for monitor number `i` of array `x`, simulation_monitors.py 70-107. -/
def monitorText (b d : ℕ) (x : String) (i : ℕ) : List Stmt :=
  let num := toString i
  [.decl ("reduce_" ++ num ++ "_" ++ x) .handle, .decl (x ++ "_" ++ num ++ "_output") .value] ++
  (["i", "j", "k"].take d).map (fun v => .decl (v ++ num) .value) ++ uses .value ((["i", "j", "k"].take d).map (· ++ num)) ++
  [.decl ("monitor_range_" ++ num ++ "_" ++ x) .ints, .use ("monitor_" ++ num ++ "_" ++ x) .function, .use (blockName b) .block,
   .use ("monitor_range_" ++ num ++ "_" ++ x) .ints, .use x .data, .use "zero_stencil" .stencil, .use ("reduce_" ++ num ++ "_" ++ x) .handle,
   .use ("reduce_" ++ num ++ "_" ++ x) .handle, .use (x ++ "_" ++ num ++ "_output") .value]

/-- `SimulationMonitor.opsc_code`, simulation_monitors.py 62-190. The last line prints `iter+1`, `(iter+1)*dt` and the values. -/
def Input.monitorCode (m : Mon) : List Stmt :=
  (if m.nan then uses .data (m.arrays.take 1) else []) ++
  [.use "iter" .counter, .block (if m.file then [.use "f" .file] else []), .decl "zero_stencil_indices" .ints, .use "zero_stencil_indices" .ints,
   .decl "zero_stencil" .stencil] ++
  m.arrays.zipIdx.flatMap (fun p => monitorText inp.b d p.1 p.2) ++
  (if m.file then [.use "f" .file] else []) ++ [.use "iter" .counter, .use "iter" .counter, .use "dt" .value] ++
  m.arrays.zipIdx.map (fun p => .use (p.1 ++ "_" ++ toString p.2 ++ "_output") .value)

/-- The code of an output object, io_hdf5.py 89-125; reading objects print nothing. -/
def ioText (o : Alg.IO) (dyn : Bool) : List Stmt :=
  if o.write then
    (if o.name.isNone then .decl "name0" .text :: .use "name0" .text :: (if dyn then [.use "iter" .counter] else []) else []) ++
    [.use (blockName inp.b) .block] ++
    (inp.ioArrays o.id).flatMap (fun x => .use x .data :: if o.name.isNone then [.use "name0" .text] else [])
  else []

/-- `Timers`, algorithm.py 255-327, with the number 0. -/
def timersText (body : List Stmt) : List Stmt :=
  [.decl "cpu_start0" .clock, .decl "elapsed_start0" .clock, .use "cpu_start0" .clock, .use "elapsed_start0" .clock] ++ body ++
  [.decl "cpu_end0" .clock, .decl "elapsed_end0" .clock, .use "cpu_end0" .clock, .use "elapsed_end0" .clock, .use "elapsed_end0" .clock,
   .use "elapsed_start0" .clock]

/-- The loop variables. -/
def varName : Alg.Var → String
  | .iter => "iter"
  | .stage => "stage"

mutual
/-- `opsc_code` of the components. -/
def nodeText : Node ℕ → List Stmt
  | .kernel n =>
    match inp.comp n with
    | .kernel k => kernelText inp n k
    | .exchange _ => [.use (groupName inp.b n) .group]
  | .io o dyn => ioText inp o dyn
  | .monitor => match inp.monitor with
    | some m => inp.monitorCode m
    | none => []
  | .loop v _ body => [.block (.decl (varName v) .counter :: (match v with | .iter => [.use "niter" .value] | .stage => []) ++ [.block (nodesText body)])]
  | .cond _ body => [.use "iter" .counter, .block (nodesText body)]
  | .timers body => timersText (nodesText body)

def nodesText : List (Node ℕ) → List Stmt
  | [] => []
  | n :: l => nodeText n ++ nodesText l
end

/-! ## The program -/

/-- `ops_exit`, opsc.py 434-443. -/
def Input.exitText : List Stmt :=
  match inp.monitor with
  | some m => if m.file then [.use "f" .file] else []
  | none => []

/-- `write_reductions_file`, simulation_monitors.py 113-134: one function for each monitor. -/
def Input.monitorFunctions : List Stmt :=
  match inp.monitor with
  | some m => m.arrays.zipIdx.flatMap fun p =>
      let r := "reduce_" ++ toString p.2 ++ "_" ++ p.1
      [.decl ("monitor_" ++ toString p.2 ++ "_" ++ p.1) .function, .block [.decl p.1 .param, .decl r .param, .use r .param, .use p.1 .param]]
  | none => []

/-- `before_main`, opsc.py 445-468, and the main program, opsc.py 276-281. The preamble is written last, from the constants registered up to then. -/
def Input.text : List Stmt :=
  (inp.definitions.2.constants.map Const.name).map (.decl · .value) ++ inp.functions ++ inp.monitorFunctions ++
  (match inp.monitor with
    | some m => if m.file then [.decl "f" .file] else []
    | none => []) ++
  [.decl "main" .function,
   .block (.decl "argc" .value :: .decl "argv" .text :: inp.defDecs ++ nodesText inp inp.prg ++ inp.exitText)]

/-! ## Failures of the writing -/

mutual
/-- Whether the writing of a component raises: a kernel without equations (kernel.py 242), a periodic output with a file name (io_hdf5.py 108-109), an
output without arrays (120-124, the name of the block is not bound), a monitor in more than three dimensions (simulation_monitors.py 78-89). -/
def nodeRaises : Node ℕ → Bool
  | .kernel n => match inp.comp n with
    | .kernel k => k.eqs.isEmpty
    | .exchange _ => false
  | .io o dyn => o.codeRaises dyn || (o.write && (inp.ioArrays o.id).isEmpty)
  | .monitor => decide (3 < d)
  | .loop _ _ body => nodesRaise body
  | .cond _ body => nodesRaise body
  | .timers body => nodesRaise body

def nodesRaise : List (Node ℕ) → Bool
  | [] => false
  | n :: l => nodeRaises n || nodesRaise l
end

mutual
/-- The output objects of a program. -/
def nodeIOs : Node ℕ → List Alg.IO
  | .io o _ => [o]
  | .loop _ _ body => nodesIOs body
  | .cond _ body => nodesIOs body
  | .timers body => nodesIOs body
  | _ => []

def nodesIOs : List (Node ℕ) → List Alg.IO
  | [] => []
  | n :: l => nodeIOs n ++ nodesIOs l
end

/-- Generation of the text. `IndexError`: the header files are numbered by position, the kernels by the number of their block (opsc.py 430);
`ValueError`: `check_datasets`, io_hdf5.py 54-61; `AttributeError`: `monitoring_output_file` is not set for a monitor without output file (opsc.py
267-271, 439; C68); `NotImplementedError`: an array of constants without values (opsc.py 652). -/
def Input.generate : Except String (List Stmt) :=
  if (nodesIOs inp.prg).any fun o => (inp.ioArrays o.id).any fun x => x ∉ inp.arrays then .error "ValueError"
  else if inp.b ≠ 0 ∧ inp.kernels ≠ [] then .error "IndexError"
  else if inp.tables.any fun t => t.2.isEmpty then .error "NotImplementedError"
  else if (inp.monitor.any fun m => !m.file) then .error "AttributeError"
  else if nodesRaise inp inp.prg then .error "ValueError"
  else .ok inp.text

end OpenSBLI.Prog
