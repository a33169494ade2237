import Verif.Spec.Scope
import Verif.Props.C75_CCode

/-!
# What the writing of a program takes for granted

The conditions under which the generated program is well scoped (C84); where they fail, it is not.
-/
namespace OpenSBLI.Prog
open OpenSBLI.Reg OpenSBLI.CCode OpenSBLI.Alg

variable {d : ℕ}

/-- Names of the constants registered before the kernels are written, without the generated ones. -/
def Input.constantNames (inp : Input d) : List String := inp.registered.map Const.name

/-- Names of the arrays of constants. -/
def Input.tableNames (inp : Input d) : List String := inp.tables.map Prod.fst

/-- Kernel `n`: it was given to the block and has equations; its constants are registered; it contains no global variables; the negative powers of
constants that are computed once contain constants only; its grid variables are not called like its arrays; its arrays of constants, and those of its
range, are registered. -/
structure KernRegular (inp : Input d) (n : ℕ) (k : Kern d) : Prop where
  created : n ∈ inp.created
  nonempty : k.eqs ≠ []
  constants : ∀ e ∈ k.syms, ∀ c ∈ symConsts e, c ∈ inp.start.names
  globals : ∀ e ∈ k.syms, symGlobs e = []
  inverses : ∀ e ∈ exprs k.eqs, ∀ q ∈ e.inverses, q.Closed
  gvars : ∀ v ∈ k.gvars, v ∉ k.bases ∧ v ∉ k.indexed.map Prod.fst ∧ v ≠ "idx"
  indexed : (k.indexed.map Prod.fst).Nodup ∧ ∀ c ∈ k.indexed, c.1 ∈ inp.tableNames
  split : ∀ r, k.split = some r → r.1 ∈ inp.tableNames ∧ r.2 ∈ inp.tableNames

/-- The names of the user do not look like generated names and differ from each other; constants are not called like something in the headers; the
values of constants mention registered constants only; exchanges and monitors concern arrays of the block. -/
structure Regular (inp : Input d) (lib : List String) : Prop where
  constants : ∀ c ∈ inp.constantNames, form c = .user ∧ c ∉ inp.tableNames ∧ c ∉ inp.arrays
  tables : ∀ t ∈ inp.tableNames, form t = .user ∧ ¬ Generated t ∧ t ∉ inp.arrays
  tables_nodup : inp.tableNames.Nodup
  arrays : ∀ x ∈ inp.arrays, form x = .user ∧ ¬ Generated x
  library : ∀ n ∈ lib, (form n = .user ∨ form n = .corner) ∧ ¬ Generated n ∧ n ∉ inp.constantNames
  values : ∀ c ∈ inp.registered, ∀ v, c.value = some v → v.Closed ∧ ∀ n ∈ v.consts, n ∈ inp.constantNames
  inverses : ∀ k ∈ inp.inverses, k.Closed ∧ ∀ n ∈ k.consts, n ∈ inp.constantNames
  kernels : ∀ p ∈ inp.kernels, KernRegular inp p.1 p.2
  exchanges : ∀ p ∈ inp.exchanges, ∀ x ∈ p.2, x ∈ inp.arrays
  monitor : ∀ m, inp.monitor = some m → m.file = true ∧ ∀ x ∈ m.arrays, x ∈ inp.arrays

/-- What declares names in the block of text it stands in: a kernel its range, an output without file name its buffer, timers and monitors their variables. -/
inductive Mark
  | kernel (n : ℕ) | buffer | clocks | monitor
deriving DecidableEq, Repr

mutual
/-- What a component declares in the block it stands in. -/
def nodeMarks (inp : Input d) : Node ℕ → List Mark
  | .kernel n => if (inp.kern? n).isSome then [.kernel n] else []
  | .io o _ => if o.write && o.name.isNone then [.buffer] else []
  | .monitor => [.monitor]
  | .loop _ _ _ => []
  | .cond _ _ => []
  | .timers body => .clocks :: nodesMarks inp body

def nodesMarks (inp : Input d) : List (Node ℕ) → List Mark
  | [] => []
  | n :: l => nodeMarks inp n ++ nodesMarks inp l
end

mutual
/-- The components fit the loops `vars` they stand in: kernels that depend on a loop variable and periodic components are inside the loop, nothing
declares its names twice in a block; outputs have arrays, those of the block, and periodic ones no file name; monitors are used in at most three
dimensions. -/
def nodeFits (inp : Input d) (vars : List Alg.Var) : Node ℕ → Bool
  | .kernel n => match inp.comp n with
    | .kernel k => k.indexed.all fun c => c.2.toList.all fun v => v ∈ vars.map varName
    | .exchange _ => true
  | .io o dyn => (inp.ioArrays o.id).all (· ∈ inp.arrays) && (!o.write || (!(inp.ioArrays o.id).isEmpty && (!dyn || (o.name.isNone && .iter ∈ vars))))
  | .monitor => decide (d ≤ 3) && .iter ∈ vars
  | .loop v _ body => decide (nodesMarks inp body).Nodup && nodesFit inp (v :: vars) body
  | .cond _ body => .iter ∈ vars && decide (nodesMarks inp body).Nodup && nodesFit inp vars body
  | .timers body => nodesFit inp vars body

def nodesFit (inp : Input d) (vars : List Alg.Var) : List (Node ℕ) → Bool
  | [] => true
  | n :: l => nodeFits inp vars n && nodesFit inp vars l
end

end OpenSBLI.Prog
