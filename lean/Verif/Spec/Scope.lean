import Verif.Model.ProgramText

/-!
# Scoping rules of C

Names are declared before they are used, at most once in each block; a name in an inner block hides the same name of the outer blocks. A text is well
scoped when every occurrence finds a declaration of the kind it is meant to stand for.
-/
namespace OpenSBLI.Prog

/-- Visible declarations, the innermost and latest first. -/
abbrev Env := List (String × Kind)

/-- The declaration a statement adds to the block it stands in. -/
def Stmt.adds : Stmt → Env
  | .decl n k => [(n, k)]
  | .use _ _ => []
  | .block _ => []

/-- The declarations of a list of statements, latest first. -/
def added : List Stmt → Env
  | [] => []
  | s :: l => added l ++ s.adds

mutual
/-- A statement is well scoped, given the declarations of the enclosing blocks and those of its own block before it. -/
def Stmt.ok (outer cur : Env) : Stmt → Bool
  | .decl n _ => decide (n ∉ cur.map Prod.fst)
  | .use n k => decide ((cur ++ outer).lookup n = some k)
  | .block body => allOk (cur ++ outer) [] body

def allOk (outer cur : Env) : List Stmt → Bool
  | [] => true
  | s :: l => s.ok outer cur && allOk outer (s.adds ++ cur) l
end

/-- A translation unit is well scoped after the headers that declare the names `lib`. -/
def wellScoped (lib : List String) (t : List Stmt) : Bool := allOk [] (lib.map (·, Kind.library)) t

/-! ## Names of the user and of the generator -/

/-- The forms of the names the generator makes; all other names are left to the user. -/
inductive Form
  | user | output | kernel | block | temp | stencil | group | range | monitorRange | monitor | handle | halo | corner | fixed (n : String)
deriving DecidableEq, Repr

def starts (p n : String) : Bool := p.toList.isPrefixOf n.toList

def ends (p n : String) : Bool := p.toList.isSuffixOf n.toList

/-- Names the generator writes as they are. -/
def fixedNames : List String :=
  ["main", "argc", "argv", "f", "iter", "stage", "idx", "name0", "cpu_start0", "elapsed_start0", "cpu_end0", "elapsed_end0",
   "zero_stencil", "zero_stencil_indices", "size", "base", "value", "from_base", "to_base", "from_dir", "to_dir", "grp"]

/-- A letter `i`, `j` or `k` followed by a number. -/
def isCorner (n : String) : Bool :=
  match n.toList with
  | c :: e :: l => (c == 'i' || c == 'j' || c == 'k') && e.isDigit && l.all Char.isDigit
  | _ => false

/-- The form of a name. -/
def form (n : String) : Form :=
  if ends "output" n then .output
  else if starts "opensbliblock" n then if 'K' ∈ n.toList then .kernel else .block
  else if starts "stencil_" n then if ends "temp" n then .temp else .stencil
  else if starts "exchange" n then .group
  else if starts "iteration_range_" n then .range
  else if starts "monitor_range_" n then .monitorRange
  else if starts "monitor_" n then .monitor
  else if starts "reduce_" n then .handle
  else if starts "halo" n then .halo
  else if isCorner n then .corner
  else if n ∈ fixedNames then .fixed n
  else .user

end OpenSBLI.Prog
