import Verif.Model.Text
import Verif.Model.Algorithm

/-!
# LaTeX documents

Model of `code_generation/latex.py` (`LatexWriter`), of the functions `write_latex` of equations (equation_types/opensbliequations.py 112-119), kernels
(core/kernel.py 199-212), exchanges (core/boundary_conditions/exchange.py 49-51), input and output (core/io_hdf5.py 82-86), monitors
(core/diagnostics/simulation_monitors.py 55-60) and components of the program (code_generation/algorithm/algorithm.py 45-55, 101-112, 158-169,
275-286), and of Python's `textwrap.wrap`. A file is the list of its characters.

What SymPy's own printer makes of the text of the arguments is a parameter, and so is the regular expression `textwrap` splits a text with.
-/
namespace OpenSBLI.Latex
open OpenSBLI

/-- Scheme of a derivative. -/
inductive Kind where
  | central | metric | temporal | weno | teno
  deriving DecidableEq, Repr

/-- Expressions, as far as `LatexWriter` prints them itself; all others are `other`. -/
inductive Ex where
  | other (f : String) (args : List Ex)
  | base (label block : Ex)
  | dataset (b : Ex) (indices : List Ex)
  | indexed (b : Ex) (indices : List Ex)
  | pow (b e : Ex)
  | einstein (name : List Char)
  | der (k : Kind) (args : List Ex)
  | piecewise (pieces : List Ex)

/-- SymPy's printer: the text of an object, from its name and the texts of its arguments. -/
abbrev Sympy := String → List (List Char) → List Char

/-- `','.join` -/
def commas : List (List Char) → List Char
  | [] => []
  | [a] => a
  | a :: b :: l => a ++ ',' :: commas (b :: l)

/-- The text after the derivatives, latex.py 131-141; central derivatives have none (127-129). -/
def Kind.tag : Kind → List Char
  | .central => []
  | .metric => "Metric".toList
  | .temporal => "Temporal".toList
  | .weno => "Weno".toList
  | .teno => "Teno".toList

/-- The text of every `GroupedPiecewise`, latex.py 143-145. -/
def placeholder : List Char := "\\[= \\left\\{\\begin{array}{lr} x(n), & \\text{for } 0\\leq n\\leq 1\\\\ x(n-1), & \\text{for } 0\\leq n\\leq 1\\\\ x(n-1), & \\text{for } 0\\leq n\\leq 1\\end{array}\\right\\} = xy\\]".toList

mutual
/-- The functions `_print_...`, latex.py 105-145. -/
def Ex.print (P : Sympy) : Ex → List Char
  | .other f args => P f (Ex.prints P args)
  | .base l b => l.print P ++ "{_{B".toList ++ b.print P ++ "}}".toList
  | .dataset b is => '{' :: b.print P ++ "}[{".toList ++ commas (Ex.prints P is).dropLast ++ "}]".toList
  | .indexed b is => '{' :: b.print P ++ "}[{".toList ++ commas (Ex.prints P is) ++ "}]".toList
  | .pow b e => "\\left(".toList ++ b.print P ++ " \\right)^{".toList ++ e.print P ++ ['}']
  | .einstein n => n
  | .der k args => if k = .central then P "Derivative" (Ex.prints P args) else "\\left. ".toList ++ P "Derivative" (Ex.prints P args) ++ " \\right|_{{".toList ++ k.tag ++ " }}".toList
  | .piecewise _ => placeholder

/-- The texts of several expressions. -/
def Ex.prints (P : Sympy) : List Ex → List (List Char)
  | [] => []
  | e :: es => e.print P :: Ex.prints P es
end

/-- `latexify_expression`, latex.py 78-103, with the setting `itex` off, as it is by default. -/
def latexify (mode : List Char) (tex : List Char) : List Char :=
  if mode = "plain".toList then "\\noindent$".toList ++ tex ++ "$\\\\".toList
  else if mode = "inline".toList then '$' :: tex ++ ['$']
  else "\\begin{".toList ++ mode ++ '}' :: tex ++ "\\end{".toList ++ mode ++ ['}']

/-! ## `textwrap.wrap` -/

/-- `chunk.strip() == ''` -/
def blank (c : List Char) : Bool := c.all Text.ws

/-- `replace_whitespace` of Python's `textwrap`; tabs, which `expandtabs` makes one or more spaces, are made one. -/
def munge (l : List Char) : List Char := l.map fun c => if Text.ws c then ' ' else c

/-- The chunks which fit in a line: the inner loop of `_wrap_chunks`. -/
def fit (width : ℕ) : ℕ → List (List Char) → List (List Char) × List (List Char)
  | _, [] => ([], [])
  | len, c :: cs => if len + c.length ≤ width then ((c :: (fit width (len + c.length) cs).1), (fit width (len + c.length) cs).2) else ([], c :: cs)

/-- `if chunks and len(chunks[-1]) > width: self._handle_long_word(...)`, without `break_long_words`: a chunk too long has a line for itself. -/
def longWord (width : ℕ) (x : List (List Char) × List (List Char)) : List (List Char) × List (List Char) :=
  match x.2 with
  | c :: r => if width < c.length ∧ x.1 = [] then ([c], r) else x
  | [] => x

/-- `if cur_line and cur_line[-1].strip() == '': del cur_line[-1]` -/
def dropBlank (cur : List (List Char)) : List (List Char) :=
  if (cur.getLast?.map blank).getD false then cur.dropLast else cur

/-- `_wrap_chunks`: `first` as long as there are no lines; the first argument bounds the number of chunks. -/
def wrapChunks (width : ℕ) : ℕ → Bool → List (List Char) → List (List Char)
  | 0, _, _ => []
  | _ + 1, _, [] => []
  | n + 1, first, c :: cs =>
    let x := longWord width (fit width 0 (if !first && blank c then cs else c :: cs))
    let cur := dropBlank x.1
    if cur = [] then wrapChunks width n first x.2 else cur.flatten :: wrapChunks width n false x.2

/-- `textwrap.wrap` -/
def wrap (split : List Char → List (List Char)) (width : ℕ) (text : List Char) : List (List Char) :=
  wrapChunks width (split (munge text)).length true (split (munge text))

/-- `' \n'.join` -/
def joinLines : List (List Char) → List Char
  | [] => []
  | [a] => a
  | a :: b :: l => a ++ ' ' :: '\n' :: joinLines (b :: l)

/-! ## The writer -/

/-- Calls of `write_string` and `write_expression`; an expression alone is a list of one. -/
inductive Op where
  | string (s : List Char)
  | expression (es : List Ex)

/-- What the writer is given: SymPy's printer and the splitting of texts. -/
structure Env where
  P : Sympy
  split : List Char → List (List Char)

/-- `write_string`, latex.py 38-44. -/
def writeString (s : List Char) : List Char := "\\noindent ".toList ++ s ++ "\\\\".toList

/-- `write_expression`, latex.py 150-178, in the default mode and without substitutions. -/
def writeExpression (E : Env) (es : List Ex) : List Char :=
  joinLines (wrap E.split 250 (joinLines (es.map fun e => latexify "dmath".toList (e.print E.P)))) ++ "\n\n".toList

def Op.text (E : Env) : Op → List Char
  | .string s => writeString s
  | .expression es => writeExpression E es

/-- `write_header`, latex.py 46-65. -/
def header (title : List Char) : List Char :=
  "\\documentclass{article}\n\\title".toList ++ ('{' :: title ++ ['}'])
    ++ "\n\\author{Satya P Jammy \\& OpenSBLI developers team}\n\\date{\\today}\n\\usepackage{color}\n\\usepackage{amsmath}\n\\usepackage{breqn}\n".toList
    ++ "\\begin{document}\n\\maketitle\n".toList

/-- The file between `open` and `close`, latex.py 13-36 and 67-76. -/
def document (E : Env) (title : List Char) (ops : List Op) : List Char :=
  header title ++ ops.flatMap (Op.text E) ++ "\\end{document}".toList

/-- `write_latex` of equations, opensbliequations.py 112-119; the word is misspelt there. -/
def equationsOps (className : List Char) (eqs : List Ex) : List Op :=
  .string ("The euqations are ".toList ++ className) :: eqs.map fun e => .expression [e]

/-! ## The program -/

/-- Leaves of the program: kernels with name, block, ranges and equations, of which a `GroupedPiecewise` is not written (kernel.py 207-211), and exchanges. -/
inductive Leaf where
  | kernel (name block ranges : List Char) (eqs : List (Option Ex))
  | exchange (arrays : List (List Char))

/-- `', '.join` -/
def commaSpaces : List (List Char) → List Char
  | [] => []
  | [a] => a
  | a :: b :: l => a ++ ", ".toList ++ commaSpaces (b :: l)

def Leaf.ops : Leaf → List Op
  | .kernel name block ranges eqs =>
    .string ("The kernel is ".toList ++ name ++ ", block is ".toList ++ block) :: .string ("The ranges are ".toList ++ ranges) :: eqs.filterMap fun e => e.map fun e => .expression [e]
  | .exchange arrays => [.string ("This is an exchange self kernel on variables ".toList ++ commaSpaces arrays ++ "\\\\".toList)]

/-- Names in the program as Python prints them: the arrays of a file, the upper limit of a loop, the condition. -/
structure Names where
  arrays : ℕ → List (List Char)
  upper : Alg.Var → ℤ → List Char
  cond : Alg.Cond → List Char

/-- `str` of a loop variable. -/
def varText : Alg.Var → List Char
  | .iter => "iter".toList
  | .stage => "stage".toList

mutual
/-- `write_latex` of components. The monitor has no components of its own. The string at the end of a condition is not formatted (algorithm.py 111). -/
def nodeOps (N : Names) : Alg.Node Leaf → List Op
  | .kernel k => k.ops
  | .io o _ => [.string ("HDF5 IO type ".toList ++ (if o.write then "write".toList else "read".toList) ++ " on arrays".toList ++ (N.arrays o.id).flatMap fun a => ' ' :: a)]
  | .monitor => [.string "Simulation monitoring start\\\\\n".toList, .string "Simulation monitoring end\\\\\n".toList]
  | .loop v bound body => .string ("Do loop ".toList ++ varText v ++ ",0, ".toList ++ N.upper v bound ++ "\\\\\n".toList) :: nodesOps N body ++ [.string ("Ending Do loop ".toList ++ varText v ++ "\\\\\n".toList)]
  | .cond c body => .string ("Condition ".toList ++ N.cond c) :: nodesOps N body ++ [.string "Ending condition loop %s".toList]
  | .timers body => .string "Initialising timers\\\\\n".toList :: nodesOps N body ++ [.string "Ending timers\\\\\n".toList]

def nodesOps (N : Names) : List (Alg.Node Leaf) → List Op
  | [] => []
  | n :: ns => nodeOps N n ++ nodesOps N ns
end

/-- `algorithm.tex`, algorithm.py 45-55 and 388-391, 475-476. -/
def programDocument (E : Env) (N : Names) (prg : List (Alg.Node Leaf)) : List Char :=
  document E "Algorithm for the equations".toList (.string "Starting of the main program\\\\\n".toList :: nodesOps N prg ++ [.string "End of Main".toList])

end OpenSBLI.Latex
