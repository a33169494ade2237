import Verif.Model.Text

/-!
# Reading a LaTeX file

A file is read as TeX does it: into control words, control symbols and characters, where white space is left out and `%` hides the rest of a line;
then groups, environments, formulas and scripts are checked. The reading fails where TeX reports an error: a bracket or an environment not
closed by its own end, a formula within a formula, a script outside formulas, a second subscript or superscript. Macros are not expanded, and no
environments are known within formulas.
-/
namespace OpenSBLI.Tex
open OpenSBLI

inductive Tok where
  | word (w : List Char)
  | sym (c : Char)
  | ch (c : Char)
  deriving DecidableEq, Repr

/-- Within a line: nothing begun, after a backslash, within a control word, within a comment. -/
inductive Lex where
  | neutral
  | esc
  | word (acc : List Char)
  | comment
  deriving DecidableEq, Repr

/-- A character after the end of a token. -/
def fresh (c : Char) : Lex × List Tok :=
  if c = '\\' then (.esc, []) else if c = '%' then (.comment, []) else if Text.ws c then (.neutral, []) else (.neutral, [.ch c])

def lexStep : Lex → Char → Lex × List Tok
  | .neutral, c => fresh c
  | .esc, c => if c.isAlpha then (.word [c], []) else (.neutral, [.sym (if Text.ws c then ' ' else c)])
  | .word acc, c => if c.isAlpha then (.word (acc ++ [c]), []) else ((fresh c).1, .word acc :: (fresh c).2)
  | .comment, c => if c = '\n' then (.neutral, []) else (.comment, [])

def lexRun : Lex → List Char → Lex × List Tok
  | s, [] => (s, [])
  | s, c :: l => ((lexRun (lexStep s c).1 l).1, (lexStep s c).2 ++ (lexRun (lexStep s c).1 l).2)

/-- A control word at the end. -/
def Lex.rest : Lex → List Tok
  | .word acc => [.word acc]
  | _ => []

/-- The tokens of a text. -/
def lex (l : List Char) : List Tok := (lexRun .neutral l).2 ++ (lexRun .neutral l).1.rest

/-! ## Structure -/

/-- What can be open. -/
inductive Group where
  | brace
  | left
  | dollar
  | display
  | env (n : List Char)
  deriving DecidableEq, Repr

/-- Scripts of the last symbol: has it a subscript, a superscript, and is one expected. -/
structure Script where
  sub : Bool
  sup : Bool
  pend : Bool
  deriving DecidableEq, Repr

def Script.none : Script := ⟨false, false, false⟩

/-- After a symbol or a group: it is the script expected, or a new symbol. -/
def Script.next (s : Script) : Script := if s.pend then { s with pend := false } else .none

/-- Parts of a document: paragraphs and displayed formulas, with the name of the environment. -/
inductive Item where
  | text (l : List Tok)
  | math (env : List Char) (l : List Tok)
  deriving DecidableEq, Repr

/-- Reading the name of an environment, after `\begin` (`true`) or `\end`. -/
inductive Name where
  | no
  | want (b : Bool)
  | read (b : Bool) (acc : List Char)
  deriving DecidableEq, Repr

/-- What has been read: open groups, with mode and scripts to go back to, the mode (`math` within formulas), the paragraph or formula so far, and the items complete. -/
structure Reader where
  stack : List (Group × Bool × Script)
  math : Bool
  name : Name
  script : Script
  cur : List Tok
  out : List Item
  deriving DecidableEq, Repr

/-- The paragraph is complete. -/
def Reader.flush (s : Reader) : List Item := if s.cur = [] then s.out else s.out ++ [.text s.cur]

def Reader.push (s : Reader) (g : Group) (m : Bool) (t : Tok) : Reader :=
  { s with stack := (g, s.math, s.script.next) :: s.stack, math := m, script := .none, cur := s.cur ++ [t] }

/-- Only the innermost group can be closed, and no script may be missing. -/
def Reader.pop (s : Reader) (g : Group) (t : Tok) : Option Reader :=
  match s.stack with
  | (g', m, sc) :: r => if g' = g ∧ s.script.pend = false then some { s with stack := r, math := m, script := sc, cur := s.cur ++ [t] } else none
  | [] => none

def Reader.atom (s : Reader) (t : Tok) : Reader := { s with script := s.script.next, cur := s.cur ++ [t] }

/-- `\begin{n}`: the document within nothing, formulas outside formulas. -/
def Reader.openEnv (s : Reader) (n : List Char) : Option Reader :=
  if n = "document".toList then
    if s.stack = [] then some { s with stack := [(.env n, s.math, .none)], name := .no, script := .none, cur := [], out := s.flush } else none
  else if s.math then none else some { s with stack := (.env n, s.math, .none) :: s.stack, math := true, name := .no, script := .none, cur := [], out := s.flush }

/-- `\end{n}` -/
def Reader.closeEnv (s : Reader) (n : List Char) : Option Reader :=
  match s.stack with
  | (g, m, sc) :: r =>
    if g = .env n ∧ s.script.pend = false then
      some { s with stack := r, math := m, name := .no, script := sc, cur := [], out := if n = "document".toList then s.flush else s.out ++ [.math n s.cur] }
    else none
  | [] => none

def Reader.scripted (s : Reader) (t : Tok) (up : Bool) : Option Reader :=
  if s.math = false ∨ s.script.pend ∨ (if up then s.script.sup else s.script.sub) then none
  else some { s with script := if up then ⟨s.script.sub, true, true⟩ else ⟨true, s.script.sup, true⟩, cur := s.cur ++ [t] }

def Reader.step (s : Reader) (t : Tok) : Option Reader :=
  match s.name, t with
  | .want b, .ch c => if c = '{' then some { s with name := .read b [] } else none
  | .want _, _ => none
  | .read b acc, .ch c => if c = '}' then (if b then s.openEnv acc else s.closeEnv acc) else some { s with name := .read b (acc ++ [c]) }
  | .read _ _, _ => none
  | .no, .word w =>
    if w = "begin".toList then some { s with name := .want true }
    else if w = "end".toList then some { s with name := .want false }
    else if w = "left".toList then some (s.push .left s.math t)
    else if w = "right".toList then s.pop .left t
    else if w = "noindent".toList ∧ s.math = false then some { s with script := .none, cur := [], out := s.flush }
    else some (s.atom t)
  | .no, .sym c =>
    if c = '[' then (if s.math then none else some (s.push .display true t))
    else if c = ']' then s.pop .display t
    else some (s.atom t)
  | .no, .ch c =>
    if c = '{' then some (s.push .brace s.math t)
    else if c = '}' then s.pop .brace t
    else if c = '$' then (if s.math then s.pop .dollar t else some (s.push .dollar true t))
    else if c = '_' then s.scripted t false
    else if c = '^' then s.scripted t true
    else some (s.atom t)

def Reader.run : Reader → List Tok → Option Reader
  | s, [] => some s
  | s, t :: l => (s.step t).bind fun s' => s'.run l

/-- The beginning of a file. -/
def Reader.start : Reader := ⟨[], false, .no, .none, [], []⟩

/-- The items of a file: everything is closed at its end. -/
def read (file : List Char) : Option (List Item) :=
  (Reader.start.run (lex file)).bind fun s => if s.stack = [] ∧ s.name = .no ∧ s.script.pend = false then some s.flush else none

end OpenSBLI.Tex
