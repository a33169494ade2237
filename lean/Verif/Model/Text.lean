import Mathlib.Data.List.Basic
import Mathlib.Data.List.Infix

/-!
# Text produced and edited by the code generator

Model of `code_generation/opsc.py` (`wrap_long_lines` 284-320, `_print_Max` 91-103) and `utilities/helperfunctions.py`
(`substitute_simulation_parameters` 130-149). Text is a list of characters.
-/
namespace OpenSBLI.Text

/-- Python's `str.split` on the characters satisfying `p`, empty pieces included. -/
def splitP (p : Char → Bool) : List Char → List (List Char)
  | [] => [[]]
  | c :: cs =>
    if p c then [] :: splitP p cs
    else match splitP p cs with
      | [] => [[c]]
      | w :: ws => (c :: w) :: ws

/-- `s.split(" ")` -/
def splitSpace (l : List Char) : List (List Char) := splitP (fun c => c == ' ') l

/-- White space as removed by `split()` and `lstrip()`. -/
def ws (c : Char) : Bool := c == ' ' || c == '\t' || c == '\n' || c == '\r' || c == '\x0b' || c == '\x0c'

/-- `s.split()`: the words of a text. -/
def words (l : List Char) : List (List Char) := (splitP ws l).filter (fun w => !w.isEmpty)

/-- `s.lstrip()` -/
def lstrip (l : List Char) : List Char := l.dropWhile ws

/-- Body of the loop over the pieces, opsc.py 299-306. -/
def wrapLoop (limit lead : ℕ) : List (List Char) → List (List Char) → List Char → List (List Char)
  | [], done, string => done ++ [string]
  | s :: rest, done, string =>
    if string.length + s.length ≥ limit then wrapLoop limit lead rest (done ++ [string]) (List.replicate (lead + lead) ' ' ++ s)
    else wrapLoop limit lead rest done (string ++ ' ' :: s)

/-- One line of `wrap_long_lines`, opsc.py 289-318; `none` is the `ValueError`. -/
def wrapLine (limit : ℕ) (code : List Char) : Option (List (List Char)) :=
  if code.length > limit then
    let lead := code.length - (lstrip code).length
    let out := wrapLoop limit lead (splitSpace (lstrip code)) [] (List.replicate lead ' ')
    if (words out.flatten).flatten = (words code).flatten then some out else none
  else some [code]

/-- `wrap_long_lines` -/
def wrapLines (limit : ℕ) (code : List (List Char)) : Option (List (List Char)) := (code.mapM (wrapLine limit)).map List.flatten

/-! ## Maximum -/

/-- Printed expressions: arguments and calls of `fmax`. -/
inductive MaxExpr (α : Type) where
  | arg (a : α)
  | fmax (a b : MaxExpr α)

/-- The loop of `_print_Max`, opsc.py 96-102: the last two entries are replaced by their maximum, `nargs - 1` times; `none` when `args_code[-2]`
does not exist. The list is kept reversed. -/
def printMaxLoop {α : Type} : ℕ → List (MaxExpr α) → Option (List (MaxExpr α))
  | 0, l => some l
  | k + 1, last :: last2 :: l => printMaxLoop k (.fmax last2 last :: l)
  | _ + 1, _ => none

/-- `_print_Max`; the result is `args_code[0]`. -/
def printMax {α : Type} (args : List α) : Option (MaxExpr α) := do
  let l ← printMaxLoop (args.length - 1) (args.map MaxExpr.arg).reverse
  l.reverse.head?

/-! ## Parameters -/

/-- Python's `s.replace(pat, new)`: occurrences from left to right, without overlap. `n` bounds the length of the text. -/
def replaceAux (pat new : List Char) : ℕ → List Char → List Char
  | 0, l => l
  | _ + 1, [] => []
  | n + 1, c :: cs => if pat <+: c :: cs then new ++ replaceAux pat new n ((c :: cs).drop pat.length) else c :: replaceAux pat new n cs

def replace (pat new l : List Char) : List Char := replaceAux pat new l.length l

/-- Characters of `=Input;`. -/
def inputTag : List Char := ['=', 'I', 'n', 'p', 'u', 't', ';']

/-- One substitution, helperfunctions.py 143-147. -/
def substituteOne (s : List Char) (cv : List Char × List Char) : List Char :=
  let old := cv.1 ++ inputTag
  if old <:+: s then replace old (cv.1 ++ [' ', '=', ' '] ++ cv.2 ++ [';']) s else s

/-- The items of the dictionary in order, helperfunctions.py 142-147. -/
def substitute (subs : List (List Char × List Char)) (s : List Char) : List Char := subs.foldl substituteOne s

/-- `dict[key] = value`: an existing key keeps its place. -/
def dictSet (d : List (List Char × List Char)) (kv : List Char × List Char) : List (List Char × List Char) :=
  if kv.1 ∈ d.map Prod.fst then d.map fun x => if x.1 = kv.1 then kv else x else d ++ [kv]

/-- `substitute_simulation_parameters(constants, values)` on the text of the generated file; `dict(zip(constants, values))`, line 137. Values are
given as printed by `%s`. -/
def substituteParameters (constants values : List (List Char)) (s : List Char) : List Char :=
  substitute ((constants.zip values).foldl dictSet []) s

end OpenSBLI.Text
