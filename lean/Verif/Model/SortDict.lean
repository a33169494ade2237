/-!
# Ordering of constituent relations

Model of `NonSimulationEquations.sort_dictionary` / `SimulationEquations.sort_dictionary`,
`/repo/opensbli/equation_types/opensbliequations.py` lines 358-400.

A Python dictionary `{key: kernel}` is modelled by an association list `List (α × List α)`:
the key together with `kernel.rhs_datasetbases` (what the kernel reads).  The list order is the
dictionary iteration order, which is arbitrary in Python 2.7; all theorems quantify over it.
-/
namespace OpenSBLI.SortDict

variable {α : Type} [DecidableEq α]

/-- The two ways the routine fails: the explicit `ValueError` (line 398), or the `IndexError`
raised by `requires_list[0]` (line 395) when the budget runs out in the very round that empties
`key_list`. -/
inductive Err where
  | valueError
  | indexError
deriving DecidableEq, Repr

/-- `key_list` (lines 376, 384) zipped with `requires_list` (377-378, 385-386): entries whose key
is not yet in `order`. -/
def pending (dict : List (α × List α)) (order : List α) : List (α × List α) :=
  dict.filter (fun e => !(order.contains e.1))

/-- One pass of line 383: `order += [x for (x, y) in zipped if all(req in order for req in y)]`.
The comprehension is evaluated before `+=`, so it sees the old `order`. -/
def round (dict : List (α × List α)) (order : List α) : List α :=
  order ++ ((pending dict order).filter (fun e => e.2.all (fun r => order.contains r))).map Prod.fst

/-- The `while key_list` loop, lines 381-398, with the hard coded budget of 1000. -/
def sortLoop (dict : List (α × List α)) (iterCount : Nat) (order : List α) :
    Except Err (List α) :=
  if (pending dict order).isEmpty then .ok order
  else
    let order' := round dict order
    if h : iterCount + 1 > 1000 then
      if (pending dict order').isEmpty then .error .indexError else .error .valueError
    else sortLoop dict (iterCount + 1) order'
termination_by 1000 - iterCount

/-- `sort_dictionary`, lines 358-400.  `known` models
`list(set(flatten(order + list(block.known_datasets))))` (lines 372-373): a duplicate-free list in
arbitrary order.  Line 399 drops the known prefix. -/
def sortDictionary (known : List α) (dict : List (α × List α)) : Except Err (List α) :=
  match sortLoop dict 0 known with
  | .ok o => .ok (o.drop known.length)
  | .error e => .error e

end OpenSBLI.SortDict
