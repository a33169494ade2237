import Mathlib.Data.List.Basic
import Mathlib.Data.Int.Notation

/-!
# Placing equations on a block

Model of `SimulationBlock.dataobjects_to_datasets_on_block` (core/block.py 101-136), `location_dataset` (186-197), `set_equations` (218-225, without the sort, which is in `Setup`) and `add_io` (267-275), with
`OpenSBLIEquation.convert_to_datasets` (equation_types/opensbliequations.py 163-168) and `GroupedPiecewise.convert_to_datasets` and `_eval_subs` (core/opensbliobjects.py 601-619).
-/
namespace OpenSBLI.Place

/-- Expressions: data objects, which belong to no block; datasets of a block at a relative location; constants; other symbols (grid variables, coordinates, numbers); functions of two arguments
(more or fewer work alike). -/
inductive Node where
  | obj (name : String)
  | dset (name : String) (block : ℕ) (loc : List ℤ)
  | const (name : String)
  | sym (name : String)
  | app (f : String) (a b : Node)
  deriving DecidableEq

/-- `atoms(DataObject)`: the names, in some order. -/
def Node.objs : Node → List String
  | .obj n => [n]
  | .app _ a b => a.objs ++ b.objs
  | _ => []

/-- `atoms(ConstantObject)`. -/
def Node.consts : Node → List String
  | .const c => [c]
  | .app _ a b => a.consts ++ b.consts
  | _ => []

/-- A block: its number and the number of dimensions. -/
structure Block where
  number : ℕ
  ndim : ℕ
  deriving DecidableEq

/-- `location_dataset(name)`: the dataset of this block at location zero (block.py 186-197, opensbliobjects.py 393-397). -/
def Block.locationDataset (b : Block) (name : String) : Node := .dset name b.number (List.replicate b.ndim 0)

/-- `subs` of one data object. -/
def Node.replace (e : Node) (name : String) (new : Node) : Node :=
  match e with
  | .obj n => if n = name then new else .obj n
  | .app f a b => .app f (a.replace name new) (b.replace name new)
  | e => e

/-- `subs(replacements)`: the replacements one after the other. -/
def Node.subs (b : Block) (names : List String) (e : Node) : Node := names.foldl (fun e n => e.replace n (b.locationDataset n)) e

/-- What lists of equations contain: equations of the class `OpenSBLIEq`, other SymPy equalities, grouped equations with conditions, data objects, and anything else. -/
inductive Item where
  | eq (lhs rhs : Node)
  | equality (lhs rhs : Node)
  | grouped (pairs : List (List (Node × Node) × Node))
  | obj (name : String)
  | other (e : Node)
  deriving DecidableEq

/-- The data objects of a grouped item. -/
def groupedObjs (pairs : List (List (Node × Node) × Node)) : List String :=
  pairs.flatMap fun p => p.1.flatMap (fun e => e.1.objs ++ e.2.objs) ++ p.2.objs

/-- block.py 110-122, for one element of the flattened list: the converted item. -/
def Item.convert (b : Block) : Item → Item
  | .eq l r => .eq (l.subs b (l.objs ++ r.objs)) (r.subs b (l.objs ++ r.objs))
  | .equality l r => .eq (l.subs b (l.objs ++ r.objs)) (r.subs b (l.objs ++ r.objs))
  | .grouped ps => .grouped (ps.map fun p => (p.1.map (fun e => (e.1.subs b (groupedObjs ps), e.2.subs b (groupedObjs ps))), p.2.subs b (groupedObjs ps)))
  | .obj n => .other (b.locationDataset n)
  | .other e => .other e

/-- The constants that are collected from it. -/
def Item.consts : Item → List String
  | .eq l r | .equality l r => l.consts ++ r.consts
  | .grouped ps => ps.flatMap fun p => p.1.flatMap (fun e => e.1.consts ++ e.2.consts) ++ p.2.consts
  | _ => []

/-- Elements of the list of equations: items, lists and tuples. -/
inductive Entry where
  | item (i : Item)
  | list (es : List Entry)
  | tuple (es : List Entry)

mutual
/-- SymPy's `flatten`. -/
def Entry.flatten : Entry → List Item
  | .item i => [i]
  | .list es => flattenAll es
  | .tuple es => flattenAll es
@[inherit_doc Entry.flatten] def flattenAll : List Entry → List Item
  | [] => []
  | e :: es => e.flatten ++ flattenAll es
end

/-- block.py 123-132: the flat list is cut into pieces, a list of as many items as the list had elements for every list, and one item for everything else. `none` is an `IndexError`. -/
def regroup : List Entry → List Item → Option (List (Item ⊕ List Item))
  | [], _ => some []
  | .list es :: rest, store => (regroup rest (store.drop es.length)).map (.inr (store.take es.length) :: ·)
  | _ :: _, [] => none
  | _ :: rest, i :: store => (regroup rest store).map (.inl i :: ·)

/-- `dataobjects_to_datasets_on_block`: the converted equations, and the constants that are registered. -/
def place (b : Block) (eqs : List Entry) : Option (List (Item ⊕ List Item) × List String) :=
  let store := flattenAll eqs
  (regroup eqs (store.map (Item.convert b))).map (·, store.flatMap Item.consts)

/-- The result as a list of equations again. -/
def asEntry : Item ⊕ List Item → Entry
  | .inl i => .item i
  | .inr l => .list (l.map .item)

end OpenSBLI.Place
