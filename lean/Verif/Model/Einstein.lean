import Mathlib.Data.List.Basic
import Mathlib.Data.List.Infix

/-!
# Index notation

Model of `EinsteinTerm` (core/opensbliobjects.py 14-120) on names, and of the expansion of index notation: `EinsteinStructure._structure`, `structure`, `expand_summations`,
`expand_expr`, `expand_free_indices` (core/opensblifunctions.py 70-134 and 137-277) and `EinsteinEquation.expand` (core/parsing.py 426-454) on expressions.
-/
namespace OpenSBLI.Ein

/-! ## Names -/

/-- Python's `s.replace(pat, new)` for a non-empty pattern: occurrences from left to right, without overlap. The first argument bounds the number of steps by the
length of the text. -/
def replaceAux (pat new : List Char) : ℕ → List Char → List Char
  | 0, s => s
  | _ + 1, [] => []
  | n + 1, c :: cs => if pat.isPrefixOf (c :: cs) then new ++ replaceAux pat new n ((c :: cs).drop pat.length) else c :: replaceAux pat new n cs

@[inherit_doc replaceAux] def replace (s pat new : List Char) : List Char := replaceAux pat new s.length s

/-- One part of the name of a partially applied term: an index that is still symbolic, preceded by an underscore, or the digits of a value. -/
inductive Seg where
  | idx (name : List Char)
  | val (digits : List Char)
  deriving DecidableEq

/-- The text of a part. -/
def Seg.text : Seg → List Char
  | .idx n => '_' :: n
  | .val d => d

/-- The name of a term: base and parts. -/
def name (base : List Char) (segs : List Seg) : List Char := base ++ (segs.map Seg.text).flatten

/-- The decimal digits of a number, `str(value)`. -/
def digits (v : ℕ) : List Char := Nat.toDigits 10 v

/-- `apply_index`, opensbliobjects.py 90: the new name. (The test `idx in self.get_indices()` and the case of an empty base are left out.) -/
def applyIndex (nm idx : List Char) (v : ℕ) : List Char := replace nm ('_' :: idx) (digits v)

/-- `apply_multiple_indices`, opensbliobjects.py 110-115: the new name. -/
def applyMultiple (nm : List Char) (map : List (List Char × ℕ)) : List Char := map.foldl (fun nm m => applyIndex nm m.1 m.2) nm

/-! ## Expressions -/

/-- Expressions as written: symbols with indices, sums, products and functions of two or three arguments, for example a derivative with one or two coordinates. Further arguments work alike. -/
inductive Expr where
  | term (base : String) (idx : List String)
  | add (a b : Expr)
  | mul (a b : Expr)
  | fn (name : String) (a b : Expr)
  | fn3 (name : String) (a b c : Expr)
  deriving DecidableEq

/-- An index of a component expression: still symbolic or replaced by a value. -/
inductive Ix where
  | name (s : String)
  | val (v : ℕ)
  deriving DecidableEq

/-- Expressions with summation signs and component numbers. -/
inductive SumExpr where
  | zero
  | term (base : String) (idx : List Ix)
  | add (a b : SumExpr)
  | mul (a b : SumExpr)
  | fn (name : String) (a b : SumExpr)
  | fn3 (name : String) (a b c : SumExpr)
  | sum (k : String) (a : SumExpr)
  deriving DecidableEq

/-- Exceptions: sympy's `IndexConformanceException`, and the `ValueError` of parsing.py 447. -/
inductive Err where
  | indexConformance
  | inconsistent
  deriving DecidableEq

/-- Indices that occur once, and indices that are repeated (sympy's `_remove_repeated`). -/
def once (l : List String) : List String := l.filter fun k => l.count k == 1
@[inherit_doc once] def repeated (l : List String) : List String := l.dedup.filter fun k => l.count k > 1

/-- `convert_to_summation`, opensblifunctions.py 70-77. -/
def wrapSum (ks : List String) (e : SumExpr) : SumExpr := ks.foldl (fun e k => .sum k e) e

/-- `_structure` and `structure`, opensblifunctions.py 139-197: the expression with summation signs and its free indices. Sums must have the same indices in all terms, scalars excepted (sympy's
`get_indices`); repeated indices of products and of function arguments are summed around the product or function. -/
def structure_ : Expr → Except Err (SumExpr × List String)
  | .term b idx => .ok (wrapSum (repeated idx) (.term b (idx.map .name)), once idx)
  | .add a b => do
    let (a', fa) ← structure_ a
    let (b', fb) ← structure_ b
    if fa = [] then .ok (.add a' b', fb)
    else if fb = [] then .ok (.add a' b', fa)
    else if fa ⊆ fb ∧ fb ⊆ fa then .ok (.add a' b', fa)
    else .error .indexConformance
  | .mul a b => do
    let (a', fa) ← structure_ a
    let (b', fb) ← structure_ b
    .ok (wrapSum (repeated (fa ++ fb)) (.mul a' b'), once (fa ++ fb))
  | .fn n a b => do
    let (a', fa) ← structure_ a
    let (b', fb) ← structure_ b
    .ok (wrapSum (repeated (fa ++ fb)) (.fn n a' b'), once (fa ++ fb))
  | .fn3 n a b c => do
    let (a', fa) ← structure_ a
    let (b', fb) ← structure_ b
    let (c', fc) ← structure_ c
    .ok (wrapSum (repeated (fa ++ fb ++ fc)) (.fn3 n a' b' c'), once (fa ++ fb ++ fc))

/-- `apply_index` on an index. -/
def Ix.apply (k : String) (v : ℕ) : Ix → Ix
  | .name s => if s = k then .val v else .name s
  | .val w => .val w

/-- `apply_index` on all terms of an expression, opensblifunctions.py 93-95. -/
def SumExpr.apply (k : String) (v : ℕ) : SumExpr → SumExpr
  | .zero => .zero
  | .term b idx => .term b (idx.map (Ix.apply k v))
  | .add a b => .add (a.apply k v) (b.apply k v)
  | .mul a b => .mul (a.apply k v) (b.apply k v)
  | .fn n a b => .fn n (a.apply k v) (b.apply k v)
  | .fn3 n a b c => .fn3 n (a.apply k v) (b.apply k v) (c.apply k v)
  | .sum j a => .sum j (a.apply k v)

/-- `expand_summations` with `expand_expr`, opensblifunctions.py 80-103 and 254-277: inner sums first; each sum becomes the sum of the expression for the values `0, ..., ndim-1`. -/
def expandSums (ndim : ℕ) : SumExpr → SumExpr
  | .zero => .zero
  | .term b idx => .term b idx
  | .add a b => .add (expandSums ndim a) (expandSums ndim b)
  | .mul a b => .mul (expandSums ndim a) (expandSums ndim b)
  | .fn n a b => .fn n (expandSums ndim a) (expandSums ndim b)
  | .fn3 n a b c => .fn3 n (expandSums ndim a) (expandSums ndim b) (expandSums ndim c)
  | .sum k a => (List.range ndim).foldl (fun acc v => .add acc ((expandSums ndim a).apply k v)) .zero

/-- `numpy.ndindex((ndim, ..., ndim))`: all tuples, last entry fastest. -/
def ndindex (ndim : ℕ) : ℕ → List (List ℕ)
  | 0 => [[]]
  | r + 1 => (List.range ndim).flatMap fun v => (ndindex ndim r).map fun vs => v :: vs

/-- Several indices, opensbliobjects.py 112-114. -/
def SumExpr.applyMany (e : SumExpr) (map : List (String × ℕ)) : SumExpr := map.foldl (fun e m => e.apply m.1 m.2) e

/-- `EinsteinEquation.expand` for an equation, parsing.py 426-448. `order` is the order in which the set of free indices is listed (opensblifunctions.py 124). -/
def expandEquation (ndim : ℕ) (order : List String → List String) (lhs rhs : Expr) : Except Err (List (SumExpr × SumExpr)) := do
  let (l, fl) ← structure_ lhs
  let (r, fr) ← structure_ rhs
  let l := expandSums ndim l
  let r := expandSums ndim r
  if fl = [] ∧ fr = [] then .ok [(l, r)]
  else if fl ⊆ fr ∧ fr ⊆ fl then
    .ok ((ndindex ndim (order fl).length).map fun vs => (l.applyMany ((order fl).zip vs), r.applyMany ((order fl).zip vs)))
  else .error .inconsistent

end OpenSBLI.Ein
