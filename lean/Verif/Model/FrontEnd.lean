import Verif.Model.Parsing
import Verif.Model.Notation

/-!
# From parsed equations to index notation

The part of `EinsteinEquation.expand` (core/parsing.py 379-455) between `Model/Parsing.lean` and `Model/Einstein.lean`: the substitutions, the differentiation of the derivatives as written (404-416), and the
result as an expression with indices, which `_structure` (core/opensblifunctions.py 139-197) then takes apart. The indices of a symbol are the parts of its name after underscores
(`EinsteinTerm.get_indices`, core/opensbliobjects.py 42-55).

Functions of index symbols such as `KD(_i,_j)` contain no data and are constants for the differentiation; they are written as constants with this text. Powers are functions of one argument, `**-1` and so on. SymPy's
constructors drop zeros and ones and combine numbers; floating point numbers are rationals here. The parser itself is Python's and SymPy's.
-/
namespace OpenSBLI.Front
open OpenSBLI.Parse (Expr)

/-- A sum as SymPy's `Add` makes it. -/
def plus : Expr → Expr → Expr
  | .num p, .num q => .num (p + q)
  | .num q, e => if q = 0 then e else .add (.num q) e
  | e, .num q => if q = 0 then e else .add e (.num q)
  | a, b => .add a b

/-- A product as SymPy's `Mul` makes it. -/
def times : Expr → Expr → Expr
  | .num p, .num q => .num (p * q)
  | .num q, e => if q = 0 then .num 0 else if q = 1 then e else .mul (.num q) e
  | e, .num q => if q = 0 then .num 0 else if q = 1 then e else .mul e (.num q)
  | a, b => .mul a b

/-- Zeros and ones are dropped and numbers combined. -/
def tidy : Expr → Expr
  | .add a b => plus (tidy a) (tidy b)
  | .mul a b => times (tidy a) (tidy b)
  | .app f a => .app f (tidy a)
  | .disc s a vs => .disc s (tidy a) vs
  | e => e

/-- `name.split('_')`. -/
def pieces : List Char → List (List Char)
  | [] => [[]]
  | c :: cs =>
    if c = '_' then [] :: pieces cs
    else match pieces cs with
      | p :: ps => (c :: p) :: ps
      | [] => [[c]]

/-- A symbol: the base of its name and the indices. -/
def symbol (s : String) : Ein.Expr :=
  match pieces s.toList with
  | p :: ps => .term (String.ofList p) (ps.map String.ofList)
  | [] => .term s []

/-- The text of a number. -/
def numeral (q : ℚ) : String :=
  String.ofList ((if q.num < 0 then ['-'] else []) ++ Nat.toDigits 10 q.num.natAbs ++ (if q.den = 1 then [] else '/' :: Nat.toDigits 10 q.den))

/-- The two arguments of `KD(_i,_j)`. -/
def kdArgs : List Char → Option (List Char × List Char)
  | 'K' :: 'D' :: '(' :: cs =>
    match cs.dropWhile (· ≠ ',') with
    | ',' :: ds => some (cs.takeWhile (· ≠ ','), ds.takeWhile (· ≠ ')'))
    | _ => none
  | _ => none

/-- A constant, or a function of index symbols. -/
def constant (c : String) : Ein.Expr :=
  match kdArgs c.toList with
  | some (i, j) => .fn "KD" (symbol (String.ofList i)) (symbol (String.ofList j))
  | none => symbol c

/-- The schemes whose derivatives are central differences or time derivatives. -/
def known : List String := ["Central", "Temporal"]

/-- The schemes of the shock capturing derivatives. -/
def captured : List String := ["Weno", "Teno"]

/-- The expression with indices. Shock capturing derivatives keep the name of their scheme. `none`: derivatives that were not discretised, other schemes, other functions. -/
def lower : Expr → Option Ein.Expr
  | .data s => some (symbol s)
  | .const c => some (constant c)
  | .coord x => some (symbol x)
  | .num q => some (.term (numeral q) [])
  | .add a b => do some (.add (← lower a) (← lower b))
  | .mul a b => do some (.mul (← lower a) (← lower b))
  | .app f a =>
    match f.toList with
    | '*' :: '*' :: k => do some (.fn "Pow" (← lower a) (.term (String.ofList k) []))
    | _ => none
  | .disc s a [x] => if s ∈ known then do some (.fn "Der" (← lower a) (symbol x)) else if s ∈ captured then do some (.fn s (← lower a) (symbol x)) else none
  | .disc s a [x, y] => if s ∈ known then do some (.fn3 "Der" (← lower a) (symbol x) (symbol y)) else none
  | .disc _ _ _ | .der _ _ | .user _ _ _ | .bad => none

/-- One side of an equation, parsing.py 404-416. -/
def side (time : String) (canon : List String → List String) (subs : List (String × Expr)) (e : Expr) : Option Ein.Expr :=
  match Parse.expandDers time canon (Parse.substitutions time subs e) with
  | .ok r => lower (tidy r)
  | .error _ => none

/-- An equation: both sides (the traversal of line 411 covers the whole equation). -/
def equation (time : String) (canon : List String → List String) (subs : List (String × Expr)) (eq : Expr × Expr) : Option (Ein.Expr × Ein.Expr) := do
  some (← side time canon subs eq.1, ← side time canon subs eq.2)

/-- The equations of several calls of `expand` with the same substitutions. -/
def equations (time : String) (canon : List String → List String) (subs : List (String × Expr)) (eqs : List (Expr × Expr)) : Option (List (Ein.Expr × Ein.Expr)) :=
  eqs.mapM (equation time canon subs)

end OpenSBLI.Front
