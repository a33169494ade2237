import Mathlib.Data.Rat.Defs
import Mathlib.Data.List.Infix
import Mathlib.Data.List.Sort

/-!
# Parsing: names and derivatives

Model of the text front end, core/parsing.py: the classification of names (`convert_coordinate`, 483-542), the arguments of `Der` and `Conservative` (`set_args`, 55-72), `Skew` (75-111), their
differentiation (`Der.differentiate`, 141-186, and `Conservative.differentiate`, 202-216), the choice of the scheme (`ParsingSchemes.set_schemes`, 20-52), and the substitutions
and the loop over derivatives of `EinsteinEquation.expand` (404-416). SymPy's `subs` and `xreplace` are modelled as replacement of equal subexpressions, SymPy's `diff` by the rules of
differentiation; SymPy's simplification of sums and products (dropping zeros, order of terms) is left out. `MetricDer` and `Reduction` are not modelled.
-/
namespace OpenSBLI.Parse

/-! ## Names -/

/-- What `convert_coordinate` makes of a name. -/
inductive Kind where
  /-- `CoordinateObject(name)`, with `time=True` or not -/
  | coordinate (time : Bool)
  /-- `DataObject(name)` -/
  | dataObject
  /-- `EinsteinTerm(name)` -/
  | einsteinTerm
  /-- the name is left to Python: a declared constant, or something of the libraries -/
  | asIs
  deriving DecidableEq

/-- Python's `pat in name` for texts. -/
def occursIn (pat name : String) : Bool := decide (pat.toList <:+: name.toList)

/-- `convert_coordinate`, parsing.py 493-538, for one name token: `coordinate` and `time` are `local_dict['coordinate']` and `local_dict['time']`, `loc` the names of `local_dict` (the exports of
`opensbli.core`, the two keys just named, and the declared constants), `glob` the names of SymPy. `name.split("_")[0]` is empty exactly when the name begins with an underscore. -/
def classify (coordinate time : String) (loc glob : List String) (name : String) : Kind :=
  if occursIn (coordinate ++ "_") name || time = name || coordinate = name then .coordinate (time = name)
  else if occursIn "_" name && !loc.contains name then (if name.toList.head? = some '_' then .einsteinTerm else .dataObject)
  else if loc.contains name then .asIs
  else if glob.contains name then .asIs
  else .dataObject

/-! ## Derivatives -/

/-- The two derivatives a user writes. -/
inductive Op where
  | der
  | conservative
  deriving DecidableEq

/-- Expressions. `app` is a function of one argument (powers and divisions are functions of this kind); `der` is SymPy's `Derivative`; `disc` is `CentralDerivative`, `WenoDerivative` and so on,
named by the scheme; `user` is `Der` or `Conservative` with its arguments after the first: the variables and the scheme; `bad` stands for what SymPy makes of differentiating
an unknown function such as `Der`. -/
inductive Expr where
  | data (name : String)
  | const (name : String)
  | coord (name : String)
  | num (q : ℚ)
  | add (a b : Expr)
  | mul (a b : Expr)
  | app (f : String) (a : Expr)
  | der (a : Expr) (vars : List String)
  | disc (scheme : String) (a : Expr) (vars : List String)
  | user (op : Op) (a : Expr) (args : List String)
  | bad
  deriving DecidableEq

/-- `ValueError("Require better implementation in set schemes")`, and the `KeyError` of `classdict`. -/
inductive Err where
  | value
  | key
  deriving DecidableEq

/-- The keys of `classdict`, parsing.py 16. -/
def schemes : List String := ["Central", "Temporal", "Weno", "Metric", "Teno"]

/-- `set_args`, parsing.py 55-72, on the arguments after the first. `time` is the name of the time coordinate. The calls have at least one variable. -/
def setArgs (time : String) (scheme : Option String) (args : List String) : List String :=
  let s := scheme.getD (if args.head? = some time then "Temporal" else "Central")
  if args.getLast? = some s then args else args ++ [s]

/-- `p.args[-1]`. -/
def schemeOf (args : List String) : String := args.getLastD ""

/-- A `Derivative` of SymPy: the derivative of a derivative is one derivative. -/
def mkDer (a : Expr) (vars : List String) : Expr :=
  match a with
  | .der b ws => .der b (ws ++ vars)
  | a => .der a vars

/-- `xreplace` and `subs` of one expression by another. Nodes with a changed argument are built anew by calling their class; `Der` and `Conservative` then go through `set_args` without keywords. -/
def subst (time : String) (p q : Expr) (e : Expr) : Expr :=
  if e = p then q else
  match e with
  | .add a b => .add (subst time p q a) (subst time p q b)
  | .mul a b => .mul (subst time p q a) (subst time p q b)
  | .app f a => .app f (subst time p q a)
  | .der a vs => mkDer (subst time p q a) vs
  | .disc s a vs => .disc s (subst time p q a) vs
  | .user o a args =>
    let a' := subst time p q a
    .user o a' (if a' = a then args else setArgs time none args)
  | e => e

/-- `expr.atoms(Derivative)` is not empty. -/
def Expr.hasDer : Expr → Bool
  | .add a b | .mul a b => a.hasDer || b.hasDer
  | .app _ a | .disc _ a _ | .user _ a _ => a.hasDer
  | .der _ _ => true
  | _ => false

/-- The expression contains a data object. -/
def Expr.hasData : Expr → Bool
  | .data _ => true
  | .add a b | .mul a b => a.hasData || b.hasData
  | .app _ a | .der a _ | .disc _ a _ | .user _ a _ => a.hasData
  | _ => false

/-- parsing.py 39-40, `xreplace(substitutions)`: derivatives without a derivative inside get their class. -/
def inner (time scheme : String) (order : List String → List String) : Expr → Expr
  | .add a b => .add (inner time scheme order a) (inner time scheme order b)
  | .mul a b => .mul (inner time scheme order a) (inner time scheme order b)
  | .app f a => .app f (inner time scheme order a)
  | .der a vs => if a.hasDer then mkDer (inner time scheme order a) vs else .disc scheme a (order vs)
  | .disc s a vs => .disc s (inner time scheme order a) vs
  | .user o a args =>
    let a' := inner time scheme order a
    .user o a' (if a' = a then args else setArgs time none args)
  | e => e

/-- parsing.py 24-27: the derivatives with a derivative inside, inner ones first. -/
def modifications : Expr → List Expr
  | .add a b | .mul a b => modifications a ++ modifications b
  | .app _ a | .disc _ a _ | .user _ a _ => modifications a
  | .der a vs => modifications a ++ (if a.hasDer then [.der a vs] else [])
  | _ => []

/-- `set_schemes`, parsing.py 20-52. `order` is the order in which the variables of a derivative are passed on: the sort by the order dictionary, or SymPy's own order. -/
def setSchemes (time scheme : String) (order : List String → List String) (e : Expr) : Except Err Expr :=
  if e.hasDer && !schemes.contains scheme then .error .key
  else
    ((modifications e).map (inner time scheme order)).foldlM (fun e m =>
      match m with
      | .der a vs => if a.hasDer then .error .value else .ok (subst time m (.disc scheme a (order vs)) e)
      | _ => .ok e) (inner time scheme order e)

/-- SymPy's `diff` with respect to one variable: data objects are functions of the variables `deps` (parsing.py 154-162). -/
def diff (deps : List String) (x : String) : Expr → Expr
  | .data s => if x ∈ deps then .der (.data s) [x] else .num 0
  | .const _ => .num 0
  | .coord y => if y = x then .num 1 else .num 0
  | .num _ => .num 0
  | .add a b => .add (diff deps x a) (diff deps x b)
  | .mul a b => .add (.mul (diff deps x a) b) (.mul a (diff deps x b))
  | .app f a => .mul (.app (f ++ "'") a) (diff deps x a)
  | .der a vs => if x ∈ deps then .der a (vs ++ [x]) else .num 0
  | .disc _ _ _ | .user _ _ _ | .bad => .bad

/-- `expr.diff(*variables)`. -/
def diffs (deps vars : List String) (e : Expr) : Expr := vars.foldl (fun e x => diff deps x e) e

/-- The `Der` nodes of an expression, inner ones first (`postorder_traversal`). -/
def derNodes : Expr → List (Expr × List String)
  | .add a b | .mul a b => derNodes a ++ derNodes b
  | .app _ a | .der a _ | .disc _ a _ => derNodes a
  | .user .der a args => derNodes a ++ [(a, args)]
  | .user .conservative a _ => derNodes a
  | _ => []

/-- parsing.py 162: data objects become functions, so that every node that contains one is built anew. (`doit` in line 172 builds nodes without data objects anew, too; that is left out.) -/
def rebuilt (time : String) : Expr → Expr
  | .add a b => .add (rebuilt time a) (rebuilt time b)
  | .mul a b => .mul (rebuilt time a) (rebuilt time b)
  | .app f a => .app f (rebuilt time a)
  | .der a vs => .der (rebuilt time a) vs
  | .disc s a vs => .disc s (rebuilt time a) vs
  | .user o a args => .user o (rebuilt time a) (if a.hasData then setArgs time none args else args)
  | e => e

/-- parsing.py 168-174: the inner `Der` nodes are replaced by their derivatives. -/
def resolve (time : String) (deps : List String) (e : Expr) : Expr :=
  (derNodes e).foldl (fun acc p => subst time (.user .der p.1 p.2) (diffs deps p.2.dropLast p.1) acc) e

/-- The position at which a variable occurs last, the value of `order_dictionary` (parsing.py 183). -/
def lastIdx (order : List String) (x : String) : ℕ := order.length - order.reverse.idxOf x

/-- The sort by the order dictionary, parsing.py 35. -/
def sortBy (order vars : List String) : List String := vars.insertionSort fun x y => lastIdx order x ≤ lastIdx order y

/-- `Der.differentiate`, parsing.py 141-186. -/
def derDifferentiate (time : String) (a : Expr) (args : List String) : Except Err Expr :=
  let deps := args.dropLast ++ (derNodes a).flatMap (fun p => p.2.dropLast)
  let e := rebuilt time a
  let order := (derNodes e).flatMap (fun p => p.2.dropLast) ++ args.dropLast
  setSchemes time (schemeOf args) (sortBy order) (diffs deps args.dropLast (resolve time deps e))

/-- The `Conservative` nodes of an expression, outer ones first (`preorder_traversal`). -/
def consNodes : Expr → List (Expr × List String)
  | .add a b | .mul a b => consNodes a ++ consNodes b
  | .app _ a | .der a _ | .disc _ a _ => consNodes a
  | .user .conservative a args => (a, args) :: consNodes a
  | .user .der a _ => consNodes a
  | _ => []

/-- parsing.py 208-214: `Conservative` nodes become SymPy derivatives. -/
def unwrap (time : String) (e : Expr) : Expr :=
  (consNodes e).foldl (fun acc p => subst time (.user .conservative p.1 p.2) (mkDer p.1 p.2.dropLast) acc) e

/-- `Conservative.differentiate`, parsing.py 202-216. `canon` is the order in which SymPy keeps the variables of a derivative. -/
def consDifferentiate (time : String) (canon : List String → List String) (a : Expr) (args : List String) : Except Err Expr :=
  setSchemes time (schemeOf args) canon (unwrap time (.user .conservative a args))

/-- `p.differentiate()`. -/
def differentiate (time : String) (canon : List String → List String) : Op → Expr → List String → Except Err Expr
  | .der => derDifferentiate time
  | .conservative => consDifferentiate time canon

/-- The factors of a product and the terms of a sum; SymPy keeps both flat. -/
def factors : Expr → List Expr
  | .mul a b => factors a ++ factors b
  | e => [e]
@[inherit_doc factors] def terms : Expr → List Expr
  | .add a b => terms a ++ terms b
  | e => [e]

/-- `var.args`: the terms of a sum, the factors of a product, the argument of a function; symbols and numbers have none. -/
def Expr.args : Expr → List Expr
  | .add a b => terms a ++ terms b
  | .mul a b => factors a ++ factors b
  | .app _ a => [a]
  | _ => []

/-- `Skew`, parsing.py 89-111; `Except.error .value` is the `ValueError` of line 110. Arguments that are derivatives are left out. -/
def skew (time : String) (scheme : Option String) (e : Expr) (vars : List String) : Except Err Expr :=
  match e.args with
  | [_] => .ok (.user .der e (setArgs time none vars))
  | [a, b] => .ok (.mul (.num (1 / 2)) (.add (.user .conservative e (setArgs time scheme vars))
      (.add (.mul b (.user .der a (setArgs time scheme vars))) (.mul a (.user .der b (setArgs time scheme vars))))))
  | _ => .error .value

/-- parsing.py 409-416: the outermost derivatives of an expression are differentiated, those inside skipped. Equal derivatives are replaced at once, by the same result. -/
def expandDers (time : String) (canon : List String → List String) : Expr → Except Err Expr
  | .add a b => do .ok (.add (← expandDers time canon a) (← expandDers time canon b))
  | .mul a b => do .ok (.mul (← expandDers time canon a) (← expandDers time canon b))
  | .app f a => do .ok (.app f (← expandDers time canon a))
  | .user o a args => differentiate time canon o a args
  | e => .ok e

/-- parsing.py 405-408: the substitutions, one after the other; the left-hand sides are data objects. -/
def substitutions (time : String) (subs : List (String × Expr)) (e : Expr) : Expr :=
  subs.foldl (fun e s => subst time (.data s.1) s.2 e) e

end OpenSBLI.Parse
