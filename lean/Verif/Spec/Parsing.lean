import Mathlib.RingTheory.Derivation.Basic
import Verif.Model.Parsing

/-!
# What derivatives mean

A calculus: a commutative algebra with commuting derivations, one for each coordinate, in which data objects, constants, coordinates and functions have values. Smooth functions on space and
time are one. The value of an expression takes every derivative in it, written by the user or made by the code, as the exact derivative.
-/
namespace OpenSBLI.Parse

/-- Values of data objects, constants, coordinates and functions, with the partial derivatives. -/
structure Calculus (R : Type*) [CommRing R] [Algebra ℚ R] where
  /-- the partial derivative with respect to a coordinate -/
  D : String → Derivation ℚ R R
  comm : ∀ x y a, D x (D y a) = D y (D x a)
  data : String → R
  const : String → R
  coord : String → R
  fn : String → R → R
  const_D : ∀ x c, D x (const c) = 0
  coord_D : ∀ x y, D x (coord y) = if y = x then 1 else 0
  chain : ∀ x f a, D x (fn f a) = fn (f ++ "'") a * D x a

variable {R : Type*} [CommRing R] [Algebra ℚ R]

/-- Partial derivatives one after the other. -/
def Calculus.Ds (C : Calculus R) (vars : List String) (a : R) : R := vars.foldl (fun a x => C.D x a) a

/-- The value of an expression. -/
def Calculus.eval (C : Calculus R) : Expr → R
  | .data s => C.data s
  | .const s => C.const s
  | .coord s => C.coord s
  | .num q => algebraMap ℚ R q
  | .add a b => C.eval a + C.eval b
  | .mul a b => C.eval a * C.eval b
  | .app f a => C.fn f (C.eval a)
  | .der a vs => C.Ds vs (C.eval a)
  | .disc _ a vs => C.Ds vs (C.eval a)
  | .user _ a args => C.Ds args.dropLast (C.eval a)
  | .bad => 0

/-- Only derivatives of the given scheme are left. -/
def Expr.Discretised (s : String) : Expr → Prop
  | .add a b | .mul a b => a.Discretised s ∧ b.Discretised s
  | .app _ a => a.Discretised s
  | .disc s' a _ => s' = s ∧ a.Discretised s
  | .der _ _ | .user _ _ _ | .bad => False
  | _ => True

/-- The derivatives of an expression that are left for the scheme: what is differentiated, and by which variables. -/
def Expr.discs : Expr → List (Expr × List String)
  | .add a b | .mul a b => a.discs ++ b.discs
  | .app _ a | .der a _ | .user _ a _ => a.discs
  | .disc _ a vs => a.discs ++ [(a, vs)]
  | _ => []

/-- The expression has no derivative in it. -/
def Expr.Plain : Expr → Prop
  | .add a b | .mul a b => a.Plain ∧ b.Plain
  | .app _ a => a.Plain
  | .der _ _ | .disc _ _ _ | .user _ _ _ | .bad => False
  | _ => True

/-- As written by the user, with derivatives of the one kind, and no derivative inside those. -/
def Expr.Flat (o : Op) : Expr → Prop
  | .add a b | .mul a b => a.Flat o ∧ b.Flat o
  | .app _ a => a.Flat o
  | .user o' a _ => o' = o ∧ a.Plain
  | .der _ _ | .disc _ _ _ | .bad => False
  | _ => True

/-- All derivatives written by the user have the scheme that they would have without a `scheme` keyword. -/
def Expr.Default (time : String) : Expr → Prop
  | .add a b | .mul a b => a.Default time ∧ b.Default time
  | .app _ a | .der a _ | .disc _ a _ => a.Default time
  | .user _ a args => a.Default time ∧ schemeOf args = (if args.head? = some time then "Temporal" else "Central") ∧ args ≠ []
  | _ => True

/-- The derivatives written by the user, left as they are, with the class of the scheme. -/
def Expr.withScheme (s : String) (order : List String → List String) : Expr → Expr
  | .add a b => .add (a.withScheme s order) (b.withScheme s order)
  | .mul a b => .mul (a.withScheme s order) (b.withScheme s order)
  | .app f a => .app f (a.withScheme s order)
  | .user _ a args => .disc s (a.withScheme s order) (order args.dropLast)
  | e => e

/-- What a conservative derivative of `a` becomes: the derivative of the whole of `a`, in which the derivatives of the user get the same class. A derivative of nothing but a derivative is one
derivative. -/
def consForm (s : String) (canon : List String → List String) (a : Expr) (vars : List String) : Expr :=
  match a with
  | .user _ b bs => .disc s b (canon (bs.dropLast ++ vars))
  | a => .disc s (a.withScheme s canon) (canon vars)

/-- Equations for which the derivatives are supported: at most one level of derivatives inside a derivative, of the same kind; inside `Der`, without a `scheme` keyword. -/
def Expr.Supported (time : String) : Expr → Prop
  | .add a b | .mul a b => a.Supported time ∧ b.Supported time
  | .app _ a => a.Supported time
  | .user o a args => a.Flat o ∧ (o = .der → a.Default time) ∧ schemeOf args ∈ schemes
  | .der _ _ | .disc _ _ _ | .bad => False
  | _ => True

/-- Only derivatives for schemes are left. -/
def Expr.Expanded : Expr → Prop
  | .add a b | .mul a b => a.Expanded ∧ b.Expanded
  | .app _ a | .disc _ a _ => a.Expanded
  | .der _ _ | .user _ _ _ | .bad => False
  | _ => True

end OpenSBLI.Parse
