import Verif.Model.Einstein
import Mathlib.Algebra.BigOperators.Group.Finset.Basic
import Mathlib.Data.List.Nodup

/-!
# The meaning of index notation

The value of an expression in index notation for given values of its free indices: an index that occurs twice in a product, in a symbol, or in the arguments of a function is summed from `0` to
`ndim - 1`. Only the syntax of expressions is taken from the model.
-/
namespace OpenSBLI.Ein

variable {R : Type} [AddCommMonoid R]

/-- The meaning of the symbols: values of components, products and functions. -/
structure Meaning (R : Type) where
  comp : String → List ℕ → R
  times : R → R → R
  fn : String → R → R → R
  fn3 : String → R → R → R → R

/-- `k` is a free index of the expression: it occurs once in a symbol; in one factor or argument but not the others; in some term of a sum. -/
def IsFree (k : String) : Expr → Prop
  | .term _ idx => idx.count k = 1
  | .add a b => IsFree k a ∨ IsFree k b
  | .mul a b => (IsFree k a ∧ ¬ IsFree k b) ∨ (¬ IsFree k a ∧ IsFree k b)
  | .fn _ a b => (IsFree k a ∧ ¬ IsFree k b) ∨ (¬ IsFree k a ∧ IsFree k b)
  | .fn3 _ a b c => (IsFree k a ∧ ¬ IsFree k b ∧ ¬ IsFree k c) ∨ (¬ IsFree k a ∧ IsFree k b ∧ ¬ IsFree k c) ∨ (¬ IsFree k a ∧ ¬ IsFree k b ∧ IsFree k c)

/-- `k` is summed at the top of the expression. -/
def IsDummy (k : String) : Expr → Prop
  | .term _ idx => 1 < idx.count k
  | .add _ _ => False
  | .mul a b => IsFree k a ∧ IsFree k b
  | .fn _ a b => IsFree k a ∧ IsFree k b
  | .fn3 _ a b c => (IsFree k a ∧ IsFree k b) ∨ (IsFree k a ∧ IsFree k c) ∨ (IsFree k b ∧ IsFree k c)

/-- Sum over all values of the indices in a list. -/
def sumOver (n : ℕ) : List String → ((String → ℕ) → R) → (String → ℕ) → R
  | [], f, env => f env
  | k :: ks, f, env => ∑ v ∈ Finset.range n, sumOver n ks f (Function.update env k v)

/-- `Value m n e env x`: with the free indices valued by `env`, the expression has value `x`. The dummy indices are listed without repetition in any order. -/
inductive Value (m : Meaning R) (n : ℕ) : Expr → ((String → ℕ) → R) → Prop
  | term (b : String) (idx ks : List String) (hk : ks.Nodup ∧ ∀ k, k ∈ ks ↔ IsDummy k (.term b idx)) :
      Value m n (.term b idx) (sumOver n ks fun env => m.comp b (idx.map env))
  | add {a b : Expr} {x y : (String → ℕ) → R} : Value m n a x → Value m n b y → Value m n (.add a b) fun env => x env + y env
  | mul {a b : Expr} {x y : (String → ℕ) → R} (ks : List String) (hk : ks.Nodup ∧ ∀ k, k ∈ ks ↔ IsDummy k (.mul a b)) : Value m n a x → Value m n b y →
      Value m n (.mul a b) (sumOver n ks fun env => m.times (x env) (y env))
  | fn {s : String} {a b : Expr} {x y : (String → ℕ) → R} (ks : List String) (hk : ks.Nodup ∧ ∀ k, k ∈ ks ↔ IsDummy k (.fn s a b)) : Value m n a x →
      Value m n b y → Value m n (.fn s a b) (sumOver n ks fun env => m.fn s (x env) (y env))
  | fn3 {s : String} {a b c : Expr} {x y z : (String → ℕ) → R} (ks : List String) (hk : ks.Nodup ∧ ∀ k, k ∈ ks ↔ IsDummy k (.fn3 s a b c)) : Value m n a x →
      Value m n b y → Value m n c z → Value m n (.fn3 s a b c) (sumOver n ks fun env => m.fn3 s (x env) (y env) (z env))

end OpenSBLI.Ein
