import Mathlib.LinearAlgebra.Lagrange
import Mathlib.Algebra.Polynomial.Derivative
import Mathlib.RingTheory.Derivation.Basic
import Mathlib.Order.Interval.Finset.Nat
import Mathlib.Data.Int.Interval

/-!
# Central finite differences and the skew-symmetric form

Model of `/repo/opensbli/schemes/spatial/scheme.py` (`CentralHalos`, `Central.__init__`,
`_generate_weights`, 32-85), `CentralDerivative._discretise_derivative` without boundary
modifications (`core/opensblifunctions.py` 484-520) and `Skew` (`core/parsing.py` 75-111).
-/
namespace OpenSBLI.Central
open Polynomial

noncomputable section

variable (K : Type) [Field K]

/-- `self.points`, scheme.py line 78: `range(int(-order/2), int(order/2+1))`. -/
def points (order : ℕ) : Finset ℤ := Finset.Ico (-((order/2 : ℕ):ℤ)) ((order/2 : ℕ) + 1)

/-- `_generate_weights`, lines 83-87.  SymPy's `finite_diff_weights(d, points, 0)[d][-1]` is
modelled by its mathematical meaning: the weight of point `p` is the `d`-th derivative at `0` of the
Lagrange basis polynomial of `p`. -/
def weight (order d : ℕ) (p : ℤ) : K :=
  ((derivative^[d]) (Lagrange.basis (points order) (fun i : ℤ => (i:K)) p)).eval 0

variable {K}

/-- `_discretise_derivative`: weighted sum of the shifted expression, times `1/delta**d`.
`f y` is the value of the differentiated expression at grid index `y` along the direction. -/
def discretise (order d : ℕ) (delta : K) (f : ℤ → K) (x : ℤ) : K :=
  (∑ p ∈ points order, weight K order d p * f (x + p)) * (1 / delta^d)

/-- The same on a periodic grid `G` with unit step `e` (values wrapped by the periodic exchange). -/
def discretisePeriodic {G : Type} [AddCommGroup G] (order d : ℕ) (delta : K) (e : G) (f : G → K)
    (x : G) : K :=
  (∑ p ∈ points order, weight K order d p * f (x + p • e)) * (1 / delta^d)

/-- Halo points of the scheme, lines 37 and 40-41: `[int(-order/2), int(order/2)]`. -/
def halos (order : ℕ) : ℤ × ℤ := (-((order/2 : ℕ):ℤ), ((order/2 : ℕ):ℤ))

end

/-! ### Skew-symmetric form -/

/-- SymPy expressions with the distinctions `Skew` depends on. -/
inductive E where
  | sym (n : ℕ)
  | num (q : ℚ)
  | add (l : List E)
  | mul (l : List E)
  | pow (e : E) (n : ℕ)
  | fn (f : ℕ) (e : E)

/-- SymPy's `.args`. -/
def E.args : E → List E
  | .sym _ => []
  | .num _ => []
  | .add l => l
  | .mul l => l
  | .pow e n => [e, .num n]
  | .fn _ e => [e]

/-- Result of `Skew`: `Der(var)` or `1/2*(Conservative(var) + b*Der(a) + a*Der(b))`. -/
inductive SkewForm where
  | der (var : E)
  | split (var a b : E)

/-- `Skew.applys`, parsing.py 95-111; `none` is the `ValueError`. -/
def skew (var : E) : Option SkewForm :=
  match var.args with
  | [_] => some (.der var)
  | [a, b] => some (.split var a b)
  | _ => none

section Semantics
variable {A : Type} [CommRing A] [Algebra ℚ A]

/-- Value of an expression for given fields and function meanings. -/
def E.eval (env : ℕ → A) (F : ℕ → A → A) : E → A
  | .sym n => env n
  | .num q => algebraMap ℚ A q
  | .add l => (l.map fun e => e.eval env F).sum
  | .mul l => (l.map fun e => e.eval env F).prod
  | .pow e n => e.eval env F ^ n
  | .fn f e => F f (e.eval env F)

/-- Value of the result with `D` for both `Der` and `Conservative`. -/
def SkewForm.eval (env : ℕ → A) (F : ℕ → A → A) (D : A → A) : SkewForm → A
  | .der v => D (v.eval env F)
  | .split v a b => algebraMap ℚ A (1/2) *
      (D (v.eval env F) + b.eval env F * D (a.eval env F) + a.eval env F * D (b.eval env F))

end Semantics

end OpenSBLI.Central
