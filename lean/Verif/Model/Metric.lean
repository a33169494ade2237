import Mathlib.LinearAlgebra.Matrix.NonsingularInverse
import Mathlib.Data.Real.Basic

/-!
# Metric transformation

Model of `MetricsEquation`, equation_types/metric.py: which metric terms are stored, how they are evaluated and how derivatives are transformed. The derivatives of the
coordinates appear as given numbers; their finite difference approximation is the subject of C18-C23.
-/
namespace OpenSBLI.Metric

/-- The entries of the matrix `M2`, metric.py 73-99: zero, a Cartesian coordinate, or a curvilinear coordinate. -/
inductive Entry (n : ℕ) where
  | zero
  | cart (j : Fin n)
  | curv (j : Fin n)
  deriving DecidableEq

/-- What `CentralDerivative(...).doit()` gives, opensblifunctions.py 470-476: zero if an argument is zero, one if all arguments are equal, the derivative itself otherwise. -/
inductive Value where
  | zero
  | one
  | stored
  deriving DecidableEq

variable {n : ℕ}

/-- `M2[i, j]`: the block of the curvilinear directions is filled with the Cartesian coordinates (metric.py 83-87), the other rows have one entry on the
diagonal, Cartesian if the direction is stretched (metric.py 90-99). -/
def m2 (cur str : Fin n → Bool) (i j : Fin n) : Entry n :=
  if cur i then (if cur j then .cart j else .zero)
  else if i = j then (if str j then .cart j else .curv j) else .zero

/-- `CentralDerivative(curvilinear_coordinates[i], M2[i, j]).doit()`, metric.py 103-105. -/
def fdValue (cur str : Fin n → Bool) (i j : Fin n) : Value :=
  match m2 cur str i j with
  | .zero => .zero
  | .curv k => if k = i then .one else .stored
  | .cart _ => .stored

/-- `Cartesian_curvilinear_derivatives`, metric.py 106-112: the derivative of the Cartesian coordinate `i` along the curvilinear direction `j` where the term is stored, the constant
otherwise. `dx i j` is that derivative. -/
def jacobian (cur str : Fin n → Bool) (dx : Matrix (Fin n) (Fin n) ℝ) : Matrix (Fin n) (Fin n) ℝ := Matrix.of fun i j =>
  match fdValue cur str i j with
  | .zero => 0
  | .one => 1
  | .stored => dx i j

/-- The value the equation of `detJ` assigns, metric.py 139 and 142. -/
noncomputable def detJ (cur str : Fin n → Bool) (dx : Matrix (Fin n) (Fin n) ℝ) : ℝ := (jacobian cur str dx).det

/-- The metric term `FD_metrics[i, j]` as it enters the equations: the stored array `Dij`, which holds the entry of `adjugate/det`
(metric.py 138-143), or the constant (metric.py 109-112). -/
noncomputable def fdMetric (cur str : Fin n → Bool) (dx : Matrix (Fin n) (Fin n) ℝ) : Matrix (Fin n) (Fin n) ℝ := Matrix.of fun i j =>
  match fdValue cur str i j with
  | .zero => 0
  | .one => 1
  | .stored => (jacobian cur str dx).adjugate i j / (jacobian cur str dx).det

/-- The transformed first derivative in Cartesian direction `j`, metric.py 114-120: `MetricDer(f, x_j)` is the chain rule, the sum over the curvilinear directions of
metric times derivative. `df k` is the derivative of the field along curvilinear direction `k`. -/
noncomputable def firstDerivative (D : Matrix (Fin n) (Fin n) ℝ) (df : Fin n → ℝ) (j : Fin n) : ℝ := ∑ k, D k j * df k

/-- Whether `SDijk`, the derivative of `Dij` along curvilinear direction `k`, is stored, metric.py 158-183: never for constant terms, otherwise
for curvilinear `k`, and for stretched `k` only if `i = j = k`. -/
def sdStored (cur str : Fin n → Bool) (i j k : Fin n) : Bool :=
  (match m2 cur str i j with
   | .curv _ => false
   | _ => if cur k then true else if str k then (i = j && j = k) else false) &&
  (fdValue cur str i j != .zero)

/-- The transformed second derivative in Cartesian directions `i`, `j`, metric.py 186-192 and 221-225: the chain rule applied to the first transformation.
`ddf k l` is the second derivative of the field, `sd k i l` the derivative of `Dki` along `l`. -/
noncomputable def secondDerivative (cur str : Fin n → Bool) (D : Matrix (Fin n) (Fin n) ℝ) (sd : Fin n → Fin n → Fin n → ℝ) (df : Fin n → ℝ)
    (ddf : Fin n → Fin n → ℝ) (i j : Fin n) : ℝ :=
  ∑ l, D l j * ∑ k, (D k i * ddf k l + (if sdStored cur str k i l then sd k i l else 0) * df k)

/-- `fd_interface_factors` with `factors_mat`, metric.py 299-312: row `direction` changes sign, and so does the determinant. -/
def interfaceFactor (direction i : Fin n) : ℝ := if i = direction then -1 else 1

/-! ## Transformation of an equation -/

/-- Expressions with derivatives: `der dir curvi e` is a derivative in a Cartesian (`false`) or curvilinear (`true`) direction. -/
inductive Ex where
  | atom (name : String)
  | add (a b : Ex)
  | mul (a b : Ex)
  | der (dir : ℕ) (curvi : Bool) (e : Ex)
  deriving DecidableEq

/-- `equation.subs({fn: transformed})`: every occurrence of the expression is replaced, from the root downwards; the result of a replacement is not searched
again. -/
def Ex.subst : Ex → Ex → Ex → Ex
  | .atom s, old, new => if .atom s = old then new else .atom s
  | .add a b, old, new => if .add a b = old then new else .add (a.subst old new) (b.subst old new)
  | .mul a b, old, new => if .mul a b = old then new else .mul (a.subst old new) (b.subst old new)
  | .der d c a, old, new => if .der d c a = old then new else .der d c (a.subst old new)

/-- The transformation of one derivative for `ndim` directions: metric times curvilinear derivative, summed. Only the outermost derivative is
transformed (opensblifunctions.py 534-543 substitutes the argument as it is). -/
def transformOne (ndim : ℕ) : Ex → Ex
  | .der j false e => (List.range ndim).foldr (fun k acc => .add (.mul (.atom s!"D{k}{j}") (.der k true e)) acc) (.atom "0")
  | e => e

/-- `apply_transformation`, metric.py 227-234: the derivatives found in the original equation are replaced one after another, in the order in which
`atoms(Function)`, a set, yields them. -/
def applyTransformation (ndim : ℕ) (order : List Ex) (eq : Ex) : Ex := order.foldl (fun eq fn => eq.subst fn (transformOne ndim fn)) eq

/-- No Cartesian derivative is left. -/
def Ex.transformed : Ex → Bool
  | .atom _ => true
  | .add a b => a.transformed && b.transformed
  | .mul a b => a.transformed && b.transformed
  | .der _ c a => c && a.transformed

end OpenSBLI.Metric
