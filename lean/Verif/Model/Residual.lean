import Mathlib.Data.Real.Basic
import Mathlib.Algebra.BigOperators.Group.List.Basic

/-!
# Assembly of the residual

Model of the residual part of `Central.sbli_rhs_discretisation` with `classify_equations_on_parameter` and `create_residual_kernel` (schemes/spatial/scheme.py 187-271,
284-297, 329-358) and of `ShockCapturing.evaluate_residuals` (schemes/spatial/shock_capturing.py 21-34), called by the schemes in the order in which they were set on the block
(equation_types/opensbliequations.py 283-298). A right hand side is a sum of terms; of each term the model keeps which functions it contains and its discretised value.
-/
namespace OpenSBLI.Res

/-- A term of a right hand side: whether it contains the constant `Re`, a WENO derivative, a central derivative, any other function (for example a sine), and its value with all derivatives
discretised. -/
structure Term where
  re : Bool
  weno : Bool
  central : Bool
  other : Bool
  value : ℝ

/-- The top level of the right hand side: a sum, a product, or neither (a single derivative, symbol, power or function). The last two have one term. -/
inductive Shape where
  | add
  | mul
  | bare
  deriving DecidableEq

/-- An equation, by its right hand side. -/
structure Eqn where
  shape : Shape
  terms : List Term

/-- A term after other functions have been replaced by zero, scheme.py 349-357. -/
def Term.forCentral (t : Term) : ℝ := if t.weno || t.other then 0 else t.value

/-- A term after all functions but the WENO derivatives have been replaced by zero, shock_capturing.py 24-30. -/
def Term.forWeno (t : Term) : ℝ := if t.central || t.other then 0 else t.value

/-- The terms `classify_equations_on_parameter` looks at, scheme.py 335-347: those of sums and products. -/
def Eqn.classified (e : Eqn) : List Term := match e.shape with
  | .add => e.terms
  | .mul => e.terms
  | .bare => []

/-- `containing_terms[number]`. -/
def Eqn.viscous (e : Eqn) : ℝ := ((e.classified.filter fun t => t.re).map Term.forCentral).sum

/-- `other_terms[number]`. -/
def Eqn.convective (e : Eqn) : ℝ := ((e.classified.filter fun t => !t.re).map Term.forCentral).sum

/-- A central derivative is left in the convective (`false`) or viscous (`true`) part. A term with a WENO derivative or another function has been zeroed. -/
def Eqn.hasCentral (re : Bool) (e : Eqn) : Bool := e.classified.any fun t => t.re == re && t.central && !(t.weno || t.other)

/-- The residual arrays after the kernels of the central scheme: set to the convective part if there is any convective derivative (scheme.py 200 and 250-252), increased by the viscous
part if there is any viscous derivative (scheme.py 256 and 263-267). -/
def centralPass (eqs : List Eqn) (res : List ℝ) : List ℝ :=
  let r := if eqs.any (Eqn.hasCentral false) then eqs.map Eqn.convective else res
  if eqs.any (Eqn.hasCentral true) then List.zipWith (· + ·) r (eqs.map Eqn.viscous) else r

/-- The residual arrays after the kernels of a WENO or TENO scheme, which sets them if there is any WENO derivative (schemes/spatial/weno.py 517-519). -/
def wenoPass (eqs : List Eqn) (res : List ℝ) : List ℝ :=
  if eqs.any (fun e => e.terms.any fun t => t.weno) then eqs.map fun e => (e.terms.map Term.forWeno).sum else res

/-- Spatial schemes. -/
inductive Scheme where
  | central
  | weno
  deriving DecidableEq

/-- All spatial schemes of the block in order. -/
def residual (schemes : List Scheme) (eqs : List Eqn) (res : List ℝ) : List ℝ :=
  schemes.foldl (fun r s => match s with | .central => centralPass eqs r | .weno => wenoPass eqs r) res

end OpenSBLI.Res
