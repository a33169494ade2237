import Verif.Model.Central
import Verif.Model.Eno
import Verif.Model.WenoNonlinear
import Verif.Model.RungeKutta
import Verif.Model.Teno

/-!
# What a scheme makes of the order it is asked for

The constructors of the spatial and temporal schemes as functions of the order: `CentralHalos.__init__`, `Central.__init__` and
`_generate_weights` (schemes/spatial/scheme.py 32-48, 67-85), `WenoHalos.__init__` and `Weno.__init__` (schemes/spatial/weno.py 23-29, 379-414),
`Teno.__init__` (schemes/spatial/teno.py 347-358), `RungeKutta.__init__` (schemes/temporal/rk_sbli.py 20-23) and `RungeKuttaLS.__init__` with
`get_coefficients` (schemes/temporal/rk_LS.py 28-43, 70-102). Orders are arbitrary integers. Exceptions are values.
-/
namespace OpenSBLI.Orders
open Polynomial

/-- The interpreter. The README asks for Python 2.7; the two differ in the division of integers, which scheme.py 37 and 78 use. -/
inductive Python where
  | two
  | three
  deriving DecidableEq, Repr

/-- `int(n/2)` for an integer `n`: `/` rounds down in Python 2, and `int` truncates the quotient in Python 3. -/
def Python.half : Python → ℤ → ℤ
  | .two, n => n.fdiv 2
  | .three, n => n.tdiv 2

/-- `int(n/2 + 1)`. -/
def Python.halfSucc : Python → ℤ → ℤ
  | .two, n => n.fdiv 2 + 1
  | .three, n => (n + 2).tdiv 2

/-- How a request is refused: the class of the exception. -/
inductive Refusal where
  | notImplemented
  | valueError
  | attributeError
  | indexError
  | unboundLocal
  deriving DecidableEq, Repr

/-! ## Central differences -/

/-- `self.points`, scheme.py 78: `range(int(-order/2), int(order/2+1))`; the sign binds closer than the division. -/
noncomputable def centralPoints (py : Python) (order : ℤ) : Finset ℤ := Finset.Ico (py.half (-order)) (py.halfSucc order)

/-- `CentralHalos`, scheme.py 37-41: `[int(-order/2), int(order/2)]`. -/
def centralHalos (py : Python) (order : ℤ) : ℤ × ℤ := (py.half (-order), py.half order)

/-- `_generate_weights`, scheme.py 81-85, for a set of points. SymPy's `finite_diff_weights(d, points, 0)[d][-1]` is modelled by its mathematical
meaning, the `d`-th derivative at `0` of the Lagrange basis polynomial of the point (zero when `d` is not below the number of points, as in SymPy). -/
noncomputable def weightOn (pts : Finset ℤ) (d : ℕ) (p : ℤ) : ℝ := ((derivative^[d]) (Lagrange.basis pts (fun i : ℤ => (i:ℝ)) p)).eval 0

/-- `_discretise_derivative`, core/opensblifunctions.py 484-520, without boundary modifications, for a set of points. -/
noncomputable def formulaOn (pts : Finset ℤ) (d : ℕ) (delta : ℝ) (f : ℤ → ℝ) (x : ℤ) : ℝ :=
  (∑ p ∈ pts, weightOn pts d p * f (x + p)) * (1 / delta^d)

/-- The formula of `Central(order)` for the derivative of order `d`. Without points, `finite_diff_weights` raises `IndexError` when the first derivative
is discretised. -/
noncomputable def central (py : Python) (order : ℤ) (d : ℕ) : Except Refusal (ℝ → (ℤ → ℝ) → ℤ → ℝ) :=
  if centralPoints py order = ∅ then .error .indexError else .ok (formulaOn (centralPoints py order) d)

/-! ## WENO and TENO -/

/-- `self.k = int(0.5*(order+1))`, weno.py 384 (and 24). -/
def wenoK (order : ℤ) : ℤ := (order + 1).tdiv 2

/-- `WenoHalos` of a scheme, weno.py 23-26. -/
def wenoHalos (order : ℤ) : ℤ × ℤ := (-wenoK order, wenoK order + 1)

/-- `Weno.__init__`, weno.py 379-414. The smoothness coefficients of a single stencil are those of the number `0`, which has no method `coeff` (lines 164-177:
`AttributeError`); WENO-Z has indicators up to `k = 7` (300-312: `ValueError`); without stencils the sensor takes the minimum of an empty list
(`ValueError`, whatever is raised before). The result is the formulation and `k`. -/
def weno (order : ℤ) (formulation : String) : Except Refusal (Weno.Formulation × ℕ) :=
  let k := wenoK order
  if formulation.toUpper = "Z" then
    if k = 1 then .error .attributeError
    else if 2 ≤ k ∧ k ≤ 7 then .ok (.Z, k.toNat) else .error .valueError
  else if formulation.toUpper = "JS" then
    if k = 1 then .error .attributeError
    else if 2 ≤ k then .ok (.JS, k.toNat) else .error .valueError
  else .error .notImplemented

/-- `Teno.__init__`, teno.py 351-356. -/
def teno (order : ℤ) : Except Refusal Teno.Order :=
  if order = 5 then .ok .five else if order = 6 then .ok .six else .error .notImplemented

/-! ## Time integration -/

/-- `RungeKutta.__init__`, rk_sbli.py 20-23: the coefficients `rknew`, `rkold`. -/
noncomputable def rungeKutta (order : ℤ) : Except Refusal (List ℝ × List ℝ) :=
  if order = 3 then .ok (RK.rknew, RK.rkold) else .error .notImplemented

/-- `RungeKuttaLS.__init__`, rk_LS.py 28-43, and `get_coefficients` 70-102: the coefficients `rkA`, `rkB`. `n_stages` is unbound for orders other than 3 and 4
(line 44), unless `'SSP'` was refused before. Any other formulation is ignored. -/
noncomputable def rungeKuttaLS (order : ℤ) (formulation : Option String) : Except Refusal (List ℝ × List ℝ) :=
  if formulation = some "SSP" ∧ order ≠ 3 then .error .valueError
  else if order = 3 then
    if formulation = some "SSP" then .ok (RK.sspA, RK.sspB) else .ok (RK.lsA3, RK.lsB3)
  else if order = 4 then .ok (RK.lsA4.map fun q : ℚ => (q:ℝ), RK.lsB4.map fun q : ℚ => (q:ℝ))
  else .error .unboundLocal

end OpenSBLI.Orders
