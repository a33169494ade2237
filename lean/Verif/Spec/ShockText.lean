import Verif.Model.ShockText
import Verif.Spec.SimulationText
import Verif.Lemmas.SimulationSpatial

/-!
# When the text of the kernels of a shock capturing scheme is expected to be faithful
-/
namespace OpenSBLI.Recon
open Sim CCode Reg

variable {D n : ℕ} {V : Type}

/-- The mathematical functions of C which the reconstruction kernel calls. -/
structure Maths (L : Lib ℝ) : Prop where
  sqrt : ∀ x, L.fn "sqrt" x = Real.sqrt x
  abs : ∀ x, L.fn "fabs" x = |x|
  floor : ∀ x : ℝ, L.fn "floor" x = (⌊x⌋ : ℤ)

/-- A number with digits. -/
def IsLit (lit : ℝ → Sym D) (q : ℝ) : Prop := ∃ r : ℚ, (r : ℝ) = q ∧ (lit q = .num r ∨ lit q = .flt r)

/-- Right hand sides which may be printed with type `int`. -/
def Term.isInt : Term V D → Bool
  | .num _ => true
  | .at e _ => e.isInt
  | .add a b => a.isInt && b.isInt
  | .mul a b => a.isInt && b.isInt
  | _ => false

/-- Those which may be a reciprocal of such a one. -/
def Term.recipInt : Term V D → Bool
  | .inv a => a.isInt
  | .pow a _ => a.isInt
  | .at e _ => e.recipInt
  | _ => false

/-- Expressions in numbers and constants. -/
def Term.closed : Term V D → Bool
  | .num _ => true
  | .const _ => true
  | .var _ => false
  | .at e _ => e.closed
  | .add a b => a.closed && b.closed
  | .mul a b => a.closed && b.closed
  | .pow a b => a.closed && b.closed
  | .max a b => a.closed && b.closed
  | .cut a b => a.closed && b.closed
  | .npow a _ => a.closed
  | .inv a => a.closed
  | .sqrt a => a.closed
  | .abs a => a.closed
  | .fn _ a => a.closed
  | .tenFloor a => a.closed

def Term.isConst : Term V D → Bool
  | .const _ => true
  | .at e _ => e.isConst
  | _ => false

/-- An expression of the datasets in `U`: printable, without derivatives and coefficients of the time integration. -/
structure Static (T : Text D) (U : Arr → Prop) (e : Ex D) : Prop where
  printable : e.Printable T
  flat : e.cds = []
  steady : e.steady = true
  arrays : ∀ a ∈ e.arrs, U a

/-- Right hand sides with a faithful text, in variables satisfying `ok`: numbers have digits, constants are registered, only datasets are read, no integer is divided by an integer, powers of constants have constant exponents. -/
def Term.Printable (T : Text D) (U : Arr → Prop) (lit : ℝ → Sym D) (ok : V → Prop) : Term V D → Prop
  | .num q => IsLit lit q
  | .const c => c ∈ T.start.names
  | .var v => ok v
  | .at e _ => Static T U e ∧ e.plain
  | .add a b => a.Printable T U lit ok ∧ b.Printable T U lit ok
  | .mul a b => a.Printable T U lit ok ∧ b.Printable T U lit ok ∧ ¬ (a.isInt = true ∧ b.recipInt = true)
  | .pow a b => a.Printable T U lit ok ∧ b.Printable T U lit ok ∧ (a.isConst = true → b.closed = true)
  | .max a b => a.Printable T U lit ok ∧ b.Printable T U lit ok
  | .cut a b => a.Printable T U lit ok ∧ b.Printable T U lit ok
  | .npow a _ => a.Printable T U lit ok
  | .inv a => a.Printable T U lit ok
  | .sqrt a => a.Printable T U lit ok
  | .abs a => a.Printable T U lit ok
  | .fn _ a => a.Printable T U lit ok
  | .tenFloor a => a.Printable T U lit ok

/-- The same, and not the reciprocal of an integer. -/
def Term.Good (T : Text D) (U : Arr → Prop) (lit : ℝ → Sym D) (ok : V → Prop) (t : Term V D) : Prop := t.Printable T U lit ok ∧ t.recipInt = false

/-- SymPy makes such right hand sides of such right hand sides; what `subs` replaces has variables in it. -/
structure Sympy.Writes (S : Sympy D) (good : Term Var D → Prop) : Prop where
  factor : ∀ t, good t → good (S.factor t)
  subs : ∀ l t, (∀ q ∈ l, good q.1 ∧ q.1.closed = false ∧ good (.var q.2)) → good t → good (S.subs l t)
  gamma : ∀ t, good t → good (S.gamma t)

/-- The grid variables of the kernel: `TENO_CT` is one with a sensor only (teno.py 361-365). -/
def Input.usable (K : Input D n) (v : Var) : Prop := v = .ct → K.sensor.isSome = true

/-- What is asked of a reconstruction kernel, the names of its arrays and the way its numbers are held. -/
structure Input.Writable (K : Input D n) (S : Sympy D) (T : Text D) (U : Arr → Prop) (lit : ℝ → Sym D) : Prop where
  /-- rational numbers have digits, and the numbers of the scheme are rational -/
  digits : ∀ r : ℚ, IsLit lit (r : ℝ)
  weights : ∀ form k dz w, K.C.scheme = .weno form k dz w → (∃ r : ℚ, (r : ℝ) = dz) ∧ ∀ side i, ∃ r : ℚ, (r : ℝ) = w side i
  writes : S.Writes (Term.Good T U lit K.usable)
  /-- fluxes, eigenvalues, eigenvectors, metric terms and the sensor -/
  flux : ∀ i, Static T U (K.C.flux K.d i) ∧ (K.C.flux K.d i).plain ∧ (K.C.flux K.d i).recipInt = false
  ev : ∀ i, Static T U (K.C.ev K.d i) ∧ (K.C.ev K.d i).plain
  lev : ∀ i j, (avgTerm (K.C.lev K.d i j)).Good T U lit K.usable
  rev : ∀ i j, (avgTerm (K.C.rev K.d i j)).Good T U lit K.usable
  metric : ∀ e, K.invMetric = some e → (avgTerm e).Good T U lit K.usable ∧ (avgTerm e).closed = false
  sensor : ∀ e, K.sensor = some e → Static T U e ∧ e.plain ∧ e.recipInt = false ∧ "teno_a1" ∈ T.start.names ∧ "teno_a2" ∈ T.start.names
  /-- arrays -/
  sol : ∀ i, U (.data (K.C.sol i))
  terms : ∀ t ∈ K.terms, U (.data t)
  works : ∀ i, U (.work (K.C.reconWork K.d i))
  roe : K.roe = true → "gama" ∈ T.start.names ∧ U (.data "rho") ∧ U (.data "p") ∧ U (.data "rhoE") ∧ ∀ i : Fin D, U (.data s!"u{i.val}")
  /-- constants -/
  teno : ∀ o eps CT, K.C.scheme = .teno o eps CT → "eps" ∈ T.start.names ∧ (K.sensor = none → "TENO_CT" ∈ T.start.names)
  /-- no constant is called like a grid variable -/
  apart : ∀ c ∈ T.start.names, ∀ v : Var, v.name K.d = c → v = .ct ∧ K.sensor = none

end OpenSBLI.Recon

namespace OpenSBLI.Sim
open Recon CCode Reg

variable {D n : ℕ}

/-- What is asked of the residual kernel: the coefficients of the flux derivatives and the other terms, where derivatives are replaced by zero, are printable and do not depend on the stage; the spacings are registered. -/
structure Shock.Printable (C : Shock D n) (T : Text D) (U : Arr → Prop) : Prop where
  coef : ∀ d ∈ C.dirs, ∀ i, Static T U (C.coef d i) ∧ (C.coef d i).plain
  rest : ∀ i, (C.rhs i).zeroDer.Printable T
  spacing : ∀ d ∈ C.dirs, C.spacing d ∈ T.start.names

/-- What is asked of a program with a shock capturing scheme: its problem, apart from the scheme, is as in C85; `K d` are the reconstruction kernels, without a sensor, `S` is what SymPy does to them; the texts of the kernels of the
scheme are those of the model. -/
structure Text.Captures (T : Text D) (C : Shock D n) (K : Fin D → Input D n) (S : Sympy D) (lit : ℝ → Sym D) (t : Temporal) (inp : Alg.Input (Call D)) (U : Arr → Prop) : Prop where
  suits : T.Suits C.toSetup t inp U
  maths : Maths T.lib
  kernels : ∀ d ∈ C.dirs, (K d).C = C ∧ (K d).d = d ∧ (K d).sensor = none
  writable : ∀ d ∈ C.dirs, (K d).Writable S T U lit
  printable : C.Printable T U
  recon : ∀ d ∈ C.dirs, ∃ eqs, (K d).text S T lit = some eqs ∧ T.fns (C.reconKernel d) = some eqs
  residual : T.fns C.residualKernel = some (C.residualText T)

end OpenSBLI.Sim
