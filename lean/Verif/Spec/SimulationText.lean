import Verif.Model.SimulationText
import Verif.Spec.Simulation

/-!
# What the text of a simulation should compute, and when it is expected to

`Text.meaning` is the reading of the equations by a user: derivatives are central differences with the grid spacing of the input file, and close to a boundary
with a closure its formulas (`Closure.rows`, whose accuracy is the subject of C21 and C22).
-/
namespace OpenSBLI.Sim
open OpenSBLI.Reg OpenSBLI.CCode

variable {D : ℕ} (T : Text D)

/-- The formulas of a closure. Those for first derivatives of Carpenter have the decimal numbers that are printed. -/
noncomputable def Text.formulas (K : Option Closure.Kind) (side : Bool) (k : ℕ) : List Closure.Row :=
  match K with
  | none => []
  | some K => if K = .carpenter ∧ k = 1 then
      (List.finRange 4).map fun i : Fin 4 => (List.finRange 6).map fun j : Fin 6 => (Closure.offset side j i, (if side then -1 else 1) * (T.carpenter i j : ℝ))
    else (Closure.rows K side k).getD []

/-- The formula of a closure at grid index `i` of a direction with `np` points: the first formula on the left applies at the first point, the first one on the
right at the last point, and so on inwards. -/
noncomputable def Text.formulaAt (np : ℤ) (d : Fin D) (k : ℕ) (i : ℤ) : Option Closure.Row :=
  (if 0 ≤ i then (T.formulas (T.mods d).left false k)[i.toNat]? else none).or
    (if 0 ≤ np - 1 - i then (T.formulas (T.mods d).right true k)[(np - 1 - i).toNat]? else none)

/-- The meaning of expressions, given the values of the constants. -/
noncomputable def Text.meaning (const : String → ℝ) (stage : ℤ) : Interp D where
  const := const
  table := T.table
  stage := stage
  cd d k f x := (match T.formulaAt ⌊const (T.points d)⌋ d k (x d) with
    | some r => (r.map fun q => q.2 * f (shift x d q.1)).sum
    | none => ∑ p ∈ Central.points T.order, Central.weight ℝ T.order k p * f (shift x d p)) * (1 / const (T.delta d) ^ k)
  pow := T.lib.pow
  fn := T.lib.fn

/-- Expressions printed as integers: sums and products of integers. -/
def Ex.isInt : Ex D → Bool
  | .num q => decide (q.den = 1)
  | .add a b => a.isInt && b.isInt
  | .mul a b => a.isInt && b.isInt
  | _ => false

/-- `1/n` for such an expression. -/
def Ex.recipInt : Ex D → Bool
  | .pow a (.num z) => a.isInt && decide (z = -1)
  | _ => false

/-- Expressions in numbers and constants. -/
def Ex.closed : Ex D → Bool
  | .num _ => true
  | .const _ => true
  | .add a b => a.closed && b.closed
  | .mul a b => a.closed && b.closed
  | .pow a b => a.closed && b.closed
  | .fn _ e => e.closed
  | _ => false

def Ex.isConst : Ex D → Bool
  | .const _ => true
  | _ => false

/-- Derivatives in an expression. -/
def Ex.ders : Ex D → List (Fin D × ℕ)
  | .cd d k e => (d, k) :: e.ders
  | .add a b => a.ders ++ b.ders
  | .mul a b => a.ders ++ b.ders
  | .pow a b => a.ders ++ b.ders
  | .fn _ e => e.ders
  | _ => []

/-- There is a closure at an end of the direction. -/
def Text.hasClosure (d : Fin D) : Prop := (T.mods d).left.isSome ∨ (T.mods d).right.isSome

/-- In a direction with a closure: derivatives of first and second order; the number of points is a constant read from the input file, an integer. -/
def Text.closable (d : Fin D) (k : ℕ) : Prop := T.hasClosure d →
  (k = 1 ∨ k = 2) ∧ ⟨T.points d, none⟩ ∈ T.start.constants ∧ ∃ z : ℤ, T.inputs (T.points d) = z

/-- In the equations of a kernel: no derivative, in a direction with a closure, of an expression which has derivatives in the same direction. -/
def Ex.Unnested : Ex D → Prop
  | .cd d _ e => e.Unnested ∧ (T.hasClosure d → ∀ q ∈ e.ders, q.1 ≠ d)
  | .add a b => a.Unnested ∧ b.Unnested
  | .mul a b => a.Unnested ∧ b.Unnested
  | .pow a b => a.Unnested ∧ b.Unnested
  | .fn _ e => e.Unnested
  | _ => True

/-- Expressions with a faithful text: constants are registered, arrays of coefficients are not called like constants, the spacings of derivatives have been
requested, no integer is divided by an integer, powers of constants have constant exponents, closed directions are as in `Text.closable`. -/
def Ex.Printable : Ex D → Prop
  | .num _ => True
  | .const c => c ∈ T.start.names
  | .indexed t => ¬ Generated t ∧ t ∉ T.start.names
  | .arr _ => True
  | .cd d k e => e.Printable ∧ e.recipInt = false ∧ (∃ p, .request p (T.inverse d k) ∈ T.ops) ∧ T.closable d k
  | .add a b => a.Printable ∧ b.Printable
  | .mul a b => a.Printable ∧ b.Printable ∧ ¬ (a.isInt = true ∧ b.recipInt = true)
  | .pow a b => a.Printable ∧ b.Printable ∧ (a.isConst = true → b.closed = true)
  | .fn _ e => e.Printable

/-- Equations with a faithful text in any program: their constants are registered and are not called like their grid variables, no integer is divided by an
integer, no condition of a grouped piecewise is an equality, powers of constants have constant exponents. -/
structure Text.Proper (eqs : List (Eqn D)) : Prop where
  consts : ∀ e ∈ exprs eqs, ∀ c ∈ e.consts, c ∈ T.start.names
  vars : ∀ v ∈ declaredVars eqs, ¬ Generated v ∧ v ∉ T.start.names
  faithful : ∀ e ∈ exprs eqs, ∀ o st, e.Faithful T.lib o st Mode.inKernel
  groups : GroupsRegular eqs
  inverses : ∀ e ∈ exprs eqs, ∀ k ∈ e.inverses, k.Closed

open Classical in
/-- What is asked of a program: the library computes powers; constants are registered before they are used; the arrays `U` it uses have different names; its
kernels are printable, or else given by a proper text, or by functions of the arrays; the text of the boundary conditions is proper. -/
structure Text.Fits (prg : List (Alg.Node (Call D))) (U : Arr → Prop) {n : ℕ} (sol : Fin n → String) : Prop where
  lib : T.lib.Conforms
  powers : ∀ (x : ℝ) (k : ℕ), T.lib.pow x k = x ^ k
  registered : Registered T.ops
  injective : ∀ a b, U a → U b → T.names a = T.names b → a = b
  solution : ∀ i, U (.data (sol i))
  kernels : ∀ k, .comp k ∈ written prg → ∀ q ∈ k.eqs, U q.1 ∧ (∀ a ∈ q.2.arrs, U a) ∧ q.2.Printable T ∧ q.2.Unnested T
  proper : ∀ k eqs, .fn k ∈ written prg → T.fns k = some eqs → T.Proper eqs
  others : ∀ k, .fn k ∈ written prg → T.fns k = none → ∀ q ∈ k.eqs, U q.1 ∧ ∀ I I' (m m' : Mem D) x, (∀ a, U a → m a = m' a) → q.2 I m x = q.2 I' m' x
  bcs : ∀ r eqs, .kernel r eqs ∈ T.bcs → T.Proper eqs := by exact fun _ _ h => (List.not_mem_nil h).elim

/-- The equations of a text are what a kernel computes: carried out at a point, one after the other, whatever the values of the constants and the contents of the
arrays, they give the elements of the arrays at this point the values of the kernel, and change nothing else. -/
def Text.Says (U : Arr → Prop) (k : FnKer D) (eqs : List (Eqn D)) : Prop :=
  ∀ (const : String → ℝ) (stage : ℤ) (x : P D) (m : Mem D) (st : CCode.Mem D ℝ), (∀ A, U A → ∀ off, st.data (T.names A) off = m A (x + off)) → ∀ A, U A → ∀ off,
    (effect T.lib ⟨const, fun t => (T.table t).getD stage.toNat 0, x⟩ eqs st).data (T.names A) off = k.eqs.foldl (fun m q => m.set q.1 x (q.2 (T.meaning const 0) m x)) m A (x + off)

/-- The arrays of coefficients of a scheme, rk_sbli.py 27-28, rk_LS.py 45-46. -/
def coefficients : Temporal → List String
  | .rk => ["rknew", "rkold"]
  | .lowStorage => ["rkA", "rkB"]

/-- The same in terms of a problem: what is asked of its right hand sides, of its relations and of the kernels of other equations. -/
structure Text.Suits {n : ℕ} (S : Setup D n) (t : Temporal) (inp : Alg.Input (Call D)) (U : Arr → Prop) : Prop where
  lib : T.lib.Conforms
  powers : ∀ (x : ℝ) (k : ℕ), T.lib.pow x k = x ^ k
  registered : Registered T.ops
  injective : ∀ a b, U a → U b → T.names a = T.names b → a = b
  order : T.order = S.order
  works : ∀ i, U (.work i)
  arrays : ∀ i : Fin n, U (.res i) ∧ U (.reg i) ∧ U (.data (S.sol i))
  rhs : ∀ i, (∀ a ∈ (S.rhs i).arrs, U a) ∧ (S.rhs i).Printable T
  rel : ∀ s e, (s, e) ∈ S.rel → U (.data s) ∧ (∀ a ∈ e.arrs, U a) ∧ e.Printable T
  step : "dt" ∈ T.start.names
  tables : ∀ c ∈ coefficients t, ¬ Generated c ∧ c ∉ T.start.names
  others : ∀ o places ks, .nonSimulation o places ks ∈ inp.items →
    (∀ k, .comp k ∈ ks → ∀ q ∈ k.eqs, U q.1 ∧ (∀ a ∈ q.2.arrs, U a) ∧ q.2.Printable T ∧ q.2.Unnested T) ∧
    ∀ k, .fn k ∈ ks → (T.fns k = none ∧ ∀ q ∈ k.eqs, U q.1 ∧ ∀ I I' (m m' : Mem D) x, (∀ a, U a → m a = m' a) → q.2 I m x = q.2 I' m' x) ∨
      ∃ eqs, T.fns k = some eqs ∧ T.Proper eqs ∧ T.Says U k eqs
  bcs : ∀ r eqs, .kernel r eqs ∈ T.bcs → T.Proper eqs := by exact fun _ _ h => (List.not_mem_nil h).elim

end OpenSBLI.Sim
