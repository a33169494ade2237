import Mathlib.Analysis.Calculus.LineDeriv.Basic
import Mathlib.Analysis.Calculus.ContDiff.Basic
import Verif.Spec.Simulation
import Verif.Model.Central

/-!
# The equations of a problem with true derivatives

What the discretised equations are compared with: expressions evaluated on smooth fields of a continuous position, their derivatives being partial derivatives.
-/
namespace OpenSBLI.Order
open Sim
open scoped ContDiff

variable {D : ℕ} {τ : Type}

/-- Positions. -/
abbrev E (D : ℕ) := Fin D → ℝ

/-- The partial derivative in direction `d`. -/
noncomputable def pd (d : Fin D) (u : E D → ℝ) : E D → ℝ := fun x => lineDeriv ℝ u x (Pi.single d 1)

/-- Partial derivatives in the directions of a list. -/
noncomputable def pds : List (Fin D) → (E D → ℝ) → E D → ℝ
  | [], u => u
  | d :: w, u => pds w (pd d u)

/-- Smooth for each value of a parameter (the time), and each partial derivative has a bound for all positions and parameters: for example periodic functions. -/
structure Tame (u : τ → E D → ℝ) : Prop where
  smooth : ∀ t, ContDiff ℝ ∞ (u t)
  bounded : ∀ w, ∃ C, ∀ t x, |pds w (u t) x| ≤ C

/-- The position of a grid point. -/
def pos (x₀ δ : E D) (x : P D) : E D := fun d => x₀ d + x d * δ d

/-- Fields sampled at the grid points. -/
def sample (fields : Arr → E D → ℝ) (x₀ δ : E D) : Mem D := fun a x => fields a (pos x₀ δ x)

/-- Expressions with true derivatives. -/
noncomputable def exact (I : Interp D) (fields : Arr → E D → ℝ) : Ex D → E D → ℝ
  | .num q => fun _ => (q : ℝ)
  | .const c => fun _ => I.const c
  | .indexed t => fun _ => (I.table t).getD I.stage.toNat 0
  | .arr a => fields a
  | .cd d k e => (pd d)^[k] (exact I fields e)
  | .add a b => fun x => exact I fields a x + exact I fields b x
  | .mul a b => fun x => exact I fields a x * exact I fields b x
  | .pow a b => fun x => I.pow (exact I fields a x) (exact I fields b x)
  | .fn f e => fun x => I.fn f (exact I fields e x)

/-- Expressions with smooth values: sums, products, natural powers and first and second derivatives of expressions which are smooth functions of the position. -/
def TameEx (I : Interp D) (fields : τ → Arr → E D → ℝ) : Ex D → Prop
  | .num _ => True
  | .const _ => True
  | .indexed _ => True
  | .add a b => TameEx I fields a ∧ TameEx I fields b
  | .mul a b => TameEx I fields a ∧ TameEx I fields b
  | .cd _ k e => (k = 1 ∨ k = 2) ∧ TameEx I fields e
  | .arr a => Tame fun t => fields t a
  | .pow a b => (a.cds = [] ∧ b.cds = [] ∧ Tame fun t x => I.pow (exact I (fields t) a x) (exact I (fields t) b x)) ∨
      ∃ n : ℕ, b = .num n ∧ (∀ x, I.pow x n = x ^ n) ∧ TameEx I fields a
  | .fn f e => e.cds = [] ∧ Tame fun t x => I.fn f (exact I (fields t) e x)

/-- Names of constants in an expression. -/
def Ex.constNames : Ex D → List String
  | .const c => [c]
  | .cd _ _ e => Ex.constNames e
  | .add a b => Ex.constNames a ++ Ex.constNames b
  | .mul a b => Ex.constNames a ++ Ex.constNames b
  | .pow a b => Ex.constNames a ++ Ex.constNames b
  | .fn _ e => Ex.constNames e
  | _ => []

/-- Two readings of an expression which may differ in the derivatives, and in constants the expression does not have (the grid spacings). -/
structure SameReading (I I₀ : Interp D) (e : Ex D) : Prop where
  const : ∀ c ∈ Ex.constNames e, I.const c = I₀.const c
  table : I.table = I₀.table
  stage : I.stage = I₀.stage
  pow : I.pow = I₀.pow
  fn : I.fn = I₀.fn

/-- Derivatives are central differences. -/
def CentralReading (order : ℕ) (δ : E D) (I : Interp D) : Prop := ∀ d k f x, I.cd d k f x = Central.discretise order k (δ d) (fun y => f (Function.update x d y)) (x d)

end OpenSBLI.Order
