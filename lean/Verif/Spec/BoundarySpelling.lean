import Verif.Spec.BoundaryText
import Verif.Spec.ShockText

/-!
# When the equations of a boundary condition are spelled properly
-/
namespace OpenSBLI.Bc
open OpenSBLI.CCode OpenSBLI.Sim

variable {D n : ℕ}

/-- The numbers in an expression; general powers are left out. -/
def Expr.Numbers (P : ℝ → Prop) : Expr D → Prop
  | .num r => P r
  | .cell _ => True
  | .add a b => a.Numbers P ∧ b.Numbers P
  | .sub a b => a.Numbers P ∧ b.Numbers P
  | .mul a b => a.Numbers P ∧ b.Numbers P
  | .div a b => a.Numbers P ∧ b.Numbers P
  | .neg a => a.Numbers P
  | .sqrt a => a.Numbers P
  | .abs a => a.Numbers P
  | .rpow _ _ => False
  | .ge a b x y => a.Numbers P ∧ b.Numbers P ∧ x.Numbers P ∧ y.Numbers P

/-- Quotients have no integer divided by an integer. -/
def Expr.NoIntegers (N : Spelling D) : Expr D → Prop
  | .num _ => True
  | .cell _ => True
  | .add a b => a.NoIntegers N ∧ b.NoIntegers N
  | .sub a b => a.NoIntegers N ∧ b.NoIntegers N
  | .mul a b => a.NoIntegers N ∧ b.NoIntegers N
  | .div a b => a.NoIntegers N ∧ b.NoIntegers N ∧ ¬ ((a.sym N).isInt = true ∧ (b.sym N).isInt = true)
  | .neg a => a.NoIntegers N
  | .sqrt a => a.NoIntegers N
  | .abs a => a.NoIntegers N
  | .rpow a b => a.NoIntegers N ∧ b.NoIntegers N
  | .ge a b x y => a.NoIntegers N ∧ b.NoIntegers N ∧ x.NoIntegers N ∧ y.NoIntegers N

/-- A number is spelled by its digits, or by a registered constant. -/
def Spelling.Spelled (N : Spelling D) (T : Text D) (r : ℝ) : Prop := (∃ q : ℚ, (q : ℝ) = r ∧ (N.lit r = .num q ∨ N.lit r = .flt q)) ∨ ∃ c ∈ T.start.names, N.lit r = .const c

/-- A number is spelled by its digits, or by a registered constant that has its value in the program. -/
def Spelling.Good (N : Spelling D) (T : Text D) (prg : List (Alg.Node (Call D))) (r : ℝ) : Prop :=
  (∃ q : ℚ, (q : ℝ) = r ∧ (N.lit r = .num q ∨ N.lit r = .flt q)) ∨ ∃ c ∈ T.start.names, N.lit r = .const c ∧ T.const prg c = r

/-- A condition leaves a value of the solution as it is. -/
def Item.Keeps (vs : Fin n → Var D) (i : Fin n) (y : P D) : Item D → Prop
  | .lines r dir p prog => r.visits (Function.update y dir p) → ∀ a ∈ prog, a.target ≠ .data (vs i) (y dir - p)
  | .points r _ prog => r.visits y → ∀ a ∈ prog, a.target ≠ .data (vs i) 0
  | .exchange t => ¬ ∀ d, t.dst d ≤ y d ∧ y d < t.dst d + t.size d

end OpenSBLI.Bc
