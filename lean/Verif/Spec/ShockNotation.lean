import Verif.Spec.Notation

/-!
# The meaning of equations with shock capturing derivatives

What such a derivative is, is left open: any operator on functions on the grid, one for every direction. Everything else is as in `Spec/Notation.lean`.
-/
namespace OpenSBLI.Note
open OpenSBLI.Ein (Expr Meaning Value)
open OpenSBLI.Sim (P Mem Interp)

variable {D n : ℕ}

open Classical in
/-- The meaning of the symbols, with `wd d f` for the derivative of `f` in direction `d` of the schemes `Weno` and `Teno`. -/
noncomputable def capturing (wd : Fin D → (P D → ℝ) → P D → ℝ) (r : Reading) (I : Interp D) (m : Mem D) : Meaning (P D → ℝ) where
  comp := (meaning r I m).comp
  times := (meaning r I m).times
  fn s f g := if s ∈ ["Weno", "Teno"] then (if h : ∃ d : Fin D, g = coord d then wd h.choose f else 0) else (meaning r I m).fn s f g
  fn3 := (meaning r I m).fn3

/-- The values `F` are the right hand sides of the equations, as in `RightSides`, with another meaning of the symbols. -/
def RightSidesIn (M : Meaning (P D → ℝ)) (eqs : List (Expr × Expr)) (sol : Fin n → String) (F : Fin n → P D → ℝ) : Prop :=
  (∀ eq ∈ eqs, ∃ b idx, eq.1 = .fn "Der" (.term b idx) (.term "t" []) ∧ ∃ y, Value M D eq.2 y ∧ ∀ env : String → ℕ, (∀ k, env k < D) → ∃ i, sol i = component b (idx.map env) ∧ F i = y env) ∧
  ∀ i, ∃ eq ∈ eqs, ∃ b idx y env, eq.1 = .fn "Der" (.term b idx) (.term "t" []) ∧ Value M D eq.2 y ∧ (∀ k, env k < D) ∧ sol i = component b (idx.map env) ∧ F i = y env

end OpenSBLI.Note
