import Mathlib.Analysis.Calculus.Deriv.Basic
import Mathlib.Analysis.Calculus.ContDiff.Defs
import Verif.Spec.Simulation

/-!
# Specification: ordinary differential equations
-/
namespace OpenSBLI.Spec

variable {V : Type} [NormedAddCommGroup V] [NormedSpace ℝ V]

/-- `y` is a solution of `y' = F(y)` with values in `Ω`, up to a time and a little beyond on both sides. -/
def SolvesODE (F : V → V) (Ω : Set V) (y : ℝ → V) (time : ℝ) : Prop :=
  ∃ ε, 0 < ε ∧ ∀ t ∈ Set.Ioo (-ε) (time + ε), y t ∈ Ω ∧ HasDerivAt y (F (y t)) t

/-- Right hand sides with three continuous derivatives on an open set. -/
structure SmoothOn (F : V → V) (Ω : Set V) : Prop where
  isOpen : IsOpen Ω
  smooth : ContDiffOn ℝ 3 F Ω

/-- Values computed with time step `dt` approximate a function of time with an error of third order, uniformly up to a time; `u dt k` are the values after
`k` steps. -/
def ThirdOrder (u : ℝ → ℕ → V) (y : ℝ → V) (time : ℝ) : Prop :=
  ∃ C h₀, 0 < h₀ ∧ ∀ dt, 0 ≤ dt → dt ≤ h₀ → ∀ k : ℕ, k * dt ≤ time → ‖u dt k - y (k * dt)‖ ≤ C * dt ^ 3

open Sim in
/-- The powers and functions in an expression have values that are `m` times continuously differentiable functions of what the arrays depend on. -/
def PowersSmooth {D : ℕ} (m : WithTop ℕ∞) (I : Interp D) (arrays : V → Mem D) (Ω : Set V) : Ex D → Prop
  | .cd _ _ e => PowersSmooth m I arrays Ω e
  | .add a b => PowersSmooth m I arrays Ω a ∧ PowersSmooth m I arrays Ω b
  | .mul a b => PowersSmooth m I arrays Ω a ∧ PowersSmooth m I arrays Ω b
  | .pow a b => ∀ x, ContDiffOn ℝ m (fun v => I.pow (a.eval I (arrays v) x) (b.eval I (arrays v) x)) Ω
  | .fn f e => ∀ x, ContDiffOn ℝ m (fun v => I.fn f (e.eval I (arrays v) x)) Ω
  | _ => True

end OpenSBLI.Spec
