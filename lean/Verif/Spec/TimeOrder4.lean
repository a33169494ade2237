import Verif.Spec.TimeOrder
import Verif.Spec.RungeKutta
import Mathlib.Data.Real.Basic

/-!
# Specification: Runge-Kutta methods that nearly have order four
-/
namespace OpenSBLI.Spec

/-- The eight conditions up to order four hold up to `η`. -/
structure NearOrder4 {s : ℕ} (T : Tableau ℝ s) (η : ℝ) : Prop where
  t1 : |T.t1| ≤ η
  t2 : |T.t2| ≤ η
  t31 : |T.t31| ≤ η
  t32 : |T.t32| ≤ η
  t41 : |T.t41| ≤ η
  t42 : |T.t42| ≤ η
  t43 : |T.t43| ≤ η
  t44 : |T.t44| ≤ η

variable {V : Type} [NormedAddCommGroup V] [NormedSpace ℝ V]

/-- Right hand sides with four continuous derivatives on an open set. -/
structure SmoothOn4 (F : V → V) (Ω : Set V) : Prop where
  isOpen : IsOpen Ω
  smooth : ContDiffOn ℝ 4 F Ω

/-- The constants `C`, `h₀` and `η₀` belong to a problem and not to a method: for every explicit method whose coefficients add up to at most `σ` and satisfy the conditions of order four
up to `η ≤ η₀`, and for all time steps up to `h₀`, the values the method computes differ from the solution by at most `C (dt⁴ + η)`, uniformly up to a time. -/
def FourthOrderUpTo (s : ℕ) (σ : ℝ) (F : V → V) (y : ℝ → V) (time C h₀ η₀ : ℝ) : Prop :=
  ∀ (T : Tableau ℝ s) (η : ℝ), T.explicit → (∑ i, ∑ j, |T.A i j|) + ∑ i, |T.b i| ≤ σ → NearOrder4 T η → η ≤ η₀ →
    ∀ dt, 0 ≤ dt → dt ≤ h₀ → ∀ u : ℕ → V, u 0 = y 0 → (∀ n, ∃ k, T.IsSlopes F id dt (u n) k ∧ u (n + 1) = T.result id dt (u n) k) →
      ∀ n : ℕ, n * dt ≤ time → ‖u n - y (n * dt)‖ ≤ C * (dt ^ 4 + η)

end OpenSBLI.Spec
