import Mathlib.Analysis.Convex.Function
import Mathlib.Analysis.Normed.Module.Basic

/-!
# Specification: strong stability
-/
namespace OpenSBLI.Spec

variable {V : Type} [AddCommGroup V] [Module ℝ V]

/-- Single steps `v + τ F(v)` of Euler's method do not leave the set `K`. -/
def EulerKeeps (F : V → V) (K : Set V) (τ : ℝ) : Prop := ∀ v ∈ K, v + τ • F v ∈ K

/-- Single steps of Euler's method do not increase `Φ`, for example a norm, a maximum or a total variation. -/
def EulerDecreases (F : V → V) (Φ : V → ℝ) (τ : ℝ) : Prop := ∀ v, Φ (v + τ • F v) ≤ Φ v

end OpenSBLI.Spec
