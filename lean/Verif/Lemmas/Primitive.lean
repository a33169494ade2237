import Mathlib.MeasureTheory.Integral.IntervalIntegral.FundThmCalculus
import Mathlib.Analysis.Calculus.Deriv.Polynomial
import Mathlib.Algebra.Polynomial.Derivative
import Mathlib.Tactic.FieldSimp
import Mathlib.Tactic.Ring
import Mathlib.Topology.Algebra.Polynomial


namespace OpenSBLI.Interp
open Polynomial

set_option linter.unusedSectionVars false

variable {K : Type} [Field K] [CharZero K]

/-- A polynomial primitive. -/
noncomputable def prim (P : K[X]) : K[X] := P.sum fun n a => C (a / (n+1)) * X^(n+1)

theorem derivative_prim (P : K[X]) : derivative (prim P) = P := by
  unfold prim Polynomial.sum
  rw [derivative_sum]
  conv_rhs => rw [P.as_sum_support]
  apply Finset.sum_congr rfl
  intro n _
  have : ((n:K) + 1) ≠ 0 := by exact_mod_cast Nat.succ_ne_zero n
  rw [derivative_C_mul_X_pow, ← C_mul_X_pow_eq_monomial]
  congr 2
  push_cast
  field_simp

theorem natDegree_prim (P : K[X]) : (prim P).natDegree ≤ P.natDegree + 1 := by
  unfold prim Polynomial.sum
  apply natDegree_sum_le_of_forall_le
  intro n hn
  refine (natDegree_C_mul_X_pow_le _ _).trans ?_
  have := le_natDegree_of_mem_supp n hn
  omega

theorem integral_poly (P : ℝ[X]) (a b : ℝ) :
    ∫ y in a..b, P.eval y = (prim P).eval b - (prim P).eval a := by
  apply intervalIntegral.integral_eq_sub_of_hasDerivAt
  · intro x _
    have := (prim P).hasDerivAt x
    rwa [derivative_prim] at this
  · exact P.continuous.intervalIntegrable _ _

end OpenSBLI.Interp
