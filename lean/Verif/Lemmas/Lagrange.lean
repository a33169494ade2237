import Mathlib.LinearAlgebra.Lagrange
import Mathlib.Algebra.Polynomial.Derivative
import Mathlib.Order.Interval.Finset.Basic
import Mathlib.Data.Int.Interval
import Mathlib.Tactic.Ring
import Mathlib.Tactic.FieldSimp
import Mathlib.Tactic.LinearCombination
import Mathlib.Tactic.Linarith

/-!
# Lagrange interpolation on integer nodes: derivative functionals
-/
namespace OpenSBLI.Interp
open Polynomial Finset

set_option linter.unusedSectionVars false

variable {K : Type} [Field K]

theorem eval_derivative_basis {ι : Type} [DecidableEq ι] (s : Finset ι) (v : ι → K) (i : ι) (x : K) :
    (derivative (Lagrange.basis s v i)).eval x =
      (∑ l ∈ s.erase i, ∏ q ∈ (s.erase i).erase l, (x - v q)) / ∏ l ∈ s.erase i, (v i - v l) := by
  have h : Lagrange.basis s v i =
      C ((∏ l ∈ s.erase i, (v i - v l))⁻¹) * ∏ q ∈ s.erase i, (X - C (v q)) := by
    unfold Lagrange.basis Lagrange.basisDivisor
    rw [Finset.prod_mul_distrib, ← map_prod, Finset.prod_inv_distrib]
  rw [h, derivative_C_mul, derivative_prod_finset]
  simp only [eval_mul, eval_C, eval_finsetSum, eval_prod, eval_sub, eval_X, derivative_sub,
    derivative_X, derivative_C, sub_zero, mul_one]
  rw [div_eq_mul_inv, mul_comm]

variable [CharZero K]

/-- Derivative at `0` of the interpolating polynomial of `U` on the integer nodes `a..b`. -/
noncomputable def D (a b : ℤ) (U : ℤ → K) : K :=
  (derivative (Lagrange.interpolate (Icc a b) (fun z : ℤ => (z : K)) U)).eval 0

theorem injOn_cast (s : Set ℤ) : Set.InjOn (fun z : ℤ => (z : K)) s :=
  fun _ _ _ _ h => Int.cast_injective h

/-- Neville–Aitken step for the derivative at a common node. -/
theorem D_neville {a b : ℤ} (ha : a + 1 ≤ 0) (hb : 0 ≤ b - 1) (U : ℤ → K) :
    D a b U = (-(a:K)) / ((b:K) - a) * D (a+1) b U + (b:K) / ((b:K) - a) * D a (b-1) U := by
  have hab : a ≠ b := by omega
  have e1 : (Icc a b).erase a = Icc (a+1) b := by ext z; simp; omega
  have e2 : (Icc a b).erase b = Icc a (b-1) := by ext z; simp; omega
  have key := Lagrange.interpolate_eq_add_interpolate_erase (r := U) (s := Icc a b)
    (v := fun z : ℤ => (z : K)) (injOn_cast _) (i := a) (j := b)
    (by simp; omega) (by simp; omega) hab
  rw [e1, e2] at key
  have v1 : (Lagrange.interpolate (Icc (a+1) b) (fun z : ℤ => (z : K)) U).eval 0 = U 0 := by
    have := Lagrange.eval_interpolate_at_node (r := U) (s := Icc (a+1) b)
      (v := fun z : ℤ => (z : K)) (injOn_cast _) (i := 0) (by simp; omega)
    simpa using this
  have v2 : (Lagrange.interpolate (Icc a (b-1)) (fun z : ℤ => (z : K)) U).eval 0 = U 0 := by
    have := Lagrange.eval_interpolate_at_node (r := U) (s := Icc a (b-1))
      (v := fun z : ℤ => (z : K)) (injOn_cast _) (i := 0) (by simp; omega)
    simpa using this
  have hne : (b:K) - a ≠ 0 := by
    rw [sub_ne_zero]; exact_mod_cast hab.symm
  have hne' : (a:K) - b ≠ 0 := by
    rw [sub_ne_zero]; exact_mod_cast hab
  unfold D
  rw [key]
  simp only [derivative_add, derivative_mul, eval_add, eval_mul, v1, v2, Lagrange.basisDivisor,
    derivative_C, derivative_sub, derivative_X, eval_C, eval_sub, eval_X, eval_zero, eval_one]
  field_simp
  ring

/-- `D` differentiates polynomials of low degree exactly. -/
theorem D_poly {a b : ℤ} (hab : a ≤ b) (P : K[X]) (hP : (P.natDegree : ℤ) ≤ b - a) :
    D a b (fun z => P.eval (z : K)) = (derivative P).eval 0 := by
  have : P = Lagrange.interpolate (Icc a b) (fun z : ℤ => (z : K)) (fun z => P.eval (z : K)) := by
    apply Lagrange.eq_interpolate (injOn_cast _)
    rw [Int.card_Icc]
    have : P.natDegree < (b + 1 - a).toNat := by omega
    exact lt_of_le_of_lt degree_le_natDegree (by exact_mod_cast this)
  unfold D
  rw [← this]

theorem D_const {a b : ℤ} (hab : a ≤ b) (c : K) : D a b (fun _ => c) = 0 := by
  have := D_poly hab (C c) (by simp; omega)
  simpa using this

/-- `D` is the linear functional with the Lagrange derivative weights. -/
noncomputable def w (a b : ℤ) (z : ℤ) : K :=
  (derivative (Lagrange.basis (Icc a b) (fun z : ℤ => (z : K)) z)).eval 0

theorem D_eq_sum (a b : ℤ) (U : ℤ → K) : D a b U = ∑ z ∈ Icc a b, U z * w a b z := by
  unfold D w
  rw [Lagrange.interpolate_apply]
  simp [eval_finsetSum]

theorem sum_w {a b : ℤ} (hab : a ≤ b) : ∑ z ∈ Icc a b, (w a b z : K) = 0 := by
  have := D_const (K := K) hab 1
  rw [D_eq_sum] at this
  simpa using this

theorem w_formula (a b z : ℤ) : (w a b z : K) =
    (∑ l ∈ (Icc a b).erase z, ∏ q ∈ ((Icc a b).erase z).erase l, (-(q:K))) /
      ∏ l ∈ (Icc a b).erase z, ((z:K) - l) := by
  unfold w
  rw [eval_derivative_basis]
  simp

end OpenSBLI.Interp
