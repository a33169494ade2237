import Verif.Model.Closures
import Mathlib.Algebra.Polynomial.Taylor
import Mathlib.LinearAlgebra.Matrix.Gershgorin
import Mathlib.Tactic.FieldSimp
import Mathlib.Tactic.LinearCombination
import Mathlib.Tactic.NormNum

/-!
# Lemmas about boundary closures
-/
namespace OpenSBLI.Closure
open Polynomial

/-- Moment conditions imply exactness on polynomials. -/
theorem row_exact (r : Row) (n d : ℕ) (hd : d ≤ n)
    (hm : ∀ j ≤ n, (r.map fun p => p.2 * (p.1:ℝ)^j).sum = if j = d then (d.factorial : ℝ) else 0)
    (p : ℝ[X]) (hp : p.natDegree ≤ n) (x₀ h : ℝ) (hh : h ≠ 0) (i : ℤ) :
    r.eval (fun j => p.eval (x₀ + j*h)) i * (1/h^d) = (derivative^[d] p).eval (x₀ + i*h) := by
  have tay : ∀ k : ℤ, p.eval (x₀ + ((i + k : ℤ):ℝ)*h) =
      ∑ j ∈ Finset.range (n+1), (taylor (x₀ + i*h) p).coeff j * ((k:ℝ)*h)^j := by
    intro k
    have e : x₀ + ((i + k : ℤ):ℝ)*h = (k:ℝ)*h + (x₀ + i*h) := by push_cast; ring
    rw [e, ← taylor_eval, eval_eq_sum_range' (n := n+1)]
    rw [natDegree_taylor]; omega
  have h1 : r.eval (fun j => p.eval (x₀ + j*h)) i =
      ∑ j ∈ Finset.range (n+1), (taylor (x₀ + i*h) p).coeff j * h^j *
        (r.map fun p => p.2 * (p.1:ℝ)^j).sum := by
    unfold Row.eval
    simp only [tay]
    clear hm
    induction r with
    | nil => simp
    | cons a t ih =>
      simp only [List.map_cons, List.sum_cons]
      rw [ih]
      simp only [mul_add, Finset.sum_add_distrib, Finset.mul_sum]
      congr 1
      exact Finset.sum_congr rfl fun j _ => by rw [mul_pow]; ring
  rw [h1, Finset.sum_eq_single d]
  · rw [hm d hd, if_pos rfl, taylor_coeff, ← factorial_smul_hasseDeriv]
    rw [LinearMap.smul_apply, eval_smul, nsmul_eq_mul]
    field_simp
  · intro j hj hjd
    rw [hm j (by have := Finset.mem_range.1 hj; omega), if_neg hjd, mul_zero]
  · intro h; exact absurd (Finset.mem_range.2 (by omega)) h

/-! ### Carpenter coefficients -/

theorem sqrt_factor : √53 * √5573 = √295369 := by
  rw [← Real.sqrt_mul (by norm_num)]; norm_num

theorem sqrt_lower : (5434786104346 / 10000000000 : ℝ) < √295369 := by
  apply Real.lt_sqrt_of_sq_lt; norm_num

theorem sqrt_upper : √295369 < (5434786104347 / 10000000000 : ℝ) := by
  rw [Real.sqrt_lt' (by norm_num)]; norm_num

theorem R2_eq : R2 = (66195*√295369 - 35909375)/101952 := by
  rw [R2, mul_assoc, sqrt_factor]

/-- Entries of `al4` bounded by rationals. -/
theorem al4_bounds :
    (26/100 < al4 0 0 ∧ 170/100 < al4 1 1 ∧ 134/100 < al4 2 2 ∧ 103/100 < al4 3 3) ∧
    (|al4 0 1| < 5/100 ∧ |al4 0 2| < 2/100 ∧ |al4 0 3| < 1/100) ∧
    (|al4 1 2| < 51/100 ∧ |al4 1 3| < 15/100 ∧ |al4 2 3| < 11/100) := by
  have h1 := sqrt_lower
  have h2 := sqrt_upper
  have e1 : R1 = -(2177*√295369 - 1166427)/25488 := rfl
  simp only [al4, Matrix.of_apply, Matrix.cons_val, abs_lt]
  rw [R2_eq, e1]
  refine ⟨⟨?_, ?_, ?_, ?_⟩, ⟨⟨?_, ?_⟩, ⟨?_, ?_⟩, ?_, ?_⟩, ⟨?_, ?_⟩, ⟨?_, ?_⟩, ?_, ?_⟩ <;> linarith

theorem al4_symm (i j : Fin 4) : al4 i j = al4 j i := by
  fin_cases i <;> fin_cases j <;> rfl

theorem al4_det : al4.det ≠ 0 := by
  obtain ⟨⟨a0, a1, a2, a3⟩, ⟨b1, b2, b3⟩, b4, b5, b6⟩ := al4_bounds
  apply det_ne_zero_of_sum_row_lt_diag
  have s10 := al4_symm 1 0
  have s20 := al4_symm 2 0
  have s30 := al4_symm 3 0
  have s21 := al4_symm 2 1
  have s31 := al4_symm 3 1
  have s32 := al4_symm 3 2
  have e : ∀ k : Fin 4, ∑ j ∈ Finset.univ.erase k, ‖al4 k j‖ = ∑ j, ‖al4 k j‖ - ‖al4 k k‖ := by
    intro k; rw [← Finset.sum_erase_add _ _ (Finset.mem_univ k)]; ring
  intro k
  rw [e, Fin.sum_univ_four]
  simp only [Real.norm_eq_abs]
  fin_cases k <;> simp only [Fin.zero_eta, Fin.mk_one, Fin.reduceFinMk, s10, s20, s30, s21, s31, s32]
  · rw [abs_of_pos (by linarith : 0 < al4 0 0)]; linarith
  · rw [abs_of_pos (by linarith : 0 < al4 1 1)]; linarith
  · rw [abs_of_pos (by linarith : 0 < al4 2 2)]; linarith
  · rw [abs_of_pos (by linarith : 0 < al4 3 3)]; linarith

theorem al4_mul_bc4 : al4 * bc4 = ar4 := by
  rw [bc4, ← Matrix.mul_assoc, Matrix.mul_nonsing_inv _ al4_det.isUnit, Matrix.one_mul]

/-- `ar4` applied to monomials is `al4` applied to their derivatives. -/
theorem ar4_monomials (j : ℕ) (hj : j ≤ 3) (i : Fin 4) :
    ∑ k : Fin 6, ar4 i k * ((k:ℕ):ℝ)^j = ∑ m : Fin 4, al4 i m * (j * ((m:ℕ):ℝ)^(j-1)) := by
  have e1 : R1 = -(2177*√295369 - 1166427)/25488 := rfl
  simp only [Fin.sum_univ_four, Fin.sum_univ_six]
  interval_cases j <;> fin_cases i <;>
    simp [al4, ar4, R2_eq, e1] <;> ring

theorem bc4_monomials (j : ℕ) (hj : j ≤ 3) (i : Fin 4) :
    ∑ k : Fin 6, bc4 i k * ((k:ℕ):ℝ)^j = j * ((i:ℕ):ℝ)^(j-1) := by
  have key : bc4.mulVec (fun k : Fin 6 => ((k:ℕ):ℝ)^j) = fun i : Fin 4 => j * ((i:ℕ):ℝ)^(j-1) := by
    have h : ar4.mulVec (fun k : Fin 6 => ((k:ℕ):ℝ)^j) =
        al4.mulVec (fun i : Fin 4 => j * ((i:ℕ):ℝ)^(j-1)) := by
      funext i
      exact ar4_monomials j hj i
    rw [bc4, ← Matrix.mulVec_mulVec, h, Matrix.mulVec_mulVec,
      Matrix.nonsing_inv_mul _ al4_det.isUnit, Matrix.one_mulVec]
  exact congrFun key i

/-- Moments of the boundary rows about the point they are used at. -/
theorem bc4_moments (i : Fin 4) (j : ℕ) (hj : j ≤ 3) :
    ∑ k : Fin 6, bc4 i k * (((k:ℕ):ℝ) - ((i:ℕ):ℝ))^j = if j = 1 then 1 else 0 := by
  have m0 := bc4_monomials 0 (by norm_num) i
  have m1 := bc4_monomials 1 (by norm_num) i
  have m2 := bc4_monomials 2 (by norm_num) i
  have m3 := bc4_monomials 3 (by norm_num) i
  simp only [pow_zero, mul_one, pow_one, Nat.cast_zero, Nat.cast_one, Nat.sub_self,
    Nat.cast_ofNat, Nat.reduceSub] at m0 m1 m2 m3
  set a : ℝ := ((i:ℕ):ℝ)
  interval_cases j
  · simpa using m0
  · simp only [pow_one, mul_sub, Finset.sum_sub_distrib, ← Finset.sum_mul, m0, m1]; simp
  · have : ∀ k : Fin 6, bc4 i k * (((k:ℕ):ℝ) - a)^2 =
        bc4 i k * ((k:ℕ):ℝ)^2 - bc4 i k * ((k:ℕ):ℝ) * (2*a) + bc4 i k * a^2 := fun k => by ring
    simp only [this, Finset.sum_add_distrib, Finset.sum_sub_distrib, ← Finset.sum_mul, m0, m1, m2]
    norm_num
  · have : ∀ k : Fin 6, bc4 i k * (((k:ℕ):ℝ) - a)^3 =
        bc4 i k * ((k:ℕ):ℝ)^3 - bc4 i k * ((k:ℕ):ℝ)^2 * (3*a) + bc4 i k * ((k:ℕ):ℝ) * (3*a^2)
          - bc4 i k * a^3 := fun k => by ring
    simp only [this, Finset.sum_add_distrib, Finset.sum_sub_distrib, ← Finset.sum_mul, m0, m1, m2, m3]
    norm_num
    ring

end OpenSBLI.Closure
