import Verif.Model.EulerEigen
import Verif.Lemmas.EulerFlux
import Mathlib.LinearAlgebra.Matrix.NonsingularInverse

/-!
# C16: the eigensystems diagonalise the Euler equations
-/
namespace OpenSBLI.Euler
open Spec Matrix

set_option linter.unusedSectionVars false

/-! ### Inverses -/

theorem sqrt2_sq : Real.sqrt 2 * Real.sqrt 2 = 2 := Real.mul_self_sqrt (by norm_num)

/-- **C16.** One dimension: the eigenvector matrices are inverse to each other. -/
theorem C16_inverse_1d (g a u0 : ℝ) (hg : g ≠ 1) (ha : a ≠ 0) :
    lev1 g a u0 * rev1 g a u0 = 1 ∧ rev1 g a u0 * lev1 g a u0 = 1 := by
  have hg1 : g - 1 ≠ 0 := sub_ne_zero.2 hg
  have h : lev1 g a u0 * rev1 g a u0 = 1 := by
    have hH : 2 * H1 g a u0 - u0^2 = 2 * a^2/(g-1) := by unfold H1; field_simp; ring
    have hH' : -2 * H1 g a u0 + u0^2 = -(2 * a^2/(g-1)) := by rw [← hH]; ring
    unfold lev1 rev1
    simp only [hH, hH']
    unfold H1
    ext i j
    fin_cases i <;> fin_cases j
    all_goals simp [Matrix.mul_apply, Fin.sum_univ_three]
    all_goals field_simp
    all_goals ring
  exact ⟨h, mul_eq_one_comm.1 h⟩

/-- **C16.** Two dimensions, any direction: the eigenvector matrices are inverse to each other. -/
theorem C16_inverse_2d (g rho a u0 u1 k0 k1 : ℝ) (hg : g ≠ 1) (hr : rho ≠ 0) (ha : a ≠ 0)
    (hk : k0^2 + k1^2 ≠ 0) :
    lev2 g rho a u0 u1 k0 k1 * rev2 g rho a u0 u1 k0 k1 = 1 ∧
    rev2 g rho a u0 u1 k0 k1 * lev2 g rho a u0 u1 k0 k1 = 1 := by
  have hpos : 0 < k0^2 + k1^2 := lt_of_le_of_ne (by positivity) (Ne.symm hk)
  have hn : norm2 k0 k1 ≠ 0 := (Real.sqrt_pos.2 hpos).ne'
  have hn2 : norm2 k0 k1 ^ 2 = k0^2 + k1^2 := Real.sq_sqrt hpos.le
  have hs2 := sqrt2_sq
  have hs : Real.sqrt 2 ≠ 0 := by positivity
  have hg1 : g - 1 ≠ 0 := sub_ne_zero.2 hg
  have h : lev2 g rho a u0 u1 k0 k1 * rev2 g rho a u0 u1 k0 k1 = 1 := by
    unfold lev2 rev2
    generalize norm2 k0 k1 = n at *
    generalize Real.sqrt 2 = s at *
    generalize g - 1 = d at *
    ext i j
    fin_cases i <;> fin_cases j
    all_goals simp [Matrix.mul_apply, Fin.sum_univ_four]
    all_goals field_simp
    all_goals try ring1
    all_goals first
      | linear_combination -hn2
      | linear_combination -(2*a^2*rho) * hn2
      | linear_combination (-2*a^2) * hn2 - 2*a^2*n^2*hs2
      | linear_combination (2*a^2) * hn2
  exact ⟨h, mul_eq_one_comm.1 h⟩

/-- **C16.** Three dimensions, any direction: the eigenvector matrices are inverse to each other. -/
theorem C16_inverse_3d (g rho a u0 u1 u2 k0 k1 k2 : ℝ) (hg : g ≠ 1) (hr : rho ≠ 0) (ha : a ≠ 0)
    (hk : k0^2 + k1^2 + k2^2 ≠ 0) :
    lev3 g rho a u0 u1 u2 k0 k1 k2 * rev3 g rho a u0 u1 u2 k0 k1 k2 = 1 ∧
    rev3 g rho a u0 u1 u2 k0 k1 k2 * lev3 g rho a u0 u1 u2 k0 k1 k2 = 1 := by
  have hpos : 0 < k0^2 + k1^2 + k2^2 := lt_of_le_of_ne (by positivity) (Ne.symm hk)
  have hn : norm3 k0 k1 k2 ≠ 0 := (Real.sqrt_pos.2 hpos).ne'
  have hn2 : norm3 k0 k1 k2 ^ 2 = k0^2 + k1^2 + k2^2 := Real.sq_sqrt hpos.le
  have hs2 := sqrt2_sq
  have hs : Real.sqrt 2 ≠ 0 := by positivity
  have hg1 : g - 1 ≠ 0 := sub_ne_zero.2 hg
  have h : lev3 g rho a u0 u1 u2 k0 k1 k2 * rev3 g rho a u0 u1 u2 k0 k1 k2 = 1 := by
    unfold lev3 rev3
    generalize norm3 k0 k1 k2 = n at *
    generalize Real.sqrt 2 = s at *
    generalize g - 1 = d at *
    ext i j
    fin_cases i <;> fin_cases j
    all_goals simp [Matrix.mul_apply, Fin.sum_univ_five]
    all_goals field_simp
    all_goals try ring1
    all_goals first
      | linear_combination -(2*a^2*rho) * hn2
      | linear_combination (-2*a^2) * hn2 - 2*a^2*n^2*hs2
      | linear_combination (2*a^2) * hn2
  exact ⟨h, mul_eq_one_comm.1 h⟩

/-! ### Eigenvectors -/

/-- **C16.** One dimension: the derivative of the flux along right eigenvector `j` is the `j`-th
eigenvalue times that eigenvector, at every state. -/
theorem C16_eigenvectors_1d (g rho a u0 : ℝ) (hg : g ≠ 1) (hg0 : g ≠ 0) (hr : rho ≠ 0) (j : Fin 3) :
    HasDerivAt (fun t : ℝ => eulerFlux g ![1]
        (conserved g rho a ![u0] + t • fun i => rev1 g a u0 i j))
      (ev1 a u0 j • fun i => rev1 g a u0 i j) 0 := by
  have hg1 : g - 1 ≠ 0 := sub_ne_zero.2 hg
  rw [conserved_one]
  refine (hasDerivAt_flux g ![1] _ _ (by simpa using hr)).congr_deriv ?_
  rw [dFlux_one]
  funext i
  fin_cases j <;> fin_cases i <;> simp [ev1, rev1, H1]
  all_goals field_simp
  all_goals ring

/-- **C16.** Two dimensions, flux in any direction `k ≠ 0`. -/
theorem C16_eigenvectors_2d (g rho a u0 u1 k0 k1 : ℝ) (hg : g ≠ 1) (hg0 : g ≠ 0) (hr : rho ≠ 0)
    (ha : a ≠ 0) (hk : k0^2 + k1^2 ≠ 0) (j : Fin 4) :
    HasDerivAt (fun t : ℝ => eulerFlux g ![k0, k1]
        (conserved g rho a ![u0, u1] + t • fun i => rev2 g rho a u0 u1 k0 k1 i j))
      (ev2 a u0 u1 k0 k1 j • fun i => rev2 g rho a u0 u1 k0 k1 i j) 0 := by
  have hpos : 0 < k0^2 + k1^2 := lt_of_le_of_ne (by positivity) (Ne.symm hk)
  have hn : norm2 k0 k1 ≠ 0 := (Real.sqrt_pos.2 hpos).ne'
  have hn2 : norm2 k0 k1 ^ 2 = k0^2 + k1^2 := Real.sq_sqrt hpos.le
  have hs : Real.sqrt 2 ≠ 0 := by positivity
  have hg1 : g - 1 ≠ 0 := sub_ne_zero.2 hg
  rw [conserved_two]
  refine (hasDerivAt_flux g ![k0, k1] _ _ (by simpa using hr)).congr_deriv ?_
  rw [dFlux_two]
  unfold ev2 rev2
  generalize norm2 k0 k1 = n at *
  generalize Real.sqrt 2 = s at *
  funext i
  fin_cases j <;> fin_cases i <;> simp
  all_goals field_simp
  all_goals try ring1
  all_goals grind

/-- **C16.** Three dimensions, flux in any direction `k ≠ 0`. -/
theorem C16_eigenvectors_3d (g rho a u0 u1 u2 k0 k1 k2 : ℝ) (hg : g ≠ 1) (hg0 : g ≠ 0) (hr : rho ≠ 0)
    (ha : a ≠ 0) (hk : k0^2 + k1^2 + k2^2 ≠ 0) (j : Fin 5) :
    HasDerivAt (fun t : ℝ => eulerFlux g ![k0, k1, k2]
        (conserved g rho a ![u0, u1, u2] + t • fun i => rev3 g rho a u0 u1 u2 k0 k1 k2 i j))
      (ev3 a u0 u1 u2 k0 k1 k2 j • fun i => rev3 g rho a u0 u1 u2 k0 k1 k2 i j) 0 := by
  have hpos : 0 < k0^2 + k1^2 + k2^2 := lt_of_le_of_ne (by positivity) (Ne.symm hk)
  have hn : norm3 k0 k1 k2 ≠ 0 := (Real.sqrt_pos.2 hpos).ne'
  have hn2 : norm3 k0 k1 k2 ^ 2 = k0^2 + k1^2 + k2^2 := Real.sq_sqrt hpos.le
  have hs : Real.sqrt 2 ≠ 0 := by positivity
  have hg1 : g - 1 ≠ 0 := sub_ne_zero.2 hg
  rw [conserved_three]
  refine (hasDerivAt_flux g ![k0, k1, k2] _ _ (by simpa using hr)).congr_deriv ?_
  rw [dFlux_three]
  unfold ev3 rev3
  generalize norm3 k0 k1 k2 = n at *
  generalize Real.sqrt 2 = s at *
  funext i
  fin_cases j <;> fin_cases i <;> simp
  all_goals field_simp
  all_goals try ring1
  all_goals grind

/-- Eigenvectors and inverse give the derivative in any direction. -/
theorem hasDerivAt_of_eigen {n : ℕ} (g : ℝ) (k : Fin n → ℝ) (q : Fin (n+2) → ℝ) (hq : q 0 ≠ 0)
    (R L : Matrix (Fin (n+2)) (Fin (n+2)) ℝ) (ev : Fin (n+2) → ℝ)
    (he : ∀ j, HasDerivAt (fun t : ℝ => eulerFlux g k (q + t • fun i => R i j))
      (ev j • fun i => R i j) 0) (hRL : R * L = 1) (v : Fin (n+2) → ℝ) :
    HasDerivAt (fun t : ℝ => eulerFlux g k (q + t • v)) ((R * diagonal ev * L) *ᵥ v) 0 := by
  have hcol : ∀ j, dFlux g k q (fun i => R i j) = ev j • fun i => R i j := fun j =>
    (hasDerivAt_flux g k q _ hq).unique (he j)
  have hmul : ∀ w : Fin (n+2) → ℝ, R *ᵥ w = ∑ j, w j • fun i => R i j := by
    intro w
    funext i
    simp only [mulVec, dotProduct, Finset.sum_apply, Pi.smul_apply, smul_eq_mul]
    exact Finset.sum_congr rfl fun j _ => mul_comm _ _
  have hv : v = ∑ j, (L *ᵥ v) j • fun i => R i j := by
    rw [← hmul, mulVec_mulVec, hRL, one_mulVec]
  have hd : dFlux g k q v = (R * diagonal ev * L) *ᵥ v := by
    conv_lhs => rw [hv]
    rw [dFlux_sum _ g k q _ hq, ← mulVec_mulVec, ← mulVec_mulVec, hmul]
    refine Finset.sum_congr rfl fun j _ => ?_
    rw [dFlux_smul g _ k q _ hq, hcol, mulVec_diagonal, smul_smul, mul_comm]
  rw [← hd]
  exact hasDerivAt_flux g k q v hq

theorem conserved_zero {n : ℕ} (g rho a : ℝ) (u : Fin n → ℝ) : conserved g rho a u 0 = rho := rfl

/-- **C16.** One dimension: the product right · diag · left is the flux Jacobian, in every
direction. -/
theorem C16_jacobian_1d (g rho a u0 : ℝ) (hg : g ≠ 1) (hg0 : g ≠ 0) (hr : rho ≠ 0) (ha : a ≠ 0)
    (v : Fin 3 → ℝ) :
    HasDerivAt (fun t : ℝ => eulerFlux g ![1] (conserved g rho a ![u0] + t • v))
      ((rev1 g a u0 * diagonal (ev1 a u0) * lev1 g a u0) *ᵥ v) 0 :=
  hasDerivAt_of_eigen g _ _ hr _ _ _ (C16_eigenvectors_1d g rho a u0 hg hg0 hr)
    (C16_inverse_1d g a u0 hg ha).2 v

/-- **C16.** Two dimensions: the product right · diag · left is the flux Jacobian. -/
theorem C16_jacobian_2d (g rho a u0 u1 k0 k1 : ℝ) (hg : g ≠ 1) (hg0 : g ≠ 0) (hr : rho ≠ 0)
    (ha : a ≠ 0) (hk : k0^2 + k1^2 ≠ 0) (v : Fin 4 → ℝ) :
    HasDerivAt (fun t : ℝ => eulerFlux g ![k0, k1] (conserved g rho a ![u0, u1] + t • v))
      ((rev2 g rho a u0 u1 k0 k1 * diagonal (ev2 a u0 u1 k0 k1) * lev2 g rho a u0 u1 k0 k1) *ᵥ v) 0 :=
  hasDerivAt_of_eigen g _ _ hr _ _ _ (C16_eigenvectors_2d g rho a u0 u1 k0 k1 hg hg0 hr ha hk)
    (C16_inverse_2d g rho a u0 u1 k0 k1 hg hr ha hk).2 v

/-- **C16.** Three dimensions: the product right · diag · left is the flux Jacobian. -/
theorem C16_jacobian_3d (g rho a u0 u1 u2 k0 k1 k2 : ℝ) (hg : g ≠ 1) (hg0 : g ≠ 0) (hr : rho ≠ 0)
    (ha : a ≠ 0) (hk : k0^2 + k1^2 + k2^2 ≠ 0) (v : Fin 5 → ℝ) :
    HasDerivAt (fun t : ℝ => eulerFlux g ![k0, k1, k2] (conserved g rho a ![u0, u1, u2] + t • v))
      ((rev3 g rho a u0 u1 u2 k0 k1 k2 * diagonal (ev3 a u0 u1 u2 k0 k1 k2)
        * lev3 g rho a u0 u1 u2 k0 k1 k2) *ᵥ v) 0 :=
  hasDerivAt_of_eigen g _ _ hr _ _ _
    (C16_eigenvectors_3d g rho a u0 u1 u2 k0 k1 k2 hg hg0 hr ha hk)
    (C16_inverse_3d g rho a u0 u1 u2 k0 k1 k2 hg hr ha hk).2 v

/-- The states used above are the physical ones: `a` is the speed of sound `√(g p / rho)`. -/
theorem conserved_sound {n : ℕ} (g rho a : ℝ) (u : Fin n → ℝ) (hg : g ≠ 1) (hg0 : g ≠ 0) (hr : rho ≠ 0) :
    g * pressure g (conserved g rho a u) / rho = a^2 := by
  have hg1 : g - 1 ≠ 0 := sub_ne_zero.2 hg
  have h1 : conserved g rho a u (Fin.last _) =
      rho * a^2 / (g * (g-1)) + rho * (∑ i, u i ^ 2) / 2 := by
    unfold conserved
    rw [← Fin.succ_last, Fin.cons_succ, Fin.snoc_last]
  have h2 : ∀ i : Fin n, conserved g rho a u i.succ.castSucc = rho * u i := by
    intro i
    unfold conserved
    rw [← Fin.succ_castSucc, Fin.cons_succ, Fin.snoc_castSucc]
  unfold pressure
  simp only [h1, h2, conserved_zero, mul_pow, ← Finset.mul_sum]
  field_simp
  ring

/-- Air at rest, sound speed 1, and an oblique normal direction meet the hypotheses of the
three dimensional theorems. -/
example (v : Fin 5 → ℝ) := C16_jacobian_3d (7/5) 2 1 (1/2) (-1) 3 1 2 2 (by norm_num) (by norm_num)
  (by norm_num) (by norm_num) (by norm_num) v

/-- The fast wave of the two dimensional system along the x axis. -/
example : ev2 1 (1/2) 3 1 0 = ![1/2, 1/2, 3/2, -1/2] := by
  have h : norm2 1 0 = 1 := by simp [norm2]
  unfold ev2
  simp only [h]
  norm_num

end OpenSBLI.Euler
