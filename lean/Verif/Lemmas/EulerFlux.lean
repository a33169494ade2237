import Verif.Spec.EulerFlux
import Mathlib.Analysis.Calculus.Deriv.Add
import Mathlib.Analysis.Calculus.Deriv.Inv
import Mathlib.Analysis.Calculus.Deriv.Prod
import Mathlib.Analysis.Calculus.Deriv.Pow
import Mathlib.Tactic.FinCases
import Mathlib.Tactic.LinearCombination
import Mathlib.Tactic.FieldSimp

/-!
# Derivative of the Euler flux
-/
namespace OpenSBLI.Euler
open Spec

set_option linter.unusedSectionVars false
set_option linter.unnecessarySeqFocus false

/-! ### Derivative of the flux -/

/-- Derivative of the pressure along `v`. -/
noncomputable def dPressure {n : ℕ} (g : ℝ) (q v : Fin (n+2) → ℝ) : ℝ :=
  (g-1) * (v (Fin.last _) - (∑ i : Fin n, q i.succ.castSucc * v i.succ.castSucc) / q 0
    + (∑ i : Fin n, q i.succ.castSucc ^ 2) * v 0 / (2 * q 0 ^ 2))

/-- Derivative of the flux along `v`. -/
noncomputable def dFlux {n : ℕ} (g : ℝ) (k : Fin n → ℝ) (q v : Fin (n+2) → ℝ) : Fin (n+2) → ℝ :=
  let m := contraMomentum k q
  let dm := contraMomentum k v
  let p := pressure g q
  let dp := dPressure g q v
  Fin.cons dm (Fin.snoc (fun j : Fin n => (v j.succ.castSucc * m + q j.succ.castSucc * dm) / q 0
      - q j.succ.castSucc * m * v 0 / q 0 ^ 2 + k j * dp)
    (((v (Fin.last _) + dp) * m + (q (Fin.last _) + p) * dm) / q 0
      - (q (Fin.last _) + p) * m * v 0 / q 0 ^ 2))

theorem hasDerivAt_comp {m : ℕ} (q v : Fin m → ℝ) (i : Fin m) :
    HasDerivAt (fun t : ℝ => (q + t • v) i) (v i) 0 := by
  have h : HasDerivAt (fun t : ℝ => q i + t * v i) (1 * v i) 0 :=
    ((hasDerivAt_id (0:ℝ)).mul_const (v i)).const_add (q i)
  rw [one_mul] at h
  exact h

theorem hasDerivAt_contra {n : ℕ} (k : Fin n → ℝ) (q v : Fin (n+2) → ℝ) :
    HasDerivAt (fun t : ℝ => contraMomentum k (q + t • v)) (contraMomentum k v) 0 := by
  unfold contraMomentum
  exact HasDerivAt.fun_sum fun i _ => (hasDerivAt_comp q v i.succ.castSucc).const_mul (k i)

theorem hasDerivAt_pressure {n : ℕ} (g : ℝ) (q v : Fin (n+2) → ℝ) (hq : q 0 ≠ 0) :
    HasDerivAt (fun t : ℝ => pressure g (q + t • v)) (dPressure g q v) 0 := by
  unfold pressure
  have h0 := hasDerivAt_comp q v 0
  have h1 : HasDerivAt (fun t : ℝ => ∑ i : Fin n, (q + t • v) i.succ.castSucc ^ 2)
      (∑ i : Fin n, 2 * q i.succ.castSucc * v i.succ.castSucc) 0 := by
    apply HasDerivAt.fun_sum
    intro i _
    have := (hasDerivAt_comp q v i.succ.castSucc).pow 2
    refine this.congr_deriv ?_
    simp
  have h2 := (h1.div (h0.const_mul 2) (by simpa using hq))
  have h3 := ((hasDerivAt_comp q v (Fin.last _)).sub h2).const_mul (g-1)
  refine h3.congr_deriv ?_
  unfold dPressure
  simp only [zero_smul, add_zero]
  have : ∑ i : Fin n, 2 * q i.succ.castSucc * v i.succ.castSucc =
      2 * ∑ i : Fin n, q i.succ.castSucc * v i.succ.castSucc := by
    rw [Finset.mul_sum]; exact Finset.sum_congr rfl fun i _ => by ring
  rw [this]
  field_simp
  ring

/-- The flux is differentiable where the density does not vanish. -/
theorem hasDerivAt_flux {n : ℕ} (g : ℝ) (k : Fin n → ℝ) (q v : Fin (n+2) → ℝ) (hq : q 0 ≠ 0) :
    HasDerivAt (fun t : ℝ => eulerFlux g k (q + t • v)) (dFlux g k q v) 0 := by
  have hm := hasDerivAt_contra k q v
  have hp := hasDerivAt_pressure g q v hq
  have h0 := hasDerivAt_comp q v 0
  have hE := hasDerivAt_comp q v (Fin.last _)
  have hq' : (q + (0:ℝ) • v) 0 ≠ 0 := by simpa using hq
  refine hasDerivAt_pi.2 fun i => ?_
  refine Fin.cases ?_ (fun i => ?_) i
  · simpa only [eulerFlux, dFlux, Fin.cons_zero] using hm
  · refine Fin.lastCases ?_ (fun j => ?_) i
    · simp only [eulerFlux, dFlux, Fin.cons_succ, Fin.snoc_last]
      have h := ((hE.add hp).mul hm).div h0 hq'
      refine h.congr_deriv ?_
      simp only [zero_smul, add_zero, Pi.add_apply, Pi.mul_apply, Pi.zero_apply]
      field_simp
    · simp only [eulerFlux, dFlux, Fin.cons_succ, Fin.snoc_castSucc]
      have hj := hasDerivAt_comp q v j.succ.castSucc
      have h := ((hj.mul hm).div h0 hq').add (hp.const_mul (k j))
      refine h.congr_deriv ?_
      simp only [zero_smul, add_zero, Pi.mul_apply]
      field_simp

/-! ### Eigenvectors -/

/-- Conserved variables, one dimension. -/
theorem conserved_one (g rho a u0 : ℝ) : conserved g rho a ![u0] =
    ![rho, rho*u0, rho * a^2 / (g * (g-1)) + rho * u0^2 / 2] := by
  funext i
  fin_cases i <;> simp [conserved, Fin.snoc] <;> rfl

theorem conserved_two (g rho a u0 u1 : ℝ) : conserved g rho a ![u0, u1] =
    ![rho, rho*u0, rho*u1, rho * a^2 / (g * (g-1)) + rho * (u0^2 + u1^2) / 2] := by
  funext i
  fin_cases i <;> simp [conserved, Fin.snoc, Fin.sum_univ_two] <;> rfl

theorem conserved_three (g rho a u0 u1 u2 : ℝ) : conserved g rho a ![u0, u1, u2] =
    ![rho, rho*u0, rho*u1, rho*u2, rho * a^2 / (g * (g-1)) + rho * (u0^2 + u1^2 + u2^2) / 2] := by
  funext i
  fin_cases i <;> simp [conserved, Fin.snoc, Fin.sum_univ_three] <;> rfl

theorem dFlux_one (g k0 : ℝ) (q v : Fin 3 → ℝ) : dFlux g ![k0] q v =
    ![(k0 * v 1),
      (v 1 * (k0 * q 1) + q 1 * (k0 * v 1)) / q 0
        - q 1 * (k0 * q 1) * v 0 / q 0 ^ 2 + k0 * ((g-1) * (v 2 - (q 1 * v 1) / q 0 + (q 1 ^ 2) * v 0 / (2 * q 0 ^ 2))),
      ((v 2 + ((g-1) * (v 2 - (q 1 * v 1) / q 0 + (q 1 ^ 2) * v 0 / (2 * q 0 ^ 2)))) * (k0 * q 1) + (q 2 + ((g-1) * (q 2 - (q 1 ^ 2) / (2 * q 0)))) * (k0 * v 1)) / q 0
        - (q 2 + ((g-1) * (q 2 - (q 1 ^ 2) / (2 * q 0)))) * (k0 * q 1) * v 0 / q 0 ^ 2] := by
  funext i
  simp only [dFlux, contraMomentum, pressure, dPressure, Fin.sum_univ_one]
  fin_cases i <;> rfl

theorem dFlux_two (g k0 k1 : ℝ) (q v : Fin 4 → ℝ) : dFlux g ![k0, k1] q v =
    ![(k0 * v 1 + k1 * v 2),
      (v 1 * (k0 * q 1 + k1 * q 2) + q 1 * (k0 * v 1 + k1 * v 2)) / q 0
        - q 1 * (k0 * q 1 + k1 * q 2) * v 0 / q 0 ^ 2 + k0 * ((g-1) * (v 3 - (q 1 * v 1 + q 2 * v 2) / q 0 + (q 1 ^ 2 + q 2 ^ 2) * v 0 / (2 * q 0 ^ 2))),
      (v 2 * (k0 * q 1 + k1 * q 2) + q 2 * (k0 * v 1 + k1 * v 2)) / q 0
        - q 2 * (k0 * q 1 + k1 * q 2) * v 0 / q 0 ^ 2 + k1 * ((g-1) * (v 3 - (q 1 * v 1 + q 2 * v 2) / q 0 + (q 1 ^ 2 + q 2 ^ 2) * v 0 / (2 * q 0 ^ 2))),
      ((v 3 + ((g-1) * (v 3 - (q 1 * v 1 + q 2 * v 2) / q 0 + (q 1 ^ 2 + q 2 ^ 2) * v 0 / (2 * q 0 ^ 2)))) * (k0 * q 1 + k1 * q 2) + (q 3 + ((g-1) * (q 3 - (q 1 ^ 2 + q 2 ^ 2) / (2 * q 0)))) * (k0 * v 1 + k1 * v 2)) / q 0
        - (q 3 + ((g-1) * (q 3 - (q 1 ^ 2 + q 2 ^ 2) / (2 * q 0)))) * (k0 * q 1 + k1 * q 2) * v 0 / q 0 ^ 2] := by
  funext i
  simp only [dFlux, contraMomentum, pressure, dPressure, Fin.sum_univ_two]
  fin_cases i <;> rfl

theorem dFlux_three (g k0 k1 k2 : ℝ) (q v : Fin 5 → ℝ) : dFlux g ![k0, k1, k2] q v =
    ![(k0 * v 1 + k1 * v 2 + k2 * v 3),
      (v 1 * (k0 * q 1 + k1 * q 2 + k2 * q 3) + q 1 * (k0 * v 1 + k1 * v 2 + k2 * v 3)) / q 0
        - q 1 * (k0 * q 1 + k1 * q 2 + k2 * q 3) * v 0 / q 0 ^ 2 + k0 * ((g-1) * (v 4 - (q 1 * v 1 + q 2 * v 2 + q 3 * v 3) / q 0 + (q 1 ^ 2 + q 2 ^ 2 + q 3 ^ 2) * v 0 / (2 * q 0 ^ 2))),
      (v 2 * (k0 * q 1 + k1 * q 2 + k2 * q 3) + q 2 * (k0 * v 1 + k1 * v 2 + k2 * v 3)) / q 0
        - q 2 * (k0 * q 1 + k1 * q 2 + k2 * q 3) * v 0 / q 0 ^ 2 + k1 * ((g-1) * (v 4 - (q 1 * v 1 + q 2 * v 2 + q 3 * v 3) / q 0 + (q 1 ^ 2 + q 2 ^ 2 + q 3 ^ 2) * v 0 / (2 * q 0 ^ 2))),
      (v 3 * (k0 * q 1 + k1 * q 2 + k2 * q 3) + q 3 * (k0 * v 1 + k1 * v 2 + k2 * v 3)) / q 0
        - q 3 * (k0 * q 1 + k1 * q 2 + k2 * q 3) * v 0 / q 0 ^ 2 + k2 * ((g-1) * (v 4 - (q 1 * v 1 + q 2 * v 2 + q 3 * v 3) / q 0 + (q 1 ^ 2 + q 2 ^ 2 + q 3 ^ 2) * v 0 / (2 * q 0 ^ 2))),
      ((v 4 + ((g-1) * (v 4 - (q 1 * v 1 + q 2 * v 2 + q 3 * v 3) / q 0 + (q 1 ^ 2 + q 2 ^ 2 + q 3 ^ 2) * v 0 / (2 * q 0 ^ 2)))) * (k0 * q 1 + k1 * q 2 + k2 * q 3) + (q 4 + ((g-1) * (q 4 - (q 1 ^ 2 + q 2 ^ 2 + q 3 ^ 2) / (2 * q 0)))) * (k0 * v 1 + k1 * v 2 + k2 * v 3)) / q 0
        - (q 4 + ((g-1) * (q 4 - (q 1 ^ 2 + q 2 ^ 2 + q 3 ^ 2) / (2 * q 0)))) * (k0 * q 1 + k1 * q 2 + k2 * q 3) * v 0 / q 0 ^ 2] := by
  funext i
  simp only [dFlux, contraMomentum, pressure, dPressure, Fin.sum_univ_three]
  fin_cases i <;> rfl

/-- The derivative is additive in the direction. -/
theorem dFlux_sum {n : ℕ} {ι : Type} (s : Finset ι) (g : ℝ) (k : Fin n → ℝ) (q : Fin (n+2) → ℝ)
    (v : ι → Fin (n+2) → ℝ) (hq : q 0 ≠ 0) :
    dFlux g k q (∑ j ∈ s, v j) = ∑ j ∈ s, dFlux g k q (v j) := by
  have hadd : ∀ v w : Fin (n+2) → ℝ, dFlux g k q (v + w) = dFlux g k q v + dFlux g k q w := by
    intro v w
    have hc : contraMomentum k (v + w) = contraMomentum k v + contraMomentum k w := by
      simp only [contraMomentum, Pi.add_apply, mul_add, Finset.sum_add_distrib]
    have hp : dPressure g q (v + w) = dPressure g q v + dPressure g q w := by
      simp only [dPressure, Pi.add_apply, mul_add, Finset.sum_add_distrib]
      field_simp
      ring
    funext i
    refine Fin.cases ?_ (fun i => ?_) i
    · simp only [dFlux, Fin.cons_zero, hc, Pi.add_apply]
    · refine Fin.lastCases ?_ (fun j => ?_) i
      · simp only [dFlux, Fin.cons_succ, Fin.snoc_last, hc, hp, Pi.add_apply]
        field_simp
        ring
      · simp only [dFlux, Fin.cons_succ, Fin.snoc_castSucc, hc, hp, Pi.add_apply]
        field_simp
        ring
  have hzero : dFlux g k q 0 = 0 := by
    have := hadd 0 0
    rw [add_zero] at this
    exact left_eq_add.1 this
  classical
  induction s using Finset.induction_on with
  | empty => simpa using hzero
  | insert a s ha ih => rw [Finset.sum_insert ha, Finset.sum_insert ha, hadd, ih]

theorem dFlux_smul {n : ℕ} (g c : ℝ) (k : Fin n → ℝ) (q v : Fin (n+2) → ℝ) (hq : q 0 ≠ 0) :
    dFlux g k q (c • v) = c • dFlux g k q v := by
  have hc : contraMomentum k (c • v) = c * contraMomentum k v := by
    simp only [contraMomentum, Pi.smul_apply, smul_eq_mul, Finset.mul_sum]
    exact Finset.sum_congr rfl fun i _ => by ring
  have hp : dPressure g q (c • v) = c * dPressure g q v := by
    have : ∑ i : Fin n, q i.succ.castSucc * (c * v i.succ.castSucc) =
        c * ∑ i : Fin n, q i.succ.castSucc * v i.succ.castSucc := by
      rw [Finset.mul_sum]; exact Finset.sum_congr rfl fun i _ => by ring
    simp only [dPressure, Pi.smul_apply, smul_eq_mul, this]
    field_simp
  funext i
  refine Fin.cases ?_ (fun i => ?_) i
  · simp only [dFlux, Fin.cons_zero, hc, Pi.smul_apply, smul_eq_mul]
  · refine Fin.lastCases ?_ (fun j => ?_) i
    · simp only [dFlux, Fin.cons_succ, Fin.snoc_last, hc, hp, Pi.smul_apply, smul_eq_mul]
      field_simp
    · simp only [dFlux, Fin.cons_succ, Fin.snoc_castSucc, hc, hp, Pi.smul_apply, smul_eq_mul]
      field_simp

end OpenSBLI.Euler
