import Mathlib.Tactic.Ring
import Mathlib.Tactic.Linarith
import Mathlib.Tactic.NormNum
import Mathlib.Tactic.FieldSimp
import Mathlib.Tactic.LinearCombination
import Mathlib.Tactic.Module
import Mathlib.Tactic.FinCases
import Mathlib.Algebra.Module.LinearMap.Basic
import Mathlib.LinearAlgebra.Prod
import Mathlib.Algebra.CharZero.Defs
import Mathlib.Algebra.Order.Ring.Abs
import Verif.Model.RungeKutta
import Verif.Spec.RungeKutta

/-!
# C03, C04, C05 — Runge-Kutta time integration
-/
namespace OpenSBLI.RK
open Spec

set_option linter.unusedSectionVars false

variable {K : Type} [Field K] [CharZero K] {V : Type} [AddCommGroup V] [Module K V]

/-- Tableau realised by the default scheme. -/
def tab3 : Tableau K 3 where
  A := ![![0, 0, 0], ![2/3, 0, 0], ![1/4, 5/12, 0]]
  b := ![1/4, 3/20, 3/5]

theorem tab3_order : (tab3 : Tableau K 3).Order3 := by
  have c0 : (tab3 : Tableau K 3).c 0 = 0 := by
    rw [Tableau.c, Fin.sum_univ_three]; change (0:K) + 0 + 0 = 0; norm_num
  have c1 : (tab3 : Tableau K 3).c 1 = 2/3 := by
    rw [Tableau.c, Fin.sum_univ_three]; change (2/3:K) + 0 + 0 = 2/3; norm_num
  have c2 : (tab3 : Tableau K 3).c 2 = 2/3 := by
    rw [Tableau.c, Fin.sum_univ_three]; change (1/4:K) + 5/12 + 0 = 2/3; norm_num
  refine ⟨?_, ?_, ?_, ?_⟩
  · rw [Tableau.t1, Fin.sum_univ_three]
    change (1/4 : K) + 3/20 + 3/5 - 1 = 0; norm_num
  · rw [Tableau.t2, Fin.sum_univ_three, c0, c1, c2]
    change (1/4 : K)*0 + 3/20*(2/3) + 3/5*(2/3) - 1/2 = 0; norm_num
  · rw [Tableau.t31, Fin.sum_univ_three, c0, c1, c2]
    change (1/4 : K)*0^2 + 3/20*(2/3)^2 + 3/5*(2/3)^2 - 1/3 = 0; norm_num
  · simp only [Tableau.t32, Fin.sum_univ_three, Tableau.Ac, c0, c1, c2]
    change (1/4 : K)*(0*0+0*(2/3)+0*(2/3)) + 3/20*(2/3*0+0*(2/3)+0*(2/3))
      + 3/5*(1/4*0+5/12*(2/3)+0*(2/3)) - 1/6 = 0
    norm_num

/-- **C03.** One time step of the default scheme is one step of an explicit three-stage Runge-Kutta
method satisfying every order condition up to order three, for every residual function `F`, every
boundary treatment `bc` that is stable on the current state, every time step and every initial
contents of the work arrays. -/
theorem C03_step_is_third_order_RK :
    ∃ T : Tableau K 3, T.explicit ∧ T.Order3 ∧
      ∀ (F bc : V → V) (dt : K) (s : State V), bc (bc s.new) = bc s.new →
        ∃ k, T.IsSlopes F bc dt (bc s.new) k ∧
          (step F bc dt s).new = T.result bc dt (bc s.new) k := by
  refine ⟨tab3, ?_, ?_, ?_⟩
  · intro i j hij
    fin_cases i <;> fin_cases j <;> first | rfl | exact absurd hij (by decide)
  · exact tab3_order
  · intro F bc dt s hbc
    set u := bc s.new with hu
    set k0 := F u
    set k1 := F (bc (u + (dt * (2/3)) • k0))
    set k2 := F (bc (u + (dt * (1/4)) • k0 + (dt * (5/12)) • k1))
    refine ⟨![k0, k1, k2], ?_, ?_⟩
    · intro i
      fin_cases i
      · simp [Fin.sum_univ_three, tab3, hbc, k0]
      · simp only [tab3, Fin.sum_univ_three]
        simp [k1, smul_smul, hu]
      · simp only [tab3, Fin.sum_univ_three]
        simp only [Fin.reduceFinMk, Matrix.cons_val]
        have : u + dt • ((1/4 : K) • k0 + (5/12 : K) • k1 + (0:K) • k2) =
          u + (dt * (1/4)) • k0 + (dt * (5/12)) • k1 := by module
        rw [this]
    · simp only [step, rkold, rknew, List.zip_cons_cons, List.zip_nil_right, List.foldl, stage,
        boundary, solutionUpdate, stageUpdate, spatial, save, Tableau.result, tab3,
        Fin.sum_univ_three, Matrix.cons_val]
      congr 1
      module

/-- **C03 (linear problems).** For a linear residual `L` the amplification operator of a step is
exactly `1 + z + z²/2 + z³/6`, `z = dt L`. -/
theorem C03_linear_amplification (L : V →ₗ[K] V) (dt : K) (s : State V) :
    (step L id dt s).new = s.new + dt • L s.new + (dt^2/2) • L (L s.new)
      + (dt^3/6) • L (L (L s.new)) := by
  simp only [step, rkold, rknew, List.zip_cons_cons, List.zip_nil_right, List.foldl, stage,
    boundary, solutionUpdate, stageUpdate, spatial, save, id, map_add, map_smul]
  module

/-- **C04.** After a step the working array and the saved array agree (before the boundary kernels
are applied to the working array): no information is left in the saved array only. -/
theorem C04_registers_agree (F : V → V) (dt : K) (s : State V) (bc : V → V) :
    (step F bc dt s).new = bc (step F bc dt s).old := by
  simp only [step, rkold, rknew, List.zip_cons_cons, List.zip_nil_right, List.foldl, stage,
    boundary, solutionUpdate, stageUpdate, spatial, save]

theorem run_succ' (F bc : V → V) (dt : K) (n : Nat) (s : State V) :
    run F bc dt (n+1) s = step F bc dt (run F bc dt n s) := by
  induction n generalizing s with
  | zero => rfl
  | succ n ih => rw [run, ih]; rfl

theorem step_new_indep (F bc : V → V) (dt : K) (s t : State V) (h : s.new = t.new) :
    (step F bc dt s).new = (step F bc dt t).new := by
  simp only [step, rkold, rknew, List.zip_cons_cons, List.zip_nil_right, List.foldl, stage,
    boundary, solutionUpdate, stageUpdate, spatial, save, h]

/-- **C04.** The solution after any number of steps does not depend on the initial contents of the
work arrays. -/
theorem C04_stale_work_arrays_irrelevant (F bc : V → V) (dt : K) (n : Nat) (s t : State V)
    (h : s.new = t.new) : (run F bc dt n s).new = (run F bc dt n t).new := by
  induction n with
  | zero => exact h
  | succ n ih => rw [run_succ', run_succ']; exact step_new_indep F bc dt _ _ ih

/-- **C04.** A steady state compatible with the boundary conditions is preserved for ever. -/
theorem C04_steady_state_preserved (F bc : V → V) (dt : K) (n : Nat) (s : State V)
    (hF : F s.new = 0) (hbc : bc s.new = s.new) : (run F bc dt n s).new = s.new := by
  induction n with
  | zero => rfl
  | succ n ih =>
    rw [run_succ']
    rw [step_new_indep F bc dt _ s ih]
    simp [step, rkold, rknew, stage, boundary, solutionUpdate, stageUpdate, spatial, save, hbc, hF]

/-- **C04 / C14.** Every linear functional annihilated by the residual is conserved for ever (with
boundary treatment that does not change it). -/
theorem C04_linear_invariants (F bc : V → V) (dt : K) (ℓ : V →ₗ[K] K) (hF : ∀ v, ℓ (F v) = 0)
    (hbc : ∀ v, ℓ (bc v) = ℓ v) (n : Nat) (s : State V) :
    ℓ (run F bc dt n s).new = ℓ s.new := by
  induction n with
  | zero => rfl
  | succ n ih =>
    rw [run_succ', ← ih]
    simp [step, rkold, rknew, stage, boundary, solutionUpdate, stageUpdate, spatial, save, hbc, hF]

/-! ### Low storage scheme -/

/-- Tableau realised by the three-stage low storage scheme with coefficients `A = (0,a2,a3)`,
`B = (b1,b2,b3)` (Williamson form). -/
def lsTab3 (a2 a3 b1 b2 b3 : K) : Tableau K 3 where
  A := ![![0, 0, 0], ![b1, 0, 0], ![b1 + b2*a2, b2, 0]]
  b := ![b1 + b2*a2 + b3*(a3*a2), b2 + b3*a3, b3]

theorem lsTab3_explicit (a2 a3 b1 b2 b3 : K) : (lsTab3 a2 a3 b1 b2 b3).explicit := by
  intro i j hij
  fin_cases i <;> fin_cases j <;> first | rfl | exact absurd hij (by decide)

/-- A three-stage low storage step is a step of the Williamson tableau. -/
theorem lsStep3_is_RK (a2 a3 b1 b2 b3 : K) (F : V → V) (dt : K) (s : LSState V) :
    ∃ k, (lsTab3 a2 a3 b1 b2 b3).IsSlopes F id dt s.u k ∧
      (lsStep [0, a2, a3] [b1, b2, b3] F id dt s).u =
        (lsTab3 a2 a3 b1 b2 b3).result id dt s.u k := by
  obtain ⟨u, tmp, res⟩ := s
  obtain ⟨k0, hk0⟩ : ∃ x, x = F u := ⟨_, rfl⟩
  obtain ⟨k1, hk1⟩ : ∃ x, x = F (u + (dt * b1) • k0) := ⟨_, rfl⟩
  obtain ⟨k2, hk2⟩ : ∃ x, x = F (u + (dt * (b1 + b2*a2)) • k0 + (dt * b2) • k1) := ⟨_, rfl⟩
  have e1 : u + b1 • ((0:K) • tmp + dt • k0) = u + (dt * b1) • k0 := by module
  have e2 : u + (dt * b1) • k0 + b2 • (a2 • ((0:K) • tmp + dt • k0) + dt • k1) =
      u + (dt * (b1 + b2*a2)) • k0 + (dt * b2) • k1 := by module
  refine ⟨![k0, k1, k2], ?_, ?_⟩
  · intro i
    fin_cases i
    · rw [Fin.sum_univ_three]
      change k0 = F (u + dt • ((0:K) • k0 + (0:K) • k1 + (0:K) • k2))
      rw [hk0]; congr 1; module
    · rw [Fin.sum_univ_three]
      change k1 = F (u + dt • (b1 • k0 + (0:K) • k1 + (0:K) • k2))
      rw [hk1]; congr 1; module
    · rw [Fin.sum_univ_three]
      change k2 = F (u + dt • ((b1 + b2*a2) • k0 + b2 • k1 + (0:K) • k2))
      rw [hk2]; congr 1; module
  · simp only [lsStep, List.zip_cons_cons, List.zip_nil_right, List.foldl, lsStage, lsBoundary,
      lsSol, lsTemp, lsSpatial, id, Tableau.result]
    rw [← hk0, e1, ← hk1, e2, ← hk2, Fin.sum_univ_three]
    change _ = u + dt • ((b1 + b2*a2 + b3*(a3*a2)) • k0 + (b2 + b3*a3) • k1 + b3 • k2)
    module

theorem lsTab3_order (a2 a3 b1 b2 b3 : K)
    (h1 : b1 + b2*a2 + b3*(a3*a2) + (b2 + b3*a3) + b3 = 1)
    (h2 : (b2 + b3*a3) * b1 + b3 * (b1 + b2*a2 + b2) = 1/2)
    (h3 : (b2 + b3*a3) * b1^2 + b3 * (b1 + b2*a2 + b2)^2 = 1/3)
    (h4 : b3 * (b2 * b1) = 1/6) : (lsTab3 a2 a3 b1 b2 b3).Order3 := by
  have c0 : (lsTab3 a2 a3 b1 b2 b3).c 0 = 0 := by
    rw [Tableau.c, Fin.sum_univ_three]; change (0:K) + 0 + 0 = 0; norm_num
  have c1 : (lsTab3 a2 a3 b1 b2 b3).c 1 = b1 := by
    rw [Tableau.c, Fin.sum_univ_three]; change b1 + 0 + 0 = b1; ring
  have c2 : (lsTab3 a2 a3 b1 b2 b3).c 2 = b1 + b2*a2 + b2 := by
    rw [Tableau.c, Fin.sum_univ_three]; change b1 + b2*a2 + b2 + 0 = _; ring
  refine ⟨?_, ?_, ?_, ?_⟩
  · rw [Tableau.t1, Fin.sum_univ_three]
    change b1 + b2*a2 + b3*(a3*a2) + (b2 + b3*a3) + b3 - 1 = 0
    linear_combination h1
  · rw [Tableau.t2, Fin.sum_univ_three, c0, c1, c2]
    change (b1 + b2*a2 + b3*(a3*a2)) * 0 + (b2 + b3*a3) * b1 + b3 * (b1 + b2*a2 + b2) - 1/2 = 0
    linear_combination h2
  · rw [Tableau.t31, Fin.sum_univ_three, c0, c1, c2]
    change (b1 + b2*a2 + b3*(a3*a2)) * 0^2 + (b2 + b3*a3) * b1^2
      + b3 * (b1 + b2*a2 + b2)^2 - 1/3 = 0
    linear_combination h3
  · simp only [Tableau.t32, Fin.sum_univ_three, Tableau.Ac, c0, c1, c2]
    change (b1 + b2*a2 + b3*(a3*a2)) * (0*0 + 0*b1 + 0*(b1 + b2*a2 + b2))
      + (b2 + b3*a3) * (b1*0 + 0*b1 + 0*(b1 + b2*a2 + b2))
      + b3 * ((b1 + b2*a2)*0 + b2*b1 + 0*(b1 + b2*a2 + b2)) - 1/6 = 0
    linear_combination h4

/-- **C05.** A step of the order-3 low storage scheme is a step of an explicit third-order
Runge-Kutta method, whatever the increment register contained before. -/
theorem C05_order3_is_third_order_RK :
    ∃ T : Tableau K 3, T.explicit ∧ T.Order3 ∧
      ∀ (F : V → V) (dt : K) (s : LSState V),
        ∃ k, T.IsSlopes F id dt s.u k ∧
          (lsStep lsA3 lsB3 F id dt s).u = T.result id dt s.u k := by
  refine ⟨lsTab3 (-5/9) (-153/128) (1/3) (15/16) (8/15), lsTab3_explicit _ _ _ _ _, ?_, ?_⟩
  · apply lsTab3_order <;> norm_num
  · intro F dt s
    exact lsStep3_is_RK _ _ _ _ _ F dt s

/-- Tableau of the five-stage scheme. -/
def lsTab5 (a2 a3 a4 a5 b1 b2 b3 b4 b5 : K) : Tableau K 5 where
  A := ![![0, 0, 0, 0, 0],
    ![b1, 0, 0, 0, 0],
    ![b1 + b2*a2, b2, 0, 0, 0],
    ![b1 + b2*a2 + b3*a3*a2, b2 + b3*a3, b3, 0, 0],
    ![b1 + b2*a2 + b3*a3*a2 + b4*a4*a3*a2, b2 + b3*a3 + b4*a4*a3, b3 + b4*a4, b4, 0]]
  b := ![b1 + b2*a2 + b3*a3*a2 + b4*a4*a3*a2 + b5*a5*a4*a3*a2,
    b2 + b3*a3 + b4*a4*a3 + b5*a5*a4*a3, b3 + b4*a4 + b5*a5*a4, b4 + b5*a5, b5]

theorem lsTab5_explicit (a2 a3 a4 a5 b1 b2 b3 b4 b5 : K) :
    (lsTab5 a2 a3 a4 a5 b1 b2 b3 b4 b5).explicit := by
  intro i j hij
  fin_cases i <;> fin_cases j <;> first | rfl | exact absurd hij (by decide)

theorem lsStep5_is_RK (a2 a3 a4 a5 b1 b2 b3 b4 b5 : K) (F : V → V) (dt : K) (s : LSState V) :
    ∃ k, (lsTab5 a2 a3 a4 a5 b1 b2 b3 b4 b5).IsSlopes F id dt s.u k ∧
      (lsStep [0, a2, a3, a4, a5] [b1, b2, b3, b4, b5] F id dt s).u =
        (lsTab5 a2 a3 a4 a5 b1 b2 b3 b4 b5).result id dt s.u k := by
  obtain ⟨u, tmp, res⟩ := s
  obtain ⟨k0, hk0⟩ : ∃ x, x = F u := ⟨_, rfl⟩
  obtain ⟨u1, hu1⟩ : ∃ x, x = u + b1 • ((0:K) • tmp + dt • k0) := ⟨_, rfl⟩
  obtain ⟨t1, ht1⟩ : ∃ x, x = ((0:K) • tmp + dt • k0) := ⟨_, rfl⟩
  obtain ⟨k1, hk1⟩ : ∃ x, x = F u1 := ⟨_, rfl⟩
  obtain ⟨t2, ht2⟩ : ∃ x, x = (a2 • t1 + dt • k1) := ⟨_, rfl⟩
  obtain ⟨u2, hu2⟩ : ∃ x, x = u1 + b2 • t2 := ⟨_, rfl⟩
  obtain ⟨k2, hk2⟩ : ∃ x, x = F u2 := ⟨_, rfl⟩
  obtain ⟨t3, ht3⟩ : ∃ x, x = (a3 • t2 + dt • k2) := ⟨_, rfl⟩
  obtain ⟨u3, hu3⟩ : ∃ x, x = u2 + b3 • t3 := ⟨_, rfl⟩
  obtain ⟨k3, hk3⟩ : ∃ x, x = F u3 := ⟨_, rfl⟩
  obtain ⟨t4, ht4⟩ : ∃ x, x = (a4 • t3 + dt • k3) := ⟨_, rfl⟩
  obtain ⟨u4, hu4⟩ : ∃ x, x = u3 + b4 • t4 := ⟨_, rfl⟩
  obtain ⟨k4, hk4⟩ : ∃ x, x = F u4 := ⟨_, rfl⟩
  rw [← ht1] at hu1
  refine ⟨![k0, k1, k2, k3, k4], ?_, ?_⟩
  · intro i
    fin_cases i
    · rw [Fin.sum_univ_five]
      change k0 = F (u + dt • ((0:K) • k0 + (0:K) • k1 + (0:K) • k2 + (0:K) • k3 + (0:K) • k4))
      rw [hk0]; congr 1; module
    · rw [Fin.sum_univ_five]
      change k1 = F (u + dt • (b1 • k0 + (0:K) • k1 + (0:K) • k2 + (0:K) • k3 + (0:K) • k4))
      rw [hk1]; congr 1; rw [hu1, ht1]; module
    · rw [Fin.sum_univ_five]
      change k2 = F (u + dt • ((b1 + b2*a2) • k0 + b2 • k1 + (0:K) • k2 + (0:K) • k3 + (0:K) • k4))
      rw [hk2]; congr 1; rw [hu2, ht2, hu1, ht1]; module
    · rw [Fin.sum_univ_five]
      change k3 = F (u + dt • ((b1 + b2*a2 + b3*a3*a2) • k0 + (b2 + b3*a3) • k1 + b3 • k2
        + (0:K) • k3 + (0:K) • k4))
      rw [hk3]; congr 1; rw [hu3, ht3, hu2, ht2, hu1, ht1]; module
    · rw [Fin.sum_univ_five]
      change k4 = F (u + dt • ((b1 + b2*a2 + b3*a3*a2 + b4*a4*a3*a2) • k0
        + (b2 + b3*a3 + b4*a4*a3) • k1 + (b3 + b4*a4) • k2 + b4 • k3 + (0:K) • k4))
      rw [hk4]; congr 1; rw [hu4, ht4, hu3, ht3, hu2, ht2, hu1, ht1]; module
  · simp only [lsStep, List.zip_cons_cons, List.zip_nil_right, List.foldl, lsStage, lsBoundary,
      lsSol, lsTemp, lsSpatial, id, Tableau.result]
    rw [← hk0, ← ht1, ← hu1, ← hk1, ← ht2, ← hu2, ← hk2, ← ht3, ← hu3, ← hk3, ← ht4, ← hu4, ← hk4,
      Fin.sum_univ_five]
    change _ = u + dt • ((b1 + b2*a2 + b3*a3*a2 + b4*a4*a3*a2 + b5*a5*a4*a3*a2) • k0
      + (b2 + b3*a3 + b4*a4*a3 + b5*a5*a4*a3) • k1 + (b3 + b4*a4 + b5*a5*a4) • k2
      + (b4 + b5*a5) • k3 + b5 • k4)
    rw [hu4, ht4, hu3, ht3, hu2, ht2, hu1, ht1]; module

/-- The five-stage tableau with the decimals of the source. -/
def tabLS4 : Tableau ℚ 5 :=
  lsTab5 (-4178904745/10^10) (-1192151694643/10^12) (-1697784692471/10^12) (-1514183444257/10^12)
    (1496590219993/10^13) (3792103129999/10^13) (8229550293869/10^13) (6994504559488/10^13)
    (1530572479681/10^13)

/-- **C05.** A step of the order-4 low storage scheme is a step of an explicit five-stage method
which satisfies all eight order-4 conditions up to a defect of at most 10⁻¹³ (the coefficients in
the source are rounded to 12-13 digits). -/
theorem C05_order4_is_fourth_order_RK {V : Type} [AddCommGroup V] [Module ℚ V] :
    ∃ T : Tableau ℚ 5, T.explicit ∧
      (|T.t1| ≤ 1/10^13 ∧ |T.t2| ≤ 1/10^13 ∧ |T.t31| ≤ 1/10^13 ∧ |T.t32| ≤ 1/10^13 ∧
        |T.t41| ≤ 1/10^13 ∧ |T.t42| ≤ 1/10^13 ∧ |T.t43| ≤ 1/10^13 ∧ |T.t44| ≤ 1/10^13) ∧
      ∀ (F : V → V) (dt : ℚ) (s : LSState V),
        ∃ k, T.IsSlopes F id dt s.u k ∧
          (lsStep lsA4 lsB4 F id dt s).u = T.result id dt s.u k := by
  refine ⟨tabLS4, lsTab5_explicit _ _ _ _ _ _ _ _ _, by decide +kernel, ?_⟩
  intro F dt s
  exact lsStep5_is_RK _ _ _ _ _ _ _ _ _ F dt s

/-- The order-4 coefficients as printed do not satisfy the conditions exactly. -/
theorem C05_order4_not_exact : tabLS4.t1 ≠ 0 := by decide +kernel

theorem lsFold_indep (F bc : V → V) (dt : K) (l : List (K × K)) (s t : LSState V)
    (hu : s.u = t.u) (ht : s.tmp = t.tmp) :
    (l.foldl (fun s c => lsStage F bc dt c s) s).u = (l.foldl (fun s c => lsStage F bc dt c s) t).u
    ∧ (l.foldl (fun s c => lsStage F bc dt c s) s).tmp =
      (l.foldl (fun s c => lsStage F bc dt c s) t).tmp := by
  induction l generalizing s t with
  | nil => exact ⟨hu, ht⟩
  | cons c l ih =>
    simp only [List.foldl_cons]
    apply ih <;> simp [lsStage, lsBoundary, lsSol, lsTemp, lsSpatial, hu, ht]

theorem lsStep_u_indep (A B : List K) (F bc : V → V) (dt : K)
    (hB : B ≠ []) (s t : LSState V) (hu : s.u = t.u) :
    (lsStep (0 :: A) B F bc dt s).u = (lsStep (0 :: A) B F bc dt t).u := by
  obtain ⟨b, B, rfl⟩ : ∃ b B', B = b :: B' := by
    cases B with
    | nil => exact absurd rfl hB
    | cons b B => exact ⟨b, B, rfl⟩
  simp only [lsStep, List.zip_cons_cons, List.foldl_cons]
  refine (lsFold_indep F bc dt _ _ _ ?_ ?_).1 <;>
    simp [lsStage, lsBoundary, lsSol, lsTemp, lsSpatial, hu]

theorem lsRun_succ' (A B : List K) (F bc : V → V) (dt : K) (n : Nat) (s : LSState V) :
    lsRun A B F bc dt (n+1) s = lsStep A B F bc dt (lsRun A B F bc dt n s) := by
  induction n generalizing s with
  | zero => rfl
  | succ n ih => rw [lsRun, ih]; rfl

/-- **C05.** For every low storage scheme whose first `A` coefficient is zero (all three variants
of the code, see `C05_first_coefficient_zero`) the solution after any number of steps does not
depend on the initial contents of the increment and residual registers. -/
theorem C05_stale_register_irrelevant (A B : List K) (F bc : V → V) (dt : K)
    (hB : B ≠ []) (n : Nat) (s t : LSState V) (hu : s.u = t.u) :
    (lsRun (0 :: A) B F bc dt n s).u = (lsRun (0 :: A) B F bc dt n t).u := by
  induction n with
  | zero => exact hu
  | succ n ih => rw [lsRun_succ', lsRun_succ']; exact lsStep_u_indep A B F bc dt hB _ _ ih

theorem C05_first_coefficient_zero :
    (∃ A, (lsA3 : List K) = 0 :: A) ∧ (∃ A, lsA4 = 0 :: A) ∧ (∃ A, sspA = 0 :: A) :=
  ⟨⟨_, rfl⟩, ⟨_, rfl⟩, ⟨_, rfl⟩⟩

theorem lsFold_steady (F bc : V → V) (dt : K) (l : List (K × K)) (s : LSState V)
    (hF : F s.u = 0) (hbc : bc s.u = s.u) (ht : s.tmp = 0) :
    (l.foldl (fun s c => lsStage F bc dt c s) s).u = s.u := by
  induction l generalizing s with
  | nil => rfl
  | cons c l ih =>
    have hu : (lsStage F bc dt c s).u = s.u := by
      simp [lsStage, lsBoundary, lsSol, lsTemp, lsSpatial, hF, ht, hbc]
    rw [List.foldl_cons, ih, hu]
    · rw [hu, hF]
    · rw [hu, hbc]
    · simp [lsStage, lsBoundary, lsSol, lsTemp, lsSpatial, hF, ht]

/-- **C05.** Steady states are preserved for ever, whatever the increment register contains. -/
theorem C05_steady_state_preserved (A B : List K) (F bc : V → V) (dt : K) (n : Nat)
    (s : LSState V) (hF : F s.u = 0) (hbc : bc s.u = s.u) :
    (lsRun (0 :: A) B F bc dt n s).u = s.u := by
  induction n with
  | zero => rfl
  | succ n ih =>
    rw [lsRun_succ']
    cases B with
    | nil => simp [lsStep, lsBoundary, ih, hbc]
    | cons b B =>
      rw [lsStep_u_indep A (b :: B) F bc dt (by simp) _ s ih]
      simp only [lsStep, List.zip_cons_cons, List.foldl_cons]
      have hu : (lsStage F bc dt (0, b) (lsBoundary bc s)).u = s.u := by
        simp [lsStage, lsBoundary, lsSol, lsTemp, lsSpatial, hF, hbc]
      rw [lsFold_steady, hu]
      · rw [hu, hF]
      · rw [hu, hbc]
      · simp [lsStage, lsBoundary, lsSol, lsTemp, lsSpatial, hF, hbc]

/-- **C05 / C14.** Linear invariants of the residual are conserved by the low storage schemes. -/
theorem C05_linear_invariants (A B : List K) (F bc : V → V) (dt : K) (ℓ : V →ₗ[K] K)
    (hF : ∀ v, ℓ (F v) = 0) (hbc : ∀ v, ℓ (bc v) = ℓ v) (n : Nat) (s : LSState V) :
    ℓ (lsRun (0 :: A) B F bc dt n s).u = ℓ s.u := by
  have key : ∀ (l : List (K × K)) (s : LSState V), ℓ s.tmp = 0 →
      ℓ (l.foldl (fun s c => lsStage F bc dt c s) s).u = ℓ s.u := by
    intro l
    induction l with
    | nil => intro s _; rfl
    | cons c l ih =>
      intro s hs
      rw [List.foldl_cons, ih]
      · simp [lsStage, lsBoundary, lsSol, lsTemp, lsSpatial, hF, hbc, hs]
      · simp [lsStage, lsBoundary, lsSol, lsTemp, lsSpatial, hF, hs]
  induction n with
  | zero => rfl
  | succ n ih =>
    rw [lsRun_succ', ← ih]
    cases B with
    | nil => simp [lsStep, lsBoundary, hbc]
    | cons b B =>
      simp only [lsStep, List.zip_cons_cons, List.foldl_cons]
      rw [key]
      · simp [lsStage, lsBoundary, lsSol, lsTemp, lsSpatial, hF, hbc]
      · simp [lsStage, lsBoundary, lsSol, lsTemp, lsSpatial, hF]

/-! ### Non-vacuity -/

/-- A nonlinear scalar problem `u' = u²` from `u = 1` with `dt = 1/10`, garbage in the registers. -/
example : (step (fun u : ℚ => u^2) id (1/10 : ℚ) ⟨1, 77, -5⟩).new ≠ 1 := by decide +kernel

/-- The exact solution `1/(1-t)` is matched to third order: the error is below `2·10⁻⁴`. -/
example : |(step (fun u : ℚ => u^2) id (1/10 : ℚ) ⟨1, 77, -5⟩).new - 10/9| < 2/10^4 := by
  decide +kernel

example : |(lsStep lsA3 lsB3 (fun u : ℚ => u^2) id (1/10 : ℚ) ⟨1, 77, -5⟩).u - 10/9| < 2/10^4 := by
  decide +kernel

example : |(lsStep lsA4 lsB4 (fun u : ℚ => u^2) id (1/10 : ℚ) ⟨1, 77, -5⟩).u - 10/9| < 2/10^5 := by
  decide +kernel

/-- A nontrivial steady state: `u' = u² - u` at `u = 1`. -/
example : (fun u : ℚ => u^2 - u) 1 = 0 ∧ (fun u : ℚ => u^2 - u) 2 ≠ 0 := by decide +kernel

/-- A nontrivial linear invariant: `ℓ (x,y) = x + y` for the rotation-like residual `(y², -y²)`. -/
example : ∀ v : ℚ × ℚ, (LinearMap.fst ℚ ℚ ℚ + LinearMap.snd ℚ ℚ ℚ) (v.2^2, -v.2^2) = 0 := by
  intro v; simp

end OpenSBLI.RK
