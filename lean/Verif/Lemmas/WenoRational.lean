import Mathlib.Algebra.Polynomial.Lifts
import Mathlib.Algebra.Polynomial.Eval.Degree
import Mathlib.Analysis.SpecialFunctions.Integrals.Basic
import Verif.Model.WenoNonlinear
import Verif.Model.Teno

/-! # The numbers of the WENO and TENO schemes are rational: helper lemmas for C86 -/
namespace OpenSBLI.Weno
open Polynomial Finset

/-- The rational numbers, as a subfield. -/
noncomputable def rationals : Subfield ℝ := (Rat.castHom ℝ).fieldRange

/-- Membership of quotients of numerals. -/
macro "numerals" : tactic => `(tactic| repeat first | exact one_mem _ | exact zero_mem _ | exact ofNat_mem _ _ | refine div_mem ?_ ?_ | refine neg_mem ?_ | refine pow_mem ?_ _)

theorem mem_rationals {x : ℝ} : x ∈ rationals ↔ ∃ r : ℚ, (r : ℝ) = x := Iff.rfl

theorem integral_rational (q : ℝ[X]) (hq : q ∈ lifts (Rat.castHom ℝ)) {dz : ℝ} (hz : dz ∈ rationals) : (∫ z in (0:ℝ)..dz, q.eval z) ∈ rationals := by
  have hc : ∀ i, q.coeff i ∈ rationals := fun i => (lifts_iff_coeff_lifts q).1 hq i
  have : ∀ z, q.eval z = ∑ i ∈ range (q.natDegree + 1), q.coeff i * z ^ i := fun z => eval_eq_sum_range z
  simp only [this]
  rw [intervalIntegral.integral_finsetSum fun i _ => (Continuous.intervalIntegrable (by fun_prop) _ _)]
  refine sum_mem fun i _ => ?_
  rw [intervalIntegral.integral_const_mul, integral_pow]
  refine mul_mem (hc i) (div_mem (sub_mem (pow_mem hz _) ?_) (add_mem (natCast_mem _ _) (one_mem _)))
  exact pow_mem (zero_mem _) _

theorem candidatePoly_rational (k r : ℕ) {dz : ℝ} (hz : dz ∈ rationals) {nodes : ℕ → ℝ} (hn : ∀ i, nodes i ∈ rationals) : candidatePoly k r dz nodes ∈ lifts (Rat.castHom ℝ) := by
  have hC : ∀ x ∈ rationals, (C x : ℝ[X]) ∈ liftsRing (Rat.castHom ℝ) := fun x hx => by
    obtain ⟨q, rfl⟩ := mem_rationals.1 hx
    exact C_mem_lifts (Rat.castHom ℝ) q
  have hp : Lagrange.interpolate (range (k+1)) (fun i : ℕ => dz * ((i:ℝ) - r)) (fun i => ∑ j ∈ range i, dz * nodes j) ∈ liftsRing (Rat.castHom ℝ) := by
    have hx : ∀ i : ℕ, dz * ((i:ℝ) - r) ∈ rationals := fun i => mul_mem hz (sub_mem (natCast_mem _ _) (natCast_mem _ _))
    rw [Lagrange.interpolate_apply]
    refine sum_mem fun i _ => mul_mem (hC _ (sum_mem fun j _ => mul_mem hz (hn j))) (prod_mem fun j _ => ?_)
    unfold Lagrange.basisDivisor
    exact mul_mem (hC _ (inv_mem (sub_mem (hx i) (hx j)))) (sub_mem (X_mem_lifts (Rat.castHom ℝ)) (hC _ (hx j)))
  obtain ⟨q, hq⟩ := hp
  unfold candidatePoly
  rw [← hq]
  exact ⟨derivative q, by simp [derivative_map]⟩

theorem smoothTotal_rational (k r : ℕ) {dz : ℝ} (hz : dz ∈ rationals) {nodes : ℕ → ℝ} (hn : ∀ i, nodes i ∈ rationals) : smoothTotal k r dz nodes ∈ rationals := by
  refine sum_mem fun l _ => mul_mem (pow_mem hz _) ?_
  obtain ⟨q, hq⟩ := candidatePoly_rational k r hz hn
  have : ∀ z, ((derivative^[l]) (candidatePoly k r dz nodes)).eval z ^ 2 = ((derivative^[l]) (candidatePoly k r dz nodes) ^ 2).eval z := fun z => by rw [eval_pow]
  simp only [this]
  refine integral_rational _ ?_ hz
  rw [← hq]
  refine ⟨(derivative^[l] q) ^ 2, ?_⟩
  simp [iterate_derivative_map]

theorem quadCoeff_rational {q : (ℕ → ℝ) → ℝ} (hq : ∀ nodes : ℕ → ℝ, (∀ i, nodes i ∈ rationals) → q nodes ∈ rationals) (m n : ℕ) : quadCoeff q m n ∈ rationals := by
  have hu : ∀ m i, unitNode m i ∈ rationals := fun m i => by
    unfold unitNode
    split
    · exact one_mem _
    · exact zero_mem _
  unfold quadCoeff
  split
  · exact hq _ (hu m)
  · exact sub_mem (sub_mem (hq _ fun i => add_mem (hu m i) (hu n i)) (hq _ (hu m))) (hq _ (hu n))

theorem smoothCoeffs_rational (k r : ℕ) {dz : ℝ} (hz : dz ∈ rationals) : ∀ e ∈ smoothCoeffs k r dz, e.2 ∈ rationals := by
  suffices H : ∀ (l : List (ℕ × ℕ)) (s : ExtractState), s.c ∈ rationals → (∀ e ∈ s.coeffs, e.2 ∈ rationals) →
      ∀ e ∈ (l.foldl (extractStep (smoothTotal k r dz)) s).coeffs, e.2 ∈ rationals from H _ _ (zero_mem _) (by simp)
  intro l
  induction l with
  | nil => exact fun s _ h => h
  | cons p l ih =>
    intro s hs h
    have hc : (extractStep (smoothTotal k r dz) s p).c ∈ rationals := by
      unfold extractStep
      simp only
      split
      · exact hs
      · exact quadCoeff_rational (fun nodes hn => smoothTotal_rational k r hz hn) _ _
    refine ih _ hc fun e he => ?_
    have hcs : (extractStep (smoothTotal k r dz) s p).coeffs = if (extractStep (smoothTotal k r dz) s p).c ≠ 0 then s.coeffs ++ [(p, (extractStep (smoothTotal k r dz) s p).c)] else s.coeffs := rfl
    rw [hcs] at he
    split at he
    · rcases List.mem_append.1 he with he | he
      · exact h e he
      · rw [List.mem_singleton] at he
        subst he
        exact hc
    · exact h e he

theorem enoCoeff_rational (side : Side) (k r j : ℕ) : enoCoeff ℝ side k r j ∈ rationals :=
  sum_mem fun _ _ => div_mem (sum_mem fun _ _ => prod_mem fun _ _ => intCast_mem _ _) (prod_mem fun _ _ => intCast_mem _ _)

theorem tenoCoeffs_rational (side : Side) (r : ℕ) : ∀ c ∈ (Teno.coeffs side r : List ℝ), c ∈ rationals := by
  intro c hc
  unfold Teno.coeffs at hc
  split at hc <;> simp only [List.mem_cons, List.not_mem_nil, or_false] at hc
  all_goals rcases hc with rfl | rfl | rfl | rfl <;> numerals

theorem tenoOpt_rational (o : Teno.Order) (r : ℕ) : (Teno.opt o r : ℝ) ∈ rationals := by
  unfold Teno.opt
  split <;> numerals

end OpenSBLI.Weno
