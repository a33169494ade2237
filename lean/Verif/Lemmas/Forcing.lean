import Verif.Lemmas.Isothermal
import Verif.Model.BoundaryMore

/-!
# The halo part of the forcing strip computes the same store as the isothermal wall
-/
namespace OpenSBLI.Bc
open Expr

variable {d : ℕ}

/-- The halo part of the forcing strip kernel ends in the store `isoFinal`. -/
theorem forcing_staged (γ M Tw : ℝ) (s : Side) (n : ℕ) (st : Cell d → ℝ) :
    Staged (isoFinal γ M Tw s n st) {c | st c = isoFinal γ M Tw s n st c}
      (forcingHaloPart d γ M Tw s n) := by
  set F := isoFinal γ M Tw s n st with hF
  set S₀ : Set (Cell d) := {c | st c = F c} with hS₀
  have in0 : ∀ v (t : ℕ), Cell.data v (s.toF * (t : ℤ)) ∈ S₀ :=
    fun v t => (isoFinal_inside γ M Tw s n st v t).symm
  have inW : ∀ v, Cell.data v (0 : ℤ) ∈ S₀ := fun v => (isoFinal_wall γ M Tw s n st v).symm
  have inT : ∀ v, Cell.data v s.toF ∈ S₀ := fun v => by simpa using in0 v 1
  have consW : ∀ c ∈ consCells d 0, c ∈ S₀ := by
    rintro c (rfl | rfl | ⟨i, rfl⟩) <;> exact inW _
  have consT : ∀ c ∈ consCells d s.toF, c ∈ S₀ := by
    rintro c (rfl | rfl | ⟨i, rfl⟩) <;> exact inT _
  have Fin' : ∀ v (t : ℕ), F (.data v (s.toF * (t : ℤ))) = st (.data v (s.toF * (t : ℤ))) :=
    fun v t => isoFinal_inside γ M Tw s n st v t
  have FW : ∀ v, F (.data v 0) = st (.data v 0) := fun v => isoFinal_wall γ M Tw s n st v
  have FT : ∀ v, F (.data v s.toF) = st (.data v s.toF) := fun v => by simpa using Fin' v 1
  have Ft : ∀ i : ℕ, 1 ≤ i → i ≤ n → F (.loc (.t i)) = isoT γ M Tw s st i := by
    intro i h1 h2; simp only [hF, isoFinal]; rw [if_pos ⟨h1, h2⟩]
  have Fr : ∀ i : ℕ, 1 ≤ i → i ≤ n → F (.loc (.rhoHalo i)) = isoRho γ M Tw s st i := by
    intro i h1 h2; simp only [hF, isoFinal]; rw [if_pos ⟨h1, h2⟩]
  have Fu : ∀ (j : Fin d) (t : ℕ), 1 ≤ t → t ≤ n → F (.loc (.u j.1 t)) = uAt st (s.toF * (t : ℤ)) j := by
    intro j t h1 h2; simp only [hF, isoFinal]; rw [dif_pos ⟨j.2, h1, h2⟩]
  have cond : ∀ i : ℕ, 1 ≤ i → i ≤ n → (1 ≤ s.fromF * (s.fromF * (i : ℤ)) ∧ s.fromF * (s.fromF * (i : ℤ)) ≤ n) := by
    intro i h1 h2; rw [from_from]; omega
  have tn : ∀ i : ℕ, (s.fromF * (s.fromF * (i : ℤ))).toNat = i := by intro i; rw [from_from]; simp
  unfold forcingHaloPart
  refine Staged.append (Staged.append (Staged.append (Staged.append (Staged.append (Staged.append
    ?_ ?_) ?_) ?_) ?_) ?_) ?_
  · refine Staged.parallel ?_
    intro a ha
    simp only [List.mem_singleton] at ha
    subst ha
    constructor
    · intro c hc; exact consW c (mem_cells_shift (fun c hc => mem_cells_pressure hc) hc)
    · show ((pressure d γ).shift 0).eval F = F (.loc .pwall)
      rw [eval_pressure_shift]; simp only [FW]; rfl
  · refine Staged.parallel ?_
    intro a ha
    simp only [isothermalVelocities, List.mem_flatMap, List.mem_map, List.mem_finRange, true_and,
      List.mem_range'_1] at ha
    obtain ⟨i, t, ht, rfl⟩ := ha
    constructor
    · intro c hc
      simp only [cells_div, cells_dat, List.mem_append, List.mem_singleton] at hc
      rcases hc with rfl | rfl <;> exact Or.inl (in0 _ t)
    · simp only [eval_div, eval_dat, Fin']
      simp only [hF, isoFinal]
      rw [dif_pos ⟨i.2, by omega, by omega⟩]; rfl
  · refine Staged.parallel ?_
    intro a ha
    simp only [List.mem_singleton] at ha
    subst ha
    constructor
    · intro c hc; exact Or.inl (consT c (mem_cells_shift (fun c hc => mem_cells_temperature hc) hc))
    · show ((temperature d γ M).shift s.toF).eval F = F (.loc .tAbove)
      rw [eval_temperature_shift]; simp only [FT]; rfl
  · -- halo temperatures
    refine Staged.parallel ?_
    intro a ha
    simp only [List.mem_map, List.mem_range'_1] at ha
    obtain ⟨i, hi, rfl⟩ := ha
    constructor
    · intro c hc
      simp only [cells_sub, cells_mul, cells_num, cells_lv, List.nil_append, List.mem_singleton] at hc
      subst hc
      exact Or.inr ⟨⟨.loc .tAbove, (temperature d γ M).shift s.toF⟩, by simp, rfl⟩
    · simp only [eval_sub, eval_mul, eval_num, eval_lv, Ft i (by omega) (by omega)]; rfl
  · -- densities
    apply staged_range'
    intro j hj1 hji
    refine ⟨?_, ?_, ?_, ?_, trivial⟩
    · intro c hc
      simp only [cells_div, cells_mul, cells_num, cells_lv, List.append_nil, List.mem_append,
        List.mem_singleton] at hc
      rcases hc with rfl | rfl
      · exact Or.inl (Or.inr ⟨⟨.loc .pwall, (pressure d γ).shift 0⟩, by simp, rfl⟩)
      · refine Or.inl (Or.inr ⟨⟨.loc (.t j), .num ((j : ℝ) + 1) * .num Tw - .num (j : ℝ) * lv .tAbove⟩, ?_, rfl⟩)
        refine List.mem_append_right _ (List.mem_map.2 ⟨j, ?_, rfl⟩)
        rw [List.mem_range'_1]; omega
    · simp only [eval_div, eval_mul, eval_num, eval_lv, Fr j hj1 hji, Ft j hj1 hji]; rfl
    · intro c hc
      simp only [cells_lv, List.mem_singleton] at hc
      subst hc; exact Or.inl rfl
    · simp only [eval_lv, Fr j hj1 hji]
      simp only [hF, isoFinal]
      rw [if_pos (cond j hj1 hji), tn]
  · -- momenta
    refine Staged.parallel ?_
    intro a ha
    simp only [isoMomentum, List.mem_flatMap, List.mem_map, List.mem_finRange, true_and,
      List.mem_range'_1] at ha
    obtain ⟨t, ht, j, rfl⟩ := ha
    constructor
    · intro c hc
      simp only [cells_mul, cells_neg, cells_lv, List.mem_append, List.mem_singleton] at hc
      right
      rcases hc with rfl | rfl
      · rw [targets_append]; right
        refine mem_targets_range' t (by omega) (by omega) ?_
        exact ⟨_, List.mem_cons_self, rfl⟩
      · refine ⟨⟨.loc (.u j.1 t), dat (.mom j) (s.toF * (t : ℤ)) / dat .rho (s.toF * (t : ℤ))⟩, ?_, rfl⟩
        have : (⟨.loc (.u j.1 t), dat (.mom j) (s.toF * (t : ℤ)) / dat .rho (s.toF * (t : ℤ))⟩ : Assign d) ∈
            isothermalVelocities d s n := by
          simp only [isothermalVelocities, List.mem_flatMap, List.mem_map, List.mem_finRange, true_and,
            List.mem_range'_1]
          exact ⟨j, t, by omega, rfl⟩
        simp [this]
    · simp only [eval_mul, eval_neg, eval_lv, Fr t (by omega) (by omega), Fu j t (by omega) (by omega)]
      simp only [hF, isoFinal]
      rw [if_pos (cond t (by omega) (by omega)), tn]
  · -- energies
    refine Staged.parallel ?_
    intro a ha
    simp only [isoEnergy, List.mem_flatMap, List.mem_singleton, List.mem_range'_1] at ha
    obtain ⟨t, ht, rfl⟩ := ha
    constructor
    · intro c hc
      simp only [cells_add, cells_div, cells_sub, cells_mul, cells_num, cells_lv, List.append_nil,
        List.nil_append, List.mem_append, List.mem_singleton, mem_cells_sum, List.mem_map,
        List.mem_finRange, true_and] at hc
      right
      rcases hc with rfl | rfl | ⟨e, ⟨j, rfl⟩, hc⟩
      · exact ⟨⟨.loc .pwall, (pressure d γ).shift 0⟩, by simp, rfl⟩
      · rw [targets_append, targets_append]; left; right
        refine mem_targets_range' t (by omega) (by omega) ?_
        exact ⟨_, List.mem_cons_self, rfl⟩
      · simp only [cells_mul, cells_lv, List.mem_append, List.mem_singleton, or_self] at hc
        subst hc
        refine ⟨⟨.loc (.u j.1 t), dat (.mom j) (s.toF * (t : ℤ)) / dat .rho (s.toF * (t : ℤ))⟩, ?_, rfl⟩
        have : (⟨.loc (.u j.1 t), dat (.mom j) (s.toF * (t : ℤ)) / dat .rho (s.toF * (t : ℤ))⟩ : Assign d) ∈
            isothermalVelocities d s n := by
          simp only [isothermalVelocities, List.mem_flatMap, List.mem_map, List.mem_finRange, true_and,
            List.mem_range'_1]
          exact ⟨j, t, by omega, rfl⟩
        simp [this]
    · simp only [eval_add, eval_div, eval_sub, eval_mul, eval_num, eval_lv, eval_sum, List.map_map,
        Function.comp_def, Fr t (by omega) (by omega), Fu _ t (show 1 ≤ t by omega) (show t ≤ n by omega)]
      rw [sum_finRange (fun j => uAt st (s.toF * (t : ℤ)) j * uAt st (s.toF * (t : ℤ)) j)]
      simp only [hF, isoFinal]
      rw [if_pos (cond t (by omega) (by omega)), tn]

/-- Everything the halo part assigns, and everything it does not assign, is as in `isoFinal`. -/
theorem forcing_run (γ M Tw : ℝ) (s : Side) (n : ℕ) (st : Cell d → ℝ) (v : Var d) (k : ℤ) :
    run (forcingHaloPart d γ M Tw s n) st (.data v k) = isoFinal γ M Tw s n st (.data v k) := by
  by_cases h : Cell.data v k ∈ targets (forcingHaloPart d γ M Tw s n)
  · exact (forcing_staged γ M Tw s n st).run_eq st (fun c hc => hc) _ (Or.inr h)
  · by_cases h2 : st (.data v k) = isoFinal γ M Tw s n st (.data v k)
    · exact (forcing_staged γ M Tw s n st).run_eq st (fun c hc => hc) _ (Or.inl h2)
    · exfalso
      apply h2
      simp only [isoFinal]
      split_ifs with hk
      · have hk' : k = s.fromF * ((s.fromF * k).toNat : ℤ) := by
          rw [Int.toNat_of_nonneg (by omega), from_from]
        set t := (s.fromF * k).toNat with ht
        have tmem : t ∈ List.range' 1 n := by rw [List.mem_range'_1]; omega
        cases v with
        | rho =>
          exfalso; apply h
          refine ⟨⟨.data .rho (s.fromF * (t : ℤ)), lv (.rhoHalo t)⟩, ?_, by rw [← hk']⟩
          unfold forcingHaloPart
          refine List.mem_append_left _ (List.mem_append_left _ (List.mem_append_right _ ?_))
          exact List.mem_flatMap.2 ⟨t, tmem, by simp [isoDensity]⟩
        | mom j =>
          exfalso; apply h
          refine ⟨⟨.data (.mom j) (s.fromF * (t : ℤ)), -(lv (.rhoHalo t)) * lv (.u j.1 t)⟩, ?_,
            by rw [← hk']⟩
          unfold forcingHaloPart
          refine List.mem_append_left _ (List.mem_append_right _ ?_)
          refine List.mem_flatMap.2 ⟨t, tmem, ?_⟩
          rw [isoMomentum, List.mem_map]
          exact ⟨j, List.mem_finRange j, rfl⟩
        | rhoE =>
          exfalso; apply h
          obtain ⟨a, ha, hat⟩ : ∃ a ∈ isoEnergy d γ s t, a.target = .data .rhoE (s.fromF * (t : ℤ)) :=
            ⟨_, List.mem_singleton.2 rfl, rfl⟩
          refine ⟨a, ?_, by rw [hat, ← hk']⟩
          unfold forcingHaloPart
          exact List.mem_append_right _ (List.mem_flatMap.2 ⟨t, tmem, ha⟩)
        | aux m => rfl
      · rfl

end OpenSBLI.Bc
