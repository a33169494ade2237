import Verif.Lemmas.BoundaryMirror

/-!
# The isothermal wall kernel computes its intended store
-/
namespace OpenSBLI.Bc
open Expr

variable {d : ℕ}

/-- A loop of staged bodies is staged. -/
theorem staged_range' {F : Cell d → ℝ} {S : Set (Cell d)} (body : ℕ → List (Assign d)) (n : ℕ)
    (h : ∀ i, 1 ≤ i → i ≤ n →
      Staged F (S ∪ {c | ∃ j, 1 ≤ j ∧ j < i ∧ c ∈ targets (body j)}) (body i)) :
    Staged F S ((List.range' 1 n).flatMap body) := by
  induction n with
  | zero => trivial
  | succ n ih =>
    have hr : List.range' 1 (n + 1) = List.range' 1 n ++ [n + 1] := by
      rw [List.range'_concat]; simp [Nat.add_comm]
    rw [hr, List.flatMap_append, List.flatMap_cons, List.flatMap_nil, List.append_nil]
    refine (ih fun i h1 h2 => h i h1 (by omega)).append ((h (n + 1) (by omega) le_rfl).mono ?_)
    intro c hc
    rcases hc with hc | ⟨j, h1, h2, a, ha, rfl⟩
    · exact Or.inl hc
    · refine Or.inr ⟨a, List.mem_flatMap.2 ⟨j, ?_, ha⟩, rfl⟩
      rw [List.mem_range'_1]; omega

theorem mem_targets_range' {body : ℕ → List (Assign d)} {n : ℕ} {c : Cell d} (j : ℕ) (h1 : 1 ≤ j)
    (h2 : j ≤ n) (h : c ∈ targets (body j)) : c ∈ targets ((List.range' 1 n).flatMap body) := by
  obtain ⟨a, ha, rfl⟩ := h
  exact ⟨a, List.mem_flatMap.2 ⟨j, by rw [List.mem_range'_1]; omega, ha⟩, rfl⟩

/-- Wall pressure of a store. -/
noncomputable def pAt (γ : ℝ) (st : Cell d → ℝ) (k : ℤ) : ℝ :=
  Spec.pressureOf γ (st (.data .rho k)) (fun i => st (.data (.mom i) k)) (st (.data .rhoE k))

/-- Temperature of a store at an offset. -/
noncomputable def tAt (γ M : ℝ) (st : Cell d → ℝ) (k : ℤ) : ℝ :=
  Spec.temperatureOf γ M (st (.data .rho k)) (fun i => st (.data (.mom i) k)) (st (.data .rhoE k))

/-- Velocity of a store at an offset. -/
noncomputable def uAt (st : Cell d → ℝ) (k : ℤ) (j : Fin d) : ℝ := st (.data (.mom j) k) / st (.data .rho k)

/-- Extrapolated halo temperature. -/
noncomputable def isoT (γ M Tw : ℝ) (s : Side) (st : Cell d → ℝ) (i : ℕ) : ℝ :=
  ((i : ℝ) + 1) * Tw - i * tAt γ M st s.toF

/-- Halo density. -/
noncomputable def isoRho (γ M Tw : ℝ) (s : Side) (st : Cell d → ℝ) (i : ℕ) : ℝ :=
  pAt γ st 0 * γ * M * M / isoT γ M Tw s st i

/-- Store computed by the halo part of the isothermal wall. -/
noncomputable def isoFinal (γ M Tw : ℝ) (s : Side) (n : ℕ) (st : Cell d → ℝ) : Cell d → ℝ
  | .loc .pwall => pAt γ st 0
  | .loc .tAbove => tAt γ M st s.toF
  | .loc (.u i t) => if h : i < d ∧ 1 ≤ t ∧ t ≤ n then uAt st (s.toF * (t : ℤ)) ⟨i, h.1⟩ else st (.loc (.u i t))
  | .loc (.t i) => if 1 ≤ i ∧ i ≤ n then isoT γ M Tw s st i else st (.loc (.t i))
  | .loc (.rhoHalo i) => if 1 ≤ i ∧ i ≤ n then isoRho γ M Tw s st i else st (.loc (.rhoHalo i))
  | .loc l => st (.loc l)
  | .data v k =>
    if 1 ≤ s.fromF * k ∧ s.fromF * k ≤ n then
      match v with
      | .rho => isoRho γ M Tw s st (s.fromF * k).toNat
      | .mom j => - isoRho γ M Tw s st (s.fromF * k).toNat * uAt st (s.toF * ((s.fromF * k).toNat : ℤ)) j
      | .rhoE => pAt γ st 0 / (γ - 1) + 1 / 2 * isoRho γ M Tw s st (s.fromF * k).toNat *
          ∑ j, uAt st (s.toF * ((s.fromF * k).toNat : ℤ)) j * uAt st (s.toF * ((s.fromF * k).toNat : ℤ)) j
      | .aux m => st (.data (.aux m) k)
    else st (.data v k)

theorem from_from (s : Side) (a : ℤ) : s.fromF * (s.fromF * a) = a := by cases s <;> simp [Side.fromF]
theorem from_to (s : Side) (a : ℤ) : s.fromF * (s.toF * a) = -a := by cases s <;> simp [Side.fromF, Side.toF]

theorem isoFinal_inside (γ M Tw : ℝ) (s : Side) (n : ℕ) (st : Cell d → ℝ) (v : Var d) (t : ℕ) :
    isoFinal γ M Tw s n st (.data v (s.toF * (t : ℤ))) = st (.data v (s.toF * (t : ℤ))) := by
  simp only [isoFinal]
  rw [if_neg]; rw [from_to]; omega

theorem isoFinal_wall (γ M Tw : ℝ) (s : Side) (n : ℕ) (st : Cell d → ℝ) (v : Var d) :
    isoFinal γ M Tw s n st (.data v 0) = st (.data v 0) := by
  have := isoFinal_inside γ M Tw s n st v 0
  simpa using this

/-- The halo part of the isothermal wall kernel ends in the store `isoFinal`. -/
theorem isothermal_staged (γ M Tw : ℝ) (s : Side) (n : ℕ) (st : Cell d → ℝ) :
    Staged (isoFinal γ M Tw s n st) {c | st c = isoFinal γ M Tw s n st c}
      (isothermalHaloPart d γ M Tw s n) := by
  set F := isoFinal γ M Tw s n st with hF
  set S₀ : Set (Cell d) := {c | st c = F c} with hS₀
  have in0 : ∀ v (t : ℕ), Cell.data v (s.toF * (t : ℤ)) ∈ S₀ :=
    fun v t => (isoFinal_inside γ M Tw s n st v t).symm
  have inW : ∀ v, Cell.data v (0 : ℤ) ∈ S₀ := fun v => (isoFinal_wall γ M Tw s n st v).symm
  have inT : ∀ v, Cell.data v s.toF ∈ S₀ := fun v => by simpa using in0 v 1
  have consW : ∀ c ∈ consCells d 0, c ∈ S₀ := by
    rintro c (rfl | rfl | ⟨i, rfl⟩) <;> exact inW _
  have consT : ∀ c ∈ consCells d s.toF, c ∈ S₀ := by
    rintro c (rfl | rfl | ⟨i, rfl⟩) <;> exact inT _
  have Fin' : ∀ v (t : ℕ), F (.data v (s.toF * (t : ℤ))) = st (.data v (s.toF * (t : ℤ))) :=
    fun v t => isoFinal_inside γ M Tw s n st v t
  have FW : ∀ v, F (.data v 0) = st (.data v 0) := fun v => isoFinal_wall γ M Tw s n st v
  have FT : ∀ v, F (.data v s.toF) = st (.data v s.toF) := fun v => by simpa using Fin' v 1
  unfold isothermalHaloPart
  refine ((Staged.append (Staged.append ?_ ?_) ?_).append ?_)
  -- wall pressure
  · refine Staged.parallel ?_
    intro a ha
    simp only [List.mem_singleton] at ha
    subst ha
    constructor
    · intro c hc; exact consW c (mem_cells_shift (fun c hc => mem_cells_pressure hc) hc)
    · show ((pressure d γ).shift 0).eval F = F (.loc .pwall)
      rw [eval_pressure_shift]; simp only [FW]; rfl
  -- velocities
  · refine Staged.parallel ?_
    intro a ha
    simp only [isothermalVelocities, List.mem_flatMap, List.mem_map, List.mem_finRange, true_and,
      List.mem_range'_1] at ha
    obtain ⟨i, t, ht, rfl⟩ := ha
    constructor
    · intro c hc
      simp only [cells_div, cells_dat, List.mem_append, List.mem_singleton] at hc
      rcases hc with rfl | rfl <;> exact Or.inl (in0 _ t)
    · simp only [eval_div, eval_dat, Fin']
      simp only [hF, isoFinal]
      rw [dif_pos ⟨i.2, by omega, by omega⟩]; rfl
  -- temperature above the wall
  · refine Staged.parallel ?_
    intro a ha
    simp only [List.mem_singleton] at ha
    subst ha
    constructor
    · intro c hc; exact Or.inl (consT c (mem_cells_shift (fun c hc => mem_cells_temperature hc) hc))
    · show ((temperature d γ M).shift s.toF).eval F = F (.loc .tAbove)
      rw [eval_temperature_shift]; simp only [FT]; rfl
  -- halo loop
  · have rdP : Cell.loc .pwall ∈ targets (d := d) ([⟨.loc .pwall, (pressure d γ).shift 0⟩] ++
        isothermalVelocities d s n ++ [⟨.loc .tAbove, (temperature d γ M).shift s.toF⟩]) :=
      ⟨⟨.loc .pwall, (pressure d γ).shift 0⟩, by simp, rfl⟩
    have rdA : Cell.loc .tAbove ∈ targets (d := d) ([⟨.loc .pwall, (pressure d γ).shift 0⟩] ++
        isothermalVelocities d s n ++ [⟨.loc .tAbove, (temperature d γ M).shift s.toF⟩]) :=
      ⟨⟨.loc .tAbove, (temperature d γ M).shift s.toF⟩, by simp, rfl⟩
    have rdU : ∀ (j : Fin d) (t : ℕ), 1 ≤ t → t ≤ n → Cell.loc (.u j.1 t) ∈ targets (d := d)
        ([⟨.loc .pwall, (pressure d γ).shift 0⟩] ++
        isothermalVelocities d s n ++ [⟨.loc .tAbove, (temperature d γ M).shift s.toF⟩]) := by
      intro j t h1 h2
      refine ⟨⟨.loc (.u j.1 t), dat (.mom j) (s.toF * (t : ℤ)) / dat .rho (s.toF * (t : ℤ))⟩, ?_, rfl⟩
      have : (⟨.loc (.u j.1 t), dat (.mom j) (s.toF * (t : ℤ)) / dat .rho (s.toF * (t : ℤ))⟩ : Assign d) ∈
          isothermalVelocities d s n := by
        simp only [isothermalVelocities, List.mem_flatMap, List.mem_map, List.mem_finRange, true_and,
          List.mem_range'_1]
        exact ⟨j, t, by omega, rfl⟩
      simp [this]
    generalize targets (d := d) ([⟨.loc .pwall, (pressure d γ).shift 0⟩] ++
        isothermalVelocities d s n ++ [⟨.loc .tAbove, (temperature d γ M).shift s.toF⟩]) = S₁ at *
    have Ft : ∀ i : ℕ, 1 ≤ i → i ≤ n → F (.loc (.t i)) = isoT γ M Tw s st i := by
      intro i h1 h2; simp only [hF, isoFinal]; rw [if_pos ⟨h1, h2⟩]
    have Fr : ∀ i : ℕ, 1 ≤ i → i ≤ n → F (.loc (.rhoHalo i)) = isoRho γ M Tw s st i := by
      intro i h1 h2; simp only [hF, isoFinal]; rw [if_pos ⟨h1, h2⟩]
    have Fu : ∀ (j : Fin d) (t : ℕ), 1 ≤ t → t ≤ n → F (.loc (.u j.1 t)) = uAt st (s.toF * (t : ℤ)) j := by
      intro j t h1 h2; simp only [hF, isoFinal]; rw [dif_pos ⟨j.2, h1, h2⟩]
    have cond : ∀ i : ℕ, 1 ≤ i → i ≤ n → (1 ≤ s.fromF * (s.fromF * (i : ℤ)) ∧ s.fromF * (s.fromF * (i : ℤ)) ≤ n) := by
      intro i h1 h2; rw [from_from]; omega
    have tn : ∀ i : ℕ, (s.fromF * (s.fromF * (i : ℤ))).toNat = i := by intro i; rw [from_from]; simp
    apply staged_range'
    intro i hi1 hin
    unfold isoIteration
    refine ((Staged.append (Staged.append ?_ ?_) ?_).append ?_)
    · refine Staged.parallel ?_
      intro a ha
      simp only [List.mem_singleton] at ha
      subst ha
      constructor
      · intro c hc
        simp only [cells_sub, cells_mul, cells_num, cells_lv, List.nil_append, List.mem_singleton] at hc
        subst hc; exact Or.inl (Or.inr rdA)
      · simp only [eval_sub, eval_mul, eval_num, eval_lv, Ft i hi1 hin]; rfl
    · apply staged_range'
      intro j hj1 hji
      refine ⟨?_, ?_, ?_, ?_, trivial⟩
      · intro c hc
        simp only [cells_div, cells_mul, cells_num, cells_lv, List.append_nil, List.mem_append,
          List.mem_singleton] at hc
        rcases hc with rfl | rfl
        · exact Or.inl (Or.inl (Or.inl (Or.inr rdP)))
        · left
          rcases Nat.lt_or_ge j i with h | h
          · refine Or.inl (Or.inr ⟨j, hj1, h, ?_⟩)
            exact ⟨⟨.loc (.t j), .num ((j : ℝ) + 1) * .num Tw - .num (j : ℝ) * lv .tAbove⟩,
              by simp, rfl⟩
          · have : j = i := by omega
            subst this
            exact Or.inr ⟨⟨.loc (.t j), .num ((j : ℝ) + 1) * .num Tw - .num (j : ℝ) * lv .tAbove⟩,
              by simp, rfl⟩
      · simp only [eval_div, eval_mul, eval_num, eval_lv, Fr j hj1 (by omega), Ft j hj1 (by omega)]; rfl
      · intro c hc
        simp only [cells_lv, List.mem_singleton] at hc
        subst hc; exact Or.inl rfl
      · simp only [eval_lv, Fr j hj1 (by omega)]
        simp only [hF, isoFinal]
        rw [if_pos (cond j hj1 (by omega)), tn]
    · refine Staged.parallel ?_
      intro a ha
      simp only [isoMomentum, List.mem_flatMap, List.mem_map, List.mem_finRange, true_and,
        List.mem_range'_1] at ha
      obtain ⟨t, ht, j, rfl⟩ := ha
      constructor
      · intro c hc
        simp only [cells_mul, cells_neg, cells_lv, List.mem_append, List.mem_singleton] at hc
        rcases hc with rfl | rfl
        · right
          rw [targets_append]; right
          refine mem_targets_range' t (by omega) (by omega) ?_
          exact ⟨_, List.mem_cons_self, rfl⟩
        · exact Or.inl (Or.inl (Or.inr (rdU j t (by omega) (by omega))))
      · simp only [eval_mul, eval_neg, eval_lv, Fr t (by omega) (by omega), Fu j t (by omega) (by omega)]
        simp only [hF, isoFinal]
        rw [if_pos (cond t (by omega) (by omega)), tn]
    · refine Staged.parallel ?_
      intro a ha
      simp only [isoEnergy, List.mem_flatMap, List.mem_singleton, List.mem_range'_1] at ha
      obtain ⟨t, ht, rfl⟩ := ha
      constructor
      · intro c hc
        simp only [cells_add, cells_div, cells_sub, cells_mul, cells_num, cells_lv, List.append_nil,
          List.nil_append, List.mem_append, List.mem_singleton, mem_cells_sum, List.mem_map,
          List.mem_finRange, true_and] at hc
        rcases hc with rfl | rfl | ⟨e, ⟨j, rfl⟩, hc⟩
        · exact Or.inl (Or.inl (Or.inr rdP))
        · right
          rw [targets_append, targets_append]; left; right
          refine mem_targets_range' t (by omega) (by omega) ?_
          exact ⟨_, List.mem_cons_self, rfl⟩
        · simp only [cells_mul, cells_lv, List.mem_append, List.mem_singleton, or_self] at hc
          subst hc
          exact Or.inl (Or.inl (Or.inr (rdU j t (by omega) (by omega))))
      · simp only [eval_add, eval_div, eval_sub, eval_mul, eval_num, eval_lv, eval_sum, List.map_map,
          Function.comp_def, Fr t (by omega) (by omega), Fu _ t (show 1 ≤ t by omega) (show t ≤ n by omega)]
        rw [sum_finRange (fun j => uAt st (s.toF * (t : ℤ)) j * uAt st (s.toF * (t : ℤ)) j)]
        simp only [hF, isoFinal]
        rw [if_pos (cond t (by omega) (by omega)), tn]

/-- Everything the halo part assigns, and everything it does not assign, is as in `isoFinal`. -/
theorem isothermal_run (γ M Tw : ℝ) (s : Side) (n : ℕ) (st : Cell d → ℝ) (v : Var d) (k : ℤ) :
    run (isothermalHaloPart d γ M Tw s n) st (.data v k) = isoFinal γ M Tw s n st (.data v k) := by
  by_cases h : Cell.data v k ∈ targets (isothermalHaloPart d γ M Tw s n)
  · exact (isothermal_staged γ M Tw s n st).run_eq st (fun c hc => hc) _ (Or.inr h)
  · by_cases h2 : st (.data v k) = isoFinal γ M Tw s n st (.data v k)
    · exact (isothermal_staged γ M Tw s n st).run_eq st (fun c hc => hc) _ (Or.inl h2)
    · exfalso
      apply h2
      simp only [isoFinal]
      split_ifs with hk
      · have hk' : k = s.fromF * ((s.fromF * k).toNat : ℤ) := by
          rw [Int.toNat_of_nonneg (by omega), from_from]
        set t := (s.fromF * k).toNat with ht
        have t1 : 1 ≤ t := by omega
        have tn : t ≤ n := by omega
        have mem : ∀ a, a ∈ isoIteration d γ M Tw s t → a ∈ isothermalHaloPart d γ M Tw s n := by
          intro a ha
          unfold isothermalHaloPart
          refine List.mem_append_right _ (List.mem_flatMap.2 ⟨t, ?_, ha⟩)
          rw [List.mem_range'_1]; omega
        have tmem : t ∈ List.range' 1 t := by rw [List.mem_range'_1]; omega
        cases v with
        | rho =>
          exfalso; apply h
          refine ⟨⟨.data .rho (s.fromF * (t : ℤ)), lv (.rhoHalo t)⟩, mem _ ?_, by rw [← hk']⟩
          unfold isoIteration
          refine List.mem_append_left _ (List.mem_append_left _ (List.mem_append_right _ ?_))
          exact List.mem_flatMap.2 ⟨t, tmem, by simp [isoDensity]⟩
        | mom j =>
          exfalso; apply h
          refine ⟨⟨.data (.mom j) (s.fromF * (t : ℤ)), -(lv (.rhoHalo t)) * lv (.u j.1 t)⟩, mem _ ?_,
            by rw [← hk']⟩
          unfold isoIteration
          refine List.mem_append_left _ (List.mem_append_right _ ?_)
          refine List.mem_flatMap.2 ⟨t, tmem, ?_⟩
          rw [isoMomentum, List.mem_map]
          exact ⟨j, List.mem_finRange j, rfl⟩
        | rhoE =>
          exfalso; apply h
          obtain ⟨a, ha, hat⟩ : ∃ a ∈ isoEnergy d γ s t, a.target = .data .rhoE (s.fromF * (t : ℤ)) :=
            ⟨_, List.mem_singleton.2 rfl, rfl⟩
          refine ⟨a, mem a ?_, by rw [hat, ← hk']⟩
          unfold isoIteration
          exact List.mem_append_right _ (List.mem_flatMap.2 ⟨t, tmem, ha⟩)
        | aux m => rfl
      · rfl

end OpenSBLI.Bc
