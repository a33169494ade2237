import Verif.Lemmas.Isothermal
import Mathlib.Tactic.NormNum
import Mathlib.Tactic.FinCases
import Mathlib.Tactic.Positivity

/-!
# C27 isothermal wall, C28 adiabatic walls

In every statement `st` is the store before the kernel and `pAt`, `tAt`, `uAt` (Verif/Lemmas/Isothermal.lean) are pressure,
temperature and velocity of a store at an offset, i.e. `Spec.pressureOf`, `Spec.temperatureOf` and `mom/rho` of the
conservative variables there.
-/
namespace OpenSBLI.Bc
open Expr

variable {d : ℕ}

/-! ### C27: isothermal wall -/

/-- C27, wall point: whatever equations the user passes, as long as they do not assign the wall momentum, the momentum at the wall
is zero after the kernel. -/
theorem C27_no_slip (γ M Tw : ℝ) (user : List (Assign d)) (s : Side) (n : ℕ) (st : Cell d → ℝ) (i : Fin d)
    (huser : ∀ a ∈ user, a.target ≠ .data (.mom i) 0) :
    run (isothermalWall d γ M Tw user s n) st (.data (.mom i) 0) = 0 := by
  rw [isothermalWall, run_append, isothermal_run, isoFinal_wall, isothermalWallPart, run_append,
    run_unwritten _ _ _ huser, run_append]
  obtain ⟨a, ha, e1, e2⟩ := run_indep ((List.finRange d).map fun (i : Fin d) =>
      (⟨.data (.mom i) 0, .num 0⟩ : Assign d)) (run [⟨.loc .x0, dat (.aux 0) 0⟩] st) (c := .data (.mom i) 0)
    (by
      intro a ha c hc
      obtain ⟨j, -, rfl⟩ := List.mem_map.1 ha
      simp at hc)
    ⟨_, List.mem_map_of_mem (List.mem_finRange i), rfl⟩
  obtain ⟨j, -, rfl⟩ := List.mem_map.1 ha
  rw [e2, eval_num]

/-- C27, wall temperature: with the wall energy equation of the shipped applications, the temperature at the wall after the kernel
is the prescribed one, and the density at the wall is unchanged. -/
theorem C27_wall_temperature (γ M Tw : ℝ) (s : Side) (n : ℕ) (st : Cell d → ℝ)
    (hγ : γ ≠ 0) (hγ1 : γ ≠ 1) (hM : M ≠ 0) (hρ : st (.data .rho 0) ≠ 0) :
    tAt γ M (run (isothermalWall d γ M Tw [wallEnergy d γ M Tw] s n) st) 0 = Tw ∧
    run (isothermalWall d γ M Tw [wallEnergy d γ M Tw] s n) st (.data .rho 0) = st (.data .rho 0) := by
  set st' := run (isothermalWall d γ M Tw [wallEnergy d γ M Tw] s n) st with hst
  have hm : ∀ i, st' (.data (.mom i) 0) = 0 := fun i =>
    C27_no_slip γ M Tw _ s n st i (by simp [wallEnergy])
  have hρ' : ∀ st₀ : Cell d → ℝ, run ([⟨.loc .x0, dat (.aux 0) 0⟩] ++
      (List.finRange d).map fun (i : Fin d) => (⟨.data (.mom i) 0, .num 0⟩ : Assign d)) st₀ (.data .rho 0) =
      st₀ (.data .rho 0) := by
    intro st₀
    apply run_unwritten
    intro a ha
    rcases List.mem_append.1 ha with h | h
    · simp only [List.mem_singleton] at h; subst h; simp
    · obtain ⟨j, -, rfl⟩ := List.mem_map.1 h; simp
  have h1 : st' (.data .rho 0) = st (.data .rho 0) := by
    rw [hst, isothermalWall, run_append, isothermal_run, isoFinal_wall, isothermalWallPart, run_append,
      run_unwritten _ _ _ (by simp [wallEnergy]), hρ']
  have h2 : st' (.data .rhoE 0) = st (.data .rho 0) * Tw / (M * M * γ * (γ - 1)) := by
    rw [hst, isothermalWall, run_append, isothermal_run, isoFinal_wall, isothermalWallPart, run_append,
      run_cons, run_nil]
    simp only [wallEnergy, Function.update_self, eval_div, eval_mul, eval_dat, eval_num, eval_sub]
    rw [hρ']
  refine ⟨?_, h1⟩
  have hg : γ - 1 ≠ 0 := sub_ne_zero.2 hγ1
  simp only [tAt, Spec.temperatureOf, Spec.pressureOf, h1, h2, hm]
  simp
  field_simp

/-- C27, halo points, for every store `st` reached after the wall equations: each halo point `i` levels outside has the pressure of
the wall point, the temperature extrapolated linearly through the prescribed wall temperature and the temperature of the first interior
point, and the negated velocity of the point `i` levels inside. -/
theorem C27_halo (γ M Tw : ℝ) (s : Side) (n : ℕ) (st : Cell d → ℝ) (i : ℕ) (h1 : 1 ≤ i) (hn : i ≤ n)
    (hγ : γ ≠ 0) (hγ1 : γ ≠ 1) (hM : M ≠ 0) (hp : pAt γ st 0 ≠ 0)
    (hT : (i + 1) * Tw - i * tAt γ M st s.toF ≠ 0) :
    let st' := run (isothermalHaloPart d γ M Tw s n) st
    pAt γ st' (s.fromF * (i : ℤ)) = pAt γ st 0 ∧
    tAt γ M st' (s.fromF * (i : ℤ)) = Tw - i * (tAt γ M st s.toF - Tw) ∧
    (∀ j, uAt st' (s.fromF * (i : ℤ)) j = - uAt st (s.toF * (i : ℤ)) j) := by
  intro st'
  have cond : 1 ≤ s.fromF * (s.fromF * (i : ℤ)) ∧ s.fromF * (s.fromF * (i : ℤ)) ≤ n := by rw [from_from]; omega
  have tn : (s.fromF * (s.fromF * (i : ℤ))).toNat = i := by rw [from_from]; simp
  have er : st' (.data .rho (s.fromF * (i : ℤ))) = isoRho γ M Tw s st i := by
    simp only [st']; rw [isothermal_run]; simp only [isoFinal]; rw [if_pos cond, tn]
  have em : ∀ j, st' (.data (.mom j) (s.fromF * (i : ℤ))) =
      - isoRho γ M Tw s st i * uAt st (s.toF * (i : ℤ)) j := by
    intro j; simp only [st']; rw [isothermal_run]; simp only [isoFinal]; rw [if_pos cond, tn]
  have eE : st' (.data .rhoE (s.fromF * (i : ℤ))) = pAt γ st 0 / (γ - 1) + 1 / 2 * isoRho γ M Tw s st i *
      ∑ j, uAt st (s.toF * (i : ℤ)) j * uAt st (s.toF * (i : ℤ)) j := by
    simp only [st']; rw [isothermal_run]; simp only [isoFinal]; rw [if_pos cond, tn]
  have hT' : isoT γ M Tw s st i ≠ 0 := hT
  have hρ : isoRho γ M Tw s st i ≠ 0 := by
    rw [isoRho]; positivity
  have hg : γ - 1 ≠ 0 := sub_ne_zero.2 hγ1
  have hp' : pAt γ st' (s.fromF * (i : ℤ)) = pAt γ st 0 := by
    rw [pAt, Spec.pressureOf, er, eE]
    simp only [em]
    have : ∑ j, (- isoRho γ M Tw s st i * uAt st (s.toF * (i : ℤ)) j) ^ 2 =
        isoRho γ M Tw s st i ^ 2 * ∑ j, uAt st (s.toF * (i : ℤ)) j * uAt st (s.toF * (i : ℤ)) j := by
      rw [Finset.mul_sum]; exact Finset.sum_congr rfl fun j _ => by ring
    rw [this]
    field_simp; ring
  refine ⟨hp', ?_, ?_⟩
  · have : tAt γ M st' (s.fromF * (i : ℤ)) = γ * M ^ 2 * pAt γ st' (s.fromF * (i : ℤ)) /
        st' (.data .rho (s.fromF * (i : ℤ))) := rfl
    rw [this, hp', er, isoRho]
    have e2 : Tw - i * (tAt γ M st s.toF - Tw) = isoT γ M Tw s st i := by rw [isoT]; ring
    rw [e2]
    field_simp
  · intro j
    show st' (.data (.mom j) _) / st' (.data .rho _) = _
    rw [em, er]; field_simp

/-- C27: the halo part writes halo points of the conservative variables only. -/
theorem C27_frame (γ M Tw : ℝ) (s : Side) (n : ℕ) (st : Cell d → ℝ) (v : Var d) (k : ℤ)
    (hk : ∀ i : ℕ, 1 ≤ i → i ≤ n → k ≠ s.fromF * (i : ℤ)) :
    run (isothermalHaloPart d γ M Tw s n) st (.data v k) = st (.data v k) := by
  rw [isothermal_run]; simp only [isoFinal]; rw [if_neg]
  intro h
  apply hk (s.fromF * k).toNat (by omega) (by omega)
  rw [Int.toNat_of_nonneg (by omega), from_from]

/-- C27, complete kernel with the wall energy equation of the shipped applications: wall at `Tw` and at rest; halo pressure equal to
wall pressure, halo temperature on the line through wall and first interior temperature, halo velocity opposite to the mirror
point. -/
theorem C27_isothermal_wall (γ M Tw : ℝ) (s : Side) (n : ℕ) (st : Cell d → ℝ) (i : ℕ) (h1 : 1 ≤ i) (hn : i ≤ n)
    (hγ : 1 < γ) (hM : M ≠ 0) (hTw : 0 < Tw) (hρ : 0 < st (.data .rho 0))
    (hT : ((i : ℝ) + 1) * Tw ≠ i * tAt γ M st s.toF) :
    let st' := run (isothermalWall d γ M Tw [wallEnergy d γ M Tw] s n) st
    (∀ j, st' (.data (.mom j) 0) = 0) ∧ tAt γ M st' 0 = Tw ∧
    pAt γ st' (s.fromF * (i : ℤ)) = pAt γ st' 0 ∧
    tAt γ M st' (s.fromF * (i : ℤ)) = tAt γ M st' 0 - i * (tAt γ M st' s.toF - tAt γ M st' 0) ∧
    (∀ j, uAt st' (s.fromF * (i : ℤ)) j = - uAt st' (s.toF * (i : ℤ)) j) := by
  intro st'
  have hγ0 : γ ≠ 0 := by linarith
  have hγ1 : γ ≠ 1 := by linarith
  have hslip : ∀ j, st' (.data (.mom j) 0) = 0 := fun j =>
    C27_no_slip γ M Tw _ s n st j (by simp [wallEnergy])
  obtain ⟨hwt, hwr⟩ := C27_wall_temperature γ M Tw s n st hγ0 hγ1 hM hρ.ne'
  change tAt γ M st' 0 = Tw at hwt
  set st1 := run (isothermalWallPart d [wallEnergy d γ M Tw]) st with hst1
  have hst' : st' = run (isothermalHaloPart d γ M Tw s n) st1 := by
    simp only [st']; rw [isothermalWall, run_append]
  -- the wall part leaves offsets other than 0 alone
  have off : ∀ v k, k ≠ 0 → st1 (.data v k) = st (.data v k) := by
    intro v k hk
    rw [hst1]
    apply run_unwritten
    intro a ha
    simp only [isothermalWallPart, List.mem_append, List.mem_singleton, List.mem_map, List.mem_finRange,
      true_and] at ha
    rcases ha with (rfl | ⟨j, rfl⟩) | rfl <;> simp [wallEnergy, Ne.symm hk]
  have inside : ∀ v (t : ℕ), st' (.data v (s.toF * (t : ℤ))) = st1 (.data v (s.toF * (t : ℤ))) := by
    intro v t; rw [hst', isothermal_run, isoFinal_inside]
  have insideT : ∀ v, st' (.data v s.toF) = st1 (.data v s.toF) := fun v => by simpa using inside v 1
  have wall : ∀ v, st' (.data v 0) = st1 (.data v 0) := by
    intro v; rw [hst', isothermal_run, isoFinal_wall]
  have eT : tAt γ M st1 s.toF = tAt γ M st s.toF := by
    simp only [tAt, off _ _ (toF_ne s)]
  have eT' : tAt γ M st' s.toF = tAt γ M st1 s.toF := by simp only [tAt, insideT]
  have eP0 : pAt γ st' 0 = pAt γ st1 0 := by simp only [pAt, wall]
  have eT0 : tAt γ M st' 0 = tAt γ M st1 0 := by simp only [tAt, wall]
  have eU : ∀ j, uAt st' (s.toF * (i : ℤ)) j = uAt st1 (s.toF * (i : ℤ)) j := by
    intro j; simp only [uAt, inside]
  have hp : pAt γ st1 0 ≠ 0 := by
    rw [← eP0]
    have h : tAt γ M st' 0 = γ * M ^ 2 * pAt γ st' 0 / st' (.data .rho 0) := rfl
    intro h0
    rw [h0, hwt] at h
    simp at h
    exact hTw.ne' h
  have := C27_halo γ M Tw s n st1 i h1 hn hγ0 hγ1 hM hp (by rw [eT]; exact sub_ne_zero.2 hT)
  simp only [← hst'] at this
  obtain ⟨a, b, c⟩ := this
  refine ⟨hslip, hwt, by rw [a, eP0], ?_, fun j => by rw [c j, eU]⟩
  rw [b, hwt, eT']

/-- The extrapolated temperature is not bounded below: a positive wall state and an interior point more than twice as hot as the wall
give a negative density in the first halo point. -/
theorem C27_negative_density (γ M Tw : ℝ) (s : Side) (n : ℕ) (hn : 1 ≤ n) (st : Cell d → ℝ) (hγ : 1 < γ) (hM : M ≠ 0)
    (hp : 0 < pAt γ st 0) (hT : 2 * Tw < tAt γ M st s.toF) :
    run (isothermalHaloPart d γ M Tw s n) st (.data .rho s.fromF) < 0 := by
  have h := isothermal_run γ M Tw s n st (.rho) (s.fromF * ((1 : ℕ) : ℤ))
  rw [show s.fromF * ((1 : ℕ) : ℤ) = s.fromF by simp] at h
  rw [h]
  simp only [isoFinal]
  have h1 : s.fromF * s.fromF = 1 := by cases s <;> rfl
  rw [h1, if_pos ⟨le_rfl, by omega⟩]
  show isoRho γ M Tw s st 1 < 0
  rw [isoRho]
  apply div_neg_of_pos_of_neg
  · have : 0 < M * M := mul_self_pos.2 hM
    have h2 : pAt γ st 0 * γ * M * M = pAt γ st 0 * γ * (M * M) := by ring
    rw [h2]; positivity
  · rw [isoT]; push_cast; linarith

/-- A case of `C27_isothermal_wall`: two dimensions, three halo points, upper side, γ = 7/5, M = 2, wall and gas at temperature 1
with the gas moving. -/
example : ∃ st : Cell 2 → ℝ, 0 < st (.data .rho 0) ∧ ((3 : ℕ) + 1 : ℝ) * 1 ≠ (3 : ℕ) * tAt (7 / 5) 2 st Side.right.toF := by
  refine ⟨fun c => match c with
    | .data .rho _ => 1 | .data (.mom _) _ => 1 | .data .rhoE _ => 2 | _ => 0, by simp, ?_⟩
  simp [tAt, Spec.temperatureOf, Spec.pressureOf]; norm_num

/-! ### C28: adiabatic walls -/

/-- One-sided difference used by the adiabatic wall: third order accurate first derivative on four points. -/
noncomputable def oneSided : Closure.Row := [(0, -11 / 6), (1, 3), (2, -3 / 2), (3, 1 / 3)]

/-- The one-sided difference is the derivative: exact for every cubic polynomial. -/
theorem C28_one_sided_exact (p : Polynomial ℝ) (hp : p.natDegree ≤ 3) (x₀ h : ℝ) (hh : h ≠ 0) :
    oneSided.eval (fun j => p.eval (x₀ + j * h)) 0 * (1 / h) = p.derivative.eval x₀ := by
  have := Closure.row_exact oneSided 3 1 (by norm_num) (by
    intro j hj
    interval_cases j <;> simp [oneSided] <;> norm_num) p hp x₀ h hh 0
  simpa using this

/-- All assignments of the adiabatic wall kernel. -/
theorem mem_adiabatic {γ M : ℝ} {s : Side} {n : ℕ} {a : Assign d} (h : a ∈ adiabaticWall d γ M s n) :
    (∃ i : ℕ, 1 ≤ i ∧ i ≤ n ∧ a = ⟨.data .rho (s.fromF * (i : ℤ)), dat .rho (s.toF * (i : ℤ))⟩) ∨
    (∃ j, a = ⟨.data (.mom j) 0, dat .rho 0 * .num 0⟩) ∨
    (∃ i : ℕ, 1 ≤ i ∧ i ≤ n ∧ ∃ j, a = ⟨.data (.mom j) (s.fromF * (i : ℤ)), -(dat (.mom j) (s.toF * (i : ℤ)))⟩) ∨
    (a = ⟨.data .rhoE 0, dat .rho 0 * adiabaticTwall d γ M s / (.num γ * .num M * .num M) / (.num γ - .num 1)⟩) ∨
    (∃ i : ℕ, 1 ≤ i ∧ i ≤ n ∧ a = ⟨.data .rhoE (s.fromF * (i : ℤ)), dat .rhoE (s.toF * (i : ℤ))⟩) := by
  simp only [adiabaticWall, List.mem_append, List.mem_map, List.mem_flatMap, List.mem_finRange, true_and,
    List.mem_singleton, List.mem_range'_1] at h
  rcases h with (⟨i, hi, rfl⟩ | ⟨j, rfl⟩ | ⟨i, hi, j, rfl⟩) | rfl | ⟨i, hi, rfl⟩
  · exact Or.inl ⟨i, by omega, by omega, rfl⟩
  · exact Or.inr (Or.inl ⟨j, rfl⟩)
  · exact Or.inr (Or.inr (Or.inl ⟨i, by omega, by omega, j, rfl⟩))
  · exact Or.inr (Or.inr (Or.inr (Or.inl rfl)))
  · exact Or.inr (Or.inr (Or.inr (Or.inr ⟨i, by omega, by omega, rfl⟩)))

theorem adiabatic_target {γ M : ℝ} {s : Side} {n : ℕ} {a : Assign d} (h : a ∈ adiabaticWall d γ M s n) :
    (∃ v : Var d, v ≠ .rho ∧ a.target = .data v 0) ∨ ∃ v, ∃ i : ℕ, 1 ≤ i ∧ a.target = .data v (s.fromF * (i : ℤ)) := by
  rcases mem_adiabatic h with ⟨i, h1, -, rfl⟩ | ⟨j, rfl⟩ | ⟨i, h1, -, j, rfl⟩ | rfl | ⟨i, h1, -, rfl⟩
  · exact Or.inr ⟨_, i, h1, rfl⟩
  · exact Or.inl ⟨_, by simp, rfl⟩
  · exact Or.inr ⟨_, i, h1, rfl⟩
  · exact Or.inl ⟨_, by simp, rfl⟩
  · exact Or.inr ⟨_, i, h1, rfl⟩

theorem mem_cells_Twall {γ M : ℝ} {s : Side} {c : Cell d} (h : c ∈ (adiabaticTwall d γ M s).cells) :
    ∃ t : ℕ, 1 ≤ t ∧ c ∈ consCells d (s.toF * (t : ℤ)) := by
  simp only [adiabaticTwall, cells_mul, cells_sub, cells_add, cells_num, List.nil_append, List.mem_append] at h
  have key : ∀ k, c ∈ ((temperature d γ M).shift k).cells → c ∈ consCells d k :=
    fun k hc => mem_cells_shift (fun c hc => mem_cells_temperature hc) hc
  rcases h with (h | h) | h
  · exact ⟨1, le_rfl, by simpa using key _ h⟩
  · exact ⟨3, by norm_num, by rw [show s.toF * ((3 : ℕ) : ℤ) = 3 * s.toF by push_cast; ring]; exact key _ h⟩
  · exact ⟨2, by norm_num, by rw [show s.toF * ((2 : ℕ) : ℤ) = 2 * s.toF by push_cast; ring]; exact key _ h⟩

/-- No equation of the adiabatic wall kernel reads a cell the kernel assigns. -/
theorem adiabatic_indep {γ M : ℝ} {s : Side} {n : ℕ} :
    ∀ a ∈ adiabaticWall d γ M s n, ∀ c ∈ a.rhs.cells, ∀ b ∈ adiabaticWall d γ M s n, b.target ≠ c := by
  have tgt : ∀ b ∈ adiabaticWall d γ M s n, ∀ v (t : ℕ), 1 ≤ t → b.target ≠ .data v (s.toF * (t : ℤ)) := by
    intro b hb v t ht h
    rcases adiabatic_target hb with ⟨w, -, e⟩ | ⟨w, i, hi, e⟩
    · rw [e] at h; injection h with _ h
      rcases mul_eq_zero.1 h.symm with h | h
      · exact toF_ne s h
      · omega
    · rw [e] at h; injection h with _ h; exact from_ne_to s hi h
  have tgt0 : ∀ b ∈ adiabaticWall d γ M s n, b.target ≠ .data .rho 0 := by
    intro b hb h
    rcases adiabatic_target hb with ⟨w, hw, e⟩ | ⟨w, i, hi, e⟩
    · rw [e] at h; injection h with h _; exact hw h
    · rw [e] at h; injection h with _ h
      rcases mul_eq_zero.1 h with h | h
      · exact fromF_ne s h
      · omega
  intro a ha c hc b hb
  rcases mem_adiabatic ha with ⟨i, h1, -, rfl⟩ | ⟨j, rfl⟩ | ⟨i, h1, -, j, rfl⟩ | rfl | ⟨i, h1, -, rfl⟩
  · simp at hc; subst hc; exact tgt b hb _ i h1
  · simp at hc; subst hc; exact tgt0 b hb
  · simp at hc; subst hc; exact tgt b hb _ i h1
  · simp only [cells_div, cells_mul, cells_sub, cells_num, cells_dat, List.append_nil, List.mem_append,
      List.mem_singleton] at hc
    rcases hc with rfl | hc
    · exact tgt0 b hb
    · obtain ⟨t, ht, hc⟩ := mem_cells_Twall hc
      rcases hc with rfl | rfl | ⟨i, rfl⟩ <;> exact tgt b hb _ t ht
  · simp at hc; subst hc; exact tgt b hb _ i h1

/-- C28, halo points of the adiabatic wall: density and energy are copied from the mirror point and momentum is negated, so pressure,
temperature are mirrored and the velocity is reversed. -/
theorem C28_halo (γ M : ℝ) (s : Side) (n : ℕ) (st : Cell d → ℝ) (i : ℕ) (h1 : 1 ≤ i) (hn : i ≤ n) :
    let st' := run (adiabaticWall d γ M s n) st
    st' (.data .rho (s.fromF * (i : ℤ))) = st (.data .rho (s.toF * (i : ℤ))) ∧
    (∀ j, st' (.data (.mom j) (s.fromF * (i : ℤ))) = - st (.data (.mom j) (s.toF * (i : ℤ)))) ∧
    st' (.data .rhoE (s.fromF * (i : ℤ))) = st (.data .rhoE (s.toF * (i : ℤ))) ∧
    tAt γ M st' (s.fromF * (i : ℤ)) = tAt γ M st (s.toF * (i : ℤ)) := by
  intro st'
  have hi : i ∈ List.range' 1 n := by rw [List.mem_range'_1]; omega
  have z : ∀ i : ℕ, 1 ≤ i → s.fromF * (i : ℤ) ≠ 0 := by
    intro i hi h; rcases mul_eq_zero.1 h with h | h
    · exact fromF_ne s h
    · omega
  have hr : st' (.data .rho (s.fromF * (i : ℤ))) = st (.data .rho (s.toF * (i : ℤ))) := by
    obtain ⟨a, ha, e1, e2⟩ := run_indep (adiabaticWall d γ M s n) st adiabatic_indep (.data .rho (s.fromF * (i : ℤ)))
      ⟨⟨.data .rho (s.fromF * (i : ℤ)), dat .rho (s.toF * (i : ℤ))⟩, by
        simp only [adiabaticWall, List.mem_append, List.mem_map]
        exact Or.inl (Or.inl ⟨i, hi, rfl⟩), rfl⟩
    simp only [st', e2]
    rcases mem_adiabatic ha with ⟨k, _, -, rfl⟩ | ⟨j, rfl⟩ | ⟨k, _, -, j, rfl⟩ | rfl | ⟨k, _, -, rfl⟩ <;>
      simp only [Cell.data.injEq, reduceCtorEq, false_and, true_and] at e1
    have := fromF_mul_inj s e1
    rw [eval_dat, this]
  have hm : ∀ j, st' (.data (.mom j) (s.fromF * (i : ℤ))) = - st (.data (.mom j) (s.toF * (i : ℤ))) := by
    intro j
    obtain ⟨a, ha, e1, e2⟩ := run_indep (adiabaticWall d γ M s n) st adiabatic_indep (.data (.mom j) (s.fromF * (i : ℤ)))
      ⟨⟨.data (.mom j) (s.fromF * (i : ℤ)), -(dat (.mom j) (s.toF * (i : ℤ)))⟩, by
        simp only [adiabaticWall, List.mem_append, List.mem_map, List.mem_flatMap]
        exact Or.inl (Or.inr (Or.inr ⟨i, hi, j, List.mem_finRange j, rfl⟩)), rfl⟩
    simp only [st', e2]
    rcases mem_adiabatic ha with ⟨k, _, -, rfl⟩ | ⟨j', rfl⟩ | ⟨k, _, -, j', rfl⟩ | rfl | ⟨k, _, -, rfl⟩ <;>
      simp only [Cell.data.injEq, reduceCtorEq, false_and, Var.mom.injEq] at e1
    · exact absurd e1.2.symm (z i h1)
    · have := fromF_mul_inj s e1.2
      rw [eval_neg, eval_dat, this, e1.1]
  have hE : st' (.data .rhoE (s.fromF * (i : ℤ))) = st (.data .rhoE (s.toF * (i : ℤ))) := by
    obtain ⟨a, ha, e1, e2⟩ := run_indep (adiabaticWall d γ M s n) st adiabatic_indep (.data .rhoE (s.fromF * (i : ℤ)))
      ⟨⟨.data .rhoE (s.fromF * (i : ℤ)), dat .rhoE (s.toF * (i : ℤ))⟩, by
        simp only [adiabaticWall, List.mem_append, List.mem_map]
        exact Or.inr (Or.inr ⟨i, hi, rfl⟩), rfl⟩
    simp only [st', e2]
    rcases mem_adiabatic ha with ⟨k, _, -, rfl⟩ | ⟨j, rfl⟩ | ⟨k, _, -, j, rfl⟩ | rfl | ⟨k, _, -, rfl⟩ <;>
      simp only [Cell.data.injEq, reduceCtorEq, false_and, true_and] at e1
    · exact absurd e1.symm (z i h1)
    · have := fromF_mul_inj s e1
      rw [eval_dat, this]
  refine ⟨hr, hm, hE, ?_⟩
  simp only [tAt, Spec.temperatureOf, Spec.pressureOf, hr, hm, hE, neg_sq]

/-- C28, wall point of the adiabatic wall: at rest, density unchanged, and the one-sided difference of the temperature along the normal,
taken over the wall and the three points inside, is zero. -/
theorem C28_wall (γ M : ℝ) (s : Side) (n : ℕ) (st : Cell d → ℝ) (hγ : γ ≠ 0) (hγ1 : γ ≠ 1) (hM : M ≠ 0)
    (hρ : st (.data .rho 0) ≠ 0) :
    let st' := run (adiabaticWall d γ M s n) st
    (∀ j, st' (.data (.mom j) 0) = 0) ∧ st' (.data .rho 0) = st (.data .rho 0) ∧
    oneSided.eval (fun k => tAt γ M st' (s.toF * k)) 0 = 0 := by
  intro st'
  have z : ∀ i : ℕ, 1 ≤ i → s.fromF * (i : ℤ) ≠ 0 := by
    intro i hi h; rcases mul_eq_zero.1 h with h | h
    · exact fromF_ne s h
    · omega
  have hm : ∀ j, st' (.data (.mom j) 0) = 0 := by
    intro j
    obtain ⟨a, ha, e1, e2⟩ := run_indep (adiabaticWall d γ M s n) st adiabatic_indep (.data (.mom j) 0)
      ⟨⟨.data (.mom j) 0, dat .rho 0 * .num 0⟩, by
        simp only [adiabaticWall, List.mem_append, List.mem_map, List.mem_flatMap]
        exact Or.inl (Or.inr (Or.inl ⟨j, List.mem_finRange j, rfl⟩)), rfl⟩
    simp only [st', e2]
    rcases mem_adiabatic ha with ⟨k, _, -, rfl⟩ | ⟨j', rfl⟩ | ⟨k, hk, -, j', rfl⟩ | rfl | ⟨k, _, -, rfl⟩ <;>
      simp only [Cell.data.injEq, reduceCtorEq, false_and, Var.mom.injEq] at e1
    · simp
    · exact absurd e1.2 (z k hk)
  have hin : ∀ v (t : ℕ), 1 ≤ t → st' (.data v (s.toF * (t : ℤ))) = st (.data v (s.toF * (t : ℤ))) := by
    intro v t ht
    apply run_unwritten
    intro b hb h
    rcases adiabatic_target hb with ⟨w, -, e⟩ | ⟨w, i, hi, e⟩
    · rw [e] at h; injection h with _ h
      rcases mul_eq_zero.1 h.symm with h | h
      · exact toF_ne s h
      · omega
    · rw [e] at h; injection h with _ h; exact from_ne_to s hi h
  have hr : st' (.data .rho 0) = st (.data .rho 0) := by
    apply run_unwritten
    intro b hb h
    rcases adiabatic_target hb with ⟨w, hw, e⟩ | ⟨w, i, hi, e⟩
    · rw [e] at h; injection h with h _; exact hw h
    · rw [e] at h; injection h with _ h; exact z i hi h
  have tin : ∀ t : ℕ, 1 ≤ t → tAt γ M st' (s.toF * (t : ℤ)) = tAt γ M st (s.toF * (t : ℤ)) := by
    intro t ht; simp only [tAt, hin _ t ht]
  have hE : st' (.data .rhoE 0) = st (.data .rho 0) * (6 / 11 * (3 * tAt γ M st (s.toF * ((1 : ℕ) : ℤ))
      + 1 / 3 * tAt γ M st (s.toF * ((3 : ℕ) : ℤ)) - 3 / 2 * tAt γ M st (s.toF * ((2 : ℕ) : ℤ)))) / (γ * M * M) / (γ - 1) := by
    obtain ⟨a, ha, e1, e2⟩ := run_indep (adiabaticWall d γ M s n) st adiabatic_indep (.data .rhoE 0)
      ⟨_, by
        simp only [adiabaticWall, List.mem_append, List.mem_map]
        exact Or.inr (Or.inl (List.mem_singleton.2 rfl)), rfl⟩
    simp only [st', e2]
    rcases mem_adiabatic ha with ⟨k, _, -, rfl⟩ | ⟨j, rfl⟩ | ⟨k, _, -, j, rfl⟩ | rfl | ⟨k, hk, -, rfl⟩ <;>
      simp only [Cell.data.injEq, reduceCtorEq, false_and, true_and] at e1
    · simp only [eval_div, eval_mul, eval_sub, eval_num, eval_dat, adiabaticTwall, eval_add,
        eval_temperature_shift]
      rw [show s.toF * ((1 : ℕ) : ℤ) = s.toF by push_cast; ring,
        show s.toF * ((2 : ℕ) : ℤ) = 2 * s.toF by push_cast; ring,
        show s.toF * ((3 : ℕ) : ℤ) = 3 * s.toF by push_cast; ring]
      rfl
    · exact absurd e1 (z k hk)
  have hg : γ - 1 ≠ 0 := sub_ne_zero.2 hγ1
  have hT0 : tAt γ M st' 0 = 6 / 11 * (3 * tAt γ M st (s.toF * ((1 : ℕ) : ℤ))
      + 1 / 3 * tAt γ M st (s.toF * ((3 : ℕ) : ℤ)) - 3 / 2 * tAt γ M st (s.toF * ((2 : ℕ) : ℤ))) := by
    generalize 6 / 11 * (3 * tAt γ M st (s.toF * ((1 : ℕ) : ℤ))
      + 1 / 3 * tAt γ M st (s.toF * ((3 : ℕ) : ℤ)) - 3 / 2 * tAt γ M st (s.toF * ((2 : ℕ) : ℤ))) = X at hE ⊢
    simp only [tAt, Spec.temperatureOf, Spec.pressureOf, hr, hm, hE]
    simp
    field_simp
  refine ⟨hm, hr, ?_⟩
  simp only [oneSided, Closure.Row.eval, List.map_cons, List.map_nil, List.sum_cons, List.sum_nil, zero_add, mul_zero]
  rw [hT0]
  have e1 := tin 1 (by norm_num)
  have e2 := tin 2 (by norm_num)
  have e3 := tin 3 (by norm_num)
  push_cast at e1 e2 e3 ⊢
  rw [e1, e2, e3]
  ring

/-- A diagonally dominant system has a solution too small for the last equation. -/
theorem dominant_no_solution (a1 a2 a3 b4 b5 b6 b1 b2 b3 x y z e1 e2 e3 : ℝ)
    (h1 : 170 / 100 < a1) (h2 : 134 / 100 < a2) (h3 : 103 / 100 < a3) (h4 : |b4| < 51 / 100) (h5 : |b5| < 15 / 100)
    (h6 : |b6| < 11 / 100) (k1 : |b1| < 5 / 100) (k2 : |b2| < 2 / 100) (k3 : |b3| < 1 / 100)
    (c1 : |e1| < 1) (c2 : |e2| < 1 / 2) (c3 : |e3| < 1 / 2)
    (r1 : b4 * y + a1 * x + b5 * z = e1) (r2 : b4 * x + a2 * y + b6 * z = e2) (r3 : b5 * x + a3 * z + b6 * y = e3) :
    b1 * x + b2 * y + b3 * z ≠ -1 / 2 := by
  intro r0
  obtain ⟨m, hm, hmx⟩ : ∃ m, (|x| ≤ m ∧ |y| ≤ m ∧ |z| ≤ m) ∧ (m = |x| ∨ m = |y| ∨ m = |z|) := by
    refine ⟨max |x| (max |y| |z|), ⟨by simp, by simp, by simp⟩, ?_⟩
    rcases max_choice |x| (max |y| |z|) with h | h
    · exact Or.inl h
    · rcases max_choice |y| |z| with h' | h'
      · exact Or.inr (Or.inl (h.trans h'))
      · exact Or.inr (Or.inr (h.trans h'))
  have m0 : 0 ≤ m := (abs_nonneg x).trans hm.1
  have prod : ∀ a b c : ℝ, |a| < c → |b| ≤ m → |a * b| ≤ c * m := by
    intro a b c ha hb
    rw [abs_mul]
    exact mul_le_mul ha.le hb (abs_nonneg b) (by linarith [abs_nonneg a])
  have tri : ∀ a b c e : ℝ, a + b + c = e → |b| ≤ |a| + |c| + |e| := by
    intro a b c e he
    have : b = e + (-a) + (-c) := by linarith
    rw [this]
    calc |e + (-a) + (-c)| ≤ |e| + |-a| + |-c| := abs_add_three _ _ _
      _ = _ := by rw [abs_neg, abs_neg]; ring
  have m1 : m ≤ 3 / 2 := by
    rcases hmx with h | h | h
    · have t := tri _ _ _ _ r1
      have p1 := prod _ _ _ h4 hm.2.1
      have p2 := prod _ _ _ h5 hm.2.2
      rw [abs_mul, abs_of_pos (by linarith : 0 < a1), ← h] at t
      have := mul_le_mul_of_nonneg_right h1.le m0
      linarith
    · have t := tri _ _ _ _ r2
      have p1 := prod _ _ _ h4 hm.1
      have p2 := prod _ _ _ h6 hm.2.2
      rw [abs_mul, abs_of_pos (by linarith : 0 < a2), ← h] at t
      have := mul_le_mul_of_nonneg_right h2.le m0
      linarith
    · have t := tri _ _ _ _ r3
      have p1 := prod _ _ _ h5 hm.1
      have p2 := prod _ _ _ h6 hm.2.1
      rw [abs_mul, abs_of_pos (by linarith : 0 < a3), ← h] at t
      have := mul_le_mul_of_nonneg_right h3.le m0
      linarith
  have p1 := abs_le.1 (prod _ _ _ k1 hm.1)
  have p2 := abs_le.1 (prod _ _ _ k2 hm.2.1)
  have p3 := abs_le.1 (prod _ _ _ k3 hm.2.2)
  linarith [p1.1, p2.1, p3.1]

theorem ar4_col_bounds : |Closure.ar4 1 0| < 1 ∧ |Closure.ar4 2 0| < 1 / 2 ∧ |Closure.ar4 3 0| < 1 / 2 := by
  have sl := Closure.sqrt_lower
  have su := Closure.sqrt_upper
  have eR1 : Closure.R1 = -(2177*√295369 - 1166427)/25488 := rfl
  have eR2 := Closure.R2_eq
  rw [show Closure.ar4 1 0 = (864*Closure.R2+6480*Closure.R1+305)/4320 from rfl,
    show Closure.ar4 2 0 = -(216*Closure.R2+1620*Closure.R1+725)/540 from rfl,
    show Closure.ar4 3 0 = (864*Closure.R2+6480*Closure.R1+3335)/4320 from rfl, eR2, eR1, abs_lt, abs_lt, abs_lt]
  refine ⟨⟨?_, ?_⟩, ⟨?_, ?_⟩, ?_, ?_⟩ <;> linarith

/-- The leading Carpenter coefficient is nonzero, so the wall temperature of the Carpenter adiabatic wall is well defined. -/
theorem bc4_00_ne : Closure.bc4 0 0 ≠ 0 := by
  intro h0
  have h := Closure.al4_mul_bc4
  obtain ⟨⟨-, a1, a2, a3⟩, ⟨b1, b2, b3⟩, b4, b5, b6⟩ := Closure.al4_bounds
  obtain ⟨c1, c2, c3⟩ := ar4_col_bounds
  have row : ∀ i : Fin 4, Closure.al4 i 1 * Closure.bc4 1 0
      + Closure.al4 i 2 * Closure.bc4 2 0 + Closure.al4 i 3 * Closure.bc4 3 0 = Closure.ar4 i 0 := by
    intro i
    have := congrFun (congrFun h i) 0
    rw [Matrix.mul_apply, Fin.sum_univ_four, h0, mul_zero, zero_add] at this
    exact this
  have r1 := row 1
  have r2 := row 2
  have r3 := row 3
  rw [Closure.al4_symm 2 1] at r2
  rw [Closure.al4_symm 3 1, Closure.al4_symm 3 2] at r3
  refine dominant_no_solution _ _ _ _ _ _ _ _ _ (Closure.bc4 1 0) (Closure.bc4 2 0) (Closure.bc4 3 0)
    _ _ _ a1 a2 a3 b4 b5 b6 b1 b2 b3 c1 c2 c3 ?_ ?_ ?_ ?_
  · rw [← r1]; ring
  · rw [← r2]
  · rw [← r3]; ring
  · rw [row 0]; rfl

/-- C28, Carpenter adiabatic wall: at rest, density unchanged, and the boundary row of the Carpenter derivative applied to the
temperature along the normal is zero. -/
theorem C28_carpenter_wall (γ M : ℝ) (s : Side) (st : Cell d → ℝ) (hγ : γ ≠ 0) (hγ1 : γ ≠ 1) (hM : M ≠ 0)
    (hρ : st (.data .rho 0) ≠ 0) :
    let st' := run (adiabaticCarpenter d γ M (consArrays d) s) st
    (∀ j, st' (.data (.mom j) 0) = 0) ∧ st' (.data .rho 0) = st (.data .rho 0) ∧
    ∑ i : Fin 6, derivCoeffs s i * tAt γ M st' ((i : ℤ) * s.toF) = 0 := by
  intro st'
  set A : List (Assign d) := (List.finRange d).map fun (j : Fin d) => ⟨.data (.mom j) 0, .num 0⟩ with hA
  set B : List (Assign d) :=
    (List.range' 1 5).map fun (i : ℕ) => ⟨.loc (.t i), (temperature d γ M).shift ((i : ℤ) * s.toF)⟩ with hB
  have hprog : st' = run [⟨.loc (.t 0), .num (-1) * Expr.sum ((List.finRange 5).map fun (i : Fin 5) =>
      .num (derivCoeffs s i.succ) * lv (.t (i.1 + 1))) / .num (derivCoeffs s 0)⟩,
      ⟨.data .rhoE 0, dat .rho 0 * lv (.t 0) / (.num M * .num M * .num γ * (.num γ - .num 1))⟩]
      (run B (run A st)) := by
    simp only [st', adiabaticCarpenter, consArrays, List.flatMap_cons, List.flatMap_nil, List.nil_append,
      List.append_nil]
    rw [run_append, run_append]
  have hBd : ∀ v k (st₀ : Cell d → ℝ), run B st₀ (.data v k) = st₀ (.data v k) := by
    intro v k st₀
    apply run_unwritten
    intro a ha
    obtain ⟨i, -, rfl⟩ := List.mem_map.1 ha
    simp
  have hAd : ∀ v k, (k ≠ 0 ∨ ∀ j, v ≠ .mom j) → run A st (.data v k) = st (.data v k) := by
    intro v k h
    apply run_unwritten
    intro a ha
    obtain ⟨j, -, rfl⟩ := List.mem_map.1 ha
    intro e; injection e with e1 e2
    rcases h with h | h
    · exact h e2.symm
    · exact h j e1.symm
  have hAm : ∀ j, run A st (.data (.mom j) 0) = 0 := by
    intro j
    obtain ⟨a, ha, e1, e2⟩ := run_indep A st (c := .data (.mom j) 0)
      (by
        intro a ha c hc
        obtain ⟨j, -, rfl⟩ := List.mem_map.1 ha
        simp at hc)
      ⟨_, List.mem_map_of_mem (List.mem_finRange j), rfl⟩
    obtain ⟨j', -, rfl⟩ := List.mem_map.1 ha
    rw [e2, eval_num]
  have hBt : ∀ i : ℕ, 1 ≤ i → i ≤ 5 → run B (run A st) (.loc (.t i)) = tAt γ M st ((i : ℤ) * s.toF) := by
    intro i h1 h5
    obtain ⟨a, ha, e1, e2⟩ := run_indep B (run A st) (c := .loc (.t i))
      (by
        intro a ha c hc b hb
        obtain ⟨k, -, rfl⟩ := List.mem_map.1 ha
        obtain ⟨k', -, rfl⟩ := List.mem_map.1 hb
        rcases mem_cells_shift (fun c hc => mem_cells_temperature hc) hc with rfl | rfl | ⟨_, rfl⟩ <;> simp)
      ⟨_, List.mem_map_of_mem (show i ∈ List.range' 1 5 by rw [List.mem_range'_1]; omega), rfl⟩
    obtain ⟨k, -, rfl⟩ := List.mem_map.1 ha
    simp only [Cell.loc.injEq, Loc.t.injEq] at e1
    subst e1
    rw [e2, eval_temperature_shift]
    have hk : (k : ℤ) * s.toF ≠ 0 := by
      intro h; rcases mul_eq_zero.1 h with h | h
      · omega
      · exact toF_ne s h
    simp only [hAd _ _ (Or.inl hk)]
    rfl
  set st2 := run B (run A st) with hst2
  have hd : ∀ v k, (k ≠ 0 ∨ v ≠ .rhoE) → st' (.data v k) = st2 (.data v k) := by
    intro v k h
    rw [hprog]
    apply run_unwritten
    intro a ha
    simp only [List.mem_cons, List.not_mem_nil, or_false] at ha
    rcases ha with rfl | rfl
    · simp
    · intro e; injection e with e1 e2
      rcases h with h | h
      · exact h e2.symm
      · exact h e1.symm
  have hm : ∀ j, st' (.data (.mom j) 0) = 0 := by
    intro j; rw [hd _ _ (Or.inr (by simp)), hst2, hBd, hAm]
  have hr : st' (.data .rho 0) = st (.data .rho 0) := by
    rw [hd _ _ (Or.inr (by simp)), hst2, hBd, hAd _ _ (Or.inr (by simp))]
  have hE : st' (.data .rhoE 0) = st (.data .rho 0) *
      (-1 * (∑ i : Fin 5, derivCoeffs s i.succ * tAt γ M st ((((i : ℕ) + 1 : ℕ) : ℤ) * s.toF)) / derivCoeffs s 0) /
      (M * M * γ * (γ - 1)) := by
    rw [hprog, run_cons, run_cons, run_nil, Function.update_self]
    simp only [eval_div, eval_mul, eval_dat, eval_lv, eval_num, eval_sub, eval_sum, List.map_map, Function.comp_def,
      Function.update_self]
    rw [Function.update_of_ne (by simp)]
    rw [hst2, hBd, hAd _ _ (Or.inr (by simp)), ← hst2]
    rw [sum_finRange (fun i : Fin 5 => derivCoeffs s i.succ * st2 (.loc (.t (i.1 + 1))))]
    rw [Finset.sum_congr rfl fun (i : Fin 5) _ => by rw [hBt (i.1 + 1) (by omega) (by omega)]]
  have hc0 : derivCoeffs s 0 ≠ 0 := by
    cases s
    · exact bc4_00_ne
    · exact neg_ne_zero.2 bc4_00_ne
  have hg : γ - 1 ≠ 0 := sub_ne_zero.2 hγ1
  refine ⟨hm, hr, ?_⟩
  have tin : ∀ i : Fin 5, tAt γ M st' (((i.succ : Fin 6) : ℤ) * s.toF) = tAt γ M st ((((i : ℕ) + 1 : ℕ) : ℤ) * s.toF) := by
    intro i
    have hk : ((i.succ : Fin 6) : ℤ) * s.toF ≠ 0 := by
      intro h; rcases mul_eq_zero.1 h with h | h
      · simp at h; omega
      · exact toF_ne s h
    simp only [tAt, hd _ _ (Or.inl hk), hst2, hBd, hAd _ _ (Or.inl hk)]
    simp
  rw [Fin.sum_univ_succ]
  simp only [tin]
  have hT0 : tAt γ M st' (((0 : Fin 6) : ℤ) * s.toF) =
      -1 * (∑ i : Fin 5, derivCoeffs s i.succ * tAt γ M st ((((i : ℕ) + 1 : ℕ) : ℤ) * s.toF)) / derivCoeffs s 0 := by
    rw [show ((0 : Fin 6) : ℤ) * s.toF = 0 by simp]
    generalize -1 * (∑ i : Fin 5, derivCoeffs s i.succ * tAt γ M st ((((i : ℕ) + 1 : ℕ) : ℤ) * s.toF)) / derivCoeffs s 0 = X at hE ⊢
    simp only [tAt, Spec.temperatureOf, Spec.pressureOf, hr, hm, hE]
    simp
    field_simp
  rw [hT0]
  field_simp
  ring

/-- The coefficients of the Carpenter adiabatic wall are a first derivative: exact for cubic polynomials, on both sides (`k ↦ x₀ + k h`
runs away from the wall on side `0` and towards it on side `1`). -/
theorem C28_carpenter_exact (s : Side) (p : Polynomial ℝ) (hp : p.natDegree ≤ 3) (x₀ h : ℝ) (hh : h ≠ 0) :
    (∑ i : Fin 6, derivCoeffs s i * p.eval (x₀ + (((i : ℤ) * s.toF : ℤ) : ℝ) * h)) * (1 / h) = p.derivative.eval x₀ := by
  let r : Closure.Row := (List.finRange 6).map fun (i : Fin 6) => ((i : ℤ) * s.toF, derivCoeffs s i)
  have hr := Closure.row_exact r 3 1 (by norm_num) (by
    intro j hj
    have hm := Closure.bc4_moments 0 j hj
    simp only [r, List.map_map, Function.comp_def]
    rw [sum_finRange (fun i : Fin 6 => derivCoeffs s i * ((((i : ℤ) * s.toF : ℤ) : ℝ)) ^ j)]
    simp only [Fin.val_zero, Nat.cast_zero, sub_zero] at hm
    cases s with
    | left =>
      simp only [derivCoeffs, Side.toF, mul_one, Nat.factorial_one, Nat.cast_one]
      rw [← hm]
      exact Finset.sum_congr rfl fun i _ => by push_cast; rfl
    | right =>
      simp only [derivCoeffs, Side.toF, Nat.factorial_one, Nat.cast_one]
      have : ∀ i : Fin 6, -Closure.bc4 0 i * ((((i : ℤ) * (-1) : ℤ) : ℝ)) ^ j =
          -(-1) ^ j * (Closure.bc4 0 i * ((i : ℕ) : ℝ) ^ j) := by
        intro i; push_cast; rw [mul_neg_one, neg_pow]; ring
      simp only [this, ← Finset.mul_sum, hm]
      by_cases h : j = 1
      · subst h; simp
      · simp [h]) p hp x₀ h hh 0
  simp only [r, Closure.Row.eval, List.map_map, Function.comp_def, zero_add, pow_one, Function.iterate_one,
    Int.cast_zero, zero_mul, add_zero] at hr
  rw [sum_finRange (fun i : Fin 6 => derivCoeffs s i * p.eval (x₀ + (((i : ℤ) * s.toF : ℤ) : ℝ) * h))] at hr
  exact hr

/-- A case of `C28_wall`: interior temperatures `1, 2, 5` (times a common factor) give a wall temperature for which the difference
vanishes although the temperature is not constant. -/
example : oneSided.eval (fun k => if k = 0 then 6 / 11 * (3 * 1 + 1 / 3 * 5 - 3 / 2 * 2) else if k = 1 then 1 else
    if k = 2 then 2 else 5) 0 = 0 := by
  simp [oneSided, Closure.Row.eval]; norm_num

end OpenSBLI.Bc
