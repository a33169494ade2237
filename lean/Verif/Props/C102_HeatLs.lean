import Verif.Props.C102_Heat
import Verif.Props.C88_WaveLs
import Mathlib.Analysis.Calculus.IteratedDeriv.Lemmas
import Mathlib.Analysis.SpecialFunctions.ExpDeriv

/-!
# C102: printed programs of diffusion with the low storage schemes
-/
namespace OpenSBLI.Sim
open OpenSBLI.Reg OpenSBLI.CCode OpenSBLI.Order

/-- `niter` steps of a low storage scheme with `st` stages. -/
noncomputable def heatInputLs (st N niter : ℤ) : Alg.Input (Call 1) where
  temporalSchemes := 1
  items := [(heat N).item .lowStorage (heat_spatial N).choose]
  stages := st
  niter := niter
  monitorFrequency := none
  ios := []

/-- The text of the program. -/
noncomputable def heatTextLs (As Bs : List ℝ) (inputs : String → ℝ) : Text 1 where
  names := (waveTextLs As Bs inputs).names
  delta := ![ "Delta0block0" ]
  order := 2
  lib := sineLib
  ops := heatOps
  inputs := inputs
  table t := if t = "rkA" then As else Bs
  mods := fun _ => ⟨none, none⟩
  points := ![ "block0np0" ]
  carpenter := fun _ _ => 0
  fns := fun _ => none

theorem heat_open_ls (As Bs : List ℝ) (inputs : String → ℝ) (d : Fin 1) : ¬ (heatTextLs As Bs inputs).hasClosure d := by simp [Text.hasClosure, heatTextLs]

theorem heat_suits_ls (As Bs : List ℝ) (inputs : String → ℝ) (st N niter : ℤ) : (heatTextLs As Bs inputs).Suits (heat N) .lowStorage (heatInputLs st N niter) waveArrays where
  lib := sineLib_conforms
  powers := realLib_powers
  registered := heatOps_registered
  injective := wave_names_ls As Bs inputs
  order := rfl
  works i := trivial
  arrays i := by rw [Subsingleton.elim i 0]; simp [waveArrays, heat]
  rhs i := by
    rw [Subsingleton.elim i 0]
    have hc : "kappa" ∈ (Rc.empty.performs heatOps).names := by decide +kernel
    refine ⟨fun a ha => ?_, hc, ⟨trivial, rfl, ⟨.inv, by simp [heatTextLs, heatOps, Text.inverse]⟩, fun h => absurd h (heat_open_ls As Bs inputs 0)⟩, by simp [Ex.isInt]⟩
    have : a ∈ [Arr.data "phi"] := ha
    rw [List.mem_singleton.1 this]
    simp [waveArrays]
  rel s e h := by simp [heat] at h
  step := by
    change "dt" ∈ (Rc.empty.performs heatOps).names
    decide +kernel
  tables c hc := by
    refine ⟨?_, ?_⟩
    · simp only [coefficients, List.mem_cons, List.not_mem_nil, or_false] at hc
      rcases hc with rfl | rfl <;> exact not_generated (by decide)
    · change c ∉ (Rc.empty.performs heatOps).names
      revert c; decide +kernel
  others o places ks h := by simp [heatInputLs, Setup.item] at h

theorem heat_program_ls (As Bs : List ℝ) {pts : Ranges.Kernel 1 → List (P 1)} (hp : Enumerates pts) (inputs : String → ℝ) (st N niter : ℤ) :
    ∃ prg, Program (heat N) .lowStorage ((heatTextLs As Bs inputs).meaning ((heatTextLs As Bs inputs).const prg) 0) pts (heatInputLs st N niter) prg := by
  have hg : ∃ prg, Alg.generate (heatInputLs st N niter) = .ok prg := by
    simp [Alg.generate, heatInputLs, Setup.item, Alg.Acc.add, Alg.sortByOrder]
    exact ⟨_, rfl⟩
  obtain ⟨prg, hg⟩ := hg
  refine ⟨prg, heat_valid N, hp, central_local (central_meaning rfl (heat_open_ls As Bs inputs) _ _), ⟨[], [], _, (heat_spatial N).choose_spec, rfl, by simp, by simp⟩, ?_, hg⟩
  intro o places k h
  simp [heatInputLs, Setup.item] at h

theorem heat_inputs_ls {As Bs : List ℝ} {prg : List (Alg.Node (Call 1))} {pts : Ranges.Kernel 1 → List (P 1)} (inputs : String → ℝ) (st N niter : ℤ)
    (hP : Program (heat N) .lowStorage ((heatTextLs As Bs inputs).meaning ((heatTextLs As Bs inputs).const prg) 0) pts (heatInputLs st N niter) prg) (s : String) (hs : s ∈ ["dt", "kappa", "Delta0block0"]) :
    (heatTextLs As Bs inputs).const prg s = inputs s := by
  have hst : ⟨s, none⟩ ∈ (heatTextLs As Bs inputs).start.constants := by
    change (⟨s, none⟩ : Const (Sym 1)) ∈ (Rc.empty.performs heatOps).constants
    have h : (Rc.empty.performs heatOps).constants = (Rc.empty.performs heatOps).constants.take 4 ++ (Rc.empty.performs heatOps).constants.drop 4 := (List.take_append_drop 4 _).symm
    have h2 : (Rc.empty.performs heatOps).constants.take 4 = [⟨"block0np0", none⟩, ⟨"dt", none⟩, ⟨"kappa", none⟩, ⟨"Delta0block0", none⟩] := by with_unfolding_all rfl
    rw [h, h2]
    simp only [List.mem_cons, List.not_mem_nil, or_false] at hs
    rcases hs with rfl | rfl | rfl <;> simp
  exact C85_constants (fits (heat_suits_ls As Bs inputs st N niter) hP).1 ⟨s, none⟩ hst ⟨(heatTextLs As Bs inputs).const prg, fun _ => 0, 0⟩ rfl (by simp) ⟨fun _ _ => 0, fun _ => 0⟩

theorem heat_start_ls (As Bs : List ℝ) (inputs : String → ℝ) (st N niter : ℤ) (prg : List (Alg.Node (Call 1))) (pts : Ranges.Kernel 1 → List (P 1)) (B : Sol 1 1 → Sol 1 1) (a : Arrays 1) :
    (heatTextLs As Bs inputs).startState (heat N) prg pts B (heatInputLs st N niter) a = fun A => a ((heatTextLs As Bs inputs).names A) := by
  simp [Text.startState, atStart, heatInputLs, Alg.others, Setup.item, Alg.sortByOrder, Alg.placedAt, Alg.calls, Alg.effect]

/-- **C102.** The printed program of diffusion with `RungeKuttaLS(4)` converges at every grid point to any smooth periodic solution whose values the array contains at the start, with one constant for all numbers of points and all time steps up to half
the square of the spacing over the diffusivity, and up to the last digit of the decimals of the scheme. Nothing is assumed about the program. -/
theorem C102_heat_ls4 (κ time : ℝ) (U : Fin 1 → ℝ → E 1 → ℝ) (hU : SolvesParabolic (fun _ _ => 0) (fun _ _ => κ) (fun _ => 1) U) : ∃ C : ℝ, ∀ sum : ℝ, TimeDerivatives U time sum → ∀ (N niter : ℕ) (inputs : String → ℝ), 1 ≤ N → inputs "kappa" = κ → inputs "Delta0block0" = 1 / N →
    0 ≤ κ → 0 ≤ inputs "dt" → inputs "dt" ≤ 1 → inputs "dt" * κ ≤ (1 / N) ^ 2 / 2 → niter * inputs "dt" ≤ time → ∀ (pts : Ranges.Kernel 1 → List (P 1)), Enumerates pts → ∀ a : Arrays 1,
      (∀ x, Grid ![(N : ℤ)] x → a "phi_B0" x = U 0 0 fun d => x d * (1 / N)) →
      ∃ prg a', Alg.generate (heatInputLs 5 N niter) = .ok prg ∧ (heatTextLs RK.lsA4R RK.lsB4R inputs).run prg pts ![ "phi" ] (exchange ![(N : ℤ)] 1) (Alg.runProgram prg) a = some a' ∧
        ∀ x, Grid ![(N : ℤ)] x → |a' "phi_B0" x - U 0 (niter * inputs "dt") fun d => x d * (1 / N)| ≤ C * (inputs "dt" ^ 4 + (1 / N) ^ 2) + time * sum / 10 ^ 13 := by
  obtain ⟨C, hC⟩ := C102_text_ls4_partial (fun _ _ => 0) (fun _ _ => κ) (fun _ => 1) (fun _ => one_pos) U hU time
  refine ⟨C, ?_⟩
  intro sum hsum N niter inputs hN hκ hδ hκ0 hdt0 hdt1 hlim htime pts hp a ha
  obtain ⟨prg, hP⟩ := heat_program_ls RK.lsA4R RK.lsB4R hp inputs 5 N niter
  have hc := heat_inputs_ls inputs 5 N niter hP
  have c1 := hc "dt" (by simp)
  have c2 := (hc "kappa" (by simp)).trans hκ
  have c3 := (hc "Delta0block0" (by simp)).trans hδ
  have N0 : (0 : ℝ) < N := by exact_mod_cast (by omega : 0 < N)
  have cδ : (fun d => (heatTextLs RK.lsA4R RK.lsB4R inputs).const prg ((heatTextLs RK.lsA4R RK.lsB4R inputs).delta d)) = fun _ : Fin 1 => (1 / N : ℝ) := by
    funext d
    rw [Subsingleton.elim d 0]
    exact c3
  have hpos : ∀ x : P 1, pos 0 (fun _ : Fin 1 => (1 / N : ℝ)) x = fun d => x d * (1 / N : ℝ) := by
    intro x
    funext d
    simp [pos]
  have key := hC sum hsum (heatTextLs RK.lsA4R RK.lsB4R inputs) (heat N) waveArrays pts (heatInputLs 5 N niter) prg 0 (1 / N) (heat_suits_ls RK.lsA4R RK.lsB4R inputs 5 N niter) hP (heat_open_ls RK.lsA4R RK.lsB4R inputs) rfl (by simp [heatTextLs]) (by simp [heatTextLs]) rfl
    (by
      intro i f x
      rw [Subsingleton.elim i 0]
      simp only [Fin.sum_univ_one, zero_mul, zero_add]
      change (heatTextLs RK.lsA4R RK.lsB4R inputs).const prg "kappa" * _ = _
      rw [c2]
      rfl)
    (by positivity)
    (by
      rw [cδ]
      refine ⟨fun d => ?_, fun d => ⟨by positivity, le_rfl⟩, ?_, fun d => ?_⟩
      · rw [Subsingleton.elim d 0]
        simp [heat, N0.ne']
      · rw [div_le_one N0]; exact_mod_cast hN
      · rw [Subsingleton.elim d 0]
        simp [heat, Setup.h]
        exact hN)
    (by rw [c1]; exact hdt0) (by rw [c1]; exact hdt1)
    (by
      rw [cδ, c1]
      refine ⟨fun d i => by simpa using hκ0, fun i => ?_⟩
      rw [Fin.sum_univ_one]
      have h2 : (0 : ℝ) < (1 / N) ^ 2 := by positivity
      rw [mul_div_assoc', div_le_one h2]
      linarith)
    (by rw [c1]; exact_mod_cast htime) a
    (by
      intro i x hx
      rw [Subsingleton.elim i 0, heat_start_ls, cδ, hpos]
      exact ha x hx)
  obtain ⟨⟨a', r1, r2⟩, -⟩ := key
  have hh : (heat N).h = 1 := by simp [Setup.h, heat]
  rw [hh] at r1
  refine ⟨prg, a', hP.generated, r1, fun x hx => ?_⟩
  have := r2 0 x hx
  simp only [cδ, c1, hpos] at this
  exact this

/-- **C102.** Nor do the arrays of the printed programs of diffusion with the low storage schemes of order three ever leave the interval of their values at the start, for all numbers of points and steps and time steps up to the same limit. Nothing is assumed about the program. -/
theorem C102_heat_principle_ls {As Bs : List ℝ} (hAB : LowStorage3 As Bs) {κ : ℝ} {N niter : ℕ} {inputs : String → ℝ} (hN : 1 ≤ N) (hκ : inputs "kappa" = κ) (hδ : 0 < inputs "Delta0block0") (hκ0 : 0 ≤ κ) (hdt0 : 0 ≤ inputs "dt")
    (hlim : inputs "dt" * κ ≤ inputs "Delta0block0" ^ 2 / 2) {pts : Ranges.Kernel 1 → List (P 1)} (hp : Enumerates pts) (a : Arrays 1) (lo hi : ℝ) (ha : ∀ x, Grid ![(N : ℤ)] x → lo ≤ a "phi_B0" x ∧ a "phi_B0" x ≤ hi) :
    ∃ prg a', Alg.generate (heatInputLs 3 N niter) = .ok prg ∧ (heatTextLs As Bs inputs).run prg pts ![ "phi" ] (exchange ![(N : ℤ)] 1) (Alg.runProgram prg) a = some a' ∧
      ∀ x, Grid ![(N : ℤ)] x → lo ≤ a' "phi_B0" x ∧ a' "phi_B0" x ≤ hi := by
  obtain ⟨prg, hP⟩ := heat_program_ls As Bs hp inputs 3 N niter
  have hc := heat_inputs_ls inputs 3 N niter hP
  have c1 := hc "dt" (by simp)
  have c2 := (hc "kappa" (by simp)).trans hκ
  have c3 := hc "Delta0block0" (by simp)
  have cδ : (fun d => (heatTextLs As Bs inputs).const prg ((heatTextLs As Bs inputs).delta d)) = fun _ : Fin 1 => inputs "Delta0block0" := by
    funext d
    rw [Subsingleton.elim d 0]
    exact c3
  obtain ⟨⟨a', r1, r2⟩, -⟩ := C102_text_principle_ls_partial (A := fun _ _ => 0) (K := fun _ _ => κ) hAB (heat_suits_ls As Bs inputs 3 N niter) hP (heat_open_ls As Bs inputs) rfl (by simp [heatTextLs]) (by simp [heatTextLs]) rfl
    (by
      intro i f x
      rw [Subsingleton.elim i 0]
      simp only [Fin.sum_univ_one, zero_mul, zero_add]
      change (heatTextLs As Bs inputs).const prg "kappa" * _ = _
      rw [c2]
      rfl)
    (by
      intro d
      rw [Subsingleton.elim d 0]
      simp [heat, Setup.h]
      exact hN)
    (fun d => by rw [congrFun cδ d]; exact hδ) (by rw [c1]; exact hdt0)
    (by
      rw [cδ, c1]
      refine ⟨fun d i => by simpa using hκ0, fun i => ?_⟩
      rw [Fin.sum_univ_one]
      have h2 : (0 : ℝ) < inputs "Delta0block0" ^ 2 := by positivity
      rw [mul_div_assoc', div_le_one h2]
      linarith) a 0 lo hi
    (by
      intro x hx
      rw [heat_start_ls]
      exact ha x hx)
  have hh : (heat N).h = 1 := by simp [Setup.h, heat]
  rw [hh] at r1
  exact ⟨prg, a', hP.generated, r1, fun x hx => r2 x hx⟩

/-- **C102.** Nor do the arrays of the printed program of diffusion with `RungeKuttaLS(4)` ever leave the interval of their values at the start, for all numbers of points and steps and time steps up to the same limit. Nothing is assumed about the program. -/
theorem C102_heat_principle_ls4 {κ : ℝ} {N niter : ℕ} {inputs : String → ℝ} (hN : 1 ≤ N) (hκ : inputs "kappa" = κ) (hδ : 0 < inputs "Delta0block0") (hκ0 : 0 ≤ κ) (hdt0 : 0 ≤ inputs "dt")
    (hlim : inputs "dt" * κ ≤ inputs "Delta0block0" ^ 2 / 2) {pts : Ranges.Kernel 1 → List (P 1)} (hp : Enumerates pts) (a : Arrays 1) (lo hi : ℝ) (ha : ∀ x, Grid ![(N : ℤ)] x → lo ≤ a "phi_B0" x ∧ a "phi_B0" x ≤ hi) :
    ∃ prg a', Alg.generate (heatInputLs 5 N niter) = .ok prg ∧ (heatTextLs RK.lsA4R RK.lsB4R inputs).run prg pts ![ "phi" ] (exchange ![(N : ℤ)] 1) (Alg.runProgram prg) a = some a' ∧
      ∀ x, Grid ![(N : ℤ)] x → lo ≤ a' "phi_B0" x ∧ a' "phi_B0" x ≤ hi := by
  obtain ⟨prg, hP⟩ := heat_program_ls RK.lsA4R RK.lsB4R hp inputs 5 N niter
  have hc := heat_inputs_ls inputs 5 N niter hP
  have c1 := hc "dt" (by simp)
  have c2 := (hc "kappa" (by simp)).trans hκ
  have c3 := hc "Delta0block0" (by simp)
  have cδ : (fun d => (heatTextLs RK.lsA4R RK.lsB4R inputs).const prg ((heatTextLs RK.lsA4R RK.lsB4R inputs).delta d)) = fun _ : Fin 1 => inputs "Delta0block0" := by
    funext d
    rw [Subsingleton.elim d 0]
    exact c3
  obtain ⟨⟨a', r1, r2⟩, -⟩ := C102_text_principle_ls4_partial (A := fun _ _ => 0) (K := fun _ _ => κ) (heat_suits_ls RK.lsA4R RK.lsB4R inputs 5 N niter) hP (heat_open_ls RK.lsA4R RK.lsB4R inputs) rfl (by simp [heatTextLs]) (by simp [heatTextLs]) rfl
    (by
      intro i f x
      rw [Subsingleton.elim i 0]
      simp only [Fin.sum_univ_one, zero_mul, zero_add]
      change (heatTextLs RK.lsA4R RK.lsB4R inputs).const prg "kappa" * _ = _
      rw [c2]
      rfl)
    (by
      intro d
      rw [Subsingleton.elim d 0]
      simp [heat, Setup.h]
      exact hN)
    (fun d => by rw [congrFun cδ d]; exact hδ) (by rw [c1]; exact hdt0)
    (by
      rw [cδ, c1]
      refine ⟨fun d i => by simpa using hκ0, fun i => ?_⟩
      rw [Fin.sum_univ_one]
      have h2 : (0 : ℝ) < inputs "Delta0block0" ^ 2 := by positivity
      rw [mul_div_assoc', div_le_one h2]
      linarith) a 0 lo hi
    (by
      intro x hx
      rw [heat_start_ls]
      exact ha x hx)
  have hh : (heat N).h = 1 := by simp [Setup.h, heat]
  rw [hh] at r1
  exact ⟨prg, a', hP.generated, r1, fun x hx => r2 x hx⟩

/-- The derivatives in time of the decaying wave. -/
theorem decaying_derivatives {κ : ℝ} (hκ : 0 ≤ κ) (time : ℝ) : TimeDerivatives (decaying κ) time (∑ k ∈ Finset.Icc 1 4, ((2 * Real.pi) ^ 2 * κ) ^ k) := by
  refine ⟨by positivity, fun i t x ht _ => ?_⟩
  have key : ∀ k, |iteratedDeriv k (fun s => decaying κ i s x) t| ≤ ((2 * Real.pi) ^ 2 * κ) ^ k := by
    intro k
    have e : (fun s => decaying κ i s x) = fun s => Real.sin (2 * Real.pi * x 0) * Real.exp (-(2 * Real.pi) ^ 2 * κ * s) := by
      funext s
      rw [decaying, mul_comm]
    have h2 := congrFun (iteratedDeriv_comp_const_mul (n := k) (Real.contDiff_exp (n := k)) (-(2 * Real.pi) ^ 2 * κ)) t
    rw [e, iteratedDeriv_const_mul_field, h2, iteratedDeriv_eq_iterate, Real.iter_deriv_exp, abs_mul, abs_mul, abs_pow, Real.abs_exp]
    have h3 : |-(2 * Real.pi) ^ 2 * κ| = (2 * Real.pi) ^ 2 * κ := by rw [neg_mul, abs_neg, abs_of_nonneg (by positivity)]
    have h4 : Real.exp (-(2 * Real.pi) ^ 2 * κ * t) ≤ 1 := by
      rw [Real.exp_le_one_iff, neg_mul, neg_mul]
      have : 0 ≤ (2 * Real.pi) ^ 2 * κ * t := by positivity
      linarith
    rw [h3]
    have h5 := Real.abs_sin_le_one (2 * Real.pi * x 0)
    have h6 := Real.exp_pos (-(2 * Real.pi) ^ 2 * κ * t)
    have h7 : 0 ≤ ((2 * Real.pi) ^ 2 * κ) ^ k := by positivity
    calc _ ≤ 1 * (((2 * Real.pi) ^ 2 * κ) ^ k * 1) := mul_le_mul h5 (mul_le_mul_of_nonneg_left h4 h7) (by positivity) zero_le_one
      _ = _ := by ring
  have hs : ∑ k ∈ Finset.Icc 1 4, ((2 * Real.pi) ^ 2 * κ) ^ k = ((2 * Real.pi) ^ 2 * κ) ^ 1 + ((2 * Real.pi) ^ 2 * κ) ^ 2 + ((2 * Real.pi) ^ 2 * κ) ^ 3 + ((2 * Real.pi) ^ 2 * κ) ^ 4 := by
    rw [show Finset.Icc 1 4 = {1, 2, 3, 4} by decide]
    simp [Finset.sum_insert]
    ring
  rw [hs]
  linarith [key 1, key 2, key 3, key 4]

/-- The hypotheses of the theorem can be met: a sine wave that decays, with `kappa = 1/10`, up to time 2. -/
example : SolvesParabolic (fun _ _ => 0) (fun _ _ => 1 / 10) (fun _ => 1) (decaying (1 / 10)) ∧ ∃ sum, TimeDerivatives (decaying (1 / 10)) 2 sum :=
  ⟨decaying_solves _, _, decaying_derivatives (by norm_num) 2⟩

/-- So can the limits, with advection in two dimensions. -/
example : Diffusive (D := 2) (n := 1) (fun d _ => ![1, -1 / 2] d) (fun _ _ => 1 / 100) (fun _ => 1 / 50) (1 / 100) where
  peclet d i := by
    fin_cases d
    · simp; norm_num
    · norm_num [abs_of_neg]
  step i := by
    simp only [Fin.sum_univ_two]
    norm_num

end OpenSBLI.Sim
