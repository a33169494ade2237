import Verif.Props.C88_Fourth
import Verif.Props.C88_WaveLs
import Mathlib.Analysis.Calculus.IteratedDeriv.Lemmas

/-!
# C88: `apps/wave` with the low storage scheme of order four
-/
namespace OpenSBLI.Sim
open OpenSBLI.Reg OpenSBLI.CCode OpenSBLI.Order

/-- The derivatives in time of the travelling wave. -/
theorem travelling_derivatives (c time : ℝ) : TimeDerivatives (travelling c) time (2 * Real.pi * |c| + (2 * Real.pi * |c|) ^ 2 + (2 * Real.pi * |c|) ^ 3 + (2 * Real.pi * |c|) ^ 4) := by
  refine ⟨by positivity, fun i t x _ _ => ?_⟩
  have key : ∀ k, |iteratedDeriv k (fun s => travelling c i s x) t| ≤ (2 * Real.pi * |c|) ^ k := by
    intro k
    have e : (fun s => travelling c i s x) = fun s => Real.sin (-(2 * Real.pi * c) * s + 2 * Real.pi * x 0) := by
      funext s
      simp only [travelling]
      ring_nf
    have h2 : ∀ (a b : ℝ) (f : ℝ → ℝ), ContDiff ℝ k f → iteratedDeriv k (fun s => f (a * s + b)) t = a ^ k * iteratedDeriv k f (a * t + b) := by
      intro a b f hf
      have h3 := congrFun (iteratedDeriv_comp_const_mul (f := fun z => f (z + b)) (n := k) (hf.comp (contDiff_id.add contDiff_const)) a) t
      rw [h3, iteratedDeriv_comp_add_const]
    rw [e, h2 _ _ _ Real.contDiff_sin, abs_mul, abs_pow]
    have h4 : |-(2 * Real.pi * c)| = 2 * Real.pi * |c| := by rw [abs_neg, abs_mul, abs_of_pos (by positivity)]
    rw [h4]
    exact mul_le_of_le_one_right (by positivity) (Real.abs_iteratedDeriv_sin_le_one _ _)
  have k1 := key 1
  rw [pow_one] at k1
  linarith [key 2, key 3, key 4]

/-- **C88.** The printed program of `apps/wave` with `RungeKuttaLS(4)` converges to the travelling wave: with one constant for all grids and time steps within the limit of stability, which is nearly
twice that of order three, and up to the last digit of the decimals of the scheme. -/
theorem C88_wave_ls4 (c time : ℝ) : ∃ C : ℝ, ∀ (N niter : ℕ) (inputs : String → ℝ), 2 ≤ N → inputs "c0" = c → inputs "Delta0block0" = 1 / N → inputs "M_PI" = Real.pi →
    0 ≤ inputs "dt" → inputs "dt" ≤ 1 → |c| * inputs "dt" * N ≤ 20 / 9 → niter * inputs "dt" ≤ time → ∀ (pts : Ranges.Kernel 1 → List (P 1)), Enumerates pts → ∀ a : Arrays 1,
      ∃ prg a', Alg.generate (waveInputLs 5 N niter) = .ok prg ∧ (waveTextLs RK.lsA4R RK.lsB4R inputs).run prg pts ![ "phi" ] (exchange ![(N : ℤ)] 2) (Alg.runProgram prg) a = some a' ∧
        ∑ x ∈ gridPoints ![(N : ℤ)], (a' "phi_B0" x - Real.sin (2 * Real.pi * (x 0 * (1 / N) - c * (niter * inputs "dt")))) ^ 2 ≤ N * (C * (inputs "dt" ^ 4 + (1 / N) ^ 4) + time * (2 * Real.pi * |c| + (2 * Real.pi * |c|) ^ 2 + (2 * Real.pi * |c|) ^ 3 + (2 * Real.pi * |c|) ^ 4) / 10 ^ 13) ^ 2 := by
  obtain ⟨C, hC⟩ := C88_text_convergence_ls4_partial (m := 2) (by decide) (fun _ _ _ => -c) (fun _ _ _ => rfl) (fun _ => 1) (fun _ => one_pos) (travelling c) (travelling_solves c) time
  refine ⟨C, ?_⟩
  intro N niter inputs hN hc hδ hπ hdt0 hdt1 hcfl htime pts hp a
  obtain ⟨prg, hP⟩ := wave_program_ls RK.lsA4R RK.lsB4R hp inputs 5 N niter
  have hS := wave_suits_ls RK.lsA4R RK.lsB4R inputs 5 N niter
  have hF := (fits hS hP).1
  have hcon : ∀ s ∈ ["dt", "c0", "Delta0block0", "M_PI"], (waveTextLs RK.lsA4R RK.lsB4R inputs).const prg s = inputs s := fun s hs =>
    C85_constants hF ⟨s, none⟩ (wave_start_ls RK.lsA4R RK.lsB4R inputs s hs) ⟨(waveTextLs RK.lsA4R RK.lsB4R inputs).const prg, fun _ => 0, 0⟩ rfl (by simp) ⟨fun _ _ => 0, fun _ => 0⟩
  have c1 := hcon "dt" (by simp)
  have c2 := (hcon "c0" (by simp)).trans hc
  have c3 := (hcon "Delta0block0" (by simp)).trans hδ
  have c4 := (hcon "M_PI" (by simp)).trans hπ
  have N0 : (0 : ℝ) < N := by exact_mod_cast (by omega : 0 < N)
  have cδ : (fun d => (waveTextLs RK.lsA4R RK.lsB4R inputs).const prg ((waveTextLs RK.lsA4R RK.lsB4R inputs).delta d)) = fun _ : Fin 1 => (1 / N : ℝ) := by
    funext d
    rw [Subsingleton.elim d 0]
    exact c3
  have key := hC _ (travelling_derivatives c time) (waveTextLs RK.lsA4R RK.lsB4R inputs) (wave N) waveArrays pts (waveInputLs 5 N niter) prg 0 (1 / N) hS hP (wave_open_ls RK.lsA4R RK.lsB4R inputs) rfl (by simp [waveTextLs]) (by simp [waveTextLs]) rfl
    (by
      intro i f x
      rw [Subsingleton.elim i 0]
      simp only [Fin.sum_univ_one, wave, Ex.eval, Matrix.cons_val_zero]
      change ((-1 : ℚ) : ℝ) * ((waveTextLs RK.lsA4R RK.lsB4R inputs).const prg "c0" * _) = _
      rw [c2]
      push_cast
      rw [neg_one_mul, neg_mul]
      rfl)
    (by positivity)
    (by
      rw [cδ]
      refine ⟨fun d => ?_, fun d => ⟨by positivity, le_rfl⟩, ?_, fun d => ?_⟩
      · rw [Subsingleton.elim d 0]
        simp [wave, N0.ne']
      · rw [div_le_one N0]; exact_mod_cast (by omega : 1 ≤ N)
      · rw [Subsingleton.elim d 0]
        simp [wave, Setup.h]
        exact hN)
    (by rw [c1]; exact hdt0) (by rw [c1]; exact hdt1)
    (by
      rw [cδ, c1]
      refine ⟨fun _ => |c|, fun _ => abs_nonneg c, fun d i => by simp, ?_⟩
      rw [weights4, Fin.sum_univ_one]
      have : inputs "dt" * (|c| * (3 / 2) / (1 / N)) = |c| * inputs "dt" * N * (3 / 2) := by field_simp
      rw [this]
      linarith)
    (by rw [c1]; exact_mod_cast htime) a
    (by
      intro i x hx
      rw [Subsingleton.elim i 0]
      refine (wave_initial_ls RK.lsA4R RK.lsB4R hp inputs 5 N niter prg _ a x hx).trans ?_
      rw [c3, c4, cδ]
      simp only [travelling, pos]
      refine congrArg Real.sin ?_
      simp
      ring)
  obtain ⟨⟨a', r1, r2⟩, -⟩ := key
  have hh : (wave N).h = 2 := by simp [Setup.h, wave]
  rw [hh] at r1
  refine ⟨prg, a', hP.generated, r1, ?_⟩
  simp only [MeanSquare, Fin.sum_univ_one, cδ, c1] at r2
  have hcard : (((gridPoints (wave N).np).card : ℕ) : ℝ) = N := by
    simp [gridPoints, wave]
  rw [hcard] at r2
  refine le_trans (le_of_eq ?_) (r2.trans (le_of_eq ?_))
  · refine Finset.sum_congr rfl fun x _ => ?_
    simp [travelling, pos, wave, waveTextLs, waveInputLs]
  · simp

/-- There are time steps that this scheme may take and those of order three may not. -/
example : (2 : ℝ) / √3 < 20 / 9 := by
  have h3 : (0 : ℝ) < √3 := by positivity
  have hs : √3 * √3 = 3 := Real.mul_self_sqrt (by norm_num)
  rw [div_lt_iff₀ h3]
  nlinarith

end OpenSBLI.Sim
