import Verif.Props.C102_Fourth
import Mathlib.Analysis.SpecialFunctions.ExpDeriv

/-!
# C102: a printed program of diffusion

The program of C90_Examples: `phi_t = kappa phi_xx` with differences of second order on a periodic interval of length one.
-/
namespace OpenSBLI.Sim
open OpenSBLI.Reg OpenSBLI.CCode OpenSBLI.Order
open scoped ContDiff

/-- **C102.** The printed program of diffusion converges at every grid point to any smooth periodic solution whose values the array contains at the start, with one constant for all numbers of points and all time steps up to half
the square of the spacing over the diffusivity. Nothing is assumed about the program. -/
theorem C102_heat (κ time : ℝ) (U : Fin 1 → ℝ → E 1 → ℝ) (hU : SolvesParabolic (fun _ _ => 0) (fun _ _ => κ) (fun _ => 1) U) : ∃ C : ℝ, ∀ (N niter : ℕ) (inputs : String → ℝ), 1 ≤ N → inputs "kappa" = κ → inputs "Delta0block0" = 1 / N →
    0 ≤ κ → 0 ≤ inputs "dt" → inputs "dt" ≤ 1 → inputs "dt" * κ ≤ (1 / N) ^ 2 / 2 → niter * inputs "dt" ≤ time → ∀ (pts : Ranges.Kernel 1 → List (P 1)), Enumerates pts → ∀ a : Arrays 1,
      (∀ x, Grid ![(N : ℤ)] x → a "phi_B0" x = U 0 0 fun d => x d * (1 / N)) →
      ∃ prg a', Alg.generate (heatInput N niter) = .ok prg ∧ (heatText inputs).run prg pts ![ "phi" ] (exchange ![(N : ℤ)] 1) (Alg.runProgram prg) a = some a' ∧
        ∀ x, Grid ![(N : ℤ)] x → |a' "phi_B0" x - U 0 (niter * inputs "dt") fun d => x d * (1 / N)| ≤ C * (inputs "dt" ^ 3 + (1 / N) ^ 2) := by
  obtain ⟨C, hC⟩ := C102_text_partial (fun _ _ => 0) (fun _ _ => κ) (fun _ => 1) (fun _ => one_pos) U hU time
  refine ⟨C, ?_⟩
  intro N niter inputs hN hκ hδ hκ0 hdt0 hdt1 hlim htime pts hp a ha
  have hb : ∀ r eqs, .kernel r eqs ∈ ([] : List (BcCall 1)) → (heatText inputs).Proper eqs := fun _ _ h => (List.not_mem_nil h).elim
  obtain ⟨prg, hP⟩ := heat_program (bcs := []) hp inputs N niter
  have hc := heat_inputs inputs hb N niter hP
  have c1 := hc "dt" (by simp)
  have c2 := (hc "kappa" (by simp)).trans hκ
  have c3 := (hc "Delta0block0" (by simp)).trans hδ
  have N0 : (0 : ℝ) < N := by exact_mod_cast (by omega : 0 < N)
  have cδ : (fun d => (heatText inputs).const prg ((heatText inputs).delta d)) = fun _ : Fin 1 => (1 / N : ℝ) := by
    funext d
    rw [Subsingleton.elim d 0]
    exact c3
  have hstart : (heatText inputs).startState (heat N) prg pts (exchange (heat N).np (heat N).h) (heatInput N niter) a = fun A => a ((heatText inputs).names A) := by
    simp [Text.startState, atStart, heatInput, Alg.others, Setup.item, Alg.sortByOrder, Alg.placedAt, Alg.calls, Alg.effect]
  have hpos : ∀ x : P 1, pos 0 (fun _ : Fin 1 => (1 / N : ℝ)) x = fun d => x d * (1 / N : ℝ) := by
    intro x
    funext d
    simp [pos]
  have key := hC (heatText inputs) (heat N) waveArrays pts (heatInput N niter) prg 0 (1 / N) (heat_suits inputs hb N niter) hP (heat_open inputs) rfl (by simp [heatWith]) (by simp [heatWith]) rfl
    (by
      intro i f x
      rw [Subsingleton.elim i 0]
      simp only [Fin.sum_univ_one, zero_mul, zero_add]
      change (heatText inputs).const prg "kappa" * _ = _
      rw [c2]
      rfl)
    (by positivity)
    (by
      rw [cδ]
      refine ⟨fun d => ?_, fun d => ⟨by positivity, le_rfl⟩, ?_, fun d => ?_⟩
      · rw [Subsingleton.elim d 0]
        simp [heat, N0.ne']
      · rw [div_le_one N0]; exact_mod_cast hN
      · rw [Subsingleton.elim d 0]
        simp [heat, Setup.h]
        exact hN)
    (by rw [c1]; exact hdt0) (by rw [c1]; exact hdt1)
    (by
      rw [cδ, c1]
      refine ⟨fun d i => by simpa using hκ0, fun i => ?_⟩
      rw [Fin.sum_univ_one]
      have h2 : (0 : ℝ) < (1 / N) ^ 2 := by positivity
      rw [mul_div_assoc', div_le_one h2]
      linarith)
    (by rw [c1]; exact_mod_cast htime) a
    (by
      intro i x hx
      rw [Subsingleton.elim i 0, hstart, cδ, hpos]
      exact ha x hx)
  obtain ⟨⟨a', r1, r2⟩, -⟩ := key
  have hh : (heat N).h = 1 := by simp [Setup.h, heat]
  rw [hh] at r1
  refine ⟨prg, a', hP.generated, r1, fun x hx => ?_⟩
  have := r2 0 x hx
  simp only [cδ, c1, hpos] at this
  exact this

/-- **C102.** Nor do the arrays of the printed program of diffusion ever leave the interval of their values at the start, for all numbers of points and steps and time steps up to the same limit. Nothing is assumed about the program. -/
theorem C102_heat_principle {κ : ℝ} {N niter : ℕ} {inputs : String → ℝ} (hN : 1 ≤ N) (hκ : inputs "kappa" = κ) (hδ : 0 < inputs "Delta0block0") (hκ0 : 0 ≤ κ) (hdt0 : 0 ≤ inputs "dt")
    (hlim : inputs "dt" * κ ≤ inputs "Delta0block0" ^ 2 / 2) {pts : Ranges.Kernel 1 → List (P 1)} (hp : Enumerates pts) (a : Arrays 1) (lo hi : ℝ) (ha : ∀ x, Grid ![(N : ℤ)] x → lo ≤ a "phi_B0" x ∧ a "phi_B0" x ≤ hi) :
    ∃ prg a', Alg.generate (heatInput N niter) = .ok prg ∧ (heatText inputs).run prg pts ![ "phi" ] (exchange ![(N : ℤ)] 1) (Alg.runProgram prg) a = some a' ∧
      ∀ x, Grid ![(N : ℤ)] x → lo ≤ a' "phi_B0" x ∧ a' "phi_B0" x ≤ hi := by
  have hb : ∀ r eqs, .kernel r eqs ∈ ([] : List (BcCall 1)) → (heatText inputs).Proper eqs := fun _ _ h => (List.not_mem_nil h).elim
  obtain ⟨prg, hP⟩ := heat_program (bcs := []) hp inputs N niter
  have hc := heat_inputs inputs hb N niter hP
  have c1 := hc "dt" (by simp)
  have c2 := (hc "kappa" (by simp)).trans hκ
  have c3 := hc "Delta0block0" (by simp)
  have cδ : (fun d => (heatText inputs).const prg ((heatText inputs).delta d)) = fun _ : Fin 1 => inputs "Delta0block0" := by
    funext d
    rw [Subsingleton.elim d 0]
    exact c3
  have hstart : (heatText inputs).startState (heat N) prg pts (exchange (heat N).np (heat N).h) (heatInput N niter) a = fun A => a ((heatText inputs).names A) := by
    simp [Text.startState, atStart, heatInput, Alg.others, Setup.item, Alg.sortByOrder, Alg.placedAt, Alg.calls, Alg.effect]
  obtain ⟨⟨a', r1, r2⟩, -⟩ := C102_text_principle_partial (A := fun _ _ => 0) (K := fun _ _ => κ) (heat_suits inputs hb N niter) hP (heat_open inputs) rfl (by simp [heatWith]) (by simp [heatWith]) rfl
    (by
      intro i f x
      rw [Subsingleton.elim i 0]
      simp only [Fin.sum_univ_one, zero_mul, zero_add]
      change (heatText inputs).const prg "kappa" * _ = _
      rw [c2]
      rfl)
    (by
      intro d
      rw [Subsingleton.elim d 0]
      simp [heat, Setup.h]
      exact hN)
    (fun d => by rw [congrFun cδ d]; exact hδ) (by rw [c1]; exact hdt0)
    (by
      rw [cδ, c1]
      refine ⟨fun d i => by simpa using hκ0, fun i => ?_⟩
      rw [Fin.sum_univ_one]
      have h2 : (0 : ℝ) < inputs "Delta0block0" ^ 2 := by positivity
      rw [mul_div_assoc', div_le_one h2]
      linarith) a 0 lo hi
    (by
      intro x hx
      rw [hstart]
      exact ha x hx)
  have hh : (heat N).h = 1 := by simp [Setup.h, heat]
  rw [hh] at r1
  exact ⟨prg, a', hP.generated, r1, fun x hx => r2 x hx⟩

/-! ## Decay of a sine wave -/

/-- A sine wave that decays. -/
noncomputable def decaying (κ : ℝ) (_ : Fin 1) (t : ℝ) (x : E 1) : ℝ := Real.exp (-(2 * Real.pi) ^ 2 * κ * t) * Real.sin (2 * Real.pi * x 0)

theorem decaying_solves (κ : ℝ) : SolvesParabolic (fun _ _ => 0) (fun _ _ => κ) (fun _ => 1) (decaying κ) where
  smooth i := by
    unfold decaying
    refine ContDiff.mul (Real.contDiff_exp.comp ?_) (Real.contDiff_sin.comp ?_) <;> fun_prop
  periodic i t k x := by
    have : 2 * Real.pi * (x + fun d => (k d : ℝ) * 1) 0 = 2 * Real.pi * x 0 + k 0 * (2 * Real.pi) := by
      simp only [Pi.add_apply]; ring
    rw [decaying, this, Real.sin_add_int_mul_two_pi]
    rfl
  equation i t x := by
    have h1 : HasDerivAt (fun s => decaying κ i s x) (Real.exp (-(2 * Real.pi) ^ 2 * κ * t) * (-(2 * Real.pi) ^ 2 * κ) * Real.sin (2 * Real.pi * x 0)) t := by
      refine HasDerivAt.mul_const ?_ _
      have := ((hasDerivAt_id t).const_mul (-(2 * Real.pi) ^ 2 * κ)).exp
      simpa using this
    have h3 : ∀ y : E 1, HasDerivAt (fun s : ℝ => 2 * Real.pi * (y + s • (Pi.single 0 1 : E 1)) 0) (2 * Real.pi) 0 := by
      intro y
      have := ((hasDerivAt_id (0 : ℝ)).const_add (y 0)).const_mul (2 * Real.pi)
      simpa using this
    have h2 : pd 0 (decaying κ 0 t) = fun y => Real.exp (-(2 * Real.pi) ^ 2 * κ * t) * (Real.cos (2 * Real.pi * y 0) * (2 * Real.pi)) := by
      funext y
      have : HasLineDerivAt ℝ (decaying κ 0 t) (Real.exp (-(2 * Real.pi) ^ 2 * κ * t) * (Real.cos (2 * Real.pi * y 0) * (2 * Real.pi))) y (Pi.single 0 1) := by
        unfold HasLineDerivAt
        have := (h3 y).sin.const_mul (Real.exp (-(2 * Real.pi) ^ 2 * κ * t))
        simpa [decaying] using this
      exact this.lineDeriv
    have h4 : pd 0 (pd 0 (decaying κ 0 t)) x = Real.exp (-(2 * Real.pi) ^ 2 * κ * t) * (-Real.sin (2 * Real.pi * x 0) * (2 * Real.pi) * (2 * Real.pi)) := by
      rw [h2]
      have : HasLineDerivAt ℝ (fun y : E 1 => Real.exp (-(2 * Real.pi) ^ 2 * κ * t) * (Real.cos (2 * Real.pi * y 0) * (2 * Real.pi)))
          (Real.exp (-(2 * Real.pi) ^ 2 * κ * t) * (-Real.sin (2 * Real.pi * x 0) * (2 * Real.pi) * (2 * Real.pi))) x (Pi.single 0 1) := by
        unfold HasLineDerivAt
        have := ((h3 x).cos.mul_const (2 * Real.pi)).const_mul (Real.exp (-(2 * Real.pi) ^ 2 * κ * t))
        simpa using this
      exact this.lineDeriv
    rw [h1.deriv, Subsingleton.elim i 0]
    simp only [Fin.sum_univ_one, h4]
    ring

/-- **C102.** A sine wave decays as it should: `N²` steps of half the square of the spacing over the diffusivity, with `kappa = 1`, reach time one half, and no value is further than `C/N²` from the exact solution. -/
theorem C102_decay : ∃ C : ℝ, ∀ (N : ℕ) (inputs : String → ℝ), 1 ≤ N → inputs "kappa" = 1 → inputs "Delta0block0" = 1 / N → inputs "dt" = (1 / N) ^ 2 / 2 → ∀ (pts : Ranges.Kernel 1 → List (P 1)), Enumerates pts → ∀ a : Arrays 1,
      (∀ x, Grid ![(N : ℤ)] x → a "phi_B0" x = Real.sin (2 * Real.pi * (x 0 / N))) →
      ∃ prg a', Alg.generate (heatInput N ((N ^ 2 : ℕ) : ℤ)) = .ok prg ∧ (heatText inputs).run prg pts ![ "phi" ] (exchange ![(N : ℤ)] 1) (Alg.runProgram prg) a = some a' ∧
        ∀ x, Grid ![(N : ℤ)] x → |a' "phi_B0" x - Real.exp (-2 * Real.pi ^ 2) * Real.sin (2 * Real.pi * (x 0 / N))| ≤ C * (1 / N) ^ 2 := by
  obtain ⟨C, hC⟩ := C102_heat 1 (1 / 2) (decaying 1) (decaying_solves 1)
  refine ⟨2 * |C|, ?_⟩
  intro N inputs hN h1 h2 h3 pts hp a ha
  have N0 : (0 : ℝ) < N := by exact_mod_cast (by omega : 0 < N)
  have N1 : (1 : ℝ) / N ≤ 1 := by rw [div_le_one N0]; exact_mod_cast hN
  have p1 : (0 : ℝ) < 1 / N := by positivity
  have p2 : (1 / N : ℝ) ^ 2 ≤ 1 := pow_le_one₀ p1.le N1
  have ht : ((N ^ 2 : ℕ) : ℝ) * inputs "dt" = 1 / 2 := by
    rw [h3]
    push_cast
    field_simp
  obtain ⟨prg, a', r1, r2, r3⟩ := hC N (N ^ 2) inputs hN h1 h2 zero_le_one (by rw [h3]; positivity) (by rw [h3]; linarith) (by rw [h3, mul_one]) ht.le pts hp a (by
    intro x hx
    rw [ha x hx, decaying]
    simp [div_eq_mul_inv])
  refine ⟨prg, a', r1, r2, fun x hx => ?_⟩
  have := r3 x hx
  rw [ht, decaying, show -(2 * Real.pi) ^ 2 * 1 * (1 / 2) = -2 * Real.pi ^ 2 by ring, mul_one_div, h3] at this
  refine this.trans ?_
  have q : ((1 / N : ℝ) ^ 2 / 2) ^ 3 ≤ (1 / N) ^ 2 := by
    have z0 : (0 : ℝ) ≤ (1 / N) ^ 2 := by positivity
    generalize (1 / N : ℝ) ^ 2 = z at p2 z0 ⊢
    have z1 : z ^ 2 ≤ 1 := pow_le_one₀ z0 p2
    nlinarith [mul_nonneg z0 (sub_nonneg.2 z1)]
  refine (mul_le_mul_of_nonneg_right (le_abs_self C) (by positivity)).trans ?_
  nlinarith [abs_nonneg C]

/-- **C102.** The limit of the time step is needed, and is close to the best one: with two points, values 1 and -1 and a time step of at least 0.63 times the square of the spacing over the diffusivity, a single step leaves the interval. -/
theorem C102_limit {I : Interp 1} {κ : ℝ} {δ : E 1} (hδ : 0 < δ 0) (hI : IsCentral (heat 2) I δ) (hM : IsParabolic (heat 2) I (fun _ _ => 0) fun _ _ => κ) {dt : ℝ} (hdt : 63 / 100 * δ 0 ^ 2 ≤ dt * κ)
    (full : Sol 1 1 → String → P 1 → ℝ) (hfull : ∀ q i, full q ((heat 2).sol i) = q i) (s0 : TState 1 1) (h0 : ∀ x, Grid ![2] x → s0.q 0 x = if x 0 = 0 then 1 else -1) :
    (rkStep (heat 2).np (fun q i x => ((heat 2).rhs i).eval I (memOf (full q)) x) (exchange (heat 2).np (heat 2).h) dt [(2/3, 1/4), (5/12, 3/20), (3/5, 3/5)] s0).q 0 (fun _ => 0) < -1 := by
  have hw := step_walked (fun d => by rw [Subsingleton.elim d 0]; simp [heat, Setup.h]) hI hM dt full hfull s0 0
  have hx : Grid (heat 2).np (fun _ : Fin 1 => (0 : ℤ)) := fun d => by rw [Subsingleton.elim d 0]; simp [heat]
  have he := congrFun (congrFun hw 0) ⟨_, hx⟩
  set w : GridSol (heat 2).np 1 := restrict (heat 2).np s0.q with hwd
  have hneg : ∀ x : GP (heat 2).np, w 0 (move 0 1 x) = -w 0 x ∧ w 0 (move 0 (-1) x) = -w 0 x := by
    have hv : ∀ x : GP (heat 2).np, w 0 x = if x.1 0 = 0 then 1 else -1 := fun x => h0 x.1 x.2
    intro x
    have := x.2 0
    simp only [heat, Matrix.cons_val_zero] at this
    have hm : ∀ p : ℤ, (move 0 p x).1 0 = (x.1 0 + p) % 2 := fun p => Function.update_self (β := fun _ : Fin 1 => ℤ) 0 _ x.1
    rw [hv, hv, hv, hm, hm]
    obtain h | h : x.1 0 = 0 ∨ x.1 0 = 1 := by omega
    · norm_num [h]
    · norm_num [h]
  have hW : ∀ c : ℝ, walk (heat 2).np 2 (fun _ _ => 0) (fun _ _ => κ) δ (c • w) = (-4 * κ / δ 0 ^ 2 * c) • w := by
    intro c
    funext i x
    rw [Subsingleton.elim i 0, walk_two, Fin.sum_univ_one]
    simp only [Pi.smul_apply, smul_eq_mul, (hneg x).1, (hneg x).2]
    ring
  have e : advance (walk (heat 2).np 2 (fun _ _ => 0) (fun _ _ => κ) δ) dt w =
      (1 + dt * (-4 * κ / δ 0 ^ 2) + dt ^ 2 / 2 * (-4 * κ / δ 0 ^ 2) ^ 2 + dt ^ 3 / 6 * (-4 * κ / δ 0 ^ 2) ^ 3) • w := by
    have h1 := hW 1
    rw [one_smul, mul_one] at h1
    simp only [advance, h1, hW]
    module
  have ho : (heat 2).order = 2 := rfl
  have hz : 252 / 100 ≤ dt * (4 * κ / δ 0 ^ 2) := by
    rw [mul_div_assoc', le_div_iff₀ (by positivity)]
    linarith
  have h1 : w 0 ⟨_, hx⟩ = 1 := (h0 _ hx).trans (if_pos rfl)
  simp only [Function.iterate_succ_apply, Function.iterate_zero, id_eq, zero_add, ho, ← hwd, e, Pi.smul_apply, h1, smul_eq_mul, mul_one] at he
  rw [show (rkStep (heat 2).np (fun q i x => ((heat 2).rhs i).eval I (memOf (full q)) x) (exchange (heat 2).np (heat 2).h) dt [(2/3, 1/4), (5/12, 3/20), (3/5, 3/5)] s0).q 0 (fun _ => 0) = _ from he]
  generalize hg : dt * (4 * κ / δ 0 ^ 2) = z at hz
  rw [show 1 + dt * (-4 * κ / δ 0 ^ 2) + dt ^ 2 / 2 * (-4 * κ / δ 0 ^ 2) ^ 2 + dt ^ 3 / 6 * (-4 * κ / δ 0 ^ 2) ^ 3 = 1 - z + z ^ 2 / 2 - z ^ 3 / 6 by rw [← hg]; ring]
  nlinarith [mul_nonneg (sub_nonneg.2 hz) (sub_nonneg.2 hz), mul_nonneg (mul_nonneg (sub_nonneg.2 hz) (sub_nonneg.2 hz)) (sub_nonneg.2 hz)]

/-- The hypotheses of the first theorem can be met: 100 points and `kappa = 1/10`. -/
example : (1 / 2000 : ℝ) * (1 / 10) ≤ (1 / (100 : ℕ)) ^ 2 / 2 := by norm_num

end OpenSBLI.Sim
