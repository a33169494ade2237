import Verif.Lemmas.Llf
import Verif.Spec.Advection
import Verif.Props.C11_Six

/-!
# Contact waves on a line

Reconstructions commute with the addition of constants; the interface fluxes of states which differ by multiples of one eigenvector.
-/
namespace OpenSBLI.Llf
open Weno Matrix Polynomial Spec

theorem beta_add (side : Side) (k r : ℕ) (hk : 2 ≤ k) (dz : ℝ) (hdz : dz ≠ 0) (f : ℤ → ℝ) (c : ℝ) : Weno.beta side k r dz (fun p => f p + c) = Weno.beta side k r dz f := by
  obtain ⟨P, hP, hf⟩ := C10_candidate_polynomial_exists side k r (by omega) f 0 1 one_ne_zero
  rw [C10_indicator_is_jiang_shu side k r hk dz hdz f P hP 0 1 one_ne_zero hf]
  rw [C10_indicator_is_jiang_shu side k r hk dz hdz (fun p => f p + c) (P + C c) (lt_of_le_of_lt (natDegree_add_le _ _) (by simp only [natDegree_C]; omega)) 0 1 one_ne_zero ?_]
  · refine Finset.sum_congr rfl fun l hl => ?_
    obtain ⟨l, rfl⟩ : ∃ m, l = m + 1 := ⟨l - 1, by have := (Finset.mem_Ico.1 hl).1; omega⟩
    simp [Function.iterate_succ_apply]
  · intro j hj
    rw [← hf j hj]
    unfold cellAverage
    rw [show (fun y => eval y (P + C c)) = fun y => eval y P + c by funext y; simp, intervalIntegral.integral_add (P.continuous.intervalIntegrable _ _) (by simp)]
    simp

theorem wenoCandidate_add (side : Side) (k r : ℕ) (hk : 2 ≤ k) (f : ℤ → ℝ) (c : ℝ) : Weno.candidate side k r (fun p => f p + c) = Weno.candidate side k r f + c := by
  unfold Weno.candidate
  simp only [mul_add, Finset.sum_add_distrib, ← Finset.sum_mul]
  rw [C06_coefficients_sum_to_one side k r (by omega), one_mul]

theorem tenoBeta_add (side : Side) (i : ℕ) (f : ℤ → ℝ) (c : ℝ) : Teno.beta side i (fun p => f p + c) = Teno.beta side i f := by
  unfold Teno.beta
  split <;> ring

theorem tenoCandidate_add (side : Side) (i : ℕ) (hi : i < 4) (f : ℤ → ℝ) (c : ℝ) : Teno.candidate side i (fun p => f p + c) = Teno.candidate side i f + c := by
  interval_cases i <;> cases side <;> simp [Teno.candidate, Teno.points, Teno.coeffs] <;> ring

/-- Reconstructions commute with the addition of a constant. -/
theorem recon_add (s : Scheme) (hs : s.Valid) (side : Side) (f : ℤ → ℝ) (c : ℝ) : s.recon side (fun p => f p + c) = s.recon side f + c := by
  cases s with
  | weno form k dz d =>
    obtain ⟨hk, hz, hdz, hd⟩ := hs
    obtain ⟨ω, hω⟩ := (C09_weights_defined form k (d side) (fun r => Weno.beta side k r dz f)).2 fun hf => ⟨hk, hz hf⟩
    obtain ⟨-, h2⟩ := C09_weights_convex form k (by omega) (d side) _ (fun r hr => C07_weights_positive side k (d side) (hd side) r hr)
      (fun r _ => C10_indicator_nonneg side k r hk dz hdz f) ω hω
    simp only [Scheme.recon, wenoReconstruct, beta_add side k _ hk dz hdz, hω, Option.map_some, Option.getD_some, reconstruction, wenoCandidate_add side k _ hk, mul_add, Finset.sum_add_distrib, ← Finset.sum_mul, h2, one_mul]
  | teno o eps CT =>
    obtain ⟨-, -, -, h2⟩ := Teno.weights_convex o eps CT hs.1 hs.2 (fun r => Teno.beta side r f) (Teno.C13_indicator_nonneg_partial o side 0 (Teno.n_pos o) (.inr (.inr (by norm_num))) f)
    simp only [Scheme.recon, Teno.reconstruct, tenoBeta_add]
    rw [Finset.sum_congr rfl fun r hr => by rw [tenoCandidate_add side r (by have := Finset.mem_range.1 hr; cases o <;> simp [Teno.Order.n] at this <;> omega) f c, mul_add], Finset.sum_add_distrib, ← Finset.sum_mul, h2, one_mul]

theorem funcPoints_nonempty (s : Scheme) (hs : s.Valid) : ∃ p, p ∈ s.stencilPoints := by
  cases s with
  | weno form k dz d =>
    obtain ⟨hk, -⟩ := hs
    refine ⟨funcPoint .right 0 0, mem_stencilPoints _ .right _ ?_⟩
    simp only [Scheme.funcPoints, Finset.mem_biUnion, Finset.mem_image, Finset.mem_range]
    exact ⟨0, by omega, 0, by omega, rfl⟩
  | teno o eps CT =>
    refine ⟨0, mem_stencilPoints _ .right _ ?_⟩
    simp only [Scheme.funcPoints, Finset.mem_biUnion, List.mem_toFinset, Finset.mem_range]
    exact ⟨0, by cases o <;> simp [Teno.Order.n], by simp [Teno.points]⟩

theorem maxWave_eq (pts : List ℤ) (ev : ℤ → ℝ) (U : ℝ) (h : ∀ p ∈ pts, ev p = U) : (pts ≠ [] → maxWave pts ev = |U|) := by
  have main : ∀ (l : List ℤ) (a : ℝ), (∀ p ∈ l, ev p = U) → a ≤ |U| → l.foldl (fun out p => max out |ev p|) a = if l = [] then a else |U| := by
    intro l
    induction l with
    | nil => intro a _ _; simp
    | cons p l ih =>
      intro a hl ha
      rw [List.foldl_cons, hl p List.mem_cons_self, max_eq_right ha, ih _ (fun q hq => hl q (List.mem_cons_of_mem _ hq)) le_rfl]
      simp
  intro hp
  unfold maxWave
  rw [main pts 0 h (abs_nonneg _), if_neg hp]

variable {n : ℕ}

/-- States which differ by multiples of one eigenvector, with the same eigenvalue `U`: the flux at the interface is that of the scalar scheme, times the eigenvector. -/
theorem interfaceFlux_contact (s : Scheme) (hs : s.Valid) (l : Line n) (x : ℤ) (r c w : Fin n → ℝ) (U : ℝ) (k : Fin n) (ρ : ℤ → ℝ)
    (hq : ∀ p ∈ s.stencilPoints, l.q (x + p) = fun i => c i + ρ p * r i) (hf : ∀ p ∈ s.stencilPoints, l.f (x + p) = fun i => U * (c i + ρ p * r i) + w i)
    (hev : ∀ p ∈ s.stencilPoints, l.ev (x + p) k = U) (hL : l.LEV x *ᵥ r = Pi.single k 1) (hRL : l.REV x * l.LEV x = 1) :
    interfaceFlux s l x = fun i => U * c i + w i + upwind s U ρ * r i := by
  have hCS : ∀ p ∈ s.stencilPoints, ∀ i, (l.LEV x *ᵥ l.q (x + p)) i = (l.LEV x *ᵥ c) i + ρ p * (Pi.single k 1 : Fin n → ℝ) i := by
    intro p hp i
    rw [hq p hp, ← hL, show (fun i => c i + ρ p * r i) = c + ρ p • r from rfl, mulVec_add, mulVec_smul]; rfl
  have hCF : ∀ p ∈ s.stencilPoints, ∀ i, (l.LEV x *ᵥ l.f (x + p)) i = U * ((l.LEV x *ᵥ c) i + ρ p * (Pi.single k 1 : Fin n → ℝ) i) + (l.LEV x *ᵥ w) i := by
    intro p hp i
    rw [hf p hp, ← hL, show (fun i => U * (c i + ρ p * r i) + w i) = U • (c + ρ p • r) + w from rfl, mulVec_add, mulVec_smul, mulVec_add, mulVec_smul]; rfl
  have hch : characteristic s l x = l.LEV x *ᵥ (U • c + w + upwind s U ρ • r) := by
    funext i
    have hr : (l.LEV x *ᵥ (U • c + w + upwind s U ρ • r)) i = U * (l.LEV x *ᵥ c) i + (l.LEV x *ᵥ w) i + upwind s U ρ * (Pi.single k 1 : Fin n → ℝ) i := by
      rw [mulVec_add, mulVec_add, mulVec_smul, mulVec_smul, hL]; rfl
    rw [hr]
    unfold characteristic
    dsimp only
    replace hCS := fun p hp => hCS p hp i
    replace hCF := fun p hp => hCF p hp i
    by_cases hi : i = k
    · subst hi
      rw [maxWave_eq _ _ U (fun p hp => hev p hp) (by obtain ⟨p, hp⟩ := funcPoints_nonempty s hs; exact List.ne_nil_of_mem hp)]
      simp only [Pi.single_eq_same, mul_one] at hCS hCF ⊢
      have e1 := recon_congr s hs .right (fun p => positive ((l.LEV x *ᵥ l.f (x + p)) i) ((l.LEV x *ᵥ l.q (x + p)) i) |U|)
        (fun p => 1/2 * (U + |U|) * ρ p + (1/2 * (U + |U|) * (l.LEV x *ᵥ c) i + 1/2 * (l.LEV x *ᵥ w) i)) (fun p hp => by
          simp only [positive]; rw [hCS p (mem_stencilPoints s _ p hp), hCF p (mem_stencilPoints s _ p hp)]; ring)
      have e2 := recon_congr s hs .left (fun p => negative ((l.LEV x *ᵥ l.f (x + p)) i) ((l.LEV x *ᵥ l.q (x + p)) i) |U|)
        (fun p => 1/2 * (U - |U|) * ρ p + (1/2 * (U - |U|) * (l.LEV x *ᵥ c) i + 1/2 * (l.LEV x *ᵥ w) i)) (fun p hp => by
          simp only [negative]; rw [hCS p (mem_stencilPoints s _ p hp), hCF p (mem_stencilPoints s _ p hp)]; ring)
      rw [e1, e2, recon_add s hs, recon_add s hs]
      unfold upwind
      split_ifs with hU
      · rw [abs_of_nonneg hU, show (1/2 * (U - U) : ℝ) = 0 by ring, show (1/2 * (U + U) : ℝ) = U by ring]
        simp only [zero_mul]
        rw [recon_const s hs]
        ring
      · rw [abs_of_neg (not_le.1 hU), show (1/2 * (U - -U) : ℝ) = U by ring, show (1/2 * (U + -U) : ℝ) = 0 by ring]
        simp only [zero_mul]
        rw [recon_const s hs]
        ring
    · simp only [Pi.single_eq_of_ne hi, mul_zero, add_zero] at hCS hCF ⊢
      set α := maxWave s.stencilPoints fun p => l.ev (x + p) i
      have e1 := recon_congr s hs .right (fun p => positive ((l.LEV x *ᵥ l.f (x + p)) i) ((l.LEV x *ᵥ l.q (x + p)) i) α)
        (fun _ => positive (U * (l.LEV x *ᵥ c) i + (l.LEV x *ᵥ w) i) ((l.LEV x *ᵥ c) i) α) (fun p hp => by
          rw [hCS p (mem_stencilPoints s _ p hp), hCF p (mem_stencilPoints s _ p hp)])
      have e2 := recon_congr s hs .left (fun p => negative ((l.LEV x *ᵥ l.f (x + p)) i) ((l.LEV x *ᵥ l.q (x + p)) i) α)
        (fun _ => negative (U * (l.LEV x *ᵥ c) i + (l.LEV x *ᵥ w) i) ((l.LEV x *ᵥ c) i) α) (fun p hp => by
          rw [hCS p (mem_stencilPoints s _ p hp), hCF p (mem_stencilPoints s _ p hp)])
      rw [e1, e2, recon_const s hs, recon_const s hs]
      unfold positive negative
      ring
  unfold interfaceFlux
  rw [hch, mulVec_mulVec, hRL, one_mulVec]
  rfl

end OpenSBLI.Llf
