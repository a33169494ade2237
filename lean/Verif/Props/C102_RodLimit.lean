import Verif.Props.C102_Rod
import Mathlib.Analysis.SpecificLimits.Basic

/-!
# C102: an insulated rod tends to the average of its initial values

A step is an average of values in which every neighbour has a share; after as many steps as the rod has cells every value has a share of every other, and the range of the values is a fraction of what it was.
-/
namespace OpenSBLI.Bc
open OpenSBLI.CCode OpenSBLI.Sim OpenSBLI.Reg OpenSBLI.Order Spec

section
variable {N : ℤ} (hN : 2 ≤ N) {κ δ dt : ℝ}

/-- A step of Euler's method. -/
noncomputable def rodEuler (κ δ dt : ℝ) (w : GridSol (D := 1) ![N] 1) : GridSol (D := 1) ![N] 1 := w + dt • rodWalk hN κ δ w

theorem rodEuler_apply (w : GridSol (D := 1) ![N] 1) (x : GP (D := 1) ![N]) : rodEuler hN κ δ dt w 0 x =
    (1 - 2 * (dt * κ / δ ^ 2)) * w 0 x + dt * κ / δ ^ 2 * w 0 (foldPt hN (x.1 0 + 1)) + dt * κ / δ ^ 2 * w 0 (foldPt hN (x.1 0 - 1)) := by
  rw [rodEuler, Pi.add_apply, Pi.add_apply, Pi.smul_apply, Pi.smul_apply, rodWalk_apply, smul_eq_mul]
  ring

theorem advance_euler (w : GridSol (D := 1) ![N] 1) : advance (rodWalk hN κ δ) dt w =
    (1 / 3 : ℝ) • w + (1 / 2 : ℝ) • rodEuler hN κ δ dt w + (1 / 6 : ℝ) • rodEuler hN κ δ dt (rodEuler hN κ δ dt (rodEuler hN κ δ dt w)) := by
  simp only [advance, rodEuler, map_add, map_smul]
  module

variable (h0 : 0 ≤ dt * κ / δ ^ 2) (h1 : dt * κ / δ ^ 2 ≤ 1 / 2)
include h0 h1

theorem rodEuler_above {m : ℝ} {w : GridSol (D := 1) ![N] 1} (hw : ∀ x, m ≤ w 0 x) (x : GP (D := 1) ![N]) : m ≤ rodEuler hN κ δ dt w 0 x := by
  rw [rodEuler_apply]
  nlinarith [hw x, hw (foldPt hN (x.1 0 + 1)), hw (foldPt hN (x.1 0 - 1))]

/-- The shares of a point and of its neighbours in a step. -/
theorem advance_share {m : ℝ} {w : GridSol (D := 1) ![N] 1} (hw : ∀ x, m ≤ w 0 x) (x y : GP (D := 1) ![N]) (hy : y = x ∨ y = foldPt hN (x.1 0 + 1) ∨ y = foldPt hN (x.1 0 - 1)) :
    m + dt * κ / δ ^ 2 / 2 * (w 0 y - m) ≤ advance (rodWalk hN κ δ) dt w 0 x := by
  have e1 := rodEuler_above hN h0 h1 hw
  have e3 := rodEuler_above hN h0 h1 (rodEuler_above hN h0 h1 e1) x
  have e0 := rodEuler_apply hN (κ := κ) (δ := δ) (dt := dt) w x
  rw [advance_euler]
  simp only [Pi.add_apply, Pi.smul_apply, smul_eq_mul]
  have a0 := hw x
  have a1 := hw (foldPt hN (x.1 0 + 1))
  have a2 := hw (foldPt hN (x.1 0 - 1))
  have e1x := e1 x
  set ρ := dt * κ / δ ^ 2
  rcases hy with rfl | rfl | rfl
  · nlinarith
  · rw [e0]
    nlinarith [mul_nonneg h0 (sub_nonneg.2 a2), mul_nonneg (by linarith : (0 : ℝ) ≤ 1 - 2 * ρ) (sub_nonneg.2 a0)]
  · rw [e0]
    nlinarith [mul_nonneg h0 (sub_nonneg.2 a1), mul_nonneg (by linarith : (0 : ℝ) ≤ 1 - 2 * ρ) (sub_nonneg.2 a0)]

theorem advance_above {m : ℝ} {w : GridSol (D := 1) ![N] 1} (hw : ∀ x, m ≤ w 0 x) (x : GP (D := 1) ![N]) : m ≤ advance (rodWalk hN κ δ) dt w 0 x := by
  have := advance_share hN h0 h1 hw x x (.inl rfl)
  nlinarith [mul_nonneg h0 (sub_nonneg.2 (hw x))]

theorem iterate_above {m : ℝ} {w : GridSol (D := 1) ![N] 1} (hw : ∀ x, m ≤ w 0 x) (k : ℕ) : ∀ x, m ≤ (advance (rodWalk hN κ δ) dt)^[k] w 0 x := by
  induction k with
  | zero => exact hw
  | succ k ih => rw [Function.iterate_succ_apply']; exact advance_above hN h0 h1 ih

/-- After `k` steps the first value has a share in all values at a distance of at most `k`. -/
theorem iterate_share {m : ℝ} {w : GridSol (D := 1) ![N] 1} (hw : ∀ x, m ≤ w 0 x) (k : ℕ) (x : GP (D := 1) ![N]) (hx : x.1 0 ≤ k) :
    m + (dt * κ / δ ^ 2 / 2) ^ k * (w 0 (foldPt hN 0) - m) ≤ (advance (rodWalk hN κ δ) dt)^[k] w 0 x := by
  induction k generalizing x with
  | zero =>
    have hx0 := (x.2 0).1
    have e : foldPt hN 0 = x := by
      rw [← foldPt_self hN x]
      congr 1
      push_cast at hx
      omega
    rw [e]
    simp
  | succ k ih =>
    rw [Function.iterate_succ_apply']
    have hx0 := x.2 0
    simp only [Matrix.cons_val_zero] at hx0
    have step : ∀ y : GP (D := 1) ![N], (y = x ∨ y = foldPt hN (x.1 0 + 1) ∨ y = foldPt hN (x.1 0 - 1)) → y.1 0 ≤ k →
        m + (dt * κ / δ ^ 2 / 2) ^ (k + 1) * (w 0 (foldPt hN 0) - m) ≤ advance (rodWalk hN κ δ) dt ((advance (rodWalk hN κ δ) dt)^[k] w) 0 x := by
      intro y hy hk
      refine le_trans ?_ (advance_share hN h0 h1 (iterate_above hN h0 h1 hw k) x y hy)
      have := mul_le_mul_of_nonneg_left (sub_le_sub_right (ih y hk) m) (by linarith : 0 ≤ dt * κ / δ ^ 2 / 2)
      rw [pow_succ]
      linarith
    by_cases hz : x.1 0 = 0
    · exact step x (.inl rfl) (by omega)
    · refine step _ (.inr (.inr rfl)) ?_
      show foldIdx N (x.1 0 - 1) ≤ k
      rw [foldIdx_of (by omega) (by omega)]
      push_cast at hx
      omega

theorem iterate_neg (w : GridSol (D := 1) ![N] 1) (k : ℕ) : (advance (rodWalk hN κ δ) dt)^[k] (-w) = -(advance (rodWalk hN κ δ) dt)^[k] w := by
  induction k with
  | zero => rfl
  | succ k ih =>
    rw [Function.iterate_succ_apply', Function.iterate_succ_apply', ih]
    simp only [advance, map_neg, smul_neg]
    abel

/-- In as many steps as there are cells the range of the values shrinks by a factor. -/
theorem iterate_range {m M : ℝ} {w : GridSol (D := 1) ![N] 1} (hw : ∀ x, m ≤ w 0 x ∧ w 0 x ≤ M) {K : ℕ} (hK : (K : ℤ) = N - 1) :
    ∃ m' M', M' - m' = (1 - (dt * κ / δ ^ 2 / 2) ^ K) * (M - m) ∧ ∀ x, m' ≤ (advance (rodWalk hN κ δ) dt)^[K] w 0 x ∧ (advance (rodWalk hN κ δ) dt)^[K] w 0 x ≤ M' := by
  set c := (dt * κ / δ ^ 2 / 2) ^ K with hc
  refine ⟨m + c * (w 0 (foldPt hN 0) - m), M - c * (M - w 0 (foldPt hN 0)), by ring, fun x => ?_⟩
  have hx : x.1 0 ≤ K := by
    have := x.2 0
    simp only [Matrix.cons_val_zero] at this
    omega
  refine ⟨iterate_share hN h0 h1 (fun y => (hw y).1) K x hx, ?_⟩
  have h := iterate_share hN h0 h1 (m := -M) (w := -w) (fun y => by simpa using (hw y).2) K x hx
  rw [iterate_neg hN h0 h1, ← hc] at h
  simp only [Pi.neg_apply] at h
  linarith

/-- All ranges. -/
theorem iterate_ranges {m M : ℝ} {w : GridSol (D := 1) ![N] 1} (hw : ∀ x, m ≤ w 0 x ∧ w 0 x ≤ M) {K : ℕ} (hK : (K : ℤ) = N - 1) (q r : ℕ) :
    ∃ m' M', M' - m' = (1 - (dt * κ / δ ^ 2 / 2) ^ K) ^ q * (M - m) ∧ ∀ x, m' ≤ (advance (rodWalk hN κ δ) dt)^[r + K * q] w 0 x ∧ (advance (rodWalk hN κ δ) dt)^[r + K * q] w 0 x ≤ M' := by
  have hq : ∃ m' M', M' - m' = (1 - (dt * κ / δ ^ 2 / 2) ^ K) ^ q * (M - m) ∧ ∀ x, m' ≤ (advance (rodWalk hN κ δ) dt)^[K * q] w 0 x ∧ (advance (rodWalk hN κ δ) dt)^[K * q] w 0 x ≤ M' := by
    induction q with
    | zero => exact ⟨m, M, by simp, by simpa using hw⟩
    | succ q ih =>
      obtain ⟨m', M', e, h⟩ := ih
      obtain ⟨m2, M2, e2, h2⟩ := iterate_range hN h0 h1 h hK
      refine ⟨m2, M2, by rw [e2, e, pow_succ]; ring, ?_⟩
      rw [Nat.mul_succ, Nat.add_comm, Function.iterate_add_apply]
      exact h2
  obtain ⟨m', M', e, h⟩ := hq
  refine ⟨m', M', e, fun x => ?_⟩
  rw [Function.iterate_add_apply]
  refine ⟨iterate_above hN h0 h1 (fun y => (h y).1) r x, ?_⟩
  have := iterate_above hN h0 h1 (m := -M') (w := -(advance (rodWalk hN κ δ) dt)^[K * q] w) (fun y => by simpa using (h y).2) r x
  rw [iterate_neg hN h0 h1] at this
  simp only [Pi.neg_apply] at this
  linarith
end

/-- The average lies among the values. -/
theorem rodHeat_among {N : ℕ} (hN : 2 ≤ N) {v : P 1 → ℝ} {m M : ℝ} (hv : ∀ x, Grid ![(N : ℤ)] x → m ≤ v x ∧ v x ≤ M) : m ≤ rodHeat N v / (N - 1) ∧ rodHeat N v / (N - 1) ≤ M := by
  have hNR : (2 : ℝ) ≤ N := by exact_mod_cast hN
  have hg : ∀ j : ℤ, 0 ≤ j → j < N → m ≤ v ![j] ∧ v ![j] ≤ M := fun j a b => hv _ fun d => by rw [Subsingleton.elim d 0]; exact ⟨a, b⟩
  have g0 := hg 0 le_rfl (by omega)
  have g1 := hg (N - 1) (by omega) (by omega)
  have hcard : ((N - 2 : ℕ) : ℝ) = N - 2 := by rw [Nat.cast_sub hN]; norm_num
  have s1 : (N - 2 : ℝ) * m ≤ ∑ j ∈ Finset.range (N - 2), v ![(j : ℤ) + 1] := by
    have := Finset.card_nsmul_le_sum (Finset.range (N - 2)) (fun j => v ![(j : ℤ) + 1]) m fun j hj => by
      rw [Finset.mem_range] at hj
      exact (hg _ (by omega) (by omega)).1
    rwa [Finset.card_range, nsmul_eq_mul, hcard] at this
  have s2 : ∑ j ∈ Finset.range (N - 2), v ![(j : ℤ) + 1] ≤ (N - 2 : ℝ) * M := by
    have := Finset.sum_le_card_nsmul (Finset.range (N - 2)) (fun j => v ![(j : ℤ) + 1]) M fun j hj => by
      rw [Finset.mem_range] at hj
      exact (hg _ (by omega) (by omega)).2
    rwa [Finset.card_range, nsmul_eq_mul, hcard] at this
  rw [le_div_iff₀ (by linarith), div_le_iff₀ (by linarith), rodHeat]
  constructor <;> nlinarith

/-- **C102.** In an insulated rod all values tend to the average of the initial values: after `niter` steps of the complete printed program none is further from it than the range of the initial values times a power of a
number less than one, as long as the time step is positive and at most half the square of the spacing over the diffusivity. -/
theorem C102_rod_equilibrium {N niter : ℕ} (hN : 2 ≤ N) (inputs : String → ℝ) (hδ : 0 < inputs "Delta0block0") (hκ : 0 < inputs "kappa") (hdt : 0 < inputs "dt")
    (hlim : inputs "dt" * inputs "kappa" ≤ inputs "Delta0block0" ^ 2 / 2) {pts : Ranges.Kernel 1 → List (P 1)} (hp : Enumerates pts) (a : Arrays 1) {m M : ℝ}
    (ha : ∀ x, Grid ![(N : ℤ)] x → m ≤ a "phi_B0" x ∧ a "phi_B0" x ≤ M) :
    let θ := 1 - (inputs "dt" * inputs "kappa" / inputs "Delta0block0" ^ 2 / 2) ^ (N - 1)
    (0 ≤ θ ∧ θ < 1) ∧ ∃ prg a', Alg.generate (heatInput N niter) = .ok prg ∧ (heatWith (rodBcs N) inputs).runText prg pts (Alg.runProgram prg) a = some a' ∧
      ∀ x, Grid ![(N : ℤ)] x → |a' "phi_B0" x - rodHeat N (a "phi_B0") / (N - 1)| ≤ θ ^ (niter / (N - 1)) * (M - m) := by
  intro θ
  have hN' : (2 : ℤ) ≤ N := by exact_mod_cast hN
  have h2 : 0 < inputs "Delta0block0" ^ 2 := by positivity
  have h0 : 0 < inputs "dt" * inputs "kappa" / inputs "Delta0block0" ^ 2 := by positivity
  have h1 : inputs "dt" * inputs "kappa" / inputs "Delta0block0" ^ 2 ≤ 1 / 2 := by
    rw [div_le_iff₀ h2]
    linarith
  have h3 : 0 < (inputs "dt" * inputs "kappa" / inputs "Delta0block0" ^ 2 / 2) ^ (N - 1) := by positivity
  refine ⟨⟨sub_nonneg.2 (pow_le_one₀ (by positivity) (by linarith)), by simp only [θ]; linarith⟩, ?_⟩
  obtain ⟨prg, a', g1, g2, w, w0, w1, w2⟩ := rod_run (niter := niter) hN' inputs hp a
  refine ⟨prg, a', g1, g2, ?_⟩
  obtain ⟨prg2, a2, k1, k2, heat⟩ := C102_rod_heat (niter := niter) hN inputs hp a
  obtain rfl : prg = prg2 := by
    rw [g1] at k1
    exact Except.ok.inj k1
  obtain rfl : a' = a2 := by
    rw [g2] at k2
    exact Option.some.inj k2
  have hw : ∀ k, w k = (advance (rodWalk hN' (inputs "kappa") (inputs "Delta0block0")) (inputs "dt"))^[k] (w 0) := by
    intro k
    induction k with
    | zero => rfl
    | succ k ih => rw [w1, Function.iterate_succ_apply', ← ih]
  obtain ⟨m', M', e, h⟩ := iterate_ranges hN' h0.le h1 (w := w 0) (m := m) (M := M) (fun x => by rw [w0]; exact ha x.1 x.2) (K := N - 1) (by omega) (niter / (N - 1)) (niter % (N - 1))
  rw [Nat.mod_add_div, ← hw] at h
  have hall : ∀ x, Grid ![(N : ℤ)] x → m' ≤ a' "phi_B0" x ∧ a' "phi_B0" x ≤ M' := fun x hx => by
    rw [w2 ⟨x, hx⟩]
    exact h ⟨x, hx⟩
  have hav := rodHeat_among hN hall
  rw [heat] at hav
  intro x hx
  have hv := hall x hx
  rw [← e, abs_le]
  constructor <;> linarith [hav.1, hav.2, hv.1, hv.2]

/-- **C102.** So with any accuracy asked for there is a number of steps after which all values are the average to this accuracy, however long the program goes on. -/
theorem C102_rod_limit {N : ℕ} (hN : 2 ≤ N) (inputs : String → ℝ) (hδ : 0 < inputs "Delta0block0") (hκ : 0 < inputs "kappa") (hdt : 0 < inputs "dt")
    (hlim : inputs "dt" * inputs "kappa" ≤ inputs "Delta0block0" ^ 2 / 2) (m M : ℝ) {ε : ℝ} (hε : 0 < ε) :
    ∃ n0 : ℕ, ∀ niter : ℕ, n0 ≤ niter → ∀ {pts : Ranges.Kernel 1 → List (P 1)}, Enumerates pts → ∀ a : Arrays 1, (∀ x, Grid ![(N : ℤ)] x → m ≤ a "phi_B0" x ∧ a "phi_B0" x ≤ M) →
      ∃ prg a', Alg.generate (heatInput N niter) = .ok prg ∧ (heatWith (rodBcs N) inputs).runText prg pts (Alg.runProgram prg) a = some a' ∧
        ∀ x, Grid ![(N : ℤ)] x → |a' "phi_B0" x - rodHeat N (a "phi_B0") / (N - 1)| ≤ ε := by
  by_cases hmM : m ≤ M
  swap
  · refine ⟨0, fun niter _ pts hp a ha => absurd ?_ hmM⟩
    have := ha ![0] fun d => by rw [Subsingleton.elim d 0]; exact ⟨le_rfl, by simp; omega⟩
    exact this.1.trans this.2
  have h2 : 0 < inputs "Delta0block0" ^ 2 := by positivity
  set θ := 1 - (inputs "dt" * inputs "kappa" / inputs "Delta0block0" ^ 2 / 2) ^ (N - 1) with hθ
  have hθ01 : 0 ≤ θ ∧ θ < 1 := by
    have h0 : 0 < inputs "dt" * inputs "kappa" / inputs "Delta0block0" ^ 2 := by positivity
    have h1 : inputs "dt" * inputs "kappa" / inputs "Delta0block0" ^ 2 ≤ 1 / 2 := by
      rw [div_le_iff₀ h2]
      linarith
    have h3 : 0 < (inputs "dt" * inputs "kappa" / inputs "Delta0block0" ^ 2 / 2) ^ (N - 1) := by positivity
    exact ⟨sub_nonneg.2 (pow_le_one₀ (by positivity) (by linarith)), by rw [hθ]; linarith⟩
  obtain ⟨q, hq⟩ := exists_pow_lt_of_lt_one (by positivity : 0 < ε / (M - m + 1)) hθ01.2
  refine ⟨q * (N - 1), fun niter hn pts hp a ha => ?_⟩
  obtain ⟨-, prg, a', g1, g2, h⟩ := C102_rod_equilibrium (niter := niter) hN inputs hδ hκ hdt hlim hp a ha
  refine ⟨prg, a', g1, g2, fun x hx => (h x hx).trans ?_⟩
  have h4 : θ ^ (niter / (N - 1)) ≤ θ ^ q := pow_le_pow_of_le_one hθ01.1 hθ01.2.le ((Nat.le_div_iff_mul_le (by omega)).2 hn)
  have h5 : θ ^ (niter / (N - 1)) ≤ ε / (M - m + 1) := h4.trans hq.le
  have h6 : (0 : ℝ) < M - m + 1 := by linarith
  calc _ ≤ ε / (M - m + 1) * (M - m) := mul_le_mul_of_nonneg_right h5 (by linarith)
    _ ≤ ε / (M - m + 1) * (M - m + 1) := mul_le_mul_of_nonneg_left (by linarith) (by positivity)
    _ = ε := by field_simp

/-- The hypotheses can be met: 11 points, `kappa = 1/10`, a spacing of `1/10` and time steps of `1/25`. -/
example : (1 / 25 : ℝ) * (1 / 10) ≤ (1 / 10) ^ 2 / 2 := by norm_num

end OpenSBLI.Bc
