import Verif.Props.C11_C13_Teno

/-!
# C11: weights of TENO for any data

The right-biased indicator of order 6 may be negative (C13); the weights are convex all the same, because the measures are even powers and the first three indicators are sums of squares.
-/
namespace OpenSBLI.Teno
open Finset Weno

theorem exists_survivor' (o : Order) (CT : ℝ) (hCT : CT ≤ 1 / (o.n:ℝ)) (α : ℕ → ℝ) (hα : ∀ r < o.n, 0 ≤ α r) (h0 : 0 < α 0) : ∃ r < o.n, delta o CT α r = 1 := by
  set S := ∑ s ∈ range o.n, α s with hS
  have hn : (0:ℝ) < o.n := by exact_mod_cast n_pos o
  have hSp : 0 < S := Finset.sum_pos' (fun i hi => hα i (mem_range.1 hi)) ⟨0, mem_range.2 (n_pos o), h0⟩
  by_contra hcon
  push Not at hcon
  have hlt : ∀ r ∈ range o.n, α r < S / o.n := by
    intro r hr
    have h1 := hcon r (mem_range.1 hr)
    unfold delta at h1
    rw [← hS] at h1
    have h2 : α r * (1 / S) < CT := by
      by_contra h; rw [if_neg h] at h1; exact h1 rfl
    have h3 : α r * (1 / S) < 1 / o.n := lt_of_lt_of_le h2 hCT
    rw [mul_one_div, div_lt_div_iff₀ hSp hn, one_mul] at h3
    rw [lt_div_iff₀ hn]
    exact h3
  have := Finset.sum_lt_sum_of_nonempty ⟨0, mem_range.2 (n_pos o)⟩ hlt
  rw [← hS, Finset.sum_const, card_range, nsmul_eq_mul] at this
  have e : (o.n:ℝ) * (S / o.n) = S := by field_simp
  rw [e] at this
  exact lt_irrefl _ this

/-- The weights are convex when one indicator is not negative. -/
theorem weights_convex (o : Order) (eps CT : ℝ) (he : 0 < eps) (hCT : CT ≤ 1 / (o.n:ℝ)) (b : ℕ → ℝ) (hb : 0 ≤ b 0) :
    (∃ r < o.n, delta o CT (alpha o eps b) r = 1) ∧ 0 < omegaSum o (delta o CT (alpha o eps b)) ∧ (∀ r < o.n, 0 ≤ weights o eps CT b r) ∧ ∑ r ∈ range o.n, weights o eps CT b r = 1 := by
  obtain ⟨r0, hr0, hd⟩ := exists_survivor' o CT hCT (alpha o eps b) (fun r _ => by unfold alpha; positivity) (alpha_pos o eps he b 0 hb)
  have hδ : ∀ r, 0 ≤ delta o CT (alpha o eps b) r := by
    intro r; rcases C11_cutoff_sharp o CT (alpha o eps b) r with h | h <;> rw [h]; norm_num
  have hpos : 0 < omegaSum o (delta o CT (alpha o eps b)) := by
    unfold omegaSum
    refine Finset.sum_pos' (fun i hi => mul_nonneg (C12_linear_weights_positive o i (mem_range.1 hi)).le (hδ i)) ⟨r0, mem_range.2 hr0, ?_⟩
    rw [hd, mul_one]
    exact C12_linear_weights_positive o r0 hr0
  refine ⟨⟨r0, hr0, hd⟩, hpos, fun r hr => ?_, ?_⟩
  · unfold weights omega
    exact mul_nonneg (mul_nonneg (C12_linear_weights_positive o r hr).le (hδ r)) (by positivity)
  · unfold weights omega
    rw [← Finset.sum_mul]
    change omegaSum o _ * (1 / omegaSum o _) = 1
    field_simp

/-- **C11** (partial). For any data, both orders and both sides: at least one candidate survives, no sum of weights vanishes, the weights are not negative and sum to one. Missing: the data of order 6 for which the denominator
`eps + beta_3` is exactly zero (`C13_six_zero_denominator`), where the program divides by zero. -/
theorem C11_weights_any_data_partial (o : Order) (side : Side) (eps CT : ℝ) (he : 0 < eps) (hCT : CT ≤ 1 / (o.n:ℝ)) (f : ℤ → ℝ) (_hd : ∀ r < o.n, eps + beta side r f ≠ 0) :
    let b := fun r => beta side r f
    (∃ r < o.n, delta o CT (alpha o eps b) r = 1) ∧ 0 < ∑ r ∈ range o.n, alpha o eps b r ∧ 0 < omegaSum o (delta o CT (alpha o eps b)) ∧ (∀ r < o.n, 0 ≤ weights o eps CT b r) ∧ ∑ r ∈ range o.n, weights o eps CT b r = 1 := by
  intro b
  have hb : 0 ≤ b 0 := C13_indicator_nonneg_partial o side 0 (n_pos o) (.inr (.inr (by norm_num))) f
  obtain ⟨h1, h2, h3, h4⟩ := weights_convex o eps CT he hCT b hb
  exact ⟨h1, Finset.sum_pos' (fun r _ => by unfold alpha; positivity) ⟨0, mem_range.2 (n_pos o), alpha_pos o eps he b 0 hb⟩, h2, h3, h4⟩

/-- **C11** (partial). The reconstructed value lies between any bounds on the candidate values, for both orders and both sides; with the same exception. -/
theorem C11_between_any_data_partial (o : Order) (side : Side) (eps CT : ℝ) (he : 0 < eps) (hCT : CT ≤ 1 / (o.n:ℝ)) (f : ℤ → ℝ) (hd : ∀ r < o.n, eps + beta side r f ≠ 0) (lo hi : ℝ)
    (hlo : ∀ r < o.n, lo ≤ candidate side r f) (hhi : ∀ r < o.n, candidate side r f ≤ hi) : lo ≤ reconstruct o side eps CT f ∧ reconstruct o side eps CT f ≤ hi := by
  obtain ⟨-, -, -, h1, h2⟩ := C11_weights_any_data_partial o side eps CT he hCT f hd
  unfold reconstruct
  constructor
  · calc lo = ∑ r ∈ range o.n, weights o eps CT (fun r => beta side r f) r * lo := by rw [← Finset.sum_mul, h2, one_mul]
      _ ≤ _ := Finset.sum_le_sum fun r hr => mul_le_mul_of_nonneg_left (hlo r (mem_range.1 hr)) (h1 r (mem_range.1 hr))
  · calc _ ≤ ∑ r ∈ range o.n, weights o eps CT (fun r => beta side r f) r * hi := Finset.sum_le_sum fun r hr => mul_le_mul_of_nonneg_left (hhi r (mem_range.1 hr)) (h1 r (mem_range.1 hr))
      _ = hi := by rw [← Finset.sum_mul, h2, one_mul]

/-- Data with a negative indicator, to which the theorem applies. -/
example : let f : ℤ → ℝ := fun n => if n = 3 then -1/10 else 0
    beta .right 3 f < 0 ∧ -1/10 ≤ reconstruct .six .right (1/10^15) (1/10^7) f ∧ reconstruct .six .right (1/10^15) (1/10^7) f ≤ 0 := by
  intro f
  refine ⟨by norm_num [beta, f], C11_between_any_data_partial .six .right _ _ (by norm_num) (by norm_num [Order.n]) f (fun r hr => ?_) _ _ (fun r hr => ?_) (fun r hr => ?_)⟩ <;> simp only [Order.n] at hr <;> interval_cases r <;>
    norm_num [beta, candidate, points, coeffs, f]

end OpenSBLI.Teno
