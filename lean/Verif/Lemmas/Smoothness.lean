import Verif.Model.WenoNonlinear
import Verif.Lemmas.Primitive
import Verif.Spec.CellAverage
import Mathlib.Tactic.Linarith
import Mathlib.Tactic.Positivity
import Mathlib.Tactic.Ring
import Mathlib.Algebra.BigOperators.Ring.Finset
import Mathlib.MeasureTheory.Integral.IntervalIntegral.FundThmCalculus

namespace OpenSBLI.Weno
open Polynomial Finset Interp Spec

set_option linter.unusedSectionVars false

/-! ### The extraction loop -/

open Classical in
theorem extract_row (q : (ℕ → ℝ) → ℝ) (N m : ℕ) (hm : m < N) (s : ExtractState)
    (hc : 0 < m → s.c = 0)
    (hd : ∀ a b, a ≤ b → ((a, b) ∈ s.done ↔ a < m ∧ b < N)) (n : ℕ) (hn : n ≤ N) :
    let s' := ((List.range n).map fun n => (m, n)).foldl (extractStep q) s
    (∀ a b, a ≤ b → ((a, b) ∈ s'.done ↔ (a < m ∧ b < N) ∨ (a = m ∧ b < n))) ∧
    (s'.c = if n = 0 then s.c else if n ≤ m then 0 else quadCoeff q m (n-1)) ∧
    s'.coeffs = s.coeffs ++ ((List.range n).filter
      (fun n => decide (m ≤ n ∧ quadCoeff q m n ≠ 0))).map (fun n => ((m, n), quadCoeff q m n)) := by
  induction n with
  | zero =>
    refine ⟨?_, by simp, by simp⟩
    intro a b hab
    simpa using hd a b hab
  | succ n ih =>
    obtain ⟨ih1, ih2, ih3⟩ := ih (by omega)
    simp only [List.range_succ, List.map_append, List.map_cons, List.map_nil, List.foldl_append,
      List.foldl_cons, List.foldl_nil] at *
    set s' := ((List.range n).map fun n => (m, n)).foldl (extractStep q) s with hs'
    by_cases hnm : n < m
    · have hkey : prodKey m n = (n, m) := by
        simp only [prodKey, Prod.mk.injEq]; omega
      have hin : prodKey m n ∈ s'.done := by
        rw [hkey, ih1 n m (by omega)]; left; omega
      have hc0 : s'.c = 0 := by
        rw [ih2]
        by_cases h0 : n = 0
        · rw [if_pos h0]; exact hc (by omega)
        · rw [if_neg h0, if_pos (by omega)]
      refine ⟨?_, ?_, ?_⟩
      · intro a b hab
        simp only [extractStep, List.mem_append, List.mem_singleton]
        rw [ih1 a b hab, hkey, Prod.mk.injEq]
        omega
      · simp only [extractStep, hin, if_true, hc0]
        rw [if_neg (by omega), if_pos (by omega)]
      · simp only [extractStep, hin, if_true, hc0]
        rw [if_neg (by simp), ih3, List.filter_append]
        simp [show ¬ m ≤ n by omega]
    · have hkey : prodKey m n = (m, n) := by
        simp only [prodKey, Prod.mk.injEq]; omega
      have hin : prodKey m n ∉ s'.done := by
        rw [hkey, ih1 m n (by omega)]; omega
      refine ⟨?_, ?_, ?_⟩
      · intro a b hab
        simp only [extractStep, List.mem_append, List.mem_singleton]
        rw [ih1 a b hab, hkey, Prod.mk.injEq]
        omega
      · simp only [extractStep, hin, if_false]
        rw [if_neg (by omega), if_neg (by omega)]
        simp
      · simp only [extractStep, hin, if_false]
        rw [ih3, List.filter_append]
        by_cases hq : quadCoeff q m n = 0
        · simp [hq]
        · simp [hq, show m ≤ n by omega]

open Classical in
/-- Explicit result of the extraction: the upper triangle of nonzero coefficients, provided the last
column vanishes. -/
theorem extract_all (q : (ℕ → ℝ) → ℝ) (N : ℕ) (hlast : ∀ m < N, quadCoeff q m (N-1) = 0)
    (M : ℕ) (hM : M ≤ N) :
    let s' := ((List.range M).flatMap fun m => (List.range N).map fun n => (m, n)).foldl
      (extractStep q) ⟨[], 0, []⟩
    s'.c = 0 ∧ (∀ a b, a ≤ b → ((a, b) ∈ s'.done ↔ a < M ∧ b < N)) ∧
    s'.coeffs = (List.range M).flatMap fun m => ((List.range N).filter
      (fun n => decide (m ≤ n ∧ quadCoeff q m n ≠ 0))).map (fun n => ((m, n), quadCoeff q m n)) := by
  induction M with
  | zero => simp
  | succ M ih =>
    obtain ⟨ih1, ih2, ih3⟩ := ih (by omega)
    simp only [List.range_succ, List.flatMap_append, List.flatMap_cons, List.flatMap_nil,
      List.append_nil, List.foldl_append] at *
    set s' := ((List.range M).flatMap fun m => (List.range N).map fun n => (m, n)).foldl
      (extractStep q) ⟨[], 0, []⟩ with hs'
    obtain ⟨r1, r2, r3⟩ := extract_row q N M (by omega) s' (fun _ => ih1) ih2 N le_rfl
    refine ⟨?_, ?_, ?_⟩
    · rw [r2, if_neg (by omega), if_neg (by omega)]
      exact hlast M (by omega)
    · intro a b hab
      rw [r1 a b hab]
      omega
    · rw [r3, ih3]

/-! ### The indicator is a quadratic form -/

theorem candidatePoly_congr (k r : ℕ) (dz : ℝ) (u v : ℕ → ℝ) (h : ∀ i < k, u i = v i) :
    candidatePoly k r dz u = candidatePoly k r dz v := by
  unfold candidatePoly
  congr 1
  apply Lagrange.interpolate_eq_of_values_eq_on
  intro i hi
  rw [mem_range] at hi
  apply Finset.sum_congr rfl
  intro j hj
  rw [mem_range] at hj
  rw [h j (by omega)]

theorem smoothTotal_congr (k r : ℕ) (dz : ℝ) (u v : ℕ → ℝ) (h : ∀ i < k, u i = v i) :
    smoothTotal k r dz u = smoothTotal k r dz v := by
  unfold smoothTotal
  rw [candidatePoly_congr k r dz u v h]

theorem candidatePoly_linear (k r : ℕ) (dz : ℝ) (u : ℕ → ℝ) :
    candidatePoly k r dz u = ∑ a ∈ range k, C (u a) * candidatePoly k r dz (unitNode a) := by
  unfold candidatePoly
  have h : Lagrange.interpolate (range (k+1)) (fun i : ℕ => dz * ((i:ℝ) - r))
      (fun i => ∑ j ∈ range i, dz * u j) =
      ∑ a ∈ range k, C (u a) * Lagrange.interpolate (range (k+1)) (fun i : ℕ => dz * ((i:ℝ) - r))
      (fun i => ∑ j ∈ range i, dz * unitNode a j) := by
    have h1 : ∀ a ∈ range k, C (u a) * Lagrange.interpolate (range (k+1))
        (fun i : ℕ => dz * ((i:ℝ) - r)) (fun i => ∑ j ∈ range i, dz * unitNode a j) =
        Lagrange.interpolate (range (k+1)) (fun i : ℕ => dz * ((i:ℝ) - r))
          (u a • fun i => ∑ j ∈ range i, dz * unitNode a j) := by
      intro a _
      rw [map_smul, Polynomial.smul_eq_C_mul]
    rw [Finset.sum_congr rfl h1, ← map_sum]
    apply Lagrange.interpolate_eq_of_values_eq_on
    intro i hi
    rw [mem_range] at hi
    simp only [Finset.sum_apply, Pi.smul_apply, smul_eq_mul, Finset.mul_sum]
    rw [Finset.sum_comm]
    apply Finset.sum_congr rfl
    intro j hj
    rw [mem_range] at hj
    rw [Finset.sum_eq_single j]
    · simp [unitNode]; ring
    · intro b _ hb; simp [unitNode, Ne.symm hb]
    · intro hj'; exact absurd (mem_range.2 (by omega)) hj'
  rw [h, derivative_sum]
  apply Finset.sum_congr rfl
  intro a _
  rw [derivative_C_mul]

/-- The bilinear form of the indicator. -/
noncomputable def bilin (k r : ℕ) (dz : ℝ) (a b : ℕ) : ℝ :=
  ∑ l ∈ Ico 1 k, dz^(2*l-1) * ∫ z in (0:ℝ)..dz,
    ((derivative^[l]) (candidatePoly k r dz (unitNode a))).eval z *
    ((derivative^[l]) (candidatePoly k r dz (unitNode b))).eval z

theorem smoothTotal_eq_bilin (k r : ℕ) (dz : ℝ) (u : ℕ → ℝ) :
    smoothTotal k r dz u = ∑ a ∈ range k, ∑ b ∈ range k, bilin k r dz a b * (u a * u b) := by
  have h1 : ∀ l, ∫ z in (0:ℝ)..dz, (((derivative^[l]) (candidatePoly k r dz u)).eval z)^2 =
      ∑ a ∈ range k, ∑ b ∈ range k, (u a * u b) * ∫ z in (0:ℝ)..dz,
        ((derivative^[l]) (candidatePoly k r dz (unitNode a))).eval z *
        ((derivative^[l]) (candidatePoly k r dz (unitNode b))).eval z := by
    intro l
    have h2 : ∀ z : ℝ, (((derivative^[l]) (candidatePoly k r dz u)).eval z)^2 =
        ∑ a ∈ range k, ∑ b ∈ range k, (u a * u b) *
          (((derivative^[l]) (candidatePoly k r dz (unitNode a))).eval z *
          ((derivative^[l]) (candidatePoly k r dz (unitNode b))).eval z) := by
      intro z
      rw [candidatePoly_linear, Polynomial.iterate_derivative_sum, eval_finsetSum, sq,
        Finset.sum_mul_sum]
      apply Finset.sum_congr rfl
      intro a _
      apply Finset.sum_congr rfl
      intro b _
      rw [iterate_derivative_C_mul, iterate_derivative_C_mul, eval_mul, eval_mul, eval_C, eval_C]
      ring
    simp only [h2]
    have hint : ∀ a b, IntervalIntegrable (fun z => (u a * u b) *
          (((derivative^[l]) (candidatePoly k r dz (unitNode a))).eval z *
          ((derivative^[l]) (candidatePoly k r dz (unitNode b))).eval z)) MeasureTheory.volume 0 dz := by
      intro a b
      apply Continuous.intervalIntegrable
      exact continuous_const.mul ((Polynomial.continuous _).mul (Polynomial.continuous _))
    rw [intervalIntegral.integral_finsetSum]
    · apply Finset.sum_congr rfl
      intro a _
      rw [intervalIntegral.integral_finsetSum]
      · apply Finset.sum_congr rfl
        intro b _
        rw [intervalIntegral.integral_const_mul]
      · intro b _; exact hint a b
    · intro a _
      apply Continuous.intervalIntegrable
      apply continuous_finsetSum
      intro b _
      exact continuous_const.mul ((Polynomial.continuous _).mul (Polynomial.continuous _))
  unfold smoothTotal bilin
  simp only [h1, Finset.mul_sum, Finset.sum_mul]
  rw [Finset.sum_comm]
  apply Finset.sum_congr rfl
  intro a _
  rw [Finset.sum_comm]
  apply Finset.sum_congr rfl
  intro b _
  apply Finset.sum_congr rfl
  intro l _
  ring

theorem bilin_comm (k r : ℕ) (dz : ℝ) (a b : ℕ) : bilin k r dz a b = bilin k r dz b a := by
  unfold bilin
  apply Finset.sum_congr rfl
  intro l _
  have h : ∀ z : ℝ, ((derivative^[l]) (candidatePoly k r dz (unitNode a))).eval z *
      ((derivative^[l]) (candidatePoly k r dz (unitNode b))).eval z =
      ((derivative^[l]) (candidatePoly k r dz (unitNode b))).eval z *
      ((derivative^[l]) (candidatePoly k r dz (unitNode a))).eval z := fun z => mul_comm _ _
  rw [funext h]

theorem bilin_of_ge (k r : ℕ) (dz : ℝ) (a b : ℕ) (hb : k ≤ b) : bilin k r dz a b = 0 := by
  have : candidatePoly k r dz (unitNode b) = 0 := by
    rw [candidatePoly_linear]
    apply Finset.sum_eq_zero
    intro a ha
    rw [mem_range] at ha
    simp [unitNode, show a ≠ b by omega]
  unfold bilin
  simp [this]

theorem smoothTotal_unit (k r : ℕ) (dz : ℝ) (m : ℕ) :
    smoothTotal k r dz (unitNode m) = bilin k r dz m m := by
  rw [smoothTotal_eq_bilin]
  by_cases hm : m < k
  · rw [Finset.sum_eq_single m, Finset.sum_eq_single m]
    · simp [unitNode]
    · intro b _ hb; simp [unitNode, hb]
    · intro h; exact absurd (mem_range.2 hm) h
    · intro b _ hb; simp [unitNode, hb]
    · intro h; exact absurd (mem_range.2 hm) h
  · rw [bilin_of_ge _ _ _ _ _ (by omega)]
    apply Finset.sum_eq_zero
    intro a ha
    rw [mem_range] at ha
    apply Finset.sum_eq_zero
    intro b _
    simp [unitNode, show a ≠ m by omega]

theorem smoothTotal_add (k r : ℕ) (dz : ℝ) (u v : ℕ → ℝ) :
    smoothTotal k r dz (fun i => u i + v i) = smoothTotal k r dz u + smoothTotal k r dz v +
      2 * ∑ a ∈ range k, ∑ b ∈ range k, bilin k r dz a b * (u a * v b) := by
  have hs : ∑ a ∈ range k, ∑ b ∈ range k, bilin k r dz a b * (v a * u b) =
      ∑ a ∈ range k, ∑ b ∈ range k, bilin k r dz a b * (u a * v b) := by
    rw [Finset.sum_comm]
    apply Finset.sum_congr rfl
    intro a _
    apply Finset.sum_congr rfl
    intro b _
    rw [bilin_comm]
    ring
  simp only [smoothTotal_eq_bilin, add_mul, mul_add, Finset.sum_add_distrib]
  rw [hs]
  ring

theorem quadCoeff_smooth (k r : ℕ) (dz : ℝ) (m n : ℕ) :
    quadCoeff (smoothTotal k r dz) m n =
      if m = n then bilin k r dz m m else 2 * bilin k r dz m n := by
  unfold quadCoeff
  split
  · exact smoothTotal_unit k r dz m
  · rename_i hmn
    rw [smoothTotal_add]
    have : ∑ a ∈ range k, ∑ b ∈ range k, bilin k r dz a b * (unitNode m a * unitNode n b) =
        bilin k r dz m n := by
      by_cases hm : m < k
      · by_cases hn : n < k
        · rw [Finset.sum_eq_single m, Finset.sum_eq_single n]
          · simp [unitNode]
          · intro b _ hb; simp [unitNode, hb]
          · intro h; exact absurd (mem_range.2 hn) h
          · intro b _ hb; simp [unitNode, hb]
          · intro h; exact absurd (mem_range.2 hm) h
        · rw [bilin_of_ge _ _ _ _ _ (by omega)]
          apply Finset.sum_eq_zero; intro a _
          apply Finset.sum_eq_zero; intro b hb
          rw [mem_range] at hb
          simp [unitNode, show b ≠ n by omega]
      · rw [bilin_comm, bilin_of_ge _ _ _ _ _ (by omega)]
        apply Finset.sum_eq_zero; intro a ha
        rw [mem_range] at ha
        apply Finset.sum_eq_zero; intro b _
        simp [unitNode, show a ≠ m by omega]
    rw [this]
    ring

theorem quadCoeff_of_ge (k r : ℕ) (dz : ℝ) (m n : ℕ) (h : k ≤ n) :
    quadCoeff (smoothTotal k r dz) m n = 0 := by
  rw [quadCoeff_smooth]
  split
  · rename_i h'; subst h'; exact bilin_of_ge _ _ _ _ _ h
  · rw [bilin_of_ge _ _ _ _ _ h, mul_zero]

open Classical in
/-- The dictionary built by the generator. -/
theorem smoothCoeffs_eq (k r : ℕ) (hk : 2 ≤ k) (dz : ℝ) :
    smoothCoeffs k r dz = (List.range (2*k-1)).flatMap fun m => ((List.range (2*k-1)).filter
      (fun n => decide (m ≤ n ∧ quadCoeff (smoothTotal k r dz) m n ≠ 0))).map
        (fun n => ((m, n), quadCoeff (smoothTotal k r dz) m n)) := by
  unfold smoothCoeffs extractPairs
  exact (extract_all (smoothTotal k r dz) (2*k-1)
    (fun m _ => quadCoeff_of_ge k r dz m _ (by omega)) (2*k-1) le_rfl).2.2

theorem list_sum_filter_map (l : List ℕ) (p : ℕ → Prop) [DecidablePred p] (g : ℕ → ℝ) :
    ((l.filter (fun n => decide (p n))).map g).sum = (l.map (fun n => if p n then g n else 0)).sum := by
  induction l with
  | nil => rfl
  | cons a l ih =>
    by_cases h : p a
    · simp [h, ih]
    · simp [h, ih]

theorem sum_triangle (N : ℕ) (g : ℕ → ℕ → ℝ) (hg : ∀ a b, g a b = g b a) :
    ∑ m ∈ range N, ∑ n ∈ range N, (if m ≤ n then (if m = n then g m m else 2 * g m n) else 0) =
      ∑ m ∈ range N, ∑ n ∈ range N, g m n := by
  have h1 : ∀ m n, (if m ≤ n then (if m = n then g m m else 2 * g m n) else 0) =
      (if m ≤ n then g m n else 0) + (if m < n then g m n else 0) := by
    intro m n
    rcases lt_trichotomy m n with h | h | h
    · simp [h.le, h, h.ne]; ring
    · subst h; simp
    · simp [not_le.2 h, not_lt.2 h.le]
  have h2 : ∑ m ∈ range N, ∑ n ∈ range N, (if m < n then g m n else 0) =
      ∑ m ∈ range N, ∑ n ∈ range N, (if n < m then g m n else 0) := by
    rw [Finset.sum_comm]
    apply Finset.sum_congr rfl; intro a _
    apply Finset.sum_congr rfl; intro b _
    rw [hg]
  simp only [h1, Finset.sum_add_distrib]
  rw [h2, ← Finset.sum_add_distrib]
  apply Finset.sum_congr rfl; intro a _
  rw [← Finset.sum_add_distrib]
  apply Finset.sum_congr rfl; intro b _
  rcases le_or_gt a b with h | h
  · simp [h, not_lt.2 h]
  · simp [h, not_le.2 h]

theorem list_sum_flatMap (l : List ℕ) (g : ℕ → List ℝ) :
    (l.flatMap g).sum = (l.map fun m => (g m).sum).sum := by
  induction l with
  | nil => rfl
  | cons a l ih => simp [List.flatMap_cons, ih]

theorem list_sum_range (g : ℕ → ℝ) (N : ℕ) :
    ((List.range N).map g).sum = ∑ i ∈ range N, g i := by
  induction N with
  | zero => simp
  | succ N ih => simp [List.range_succ, Finset.sum_range_succ, ih]

/-- The polynomial emitted by the generator evaluates to the integral expression. -/
theorem beta_eq_total (side : Side) (k r : ℕ) (hk : 2 ≤ k) (dz : ℝ) (f : ℤ → ℝ) :
    beta side k r dz f = smoothTotal k r dz (fun i => f (-(r:ℤ) + i + side.c)) := by
  classical
  unfold beta
  rw [smoothCoeffs_eq k r hk, List.map_flatMap, list_sum_flatMap, list_sum_range,
    smoothTotal_eq_bilin]
  set F : ℕ → ℝ := fun i => f (-(r:ℤ) + i + side.c) with hF
  have e1 : ∀ m, (List.map (fun e : (ℕ × ℕ) × ℝ => e.2 * (f (-↑r + ↑e.1.1 + side.c) *
      f (-↑r + ↑e.1.2 + side.c))) (List.map (fun n => ((m, n), quadCoeff (smoothTotal k r dz) m n))
        (List.filter (fun n => decide (m ≤ n ∧ quadCoeff (smoothTotal k r dz) m n ≠ 0))
          (List.range (2 * k - 1))))).sum =
      ∑ n ∈ range (2*k-1), (if m ≤ n then (if m = n then bilin k r dz m m * (F m * F m)
        else 2 * (bilin k r dz m n * (F m * F n))) else 0) := by
    intro m
    rw [List.map_map, list_sum_filter_map, list_sum_range]
    apply Finset.sum_congr rfl
    intro n _
    simp only [Function.comp_apply]
    have hq := quadCoeff_smooth k r dz m n
    by_cases h0 : quadCoeff (smoothTotal k r dz) m n = 0
    · simp only [h0, ne_eq, not_true_eq_false, and_false, if_false]
      rw [h0] at hq
      split
      · split
        · rename_i h; rw [if_pos h] at hq; rw [← hq]; ring
        · rename_i h; rw [if_neg h] at hq
          linear_combination (F m * F n) * hq
      · rfl
    · simp only [h0, ne_eq, not_false_eq_true, and_true]
      split
      · rw [hq]
        split
        · rename_i h; subst h; rfl
        · simp only [hF]; ring
      · rfl
  simp only [e1]
  rw [sum_triangle (2*k-1) (fun m n => bilin k r dz m n * (F m * F n))
    (fun a b => by rw [bilin_comm]; ring)]
  have hsub : range k ⊆ range (2*k-1) := by
    intro x hx; rw [mem_range] at *; omega
  symm
  rw [Finset.sum_subset hsub]
  · apply Finset.sum_congr rfl
    intro a _
    apply Finset.sum_subset hsub
    intro b _ hb
    rw [bilin_of_ge _ _ _ _ _ (by simpa using hb), zero_mul]
  · intro a _ ha
    apply Finset.sum_eq_zero
    intro b _
    rw [bilin_comm, bilin_of_ge _ _ _ _ _ (by simpa using ha), zero_mul]

end OpenSBLI.Weno
