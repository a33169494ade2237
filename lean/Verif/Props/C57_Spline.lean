import Verif.Model.Utilities
import Mathlib.Analysis.Calculus.Deriv.Add
import Mathlib.Analysis.Calculus.Deriv.Mul
import Mathlib.Analysis.Calculus.Deriv.Pow
import Mathlib.Topology.Order.OrderClosed
import Mathlib.Tactic.Ring
import Mathlib.Tactic.NormNum
import Mathlib.Tactic.Linarith
import Mathlib.Tactic.FieldSimp
import Mathlib.Tactic.Positivity
import Mathlib.Tactic.LinearCombination

/-!
# C57 Cubic spline
-/
namespace OpenSBLI.Util

/-! ## What the loops leave in the arrays -/

section arrays

variable (x y : ℕ → ℝ) (s0 : Sweep)

/-- The decomposition after `k` passes. -/
noncomputable def after (k : ℕ) : Sweep := (List.range' 1 k).foldl (splineStep x y) s0

theorem after_succ (k : ℕ) : after x y s0 (k + 1) = splineStep x y (after x y s0 k) (k + 1) := by
  simp only [after]
  rw [List.range'_1_concat, List.foldl_append, List.foldl_cons, List.foldl_nil, Nat.add_comm 1 k]

theorem step_other (s : Sweep) (i j : ℕ) (h : j ≠ i) : (splineStep x y s i).d2y j = s.d2y j ∧ (splineStep x y s i).u j = s.u j := by
  simp [splineStep, Function.update_of_ne h]

/-- Entries up to `k` do not change after pass `k`. -/
theorem after_stable (k : ℕ) : ∀ m j, j ≤ k → (after x y s0 (k + m)).d2y j = (after x y s0 k).d2y j ∧
    (after x y s0 (k + m)).u j = (after x y s0 k).u j := by
  intro m
  induction m with
  | zero => intro j _; exact ⟨rfl, rfl⟩
  | succ m ih =>
    intro j hj
    rw [← Nat.add_assoc, after_succ]
    obtain ⟨a, b⟩ := step_other x y (after x y s0 (k + m)) (k + m + 1) j (by omega)
    exact ⟨a.trans (ih j hj).1, b.trans (ih j hj).2⟩

/-- The relation one pass establishes. -/
theorem step_self (s : Sweep) (i : ℕ) (hi : 1 ≤ i) :
    (splineStep x y s i).d2y i = ((x i - x (i - 1)) / (x (i + 1) - x (i - 1)) - 1) / ((x i - x (i - 1)) / (x (i + 1) - x (i - 1)) * s.d2y (i - 1) + 2) ∧
      (splineStep x y s i).u i = (6 * ((y (i + 1) - y i) / (x (i + 1) - x i) - (y i - y (i - 1)) / (x i - x (i - 1))) / (x (i + 1) - x (i - 1)) -
        (x i - x (i - 1)) / (x (i + 1) - x (i - 1)) * s.u (i - 1)) / ((x i - x (i - 1)) / (x (i + 1) - x (i - 1)) * s.d2y (i - 1) + 2) := by
  have : i - 1 ≠ i := by omega
  simp [splineStep, Function.update_of_ne this]

/-- The recurrences of the decomposition, in terms of the final arrays. -/
theorem forward_rec (n i : ℕ) (hi : 1 ≤ i) (hn : i ≤ n - 2) :
    let f := splineForward x y n s0
    f.d2y i = ((x i - x (i - 1)) / (x (i + 1) - x (i - 1)) - 1) / ((x i - x (i - 1)) / (x (i + 1) - x (i - 1)) * f.d2y (i - 1) + 2) ∧
      f.u i = (6 * ((y (i + 1) - y i) / (x (i + 1) - x i) - (y i - y (i - 1)) / (x i - x (i - 1))) / (x (i + 1) - x (i - 1)) -
        (x i - x (i - 1)) / (x (i + 1) - x (i - 1)) * f.u (i - 1)) / ((x i - x (i - 1)) / (x (i + 1) - x (i - 1)) * f.d2y (i - 1) + 2) := by
  intro f
  obtain ⟨k, rfl⟩ : ∃ k, i = k + 1 := ⟨i - 1, by omega⟩
  have e : f = after x y s0 (n - 2) := rfl
  have a := after_stable x y s0 (k + 1) (n - 2 - (k + 1)) (k + 1) le_rfl
  have b := after_stable x y s0 k (n - 2 - k) k le_rfl
  rw [show k + 1 + (n - 2 - (k + 1)) = n - 2 by omega, ← e] at a
  rw [show k + (n - 2 - k) = n - 2 by omega, ← e] at b
  have c := step_self x y (after x y s0 k) (k + 1) (by omega)
  rw [← after_succ, ← a.1, ← a.2, show k + 1 - 1 = k by omega, ← b.1, ← b.2] at c
  rwa [show k + 1 - 1 = k by omega]

theorem forward_zero (n : ℕ) : (splineForward x y n s0).d2y 0 = s0.d2y 0 ∧ (splineForward x y n s0).u 0 = s0.u 0 := by
  have := after_stable x y s0 0 (n - 2) 0 le_rfl
  rwa [Nat.zero_add] at this

end arrays

/-- The back substitution over the entries below `m`. -/
theorem back_rec (m : ℕ) : ∀ s r : Sweep,
    r = (List.range m).reverse.foldl (fun (s : Sweep) (k : ℕ) => (⟨Function.update s.d2y k (s.d2y k * s.d2y (k + 1) + s.u k), s.u⟩ : Sweep)) s →
    (∀ j, m ≤ j → r.d2y j = s.d2y j) ∧ ∀ k, k < m → r.d2y k = s.d2y k * r.d2y (k + 1) + s.u k := by
  induction m with
  | zero => rintro s r rfl; exact ⟨fun j _ => rfl, fun k hk => absurd hk (by omega)⟩
  | succ m ih =>
    intro s r hr
    rw [List.range_succ, List.reverse_append, List.reverse_singleton, List.singleton_append, List.foldl_cons] at hr
    obtain ⟨h1, h2⟩ := ih ⟨Function.update s.d2y m (s.d2y m * s.d2y (m + 1) + s.u m), s.u⟩ r hr
    refine ⟨fun j hj => ?_, fun k hk => ?_⟩
    · rw [h1 j (by omega)]
      exact Function.update_of_ne (by omega) _ _
    · by_cases hkm : k = m
      · subst hkm
        rw [h1 k le_rfl, h1 (k + 1) (by omega)]
        simp
      · rw [h2 k (by omega)]
        simp [Function.update_of_ne hkm]

/-! ## The linear system of the spline -/

/-- The conditions that determine the second derivatives `m` of a cubic spline with `n` knots, from continuity of the first derivative at the
interior knots and either zero second derivative or the given slope at each end. -/
structure SplineSystem (x y : ℕ → ℝ) (n : ℕ) (yStart yEnd : ℝ) (m : ℕ → ℝ) : Prop where
  interior : ∀ i, 1 ≤ i → i + 1 < n →
    (x i - x (i - 1)) / 6 * m (i - 1) + (x (i + 1) - x (i - 1)) / 3 * m i + (x (i + 1) - x i) / 6 * m (i + 1) =
      (y (i + 1) - y i) / (x (i + 1) - x i) - (y i - y (i - 1)) / (x i - x (i - 1))
  start : if naturalBound < yStart then m 0 = 0
    else (x 1 - x 0) / 3 * m 0 + (x 1 - x 0) / 6 * m 1 = (y 1 - y 0) / (x 1 - x 0) - yStart
  finish : if naturalBound < yEnd then m (n - 1) = 0
    else (x (n - 1) - x (n - 2)) / 6 * m (n - 2) + (x (n - 1) - x (n - 2)) / 3 * m (n - 1) =
      yEnd - (y (n - 1) - y (n - 2)) / (x (n - 1) - x (n - 2))

section system

variable {x y : ℕ → ℝ} {n : ℕ} (yStart yEnd : ℝ)

theorem forward_bounds (hx : ∀ i, i + 1 < n → x i < x (i + 1)) : ∀ i, i ≤ n - 2 →
    -1 ≤ (splineForward x y n (splineStart x y yStart)).d2y i ∧ (splineForward x y n (splineStart x y yStart)).d2y i ≤ 0 := by
  intro i
  induction i with
  | zero =>
    intro _
    rw [(forward_zero x y _ n).1, splineStart]
    split <;> norm_num
  | succ i ih =>
    intro hi
    have := (forward_rec x y (splineStart x y yStart) n (i + 1) (by omega) hi).1
    rw [this]
    obtain ⟨l, u⟩ := ih (by omega)
    simp only [Nat.add_sub_cancel]
    have a := hx i (by omega)
    have b := hx (i + 1) (by omega)
    have s0 : 0 < (x (i + 1) - x i) / (x (i + 1 + 1) - x i) := div_pos (by linarith) (by linarith)
    have s1 : (x (i + 1) - x i) / (x (i + 1 + 1) - x i) < 1 := by rw [div_lt_one (by linarith)]; linarith
    generalize (x (i + 1) - x i) / (x (i + 1 + 1) - x i) = sig at *
    generalize (splineForward x y n (splineStart x y yStart)).d2y i = d at *
    have p : 1 ≤ sig * d + 2 := by nlinarith
    constructor
    · rw [le_div_iff₀ (by linarith)]; nlinarith
    · exact div_nonpos_of_nonpos_of_nonneg (by linarith) (by linarith)

theorem spline_entries (_hn : 2 ≤ n) :
    let f := splineForward x y n (splineStart x y yStart)
    (∀ k, k < n - 1 → spline x y n yStart yEnd k = f.d2y k * spline x y n yStart yEnd (k + 1) + f.u k) ∧
      spline x y n yStart yEnd (n - 1) = ((if naturalBound < yEnd then 0
          else (3 / (x (n - 1) - x (n - 2))) * (yEnd - (y (n - 1) - y (n - 2)) / (x (n - 1) - x (n - 2)))) -
        (if naturalBound < yEnd then 0 else 1 / 2) * f.u (n - 2)) / ((if naturalBound < yEnd then 0 else 1 / 2) * f.d2y (n - 2) + 1) := by
  intro f
  obtain ⟨h1, h2⟩ := back_rec (n - 1) (splineLast x y n yEnd f) (splineBack n (splineLast x y n yEnd f)) rfl
  constructor
  · intro k hk
    have := h2 k hk
    simp only [splineLast, Function.update_of_ne (show k ≠ n - 1 by omega)] at this
    exact this
  · have := h1 (n - 1) le_rfl
    simp only [splineLast, Function.update_self] at this
    exact this

/-- Two adjacent relations give the interior equation, and conversely. -/
theorem interior_iff {h g d u r m0 m1 m2 : ℝ} (hh : 0 < h) (hg : 0 < g) (p : h / (h + g) * d + 2 ≠ 0) (e0 : m0 = d * m1 + u) :
    (h / 6 * m0 + (h + g) / 3 * m1 + g / 6 * m2 = r) ↔
      m1 = (h / (h + g) - 1) / (h / (h + g) * d + 2) * m2 + (6 * r / (h + g) - h / (h + g) * u) / (h / (h + g) * d + 2) := by
  have hs : h + g ≠ 0 := by positivity
  have split : ∀ a b c P : ℝ, a / P * b + c / P = (a * b + c) / P := fun a b c P => by ring
  rw [split, eq_div_iff p, e0]
  have hsig : h / (h + g) * (h + g) = h := div_mul_cancel₀ _ hs
  have hr : 6 * r / (h + g) * (h + g) = 6 * r := div_mul_cancel₀ _ hs
  generalize h / (h + g) = sig at *
  generalize 6 * r / (h + g) = R at *
  constructor
  · intro e
    have : (h + g) * (m1 * (sig * d + 2) - ((sig - 1) * m2 + (R - sig * u))) = 0 := by
      linear_combination 6 * e - hr + (m1 * d - m2 + u) * hsig
    rcases mul_eq_zero.mp this with h | h
    · exact absurd h hs
    · linarith
  · intro e
    linear_combination ((h + g) * e + hr - (m1 * d - m2 + u) * hsig) / 6

end system

/-! ## C57 -/

/-- C57: for any number of knots in increasing order and any end conditions, `spline` returns the second derivatives of the cubic spline, and
nothing else solves the conditions: no division by zero is hidden in this, as every pivot is at least one (ends: one half). -/
theorem C57_second_derivatives (x y : ℕ → ℝ) (n : ℕ) (hn : 2 ≤ n) (hx : ∀ i, i + 1 < n → x i < x (i + 1)) (yStart yEnd : ℝ) (m : ℕ → ℝ) :
    SplineSystem x y n yStart yEnd m ↔ ∀ k, k < n → m k = spline x y n yStart yEnd k := by
  obtain ⟨hb, hl⟩ := spline_entries (x := x) (y := y) yStart yEnd hn
  set f := splineForward x y n (splineStart x y yStart) with hf
  have bd := forward_bounds (y := y) yStart hx
  rw [← hf] at bd
  -- the start condition
  have st : ∀ m : ℕ → ℝ, (if naturalBound < yStart then m 0 = 0
      else (x 1 - x 0) / 3 * m 0 + (x 1 - x 0) / 6 * m 1 = (y 1 - y 0) / (x 1 - x 0) - yStart) ↔ m 0 = f.d2y 0 * m 1 + f.u 0 := by
    intro m
    rw [(forward_zero x y _ n).1, (forward_zero x y _ n).2, splineStart]
    split
    · simp
    · have h : 0 < x 1 - x 0 := by have := hx 0 (by omega); linarith
      simp only [Function.update_self]
      generalize x 1 - x 0 = w at *
      generalize (y 1 - y 0) / w - yStart = r
      constructor
      · intro e
        have : m 0 + m 1 / 2 = 3 / w * r := by rw [← e]; field_simp; ring
        linarith
      · intro e; rw [e]; field_simp; ring
  -- one interior condition
  have int : ∀ (m : ℕ → ℝ) i, 1 ≤ i → i + 1 < n → m (i - 1) = f.d2y (i - 1) * m i + f.u (i - 1) →
      ((x i - x (i - 1)) / 6 * m (i - 1) + (x (i + 1) - x (i - 1)) / 3 * m i + (x (i + 1) - x i) / 6 * m (i + 1) =
        (y (i + 1) - y i) / (x (i + 1) - x i) - (y i - y (i - 1)) / (x i - x (i - 1)) ↔ m i = f.d2y i * m (i + 1) + f.u i) := by
    intro m i h1 h2 e
    obtain ⟨r1, r2⟩ := forward_rec x y (splineStart x y yStart) n i h1 (by omega)
    rw [← hf] at r1 r2
    rw [r1, r2]
    have ha : 0 < x i - x (i - 1) := by
      have := hx (i - 1) (by omega)
      rw [show i - 1 + 1 = i by omega] at this; linarith
    have hc : 0 < x (i + 1) - x i := by have := hx i h2; linarith
    have hsum : x (i + 1) - x (i - 1) = (x i - x (i - 1)) + (x (i + 1) - x i) := by ring
    rw [hsum]
    refine interior_iff ha hc ?_ e
    obtain ⟨l, u⟩ := bd (i - 1) (by omega)
    have s0 : 0 < (x i - x (i - 1)) / (x i - x (i - 1) + (x (i + 1) - x i)) := by positivity
    have s1 : (x i - x (i - 1)) / (x i - x (i - 1) + (x (i + 1) - x i)) ≤ 1 := by rw [div_le_one (by positivity)]; linarith
    nlinarith
  -- the last condition
  have la : ∀ m : ℕ → ℝ, m (n - 2) = f.d2y (n - 2) * m (n - 1) + f.u (n - 2) →
      ((if naturalBound < yEnd then m (n - 1) = 0
        else (x (n - 1) - x (n - 2)) / 6 * m (n - 2) + (x (n - 1) - x (n - 2)) / 3 * m (n - 1) =
          yEnd - (y (n - 1) - y (n - 2)) / (x (n - 1) - x (n - 2))) ↔ m (n - 1) = spline x y n yStart yEnd (n - 1)) := by
    intro m e
    rw [hl, e]
    split
    · simp
    · have h : 0 < x (n - 1) - x (n - 2) := by
        have := hx (n - 2) (by omega)
        rw [show n - 2 + 1 = n - 1 by omega] at this; linarith
      obtain ⟨l, u⟩ := bd (n - 2) le_rfl
      have pd : 1 / 2 * f.d2y (n - 2) + 1 ≠ 0 := by
        have : 0 < 1 / 2 * f.d2y (n - 2) + 1 := by linarith
        exact this.ne'
      rw [eq_div_iff pd]
      generalize x (n - 1) - x (n - 2) = w at *
      generalize yEnd - (y (n - 1) - y (n - 2)) / w = r
      constructor
      · intro ee; rw [← ee]; field_simp; ring
      · intro ee
        have : r = w / 3 * (m (n - 1) * (1 / 2 * f.d2y (n - 2) + 1) + 1 / 2 * f.u (n - 2)) := by rw [ee]; field_simp; ring
        rw [this]; ring
  constructor
  · intro sys
    have rel : ∀ k, k < n - 1 → m k = f.d2y k * m (k + 1) + f.u k := by
      intro k
      induction k with
      | zero => intro _; exact (st m).mp sys.start
      | succ k ih =>
        intro hk
        exact (int m (k + 1) (by omega) (by omega) (ih (by omega))).mp (sys.interior (k + 1) (by omega) (by omega))
    have hlast : m (n - 1) = spline x y n yStart yEnd (n - 1) := by
      refine (la m ?_).mp sys.finish
      have := rel (n - 2) (by omega)
      rwa [show n - 2 + 1 = n - 1 by omega] at this
    have down : ∀ j, j ≤ n - 1 → m (n - 1 - j) = spline x y n yStart yEnd (n - 1 - j) := by
      intro j
      induction j with
      | zero => intro _; exact hlast
      | succ j ih =>
        intro hj
        have h1 := rel (n - 1 - (j + 1)) (by omega)
        have h2 := hb (n - 1 - (j + 1)) (by omega)
        rw [show n - 1 - (j + 1) + 1 = n - 1 - j by omega] at h1 h2
        rw [h1, h2, ih (by omega)]
    intro k hk
    have := down (n - 1 - k) (by omega)
    rwa [show n - 1 - (n - 1 - k) = k by omega] at this
  · intro e
    have rel : ∀ k, k < n - 1 → m k = f.d2y k * m (k + 1) + f.u k := by
      intro k hk
      rw [e k (by omega), e (k + 1) (by omega)]
      exact hb k hk
    refine ⟨fun i h1 h2 => ?_, (st m).mpr (rel 0 (by omega)), ?_⟩
    · refine (int m i h1 h2 ?_).mpr (rel i (by omega))
      have := rel (i - 1) (by omega)
      rwa [show i - 1 + 1 = i by omega] at this
    · refine (la m ?_).mpr (e _ (by omega))
      have := rel (n - 2) (by omega)
      rwa [show n - 2 + 1 = n - 1 by omega] at this

/-! ## Evaluation -/

/-- C57: the bisection ends, for any table, with two neighbouring entries that enclose the point, as far as it lies inside the table. -/
theorem C57_bisection (xa : ℕ → ℝ) (t : ℝ) (n : ℕ) (hn : 2 ≤ n) :
    let k := bisect xa t 0 (n - 1)
    k.2 = k.1 + 1 ∧ k.2 ≤ n - 1 ∧ (k.1 = 0 ∨ xa k.1 ≤ t) ∧ (k.2 = n - 1 ∨ t < xa k.2) := by
  have key : ∀ d lo hi, hi - lo = d → lo < hi → hi ≤ n - 1 → (lo = 0 ∨ xa lo ≤ t) → (hi = n - 1 ∨ t < xa hi) →
      let k := bisect xa t lo hi
      k.2 = k.1 + 1 ∧ k.2 ≤ n - 1 ∧ (k.1 = 0 ∨ xa k.1 ≤ t) ∧ (k.2 = n - 1 ∨ t < xa k.2) := by
    intro d
    induction d using Nat.strong_induction_on with
    | _ d ih =>
      intro lo hi hd hlt hhi hlo hup
      rw [bisect]
      split
      · rename_i hgt
        split
        · rename_i hc
          exact ih ((hi + lo) / 2 - lo) (by omega) lo _ rfl (by omega) (by omega) hlo (Or.inr hc)
        · rename_i hc
          exact ih (hi - (hi + lo) / 2) (by omega) _ hi rfl (by omega) hhi (Or.inr (not_lt.mp hc)) hup
      · exact ⟨by simp only; omega, hhi, hlo, hup⟩
  exact key _ 0 (n - 1) rfl (by omega) le_rfl (Or.inl rfl) (Or.inl rfl)

/-- The slope of a piece of the spline. -/
noncomputable def pieceSlope (xa ya y2a : ℕ → ℝ) (k : ℕ) (t : ℝ) : ℝ :=
  (ya (k + 1) - ya k) / (xa (k + 1) - xa k) +
    (-(3 * ((xa (k + 1) - t) / (xa (k + 1) - xa k)) ^ 2 - 1) * y2a k + (3 * ((t - xa k) / (xa (k + 1) - xa k)) ^ 2 - 1) * y2a (k + 1)) *
      (xa (k + 1) - xa k) / 6

/-- The second derivative of a piece. -/
noncomputable def pieceBend (xa y2a : ℕ → ℝ) (k : ℕ) (t : ℝ) : ℝ :=
  (xa (k + 1) - t) / (xa (k + 1) - xa k) * y2a k + (t - xa k) / (xa (k + 1) - xa k) * y2a (k + 1)

theorem piece_deriv (xa ya y2a : ℕ → ℝ) (k : ℕ) (h : xa k < xa (k + 1)) (t : ℝ) :
    HasDerivAt (splintPiece xa ya y2a k (k + 1)) (pieceSlope xa ya y2a k t) t ∧
      HasDerivAt (pieceSlope xa ya y2a k) (pieceBend xa y2a k t) t := by
  have hh : xa (k + 1) - xa k ≠ 0 := by linarith
  have da : HasDerivAt (fun t => (xa (k + 1) - t) / (xa (k + 1) - xa k)) (-1 / (xa (k + 1) - xa k)) t :=
    ((hasDerivAt_id t).const_sub (xa (k + 1))).div_const _
  have db : HasDerivAt (fun t => (t - xa k) / (xa (k + 1) - xa k)) (1 / (xa (k + 1) - xa k)) t :=
    ((hasDerivAt_id t).sub_const (xa k)).div_const _
  constructor
  · have := ((da.mul_const (ya k)).add (db.mul_const (ya (k + 1)))).add
      ((((((da.pow 3).sub da).mul_const (y2a k)).add (((db.pow 3).sub db).mul_const (y2a (k + 1)))).mul_const ((xa (k + 1) - xa k) ^ 2)).div_const 6)
    refine this.congr_deriv ?_
    simp only [pieceSlope, Nat.cast_ofNat, Nat.reduceSub]
    generalize xa (k + 1) - xa k = w at hh
    field_simp
    ring
  · have := ((((((da.pow 2).const_mul 3).sub_const 1).neg.mul_const (y2a k)).add ((((db.pow 2).const_mul 3).sub_const 1).mul_const (y2a (k + 1)))).mul_const
      (xa (k + 1) - xa k)).div_const 6 |>.const_add ((ya (k + 1) - ya k) / (xa (k + 1) - xa k))
    refine this.congr_deriv ?_
    simp only [pieceBend, Nat.cast_ofNat, Nat.reduceSub, pow_one]
    generalize xa (k + 1) - xa k = w at hh
    field_simp
    ring

theorem piece_ends (xa ya y2a : ℕ → ℝ) (k : ℕ) (h : xa k < xa (k + 1)) :
    splintPiece xa ya y2a k (k + 1) (xa k) = ya k ∧ splintPiece xa ya y2a k (k + 1) (xa (k + 1)) = ya (k + 1) ∧
      pieceBend xa y2a k (xa k) = y2a k ∧ pieceBend xa y2a k (xa (k + 1)) = y2a (k + 1) := by
  have hh : xa (k + 1) - xa k ≠ 0 := by linarith
  simp [splintPiece, pieceBend, div_self hh]

/-- Local description of a piecewise function: to the right of a point it follows the piece of the point, to the left that piece or the
previous one. -/
theorem glue (xa : ℕ → ℝ) (n : ℕ) (hn : 2 ≤ n) (hx : ∀ i, i + 1 < n → xa i < xa (i + 1)) (P : ℕ → ℝ → ℝ)
    (hP : ∀ k, k + 2 < n → P k (xa (k + 1)) = P (k + 1) (xa (k + 1))) (t : ℝ) :
    let S := fun t => P (bisect xa t 0 (n - 1)).1 t
    let k := (bisect xa t 0 (n - 1)).1
    S =ᶠ[nhdsWithin t (Set.Ici t)] P k ∧
      (S =ᶠ[nhdsWithin t (Set.Iic t)] P k ∨ ∃ j, k = j + 1 ∧ j + 2 < n ∧ t = xa (j + 1) ∧ S =ᶠ[nhdsWithin t (Set.Iic t)] P j) := by
  intro S k
  have mono : ∀ i j, i ≤ j → j < n → xa i ≤ xa j := by
    intro i j hij
    induction j, hij using Nat.le_induction with
    | base => intro _; exact le_rfl
    | succ j _ ih => intro hj; exact (ih (by omega)).trans (hx j hj).le
  -- the piece of a point is determined by the enclosing knots
  have uniq : ∀ s j, j + 1 ≤ n - 1 → (j = 0 ∨ xa j ≤ s) → (j + 1 = n - 1 ∨ s < xa (j + 1)) → (bisect xa s 0 (n - 1)).1 = j := by
    intro s j hj hl hu
    obtain ⟨e, hle, l, u⟩ := C57_bisection xa s n hn
    set i := (bisect xa s 0 (n - 1)).1
    rw [e] at hle u
    rcases lt_trichotomy i j with h | h | h
    · have h1 : s < xa (i + 1) := by
        rcases u with u | u
        · omega
        · exact u
      have h2 : xa j ≤ s := by
        rcases hl with hl | hl
        · omega
        · exact hl
      have := mono (i + 1) j (by omega) (by omega)
      linarith
    · exact h
    · have h1 : s < xa (j + 1) := by
        rcases hu with hu | hu
        · omega
        · exact hu
      have h2 : xa i ≤ s := by
        rcases l with l | l
        · omega
        · exact l
      have := mono (j + 1) i (by omega) (by omega)
      linarith
  obtain ⟨e, hle, l, u⟩ := C57_bisection xa t n hn
  change (bisect xa t 0 (n - 1)).2 = k + 1 at e
  rw [e] at hle u
  constructor
  · -- right
    rcases u with u | u
    · filter_upwards [self_mem_nhdsWithin] with s hs
      have hs : t ≤ s := hs
      simp only [S]
      rw [uniq s k hle (l.imp id fun h => h.trans hs) (Or.inl u)]
    · filter_upwards [self_mem_nhdsWithin, mem_nhdsWithin_of_mem_nhds (Iio_mem_nhds u)] with s hs hs'
      have hs : t ≤ s := hs
      simp only [S]
      rw [uniq s k hle (l.imp id fun h => h.trans hs) (Or.inr hs')]
  · -- left
    by_cases hk0 : k = 0
    · left
      filter_upwards [self_mem_nhdsWithin] with s hs
      have hs : s ≤ t := hs
      simp only [S]
      rw [uniq s k hle (Or.inl hk0) (u.imp id fun h => lt_of_le_of_lt hs h)]
    · have l' : xa k ≤ t := l.resolve_left hk0
      rcases l'.lt_or_eq with hlt | heq
      · left
        filter_upwards [self_mem_nhdsWithin, mem_nhdsWithin_of_mem_nhds (Ioi_mem_nhds hlt)] with s hs hs'
        have hs : s ≤ t := hs
        have hs' : xa k < s := hs'
        simp only [S]
        rw [uniq s k hle (Or.inr hs'.le) (u.imp id fun h => lt_of_le_of_lt hs h)]
      · right
        obtain ⟨j, hj⟩ : ∃ j, k = j + 1 := ⟨k - 1, by omega⟩
        refine ⟨j, hj, by omega, by rw [← hj]; exact heq.symm, ?_⟩
        have hjt : xa j < t := by rw [← heq, hj]; exact hx j (by omega)
        filter_upwards [self_mem_nhdsWithin, mem_nhdsWithin_of_mem_nhds (Ioi_mem_nhds hjt)] with s hs hs'
        have hs : s ≤ t := hs
        have hs' : xa j < s := hs'
        rcases hs.lt_or_eq with hst | hst
        · simp only [S]
          rw [uniq s j (by omega) (Or.inr hs'.le) (Or.inr (by rw [← hj, heq]; exact hst))]
        · subst hst
          simp only [S]
          rw [show (bisect xa s 0 (n - 1)).1 = j + 1 from hj]
          rw [hj] at heq
          rw [← heq, hP j (by omega)]

theorem glue_deriv (xa : ℕ → ℝ) (n : ℕ) (hn : 2 ≤ n) (hx : ∀ i, i + 1 < n → xa i < xa (i + 1)) (P Q : ℕ → ℝ → ℝ)
    (hP : ∀ k, k + 2 < n → P k (xa (k + 1)) = P (k + 1) (xa (k + 1))) (hQ : ∀ k, k + 2 < n → Q k (xa (k + 1)) = Q (k + 1) (xa (k + 1)))
    (hd : ∀ k, k + 1 < n → ∀ t, HasDerivAt (P k) (Q k t) t) (t : ℝ) :
    HasDerivAt (fun t => P (bisect xa t 0 (n - 1)).1 t) (Q (bisect xa t 0 (n - 1)).1 t) t := by
  obtain ⟨r, l⟩ := glue xa n hn hx P hP t
  obtain ⟨e, hle, -, -⟩ := C57_bisection xa t n hn
  rw [e] at hle
  have right : HasDerivWithinAt (fun t => P (bisect xa t 0 (n - 1)).1 t) (Q (bisect xa t 0 (n - 1)).1 t) (Set.Ici t) t :=
    ((hd _ (by omega) t).hasDerivWithinAt).congr_of_eventuallyEq r rfl
  have left : HasDerivWithinAt (fun t => P (bisect xa t 0 (n - 1)).1 t) (Q (bisect xa t 0 (n - 1)).1 t) (Set.Iic t) t := by
    rcases l with l | ⟨j, hj, hjn, ht, l⟩
    · exact ((hd _ (by omega) t).hasDerivWithinAt).congr_of_eventuallyEq l rfl
    · have hq : Q (bisect xa t 0 (n - 1)).1 t = Q j t := by rw [hj, ht, hQ j hjn]
      rw [hq]
      refine ((hd j (by omega) t).hasDerivWithinAt).congr_of_eventuallyEq l ?_
      rw [hj, ht, hP j hjn]
  have := left.union right
  rwa [Set.Iic_union_Ici, hasDerivWithinAt_univ] at this

theorem glue_continuous (xa : ℕ → ℝ) (n : ℕ) (hn : 2 ≤ n) (hx : ∀ i, i + 1 < n → xa i < xa (i + 1)) (P : ℕ → ℝ → ℝ)
    (hP : ∀ k, k + 2 < n → P k (xa (k + 1)) = P (k + 1) (xa (k + 1))) (hc : ∀ k, k + 1 < n → Continuous (P k)) :
    Continuous fun t => P (bisect xa t 0 (n - 1)).1 t := by
  rw [continuous_iff_continuousAt]
  intro t
  obtain ⟨r, l⟩ := glue xa n hn hx P hP t
  obtain ⟨e, hle, -, -⟩ := C57_bisection xa t n hn
  rw [e] at hle
  rw [continuousAt_iff_continuous_left_right]
  constructor
  · rcases l with l | ⟨j, hj, hjn, ht, l⟩
    · exact (hc _ (by omega)).continuousWithinAt.congr_of_eventuallyEq l rfl
    · refine (hc j (by omega)).continuousWithinAt.congr_of_eventuallyEq l ?_
      rw [hj, ht, hP j hjn]
  · exact (hc _ (by omega)).continuousWithinAt.congr_of_eventuallyEq r rfl

/-- C57: with the arrays of `spline`, `splint` succeeds for every argument, and the function it computes passes through all the data, is twice
continuously differentiable on the whole line, has the second derivatives returned by `spline` at the knots, and has the slopes asked for at the two
ends (or no curvature there if a natural end was asked for). -/
theorem C57_interpolant (xa ya : ℕ → ℝ) (n : ℕ) (hn : 2 ≤ n) (hx : ∀ i, i + 1 < n → xa i < xa (i + 1)) (yStart yEnd : ℝ) :
    ∃ S S' S'' : ℝ → ℝ, (∀ t, splint xa ya (spline xa ya n yStart yEnd) n t = some (S t)) ∧
      (∀ i, i < n → S (xa i) = ya i) ∧ (∀ t, HasDerivAt S (S' t) t) ∧ (∀ t, HasDerivAt S' (S'' t) t) ∧ Continuous S'' ∧
      (∀ i, i < n → S'' (xa i) = spline xa ya n yStart yEnd i) ∧
      (if naturalBound < yStart then S'' (xa 0) = 0 else S' (xa 0) = yStart) ∧
      (if naturalBound < yEnd then S'' (xa (n - 1)) = 0 else S' (xa (n - 1)) = yEnd) := by
  set m := spline xa ya n yStart yEnd with hm
  have sys : SplineSystem xa ya n yStart yEnd m := (C57_second_derivatives xa ya n hn hx yStart yEnd m).mpr fun k _ => rfl
  have mono : ∀ i j, i < j → j < n → xa i < xa j := by
    intro i j hij
    induction j, hij using Nat.le_induction with
    | base => intro hj; exact hx i hj
    | succ j _ ih => intro hj; exact (ih (by omega)).trans (hx j hj)
  -- agreement of the pieces at the knots
  have a0 : ∀ k, k + 2 < n → splintPiece xa ya m k (k + 1) (xa (k + 1)) = splintPiece xa ya m (k + 1) (k + 1 + 1) (xa (k + 1)) := fun k hk => by
    rw [(piece_ends xa ya m k (hx k (by omega))).2.1, (piece_ends xa ya m (k + 1) (hx (k + 1) (by omega))).1]
  have a1 : ∀ k, k + 2 < n → pieceSlope xa ya m k (xa (k + 1)) = pieceSlope xa ya m (k + 1) (xa (k + 1)) := fun k hk => by
    have e := sys.interior (k + 1) (by omega) (by omega)
    simp only [Nat.add_sub_cancel] at e
    have h1 : xa (k + 1) - xa k ≠ 0 := by have := hx k (by omega); linarith
    have h2 : xa (k + 1 + 1) - xa (k + 1) ≠ 0 := by have := hx (k + 1) (by omega); linarith
    simp only [pieceSlope, sub_self, zero_div, div_self h1, div_self h2]
    linear_combination e
  have a2 : ∀ k, k + 2 < n → pieceBend xa m k (xa (k + 1)) = pieceBend xa m (k + 1) (xa (k + 1)) := fun k hk => by
    rw [(piece_ends xa ya m k (hx k (by omega))).2.2.2, (piece_ends xa ya m (k + 1) (hx (k + 1) (by omega))).2.2.1]
  -- the piece used at a knot
  have knot : ∀ i, i < n → (bisect xa (xa i) 0 (n - 1)).1 = if i = n - 1 then n - 2 else i := by
    intro i hi
    obtain ⟨e, hle, l, u⟩ := C57_bisection xa (xa i) n hn
    set j := (bisect xa (xa i) 0 (n - 1)).1
    rw [e] at hle u
    have hji : j ≤ i := by
      rcases l with l | l
      · omega
      · by_contra h; have := mono i j (by omega) (by omega); linarith
    split
    · rename_i hin
      rcases u with u | u
      · omega
      · have := mono (j + 1) i
        by_contra h
        have := this (by omega) hi
        linarith
    · rename_i hin
      rcases u with u | u
      · omega
      · by_contra h
        rcases Nat.lt_or_ge (j + 1) i with h' | h'
        · have := mono (j + 1) i h' hi; linarith
        · have : j + 1 = i := by omega
          rw [this] at u; exact lt_irrefl _ u
  refine ⟨fun t => splintPiece xa ya m (bisect xa t 0 (n - 1)).1 ((bisect xa t 0 (n - 1)).1 + 1) t,
    fun t => pieceSlope xa ya m (bisect xa t 0 (n - 1)).1 t, fun t => pieceBend xa m (bisect xa t 0 (n - 1)).1 t, ?_, ?_, ?_, ?_, ?_, ?_, ?_, ?_⟩
  · intro t
    obtain ⟨e, hle, -, -⟩ := C57_bisection xa t n hn
    simp only [splint, e]
    rw [e] at hle
    rw [if_neg]
    have := hx (bisect xa t 0 (n - 1)).1 (by omega)
    intro h; linarith
  · intro i hi
    simp only [knot i hi]
    split
    · rename_i h
      have := (piece_ends xa ya m (n - 2) (hx (n - 2) (by omega))).2.1
      rw [show n - 2 + 1 = i by omega] at this ⊢
      exact this
    · exact (piece_ends xa ya m i (hx i (by omega))).1
  · exact glue_deriv xa n hn hx (fun k t => splintPiece xa ya m k (k + 1) t) (fun k t => pieceSlope xa ya m k t) a0 a1
      fun k hk t => (piece_deriv xa ya m k (hx k hk) t).1
  · exact glue_deriv xa n hn hx (fun k t => pieceSlope xa ya m k t) (fun k t => pieceBend xa m k t) a1 a2
      fun k hk t => (piece_deriv xa ya m k (hx k hk) t).2
  · refine glue_continuous xa n hn hx (fun k t => pieceBend xa m k t) a2 fun k _ => ?_
    unfold pieceBend
    fun_prop
  · intro i hi
    simp only [knot i hi]
    split
    · rename_i h
      have := (piece_ends xa ya m (n - 2) (hx (n - 2) (by omega))).2.2.2
      rw [show n - 2 + 1 = i by omega] at this
      exact this
    · exact (piece_ends xa ya m i (hx i (by omega))).2.2.1
  · simp only [knot 0 (by omega), if_neg (show ¬ 0 = n - 1 by omega)]
    have st := sys.start
    split
    · rename_i h
      rw [if_pos h] at st
      rw [(piece_ends xa ya m 0 (hx 0 (by omega))).2.2.1, st]
    · rename_i h
      rw [if_neg h] at st
      have h1 : xa (0 + 1) - xa 0 ≠ 0 := by have := hx 0 (by omega); linarith
      simp only [pieceSlope, sub_self, zero_div, div_self h1]
      linear_combination -st
  · simp only [knot (n - 1) (by omega), if_true]
    have fi := sys.finish
    have hx' := hx (n - 2) (by omega)
    rw [show n - 2 + 1 = n - 1 by omega] at hx'
    split
    · rename_i h
      rw [if_pos h] at fi
      have := (piece_ends xa ya m (n - 2) (hx (n - 2) (by omega))).2.2.2
      rw [show n - 2 + 1 = n - 1 by omega] at this
      rw [this, fi]
    · rename_i h
      rw [if_neg h] at fi
      have h1 : xa (n - 1) - xa (n - 2) ≠ 0 := by linarith
      simp only [pieceSlope, show n - 2 + 1 = n - 1 by omega, sub_self, zero_div, div_self h1]
      linear_combination fi

/-- C57: `splint` raises when the two entries it lands on coincide, for any table. -/
theorem C57_duplicate_knots (xa ya y2a : ℕ → ℝ) (n : ℕ) (t : ℝ) :
    splint xa ya y2a n t = none ↔ xa (bisect xa t 0 (n - 1)).2 = xa (bisect xa t 0 (n - 1)).1 := by
  simp only [splint]
  split
  · rename_i h; simp [sub_eq_zero.mp h]
  · rename_i h; simp [sub_ne_zero.mp h]

/-- The natural spline through (0, 0), (1, 1), (2, 0): second derivatives 0, -3, 0 solve the conditions, so `spline` returns them. -/
example : let y : ℕ → ℝ := fun i => if i = 1 then 1 else 0
    ∀ k, k < 3 → (if k = 1 then -3 else 0) = spline (fun i => (i : ℝ)) y 3 (10 ^ 30) (10 ^ 30) k := by
  intro y
  refine (C57_second_derivatives (fun i => (i : ℝ)) y 3 (by norm_num) (fun i _ => by push_cast; linarith) (10 ^ 30) (10 ^ 30)
    (fun k => if k = 1 then -3 else 0)).mp ⟨?_, ?_, ?_⟩
  · intro i h1 h2
    have : i = 1 := by omega
    subst this
    norm_num [y]
  · rw [if_pos (by norm_num [naturalBound])]; simp
  · rw [if_pos (by norm_num [naturalBound])]; simp

end OpenSBLI.Util
