import Verif.Lemmas.Lagrange
import Verif.Model.Eno
import Mathlib.Data.Nat.Factorial.BigOperators
import Mathlib.Data.Nat.Choose.Basic
import Mathlib.Algebra.Order.BigOperators.Ring.Finset

namespace OpenSBLI.Weno
open Finset Interp

set_option linter.unusedSectionVars false

variable {K : Type} [Field K] [CharZero K]

/-- Shift embedding `m ↦ m - p`. -/
def shiftEmb (p : ℤ) : ℕ ↪ ℤ := ⟨fun m => (m:ℤ) - p, fun a b h => by simpa using h⟩

theorem shiftEmb_apply (p : ℤ) (m : ℕ) : shiftEmb p m = (m:ℤ) - p := rfl

theorem map_shift (p : ℤ) (k : ℕ) : (range (k+1)).map (shiftEmb p) = Icc (-p) ((k:ℤ) - p) := by
  ext z
  simp only [mem_map, mem_range, shiftEmb_apply, mem_Icc]
  constructor
  · rintro ⟨m, hm, rfl⟩; omega
  · rintro ⟨h1, h2⟩; exact ⟨(z + p).toNat, by omega, by omega⟩

theorem w_shift (p : ℤ) (k m : ℕ) :
    (w (-p) ((k:ℤ) - p) ((m:ℤ) - p) : K) =
      (∑ l ∈ (range (k+1)).erase m, ∏ q ∈ ((range (k+1)).erase m).erase l, ((p:K) - (q:K))) /
      ∏ l ∈ (range (k+1)).erase m, ((m:K) - (l:K)) := by
  rw [w_formula, ← map_shift]
  have hm : (m:ℤ) - p = shiftEmb p m := rfl
  rw [hm, ← Finset.map_erase, Finset.sum_map, Finset.prod_map]
  congr 1
  · apply Finset.sum_congr rfl
    intro l _
    rw [← Finset.map_erase, Finset.prod_map]
    apply Finset.prod_congr rfl
    intro q _
    simp [shiftEmb_apply]
  · apply Finset.prod_congr rfl
    intro l _
    simp [shiftEmb_apply]

theorem enoCoeff_eq_w (side : Side) (k r j : ℕ) :
    enoCoeff K side k r j =
      ∑ m ∈ Ico (j+1) (k+1), w (-(r + side.d)) ((k:ℤ) - (r + side.d)) ((m:ℤ) - (r + side.d)) := by
  unfold enoCoeff
  apply Finset.sum_congr rfl
  intro m _
  rw [w_shift]
  congr 1
  · apply Finset.sum_congr rfl
    intro l _
    apply Finset.prod_congr rfl
    intro q _
    push_cast; ring
  · apply Finset.prod_congr rfl
    intro l _
    push_cast; ring

/-- Summation by parts: the ENO sum over cell data is the derivative of the interpolant of the
primitive. -/
theorem eno_sum_eq_D (side : Side) (k r : ℕ) (U : ℤ → K) :
    ∑ j ∈ range k, enoCoeff K side k r j *
      (U ((j:ℤ) + 1 - (r + side.d)) - U ((j:ℤ) - (r + side.d))) =
    D (-(r + side.d)) ((k:ℤ) - (r + side.d)) U := by
  set p : ℤ := r + side.d with hp
  simp only [enoCoeff_eq_w, ← hp, Finset.sum_mul]
  rw [Finset.sum_comm' (t' := range (k+1)) (s' := fun m => range m)
    (by intro x y; simp only [mem_range, mem_Ico]; omega)]
  have h1 : ∀ m : ℕ, ∑ j ∈ range m, (w (-p) ((k:ℤ) - p) ((m:ℤ) - p) : K) *
      (U ((j:ℤ) + 1 - p) - U ((j:ℤ) - p)) =
      w (-p) ((k:ℤ) - p) ((m:ℤ) - p) * (U ((m:ℤ) - p) - U (-p)) := by
    intro m
    rw [← Finset.mul_sum]
    have := Finset.sum_range_sub (fun j : ℕ => U ((j:ℤ) - p)) m
    push_cast at this
    rw [this]
    simp
  simp only [h1]
  simp only [mul_sub, Finset.sum_sub_distrib]
  have h2 : ∑ m ∈ range (k+1), (w (-p) ((k:ℤ) - p) ((m:ℤ) - p) : K) * U (-p) = 0 := by
    rw [← Finset.sum_mul]
    have := sum_w (K := K) (a := -p) (b := (k:ℤ) - p) (by omega)
    rw [← map_shift, Finset.sum_map] at this
    simp only [shiftEmb_apply] at this
    rw [this, zero_mul]
  rw [h2, sub_zero, D_eq_sum]
  conv_rhs => rw [← map_shift, Finset.sum_map]
  simp only [shiftEmb_apply, mul_comm]

/-- A candidate reconstruction of data with primitive `U`. -/
theorem candidate_eq_D (side : Side) (k r : ℕ) (f U : ℤ → K)
    (hU : ∀ n, -(r + side.d) < n → n ≤ (k:ℤ) - (r + side.d) → f n = U n - U (n-1)) :
    candidate side k r f = D (-(r + side.d)) ((k:ℤ) - (r + side.d)) U := by
  rw [← eno_sum_eq_D]
  unfold candidate
  apply Finset.sum_congr rfl
  intro j hj
  rw [mem_range] at hj
  have : funcPoint side r j = (j:ℤ) + 1 - (r + side.d) := by
    cases side <;> simp only [funcPoint, Side.c, Side.d] <;> omega
  rw [this, hU _ (by omega) (by omega)]
  congr 3
  ring

theorem exists_primitive (A : ℤ) (f : ℤ → K) : ∃ U : ℤ → K, ∀ n, A < n → f n = U n - U (n-1) := by
  refine ⟨fun n => ∑ i ∈ Ioc A n, f i, fun n hn => ?_⟩
  have : Ioc A n = insert n (Ioc A (n-1)) := by ext z; simp; omega
  simp only [this]
  rw [Finset.sum_insert (by simp)]
  ring

/-- Path weights of the repeated Neville–Aitken step. -/
def W (A B t i : ℕ) : K :=
  (t.choose i * A.descFactorial i * B.descFactorial (t - i) : ℕ) / ((A+B).descFactorial t : ℕ)

theorem descFactorial_ne_zero {n m : ℕ} (h : m ≤ n) : ((n.descFactorial m : ℕ) : K) ≠ 0 := by
  have : n.descFactorial m ≠ 0 := by
    rw [Ne, Nat.descFactorial_eq_zero_iff_lt]; omega
  exact_mod_cast this

theorem D_decompose (A B t : ℕ) (hA : t ≤ A) (hB : t ≤ B) (U : ℤ → K) :
    D (-(A:ℤ)) (B:ℤ) U = ∑ i ∈ range (t+1), W A B t i * D (-((A:ℤ)-i)) ((B:ℤ)-(t-i)) U := by
  induction t with
  | zero => simp [W]
  | succ t ih =>
    rw [ih (by omega) (by omega)]
    have hden : ((A:K) + B - t) ≠ 0 := by
      have : ((A + B - t : ℕ) : K) ≠ 0 := by
        have : A + B - t ≠ 0 := by omega
        exact_mod_cast this
      rwa [Nat.cast_sub (by omega), Nat.cast_add] at this
    have hstep : ∀ i ∈ range (t+1), W A B t i * D (-((A:ℤ)-i)) ((B:ℤ)-(t-i)) U =
        (W A B t i * (((A:K)-i)/((A:K)+B-t))) * D (-((A:ℤ)-(i+1:ℕ))) ((B:ℤ)-((t+1:ℕ)-(i+1:ℕ))) U +
        (W A B t i * (((B:K)-(t-i))/((A:K)+B-t))) * D (-((A:ℤ)-i)) ((B:ℤ)-((t+1:ℕ)-i)) U := by
      intro i hi
      rw [mem_range] at hi
      rw [D_neville (by omega) (by omega)]
      have e1 : (-((A:ℤ)-i)) + 1 = -((A:ℤ)-(i+1:ℕ)) := by push_cast; ring
      have e2 : (B:ℤ)-((t+1:ℕ)-(i+1:ℕ)) = (B:ℤ)-(t-i) := by push_cast; ring
      have e3 : (B:ℤ)-(t-i) - 1 = (B:ℤ)-((t+1:ℕ)-i) := by push_cast; ring
      rw [e1, e2, e3]
      have hd : ((((B:ℤ)-(t-i) : ℤ) : K) - ((-((A:ℤ)-i) : ℤ) : K)) = (A:K)+B-t := by
        push_cast; ring
      rw [hd]
      push_cast
      ring
    rw [Finset.sum_congr rfl hstep, Finset.sum_add_distrib]
    rw [Finset.sum_range_succ' (fun i => W A B (t+1) i * D (-((A:ℤ)-i)) ((B:ℤ)-((t+1:ℕ)-i)) U)]
    rw [Finset.sum_range_succ' (fun i => (W A B t i * (((B:K)-(t-i))/((A:K)+B-t))) *
      D (-((A:ℤ)-i)) ((B:ℤ)-((t+1:ℕ)-i)) U)]
    rw [Finset.sum_range_succ (fun i => (W A B t i * (((A:K)-i)/((A:K)+B-t))) *
      D (-((A:ℤ)-(i+1:ℕ))) ((B:ℤ)-((t+1:ℕ)-(i+1:ℕ))) U)]
    rw [Finset.sum_range_succ (fun i => W A B (t+1) (i+1) *
      D (-((A:ℤ)-(i+1:ℕ))) ((B:ℤ)-((t+1:ℕ)-(i+1:ℕ))) U)]
    have hAB : ((A+B).descFactorial t : K) ≠ 0 := descFactorial_ne_zero (by omega)
    have hdesc : ((A+B).descFactorial (t+1) : K) = ((A:K)+B-t) * ((A+B).descFactorial t : K) := by
      rw [Nat.descFactorial_succ, Nat.cast_mul, Nat.cast_sub (by omega), Nat.cast_add]
    -- interior weights
    have hint : ∀ i, i < t → (W A B (t+1) (i+1) : K) =
        W A B t i * (((A:K)-i)/((A:K)+B-t)) +
        W A B t (i+1) * (((B:K)-(t-(i+1:ℕ)))/((A:K)+B-t)) := by
      intro i hi
      unfold W
      rw [hdesc]
      have h1 : t + 1 - (i+1) = (t - (i+1)) + 1 := by omega
      have h2 : t - i = (t - (i+1)) + 1 := by omega
      rw [h1, h2, Nat.choose_succ_succ, Nat.descFactorial_succ A i,
        Nat.descFactorial_succ B (t - (i+1))]
      push_cast
      rw [Nat.cast_sub (show i ≤ A by omega), Nat.cast_sub (show t - (i+1) ≤ B by omega),
        Nat.cast_sub (show i + 1 ≤ t by omega)]
      push_cast
      field_simp
    have hfirst : (W A B (t+1) 0 : K) = W A B t 0 * (((B:K)-(t-(0:ℕ)))/((A:K)+B-t)) := by
      unfold W
      rw [hdesc]
      simp only [Nat.choose_zero_right, Nat.sub_zero, Nat.descFactorial_zero,
        Nat.descFactorial_succ B t]
      push_cast
      rw [Nat.cast_sub (show t ≤ B by omega)]
      field_simp
      ring
    have hlast : (W A B (t+1) (t+1) : K) = W A B t t * (((A:K)-t)/((A:K)+B-t)) := by
      unfold W
      rw [hdesc]
      simp only [Nat.choose_self, Nat.sub_self, Nat.descFactorial_zero, Nat.descFactorial_succ A t]
      push_cast
      rw [Nat.cast_sub (show t ≤ A by omega)]
      field_simp
    have hsum : ∑ i ∈ range t, W A B (t+1) (i+1) *
          D (-((A:ℤ)-(i+1:ℕ))) ((B:ℤ)-((t+1:ℕ)-(i+1:ℕ))) U =
        ∑ i ∈ range t, (W A B t i * (((A:K)-i)/((A:K)+B-t))) *
          D (-((A:ℤ)-(i+1:ℕ))) ((B:ℤ)-((t+1:ℕ)-(i+1:ℕ))) U +
        ∑ i ∈ range t, (W A B t (i+1) * (((B:K)-(t-(i+1:ℕ)))/((A:K)+B-t))) *
          D (-((A:ℤ)-(i+1:ℕ))) ((B:ℤ)-((t+1:ℕ)-(i+1:ℕ))) U := by
      rw [← Finset.sum_add_distrib]
      apply Finset.sum_congr rfl
      intro i hi
      rw [hint i (mem_range.1 hi)]
      ring
    rw [hsum, hfirst, hlast]
    push_cast
    ring

end OpenSBLI.Weno
