import Verif.Model.Tensor
import Mathlib.Algebra.BigOperators.Fin
import Mathlib.Data.Fin.VecNotation
import Mathlib.Data.Real.Basic
import Mathlib.Data.Fintype.Perm
import Mathlib.GroupTheory.Perm.Sign
import Mathlib.LinearAlgebra.Matrix.Determinant.Basic
import Mathlib.Tactic.FinCases
import Mathlib.Tactic.NormNum
import Mathlib.Tactic.Ring
import Mathlib.Tactic.Linarith

/-!
# C51 Kronecker delta and Levi-Civita symbol
-/
namespace OpenSBLI.Tensor

/-! ## Kronecker delta -/

/-- The delta of two component numbers, as printed. -/
def kd (i j : ℕ) : ℚ := (kdValue [toString i, toString j]).getD 0

theorem kd_eq (i j : ℕ) : kd i j = if i = j then 1 else 0 := by
  have : toString i = toString j ↔ i = j := by
    constructor
    · intro h
      have h : (toString i).toList = (toString j).toList := by rw [h]
      simp only [Nat.toString_eq_repr, Nat.toList_repr] at h
      rw [← Nat.ofDigitChars_toDigits (b := 10) (n := i) (by decide) (by decide), h,
        Nat.ofDigitChars_toDigits (by decide) (by decide)]
    · rintro rfl; rfl
  simp only [kd, kdValue, Option.getD_some, this]

/-- C51: the delta is one on equal and zero on different component numbers, however large. -/
theorem C51_delta (i j : ℕ) : (kdValue [toString i, toString j]).isSome ∧ kd i j = if i = j then 1 else 0 := ⟨rfl, kd_eq i j⟩

/-- C51: contraction with the delta replaces the index, in any number of dimensions. -/
theorem C51_delta_contraction (n : ℕ) (a : Fin n → ℚ) (i : Fin n) : ∑ j : Fin n, kd i j * a j = a i := by
  simp only [kd_eq]
  rw [Finset.sum_eq_single i]
  · simp
  · intro j _ hj
    rw [if_neg (fun h => hj (Fin.ext h.symm)), zero_mul]
  · simp

/-- C51: the trace of the delta is the number of dimensions. -/
theorem C51_delta_trace (n : ℕ) : ∑ i : Fin n, kd i i = n := by simp [kd_eq]

/-- C51: products of deltas contract to a delta. -/
theorem C51_delta_product (n : ℕ) (i k : Fin n) : ∑ j : Fin n, kd i j * kd j k = kd i k := C51_delta_contraction n (fun j => kd j k) i

/-! ## Levi-Civita -/

theorem lcValue_eq (i j k : ℕ) : lcValue i j k = ((j : ℚ) - i) * (k - i) * (k - j) / 2 := by
  simp [lcValue, evalLeviCivita, List.range_succ, Nat.factorial]
  ring

/-- C51: for all component numbers (not only 0, 1, 2) the symbol changes sign when two arguments are exchanged and vanishes when two are equal. -/
theorem C51_antisymmetric (i j k : ℕ) :
    lcValue j i k = -lcValue i j k ∧ lcValue i k j = -lcValue i j k ∧ lcValue k j i = -lcValue i j k ∧
      lcValue i i k = 0 ∧ lcValue i k k = 0 ∧ lcValue i k i = 0 := by
  simp only [lcValue_eq]
  refine ⟨?_, ?_, ?_, ?_, ?_, ?_⟩ <;> ring

/-- C51: in three dimensions the symbol is the sign of the permutation, and zero when the arguments are not a permutation. -/
theorem C51_sign :
    (∀ σ : Equiv.Perm (Fin 3), lcValue (σ 0) (σ 1) (σ 2) = ((Equiv.Perm.sign σ : ℤ) : ℚ)) ∧
      ∀ i j k : Fin 3, lcValue i j k ≠ 0 ↔ i ≠ j ∧ j ≠ k ∧ i ≠ k := by
  constructor
  · intro σ
    rw [lcValue_eq]
    revert σ
    decide +kernel
  · intro i j k
    rw [lcValue_eq]
    revert i j k
    decide +kernel

/-- C51: contraction of two symbols over one index. -/
theorem C51_epsilon_delta (j k m n : Fin 3) :
    ∑ i : Fin 3, lcValue i j k * lcValue i m n = kd j m * kd k n - kd j n * kd k m := by
  simp only [lcValue_eq, kd_eq]
  revert j k m n
  decide +kernel

/-- C51: contraction over two and three indices. -/
theorem C51_epsilon_epsilon (k n : Fin 3) :
    ∑ i : Fin 3, ∑ j : Fin 3, lcValue i j k * lcValue i j n = 2 * kd k n ∧
      ∑ i : Fin 3, ∑ j : Fin 3, ∑ l : Fin 3, lcValue i j l * lcValue i j l = 6 := by
  simp only [lcValue_eq, kd_eq]
  revert k n
  decide +kernel

/-- C51: the cross product, for all real vectors. -/
theorem C51_cross_product (a b : Fin 3 → ℝ) (i : Fin 3) :
    ∑ j : Fin 3, ∑ k : Fin 3, (lcValue i j k : ℝ) * a j * b k =
      ![a 1 * b 2 - a 2 * b 1, a 2 * b 0 - a 0 * b 2, a 0 * b 1 - a 1 * b 0] i := by
  simp only [lcValue_eq, Fin.sum_univ_three]
  fin_cases i <;> norm_num <;> ring

/-- C51: the determinant, for all real matrices. -/
theorem C51_determinant (A : Matrix (Fin 3) (Fin 3) ℝ) :
    ∑ i : Fin 3, ∑ j : Fin 3, ∑ k : Fin 3, (lcValue i j k : ℝ) * A 0 i * A 1 j * A 2 k = A.det := by
  simp only [lcValue_eq, Fin.sum_univ_three, Matrix.det_fin_three]
  norm_num
  ring

/-- The symbol of (2, 0, 1), an even permutation, and of (0, 2, 1). -/
example : lcValue 2 0 1 = 1 ∧ lcValue 0 2 1 = -1 := by
  constructor <;> rw [lcValue_eq] <;> norm_num

/-- Two indices that were never replaced by numbers are compared by name. -/
example : kdValue ["i", "j"] = some 0 := by simp [kdValue]

end OpenSBLI.Tensor
