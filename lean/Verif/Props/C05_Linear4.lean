import Verif.Props.C05_Linear
import Mathlib.Tactic.NormNum
import Mathlib.Data.Rat.Cast.Order
import Mathlib.Data.Rat.BigOperators

/-!
# C05: the low storage scheme of order four on linear problems

With the decimals of the source, not with coefficients that satisfy the conditions of order.
-/
namespace OpenSBLI.RK
open Spec

/-- The sum over the longest tree, `b A A A c`. -/
def tall {K : Type} [Field K] {s : ℕ} (T : Tableau K s) : K := ∑ i, T.b i * ∑ j, T.A i j * T.AAc j

/-- An explicit five stage method multiplies by a polynomial of degree five in `z = dt L`. -/
theorem explicit5_linear {K : Type} [Field K] {V : Type} [AddCommGroup V] [Module K V] {T : Tableau K 5} (he : T.explicit) (L : V →ₗ[K] V) (dt : K) (u : V) (k : Fin 5 → V) (hk : T.IsSlopes L id dt u k) :
    T.result id dt u k = u + (dt * (T.t1 + 1)) • L u + (dt^2 * (T.t2 + 1/2)) • L (L u) + (dt^3 * (T.t32 + 1/6)) • L (L (L u)) + (dt^4 * (T.t44 + 1/24)) • L (L (L (L u)))
      + (dt^5 * tall T) • L (L (L (L (L u)))) := by
  have z : ∀ i j, i ≤ j → T.A i j = 0 := he
  have k0 := hk 0
  have k1 := hk 1
  have k2 := hk 2
  have k3 := hk 3
  have k4 := hk 4
  simp only [Tableau.t1, Tableau.t2, Tableau.t32, Tableau.t44, tall, sub_add_cancel, Tableau.c, Tableau.Ac, Tableau.AAc, Fin.sum_univ_five, z 0 0 le_rfl, z 0 1 (by decide), z 0 2 (by decide), z 0 3 (by decide), z 0 4 (by decide),
    z 1 1 le_rfl, z 1 2 (by decide), z 1 3 (by decide), z 1 4 (by decide), z 2 2 le_rfl, z 2 3 (by decide), z 2 4 (by decide), z 3 3 le_rfl, z 3 4 (by decide), z 4 4 le_rfl, id,
    zero_smul, add_zero, smul_zero, zero_mul, zero_add, mul_zero] at k0 k1 k2 k3 k4 ⊢
  rw [Tableau.result, Fin.sum_univ_five, id]
  rw [k0] at k1 k2 k3 k4
  rw [k1] at k2 k3 k4
  rw [k2] at k3 k4
  rw [k3] at k4
  rw [k4, k3, k2, k1, k0]
  simp only [map_add, map_smul]
  module

/-- The coefficients of the powers of `z` of the scheme, as rational numbers. -/
def amp4 : ℕ → ℚ
  | 0 => 1
  | 1 => tabLS4.t1 + 1
  | 2 => tabLS4.t2 + 1/2
  | 3 => tabLS4.t32 + 1/6
  | 4 => tabLS4.t44 + 1/24
  | 5 => tall tabLS4
  | _ => 0

/-- The tableau over the reals. -/
noncomputable def tabReal4 : Tableau ℝ 5 := ⟨fun i j => ((tabLS4.A i j : ℚ) : ℝ), fun i => ((tabLS4.b i : ℚ) : ℝ)⟩

theorem tabReal4_eq : tabReal4 = lsTab5 (K := ℝ) (-4178904745/10^10) (-1192151694643/10^12) (-1697784692471/10^12) (-1514183444257/10^12)
    (1496590219993/10^13) (3792103129999/10^13) (8229550293869/10^13) (6994504559488/10^13) (1530572479681/10^13) := by
  unfold tabReal4 tabLS4 lsTab5
  congr 1
  · funext i j
    fin_cases i <;> fin_cases j <;> norm_num
  · funext i
    fin_cases i <;> norm_num

/-- The coefficients `rkA` and `rkB` of order four as real numbers, rk_LS.py 96-97. -/
noncomputable def lsA4R : List ℝ := lsA4.map fun q : ℚ => (q:ℝ)
noncomputable def lsB4R : List ℝ := lsB4.map fun q : ℚ => (q:ℝ)

/-- **C05 (linear problems).** A step of the scheme of order four multiplies by `1 + p₁ z + ... + p₅ z⁵`, whatever its increment register contains. -/
theorem C05_order4_linear_amplification {V : Type} [AddCommGroup V] [Module ℝ V] (L : V →ₗ[ℝ] V) (dt : ℝ) (s : LSState V) :
    (lsStep lsA4R lsB4R L id dt s).u = s.u + (dt * (amp4 1 : ℝ)) • L s.u + (dt^2 * (amp4 2 : ℝ)) • L (L s.u) + (dt^3 * (amp4 3 : ℝ)) • L (L (L s.u)) + (dt^4 * (amp4 4 : ℝ)) • L (L (L (L s.u)))
      + (dt^5 * (amp4 5 : ℝ)) • L (L (L (L (L s.u)))) := by
  have hA : lsA4R = [0, -4178904745/10^10, -1192151694643/10^12, -1697784692471/10^12, -1514183444257/10^12] := by
    simp only [lsA4R, lsA4, List.map_cons, List.map_nil]; push_cast; rfl
  have hB : lsB4R = [1496590219993/10^13, 3792103129999/10^13, 8229550293869/10^13, 6994504559488/10^13, 1530572479681/10^13] := by
    simp only [lsB4R, lsB4, List.map_cons, List.map_nil]; push_cast; rfl
  obtain ⟨k, hk, hr⟩ := lsStep5_is_RK (K := ℝ) (-4178904745/10^10) (-1192151694643/10^12) (-1697784692471/10^12) (-1514183444257/10^12)
    (1496590219993/10^13) (3792103129999/10^13) (8229550293869/10^13) (6994504559488/10^13) (1530572479681/10^13) L dt s
  rw [← tabReal4_eq] at hk hr
  have he : tabReal4.explicit := by rw [tabReal4_eq]; exact lsTab5_explicit _ _ _ _ _ _ _ _ _
  rw [hA, hB, hr, explicit5_linear he L dt s.u k hk]
  have e1 : tabReal4.t1 + 1 = (amp4 1 : ℝ) := by
    simp only [Tableau.t1, tabReal4, amp4]; push_cast; rfl
  have e2 : tabReal4.t2 + 1/2 = (amp4 2 : ℝ) := by
    simp only [Tableau.t2, Tableau.c, tabReal4, amp4]; push_cast; rfl
  have e3 : tabReal4.t32 + 1/6 = (amp4 3 : ℝ) := by
    simp only [Tableau.t32, Tableau.Ac, Tableau.c, tabReal4, amp4]; push_cast; rfl
  have e4 : tabReal4.t44 + 1/24 = (amp4 4 : ℝ) := by
    simp only [Tableau.t44, Tableau.AAc, Tableau.Ac, Tableau.c, tabReal4, amp4]; push_cast; rfl
  have e5 : tall tabReal4 = (amp4 5 : ℝ) := by
    simp only [tall, Tableau.AAc, Tableau.Ac, Tableau.c, tabReal4, amp4]; push_cast; rfl
  rw [e1, e2, e3, e4, e5]

/-- How far the first five coefficients are from those of the exponential. -/
theorem amp4_near : |amp4 1 - 1| ≤ 1/10^13 ∧ |amp4 2 - 1/2| ≤ 1/10^13 ∧ |amp4 3 - 1/6| ≤ 1/10^13 ∧ |amp4 4 - 1/24| ≤ 1/10^13 ∧ 0 ≤ amp4 5 ∧ amp4 5 ≤ 1/100 := by decide +kernel

/-- The coefficients of the squared modulus on the imaginary axis. -/
theorem amp4_modulus : amp4 1 ^ 2 - 2 * amp4 2 ≤ -2/10^15 ∧ amp4 2 ^ 2 + 2 * amp4 4 - 2 * amp4 1 * amp4 3 ≤ 3/10^14 ∧
    amp4 3 ^ 2 - 2 * amp4 2 * amp4 4 + 2 * amp4 1 * amp4 5 ≤ -3888/10^6 ∧ amp4 4 ^ 2 - 2 * amp4 3 * amp4 5 ≤ 695/10^7 ∧ 0 ≤ amp4 4 ^ 2 - 2 * amp4 3 * amp4 5 ∧ amp4 5 ^ 2 ≤ 2501/10^8 := by decide +kernel

end OpenSBLI.RK
