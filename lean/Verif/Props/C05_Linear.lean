import Verif.Props.C05_SSP

/-!
# C05: low storage schemes on linear problems
-/
namespace OpenSBLI.RK
open Spec

variable {K : Type} [Field K] [CharZero K] {V : Type} [AddCommGroup V] [Module K V]

/-- An explicit three stage method of order three multiplies by `1 + z + z²/2 + z³/6`, `z = dt L`. -/
theorem order3_linear {T : Tableau K 3} (he : T.explicit) (ho : T.Order3) (L : V →ₗ[K] V) (dt : K) (u : V) (k : Fin 3 → V) (hk : T.IsSlopes L id dt u k) :
    T.result id dt u k = u + dt • L u + (dt^2/2) • L (L u) + (dt^3/6) • L (L (L u)) := by
  obtain ⟨h1, h2, -, h3⟩ := ho
  have z : ∀ i j, i ≤ j → T.A i j = 0 := he
  have k0 := hk 0
  have k1 := hk 1
  have k2 := hk 2
  simp only [Tableau.t1, Tableau.t2, Tableau.t32, Tableau.c, Tableau.Ac, Fin.sum_univ_three, z 0 0 le_rfl, z 0 1 (by decide), z 0 2 (by decide), z 1 1 le_rfl, z 1 2 (by decide), z 2 2 le_rfl, id,
    zero_smul, add_zero, smul_zero, zero_mul, zero_add, mul_zero] at h1 h2 h3 k0 k1 k2
  have b0 : T.b 0 = 1 - T.b 1 - T.b 2 := by linear_combination h1
  rw [Tableau.result, Fin.sum_univ_three, id, k2, k1, k0, b0]
  simp only [map_add, map_smul]
  have e2 : T.b 1 * T.A 1 0 + T.b 2 * (T.A 2 0 + T.A 2 1) = 1 / 2 := by linear_combination h2
  have e3 : T.b 2 * (T.A 2 1 * T.A 1 0) = 1 / 6 := by linear_combination h3
  have a2 : (dt^2/2) • L (L u) = (dt ^ 2 * (T.b 1 * T.A 1 0 + T.b 2 * (T.A 2 0 + T.A 2 1))) • L (L u) := by rw [e2]; congr 1; ring
  have a3 : (dt^3/6) • L (L (L u)) = (dt ^ 3 * (T.b 2 * (T.A 2 1 * T.A 1 0))) • L (L (L u)) := by rw [e3]; congr 1; ring
  rw [a2, a3]
  module

/-- **C05 (linear problems).** The default low storage scheme has the amplification of the default scheme, whatever its increment register contains. -/
theorem C05_linear_amplification (L : V →ₗ[K] V) (dt : K) (s : LSState V) :
    (lsStep lsA3 lsB3 L id dt s).u = s.u + dt • L s.u + (dt^2/2) • L (L s.u) + (dt^3/6) • L (L (L s.u)) := by
  obtain ⟨T, he, ho, h⟩ := C05_order3_is_third_order_RK (K := K) (V := V)
  obtain ⟨k, hk, hr⟩ := h L dt s
  rw [hr, order3_linear he ho L dt s.u k hk]

/-- **C05 (linear problems).** So has the strong stability preserving variant. -/
theorem C05_ssp_linear_amplification {V : Type} [AddCommGroup V] [Module ℝ V] (L : V →ₗ[ℝ] V) (dt : ℝ) (s : LSState V) :
    (lsStep sspA sspB L id dt s).u = s.u + dt • L s.u + (dt^2/2) • L (L s.u) + (dt^3/6) • L (L (L s.u)) := by
  obtain ⟨T, he, ho, h⟩ := C05_ssp_is_third_order_RK (V := V)
  obtain ⟨k, hk, hr⟩ := h L dt s
  rw [hr, order3_linear he ho L dt s.u k hk]

/-- A problem of two equations whatever is left in the register: a step of each scheme gives the same. -/
example (L : (Fin 2 → ℝ) →ₗ[ℝ] (Fin 2 → ℝ)) (u tmp : Fin 2 → ℝ) : (lsStep lsA3 lsB3 L id (1/10 : ℝ) ⟨u, tmp, tmp⟩).u = (step L id (1/10 : ℝ) ⟨u, u, u⟩).new := by
  rw [C05_linear_amplification, C03_linear_amplification]

end OpenSBLI.RK
