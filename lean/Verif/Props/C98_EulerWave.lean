import Verif.Model.EulerWave
import Verif.Props.C97_Contact
import Verif.Props.C78_Average
import Verif.Props.C16_Eigen
import Mathlib.Analysis.SpecialFunctions.Pow.Real
import Mathlib.Tactic.FinCases
import Mathlib.Tactic.FieldSimp

/-!
# C98: the program of apps/euler_wave
-/
namespace OpenSBLI.Sim
open EulerWave
open scoped Matrix

theorem eulerWave_relation (s : String) (e : Ex 2) (h : eulerWave.relation s = some e) : (s, e) ∈ eulerWave.rel := by
  unfold Setup.relation at h
  obtain ⟨q, hq, rfl⟩ := Option.map_eq_some_iff.1 h
  have h1 := List.mem_of_find?_eq_some hq
  have h2 : q.1 = s := by simpa using List.find?_some hq
  rwa [← h2]

theorem eulerWave_symbols (d : Fin 2) (s : String) : s ∈ eulerWave.symbols d ↔ s ∈ eulerWave.keys := by
  have h1 : ∀ d, ∀ s ∈ eulerWave.symbols d, s ∈ eulerWave.keys := by decide +kernel
  have h2 : ∀ d, ∀ s ∈ eulerWave.keys, s ∈ eulerWave.symbols d := by decide +kernel
  exact ⟨h1 d s, h2 d s⟩

theorem eulerWave_required (s : String) : s ∈ eulerWave.keys ↔ eulerWave.required s := by
  have h1 : (∃ d ∈ eulerWave.dirs, s ∈ eulerWave.symbols d) ↔ s ∈ eulerWave.keys := ⟨fun ⟨d, _, hs⟩ => (eulerWave_symbols d s).1 hs, fun h => ⟨0, by simp [eulerWave], (eulerWave_symbols 0 s).2 h⟩⟩
  unfold Shock.required
  rw [h1]
  refine ⟨.inl, fun h => ?_⟩
  rcases h with h | ⟨i, rfl⟩ | ⟨d, _, i, h⟩ | ⟨i, h⟩ | h
  · exact h
  · fin_cases i <;> decide
  · simp [eulerWave, Ex.datas, Ex.arrs] at h
  · simp [eulerWave, Ex.datas, Ex.arrs] at h
  · simp [eulerWave, Setup.required, Setup.flat, Ex.convective, Ex.viscous, Ex.classified, Ex.sum, Ex.zeroFn, Ex.datas, Ex.arrs] at h

theorem eulerWave_core : eulerWave.Core where
  relations := {
    solInj := by decide
    relSol := by decide
    relNodup := by decide
    relPlain := fun s e h => by
      have := eulerWave_relation s e h
      simp only [eulerWave, List.mem_cons, Prod.mk.injEq, List.not_mem_nil, or_false] at this
      rcases this with ⟨rfl, rfl⟩ | ⟨rfl, rfl⟩ | ⟨rfl, rfl⟩ | ⟨rfl, rfl⟩ <;> refine ⟨rfl, ?_, rfl⟩ <;> simp [Ex.plain, Ex.arrs, rho, rhou0, rhou1, rhoE, u0, u1, p, inv, neg, gm1]
    known := by decide
    keysNodup := by decide
    keysMem := eulerWave_required }
  dirs := by simp [eulerWave]
  dirsNodup := by simp [eulerWave]
  scheme := ⟨by norm_num, fun _ => by norm_num, by norm_num, fun side => Weno.optimal_satisfies side 3⟩
  groups := rfl
  conv := by decide
  vcdsNodup := by decide
  vcdsMem := fun c => by
    simp [eulerWave, Ex.viscous, Ex.classified, Ex.sum, Ex.zeroFn, Ex.cds]
  visc := fun c hc => by simp [eulerWave] at hc
  rhsPlain := fun i => by refine ⟨?_, rfl⟩; simp [eulerWave, Ex.plain, Ex.arrs]
  rhsSteady := by decide
  restShape := by decide
  coef := fun d _ i => ⟨by simp [eulerWave, Ex.plain, Ex.arrs], rfl, rfl⟩
  flux := fun d _ i => by fin_cases d <;> fin_cases i <;> refine ⟨?_, rfl⟩ <;> simp [eulerWave, EulerWave.flux, Ex.plain, Ex.arrs, rhou0, rhou1, rhoE, u0, u1, p]
  ev := fun d _ i => by fin_cases i <;> refine ⟨?_, rfl⟩ <;> simp [eulerWave, theta, k0, k1, Ex.plain, Ex.arrs, u0, u1, a, neg]
  lev := fun d _ i j => by fin_cases i <;> fin_cases j <;> refine ⟨?_, rfl⟩ <;> simp [eulerWave, EulerWave.lev, bta, phiSq, theta, k0, k1, root2, Ex.plain, Ex.arrs, rho, u0, u1, a, neg, square, inv, gm1]
  rev := fun d _ i j => by fin_cases i <;> fin_cases j <;> refine ⟨?_, rfl⟩ <;> simp [eulerWave, EulerWave.rev, alpha, enthalpy, phiSq, theta, k0, k1, root2, Ex.plain, Ex.arrs, rho, u0, u1, a, neg, square, inv, gm1]
  avgLocal := C78_simple_average_reads
  avgRead := fun d _ i j t ht u hu => by
    have ht' : t ∈ eulerWave.symbols d := flux_symbol (i := i) (.inr (.inr ⟨j, List.mem_append.1 ht⟩))
    simp only [eulerWave, List.mem_singleton] at hu
    subst hu
    exact .inl ht'
  halos := fun s hs e h t ht hr x hx => by
    have hk : 0 ≤ schemeK eulerWave.scheme := by simp [eulerWave, schemeK]
    have htk : t ∈ eulerWave.keys := by
      have := eulerWave_relation s e h
      simp only [eulerWave, List.mem_cons, Prod.mk.injEq, List.not_mem_nil, or_false] at this
      rcases this with ⟨rfl, rfl⟩ | ⟨rfl, rfl⟩ | ⟨rfl, rfl⟩ | ⟨rfl, rfl⟩ <;> simp [Ex.datas, Ex.arrs, rho, rhou0, rhou1, rhoE, u0, u1, p, inv, neg, gm1] at ht <;> simp [eulerWave] <;> tauto
    have hc : ∀ s, eulerWave.crDirs s = [] := fun s => by
      simp [Setup.crDirs, eulerWave, Setup.flat]
    refine relRange_mono eulerWave hk s t (fun d _ => ?_) (fun d hd => ?_) x hx
    · exact List.mem_filter.2 ⟨by fin_cases d <;> simp [eulerWave], by simpa using (eulerWave_symbols d t).2 htk⟩
    · rw [hc] at hd; cases hd

theorem eulerWave_valid : eulerWave.Valid := ⟨eulerWave_core, fun _ => by decide⟩

theorem eulerWave_closed : eulerWave.Closed := by
  rintro s (⟨d, _, h⟩ | ⟨d, _, i, h⟩ | ⟨i, h⟩ | ⟨t, e, he, h⟩)
  · have := (eulerWave_symbols d s).1 h
    simp only [eulerWave, List.mem_cons, List.not_mem_nil, or_false] at this
    rcases this with rfl | rfl | rfl | rfl | rfl | rfl | rfl | rfl <;> decide
  · simp [eulerWave, Ex.datas, Ex.arrs] at h
  · simp [eulerWave, Ex.datas, Ex.arrs] at h
  · have := eulerWave_relation t e he
    simp only [eulerWave, List.mem_cons, Prod.mk.injEq, List.not_mem_nil, or_false] at this
    rcases this with ⟨rfl, rfl⟩ | ⟨rfl, rfl⟩ | ⟨rfl, rfl⟩ | ⟨rfl, rfl⟩ <;> revert s <;> decide

theorem eulerWave_spatial : ∃ cs, eulerWave.spatial = .ok cs := by
  have h : eulerWave.relOrder = .ok ["u0", "u1", "p", "a"] := by decide +kernel
  unfold Shock.spatial
  rw [if_neg eulerWave_core.dirs, h]
  exact ⟨_, rfl⟩

theorem eulerWave_reach : ∀ d, eulerWave.reach ≤ eulerWave.np d := by decide

/-! ## The eigensystem -/

/-- Powers are those of real numbers. -/
def RealPowers {D : ℕ} (I : Interp D) : Prop := ∀ x y : ℝ, I.pow x y = x ^ y

theorem pow_neg_one (y : ℝ) : y ^ (((-1 : ℚ)) : ℝ) = y⁻¹ := by rw [Rat.cast_neg, Rat.cast_one, Real.rpow_neg_one]
theorem pow_two' (y : ℝ) : y ^ (((2 : ℚ)) : ℝ) = y ^ 2 := by norm_num
theorem pow_half (y : ℝ) : y ^ (((1/2 : ℚ)) : ℝ) = Real.sqrt y := by rw [Real.sqrt_eq_rpow]; norm_num

/-- The metric terms of a direction. -/
def unit (d e : Fin 2) : ℝ := if d = e then 1 else 0

theorem unit_norm (d : Fin 2) : Euler.norm2 (unit d 0) (unit d 1) = 1 := by
  fin_cases d <;> simp [Euler.norm2, unit]

/-- The eigenvectors are those of C16. -/
theorem eulerWave_vectors {I : Interp 2} (hp : RealPowers I) (m : Mem 2) (x : P 2) (d : Fin 2) (i j : Fin 4) :
    (eulerWave.lev d i j).eval I m x = Euler.lev2 (I.const "gama") (m (.data "rho") x) (m (.data "a") x) (m (.data "u0") x) (m (.data "u1") x) (unit d 0) (unit d 1) i j ∧
    (eulerWave.rev d i j).eval I m x = Euler.rev2 (I.const "gama") (m (.data "rho") x) (m (.data "a") x) (m (.data "u0") x) (m (.data "u1") x) (unit d 0) (unit d 1) i j := by
  have n0 : Euler.norm2 1 0 = 1 := unit_norm 0
  have n1 : Euler.norm2 0 1 = 1 := unit_norm 1
  have h2 : root2.eval I m x = Real.sqrt 2 := by
    change I.pow ((2 : ℚ) : ℝ) ((1/2 : ℚ) : ℝ) = _
    rw [hp, pow_half]; norm_num
  fin_cases d <;> fin_cases i <;> fin_cases j <;> refine ⟨?_, ?_⟩ <;>
    simp [Euler.lev2, Euler.rev2, n0, n1, h2, eulerWave, EulerWave.lev, EulerWave.rev, unit, alpha, bta, enthalpy, phiSq, theta, k0, k1, rho, neg, square, inv, gm1, u0, u1, a, Ex.eval, hp _ _, pow_neg_one, pow_two', -Rat.cast_neg, -Rat.cast_ofNat, -one_div, -mul_eq_mul_left_iff, -mul_eq_mul_right_iff] <;> ring

/-! ## Contact waves -/

/-- The state of density one with velocity `U`, without internal energy. -/
noncomputable def moving (U : Fin 2 → ℝ) : Fin 4 → ℝ := ![1, U 0, U 1, (U 0 ^ 2 + U 1 ^ 2) / 2]

/-- The internal energy of a gas of pressure `q`. -/
noncomputable def resting (g q : ℝ) : Fin 4 → ℝ := ![0, 0, 0, q / (g - 1)]

/-- The fluxes due to the pressure. -/
noncomputable def pressing (U : Fin 2 → ℝ) (q : ℝ) (d : Fin 2) : Fin 4 → ℝ := ![0, unit d 0 * q, unit d 1 * q, U d * q]

/-- The datasets at a point with such a state. -/
theorem eulerWave_point {I : Interp 2} (hp : RealPowers I) {U : Fin 2 → ℝ} {q : ℝ} (hg : I.const "gama" ≠ 1) {init : String → P 2 → ℝ} {v : Sol 2 4} {f : String → P 2 → ℝ} (hf : ConsistentOn eulerWave.toSetup eulerWave.required I init v f)
    {y : P 2} {ρ : ℝ} (hρ : 0 < ρ) (hv : ∀ i, v i y = resting (I.const "gama") q i + ρ * moving U i) :
    f "rho" y = ρ ∧ f "rhou0" y = ρ * U 0 ∧ f "rhou1" y = ρ * U 1 ∧ f "rhoE" y = q / (I.const "gama" - 1) + ρ * ((U 0 ^ 2 + U 1 ^ 2) / 2) ∧ f "u0" y = U 0 ∧ f "u1" y = U 1 ∧ f "p" y = q ∧ f "a" y = Real.sqrt (I.const "gama" * q / ρ) := by
  have hg1 : I.const "gama" - 1 ≠ 0 := sub_ne_zero.2 hg
  have e0 : f "rho" y = ρ := by rw [show f "rho" = v 0 from hf.sol 0, hv]; simp [resting, moving]
  have e1 : f "rhou0" y = ρ * U 0 := by rw [show f "rhou0" = v 1 from hf.sol 1, hv]; simp [resting, moving]
  have e2 : f "rhou1" y = ρ * U 1 := by rw [show f "rhou1" = v 2 from hf.sol 2, hv]; simp [resting, moving]
  have e3 : f "rhoE" y = q / (I.const "gama" - 1) + ρ * ((U 0 ^ 2 + U 1 ^ 2) / 2) := by rw [show f "rhoE" = v 3 from hf.sol 3, hv]; simp [resting, moving]
  have rel : ∀ s e, (s, e) ∈ eulerWave.rel → f s y = e.eval I (memOf f) y := fun s e h => hf.rel s e ((eulerWave_required s).1 (by
    have : ∀ t ∈ eulerWave.rel.map Prod.fst, t ∈ eulerWave.keys := by decide +kernel
    exact this s (List.mem_map_of_mem h))) h y
  have e4 : f "u0" y = U 0 := by
    rw [rel _ (.mul rhou0 (inv rho)) (by simp [eulerWave])]
    simp [Ex.eval, rhou0, rho, inv, memOf, hp _ _, pow_neg_one, e0, e1, -Rat.cast_neg]
    field_simp
  have e5 : f "u1" y = U 1 := by
    rw [rel _ (.mul rhou1 (inv rho)) (by simp [eulerWave])]
    simp [Ex.eval, rhou1, rho, inv, memOf, hp _ _, pow_neg_one, e0, e2, -Rat.cast_neg]
    field_simp
  have e6 : f "p" y = q := by
    rw [rel _ (.mul gm1 (.add rhoE (neg (.mul (.mul (.num (1/2)) rho) (.add (.mul u0 u0) (.mul u1 u1)))))) (by simp [eulerWave])]
    simp [Ex.eval, rhoE, rho, u0, u1, gm1, neg, memOf, e0, e3, e4, e5]
    field_simp
    ring
  refine ⟨e0, e1, e2, e3, e4, e5, e6, ?_⟩
  rw [rel _ (.pow (.mul (.mul (.const "gama") p) (inv rho)) (.num (1/2))) (by simp [eulerWave])]
  have : Ex.eval I (memOf f) (.pow (.mul (.mul (.const "gama") p) (inv rho)) (.num (1/2))) y = I.pow (I.const "gama" * f "p" y * I.pow (f "rho" y) ((-1 : ℚ) : ℝ)) ((1/2 : ℚ) : ℝ) := rfl
  rw [this, hp, hp, pow_half, pow_neg_one, e0, e6]
  rfl

/-- States of velocity `U` and pressure `q` are carried with this velocity. -/
theorem eulerWave_carries {I : Interp 2} (hp : RealPowers I) {U : Fin 2 → ℝ} {q : ℝ} (hg : 1 < I.const "gama") (hq : 0 < q) :
    Carries eulerWave I U (moving U) (resting (I.const "gama") q) (pressing U q) fun _ => 0 where
  flux := fun hf y ρ hρ hv d _ i => by
    obtain ⟨e0, e1, e2, e3, e4, e5, e6, -⟩ := eulerWave_point hp hg.ne' hf hρ hv
    fin_cases d <;> fin_cases i <;> simp [eulerWave, EulerWave.flux, Ex.eval, memOf, rhou0, rhou1, rhoE, u0, u1, p, e1, e2, e3, e4, e5, e6, resting, moving, pressing, unit] <;> ring
  ev := fun hf y ρ hρ hv d _ => by
    obtain ⟨-, -, -, -, e4, e5, -, -⟩ := eulerWave_point hp hg.ne' hf hρ hv
    fin_cases d <;> simp [eulerWave, theta, k0, k1, Ex.eval, memOf, u0, u1, e4, e5]
  vectors := fun {init v f} hf y z ρ ρ' hρ hρ' hy hz d _ x => by
    obtain ⟨e0, -, -, -, e4, e5, -, e7⟩ := eulerWave_point hp hg.ne' hf hρ hy
    obtain ⟨e0', -, -, -, e4', e5', -, e7'⟩ := eulerWave_point hp hg.ne' hf hρ' hz
    intro mean
    have m0 : mean (.data "rho") x = (ρ + ρ') / 2 := by
      change Llf.simpleAverage (f "rho" y) (f "rho" z) = _
      rw [e0, e0', Llf.simpleAverage]
    have m4 : mean (.data "u0") x = U 0 := by
      change Llf.simpleAverage (f "u0" y) (f "u0" z) = _
      rw [e4, e4', Llf.simpleAverage]; ring
    have m5 : mean (.data "u1") x = U 1 := by
      change Llf.simpleAverage (f "u1" y) (f "u1" z) = _
      rw [e5, e5', Llf.simpleAverage]; ring
    have m7 : 0 < mean (.data "a") x := by
      change 0 < Llf.simpleAverage (f "a" y) (f "a" z)
      rw [e7, e7', Llf.simpleAverage]
      have hgq : 0 < I.const "gama" * q := mul_pos (by linarith) hq
      have := Real.sqrt_pos.2 (div_pos hgq hρ)
      have := Real.sqrt_pos.2 (div_pos hgq hρ')
      positivity
    have hl : (Matrix.of fun i j => (eulerWave.lev d i j).eval I mean x) = Euler.lev2 (I.const "gama") ((ρ + ρ') / 2) (mean (.data "a") x) (U 0) (U 1) (unit d 0) (unit d 1) := by
      ext i j
      rw [← m0, ← m4, ← m5]
      exact (eulerWave_vectors hp mean x d i j).1
    have hr : (Matrix.of fun i j => (eulerWave.rev d i j).eval I mean x) = Euler.rev2 (I.const "gama") ((ρ + ρ') / 2) (mean (.data "a") x) (U 0) (U 1) (unit d 0) (unit d 1) := by
      ext i j
      rw [← m0, ← m4, ← m5]
      exact (eulerWave_vectors hp mean x d i j).2
    have hinv := Euler.C16_inverse_2d (I.const "gama") ((ρ + ρ') / 2) (mean (.data "a") x) (U 0) (U 1) (unit d 0) (unit d 1) hg.ne' (by positivity) m7.ne' (by fin_cases d <;> simp [unit])
    rw [hl, hr]
    refine ⟨?_, hinv.2⟩
    have hcol : moving U = (Euler.rev2 (I.const "gama") ((ρ + ρ') / 2) (mean (.data "a") x) (U 0) (U 1) (unit d 0) (unit d 1)) *ᵥ Pi.single 0 1 := by
      rw [Matrix.mulVec_single_one]
      have hg1 : I.const "gama" - 1 ≠ 0 := sub_ne_zero.2 hg.ne'
      funext i
      fin_cases i <;> simp [moving, Euler.rev2]
      field_simp
    rw [hcol, Matrix.mulVec_mulVec, hinv.1, Matrix.one_mulVec]
  coef := fun d _ i m x => by simp [eulerWave, Ex.eval]
  rhs := fun i m x => by simp [eulerWave, Ex.eval]

end OpenSBLI.Sim
