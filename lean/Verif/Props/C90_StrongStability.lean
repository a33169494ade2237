import Verif.Spec.StrongStability
import Verif.Props.C05_SSP
import Verif.Props.C77_GridLs
import Verif.Props.C85_SimulationText
import Mathlib.Analysis.Convex.Combination
import Mathlib.Algebra.BigOperators.Fin
import Mathlib.Tactic.FieldSimp
import Mathlib.Tactic.Module

/-!
# C90: what single steps of Euler's method preserve, the schemes preserve
-/
namespace OpenSBLI.RK
open Spec

variable {V : Type} [AddCommGroup V] [Module ℝ V]

theorem four_mem {K : Set V} (hK : Convex ℝ K) {a b c d : V} (ha : a ∈ K) (hb : b ∈ K) (hc : c ∈ K) (hd : d ∈ K) {p q r s : ℝ} (hp : 0 ≤ p) (hq : 0 ≤ q) (hr : 0 ≤ r) (hs : 0 ≤ s) (h1 : p + q + r + s = 1) :
    p • a + q • b + r • c + s • d ∈ K := by
  have := hK.sum_mem (t := Finset.univ) (w := ![p, q, r, s]) (z := ![a, b, c, d]) (fun i _ => by fin_cases i <;> simpa) (by simpa [Fin.sum_univ_four] using h1) (fun i _ => by fin_cases i <;> simpa)
  simpa [Fin.sum_univ_four] using this

/-- Three stages written with steps of Euler's method. -/
theorem stages_keep {K : Set V} (hK : Convex ℝ K) {F : V → V} {τ dt r : ℝ} (hF : EulerKeeps F K τ) (hdt : dt = r * τ) {a21 a31 a32 b1 b2 b3 : ℝ}
    (h1 : 0 ≤ a21 * r) (h2 : a21 * r ≤ 1) (h3 : 0 ≤ (a31 - a32 * (a21 * r)) * r) (h4 : 0 ≤ a32 * r) (h5 : 0 ≤ 1 - a31 * r - a32 * r * (1 - a21 * r))
    (h6 : 0 ≤ b3 * r) (h7 : 0 ≤ (b2 - b3 * (a32 * r)) * r) (h8 : 0 ≤ (b1 - b2 * (a21 * r) - b3 * ((a31 - a32 * (a21 * r)) * r)) * r)
    (h9 : 0 ≤ 1 - b1 * r - b2 * r * (1 - a21 * r) - b3 * r * (1 - a31 * r - a32 * r * (1 - a21 * r)))
    {u u1 u2 u3 : V} (hu : u ∈ K) (e1 : u1 = u + (dt * a21) • F u) (e2 : u2 = u + (dt * a31) • F u + (dt * a32) • F u1) (e3 : u3 = u + (dt * b1) • F u + (dt * b2) • F u1 + (dt * b3) • F u2) :
    u1 ∈ K ∧ u2 ∈ K ∧ u3 ∈ K := by
  have g0 := hF u hu
  have k1 : u1 ∈ K := by
    have := four_mem hK hu g0 hu hu (p := 1 - a21 * r) (q := a21 * r) (r := 0) (s := 0) (by linarith) h1 le_rfl le_rfl (by ring)
    convert this using 1
    rw [e1, hdt]
    module
  have g1 := hF u1 k1
  have k2 : u2 ∈ K := by
    have := four_mem hK hu g0 g1 hu (p := 1 - a31 * r - a32 * r * (1 - a21 * r)) (q := (a31 - a32 * (a21 * r)) * r) (r := a32 * r) (s := 0) h5 h3 h4 le_rfl (by ring)
    convert this using 1
    generalize hf : F u1 = f at e2 ⊢
    rw [e2, e1, hdt]
    module
  have g2 := hF u2 k2
  have k3 : u3 ∈ K := by
    have := four_mem hK hu g0 g1 g2 (p := 1 - b1 * r - b2 * r * (1 - a21 * r) - b3 * r * (1 - a31 * r - a32 * r * (1 - a21 * r)))
      (q := (b1 - b2 * (a21 * r) - b3 * ((a31 - a32 * (a21 * r)) * r)) * r) (r := (b2 - b3 * (a32 * r)) * r) (s := b3 * r) h9 h8 h7 h6 (by ring)
    convert this using 1
    generalize hf2 : F u2 = f2 at e3 ⊢
    generalize hf1 : F u1 = f1 at e2 e3 ⊢
    rw [e3, e2, e1, hdt]
    module
  exact ⟨k1, k2, k3⟩

theorem rk_step_keeps {K : Set V} (hK : Convex ℝ K) {F : V → V} {τ : ℝ} (hτ : 0 < τ) (hF : EulerKeeps F K τ) {dt : ℝ} (h0 : 0 ≤ dt) (h1 : dt ≤ 3 / 5 * τ) (s : State V) (hs : s.new ∈ K) :
    (step F id dt s).new ∈ K := by
  obtain ⟨r, rfl⟩ : ∃ r, dt = r * τ := ⟨dt / τ, by field_simp⟩
  have r0 : 0 ≤ r := nonneg_of_mul_nonneg_left h0 hτ
  have r1 : r ≤ 3 / 5 := le_of_mul_le_mul_right h1 hτ
  refine (stages_keep hK hF (r := r) rfl (a21 := 2/3) (a31 := 1/4) (a32 := 5/12) (b1 := 1/4) (b2 := 3/20) (b3 := 3/5) ?_ ?_ ?_ ?_ ?_ ?_ ?_ ?_ ?_ hs rfl rfl ?_).2.2
  · linarith
  · linarith
  · exact mul_nonneg (by linarith) r0
  · linarith
  · nlinarith
  · linarith
  · exact mul_nonneg (by linarith) r0
  · exact mul_nonneg (by nlinarith) r0
  · nlinarith [mul_nonneg r0 r0, mul_nonneg (mul_nonneg r0 r0) (sub_nonneg.2 r1), mul_nonneg r0 (sub_nonneg.2 r1)]
  · rfl

/-- C90: the default scheme with time steps up to three fifths of those of Euler's method does not leave any convex set that Euler's method does not leave, whatever the number of steps. -/
theorem C90_default {K : Set V} (hK : Convex ℝ K) {F : V → V} {τ : ℝ} (hτ : 0 < τ) (hF : EulerKeeps F K τ) {dt : ℝ} (h0 : 0 ≤ dt) (h1 : dt ≤ 3 / 5 * τ) (s : State V) (hs : s.new ∈ K) (k : ℕ) :
    (run F id dt k s).new ∈ K := by
  induction k generalizing s with
  | zero => exact hs
  | succ k ih => exact ih _ (rk_step_keeps hK hτ hF h0 h1 s hs)

/-- C90: so it increases no convex function that steps of Euler's method do not increase. -/
theorem C90_monotone {Φ : V → ℝ} (hΦ : ConvexOn ℝ Set.univ Φ) {F : V → V} {τ : ℝ} (hτ : 0 < τ) (hF : EulerDecreases F Φ τ) {dt : ℝ} (h0 : 0 ≤ dt) (h1 : dt ≤ 3 / 5 * τ) (s : State V) (k : ℕ) :
    Φ (step F id dt (run F id dt k s)).new ≤ Φ (run F id dt k s).new := by
  have hK := hΦ.convex_le (Φ (run F id dt k s).new)
  exact (rk_step_keeps hK hτ (fun v hv => ⟨trivial, (hF v).trans hv.2⟩) h0 h1 _ ⟨trivial, le_rfl⟩).2

/-- Bounds for the coefficients of the strong stability preserving variant. -/
theorem ssp_bounds : 2877/10000 < sspB2 sspC ∧ sspB2 sspC < 2878/10000 ∧ 6265/10000 < sspB3 sspC ∧ sspB3 sspC < 6266/10000 ∧
    857/10000 < sspC + sspB2 sspC * sspA2 sspC ∧ sspC + sspB2 sspC * sspA2 sspC < 858/10000 ∧
    -1/1000000 < sspB3 sspC * sspA3 sspC ∧ sspB3 sspC * sspA3 sspC < 1/1000000 ∧ -1/1000000 < sspB3 sspC * (sspA3 sspC * sspA2 sspC) ∧ sspB3 sspC * (sspA3 sspC * sspA2 sspC) < 1/1000000 := by
  obtain ⟨h, hl, hu⟩ := ssp_root
  obtain ⟨z, hz⟩ : ∃ z, z1 sspC = z := ⟨_, rfl⟩
  rw [hz] at h hl hu
  have l : 2240769225868/1000000000000 < z := by
    by_contra hc
    push Not at hc
    nlinarith
  have r : z < 2240769225869/1000000000000 := by
    by_contra hc
    push Not at hc
    nlinarith
  have hb2 := ssp_b2 hz h hl hu
  have hb3 := ssp_b3 hz h hl hu
  have ha2 := ssp_a2 hz h hl hu
  have ha3 := ssp_a3 hz h hl hu
  have hc : sspC = (462287/500000) := by norm_num [sspC]
  have p1 : sspB2 sspC * sspA2 sspC = (3163798101992996284613/219165700691301000000) + (-13445721296125000/1972491306221709) * z := by rw [hb2, ha2]; linear_combination (-15625000000/4266811107) * h
  have p2 : sspA3 sspC * sspA2 sspC = (917764152437149365507861415153409/311712881994360228360069000000) + (-885976653930162625000/674284334178465387) * z := by rw [ha3, ha2]; linear_combination (-161810370303411812500/224761444726155129) * h
  have p3 : sspB3 sspC * (sspA3 sspC * sspA2 sspC) = (-1651688094650479465387/109582850345650500000) + (13267937500000000/1972491306221709) * z := by rw [p2, hb3]; linear_combination (-110747081741270328125000000/597996478893847991580207) * h
  have p4 : sspB3 sspC * sspA3 sspC = (2314813366384760155129/129579674987191930774) + (-13946095023062500000000/1749325612327091065449) * z := by rw [hb3, ha3]; linear_combination (43752682398437500000000000/199332159631282663860069) * h
  rw [p1, p3, p4, hb2, hb3, hc]
  refine ⟨?_, ?_, ?_, ?_, ?_, ?_, ?_, ?_, ?_, ?_⟩ <;> linarith

theorem ssp_step_keeps {K : Set V} (hK : Convex ℝ K) {F : V → V} {τ : ℝ} (hτ : 0 < τ) (hF : EulerKeeps F K τ) {dt : ℝ} (h0 : 0 ≤ dt) (h1 : dt ≤ 8 / 25 * τ) (s : LSState V) (hs : s.u ∈ K) :
    (lsStep sspA sspB F id dt s).u ∈ K := by
  obtain ⟨r, rfl⟩ : ∃ r, dt = r * τ := ⟨dt / τ, by field_simp⟩
  have r0 : 0 ≤ r := nonneg_of_mul_nonneg_left h0 hτ
  have r1 : r ≤ 8 / 25 := le_of_mul_le_mul_right h1 hτ
  obtain ⟨p1, p2, p3, p4, p5, p6, p7, p8, p9, p10⟩ := ssp_bounds
  have hc : sspC = (462287/500000) := by norm_num [sspC]
  have key : (lsStep sspA sspB F id (r * τ) s).u = s.u + (r * τ * (sspC + sspB2 sspC * sspA2 sspC + sspB3 sspC * (sspA3 sspC * sspA2 sspC))) • F s.u +
      (r * τ * (sspB2 sspC + sspB3 sspC * sspA3 sspC)) • F (s.u + (r * τ * sspC) • F s.u) +
      (r * τ * sspB3 sspC) • F (s.u + (r * τ * (sspC + sspB2 sspC * sspA2 sspC)) • F s.u + (r * τ * sspB2 sspC) • F (s.u + (r * τ * sspC) • F s.u)) := by
    have e1 : s.u + sspC • ((0 : ℝ) • s.tmp + (r * τ) • F s.u) = s.u + (r * τ * sspC) • F s.u := by module
    have e2 : s.u + (r * τ * sspC) • F s.u + sspB2 sspC • (sspA2 sspC • ((0 : ℝ) • s.tmp + (r * τ) • F s.u) + (r * τ) • F (s.u + (r * τ * sspC) • F s.u)) =
        s.u + (r * τ * (sspC + sspB2 sspC * sspA2 sspC)) • F s.u + (r * τ * sspB2 sspC) • F (s.u + (r * τ * sspC) • F s.u) := by module
    simp only [lsStep, sspA, sspB, List.zip_cons_cons, List.zip_nil_right, List.foldl_cons, List.foldl_nil, lsStage, lsBoundary, lsSol, lsTemp, lsSpatial, id]
    rw [e1, e2]
    module
  generalize sspB2 sspC = b2 at *
  generalize sspB3 sspC = b3 at *
  generalize sspA2 sspC = a2 at *
  generalize sspA3 sspC = a3 at *
  rw [hc] at *
  generalize b3 * (a3 * a2) = x at *
  generalize b3 * a3 = y at *
  generalize 462287 / 500000 + b2 * a2 = w at *
  have q1 : b2 * r ≤ 2878/10000 * (8/25) := mul_le_mul p2.le r1 r0 (by norm_num)
  have q1' : 0 ≤ b2 * r := mul_nonneg (by linarith) r0
  have q2 : b3 * r ≤ 6266/10000 * (8/25) := mul_le_mul p4.le r1 r0 (by norm_num)
  have q2' : 0 ≤ b3 * r := mul_nonneg (by linarith) r0
  have q3 : w * r ≤ 858/10000 * (8/25) := mul_le_mul p6.le r1 r0 (by norm_num)
  have q3' : 0 ≤ w * r := mul_nonneg (by linarith) r0
  have q4 : (w + x) * r ≤ 859/10000 * (8/25) := mul_le_mul (by linarith) r1 r0 (by norm_num)
  have q5 : (b2 + y) * r ≤ 2879/10000 * (8/25) := mul_le_mul (by linarith) r1 r0 (by norm_num)
  have q5' : 0 ≤ (b2 + y) * r := mul_nonneg (by linarith) r0
  have q6 : 0 ≤ 1 - 462287 / 500000 * r := by linarith
  have q6' : 1 - 462287 / 500000 * r ≤ 1 := by linarith
  have q7 : b2 * (462287 / 500000 * r) = 462287 / 500000 * (b2 * r) := by ring
  have q8 : 0 ≤ w - b2 * (462287 / 500000 * r) := by rw [q7]; linarith
  have q9 : b2 * r * (1 - 462287 / 500000 * r) ≤ b2 * r := mul_le_of_le_one_right q1' q6'
  have q9' : 0 ≤ b2 * r * (1 - 462287 / 500000 * r) := mul_nonneg q1' q6
  have q10 : (b2 + y) * r * (1 - 462287 / 500000 * r) ≤ (b2 + y) * r := mul_le_of_le_one_right q5' q6'
  refine (stages_keep hK hF (r := r) rfl (a21 := 462287 / 500000) (a31 := w) (a32 := b2) (b1 := w + x) (b2 := b2 + y) (b3 := b3) ?_ ?_ ?_ ?_ ?_ ?_ ?_ ?_ ?_ hs rfl rfl key).2.2
  · linarith
  · linarith
  · exact mul_nonneg q8 r0
  · exact q1'
  · linarith
  · exact q2'
  · refine mul_nonneg ?_ r0
    have : b3 * (b2 * r) ≤ 6266/10000 * (2878/10000 * (8/25)) := mul_le_mul p4.le q1 q1' (by norm_num)
    linarith
  · refine mul_nonneg ?_ r0
    have e : w + x - (b2 + y) * (462287 / 500000 * r) - b3 * ((w - b2 * (462287 / 500000 * r)) * r) = (w - b2 * (462287 / 500000 * r)) * (1 - b3 * r) + (x - y * (462287 / 500000 * r)) := by ring
    have : (1 / 10000 : ℝ) ≤ w - b2 * (462287 / 500000 * r) := by rw [q7]; linarith
    have h2 : (1 / 10000 : ℝ) * (1 / 2) ≤ (w - b2 * (462287 / 500000 * r)) * (1 - b3 * r) := mul_le_mul this (by linarith) (by norm_num) (by linarith)
    have h3 : y * (462287 / 500000 * r) ≤ 1/1000000 * 1 := (mul_le_mul_of_nonneg_right p8.le (by linarith)).trans (mul_le_mul_of_nonneg_left (by linarith) (by norm_num))
    rw [e]
    linarith
  · have h2 : b3 * r * (1 - w * r - b2 * r * (1 - 462287 / 500000 * r)) ≤ b3 * r := mul_le_of_le_one_right q2' (by linarith)
    linarith

/-- C90: the low storage scheme in its strong stability preserving formulation has the property for time steps up to 0.32 times those of Euler's method. -/
theorem C90_ssp {K : Set V} (hK : Convex ℝ K) {F : V → V} {τ : ℝ} (hτ : 0 < τ) (hF : EulerKeeps F K τ) {dt : ℝ} (h0 : 0 ≤ dt) (h1 : dt ≤ 8 / 25 * τ) (s : LSState V) (hs : s.u ∈ K) (k : ℕ) :
    (lsRun sspA sspB F id dt k s).u ∈ K := by
  induction k generalizing s with
  | zero => exact hs
  | succ k ih => exact ih _ (ssp_step_keeps hK hτ hF h0 h1 s hs)

/-! ## The limits are necessary -/

open Classical in
/-- C90: the limit of the default scheme cannot be raised: with any larger time step there are equations and a norm that steps of Euler's method do not increase but a step of the scheme does. -/
theorem C90_default_sharp {τ : ℝ} (hτ : 0 < τ) {dt : ℝ} (h : 3 / 5 * τ < dt) : ∃ F : ℝ × ℝ × ℝ → ℝ × ℝ × ℝ, EulerDecreases F norm τ ∧ ∃ s, ‖s.new‖ < ‖(step F id dt s).new‖ := by
  obtain ⟨r, rfl⟩ : ∃ r, dt = r * τ := ⟨dt / τ, by field_simp⟩
  have hr : 3 / 5 < r := lt_of_mul_lt_mul_right h hτ.le
  set u0 : ℝ × ℝ × ℝ := (1, 0, 1) with hu0
  set u1 : ℝ × ℝ × ℝ := (1, 2 / 3 * r, 1) with hu1
  set u2 : ℝ × ℝ × ℝ := (1 - 5 / 6 * r, 1 / 4 * r, 1) with hu2
  set F : ℝ × ℝ × ℝ → ℝ × ℝ × ℝ := fun v => if v = u0 then (0, 1 / τ, 0) else if v = u1 then (-2 / τ, 0, 0) else if v = u2 then (5 / 6 * r / τ, 0, 0) else 0 with hF
  have n1 : u1 ≠ u0 := fun e => by simp [hu0, hu1] at e; linarith
  have n2 : u2 ≠ u0 := fun e => by simp [hu0, hu2] at e; linarith
  have n3 : u2 ≠ u1 := fun e => by simp [hu1, hu2] at e; linarith [e.1]
  have f0 : F u0 = (0, 1 / τ, 0) := by simp [hF]
  have f1 : F u1 = (-2 / τ, 0, 0) := by simp [hF, n1]
  have f2 : F u2 = (5 / 6 * r / τ, 0, 0) := by simp [hF, n2, n3]
  refine ⟨F, fun v => ?_, ⟨u0, u0, u0⟩, ?_⟩
  · by_cases h0 : v = u0
    · rw [h0, f0]
      simp [hu0, Prod.norm_def, hτ.ne']
    by_cases h1 : v = u1
    · rw [h1, f1]
      have : (1 : ℝ) + τ * (-2 / τ) = -1 := by field_simp; norm_num
      simp [hu1, Prod.norm_def, this]
    by_cases h2 : v = u2
    · rw [h2, f2]
      have : (1 : ℝ) - 5 / 6 * r + τ * (5 / 6 * r / τ) = 1 := by field_simp; ring
      simp [hu2, Prod.norm_def, this]
    · simp [hF, h0, h1, h2]
  · have e1 : u0 + (r * τ * (2 / 3)) • F u0 = u1 := by
      rw [f0]; simp only [hu0, hu1, Prod.smul_mk, Prod.mk_add_mk, smul_eq_mul]; refine Prod.ext ?_ (Prod.ext ?_ ?_) <;> simp
      field_simp
    have e2 : u0 + (r * τ * (1 / 4)) • F u0 + (r * τ * (5 / 12)) • F u1 = u2 := by
      rw [f0, f1]; simp only [hu0, hu2, Prod.smul_mk, Prod.mk_add_mk, smul_eq_mul]; refine Prod.ext ?_ (Prod.ext ?_ ?_) <;> simp
      · field_simp
        ring
      · field_simp
    have e3 : (step F id (r * τ) ⟨u0, u0, u0⟩).new = u0 + (r * τ * (1 / 4)) • F u0 + (r * τ * (3 / 20)) • F u1 + (r * τ * (3 / 5)) • F u2 := by
      simp only [step, stage, save, boundary, solutionUpdate, stageUpdate, spatial, rkold, rknew, id, List.zip_cons_cons, List.zip_nil_right, List.foldl_cons, List.foldl_nil]
      rw [e1, e2]
    have e4 : (u0 + (r * τ * (1 / 4)) • F u0 + (r * τ * (3 / 20)) • F u1 + (r * τ * (3 / 5)) • F u2).1 = 1 + r / 2 * (r - 3 / 5) := by
      rw [f0, f1, f2]; simp [hu0]; field_simp; ring
    have e5 : ‖u0‖ = 1 := by simp [hu0, Prod.norm_def]
    rw [e3]
    change ‖u0‖ < _
    rw [e5]
    refine lt_of_lt_of_le ?_ (norm_fst_le _)
    rw [e4, Real.norm_eq_abs]
    refine lt_of_lt_of_le ?_ (le_abs_self _)
    nlinarith

open Classical in
/-- C90: with a time step of a third of that of Euler's method or more, the formulation called strong stability preserving does not preserve it: it allows about half the time step of the default scheme. -/
theorem C90_ssp_limit {τ : ℝ} (hτ : 0 < τ) {dt : ℝ} (h : 1 / 3 * τ ≤ dt) : ∃ F : ℝ × ℝ → ℝ × ℝ, EulerDecreases F norm τ ∧ ∃ s, ‖s.u‖ < ‖(lsStep sspA sspB F id dt s).u‖ := by
  obtain ⟨r, rfl⟩ : ∃ r, dt = r * τ := ⟨dt / τ, by field_simp⟩
  have hr : 1 / 3 ≤ r := le_of_mul_le_mul_right h hτ
  obtain ⟨p1, p2, p3, p4, p5, p6, p7, p8, p9, p10⟩ := ssp_bounds
  have hc : sspC = (462287/500000) := by norm_num [sspC]
  obtain ⟨b2, hb2⟩ : ∃ b, sspB2 sspC = b := ⟨_, rfl⟩
  obtain ⟨b3, hb3⟩ : ∃ b, sspB3 sspC = b := ⟨_, rfl⟩
  obtain ⟨a2, ha2⟩ : ∃ b, sspA2 sspC = b := ⟨_, rfl⟩
  obtain ⟨a3, ha3⟩ : ∃ b, sspA3 sspC = b := ⟨_, rfl⟩
  simp only [hb2, hb3, ha2, ha3] at p1 p2 p3 p4 p5 p6 p7 p8 p9 p10
  rw [hc] at p5 p6
  set u0 : ℝ × ℝ := (1, 1) with hu0
  set u1 : ℝ × ℝ := (1 - 2 * (462287/500000) * r, 1) with hu1
  set u2 : ℝ × ℝ := (1 + 2 * r * (b2 * (462287/500000) * r - (462287/500000 + b2 * a2)), 1) with hu2
  set F : ℝ × ℝ → ℝ × ℝ := fun v => if v = u0 then (-2 / τ, 0) else if v = u1 then (2 * (462287/500000) * r / τ, 0) else 0 with hF
  have hpos : 0 < b2 * (462287/500000) * r - (462287/500000 + b2 * a2) := by nlinarith
  have n1 : u1 ≠ u0 := fun e => by simp [hu0, hu1] at e; linarith
  have n2 : u2 ≠ u0 := fun e => by
    have := congrArg Prod.fst e
    simp only [hu0, hu2] at this
    nlinarith
  have n3 : u2 ≠ u1 := fun e => by
    have := congrArg Prod.fst e
    simp only [hu1, hu2] at this
    nlinarith
  have f0 : F u0 = (-2 / τ, 0) := by simp [hF]
  have f1 : F u1 = (2 * (462287/500000) * r / τ, 0) := by simp [hF, n1]
  have f2 : F u2 = 0 := by simp [hF, n2, n3]
  refine ⟨F, fun v => ?_, ⟨u0, u0, u0⟩, ?_⟩
  · by_cases h0 : v = u0
    · rw [h0, f0]
      have : (1 : ℝ) + τ * (-2 / τ) = -1 := by field_simp; norm_num
      simp [hu0, Prod.norm_def, this]
    by_cases h1 : v = u1
    · rw [h1, f1]
      have : (1 : ℝ) - 2 * (462287/500000) * r + τ * (2 * (462287/500000) * r / τ) = 1 := by field_simp; ring
      simp only [hu1, Prod.norm_def, Prod.smul_mk, Prod.mk_add_mk, smul_eq_mul, this, mul_zero, add_zero]
      simp
    · simp [hF, h0, h1]
  · have t1 : (0 : ℝ) • u0 + (r * τ) • F u0 = (-2 * r, 0) := by
      rw [f0]; refine Prod.ext ?_ ?_ <;> simp; field_simp
    have e1 : u0 + (462287/500000 : ℝ) • ((-2 * r, 0) : ℝ × ℝ) = u1 := by
      refine Prod.ext ?_ ?_ <;> simp [hu0, hu1]; ring
    have t2 : a2 • ((-2 * r, 0) : ℝ × ℝ) + (r * τ) • F u1 = (-2 * a2 * r + 2 * (462287/500000) * r * r, 0) := by
      rw [f1]; refine Prod.ext ?_ ?_ <;> simp; field_simp
    have e2 : u1 + b2 • ((-2 * a2 * r + 2 * (462287/500000) * r * r, 0) : ℝ × ℝ) = u2 := by
      refine Prod.ext ?_ ?_ <;> simp [hu1, hu2]; ring
    have e3 : (lsStep sspA sspB F id (r * τ) ⟨u0, u0, u0⟩).u = u2 + b3 • (a3 • ((-2 * a2 * r + 2 * (462287/500000) * r * r, 0) : ℝ × ℝ) + (r * τ) • F u2) := by
      simp only [lsStep, sspA, sspB, List.zip_cons_cons, List.zip_nil_right, List.foldl_cons, List.foldl_nil, lsStage, lsBoundary, lsSol, lsTemp, lsSpatial, id]
      rw [hb2, hb3, ha2, ha3, hc, t1, e1, t2, e2]
    have e4 : (u2 + b3 • (a3 • ((-2 * a2 * r + 2 * (462287/500000) * r * r, 0) : ℝ × ℝ) + (r * τ) • F u2)).1 =
        1 + 2 * r * ((b2 + b3 * a3) * (462287/500000) * r - (462287/500000 + b2 * a2 + b3 * (a3 * a2))) := by
      rw [f2]; simp [hu2]; ring
    have e5 : ‖u0‖ = 1 := by simp [hu0, Prod.norm_def]
    rw [e3]
    change ‖u0‖ < _
    rw [e5]
    refine lt_of_lt_of_le ?_ (norm_fst_le _)
    rw [e4, Real.norm_eq_abs]
    refine lt_of_lt_of_le ?_ (le_abs_self _)
    have : 0 < (b2 + b3 * a3) * (462287/500000) * r - (462287/500000 + b2 * a2 + b3 * (a3 * a2)) := by nlinarith
    nlinarith

open Classical in
/-- C90: the default formulation of the low storage scheme has the property for no time step at all. -/
theorem C90_low_storage_not {τ : ℝ} (hτ : 0 < τ) {dt : ℝ} (h : 0 < dt) : ∃ F : ℝ × ℝ → ℝ × ℝ, EulerDecreases F norm τ ∧ ∃ s, ‖s.u‖ < ‖(lsStep lsA3 lsB3 F id dt s).u‖ := by
  obtain ⟨r, rfl⟩ : ∃ r, dt = r * τ := ⟨dt / τ, by field_simp⟩
  have hr : 0 < r := pos_of_mul_pos_left h hτ.le
  set u0 : ℝ × ℝ := (1, 1) with hu0
  set u1 : ℝ × ℝ := (1 - 1 / 3 * r, 1) with hu1
  set u2 : ℝ × ℝ := (1 + 3 / 16 * r, 1) with hu2
  set F : ℝ × ℝ → ℝ × ℝ := fun v => if v = u0 then (-1 / τ, 0) else if v = u2 then (0, 3 / 16 * r / τ) else 0 with hF
  have n1 : u1 ≠ u0 := fun e => by simp [hu0, hu1] at e; linarith
  have n2 : u2 ≠ u0 := fun e => by simp [hu0, hu2] at e; linarith
  have n3 : u1 ≠ u2 := fun e => by
    have := congrArg Prod.fst e
    simp only [hu1, hu2] at this
    linarith
  have f0 : F u0 = (-1 / τ, 0) := by simp [hF]
  have f1 : F u1 = 0 := by simp [hF, n1, n3]
  have f2 : F u2 = (0, 3 / 16 * r / τ) := by simp [hF, n2]
  refine ⟨F, fun v => ?_, ⟨u0, u0, u0⟩, ?_⟩
  · by_cases h0 : v = u0
    · rw [h0, f0]
      have : (1 : ℝ) + τ * (-1 / τ) = 0 := by field_simp; norm_num
      simp [hu0, Prod.norm_def, this]
    by_cases h1 : v = u2
    · rw [h1, f2]
      have : (1 : ℝ) + τ * (3 / 16 * r / τ) = 1 + 3 / 16 * r := by field_simp
      simp only [hu2, Prod.norm_def, Prod.smul_mk, Prod.mk_add_mk, smul_eq_mul, this, mul_zero, add_zero]
      simp
    · simp [hF, h0, h1]
  · have t1 : (0 : ℝ) • u0 + (r * τ) • F u0 = (-r, 0) := by
      rw [f0]; refine Prod.ext ?_ ?_ <;> simp; field_simp
    have e1 : u0 + (1 / 3 : ℝ) • ((-r, 0) : ℝ × ℝ) = u1 := by
      refine Prod.ext ?_ ?_ <;> simp [hu0, hu1]; ring
    have t2 : (-5 / 9 : ℝ) • ((-r, 0) : ℝ × ℝ) + (r * τ) • F u1 = (5 / 9 * r, 0) := by
      rw [f1]; refine Prod.ext ?_ ?_ <;> simp; ring
    have e2 : u1 + (15 / 16 : ℝ) • ((5 / 9 * r, 0) : ℝ × ℝ) = u2 := by
      refine Prod.ext ?_ ?_ <;> simp [hu1, hu2]; ring
    have e3 : (lsStep lsA3 lsB3 F id (r * τ) ⟨u0, u0, u0⟩).u = u2 + (8 / 15 : ℝ) • ((-153 / 128 : ℝ) • ((5 / 9 * r, 0) : ℝ × ℝ) + (r * τ) • F u2) := by
      simp only [lsStep, lsA3, lsB3, List.zip_cons_cons, List.zip_nil_right, List.foldl_cons, List.foldl_nil, lsStage, lsBoundary, lsSol, lsTemp, lsSpatial, id]
      rw [t1, e1, t2, e2]
    have e4 : (u2 + (8 / 15 : ℝ) • ((-153 / 128 : ℝ) • ((5 / 9 * r, 0) : ℝ × ℝ) + (r * τ) • F u2)).2 = 1 + 1 / 10 * r ^ 2 := by
      rw [f2]; simp [hu2]; field_simp; ring
    have e5 : ‖u0‖ = 1 := by simp [hu0, Prod.norm_def]
    rw [e3]
    change ‖u0‖ < _
    rw [e5]
    refine lt_of_lt_of_le ?_ (norm_snd_le _)
    rw [e4, Real.norm_eq_abs]
    refine lt_of_lt_of_le ?_ (le_abs_self _)
    have := pow_pos hr 2
    linarith

end OpenSBLI.RK
