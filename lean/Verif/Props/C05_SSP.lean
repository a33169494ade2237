import Verif.Props.C03_C05_RungeKutta
import Mathlib.Tactic.LinearCombination
import Mathlib.Tactic.Positivity

/-!
# C05: the order of the strong stability preserving variant

The coefficients of rk_LS.py 75-89 are in the field of the numbers `p + q z` with a square root `z`, in which they are computed here.
-/
namespace OpenSBLI.RK
open Spec

/-- The square root of the formulas. -/
theorem ssp_root : z1 sspC ^ 2 = (78453855056248136065449/15625000000000000000000) ∧ 56/25 < z1 sspC ∧ z1 sspC < 9/4 := by
  have h : (36*sspC^4 + 36*sspC^3 - 135*sspC^2 + 84*sspC - 12) = (78453855056248136065449/15625000000000000000000) := by norm_num [sspC]
  refine ⟨?_, ?_, ?_⟩
  · rw [z1, Real.sq_sqrt (by rw [h]; norm_num), h]
  · rw [z1, h]
    exact Real.lt_sqrt_of_sq_lt (by norm_num)
  · rw [z1, h, Real.sqrt_lt' (by norm_num)]
    norm_num

theorem ssp_b2 {z : ℝ} (hz : z1 sspC = z) (h : z ^ 2 = (78453855056248136065449/15625000000000000000000)) (_hl : 56/25 < z) (_hu : z < 9/4) : sspB2 sspC = (-1275722505125000/73055233563767) + (15625000000000000/1972491306221709) * z := by
  rw [sspB2, hz, div_eq_iff (by norm_num [sspC, z2, z3, z4, z5, z6])]
  norm_num [sspC, z2, z3, z4, z5, z6]
  linear_combination (-1) * h

theorem ssp_b3 {z : ℝ} (hz : z1 sspC = z) (h : z ^ 2 = (78453855056248136065449/15625000000000000000000)) (_hl : 56/25 < z) (_hu : z < 9/4) : sspB3 sspC = (275556061107/886861000000) + (125000/886861) * z := by
  rw [sspB3, hz, div_eq_iff (by norm_num [sspC, z2, z3, z4, z5, z6]; nlinarith)]
  norm_num [sspC, z2, z3, z4, z5, z6]
  linear_combination (-(275556061107/886861000000) - (-1160583/1773722) - (125000/886861) * z) * h

theorem ssp_a2 {z : ℝ} (hz : z1 sspC = z) (h : z ^ 2 = (78453855056248136065449/15625000000000000000000)) (_hl : 56/25 < z) (_hu : z < 9/4) : sspA2 sspC = (-234951755189971709/125000000000000000) + (-462287/1000000) * z := by
  rw [sspA2, hz, div_eq_iff (by norm_num [sspC, z2, z3, z4, z5, z6]; nlinarith)]
  norm_num [sspC, z2, z3, z4, z5, z6]
  linear_combination (329281020369/250000000000) * h

theorem ssp_a3 {z : ℝ} (hz : z1 sspC = z) (h : z ^ 2 = (78453855056248136065449/15625000000000000000000)) (_hl : 56/25 < z) (_hu : z < 9/4) : sspA3 sspC = (-2175478189272067094849110069/623425763988720456720138) + (350021459187500000000/224761444726155129) * z := by
  rw [sspA3, hz, div_eq_iff (by norm_num [sspC, z2, z3, z4, z5, z6]; nlinarith)]
  norm_num [sspC, z2, z3, z4, z5, z6]
  linear_combination (-69902079971073903/62500000000000000) * h

/-- C05: a step of the strong stability preserving variant is a step of an explicit third-order Runge-Kutta method too, in exact arithmetic. -/
theorem C05_ssp_is_third_order_RK {V : Type} [AddCommGroup V] [Module ℝ V] :
    ∃ T : Tableau ℝ 3, T.explicit ∧ T.Order3 ∧ ∀ (F : V → V) (dt : ℝ) (s : LSState V), ∃ k, T.IsSlopes F id dt s.u k ∧ (lsStep sspA sspB F id dt s).u = T.result id dt s.u k := by
  refine ⟨lsTab3 (sspA2 sspC) (sspA3 sspC) sspC (sspB2 sspC) (sspB3 sspC), lsTab3_explicit _ _ _ _ _, ?_, fun F dt s => lsStep3_is_RK _ _ _ _ _ F dt s⟩
  obtain ⟨h, hl, hu⟩ := ssp_root
  obtain ⟨z, hz⟩ : ∃ z, z1 sspC = z := ⟨_, rfl⟩
  rw [hz] at h hl hu
  have hb2 := ssp_b2 hz h hl hu
  have hb3 := ssp_b3 hz h hl hu
  have ha2 := ssp_a2 hz h hl hu
  have ha3 := ssp_a3 hz h hl hu
  have hc : sspC = (462287/500000) := by norm_num [sspC]
  have p1 : sspB2 sspC * sspA2 sspC = (3163798101992996284613/219165700691301000000) + (-13445721296125000/1972491306221709) * z := by rw [hb2, ha2]; linear_combination (-15625000000/4266811107) * h
  have p2 : sspA3 sspC * sspA2 sspC = (917764152437149365507861415153409/311712881994360228360069000000) + (-885976653930162625000/674284334178465387) * z := by rw [ha3, ha2]; linear_combination (-161810370303411812500/224761444726155129) * h
  have p3 : sspB3 sspC * (sspA3 sspC * sspA2 sspC) = (-1651688094650479465387/109582850345650500000) + (13267937500000000/1972491306221709) * z := by rw [p2, hb3]; linear_combination (-110747081741270328125000000/597996478893847991580207) * h
  have p4 : sspB3 sspC * sspA3 sspC = (2314813366384760155129/129579674987191930774) + (-13946095023062500000000/1749325612327091065449) * z := by rw [hb3, ha3]; linear_combination (43752682398437500000000000/199332159631282663860069) * h
  have p5 : sspC + sspB2 sspC * sspA2 sspC + sspB2 sspC = (-79281020369/37713000000) + (125000/113139) * z := by rw [p1, hb2, hc]; ring
  have p6 : (sspC + sspB2 sspC * sspA2 sspC + sspB2 sspC)^2 = (2500429199499930965387/237045061500000000000) + (-79281020369/17067244428) * z := by rw [p5]; linear_combination (15625000000/12800433321) * h
  have p7 : sspB3 sspC * (sspC + sspB2 sspC * sspA2 sspC + sspB2 sspC) = (114149479631/886861000000) + (125000/2660583) * z := by rw [p5, hb3]; linear_combination (15625000000/100338566679) * h
  have p8 : sspB3 sspC * (sspC + sspB2 sspC * sspA2 sspC + sspB2 sspC)^2 = (-13236505189971709/1330291500000000000) + (462287/10642332) * z := by rw [p6, hb3]; linear_combination (-2477531886531250/3784068365165127) * h
  have p9 : sspB3 sspC * (sspB2 sspC * sspC) = (1/6) + (0) * z := by rw [hb3, hb2, hc]; linear_combination (3906250000000000/3784068365165127) * h
  apply lsTab3_order
  · rw [p1, p3, p4, hb2, hb3, hc]; ring
  · rw [p7, p4, hb2, hc]; ring
  · rw [p8, p4, hb2, hc]; ring
  · rw [p9]; ring

end OpenSBLI.RK
