import Verif.Lemmas.Convergence
import Verif.Lemmas.SkewStep5

/-!
# Local errors of steps of five stages
-/
namespace OpenSBLI.Order
open Sim
open scoped ContDiff

variable {D n : ℕ}

/-- Coefficients near those of the exponential up to the fourth power. -/
structure NearExp (p : ℕ → ℝ) (η : ℝ) : Prop where
  small : 0 ≤ η ∧ η ≤ 1
  c1 : |p 1 - 1| ≤ η
  c2 : |p 2 - 1/2| ≤ η
  c3 : |p 3 - 1/6| ≤ η
  c4 : |p 4 - 1/24| ≤ η
  c5 : |p 5| ≤ 1

theorem term_bound {dt p c η C H d s : ℝ} (k : ℕ) (hdt0 : 0 ≤ dt) (hdt1 : dt ≤ 1) (hp : |p - c| ≤ η) (hc : |c| ≤ 1) (hη : η ≤ 1) (hd : |d - s| ≤ C * H) :
    |dt ^ (k + 1) * p * d - dt ^ (k + 1) * c * s| ≤ dt * (2 * C * H + |s| * η) := by
  have e : dt ^ (k + 1) * p * d - dt ^ (k + 1) * c * s = dt ^ (k + 1) * (p * (d - s) + s * (p - c)) := by ring
  have hpa : |p| ≤ 2 := by
    have : p = (p - c) + c := by ring
    rw [this]
    exact (abs_add_le _ _).trans (by linarith)
  have hdk : dt ^ (k + 1) ≤ dt := by
    calc dt ^ (k + 1) = dt * dt ^ k := by ring
      _ ≤ dt * 1 := mul_le_mul_of_nonneg_left (pow_le_one₀ hdt0 hdt1) hdt0
      _ = dt := mul_one _
  rw [e, abs_mul, abs_of_nonneg (by positivity)]
  refine mul_le_mul hdk ?_ (abs_nonneg _) hdt0
  refine (abs_add_le _ _).trans ?_
  rw [abs_mul, abs_mul]
  have h1 : |p| * |d - s| ≤ 2 * (C * H) := mul_le_mul hpa hd (abs_nonneg _) (by norm_num)
  have h2 : |s| * |p - c| ≤ |s| * η := mul_le_mul_of_nonneg_left hp (abs_nonneg _)
  linarith

theorem last_bound {dt p C H B d s : ℝ} (hdt0 : 0 ≤ dt) (hp : |p| ≤ 1) (hC : 0 ≤ C) (hH : H ≤ 1) (hd : |d - s| ≤ C * H) (hs : |s| ≤ B) : |dt ^ 5 * p * d| ≤ dt * ((C + B) * dt ^ 4) := by
  have hda : |d| ≤ C + B := by
    have : d = (d - s) + s := by ring
    rw [this]
    have : C * H ≤ C := by nlinarith
    exact (abs_add_le _ _).trans (by linarith)
  rw [abs_mul, abs_mul, abs_of_nonneg (by positivity : 0 ≤ dt ^ 5)]
  have h1 : |p| * |d| ≤ 1 * (C + B) := mul_le_mul hp hda (abs_nonneg _) (by norm_num)
  calc dt ^ 5 * |p| * |d| = dt ^ 5 * (|p| * |d|) := by ring
    _ ≤ dt ^ 5 * (1 * (C + B)) := mul_le_mul_of_nonneg_left h1 (by positivity)
    _ = _ := by ring

/-- A bound of the sums of the first four derivatives in time of the components. -/
def TimeDerivatives (U : Fin n → ℝ → E D → ℝ) (T S : ℝ) : Prop :=
  0 ≤ S ∧ ∀ i t x, 0 ≤ t → t ≤ T → |iteratedDeriv 1 (fun s => U i s x) t| + |iteratedDeriv 2 (fun s => U i s x) t| + |iteratedDeriv 3 (fun s => U i s x) t| + |iteratedDeriv 4 (fun s => U i s x) t| ≤ S

/-- The error of one step from the exact solution. -/
theorem local_error5 {m : ℕ} (hm : 1 ≤ m) (M : Fin D → Fin n → Fin n → ℝ) (L : E D) (hLp : ∀ d, 0 < L d) (U : Fin n → ℝ → E D → ℝ) (hU : Solves M L U) (T : ℝ) :
    ∃ C : ℝ, 0 ≤ C ∧ ∀ (p : ℕ → ℝ) (η S : ℝ), NearExp p η → TimeDerivatives U T S → ∀ (np : Fin D → ℤ) (x₀ δ : E D) (h dt t : ℝ), (∀ d, np d * δ d = L d) → (∀ d, 0 < δ d ∧ δ d ≤ h) → 0 ≤ h → h ≤ 1 → 0 ≤ dt → dt ≤ 1 → 0 ≤ t → t + dt ≤ T → ∀ q,
      |(onGridPoints np x₀ δ (fun i => U i (t + dt)) - amplify5 p (system (2 * m) M δ) dt (onGridPoints np x₀ δ fun i => U i t)) q| ≤ dt * (C * (dt ^ 4 + h ^ (2 * m)) + S * η) := by
  set f : Fin n → ℝ × E D → ℝ := fun i p => U i p.1 p.2 with hf
  have hsm : ∀ i, ContDiff ℝ ∞ (f i) := hU.smooth
  have heq : ∀ i, dv inTime (f i) = inBoth M f i := by
    intro i
    funext ⟨t, x⟩
    have h1 := congrFun (deriv_dv (hsm i) x) t
    rw [← h1]
    refine (hU.equation i t x).trans ?_
    simp only [inBoth]
    refine Finset.sum_congr rfl fun d _ => Finset.sum_congr rfl fun j _ => ?_
    rw [← congrFun (pd_dv (hsm j) d t) x]
  set u : Set.Icc (0 : ℝ) T → Fin n → E D → ℝ := fun t i x => f i (t, x) with hu
  have htame : ∀ i, Tame fun t => u t i := fun i => joint_tame (hsm i) L hLp (fun t k x => hU.periodic i t k x) T
  have near := fun k i => differences_near hm M u htame k i
  choose C hC0 hC using fun (q : ℕ × Fin n) => (near q.1 q.2).error.bound []
  choose B hB0 hB using fun (q : ℕ × Fin n) => (near q.1 q.2).dom.bound []
  set G : Fin n → ℝ := fun i => 2 * C (1, i) + 2 * C (2, i) + 2 * C (3, i) + 2 * C (4, i) + C (5, i) + B (5, i) + B (5, i) with hG
  have hG0 : ∀ i, 0 ≤ G i := fun i => by
    have := hC0 (1, i); have := hC0 (2, i); have := hC0 (3, i); have := hC0 (4, i); have := hC0 (5, i)
    have := hB0 (5, i)
    simp only [hG]
    positivity
  refine ⟨∑ i, G i, Finset.sum_nonneg fun i _ => hG0 i, ?_⟩
  intro p η S hp hS np x₀ δ h dt t hL hδ h0 h1 hdt0 hdt1 ht0 htT q
  have hper : Periodic L fun i => U i t := fun i k x => hU.periodic i t k x
  have it := fun k => system_iter (2 * m) M x₀ δ L hL hper k
  have i1 := it 1
  have i2 := it 2
  have i3 := it 3
  have i4 := it 4
  have i5 := it 5
  simp only [Function.iterate_succ_apply, Function.iterate_zero, id_eq] at i1 i2 i3 i4 i5
  obtain ⟨i, x⟩ := q
  set y := pos x₀ δ x.1 with hy
  let sp : Spacing D := ⟨δ, h, fun d => (hδ d).1, fun d => (hδ d).2, h0, h1⟩
  let ts : Set.Icc (0 : ℝ) T := ⟨t, ht0, by linarith⟩
  have e : ∀ k, |(differences (2 * m) M δ)^[k] (fun i => U i t) i y - (inSpaceOnly M)^[k] (fun i => U i t) i y| ≤ C (k, i) * h ^ (2 * m) := fun k => hC (k, i) (sp, ts) y
  have b : ∀ k, |(inSpaceOnly M)^[k] (fun i => U i t) i y| ≤ B (k, i) := fun k => by
    have := hB (k, i) (sp, ts) y
    simp only [pds, mul_one] at this
    exact this
  have tay := taylor_bound (f := fun s => f i (s, y)) ((hsm i).comp (contDiff_id.prodMk contDiff_const)) 4 t (t + dt) (B (5, i)) (by
    intro z hz
    rw [Set.uIcc_of_le (by linarith)] at hz
    rw [iteratedDeriv_dv (hsm i) y, time_derivatives M hsm heq]
    have := hB (5, i) (sp, ⟨z, by linarith [hz.1], by linarith [hz.2]⟩) y
    simp only [pds, mul_one, hu, inBoth_at M hsm] at this
    exact this)
  simp only [add_sub_cancel_left, abs_of_nonneg hdt0, iteratedDeriv_dv (hsm i) y, time_derivatives M hsm heq] at tay
  have es : ∀ k, (inBoth M)^[k] f i (t, y) = (inSpaceOnly M)^[k] (fun i => U i t) i y := fun k => (congrFun (congrFun (inBoth_at M hsm t k) i) y).symm
  simp only [es, Finset.sum_range_succ, Finset.sum_range_zero] at tay
  have hval : (onGridPoints np x₀ δ (fun i => U i (t + dt)) - amplify5 p (system (2 * m) M δ) dt (onGridPoints np x₀ δ fun i => U i t)) (i, x) =
      U i (t + dt) y - (U i t y + dt * p 1 * (differences (2 * m) M δ)^[1] (fun i => U i t) i y + dt ^ 2 * p 2 * (differences (2 * m) M δ)^[2] (fun i => U i t) i y
        + dt ^ 3 * p 3 * (differences (2 * m) M δ)^[3] (fun i => U i t) i y + dt ^ 4 * p 4 * (differences (2 * m) M δ)^[4] (fun i => U i t) i y + dt ^ 5 * p 5 * (differences (2 * m) M δ)^[5] (fun i => U i t) i y) := by
    rw [amplify5, i5, i4, i3, i2, i1]
    rfl
  rw [hval]
  have hsum : G i ≤ ∑ i, G i := Finset.single_le_sum (f := G) (fun j _ => hG0 j) (Finset.mem_univ i)
  have hη := hp.small
  have hp' : 0 ≤ h ^ (2 * m) := by positivity
  have hp1 : h ^ (2 * m) ≤ 1 := pow_le_one₀ h0 h1
  refine le_trans ?_ (mul_le_mul_of_nonneg_left (add_le_add (mul_le_mul_of_nonneg_right hsum (by positivity : 0 ≤ dt ^ 4 + h ^ (2 * m))) le_rfl) hdt0)
  have hSd := hS.2 i t y ht0 (by linarith)
  have hsd : ∀ k, iteratedDeriv k (fun s => U i s y) t = (inSpaceOnly M)^[k] (fun i => U i t) i y := fun k => by
    have := congrFun (iteratedDeriv_dv (hsm i) y k) t
    rw [time_derivatives M hsm heq, es] at this
    exact this
  rw [hsd, hsd, hsd, hsd] at hSd
  have T1 := term_bound (dt := dt) 0 hdt0 hdt1 hp.c1 (by norm_num) hη.2 (e 1)
  have T2 := term_bound (dt := dt) 1 hdt0 hdt1 hp.c2 (by norm_num [abs_le]) hη.2 (e 2)
  have T3 := term_bound (dt := dt) 2 hdt0 hdt1 hp.c3 (by norm_num [abs_le]) hη.2 (e 3)
  have T4 := term_bound (dt := dt) 3 hdt0 hdt1 hp.c4 (by norm_num [abs_le]) hη.2 (e 4)
  have T5 := last_bound hdt0 hp.c5 (hC0 _) hp1 (e 5) (b 5)
  generalize (differences (2 * m) M δ)^[1] (fun i => U i t) i y = d1 at T1 ⊢
  generalize (differences (2 * m) M δ)^[2] (fun i => U i t) i y = d2 at T2 ⊢
  generalize (differences (2 * m) M δ)^[3] (fun i => U i t) i y = d3 at T3 ⊢
  generalize (differences (2 * m) M δ)^[4] (fun i => U i t) i y = d4 at T4 ⊢
  generalize (differences (2 * m) M δ)^[5] (fun i => U i t) i y = d5 at T5 ⊢
  generalize (inSpaceOnly M)^[1] (fun i => U i t) i y = s1 at T1 tay hSd
  generalize (inSpaceOnly M)^[2] (fun i => U i t) i y = s2 at T2 tay hSd
  generalize (inSpaceOnly M)^[3] (fun i => U i t) i y = s3 at T3 tay hSd
  generalize (inSpaceOnly M)^[4] (fun i => U i t) i y = s4 at T4 tay hSd
  have z0 : (inSpaceOnly M)^[0] (fun i => U i t) i y = U i t y := rfl
  have z1 : f i (t + dt, y) = U i (t + dt) y := rfl
  rw [z0, z1] at tay
  generalize U i t y = v0 at tay ⊢
  generalize U i (t + dt) y = v1 at tay ⊢
  norm_num at T1
  have b4 : |v1 - (v0 + dt * s1 + dt ^ 2 / 2 * s2 + dt ^ 3 / 6 * s3 + dt ^ 4 / 24 * s4)| ≤ B (5, i) * (dt * dt ^ 4) := by
    norm_num [Nat.factorial] at tay
    have : |v1 - (v0 + dt * s1 + dt ^ 2 / 2 * s2 + dt ^ 3 / 6 * s3 + dt ^ 4 / 24 * s4)| ≤ B (5, i) * dt ^ 5 / 120 := by
      convert tay using 2
      ring
    refine this.trans ?_
    have : 0 ≤ B (5, i) * dt ^ 5 := mul_nonneg (hB0 _) (by positivity)
    linarith [show B (5, i) * (dt * dt ^ 4) = B (5, i) * dt ^ 5 by ring]
  have tri : |v1 - (v0 + dt * p 1 * d1 + dt ^ 2 * p 2 * d2 + dt ^ 3 * p 3 * d3 + dt ^ 4 * p 4 * d4 + dt ^ 5 * p 5 * d5)| ≤
      |v1 - (v0 + dt * s1 + dt ^ 2 / 2 * s2 + dt ^ 3 / 6 * s3 + dt ^ 4 / 24 * s4)| + (|dt * p 1 * d1 - dt * s1| + |dt ^ (1 + 1) * p 2 * d2 - dt ^ (1 + 1) * (1/2) * s2| +
        |dt ^ (2 + 1) * p 3 * d3 - dt ^ (2 + 1) * (1/6) * s3| + |dt ^ (3 + 1) * p 4 * d4 - dt ^ (3 + 1) * (1/24) * s4| + |dt ^ 5 * p 5 * d5|) := by
    have : v1 - (v0 + dt * p 1 * d1 + dt ^ 2 * p 2 * d2 + dt ^ 3 * p 3 * d3 + dt ^ 4 * p 4 * d4 + dt ^ 5 * p 5 * d5) = (v1 - (v0 + dt * s1 + dt ^ 2 / 2 * s2 + dt ^ 3 / 6 * s3 + dt ^ 4 / 24 * s4))
        - ((dt * p 1 * d1 - dt * s1) + (dt ^ (1 + 1) * p 2 * d2 - dt ^ (1 + 1) * (1/2) * s2) + (dt ^ (2 + 1) * p 3 * d3 - dt ^ (2 + 1) * (1/6) * s3) + (dt ^ (3 + 1) * p 4 * d4 - dt ^ (3 + 1) * (1/24) * s4) + dt ^ 5 * p 5 * d5) := by ring
    rw [this]
    refine (abs_sub _ _).trans (add_le_add le_rfl ((abs_add_le _ _).trans (add_le_add ((abs_add_le _ _).trans (add_le_add ((abs_add_le _ _).trans (add_le_add (abs_add_le _ _) le_rfl)) le_rfl)) le_rfl)))
  refine tri.trans ?_
  obtain ⟨H, hH⟩ : ∃ H, H = h ^ (2 * m) := ⟨_, rfl⟩
  rw [← hH] at T1 T2 T3 T4 hp' ⊢
  have k1 := hC0 (1, i); have k2 := hC0 (2, i); have k3 := hC0 (3, i); have k4 := hC0 (4, i); have k5 := hC0 (5, i)
  have l5 := hB0 (5, i)
  simp only [hG]
  generalize C (1, i) = C1 at *
  generalize C (2, i) = C2 at *
  generalize C (3, i) = C3 at *
  generalize C (4, i) = C4 at *
  generalize C (5, i) = C5 at *
  generalize B (5, i) = B5 at *
  have rest : 0 ≤ dt * ((C5 + B5 + B5) * H + (2 * C1 + 2 * C2 + 2 * C3 + 2 * C4) * dt ^ 4) := by positivity
  have hs : dt * ((|s1| + |s2| + |s3| + |s4|) * η) ≤ dt * (S * η) := mul_le_mul_of_nonneg_left (mul_le_mul_of_nonneg_right hSd hη.1) hdt0
  linarith [show dt * ((2 * C1 + 2 * C2 + 2 * C3 + 2 * C4 + C5 + B5 + B5) * (dt ^ 4 + H) + S * η) =
    B5 * (dt * dt ^ 4) + dt * (2 * C1 * H) + dt * (2 * C2 * H) + dt * (2 * C3 * H) + dt * (2 * C4 * H) + dt * ((C5 + B5) * dt ^ 4)
    + dt * ((C5 + B5 + B5) * H + (2 * C1 + 2 * C2 + 2 * C3 + 2 * C4) * dt ^ 4) + dt * (S * η) by ring,
    show dt * (2 * C1 * H + |s1| * η) + dt * (2 * C2 * H + |s2| * η) + dt * (2 * C3 * H + |s3| * η) + dt * (2 * C4 * H + |s4| * η) =
      dt * (2 * C1 * H) + dt * (2 * C2 * H) + dt * (2 * C3 * H) + dt * (2 * C4 * H) + dt * ((|s1| + |s2| + |s3| + |s4|) * η) by ring]

end OpenSBLI.Order
