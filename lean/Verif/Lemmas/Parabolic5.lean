import Verif.Lemmas.Parabolic
import Verif.Lemmas.Convergence5

/-!
# Advection and diffusion with steps of five stages
-/
namespace OpenSBLI.Order
open Sim
open scoped ContDiff

variable {D n : ℕ} {np : Fin D → ℤ}

/-- The step of an explicit five stage method for a linear problem. -/
noncomputable def advance5 (p : ℕ → ℝ) (F : GridSol np n →ₗ[ℝ] GridSol np n) (dt : ℝ) (v : GridSol np n) : GridSol np n :=
  v + (dt * p 1) • F v + (dt ^ 2 * p 2) • F (F v) + (dt ^ 3 * p 3) • F (F (F v)) + (dt ^ 4 * p 4) • F (F (F (F v))) + (dt ^ 5 * p 5) • F (F (F (F (F v))))

theorem advance5_sub (p : ℕ → ℝ) (F : GridSol np n →ₗ[ℝ] GridSol np n) (dt : ℝ) (v w : GridSol np n) : advance5 p F dt (v - w) = advance5 p F dt v - advance5 p F dt w := by
  simp only [advance5, map_sub, smul_sub]
  abel

/-- The polynomial `1 + p₁ z + … + p₅ z⁵` in powers of `1 + z` has no negative coefficients. -/
structure Shares (p : ℕ → ℝ) : Prop where
  b0 : 0 ≤ 1 - p 1 + p 2 - p 3 + p 4 - p 5
  b1 : 0 ≤ p 1 - 2 * p 2 + 3 * p 3 - 4 * p 4 + 5 * p 5
  b2 : 0 ≤ p 2 - 3 * p 3 + 6 * p 4 - 10 * p 5
  b3 : 0 ≤ p 3 - 4 * p 4 + 10 * p 5
  b4 : 0 ≤ p 4 - 5 * p 5
  b5 : 0 ≤ p 5

/-- Such a step is an average of steps of Euler's method. -/
theorem advance5_bounded {p : ℕ → ℝ} (hp : Shares p) {A K : Fin D → Fin n → ℝ} {δ : E D} (hδ : ∀ d, 0 < δ d) {dt : ℝ} (hdt : 0 ≤ dt) (hlim : Diffusive A K δ dt) {b : ℝ} {w : GridSol np n} (hw : Bounded b w) :
    Bounded b (advance5 p (walk np 2 A K δ) dt w) := by
  set F := walk np 2 A K δ with hF
  let G (v : GridSol np n) : GridSol np n := v + dt • F v
  have hG : ∀ v, Bounded b v → Bounded b (G v) := fun v hv => euler_bounded hδ hdt hlim hv
  have h1 := hG _ hw
  have h2 := hG _ h1
  have h3 := hG _ h2
  have h4 := hG _ h3
  have h5 := hG _ h4
  have e : advance5 p F dt w = (1 - p 1 + p 2 - p 3 + p 4 - p 5) • w + (p 1 - 2 * p 2 + 3 * p 3 - 4 * p 4 + 5 * p 5) • G w + (p 2 - 3 * p 3 + 6 * p 4 - 10 * p 5) • G (G w) +
      (p 3 - 4 * p 4 + 10 * p 5) • G (G (G w)) + (p 4 - 5 * p 5) • G (G (G (G w))) + p 5 • G (G (G (G (G w)))) := by
    simp only [advance5, G, map_add, map_smul]
    module
  rw [e]
  intro i x
  have b0 := abs_le.1 (hw i x)
  have b1 := abs_le.1 (h1 i x)
  have b2 := abs_le.1 (h2 i x)
  have b3 := abs_le.1 (h3 i x)
  have b4 := abs_le.1 (h4 i x)
  have b5 := abs_le.1 (h5 i x)
  simp only [Pi.add_apply (f := (_ : GridSol np n)), Pi.add_apply, Pi.smul_apply, smul_eq_mul]
  obtain ⟨s0, s1, s2, s3, s4, s5⟩ := hp
  generalize w i x = y0 at *
  generalize G w i x = y1 at *
  generalize G (G w) i x = y2 at *
  generalize G (G (G w)) i x = y3 at *
  generalize G (G (G (G w))) i x = y4 at *
  generalize G (G (G (G (G w)))) i x = y5 at *
  have up : ∀ c y : ℝ, 0 ≤ c → y ≤ b → c * y ≤ c * b := fun c y hc hy => mul_le_mul_of_nonneg_left hy hc
  have lo : ∀ c y : ℝ, 0 ≤ c → -b ≤ y → c * -b ≤ c * y := fun c y hc hy => mul_le_mul_of_nonneg_left hy hc
  rw [abs_le]
  constructor
  · linarith [lo _ _ s0 b0.1, lo _ _ s1 b1.1, lo _ _ s2 b2.1, lo _ _ s3 b3.1, lo _ _ s4 b4.1, lo _ _ s5 b5.1]
  · linarith [up _ _ s0 b0.2, up _ _ s1 b1.2, up _ _ s2 b2.2, up _ _ s3 b3.2, up _ _ s4 b4.2, up _ _ s5 b5.2]

/-- Errors add up. -/
theorem advance5_error {p : ℕ → ℝ} (hp : Shares p) {A K : Fin D → Fin n → ℝ} {δ : E D} (hδ : ∀ d, 0 < δ d) {dt : ℝ} (hdt : 0 ≤ dt) (hlim : Diffusive A K δ dt) (u v : ℕ → GridSol np n) (ε : ℝ) (N : ℕ)
    (hu : ∀ k, u (k + 1) = advance5 p (walk np 2 A K δ) dt (u k)) (hv : ∀ k, k < N → Bounded ε (v (k + 1) - advance5 p (walk np 2 A K δ) dt (v k))) (h0 : u 0 = v 0) (k : ℕ) (hk : k ≤ N) :
    Bounded (k * ε) (u k - v k) := by
  induction k with
  | zero => intro i x; simp [h0]
  | succ k ih =>
    have h1 := advance5_bounded hp hδ hdt hlim (ih (by omega))
    have h2 := hv k (by omega)
    rw [advance5_sub, ← hu] at h1
    intro i x
    have a1 := abs_le.1 (h1 i x)
    have a2 := abs_le.1 (h2 i x)
    simp only [Pi.sub_apply] at a1 a2 ⊢
    push_cast
    rw [abs_le]
    constructor <;> linarith [a1.1, a1.2, a2.1, a2.2]

/-- The error of one step from the exact solution. -/
theorem p_local_error5 {m : ℕ} (hm : 1 ≤ m) (A K : Fin D → Fin n → ℝ) (L : E D) (hLp : ∀ d, 0 < L d) (U : Fin n → ℝ → E D → ℝ) (hU : SolvesParabolic A K L U) (T : ℝ) :
    ∃ C : ℝ, 0 ≤ C ∧ ∀ (p : ℕ → ℝ) (η S : ℝ), NearExp p η → TimeDerivatives U T S → ∀ (np : Fin D → ℤ) (x₀ δ : E D) (h dt t : ℝ), (∀ d, np d * δ d = L d) → (∀ d, 0 < δ d ∧ δ d ≤ h) → 0 ≤ h → h ≤ 1 → 0 ≤ dt → dt ≤ 1 → 0 ≤ t → t + dt ≤ T →
      Bounded (dt * (C * (dt ^ 4 + h ^ (2 * m)) + S * η)) (sampled np x₀ δ (fun i => U i (t + dt)) - advance5 p (walk np (2 * m) A K δ) dt (sampled np x₀ δ fun i => U i t)) := by
  set f : Fin n → ℝ × E D → ℝ := fun i p => U i p.1 p.2 with hf
  have hsm : ∀ i, ContDiff ℝ ∞ (f i) := hU.smooth
  have heq : ∀ i, dv inTime (f i) = pBoth A K f i := by
    intro i
    funext ⟨t, x⟩
    have h1 := congrFun (deriv_dv (hsm i) x) t
    rw [← h1]
    refine (hU.equation i t x).trans ?_
    simp only [pBoth]
    refine Finset.sum_congr rfl fun d _ => ?_
    have e1 : pd d (U i t) = fun x => dv (inSpace d) (f i) (t, x) := pd_dv (hsm i) d t
    rw [e1, pd_dv (dv_smooth (hsm i) _) d t]
  set u : Set.Icc (0 : ℝ) T → Fin n → E D → ℝ := fun t i x => f i (t, x) with hu
  have htame : ∀ i, Tame fun t => u t i := fun i => joint_tame (hsm i) L hLp (fun t k x => hU.periodic i t k x) T
  have near := fun k i => pDiff_near hm A K u htame k i
  choose C hC0 hC using fun (q : ℕ × Fin n) => (near q.1 q.2).error.bound []
  choose B hB0 hB using fun (q : ℕ × Fin n) => (near q.1 q.2).dom.bound []
  set G : Fin n → ℝ := fun i => 2 * C (1, i) + 2 * C (2, i) + 2 * C (3, i) + 2 * C (4, i) + C (5, i) + B (5, i) + B (5, i) with hG
  have hG0 : ∀ i, 0 ≤ G i := fun i => by
    have := hC0 (1, i); have := hC0 (2, i); have := hC0 (3, i); have := hC0 (4, i); have := hC0 (5, i)
    have := hB0 (5, i)
    simp only [hG]
    positivity
  refine ⟨∑ i, G i, Finset.sum_nonneg fun i _ => hG0 i, ?_⟩
  intro p η S hp hS np x₀ δ h dt t hL hδ h0 h1 hdt0 hdt1 ht0 htT i x
  have hper : Periodic L fun i => U i t := fun i k x => hU.periodic i t k x
  have it := fun k => walk_iter (np := np) (2 * m) A K x₀ δ L hL hper k
  have i1 := it 1
  have i2 := it 2
  have i3 := it 3
  have i4 := it 4
  have i5 := it 5
  simp only [Function.iterate_succ_apply, Function.iterate_zero, id_eq] at i1 i2 i3 i4 i5
  set y := pos x₀ δ x.1 with hy
  let sp : Spacing D := ⟨δ, h, fun d => (hδ d).1, fun d => (hδ d).2, h0, h1⟩
  let ts : Set.Icc (0 : ℝ) T := ⟨t, ht0, by linarith⟩
  have e : ∀ k, |(pDiff (2 * m) A K δ)^[k] (fun i => U i t) i y - (pSpace A K)^[k] (fun i => U i t) i y| ≤ C (k, i) * h ^ (2 * m) := fun k => hC (k, i) (sp, ts) y
  have b : ∀ k, |(pSpace A K)^[k] (fun i => U i t) i y| ≤ B (k, i) := fun k => by
    have := hB (k, i) (sp, ts) y
    simp only [pds, mul_one] at this
    exact this
  have tay := taylor_bound (f := fun s => f i (s, y)) ((hsm i).comp (contDiff_id.prodMk contDiff_const)) 4 t (t + dt) (B (5, i)) (by
    intro z hz
    rw [Set.uIcc_of_le (by linarith)] at hz
    rw [iteratedDeriv_dv (hsm i) y, p_time_derivatives A K hsm heq]
    have := hB (5, i) (sp, ⟨z, by linarith [hz.1], by linarith [hz.2]⟩) y
    simp only [pds, mul_one, hu, pBoth_at A K hsm] at this
    exact this)
  simp only [add_sub_cancel_left, abs_of_nonneg hdt0, iteratedDeriv_dv (hsm i) y, p_time_derivatives A K hsm heq] at tay
  have es : ∀ k, (pBoth A K)^[k] f i (t, y) = (pSpace A K)^[k] (fun i => U i t) i y := fun k => (congrFun (congrFun (pBoth_at A K hsm t k) i) y).symm
  simp only [es, Finset.sum_range_succ, Finset.sum_range_zero] at tay
  have hval : (sampled np x₀ δ (fun i => U i (t + dt)) - advance5 p (walk np (2 * m) A K δ) dt (sampled np x₀ δ fun i => U i t)) i x =
      U i (t + dt) y - (U i t y + dt * p 1 * (pDiff (2 * m) A K δ)^[1] (fun i => U i t) i y + dt ^ 2 * p 2 * (pDiff (2 * m) A K δ)^[2] (fun i => U i t) i y
        + dt ^ 3 * p 3 * (pDiff (2 * m) A K δ)^[3] (fun i => U i t) i y + dt ^ 4 * p 4 * (pDiff (2 * m) A K δ)^[4] (fun i => U i t) i y + dt ^ 5 * p 5 * (pDiff (2 * m) A K δ)^[5] (fun i => U i t) i y) := by
    rw [advance5, i5, i4, i3, i2, i1]
    rfl
  rw [hval]
  have hsum : G i ≤ ∑ i, G i := Finset.single_le_sum (f := G) (fun j _ => hG0 j) (Finset.mem_univ i)
  have hη := hp.small
  have hp' : 0 ≤ h ^ (2 * m) := by positivity
  have hp1 : h ^ (2 * m) ≤ 1 := pow_le_one₀ h0 h1
  refine le_trans ?_ (mul_le_mul_of_nonneg_left (add_le_add (mul_le_mul_of_nonneg_right hsum (by positivity : 0 ≤ dt ^ 4 + h ^ (2 * m))) le_rfl) hdt0)
  have hSd := hS.2 i t y ht0 (by linarith)
  have hsd : ∀ k, iteratedDeriv k (fun s => U i s y) t = (pSpace A K)^[k] (fun i => U i t) i y := fun k => by
    have := congrFun (iteratedDeriv_dv (hsm i) y k) t
    rw [p_time_derivatives A K hsm heq, es] at this
    exact this
  rw [hsd, hsd, hsd, hsd] at hSd
  have T1 := term_bound (dt := dt) 0 hdt0 hdt1 hp.c1 (by norm_num) hη.2 (e 1)
  have T2 := term_bound (dt := dt) 1 hdt0 hdt1 hp.c2 (by norm_num [abs_le]) hη.2 (e 2)
  have T3 := term_bound (dt := dt) 2 hdt0 hdt1 hp.c3 (by norm_num [abs_le]) hη.2 (e 3)
  have T4 := term_bound (dt := dt) 3 hdt0 hdt1 hp.c4 (by norm_num [abs_le]) hη.2 (e 4)
  have T5 := last_bound hdt0 hp.c5 (hC0 _) hp1 (e 5) (b 5)
  generalize (pDiff (2 * m) A K δ)^[1] (fun i => U i t) i y = d1 at T1 ⊢
  generalize (pDiff (2 * m) A K δ)^[2] (fun i => U i t) i y = d2 at T2 ⊢
  generalize (pDiff (2 * m) A K δ)^[3] (fun i => U i t) i y = d3 at T3 ⊢
  generalize (pDiff (2 * m) A K δ)^[4] (fun i => U i t) i y = d4 at T4 ⊢
  generalize (pDiff (2 * m) A K δ)^[5] (fun i => U i t) i y = d5 at T5 ⊢
  generalize (pSpace A K)^[1] (fun i => U i t) i y = s1 at T1 tay hSd
  generalize (pSpace A K)^[2] (fun i => U i t) i y = s2 at T2 tay hSd
  generalize (pSpace A K)^[3] (fun i => U i t) i y = s3 at T3 tay hSd
  generalize (pSpace A K)^[4] (fun i => U i t) i y = s4 at T4 tay hSd
  have z0 : (pSpace A K)^[0] (fun i => U i t) i y = U i t y := rfl
  have z1 : f i (t + dt, y) = U i (t + dt) y := rfl
  rw [z0, z1] at tay
  generalize U i t y = v0 at tay ⊢
  generalize U i (t + dt) y = v1 at tay ⊢
  norm_num at T1
  have b4 : |v1 - (v0 + dt * s1 + dt ^ 2 / 2 * s2 + dt ^ 3 / 6 * s3 + dt ^ 4 / 24 * s4)| ≤ B (5, i) * (dt * dt ^ 4) := by
    norm_num [Nat.factorial] at tay
    have : |v1 - (v0 + dt * s1 + dt ^ 2 / 2 * s2 + dt ^ 3 / 6 * s3 + dt ^ 4 / 24 * s4)| ≤ B (5, i) * dt ^ 5 / 120 := by
      convert tay using 2
      ring
    refine this.trans ?_
    have : 0 ≤ B (5, i) * dt ^ 5 := mul_nonneg (hB0 _) (by positivity)
    linarith [show B (5, i) * (dt * dt ^ 4) = B (5, i) * dt ^ 5 by ring]
  have tri : |v1 - (v0 + dt * p 1 * d1 + dt ^ 2 * p 2 * d2 + dt ^ 3 * p 3 * d3 + dt ^ 4 * p 4 * d4 + dt ^ 5 * p 5 * d5)| ≤
      |v1 - (v0 + dt * s1 + dt ^ 2 / 2 * s2 + dt ^ 3 / 6 * s3 + dt ^ 4 / 24 * s4)| + (|dt * p 1 * d1 - dt * s1| + |dt ^ (1 + 1) * p 2 * d2 - dt ^ (1 + 1) * (1/2) * s2| +
        |dt ^ (2 + 1) * p 3 * d3 - dt ^ (2 + 1) * (1/6) * s3| + |dt ^ (3 + 1) * p 4 * d4 - dt ^ (3 + 1) * (1/24) * s4| + |dt ^ 5 * p 5 * d5|) := by
    have : v1 - (v0 + dt * p 1 * d1 + dt ^ 2 * p 2 * d2 + dt ^ 3 * p 3 * d3 + dt ^ 4 * p 4 * d4 + dt ^ 5 * p 5 * d5) = (v1 - (v0 + dt * s1 + dt ^ 2 / 2 * s2 + dt ^ 3 / 6 * s3 + dt ^ 4 / 24 * s4))
        - ((dt * p 1 * d1 - dt * s1) + (dt ^ (1 + 1) * p 2 * d2 - dt ^ (1 + 1) * (1/2) * s2) + (dt ^ (2 + 1) * p 3 * d3 - dt ^ (2 + 1) * (1/6) * s3) + (dt ^ (3 + 1) * p 4 * d4 - dt ^ (3 + 1) * (1/24) * s4) + dt ^ 5 * p 5 * d5) := by ring
    rw [this]
    refine (abs_sub _ _).trans (add_le_add le_rfl ((abs_add_le _ _).trans (add_le_add ((abs_add_le _ _).trans (add_le_add ((abs_add_le _ _).trans (add_le_add (abs_add_le _ _) le_rfl)) le_rfl)) le_rfl)))
  refine tri.trans ?_
  obtain ⟨H, hH⟩ : ∃ H, H = h ^ (2 * m) := ⟨_, rfl⟩
  rw [← hH] at T1 T2 T3 T4 hp' ⊢
  have k1 := hC0 (1, i); have k2 := hC0 (2, i); have k3 := hC0 (3, i); have k4 := hC0 (4, i); have k5 := hC0 (5, i)
  have l5 := hB0 (5, i)
  simp only [hG]
  generalize C (1, i) = C1 at *
  generalize C (2, i) = C2 at *
  generalize C (3, i) = C3 at *
  generalize C (4, i) = C4 at *
  generalize C (5, i) = C5 at *
  generalize B (5, i) = B5 at *
  have rest : 0 ≤ dt * ((C5 + B5 + B5) * H + (2 * C1 + 2 * C2 + 2 * C3 + 2 * C4) * dt ^ 4) := by positivity
  have hs : dt * ((|s1| + |s2| + |s3| + |s4|) * η) ≤ dt * (S * η) := mul_le_mul_of_nonneg_left (mul_le_mul_of_nonneg_right hSd hη.1) hdt0
  linarith [show dt * ((2 * C1 + 2 * C2 + 2 * C3 + 2 * C4 + C5 + B5 + B5) * (dt ^ 4 + H) + S * η) =
    B5 * (dt * dt ^ 4) + dt * (2 * C1 * H) + dt * (2 * C2 * H) + dt * (2 * C3 * H) + dt * (2 * C4 * H) + dt * ((C5 + B5) * dt ^ 4)
    + dt * ((C5 + B5 + B5) * H + (2 * C1 + 2 * C2 + 2 * C3 + 2 * C4) * dt ^ 4) + dt * (S * η) by ring,
    show dt * (2 * C1 * H + |s1| * η) + dt * (2 * C2 * H + |s2| * η) + dt * (2 * C3 * H + |s3| * η) + dt * (2 * C4 * H + |s4| * η) =
      dt * (2 * C1 * H) + dt * (2 * C2 * H) + dt * (2 * C3 * H) + dt * (2 * C4 * H) + dt * ((|s1| + |s2| + |s3| + |s4|) * η) by ring]

end OpenSBLI.Order
