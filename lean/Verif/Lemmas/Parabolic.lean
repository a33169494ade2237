import Verif.Spec.AdvectionDiffusion
import Verif.Lemmas.Convergence

/-!
# Advection and diffusion on periodic grids, in the maximum norm
-/
namespace OpenSBLI.Order
open Sim
open scoped ContDiff

variable {D n : ℕ} {τ : Type} {np : Fin D → ℤ}

/-! ## The operator on the grid -/

/-- The discretised right hand sides. -/
noncomputable def walk (np : Fin D → ℤ) (order : ℕ) (A K : Fin D → Fin n → ℝ) (δ : E D) : GridSol np n →ₗ[ℝ] GridSol np n where
  toFun w := fun i x => ∑ d, (A d i * ((∑ p ∈ Central.points order, Central.weight ℝ order 1 p * w i (move d p x)) * (1 / δ d ^ 1)) +
    K d i * ((∑ p ∈ Central.points order, Central.weight ℝ order 2 p * w i (move d p x)) * (1 / δ d ^ 2)))
  map_add' v w := by
    funext i x
    simp only [Pi.add_apply, mul_add, Finset.sum_add_distrib, add_mul]
    ring
  map_smul' c w := by
    funext i x
    simp only [Pi.smul_apply, smul_eq_mul, RingHom.id_apply, Finset.mul_sum, Finset.sum_mul]
    refine Finset.sum_congr rfl fun d _ => ?_
    rw [mul_add, Finset.mul_sum, Finset.mul_sum]
    congr 1 <;> exact Finset.sum_congr rfl fun p _ => by ring

theorem walk_apply (order : ℕ) (A K : Fin D → Fin n → ℝ) (δ : E D) (w : GridSol np n) (i : Fin n) (x : GP np) :
    walk np order A K δ w i x = ∑ d, (A d i * ((∑ p ∈ Central.points order, Central.weight ℝ order 1 p * w i (move d p x)) * (1 / δ d ^ 1)) +
      K d i * ((∑ p ∈ Central.points order, Central.weight ℝ order 2 p * w i (move d p x)) * (1 / δ d ^ 2))) := rfl

/-- Differences of second order in terms of the two neighbours. -/
theorem walk_two (A K : Fin D → Fin n → ℝ) (δ : E D) (w : GridSol np n) (i : Fin n) (x : GP np) :
    walk np 2 A K δ w i x = ∑ d, (A d i * ((w i (move d 1 x) - w i (move d (-1) x)) / (2 * δ d)) + K d i * ((w i (move d 1 x) - 2 * w i x + w i (move d (-1) x)) / δ d ^ 2)) := by
  have hpts : Central.points 2 = {-1, 0, 1} := by decide
  have m0 : ∀ d, move d 0 x = x := fun d => by
    apply Subtype.ext
    simp only [move, add_zero]
    rw [Int.emod_eq_of_lt (x.2 d).1 (x.2 d).2, Function.update_eq_self]
  have a0 := Central.weights_exact (K := ℝ) 2 1 1 (by simp)
  have a1 := Central.weights_exact (K := ℝ) 2 1 Polynomial.X (by simp)
  have a2 := Central.weights_exact (K := ℝ) 2 1 (Polynomial.X ^ 2) (by simp)
  have b0 := Central.weights_exact (K := ℝ) 2 2 1 (by simp)
  have b1 := Central.weights_exact (K := ℝ) 2 2 Polynomial.X (by simp)
  have b2 := Central.weights_exact (K := ℝ) 2 2 (Polynomial.X ^ 2) (by simp)
  rw [hpts] at a0 a1 a2 b0 b1 b2
  simp [Finset.sum_insert] at a0 a1 a2 b0 b1 b2
  have e1 : Central.weight ℝ 2 1 1 = 1 / 2 := by linarith
  have e2 : Central.weight ℝ 2 1 (-1) = -1 / 2 := by linarith
  have e3 : Central.weight ℝ 2 1 0 = 0 := by linarith
  have f1 : Central.weight ℝ 2 2 1 = 1 := by linarith
  have f2 : Central.weight ℝ 2 2 (-1) = 1 := by linarith
  have f3 : Central.weight ℝ 2 2 0 = -2 := by linarith
  rw [walk_apply]
  refine Finset.sum_congr rfl fun d _ => ?_
  rw [hpts]
  simp [Finset.sum_insert]
  rw [e1, e2, e3, f1, f2, f3, m0]
  ring

/-- Values bounded by `b`. -/
def Bounded (b : ℝ) (w : GridSol np n) : Prop := ∀ i x, |w i x| ≤ b

/-- A step of Euler's method is an average within the limits. -/
theorem euler_bounded {A K : Fin D → Fin n → ℝ} {δ : E D} (hδ : ∀ d, 0 < δ d) {dt : ℝ} (hdt : 0 ≤ dt) (hlim : Diffusive A K δ dt) {b : ℝ} {w : GridSol np n} (hw : Bounded b w) :
    Bounded b (w + dt • walk np 2 A K δ w) := by
  intro i x
  have e : (w + dt • walk np 2 A K δ w) i x = (1 - dt * ∑ d, 2 * K d i / δ d ^ 2) * w i x +
      ∑ d, (dt * ((A d i * δ d + 2 * K d i) / (2 * δ d ^ 2)) * w i (move d 1 x) + dt * ((2 * K d i - A d i * δ d) / (2 * δ d ^ 2)) * w i (move d (-1) x)) := by
    show w i x + dt * walk np 2 A K δ w i x = _
    rw [walk_two, sub_mul, one_mul, sub_add_eq_add_sub, Finset.mul_sum, Finset.mul_sum, Finset.sum_mul]
    rw [add_sub_assoc, ← Finset.sum_sub_distrib]
    congr 1
    refine Finset.sum_congr rfl fun d _ => ?_
    have := (hδ d).ne'
    field_simp
    ring
  have pos : ∀ d, 0 ≤ dt * ((A d i * δ d + 2 * K d i) / (2 * δ d ^ 2)) ∧ 0 ≤ dt * ((2 * K d i - A d i * δ d) / (2 * δ d ^ 2)) := by
    intro d
    have h1 := hlim.peclet d i
    have h2 : |A d i * δ d| ≤ 2 * K d i := by rwa [abs_mul, abs_of_pos (hδ d)]
    obtain ⟨h3, h4⟩ := abs_le.1 h2
    have := hδ d
    exact ⟨mul_nonneg hdt (div_nonneg (by linarith) (by positivity)), mul_nonneg hdt (div_nonneg (by linarith) (by positivity))⟩
  have one : 0 ≤ 1 - dt * ∑ d, 2 * K d i / δ d ^ 2 := by linarith [hlim.step i]
  rw [e]
  refine (abs_add_le _ _).trans ?_
  calc |(1 - dt * ∑ d, 2 * K d i / δ d ^ 2) * w i x| + |∑ d, (dt * ((A d i * δ d + 2 * K d i) / (2 * δ d ^ 2)) * w i (move d 1 x) + dt * ((2 * K d i - A d i * δ d) / (2 * δ d ^ 2)) * w i (move d (-1) x))| ≤
      (1 - dt * ∑ d, 2 * K d i / δ d ^ 2) * b + ∑ d, (dt * ((A d i * δ d + 2 * K d i) / (2 * δ d ^ 2)) * b + dt * ((2 * K d i - A d i * δ d) / (2 * δ d ^ 2)) * b) := by
        refine add_le_add ?_ ((Finset.abs_sum_le_sum_abs _ _).trans (Finset.sum_le_sum fun d _ => (abs_add_le _ _).trans (add_le_add ?_ ?_)))
        · rw [abs_mul, abs_of_nonneg one]
          exact mul_le_mul_of_nonneg_left (hw i x) one
        · rw [abs_mul, abs_of_nonneg (pos d).1]
          exact mul_le_mul_of_nonneg_left (hw i _) (pos d).1
        · rw [abs_mul, abs_of_nonneg (pos d).2]
          exact mul_le_mul_of_nonneg_left (hw i _) (pos d).2
    _ = b := by
      rw [sub_mul, one_mul, Finset.mul_sum, Finset.sum_mul]
      have : ∀ d, dt * ((A d i * δ d + 2 * K d i) / (2 * δ d ^ 2)) * b + dt * ((2 * K d i - A d i * δ d) / (2 * δ d ^ 2)) * b = dt * (2 * K d i / δ d ^ 2) * b := fun d => by
        have := (hδ d).ne'
        field_simp
        ring
      rw [Finset.sum_congr rfl fun d _ => this d]
      ring

/-- The step of a third order method for a linear problem. -/
noncomputable def advance (F : GridSol np n →ₗ[ℝ] GridSol np n) (dt : ℝ) (v : GridSol np n) : GridSol np n := v + dt • F v + (dt ^ 2 / 2) • F (F v) + (dt ^ 3 / 6) • F (F (F v))

theorem advance_sub (F : GridSol np n →ₗ[ℝ] GridSol np n) (dt : ℝ) (v w : GridSol np n) : advance F dt (v - w) = advance F dt v - advance F dt w := by
  simp only [advance, map_sub, smul_sub]
  abel

/-- It is an average of steps of Euler's method of the same size: `1 + z + z²/2 + z³/6 = 1/3 + (1 + z)/2 + (1 + z)³/6`. -/
theorem advance_bounded {A K : Fin D → Fin n → ℝ} {δ : E D} (hδ : ∀ d, 0 < δ d) {dt : ℝ} (hdt : 0 ≤ dt) (hlim : Diffusive A K δ dt) {b : ℝ} {w : GridSol np n} (hw : Bounded b w) :
    Bounded b (advance (walk np 2 A K δ) dt w) := by
  set F := walk np 2 A K δ with hF
  have h1 := euler_bounded hδ hdt hlim hw
  have h2 := euler_bounded hδ hdt hlim h1
  have h3 := euler_bounded hδ hdt hlim h2
  rw [← hF] at h1 h2 h3
  have e : advance F dt w = (1 / 3 : ℝ) • w + (1 / 2 : ℝ) • (w + dt • F w) + (1 / 6 : ℝ) • (w + dt • F w + dt • F (w + dt • F w) + dt • F (w + dt • F w + dt • F (w + dt • F w))) := by
    simp only [advance, map_add, map_smul]
    module
  rw [e]
  intro i x
  have b0 := abs_le.1 (hw i x)
  have b1 := abs_le.1 (h1 i x)
  have b3 := abs_le.1 (h3 i x)
  show |1 / 3 * w i x + 1 / 2 * (w + dt • F w) i x + 1 / 6 * (w + dt • F w + dt • F (w + dt • F w) + dt • F (w + dt • F w + dt • F (w + dt • F w))) i x| ≤ b
  rw [abs_le]
  constructor <;> linarith [b0.1, b0.2, b1.1, b1.2, b3.1, b3.2]

/-- Errors add up. -/
theorem advance_error {A K : Fin D → Fin n → ℝ} {δ : E D} (hδ : ∀ d, 0 < δ d) {dt : ℝ} (hdt : 0 ≤ dt) (hlim : Diffusive A K δ dt) (u v : ℕ → GridSol np n) (ε : ℝ) (N : ℕ)
    (hu : ∀ k, u (k + 1) = advance (walk np 2 A K δ) dt (u k)) (hv : ∀ k, k < N → Bounded ε (v (k + 1) - advance (walk np 2 A K δ) dt (v k))) (h0 : u 0 = v 0) (k : ℕ) (hk : k ≤ N) :
    Bounded (k * ε) (u k - v k) := by
  induction k with
  | zero => intro i x; simp [h0]
  | succ k ih =>
    have h1 := advance_bounded hδ hdt hlim (ih (by omega))
    have h2 := hv k (by omega)
    rw [advance_sub, ← hu] at h1
    intro i x
    have a1 := abs_le.1 (h1 i x)
    have a2 := abs_le.1 (h2 i x)
    simp only [Pi.sub_apply] at a1 a2 ⊢
    push_cast
    rw [abs_le]
    constructor <;> linarith [a1.1, a1.2, a2.1, a2.2]

/-! ## Consistency -/

/-- The right hand sides of the differential equations, in space and time, in space, and discretised. -/
noncomputable def pBoth (A K : Fin D → Fin n → ℝ) (f : Fin n → ℝ × E D → ℝ) : Fin n → ℝ × E D → ℝ := fun i p => ∑ d, (A d i * dv (inSpace d) (f i) p + K d i * dv (inSpace d) (dv (inSpace d) (f i)) p)

noncomputable def pSpace (A K : Fin D → Fin n → ℝ) (u : Fin n → E D → ℝ) : Fin n → E D → ℝ := fun i x => ∑ d, (A d i * ((pd d)^[1] (u i)) x + K d i * ((pd d)^[2] (u i)) x)

noncomputable def pDiff (order : ℕ) (A K : Fin D → Fin n → ℝ) (δ : E D) (u : Fin n → E D → ℝ) : Fin n → E D → ℝ :=
  fun i x => ∑ d, (A d i * formula (centralList order 1) 1 d (δ d) (u i) x + K d i * formula (centralList order 2) 2 d (δ d) (u i) x)

theorem pBoth_smooth (A K : Fin D → Fin n → ℝ) {f : Fin n → ℝ × E D → ℝ} (hf : ∀ i, ContDiff ℝ ∞ (f i)) (i : Fin n) : ContDiff ℝ ∞ (pBoth A K f i) :=
  ContDiff.sum fun _ _ => (contDiff_const.mul (dv_smooth (hf i) _)).add (contDiff_const.mul (dv_smooth (dv_smooth (hf i) _) _))

theorem pBoth_at (A K : Fin D → Fin n → ℝ) {f : Fin n → ℝ × E D → ℝ} (hf : ∀ i, ContDiff ℝ ∞ (f i)) (t : ℝ) (k : ℕ) :
    (pSpace A K)^[k] (fun j x => f j (t, x)) = fun i x => (pBoth A K)^[k] f i (t, x) := by
  induction k generalizing f with
  | zero => rfl
  | succ k ih =>
    rw [Function.iterate_succ_apply, Function.iterate_succ_apply, ← ih (pBoth_smooth A K hf)]
    congr 1
    funext i x
    simp only [pSpace, pBoth, Function.iterate_succ_apply, Function.iterate_zero, id_eq, pd_dv (hf _), pd_dv (dv_smooth (hf _) _)]

theorem p_time_derivatives (A K : Fin D → Fin n → ℝ) {f : Fin n → ℝ × E D → ℝ} (hf : ∀ i, ContDiff ℝ ∞ (f i)) (heq : ∀ i, dv inTime (f i) = pBoth A K f i) (k : ℕ) (i : Fin n) :
    (dv inTime)^[k] (f i) = (pBoth A K)^[k] f i := by
  induction k generalizing f i with
  | zero => rfl
  | succ k ih =>
    rw [Function.iterate_succ_apply, Function.iterate_succ_apply, heq]
    refine ih (pBoth_smooth A K hf) (fun i => ?_) i
    have s1 := fun d => dv_smooth (hf i) (inSpace d)
    have s2 := fun d => dv_smooth (s1 d) (inSpace d)
    show dv inTime (fun p => ∑ d, (A d i * dv (inSpace d) (f i) p + K d i * dv (inSpace d) (dv (inSpace d) (f i)) p)) = _
    rw [dv_sum _ _ fun d => (contDiff_const.mul (s1 d)).add (contDiff_const.mul (s2 d))]
    funext p
    refine Finset.sum_congr rfl fun d _ => ?_
    rw [dv_add (contDiff_const.mul (s1 d)) (contDiff_const.mul (s2 d)), dv_cmul (s1 d), dv_cmul (s2 d), dv_comm (s1 d), dv_comm (hf i), heq]

theorem pDiff_near {m : ℕ} (hm : 1 ≤ m) (A K : Fin D → Fin n → ℝ) (u : τ → Fin n → E D → ℝ) (hu : ∀ i, Tame fun t => u t i) (k : ℕ) (i : Fin n) :
    Near (2 * m) (fun q : Spacing D × τ => (pDiff (2 * m) A K q.1.δ)^[k] (u q.2) i) fun t => (pSpace A K)^[k] (u t) i := by
  induction k generalizing i with
  | zero => exact near_self (hu i)
  | succ k ih =>
    simp only [Function.iterate_succ_apply']
    exact Near.sum _ fun d => (((ih i).cd hm (.inl rfl) d).cmul _).add (((ih i).cd hm (.inr rfl) d).cmul _)

/-! ## On the grid -/

/-- Sampled fields. -/
noncomputable def sampled (np : Fin D → ℤ) (x₀ δ : E D) (u : Fin n → E D → ℝ) : GridSol np n := fun i x => u i (pos x₀ δ x.1)

theorem pDiff_periodic (order : ℕ) (A K : Fin D → Fin n → ℝ) (δ L : E D) {u : Fin n → E D → ℝ} (hu : Periodic L u) : Periodic L (pDiff order A K δ u) := by
  intro i k x
  simp only [pDiff, formula]
  refine Finset.sum_congr rfl fun d _ => ?_
  have h : ∀ q : ℝ, u i ((x + fun d => (k d : ℝ) * L d) + q • Pi.single d 1) = u i (x + q • Pi.single d 1) := fun q => by rw [add_right_comm, hu i k]
  simp only [h]

theorem formula_move (order k : ℕ) (x₀ δ L : E D) (hL : ∀ d, np d * δ d = L d) {u : Fin n → E D → ℝ} (hu : Periodic L u) (i : Fin n) (x : GP np) (d : Fin D) :
    (∑ p ∈ Central.points order, Central.weight ℝ order k p * sampled np x₀ δ u i (move d p x)) * (1 / δ d ^ k) = formula (centralList order k) k d (δ d) (u i) (pos x₀ δ x.1) := by
  simp only [formula, sampled]
  congr 1
  refine Eq.trans ?_ (centralList_sum order k fun p => u i (pos x₀ δ x.1 + ((p : ℝ) * δ d) • Pi.single d 1)).symm
  refine Finset.sum_congr rfl fun p _ => ?_
  congr 1
  have hk := hu i (Pi.single d ((x.1 d + p) / np d)) (pos x₀ δ (move d p x).1)
  rw [← hk]
  congr 1
  funext e
  by_cases he : e = d
  · subst he
    have h1 := Int.emod_add_mul_ediv (x.1 e + p) (np e)
    have h2 : (((x.1 e + p) % np e : ℤ) : ℝ) + np e * (((x.1 e + p) / np e : ℤ) : ℝ) = x.1 e + p := by exact_mod_cast h1
    simp [pos, move, ← hL]
    linear_combination (δ e) * h2
  · simp [pos, move, he]

theorem walk_sampled (order : ℕ) (A K : Fin D → Fin n → ℝ) (x₀ δ L : E D) (hL : ∀ d, np d * δ d = L d) {u : Fin n → E D → ℝ} (hu : Periodic L u) :
    walk np order A K δ (sampled np x₀ δ u) = sampled np x₀ δ (pDiff order A K δ u) := by
  funext i x
  rw [walk_apply]
  refine Finset.sum_congr rfl fun d _ => ?_
  rw [formula_move order 1 x₀ δ L hL hu, formula_move order 2 x₀ δ L hL hu]

theorem walk_iter (order : ℕ) (A K : Fin D → Fin n → ℝ) (x₀ δ L : E D) (hL : ∀ d, np d * δ d = L d) {u : Fin n → E D → ℝ} (hu : Periodic L u) (k : ℕ) :
    (walk np order A K δ)^[k] (sampled np x₀ δ u) = sampled np x₀ δ ((pDiff order A K δ)^[k] u) := by
  induction k generalizing u with
  | zero => rfl
  | succ k ih => rw [Function.iterate_succ_apply, Function.iterate_succ_apply, walk_sampled order A K x₀ δ L hL hu, ih (pDiff_periodic order A K δ L hu)]

/-- The error of one step from the exact solution. -/
theorem p_local_error {m : ℕ} (hm : 1 ≤ m) (A K : Fin D → Fin n → ℝ) (L : E D) (hLp : ∀ d, 0 < L d) (U : Fin n → ℝ → E D → ℝ) (hU : SolvesParabolic A K L U) (T : ℝ) :
    ∃ C : ℝ, 0 ≤ C ∧ ∀ (np : Fin D → ℤ) (x₀ δ : E D) (h dt t : ℝ), (∀ d, np d * δ d = L d) → (∀ d, 0 < δ d ∧ δ d ≤ h) → 0 ≤ h → h ≤ 1 → 0 ≤ dt → dt ≤ 1 → 0 ≤ t → t + dt ≤ T →
      Bounded (C * (dt * (dt ^ 3 + h ^ (2 * m)))) (sampled np x₀ δ (fun i => U i (t + dt)) - advance (walk np (2 * m) A K δ) dt (sampled np x₀ δ fun i => U i t)) := by
  set f : Fin n → ℝ × E D → ℝ := fun i p => U i p.1 p.2 with hf
  have hsm : ∀ i, ContDiff ℝ ∞ (f i) := hU.smooth
  have heq : ∀ i, dv inTime (f i) = pBoth A K f i := by
    intro i
    funext ⟨t, x⟩
    have h1 := congrFun (deriv_dv (hsm i) x) t
    rw [← h1]
    refine (hU.equation i t x).trans ?_
    simp only [pBoth]
    refine Finset.sum_congr rfl fun d _ => ?_
    have e1 : pd d (U i t) = fun x => dv (inSpace d) (f i) (t, x) := pd_dv (hsm i) d t
    rw [e1, pd_dv (dv_smooth (hsm i) _) d t]
  set u : Set.Icc (0 : ℝ) T → Fin n → E D → ℝ := fun t i x => f i (t, x) with hu
  have htame : ∀ i, Tame fun t => u t i := fun i => joint_tame (hsm i) L hLp (fun t k x => hU.periodic i t k x) T
  have near := fun k i => pDiff_near hm A K u htame k i
  choose C hC0 hC using fun (q : ℕ × Fin n) => (near q.1 q.2).error.bound []
  choose B hB0 hB using fun (i : Fin n) => (near 4 i).dom.bound []
  refine ⟨∑ i, (C (1, i) + C (2, i) + C (3, i) + B i), Finset.sum_nonneg fun i _ => by have := hC0 (1, i); have := hC0 (2, i); have := hC0 (3, i); have := hB0 i; positivity, ?_⟩
  intro np x₀ δ h dt t hL hδ h0 h1 hdt0 hdt1 ht0 htT i x
  have hper : Periodic L fun i => U i t := fun i k x => hU.periodic i t k x
  have it := fun k => walk_iter (np := np) (2 * m) A K x₀ δ L hL hper k
  have i1 := it 1
  have i2 := it 2
  have i3 := it 3
  simp only [Function.iterate_succ_apply, Function.iterate_zero, id_eq] at i1 i2 i3
  set y := pos x₀ δ x.1 with hy
  let sp : Spacing D := ⟨δ, h, fun d => (hδ d).1, fun d => (hδ d).2, h0, h1⟩
  let ts : Set.Icc (0 : ℝ) T := ⟨t, ht0, by linarith⟩
  have e : ∀ k, |(pDiff (2 * m) A K δ)^[k] (fun i => U i t) i y - (pSpace A K)^[k] (fun i => U i t) i y| ≤ C (k, i) * h ^ (2 * m) := fun k => hC (k, i) (sp, ts) y
  have tay := taylor_bound (f := fun s => f i (s, y)) ((hsm i).comp (contDiff_id.prodMk contDiff_const)) 3 t (t + dt) (B i) (by
    intro z hz
    rw [Set.uIcc_of_le (by linarith)] at hz
    rw [iteratedDeriv_dv (hsm i) y, p_time_derivatives A K hsm heq]
    have := hB i (sp, ⟨z, by linarith [hz.1], by linarith [hz.2]⟩) y
    simp only [pds, mul_one, hu, pBoth_at A K hsm] at this
    exact this)
  simp only [add_sub_cancel_left, abs_of_nonneg hdt0, iteratedDeriv_dv (hsm i) y, p_time_derivatives A K hsm heq] at tay
  have es : ∀ k, (pBoth A K)^[k] f i (t, y) = (pSpace A K)^[k] (fun i => U i t) i y := fun k => (congrFun (congrFun (pBoth_at A K hsm t k) i) y).symm
  simp only [es, Finset.sum_range_succ, Finset.sum_range_zero] at tay
  have hval : (sampled np x₀ δ (fun i => U i (t + dt)) - advance (walk np (2 * m) A K δ) dt (sampled np x₀ δ fun i => U i t)) i x =
      U i (t + dt) y - (U i t y + dt * (pDiff (2 * m) A K δ)^[1] (fun i => U i t) i y + dt ^ 2 / 2 * (pDiff (2 * m) A K δ)^[2] (fun i => U i t) i y + dt ^ 3 / 6 * (pDiff (2 * m) A K δ)^[3] (fun i => U i t) i y) := by
    rw [advance, i3, i2, i1]
    rfl
  rw [hval]
  have e1 := e 1
  have e2 := e 2
  have e3 := e 3
  generalize (pDiff (2 * m) A K δ)^[1] (fun i => U i t) i y = d1 at e1 ⊢
  generalize (pDiff (2 * m) A K δ)^[2] (fun i => U i t) i y = d2 at e2 ⊢
  generalize (pDiff (2 * m) A K δ)^[3] (fun i => U i t) i y = d3 at e3 ⊢
  generalize (pSpace A K)^[1] (fun i => U i t) i y = s1 at e1 tay
  generalize (pSpace A K)^[2] (fun i => U i t) i y = s2 at e2 tay
  generalize (pSpace A K)^[3] (fun i => U i t) i y = s3 at e3 tay
  have z0 : (pSpace A K)^[0] (fun i => U i t) i y = U i t y := rfl
  have z1 : f i (t + dt, y) = U i (t + dt) y := rfl
  rw [z0, z1] at tay
  generalize U i t y = v0 at tay ⊢
  generalize U i (t + dt) y = v1 at tay ⊢
  have hp : 0 ≤ h ^ (2 * m) := by positivity
  have b1 : |dt * (d1 - s1)| ≤ C (1, i) * (dt * h ^ (2 * m)) := by
    rw [abs_mul, abs_of_nonneg hdt0]
    nlinarith
  have b2 : |dt ^ 2 / 2 * (d2 - s2)| ≤ C (2, i) * (dt * h ^ (2 * m)) := by
    rw [abs_mul, abs_of_nonneg (by positivity : 0 ≤ dt ^ 2 / 2)]
    calc dt ^ 2 / 2 * |d2 - s2| ≤ dt ^ 2 / 2 * (C (2, i) * h ^ (2 * m)) := mul_le_mul_of_nonneg_left e2 (by positivity)
      _ ≤ dt * (C (2, i) * h ^ (2 * m)) := mul_le_mul_of_nonneg_right (by nlinarith) (mul_nonneg (hC0 _) hp)
      _ = _ := by ring
  have b3 : |dt ^ 3 / 6 * (d3 - s3)| ≤ C (3, i) * (dt * h ^ (2 * m)) := by
    rw [abs_mul, abs_of_nonneg (by positivity : 0 ≤ dt ^ 3 / 6)]
    calc dt ^ 3 / 6 * |d3 - s3| ≤ dt ^ 3 / 6 * (C (3, i) * h ^ (2 * m)) := mul_le_mul_of_nonneg_left e3 (by positivity)
      _ ≤ dt * (C (3, i) * h ^ (2 * m)) := mul_le_mul_of_nonneg_right (by
          have : dt ^ 3 ≤ dt := by calc dt ^ 3 = dt * dt ^ 2 := by ring
            _ ≤ dt * 1 := mul_le_mul_of_nonneg_left (pow_le_one₀ hdt0 hdt1) hdt0
            _ = dt := mul_one _
          linarith) (mul_nonneg (hC0 _) hp)
      _ = _ := by ring
  have b4 : |v1 - (v0 + dt * s1 + dt ^ 2 / 2 * s2 + dt ^ 3 / 6 * s3)| ≤ B i * (dt * dt ^ 3) := by
    norm_num [Nat.factorial] at tay
    have : |v1 - (v0 + dt * s1 + dt ^ 2 / 2 * s2 + dt ^ 3 / 6 * s3)| ≤ B i * dt ^ 4 / 24 := by
      convert tay using 2
      ring
    refine this.trans ?_
    have : 0 ≤ B i * dt ^ 4 := mul_nonneg (hB0 i) (by positivity)
    linarith [show B i * (dt * dt ^ 3) = B i * dt ^ 4 by ring]
  have hsum : C (1, i) + C (2, i) + C (3, i) + B i ≤ ∑ i, (C (1, i) + C (2, i) + C (3, i) + B i) :=
    Finset.single_le_sum (f := fun i => C (1, i) + C (2, i) + C (3, i) + B i) (fun j _ => by have := hC0 (1, j); have := hC0 (2, j); have := hC0 (3, j); have := hB0 j; positivity) (Finset.mem_univ i)
  refine le_trans ?_ (mul_le_mul_of_nonneg_right hsum (by positivity))
  have tri : |v1 - (v0 + dt * d1 + dt ^ 2 / 2 * d2 + dt ^ 3 / 6 * d3)| ≤
      |v1 - (v0 + dt * s1 + dt ^ 2 / 2 * s2 + dt ^ 3 / 6 * s3)| + (|dt * (d1 - s1)| + |dt ^ 2 / 2 * (d2 - s2)| + |dt ^ 3 / 6 * (d3 - s3)|) := by
    have : v1 - (v0 + dt * d1 + dt ^ 2 / 2 * d2 + dt ^ 3 / 6 * d3) = (v1 - (v0 + dt * s1 + dt ^ 2 / 2 * s2 + dt ^ 3 / 6 * s3)) - (dt * (d1 - s1) + dt ^ 2 / 2 * (d2 - s2) + dt ^ 3 / 6 * (d3 - s3)) := by ring
    rw [this]
    refine (abs_sub _ _).trans (add_le_add le_rfl ((abs_add_le _ _).trans (add_le_add (abs_add_le _ _) le_rfl)))
  refine tri.trans ?_
  have c1 : 0 ≤ B i * (dt * h ^ (2 * m)) := mul_nonneg (hB0 i) (by positivity)
  have c2 : 0 ≤ (C (1, i) + C (2, i) + C (3, i)) * (dt * dt ^ 3) := mul_nonneg (by have := hC0 (1, i); have := hC0 (2, i); have := hC0 (3, i); positivity) (by positivity)
  linarith [show (C (1, i) + C (2, i) + C (3, i) + B i) * (dt * (dt ^ 3 + h ^ (2 * m))) =
    C (1, i) * (dt * h ^ (2 * m)) + C (2, i) * (dt * h ^ (2 * m)) + C (3, i) * (dt * h ^ (2 * m)) + B i * (dt * dt ^ 3) + B i * (dt * h ^ (2 * m)) + (C (1, i) + C (2, i) + C (3, i)) * (dt * dt ^ 3) by ring]

end OpenSBLI.Order
