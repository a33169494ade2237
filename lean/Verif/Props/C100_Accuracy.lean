import Verif.Props.C100_Second
import Verif.Lemmas.StretchedSecond

/-!
# C100: the order of second derivatives on stretched grids, and what is lost at sides which are not periodic
-/
namespace OpenSBLI.Sim
open OpenSBLI.Metric (fdValue sdStored Describes)
open OpenSBLI.Stretch (fd1 fd2 Stretching)
open scoped ContDiff

variable {D n : ℕ}

/-- An entry on the diagonal of the inverse of a diagonal matrix. -/
theorem inverse_entry {J : Matrix (Fin D) (Fin D) ℝ} (hdet : J.det ≠ 0) (k : Fin D) (hrow : ∀ j, j ≠ k → J k j = 0) : J⁻¹ k k = (J k k)⁻¹ := by
  have h := congrFun (congrFun (Matrix.mul_nonsing_inv J (Ne.isUnit hdet)) k) k
  rw [Matrix.mul_apply, Finset.sum_eq_single k (fun j _ hj => by rw [hrow j hj, zero_mul]) (fun hk => absurd (Finset.mem_univ k) hk), Matrix.one_apply_eq] at h
  exact eq_inv_of_mul_eq_one_right h

/-- The second derivative in a stretched direction of a grid without curvilinear directions. -/
theorem stretched_eval {cur str : Fin D → Bool} (hcur : ∀ d, cur d = false) (k : Fin D) (hstr : str k = true) (I : Interp D) (m : Mem D) (e : Ex D) (x : P D) :
    (secondTransformed cur str k k e).eval I m x =
      m (.data (metricName k k)) x * (m (.data (metricName k k)) x * I.cd k 2 (e.eval I m) x + m (.data (sdName k k k)) x * I.cd k 1 (e.eval I m) x) := by
  have hz : ∀ l, l ≠ k → fdValue cur str l k = .zero := fun l hl => by simp [fdValue, Metric.m2, hcur, hl]
  have hk : fdValue cur str k k = .stored := by simp [fdValue, Metric.m2, hcur, hstr]
  have hmz : ∀ l, l ≠ k → metricValue cur str m l k x = 0 := fun l hl => by simp [metricValue, hz l hl]
  have hsz : ∀ l, l ≠ k → sdValue cur str m l k k x = 0 := fun l hl => by simp [sdValue, sdStored, hz l hl]
  have hs : sdStored cur str k k k = true := by simp [sdStored, Metric.m2, hcur, hstr, hk]
  rw [secondTransformed_eval, Finset.sum_eq_single k (fun l _ hl => by rw [hmz l hl, zero_mul]) (fun h => absurd (Finset.mem_univ k) h),
    Finset.sum_eq_single k (fun l _ hl => by rw [hmz l hl, hsz l hl, zero_mul, zero_mul, add_zero]) (fun h => absurd (Finset.mem_univ k) h)]
  simp [metricValue, hk, sdValue, hs, secondDiff]

theorem stretched_stored {cur str : Fin D → Bool} (hcur : ∀ d, cur d = false) (k : Fin D) (hstr : str k = true) : fdValue cur str k k = .stored ∧ sdStored cur str k k k = true := by
  have hk : fdValue cur str k k = .stored := by simp [fdValue, Metric.m2, hcur, hstr]
  exact ⟨hk, by simp [sdStored, Metric.m2, hcur, hstr, hk]⟩

section Program
variable {S : Setup D n} {I : Interp D} {delta : Fin D → ℝ}

/-- Differences along a line of the grid of functions of one coordinate. -/
theorem line_first (hI : IsCentral S I delta) (k : Fin D) {u : P D → ℝ} {f : ℝ → ℝ} {x : P D} (hu : ∀ q, |q| ≤ S.h → u (shift x k q) = f (x k * delta k + q * delta k)) :
    I.cd k 1 u x = fd1 S.order (delta k) f (x k * delta k) := by
  rw [central_eval hI, Stretch.fd1_eq, pow_one]
  congr 1
  exact Finset.sum_congr rfl fun q hq => by rw [hu q (points_abs S hq)]

theorem line_second (hI : IsCentral S I delta) (k : Fin D) {u : P D → ℝ} {f : ℝ → ℝ} {x : P D} (hu : ∀ q, |q| ≤ S.h → u (shift x k q) = f (x k * delta k + q * delta k)) :
    I.cd k 2 u x = fd2 S.order (delta k) f (x k * delta k) := by
  rw [central_eval hI]
  simp only [fd2, Central.discretise, zero_add]
  congr 1
  exact Finset.sum_congr rfl fun q hq => by rw [hu q (points_abs S hq)]

end Program

/-- C100: on stretched grids the second derivatives have the order of the scheme. For every stretching `g`, smooth, with slope at least `c` and bounded derivatives, there are a constant and a largest spacing such that, with differences of
order `2p`, coordinate `k` of the grid given by `g`, and values of a smooth function `φ` of that coordinate whose derivatives along the grid are bounded: at the beginning of the time loop, the transformed second derivative in
direction `k` differs from that of `φ` by at most the constant times the power `2p` of the spacing, at every point of a periodic direction and at the points away from the sides of others. -/
theorem C100_accuracy (p : ℕ) (hp1 : 1 ≤ p) {c b : ℝ} {g : ℝ → ℝ} (hg : Stretching p c b g) : ∃ C δ0 : ℝ, 0 < δ0 ∧
    ∀ {S : Setup D n} {M : Metrics2 D} {orig : Fin n → List (Term D)} {I : Interp D} {delta : Fin D → ℝ} {pts : Ranges.Kernel D → List (P D)} {inp : Alg.Input (Call D)} {B : Sol D n → Sol D n} {m : Mem D} {X : Fin D → P D → ℝ},
    OnMapping2 S M orig inp → Enumerates pts → S.order = 2 * p → IsCentral S I delta → (∀ d, M.cur d = false) →
    ∀ k, M.str k = true → 0 < delta k → delta k ≤ δ0 → (∀ y, X k y = g (y k * delta k)) → HoldsCoordinates M.toMetrics S.np S.h X (atStart I pts S.sol B inp m) →
    (∀ y, Describes M.cur M.str (jacobi I X y)) → (∀ y, (jacobi I X y).det ≠ 0) →
    ∀ φ : ℝ → ℝ, ContDiff ℝ ∞ φ → (∀ i ∈ [1, 2, 2 * p + 1, 2 * p + 2], ∀ t, |iteratedDeriv i (fun t => φ (g t)) t| ≤ b) →
    ∀ x, Grid S.np x → ((M.fill k = .periodic ∧ ∀ i, ∃ L : ℝ, ∀ x, X i (shift x k (S.np k)) = X i x + L) ∨ (S.h ≤ x k ∧ x k + S.h < S.np k)) →
    ∀ e : Ex D, (∀ q, |q| ≤ S.h → e.eval I (atStart I pts S.sol B inp m) (shift x k q) = φ (X k (shift x k q))) →
    |(secondTransformed M.cur M.str k k e).eval I (atStart I pts S.sol B inp m) x - iteratedDeriv 2 φ (X k x)| ≤ C * delta k ^ (2 * p) := by
  obtain ⟨C, δ0, hδ0, hC⟩ := Stretch.second_error hp1 hg
  refine ⟨C, δ0, hδ0, fun {S M orig I delta pts inp B m X} hO hp hord hI hcur k hstr hδ hδle hX hH hd hdet φ hφ hb x hx hline e he => ?_⟩
  obtain ⟨_, hmain⟩ := hC (delta k) hδ hδle
  obtain ⟨hst, hsd⟩ := stretched_stored hcur k hstr
  -- the lines of the grid
  have hXl : ∀ (y : P D) (q : ℤ), X k (shift y k q) = g (y k * delta k + q * delta k) := fun y q => by
    rw [hX]; simp only [shift, Function.update_self, Int.cast_add]; rw [add_mul]
  have hJ : ∀ y, (jacobi I X y)⁻¹ k k = (fd1 (2 * p) (delta k) g (y k * delta k))⁻¹ := by
    intro y
    rw [inverse_entry (hdet y) k fun j hj => (hd y).1 k j (Ne.symm hj) (.inl (hcur k))]
    simp only [jacobi, Matrix.of_apply]
    rw [line_first hI k (f := g) fun q _ => hXl y q, hord]
  have hD : atStart I pts S.sol B inp m (.data (metricName k k)) x = (fd1 (2 * p) (delta k) g (x k * delta k))⁻¹ := by
    have := congrFun (congrFun ((C100_second_metrics hO hp (central_local hI) hH (fun y _ => hd y) fun y _ => hdet y).1 x hx) k) k
    rw [hJ] at this
    simpa [metricValue, hst] using this
  have hS : atStart I pts S.sol B inp m (.data (sdName k k k)) x = fd1 (2 * p) (delta k) (fun s => (fd1 (2 * p) (delta k) g s)⁻¹) (x k * delta k) := by
    rw [C100_derivatives hO hp hI hH (fun y _ => hd y) (fun y _ => hdet y) k k k hsd x hx hline, ← hord]
    refine line_first hI k (f := fun s => (fd1 S.order (delta k) g s)⁻¹) fun q _ => ?_
    rw [hJ, hord]
    simp only [shift, Function.update_self, Int.cast_add]
    rw [add_mul]
  have hef : ∀ q, |q| ≤ S.h → e.eval I (atStart I pts S.sol B inp m) (shift x k q) = (fun s => φ (g s)) (x k * delta k + q * delta k) := fun q hq => by
    rw [he q hq, hXl]
  rw [stretched_eval hcur k hstr, hD, hS, line_first hI k (f := fun s => φ (g s)) hef, line_second hI k (f := fun s => φ (g s)) hef, hord, hX x,
    ← Stretch.second_exact hg.smooth hφ (fun t => (hg.pos.trans_le (hg.slope t)).ne') (x k * delta k)]
  exact hmain (fun t => φ (g t)) (hφ.comp hg.smooth) hb _

/-- C100: at sides which are not periodic this is not so. On the grid `x = ξ + a ξ²`, `a > 0`, the transformed second derivative of the coordinate itself, which is zero, is `2a` at the boundary point, whatever the order and however
small the spacing. -/
theorem C100_boundary_inconsistent {n : ℕ} {S : Setup 1 n} {M : Metrics2 1} {orig : Fin n → List (Term 1)} {I : Interp 1} {delta : Fin 1 → ℝ} {pts : Ranges.Kernel 1 → List (P 1)} {inp : Alg.Input (Call 1)} {B : Sol 1 n → Sol 1 n}
    {m : Mem 1} (hO : OnMapping2 S M orig inp) (hp : Enumerates pts) (p : ℕ) (hp1 : 1 ≤ p) (hord : S.order = 2 * p) (hI : IsCentral S I delta) (hcur : M.cur 0 = false) (hstr : M.str 0 = true) (hfill : M.fill 0 = .mirror)
    (hδ : 0 < delta 0) (a : ℝ) (ha : 0 < a)
    (hH : HoldsCoordinates M.toMetrics S.np S.h (fun _ y => y 0 * delta 0 + a * (y 0 * delta 0) ^ 2) (atStart I pts S.sol B inp m)) (hnp : 0 < S.np 0)
    (e : Ex 1) (he : ∀ q, |q| ≤ S.h → e.eval I (atStart I pts S.sol B inp m) (shift (fun _ => 0) 0 q) = (q * delta 0 + a * (q * delta 0) ^ 2)) :
    (secondTransformed M.cur M.str 0 0 e).eval I (atStart I pts S.sol B inp m) (fun _ => 0) = 2 * a := by
  have hcur' : ∀ d, M.cur d = false := fun d => by rw [Subsingleton.elim d 0, hcur]
  obtain ⟨hst, hsd⟩ := stretched_stored hcur' 0 hstr
  set X : Fin 1 → P 1 → ℝ := fun _ y => y 0 * delta 0 + a * (y 0 * delta 0) ^ 2 with hXdef
  -- differences of the coordinate are exact
  set Q : Polynomial ℝ := Polynomial.X + Polynomial.C a * Polynomial.X ^ 2 with hQ
  have hdeg : Q.natDegree ≤ 2 * p := by
    have : Q.natDegree ≤ 2 := by rw [hQ]; compute_degree
    omega
  have hev : ∀ t, Q.eval t = t + a * t ^ 2 := fun t => by simp [hQ]
  have hex : ∀ y : P 1, I.cd 0 1 (X 0) y = 1 + 2 * a * (y 0 * delta 0) := by
    intro y
    have h := Central.C18_exact p 1 Q hdeg 0 (delta 0) hδ.ne' (y 0)
    rw [hI, hord]
    simp only [zero_add, hev] at h
    have hfun : (fun z : ℤ => X 0 (Function.update y 0 z)) = fun z : ℤ => (z : ℝ) * delta 0 + a * ((z : ℝ) * delta 0) ^ 2 := by funext z; simp [hXdef]
    rw [hfun, h]
    simp [hQ]
    ring
  have hpos : ∀ y, Grid S.np y → 0 < I.cd 0 1 (X 0) y := fun y hy => by
    rw [hex]
    have : (0 : ℝ) ≤ y 0 := by exact_mod_cast (hy 0).1
    positivity
  have hdet1 : ∀ y, (jacobi I X y).det = I.cd 0 1 (X 0) y := fun y => by rw [Matrix.det_fin_one]; rfl
  have hd : ∀ y, Grid S.np y → Describes M.cur M.str (jacobi I X y) := fun y _ => ⟨fun i j hij => absurd (Subsingleton.elim i j) hij, fun i _ hi => by rw [Subsingleton.elim i 0, hstr] at hi; cases hi⟩
  have hdet : ∀ y, Grid S.np y → (jacobi I X y).det ≠ 0 := fun y hy => by rw [hdet1]; exact (hpos y hy).ne'
  have hx : Grid S.np (fun _ => 0 : P 1) := fun d => by rw [Subsingleton.elim d 0]; exact ⟨le_rfl, hnp⟩
  have hD : atStart I pts S.sol B inp m (.data (metricName (D := 1) 0 0)) (fun _ => 0) = 1 := by
    have := congrFun (congrFun ((C100_second_metrics hO hp (central_local hI) hH hd hdet).1 _ hx) 0) 0
    rw [inverse_entry (hdet _ hx) 0 fun j hj => absurd (Subsingleton.elim j 0) hj] at this
    simp only [jacobi, Matrix.of_apply] at this
    rw [hex] at this
    simpa [metricValue, hst] using this
  have hS : atStart I pts S.sol B inp m (.data (sdName (0 : Fin 1) 0 0)) (fun _ => 0) = 0 := C100_mirrored hO hp hI hH hd hdet 0 0 0 hsd hfill _ hx (.inl rfl)
  have h2 : I.cd 0 2 (e.eval I (atStart I pts S.sol B inp m)) (fun _ => 0) = 2 * a := by
    rw [central_eval hI]
    have h := Central.C18_exact p 2 Q hdeg 0 (delta 0) hδ.ne' 0
    simp only [zero_add, hev, Central.discretise, Int.cast_zero] at h
    rw [hord, Finset.sum_congr rfl fun q hq => by rw [he q (points_abs S (hord ▸ hq))], h]
    simp [hQ]
    ring
  rw [stretched_eval hcur' 0 hstr, hD, hS, h2]
  ring

end OpenSBLI.Sim
