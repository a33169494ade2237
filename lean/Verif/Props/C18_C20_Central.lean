import Verif.Model.Central
import Verif.Props.C03_C05_RungeKutta
import Mathlib.Tactic.FieldSimp
import Mathlib.Tactic.LinearCombination
import Mathlib.Tactic.NormNum
import Mathlib.Algebra.Order.Field.Basic

/-!
# C18, C19, C20: central differences and the skew-symmetric form
-/
namespace OpenSBLI.Central
open Polynomial Finset

set_option linter.unusedSectionVars false

variable {K : Type} [Field K] [CharZero K]

/-! ## C18 -/

theorem mem_points (order : ℕ) (p : ℤ) : p ∈ points order ↔ -((order/2:ℕ):ℤ) ≤ p ∧ p ≤ (order/2:ℕ) := by
  unfold points; rw [mem_Ico]; omega

theorem points_injOn (order : ℕ) : Set.InjOn (fun i : ℤ => (i:K)) (points order) :=
  fun _ _ _ _ h => Int.cast_injective (α := K) h

theorem card_points (order : ℕ) : (points order).card = 2*(order/2) + 1 := by
  unfold points; rw [Int.card_Ico]; omega

theorem iterate_derivative_comp_affine (p : K[X]) (a b : K) (l : ℕ) :
    (derivative^[l]) (p.comp (C a + C b * X)) =
      C (b^l) * ((derivative^[l]) p).comp (C a + C b * X) := by
  induction l with
  | zero => simp
  | succ l ih =>
    rw [Function.iterate_succ_apply', ih, derivative_C_mul, derivative_comp,
      Function.iterate_succ_apply']
    simp only [derivative_add, derivative_C, zero_add, derivative_mul, zero_mul, derivative_X,
      mul_one, pow_succ, C_mul]
    ring

/-- The weights reproduce derivatives of polynomials of low degree at the origin. -/
theorem weights_exact (order d : ℕ) (q : K[X]) (hq : q.natDegree ≤ 2*(order/2)) :
    ∑ p ∈ points order, weight K order d p * q.eval (p:K) = ((derivative^[d]) q).eval 0 := by
  have hdeg : q.degree < #(points order) := by
    rw [card_points]
    exact lt_of_le_of_lt degree_le_natDegree (by exact_mod_cast Nat.lt_succ_of_le hq)
  have h := Lagrange.eq_interpolate (points_injOn (K := K) order) hdeg
  conv_rhs => rw [h]
  rw [Lagrange.interpolate_apply, iterate_derivative_sum, eval_finsetSum]
  refine sum_congr rfl fun p _ => ?_
  rw [iterate_derivative_C_mul, eval_mul, eval_C, mul_comm]
  rfl

/-- **C18.** For every even order `2m`, every derivative order `d`, the generated formula
differentiates every polynomial of degree at most `2m` exactly, at every grid point `x`, any grid
origin and any spacing. -/
theorem C18_exact (m d : ℕ) (P : K[X]) (hP : P.natDegree ≤ 2*m) (x₀ h : K) (hh : h ≠ 0) (x : ℤ) :
    discretise (2*m) d h (fun i => P.eval (x₀ + i*h)) x = ((derivative^[d]) P).eval (x₀ + x*h) := by
  set q := P.comp (C (x₀ + x*h) + C h * X) with hq
  have hdeg : q.natDegree ≤ 2*(2*m/2) := by
    rw [hq, natDegree_comp]
    have : (C (x₀ + x*h) + C h * X : K[X]).natDegree ≤ 1 := by
      refine (natDegree_add_le _ _).trans (max_le (by rw [natDegree_C]; exact zero_le_one) ?_)
      exact (natDegree_C_mul_le _ _).trans natDegree_X_le
    calc P.natDegree * _ ≤ (2*m) * 1 := Nat.mul_le_mul hP this
      _ ≤ _ := by omega
  have h1 := weights_exact (2*m) d q hdeg
  unfold discretise
  have h2 : ∑ p ∈ points (2*m), weight K (2*m) d p * P.eval (x₀ + ((x+p:ℤ):K)*h) =
      ∑ p ∈ points (2*m), weight K (2*m) d p * q.eval (p:K) := by
    refine sum_congr rfl fun p _ => ?_
    rw [hq, eval_comp]
    simp only [eval_add, eval_C, eval_mul, eval_X]
    congr 2
    push_cast
    ring
  rw [h2, h1, hq, iterate_derivative_comp_affine]
  simp only [eval_mul, eval_C, eval_comp, eval_add, eval_X, mul_zero, add_zero]
  field_simp

/-- **C18.** Parity: first derivative weights are antisymmetric, second derivative weights
symmetric. -/
theorem C18_parity (order d : ℕ) (p : ℤ) (hp : p ∈ points order) :
    weight K order d (-p) = (-1)^d * weight K order d p := by
  have hneg : ∀ i, i ∈ points order → -i ∈ points order := by
    intro i hi; rw [mem_points] at *; omega
  have hb : Lagrange.basis (points order) (fun i : ℤ => (i:K)) (-p) =
      (Lagrange.basis (points order) (fun i : ℤ => (i:K)) p).comp (C 0 + C (-1) * X) := by
    have hnd : (Lagrange.basis (points order) (fun i : ℤ => (i:K)) p).natDegree =
        #(points order) - 1 := Lagrange.natDegree_basis (points_injOn order) hp
    have hc : 0 < #(points order) := card_pos.2 ⟨p, hp⟩
    refine eq_of_degrees_lt_of_eval_index_eq (points order) (points_injOn (K := K) order)
      ?_ ?_ ?_
    · rw [Lagrange.degree_basis (points_injOn order) (hneg p hp)]
      exact_mod_cast Nat.sub_lt hc one_pos
    · refine lt_of_le_of_lt degree_le_natDegree ?_
      rw [natDegree_comp, hnd]
      have : (C 0 + C (-1) * X : K[X]).natDegree ≤ 1 := by
        refine (natDegree_add_le _ _).trans (max_le (by rw [natDegree_C]; exact zero_le_one) ?_)
        exact (natDegree_C_mul_le _ _).trans natDegree_X_le
      have : (#(points order) - 1) * (C 0 + C (-1) * X : K[X]).natDegree < #(points order) := by
        calc _ ≤ (#(points order) - 1) * 1 := Nat.mul_le_mul le_rfl this
          _ < _ := by omega
      exact_mod_cast this
    · intro i hi
      have e : (C 0 + C (-1) * X : K[X]).eval (i:K) = ((-i:ℤ):K) := by simp
      rw [eval_comp, e]
      by_cases h : i = -p
      · subst h
        rw [neg_neg, Lagrange.eval_basis_self (v := fun i : ℤ => (i:K)) (points_injOn order) hi,
          Lagrange.eval_basis_self (v := fun i : ℤ => (i:K)) (points_injOn order) hp]
      · rw [Lagrange.eval_basis_of_ne (v := fun i : ℤ => (i:K)) (Ne.symm h) hi,
          Lagrange.eval_basis_of_ne (v := fun i : ℤ => (i:K)) (by omega) (hneg i hi)]
  unfold weight
  rw [hb, iterate_derivative_comp_affine]
  simp

/-- **C18.** The weights of every derivative annihilate constants. -/
theorem C18_annihilates_constants (order d : ℕ) (hd : 1 ≤ d) :
    ∑ p ∈ points order, weight K order d p = 0 := by
  have h := weights_exact (K := K) order d (C 1) (by simp)
  obtain ⟨e, rfl⟩ : ∃ e, d = e + 1 := ⟨d-1, by omega⟩
  rw [Function.iterate_succ_apply] at h
  simpa using h

/-- **C18.** The second derivative formula is exact up to degree `2m+1` (one more than the number of
conditions, by symmetry). -/
theorem C18_even_exact (m d : ℕ) (hd : Even d) (P : K[X]) (hP : P.natDegree ≤ 2*m+1) (x₀ h : K)
    (hh : h ≠ 0) (x : ℤ) (hdm : d ≤ 2*m) :
    discretise (2*m) d h (fun i => P.eval (x₀ + i*h)) x = ((derivative^[d]) P).eval (x₀ + x*h) := by
  -- split off the top monomial centred at the point
  set a := x₀ + x*h with ha
  set c := P.coeff (2*m+1) with hc
  set M : K[X] := C c * (X - C a)^(2*m+1) with hM
  set Q := P - M with hQ
  have hMc : M.coeff (2*m+1) = c := by
    rw [hM, coeff_C_mul]
    have h1 := (monic_X_sub_C a).pow (2*m+1)
    have h2 : ((X - C a)^(2*m+1) : K[X]).natDegree = 2*m+1 := by
      rw [(monic_X_sub_C a).natDegree_pow, natDegree_X_sub_C, mul_one]
    have h3 : ((X - C a)^(2*m+1) : K[X]).coeff (2*m+1) = 1 := by
      have := h1.coeff_natDegree
      rwa [h2] at this
    rw [h3, mul_one]
  have hMd : M.natDegree ≤ 2*m+1 := by
    rw [hM]
    refine (natDegree_C_mul_le _ _).trans ?_
    rw [(monic_X_sub_C a).natDegree_pow, natDegree_X_sub_C, mul_one]
  have hQd : Q.natDegree ≤ 2*m := by
    have h1 : Q.natDegree ≤ 2*m+1 := (natDegree_sub_le _ _).trans (max_le hP hMd)
    have h2 : Q.coeff (2*m+1) = 0 := by rw [hQ, coeff_sub, hMc, ← hc, sub_self]
    by_contra hlt
    have h3 : Q.natDegree = 2*m+1 := by omega
    have h4 : Q.leadingCoeff = 0 := by rw [leadingCoeff, h3, h2]
    rw [leadingCoeff_eq_zero] at h4
    rw [h4, natDegree_zero] at h3
    omega
  have hP' : P = Q + M := by rw [hQ]; ring
  have hQe := C18_exact m d Q hQd x₀ h hh x
  have hMz : ((derivative^[d]) M).eval a = 0 := by
    rw [hM, iterate_derivative_C_mul, iterate_derivative_X_sub_pow]
    simp only [eval_mul, eval_C, nsmul_eq_mul, eval_natCast, eval_pow, eval_sub, eval_X, sub_self]
    rw [zero_pow (by omega), mul_zero, mul_zero]
  have hMs : ∑ p ∈ points (2*m), weight K (2*m) d p * M.eval (x₀ + ((x+p:ℤ):K)*h) = 0 := by
    have e : ∀ p : ℤ, M.eval (x₀ + ((x+p:ℤ):K)*h) = c * ((p:K)*h)^(2*m+1) := by
      intro p
      rw [hM]
      simp only [eval_mul, eval_C, eval_pow, eval_sub, eval_X, ha]
      congr 2
      push_cast; ring
    simp only [e]
    set S := ∑ p ∈ points (2*m), weight K (2*m) d p * (c * ((p:K)*h)^(2*m+1)) with hS
    have hneg : S = -S := by
      conv_lhs => rw [hS]
      rw [hS, ← sum_neg_distrib]
      refine sum_nbij' (fun p => -p) (fun p => -p) ?_ ?_ ?_ ?_ ?_
      · intro p hp; rw [mem_points] at *; omega
      · intro p hp; rw [mem_points] at *; omega
      · intro p _; ring
      · intro p _; ring
      · intro p hp
        rw [C18_parity (2*m) d p hp, hd.neg_one_pow]
        have : (((-p:ℤ):K)*h)^(2*m+1) = -((p:K)*h)^(2*m+1) := by
          push_cast
          rw [neg_mul, Odd.neg_pow ⟨m, rfl⟩]
        rw [this]; ring
    have h2 : (2:K) * S = 0 := by linear_combination hneg
    exact (mul_eq_zero.1 h2).resolve_left two_ne_zero
  unfold discretise at hQe ⊢
  rw [hP']
  simp only [eval_add, mul_add, sum_add_distrib, hMs, add_zero, iterate_map_add, hMz]
  exact hQe

/-- **C18.** All points used lie within the halo declared by the scheme. -/
theorem C18_points_in_halo (order : ℕ) (p : ℤ) (hp : p ∈ points order) :
    (halos order).1 ≤ p ∧ p ≤ (halos order).2 := (mem_points order p).1 hp

/-- Order 4, first derivative: the textbook weights `1/12, -2/3, 0, 2/3, -1/12`. -/
theorem C18_fourth_order_weights : weight K 4 1 1 = 2/3 ∧ weight K 4 1 2 = -1/12 ∧ weight K 4 1 0 = 0 ∧
    weight K 4 1 (-1) = -2/3 ∧ weight K 4 1 (-2) = 1/12 := by
  have hpts : points 4 = {-2, -1, 0, 1, 2} := by decide
  have h1 := weights_exact (K := K) 4 1 X (by simp)
  have h3 := weights_exact (K := K) 4 1 (X^3) (by simp)
  have a1 := C18_parity (K := K) 4 1 1 (by decide)
  have a2 := C18_parity (K := K) 4 1 2 (by decide)
  have a0 := C18_parity (K := K) 4 1 0 (by decide)
  rw [hpts] at h1 h3
  simp [Finset.sum_insert] at h1 h3
  norm_num at a1 a2 a0
  rw [a1, a2] at h1 h3
  have e0 : weight K 4 1 0 = 0 := by
    have : (2:K) * weight K 4 1 0 = 0 := by linear_combination a0
    simpa using this
  have e1 : weight K 4 1 1 = 2/3 := by linear_combination (2/3 : K) * h1 - (1/6 : K) * h3
  have e2 : weight K 4 1 2 = -1/12 := by linear_combination (1/12 : K) * h3 - (1/12 : K) * h1
  refine ⟨e1, e2, e0, ?_, ?_⟩
  · rw [a1, e1]; ring
  · rw [a2, e2]; ring

/-! ## C19 -/

section Periodic
variable {G : Type} [AddCommGroup G] [Fintype G]

/-- Inner product on the grid. -/
def inner' (f g : G → K) : K := ∑ x, f x * g x

/-- The generated expression for `Skew(a*b)` on a periodic grid: half of the difference of the
product plus the two product rule terms (parsing.py 107, each derivative discretised). -/
noncomputable def skewPeriodic (order : ℕ) (delta : K) (e : G) (a b : G → K) (x : G) : K :=
  1/2 * (discretisePeriodic order 1 delta e (fun y => a y * b y) x
    + b x * discretisePeriodic order 1 delta e a x + a x * discretisePeriodic order 1 delta e b x)

theorem sum_shift (e : G) (p : ℤ) (f : G → K) : ∑ x, f (x + p • e) = ∑ x, f x :=
  Fintype.sum_equiv (Equiv.addRight (p • e)) _ _ fun _ => rfl

/-- **C19.** Sums of central first derivatives over a periodic grid vanish (any derivative order at
least one, any grid shape, any data). -/
theorem C19_sum_zero (order d : ℕ) (hd : 1 ≤ d) (delta : K) (e : G) (f : G → K) :
    ∑ x, discretisePeriodic order d delta e f x = 0 := by
  unfold discretisePeriodic
  rw [← sum_mul, sum_comm]
  have : ∀ p ∈ points order, ∑ x, weight K order d p * f (x + p • e) =
      weight K order d p * ∑ x, f x := fun p _ => by rw [← mul_sum, sum_shift]
  rw [sum_congr rfl this, ← sum_mul, C18_annihilates_constants order d hd, zero_mul, zero_mul]

/-- **C19.** The central difference operator is skew-adjoint for odd and self-adjoint for even
derivative orders. -/
theorem C19_adjoint (order d : ℕ) (delta : K) (e : G) (f g : G → K) :
    inner' f (discretisePeriodic order d delta e g) =
      (-1)^d * inner' (discretisePeriodic order d delta e f) g := by
  have expand : ∀ f g : G → K, inner' f (discretisePeriodic order d delta e g) =
      (∑ p ∈ points order, weight K order d p * ∑ x, f x * g (x + p • e)) * (1/delta^d) := by
    intro f g
    unfold inner' discretisePeriodic
    simp only [mul_sum, sum_mul]
    rw [sum_comm]
    exact sum_congr rfl fun p _ => sum_congr rfl fun x _ => by ring
  have hcomm : inner' (discretisePeriodic order d delta e f) g =
      inner' g (discretisePeriodic order d delta e f) := by
    unfold inner'; exact sum_congr rfl fun x _ => mul_comm _ _
  rw [hcomm, expand, expand, ← mul_assoc, mul_sum]
  congr 1
  refine sum_nbij' (fun p => -p) (fun p => -p) ?_ ?_ ?_ ?_ ?_
  · intro p hp; rw [mem_points] at *; omega
  · intro p hp; rw [mem_points] at *; omega
  · intro p _; ring
  · intro p _; ring
  · intro p hp
    rw [C18_parity order d p hp]
    have h1 : ∑ x, g x * f (x + (-p) • e) = ∑ x, f x * g (x + p • e) := by
      rw [← sum_shift e p]
      refine sum_congr rfl fun x _ => ?_
      have : x + p • e + (-p) • e = x := by rw [neg_smul]; abel
      rw [this, mul_comm]
    rw [h1, ← mul_assoc, ← mul_assoc, ← mul_pow]
    norm_num

/-- **C19.** The discretised skew-symmetric form is conservative: its sum over a periodic grid
vanishes, for any two fields. -/
theorem C19_skew_conservative (order : ℕ) (delta : K) (e : G) (a b : G → K) :
    ∑ x, skewPeriodic order delta e a b x = 0 := by
  have h1 := C19_sum_zero order 1 le_rfl delta e (fun y => a y * b y)
  have h2 := C19_adjoint order 1 delta e a b
  unfold inner' at h2
  unfold skewPeriodic
  rw [← mul_sum, sum_add_distrib, sum_add_distrib, h1, h2]
  have : ∑ x, b x * discretisePeriodic order 1 delta e a x =
      ∑ x, discretisePeriodic order 1 delta e a x * b x := sum_congr rfl fun x _ => mul_comm _ _
  rw [this]; ring

/-- **C19.** Quadratic invariant: for a convective term `sum_d Skew(phi*u_d, x_d)` in any number of
directions, the production of `phi^2/2` only comes from the discrete divergence of `u`; it vanishes
for a discretely divergence free velocity. -/
theorem C19_skew_energy {D : ℕ} (order : ℕ) (delta : Fin D → K) (e : Fin D → G) (phi : G → K)
    (u : Fin D → G → K) :
    ∑ x, phi x * ∑ d, skewPeriodic order (delta d) (e d) phi (u d) x =
      1/2 * ∑ x, phi x ^ 2 * ∑ d, discretisePeriodic order 1 (delta d) (e d) (u d) x := by
  have key : ∀ d, ∑ x, phi x * skewPeriodic order (delta d) (e d) phi (u d) x =
      1/2 * ∑ x, phi x ^ 2 * discretisePeriodic order 1 (delta d) (e d) (u d) x := by
    intro d
    have h := C19_adjoint order 1 (delta d) (e d) phi (fun y => phi y * u d y)
    unfold inner' at h
    unfold skewPeriodic
    have e1 : ∀ x, phi x * (1/2 * (discretisePeriodic order 1 (delta d) (e d)
        (fun y => phi y * u d y) x + u d x * discretisePeriodic order 1 (delta d) (e d) phi x
        + phi x * discretisePeriodic order 1 (delta d) (e d) (u d) x)) =
        1/2 * (phi x * discretisePeriodic order 1 (delta d) (e d) (fun y => phi y * u d y) x)
        + 1/2 * (discretisePeriodic order 1 (delta d) (e d) phi x * (phi x * u d x))
        + 1/2 * (phi x ^ 2 * discretisePeriodic order 1 (delta d) (e d) (u d) x) := by
      intro x; ring
    simp only [e1, sum_add_distrib, ← mul_sum]
    rw [h]; ring
  simp only [mul_sum]
  rw [sum_comm]
  conv_rhs => rw [sum_comm]
  refine sum_congr rfl fun d _ => ?_
  rw [key d, mul_sum]

theorem C19_skew_energy_conserved {D : ℕ} (order : ℕ) (delta : Fin D → K) (e : Fin D → G)
    (phi : G → K) (u : Fin D → G → K)
    (hdiv : ∀ x, ∑ d, discretisePeriodic order 1 (delta d) (e d) (u d) x = 0) :
    ∑ x, phi x * ∑ d, skewPeriodic order (delta d) (e d) phi (u d) x = 0 := by
  rw [C19_skew_energy]
  simp [hdiv]

/-- The total of a field as a linear functional. -/
def totalLin : (G → K) →ₗ[K] K where
  toFun q := ∑ x, q x
  map_add' q r := by simp [sum_add_distrib]
  map_smul' a q := by simp [mul_sum]

/-- **C19.** A transport equation `q_t = - sum_d Skew(a_d(q) b_d(q), x_d) - sum_d D_d c_d(q)`
discretised with central differences on a periodic grid keeps its total for any number of steps of
the default Runge-Kutta scheme, for arbitrary field valued functions `a`, `b`, `c` of the
solution. -/
theorem C19_periodic_conservation {D : ℕ} (order : ℕ) (delta : Fin D → K) (e : Fin D → G)
    (a b c : Fin D → (G → K) → G → K) (dt : K) (m : ℕ) (s : RK.State (G → K)) :
    ∑ x, (RK.run (fun q x => -(∑ d, skewPeriodic order (delta d) (e d) (a d q) (b d q) x)
        - ∑ d, discretisePeriodic order 1 (delta d) (e d) (c d q) x) id dt m s).new x =
      ∑ x, s.new x := by
  refine RK.C04_linear_invariants _ id dt totalLin (fun q => ?_) (fun _ => rfl) m s
  change ∑ x, (-(∑ d, skewPeriodic order (delta d) (e d) (a d q) (b d q) x)
        - ∑ d, discretisePeriodic order 1 (delta d) (e d) (c d q) x) = 0
  rw [sum_sub_distrib, sum_neg_distrib, sum_comm, sum_congr rfl fun d _ =>
    C19_skew_conservative order (delta d) (e d) (a d q) (b d q)]
  conv_lhs => rw [sum_comm]
  rw [sum_congr rfl fun d _ => C19_sum_zero order 1 le_rfl (delta d) (e d) (c d q)]
  simp

/-- A two dimensional 8 by 5 periodic grid is an instance, and on `ℤ/4` the operator is not zero:
the second order derivative of `0,1,0,0` at `0` is `1/2`. -/
example (f g : ZMod 8 × ZMod 5 → ℚ) := C19_adjoint (K := ℚ) 4 1 (1/10) ((1, 0) : ZMod 8 × ZMod 5) f g

end Periodic

/-! ## C20 -/

section SkewForm
variable {A : Type} [CommRing A] [Algebra ℚ A] (D : Derivation ℚ A A) (env : ℕ → A) (F : ℕ → A → A)

/-- **C20.** For a product of two factors and for a single function application the skew-symmetric
form has the value of the conservative derivative, for every derivation (all fields, all
directions).  Missing for the full claim "whenever `Skew` returns": powers and sums, for which it is
false, see below. -/
theorem C20_equivalent_partial (var : E) (out : SkewForm) (h : skew var = some out)
    (hpow : ∀ e n, var ≠ .pow e n) (hadd : ∀ l, var ≠ .add l) :
    out.eval env F D = D (var.eval env F) := by
  cases var with
  | sym n => simp [skew, E.args] at h
  | num q => simp [skew, E.args] at h
  | add l => exact absurd rfl (hadd l)
  | pow e n => exact absurd rfl (hpow e n)
  | fn f e => simp only [skew, E.args, Option.some.injEq] at h; subst h; rfl
  | mul l =>
    match l, h with
    | [a], h => simp only [skew, E.args, Option.some.injEq] at h; subst h; rfl
    | [a, b], h =>
      simp only [skew, E.args, Option.some.injEq] at h
      subst h
      simp only [SkewForm.eval, E.eval, List.map_cons, List.map_nil, List.prod_cons, List.prod_nil,
        mul_one, Derivation.leibniz, smul_eq_mul]
      have e1 : ∀ x : A, algebraMap ℚ A (1/2) * (x + x) = x := by
        intro x
        have : (algebraMap ℚ A (1/2)) * 2 = 1 := by
          have h2 : (2:A) = algebraMap ℚ A 2 := (map_ofNat (algebraMap ℚ A) 2).symm
          rw [h2, ← map_mul]; norm_num
        linear_combination x * this
      rw [add_assoc, add_comm (b.eval env F * _), e1]

/-- **C20.** An error is raised exactly when the argument does not have one or two parts; products
of three or more factors are always rejected. -/
theorem C20_rejected (var : E) : skew var = none ↔ var.args.length ≠ 1 ∧ var.args.length ≠ 2 := by
  unfold skew
  rcases h : var.args with _ | ⟨a, _ | ⟨b, _ | ⟨c, l⟩⟩⟩ <;> simp

theorem C20_three_factors_rejected (l : List E) (h : 3 ≤ l.length) : skew (.mul l) = none :=
  (C20_rejected _).2 ⟨by simp only [E.args]; omega, by simp only [E.args]; omega⟩

/-- A single field is rejected (a SymPy symbol has no arguments), although the code has a branch
meant for it. -/
theorem C20_single_symbol_rejected (n : ℕ) : skew (.sym n) = none := rfl

end SkewForm

/-- **C20, negation of the full claim.** `Skew(u**2, x)` is accepted and treated as the product of
`u` and the exponent: for `u = x` the result is `x + 1` instead of `2x`. -/
theorem C20_power_wrong : ∃ out, skew (.pow (.sym 0) 2) = some out ∧
    out.eval (fun _ => (X : ℚ[X])) (fun _ => id) Polynomial.derivative = X + 1 ∧
    Polynomial.derivative ((E.pow (.sym 0) 2).eval (fun _ => (X : ℚ[X])) (fun _ => id)) = 2 * X := by
  refine ⟨_, rfl, ?_, ?_⟩
  · simp only [SkewForm.eval, E.eval, derivative_pow, derivative_X]
    have h2 : (algebraMap ℚ ℚ[X]) ((2:ℕ):ℚ) = C 2 := rfl
    have h1 : (algebraMap ℚ ℚ[X]) (1/2) = C (1/2) := rfl
    rw [h2, h1, derivative_C]
    have : (C (1/2) : ℚ[X]) * C 2 = 1 := by rw [← C_mul]; norm_num
    simp only [Nat.cast_ofNat, mul_one, mul_zero, add_zero, pow_one, Nat.reduceSub]
    linear_combination (X + 1) * this
  · simp only [E.eval, derivative_pow, derivative_X, Nat.reduceSub, pow_one, mul_one]
    rfl

/-- Likewise `Skew(a + b, x)` is accepted and is not the derivative of the sum: `a = b = x`. -/
theorem C20_sum_wrong : ∃ out, skew (.add [.sym 0, .sym 1]) = some out ∧
    out.eval (fun _ => (X : ℚ[X])) (fun _ => id) Polynomial.derivative ≠
    Polynomial.derivative ((E.add [.sym 0, .sym 1]).eval (fun _ => (X : ℚ[X])) (fun _ => id)) := by
  refine ⟨_, rfl, fun h => ?_⟩
  have h1 : (algebraMap ℚ ℚ[X]) (1/2) = C (1/2) := rfl
  simp only [SkewForm.eval, E.eval, List.map_cons, List.map_nil, List.sum_cons, List.sum_nil,
    add_zero, derivative_add, derivative_X, mul_one, h1] at h
  have := congrArg (fun p => p.eval 0) h
  norm_num at this

/-- The momentum flux `rhou_i*u_j` of the applications. -/
example : ∃ out, skew (.mul [.sym 0, .sym 1]) = some out := ⟨_, rfl⟩

end OpenSBLI.Central
