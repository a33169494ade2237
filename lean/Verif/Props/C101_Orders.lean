import Verif.Model.Orders
import Verif.Props.C06_C08_Eno
import Verif.Props.C11_C13_Teno
import Verif.Props.C18_C20_Central
import Verif.Props.C05_SSP
import Mathlib.Tactic.NormNum
import Mathlib.Tactic.FieldSimp

/-!
# C101: the order a scheme is asked for

For every integer: is the request accepted, and does the formula which is built have that order? Orders are defined here, apart from the model, by the
polynomials on which a formula is exact.
-/
namespace OpenSBLI.Orders
open Polynomial Finset
open OpenSBLI.Spec (cellAverage Tableau)
open OpenSBLI.Weno (Side OptimalWeights reconstruction)

/-! ## Specification -/

/-- A formula for the `d`-th derivative, as a function of spacing, samples and grid point, has at least order `n`: it is exact for polynomials of degree below
`n + d` on all uniform grids. -/
def AtLeast (n d : ℕ) (D : ℝ → (ℤ → ℝ) → ℤ → ℝ) : Prop :=
  ∀ P : ℝ[X], P.natDegree < n + d → ∀ x₀ h : ℝ, h ≠ 0 → ∀ x : ℤ, D h (fun i => P.eval (x₀ + i*h)) x = ((derivative^[d]) P).eval (x₀ + x*h)

/-- It has order `n` and no more. -/
def HasOrder (n d : ℕ) (D : ℝ → (ℤ → ℝ) → ℤ → ℝ) : Prop := AtLeast n d D ∧ ¬ AtLeast (n+1) d D

/-- A formula for the value at an interface from the averages of cells has at least order `n`. -/
def ReconAtLeast (n : ℕ) (R : (ℤ → ℝ) → ℝ) : Prop := ∀ P : ℝ[X], P.natDegree < n → ∀ x h : ℝ, h ≠ 0 → R (cellAverage P x h) = P.eval x

/-- It has order `n` and no more. -/
def ReconHasOrder (n : ℕ) (R : (ℤ → ℝ) → ℝ) : Prop := ReconAtLeast n R ∧ ¬ ReconAtLeast (n+1) R

/-! ## Formulas on sets of points -/

theorem weightOn_exact (pts : Finset ℤ) (d : ℕ) (q : ℝ[X]) (hq : q.natDegree < #pts) :
    ∑ p ∈ pts, weightOn pts d p * q.eval (p:ℝ) = ((derivative^[d]) q).eval 0 := by
  have hdeg : q.degree < #pts := lt_of_le_of_lt degree_le_natDegree (by exact_mod_cast hq)
  have h := Lagrange.eq_interpolate (s := pts) (v := fun i : ℤ => (i:ℝ)) (fun _ _ _ _ h => Int.cast_injective (α := ℝ) h) hdeg
  conv_rhs => rw [h]
  rw [Lagrange.interpolate_apply, iterate_derivative_sum, eval_finsetSum]
  refine sum_congr rfl fun p _ => ?_
  rw [iterate_derivative_C_mul, eval_mul, eval_C, mul_comm]
  rfl

theorem formulaOn_exact (pts : Finset ℤ) (d : ℕ) (P : ℝ[X]) (hP : P.natDegree < #pts) (x₀ h : ℝ) (hh : h ≠ 0) (x : ℤ) :
    formulaOn pts d h (fun i => P.eval (x₀ + i*h)) x = ((derivative^[d]) P).eval (x₀ + x*h) := by
  set q := P.comp (C (x₀ + x*h) + C h * X) with hq
  have hdeg : q.natDegree < #pts := by
    rw [hq, natDegree_comp]
    have : (C (x₀ + x*h) + C h * X : ℝ[X]).natDegree ≤ 1 := by
      refine (natDegree_add_le _ _).trans (max_le (by rw [natDegree_C]; exact zero_le_one) ?_)
      exact (natDegree_C_mul_le _ _).trans natDegree_X_le
    calc P.natDegree * _ ≤ P.natDegree * 1 := Nat.mul_le_mul_left _ this
      _ < _ := by omega
  have h1 := weightOn_exact pts d q hdeg
  unfold formulaOn
  have h2 : ∑ p ∈ pts, weightOn pts d p * P.eval (x₀ + ((x+p:ℤ):ℝ)*h) = ∑ p ∈ pts, weightOn pts d p * q.eval (p:ℝ) := by
    refine sum_congr rfl fun p _ => ?_
    rw [hq, eval_comp]
    simp only [eval_add, eval_C, eval_mul, eval_X]
    congr 2
    push_cast
    ring
  rw [h2, h1, hq, Central.iterate_derivative_comp_affine]
  simp only [eval_mul, eval_C, eval_comp, eval_add, eval_X, mul_zero, add_zero]
  field_simp

/-- A polynomial which vanishes on all points and has a nonzero derivative at the origin bounds the order. -/
theorem not_atLeast (pts : Finset ℤ) (n d : ℕ) (P : ℝ[X]) (hn : P.natDegree < n + d) (hz : ∀ p ∈ pts, P.eval (p:ℝ) = 0) (hd : ((derivative^[d]) P).eval 0 ≠ 0) :
    ¬ AtLeast n d (formulaOn pts d) := by
  intro h
  have := h P hn 0 1 one_ne_zero 0
  simp only [formulaOn, zero_add, mul_one, Int.cast_zero, add_zero] at this
  rw [sum_eq_zero fun p hp => by rw [hz p hp, mul_zero], zero_mul] at this
  exact hd this.symm

/-! ### Polynomials vanishing on the points around the origin -/

/-- The product of `X² - j²` for `j = 1, …, m`. -/
noncomputable def ring2 (m : ℕ) : ℝ[X] := ∏ j ∈ range m, (X^2 - C (((j:ℝ)+1)^2))

theorem ring2_eval_zero (m : ℕ) : (ring2 m).eval 0 ≠ 0 := by
  rw [ring2, eval_prod]
  refine prod_ne_zero_iff.2 fun j _ => ?_
  have : ((j:ℝ)+1) ≠ 0 := by positivity
  simpa using this

theorem ring2_vanishes (m : ℕ) (p : ℤ) (h0 : p ≠ 0) (h1 : -(m:ℤ) ≤ p) (h2 : p ≤ m) : (ring2 m).eval (p:ℝ) = 0 := by
  rw [ring2, eval_prod]
  refine prod_eq_zero (i := p.natAbs - 1) (by rw [mem_range]; omega) ?_
  have h : ((p.natAbs - 1 : ℕ):ℝ) + 1 = |(p:ℝ)| := by
    have : ((p.natAbs - 1 : ℕ):ℤ) + 1 = |p| := by rw [Int.abs_eq_natAbs]; omega
    exact_mod_cast this
  simp [h]

theorem ring2_natDegree (m : ℕ) : (ring2 m).natDegree ≤ 2*m := by
  refine (natDegree_prod_le _ _).trans ?_
  refine (sum_le_card_nsmul _ _ 2 fun j _ => ?_).trans (by simp [mul_comm])
  exact natDegree_X_pow_sub_C.le

theorem ring2_derivative (m : ℕ) : (derivative (ring2 m)).eval 0 = 0 := by
  rw [ring2, derivative_prod_finset, eval_finsetSum]
  exact sum_eq_zero fun j _ => by rw [eval_mul, derivative_sub, derivative_C, derivative_X_pow]; simp

theorem derivative_X_mul (A : ℝ[X]) : (derivative (X * A)).eval 0 = A.eval 0 := by simp

theorem derivative2_X_mul (A : ℝ[X]) : ((derivative^[2]) (X * A)).eval 0 = 2 * (derivative A).eval 0 := by
  simp only [Function.iterate_succ, Function.iterate_zero, Function.comp, id]
  simp; ring

theorem natDegree_X_mul_le (A : ℝ[X]) (n : ℕ) (h : A.natDegree ≤ n) : (X * A).natDegree ≤ n + 1 := by
  refine natDegree_mul_le.trans ?_
  rw [natDegree_X]; omega

theorem natDegree_lin_mul_le (a : ℝ) (A : ℝ[X]) (n : ℕ) (h : A.natDegree ≤ n) : ((X + C a) * A).natDegree ≤ n + 1 := by
  refine natDegree_mul_le.trans ?_
  rw [natDegree_X_add_C]; omega

/-! ### The two shapes of the stencil -/

theorem symmetric_order (m d : ℕ) (hd : d = 1 ∨ d = 2) : HasOrder (2*m) d (formulaOn (Icc (-(m:ℤ)) m) d) := by
  have hcard : #(Icc (-(m:ℤ)) m) = 2*m+1 := by rw [Int.card_Icc]; omega
  have hpts : Icc (-(m:ℤ)) m = Central.points (2*m) := by
    ext p; rw [Central.mem_points, mem_Icc]; omega
  have hz : ∀ p ∈ Icc (-(m:ℤ)) m, (X * ring2 m).eval (p:ℝ) = 0 := by
    intro p hp
    rw [mem_Icc] at hp
    rw [eval_mul, eval_X]
    rcases eq_or_ne p 0 with rfl | h0
    · simp
    · rw [ring2_vanishes m p h0 hp.1 hp.2, mul_zero]
  have hdeg := natDegree_X_mul_le _ _ (ring2_natDegree m)
  refine ⟨?_, ?_⟩
  · intro P hP x₀ h hh x
    rcases hd with rfl | rfl
    · exact formulaOn_exact _ _ P (by omega) x₀ h hh x
    · rcases Nat.eq_zero_or_pos m with rfl | hm
      · have hw : ∀ p ∈ Icc (-((0:ℕ):ℤ)) (0:ℕ), weightOn (Icc (-((0:ℕ):ℤ)) (0:ℕ)) 2 p = 0 := by
          intro p hp
          have : p = 0 := by rw [mem_Icc] at hp; omega
          subst this
          have hs : Icc (-((0:ℕ):ℤ)) (0:ℕ) = {0} := by ext; simp
          rw [weightOn, hs, Lagrange.basis_singleton]
          simp
        rw [formulaOn, sum_eq_zero fun p hp => by rw [hw p hp, zero_mul], zero_mul]
        rw [iterate_derivative_eq_zero (by omega), eval_zero]
      · have := Central.C18_even_exact (K := ℝ) m 2 (by decide) P (by omega) x₀ h hh x (by omega)
        rw [← this]
        simp only [formulaOn, Central.discretise, hpts]
        rfl
  · rcases hd with rfl | rfl
    · refine not_atLeast _ _ 1 (X * ring2 m) (by omega) hz ?_
      rw [Function.iterate_one, derivative_X_mul]
      exact ring2_eval_zero m
    · refine not_atLeast _ _ 2 (X * (X * ring2 m)) ?_ ?_ ?_
      · have := natDegree_X_mul_le _ _ hdeg
        omega
      · intro p hp
        rw [eval_mul, hz p hp, mul_zero]
      · rw [derivative2_X_mul, derivative_X_mul]
        exact mul_ne_zero two_ne_zero (ring2_eval_zero m)

theorem biased_order (m d : ℕ) (hd : d = 1 ∨ d = 2) : HasOrder (2*m+2-d) d (formulaOn (Icc (-((m:ℤ)+1)) m) d) := by
  have hcard : #(Icc (-((m:ℤ)+1)) m) = 2*m+2 := by rw [Int.card_Icc]; omega
  refine ⟨fun P hP x₀ h hh x => formulaOn_exact _ _ P (by omega) x₀ h hh x, ?_⟩
  refine not_atLeast _ _ d (X * ((X + C ((m:ℝ)+1)) * ring2 m)) ?_ ?_ ?_
  · have := natDegree_X_mul_le _ _ (natDegree_lin_mul_le ((m:ℝ)+1) _ _ (ring2_natDegree m))
    omega
  · intro p hp
    rw [mem_Icc] at hp
    simp only [eval_mul, eval_X, eval_add, eval_C]
    rcases eq_or_ne p 0 with rfl | h0
    · simp
    · rcases eq_or_ne p (-((m:ℤ)+1)) with rfl | h1
      · push_cast; ring
      · rw [ring2_vanishes m p h0 (by omega) hp.2]; ring
  · rcases hd with rfl | rfl
    · rw [Function.iterate_one, derivative_X_mul]
      simp only [eval_mul, eval_X, eval_add, eval_C, zero_add]
      exact mul_ne_zero (by positivity) (ring2_eval_zero m)
    · rw [derivative2_X_mul, derivative_mul]
      simp only [eval_add, eval_mul, eval_X, eval_C, zero_add, ring2_derivative, mul_zero, add_zero, derivative_add, derivative_X, derivative_C, one_mul]
      exact mul_ne_zero two_ne_zero (ring2_eval_zero m)

theorem centralPoints_even (py : Python) (m : ℕ) : centralPoints py (2*m) = Icc (-(m:ℤ)) m := by
  ext p
  rw [centralPoints, mem_Ico, mem_Icc]
  cases py
  · simp only [Python.half, Python.halfSucc, Int.fdiv_eq_ediv_of_nonneg _ (show (0:ℤ) ≤ 2 by decide)]; omega
  · simp only [Python.half, Python.halfSucc, Int.neg_tdiv, Int.tdiv_eq_ediv_of_nonneg (show (0:ℤ) ≤ 2*m by omega), Int.tdiv_eq_ediv_of_nonneg (show (0:ℤ) ≤ 2*m+2 by omega)]; omega

theorem centralPoints_odd_two (m : ℕ) : centralPoints .two (2*m+1) = Icc (-((m:ℤ)+1)) m := by
  ext p
  rw [centralPoints, mem_Ico, mem_Icc]
  simp only [Python.half, Python.halfSucc, Int.fdiv_eq_ediv_of_nonneg _ (show (0:ℤ) ≤ 2 by decide)]; omega

theorem centralPoints_odd_three (m : ℕ) : centralPoints .three (2*m+1) = Icc (-(m:ℤ)) m := by
  ext p
  rw [centralPoints, mem_Ico, mem_Icc]
  simp only [Python.half, Python.halfSucc, Int.neg_tdiv, Int.tdiv_eq_ediv_of_nonneg (show (0:ℤ) ≤ 2*m+1 by omega), Int.tdiv_eq_ediv_of_nonneg (show (0:ℤ) ≤ 2*m+1+2 by omega)]; omega

theorem centralPoints_negative (py : Python) (m : ℕ) : centralPoints py (-(m:ℤ)-1) = ∅ := by
  rw [centralPoints, Ico_eq_empty_iff]
  cases py
  · simp only [Python.half, Python.halfSucc, Int.fdiv_eq_ediv_of_nonneg _ (show (0:ℤ) ≤ 2 by decide)]; omega
  · have h1 : (0:ℤ) ≤ (-(-(m:ℤ)-1)).tdiv 2 := Int.tdiv_nonneg (by omega) (by decide)
    have h2 : (-(m:ℤ)-1+2).tdiv 2 ≤ 0 := by
      rcases Nat.eq_zero_or_pos m with rfl | hm
      · decide
      · have : (-(m:ℤ)-1+2) = -((m:ℤ)-1) := by ring
        rw [this, Int.neg_tdiv]
        have : (0:ℤ) ≤ ((m:ℤ)-1).tdiv 2 := Int.tdiv_nonneg (by omega) (by decide)
        omega
    simp only [Python.half, Python.halfSucc]; omega

/-! ## C101, central differences -/

/-- C101: `Central(n)` is accepted exactly for `n ≥ 0`. An even order is met by first and second derivatives, exactly. An odd order is met by first derivatives
in Python 2 only, with a formula that has one point more on the left than on the right; second derivatives, and in Python 3 first derivatives too, have the order below it. -/
theorem C101_central (py : Python) (n : ℤ) (d : ℕ) (hd : d = 1 ∨ d = 2) :
    (n < 0 → central py n d = .error .indexError) ∧
    (0 ≤ n → ∃ D, central py n d = .ok D ∧
      (n % 2 = 0 ∨ py = .two ∧ d = 1 → HasOrder n.toNat d D) ∧
      (n % 2 = 1 ∧ (py = .three ∨ d = 2) → HasOrder (n.toNat - 1) d D)) := by
  refine ⟨fun hn => ?_, fun hn => ?_⟩
  · obtain ⟨m, rfl⟩ : ∃ m : ℕ, n = -(m:ℤ)-1 := ⟨(-n-1).toNat, by omega⟩
    rw [central, centralPoints_negative, if_pos rfl]
  · rcases Int.emod_two_eq_zero_or_one n with h | h
    · obtain ⟨m, rfl⟩ : ∃ m : ℕ, n = 2*(m:ℤ) := ⟨(n/2).toNat, by omega⟩
      refine ⟨formulaOn (centralPoints py (2*m)) d, ?_, fun _ => ?_, fun h' => by omega⟩
      · rw [central, centralPoints_even, if_neg]
        exact (nonempty_Icc.2 (by omega)).ne_empty
      · rw [centralPoints_even, show (2*(m:ℤ)).toNat = 2*m by omega]
        exact symmetric_order m d hd
    · obtain ⟨m, rfl⟩ : ∃ m : ℕ, n = 2*(m:ℤ)+1 := ⟨(n/2).toNat, by omega⟩
      refine ⟨formulaOn (centralPoints py (2*m+1)) d, ?_, ?_, ?_⟩
      · rw [central, if_neg]
        cases py
        · rw [centralPoints_odd_two]; exact (nonempty_Icc.2 (by omega)).ne_empty
        · rw [centralPoints_odd_three]; exact (nonempty_Icc.2 (by omega)).ne_empty
      · rintro (h' | ⟨rfl, rfl⟩)
        · omega
        · rw [centralPoints_odd_two, show (2*(m:ℤ)+1).toNat = 2*m+2-1 by omega]
          exact biased_order m 1 hd
      · rintro ⟨-, h'⟩
        cases py
        · have h2 : d = 2 := by simpa using h'
          subst h2
          rw [centralPoints_odd_two, show (2*(m:ℤ)+1).toNat - 1 = 2*m+2-2 by omega]
          exact biased_order m 2 hd
        · rw [centralPoints_odd_three, show (2*(m:ℤ)+1).toNat - 1 = 2*m by omega]
          exact symmetric_order m d hd

/-- C101: whatever the order and the interpreter, the points of the formula lie in the halos the scheme asks for. -/
theorem C101_central_halos (py : Python) (n : ℤ) (p : ℤ) (hp : p ∈ centralPoints py n) : (centralHalos py n).1 ≤ p ∧ p ≤ (centralHalos py n).2 := by
  have hn : 0 ≤ n := by
    by_contra hn
    obtain ⟨m, rfl⟩ : ∃ m : ℕ, n = -(m:ℤ)-1 := ⟨(-n-1).toNat, by omega⟩
    rw [centralPoints_negative] at hp
    simp at hp
  rw [centralPoints, mem_Ico] at hp
  refine ⟨hp.1, ?_⟩
  cases py
  · simp only [Python.halfSucc] at hp; simp only [centralHalos, Python.half]; omega
  · have h := hp.2
    simp only [Python.halfSucc, Int.tdiv_eq_ediv_of_nonneg (show (0:ℤ) ≤ n+2 by omega)] at h
    simp only [centralHalos, Python.half, Int.tdiv_eq_ediv_of_nonneg hn]; omega

/-! ## C101, WENO -/

theorem cellAverage_derivative (V : ℝ[X]) (n : ℤ) : cellAverage (derivative V) 0 1 n = V.eval (n:ℝ) - V.eval ((n:ℝ)-1) := by
  have : ∫ y in ((n:ℝ)-1)..(n:ℝ), (derivative V).eval y = V.eval (n:ℝ) - V.eval ((n:ℝ)-1) := by
    exact intervalIntegral.integral_eq_sub_of_hasDerivAt (f := fun y => V.eval y) (fun x _ => V.hasDerivAt x) ((derivative V).continuous.intervalIntegrable _ _)
  simp [cellAverage, this]

/-- The linear scheme with `k` stencils has order `2k-1` and no more. -/
theorem weno_linear_order (side : Side) (k : ℕ) (hk : 1 ≤ k) (w : ℕ → ℝ) (hw : OptimalWeights ℝ side k w) : ReconHasOrder (2*k-1) (reconstruction side k w) := by
  refine ⟨fun P hP x h hh => Weno.C07_optimal_reconstruction_exact side k w hw P hP x h hh, fun hc => ?_⟩
  set a : ℝ := match side with | .right => (k:ℝ) | .left => -(k:ℝ) with ha
  have ha0 : a ≠ 0 := by
    have : (k:ℝ) ≠ 0 := by positivity
    rw [ha]; cases side <;> simpa using this
  set V : ℝ[X] := X * ((X + C a) * ring2 (k-1)) with hV
  have hdeg : V.natDegree ≤ 2*k := by
    have := natDegree_X_mul_le _ _ (natDegree_lin_mul_le a _ _ (ring2_natDegree (k-1)))
    rw [hV]; omega
  have hz : ∀ n : ℤ, -(k:ℤ) + side.c ≤ n → n ≤ (k:ℤ) - 1 + side.c → V.eval (n:ℝ) = 0 := by
    intro n h1 h2
    rw [hV]
    simp only [eval_mul, eval_X, eval_add, eval_C]
    rcases eq_or_ne n 0 with rfl | h0
    · simp
    · cases side with
      | right =>
        simp only [Side.c] at h1 h2
        rcases eq_or_ne n (-(k:ℤ)) with rfl | h3
        · rw [ha]; push_cast; ring
        · rw [ring2_vanishes (k-1) n h0 (by omega) (by omega)]; ring
      | left =>
        simp only [Side.c] at h1 h2
        rcases eq_or_ne n (k:ℤ) with rfl | h3
        · rw [ha]; push_cast; ring
        · rw [ring2_vanishes (k-1) n h0 (by omega) (by omega)]; ring
  have h := hc (derivative V) (by have := natDegree_derivative_le V; omega) 0 1 one_ne_zero
  rw [Weno.C07_weights_merge_candidates side k hk w hw] at h
  have h0 : Weno.candidate side (2*k-1) (k-1) (cellAverage (derivative V) 0 1) = 0 := by
    refine sum_eq_zero fun j hj => ?_
    rw [mem_range] at hj
    have e1 : ((Weno.funcPoint side (k-1) j : ℤ):ℝ) - 1 = ((Weno.funcPoint side (k-1) j - 1 : ℤ):ℝ) := by push_cast; ring
    have e2 : ((k-1:ℕ):ℤ) = (k:ℤ) - 1 := by omega
    rw [cellAverage_derivative, e1, hz _ ?_ ?_, hz _ ?_ ?_, sub_zero, mul_zero]
    all_goals rw [Weno.funcPoint, e2]; omega
  rw [h0, hV, derivative_X_mul] at h
  simp only [eval_mul, eval_X, eval_add, eval_C, zero_add] at h
  exact mul_ne_zero ha0 (ring2_eval_zero _) h.symm

/-- C101: a WENO scheme of order `n` is built exactly for `n ≥ 3`, and for WENO-Z `n ≤ 14`, with a formulation written `Z` or `JS` in any case; with the optimal
weights the reconstruction of both sides has order `n` when `n` is odd, and `n - 1` when `n` is even. -/
theorem C101_weno (n : ℤ) (f : String) :
    ((∃ s, weno n f = .ok s) ↔ 3 ≤ n ∧ (f.toUpper = "JS" ∨ f.toUpper = "Z" ∧ n ≤ 14)) ∧
    ∀ form k, weno n f = .ok (form, k) → (form = .Z ↔ f.toUpper = "Z") ∧
      ∀ side w, OptimalWeights ℝ side k w → ReconHasOrder (if n % 2 = 1 then n.toNat else n.toNat - 1) (reconstruction side k w) := by
  have hk : 0 ≤ n → wenoK n = (n+1)/2 := fun h => Int.tdiv_eq_ediv_of_nonneg (by omega)
  have hkn : n < 0 → wenoK n ≤ 0 := by
    intro h
    have e : n + 1 = -(-(n+1)) := by ring
    rw [wenoK, e, Int.neg_tdiv]
    have : (0:ℤ) ≤ (-(n+1)).tdiv 2 := Int.tdiv_nonneg (by omega) (by decide)
    omega
  have hor : n < 0 ∨ 0 ≤ n := by omega
  have hne : ("JS":String) ≠ "Z" := by decide
  refine ⟨?_, ?_⟩
  · by_cases hZ : f.toUpper = "Z"
    · have hJ : f.toUpper ≠ "JS" := by rw [hZ]; exact hne.symm
      simp only [weno, hZ, if_true, true_and]
      constructor
      · rintro ⟨s, hs⟩
        split_ifs at hs with h1 h2
        rcases hor with h | h
        · have := hkn h; omega
        · have := hk h; exact ⟨by omega, Or.inr (by omega)⟩
      · rintro ⟨h3, h4⟩
        have h5 : n ≤ 14 := h4.resolve_left fun e => hne e.symm
        have := hk (by omega)
        rw [if_neg (by omega), if_pos ⟨by omega, by omega⟩]
        exact ⟨_, rfl⟩
    · by_cases hJ : f.toUpper = "JS"
      · simp only [weno, hJ, if_neg hne, if_true, true_or, and_true]
        constructor
        · rintro ⟨s, hs⟩
          split_ifs at hs with h1 h2
          rcases hor with h | h
          · have := hkn h; omega
          · have := hk h; omega
        · intro h3
          have := hk (by omega)
          rw [if_neg (by omega), if_pos (by omega)]
          exact ⟨_, rfl⟩
      · simp [weno, hZ, hJ]
  · intro form k hs
    have key : 2 ≤ wenoK n ∧ k = (wenoK n).toNat ∧ (form = .Z ↔ f.toUpper = "Z") := by
      simp only [weno] at hs
      split_ifs at hs with h1 h2 h3 h4 h5 h6
      · cases hs; exact ⟨h3.1, rfl, by simp [h1]⟩
      · cases hs; exact ⟨h6, rfl, by simp [h1]⟩
    obtain ⟨h2, rfl, hf⟩ := key
    refine ⟨hf, fun side w hw => ?_⟩
    have h0 : 0 ≤ n := by
      rcases hor with h | h
      · have := hkn h; omega
      · exact h
    have := hk h0
    have e : (if n % 2 = 1 then n.toNat else n.toNat - 1) = 2*(wenoK n).toNat - 1 := by
      split_ifs with h <;> omega
    rw [e]
    exact weno_linear_order side _ (by omega) w hw

/-- C101 (finding): an even order silently gives the scheme of the odd order below it, halos included; asking for order 6 gives order 5. -/
theorem C101_weno_even (m : ℕ) (f : String) : weno (2*m+2) f = weno (2*m+1) f ∧ wenoHalos (2*m+2) = wenoHalos (2*m+1) := by
  have h : wenoK (2*(m:ℤ)+2) = wenoK (2*m+1) := by
    rw [wenoK, wenoK, Int.tdiv_eq_ediv_of_nonneg (by omega), Int.tdiv_eq_ediv_of_nonneg (by omega)]; omega
  rw [weno, weno, wenoHalos, wenoHalos, h]
  exact ⟨rfl, rfl⟩

/-! ## C101, TENO and time integration -/

/-- C101: TENO is built for orders 5 and 6 only, and with the optimal weights has one order less than asked for. -/
theorem C101_teno (n : ℤ) :
    ((∃ o, teno n = .ok o) ↔ n = 5 ∨ n = 6) ∧ ∀ o, teno n = .ok o → ∀ side, ReconHasOrder (n.toNat - 1) (Teno.linearScheme o side) := by
  refine ⟨?_, ?_⟩
  · unfold teno
    split_ifs with h1 h2
    · simp [h1]
    · simp [h2]
    · simp [h1, h2]
  · intro o ho side
    unfold teno at ho
    split_ifs at ho with h1 h2
    · cases ho; subst h1
      refine ⟨fun P hP x h hh => Teno.C12_linear_scheme_exact_partial .five side P (by simp only [Teno.exactDegree]; change P.natDegree < 4 at hP; omega) x h hh, fun hc => ?_⟩
      obtain ⟨P, hP, hne⟩ := Teno.C12_five_not_fifth_order side
      exact hne (hc P hP 0 1 one_ne_zero)
    · cases ho; subst h2
      refine ⟨fun P hP x h hh => Teno.C12_linear_scheme_exact_partial .six side P (by simp only [Teno.exactDegree]; change P.natDegree < 5 at hP; omega) x h hh, fun hc => ?_⟩
      obtain ⟨P, hP, hne⟩ := Teno.C12_six_not_sixth_order side
      exact hne (hc P hP 0 1 one_ne_zero)

/-- The tableau of the five stage scheme over the reals. -/
noncomputable def tabReal : Tableau ℝ 5 := ⟨fun i j => ((RK.tabLS4.A i j : ℚ) : ℝ), fun i => ((RK.tabLS4.b i : ℚ) : ℝ)⟩

theorem tabReal_eq : tabReal = RK.lsTab5 (K := ℝ) (-4178904745/10^10) (-1192151694643/10^12) (-1697784692471/10^12) (-1514183444257/10^12)
    (1496590219993/10^13) (3792103129999/10^13) (8229550293869/10^13) (6994504559488/10^13) (1530572479681/10^13) := by
  unfold tabReal RK.tabLS4 RK.lsTab5
  congr 1
  · funext i j
    fin_cases i <;> fin_cases j <;> norm_num
  · funext i
    fin_cases i <;> norm_num

/-- The conditions of order `n` for a method: those of third order exactly, those of fourth order with a defect of `10⁻¹³`. -/
def Meets {s : ℕ} (n : ℤ) (T : Tableau ℝ s) : Prop :=
  (n = 3 → T.Order3) ∧
  (n = 4 → |T.t1| ≤ 1/10^13 ∧ |T.t2| ≤ 1/10^13 ∧ |T.t31| ≤ 1/10^13 ∧ |T.t32| ≤ 1/10^13 ∧ |T.t41| ≤ 1/10^13 ∧ |T.t42| ≤ 1/10^13 ∧ |T.t43| ≤ 1/10^13 ∧ |T.t44| ≤ 1/10^13)

theorem tabReal_meets : Meets 4 tabReal := by
  refine ⟨fun h => absurd h (by decide), fun _ => ?_⟩
  have h : |RK.tabLS4.t1| ≤ 1/10^13 ∧ |RK.tabLS4.t2| ≤ 1/10^13 ∧ |RK.tabLS4.t31| ≤ 1/10^13 ∧ |RK.tabLS4.t32| ≤ 1/10^13 ∧
      |RK.tabLS4.t41| ≤ 1/10^13 ∧ |RK.tabLS4.t42| ≤ 1/10^13 ∧ |RK.tabLS4.t43| ≤ 1/10^13 ∧ |RK.tabLS4.t44| ≤ 1/10^13 := by decide +kernel
  have cast : ∀ (q : ℚ) (r : ℝ), r = (q:ℝ) → |q| ≤ 1/10^13 → |r| ≤ 1/10^13 := by
    rintro q r rfl hq
    have h' : ((|q| : ℚ) : ℝ) ≤ ((1/10^13 : ℚ) : ℝ) := Rat.cast_le.2 hq
    rw [← Rat.cast_abs]
    exact h'.trans (by norm_num)
  obtain ⟨h1, h2, h3, h4, h5, h6, h7, h8⟩ := h
  refine ⟨cast _ _ ?_ h1, cast _ _ ?_ h2, cast _ _ ?_ h3, cast _ _ ?_ h4, cast _ _ ?_ h5, cast _ _ ?_ h6, cast _ _ ?_ h7, cast _ _ ?_ h8⟩
  all_goals
    simp only [Tableau.t1, Tableau.t2, Tableau.t31, Tableau.t32, Tableau.t41, Tableau.t42, Tableau.t43, Tableau.t44, Tableau.c, Tableau.Ac, Tableau.Ac2, Tableau.AAc, tabReal]
    push_cast
    rfl

/-- C101: the three stage scheme is built for order 3 only, and a step of it is a step of an explicit third order method. -/
theorem C101_runge_kutta {V : Type} [AddCommGroup V] [Module ℝ V] (n : ℤ) :
    ((∃ c, rungeKutta n = .ok c) ↔ n = 3) ∧
    ∀ c, rungeKutta n = .ok c → c = (RK.rknew, RK.rkold) ∧ ∃ T : Tableau ℝ 3, T.explicit ∧ Meets n T ∧
      ∀ (F bc : V → V) (dt : ℝ) (s : RK.State V), bc (bc s.new) = bc s.new →
        ∃ k, T.IsSlopes F bc dt (bc s.new) k ∧ (RK.step F bc dt s).new = T.result bc dt (bc s.new) k := by
  unfold rungeKutta
  split_ifs with h
  · subst h
    refine ⟨by simp, fun c hc => ⟨by cases hc; rfl, ?_⟩⟩
    obtain ⟨T, h1, h2, h3⟩ := RK.C03_step_is_third_order_RK (K := ℝ) (V := V)
    exact ⟨T, h1, ⟨fun _ => h2, fun h => absurd h (by decide)⟩, h3⟩
  · refine ⟨by simp [h], fun c hc => by cases hc⟩

/-- C101: the low storage scheme is built for orders 3 and 4 only, and the formulation `SSP` for order 3 only; a step with the coefficients which are set is a step
of an explicit method meeting the conditions of that order. -/
theorem C101_low_storage {V : Type} [AddCommGroup V] [Module ℝ V] (n : ℤ) (f : Option String) :
    ((∃ c, rungeKuttaLS n f = .ok c) ↔ n = 3 ∨ n = 4 ∧ f ≠ some "SSP") ∧
    ∀ A B, rungeKuttaLS n f = .ok (A, B) → ∃ (m : ℕ) (T : Tableau ℝ m), T.explicit ∧ Meets n T ∧
      ∀ (F : V → V) (dt : ℝ) (s : RK.LSState V),
        ∃ k, T.IsSlopes F id dt s.u k ∧ (RK.lsStep A B F id dt s).u = T.result id dt s.u k := by
  refine ⟨?_, ?_⟩
  · unfold rungeKuttaLS
    split_ifs with h1 h2 h3 h4
    · simp [h1.1, h1.2]
    · simp [h2]
    · simp [h2]
    · have hf : f ≠ some "SSP" := fun e => h1 ⟨e, h2⟩
      simp [h4, hf]
    · simp [h2, h4]
  · intro A B h
    unfold rungeKuttaLS at h
    split_ifs at h with h1 h2 h3 h4
    · cases h; subst h2
      obtain ⟨T, t1, t2, t3⟩ := RK.C05_ssp_is_third_order_RK (V := V)
      exact ⟨3, T, t1, ⟨fun _ => t2, fun h => absurd h (by decide)⟩, t3⟩
    · cases h; subst h2
      obtain ⟨T, t1, t2, t3⟩ := RK.C05_order3_is_third_order_RK (K := ℝ) (V := V)
      exact ⟨3, T, t1, ⟨fun _ => t2, fun h => absurd h (by decide)⟩, t3⟩
    · cases h; subst h4
      refine ⟨5, tabReal, ?_, tabReal_meets, fun F dt s => ?_⟩
      · rw [tabReal_eq]; exact RK.lsTab5_explicit _ _ _ _ _ _ _ _ _
      · have hA : (RK.lsA4.map fun q : ℚ => (q:ℝ)) = [0, -4178904745/10^10, -1192151694643/10^12, -1697784692471/10^12, -1514183444257/10^12] := by
          simp only [RK.lsA4, List.map_cons, List.map_nil]; push_cast; rfl
        have hB : (RK.lsB4.map fun q : ℚ => (q:ℝ)) = [1496590219993/10^13, 3792103129999/10^13, 8229550293869/10^13, 6994504559488/10^13, 1530572479681/10^13] := by
          simp only [RK.lsB4, List.map_cons, List.map_nil]; push_cast; rfl
        rw [hA, hB, tabReal_eq]
        exact RK.lsStep5_is_RK _ _ _ _ _ _ _ _ _ F dt s

/-- C101 (finding): every formulation but the exact letters `SSP` is ignored; `'ssp'` gives the coefficients without strong stability. -/
theorem C101_formulation_ignored (n : ℤ) (f : String) (hf : f ≠ "SSP") :
    rungeKuttaLS n (some f) = rungeKuttaLS n none ∧ rungeKuttaLS 3 (some "SSP") ≠ rungeKuttaLS 3 none := by
  refine ⟨by simp [rungeKuttaLS, hf], ?_⟩
  simp only [rungeKuttaLS, ne_eq, not_true_eq_false, and_false, if_false, if_true, reduceCtorEq]
  intro h
  have h1 := (Prod.mk.inj (Except.ok.inj h)).2
  simp [RK.sspB, RK.lsB3, RK.sspC] at h1
  norm_num at h1

end OpenSBLI.Orders
