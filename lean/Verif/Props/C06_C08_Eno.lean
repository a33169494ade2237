import Verif.Lemmas.Eno
import Verif.Lemmas.Primitive
import Verif.Spec.CellAverage

/-!
# C06, C07, C08 — ENO coefficients, optimal weights, left/right mirror symmetry
-/
namespace OpenSBLI.Weno
open Finset Interp Spec Polynomial

set_option linter.unusedSectionVars false

variable {K : Type} [Field K] [CharZero K]

/-! ## C06 -/

/-- Exactness on data with a polynomial primitive (any field). -/
theorem candidate_exact (side : Side) (k r : ℕ) (R : K[X]) (hR : R.natDegree ≤ k) :
    candidate side k r (fun n => R.eval (n:K) - R.eval ((n:K) - 1)) = (derivative R).eval 0 := by
  rw [candidate_eq_D side k r _ (fun n => R.eval (n:K))]
  · exact D_poly (by omega) R (by omega)
  · intro n _ _; push_cast; ring

theorem cellAverage_eq (P : ℝ[X]) (x h : ℝ) (hh : h ≠ 0) (n : ℤ) :
    cellAverage P x h n =
      (C (1/h) * (prim P).comp (C x + C h * X)).eval (n:ℝ) -
      (C (1/h) * (prim P).comp (C x + C h * X)).eval ((n:ℝ) - 1) := by
  unfold cellAverage
  rw [integral_poly]
  simp only [eval_mul, eval_C, eval_comp, eval_add, eval_X]
  rw [mul_comm h, mul_comm h]
  field_simp

/-- **C06.** For every `k`, every candidate stencil `r` and both sides, the candidate reconstruction
applied to the cell averages of any polynomial of degree below `k` on any uniform grid returns the
value of the polynomial at the interface. -/
theorem C06_candidate_exact_on_polynomials (side : Side) (k r : ℕ) (P : ℝ[X])
    (hP : P.natDegree < k) (x h : ℝ) (hh : h ≠ 0) :
    candidate side k r (cellAverage P x h) = P.eval x := by
  have h1 : cellAverage P x h = fun n : ℤ =>
      (C (1/h) * (prim P).comp (C x + C h * X)).eval (n:ℝ) -
      (C (1/h) * (prim P).comp (C x + C h * X)).eval ((n:ℝ) - 1) := by
    funext n; exact cellAverage_eq P x h hh n
  rw [h1, candidate_exact]
  · rw [derivative_C_mul, derivative_comp, derivative_prim]
    simp [hh]
  · refine (natDegree_C_mul_le _ _).trans ?_
    refine natDegree_comp_le.trans ?_
    have e1 : (C x + C h * X).natDegree ≤ 1 := by
      rw [add_comm]; exact natDegree_linear_le
    have e2 := natDegree_prim P
    calc (prim P).natDegree * (C x + C h * X).natDegree ≤ (prim P).natDegree * 1 :=
          Nat.mul_le_mul_left _ e1
      _ ≤ k := by omega

/-- **C06.** Consistency: the coefficients of every candidate sum to one. -/
theorem C06_coefficients_sum_to_one (side : Side) (k r : ℕ) (hk : 1 ≤ k) :
    ∑ j ∈ range k, enoCoeff K side k r j = 1 := by
  have h := candidate_exact (K := K) side k r X (by simpa using hk)
  simpa [candidate] using h

/-! ## C07 -/

/-- Closed form of the optimal weights. -/
def optimal (side : Side) (k r : ℕ) : K :=
  match side with
  | .right => ((k.choose (r+1) * (k-1).choose r : ℕ) : K) / ((2*k-1).choose k : ℕ)
  | .left => ((k.choose r * (k-1).choose r : ℕ) : K) / ((2*k-1).choose k : ℕ)

theorem W_right (k r : ℕ) (hr : r < k) :
    (W k (k-1) (k-1) (k-1-r) : K) = optimal .right k r := by
  obtain ⟨m, rfl⟩ : ∃ m, k = r + m + 1 := ⟨k - r - 1, by omega⟩
  have h1 : r + m + 1 - 1 - r = m := by omega
  have h2 : r + m + 1 - 1 - m = r := by omega
  have h3 : r + m + 1 + (r + m + 1 - 1) = 2 * (r + m + 1) - 1 := by omega
  unfold W optimal
  rw [h1, h2, h3]
  simp only [Nat.add_sub_cancel]
  rw [Nat.descFactorial_eq_factorial_mul_choose, Nat.descFactorial_eq_factorial_mul_choose,
    Nat.descFactorial_eq_factorial_mul_choose]
  have e1 : (r + m + 1).choose m = (r + m + 1).choose (r + 1) := by
    rw [← Nat.choose_symm_of_eq_add (n := r+m+1) (a := m) (b := r+1) (by omega)]
  have e2 : (2 * (r + m + 1) - 1).choose (r + m) = (2 * (r + m + 1) - 1).choose (r + m + 1) :=
    Nat.choose_symm_of_eq_add (by omega)
  have e3 : (r + m).choose m * m.factorial * r.factorial = (r+m).factorial := by
    have := Nat.choose_mul_factorial_mul_factorial (n := r+m) (k := m) (by omega)
    rwa [Nat.add_sub_cancel] at this
  have e4 : ((2 * (r + m + 1) - 1).choose (r + m + 1) : K) ≠ 0 := by
    have : (2 * (r + m + 1) - 1).choose (r + m + 1) ≠ 0 :=
      (Nat.choose_pos (by omega)).ne'
    exact_mod_cast this
  have e5 : ((r+m).factorial : K) ≠ 0 := by exact_mod_cast (Nat.factorial_ne_zero _)
  rw [e1, e2]
  rw [div_eq_div_iff (by push_cast; exact mul_ne_zero e5 e4) e4]
  have e3' : ((r + m).choose m : K) * m.factorial * r.factorial = (r+m).factorial := by
    exact_mod_cast e3
  push_cast
  rw [← e3']
  ring

theorem W_left (k r : ℕ) (hr : r < k) :
    (W (k-1) k (k-1) (k-1-r) : K) = optimal .left k r := by
  obtain ⟨m, rfl⟩ : ∃ m, k = r + m + 1 := ⟨k - r - 1, by omega⟩
  have h1 : r + m + 1 - 1 - r = m := by omega
  have h2 : r + m + 1 - 1 - m = r := by omega
  have h3 : r + m + 1 - 1 + (r + m + 1) = 2 * (r + m + 1) - 1 := by omega
  unfold W optimal
  rw [h1, h2, h3]
  simp only [Nat.add_sub_cancel]
  rw [Nat.descFactorial_eq_factorial_mul_choose, Nat.descFactorial_eq_factorial_mul_choose,
    Nat.descFactorial_eq_factorial_mul_choose]
  have e1 : (r + m).choose m = (r + m).choose r := by
    rw [← Nat.choose_symm_of_eq_add (n := r+m) (a := m) (b := r) (by omega)]
  have e2 : (2 * (r + m + 1) - 1).choose (r + m) = (2 * (r + m + 1) - 1).choose (r + m + 1) :=
    Nat.choose_symm_of_eq_add (by omega)
  have e3 : (r + m).choose m * m.factorial * r.factorial = (r+m).factorial := by
    have := Nat.choose_mul_factorial_mul_factorial (n := r+m) (k := m) (by omega)
    rwa [Nat.add_sub_cancel] at this
  have e4 : ((2 * (r + m + 1) - 1).choose (r + m + 1) : K) ≠ 0 := by
    have : (2 * (r + m + 1) - 1).choose (r + m + 1) ≠ 0 :=
      (Nat.choose_pos (by omega)).ne'
    exact_mod_cast this
  have e5 : ((r+m).factorial : K) ≠ 0 := by exact_mod_cast (Nat.factorial_ne_zero _)
  rw [e2]
  rw [div_eq_div_iff (by push_cast; exact mul_ne_zero e5 e4) e4]
  have e3' : ((r + m).choose m : K) * m.factorial * r.factorial = (r+m).factorial := by
    exact_mod_cast e3
  have e1' : ((r + m).choose m : K) = (r + m).choose r := by exact_mod_cast e1
  push_cast
  rw [← e3', ← e1']
  ring

/-- The closed-form weights merge the candidates into the wide reconstruction. -/
theorem optimal_merges (side : Side) (k : ℕ) (hk : 1 ≤ k) (f : ℤ → K) :
    ∑ r ∈ range k, optimal side k r * candidate side k r f = candidate side (2*k-1) (k-1) f := by
  obtain ⟨U, hU⟩ := exists_primitive (-(k:ℤ) - 2) f
  have hd : 0 ≤ side.d ∧ side.d ≤ 1 := by cases side <;> simp [Side.d]
  have hc : ∀ r ∈ range k, candidate side k r f =
      D (-(r + side.d)) ((k:ℤ) - (r + side.d)) U := by
    intro r hr
    rw [mem_range] at hr
    exact candidate_eq_D side k r f U (fun n h1 _ => hU n (by omega))
  rw [candidate_eq_D side (2*k-1) (k-1) f U (fun n h1 _ => hU n (by omega))]
  rw [Finset.sum_congr rfl (fun r hr => by rw [hc r hr])]
  cases side with
  | right =>
    have := D_decompose k (k-1) (k-1) (by omega) (by omega) U
    rw [show k - 1 + 1 = k by omega] at this
    rw [← Finset.sum_range_reflect] at this
    have e1 : (-(((k-1:ℕ):ℤ) + Side.right.d)) = -(k:ℤ) := by simp only [Side.d]; omega
    have e2 : ((2*k-1:ℕ):ℤ) - (((k-1:ℕ):ℤ) + Side.right.d) = ((k-1:ℕ):ℤ) := by
      simp only [Side.d]; omega
    rw [e1, e2, this]
    apply Finset.sum_congr rfl
    intro r hr
    rw [mem_range] at hr
    rw [W_right k r hr]
    congr 2 <;> simp only [Side.d] <;> omega
  | left =>
    have := D_decompose (k-1) k (k-1) (by omega) (by omega) U
    rw [show k - 1 + 1 = k by omega] at this
    rw [← Finset.sum_range_reflect] at this
    have e1 : (-(((k-1:ℕ):ℤ) + Side.left.d)) = -((k-1:ℕ):ℤ) := by simp only [Side.d]; omega
    have e2 : ((2*k-1:ℕ):ℤ) - (((k-1:ℕ):ℤ) + Side.left.d) = (k:ℤ) := by
      simp only [Side.d]; omega
    rw [e1, e2, this]
    apply Finset.sum_congr rfl
    intro r hr
    rw [mem_range] at hr
    rw [W_left k r hr]
    congr 2 <;> simp only [Side.d] <;> omega

/-- A candidate evaluated on an indicator picks one coefficient. -/
theorem candidate_single (side : Side) (k r : ℕ) (p : ℤ) :
    candidate side k r (fun n => if n = p then (1:K) else 0) =
      ∑ j ∈ range k, if funcPoint side r j = p then enoCoeff K side k r j else 0 := by
  unfold candidate
  apply Finset.sum_congr rfl
  intro j _
  split <;> simp_all

theorem candidate_single_eq (side : Side) (k r j : ℕ) (hj : j < k) :
    candidate side k r (fun n => if n = funcPoint side r j then (1:K) else 0) =
      enoCoeff K side k r j := by
  rw [candidate_single, Finset.sum_eq_single j]
  · simp
  · intro i _ hij
    rw [if_neg]
    simp only [funcPoint]; omega
  · intro h; exact absurd (mem_range.2 hj) h

/-- The coefficient of a point in the merged formula: the left-hand side of equation `i` of the
linear system. -/
theorem merged_coefficient (side : Side) (k : ℕ) (d : ℕ → K) (i : ℕ) (hi : i < k) :
    ∑ r ∈ range k, d r * candidate side k r
        (fun n => if n = funcPoint side (k-1) i then (1:K) else 0) =
      ∑ j ∈ range (i+1), d (k-1-i+j) * enoCoeff K side k (k-1-i+j) j := by
  have h1 : ∀ r ∈ range k, d r * candidate side k r
        (fun n => if n = funcPoint side (k-1) i then (1:K) else 0) =
      if k-1-i ≤ r then d r * enoCoeff K side k r (r - (k-1-i)) else 0 := by
    intro r hr
    rw [mem_range] at hr
    split
    · rename_i hle
      have : funcPoint side (k-1) i = funcPoint side r (r - (k-1-i)) := by
        simp only [funcPoint]; omega
      rw [this, candidate_single_eq _ _ _ _ (by omega)]
    · rename_i hlt
      rw [candidate_single, Finset.sum_eq_zero, mul_zero]
      intro j _
      rw [if_neg]
      simp only [funcPoint]; omega
  rw [Finset.sum_congr rfl h1, ← Finset.sum_filter]
  symm
  apply Finset.sum_bij (fun j _ => k-1-i+j)
  · intro j hj; simp only [mem_range] at hj; simp only [mem_filter, mem_range]; omega
  · intro a _ b _ h; omega
  · intro r hr
    simp only [mem_filter, mem_range] at hr
    exact ⟨r - (k-1-i), by simp only [mem_range]; omega, by omega⟩
  · intro j _
    congr 2
    omega

theorem optimal_satisfies (side : Side) (k : ℕ) :
    OptimalWeights K side k (optimal side k) := by
  intro i hi
  rw [← merged_coefficient side k _ i hi, optimal_merges side k (by omega),
    candidate_single_eq _ _ _ _ (by omega), sub_self]

theorem prod_erase_ne_zero (s : Finset ℕ) (p : ℕ) :
    ∏ l ∈ s.erase p, ((p:K) - (l:K)) ≠ 0 := by
  rw [Finset.prod_ne_zero_iff]
  intro l hl
  have : p ≠ l := fun h => (Finset.mem_erase.1 hl).1 h.symm
  rw [sub_ne_zero]
  exact_mod_cast this

/-- The leading coefficient of every candidate is nonzero (pivot of the triangular system). -/
theorem enoCoeff_zero_ne_zero (side : Side) (k r : ℕ) (hr : r < k) :
    enoCoeff K side k r 0 ≠ 0 := by
  obtain ⟨p, hp, hpk⟩ : ∃ p : ℕ, (r:ℤ) + side.d = p ∧ p ≤ k := by
    cases side
    · exact ⟨r, by simp [Side.d], by omega⟩
    · exact ⟨r+1, by simp [Side.d], by omega⟩
  rw [enoCoeff_eq_w, hp]
  have h0 := sum_w (K := K) (a := -(p:ℤ)) (b := (k:ℤ) - p) (by omega)
  rw [← map_shift, Finset.sum_map] at h0
  simp only [shiftEmb_apply] at h0
  rw [Finset.range_eq_Ico, Finset.sum_eq_sum_Ico_succ_bot (by omega)] at h0
  have hw : (w (-(p:ℤ)) ((k:ℤ) - p) (((0:ℕ):ℤ) - p) : K) ≠ 0 := by
    rw [w_shift]
    apply div_ne_zero
    · rcases Nat.eq_zero_or_pos p with rfl | hpos
      · have h1 : ∀ l ∈ (range (k+1)).erase 0, ∏ q ∈ ((range (k+1)).erase 0).erase l,
            ((((0:ℕ):ℤ):K) - (q:K)) =
            (-1)^(k-1) * ((∏ q ∈ ((range (k+1)).erase 0).erase l, q : ℕ) : K) := by
          intro l hl
          have hcard : (((range (k+1)).erase 0).erase l).card = k - 1 := by
            rw [Finset.card_erase_of_mem hl, Finset.card_erase_of_mem (by simp)]
            simp
          rw [← hcard, Nat.cast_prod, ← Finset.prod_const, ← Finset.prod_mul_distrib]
          apply Finset.prod_congr rfl
          intro q _
          simp
        rw [Finset.sum_congr rfl h1, ← Finset.mul_sum]
        apply mul_ne_zero
        · exact pow_ne_zero _ (by norm_num)
        · rw [← Nat.cast_sum]
          have : 0 < ∑ l ∈ (range (k+1)).erase 0, ∏ q ∈ ((range (k+1)).erase 0).erase l, q := by
            apply Finset.sum_pos
            · intro l _
              apply Finset.prod_pos
              intro q hq
              simp only [mem_erase] at hq
              omega
            · exact ⟨1, by simp only [mem_erase, mem_range]; omega⟩
          exact_mod_cast this.ne'
      · rw [Finset.sum_eq_single p]
        · rw [Finset.prod_ne_zero_iff]
          intro q hq
          simp only [mem_erase] at hq
          have : (p:ℤ) - q ≠ 0 := by omega
          exact_mod_cast this
        · intro l hl hlp
          apply Finset.prod_eq_zero (i := p)
          · simp only [mem_erase, mem_range]; omega
          · simp
        · intro h; exfalso; apply h; simp only [mem_erase, mem_range]; omega
    · simpa using prod_erase_ne_zero (K := K) (range (k+1)) 0
  intro hcon
  apply hw
  rw [← h0]
  simp only [hcon, add_zero, zero_add]

/-- **C07 (existence and uniqueness).** The linear system solved by the generator has exactly one
solution for every `k`, in closed form. -/
theorem C07_weights_unique (side : Side) (k : ℕ) (d : ℕ → K) :
    OptimalWeights K side k d ↔ ∀ r < k, d r = optimal side k r := by
  constructor
  · intro h
    have hopt := optimal_satisfies (K := K) side k
    have key : ∀ i, i < k → d (k-1-i) = optimal side k (k-1-i) := by
      intro i
      induction i using Nat.strong_induction_on with
      | _ i ih =>
        intro hi
        have e1 := h i hi
        have e2 := hopt i hi
        rw [Finset.sum_range_succ'] at e1 e2
        have e3 : ∑ j ∈ range i, d (k-1-i+(j+1)) * enoCoeff K side k (k-1-i+(j+1)) (j+1) =
            ∑ j ∈ range i, optimal side k (k-1-i+(j+1)) *
              enoCoeff K side k (k-1-i+(j+1)) (j+1) := by
          apply Finset.sum_congr rfl
          intro j hj
          rw [mem_range] at hj
          have := ih (i - (j+1)) (by omega) (by omega)
          rw [show k-1-i+(j+1) = k-1-(i-(j+1)) by omega, this]
        rw [e3] at e1
        have e4 : d (k-1-i+0) * enoCoeff K side k (k-1-i+0) 0 =
            optimal side k (k-1-i+0) * enoCoeff K side k (k-1-i+0) 0 := by
          linear_combination e1 - e2
        exact mul_right_cancel₀ (enoCoeff_zero_ne_zero side k _ (by omega)) e4
    intro r hr
    have := key (k-1-r) (by omega)
    rwa [show k-1-(k-1-r) = r by omega] at this
  · intro h i hi
    have := optimal_satisfies (K := K) side k i hi
    rw [← this]
    congr 1
    apply Finset.sum_congr rfl
    intro j hj
    rw [mem_range] at hj
    rw [h _ (by omega)]

/-- **C07.** Whatever weights the solver returns, they merge the `k` candidates into the
`(2k-1)`-point reconstruction, for all data. -/
theorem C07_weights_merge_candidates (side : Side) (k : ℕ) (hk : 1 ≤ k) (d : ℕ → K)
    (hd : OptimalWeights K side k d) (f : ℤ → K) :
    reconstruction side k d f = candidate side (2*k-1) (k-1) f := by
  rw [← optimal_merges side k hk]
  unfold reconstruction
  apply Finset.sum_congr rfl
  intro r hr
  rw [(C07_weights_unique side k d).1 hd r (mem_range.1 hr)]

/-- **C07 (order).** With the optimal weights the reconstruction is exact on cell averages of all
polynomials of degree below `2k-1`. -/
theorem C07_optimal_reconstruction_exact (side : Side) (k : ℕ) (d : ℕ → ℝ)
    (hd : OptimalWeights ℝ side k d) (P : ℝ[X]) (hP : P.natDegree < 2*k-1) (x h : ℝ) (hh : h ≠ 0) :
    reconstruction side k d (cellAverage P x h) = P.eval x := by
  rw [C07_weights_merge_candidates side k (by omega) d hd]
  exact C06_candidate_exact_on_polynomials side (2*k-1) (k-1) P hP x h hh

/-- **C07.** The weights sum to one. -/
theorem C07_weights_sum_to_one (side : Side) (k : ℕ) (hk : 1 ≤ k) (d : ℕ → K)
    (hd : OptimalWeights K side k d) : ∑ r ∈ range k, d r = 1 := by
  have h := C07_weights_merge_candidates side k hk d hd (fun _ => 1)
  have h1 : ∀ k r, 1 ≤ k → candidate side k r (fun _ => (1:K)) = 1 := by
    intro k r hk
    simpa [candidate] using C06_coefficients_sum_to_one (K := K) side k r hk
  rw [h1 _ _ (by omega)] at h
  rw [← h]
  unfold reconstruction
  apply Finset.sum_congr rfl
  intro r _
  rw [h1 _ _ hk, mul_one]

/-- **C07.** The weights are strictly positive. -/
theorem C07_weights_positive {K : Type} [Field K] [LinearOrder K] [IsStrictOrderedRing K]
    (side : Side) (k : ℕ) (d : ℕ → K) (hd : OptimalWeights K side k d) (r : ℕ) (hr : r < k) :
    0 < d r := by
  rw [(C07_weights_unique side k d).1 hd r hr]
  have h3 : 0 < (2*k-1).choose k := Nat.choose_pos (by omega)
  cases side with
  | right =>
    have h1 : 0 < k.choose (r+1) := Nat.choose_pos (by omega)
    have h2 : 0 < (k-1).choose r := Nat.choose_pos (by omega)
    have : 0 < k.choose (r+1) * (k-1).choose r := Nat.mul_pos h1 h2
    exact div_pos (by exact_mod_cast this) (by exact_mod_cast h3)
  | left =>
    have h1 : 0 < k.choose r := Nat.choose_pos (by omega)
    have h2 : 0 < (k-1).choose r := Nat.choose_pos (by omega)
    have : 0 < k.choose r * (k-1).choose r := Nat.mul_pos h1 h2
    exact div_pos (by exact_mod_cast this) (by exact_mod_cast h3)

/-! ## C08 -/

/-- Mirror of the derivative functional. -/
theorem D_mirror (a b : ℤ) (hab : a ≤ b) (U : ℤ → K) :
    D (-b) (-a) (fun n => U (-n)) = - D a b U := by
  obtain ⟨P, hP⟩ : ∃ P, P = Lagrange.interpolate (Icc a b) (fun z : ℤ => (z : K)) U := ⟨_, rfl⟩
  have hdeg : (P.natDegree : ℤ) ≤ b - a := by
    have h1 := Lagrange.degree_interpolate_le (r := U) (s := Icc a b) (v := fun z : ℤ => (z : K))
      (injOn_cast _)
    rw [← hP, Int.card_Icc] at h1
    have h2 : P.natDegree ≤ (b + 1 - a).toNat - 1 := natDegree_le_of_degree_le h1
    omega
  have hval : ∀ n ∈ Icc a b, P.eval (n:K) = U n := by
    intro n hn
    rw [hP]
    exact Lagrange.eval_interpolate_at_node (r := U) (s := Icc a b)
      (v := fun z : ℤ => (z : K)) (injOn_cast _) hn
  have hl : D (-b) (-a) (fun n => U (-n)) = D (-b) (-a) (fun n => (P.comp (-X)).eval (n:K)) := by
    rw [D_eq_sum, D_eq_sum]
    apply Finset.sum_congr rfl
    intro n hn
    rw [mem_Icc] at hn
    have := hval (-n) (by rw [mem_Icc]; omega)
    rw [eval_comp, eval_neg, eval_X, ← this]
    push_cast
    rfl
  have hdeg2 : (P.comp (-X)).natDegree ≤ P.natDegree := by
    refine natDegree_comp_le.trans ?_
    rw [natDegree_neg, natDegree_X, mul_one]
  rw [hl, D_poly (by omega) _ (by omega), derivative_comp]
  unfold D
  rw [← hP]
  simp

/-- **C08.** A left-biased candidate is the mirror image (about the interface) of the opposite
right-biased candidate: for all data, all `k`, all stencils. -/
theorem C08_candidate_mirror (k r : ℕ) (hr : r < k) (f : ℤ → K) :
    candidate .left k r f = candidate .right k (k-1-r) (fun n => f (1-n)) := by
  obtain ⟨U, hU⟩ := exists_primitive (-(k:ℤ) - 2) f
  rw [candidate_eq_D .left k r f U (fun n h1 _ => hU n (by simp only [Side.d] at h1; omega))]
  rw [candidate_eq_D .right k (k-1-r) (fun n => f (1-n)) (fun n => - U (-n))]
  · have hm := D_mirror (K := K) (-(r + Side.left.d)) ((k:ℤ) - (r + Side.left.d)) (by omega) U
    have e1 : -((k:ℤ) - (r + Side.left.d)) = -(((k-1-r:ℕ):ℤ) + Side.right.d) := by
      simp only [Side.d]; omega
    have e2 : - -((r:ℤ) + Side.left.d) = (k:ℤ) - (((k-1-r:ℕ):ℤ) + Side.right.d) := by
      simp only [Side.d]; omega
    rw [e1, e2] at hm
    have hneg : ∀ a b (V : ℤ → K), D a b (fun n => - V n) = - D a b V := by
      intro a b V
      rw [D_eq_sum, D_eq_sum, ← Finset.sum_neg_distrib]
      apply Finset.sum_congr rfl
      intro n _; ring
    rw [hneg, hm, neg_neg]
  · intro n h1 h2
    simp only [Side.d] at h1 h2
    rw [hU (1-n) (by omega)]
    rw [show (1:ℤ) - n - 1 = -n by ring, show -(n-1) = 1 - n by ring]
    ring

/-- **C08.** The coefficients of the left-biased reconstruction are the mirror image of those of
the right-biased one. -/
theorem C08_coefficients_mirror (k r j : ℕ) (hr : r < k) (hj : j < k) :
    enoCoeff K .left k r j = enoCoeff K .right k (k-1-r) (k-1-j) := by
  rw [← candidate_single_eq .left k r j hj, C08_candidate_mirror k r hr,
    ← candidate_single_eq .right k (k-1-r) (k-1-j) (by omega)]
  congr 1
  funext n
  congr 1
  simp only [funcPoint, Side.c, eq_iff_iff]
  omega

/-- **C08.** The points used by the left-biased candidate are the mirror images (about the
interface between points `0` and `1`) of those of the right-biased one. -/
theorem C08_points_mirror (k r j : ℕ) (hr : r < k) (hj : j < k) :
    funcPoint .left r j = 1 - funcPoint .right (k-1-r) (k-1-j) := by
  simp only [funcPoint, Side.c]; omega

/-- **C08.** The linear weights are mirror images. -/
theorem C08_weights_mirror (k : ℕ) (dl dr : ℕ → K) (hl : OptimalWeights K .left k dl)
    (hr : OptimalWeights K .right k dr) (r : ℕ) (h : r < k) : dl r = dr (k-1-r) := by
  rw [(C07_weights_unique .left k dl).1 hl r h, (C07_weights_unique .right k dr).1 hr _ (by omega)]
  unfold optimal
  have e1 : k.choose r = k.choose (k-1-r+1) := by
    rw [show k-1-r+1 = k - r by omega, Nat.choose_symm (by omega)]
  have e2 : (k-1).choose r = (k-1).choose (k-1-r) := by
    rw [Nat.choose_symm (by omega)]
  simp only
  rw [e1, e2]

/-! ### Non-vacuity -/

/-- Shu's table 2.1, `k = 3`. -/
example : (enoCoeff ℚ .right 3 0 0, enoCoeff ℚ .right 3 0 1, enoCoeff ℚ .right 3 0 2) =
    (1/3, 5/6, -1/6) := by decide +kernel
example : (enoCoeff ℚ .left 3 0 0, enoCoeff ℚ .left 3 0 1, enoCoeff ℚ .left 3 0 2) =
    (11/6, -7/6, 1/3) := by decide +kernel
/-- The WENO5 weights solve the system. -/
example : OptimalWeights ℚ .right 3 (fun r => [3/10, 6/10, 1/10].getD r 0) := by
  rw [C07_weights_unique]; decide +kernel
example : OptimalWeights ℚ .left 3 (fun r => [1/10, 6/10, 3/10].getD r 0) := by
  rw [C07_weights_unique]; decide +kernel
/-- Hypotheses of `C06`: a quadratic with `k = 3`. -/
example : (X^2 + C 3 * X : ℝ[X]).natDegree < 3 := by
  have : (X^2 + C 3 * X : ℝ[X]).natDegree ≤ 2 := by compute_degree
  omega

end OpenSBLI.Weno
