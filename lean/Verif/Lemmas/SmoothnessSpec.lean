import Verif.Lemmas.Smoothness

namespace OpenSBLI.Weno
open Polynomial Finset Interp Spec

set_option linter.unusedSectionVars false

theorem iterate_derivative_comp_affine (p : ℝ[X]) (a b : ℝ) (l : ℕ) :
    (derivative^[l]) (p.comp (C a + C b * X)) =
      C (b^l) * ((derivative^[l]) p).comp (C a + C b * X) := by
  induction l with
  | zero => simp
  | succ l ih =>
    rw [Function.iterate_succ_apply', ih, derivative_C_mul, derivative_comp,
      Function.iterate_succ_apply']
    simp only [derivative_add, derivative_C, zero_add, derivative_mul, zero_mul, derivative_X,
      mul_one, pow_succ, C_mul]
    ring

/-- The generator's interpolant, for data that are cell averages of `P`, is `P` in scaled
coordinates. -/
theorem candidatePoly_eq (k r : ℕ) (c : ℤ) (dz h x : ℝ) (hdz : dz ≠ 0) (hh : h ≠ 0) (P : ℝ[X])
    (hP : P.natDegree < k) (u : ℕ → ℝ)
    (hu : ∀ j < k, cellAverage P x h (-(r:ℤ) + j + c) = u j) :
    candidatePoly k r dz u = P.comp (C (x + ((c:ℝ) - 1) * h) + C (h/dz) * X) := by
  set x0 : ℝ := x + ((c:ℝ) - 1) * h with hx0
  set A : ℝ[X] := C x0 + C (h/dz) * X with hA
  set Q : ℝ[X] := C (dz/h) * ((prim P).comp A - C ((prim P).eval (x0 - h * r))) with hQ
  have hdegA : A.natDegree ≤ 1 := by
    rw [hA]
    refine (natDegree_add_le _ _).trans ?_
    simp only [natDegree_C]
    refine max_le (by omega) ((natDegree_C_mul_le _ _).trans natDegree_X_le)
  have hdeg : Q.degree < (range (k+1)).card := by
    rw [card_range]
    have : Q.natDegree ≤ k := by
      rw [hQ]
      refine (natDegree_C_mul_le _ _).trans ((natDegree_sub_le _ _).trans (max_le ?_ ?_))
      · refine natDegree_comp_le.trans ?_
        have h1 := natDegree_prim P
        calc (prim P).natDegree * A.natDegree ≤ k * 1 := Nat.mul_le_mul (by omega) hdegA
          _ = k := mul_one k
      · rw [natDegree_C]; omega
    exact (degree_le_natDegree).trans_lt (by exact_mod_cast Nat.lt_succ_of_le this)
  have hval : ∀ i ∈ range (k+1), Q.eval (dz * ((i:ℝ) - r)) = ∑ j ∈ range i, dz * u j := by
    intro i hi
    rw [mem_range] at hi
    have hAe : A.eval (dz * ((i:ℝ) - r)) = x0 + h * ((i:ℝ) - r) := by
      rw [hA]; simp only [eval_add, eval_C, eval_mul, eval_X]; field_simp
    rw [hQ]
    simp only [eval_mul, eval_C, eval_sub, eval_comp, hAe]
    have hs := Finset.sum_range_sub (fun j : ℕ => (prim P).eval (x0 + h * ((j:ℝ) - r))) i
    simp only [Nat.cast_zero, zero_sub] at hs
    have e0 : x0 + h * -(r:ℝ) = x0 - h * r := by ring
    rw [e0] at hs
    rw [← hs, Finset.mul_sum]
    apply Finset.sum_congr rfl
    intro j hj
    rw [mem_range] at hj
    rw [← hu j (by omega)]
    unfold cellAverage
    rw [integral_poly]
    have e1 : x + (((-(r:ℤ) + j + c : ℤ):ℝ)) * h = x0 + h * (((j+1:ℕ):ℝ) - r) := by
      rw [hx0]; push_cast; ring
    have e2 : x + (((-(r:ℤ) + j + c : ℤ):ℝ) - 1) * h = x0 + h * ((j:ℝ) - r) := by
      rw [hx0]; push_cast; ring
    rw [e1, e2]
    field_simp
  unfold candidatePoly
  have hinj : Set.InjOn (fun i : ℕ => dz * ((i:ℝ) - r)) (range (k+1)) := by
    intro a _ b _ hab
    have : (a:ℝ) - r = b - r := mul_left_cancel₀ hdz hab
    exact_mod_cast sub_left_inj.1 this
  rw [← Lagrange.eq_interpolate_of_eval_eq _ hinj hdeg hval, hQ, derivative_C_mul, derivative_sub,
    derivative_C, sub_zero, derivative_comp, derivative_prim, hA]
  simp only [derivative_add, derivative_C, zero_add, derivative_mul, zero_mul, derivative_X, mul_one]
  rw [← mul_assoc, ← C_mul]
  have : dz / h * (h / dz) = 1 := by field_simp
  rw [this, C_1, one_mul]

/-- Jiang-Shu formula. -/
theorem smoothTotal_spec (k r : ℕ) (c : ℤ) (dz h x : ℝ) (hdz : dz ≠ 0) (hh : h ≠ 0) (P : ℝ[X])
    (hP : P.natDegree < k) (u : ℕ → ℝ)
    (hu : ∀ j < k, cellAverage P x h (-(r:ℤ) + j + c) = u j) :
    smoothTotal k r dz u = ∑ l ∈ Ico 1 k, h^(2*l-1) *
      ∫ y in (x + ((c:ℝ) - 1) * h)..(x + (c:ℝ) * h), (((derivative^[l]) P).eval y)^2 := by
  unfold smoothTotal
  rw [candidatePoly_eq k r c dz h x hdz hh P hP u hu]
  apply Finset.sum_congr rfl
  intro l hl
  rw [mem_Ico] at hl
  rw [iterate_derivative_comp_affine]
  simp only [eval_mul, eval_C, eval_comp, eval_add, eval_X, mul_pow]
  rw [intervalIntegral.integral_const_mul]
  have := intervalIntegral.integral_comp_add_mul (a := 0) (b := dz)
    (fun y => (((derivative^[l]) P).eval y)^2) (c := h/dz) (div_ne_zero hh hdz) (x + ((c:ℝ)-1)*h)
  rw [this]
  have e1 : x + ((c:ℝ)-1)*h + h/dz * 0 = x + ((c:ℝ)-1)*h := by ring
  have e2 : x + ((c:ℝ)-1)*h + h/dz * dz = x + (c:ℝ)*h := by field_simp; ring
  rw [e1, e2, smul_eq_mul, ← mul_assoc, ← mul_assoc]
  congr 1
  obtain ⟨m, rfl⟩ : ∃ m, l = m + 1 := ⟨l-1, by omega⟩
  have e3 : 2*(m+1)-1 = 2*m+1 := by omega
  rw [e3, inv_div, div_pow, div_pow]
  field_simp
  ring

/-- Every data set on a stencil of `k` cells is the set of averages of a polynomial of degree below
`k`. -/
theorem exists_cellPoly (k r : ℕ) (hk : 1 ≤ k) (c : ℤ) (h x : ℝ) (hh : h ≠ 0) (u : ℕ → ℝ) :
    ∃ P : ℝ[X], P.natDegree < k ∧ ∀ j < k, cellAverage P x h (-(r:ℤ) + j + c) = u j := by
  set x0 : ℝ := x + ((c:ℝ) - 1) * h with hx0
  set L := Lagrange.interpolate (range (k+1)) (fun i : ℕ => h * ((i:ℝ) - r))
    (fun i => ∑ j ∈ range i, h * u j) with hL
  have hinj : Set.InjOn (fun i : ℕ => h * ((i:ℝ) - r)) (range (k+1)) := by
    intro a _ b _ hab
    have : (a:ℝ) - r = b - r := mul_left_cancel₀ hh hab
    exact_mod_cast sub_left_inj.1 this
  have hLdeg : L.natDegree ≤ k := by
    have := Lagrange.degree_interpolate_le (fun i => ∑ j ∈ range i, h * u j) hinj
    rw [card_range] at this
    have h2 : L.degree ≤ (k:ℕ) := by
      rw [hL]; exact this
    exact natDegree_le_of_degree_le h2
  refine ⟨(derivative L).comp (X - C x0), ?_, ?_⟩
  · rw [natDegree_comp, natDegree_X_sub_C, mul_one]
    have := natDegree_derivative_le L
    omega
  · intro j hj
    unfold cellAverage
    have hint : ∫ y in (x + (((-(r:ℤ)+j+c:ℤ):ℝ) - 1)*h)..(x + (((-(r:ℤ)+j+c:ℤ):ℝ))*h),
        ((derivative L).comp (X - C x0)).eval y =
        (L.comp (X - C x0)).eval (x + (((-(r:ℤ)+j+c:ℤ):ℝ))*h) -
        (L.comp (X - C x0)).eval (x + (((-(r:ℤ)+j+c:ℤ):ℝ) - 1)*h) := by
      apply intervalIntegral.integral_eq_sub_of_hasDerivAt
        (f := fun y => (L.comp (X - C x0)).eval y)
      · intro y _
        have := (L.comp (X - C x0)).hasDerivAt y
        rw [derivative_comp] at this
        simpa using this
      · exact (Polynomial.continuous _).intervalIntegrable _ _
    rw [hint]
    have e1 : (X - C x0 : ℝ[X]).eval (x + (((-(r:ℤ)+j+c:ℤ):ℝ))*h) = h * (((j+1:ℕ):ℝ) - r) := by
      simp only [eval_sub, eval_X, eval_C, hx0]; push_cast; ring
    have e2 : (X - C x0 : ℝ[X]).eval (x + (((-(r:ℤ)+j+c:ℤ):ℝ) - 1)*h) = h * ((j:ℝ) - r) := by
      simp only [eval_sub, eval_X, eval_C, hx0]; push_cast; ring
    rw [eval_comp, eval_comp, e1, e2, hL]
    have v1 := Lagrange.eval_interpolate_at_node (fun i => ∑ j ∈ range i, h * u j) hinj
      (i := j+1) (mem_range.2 (by omega))
    have v2 := Lagrange.eval_interpolate_at_node (fun i => ∑ j ∈ range i, h * u j) hinj
      (i := j) (mem_range.2 (by omega))
    rw [v1, v2, Finset.sum_range_succ]
    field_simp
    ring

end OpenSBLI.Weno
