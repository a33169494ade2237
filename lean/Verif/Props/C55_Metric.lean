import Verif.Model.Metric
import Mathlib.Analysis.Calculus.FDeriv.Comp
import Mathlib.Analysis.Calculus.FDeriv.Mul
import Mathlib.Analysis.Calculus.FDeriv.Add
import Mathlib.Analysis.Calculus.FDeriv.Pi
import Mathlib.LinearAlgebra.Matrix.ToLin
import Mathlib.Data.Matrix.Mul
import Mathlib.Data.Fin.VecNotation
import Mathlib.LinearAlgebra.Matrix.Notation
import Mathlib.Tactic.Ring
import Mathlib.Tactic.NormNum
import Mathlib.Tactic.FinCases

/-!
# C55 Metric terms
-/
namespace OpenSBLI.Metric

variable {n : ℕ}

/-! ## The pattern of the matrices -/

theorem fdValue_cases (cur str : Fin n → Bool) (i j : Fin n) :
    (fdValue cur str i j = .stored ↔ (cur i = true ∧ cur j = true) ∨ (cur i = false ∧ i = j ∧ str i = true)) ∧
      (fdValue cur str i j = .one ↔ cur i = false ∧ i = j ∧ str i = false) := by
  unfold fdValue m2
  by_cases hc : cur i = true
  · by_cases hj : cur j = true <;> simp [hc, hj]
  · by_cases hij : i = j
    · subst hij
      by_cases hs : str i = true <;> simp [hc, hs]
    · simp [hc, hij]

theorem jacobian_row (cur str : Fin n → Bool) (dx : Matrix (Fin n) (Fin n) ℝ) (i j : Fin n) (h : cur i = false ∨ cur j = false) (hij : i ≠ j) :
    jacobian cur str dx i j = 0 ∧ fdMetric cur str dx i j = 0 := by
  have hz : fdValue cur str i j = .zero := by
    obtain ⟨a, b⟩ := fdValue_cases cur str i j
    cases hv : fdValue cur str i j with
    | zero => rfl
    | one => exact absurd (b.mp hv).2.1 hij
    | stored =>
      rcases a.mp hv with ⟨h1, h2⟩ | ⟨_, h2, _⟩
      · rcases h with h | h
        · rw [h1] at h; cases h
        · rw [h2] at h; cases h
      · exact absurd h2 hij
  simp [jacobian, fdMetric, hz]

/-! ## C55 -/

/-- C55: for every combination of curvilinear, stretched and plain directions, in any number of dimensions, and all values of the coordinate derivatives with non-zero
determinant: the metric terms, constants included, are the inverse of the Jacobian matrix. -/
theorem C55_inverse (cur str : Fin n → Bool) (dx : Matrix (Fin n) (Fin n) ℝ) (h : detJ cur str dx ≠ 0) :
    fdMetric cur str dx * jacobian cur str dx = 1 ∧ jacobian cur str dx * fdMetric cur str dx = 1 := by
  set J := jacobian cur str dx with hJ
  have hu : IsUnit J.det := isUnit_iff_ne_zero.mpr h
  have e : fdMetric cur str dx = J⁻¹ := by
    have inv : ∀ i j, J⁻¹ i j = J.adjugate i j / J.det := by
      intro i j
      rw [Matrix.inv_def, Matrix.smul_apply, Ring.inverse_eq_inv', smul_eq_mul]
      field_simp
    -- rows and columns of directions that are not curvilinear
    have row : ∀ i j, cur i = false → J i i * J⁻¹ i j = if i = j then 1 else 0 := by
      intro i j hi
      have := congrFun (congrFun (Matrix.mul_nonsing_inv J hu) i) j
      rw [Matrix.mul_apply, Finset.sum_eq_single i] at this
      · rw [this, Matrix.one_apply]
      · intro k _ hk
        have z : J i k = 0 := (jacobian_row cur str dx i k (Or.inl hi) hk.symm).1
        rw [z, zero_mul]
      · simp
    have col : ∀ i j, cur j = false → J⁻¹ i j * J j j = if i = j then 1 else 0 := by
      intro i j hj
      have := congrFun (congrFun (Matrix.nonsing_inv_mul J hu) i) j
      rw [Matrix.mul_apply, Finset.sum_eq_single j] at this
      · rw [this, Matrix.one_apply]
      · intro k _ hk
        have z : J k j = 0 := (jacobian_row cur str dx k j (Or.inr hj) hk).1
        rw [z, mul_zero]
      · simp
    funext i j
    by_cases hs : fdValue cur str i j = .stored
    · rw [inv, hJ]
      simp [fdMetric, hs]
    · by_cases hij : i = j
      · subst hij
        have hc : cur i = false := by
          by_contra hh
          exact hs ((fdValue_cases cur str i i).1.mpr (Or.inl ⟨by simpa using hh, by simpa using hh⟩))
        have ho : fdValue cur str i i = .one := by
          rw [(fdValue_cases cur str i i).2]
          refine ⟨hc, rfl, ?_⟩
          by_contra hh
          exact hs ((fdValue_cases cur str i i).1.mpr (Or.inr ⟨hc, rfl, by simpa using hh⟩))
        have jj : J i i = 1 := by rw [hJ]; simp [jacobian, ho]
        have := row i i hc
        rw [jj, one_mul, if_pos rfl] at this
        rw [this]
        simp [fdMetric, ho]
      · have hor : cur i = false ∨ cur j = false := by
          by_contra hh
          push Not at hh
          exact hs ((fdValue_cases cur str i j).1.mpr (Or.inl ⟨by simpa using hh.1, by simpa using hh.2⟩))
        rw [(jacobian_row cur str dx i j hor hij).2]
        rcases hor with hi | hj
        · have r := row i j hi
          rw [if_neg hij] at r
          have d := row i i hi
          rw [if_pos rfl] at d
          rcases mul_eq_zero.mp r with h0 | h0
          · rw [h0, zero_mul] at d; exact absurd d zero_ne_one
          · exact h0.symm
        · have r := col i j hj
          rw [if_neg hij] at r
          have d := col j j hj
          rw [if_pos rfl] at d
          rcases mul_eq_zero.mp r with h0 | h0
          · exact h0.symm
          · rw [h0, mul_zero] at d; exact absurd d zero_ne_one
  rw [e]
  exact ⟨Matrix.nonsing_inv_mul J hu, Matrix.mul_nonsing_inv J hu⟩

/-- The pattern of the flags describes a coordinate map with derivatives `dx`: curvilinear coordinates depend on curvilinear directions only, stretched ones
on their own direction, plain ones are the direction itself. -/
def Describes (cur str : Fin n → Bool) (dx : Matrix (Fin n) (Fin n) ℝ) : Prop :=
  (∀ i j, i ≠ j → (cur i = false ∨ cur j = false) → dx i j = 0) ∧ ∀ i, cur i = false → str i = false → dx i i = 1

theorem jacobian_eq (cur str : Fin n → Bool) (dx : Matrix (Fin n) (Fin n) ℝ) (h : Describes cur str dx) : jacobian cur str dx = dx := by
  funext i j
  obtain ⟨a, b⟩ := fdValue_cases cur str i j
  cases hv : fdValue cur str i j with
  | stored => simp [jacobian, hv]
  | one =>
    obtain ⟨h1, h2, h3⟩ := b.mp hv
    subst h2
    simp [jacobian, hv, h.2 i h1 h3]
  | zero =>
    have hij : i ≠ j := by
      rintro rfl
      by_cases hc : cur i = true
      · rw [a.mpr (Or.inl ⟨hc, hc⟩)] at hv; cases hv
      · have hc : cur i = false := by simpa using hc
        by_cases hs : str i = true
        · rw [a.mpr (Or.inr ⟨hc, rfl, hs⟩)] at hv; cases hv
        · rw [b.mpr ⟨hc, rfl, by simpa using hs⟩] at hv; cases hv
    have : cur i = false ∨ cur j = false := by
      by_contra hh
      push Not at hh
      rw [a.mpr (Or.inl ⟨by simpa using hh.1, by simpa using hh.2⟩)] at hv; cases hv
    simp [jacobian, hv, h.1 i j hij this]

/-- C55: for every differentiable coordinate map described by the flags and every differentiable field, the transformed first derivatives of the field along the curvilinear directions
are its derivatives along the Cartesian axes. -/
theorem C55_first_derivative (cur str : Fin n → Bool) (X : (Fin n → ℝ) → (Fin n → ℝ)) (xi : Fin n → ℝ) (X' : (Fin n → ℝ) →L[ℝ] (Fin n → ℝ))
    (hX : HasFDerivAt X X' xi) (f : (Fin n → ℝ) → ℝ) (f' : (Fin n → ℝ) →L[ℝ] ℝ) (hf : HasFDerivAt f f' (X xi))
    (hdx : Describes cur str (Matrix.of fun i j => X' (Pi.single j 1) i)) (hdet : (Matrix.of fun i j => X' (Pi.single j 1) i).det ≠ 0) (j : Fin n) :
    firstDerivative (fdMetric cur str (Matrix.of fun i j => X' (Pi.single j 1) i)) (fun k => fderiv ℝ (fun z => f (X z)) xi (Pi.single k 1)) j =
      f' (Pi.single j 1) := by
  set dx : Matrix (Fin n) (Fin n) ℝ := Matrix.of fun i j => X' (Pi.single j 1) i with hdxd
  have hJ := jacobian_eq cur str dx hdx
  have inv := (C55_inverse cur str dx (by rw [detJ, hJ]; exact hdet)).2
  rw [hJ] at inv
  have hc : fderiv ℝ (fun z => f (X z)) xi = f'.comp X' := (hf.comp xi hX).fderiv
  have dec : ∀ v : Fin n → ℝ, f' v = ∑ i, v i * f' (Pi.single i 1) := by
    intro v
    conv_lhs => rw [← Finset.univ_sum_single v]
    rw [map_sum]
    refine Finset.sum_congr rfl fun i _ => ?_
    have : (Pi.single i (v i) : Fin n → ℝ) = v i • Pi.single i 1 := by
      rw [← Pi.single_smul, smul_eq_mul, mul_one]
    rw [this, map_smul, smul_eq_mul]
  simp only [firstDerivative, hc, ContinuousLinearMap.comp_apply]
  have : ∀ k, fdMetric cur str dx k j * f' (X' (Pi.single k 1)) = ∑ i, (dx i k * fdMetric cur str dx k j) * f' (Pi.single i 1) := by
    intro k
    rw [dec (X' (Pi.single k 1)), Finset.mul_sum]
    exact Finset.sum_congr rfl fun i _ => by simp only [hdxd, Matrix.of_apply]; ring
  rw [Finset.sum_congr rfl fun k _ => this k, Finset.sum_comm]
  have e : ∀ i, ∑ k, dx i k * fdMetric cur str dx k j * f' (Pi.single i 1) = (if i = j then 1 else 0) * f' (Pi.single i 1) := by
    intro i
    rw [← Finset.sum_mul, ← Matrix.mul_apply, inv, Matrix.one_apply]
  rw [Finset.sum_congr rfl fun i _ => e i]
  simp

/-- C55: the second derivative is the first transformation applied twice: if the metric terms `D k i` and the curvilinear derivatives `F k` of the field are differentiable functions
of the curvilinear coordinates, and the metric terms depend on the directions allowed by the flags only, then the formula with the stored terms `SDkil` is the transformed derivative in
direction `j` of the transformed derivative in direction `i`. -/
theorem C55_second_derivative (cur str : Fin n → Bool) (D : (Fin n → ℝ) → Matrix (Fin n) (Fin n) ℝ) (F : Fin n → (Fin n → ℝ) → ℝ) (xi : Fin n → ℝ)
    (hD : ∀ k i, DifferentiableAt ℝ (fun z => D z k i) xi) (hF : ∀ k, DifferentiableAt ℝ (F k) xi)
    (hdep : ∀ k i l, ¬ ((cur k = true ∧ cur i = true ∧ cur l = true) ∨ (cur k = false ∧ k = i ∧ i = l ∧ str k = true)) →
      fderiv ℝ (fun z => D z k i) xi (Pi.single l 1) = 0) (i j : Fin n) :
    secondDerivative cur str (D xi) (fun k i l => fderiv ℝ (fun z => D z k i) xi (Pi.single l 1)) (fun k => F k xi)
        (fun k l => fderiv ℝ (F k) xi (Pi.single l 1)) i j =
      firstDerivative (D xi) (fun l => fderiv ℝ (fun z => firstDerivative (D z) (fun k => F k z) i) xi (Pi.single l 1)) j := by
  have mask : ∀ k i l, (if sdStored cur str k i l then fderiv ℝ (fun z => D z k i) xi (Pi.single l 1) else 0) =
      fderiv ℝ (fun z => D z k i) xi (Pi.single l 1) := by
    intro k i l
    split
    · rfl
    · rename_i h
      refine (hdep k i l ?_).symm
      rintro (⟨h1, h2, h3⟩ | ⟨h1, h2, h3, h4⟩)
      · exact h (by simp [sdStored, fdValue, m2, h1, h2, h3])
      · subst h2; subst h3
        exact h (by simp [sdStored, fdValue, m2, h1, h4])
  have der : ∀ l, fderiv ℝ (fun z => firstDerivative (D z) (fun k => F k z) i) xi (Pi.single l 1) =
      ∑ k, (D xi k i * fderiv ℝ (F k) xi (Pi.single l 1) + fderiv ℝ (fun z => D z k i) xi (Pi.single l 1) * F k xi) := by
    intro l
    have : HasFDerivAt (fun z => firstDerivative (D z) (fun k => F k z) i)
        (∑ k, (D xi k i • fderiv ℝ (F k) xi + F k xi • fderiv ℝ (fun z => D z k i) xi)) xi := by
      unfold firstDerivative
      exact HasFDerivAt.fun_sum fun k _ => (hD k i).hasFDerivAt.mul (hF k).hasFDerivAt
    rw [this.fderiv, _root_.sum_apply]
    refine Finset.sum_congr rfl fun k _ => ?_
    simp only [_root_.add_apply, _root_.smul_apply, smul_eq_mul]
    ring
  simp only [secondDerivative, mask, firstDerivative]
  refine Finset.sum_congr rfl fun l _ => ?_
  have := der l
  simp only [firstDerivative] at this
  rw [this]

/-- C55: the sign changes applied across a block interface with reversed direction are those of the inverse Jacobian and determinant of the reversed
coordinates. -/
theorem C55_interface_signs (D J : Matrix (Fin n) (Fin n) ℝ) (h : D * J = 1) (d : Fin n) :
    (Matrix.of fun i j => interfaceFactor d i * D i j) * (Matrix.of fun i j => J i j * interfaceFactor d j) = 1 ∧
      (Matrix.of fun i j => J i j * interfaceFactor d j).det = -1 * J.det := by
  constructor
  · funext i k
    rw [Matrix.mul_apply]
    simp only [Matrix.of_apply]
    have e : ∀ j, interfaceFactor d i * D i j * (J j k * interfaceFactor d k) = interfaceFactor d i * interfaceFactor d k * (D i j * J j k) := fun j => by ring
    rw [Finset.sum_congr rfl fun j _ => e j, ← Finset.mul_sum, ← Matrix.mul_apply, h, Matrix.one_apply]
    by_cases hik : i = k
    · subst hik
      rw [if_pos rfl, mul_one, interfaceFactor]
      split <;> norm_num
    · rw [if_neg hik, mul_zero]
  · have : (Matrix.of fun i j => J i j * interfaceFactor d j) = Matrix.of fun i j => interfaceFactor d j * J i j := by
      funext i j; simp [mul_comm]
    rw [this, Matrix.det_mul_row]
    congr 1
    rw [Finset.prod_eq_single d]
    · simp [interfaceFactor]
    · intro b _ hb; simp [interfaceFactor, hb]
    · simp

/-! ## Transformation of an equation -/

/-- C55 (finding): the derivatives of an equation are replaced in the order in which a set yields them. For a nested derivative, such as
`∂/∂x0 (mu ∂u/∂x0)` in one dimension, the outer derivative is left untransformed when the inner one comes first. -/
theorem C55_nested_order :
    let inner := Ex.der 0 false (.atom "u")
    let outer := Ex.der 0 false (.mul (.atom "mu") inner)
    (applyTransformation 1 [outer, inner] outer).transformed = true ∧ (applyTransformation 1 [inner, outer] outer).transformed = false := by
  decide +kernel

/-- Every Cartesian derivative of the expression has an argument without Cartesian derivatives: no nesting. -/
def Ex.flat : Ex → Bool
  | .atom _ => true
  | .add a b => a.flat && b.flat
  | .mul a b => a.flat && b.flat
  | .der _ _ a => a.transformed

theorem foldr_transformed (_ndim j : ℕ) (e : Ex) (h : e.transformed = true) (l : List ℕ) :
    (l.foldr (fun k acc => Ex.add (.mul (.atom s!"D{k}{j}") (.der k true e)) acc) (.atom "0")).transformed = true := by
  induction l with
  | nil => rfl
  | cons k l ih => simp only [List.foldr_cons, Ex.transformed, h, ih, Bool.and_self]

/-- Replacing something that does not occur changes nothing. -/
theorem subst_of_transformed (j : ℕ) (a new : Ex) : ∀ e : Ex, e.transformed = true → e.subst (.der j false a) new = e
  | .atom _, _ => by simp [Ex.subst]
  | .add x y, h => by
    simp only [Ex.transformed, Bool.and_eq_true] at h
    simp [Ex.subst, subst_of_transformed j a new x h.1, subst_of_transformed j a new y h.2]
  | .mul x y, h => by
    simp only [Ex.transformed, Bool.and_eq_true] at h
    simp [Ex.subst, subst_of_transformed j a new x h.1, subst_of_transformed j a new y h.2]
  | .der d c x, h => by
    simp only [Ex.transformed, Bool.and_eq_true] at h
    have : ¬ (Ex.der d c x = Ex.der j false a) := by
      intro hh
      injection hh with _ hc _
      rw [hc] at h; exact absurd h.1 (by simp)
    simp [Ex.subst, this, subst_of_transformed j a new x h.2]

/-- The specification: every Cartesian derivative replaced where it stands. -/
def Ex.replaceAll (ndim : ℕ) : Ex → Ex
  | .atom s => .atom s
  | .add a b => .add (a.replaceAll ndim) (b.replaceAll ndim)
  | .mul a b => .mul (a.replaceAll ndim) (b.replaceAll ndim)
  | .der d false a => transformOne ndim (.der d false a)
  | .der d true a => .der d true a

/-- The Cartesian derivatives of an expression without nesting. -/
def Ex.derivatives : Ex → List Ex
  | .atom _ => []
  | .add a b => a.derivatives ++ b.derivatives
  | .mul a b => a.derivatives ++ b.derivatives
  | .der d false a => [.der d false a]
  | .der _ true _ => []

/-- Partially transformed: some Cartesian derivatives replaced, those of a list still to come. -/
inductive Mixed (ndim : ℕ) (todo : Ex → Prop) : Ex → Ex → Prop
  | atom (s : String) : Mixed ndim todo (.atom s) (.atom s)
  | add {a a' b b' : Ex} : Mixed ndim todo a a' → Mixed ndim todo b b' → Mixed ndim todo (.add a b) (.add a' b')
  | mul {a a' b b' : Ex} : Mixed ndim todo a a' → Mixed ndim todo b b' → Mixed ndim todo (.mul a b) (.mul a' b')
  | done (d : ℕ) (a : Ex) : a.transformed = true → Mixed ndim todo (.der d false a) (transformOne ndim (.der d false a))
  | still (d : ℕ) (a : Ex) : a.transformed = true → todo (.der d false a) → Mixed ndim todo (.der d false a) (.der d false a)
  | curv (d : ℕ) (a : Ex) : a.transformed = true → Mixed ndim todo (.der d true a) (.der d true a)

theorem mixed_step (ndim : ℕ) (todo todo' : Ex → Prop) (j : ℕ) (x : Ex) (hx : x.transformed = true)
    (ht : ∀ e, todo e → e = .der j false x ∨ todo' e) {e e' : Ex} (h : Mixed ndim todo e e') :
    Mixed ndim todo' e (e'.subst (.der j false x) (transformOne ndim (.der j false x))) := by
  induction h with
  | atom s => simp only [Ex.subst]; exact .atom s
  | add _ _ iha ihb => simp only [Ex.subst]; exact .add iha ihb
  | mul _ _ iha ihb => simp only [Ex.subst]; exact .mul iha ihb
  | done d a ha =>
    have : (transformOne ndim (.der d false a)).transformed = true := by
      simp only [transformOne]; exact foldr_transformed ndim d a ha _
    rw [subst_of_transformed j x _ _ this]
    exact .done d a ha
  | still d a ha hd =>
    rcases ht _ hd with h | h
    · simp only [Ex.subst, h, if_true]
      injection h with h1 _ h3
      subst h1; subst h3
      exact .done _ _ ha
    · by_cases he : Ex.der d false a = Ex.der j false x
      · simp only [Ex.subst, he, if_true]
        injection he with h1 _ h3
        subst h1; subst h3
        exact .done _ _ ha
      · simp only [Ex.subst, if_neg he, subst_of_transformed j x _ a ha]
        exact .still d a ha h
  | curv d a ha =>
    have : ¬ (Ex.der d true a = Ex.der j false x) := by rintro ⟨⟩
    simp only [Ex.subst, if_neg this, subst_of_transformed j x _ a ha]
    exact .curv d a ha

theorem mixed_start (ndim : ℕ) (e : Ex) (h : e.flat = true) : Mixed ndim (fun d => d ∈ e.derivatives) e e := by
  have key : ∀ (todo : Ex → Prop) (e : Ex), e.flat = true → (∀ d ∈ e.derivatives, todo d) → Mixed ndim todo e e := by
    intro todo e
    induction e with
    | atom s => intro _ _; exact .atom s
    | add a b iha ihb =>
      intro hf hd
      simp only [Ex.flat, Bool.and_eq_true] at hf
      simp only [Ex.derivatives, List.mem_append] at hd
      exact .add (iha hf.1 fun d h => hd d (Or.inl h)) (ihb hf.2 fun d h => hd d (Or.inr h))
    | mul a b iha ihb =>
      intro hf hd
      simp only [Ex.flat, Bool.and_eq_true] at hf
      simp only [Ex.derivatives, List.mem_append] at hd
      exact .mul (iha hf.1 fun d h => hd d (Or.inl h)) (ihb hf.2 fun d h => hd d (Or.inr h))
    | der d c a _ =>
      intro hf hd
      cases c with
      | false => exact .still d a hf (hd _ (by simp [Ex.derivatives]))
      | true => exact .curv d a hf
  exact key _ e h fun d hd => hd

theorem mixed_end (ndim : ℕ) (e e' : Ex) (h : Mixed ndim (fun _ => False) e e') : e' = e.replaceAll ndim := by
  induction h with
  | atom s => rfl
  | add _ _ iha ihb => simp only [Ex.replaceAll, iha, ihb]
  | mul _ _ iha ihb => simp only [Ex.replaceAll, iha, ihb]
  | done d a ha => rfl
  | still d a ha hd => exact hd.elim
  | curv d a ha => rfl

theorem derivatives_shape (e : Ex) (h : e.flat = true) : ∀ d ∈ e.derivatives, ∃ j a, d = .der j false a ∧ a.transformed = true := by
  induction e with
  | atom s => simp [Ex.derivatives]
  | add a b iha ihb =>
    simp only [Ex.flat, Bool.and_eq_true] at h
    intro d hd
    rcases List.mem_append.mp hd with hd | hd
    · exact iha h.1 d hd
    · exact ihb h.2 d hd
  | mul a b iha ihb =>
    simp only [Ex.flat, Bool.and_eq_true] at h
    intro d hd
    rcases List.mem_append.mp hd with hd | hd
    · exact iha h.1 d hd
    · exact ihb h.2 d hd
  | der d c a _ =>
    cases c with
    | false => intro x hx; simp only [Ex.derivatives, List.mem_singleton] at hx; exact ⟨d, a, hx, h⟩
    | true => intro x hx; simp [Ex.derivatives] at hx

/-- C55, partial: for equations of any size without nested Cartesian derivatives, every derivative is transformed, whatever the order in which they are
replaced. Missing: nested derivatives, for which the result depends on the order (`C55_nested_order`). -/
theorem C55_equation_partial (ndim : ℕ) (e : Ex) (h : e.flat = true) (order : List Ex) (hmem : ∀ d, d ∈ order ↔ d ∈ e.derivatives) :
    applyTransformation ndim order e = e.replaceAll ndim := by
  have key : ∀ (l : List Ex) (e' : Ex), (∀ d ∈ l, ∃ j a, d = .der j false a ∧ a.transformed = true) → Mixed ndim (fun d => d ∈ l) e e' →
      Mixed ndim (fun _ => False) e (applyTransformation ndim l e') := by
    intro l
    induction l with
    | nil =>
      intro e' _ hm
      have : (fun d : Ex => d ∈ ([] : List Ex)) = fun _ => False := by funext d; simp
      rw [this] at hm; exact hm
    | cons d l ih =>
      intro e' hs hm
      obtain ⟨j, a, rfl, ha⟩ := hs d List.mem_cons_self
      rw [applyTransformation, List.foldl_cons]
      exact ih _ (fun d hd => hs d (List.mem_cons_of_mem _ hd))
        (mixed_step ndim _ (fun d => d ∈ l) j a ha (fun x hx => List.mem_cons.mp hx) hm)
  refine mixed_end ndim e _ (key order e (fun d hd => derivatives_shape e h d ((hmem d).mp hd)) ?_)
  have : (fun d => d ∈ order) = fun d => d ∈ e.derivatives := by funext d; exact propext (hmem d)
  rw [this]
  exact mixed_start ndim e h

/-- Two curvilinear directions and a plain one, with determinant 5: the stored terms and the constants of the inverse. -/
example : let cur : Fin 3 → Bool := ![true, true, false]
    let dx : Matrix (Fin 3) (Fin 3) ℝ := !![2, 1, 7; -1, 2, 8; 9, 9, 9]
    detJ cur (fun _ => false) dx = 5 ∧ jacobian cur (fun _ => false) dx = !![2, 1, 0; -1, 2, 0; 0, 0, 1] := by
  intro cur dx
  have e : jacobian cur (fun _ => false) dx = !![2, 1, 0; -1, 2, 0; 0, 0, 1] := by
    funext i j
    fin_cases i <;> fin_cases j <;> simp [jacobian, fdValue, m2, cur, dx]
  refine ⟨?_, e⟩
  rw [detJ, e, Matrix.det_fin_three]
  simp
  norm_num

/-- An equation without nesting: a sum of two derivatives. -/
example : Ex.flat (.add (.der 0 false (.atom "rhou0")) (.der 1 false (.mul (.atom "rho") (.atom "u1")))) = true := rfl

end OpenSBLI.Metric
