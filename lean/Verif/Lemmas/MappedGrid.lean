import Verif.Spec.MappedGrid
import Verif.Model.MetricProgram
import Verif.Props.C55_Metric
import Verif.Props.C94_Skew

/-! # Lemmas on mapped grids -/
namespace OpenSBLI.Sim
open OpenSBLI.Metric (fdValue)

variable {D n : ℕ}

/-! ## Shifts -/

theorem shift_comm (x : P D) (d e : Fin D) (a b : ℤ) : shift (shift x d a) e b = shift (shift x e b) d a := by
  funext c
  by_cases hd : c = d <;> by_cases he : c = e
  · subst hd; subst he; simp [shift]; ring
  · subst hd; simp [shift, he]
  · subst he; simp [shift, hd]
  · simp [shift, hd, he]

theorem periodic_multiple {np : Fin D → ℤ} {g : P D → ℝ} (hg : ∀ d x, g (shift x d (np d)) = g x) (d : Fin D) (c : ℤ) (x : P D) : g (shift x d (c * np d)) = g x := by
  have hadd : ∀ (x : P D) (a b : ℤ), shift x d (a + b) = shift (shift x d a) d b := fun x a b => by simp [shift, add_assoc]
  induction c using Int.induction_on generalizing x with
  | zero => simp [shift]
  | succ c ih => rw [show ((c : ℤ) + 1) * np d = c * np d + np d by ring, hadd, hg, ih]
  | pred c ih =>
    have := hg d (shift x d ((-(c : ℤ) - 1) * np d))
    rw [← hadd, show (-(c : ℤ) - 1) * np d + np d = -c * np d by ring, ih] at this
    exact this.symm

theorem periodic_same {np : Fin D → ℤ} {g : P D → ℝ} (hg : ∀ d x, g (shift x d (np d)) = g x) {y z : P D} (h : Same np y z) : g y = g z := by
  have key : ∀ s : Finset (Fin D), g (fun d => if d ∈ s then y d else z d) = g z := by
    intro s
    induction s using Finset.induction_on with
    | empty => simp
    | insert d s hd ih =>
      obtain ⟨c, hc⟩ := (Int.ModEq.dvd (h d).symm : np d ∣ y d - z d)
      rw [← ih, ← periodic_multiple hg d c fun e => if e ∈ s then y e else z e]
      congr 1
      funext e
      by_cases he : e = d
      · subst he; simp [shift, hd]; linarith [mul_comm c (np e)]
      · simp [shift, he]
  simpa using key Finset.univ

/-! ## Central differences -/

section Central
variable {S : Setup D n} {I : Interp D} {delta : Fin D → ℝ} (hI : IsCentral S I delta)
include hI

theorem central_shift (f : P D → ℝ) (d e : Fin D) (k : ℕ) (a : ℤ) (x : P D) : I.cd d k f (shift x e a) = I.cd d k (fun y => f (shift y e a)) x := by
  simp only [central_eval hI, shift_comm x e d]

theorem central_add_const (f : P D → ℝ) (L : ℝ) (d : Fin D) (x : P D) : I.cd d 1 (fun y => f y + L) x = I.cd d 1 f x := by
  simp only [central_eval hI, mul_add, Finset.sum_add_distrib, ← Finset.sum_mul, Central.C18_annihilates_constants S.order 1 le_rfl, zero_mul, add_zero]

theorem central_comm (f : P D → ℝ) (d e : Fin D) (x : P D) : I.cd d 1 (I.cd e 1 f) x = I.cd e 1 (I.cd d 1 f) x := by
  have key : ∀ d e : Fin D, I.cd d 1 (I.cd e 1 f) x = (∑ p ∈ Central.points S.order, ∑ q ∈ Central.points S.order, Central.weight ℝ S.order 1 p * Central.weight ℝ S.order 1 q * f (shift (shift x d p) e q)) *
      (1 / delta d ^ 1) * (1 / delta e ^ 1) := by
    intro d e
    simp only [central_eval hI, Finset.sum_mul, Finset.mul_sum]
    refine Finset.sum_congr rfl fun p _ => Finset.sum_congr rfl fun q _ => ?_
    ring
  have hs : (∑ p ∈ Central.points S.order, ∑ q ∈ Central.points S.order, Central.weight ℝ S.order 1 p * Central.weight ℝ S.order 1 q * f (shift (shift x d p) e q)) =
      ∑ p ∈ Central.points S.order, ∑ q ∈ Central.points S.order, Central.weight ℝ S.order 1 p * Central.weight ℝ S.order 1 q * f (shift (shift x e p) d q) := by
    rw [Finset.sum_comm]
    exact Finset.sum_congr rfl fun p _ => Finset.sum_congr rfl fun q _ => by rw [shift_comm x d e, mul_comm (Central.weight ℝ S.order 1 p)]
  rw [key d e, key e d, hs, mul_right_comm]

theorem central_neg (f : P D → ℝ) (d : Fin D) (x : P D) : I.cd d 1 (fun y => -f y) x = -I.cd d 1 f x := by
  simp only [central_eval hI, mul_neg, Finset.sum_neg_distrib, neg_mul]

theorem central_constant (d : Fin D) {f : P D → ℝ} {x : P D} (hf : ∀ p, f (shift x d p) = f x) : I.cd d 1 f x = 0 := by
  simp only [central_eval hI, hf, ← Finset.sum_mul, Central.C18_annihilates_constants S.order 1 le_rfl, zero_mul]

/-- The differences of the coordinates of a periodic box are periodic. -/
theorem jacobi_wraps {np : Fin D → ℤ} {X : Fin D → P D → ℝ} (hX : Wraps np X) (d : Fin D) (x : P D) : jacobi I X (shift x d (np d)) = jacobi I X x := by
  ext i j
  obtain ⟨L, hL⟩ := hX i d
  simp only [jacobi, Matrix.of_apply]
  rw [central_shift hI, show (fun y => X i (shift y d (np d))) = fun y => X i y + L from funext hL, central_add_const hI]

/-- Summation by parts: against the surfaces of the cells, derivatives of a periodic field sum to the defects of the metric identities. -/
theorem sum_surfaces {X : Fin D → P D → ℝ} (hX : Wraps S.np X) {f : P D → ℝ} (hf : ∀ d y z, Box S.np S.h [d] y → Box S.np S.h [d] z → Same S.np y z → f y = f z) (j : Fin D) :
    ∑ x ∈ gridPoints S.np, ∑ k, (jacobi I X x).adjugate k j * I.cd k 1 f x = -∑ x ∈ gridPoints S.np, f x * ∑ k, I.cd k 1 (fun y => (jacobi I X y).adjugate k j) x := by
  have hper : ∀ k y z, Same S.np y z → (jacobi I X y).adjugate k j = (jacobi I X z).adjugate k j := fun k y z h =>
    periodic_same (g := fun y => (jacobi I X y).adjugate k j) (fun d x => by simp only [jacobi_wraps hI hX]) h
  rw [eq_neg_iff_add_eq_zero]
  simp only [Finset.mul_sum]
  rw [← Finset.sum_add_distrib]
  simp only [← Finset.sum_add_distrib]
  rw [Finset.sum_comm]
  refine Finset.sum_eq_zero fun k _ => ?_
  exact sum_skew hI k (hf k) fun y z _ _ h => hper k y z h

omit hI in
/-- The metric identities in two dimensions. -/
theorem identities_two {S : Setup 2 n} {I : Interp 2} {delta : Fin 2 → ℝ} (hI : IsCentral S I delta) (X : Fin 2 → P 2 → ℝ) : MetricIdentities I X := by
  intro j x
  rw [Fin.sum_univ_two]
  fin_cases j
  · have h0 : (fun y => (jacobi I X y).adjugate 0 0) = I.cd 1 1 (X 1) := funext fun y => by simp [Matrix.adjugate_fin_two, jacobi]
    have h1 : (fun y => (jacobi I X y).adjugate 1 0) = fun y => -I.cd 0 1 (X 1) y := funext fun y => by simp [Matrix.adjugate_fin_two, jacobi]
    simp only [Fin.zero_eta]
    rw [h0, h1, central_neg hI, central_comm hI, add_neg_cancel]
  · have h0 : (fun y => (jacobi I X y).adjugate 0 1) = fun y => -I.cd 1 1 (X 0) y := funext fun y => by simp [Matrix.adjugate_fin_two, jacobi]
    have h1 : (fun y => (jacobi I X y).adjugate 1 1) = I.cd 0 1 (X 0) := funext fun y => by simp [Matrix.adjugate_fin_two, jacobi]
    simp only [Fin.mk_one]
    rw [h0, h1, central_neg hI, central_comm hI, neg_add_cancel]

/-- The metric identities on stretched grids: every coordinate depends on its own index. -/
theorem identities_stretched {X : Fin D → P D → ℝ} (hX : ∀ i x y, x i = y i → X i x = X i y) : MetricIdentities I X := by
  intro j x
  have hd : ∀ y, jacobi I X y = Matrix.diagonal fun i => I.cd i 1 (X i) y := by
    intro y
    ext i k
    simp only [jacobi, Matrix.of_apply, Matrix.diagonal_apply]
    split_ifs with h
    · rw [h]
    · exact central_constant hI k fun p => hX i _ _ (by simp [shift, h])
  refine Finset.sum_eq_zero fun k _ => central_constant hI k fun p => ?_
  simp only [hd, Matrix.adjugate_diagonal, Matrix.diagonal_apply]
  split_ifs with h
  · refine Finset.prod_congr rfl fun i hi => ?_
    rw [central_shift hI]
    congr 1
    funext y
    exact hX i _ _ (by simp [shift, (Finset.ne_of_mem_erase hi)])
  · rfl

end Central

/-! ## Transformed equations -/

/-- The metric term as it enters the equations. -/
def metricValue (cur str : Fin D → Bool) (m : Mem D) (k j : Fin D) (x : P D) : ℝ :=
  match fdValue cur str k j with
  | .zero => 0
  | .one => 1
  | .stored => m (.data (metricName k j)) x

theorem foldl_terms_eval (I : Interp D) (m : Mem D) (x : P D) (l : List (Ex D)) (t : Ex D) : (l.foldl Ex.add t).eval I m x = t.eval I m x + (l.map fun e => e.eval I m x).sum := by
  induction l generalizing t with
  | nil => simp
  | cons a l ih => rw [List.foldl_cons, ih, List.map_cons, List.sum_cons, ← add_assoc]; rfl

theorem transformed_eval (cur str : Fin D → Bool) (I : Interp D) (m : Mem D) (j : Fin D) (e : Ex D) (x : P D) :
    (transformed cur str j e).eval I m x = ∑ k, metricValue cur str m k j x * I.cd k 1 (e.eval I m) x := by
  have h1 : (transformed cur str j e).eval I m x = ((metricTerms cur str j e).map fun t => t.eval I m x).sum := by
    unfold transformed
    cases metricTerms cur str j e with
    | nil => simp [Ex.eval]
    | cons t l => simp only [foldl_terms_eval, List.map_cons, List.sum_cons]
  rw [h1, ← List.sum_ofFn, List.ofFn_eq_map]
  unfold metricTerms
  induction List.finRange D with
  | nil => rfl
  | cons k l ih =>
    rw [List.filterMap_cons, List.map_cons, List.sum_cons, ← ih]
    cases h : fdValue cur str k j <;> simp [metricValue, h, Ex.eval]

/-- Sums of first derivatives of expressions without derivatives, with constant coefficients. -/
def Ex.firstFluxes : Ex D → Bool
  | .num z => decide (z = 0)
  | .cd _ 1 e => decide (e.cds = [])
  | .add a b => a.firstFluxes && b.firstFluxes
  | .mul a b => a.coef && b.firstFluxes
  | _ => false

theorem coef_mapped (cur str : Fin D → Bool) (e : Ex D) (h : e.coef = true) : e.mapped cur str = e := by
  induction e with
  | mul a b iha ihb => simp only [Ex.coef, Bool.and_eq_true] at h; simp [Ex.mapped, iha h.1, ihb h.2]
  | pow a b iha ihb => simp only [Ex.coef, Bool.and_eq_true] at h; simp [Ex.mapped, iha h.1, ihb h.2]
  | num _ => rfl
  | const _ => rfl
  | _ => simp [Ex.coef] at h

/-- A linear property of right hand sides which the transformed derivatives have. -/
theorem mapped_induction (cur str : Fin D → Bool) (I : Interp D) (m : Mem D) (L : (P D → ℝ) → ℝ) (h0 : L (fun _ => 0) = 0) (hadd : ∀ u v, L u = 0 → L v = 0 → L (fun x => u x + v x) = 0)
    (hmul : ∀ (c : ℝ) u, L u = 0 → L (fun x => c * u x) = 0) (e : Ex D) (he : e.firstFluxes = true)
    (hder : ∀ j a, .cd j 1 a ∈ e.cds → a.cds = [] → L (fun x => ∑ k, metricValue cur str m k j x * I.cd k 1 (a.eval I m) x) = 0) : L ((e.mapped cur str).eval I m) = 0 := by
  induction e with
  | num z =>
    simp only [Ex.firstFluxes, decide_eq_true_eq] at he
    subst he
    simpa [Ex.mapped, Ex.eval] using h0
  | cd j k a _ =>
    match k, he with
    | 1, he =>
      simp only [Ex.firstFluxes, decide_eq_true_eq] at he
      have := hder j a (by simp [Ex.cds]) he
      simp only [Ex.mapped]
      rwa [funext (transformed_eval cur str I m j a)]
    | 0, he => simp [Ex.firstFluxes] at he
    | k + 2, he => simp [Ex.firstFluxes] at he
  | add a b iha ihb =>
    simp only [Ex.firstFluxes, Bool.and_eq_true] at he
    exact hadd _ _ (iha he.1 fun j c hc => hder j c (List.mem_append_left _ hc)) (ihb he.2 fun j c hc => hder j c (List.mem_append_right _ hc))
  | mul a b iha ihb =>
    simp only [Ex.firstFluxes, Bool.and_eq_true] at he
    have hc : ((a.mul b).mapped cur str).eval I m = fun x => a.eval I m (fun _ => 0) * (b.mapped cur str).eval I m x := by
      funext x
      simp only [Ex.mapped, Ex.eval, coef_mapped cur str a he.1]
      rw [coef_eval I m a he.1 x fun _ => 0]
    rw [hc]
    exact hmul _ _ (ihb he.2 fun j c hc => hder j c (List.mem_append_right _ hc))
  | _ => simp [Ex.firstFluxes] at he

end OpenSBLI.Sim
