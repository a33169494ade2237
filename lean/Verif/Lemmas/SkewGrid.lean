import Verif.Lemmas.SkewStep
import Verif.Props.C18_C20_Central
import Verif.Props.C77_Periodic

/-!
# Central differences on periodic grids as skew operators
-/
namespace OpenSBLI.Order
open Sim
open scoped RealInnerProductSpace

variable {D n : ℕ} {np : Fin D → ℤ}

/-- Grid points. -/
abbrev GP (np : Fin D → ℤ) := {x : P D // Grid np x}

noncomputable instance : Fintype (GP np) := Fintype.ofFinset (gridPoints np) (mem_gridPoints np)

/-- The point `p` steps further in direction `d`, on the periodic grid. -/
def move (d : Fin D) (p : ℤ) (x : GP np) : GP np := ⟨Function.update x.1 d ((x.1 d + p) % np d), grid_wrap x.2 d p⟩

theorem move_move (d : Fin D) (p : ℤ) (x : GP np) : move d (-p) (move d p x) = x := by
  apply Subtype.ext
  simp only [move, Function.update_self, Function.update_idem]
  have : ((x.1 d + p) % np d + -p) % np d = x.1 d := by
    rw [Int.emod_add_emod, show x.1 d + p + -p = x.1 d by ring]
    exact Int.emod_eq_of_lt (x.2 d).1 (x.2 d).2
  rw [this, Function.update_eq_self]

def moveEquiv (d : Fin D) (p : ℤ) : GP np ≃ GP np where
  toFun := move d p
  invFun := move d (-p)
  left_inv := move_move d p
  right_inv x := by have := move_move d (-p) x; rwa [neg_neg] at this

theorem sum_move (d : Fin D) (p : ℤ) (g : GP np → ℝ) : ∑ x, g (move d p x) = ∑ x, g x := (moveEquiv d p).sum_comp g

/-- Values of `n` components on the grid, with the sum of squares as square of the norm. -/
abbrev Space (np : Fin D → ℤ) (n : ℕ) := EuclideanSpace ℝ (Fin n × GP np)

/-- The discretised system. -/
noncomputable def system (order : ℕ) (M : Fin D → Fin n → Fin n → ℝ) (δ : Fin D → ℝ) : Space np n →ₗ[ℝ] Space np n where
  toFun w := WithLp.toLp 2 fun q => ∑ d, ∑ j, M d q.1 j * ((∑ p ∈ Central.points order, Central.weight ℝ order 1 p * w (j, move d p q.2)) * (1 / δ d))
  map_add' v w := by
    ext q
    simp only [PiLp.add_apply, mul_add, Finset.sum_add_distrib, add_mul]
  map_smul' c w := by
    ext q
    simp only [PiLp.smul_apply, smul_eq_mul, RingHom.id_apply, Finset.mul_sum, Finset.sum_mul]
    refine Finset.sum_congr rfl fun d _ => Finset.sum_congr rfl fun j _ => Finset.sum_congr rfl fun p _ => ?_
    ring

theorem system_apply (order : ℕ) (M : Fin D → Fin n → Fin n → ℝ) (δ : Fin D → ℝ) (w : Space np n) (q : Fin n × GP np) :
    system order M δ w q = ∑ d, ∑ j, M d q.1 j * ((∑ p ∈ Central.points order, Central.weight ℝ order 1 p * w (j, move d p q.2)) * (1 / δ d)) := rfl

theorem inner_system (order : ℕ) (M : Fin D → Fin n → Fin n → ℝ) (δ : Fin D → ℝ) (v w : Space np n) :
    ⟪v, system order M δ w⟫ = ∑ d, ∑ p ∈ Central.points order, ∑ i, ∑ j, M d i j * (Central.weight ℝ order 1 p * (1 / δ d)) * ∑ x, v (i, x) * w (j, move d p x) := by
  rw [PiLp.inner_apply]
  simp only [RCLike.inner_apply, conj_trivial, system_apply, Fintype.sum_prod_type, Finset.sum_mul, Finset.mul_sum]
  -- i x d j p
  have h1 : ∀ i : Fin n, ∑ x : GP np, ∑ d : Fin D, ∑ j : Fin n, ∑ p ∈ Central.points order, M d i j * (Central.weight ℝ order 1 p * w (j, move d p x) * (1 / δ d)) * v (i, x) =
      ∑ d : Fin D, ∑ p ∈ Central.points order, ∑ j : Fin n, ∑ x : GP np, M d i j * (Central.weight ℝ order 1 p * (1 / δ d)) * (v (i, x) * w (j, move d p x)) := by
    intro i
    rw [Finset.sum_comm]
    refine Finset.sum_congr rfl fun d _ => ?_
    rw [Finset.sum_comm]
    simp only [Finset.sum_comm (t := Central.points order)]
    refine Finset.sum_congr rfl fun p _ => Finset.sum_congr rfl fun j _ => Finset.sum_congr rfl fun x _ => ?_
    ring
  simp only [h1]
  rw [Finset.sum_comm]
  refine Finset.sum_congr rfl fun d _ => ?_
  rw [Finset.sum_comm]

/-- For symmetric coefficients the operator is skew. -/
theorem system_skew (order : ℕ) (M : Fin D → Fin n → Fin n → ℝ) (hM : ∀ d i j, M d i j = M d j i) (δ : Fin D → ℝ) (v w : Space np n) : ⟪system order M δ v, w⟫ = -⟪v, system order M δ w⟫ := by
  rw [real_inner_comm, inner_system, inner_system, ← Finset.sum_neg_distrib]
  refine Finset.sum_congr rfl fun d _ => ?_
  rw [← Finset.sum_neg_distrib]
  refine Finset.sum_nbij' (fun p => -p) (fun p => -p) ?_ ?_ (fun _ _ => neg_neg _) (fun _ _ => neg_neg _) ?_
  · intro p hp; rw [Central.mem_points] at hp ⊢; omega
  · intro p hp; rw [Central.mem_points] at hp ⊢; omega
  · intro p hp
    rw [Finset.sum_comm, ← Finset.sum_neg_distrib]
    refine Finset.sum_congr rfl fun i _ => ?_
    rw [← Finset.sum_neg_distrib]
    refine Finset.sum_congr rfl fun j _ => ?_
    rw [hM d j i, Central.C18_parity order 1 p hp]
    have : ∑ x : GP np, w (j, x) * v (i, move d p x) = ∑ x : GP np, v (i, x) * w (j, move d (-p) x) := by
      rw [← sum_move d p fun x => v (i, x) * w (j, move d (-p) x)]
      refine Finset.sum_congr rfl fun x _ => ?_
      rw [move_move, mul_comm]
    rw [this]
    ring

/-- Coefficients and a move. -/
noncomputable def mix (M : Fin n → Fin n → ℝ) (d : Fin D) (p : ℤ) (w : Space np n) : Space np n := WithLp.toLp 2 fun q => ∑ j, M q.1 j * w (j, move d p q.2)

theorem mix_norm (M : Fin n → Fin n → ℝ) (hM : ∀ i j, M i j = M j i) (μ : ℝ) (hμ : ∀ i, ∑ j, |M i j| ≤ μ) (hμ0 : 0 ≤ μ) (d : Fin D) (p : ℤ) (w : Space np n) : ‖mix M d p w‖ ≤ μ * ‖w‖ := by
  refine le_of_sq_le_sq ?_ (by positivity)
  rw [mul_pow, EuclideanSpace.norm_sq_eq, EuclideanSpace.norm_sq_eq]
  simp only [Real.norm_eq_abs, sq_abs, Fintype.sum_prod_type, mix]
  have h1 : ∀ (i : Fin n) (x : GP np), (∑ j, M i j * w (j, move d p x)) ^ 2 ≤ μ * ∑ j, |M i j| * w (j, move d p x) ^ 2 := by
    intro i x
    have h := Finset.sum_mul_sq_le_sq_mul_sq Finset.univ (fun j => √|M i j|) (fun j => √|M i j| * |w (j, move d p x)|)
    have e : ∀ j, √|M i j| * (√|M i j| * |w (j, move d p x)|) = |M i j * w (j, move d p x)| := fun j => by
      rw [← mul_assoc, Real.mul_self_sqrt (abs_nonneg _), abs_mul]
    simp only [e, mul_pow, Real.sq_sqrt (abs_nonneg _), sq_abs] at h
    have h2 : (∑ j, M i j * w (j, move d p x)) ^ 2 ≤ (∑ j, |M i j * w (j, move d p x)|) ^ 2 := by
      rw [sq_le_sq, abs_of_nonneg (a := ∑ j, |M i j * w (j, move d p x)|) (Finset.sum_nonneg fun _ _ => abs_nonneg _)]
      exact Finset.abs_sum_le_sum_abs _ _
    refine h2.trans (h.trans (mul_le_mul_of_nonneg_right (hμ i) (Finset.sum_nonneg fun _ _ => by positivity)))
  calc ∑ i, ∑ x : GP np, (∑ j, M i j * w (j, move d p x)) ^ 2 ≤ ∑ i, ∑ x : GP np, μ * ∑ j, |M i j| * w (j, move d p x) ^ 2 := Finset.sum_le_sum fun i _ => Finset.sum_le_sum fun x _ => h1 i x
    _ = μ * ∑ i, ∑ j, |M i j| * ∑ x : GP np, w (j, x) ^ 2 := by
      simp only [← Finset.mul_sum]
      congr 1
      refine Finset.sum_congr rfl fun i _ => ?_
      rw [Finset.sum_comm]
      refine Finset.sum_congr rfl fun j _ => ?_
      rw [← Finset.mul_sum, sum_move d p fun x => w (j, x) ^ 2]
    _ = μ * ∑ j, (∑ i, |M j i|) * ∑ x : GP np, w (j, x) ^ 2 := by
      congr 1
      rw [Finset.sum_comm]
      refine Finset.sum_congr rfl fun j _ => ?_
      rw [Finset.sum_mul]
      refine Finset.sum_congr rfl fun i _ => by rw [hM i j]
    _ ≤ μ * ∑ j, μ * ∑ x : GP np, w (j, x) ^ 2 := mul_le_mul_of_nonneg_left (Finset.sum_le_sum fun j _ => mul_le_mul_of_nonneg_right (hμ j) (Finset.sum_nonneg fun _ _ => by positivity)) hμ0
    _ = _ := by rw [← Finset.mul_sum]; ring

/-- The size of the operator. -/
theorem system_norm (order : ℕ) (M : Fin D → Fin n → Fin n → ℝ) (hM : ∀ d i j, M d i j = M d j i) (μ : Fin D → ℝ) (hμ : ∀ d i, ∑ j, |M d i j| ≤ μ d) (hμ0 : ∀ d, 0 ≤ μ d) (δ : Fin D → ℝ) (hδ : ∀ d, 0 < δ d) (w : Space np n) :
    ‖system order M δ w‖ ≤ (∑ d, μ d * (∑ p ∈ Central.points order, |Central.weight ℝ order 1 p|) / δ d) * ‖w‖ := by
  have h : system order M δ w = ∑ d, ∑ p ∈ Central.points order, (Central.weight ℝ order 1 p * (1 / δ d)) • mix (M d) d p w := by
    ext q
    rw [system_apply]
    simp only [WithLp.ofLp_sum, WithLp.ofLp_smul, Finset.sum_apply, Pi.smul_apply, smul_eq_mul, mix, Finset.mul_sum, Finset.sum_mul]
    refine Finset.sum_congr rfl fun d _ => ?_
    rw [Finset.sum_comm]
    refine Finset.sum_congr rfl fun p _ => Finset.sum_congr rfl fun j _ => ?_
    ring
  rw [h, Finset.sum_mul]
  refine (norm_sum_le _ _).trans (Finset.sum_le_sum fun d _ => (norm_sum_le _ _).trans ?_)
  rw [Finset.mul_sum, Finset.sum_div, Finset.sum_mul]
  refine Finset.sum_le_sum fun p _ => ?_
  rw [norm_smul, Real.norm_eq_abs, abs_mul, abs_of_pos (one_div_pos.2 (hδ d))]
  calc |Central.weight ℝ order 1 p| * (1 / δ d) * ‖mix (M d) d p w‖ ≤ |Central.weight ℝ order 1 p| * (1 / δ d) * (μ d * ‖w‖) :=
        mul_le_mul_of_nonneg_left (mix_norm (M d) (hM d) (μ d) (hμ d) (hμ0 d) d p w) (by have := hδ d; positivity)
    _ = _ := by ring

end OpenSBLI.Order
