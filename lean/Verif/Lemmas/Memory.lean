import Verif.Model.Memory

/-! Ranges of the kernels of `Verif.Model.Memory`. -/
namespace OpenSBLI.Mem
open Ranges

variable {n : ℕ}

theorem requestBoth_ranges (t : HaloType) (k : Kernel n) (dirs : List (Fin n)) : (requestBoth t k dirs).ranges = k.ranges := by
  unfold requestBoth
  induction dirs generalizing k with
  | nil => rfl
  | cons d dirs ih => rw [List.foldl_cons, ih]; rfl

theorem requestBoth_halos (t : HaloType) (k : Kernel n) (dirs : List (Fin n)) (d : Fin n) :
    (requestBoth t k dirs).halos d = if d ∈ dirs then ((k.halos d).1 ∪ {t}, (k.halos d).2 ∪ {t}) else k.halos d := by
  unfold requestBoth
  induction dirs generalizing k with
  | nil => simp
  | cons e dirs ih =>
    rw [List.foldl_cons, ih]
    by_cases hd : d = e
    · subst hd
      simp only [Kernel.setHaloRange, Function.update_self, if_true, Bool.false_eq_true, if_false, List.mem_cons, true_or]
      split
      · ext <;> simp
      · rfl
    · simp [Kernel.setHaloRange, hd]

theorem minHalo_empty : minHalo ∅ = 0 := by simp [minHalo]
theorem maxHalo_empty : maxHalo ∅ = 0 := by simp [maxHalo]
theorem minHalo_singleton (t : HaloType) : minHalo {t} = t.1 := by simp [minHalo]
theorem maxHalo_singleton (t : HaloType) : maxHalo {t} = t.2 := by simp [maxHalo]

theorem requestBoth_totalRange (t : HaloType) (np : Fin n → ℤ) (dirs : List (Fin n)) (d : Fin n) :
    (requestBoth t (Kernel.onGrid fun d => (0, np d)) dirs).totalRange d = if d ∈ dirs then (t.1, np d + t.2) else (0, np d) := by
  rw [Kernel.totalRange, requestBoth_ranges, requestBoth_halos]
  by_cases h : d ∈ dirs
  · simp [h, Kernel.onGrid, minHalo_singleton, maxHalo_singleton]
  · simp [h, Kernel.onGrid, minHalo_empty, maxHalo_empty]

theorem visits_requestBoth (t : HaloType) (np : Fin n → ℤ) (dirs : List (Fin n)) (x : Fin n → ℤ) :
    (requestBoth t (Kernel.onGrid fun d => (0, np d)) dirs).visits x ↔
      ∀ d, (d ∈ dirs → t.1 ≤ x d ∧ x d < np d + t.2) ∧ (d ∉ dirs → 0 ≤ x d ∧ x d < np d) := by
  unfold Kernel.visits
  refine forall_congr' fun d => ?_
  rw [requestBoth_totalRange]
  by_cases h : d ∈ dirs <;> simp [h]

theorem along_self (d : Fin n) (j : ℤ) : along d j d = j := by simp [along]
theorem along_ne {d e : Fin n} (h : e ≠ d) (j : ℤ) : along d j e = 0 := by simp [along, h]

theorem mem_points {order : ℕ} {j : ℤ} : j ∈ Central.points order ↔ -((order / 2 : ℕ) : ℤ) ≤ j ∧ j ≤ ((order / 2 : ℕ) : ℤ) := by
  rw [Central.points, Finset.mem_Ico]; omega

theorem weno_points {form : Weno.Formulation} {k : ℕ} {dz : ℝ} {w : Weno.Side → ℕ → ℝ} {j : ℤ} (hk : 1 ≤ k) :
    j ∈ (Llf.Scheme.weno form k dz w).stencilPoints ↔ -((k : ℤ) - 1) ≤ j ∧ j ≤ k := by
  simp only [Llf.Scheme.stencilPoints, Llf.Scheme.funcPoints, Finset.mem_sort, Finset.mem_union, Finset.mem_biUnion, Finset.mem_image,
    Finset.mem_range, Weno.funcPoint, Weno.Side.c]
  constructor
  · rintro (⟨r, hr, i, hi, rfl⟩ | ⟨r, hr, i, hi, rfl⟩) <;> omega
  · rintro ⟨h1, h2⟩
    by_cases hj : j ≤ 0
    · exact Or.inl ⟨(-j).toNat, by omega, 0, by omega, by omega⟩
    · exact Or.inr ⟨0, by omega, (j - 1).toNat, by omega, by omega⟩

theorem teno_points {o : Teno.Order} {eps CT : ℝ} {j : ℤ} :
    j ∈ (Llf.Scheme.teno o eps CT).stencilPoints ↔ -2 ≤ j ∧ j ≤ 3 := by
  have h : ∀ o : Teno.Order, ((Finset.range o.n).biUnion fun i => (Teno.points .right i).toFinset) ∪
      ((Finset.range o.n).biUnion fun i => (Teno.points .left i).toFinset) = Finset.Icc (-2) 3 := by intro o; cases o <;> decide
  rw [Llf.Scheme.stencilPoints, Finset.mem_sort]
  show j ∈ ((Finset.range o.n).biUnion fun i => (Teno.points .right i).toFinset) ∪
      ((Finset.range o.n).biUnion fun i => (Teno.points .left i).toFinset) ↔ _
  rw [h, Finset.mem_Icc]

end OpenSBLI.Mem
