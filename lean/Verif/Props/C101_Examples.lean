import Verif.Props.C101_Orders

/-!
# C101: cases
-/
namespace OpenSBLI.Orders
open Polynomial Finset
open OpenSBLI.Weno (Side OptimalWeights reconstruction)

/-- C101 (finding): in Python 2 the scheme of order one has the points `-1` and `0`, and its second derivative is zero for every field: viscous terms disappear. -/
theorem C101_order_one_has_no_second_derivative (delta : ℝ) (f : ℤ → ℝ) (x : ℤ) :
    ∃ D, central .two 1 2 = .ok D ∧ D delta f x = 0 := by
  have hp : centralPoints .two 1 = Icc (-1) 0 := by simpa using centralPoints_odd_two 0
  refine ⟨formulaOn (Icc (-1) 0) 2, ?_, ?_⟩
  · rw [central, hp, if_neg]
    exact (nonempty_Icc.2 (by omega)).ne_empty
  · have hw : ∀ p ∈ Icc (-1:ℤ) 0, weightOn (Icc (-1) 0) 2 p = 0 := by
      intro p hp
      have hd : (Lagrange.basis (Icc (-1:ℤ) 0) (fun i : ℤ => (i:ℝ)) p).natDegree = #(Icc (-1:ℤ) 0) - 1 :=
        Lagrange.natDegree_basis (fun _ _ _ _ h => Int.cast_injective (α := ℝ) h) hp
      rw [Int.card_Icc] at hd
      rw [weightOn, iterate_derivative_eq_zero (by rw [hd]; decide), eval_zero]
    rw [formulaOn, sum_eq_zero fun p hp => by rw [hw p hp, zero_mul], zero_mul]

/-- The fourth order scheme of most applications has order four, for second derivatives too. -/
example (py : Python) : ∃ D, central py 4 2 = .ok D ∧ HasOrder 4 2 D := by
  obtain ⟨D, h, ho, -⟩ := (C101_central py 4 2 (Or.inr rfl)).2 (by decide)
  exact ⟨D, h, ho (Or.inl rfl)⟩

/-- Order three: met by first derivatives in Python 2, order two otherwise. -/
example : (∃ D, central .two 3 1 = .ok D ∧ HasOrder 3 1 D) ∧ (∃ D, central .two 3 2 = .ok D ∧ HasOrder 2 2 D) ∧ ∃ D, central .three 3 1 = .ok D ∧ HasOrder 2 1 D := by
  refine ⟨?_, ?_, ?_⟩
  · obtain ⟨D, h, ho, -⟩ := (C101_central .two 3 1 (Or.inl rfl)).2 (by decide)
    exact ⟨D, h, ho (Or.inr ⟨rfl, rfl⟩)⟩
  · obtain ⟨D, h, -, ho⟩ := (C101_central .two 3 2 (Or.inr rfl)).2 (by decide)
    exact ⟨D, h, ho ⟨rfl, Or.inr rfl⟩⟩
  · obtain ⟨D, h, -, ho⟩ := (C101_central .three 3 1 (Or.inl rfl)).2 (by decide)
    exact ⟨D, h, ho ⟨rfl, Or.inl rfl⟩⟩

/-- The points of order three. -/
example : (-2:ℤ) ∈ centralPoints .two 3 ∧ (2:ℤ) ∉ centralPoints .two 3 ∧ centralHalos .two 3 = (-2, 1) := by
  rw [show (3:ℤ) = 2*((1:ℕ):ℤ)+1 by decide, centralPoints_odd_two]
  exact ⟨by simp, by simp, by decide⟩

theorem weno_six : weno 6 "z" = .ok (.Z, 3) := by decide +kernel

/-- WENO-Z asked for with order six has order five. -/
example : ∃ w, OptimalWeights ℝ .right 3 w ∧ ReconHasOrder 5 (reconstruction .right 3 w) ∧ ¬ ReconAtLeast 6 (reconstruction .right 3 w) := by
  have hw : OptimalWeights ℝ .right 3 (Weno.optimal .right 3) := (Weno.C07_weights_unique .right 3 _).2 fun r _ => rfl
  have h := ((C101_weno 6 "z").2 .Z 3 weno_six).2 .right _ hw
  exact ⟨_, hw, h, h.2⟩

/-- Requests which are refused: order two, a formulation which does not exist, WENO-Z of order 15; WENO-JS of order 15 is built. -/
example : weno 2 "JS" = .error .attributeError ∧ weno 5 "M" = .error .notImplemented ∧ weno 15 "Z" = .error .valueError ∧ weno 15 "js" = .ok (.JS, 8) := by
  decide +kernel

example : weno 6 "Z" = weno 5 "Z" := (C101_weno_even 2 "Z").1

example (side : Side) : ReconHasOrder 4 (Teno.linearScheme .five side) := (C101_teno 5).2 .five rfl side

example : teno 8 = .error .notImplemented := rfl

/-- The fourth order low storage scheme. -/
example : ∃ A B, rungeKuttaLS 4 none = .ok (A, B) ∧ A.length = 5 ∧ B.length = 5 := by
  refine ⟨_, _, by rw [rungeKuttaLS, if_neg (by simp), if_neg (by decide), if_pos rfl], by simp [RK.lsA4], by simp [RK.lsB4]⟩

example : rungeKuttaLS 4 (some "SSP") = .error .valueError ∧ rungeKuttaLS 5 none = .error .unboundLocal ∧ rungeKutta 4 = .error .notImplemented := by
  refine ⟨by simp [rungeKuttaLS], by simp [rungeKuttaLS], by simp [rungeKutta]⟩

example : rungeKuttaLS 3 (some "ssp") = rungeKuttaLS 3 none := (C101_formulation_ignored 3 "ssp" (by decide)).1

end OpenSBLI.Orders
