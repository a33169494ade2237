import Verif.Model.ShockProgram
import Verif.Props.C68_Monitor
import Mathlib.Tactic.NormNum
import Mathlib.Tactic.Ring

/-!
# C78: averages of the states
-/
namespace OpenSBLI.Sim

/-! ## Averages read what they should -/

/-- C78: so does the simple average. -/
theorem C78_simple_average_reads (t : String) (l l' r r' : String → ℝ) (h : ∀ u ∈ [t], l u = l' u ∧ r u = r' u) : simpleAvg l r t = simpleAvg l' r' t := by
  obtain ⟨h1, h2⟩ := h t (by simp)
  simp only [simpleAvg, h1, h2]

/-- C78: the Roe average depends only on the datasets listed as read. -/
theorem C78_roe_average_reads (d : ℕ) (g : ℝ) (t : String) (l l' r r' : String → ℝ) (h : ∀ u ∈ roeReads d t, l u = l' u ∧ r u = r' u) : roeAvg d g l r t = roeAvg d g l' r' t := by
  have hp : primOf d l = primOf d l' ∧ primOf d r = primOf d r' := by
    have hu : ∀ i : Fin d, s!"u{i.val}" ∈ roeReads d t := fun i => by
      unfold roeReads
      simp only [List.mem_cons, List.mem_map, List.mem_finRange, true_and]
      exact .inr (.inr (.inr (.inr ⟨i, rfl⟩)))
    have h1 := h "rho" (by simp [roeReads])
    have h2 := h "p" (by simp [roeReads])
    have h3 := h "rhoE" (by simp [roeReads])
    unfold primOf
    rw [h1.1, h1.2, h2.1, h2.2, h3.1, h3.2]
    exact ⟨by congr 1; funext i; exact (h _ (hu i)).1, by congr 1; funext i; exact (h _ (hu i)).2⟩
  have ht := h t (by simp [roeReads])
  unfold roeAvg
  rw [hp.1, hp.2, ht.1, ht.2]


/-! ## Values -/

theorem velocity_name (i : ℕ) : s!"u{i}" = "u" ++ toString i := by
  simp [toString]

theorem velocity_ne (i : ℕ) : s!"u{i}" ≠ "rho" ∧ s!"u{i}" ≠ "a" := by
  rw [velocity_name]
  constructor <;> intro h <;> simpa using congrArg (fun s => s.toList.head?) h

theorem velocity_inj {i j : ℕ} (h : s!"u{i}" = s!"u{j}") : i = j := by
  rw [velocity_name, velocity_name] at h
  exact Mon.toString_injective (String.toList_injective (by simpa using congrArg String.toList h))

/-- C78: the Roe average of two states, in any number of dimensions: density, velocities and speed of sound are the square root weighted means, every other dataset is the mean. -/
theorem C78_roe_average (d : ℕ) (g : ℝ) (l r : String → ℝ) :
    let mean (f f' : ℝ) : ℝ := (Real.sqrt (l "rho") * f + Real.sqrt (r "rho") * f') / (Real.sqrt (l "rho") + Real.sqrt (r "rho"))
    roeAvg d g l r "rho" = Real.sqrt (l "rho" * r "rho") ∧
    (∀ i : Fin d, roeAvg d g l r s!"u{i.val}" = mean (l s!"u{i.val}") (r s!"u{i.val}")) ∧
    roeAvg d g l r "a" = Real.sqrt ((g - 1) * (mean ((l "p" + l "rhoE") / l "rho") ((r "p" + r "rhoE") / r "rho") - (∑ i : Fin d, mean (l s!"u{i.val}") (r s!"u{i.val}") ^ 2) / 2)) ∧
    ∀ t, t ≠ "rho" → t ≠ "a" → (∀ i : Fin d, t ≠ s!"u{i.val}") → roeAvg d g l r t = (l t + r t) / 2 := by
  intro mean
  have hu : ∀ i : Fin d, Llf.roeU (primOf d l) (primOf d r) i = mean (l s!"u{i.val}") (r s!"u{i.val}") := fun i => by
    simp only [Llf.roeU, Llf.roeInv, primOf, mean, div_eq_mul_inv]
    rw [add_comm (Real.sqrt (r "rho"))]
  refine ⟨by simp [roeAvg, Llf.roeRho, primOf], fun i => ?_, ?_, fun t h1 h2 h3 => ?_⟩
  · have hf : (List.finRange d).find? (fun j => decide (s!"u{i.val}" = s!"u{j.val}")) = some i := by
      have hi : i ∈ List.finRange d := List.mem_finRange i
      cases h : (List.finRange d).find? (fun j => decide (s!"u{i.val}" = s!"u{j.val}")) with
      | none =>
        have := List.find?_eq_none.1 h i hi
        simp at this
      | some j =>
        have := List.find?_some h
        simp only [decide_eq_true_eq] at this
        rw [Fin.ext (velocity_inj this)]
    rw [roeAvg, if_neg (velocity_ne i).1, if_neg (velocity_ne i).2, hf]
    exact hu i
  · rw [roeAvg, if_neg (by decide), if_pos rfl, Llf.roeA, Llf.roeH, Llf.roeKE]
    simp only [hu]
    congr 2
    simp only [Llf.enthalpy, Llf.roeInv, primOf, mean, div_eq_mul_inv]
    rw [add_comm (Real.sqrt (r "rho")), add_comm (l "rhoE"), add_comm (r "rhoE")]
    ring
  · have hf : (List.finRange d).find? (fun j => decide (t = s!"u{j.val}")) = none := by
      rw [List.find?_eq_none]
      intro j _
      simpa using h3 j
    rw [roeAvg, if_neg h1, if_neg h2, hf]
    simp [Llf.simpleAverage]

/-- C78: the simple average is the mean of the two values. -/
theorem C78_simple_average (l r : String → ℝ) (t : String) : simpleAvg l r t = (l t + r t) / 2 := rfl

/-- Between `rho = 1, u0 = 1` and `rho = 4, u0 = 4` the velocity is 3. -/
example : roeAvg 1 (7/5) (fun _ => 1) (fun _ => 4) "u0" = 3 := by
  have h := (C78_roe_average 1 (7/5) (fun _ => 1) (fun _ => 4)).2.1 0
  have h4 : Real.sqrt 4 = 2 := by rw [show (4 : ℝ) = 2 ^ 2 by norm_num]; exact Real.sqrt_sq (by norm_num)
  have hn : s!"u{(0 : Fin 1).val}" = "u0" := by decide
  rw [hn] at h
  rw [h]
  simp only [Real.sqrt_one, h4]
  norm_num

end OpenSBLI.Sim
