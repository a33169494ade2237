import Verif.Model.Filters
import Mathlib.Analysis.Calculus.MeanValue
import Mathlib.Analysis.Calculus.Deriv.Mul
import Mathlib.Analysis.Calculus.Deriv.Add
import Mathlib.Analysis.SpecialFunctions.ExpDeriv
import Mathlib.Analysis.SpecificLimits.Basic
import Mathlib.Tactic.Ring
import Mathlib.Tactic.NormNum
import Mathlib.Tactic.Linarith
import Mathlib.Tactic.FieldSimp
import Mathlib.Tactic.Positivity
import Mathlib.Tactic.LinearCombination

/-!
# C52 Selective frequency damping
-/
namespace OpenSBLI.Filters

/-! ## Running one group of assignments -/

theorem exec_append (a b : List Assign) (s : Point) : exec (a ++ b) s = exec b (exec a s) := List.foldl_append

/-- A group of assignments whose targets differ and whose right hand sides do not read the other targets. -/
theorem exec_group (n : ℕ) (tgt : ℕ → Slot) (rhs : ℕ → Point → ℝ) (inj : ∀ i j, tgt i = tgt j → i = j)
    (ind : ∀ i j s v, i ≠ j → rhs i (Function.update s (tgt j) v) = rhs i s) (s : Point) :
    (∀ i, i < n → exec ((List.range n).map fun i => ⟨tgt i, rhs i⟩) s (tgt i) = rhs i s) ∧
      ∀ z, (∀ i, i < n → z ≠ tgt i) → exec ((List.range n).map fun i => ⟨tgt i, rhs i⟩) s z = s z := by
  have rd : ∀ n i, n ≤ i → rhs i (exec ((List.range n).map fun i => ⟨tgt i, rhs i⟩) s) = rhs i s := by
    intro n
    induction n with
    | zero => intro i _; rfl
    | succ n ih =>
      intro i hi
      rw [List.range_succ, List.map_append, exec_append]
      simp only [List.map_cons, List.map_nil, exec, List.foldl_cons, List.foldl_nil]
      rw [ind i n _ _ (by omega)]
      exact ih i (by omega)
  induction n with
  | zero => exact ⟨fun i hi => absurd hi (by omega), fun z _ => rfl⟩
  | succ n ih =>
    have e : ∀ z, exec ((List.range (n + 1)).map fun i => ⟨tgt i, rhs i⟩) s z =
        Function.update (exec ((List.range n).map fun i => ⟨tgt i, rhs i⟩) s) (tgt n) (rhs n s) z := by
      intro z
      rw [List.range_succ, List.map_append, exec_append]
      simp only [List.map_cons, List.map_nil, exec, List.foldl_cons, List.foldl_nil]
      have := rd n n le_rfl
      rw [exec] at this
      rw [this]
    constructor
    · intro i hi
      rw [e]
      by_cases h : i = n
      · subst h; simp
      · rw [Function.update_of_ne (fun hh => h (inj _ _ hh))]
        exact ih.1 i (by omega)
    · intro z hz
      rw [e, Function.update_of_ne (hz n (by omega))]
      exact ih.2 z fun i hi => hz i (by omega)

/-! ## Closed form of one application -/

section sfd

variable (chi omega dt : ℝ) (n : ℕ)

theorem sfdFilter_at (s : Point) (i : ℕ) (hi : i < n) :
    exec (sfdFilter chi omega dt n) s (.filt i) =
        (s (.cons i) * (1 - Real.exp (-(chi + omega) * dt)) + s (.filt i) * (chi / omega + Real.exp (-(chi + omega) * dt))) / (chi / omega + 1) ∧
      exec (sfdFilter chi omega dt n) s (.cons i) =
        (s (.cons i) * (Real.exp (-(chi + omega) * dt) * chi / omega + 1) +
          s (.filt i) * chi / omega * (1 - Real.exp (-(chi + omega) * dt))) / (chi / omega + 1) := by
  unfold sfdFilter
  rw [exec_append, exec_append]
  set s1 := exec ((List.range n).map fun i => (⟨.old i, fun s => s (.filt i)⟩ : Assign)) s with h1
  have g1 := exec_group n Slot.old (fun i s => s (.filt i)) (by rintro i j ⟨⟩; rfl) (by intro i j s v _; simp) s
  rw [← h1] at g1
  set s2 := exec ((List.range n).map fun i => (⟨.filt i, fun s =>
    (s (.cons i) * (1 - Real.exp (-(chi + omega) * dt)) + s (.filt i) * (chi / omega + Real.exp (-(chi + omega) * dt))) / (chi / omega + 1)⟩ : Assign)) s1
    with h2
  have g2 := exec_group n Slot.filt (fun i s =>
    (s (.cons i) * (1 - Real.exp (-(chi + omega) * dt)) + s (.filt i) * (chi / omega + Real.exp (-(chi + omega) * dt))) / (chi / omega + 1))
    (by rintro i j ⟨⟩; rfl) (by
      intro i j s v h
      have : Slot.filt i ≠ Slot.filt j := by rintro ⟨⟩; exact h rfl
      simp [Function.update_of_ne this]) s1
  rw [← h2] at g2
  have g3 := exec_group n Slot.cons (fun i s =>
    (s (.cons i) * (Real.exp (-(chi + omega) * dt) * chi / omega + 1) + s (.old i) * chi / omega * (1 - Real.exp (-(chi + omega) * dt)))
      / (chi / omega + 1))
    (by rintro i j ⟨⟩; rfl) (by
      intro i j s v h
      have : Slot.cons i ≠ Slot.cons j := by rintro ⟨⟩; exact h rfl
      simp [Function.update_of_ne this]) s2
  have c1 : s1 (.cons i) = s (.cons i) := g1.2 _ (by rintro j _ ⟨⟩)
  have f1 : s1 (.filt i) = s (.filt i) := g1.2 _ (by rintro j _ ⟨⟩)
  have o1 : s1 (.old i) = s (.filt i) := g1.1 i hi
  have c2 : s2 (.cons i) = s1 (.cons i) := g2.2 _ (by rintro j _ ⟨⟩)
  have o2 : s2 (.old i) = s1 (.old i) := g2.2 _ (by rintro j _ ⟨⟩)
  constructor
  · rw [g3.2 (.filt i) (by rintro j _ ⟨⟩), g2.1 i hi]
    simp only [c1, f1]
  · rw [g3.1 i hi]
    simp only [c2, o2, c1, o1]

end sfd

/-! ## C52 -/

/-- C52: one application is the exact flow of the damping equations over one time step: for every variable, if `V` and `F` solve
`V' = -χ (V - F)`, `F' = ω (V - F)` and start at the stored values, the kernel leaves `V dt` and `F dt`. -/
theorem C52_exact_flow (chi omega dt : ℝ) (ho : omega ≠ 0) (hs : chi + omega ≠ 0) (n : ℕ) (s : Point) (i : ℕ) (hi : i < n)
    (V F : ℝ → ℝ) (hV : ∀ t, HasDerivAt V (-chi * (V t - F t)) t) (hF : ∀ t, HasDerivAt F (omega * (V t - F t)) t)
    (v0 : V 0 = s (.cons i)) (f0 : F 0 = s (.filt i)) :
    exec (sfdFilter chi omega dt n) s (.cons i) = V dt ∧ exec (sfdFilter chi omega dt n) s (.filt i) = F dt := by
  -- two conserved combinations
  have a : ∀ t, HasDerivAt (fun t => omega * V t + chi * F t) 0 t := fun t =>
    (((hV t).const_mul omega).add ((hF t).const_mul chi)).congr_deriv (by ring)
  have b : ∀ t, HasDerivAt (fun t => (V t - F t) * Real.exp ((chi + omega) * t)) 0 t := fun t => by
    have he : HasDerivAt (fun t => Real.exp ((chi + omega) * t)) (Real.exp ((chi + omega) * t) * (chi + omega)) t := by
      simpa using ((hasDerivAt_id t).const_mul (chi + omega)).exp
    exact (((hV t).sub (hF t)).mul he).congr_deriv (by simp only [Pi.sub_apply]; ring)
  have ca : omega * V dt + chi * F dt = omega * V 0 + chi * F 0 :=
    is_const_of_deriv_eq_zero (f := fun t => omega * V t + chi * F t) (fun t => (a t).differentiableAt) (fun t => (a t).deriv) dt 0
  have cb : (V dt - F dt) * Real.exp ((chi + omega) * dt) = (V 0 - F 0) * Real.exp ((chi + omega) * 0) :=
    is_const_of_deriv_eq_zero (f := fun t => (V t - F t) * Real.exp ((chi + omega) * t)) (fun t => (b t).differentiableAt)
      (fun t => (b t).deriv) dt 0
  obtain ⟨hf, hc⟩ := sfdFilter_at chi omega dt n s i hi
  rw [hf, hc, ← v0, ← f0]
  set E := Real.exp (-(chi + omega) * dt) with hE
  have hEE : Real.exp ((chi + omega) * dt) * E = 1 := by
    rw [hE, ← Real.exp_add, ← add_mul, add_neg_cancel, zero_mul, Real.exp_zero]
  have cb' : V dt - F dt = (V 0 - F 0) * E := by
    have := congrArg (· * E) cb
    simp only [mul_zero, Real.exp_zero, mul_one] at this
    rw [mul_assoc, hEE, mul_one] at this
    exact this
  have hd : chi / omega + 1 ≠ 0 := by
    intro h; apply hs; field_simp at h; linarith
  constructor
  · rw [div_eq_iff hd]
    field_simp
    linear_combination -ca - chi * cb'
  · rw [div_eq_iff hd]
    field_simp
    linear_combination -ca + omega * cb'

/-- C52: the difference between solution and filtered solution shrinks by the factor `exp(-(χ+ω) dt)` and the weighted sum `ω v + χ f` is kept. -/
theorem C52_invariants (chi omega dt : ℝ) (ho : omega ≠ 0) (hs : chi + omega ≠ 0) (n : ℕ) (s : Point) (i : ℕ) (hi : i < n) :
    let s' := exec (sfdFilter chi omega dt n) s
    s' (.cons i) - s' (.filt i) = Real.exp (-(chi + omega) * dt) * (s (.cons i) - s (.filt i)) ∧
      omega * s' (.cons i) + chi * s' (.filt i) = omega * s (.cons i) + chi * s (.filt i) := by
  obtain ⟨hf, hc⟩ := sfdFilter_at chi omega dt n s i hi
  simp only [hf, hc]
  have hd : chi + omega ≠ 0 := hs
  constructor
  · field_simp; ring
  · field_simp; ring

/-- C52: the variables do not interact and only the listed arrays change. -/
theorem C52_local (chi omega dt : ℝ) (n : ℕ) (s t : Point) (i : ℕ) (hi : i < n) (hc : s (.cons i) = t (.cons i)) (hf : s (.filt i) = t (.filt i)) :
    exec (sfdFilter chi omega dt n) s (.cons i) = exec (sfdFilter chi omega dt n) t (.cons i) ∧
      exec (sfdFilter chi omega dt n) s (.filt i) = exec (sfdFilter chi omega dt n) t (.filt i) := by
  rw [(sfdFilter_at chi omega dt n s i hi).1, (sfdFilter_at chi omega dt n s i hi).2, (sfdFilter_at chi omega dt n t i hi).1,
    (sfdFilter_at chi omega dt n t i hi).2, hc, hf]
  exact ⟨rfl, rfl⟩

/-- C52: with positive coefficients a state is left unchanged exactly when the solution equals its filtered value: the filter adds no steady state
and removes none. -/
theorem C52_steady_iff (chi omega dt : ℝ) (hc : 0 < chi) (ho : 0 < omega) (hdt : 0 < dt) (n : ℕ) (s : Point) (i : ℕ) (hi : i < n) :
    exec (sfdFilter chi omega dt n) s (.cons i) = s (.cons i) ↔ s (.cons i) = s (.filt i) := by
  rw [(sfdFilter_at chi omega dt n s i hi).2]
  have hE : Real.exp (-(chi + omega) * dt) < 1 := by
    rw [Real.exp_lt_one_iff]
    have : 0 < (chi + omega) * dt := by positivity
    linarith [neg_mul (chi + omega) dt]
  set E := Real.exp (-(chi + omega) * dt)
  rw [div_eq_iff (by positivity)]
  constructor
  · intro h
    field_simp at h
    have : chi * (1 - E) * (s (.cons i) - s (.filt i)) = 0 := by linear_combination -h
    rcases mul_eq_zero.mp this with h | h
    · exact absurd h (mul_pos hc (by linarith)).ne'
    · linarith
  · intro h
    rw [← h]
    field_simp
    ring

/-- The filter applied `k` times to a state that does not change in between. -/
noncomputable def sfdIterate (chi omega dt : ℝ) (n : ℕ) (s : Point) : ℕ → Point
  | 0 => s
  | k + 1 => exec (sfdFilter chi omega dt n) (sfdIterate chi omega dt n s k)

/-- C52: repeated application drives both arrays to the same weighted mean, from any values. -/
theorem C52_limit (chi omega dt : ℝ) (hc : 0 < chi) (ho : 0 < omega) (hdt : 0 < dt) (n : ℕ) (s : Point) (i : ℕ) (hi : i < n) :
    Filter.Tendsto (fun k => sfdIterate chi omega dt n s k (.cons i)) Filter.atTop
        (nhds ((omega * s (.cons i) + chi * s (.filt i)) / (chi + omega))) ∧
      Filter.Tendsto (fun k => sfdIterate chi omega dt n s k (.filt i)) Filter.atTop
        (nhds ((omega * s (.cons i) + chi * s (.filt i)) / (chi + omega))) := by
  have hs : chi + omega ≠ 0 := by positivity
  set E := Real.exp (-(chi + omega) * dt) with hEdef
  have hE : E < 1 := by
    rw [hEdef, Real.exp_lt_one_iff]
    have : 0 < (chi + omega) * dt := by positivity
    linarith [neg_mul (chi + omega) dt]
  have hE0 : 0 < E := Real.exp_pos _
  have inv : ∀ k, sfdIterate chi omega dt n s k (.cons i) - sfdIterate chi omega dt n s k (.filt i) = E ^ k * (s (.cons i) - s (.filt i)) ∧
      omega * sfdIterate chi omega dt n s k (.cons i) + chi * sfdIterate chi omega dt n s k (.filt i) = omega * s (.cons i) + chi * s (.filt i) := by
    intro k
    induction k with
    | zero => simp [sfdIterate]
    | succ k ih =>
      have := C52_invariants chi omega dt ho.ne' hs n (sfdIterate chi omega dt n s k) i hi
      simp only [sfdIterate]
      refine ⟨?_, this.2.trans ih.2⟩
      rw [this.1, ih.1, ← hEdef, pow_succ]; ring
  have ec : ∀ k, sfdIterate chi omega dt n s k (.cons i) =
      (omega * s (.cons i) + chi * s (.filt i)) / (chi + omega) + E ^ k * (chi / (chi + omega) * (s (.cons i) - s (.filt i))) := by
    intro k
    obtain ⟨a, b⟩ := inv k
    field_simp
    linear_combination b + chi * a
  have ef : ∀ k, sfdIterate chi omega dt n s k (.filt i) =
      (omega * s (.cons i) + chi * s (.filt i)) / (chi + omega) + E ^ k * (-(omega / (chi + omega) * (s (.cons i) - s (.filt i)))) := by
    intro k
    obtain ⟨a, b⟩ := inv k
    field_simp
    linear_combination b - omega * a
  have lim : Filter.Tendsto (fun k : ℕ => E ^ k) Filter.atTop (nhds 0) := tendsto_pow_atTop_nhds_zero_of_lt_one hE0.le hE
  constructor
  · simp only [ec]
    simpa using (lim.mul_const (chi / (chi + omega) * (s (.cons i) - s (.filt i)))).const_add
      ((omega * s (.cons i) + chi * s (.filt i)) / (chi + omega))
  · simp only [ef]
    simpa using (lim.mul_const (-(omega / (chi + omega) * (s (.cons i) - s (.filt i))))).const_add
      ((omega * s (.cons i) + chi * s (.filt i)) / (chi + omega))

/-- C52: after the initial kernel the filtered arrays hold the initial solution, which itself is unchanged, so that the first application
has no effect on a solution that did not move. -/
theorem C52_initial (n : ℕ) (s : Point) (i : ℕ) (hi : i < n) :
    exec (sfdInit n) s (.filt i) = s (.cons i) ∧ exec (sfdInit n) s (.cons i) = s (.cons i) := by
  have g := exec_group n Slot.filt (fun i s => s (.cons i)) (by rintro i j ⟨⟩; rfl) (by intro i j s v _; simp) s
  exact ⟨g.1 i hi, g.2 _ (by rintro j _ ⟨⟩)⟩

/-- The defaults of the code satisfy the hypotheses: `χ = 0.1`, `ω = 1/0.75`; the limit for v = 3, f = 1 is (4/3·3 + 1/10)/(43/30). -/
example : (0 : ℝ) < 1 / 10 ∧ (0 : ℝ) < 4 / 3 ∧ ((4 / 3 : ℝ) * 3 + 1 / 10 * 1) / (1 / 10 + 4 / 3) = 123 / 43 := by norm_num

/-- The damping equations have solutions from every initial value. -/
example (chi omega v f : ℝ) (hs : chi + omega ≠ 0) : ∃ V F : ℝ → ℝ, V 0 = v ∧ F 0 = f ∧
    (∀ t, HasDerivAt V (-chi * (V t - F t)) t) ∧ ∀ t, HasDerivAt F (omega * (V t - F t)) t := by
  have he : ∀ t, HasDerivAt (fun t => Real.exp (-(chi + omega) * t)) (Real.exp (-(chi + omega) * t) * -(chi + omega)) t := fun t => by
    simpa using ((hasDerivAt_id t).const_mul (-(chi + omega))).exp
  refine ⟨fun t => (omega * v + chi * f) / (chi + omega) + chi / (chi + omega) * (v - f) * Real.exp (-(chi + omega) * t),
    fun t => (omega * v + chi * f) / (chi + omega) - omega / (chi + omega) * (v - f) * Real.exp (-(chi + omega) * t), ?_, ?_, fun t => ?_, fun t => ?_⟩
  · simp; field_simp; ring
  · simp; field_simp; ring
  · refine (((he t).const_mul (chi / (chi + omega) * (v - f))).const_add _).congr_deriv ?_
    field_simp
    ring
  · refine (((he t).const_mul (omega / (chi + omega) * (v - f))).const_sub _).congr_deriv ?_
    field_simp
    ring

end OpenSBLI.Filters
