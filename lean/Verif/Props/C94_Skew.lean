import Verif.Props.C77_Conservation

/-!
# C94: conservation by whole programs whose equations are in skew-symmetric form

C19 is about the formula on a periodic grid; here the arrays of the generated program are summed, after any number of steps and whatever the constituent relations are.
-/
namespace OpenSBLI.Sim

variable {D n : ℕ}

/-! ## Summation by parts -/

theorem sum_parts {np : Fin D → ℤ} {h : ℤ} (d : Fin D) {a b : P D → ℝ} (ha : ∀ y z, Box np h [d] y → Box np h [d] z → Same np y z → a y = a z)
    (hb : ∀ y z, Box np h [d] y → Box np h [d] z → Same np y z → b y = b z) (p : ℤ) (hp : |p| ≤ h) :
    ∑ x ∈ gridPoints np, a x * b (shift x d p) = ∑ x ∈ gridPoints np, a (shift x d (-p)) * b x := by
  have hh : 0 ≤ h := (abs_nonneg p).trans hp
  have hback : ∀ x : P D, shift (shift x d p) d (-p) = x := fun x => by simp [shift]
  rw [← sum_wrap d (fun x => a (shift x d (-p)) * b x) p]
  · exact Finset.sum_congr rfl fun x _ => by rw [hback]
  · intro x hx
    have hx0 : Box np h [] x := (box_nil _ _ _).2 hx
    have hw := grid_wrap hx d p
    have hsame : Same np (shift x d p) (Function.update x d ((x d + p) % np d)) := by
      intro e
      by_cases he : e = d
      · subst he; simp [shift]
      · simp [shift, he]
    have hw0 : Box np h [] (Function.update x d ((x d + p) % np d)) := (box_nil _ _ _).2 hw
    have e1 : b (shift x d p) = b (Function.update x d ((x d + p) % np d)) := hb _ _ (hx0.shift (by simp) hp) (hw0.mono hh (by simp)) hsame
    have e2 : a (shift (shift x d p) d (-p)) = a (shift (Function.update x d ((x d + p) % np d)) d (-p)) :=
      ha _ _ (by rw [hback]; exact hx0.mono hh (by simp)) (hw0.shift (by simp) (by rwa [abs_neg])) (hsame.shift d (-p))
    simp only [e1, e2]

/-- The first differences of a pair of periodic functions, weighted with each other, sum to zero. -/
theorem sum_skew {S : Setup D n} {I : Interp D} {delta : Fin D → ℝ} (hI : IsCentral S I delta) (d : Fin D) {a b : P D → ℝ}
    (ha : ∀ y z, Box S.np S.h [d] y → Box S.np S.h [d] z → Same S.np y z → a y = a z) (hb : ∀ y z, Box S.np S.h [d] y → Box S.np S.h [d] z → Same S.np y z → b y = b z) :
    ∑ x ∈ gridPoints S.np, (b x * I.cd d 1 a x + a x * I.cd d 1 b x) = 0 := by
  have key : ∀ u v : P D → ℝ, ∑ x ∈ gridPoints S.np, u x * I.cd d 1 v x =
      (∑ p ∈ Central.points S.order, Central.weight ℝ S.order 1 p * ∑ x ∈ gridPoints S.np, u x * v (shift x d p)) * (1 / delta d ^ 1) := by
    intro u v
    simp only [central_eval hI, Finset.mul_sum, Finset.sum_mul]
    rw [Finset.sum_comm]
    exact Finset.sum_congr rfl fun p _ => Finset.sum_congr rfl fun x _ => by ring
  rw [Finset.sum_add_distrib, key, key, ← add_mul]
  have hneg : ∑ p ∈ Central.points S.order, Central.weight ℝ S.order 1 p * ∑ x ∈ gridPoints S.np, a x * b (shift x d p) =
      ∑ p ∈ Central.points S.order, -(Central.weight ℝ S.order 1 p * ∑ x ∈ gridPoints S.np, b x * a (shift x d p)) := by
    have hm : ∀ p ∈ Central.points S.order, -p ∈ Central.points S.order := fun p hp => by rw [Central.mem_points] at *; omega
    refine Finset.sum_nbij' (fun p => -p) (fun p => -p) hm hm (fun p _ => neg_neg p) (fun p _ => neg_neg p) fun p hp => ?_
    rw [sum_parts d ha hb p (points_abs S hp), Central.C18_parity S.order 1 p hp]
    rw [Finset.sum_congr rfl fun x _ => mul_comm (a (shift x d (-p))) (b x)]
    ring
  rw [hneg, ← Finset.sum_add_distrib, Finset.sum_congr rfl fun p _ => add_neg_cancel _, Finset.sum_const_zero, zero_mul]

/-! ## Right hand sides -/

/-- Right hand sides made of derivatives with constant coefficients and of pairs `b Der(a) + a Der(b)`, as `Skew` writes them (core/parsing.py 107), up to rearrangement. -/
inductive SkewBalanced : Ex D → Prop
  | flux {e : Ex D} (h : e.fluxes = true) : SkewBalanced e
  | skew (d : Fin D) (a b : Ex D) (ha : a.nest [d] = true) (hb : b.nest [d] = true) : SkewBalanced (.add (.mul b (.cd d 1 a)) (.mul a (.cd d 1 b)))
  | add {a b : Ex D} : SkewBalanced a → SkewBalanced b → SkewBalanced (.add a b)
  | mul {c e : Ex D} (hc : c.coef = true) : SkewBalanced e → SkewBalanced (.mul c e)
  | rearranged {e e' : Ex D} (hd : ∀ s ∈ e'.datas, s ∈ e.datas) (he : ∀ (I : Interp D) (m : Mem D) (x : P D), e.eval I m x = e'.eval I m x) : SkewBalanced e' → SkewBalanced e

theorem sum_balanced_terms {S : Setup D n} {I : Interp D} {delta : Fin D → ℝ} (hI : IsCentral S I delta) {f : String → P D → ℝ} {e : Ex D} (he : SkewBalanced e)
    (hf : ∀ s ∈ e.datas, ∀ y z, Allocated S.np S.h y → Allocated S.np S.h z → Same S.np y z → f s y = f s z) : ∑ x ∈ gridPoints S.np, e.eval I (memOf f) x = 0 := by
  induction he with
  | flux h => exact sum_fluxes hI _ hf h
  | skew d a b ha hb =>
    have h1 : ∀ s ∈ a.datas, s ∈ (Ex.add (.mul b (.cd d 1 a)) (.mul a (.cd d 1 b))).datas := fun s hs => (mem_datas _ s).2 (by simp [Ex.arrs, (mem_datas a s).1 hs])
    have h2 : ∀ s ∈ b.datas, s ∈ (Ex.add (.mul b (.cd d 1 a)) (.mul a (.cd d 1 b))).datas := fun s hs => (mem_datas _ s).2 (by simp [Ex.arrs, (mem_datas b s).1 hs])
    exact sum_skew hI d (fun y z hy hz hyz => nest_same hI a (fun s hs => hf s (h1 s hs)) [d] ha hy hz hyz) fun y z hy hz hyz => nest_same hI b (fun s hs => hf s (h2 s hs)) [d] hb hy hz hyz
  | @add a b _ _ iha ihb =>
    simp only [Ex.eval]
    rw [Finset.sum_add_distrib, iha fun s hs => hf s ((mem_datas _ s).2 (List.mem_append_left _ ((mem_datas a s).1 hs))),
      ihb fun s hs => hf s ((mem_datas _ s).2 (List.mem_append_right _ ((mem_datas b s).1 hs))), add_zero]
  | @mul c e hc _ ih =>
    simp only [Ex.eval]
    have : ∀ x ∈ gridPoints S.np, c.eval I (memOf f) x * e.eval I (memOf f) x = c.eval I (memOf f) (fun _ => 0) * e.eval I (memOf f) x := fun x _ => by
      rw [coef_eval I _ c hc x fun _ => 0]
    rw [Finset.sum_congr rfl this, ← Finset.mul_sum, ih fun s hs => hf s ((mem_datas _ s).2 (List.mem_append_right _ ((mem_datas e s).1 hs))), mul_zero]
  | rearranged hd he _ ih =>
    rw [Finset.sum_congr rfl fun x _ => he I (memOf f) x]
    exact ih fun s hs => hf s (hd s hs)

theorem residual_balanced {S : Setup D n} (hS : S.Valid) {I : Interp D} {delta : Fin D → ℝ} (hI : IsCentral S I delta) {ks : List (Ker D)} (hks : S.spatial = .ok ks) (hcl : Closed S)
    {init : String → P D → ℝ} {full : Sol D n → String → P D → ℝ} (hfull : ∀ q, Consistent S I init q (full q)) (i : Fin n) (hi : SkewBalanced (S.rhs i)) (q : Sol D n)
    (hq : Periodic S.np S.h q) : total S.np 1 (fun x => (S.rhs i).eval I (memOf (full q)) x) = 0 := by
  simp only [total, Pi.one_apply, one_mul]
  exact sum_balanced_terms hI hi fun s hs y z hy hz hyz => datasets_point hS hks hcl (hfull q) (fun j => hq j y z hy hz hyz) i s hs

/-! ## Programs -/

section
variable {S : Setup D n} {I : Interp D} {delta : Fin D → ℝ} {pts : Ranges.Kernel D → List (P D)} {inp : Alg.Input (Call D)} {prg : List (Alg.Node (Call D))}

/-- C94: on a periodic box the program of the three stage scheme conserves the sum over the grid of every array whose equation is made of derivatives and skew-symmetric terms: at the end of the program and in every file with a number. -/
theorem C94_skew_rk (hP : Program S .rk I pts inp prg) (hI : IsCentral S I delta) (hcl : Closed S) (hn : ∀ d, S.h ≤ S.np d)
    (hst : inp.stages = 3) (hnew : I.table "rknew" = [2/3, 5/12, 3/5]) (hold : I.table "rkold" = [1/4, 3/20, 3/5]) (m : Mem D) (i : Fin n) (hi : SkewBalanced (S.rhs i)) :
    Conserves S I pts (exchange S.np S.h) inp prg m i := by
  obtain ⟨ks, hks, hAs⟩ := hP.assembled
  obtain ⟨full, hfull⟩ := program_full hP fun s => atStart I pts S.sol (exchange S.np S.h) inp m (.data s)
  exact conserves_one (assembled_conserves_rk hAs hP.valid.solInj hP.loops hst hnew hold m (spatial_evaluates hP.valid hP.loops hP.reach hfull ks hks) (exchange_fills S.h_nonneg hn).keeps
    (exchange_periodic S.h_nonneg hn) i fun q hq => residual_balanced hP.valid hI hks hcl hfull i hi q hq)

/-- C94: so does the program of a low storage scheme. -/
theorem C94_skew_ls (hP : Program S .lowStorage I pts inp prg) (hI : IsCentral S I delta) (hcl : Closed S) (hn : ∀ d, S.h ≤ S.np d) (A C : List ℝ) (hAC : A.length = C.length)
    (hst : inp.stages = A.length) (hA : I.table "rkA" = A) (hC : I.table "rkB" = C) (hA0 : A.head? = some 0) (m : Mem D) (i : Fin n) (hi : SkewBalanced (S.rhs i)) :
    Conserves S I pts (exchange S.np S.h) inp prg m i := by
  obtain ⟨ks, hks, hAs⟩ := hP.assembled
  obtain ⟨full, hfull⟩ := program_full hP fun s => atStart I pts S.sol (exchange S.np S.h) inp m (.data s)
  exact conserves_one (assembled_conserves_ls hAs hP.valid.solInj hP.loops A C hAC hst hA hC hA0 m (spatial_evaluates hP.valid hP.loops hP.reach hfull ks hks) (exchange_fills S.h_nonneg hn).keeps
    (exchange_periodic S.h_nonneg hn) i fun q hq => residual_balanced hP.valid hI hks hcl hfull i hi q hq)

end

end OpenSBLI.Sim
