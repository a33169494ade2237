import Verif.Lemmas.MappedSecond
import Verif.Props.C99_Mapped

/-!
# C100: second derivatives on mapped grids

A program whose equations contain transformed first and second derivatives: the arrays `SDijk` at the beginning of the time loop, uniform flow, and what the mirrored halos of the metric terms do at boundaries which are not periodic.
-/
namespace OpenSBLI.Sim
open OpenSBLI.Metric (fdValue sdStored Describes)

variable {D n : ℕ}

/-- A simulation with transformed first and second derivatives: every right hand side is the sum of the terms of `orig`, transformed; the metric terms and their derivatives are evaluated last before the time loop; the arrays under the
derivatives are components of the solution or given by relations; names are different. -/
structure OnMapping2 (S : Setup D n) (M : Metrics2 D) (orig : Fin n → List (Term D)) (inp : Alg.Input (Call D)) : Prop where
  dim : D ≤ 3
  listed : M.Listed
  fits : Fits M.fill S.np S.h
  rhs : ∀ i, S.rhs i = mappedTerms M.cur M.str (orig i)
  last : ∃ l, Alg.sortByOrder (Alg.others inp.items) = l ++ [(1, [.before], M.kernels S.np S.h)]
  plain : ∀ i, ∀ t ∈ orig i, t.arg.cds = []
  fluxes : ∀ i, ∀ t ∈ orig i, ∀ s ∈ t.arg.datas, (S.relation s).isSome ∨ ∃ k, s = S.sol k
  relations : ∀ t e, S.relation t = some e → ∀ s ∈ e.datas, (S.relation s).isSome ∨ ∃ k, s = S.sol k
  coords : ∀ i : Fin D, coordName M.symbol i ≠ "detJ" ∧ (∀ k j : Fin D, coordName M.symbol i ≠ metricName k j) ∧ ∀ k j l : Fin D, coordName M.symbol i ≠ sdName k j l

section Program
variable {S : Setup D n} {M : Metrics2 D} {orig : Fin n → List (Term D)} {I : Interp D} {delta : Fin D → ℝ} {pts : Ranges.Kernel D → List (P D)} {inp : Alg.Input (Call D)} {prg : List (Alg.Node (Call D))}
  {B : Sol D n → Sol D n} {m : Mem D} {X : Fin D → P D → ℝ}

/-- C100: at the beginning of the time loop, whatever the mapping, the flags of the directions, the boundaries and the initial arrays: the metric terms are the inverse of the matrix of the finite differences of the coordinates at every
point of the grid, and `SDkil` is the finite difference in direction `l` of entry `(k, i)` of that inverse, continued to the halos from the points the boundary kernels copy from. -/
theorem C100_second_metrics (hO : OnMapping2 S M orig inp) (hp : Enumerates pts) (hl : Local I S.np S.h) (hX : HoldsCoordinates M.toMetrics S.np S.h X (atStart I pts S.sol B inp m))
    (hd : ∀ x, Grid S.np x → Describes M.cur M.str (jacobi I X x)) (hdet : ∀ x, Grid S.np x → (jacobi I X x).det ≠ 0) :
    (∀ x, Grid S.np x → (Matrix.of fun k j => metricValue M.cur M.str (atStart I pts S.sol B inp m) k j x) = (jacobi I X x)⁻¹) ∧
    ∀ k i l, sdStored M.cur M.str k i l = true → ∀ x, Grid S.np x →
      atStart I pts S.sol B inp m (.data (sdName k i l)) x = I.cd l 1 (fun y => (jacobi I X (folded M.fill S.np y))⁻¹ k i) x := by
  obtain ⟨l, hlast⟩ := hO.last
  have hstart : ∃ m0, atStart I pts S.sol B inp m = Alg.effect (exec I pts S.sol B) (Alg.calls (M.kernels S.np S.h) Alg.outside) m0 := by
    refine ⟨Alg.effect (exec I pts S.sol B) (Alg.calls (Alg.placedAt l .before) Alg.outside) m, ?_⟩
    unfold atStart
    rw [hlast, ← Alg.effect_append]
    congr 1
    simp [Alg.placedAt, Alg.calls]
  obtain ⟨m0, hm0⟩ := hstart
  obtain ⟨_, r2, r3, r4⟩ := metrics2_run (I := I) hO.dim hO.listed S.h_nonneg hO.fits hl hp S.sol B m0
  rw [← hm0] at r2 r3 r4
  -- the differences of the arrays are those of the mapping
  have hj : ∀ x, Grid S.np x → Metric.jacobian M.cur M.str (jacobi I (fun i => m0 (.data (coordName M.symbol i))) x) = jacobi I X x := by
    intro x hx
    rw [← Metric.jacobian_eq M.cur M.str _ (hd x hx)]
    ext i j
    simp only [Metric.jacobian, Matrix.of_apply]
    cases hv : fdValue M.cur M.str i j with
    | zero => rfl
    | one => rfl
    | stored =>
      simp only [jacobi, Matrix.of_apply]
      refine hl j 1 _ _ x fun p hp => ?_
      have h1 := congrFun (r4 (coordName M.symbol i) (hO.coords i).1 (hO.coords i).2.1 (hO.coords i).2.2) (shift x j p)
      rw [← h1]
      exact hX i j hv _ (Box.shift' S.h_nonneg ((box_nil _ _ _).2 hx) (by simp) hp)
  have hinv : ∀ x, Grid S.np x → Metric.fdMetric M.cur M.str (jacobi I (fun i => m0 (.data (coordName M.symbol i))) x) = (jacobi I X x)⁻¹ := by
    intro x hx
    have h := Metric.C55_inverse M.cur M.str (jacobi I (fun i => m0 (.data (coordName M.symbol i))) x) (by unfold Metric.detJ; rw [hj x hx]; exact hdet x hx)
    rw [hj x hx] at h
    exact (Matrix.inv_eq_left_inv h.1).symm
  refine ⟨fun x hx => ?_, fun k i l hs x hx => ?_⟩
  · rw [← hinv x hx]
    ext k j
    exact r2 k j x hx
  · rw [r3 k i l hs x hx]
    refine hl l 1 _ _ x fun q hq => ?_
    have hb : Box S.np S.h (List.finRange D) (shift x l q) := by
      intro d
      have := hx d
      have hh := S.h_nonneg
      simp only [List.mem_finRange, if_true]
      by_cases hd : d = l
      · subst hd
        simp only [shift, Function.update_self]
        rcases hq with hq | hq
        · have := abs_le.1 hq; omega
        · omega
      · simp only [shift, Function.update_of_ne hd]; omega
    simp only [hinv _ (folded_mem hO.fits hb)]

/-- Moving along a line of the grid. -/
theorem folded_line (fill : Fin D → Fill) {np : Fin D → ℤ} {x : P D} (hx : Grid np x) (l : Fin D) (q : ℤ) : folded fill np (shift x l q) = Function.update x l ((fill l).source (np l) (x l + q)) := by
  funext d
  by_cases hd : d = l
  · subst hd; simp [folded, shift]
  · simp [folded, shift, hd, source_grid _ (hx d)]

/-- C100: where the halos of direction `l` are exchanged periodically and the mapping has the period of the grid, or away from the sides by the width of the stencil, `SDkil` is the finite difference of the inverse of the matrix of the
differences of the mapping itself. -/
theorem C100_derivatives (hO : OnMapping2 S M orig inp) (hp : Enumerates pts) (hI : IsCentral S I delta) (hX : HoldsCoordinates M.toMetrics S.np S.h X (atStart I pts S.sol B inp m))
    (hd : ∀ x, Grid S.np x → Describes M.cur M.str (jacobi I X x)) (hdet : ∀ x, Grid S.np x → (jacobi I X x).det ≠ 0) (k i l : Fin D) (hs : sdStored M.cur M.str k i l = true) (x : P D) (hx : Grid S.np x)
    (hline : (M.fill l = .periodic ∧ ∀ i, ∃ L : ℝ, ∀ x, X i (shift x l (S.np l)) = X i x + L) ∨ (S.h ≤ x l ∧ x l + S.h < S.np l)) :
    atStart I pts S.sol B inp m (.data (sdName k i l)) x = I.cd l 1 (fun y => (jacobi I X y)⁻¹ k i) x := by
  rw [(C100_second_metrics hO hp (central_local hI) hX hd hdet).2 k i l hs x hx]
  simp only [central_eval hI]
  congr 1
  refine Finset.sum_congr rfl fun q hq => ?_
  have hq' := abs_le.1 (points_abs S hq)
  congr 2
  rw [folded_line M.fill hx]
  rcases hline with ⟨hf, hX⟩ | hin
  · have hper : ∀ y, jacobi I X (shift y l (S.np l)) = jacobi I X y := by
      intro y
      ext i j
      obtain ⟨L, hL⟩ := hX i
      simp only [jacobi, Matrix.of_apply]
      rw [central_shift hI, show (fun y => X i (shift y l (S.np l))) = fun y => X i y + L from funext hL, central_add_const hI]
    have hmul : ∀ (c : ℤ) y, jacobi I X (shift y l (c * S.np l)) = jacobi I X y := by
      have hadd : ∀ (x : P D) (a b : ℤ), shift x l (a + b) = shift (shift x l a) l b := fun x a b => by simp [shift, add_assoc]
      intro c
      induction c using Int.induction_on with
      | zero => intro y; simp [shift]
      | succ c ih => intro y; rw [show ((c : ℤ) + 1) * S.np l = c * S.np l + S.np l by ring, hadd, hper, ih]
      | pred c ih =>
        intro y
        have := hper (shift y l ((-(c : ℤ) - 1) * S.np l))
        rw [← hadd, show (-(c : ℤ) - 1) * S.np l + S.np l = -c * S.np l by ring, ih] at this
        exact this.symm
    rw [hf]
    rw [← hmul (-((x l + q) / S.np l)) (shift x l q)]
    have he : x l + q + -((x l + q) / S.np l) * S.np l = (x l + q) % S.np l := by
      have := Int.emod_add_mul_ediv (x l + q) (S.np l)
      linarith [mul_comm (S.np l) ((x l + q) / S.np l)]
    simp only [shift, Function.update_self, Function.update_idem, Fill.source, he]
  · rw [source_grid _ (by omega)]
    rfl

/-! ## Uniform flow -/

theorem secondOf_datas (k l : Fin D) (e : Ex D) : (secondOf k l e).arrs = e.arrs := by
  unfold secondOf
  split_ifs <;> simp [Ex.arrs]

theorem second_datas (cur str : Fin D → Bool) (i j : Fin D) (e : Ex D) (s : String) (hs : s ∈ e.datas) : s ∈ (secondTransformed cur str i j e).datas := by
  have hw : ∀ (k j : Fin D) (a : Ex D), fdValue cur str k j ≠ .zero → Arr.data s ∈ a.arrs → ∃ b, withMetric cur str k j a = some b ∧ Arr.data s ∈ b.arrs := by
    intro k j a hk ha
    unfold withMetric
    cases hv : fdValue cur str k j with
    | zero => exact absurd hv hk
    | one => exact ⟨a, rfl, ha⟩
    | stored => exact ⟨_, rfl, List.mem_append_right _ ha⟩
  obtain ⟨b, hb, hbs⟩ := hw i i (secondOf i j e) (column_nonzero cur str i) (by rw [secondOf_datas]; exact (mem_datas e s).1 hs)
  obtain ⟨c, hc, hcs⟩ := hw j j b (column_nonzero cur str j) hbs
  have hmem : c ∈ secondTerms cur str i j e := by
    refine List.mem_flatMap.2 ⟨j, List.mem_finRange j, List.mem_flatMap.2 ⟨i, List.mem_finRange i, List.mem_append_left _ ?_⟩⟩
    rw [hb, Option.bind_some, hc]
    simp
  rw [mem_datas]
  unfold secondTransformed
  cases hl : secondTerms cur str i j e with
  | nil => rw [hl] at hmem; cases hmem
  | cons t' l =>
    rw [hl] at hmem
    refine mem_foldl_arrs l t' _ ?_
    rcases List.mem_cons.1 hmem with rfl | ht
    · exact .inl hcs
    · exact .inr ⟨c, ht, hcs⟩

theorem term_datas (cur str : Fin D → Bool) (t : Term D) (s : String) (hs : s ∈ t.arg.datas) : Arr.data s ∈ (t.mapped cur str).arrs := by
  refine List.mem_append_right _ ?_
  cases h : t.second with
  | none => exact (mem_datas _ s).1 (mapped_cds cur str t.dir t.arg s hs t.dir (column_nonzero cur str t.dir))
  | some j => exact (mem_datas _ s).1 (second_datas cur str t.dir j t.arg s hs)

theorem terms_datas (cur str : Fin D → Bool) (l : List (Term D)) (t : Term D) (ht : t ∈ l) (s : String) (hs : s ∈ t.arg.datas) : s ∈ (mappedTerms cur str l).datas := by
  have h := term_datas cur str t s hs
  rw [mem_datas]
  cases l with
  | nil => cases ht
  | cons a l =>
    simp only [mappedTerms]
    rw [show l.foldl (fun e t => Ex.add e (t.mapped cur str)) (a.mapped cur str) = (l.map (·.mapped cur str)).foldl Ex.add (a.mapped cur str) by rw [List.foldl_map]]
    refine mem_foldl_arrs _ _ _ ?_
    rcases List.mem_cons.1 ht with rfl | ht
    · exact .inl h
    · exact .inr ⟨_, List.mem_map_of_mem ht, h⟩

/-- All transformed derivatives of a uniform solution vanish. -/
theorem uniform_second {t : Temporal} (hP : Program S t I pts inp prg) (hO : OnMapping2 S M orig inp) (hI : IsCentral S I delta) (hn : ∀ d, S.h ≤ S.np d) {ks : List (Ker D)} (hks : S.spatial = .ok ks)
    {init : String → P D → ℝ} {full : Sol D n → String → P D → ℝ} (hfull : ∀ q, Consistent S I init q (full q)) {c : Fin n → ℝ} {v : Sol D n} (hv : Uniform S.np v c)
    (i : Fin n) (x : P D) (hx : Grid S.np x) : (S.rhs i).eval I (memOf (full (exchange S.np S.h v))) x = 0 := by
  have hpos : ∀ d, 0 < S.np d := fun d => by have := hx d; omega
  have hg : ∀ y : P D, Grid S.np fun d => y d % S.np d := fun y d => ⟨Int.emod_nonneg _ (hpos d).ne', Int.emod_lt_of_pos _ (hpos d)⟩
  obtain ⟨order, hord⟩ := spatial_order hks
  rw [hO.rhs i, mappedTerms_eval]
  refine List.sum_eq_zero fun w hw => ?_
  obtain ⟨t, ht, rfl⟩ := List.mem_map.1 hw
  have hpl := hO.plain i t ht
  have hflux : ∀ s ∈ t.arg.datas, ∀ y z, Allocated S.np S.h y → Allocated S.np S.h z → full (exchange S.np S.h v) s y = full (exchange S.np S.h v) s z := fun s hs y z hy hz =>
    required_two hP.valid.relations hord hO.relations (hfull _) (hfull _) (fun l => by
      rw [exchange_image S.h_nonneg hn v l y hy, exchange_image S.h_nonneg hn v l z hz, hv l _ (hg y), hv l _ (hg z)]) s
      (rhs_required hP.valid i s (by rw [hO.rhs i]; exact terms_datas M.cur M.str _ t ht s hs)) (hO.fluxes i t ht s hs)
  have h1 : ∀ k, I.cd k 1 (t.arg.eval I (memOf (full (exchange S.np S.h v)))) x = 0 := fun k =>
    uniform_fluxes hI (.cd k 1 t.arg) (f := full (exchange S.np S.h v)) hflux (by simp [Ex.fluxes, nest_plain t.arg hpl]) x hx
  have h2 : ∀ k l, secondDiff I k l (t.arg.eval I (memOf (full (exchange S.np S.h v)))) x = 0 := by
    intro k l
    unfold secondDiff
    split_ifs with h
    · exact uniform_fluxes hI (.cd k 2 t.arg) (f := full (exchange S.np S.h v)) hflux (by simp [Ex.fluxes, nest_plain t.arg hpl]) x hx
    · refine uniform_fluxes hI (.cd (max k l) 1 (.cd (min k l) 1 t.arg)) (f := full (exchange S.np S.h v)) hflux ?_ x hx
      have : min k l ≠ max k l := by
        intro he
        rcases le_total k l with hkl | hkl
        · rw [min_eq_left hkl, max_eq_right hkl] at he; exact h he
        · rw [min_eq_right hkl, max_eq_left hkl] at he; exact h he.symm
      simp [Ex.fluxes, Ex.nest, nest_plain t.arg hpl, this]
  unfold Term.mapped
  simp only [Ex.eval]
  cases t.second with
  | none => simp only [transformed_eval, h1, mul_zero, Finset.sum_const_zero]
  | some j => simp only [secondTransformed_eval, h1, h2, mul_zero, add_zero, Finset.sum_const_zero]

/-- C100: a uniform solution stays as it is, exactly, whatever the mapping, its metric terms and their derivatives, with first and second derivatives and whatever their coefficients: at the end of the program and in every file with a
number. -/
theorem C100_uniform_flow (hP : Program S .rk I pts inp prg) (hO : OnMapping2 S M orig inp) (hI : IsCentral S I delta) (hn : ∀ d, S.h ≤ S.np d)
    (hst : inp.stages = 3) (hnew : I.table "rknew" = [2/3, 5/12, 3/5]) (hold : I.table "rkold" = [1/4, 3/20, 3/5]) (m : Mem D)
    (c : Fin n → ℝ) (hc : ∀ i x, Grid S.np x → atStart I pts S.sol (exchange S.np S.h) inp m (.data (S.sol i)) x = c i) :
    (∀ i x, Grid S.np x → Alg.effect (exec I pts S.sol (exchange S.np S.h)) (Alg.runProgram prg) m (.data (S.sol i)) x = c i) ∧
    ∀ before after o k e, Alg.runProgram prg = before ++ .write o (some k) e :: after →
      ∀ i x, Grid S.np x → Alg.effect (exec I pts S.sol (exchange S.np S.h)) before m (.data (S.sol i)) x = c i := by
  obtain ⟨ks, hks, hAs⟩ := hP.assembled
  obtain ⟨full, hfull⟩ := program_full hP fun s => atStart I pts S.sol (exchange S.np S.h) inp m (.data s)
  exact assembled_uniform hAs hP.valid.solInj hP.loops hst hnew hold m (spatial_evaluates hP.valid hP.loops hP.reach hfull ks hks) (exchange_fills S.h_nonneg hn).keeps c (fun v hv i x hx => uniform_second hP hO hI hn hks hfull hv i x hx) hc

/-- C100: with low storage schemes too. -/
theorem C100_uniform_flow_ls (hP : Program S .lowStorage I pts inp prg) (hO : OnMapping2 S M orig inp) (hI : IsCentral S I delta) (hn : ∀ d, S.h ≤ S.np d)
    (A C : List ℝ) (hAC : A.length = C.length) (hst : inp.stages = A.length) (hA : I.table "rkA" = A) (hC : I.table "rkB" = C) (hA0 : A.head? = some 0) (m : Mem D)
    (c : Fin n → ℝ) (hc : ∀ i x, Grid S.np x → atStart I pts S.sol (exchange S.np S.h) inp m (.data (S.sol i)) x = c i) :
    (∀ i x, Grid S.np x → Alg.effect (exec I pts S.sol (exchange S.np S.h)) (Alg.runProgram prg) m (.data (S.sol i)) x = c i) ∧
    ∀ before after o k e, Alg.runProgram prg = before ++ .write o (some k) e :: after →
      ∀ i x, Grid S.np x → Alg.effect (exec I pts S.sol (exchange S.np S.h)) before m (.data (S.sol i)) x = c i := by
  obtain ⟨ks, hks, hAs⟩ := hP.assembled
  obtain ⟨full, hfull⟩ := program_full hP fun s => atStart I pts S.sol (exchange S.np S.h) inp m (.data s)
  exact assembled_uniform_ls hAs hP.valid.solInj hP.loops A C hAC hst hA hC hA0 m (spatial_evaluates hP.valid hP.loops hP.reach hfull ks hks) (exchange_fills S.h_nonneg hn).keeps c (fun v hv i x hx => uniform_second hP hO hI hn hks hfull hv i x hx) hc

/-! ## Sides which are not periodic -/

/-- C100: on the boundary points of a direction which is not periodic, where the formulas of the scheme are not replaced by one sided ones, all derivatives `SDkil` of metric terms in that direction are zero, whatever the mapping: the
halos are filled by reflection. -/
theorem C100_mirrored (hO : OnMapping2 S M orig inp) (hp : Enumerates pts) (hI : IsCentral S I delta) (hX : HoldsCoordinates M.toMetrics S.np S.h X (atStart I pts S.sol B inp m))
    (hd : ∀ x, Grid S.np x → Describes M.cur M.str (jacobi I X x)) (hdet : ∀ x, Grid S.np x → (jacobi I X x).det ≠ 0) (k i l : Fin D) (hs : sdStored M.cur M.str k i l = true) (hf : M.fill l = .mirror)
    (x : P D) (hx : Grid S.np x) (hside : x l = 0 ∨ x l = S.np l - 1) : atStart I pts S.sol B inp m (.data (sdName k i l)) x = 0 := by
  rw [(C100_second_metrics hO hp (central_local hI) hX hd hdet).2 k i l hs x hx, central_eval hI]
  have hneg : ∑ p ∈ Central.points S.order, Central.weight ℝ S.order 1 p * (jacobi I X (folded M.fill S.np (shift x l p)))⁻¹ k i =
      -∑ p ∈ Central.points S.order, Central.weight ℝ S.order 1 p * (jacobi I X (folded M.fill S.np (shift x l p)))⁻¹ k i := by
    rw [← Finset.sum_neg_distrib]
    refine Finset.sum_bij' (fun p _ => -p) (fun p _ => -p) (fun p hp => ?_) (fun p hp => ?_) (fun p _ => neg_neg p) (fun p _ => neg_neg p) fun p hp => ?_
    · rw [Central.mem_points] at hp ⊢; omega
    · rw [Central.mem_points] at hp ⊢; omega
    · have hw := Central.C18_parity (K := ℝ) S.order 1 p hp
      have hab := abs_le.1 (points_abs S hp)
      have hlt := (hO.fits l).2 hf
      have hfold : folded M.fill S.np (shift x l (-p)) = folded M.fill S.np (shift x l p) := by
        rw [folded_line M.fill hx, folded_line M.fill hx, hf]
        congr 1
        simp only [Fill.source]
        rcases hside with h | h <;> rw [h] <;> split_ifs <;> omega
      rw [hfold, hw]
      ring
  have : ∑ p ∈ Central.points S.order, Central.weight ℝ S.order 1 p * (jacobi I X (folded M.fill S.np (shift x l p)))⁻¹ k i = 0 := by linarith
  rw [this, zero_mul]

end Program

end OpenSBLI.Sim
