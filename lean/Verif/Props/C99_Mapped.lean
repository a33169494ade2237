import Verif.Props.C79_Curvilinear
import Verif.Lemmas.MappedProgram
import Verif.Props.C77_Conservation

/-!
# C99: simulations on mapped grids

A program which evaluates its metric terms before the time loop from the arrays of the coordinates, and whose equations were transformed to the directions of the grid: what the metric terms are, what is conserved, and uniform flow.
-/
namespace OpenSBLI.Sim
open OpenSBLI.Metric (fdValue Describes)

variable {D n : ℕ}

/-! ## Programs -/

/-- A simulation with transformed equations: every right hand side is that of `orig` with its derivatives transformed; the metric terms are evaluated last before the time loop; the arrays under the derivatives are components of the
solution or given by relations; names are different. -/
structure OnMapping (S : Setup D n) (M : Metrics D) (orig : Fin n → Ex D) (inp : Alg.Input (Call D)) : Prop where
  dim : D ≤ 3
  listed : M.Listed
  rhs : ∀ i, S.rhs i = (orig i).mapped M.cur M.str
  last : ∃ l, Alg.sortByOrder (Alg.others inp.items) = l ++ [(1, [.before], M.kernels S.np S.h)]
  fluxes : ∀ i j a, .cd j 1 a ∈ (orig i).cds → ∀ s ∈ a.datas, (S.relation s).isSome ∨ ∃ k, s = S.sol k
  relations : ∀ t e, S.relation t = some e → ∀ s ∈ e.datas, (S.relation s).isSome ∨ ∃ k, s = S.sol k
  metricRel : ∀ k j : Fin D, S.relation (metricName k j) = none
  metricSol : ∀ (k j : Fin D) i, metricName k j ≠ S.sol i
  coords : ∀ i : Fin D, coordName M.symbol i ≠ "detJ" ∧ ∀ k j : Fin D, coordName M.symbol i ≠ metricName k j

/-- The arrays of the coordinates hold a mapping wherever a derivative of a stored metric term reads them. -/
def HoldsCoordinates (M : Metrics D) (np : Fin D → ℤ) (h : ℤ) (X : Fin D → P D → ℝ) (m : Mem D) : Prop :=
  ∀ i j, fdValue M.cur M.str i j = .stored → ∀ x, Box np h [j] x → m (.data (coordName M.symbol i)) x = X i x

section Program
variable {S : Setup D n} {M : Metrics D} {orig : Fin n → Ex D} {I : Interp D} {delta : Fin D → ℝ} {pts : Ranges.Kernel D → List (P D)} {inp : Alg.Input (Call D)} {prg : List (Alg.Node (Call D))}
  {B : Sol D n → Sol D n} {m : Mem D} {X : Fin D → P D → ℝ}

/-- C99: before the time loop, whatever the mapping, the flags of the directions and the initial arrays: the metric terms of the transformed equations, constants included, are exactly the inverse of the matrix of the finite
differences of the coordinates, and `detJ` is its determinant. -/
theorem C99_metrics (hO : OnMapping S M orig inp) (hp : Enumerates pts) (hl : Local I S.np S.h) (hX : HoldsCoordinates M S.np S.h X (atStart I pts S.sol B inp m))
    (x : P D) (hx : Grid S.np x) (hd : Describes M.cur M.str (jacobi I X x)) (hdet : (jacobi I X x).det ≠ 0) :
    (Matrix.of fun k j => metricValue M.cur M.str (atStart I pts S.sol B inp m) k j x) * jacobi I X x = 1 ∧
    jacobi I X x * (Matrix.of fun k j => metricValue M.cur M.str (atStart I pts S.sol B inp m) k j x) = 1 ∧
    (M.ders ≠ [] → atStart I pts S.sol B inp m (.data "detJ") x = (jacobi I X x).det) := by
  obtain ⟨l, hlast⟩ := hO.last
  have hstart : ∃ m0, atStart I pts S.sol B inp m = Alg.effect (exec I pts S.sol B) (Alg.calls (M.kernels S.np S.h) Alg.outside) m0 := by
    refine ⟨Alg.effect (exec I pts S.sol B) (Alg.calls (Alg.placedAt l .before) Alg.outside) m, ?_⟩
    unfold atStart
    rw [hlast, ← Alg.effect_append]
    congr 1
    simp [Alg.placedAt, Alg.calls]
  obtain ⟨m0, hm0⟩ := hstart
  obtain ⟨r1, r2, r3⟩ := metrics_run (I := I) (np := S.np) (h := S.h) hO.dim hO.listed hp S.sol B m0
  rw [← hm0] at r1 r2 r3
  -- the differences of the arrays are those of the mapping
  have hj : Metric.jacobian M.cur M.str (jacobi I (fun i => m0 (.data (coordName M.symbol i))) x) = jacobi I X x := by
    rw [← Metric.jacobian_eq M.cur M.str _ hd]
    ext i j
    simp only [Metric.jacobian, Matrix.of_apply]
    cases hv : fdValue M.cur M.str i j with
    | zero => rfl
    | one => rfl
    | stored =>
      simp only [jacobi, Matrix.of_apply]
      refine hl j 1 _ _ x fun p hp => ?_
      have h1 := congrFun (r3 (coordName M.symbol i) (hO.coords i).1 (hO.coords i).2) (shift x j p)
      rw [← h1]
      exact hX i j hv _ (Box.shift' S.h_nonneg ((box_nil _ _ _).2 hx) (by simp) hp)
  have hinv := Metric.C55_inverse M.cur M.str (jacobi I (fun i => m0 (.data (coordName M.symbol i))) x) (by unfold Metric.detJ; rw [hj]; exact hdet)
  have hmat : (Matrix.of fun k j => metricValue M.cur M.str (atStart I pts S.sol B inp m) k j x) = Metric.fdMetric M.cur M.str (jacobi I (fun i => m0 (.data (coordName M.symbol i))) x) := by
    ext k j
    exact r2 k j x hx
  rw [hj] at hinv
  rw [hmat]
  exact ⟨hinv.1, hinv.2, fun hne => by rw [r1 hne x hx, hj]⟩

/-- The arrays under the derivatives, point by point. -/
theorem fluxes_point (hO : OnMapping S M orig inp) (hS : S.Valid) {ks : List (Ker D)} (hks : S.spatial = .ok ks) {init : String → P D → ℝ} {q : Sol D n} {f : String → P D → ℝ}
    (hf : Consistent S I init q f) (i : Fin n) (hi : (orig i).firstFluxes = true) (j : Fin D) (a : Ex D) (ha : .cd j 1 a ∈ (orig i).cds) (s : String) (hs : s ∈ a.datas) {y z : P D} (hq : ∀ i, q i y = q i z) : f s y = f s z := by
  obtain ⟨order, hord⟩ := spatial_order hks
  exact required_two hS.relations hord hO.relations hf hf hq s (rhs_required hS i s (by rw [hO.rhs i]; exact mapped_datas M.cur M.str _ hi j a ha s hs)) (hO.fluxes i j a ha s hs)

theorem metricValue_full (hO : OnMapping S M orig inp) (hS : S.Valid) {init : String → P D → ℝ} {q : Sol D n} {f : String → P D → ℝ} (hf : Consistent S I init q f) (m0 : Mem D) (hm0 : ∀ s, init s = m0 (.data s)) (k j : Fin D) (x : P D) :
    metricValue M.cur M.str (memOf f) k j x = metricValue M.cur M.str m0 k j x := by
  unfold metricValue
  cases fdValue M.cur M.str k j with
  | zero => rfl
  | one => rfl
  | stored =>
    simp only [memOf]
    rw [hf.rest _ (relation_none hS.relNodup (hO.metricRel k j)) (hO.metricSol k j), hm0]

/-- A transformed derivative of a periodic solution, weighted by the cells: the sum is that of the defects of the metric identities. -/
theorem derivative_mapped (hO : OnMapping S M orig inp) (hS : S.Valid) (hI : IsCentral S I delta) (hp : Enumerates pts) {ks : List (Ker D)} (hks : S.spatial = .ok ks)
    {full : Sol D n → String → P D → ℝ} (hfull : ∀ q, Consistent S I (fun s => atStart I pts S.sol B inp m (.data s)) q (full q)) (hX : HoldsCoordinates M S.np S.h X (atStart I pts S.sol B inp m))
    (hw : Wraps S.np X) (hd : ∀ x, Grid S.np x → Describes M.cur M.str (jacobi I X x)) (hdet : ∀ x, Grid S.np x → (jacobi I X x).det ≠ 0)
    (i : Fin n) (hi : (orig i).firstFluxes = true) (q : Sol D n) (hq : Periodic S.np S.h q) (j : Fin D) (a : Ex D) (ha : .cd j 1 a ∈ (orig i).cds) (hc : a.cds = []) :
    total S.np (fun x => (jacobi I X x).det) (fun x => ∑ k, metricValue M.cur M.str (memOf (full q)) k j x * I.cd k 1 (a.eval I (memOf (full q))) x) =
      -∑ x ∈ gridPoints S.np, a.eval I (memOf (full q)) x * ∑ k, I.cd k 1 (fun y => (jacobi I X y).adjugate k j) x := by
  have hper : ∀ d y z, Box S.np S.h [d] y → Box S.np S.h [d] z → Same S.np y z → a.eval I (memOf (full q)) y = a.eval I (memOf (full q)) z := fun d y z hy hz hyz =>
    nest_same hI a (fun s hs y z hy hz hyz => fluxes_point hO hS hks (hfull q) i hi j a ha s hs fun k => hq k y z hy hz hyz) [d] (nest_plain a hc _) hy hz hyz
  have key : ∀ x ∈ gridPoints S.np, (jacobi I X x).det * ∑ k, metricValue M.cur M.str (memOf (full q)) k j x * I.cd k 1 (a.eval I (memOf (full q))) x =
      ∑ k, (jacobi I X x).adjugate k j * I.cd k 1 (a.eval I (memOf (full q))) x := by
    intro x hx
    rw [mem_gridPoints] at hx
    obtain ⟨h1, _, _⟩ := C99_metrics hO hp (central_local hI) hX x hx (hd x hx) (hdet x hx)
    have hadj : ∀ k, (jacobi I X x).det * metricValue M.cur M.str (memOf (full q)) k j x = (jacobi I X x).adjugate k j := by
      intro k
      rw [metricValue_full hO hS (hfull q) (atStart I pts S.sol B inp m) (fun _ => rfl)]
      have h2 := congrArg (fun A => A * (jacobi I X x).adjugate) h1
      simp only [Matrix.mul_assoc, Matrix.mul_adjugate, one_mul, Matrix.mul_smul, Matrix.mul_one] at h2
      exact congrFun (congrFun h2 k) j
    rw [Finset.mul_sum]
    exact Finset.sum_congr rfl fun k _ => by rw [← mul_assoc, hadj]
  rw [total, Finset.sum_congr rfl key, sum_surfaces hI hw hper j]

theorem total_mul (np : Fin D → ℤ) (w u : P D → ℝ) (c : ℝ) : total np w (fun x => c * u x) = c * total np w u := by
  simp only [total, Finset.mul_sum]
  exact Finset.sum_congr rfl fun x _ => by ring

/-- The right hand sides of periodic solutions, weighted by the cells, sum to zero. -/
theorem residual_mapped (hO : OnMapping S M orig inp) (hS : S.Valid) (hI : IsCentral S I delta) (hp : Enumerates pts) {ks : List (Ker D)} (hks : S.spatial = .ok ks)
    {full : Sol D n → String → P D → ℝ} (hfull : ∀ q, Consistent S I (fun s => atStart I pts S.sol B inp m (.data s)) q (full q)) (hX : HoldsCoordinates M S.np S.h X (atStart I pts S.sol B inp m))
    (hw : Wraps S.np X) (hmi : MetricIdentities I X) (hd : ∀ x, Grid S.np x → Describes M.cur M.str (jacobi I X x)) (hdet : ∀ x, Grid S.np x → (jacobi I X x).det ≠ 0)
    (i : Fin n) (hi : (orig i).firstFluxes = true) (q : Sol D n) (hq : Periodic S.np S.h q) : total S.np (fun x => (jacobi I X x).det) (fun x => (S.rhs i).eval I (memOf (full q)) x) = 0 := by
  rw [hO.rhs i]
  refine mapped_induction M.cur M.str I (memOf (full q)) (total S.np fun x => (jacobi I X x).det) (by simp [total]) (fun u v hu hv => ?_) (fun c u hu => by rw [total_mul, hu, mul_zero]) _ hi fun j a ha hc => ?_
  · have := total_add_mul S.np (fun x => (jacobi I X x).det) u v 1
    simp only [one_mul] at this
    rw [this, hu, hv, add_zero]
  · rw [derivative_mapped hO hS hI hp hks hfull hX hw hd hdet i hi q hq j a ha hc]
    simp [hmi j _]

/-- C99: on a mapped periodic box with invertible cells whose differences satisfy the metric identities, the program of the three stage scheme conserves the sum over the grid of every component whose equation is made of derivatives, each
point weighted by the determinant `detJ`: at the end of the program and in every file with a number. -/
theorem C99_conservation_rk (hP : Program S .rk I pts inp prg) (hO : OnMapping S M orig inp) (hI : IsCentral S I delta) (hn : ∀ d, S.h ≤ S.np d)
    (hst : inp.stages = 3) (hnew : I.table "rknew" = [2/3, 5/12, 3/5]) (hold : I.table "rkold" = [1/4, 3/20, 3/5]) (m : Mem D)
    (hX : HoldsCoordinates M S.np S.h X (atStart I pts S.sol (exchange S.np S.h) inp m)) (hw : Wraps S.np X) (hmi : MetricIdentities I X)
    (hd : ∀ x, Grid S.np x → Describes M.cur M.str (jacobi I X x)) (hdet : ∀ x, Grid S.np x → (jacobi I X x).det ≠ 0) (i : Fin n) (hi : (orig i).firstFluxes = true) :
    ConservesWeighted (fun x => (jacobi I X x).det) S I pts (exchange S.np S.h) inp prg m i := by
  obtain ⟨ks, hks, hAs⟩ := hP.assembled
  obtain ⟨full, hfull⟩ := program_full hP fun s => atStart I pts S.sol (exchange S.np S.h) inp m (.data s)
  exact assembled_conserves_rk hAs hP.valid.solInj hP.loops hst hnew hold m (spatial_evaluates hP.valid hP.loops hP.reach hfull ks hks) (exchange_fills S.h_nonneg hn).keeps
    (exchange_periodic S.h_nonneg hn) i fun q hq => residual_mapped hO hP.valid hI hP.loops hks hfull hX hw hmi hd hdet i hi q hq

/-- C99: so does the program of a low storage scheme. -/
theorem C99_conservation_ls (hP : Program S .lowStorage I pts inp prg) (hO : OnMapping S M orig inp) (hI : IsCentral S I delta) (hn : ∀ d, S.h ≤ S.np d) (A C : List ℝ) (hAC : A.length = C.length)
    (hst : inp.stages = A.length) (hA : I.table "rkA" = A) (hC : I.table "rkB" = C) (hA0 : A.head? = some 0) (m : Mem D)
    (hX : HoldsCoordinates M S.np S.h X (atStart I pts S.sol (exchange S.np S.h) inp m)) (hw : Wraps S.np X) (hmi : MetricIdentities I X)
    (hd : ∀ x, Grid S.np x → Describes M.cur M.str (jacobi I X x)) (hdet : ∀ x, Grid S.np x → (jacobi I X x).det ≠ 0) (i : Fin n) (hi : (orig i).firstFluxes = true) :
    ConservesWeighted (fun x => (jacobi I X x).det) S I pts (exchange S.np S.h) inp prg m i := by
  obtain ⟨ks, hks, hAs⟩ := hP.assembled
  obtain ⟨full, hfull⟩ := program_full hP fun s => atStart I pts S.sol (exchange S.np S.h) inp m (.data s)
  exact assembled_conserves_ls hAs hP.valid.solInj hP.loops A C hAC hst hA hC hA0 m (spatial_evaluates hP.valid hP.loops hP.reach hfull ks hks) (exchange_fills S.h_nonneg hn).keeps
    (exchange_periodic S.h_nonneg hn) i fun q hq => residual_mapped hO hP.valid hI hP.loops hks hfull hX hw hmi hd hdet i hi q hq

/-- C99: grids stretched in any of up to three directions, each coordinate depending on its own index, satisfy the metric identities, so that the weighted sums are conserved. -/
theorem C99_stretched (hP : Program S .rk I pts inp prg) (hO : OnMapping S M orig inp) (hI : IsCentral S I delta) (hn : ∀ d, S.h ≤ S.np d)
    (hst : inp.stages = 3) (hnew : I.table "rknew" = [2/3, 5/12, 3/5]) (hold : I.table "rkold" = [1/4, 3/20, 3/5]) (m : Mem D)
    (hX : HoldsCoordinates M S.np S.h X (atStart I pts S.sol (exchange S.np S.h) inp m)) (hw : Wraps S.np X) (hown : ∀ i x y, x i = y i → X i x = X i y)
    (hd : ∀ x, Grid S.np x → Describes M.cur M.str (jacobi I X x)) (hdet : ∀ x, Grid S.np x → (jacobi I X x).det ≠ 0) (i : Fin n) (hi : (orig i).firstFluxes = true) :
    ConservesWeighted (fun x => (jacobi I X x).det) S I pts (exchange S.np S.h) inp prg m i :=
  C99_conservation_rk hP hO hI hn hst hnew hold m hX hw (identities_stretched hI hown) hd hdet i hi

/-- C99: what one step of the explicit Euler method, a low storage scheme of one stage, changes for the derivative of a component: the weighted sum changes by the defects of the metric identities, each times the value of the component.
So for mappings without the metric identities the weighted sum is not conserved. -/
theorem C99_defect (hP : Program S .lowStorage I pts inp prg) (hO : OnMapping S M orig inp) (hI : IsCentral S I delta) (hn : ∀ d, S.h ≤ S.np d)
    (b : ℝ) (hst : inp.stages = 1) (hA : I.table "rkA" = [0]) (hC : I.table "rkB" = [b]) (hit : inp.niter = 1) (m : Mem D)
    (hX : HoldsCoordinates M S.np S.h X (atStart I pts S.sol (exchange S.np S.h) inp m)) (hw : Wraps S.np X)
    (hd : ∀ x, Grid S.np x → Describes M.cur M.str (jacobi I X x)) (hdet : ∀ x, Grid S.np x → (jacobi I X x).det ≠ 0) (i : Fin n) (j : Fin D) (c : ℚ)
    (hi : orig i = .mul (.num c) (.cd j 1 (.arr (.data (S.sol i))))) :
    ∑ x ∈ gridPoints S.np, (jacobi I X x).det * Alg.effect (exec I pts S.sol (exchange S.np S.h)) (Alg.runProgram prg) m (.data (S.sol i)) x =
      ∑ x ∈ gridPoints S.np, (jacobi I X x).det * atStart I pts S.sol (exchange S.np S.h) inp m (.data (S.sol i)) x -
      b * I.const "dt" * c * ∑ x ∈ gridPoints S.np, atStart I pts S.sol (exchange S.np S.h) inp m (.data (S.sol i)) x * ∑ k, I.cd k 1 (fun y => (jacobi I X y).adjugate k j) x := by
  obtain ⟨ks, hks, hAs⟩ := hP.assembled
  obtain ⟨full, hfull⟩ := program_full hP fun s => atStart I pts S.sol (exchange S.np S.h) inp m (.data s)
  have hB := (exchange_fills (n := n) S.h_nonneg hn).keeps
  obtain ⟨h1, _⟩ := assembled_ls hAs hP.valid.solInj hP.loops [0] [b] rfl (by rw [hst]; rfl) hA hC (exchange S.np S.h) _ m (spatial_evaluates hP.valid hP.loops hP.reach hfull ks hks)
  rw [h1 i, hit]
  set q0 := (stateOf S (atStart I pts S.sol (exchange S.np S.h) inp m)).q with hq0
  have hfl : (orig i).firstFluxes = true := by rw [hi]; simp [Ex.firstFluxes, Ex.coef, Ex.cds]
  have hF : total S.np (fun x => (jacobi I X x).det) (fun x => (S.rhs i).eval I (memOf (full (exchange S.np S.h q0))) x) =
      c * -∑ x ∈ gridPoints S.np, q0 i x * ∑ k, I.cd k 1 (fun y => (jacobi I X y).adjugate k j) x := by
    have hm := derivative_mapped hO hP.valid hI hP.loops hks hfull hX hw hd hdet i hfl (exchange S.np S.h q0) (exchange_periodic S.h_nonneg hn q0) j (.arr (.data (S.sol i))) (by rw [hi]; simp [Ex.cds]) rfl
    have he : (fun x => (S.rhs i).eval I (memOf (full (exchange S.np S.h q0))) x) = fun x => (c : ℝ) * ∑ k, metricValue M.cur M.str (memOf (full (exchange S.np S.h q0))) k j x *
        I.cd k 1 ((Ex.arr (.data (S.sol i))).eval I (memOf (full (exchange S.np S.h q0)))) x := by
      funext x
      rw [hO.rhs i, hi]
      simp only [Ex.mapped, Ex.eval]
      rw [transformed_eval]
      rfl
    rw [he, total_mul, hm]
    congr 2
    refine Finset.sum_congr rfl fun x hx => ?_
    simp only [Ex.eval, memOf]
    rw [(hfull _).sol i, hB _ i x ((mem_gridPoints _ x).1 hx)]
  change total S.np (fun x => (jacobi I X x).det) (exchange S.np S.h (onGrid S.np (fun i x => exchange S.np S.h q0 i x + b * (0 * _ + I.const "dt" * (S.rhs i).eval I (memOf (full (exchange S.np S.h q0))) x)) _) i) =
    total S.np (fun x => (jacobi I X x).det) (q0 i) - _
  rw [total_bc hB, total_onGrid]
  simp only [zero_mul, zero_add]
  have := total_add_mul S.np (fun x => (jacobi I X x).det) (exchange S.np S.h q0 i) (fun x => I.const "dt" * (S.rhs i).eval I (memOf (full (exchange S.np S.h q0))) x) b
  rw [this, total_bc hB, total_mul, hF]
  have hq0' : ∀ x, q0 i x = atStart I pts S.sol (exchange S.np S.h) inp m (.data (S.sol i)) x := fun x => rfl
  simp only [hq0']
  ring

theorem uniform_mapped {t : Temporal} (hP : Program S t I pts inp prg) (hO : OnMapping S M orig inp) (hI : IsCentral S I delta) (hn : ∀ d, S.h ≤ S.np d) {ks : List (Ker D)} (hks : S.spatial = .ok ks)
    (hi : ∀ i, (orig i).firstFluxes = true) {init : String → P D → ℝ} {full : Sol D n → String → P D → ℝ} (hfull : ∀ q, Consistent S I init q (full q)) {c : Fin n → ℝ} {v : Sol D n} (hv : Uniform S.np v c)
    (i : Fin n) (x : P D) (hx : Grid S.np x) : (S.rhs i).eval I (memOf (full (exchange S.np S.h v))) x = 0 := by
  rw [hO.rhs i]
  refine mapped_induction M.cur M.str I (memOf (full (exchange S.np S.h v))) (fun u => u x) rfl (fun u v hu hv => by simp_all) (fun c u hu => by simp_all) _ (hi i) fun j a ha hca => ?_
  refine Finset.sum_eq_zero fun k _ => ?_
  have hpos : ∀ d, 0 < S.np d := fun d => by have := hx d; omega
  have hg : ∀ y : P D, Grid S.np fun d => y d % S.np d := fun y d => ⟨Int.emod_nonneg _ (hpos d).ne', Int.emod_lt_of_pos _ (hpos d)⟩
  have hz := uniform_fluxes hI (.cd k 1 a) (f := full (exchange S.np S.h v)) (fun s hs y z hy hz => fluxes_point hO hP.valid hks (hfull _) i (hi i) j a ha s hs fun l => by
    rw [exchange_image S.h_nonneg hn v l y hy, exchange_image S.h_nonneg hn v l z hz, hv l _ (hg y), hv l _ (hg z)]) (by simp [Ex.fluxes, nest_plain a hca]) x hx
  simp only [Ex.eval] at hz
  rw [hz, mul_zero]

/-- C99: on mapped grids a uniform solution stays as it is, exactly, whatever the mapping and its metric terms, in any number of dimensions: at the end of the program and in every file with a number. -/
theorem C99_uniform_flow (hP : Program S .rk I pts inp prg) (hO : OnMapping S M orig inp) (hI : IsCentral S I delta) (hn : ∀ d, S.h ≤ S.np d)
    (hst : inp.stages = 3) (hnew : I.table "rknew" = [2/3, 5/12, 3/5]) (hold : I.table "rkold" = [1/4, 3/20, 3/5]) (m : Mem D) (hi : ∀ i, (orig i).firstFluxes = true)
    (c : Fin n → ℝ) (hc : ∀ i x, Grid S.np x → atStart I pts S.sol (exchange S.np S.h) inp m (.data (S.sol i)) x = c i) :
    (∀ i x, Grid S.np x → Alg.effect (exec I pts S.sol (exchange S.np S.h)) (Alg.runProgram prg) m (.data (S.sol i)) x = c i) ∧
    ∀ before after o k e, Alg.runProgram prg = before ++ .write o (some k) e :: after →
      ∀ i x, Grid S.np x → Alg.effect (exec I pts S.sol (exchange S.np S.h)) before m (.data (S.sol i)) x = c i := by
  obtain ⟨ks, hks, hAs⟩ := hP.assembled
  obtain ⟨full, hfull⟩ := program_full hP fun s => atStart I pts S.sol (exchange S.np S.h) inp m (.data s)
  exact assembled_uniform hAs hP.valid.solInj hP.loops hst hnew hold m (spatial_evaluates hP.valid hP.loops hP.reach hfull ks hks) (exchange_fills S.h_nonneg hn).keeps c (fun v hv i x hx => uniform_mapped hP hO hI hn hks hi hfull hv i x hx) hc

/-- C99: with low storage schemes too, whatever is left in their second register and whatever the mapping and its metric terms, in any number of dimensions: at the end of the program and in every file with a number. -/
theorem C99_uniform_flow_ls (hP : Program S .lowStorage I pts inp prg) (hO : OnMapping S M orig inp) (hI : IsCentral S I delta) (hn : ∀ d, S.h ≤ S.np d)
    (A C : List ℝ) (hAC : A.length = C.length) (hst : inp.stages = A.length) (hA : I.table "rkA" = A) (hC : I.table "rkB" = C) (hA0 : A.head? = some 0) (m : Mem D) (hi : ∀ i, (orig i).firstFluxes = true)
    (c : Fin n → ℝ) (hc : ∀ i x, Grid S.np x → atStart I pts S.sol (exchange S.np S.h) inp m (.data (S.sol i)) x = c i) :
    (∀ i x, Grid S.np x → Alg.effect (exec I pts S.sol (exchange S.np S.h)) (Alg.runProgram prg) m (.data (S.sol i)) x = c i) ∧
    ∀ before after o k e, Alg.runProgram prg = before ++ .write o (some k) e :: after →
      ∀ i x, Grid S.np x → Alg.effect (exec I pts S.sol (exchange S.np S.h)) before m (.data (S.sol i)) x = c i := by
  obtain ⟨ks, hks, hAs⟩ := hP.assembled
  obtain ⟨full, hfull⟩ := program_full hP fun s => atStart I pts S.sol (exchange S.np S.h) inp m (.data s)
  exact assembled_uniform_ls hAs hP.valid.solInj hP.loops A C hAC hst hA hC hA0 m (spatial_evaluates hP.valid hP.loops hP.reach hfull ks hks) (exchange_fills S.h_nonneg hn).keeps c (fun v hv i x hx => uniform_mapped hP hO hI hn hks hi hfull hv i x hx) hc

end Program

/-- C99: in two dimensions every mapping satisfies the metric identities, so that the weighted sums are conserved on all periodic mappings. -/
theorem C99_two_dimensions {S : Setup 2 n} {M : Metrics 2} {orig : Fin n → Ex 2} {I : Interp 2} {delta : Fin 2 → ℝ} {pts : Ranges.Kernel 2 → List (P 2)} {inp : Alg.Input (Call 2)} {prg : List (Alg.Node (Call 2))}
    {X : Fin 2 → P 2 → ℝ} (hP : Program S .rk I pts inp prg) (hO : OnMapping S M orig inp) (hI : IsCentral S I delta) (hn : ∀ d, S.h ≤ S.np d)
    (hst : inp.stages = 3) (hnew : I.table "rknew" = [2/3, 5/12, 3/5]) (hold : I.table "rkold" = [1/4, 3/20, 3/5]) (m : Mem 2)
    (hX : HoldsCoordinates M S.np S.h X (atStart I pts S.sol (exchange S.np S.h) inp m)) (hw : Wraps S.np X)
    (hd : ∀ x, Grid S.np x → Describes M.cur M.str (jacobi I X x)) (hdet : ∀ x, Grid S.np x → (jacobi I X x).det ≠ 0) (i : Fin n) (hi : (orig i).firstFluxes = true) :
    ConservesWeighted (fun x => (jacobi I X x).det) S I pts (exchange S.np S.h) inp prg m i :=
  C99_conservation_rk hP hO hI hn hst hnew hold m hX hw (identities_two hI X) hd hdet i hi

end OpenSBLI.Sim
