import Verif.Props.C79_Curvilinear

/-!
# C79: totals weighted with the Jacobian
-/
namespace OpenSBLI.Sim

variable {D n : ℕ}

/-- Grid points on one line in direction `d` have the same weight. -/
def ConstantAlong (np : Fin D → ℤ) (d : Fin D) (w : P D → ℝ) : Prop := ∀ x y, Grid np x → Grid np y → (∀ e, e ≠ d → x e = y e) → w x = w y

/-- Sums of derivatives with coefficients in metric terms, such that weight times coefficient does not change along the direction of the derivative. -/
def Ex.balanced (I : Interp D) (g : String → P D → ℝ) (np : Fin D → ℤ) (metrics : List String) : (P D → ℝ) → Ex D → Prop
  | _, .num z => z = 0
  | w, .cd d k e => 1 ≤ k ∧ e.nest [d] = true ∧ ConstantAlong np d w
  | w, .add a b => a.balanced I g np metrics w ∧ b.balanced I g np metrics w
  | w, .mul a b => a.cds = [] ∧ a.plain ∧ (∀ s ∈ a.datas, s ∈ metrics) ∧ b.balanced I g np metrics fun x => w x * a.eval I (memOf g) x
  | _, _ => False

/-- A weight which does not change along a direction can be taken from the first point. -/
theorem ConstantAlong.base {np : Fin D → ℤ} {d : Fin D} {w : P D → ℝ} (h : ConstantAlong np d w) {x : P D} (hx : Grid np x) : w x = w (Function.update x d 0) := by
  refine h x _ hx (fun e => ?_) fun e he => by rw [Function.update_of_ne he]
  by_cases he : e = d
  · subst he; have := hx e; simp only [Function.update_self]; omega
  · rw [Function.update_of_ne he]; exact hx e

theorem sum_shift_weighted {np : Fin D → ℤ} {h : ℤ} (d : Fin D) (w g : P D → ℝ) (hw : ConstantAlong np d w) (hg : ∀ y z, Box np h [d] y → Box np h [d] z → Same np y z → g y = g z) (p : ℤ) (hp : |p| ≤ h) :
    ∑ x ∈ gridPoints np, w x * g (shift x d p) = ∑ x ∈ gridPoints np, w x * g x := by
  have hh : 0 ≤ h := (abs_nonneg p).trans hp
  have h1 : ∑ x ∈ gridPoints np, w x * g (shift x d p) = ∑ x ∈ gridPoints np, (fun y => w (Function.update y d 0) * g y) (shift x d p) := by
    refine Finset.sum_congr rfl fun x hx => ?_
    rw [hw.base ((mem_gridPoints np x).1 hx)]
    simp [shift]
  have h2 : ∑ x ∈ gridPoints np, w x * g x = ∑ x ∈ gridPoints np, (fun y => w (Function.update y d 0) * g y) x := by
    refine Finset.sum_congr rfl fun x hx => ?_
    rw [hw.base ((mem_gridPoints np x).1 hx)]
  rw [h1, h2]
  refine sum_wrap d (fun y => w (Function.update y d 0) * g y) p fun x hx => ?_
  have hb : Box np h [] x := (box_nil _ _ _).2 hx
  rw [hg (shift x d p) (Function.update x d ((x d + p) % np d)) (hb.shift (by simp) hp) (Box.mono hh (by simp) ((box_nil np h _).2 (grid_wrap hx d p))) fun e => by
    by_cases he : e = d
    · subst he; simp [shift]
    · simp [shift, he]]
  simp [shift]

/-- Weighted sums of balanced expressions of periodic data vanish. -/
theorem sum_balanced {S : Setup D n} {I : Interp D} {delta : Fin D → ℝ} (hI : IsCentral S I delta) {f g : String → P D → ℝ} {metrics : List String} (hfg : ∀ s ∈ metrics, f s = g s) (e : Ex D)
    (hf : ∀ s ∈ e.datas, ∀ y z, Allocated S.np S.h y → Allocated S.np S.h z → Same S.np y z → f s y = f s z) (w : P D → ℝ) (he : e.balanced I g S.np metrics w) :
    ∑ x ∈ gridPoints S.np, w x * e.eval I (memOf f) x = 0 := by
  induction e generalizing w with
  | num z =>
    simp only [Ex.balanced] at he
    subst he
    simp [Ex.eval]
  | cd d k e _ =>
    obtain ⟨hk, hn, hw⟩ := he
    simp only [Ex.eval, central_eval hI]
    have h1 : ∀ x, w x * ((∑ p ∈ Central.points S.order, Central.weight ℝ S.order k p * e.eval I (memOf f) (shift x d p)) * (1 / delta d ^ k)) =
        (∑ p ∈ Central.points S.order, Central.weight ℝ S.order k p * (w x * e.eval I (memOf f) (shift x d p))) * (1 / delta d ^ k) := by
      intro x
      rw [← mul_assoc, Finset.mul_sum]
      congr 1
      exact Finset.sum_congr rfl fun p _ => by ring
    simp only [h1]
    rw [← Finset.sum_mul, Finset.sum_comm]
    have : ∀ p ∈ Central.points S.order, ∑ x ∈ gridPoints S.np, Central.weight ℝ S.order k p * (w x * e.eval I (memOf f) (shift x d p)) =
        Central.weight ℝ S.order k p * ∑ x ∈ gridPoints S.np, w x * e.eval I (memOf f) x := by
      intro p hp
      rw [← Finset.mul_sum, sum_shift_weighted (h := S.h) d w _ hw (fun y z hy hz hyz => nest_same hI e hf [d] hn hy hz hyz) p (points_abs S hp)]
    rw [Finset.sum_congr rfl this, ← Finset.sum_mul, Central.C18_annihilates_constants S.order k hk, zero_mul, zero_mul]
  | add a b iha ihb =>
    simp only [Ex.eval, mul_add]
    rw [Finset.sum_add_distrib, iha (fun s hs => hf s ((mem_datas _ s).2 (List.mem_append_left _ ((mem_datas a s).1 hs)))) w he.1,
      ihb (fun s hs => hf s ((mem_datas _ s).2 (List.mem_append_right _ ((mem_datas b s).1 hs)))) w he.2, add_zero]
  | mul a b iha ihb =>
    obtain ⟨h1, h2, h3, h4⟩ := he
    simp only [Ex.eval]
    rw [← ihb (fun s hs => hf s ((mem_datas _ s).2 (List.mem_append_right _ ((mem_datas b s).1 hs)))) _ h4]
    refine Finset.sum_congr rfl fun x _ => ?_
    have : a.eval I (memOf f) x = a.eval I (memOf g) x := eval_two a h1 fun c hc => by
      obtain ⟨s, rfl⟩ := h2 c hc
      simp only [memOf, hfg s (h3 s ((mem_datas a s).2 hc))]
    rw [this]; ring
  | _ => exact he.elim

/-- The metric terms are given datasets with periodic values; all other datasets read are components of the solution or given by relations. -/
structure PeriodicGeometry (S : Setup D n) (reads : String → Prop) (h : ℤ) (init : String → P D → ℝ) (metrics : List String) : Prop where
  given : ∀ s ∈ metrics, S.relation s = none ∧ ∀ i, s ≠ S.sol i
  periodic : ∀ s ∈ metrics, ∀ y z, Allocated S.np h y → Allocated S.np h z → Same S.np y z → init s y = init s z
  known : ∀ s, reads s → s ∈ metrics ∨ (S.relation s).isSome ∨ ∃ i, s = S.sol i
  relation : ∀ t e, S.relation t = some e → ∀ s ∈ e.datas, s ∈ metrics ∨ (S.relation s).isSome ∨ ∃ i, s = S.sol i

theorem PeriodicGeometry.same {S : Setup D n} {reads req : String → Prop} {h : ℤ} {init : String → P D → ℝ} {metrics : List String} (hG : PeriodicGeometry S reads h init metrics) (hS : S.Relations req)
    {I : Interp D} {order : List String} (hord : S.relOrder = .ok order) {q : Sol D n} {f : String → P D → ℝ} (hf : ConsistentOn S req I init q f) {y z : P D} (hy : Allocated S.np h y) (hz : Allocated S.np h z)
    (hyz : Same S.np y z) (hq : ∀ i, q i y = q i z) (s : String) (hs : req s) (hr : reads s ∨ ∃ i, s = S.sol i) : f s y = f s z :=
  required_two_of hS hord (fun s => s ∈ metrics ∨ (S.relation s).isSome ∨ ∃ i, s = S.sol i) (fun t e _ he => hG.relation t e he) hf hf hq (fun s h hn hi => by
    rcases h with h | h | ⟨i, h⟩
    · exact hG.periodic s h y z hy hz hyz
    · rw [hn] at h; cases h
    · exact absurd h (hi i)) s hs (hr.elim (hG.known s) fun h => .inr (.inr h))

section Central
variable {S : Setup D n} {I : Interp D} {delta : Fin D → ℝ} {pts : Ranges.Kernel D → List (P D)} {inp : Alg.Input (Call D)} {prg : List (Alg.Node (Call D))}

theorem central_balanced (hS : S.Valid) (hI : IsCentral S I delta) {ks : List (Ker D)} (hks : S.spatial = .ok ks) {init : String → P D → ℝ} {metrics : List String}
    (hG : PeriodicGeometry S (fun s => ∃ i, s ∈ (S.rhs i).datas) S.h init metrics) {full : Sol D n → String → P D → ℝ} (hfull : ∀ q, Consistent S I init q (full q)) (w : P D → ℝ) (i : Fin n)
    (hi : (S.rhs i).balanced I init S.np metrics w) (q : Sol D n) (hq : Periodic S.np S.h q) : total S.np w (fun x => (S.rhs i).eval I (memOf (full q)) x) = 0 := by
  obtain ⟨order, hord⟩ := spatial_order hks
  refine sum_balanced hI (fun s hs => ?_) (S.rhs i) (fun s hs y z hy hz hyz => hG.same hS.relations hord (hfull q) hy hz hyz (fun j => hq j y z hy hz hyz) s (rhs_required hS i s hs) (.inl ⟨i, hs⟩)) w hi
  exact (hfull q).rest s (relation_none hS.relations.relNodup (hG.given s hs).1) (hG.given s hs).2

/-- C79: with central differences on a periodic box the sum over the grid of a component times a weight, say the Jacobian, is constant in time, if the terms of its equation are derivatives with coefficients in metric terms and weight
times coefficient does not change along the direction of the derivative: at the end of the program and in every file with a number. -/
theorem C79_weighted_conservation_central_rk (hP : Program S .rk I pts inp prg) (hI : IsCentral S I delta) (metrics : List String) (m : Mem D)
    (hG : PeriodicGeometry S (fun s => ∃ i, s ∈ (S.rhs i).datas) S.h (fun s => atStart I pts S.sol (exchange S.np S.h) inp m (.data s)) metrics) (hn : ∀ d, S.h ≤ S.np d)
    (hst : inp.stages = 3) (hnew : I.table "rknew" = [2/3, 5/12, 3/5]) (hold : I.table "rkold" = [1/4, 3/20, 3/5]) (w : P D → ℝ) (i : Fin n)
    (hi : (S.rhs i).balanced I (fun s => atStart I pts S.sol (exchange S.np S.h) inp m (.data s)) S.np metrics w) : ConservesWeighted w S I pts (exchange S.np S.h) inp prg m i := by
  obtain ⟨ks, hks, hAs⟩ := hP.assembled
  obtain ⟨full, hfull⟩ := program_full hP fun s => atStart I pts S.sol (exchange S.np S.h) inp m (.data s)
  exact assembled_conserves_rk hAs hP.valid.solInj hP.loops hst hnew hold m (spatial_evaluates hP.valid hP.loops hP.reach hfull ks hks) (exchange_fills S.h_nonneg hn).keeps
    (exchange_periodic S.h_nonneg hn) i fun q hq => central_balanced hP.valid hI hks hG hfull w i hi q hq

/-- C79: the same for the low storage schemes. -/
theorem C79_weighted_conservation_central_ls (hP : Program S .lowStorage I pts inp prg) (hI : IsCentral S I delta) (metrics : List String) (m : Mem D)
    (hG : PeriodicGeometry S (fun s => ∃ i, s ∈ (S.rhs i).datas) S.h (fun s => atStart I pts S.sol (exchange S.np S.h) inp m (.data s)) metrics) (hn : ∀ d, S.h ≤ S.np d)
    (A C : List ℝ) (hAC : A.length = C.length) (hst : inp.stages = A.length) (hA : I.table "rkA" = A) (hC : I.table "rkB" = C) (hA0 : A.head? = some 0) (w : P D → ℝ) (i : Fin n)
    (hi : (S.rhs i).balanced I (fun s => atStart I pts S.sol (exchange S.np S.h) inp m (.data s)) S.np metrics w) : ConservesWeighted w S I pts (exchange S.np S.h) inp prg m i := by
  obtain ⟨ks, hks, hAs⟩ := hP.assembled
  obtain ⟨full, hfull⟩ := program_full hP fun s => atStart I pts S.sol (exchange S.np S.h) inp m (.data s)
  exact assembled_conserves_ls hAs hP.valid.solInj hP.loops A C hAC hst hA hC hA0 m (spatial_evaluates hP.valid hP.loops hP.reach hfull ks hks) (exchange_fills S.h_nonneg hn).keeps
    (exchange_periodic S.h_nonneg hn) i fun q hq => central_balanced hP.valid hI hks hG hfull w i hi q hq

end Central

section Shock
variable [NeZero D] {C : Shock D n} {I : Interp D} {delta : Fin D → ℝ} {pts : Ranges.Kernel D → List (P D)} {inp : Alg.Input (Call D)} {prg : List (Alg.Node (Call D))}

/-- The coefficients of the flux derivatives of equation `i` are expressions in metric terms, weight times coefficient does not change along the direction of the derivative; the remaining terms are balanced. -/
structure Shock.Balanced (C : Shock D n) (I : Interp D) (init : String → P D → ℝ) (metrics : List String) (w : P D → ℝ) (i : Fin n) : Prop where
  metric : ∀ d ∈ C.dirs, ∀ s ∈ (C.coef d i).datas, s ∈ metrics
  coef : ∀ d ∈ C.dirs, ConstantAlong C.np d fun x => w x * (C.coef d i).eval I (memOf init) x
  rest : (C.rhs i).balanced I init C.np metrics w

omit [NeZero D] in
theorem shock_balanced (hC : C.Valid) (hI : IsCentral C.toSetup I delta) {cs : List (Call D)} (hcs : C.spatial = .ok cs) {init : String → P D → ℝ} {metrics : List String}
    (hG : PeriodicGeometry C.toSetup C.reads C.reach init metrics) {q : Sol D n} {f : String → P D → ℝ} (hf : ConsistentOn C.toSetup C.required I init q f) (w : P D → ℝ) (i : Fin n)
    (hi : C.Balanced I init metrics w i) (hq : Periodic C.np C.reach q) : total C.np w (fun x => shockRhs C I f i x) = 0 := by
  have hk := schemeK_pos hC.scheme
  have hall : ∀ {y : P D}, Allocated C.np C.h y → Allocated C.np C.reach y := fun h e => by have := h e; unfold Shock.reach; omega
  obtain ⟨order, hord⟩ := shock_order hcs
  have hmet : ∀ s ∈ metrics, f s = init s := fun s hs => hf.rest s (relation_none hC.relations.relNodup (hG.given s hs).1) (hG.given s hs).2
  simp only [total, shockRhs, mul_add]
  rw [Finset.sum_add_distrib, sum_balanced hI hmet (C.rhs i) (fun s hs y z hy hz hyz => hG.same hC.relations hord hf (hall hy) (hall hz) hyz (fun j => hq j y z (hall hy) (hall hz) hyz) s
    (.inr (.inr (.inr (.inl ⟨i, hs⟩)))) (.inl (.inr ⟨i, hs⟩))) w hi.rest, add_zero]
  have hlist : ∀ x, w x * (C.dirs.map fun d => (C.coef d i).eval I (memOf f) x * ((numericalFlux C I f d x i - numericalFlux C I f d (Function.update x d (x d - 1)) i) / I.const (C.spacing d))).sum =
      (C.dirs.map fun d => w x * ((C.coef d i).eval I (memOf f) x * ((numericalFlux C I f d x i - numericalFlux C I f d (Function.update x d (x d - 1)) i) / I.const (C.spacing d)))).sum := fun x => by
    rw [List.sum_map_mul_left]
  simp only [hlist]
  refine sum_list_zero _ _ _ fun d hd => ?_
  have hco : ∀ x, (C.coef d i).eval I (memOf f) x = (C.coef d i).eval I (memOf init) x := fun x => eval_two _ (hC.coef d hd i).2.1 fun c hc => by
    obtain ⟨s, rfl⟩ := (hC.coef d hd i).1 c hc
    simp only [memOf, hmet s (hi.metric d hd s ((mem_datas _ s).2 hc))]
  set v : P D → ℝ := fun x => w x * (C.coef d i).eval I (memOf init) x with hv
  have hbase : ∀ x, Grid C.np x → v x = v (Function.update x d 0) := fun x hx => (hi.coef d hd).base hx
  have hw := sum_wrap (np := C.np) d (fun x => v (Function.update x d 0) * numericalFlux C I f d x i) (-1) fun x hx => by
    have hflux : numericalFlux C I f d (shift x d (-1)) = numericalFlux C I f d (Function.update x d ((x d + -1) % C.np d)) := numericalFlux_two hC.toCore hd fun p h1 h2 s hs => by
      have ha : Allocated C.np C.reach (shift (shift x d (-1)) d p) := by rw [shift_shift]; exact stencil_allocated hx (by omega) d (by omega) (by omega)
      have hb := stencil_allocated (grid_wrap hx d (-1)) (by omega) d (p := p) (by omega) h2
      have hsame : Same C.np (shift (shift x d (-1)) d p) (shift (Function.update x d ((x d + -1) % C.np d)) d p) := Same.shift (fun e => by
        by_cases he : e = d
        · subst he; simp [shift]
        · simp [shift, he]) d p
      have hq' := fun j => hq j _ _ ha hb hsame
      rcases hs with hs | ⟨j, rfl⟩
      · exact hG.same hC.relations hord hf ha hb hsame hq' s (.inl ⟨d, hd, hs⟩) (.inl (.inl ⟨d, hd, hs⟩))
      · rw [hf.sol j]; exact hq' j
    rw [hflux]
    simp [shift]
  have : ∀ x ∈ gridPoints C.np, w x * ((C.coef d i).eval I (memOf f) x * ((numericalFlux C I f d x i - numericalFlux C I f d (Function.update x d (x d - 1)) i) / I.const (C.spacing d))) =
      1 / I.const (C.spacing d) * (v (Function.update x d 0) * numericalFlux C I f d x i - v (Function.update (shift x d (-1)) d 0) * numericalFlux C I f d (shift x d (-1)) i) := fun x hx => by
    rw [hco, show Function.update (shift x d (-1)) d 0 = Function.update x d 0 by simp [shift], ← hbase x ((mem_gridPoints _ x).1 hx)]
    simp only [hv, shift]
    rw [show x d - 1 = x d + -1 from rfl]
    ring
  rw [Finset.sum_congr rfl this, ← Finset.mul_sum, Finset.sum_sub_distrib, hw, sub_self, mul_zero]

/-- C79: the same with a shock capturing scheme, whatever shocks there are. -/
theorem C79_weighted_conservation_shock_rk (hP : ShockProgram C .rk I pts inp prg) (hI : IsCentral C.toSetup I delta) (metrics : List String) (m : Mem D)
    (hG : PeriodicGeometry C.toSetup C.reads C.reach (fun s => atStart I pts C.sol C.exchange inp m (.data s)) metrics) (h0 : (0 : Fin D) ∈ C.dirs) (hn : ∀ d, C.reach ≤ C.np d)
    (hst : inp.stages = 3) (hnew : I.table "rknew" = [2/3, 5/12, 3/5]) (hold : I.table "rkold" = [1/4, 3/20, 3/5]) (w : P D → ℝ) (i : Fin n)
    (hi : C.Balanced I (fun s => atStart I pts C.sol C.exchange inp m (.data s)) metrics w i) : ConservesWeighted w C.toSetup I pts C.exchange inp prg m i := by
  obtain ⟨cs, hcs, hA⟩ := hP.items
  obtain ⟨full, hfull⟩ := shock_full hP.valid hcs fun s => atStart I pts C.sol C.exchange inp m (.data s)
  exact assembled_conserves_rk hA hP.valid.relations.solInj hP.loops hst hnew hold m (shock_evaluates hP.valid hP.loops hP.reach hfull cs hcs) (shockExchange_keeps hP.valid.scheme h0 hn)
    (shockExchange_periodic hP.valid.scheme h0 hn) i fun q hq => shock_balanced hP.valid hI hcs hG (hfull q) w i hi hq

/-- C79: the same for the low storage schemes. -/
theorem C79_weighted_conservation_shock_ls (hP : ShockProgram C .lowStorage I pts inp prg) (hI : IsCentral C.toSetup I delta) (metrics : List String) (m : Mem D)
    (hG : PeriodicGeometry C.toSetup C.reads C.reach (fun s => atStart I pts C.sol C.exchange inp m (.data s)) metrics) (h0 : (0 : Fin D) ∈ C.dirs) (hn : ∀ d, C.reach ≤ C.np d)
    (A L : List ℝ) (hAC : A.length = L.length) (hst : inp.stages = A.length) (hA : I.table "rkA" = A) (hL : I.table "rkB" = L) (hA0 : A.head? = some 0) (w : P D → ℝ) (i : Fin n)
    (hi : C.Balanced I (fun s => atStart I pts C.sol C.exchange inp m (.data s)) metrics w i) : ConservesWeighted w C.toSetup I pts C.exchange inp prg m i := by
  obtain ⟨cs, hcs, hAs⟩ := hP.items
  obtain ⟨full, hfull⟩ := shock_full hP.valid hcs fun s => atStart I pts C.sol C.exchange inp m (.data s)
  exact assembled_conserves_ls hAs hP.valid.relations.solInj hP.loops A L hAC hst hA hL hA0 m (shock_evaluates hP.valid hP.loops hP.reach hfull cs hcs) (shockExchange_keeps hP.valid.scheme h0 hn)
    (shockExchange_periodic hP.valid.scheme h0 hn) i fun q hq => shock_balanced hP.valid hI hcs hG (hfull q) w i hi hq

end Shock

end OpenSBLI.Sim
