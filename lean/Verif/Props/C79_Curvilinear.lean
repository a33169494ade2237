import Verif.Props.C78_Conservation

/-!
# C79: uniform flow and weighted totals on stretched and curvilinear grids

The metric terms are datasets which the program reads and never assigns in the time loop. They are arbitrary arrays here; how they are evaluated is C55.
-/
namespace OpenSBLI.Sim

variable {D n : ℕ}

/-! ## Uniform flow -/

/-- What is known of the values of an expression when all datasets but the metric terms are uniform. -/
inductive Kind where
  | zero
  | uniform
  | varying
  deriving DecidableEq

/-- Derivatives of uniform expressions vanish, in nests without repeated direction; a product vanishes with one factor, whatever the other. -/
def Ex.kind (metrics : List String) : List (Fin D) → Ex D → Kind
  | _, .num z => if z = 0 then .zero else .uniform
  | _, .const _ => .uniform
  | _, .indexed _ => .uniform
  | _, .arr (.data s) => if s ∈ metrics then .varying else .uniform
  | _, .arr _ => .varying
  | used, .cd d k e => if d ∈ used ∨ k = 0 ∨ e.kind metrics (d :: used) = .varying then .varying else .zero
  | used, .add a b =>
    if a.kind metrics used = .zero ∧ b.kind metrics used = .zero then .zero else if a.kind metrics used = .varying ∨ b.kind metrics used = .varying then .varying else .uniform
  | used, .mul a b =>
    if a.kind metrics used = .zero ∨ b.kind metrics used = .zero then .zero else if a.kind metrics used = .varying ∨ b.kind metrics used = .varying then .varying else .uniform
  | used, .pow a b => if a.kind metrics used = .varying ∨ b.kind metrics used = .varying then .varying else .uniform
  | used, .fn _ e => if e.kind metrics used = .varying then .varying else .uniform

theorem Box.allocated {S : Setup D n} {used : List (Fin D)} {y : P D} (hy : Box S.np S.h used y) : Allocated S.np S.h y := fun d => by
  have := hy d
  have hh := S.h_nonneg
  split_ifs at this <;> omega

theorem kind_eval {S : Setup D n} {I : Interp D} {delta : Fin D → ℝ} (hI : IsCentral S I delta) {f : String → P D → ℝ} (metrics : List String) (e : Ex D)
    (hf : ∀ s ∈ e.datas, s ∉ metrics → ∀ y z, Allocated S.np S.h y → Allocated S.np S.h z → f s y = f s z) (used : List (Fin D)) :
    (e.kind metrics used ≠ .varying → ∀ y z, Box S.np S.h used y → Box S.np S.h used z → e.eval I (memOf f) y = e.eval I (memOf f) z) ∧
    (e.kind metrics used = .zero → ∀ y, Box S.np S.h used y → e.eval I (memOf f) y = 0) := by
  induction e generalizing used with
  | num z =>
    refine ⟨fun _ _ _ _ _ => rfl, fun h y _ => ?_⟩
    simp only [Ex.kind] at h
    split_ifs at h with hz
    subst hz; simp [Ex.eval]
  | const _ => exact ⟨fun _ _ _ _ _ => rfl, fun h => by simp [Ex.kind] at h⟩
  | indexed _ => exact ⟨fun _ _ _ _ _ => rfl, fun h => by simp [Ex.kind] at h⟩
  | arr a =>
    cases a with
    | data s =>
      refine ⟨fun h y z hy hz => ?_, fun h => ?_⟩
      · simp only [Ex.kind] at h
        split_ifs at h with hs
        · exact absurd rfl h
        · exact hf s (by simp [Ex.datas, Ex.arrs]) hs y z hy.allocated hz.allocated
      · simp only [Ex.kind] at h
        split_ifs at h
    | _ => exact ⟨fun h => absurd rfl h, fun h => by simp [Ex.kind] at h⟩
  | cd d k e ih =>
    have key : (Ex.cd d k e).kind metrics used ≠ .varying → ∀ y, Box S.np S.h used y → (Ex.cd d k e).eval I (memOf f) y = 0 := by
      intro h y hy
      simp only [Ex.kind] at h
      split_ifs at h with hc
      · exact absurd rfl h
      push Not at hc
      obtain ⟨hd, hk, hv⟩ := hc
      simp only [Ex.eval]
      rw [central_eval hI]
      have : ∀ p ∈ Central.points S.order, Central.weight ℝ S.order k p * e.eval I (memOf f) (shift y d p) = Central.weight ℝ S.order k p * e.eval I (memOf f) y := by
        intro p hp
        rw [(ih hf (d :: used)).1 hv _ y (hy.shift hd (points_abs S hp)) (hy.mono S.h_nonneg fun e he => List.mem_cons_of_mem _ he)]
      rw [Finset.sum_congr rfl this, ← Finset.sum_mul, Central.C18_annihilates_constants S.order k (Nat.one_le_iff_ne_zero.2 hk), zero_mul, zero_mul]
    exact ⟨fun h y z hy hz => by rw [key h y hy, key h z hz], fun h y hy => key (by rw [h]; decide) y hy⟩
  | add a b iha ihb =>
    have iha := iha (fun s hs => hf s ((mem_datas _ s).2 (List.mem_append_left _ ((mem_datas a s).1 hs)))) used
    have ihb := ihb (fun s hs => hf s ((mem_datas _ s).2 (List.mem_append_right _ ((mem_datas b s).1 hs)))) used
    have hz : (Ex.add a b).kind metrics used = .zero → a.kind metrics used = .zero ∧ b.kind metrics used = .zero := fun h => by
      simp only [Ex.kind] at h
      split_ifs at h with h1
      exact h1
    refine ⟨fun h y z hy hz => ?_, fun h y hy => ?_⟩
    · have : a.kind metrics used ≠ .varying ∧ b.kind metrics used ≠ .varying := by
        simp only [Ex.kind] at h
        split_ifs at h with h1 h2
        · rw [h1.1, h1.2]; decide
        · exact absurd rfl h
        · push Not at h2; exact h2
      simp only [Ex.eval]
      rw [iha.1 this.1 y z hy hz, ihb.1 this.2 y z hy hz]
    · simp only [Ex.eval]
      rw [iha.2 (hz h).1 y hy, ihb.2 (hz h).2 y hy, add_zero]
  | mul a b iha ihb =>
    have iha := iha (fun s hs => hf s ((mem_datas _ s).2 (List.mem_append_left _ ((mem_datas a s).1 hs)))) used
    have ihb := ihb (fun s hs => hf s ((mem_datas _ s).2 (List.mem_append_right _ ((mem_datas b s).1 hs)))) used
    have hz : a.kind metrics used = .zero ∨ b.kind metrics used = .zero → ∀ y, Box S.np S.h used y → (Ex.mul a b).eval I (memOf f) y = 0 := by
      rintro (h | h) y hy
      · simp only [Ex.eval]; rw [iha.2 h y hy, zero_mul]
      · simp only [Ex.eval]; rw [ihb.2 h y hy, mul_zero]
    refine ⟨fun h y z hy hz' => ?_, fun h y hy => ?_⟩
    · simp only [Ex.kind] at h
      split_ifs at h with h1 h2
      · rw [hz h1 y hy, hz h1 z hz']
      · exact absurd rfl h
      · push Not at h2
        simp only [Ex.eval]
        rw [iha.1 h2.1 y z hy hz', ihb.1 h2.2 y z hy hz']
    · simp only [Ex.kind] at h
      split_ifs at h with h1
      exact hz h1 y hy
  | pow a b iha ihb =>
    have iha := iha (fun s hs => hf s ((mem_datas _ s).2 (List.mem_append_left _ ((mem_datas a s).1 hs)))) used
    have ihb := ihb (fun s hs => hf s ((mem_datas _ s).2 (List.mem_append_right _ ((mem_datas b s).1 hs)))) used
    refine ⟨fun h y z hy hz => ?_, fun h => ?_⟩
    · simp only [Ex.kind] at h
      split_ifs at h with h1
      · exact absurd rfl h
      · push Not at h1
        simp only [Ex.eval]
        rw [iha.1 h1.1 y z hy hz, ihb.1 h1.2 y z hy hz]
    · simp only [Ex.kind] at h
      split_ifs at h
  | fn g e ih =>
    refine ⟨fun h y z hy hz => ?_, fun h => ?_⟩
    · simp only [Ex.kind] at h
      split_ifs at h with h1
      · exact absurd rfl h
      · simp only [Ex.eval]
        rw [(ih hf used).1 h1 y z hy hz]
    · simp only [Ex.kind] at h
      split_ifs at h

/-- Every dataset read which is no metric term is a component of the solution or given by a relation, and those relations do not read metric terms. `reads` are the datasets of the right hand sides. -/
structure Geometry (S : Setup D n) (reads : String → Prop) (metrics : List String) : Prop where
  known : ∀ s ∉ metrics, reads s → (S.relation s).isSome ∨ ∃ i, s = S.sol i
  relation : ∀ t ∉ metrics, ∀ e, S.relation t = some e → ∀ s ∈ e.datas, s ∉ metrics ∧ ((S.relation s).isSome ∨ ∃ i, s = S.sol i)

theorem Geometry.two {S : Setup D n} {reads req : String → Prop} {metrics : List String} (hG : Geometry S reads metrics) (hS : S.Relations req) {I : Interp D} {order : List String}
    (hord : S.relOrder = .ok order) {init init' : String → P D → ℝ} {q q' : Sol D n} {f f' : String → P D → ℝ} (hf : ConsistentOn S req I init q f) (hf' : ConsistentOn S req I init' q' f')
    {y z : P D} (hq : ∀ i, q i y = q' i z) (s : String) (hs : req s) (hm : s ∉ metrics) (hr : reads s ∨ ∃ i, s = S.sol i) : f s y = f' s z :=
  required_two_of hS hord (fun s => s ∉ metrics ∧ ((S.relation s).isSome ∨ ∃ i, s = S.sol i)) (fun t e ht he => hG.relation t ht.1 e he) hf hf' hq (fun s h hn hi => by
    rcases h.2 with h | ⟨i, h⟩
    · rw [hn] at h; cases h
    · exact absurd h (hi i)) s hs ⟨hm, hr.elim (hG.known s hm) .inr⟩

section Steps
variable {S : Setup D n} {I : Interp D} {pts : Ranges.Kernel D → List (P D)} {inp : Alg.Input (Call D)} {prg : List (Alg.Node (Call D))} {cs : List (Call D)} {B F : Sol D n → Sol D n}

/-- Uniform values and the program of a low storage scheme. -/
theorem assembled_uniform_ls (hP : Assembled S .lowStorage cs inp prg) (hinj : Function.Injective S.sol) (hp : Enumerates pts) (A C : List ℝ) (hAC : A.length = C.length)
    (hst : inp.stages = A.length) (hA : I.table "rkA" = A) (hC : I.table "rkB" = C) (hA0 : A.head? = some 0) (m : Mem D)
    (hF : Evaluates S I pts B (fun s => atStart I pts S.sol B inp m (.data s)) cs F) (hB : ∀ v i x, Grid S.np x → B v i x = v i x)
    (c : Fin n → ℝ) (hU : ∀ v, Uniform S.np v c → ∀ i x, Grid S.np x → F (B v) i x = 0) (hc : ∀ i x, Grid S.np x → atStart I pts S.sol B inp m (.data (S.sol i)) x = c i) :
    (∀ i x, Grid S.np x → Alg.effect (exec I pts S.sol B) (Alg.runProgram prg) m (.data (S.sol i)) x = c i) ∧
    ∀ before after o k e, Alg.runProgram prg = before ++ .write o (some k) e :: after → ∀ i x, Grid S.np x → Alg.effect (exec I pts S.sol B) before m (.data (S.sol i)) x = c i := by
  obtain ⟨h1, h2⟩ := assembled_ls hP hinj hp A C hAC hst hA hC B F m hF
  have hz : ∃ b l, A.zip C = (0, b) :: l := by
    cases A with
    | nil => simp at hA0
    | cons a A => cases C with
      | nil => simp at hAC
      | cons b C =>
        simp only [List.head?_cons, Option.some.injEq] at hA0
        subst hA0
        exact ⟨b, A.zip C, rfl⟩
  obtain ⟨b, l, hz⟩ := hz
  rw [hz] at h1 h2
  have hk : ∀ k s, Uniform S.np s.q c → Uniform S.np ((lsStep S.np F B (I.const "dt") ((0, b) :: l))^[k] s).q c := by
    intro k s hs
    induction k generalizing s with
    | zero => exact hs
    | succ k ih =>
      rw [Function.iterate_succ_apply]
      exact ih _ (lsStep_uniform hB hU _ _ _ _ hs)
  refine ⟨fun i x hx => ?_, fun before after o k e he i x hx => ?_⟩
  · rw [h1 i]; exact hk _ _ (fun i x hx => hc i x hx) i x hx
  · obtain ⟨j, _, _, _, hj⟩ := h2 before after o k e he
    rw [hj i]; exact hk _ _ (fun i x hx => hc i x hx) i x hx

end Steps

/-- The solution arrays hold the values `c` at every grid point, at the end of the program and whenever a file with a number is written. -/
def StaysUniform (S : Setup D n) (I : Interp D) (pts : Ranges.Kernel D → List (P D)) (B : Sol D n → Sol D n) (prg : List (Alg.Node (Call D))) (m : Mem D) (c : Fin n → ℝ) : Prop :=
  (∀ i x, Grid S.np x → Alg.effect (exec I pts S.sol B) (Alg.runProgram prg) m (.data (S.sol i)) x = c i) ∧
  ∀ before after o k e, Alg.runProgram prg = before ++ .write o (some k) e :: after → ∀ i x, Grid S.np x → Alg.effect (exec I pts S.sol B) before m (.data (S.sol i)) x = c i

section Central
variable {S : Setup D n} {I : Interp D} {delta : Fin D → ℝ} {pts : Ranges.Kernel D → List (P D)} {inp : Alg.Input (Call D)} {prg : List (Alg.Node (Call D))}

theorem central_uniform (hS : S.Valid) (hI : IsCentral S I delta) {ks : List (Ker D)} (hks : S.spatial = .ok ks) {metrics : List String} (hG : Geometry S (fun s => ∃ i, s ∈ (S.rhs i).datas) metrics)
    {init : String → P D → ℝ} {full : Sol D n → String → P D → ℝ} (hfull : ∀ q, Consistent S I init q (full q)) (hn : ∀ d, S.h ≤ S.np d) (hi : ∀ i, (S.rhs i).kind metrics [] = .zero)
    (c : Fin n → ℝ) (v : Sol D n) (hv : Uniform S.np v c) (i : Fin n) (x : P D) (hx : Grid S.np x) : (S.rhs i).eval I (memOf (full (exchange S.np S.h v))) x = 0 := by
  have hpos : ∀ d, 0 < S.np d := fun d => by have := hx d; omega
  obtain ⟨order, hord⟩ := spatial_order hks
  refine (kind_eval hI metrics (S.rhs i) (fun s hs hm y z hy hz => hG.two hS.relations hord (hfull _) (hfull _) (fun j => ?_) s (rhs_required hS i s hs) hm (.inl ⟨i, hs⟩)) []).2 (hi i) x ((box_nil _ _ _).2 hx)
  have hg : ∀ y : P D, Grid S.np fun d => y d % S.np d := fun y d => ⟨Int.emod_nonneg _ (hpos d).ne', Int.emod_lt_of_pos _ (hpos d)⟩
  rw [exchange_image S.h_nonneg hn v j y hy, exchange_image S.h_nonneg hn v j z hz, hv j _ (hg y), hv j _ (hg z)]

/-- C79: with central differences a uniform solution stays as it is, exactly, for all values of the metric terms, at grid points and in the halos, if every term of the equations has a derivative of expressions without metric
terms or with metric terms only in vanishing products: at the end of the program and in every file with a number. -/
theorem C79_free_stream_central_rk (hP : Program S .rk I pts inp prg) (hI : IsCentral S I delta) (metrics : List String) (hG : Geometry S (fun s => ∃ i, s ∈ (S.rhs i).datas) metrics)
    (hn : ∀ d, S.h ≤ S.np d) (hst : inp.stages = 3) (hnew : I.table "rknew" = [2/3, 5/12, 3/5]) (hold : I.table "rkold" = [1/4, 3/20, 3/5]) (m : Mem D) (hi : ∀ i, (S.rhs i).kind metrics [] = .zero)
    (c : Fin n → ℝ) (hc : ∀ i x, Grid S.np x → atStart I pts S.sol (exchange S.np S.h) inp m (.data (S.sol i)) x = c i) : StaysUniform S I pts (exchange S.np S.h) prg m c := by
  obtain ⟨ks, hks, hAs⟩ := hP.assembled
  obtain ⟨full, hfull⟩ := program_full hP fun s => atStart I pts S.sol (exchange S.np S.h) inp m (.data s)
  exact assembled_uniform hAs hP.valid.solInj hP.loops hst hnew hold m (spatial_evaluates hP.valid hP.loops hP.reach hfull ks hks) (exchange_fills S.h_nonneg hn).keeps c
    (fun v hv i x hx => central_uniform hP.valid hI hks hG hfull hn hi c v hv i x hx) hc

/-- C79: the same for the low storage schemes. -/
theorem C79_free_stream_central_ls (hP : Program S .lowStorage I pts inp prg) (hI : IsCentral S I delta) (metrics : List String) (hG : Geometry S (fun s => ∃ i, s ∈ (S.rhs i).datas) metrics)
    (hn : ∀ d, S.h ≤ S.np d) (A C : List ℝ) (hAC : A.length = C.length) (hst : inp.stages = A.length) (hA : I.table "rkA" = A) (hC : I.table "rkB" = C) (hA0 : A.head? = some 0) (m : Mem D)
    (hi : ∀ i, (S.rhs i).kind metrics [] = .zero) (c : Fin n → ℝ) (hc : ∀ i x, Grid S.np x → atStart I pts S.sol (exchange S.np S.h) inp m (.data (S.sol i)) x = c i) :
    StaysUniform S I pts (exchange S.np S.h) prg m c := by
  obtain ⟨ks, hks, hAs⟩ := hP.assembled
  obtain ⟨full, hfull⟩ := program_full hP fun s => atStart I pts S.sol (exchange S.np S.h) inp m (.data s)
  exact assembled_uniform_ls hAs hP.valid.solInj hP.loops A C hAC hst hA hC hA0 m (spatial_evaluates hP.valid hP.loops hP.reach hfull ks hks) (exchange_fills S.h_nonneg hn).keeps c
    (fun v hv i x hx => central_uniform hP.valid hI hks hG hfull hn hi c v hv i x hx) hc

end Central

section Shock
variable [NeZero D] {C : Shock D n} {I : Interp D} {delta : Fin D → ℝ} {pts : Ranges.Kernel D → List (P D)} {inp : Alg.Input (Call D)} {prg : List (Alg.Node (Call D))}

/-- The datasets of which the values matter for uniform flow: those of fluxes and eigensystems, and those of the remaining terms. -/
def Shock.reads (C : Shock D n) (s : String) : Prop := (∃ d ∈ C.dirs, s ∈ C.symbols d) ∨ ∃ i, s ∈ (C.rhs i).datas

omit [NeZero D] in
theorem shock_uniform_metric (hC : C.Valid) (hI : IsCentral C.toSetup I delta) {cs : List (Call D)} (hcs : C.spatial = .ok cs) {metrics : List String} (hG : Geometry C.toSetup C.reads metrics)
    (hflux : ∀ d ∈ C.dirs, ∀ s ∈ C.symbols d, s ∉ metrics) (hsol : ∀ i, C.sol i ∉ metrics) {init : String → P D → ℝ} {q : Sol D n} {f : String → P D → ℝ}
    (hf : ConsistentOn C.toSetup C.required I init q f) (c : Fin n → ℝ) (hq : ∀ i x, Allocated C.np C.reach x → q i x = c i) (i : Fin n) (hi : (C.rhs i).kind metrics [] = .zero) (x : P D) (hx : Grid C.np x) :
    shockRhs C I f i x = 0 := by
  have hk := schemeK_pos hC.scheme
  have hall : ∀ {y : P D}, Allocated C.np C.h y → Allocated C.np C.reach y := fun h e => by have := h e; unfold Shock.reach; omega
  obtain ⟨order, hord⟩ := shock_order hcs
  unfold shockRhs
  rw [(kind_eval hI metrics (C.rhs i) (fun s hs hm y z hy hz => hG.two hC.relations hord hf hf (fun j => by rw [hq j y (hall hy), hq j z (hall hz)]) s (.inr (.inr (.inr (.inl ⟨i, hs⟩)))) hm
    (.inl (.inr ⟨i, hs⟩))) []).2 hi x ((box_nil _ _ _).2 hx), add_zero]
  refine List.sum_eq_zero fun r hr => ?_
  obtain ⟨d, hd, rfl⟩ := List.mem_map.1 hr
  have : numericalFlux C I f d x = numericalFlux C I f d (shift x d (-1)) := numericalFlux_two hC.toCore hd fun p h1 h2 s hs => by
    have hv : ∀ j, q j (shift x d p) = q j (shift (shift x d (-1)) d p) := fun j => by
      rw [shift_shift, hq j _ (stencil_allocated hx (by omega) d (by omega) h2), hq j _ (stencil_allocated hx (by omega) d (by omega) (by omega))]
    rcases hs with hs | ⟨j, rfl⟩
    · exact hG.two hC.relations hord hf hf hv s (.inl ⟨d, hd, hs⟩) (hflux d hd s hs) (.inl (.inl ⟨d, hd, hs⟩))
    · exact hG.two hC.relations hord hf hf hv _ (.inr (.inl ⟨j, rfl⟩)) (hsol j) (.inr ⟨j, rfl⟩)
  rw [show Function.update x d (x d - 1) = shift x d (-1) from rfl, this, sub_self, zero_div, mul_zero]

/-- C79: the same with a shock capturing scheme, whatever coefficients the derivatives of the fluxes have, if fluxes and eigensystems have no metric terms. -/
theorem C79_free_stream_shock_rk (hP : ShockProgram C .rk I pts inp prg) (hI : IsCentral C.toSetup I delta) (metrics : List String) (hG : Geometry C.toSetup C.reads metrics)
    (hflux : ∀ d ∈ C.dirs, ∀ s ∈ C.symbols d, s ∉ metrics) (hsol : ∀ i, C.sol i ∉ metrics) (h0 : (0 : Fin D) ∈ C.dirs) (hn : ∀ d, C.reach ≤ C.np d)
    (hst : inp.stages = 3) (hnew : I.table "rknew" = [2/3, 5/12, 3/5]) (hold : I.table "rkold" = [1/4, 3/20, 3/5]) (m : Mem D) (hi : ∀ i, (C.rhs i).kind metrics [] = .zero)
    (c : Fin n → ℝ) (hc : ∀ i x, Grid C.np x → atStart I pts C.sol C.exchange inp m (.data (C.sol i)) x = c i) : StaysUniform C.toSetup I pts C.exchange prg m c := by
  obtain ⟨cs, hcs, hA⟩ := hP.items
  obtain ⟨full, hfull⟩ := shock_full hP.valid hcs fun s => atStart I pts C.sol C.exchange inp m (.data s)
  refine assembled_uniform hA hP.valid.relations.solInj hP.loops hst hnew hold m (shock_evaluates hP.valid hP.loops hP.reach hfull cs hcs) (shockExchange_keeps hP.valid.scheme h0 hn) c
    (fun v hv i x hx => shock_uniform_metric hP.valid hI hcs hG hflux hsol (hfull _) c (fun j y hy => ?_) i (hi i) x hx) hc
  have hpos : ∀ d, 0 < C.np d := fun d => by have := hx d; omega
  rw [shockExchange_image hP.valid.scheme h0 hn v j y hy]
  exact hv j _ fun d => ⟨Int.emod_nonneg _ (hpos d).ne', Int.emod_lt_of_pos _ (hpos d)⟩

/-- C79: the same for the low storage schemes. -/
theorem C79_free_stream_shock_ls (hP : ShockProgram C .lowStorage I pts inp prg) (hI : IsCentral C.toSetup I delta) (metrics : List String) (hG : Geometry C.toSetup C.reads metrics)
    (hflux : ∀ d ∈ C.dirs, ∀ s ∈ C.symbols d, s ∉ metrics) (hsol : ∀ i, C.sol i ∉ metrics) (h0 : (0 : Fin D) ∈ C.dirs) (hn : ∀ d, C.reach ≤ C.np d) (A L : List ℝ) (hAC : A.length = L.length)
    (hst : inp.stages = A.length) (hA : I.table "rkA" = A) (hL : I.table "rkB" = L) (hA0 : A.head? = some 0) (m : Mem D) (hi : ∀ i, (C.rhs i).kind metrics [] = .zero)
    (c : Fin n → ℝ) (hc : ∀ i x, Grid C.np x → atStart I pts C.sol C.exchange inp m (.data (C.sol i)) x = c i) : StaysUniform C.toSetup I pts C.exchange prg m c := by
  obtain ⟨cs, hcs, hAs⟩ := hP.items
  obtain ⟨full, hfull⟩ := shock_full hP.valid hcs fun s => atStart I pts C.sol C.exchange inp m (.data s)
  refine assembled_uniform_ls hAs hP.valid.relations.solInj hP.loops A L hAC hst hA hL hA0 m (shock_evaluates hP.valid hP.loops hP.reach hfull cs hcs) (shockExchange_keeps hP.valid.scheme h0 hn) c
    (fun v hv i x hx => shock_uniform_metric hP.valid hI hcs hG hflux hsol (hfull _) c (fun j y hy => ?_) i (hi i) x hx) hc
  have hpos : ∀ d, 0 < C.np d := fun d => by have := hx d; omega
  rw [shockExchange_image hP.valid.scheme h0 hn v j y hy]
  exact hv j _ fun d => ⟨Int.emod_nonneg _ (hpos d).ne', Int.emod_lt_of_pos _ (hpos d)⟩

end Shock

end OpenSBLI.Sim
