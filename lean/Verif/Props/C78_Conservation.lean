import Verif.Props.C78_Program

/-!
# C78: conservation, uniform flow and halo values for whole shock capturing programs on periodic boxes
-/
namespace OpenSBLI.Sim

variable {D n : ℕ}

/-! ## Periodic boundaries -/

/-- How far the schemes read. -/
def Shock.reach (C : Shock D n) : ℤ := max (schemeK C.scheme) C.h

theorem halo_values [NeZero D] {C : Shock D n} (h0 : (0 : Fin D) ∈ C.dirs) : Ranges.haloValues C.block = fun _ => (-C.reach, max (schemeK C.scheme + 1) C.h) := by
  funext d
  unfold Ranges.haloValues Ranges.minHalo Ranges.maxHalo Shock.block Shock.reach
  simp only [if_pos h0]
  rw [dif_pos (by simp), dif_pos (by simp), Finset.inf'_union (Finset.singleton_nonempty _) (Finset.singleton_nonempty _), Finset.sup'_union (Finset.singleton_nonempty _) (Finset.singleton_nonempty _)]
  simp only [Finset.inf'_singleton, Finset.sup'_singleton, haloType, Prod.mk.injEq, and_true]
  omega

section Exchange
variable [NeZero D] {C : Shock D n} (hs : C.scheme.Valid) (h0 : (0 : Fin D) ∈ C.dirs) (hnp : ∀ d, C.reach ≤ C.np d)
include hs h0 hnp

theorem shockExchange_image (v : Sol D n) (i : Fin n) (x : P D) (hx : Allocated C.np C.reach x) : C.exchange v i x = v i fun d => x d % C.np d := by
  have hk := schemeK_pos hs
  unfold Shock.exchange
  rw [halo_values h0, Ranges.C24_periodic_image C.np C.reach _ (by unfold Shock.reach; omega) (by unfold Shock.reach; omega) (by unfold Shock.reach; omega) hnp _ _ x hx (List.nodup_finRange D)]
  congr 1
  funext d
  simp [Ranges.wrap]

theorem shockExchange_keeps (v : Sol D n) (i : Fin n) (x : P D) (hx : Grid C.np x) : C.exchange v i x = v i x := by
  have hk := schemeK_pos hs
  rw [shockExchange_image hs h0 hnp v i x fun d => by have := hx d; unfold Shock.reach; omega]
  congr 1
  funext d
  exact Int.emod_eq_of_lt (hx d).1 (hx d).2

theorem shockExchange_periodic (v : Sol D n) : Periodic C.np C.reach (C.exchange v) := by
  intro i y z hy hz hyz
  rw [shockExchange_image hs h0 hnp v i y hy, shockExchange_image hs h0 hnp v i z hz, show (fun d => y d % C.np d) = fun d => z d % C.np d from funext hyz]

end Exchange

/-- C78 needs shock capturing derivatives in direction 0: otherwise the exchanges, in all directions, fill the halos of the central scheme only, which is less than the reconstruction reads. -/
theorem C78_first_direction [NeZero D] {C : Shock D n} (h0 : (0 : Fin D) ∉ C.dirs) (hnp : ∀ d, C.h ≤ C.np d) (v : Sol D n) (i : Fin n) (x : P D) (hx : ¬ Allocated C.np C.h x) : C.exchange v i x = v i x := by
  have : Ranges.haloValues C.block = fun _ => (-C.h, C.h) := by
    funext d
    simp [Ranges.haloValues, Shock.block, h0, Ranges.minHalo, Ranges.maxHalo]
  unfold Shock.exchange
  rw [this]
  exact (exchange_fills (n := n) C.toSetup.h_nonneg hnp).outside v i x hx

/-! ## Fluxes -/

/-- All datasets read are components of the solution or given by relations. -/
def Shock.Closed (C : Shock D n) : Prop :=
  ∀ s, ((∃ d ∈ C.dirs, s ∈ C.symbols d) ∨ (∃ d ∈ C.dirs, ∃ i, s ∈ (C.coef d i).datas) ∨ (∃ i, s ∈ (C.rhs i).datas) ∨ ∃ t e, C.relation t = some e ∧ s ∈ e.datas) →
    (C.relation s).isSome ∨ ∃ i, s = C.sol i

/-- Numerical fluxes depend on the values at the points of the stencil only. -/
theorem numericalFlux_two {C : Shock D n} (hC : C.Core) {I : Interp D} {f f' : String → P D → ℝ} {d : Fin D} (hd : d ∈ C.dirs) {y z : P D}
    (h : ∀ p, 1 - schemeK C.scheme ≤ p → p ≤ schemeK C.scheme → ∀ s, (s ∈ C.symbols d ∨ ∃ i, s = C.sol i) → f s (shift y d p) = f' s (shift z d p)) :
    numericalFlux C I f d y = numericalFlux C I f' d z := by
  have hk := schemeK_pos hC.scheme
  have hval : ∀ (e : Ex D), e.plain → e.cds = [] → (∀ s ∈ e.datas, s ∈ C.symbols d) → ∀ p, 1 - schemeK C.scheme ≤ p → p ≤ schemeK C.scheme →
      e.eval I (memOf f) (shift y d p) = e.eval I (memOf f') (shift z d p) := by
    intro e hpl hc hs p h1 h2
    refine eval_two e hc fun a ha => ?_
    obtain ⟨s, rfl⟩ := hpl a ha
    exact h p h1 h2 s (.inl (hs s ((mem_datas e s).2 ha)))
  have havg : ∀ (e : Ex D), e.plain → e.cds = [] → (∀ t ∈ e.datas, ∀ u ∈ C.avgReads t, u ∈ C.symbols d ∨ ∃ i, u = C.sol i) →
      e.eval I (memOf fun t _ => C.avg (fun s => f s (shift y d 0)) (fun s => f s (shift y d (0 + 1))) t) y =
      e.eval I (memOf fun t _ => C.avg (fun s => f' s (shift z d 0)) (fun s => f' s (shift z d (0 + 1))) t) z := by
    intro e hpl hc hr
    refine eval_two e hc fun a ha => ?_
    obtain ⟨t, rfl⟩ := hpl a ha
    refine hC.avgLocal t _ _ _ _ fun u hu => ?_
    have hu' := hr t ((mem_datas e t).2 ha) u hu
    exact ⟨h 0 (by omega) (by omega) u hu', h (0 + 1) (by omega) (by omega) u hu'⟩
  refine Llf.C15_stencil_local C.scheme hC.scheme _ _ 0 ?_ ?_ fun p hp => ?_
  · funext i j
    exact havg _ (hC.lev d hd i j).1 (hC.lev d hd i j).2 fun t ht => hC.avgRead d hd i j t (List.mem_append_left _ ht)
  · funext i j
    exact havg _ (hC.rev d hd i j).1 (hC.rev d hd i j).2 fun t ht => hC.avgRead d hd i j t (List.mem_append_right _ ht)
  · obtain ⟨h1, h2⟩ := stencil_reach p hp
    rw [zero_add]
    refine ⟨funext fun i => ?_, funext fun i => ?_, funext fun i => ?_⟩
    · exact hval _ (hC.flux d hd i).1 (hC.flux d hd i).2 (fun s hs => flux_symbol (.inl hs)) p h1 h2
    · exact h p h1 h2 _ (.inr ⟨i, rfl⟩)
    · exact hval _ (hC.ev d hd i).1 (hC.ev d hd i).2 (fun s hs => flux_symbol (.inr (.inl hs))) p h1 h2

section Values
variable {C : Shock D n} (hC : C.Valid) {I : Interp D} {cs : List (Call D)} (hcs : C.spatial = .ok cs) (hcl : C.Closed)
  {init init' : String → P D → ℝ} {q q' : Sol D n} {f f' : String → P D → ℝ}
  (hf : ConsistentOn C.toSetup C.required I init q f) (hf' : ConsistentOn C.toSetup C.required I init' q' f')
include hC hcs hcl hf hf'

/-- Values of the datasets are determined by the values of the solution at the point. -/
theorem shock_two {y z : P D} (hq : ∀ i, q i y = q' i z) (s : String)
    (hs : (∃ d ∈ C.dirs, s ∈ C.symbols d) ∨ (∃ d ∈ C.dirs, ∃ i, s ∈ (C.coef d i).datas) ∨ (∃ i, s ∈ (C.rhs i).datas) ∨ ∃ i, s = C.sol i) : f s y = f' s z := by
  obtain ⟨order, hord⟩ := shock_order hcs
  refine required_two hC.relations hord (fun t e he s hs => hcl s (.inr (.inr (.inr ⟨t, e, he, hs⟩)))) hf hf' hq s ?_ ?_
  · rcases hs with h | h | h | h
    · exact .inl h
    · exact .inr (.inr (.inl h))
    · exact .inr (.inr (.inr (.inl h)))
    · exact .inr (.inl h)
  · rcases hs with h | h | h | h
    · exact hcl s (.inl h)
    · exact hcl s (.inr (.inl h))
    · exact hcl s (.inr (.inr (.inl h)))
    · exact .inr h

/-- Numerical fluxes are determined by the values of the solution along the line. -/
theorem shockFlux_two {d : Fin D} (hd : d ∈ C.dirs) {y z : P D} (h : ∀ p, 1 - schemeK C.scheme ≤ p → p ≤ schemeK C.scheme → ∀ i, q i (shift y d p) = q' i (shift z d p)) :
    numericalFlux C I f d y = numericalFlux C I f' d z :=
  numericalFlux_two hC.toCore hd fun p h1 h2 s hs => shock_two hC hcs hcl hf hf' (h p h1 h2) s (by
    rcases hs with hs | hs
    · exact .inl ⟨d, hd, hs⟩
    · exact .inr (.inr (.inr hs)))

end Values

/-- Points of the stencils of the two interfaces of a grid point. -/
theorem stencil_allocated {C : Shock D n} {x : P D} (hx : Grid C.np x) (hk : 0 ≤ schemeK C.scheme) (d : Fin D) {p : ℤ} (h1 : -schemeK C.scheme ≤ p) (h2 : p ≤ schemeK C.scheme) :
    Allocated C.np C.reach (shift x d p) := by
  intro e
  have := hx e
  unfold Shock.reach
  by_cases he : e = d
  · subst he
    simp only [shift, Function.update_self]
    omega
  · simp only [shift, Function.update_of_ne he]
    omega

theorem shift_shift (x : P D) (d : Fin D) (a b : ℤ) : shift (shift x d a) d b = shift x d (a + b) := by
  simp [shift, add_assoc]

theorem sum_list_zero {ι α : Type} (s : Finset α) (l : List ι) (g : ι → α → ℝ) (h : ∀ i ∈ l, ∑ x ∈ s, g i x = 0) : ∑ x ∈ s, (l.map fun i => g i x).sum = 0 := by
  induction l with
  | nil => simp
  | cons a l ih =>
    simp only [List.map_cons, List.sum_cons, Finset.sum_add_distrib]
    rw [h a (List.mem_cons_self ..), ih fun i hi => h i (List.mem_cons_of_mem _ hi), add_zero]

section Sums
variable {C : Shock D n} (hC : C.Valid) {I : Interp D} {delta : Fin D → ℝ} (hI : IsCentral C.toSetup I delta) {cs : List (Call D)} (hcs : C.spatial = .ok cs) (hcl : C.Closed)
  {init : String → P D → ℝ} {q : Sol D n} {f : String → P D → ℝ} (hf : ConsistentOn C.toSetup C.required I init q f)
include hC hI hcs hcl hf

/-- The right hand sides of periodic solutions sum to zero. -/
theorem shock_total (i : Fin n) (hco : ∀ d ∈ C.dirs, (C.coef d i).coef = true) (hi : (C.rhs i).fluxes = true) (hq : Periodic C.np C.reach q) : total C.np 1 (fun x => shockRhs C I f i x) = 0 := by
  have hk := schemeK_pos hC.scheme
  have hall : ∀ {y : P D}, Allocated C.np C.h y → Allocated C.np C.reach y := fun h e => by have := h e; unfold Shock.reach; omega
  simp only [total, Pi.one_apply, one_mul, shockRhs]
  rw [Finset.sum_add_distrib, sum_fluxes hI (C.rhs i) (fun s hs y z hy hz hyz => shock_two hC hcs hcl hf hf (fun j => hq j y z (hall hy) (hall hz) hyz) s (.inr (.inr (.inl ⟨i, hs⟩)))) hi, add_zero]
  refine sum_list_zero _ _ _ fun d hd => ?_
  have hw := sum_wrap (np := C.np) d (fun x => numericalFlux C I f d x i) (-1) fun x hx => by
    refine congrFun (shockFlux_two hC hcs hcl hf hf hd fun p h1 h2 j => hq j _ _ ?_ ?_ ?_) i
    · rw [shift_shift]; exact stencil_allocated hx (by omega) d (by omega) (by omega)
    · exact stencil_allocated (grid_wrap hx d (-1)) (by omega) d (by omega) h2
    · refine Same.shift (fun e => ?_) d p
      by_cases he : e = d
      · subst he; simp [shift]
      · simp [shift, he]
  have : ∀ x ∈ gridPoints C.np, (C.coef d i).eval I (memOf f) x * ((numericalFlux C I f d x i - numericalFlux C I f d (Function.update x d (x d - 1)) i) / I.const (C.spacing d)) =
      (C.coef d i).eval I (memOf f) (fun _ => 0) / I.const (C.spacing d) * (numericalFlux C I f d x i - numericalFlux C I f d (shift x d (-1)) i) := fun x _ => by
    rw [coef_eval I _ _ (hco d hd) x fun _ => 0]
    unfold shift
    rw [show x d - 1 = x d + -1 from rfl]
    ring
  rw [Finset.sum_congr rfl this, ← Finset.mul_sum, Finset.sum_sub_distrib, hw, sub_self, mul_zero]

/-- The right hand sides of a solution uniform on grid and halos vanish. -/
theorem shock_uniform (c : Fin n → ℝ) (hq : ∀ i x, Allocated C.np C.reach x → q i x = c i) (i : Fin n) (hi : (C.rhs i).fluxes = true) (x : P D) (hx : Grid C.np x) : shockRhs C I f i x = 0 := by
  have hk := schemeK_pos hC.scheme
  have hall : ∀ {y : P D}, Allocated C.np C.h y → Allocated C.np C.reach y := fun h e => by have := h e; unfold Shock.reach; omega
  unfold shockRhs
  rw [uniform_fluxes hI (C.rhs i) (fun s hs y z hy hz => shock_two hC hcs hcl hf hf (fun j => by rw [hq j y (hall hy), hq j z (hall hz)]) s (.inr (.inr (.inl ⟨i, hs⟩)))) hi x hx, add_zero]
  refine List.sum_eq_zero fun r hr => ?_
  obtain ⟨d, hd, rfl⟩ := List.mem_map.1 hr
  have : numericalFlux C I f d x = numericalFlux C I f d (shift x d (-1)) := shockFlux_two hC hcs hcl hf hf hd fun p h1 h2 j => by
    rw [shift_shift, hq j _ (stencil_allocated hx (by omega) d (by omega) h2), hq j _ (stencil_allocated hx (by omega) d (by omega) (by omega))]
  rw [show Function.update x d (x d - 1) = shift x d (-1) from rfl, this, sub_self, zero_div, mul_zero]

end Sums

/-! ## Programs -/

section
variable [NeZero D] {C : Shock D n} {I : Interp D} {delta : Fin D → ℝ} {pts : Ranges.Kernel D → List (P D)} {inp : Alg.Input (Call D)} {prg : List (Alg.Node (Call D))}

omit [NeZero D] in
theorem shock_full (hC : C.Valid) {cs : List (Call D)} (hcs : C.spatial = .ok cs) (init : String → P D → ℝ) :
    ∃ full : Sol D n → String → P D → ℝ, ∀ q, ConsistentOn C.toSetup C.required I init q (full q) :=
  ⟨fun q => (C78_datasets_exist hC I cs hcs init q).choose, fun q => (C78_datasets_exist hC I cs hcs init q).choose_spec⟩

/-- C78: on a periodic box, whatever the number of steps and points and whatever shocks there are, the program of the three stage scheme conserves the sum over the grid of every component whose equation has flux derivatives
with constant coefficients. -/
theorem C78_conservation_rk (hP : ShockProgram C .rk I pts inp prg) (hI : IsCentral C.toSetup I delta) (hcl : C.Closed) (h0 : (0 : Fin D) ∈ C.dirs) (hn : ∀ d, C.reach ≤ C.np d)
    (hst : inp.stages = 3) (hnew : I.table "rknew" = [2/3, 5/12, 3/5]) (hold : I.table "rkold" = [1/4, 3/20, 3/5]) (m : Mem D) (i : Fin n)
    (hco : ∀ d ∈ C.dirs, (C.coef d i).coef = true) (hi : (C.rhs i).fluxes = true) : Conserves C.toSetup I pts C.exchange inp prg m i := by
  obtain ⟨cs, hcs, hA⟩ := hP.items
  obtain ⟨full, hfull⟩ := shock_full hP.valid hcs fun s => atStart I pts C.sol C.exchange inp m (.data s)
  exact conserves_one (assembled_conserves_rk hA hP.valid.relations.solInj hP.loops hst hnew hold m (shock_evaluates hP.valid hP.loops hP.reach hfull cs hcs) (shockExchange_keeps hP.valid.scheme h0 hn)
    (shockExchange_periodic hP.valid.scheme h0 hn) i fun q hq => shock_total hP.valid hI hcs hcl (hfull q) i hco hi hq)

/-- C78: so does the program of a low storage scheme. -/
theorem C78_conservation_ls (hP : ShockProgram C .lowStorage I pts inp prg) (hI : IsCentral C.toSetup I delta) (hcl : C.Closed) (h0 : (0 : Fin D) ∈ C.dirs) (hn : ∀ d, C.reach ≤ C.np d) (A L : List ℝ) (hAC : A.length = L.length)
    (hst : inp.stages = A.length) (hA : I.table "rkA" = A) (hL : I.table "rkB" = L) (hA0 : A.head? = some 0) (m : Mem D) (i : Fin n)
    (hco : ∀ d ∈ C.dirs, (C.coef d i).coef = true) (hi : (C.rhs i).fluxes = true) : Conserves C.toSetup I pts C.exchange inp prg m i := by
  obtain ⟨cs, hcs, hAs⟩ := hP.items
  obtain ⟨full, hfull⟩ := shock_full hP.valid hcs fun s => atStart I pts C.sol C.exchange inp m (.data s)
  exact conserves_one (assembled_conserves_ls hAs hP.valid.relations.solInj hP.loops A L hAC hst hA hL hA0 m (shock_evaluates hP.valid hP.loops hP.reach hfull cs hcs) (shockExchange_keeps hP.valid.scheme h0 hn)
    (shockExchange_periodic hP.valid.scheme h0 hn) i fun q hq => shock_total hP.valid hI hcs hcl (hfull q) i hco hi hq)

/-- C78: on a periodic box a uniform solution stays as it is, exactly: at the end of the program and in every file with a number. The coefficients of the flux derivatives may vary. -/
theorem C78_uniform_flow (hP : ShockProgram C .rk I pts inp prg) (hI : IsCentral C.toSetup I delta) (hcl : C.Closed) (h0 : (0 : Fin D) ∈ C.dirs) (hn : ∀ d, C.reach ≤ C.np d)
    (hst : inp.stages = 3) (hnew : I.table "rknew" = [2/3, 5/12, 3/5]) (hold : I.table "rkold" = [1/4, 3/20, 3/5]) (m : Mem D) (hi : ∀ i, (C.rhs i).fluxes = true)
    (c : Fin n → ℝ) (hc : ∀ i x, Grid C.np x → atStart I pts C.sol C.exchange inp m (.data (C.sol i)) x = c i) :
    (∀ i x, Grid C.np x → Alg.effect (exec I pts C.sol C.exchange) (Alg.runProgram prg) m (.data (C.sol i)) x = c i) ∧
    ∀ before after o k e, Alg.runProgram prg = before ++ .write o (some k) e :: after →
      ∀ i x, Grid C.np x → Alg.effect (exec I pts C.sol C.exchange) before m (.data (C.sol i)) x = c i := by
  obtain ⟨cs, hcs, hA⟩ := hP.items
  obtain ⟨full, hfull⟩ := shock_full hP.valid hcs fun s => atStart I pts C.sol C.exchange inp m (.data s)
  refine assembled_uniform hA hP.valid.relations.solInj hP.loops hst hnew hold m (shock_evaluates hP.valid hP.loops hP.reach hfull cs hcs) (shockExchange_keeps hP.valid.scheme h0 hn) c
    (fun v hv i x hx => shock_uniform hP.valid hI hcs hcl (hfull _) c (fun j y hy => ?_) i (hi i) x hx) hc
  have hpos : ∀ d, 0 < C.np d := fun d => by have := hx d; omega
  rw [shockExchange_image hP.valid.scheme h0 hn v j y hy]
  exact hv j _ fun d => ⟨Int.emod_nonneg _ (hpos d).ne', Int.emod_lt_of_pos _ (hpos d)⟩

end

/-! ## Values in the halos -/

/-- Expressions are determined by the data on grid and halos. -/
theorem nest_two {S : Setup D n} {I : Interp D} {delta : Fin D → ℝ} (hI : IsCentral S I delta) {f f' : String → P D → ℝ} (e : Ex D)
    (hf : ∀ s ∈ e.datas, ∀ y, Allocated S.np S.h y → f s y = f' s y) (used : List (Fin D)) (he : e.nest used = true)
    {y : P D} (hy : Box S.np S.h used y) : e.eval I (memOf f) y = e.eval I (memOf f') y := by
  induction e generalizing used y with
  | num _ => rfl
  | const _ => rfl
  | indexed _ => rfl
  | arr a =>
    have hall : Allocated S.np S.h y := fun d => by
      have := hy d
      have hh := S.h_nonneg
      split_ifs at this <;> omega
    cases a with
    | data s => exact hf s (by simp [Ex.datas, Ex.arrs]) y hall
    | _ => rfl
  | cd d k e ih =>
    simp only [Ex.nest, Bool.and_eq_true, decide_eq_true_eq] at he
    simp only [Ex.eval]
    rw [central_eval hI, central_eval hI]
    congr 1
    refine Finset.sum_congr rfl fun p hp => ?_
    rw [ih hf (d :: used) he.2 (hy.shift he.1 (points_abs S hp))]
  | add a b iha ihb | mul a b iha ihb | pow a b iha ihb =>
    simp only [Ex.nest, Bool.and_eq_true] at he
    simp only [Ex.eval]
    rw [iha (fun s hs => hf s ((mem_datas _ s).2 (List.mem_append_left _ ((mem_datas a s).1 hs)))) used he.1 hy,
      ihb (fun s hs => hf s ((mem_datas _ s).2 (List.mem_append_right _ ((mem_datas b s).1 hs)))) used he.2 hy]
  | fn g e ih =>
    simp only [Ex.eval]
    rw [ih hf used he hy]

/-- Two solutions which agree on the grid. -/
def Agree (np : Fin D → ℤ) (v v' : Sol D n) : Prop := ∀ i x, Grid np x → v i x = v' i x

/-- Steps from two states which agree on the grid, when boundary conditions and right hand sides take the grid values only. -/
theorem rkStep_agree {np : Fin D → ℤ} {B F F' : Sol D n → Sol D n} (hB : ∀ v i x, Grid np x → B v i x = v i x) (hF : ∀ v v', Agree np v v' → Agree np (F (B v)) (F' (B v')))
    (dt : ℝ) (coef : List (ℝ × ℝ)) (s s' : TState D n) (hs : Agree np s.q s'.q) : Agree np (rkStep np F B dt coef s).q (rkStep np F' B dt coef s').q := by
  have hkeep : ∀ v v' : Sol D n, Agree np v v' → Agree np (B v) (B v') := fun v v' h i x hx => by rw [hB v i x hx, hB v' i x hx, h i x hx]
  have main : ∀ (l : List (ℝ × ℝ)) (s s' : TState D n), (∃ v v', Agree np v v' ∧ s.q = B v ∧ s'.q = B v') → Agree np s.aux s'.aux →
      Agree np (l.foldl (rkStage np F B dt) s).q (l.foldl (rkStage np F' B dt) s').q := by
    intro l
    induction l with
    | nil => rintro s s' ⟨v, v', hv, h1, h2⟩ _; rw [List.foldl_nil, List.foldl_nil, h1, h2]; exact hkeep v v' hv
    | cons a l ih =>
      rintro s s' ⟨v, v', hv, h1, h2⟩ ha
      refine ih _ _ ⟨_, _, fun i x hx => ?_, rfl, rfl⟩ fun i x hx => ?_
      · simp only [onGrid]; rw [if_pos hx, if_pos hx, h1, h2, hF v v' hv i x hx, ha i x hx]
      · simp only [rkStage, onGrid]; rw [if_pos hx, if_pos hx, h1, h2, hF v v' hv i x hx, ha i x hx]
  refine main coef _ _ ⟨s.q, s'.q, hs, rfl, rfl⟩ fun i x hx => ?_
  simp only [onGrid]; rw [if_pos hx, if_pos hx]; exact hkeep _ _ hs i x hx

section
variable [NeZero D] {C : Shock D n} {I : Interp D} {delta : Fin D → ℝ} {pts : Ranges.Kernel D → List (P D)} {inp : Alg.Input (Call D)} {prg : List (Alg.Node (Call D))}

/-- C78: on a periodic box the result is determined by the solution on the grid at the beginning of the time loop. Two runs which start with the same values there, whatever is in the halos, work arrays, residuals and other
datasets, end with the same values on the grid. -/
theorem C78_halo_independent (hP : ShockProgram C .rk I pts inp prg) (hI : IsCentral C.toSetup I delta) (hcl : C.Closed) (hnest : ∀ i, (C.rhs i).nest [] = true) (h0 : (0 : Fin D) ∈ C.dirs) (hn : ∀ d, C.reach ≤ C.np d)
    (hst : inp.stages = 3) (hnew : I.table "rknew" = [2/3, 5/12, 3/5]) (hold : I.table "rkold" = [1/4, 3/20, 3/5]) (m m' : Mem D)
    (hm : ∀ i x, Grid C.np x → atStart I pts C.sol C.exchange inp m (.data (C.sol i)) x = atStart I pts C.sol C.exchange inp m' (.data (C.sol i)) x) (i : Fin n) (x : P D) (hx : Grid C.np x) :
    Alg.effect (exec I pts C.sol C.exchange) (Alg.runProgram prg) m (.data (C.sol i)) x = Alg.effect (exec I pts C.sol C.exchange) (Alg.runProgram prg) m' (.data (C.sol i)) x := by
  obtain ⟨cs, hcs, hA⟩ := hP.items
  have hC := hP.valid
  have hk := schemeK_pos hC.scheme
  obtain ⟨full, hfull⟩ := shock_full hC hcs fun s => atStart I pts C.sol C.exchange inp m (.data s)
  obtain ⟨full', hfull'⟩ := shock_full hC hcs fun s => atStart I pts C.sol C.exchange inp m' (.data s)
  rw [(C78_program_rk_partial hP hst hnew hold C.exchange m full hfull).1 i, (C78_program_rk_partial hP hst hnew hold C.exchange m' full' hfull').1 i]
  have hpos : ∀ d, 0 < C.np d := fun d => by have := hx d; omega
  have hF : ∀ v v', Agree C.np v v' → Agree C.np (fun i x => shockRhs C I (full (C.exchange v)) i x) (fun i x => shockRhs C I (full' (C.exchange v')) i x) := by
    intro v v' hv i x hx
    have hq : ∀ j y, Allocated C.np C.reach y → C.exchange v j y = C.exchange v' j y := fun j y hy => by
      rw [shockExchange_image hC.scheme h0 hn v j y hy, shockExchange_image hC.scheme h0 hn v' j y hy]
      exact hv j _ fun d => ⟨Int.emod_nonneg _ (hpos d).ne', Int.emod_lt_of_pos _ (hpos d)⟩
    have hgrid : Allocated C.np C.reach x := fun e => by have := hx e; unfold Shock.reach; omega
    have htwo := fun {y : P D} (hy : Allocated C.np C.reach y) => shock_two hC hcs hcl (hfull (C.exchange v)) (hfull' (C.exchange v')) (y := y) (z := y) (fun j => hq j y hy)
    simp only [shockRhs]
    rw [nest_two hI (f' := full' (C.exchange v')) (C.rhs i) (fun s hs y hy => htwo (fun e => by have := hy e; unfold Shock.reach; omega) s (.inr (.inr (.inl ⟨i, hs⟩)))) [] (hnest i) ((box_nil _ _ _).2 hx)]
    congr 2
    refine List.map_congr_left fun d hd => ?_
    obtain ⟨c1, c2, _⟩ := hC.coef d hd i
    have hco : (C.coef d i).eval I (memOf (full (C.exchange v))) x = (C.coef d i).eval I (memOf (full' (C.exchange v'))) x := eval_two _ c2 fun a ha => by
      obtain ⟨s, rfl⟩ := c1 a ha
      exact htwo hgrid s (.inr (.inl ⟨d, hd, i, (mem_datas _ s).2 ha⟩))
    have h0 : numericalFlux C I (full (C.exchange v)) d x = numericalFlux C I (full' (C.exchange v')) d x :=
      shockFlux_two hC hcs hcl (hfull _) (hfull' _) hd fun p h1 h2 j => hq j _ (stencil_allocated hx (by omega) d (by omega) h2)
    have h1 : numericalFlux C I (full (C.exchange v)) d (shift x d (-1)) = numericalFlux C I (full' (C.exchange v')) d (shift x d (-1)) :=
      shockFlux_two hC hcs hcl (hfull _) (hfull' _) hd fun p h1 h2 j => by rw [shift_shift]; exact hq j _ (stencil_allocated hx (by omega) d (by omega) (by omega))
    rw [show Function.update x d (x d - 1) = shift x d (-1) from rfl, hco, h0, h1]
  have hk' : ∀ k (s s' : TState D n), Agree C.np s.q s'.q → Agree C.np
      ((rkStep C.np (fun q i x => shockRhs C I (full q) i x) C.exchange (I.const "dt") [(2/3, 1/4), (5/12, 3/20), (3/5, 3/5)])^[k] s).q
      ((rkStep C.np (fun q i x => shockRhs C I (full' q) i x) C.exchange (I.const "dt") [(2/3, 1/4), (5/12, 3/20), (3/5, 3/5)])^[k] s').q := by
    intro k
    induction k with
    | zero => exact fun _ _ h => h
    | succ k ih =>
      intro s s' h
      rw [Function.iterate_succ_apply, Function.iterate_succ_apply]
      exact ih _ _ (rkStep_agree (shockExchange_keeps hC.scheme h0 hn) hF _ _ _ _ h)
  exact hk' _ _ _ (fun i x hx => hm i x hx) i x hx

end

end OpenSBLI.Sim
