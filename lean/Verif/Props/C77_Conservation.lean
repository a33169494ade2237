import Verif.Props.C77_Periodic

/-!
# C77: conservation and uniform flow of whole central programs on periodic boxes
-/
namespace OpenSBLI.Sim

variable {D n : ℕ}

/-- Periodic values on grid and halos. -/
def Periodic (np : Fin D → ℤ) (h : ℤ) (q : Sol D n) : Prop := ∀ i y z, Allocated np h y → Allocated np h z → Same np y z → q i y = q i z

theorem exchange_periodic {np : Fin D → ℤ} {h : ℤ} (hh : 0 ≤ h) (hn : ∀ d, h ≤ np d) (v : Sol D n) : Periodic np h (exchange np h v) := by
  intro i y z hy hz hyz
  rw [exchange_image hh hn v i y hy, exchange_image hh hn v i z hz, show (fun d => y d % np d) = fun d => z d % np d from funext hyz]

/-- The sum of a component over the grid, with weights. -/
noncomputable def total (np : Fin D → ℤ) (w u : P D → ℝ) : ℝ := ∑ x ∈ gridPoints np, w x * u x

theorem total_onGrid (np : Fin D → ℤ) (w : P D → ℝ) (new rest : Sol D n) (i : Fin n) : total np w (onGrid np new rest i) = total np w (new i) :=
  Finset.sum_congr rfl fun x hx => by simp only [onGrid]; rw [if_pos ((mem_gridPoints np x).1 hx)]

theorem total_bc {np : Fin D → ℤ} {w : P D → ℝ} {B : Sol D n → Sol D n} (hB : ∀ v i x, Grid np x → B v i x = v i x) (v : Sol D n) (i : Fin n) : total np w (B v i) = total np w (v i) :=
  Finset.sum_congr rfl fun x hx => by rw [hB v i x ((mem_gridPoints np x).1 hx)]

theorem total_add_mul (np : Fin D → ℤ) (w u v : P D → ℝ) (a : ℝ) : total np w (fun x => u x + a * v x) = total np w u + a * total np w v := by
  simp only [total, mul_add, Finset.sum_add_distrib, Finset.mul_sum]
  exact congrArg _ (Finset.sum_congr rfl fun x _ => by ring)

section Steps
variable {np : Fin D → ℤ} {w : P D → ℝ} {h : ℤ} {B F : Sol D n → Sol D n} {i : Fin n} (hB : ∀ v i x, Grid np x → B v i x = v i x) (hper : ∀ v, Periodic np h (B v)) (hF : ∀ q, Periodic np h q → total np w (F q i) = 0)
include hB hper hF

/-- A step of the three stage method conserves the total of a component with vanishing sum of right hand sides. -/
theorem rkStep_total (dt : ℝ) (coef : List (ℝ × ℝ)) (s : TState D n) : total np w ((rkStep np F B dt coef s).q i) = total np w (s.q i) := by
  have main : ∀ (l : List (ℝ × ℝ)) (s : TState D n) (T : ℝ), Periodic np h s.q → total np w (s.q i) = T → total np w (s.aux i) = T → total np w ((l.foldl (rkStage np F B dt) s).q i) = T := by
    intro l
    induction l with
    | nil => exact fun s T _ h _ => h
    | cons c l ih =>
      intro s T hp hq ha
      refine ih _ T (hper _) ?_ ?_
      · change total np w (B _ i) = T
        rw [total_bc hB, total_onGrid, total_add_mul, hF _ hp, ha]; ring
      · simp only [rkStage]
        rw [total_onGrid, total_add_mul, hF _ hp, ha]; ring
  exact main coef _ _ (hper _) (total_bc hB _ _) (by change total np w (onGrid np _ _ i) = _; rw [total_onGrid, total_bc hB])

/-- A step of a low storage method, whose first coefficient `A` is zero, does so too. -/
theorem lsStep_total (dt : ℝ) (b : ℝ) (coef : List (ℝ × ℝ)) (s : TState D n) : total np w ((lsStep np F B dt ((0, b) :: coef) s).q i) = total np w (s.q i) := by
  have hst : ∀ (c : ℝ × ℝ) (s : TState D n) (T : ℝ), Periodic np h s.q → total np w (s.q i) = T → c.1 * total np w (s.aux i) = 0 →
      Periodic np h (lsStage np F B dt s c).q ∧ total np w ((lsStage np F B dt s c).q i) = T ∧ total np w ((lsStage np F B dt s c).aux i) = 0 := by
    intro c s T hp hq ha
    have hc : total np w (fun x => c.1 * s.aux i x + dt * F s.q i x) = 0 := by
      have := total_add_mul np w (fun x => c.1 * s.aux i x) (F s.q i) dt
      rw [this, hF _ hp, mul_zero, add_zero, ← ha]
      simp only [total, Finset.mul_sum]
      exact Finset.sum_congr rfl fun x _ => by ring
    refine ⟨hper _, ?_, ?_⟩
    · change total np w (B _ i) = T
      rw [total_bc hB, total_onGrid, total_add_mul, hc, hq]; ring
    · simp only [lsStage]
      rw [total_onGrid, hc]
  have main : ∀ (l : List (ℝ × ℝ)) (s : TState D n) (T : ℝ), Periodic np h s.q → total np w (s.q i) = T → total np w (s.aux i) = 0 → total np w ((l.foldl (lsStage np F B dt) s).q i) = T := by
    intro l
    induction l with
    | nil => exact fun s T _ h _ => h
    | cons c l ih =>
      intro s T hp hq ha
      obtain ⟨h1, h2, h3⟩ := hst c s T hp hq (by rw [ha, mul_zero])
      exact ih _ T h1 h2 h3
  obtain ⟨h1, h2, h3⟩ := hst (0, b) { s with q := B s.q } (total np w (s.q i)) (hper _) (total_bc hB _ _) (zero_mul _)
  exact main coef _ _ h1 h2 h3

end Steps

/-- Uniform values on the grid. -/
def Uniform (np : Fin D → ℤ) (q : Sol D n) (c : Fin n → ℝ) : Prop := ∀ i x, Grid np x → q i x = c i

section Steps
variable {np : Fin D → ℤ} {B F : Sol D n → Sol D n} {c : Fin n → ℝ} (hB : ∀ v i x, Grid np x → B v i x = v i x)
  (hF : ∀ v, Uniform np v c → ∀ i x, Grid np x → F (B v) i x = 0)
include hB hF

/-- Uniform values stay as they are. -/
theorem rkStep_uniform (dt : ℝ) (coef : List (ℝ × ℝ)) (s : TState D n) (hs : Uniform np s.q c) : Uniform np (rkStep np F B dt coef s).q c := by
  have hu : ∀ v, Uniform np v c → Uniform np (B v) c := fun v hv i x hx => by rw [hB v i x hx, hv i x hx]
  have main : ∀ (l : List (ℝ × ℝ)) (s : TState D n), (∃ v, Uniform np v c ∧ s.q = B v) → Uniform np s.aux c → Uniform np (l.foldl (rkStage np F B dt) s).q c := by
    intro l
    induction l with
    | nil => rintro s ⟨v, hv, he⟩ _; rw [List.foldl_nil, he]; exact hu v hv
    | cons a l ih =>
      rintro s ⟨v, hv, he⟩ ha
      refine ih _ ⟨_, fun i x hx => ?_, rfl⟩ fun i x hx => ?_
      · simp only [onGrid]; rw [if_pos hx, he, hF v hv i x hx, ha i x hx]; ring
      · simp only [rkStage, onGrid]; rw [if_pos hx, he, hF v hv i x hx, ha i x hx]; ring
  refine main coef _ ⟨s.q, hs, rfl⟩ fun i x hx => ?_
  simp only [onGrid]; rw [if_pos hx]; exact hu _ hs i x hx

theorem lsStep_uniform (dt : ℝ) (b : ℝ) (coef : List (ℝ × ℝ)) (s : TState D n) (hs : Uniform np s.q c) : Uniform np (lsStep np F B dt ((0, b) :: coef) s).q c := by
  have hu : ∀ v, Uniform np v c → Uniform np (B v) c := fun v hv i x hx => by rw [hB v i x hx, hv i x hx]
  have hst : ∀ (a : ℝ × ℝ) (s : TState D n) (v : Sol D n), Uniform np v c → s.q = B v → (∀ i x, Grid np x → a.1 * s.aux i x = 0) →
      (∃ v, Uniform np v c ∧ (lsStage np F B dt s a).q = B v) ∧ ∀ i x, Grid np x → (lsStage np F B dt s a).aux i x = 0 := by
    intro a s v hv he ha
    refine ⟨⟨_, fun i x hx => ?_, rfl⟩, fun i x hx => ?_⟩
    · simp only [onGrid]; rw [if_pos hx, he, hF v hv i x hx, ha i x hx, hu v hv i x hx]; ring
    · simp only [lsStage, onGrid]; rw [if_pos hx, he, hF v hv i x hx, ha i x hx]; ring
  have main : ∀ (l : List (ℝ × ℝ)) (s : TState D n), (∃ v, Uniform np v c ∧ s.q = B v) → (∀ i x, Grid np x → s.aux i x = 0) → Uniform np (l.foldl (lsStage np F B dt) s).q c := by
    intro l
    induction l with
    | nil => rintro s ⟨v, hv, he⟩ _; rw [List.foldl_nil, he]; exact hu v hv
    | cons a l ih =>
      rintro s ⟨v, hv, he⟩ ha
      obtain ⟨h1, h2⟩ := hst a s v hv he fun i x hx => by rw [ha i x hx, mul_zero]
      exact ih _ h1 h2
  obtain ⟨h1, h2⟩ := hst (0, b) { s with q := B s.q } s.q hs rfl fun i x _ => zero_mul _
  exact main coef _ h1 h2

end Steps

/-- The right hand sides of periodic solutions sum to zero. -/
theorem residual_total {S : Setup D n} (hS : S.Valid) {I : Interp D} {delta : Fin D → ℝ} (hI : IsCentral S I delta) {ks : List (Ker D)} (hks : S.spatial = .ok ks) (hcl : Closed S)
    {init : String → P D → ℝ} {full : Sol D n → String → P D → ℝ} (hfull : ∀ q, Consistent S I init q (full q)) (i : Fin n) (hi : (S.rhs i).fluxes = true) (q : Sol D n)
    (hq : Periodic S.np S.h q) : total S.np 1 (fun x => (S.rhs i).eval I (memOf (full q)) x) = 0 := by
  simp only [total, Pi.one_apply, one_mul]
  exact sum_fluxes hI (S.rhs i) (fun s hs y z hy hz hyz => datasets_point hS hks hcl (hfull q) (fun j => hq j y z hy hz hyz) i s hs) hi

theorem residual_uniform {S : Setup D n} (hS : S.Valid) {I : Interp D} {delta : Fin D → ℝ} (hI : IsCentral S I delta) {ks : List (Ker D)} (hks : S.spatial = .ok ks) (hcl : Closed S)
    {init : String → P D → ℝ} {full : Sol D n → String → P D → ℝ} (hfull : ∀ q, Consistent S I init q (full q)) (hn : ∀ d, S.h ≤ S.np d) (hi : ∀ i, (S.rhs i).fluxes = true)
    (c : Fin n → ℝ) (v : Sol D n) (hv : Uniform S.np v c) (i : Fin n) (x : P D) (hx : Grid S.np x) :
    (S.rhs i).eval I (memOf (full (exchange S.np S.h v))) x = 0 := by
  have hpos : ∀ d, 0 < S.np d := fun d => by have := hx d; omega
  refine uniform_fluxes hI (S.rhs i) (fun s hs y z hy hz => datasets_point hS hks hcl (hfull _) (fun j => ?_) i s hs) (hi i) x hx
  have hg : ∀ y : P D, Grid S.np fun d => y d % S.np d := fun y d => ⟨Int.emod_nonneg _ (hpos d).ne', Int.emod_lt_of_pos _ (hpos d)⟩
  rw [exchange_image S.h_nonneg hn v j y hy, exchange_image S.h_nonneg hn v j z hz, hv j _ (hg y), hv j _ (hg z)]

/-! ## Programs -/

section
variable {S : Setup D n} {I : Interp D} {delta : Fin D → ℝ} {pts : Ranges.Kernel D → List (P D)} {inp : Alg.Input (Call D)} {prg : List (Alg.Node (Call D))} {t : Temporal}

theorem program_spatial (hP : Program S t I pts inp prg) : ∃ ks, S.spatial = .ok ks := by
  obtain ⟨_, _, ks, h, _⟩ := hP.items
  exact ⟨ks, h⟩

theorem program_full (hP : Program S t I pts inp prg) (init : String → P D → ℝ) : ∃ full : Sol D n → String → P D → ℝ, ∀ q, Consistent S I init q (full q) := by
  obtain ⟨ks, hks⟩ := program_spatial hP
  exact ⟨fun q => (C77_datasets_exist hP.valid I ks hks init q).choose, fun q => (C77_datasets_exist hP.valid I ks hks init q).choose_spec⟩

/-- The arrays holding the solution have the totals of the solution at the beginning of the time loop: at the end of the program and whenever a file with a number is written. -/
def Conserves (S : Setup D n) (I : Interp D) (pts : Ranges.Kernel D → List (P D)) (B : Sol D n → Sol D n) (inp : Alg.Input (Call D)) (prg : List (Alg.Node (Call D))) (m : Mem D) (i : Fin n) : Prop :=
  let start := ∑ x ∈ gridPoints S.np, atStart I pts S.sol B inp m (.data (S.sol i)) x
  ∑ x ∈ gridPoints S.np, Alg.effect (exec I pts S.sol B) (Alg.runProgram prg) m (.data (S.sol i)) x = start ∧
  ∀ before after o k e, Alg.runProgram prg = before ++ .write o (some k) e :: after →
    ∑ x ∈ gridPoints S.np, Alg.effect (exec I pts S.sol B) before m (.data (S.sol i)) x = start

/-- The same for sums with weights. -/
def ConservesWeighted (w : P D → ℝ) (S : Setup D n) (I : Interp D) (pts : Ranges.Kernel D → List (P D)) (B : Sol D n → Sol D n) (inp : Alg.Input (Call D)) (prg : List (Alg.Node (Call D))) (m : Mem D) (i : Fin n) : Prop :=
  let start := ∑ x ∈ gridPoints S.np, w x * atStart I pts S.sol B inp m (.data (S.sol i)) x
  ∑ x ∈ gridPoints S.np, w x * Alg.effect (exec I pts S.sol B) (Alg.runProgram prg) m (.data (S.sol i)) x = start ∧
  ∀ before after o k e, Alg.runProgram prg = before ++ .write o (some k) e :: after →
    ∑ x ∈ gridPoints S.np, w x * Alg.effect (exec I pts S.sol B) before m (.data (S.sol i)) x = start

theorem conserves_one {B : Sol D n → Sol D n} {m : Mem D} {i : Fin n} (h : ConservesWeighted 1 S I pts B inp prg m i) : Conserves S I pts B inp prg m i := by
  simpa [ConservesWeighted, Conserves] using h

section Assembled
variable {w : P D → ℝ} {cs : List (Call D)} {B F : Sol D n → Sol D n} {h : ℤ}

/-- Conservation by the program of the three stage scheme, for spatial kernels evaluating `F`. -/
theorem assembled_conserves_rk (hP : Assembled S .rk cs inp prg) (hinj : Function.Injective S.sol) (hp : Enumerates pts) (hst : inp.stages = 3) (hnew : I.table "rknew" = [2/3, 5/12, 3/5])
    (hold : I.table "rkold" = [1/4, 3/20, 3/5]) (m : Mem D) (hF : Evaluates S I pts B (fun s => atStart I pts S.sol B inp m (.data s)) cs F) (hB : ∀ v i x, Grid S.np x → B v i x = v i x)
    (hper : ∀ v, Periodic S.np h (B v)) (i : Fin n) (hT : ∀ q, Periodic S.np h q → total S.np w (F q i) = 0) : ConservesWeighted w S I pts B inp prg m i := by
  obtain ⟨h1, h2⟩ := assembled_rk hP hinj hp hst hnew hold B F m hF
  have hk : ∀ k s, total S.np w (((rkStep S.np F B (I.const "dt") [(2/3, 1/4), (5/12, 3/20), (3/5, 3/5)])^[k] s).q i) = total S.np w (s.q i) := by
    intro k s
    induction k generalizing s with
    | zero => rfl
    | succ k ih =>
      rw [Function.iterate_succ_apply, ih]
      exact rkStep_total hB hper hT _ _ _
  refine ⟨?_, fun before after o k e he => ?_⟩
  · rw [h1 i]; exact hk _ _
  · obtain ⟨j, _, _, _, hj⟩ := h2 before after o k e he
    rw [hj i]; exact hk _ _

/-- Conservation by the program of a low storage scheme. -/
theorem assembled_conserves_ls (hP : Assembled S .lowStorage cs inp prg) (hinj : Function.Injective S.sol) (hp : Enumerates pts) (A C : List ℝ) (hAC : A.length = C.length)
    (hst : inp.stages = A.length) (hA : I.table "rkA" = A) (hC : I.table "rkB" = C) (hA0 : A.head? = some 0) (m : Mem D)
    (hF : Evaluates S I pts B (fun s => atStart I pts S.sol B inp m (.data s)) cs F) (hB : ∀ v i x, Grid S.np x → B v i x = v i x)
    (hper : ∀ v, Periodic S.np h (B v)) (i : Fin n) (hT : ∀ q, Periodic S.np h q → total S.np w (F q i) = 0) : ConservesWeighted w S I pts B inp prg m i := by
  obtain ⟨h1, h2⟩ := assembled_ls hP hinj hp A C hAC hst hA hC B F m hF
  have hz : ∃ b l, A.zip C = (0, b) :: l := by
    cases A with
    | nil => simp at hA0
    | cons a A => cases C with
      | nil => simp at hAC
      | cons b C =>
        simp only [List.head?_cons, Option.some.injEq] at hA0
        subst hA0
        exact ⟨b, A.zip C, rfl⟩
  obtain ⟨b, l, hz⟩ := hz
  rw [hz] at h1 h2
  have hk : ∀ k s, total S.np w (((lsStep S.np F B (I.const "dt") ((0, b) :: l))^[k] s).q i) = total S.np w (s.q i) := by
    intro k s
    induction k generalizing s with
    | zero => rfl
    | succ k ih =>
      rw [Function.iterate_succ_apply, ih]
      exact lsStep_total hB hper hT _ _ _ _
  refine ⟨?_, fun before after o k e he => ?_⟩
  · rw [h1 i]; exact hk _ _
  · obtain ⟨j, _, _, _, hj⟩ := h2 before after o k e he
    rw [hj i]; exact hk _ _

/-- Uniform values and the program of the three stage scheme. -/
theorem assembled_uniform (hP : Assembled S .rk cs inp prg) (hinj : Function.Injective S.sol) (hp : Enumerates pts) (hst : inp.stages = 3) (hnew : I.table "rknew" = [2/3, 5/12, 3/5])
    (hold : I.table "rkold" = [1/4, 3/20, 3/5]) (m : Mem D) (hF : Evaluates S I pts B (fun s => atStart I pts S.sol B inp m (.data s)) cs F) (hB : ∀ v i x, Grid S.np x → B v i x = v i x)
    (c : Fin n → ℝ) (hU : ∀ v, Uniform S.np v c → ∀ i x, Grid S.np x → F (B v) i x = 0) (hc : ∀ i x, Grid S.np x → atStart I pts S.sol B inp m (.data (S.sol i)) x = c i) :
    (∀ i x, Grid S.np x → Alg.effect (exec I pts S.sol B) (Alg.runProgram prg) m (.data (S.sol i)) x = c i) ∧
    ∀ before after o k e, Alg.runProgram prg = before ++ .write o (some k) e :: after → ∀ i x, Grid S.np x → Alg.effect (exec I pts S.sol B) before m (.data (S.sol i)) x = c i := by
  obtain ⟨h1, h2⟩ := assembled_rk hP hinj hp hst hnew hold B F m hF
  have hk : ∀ k s, Uniform S.np s.q c → Uniform S.np ((rkStep S.np F B (I.const "dt") [(2/3, 1/4), (5/12, 3/20), (3/5, 3/5)])^[k] s).q c := by
    intro k s hs
    induction k generalizing s with
    | zero => exact hs
    | succ k ih =>
      rw [Function.iterate_succ_apply]
      exact ih _ (rkStep_uniform hB hU _ _ _ hs)
  refine ⟨fun i x hx => ?_, fun before after o k e he i x hx => ?_⟩
  · rw [h1 i]; exact hk _ _ (fun i x hx => hc i x hx) i x hx
  · obtain ⟨j, _, _, _, hj⟩ := h2 before after o k e he
    rw [hj i]; exact hk _ _ (fun i x hx => hc i x hx) i x hx

end Assembled

/-- C77: on a periodic box, whatever the number of steps and points, the program of the three stage scheme conserves the sum over the grid of every component whose right hand side is a sum of derivatives. -/
theorem C77_conservation_rk (hP : Program S .rk I pts inp prg) (hI : IsCentral S I delta) (hcl : Closed S) (hn : ∀ d, S.h ≤ S.np d)
    (hst : inp.stages = 3) (hnew : I.table "rknew" = [2/3, 5/12, 3/5]) (hold : I.table "rkold" = [1/4, 3/20, 3/5]) (m : Mem D) (i : Fin n) (hi : (S.rhs i).fluxes = true) :
    Conserves S I pts (exchange S.np S.h) inp prg m i := by
  obtain ⟨ks, hks, hAs⟩ := hP.assembled
  obtain ⟨full, hfull⟩ := program_full hP fun s => atStart I pts S.sol (exchange S.np S.h) inp m (.data s)
  exact conserves_one (assembled_conserves_rk hAs hP.valid.solInj hP.loops hst hnew hold m (spatial_evaluates hP.valid hP.loops hP.reach hfull ks hks) (exchange_fills S.h_nonneg hn).keeps
    (exchange_periodic S.h_nonneg hn) i fun q hq => residual_total hP.valid hI hks hcl hfull i hi q hq)

/-- C77: so does the program of a low storage scheme. -/
theorem C77_conservation_ls (hP : Program S .lowStorage I pts inp prg) (hI : IsCentral S I delta) (hcl : Closed S) (hn : ∀ d, S.h ≤ S.np d) (A C : List ℝ) (hAC : A.length = C.length)
    (hst : inp.stages = A.length) (hA : I.table "rkA" = A) (hC : I.table "rkB" = C) (hA0 : A.head? = some 0) (m : Mem D) (i : Fin n) (hi : (S.rhs i).fluxes = true) :
    Conserves S I pts (exchange S.np S.h) inp prg m i := by
  obtain ⟨ks, hks, hAs⟩ := hP.assembled
  obtain ⟨full, hfull⟩ := program_full hP fun s => atStart I pts S.sol (exchange S.np S.h) inp m (.data s)
  exact conserves_one (assembled_conserves_ls hAs hP.valid.solInj hP.loops A C hAC hst hA hC hA0 m (spatial_evaluates hP.valid hP.loops hP.reach hfull ks hks) (exchange_fills S.h_nonneg hn).keeps
    (exchange_periodic S.h_nonneg hn) i fun q hq => residual_total hP.valid hI hks hcl hfull i hi q hq)

/-- C77: on a periodic box a uniform solution stays as it is, exactly, if the right hand sides are sums of derivatives: at the end of the program and in every file with a number. -/
theorem C77_uniform_flow (hP : Program S .rk I pts inp prg) (hI : IsCentral S I delta) (hcl : Closed S) (hn : ∀ d, S.h ≤ S.np d)
    (hst : inp.stages = 3) (hnew : I.table "rknew" = [2/3, 5/12, 3/5]) (hold : I.table "rkold" = [1/4, 3/20, 3/5]) (m : Mem D) (hi : ∀ i, (S.rhs i).fluxes = true)
    (c : Fin n → ℝ) (hc : ∀ i x, Grid S.np x → atStart I pts S.sol (exchange S.np S.h) inp m (.data (S.sol i)) x = c i) :
    (∀ i x, Grid S.np x → Alg.effect (exec I pts S.sol (exchange S.np S.h)) (Alg.runProgram prg) m (.data (S.sol i)) x = c i) ∧
    ∀ before after o k e, Alg.runProgram prg = before ++ .write o (some k) e :: after →
      ∀ i x, Grid S.np x → Alg.effect (exec I pts S.sol (exchange S.np S.h)) before m (.data (S.sol i)) x = c i := by
  obtain ⟨ks, hks, hAs⟩ := hP.assembled
  obtain ⟨full, hfull⟩ := program_full hP fun s => atStart I pts S.sol (exchange S.np S.h) inp m (.data s)
  exact assembled_uniform hAs hP.valid.solInj hP.loops hst hnew hold m (spatial_evaluates hP.valid hP.loops hP.reach hfull ks hks) (exchange_fills S.h_nonneg hn).keeps c
    (fun v hv i x hx => residual_uniform hP.valid hI hks hcl hfull hn hi c v hv i x hx) hc

end

end OpenSBLI.Sim
