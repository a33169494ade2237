import Verif.Props.C93_Wave
import Mathlib.Tactic.FinCases
import Mathlib.Tactic.IntervalCases

/-!
# C93: mixed derivatives across the corner of four blocks

What happens without the hypothesis on derivatives of derivatives: the equation `q_t = - c0 q_x + Re^-1 (q_y)_x` on a square of 8 by 8 points, and the same square as four blocks of 4 by 4 points.
-/
namespace OpenSBLI.Sim
open MultiBlock (Link nextTo square square_phase run_up run_down run_other update0 update1 boundaryPhase)

/-! ## The equation -/

def qq : Ex 2 := .arr (.data "q")

def twist (N : ℤ) : Setup 2 1 where
  np := ![N, N]
  order := 2
  sol := ![ "q" ]
  rhs := ![.add (.mul (.num (-1)) (.mul (.const "c0") (.cd 0 1 qq))) (.mul (.pow (.const "Re") (.num (-1))) (.cd 0 1 (.cd 1 1 qq)))]
  rel := []
  w0 := 0
  known := ["q"]
  groups := [(0, [.cd 0 1 qq])]
  vcds := [.cd 0 1 (.cd 1 1 qq), .cd 1 1 qq]
  keys := ["q"]

theorem twist_valid (N : ℤ) : (twist N).Valid where
  listed := {
    groupDirs := by simp [twist]
    groupDir := by simp [twist, Ex.dir]
    groupNonempty := by simp [twist]
    flatNodup := by simp [twist, Setup.flat]
    flatMem := fun c => by simp [twist, Setup.flat, Ex.convective, Ex.classified, Ex.terms, Ex.hasRe, Ex.sum, Ex.zeroFn, Ex.cds, qq]
    vcdsNodup := by simp [twist, qq]
    vcdsMem := fun c => by
      simp [twist, Ex.viscous, Ex.classified, Ex.terms, Ex.hasRe, Ex.sum, Ex.zeroFn, Ex.cds, qq]
      tauto
    keysNodup := by simp [twist]
    keysMem := fun s => by
      simp [twist, Setup.required, Setup.flat, Ex.convective, Ex.viscous, Ex.classified, Ex.terms, Ex.hasRe, Ex.sum, Ex.zeroFn, Ex.datas, Ex.arrs, qq, eq_comm] }
  solInj := fun i j _ => Subsingleton.elim i j
  relSol := fun i => rfl
  relNodup := by simp [twist]
  relPlain := fun s e h => by simp [Setup.relation, twist] at h
  rhsPlain := fun i => by
    rw [Subsingleton.elim i 0]
    exact ⟨by simp [twist, Ex.plain, Ex.arrs, qq], rfl, rfl⟩
  rhsSteady := fun i => by rw [Subsingleton.elim i 0]; rfl
  groups := by simp [twist]
  convFlat := by simp [twist, Setup.flat, Ex.arg, Ex.cds, qq]
  visc := fun c hc => by
    simp only [twist, List.mem_cons, List.not_mem_nil, or_false] at hc
    rcases hc with rfl | rfl
    · exact .inr ⟨.cd 1 1 qq, rfl, by decide⟩
    · exact .inl rfl
  viscDer := .inl (by simp [twist])
  known := fun s _ => rfl
  halos := fun s _ e h => by simp [Setup.relation, twist] at h

theorem twist_spatial (N : ℤ) : ∃ ks, (twist N).spatial = .ok ks := by
  have h : SortDict.sortDictionary ((((twist N).keys.filter fun s => ((twist N).relation s).isNone) ++ (twist N).known).dedup) ((twist N).keys.filterMap fun s => ((twist N).relation s).map fun e => (s, e.datas)) =
      .ok [] := by
    change SortDict.sortDictionary (["q", "q"].dedup) [] = .ok []
    decide +kernel
  unfold Setup.spatial Setup.relKernels Setup.relOrder
  rw [h]
  exact ⟨_, rfl⟩

theorem second_order_weights : Central.weight ℝ 2 1 1 = 1/2 ∧ Central.weight ℝ 2 1 0 = 0 ∧ Central.weight ℝ 2 1 (-1) = -1/2 := by
  have hpts : Central.points 2 = {-1, 0, 1} := by decide
  have h1 := Central.weights_exact (K := ℝ) 2 1 Polynomial.X (by simp)
  have a1 := Central.C18_parity (K := ℝ) 2 1 1 (by decide)
  have a0 := Central.C18_parity (K := ℝ) 2 1 0 (by decide)
  rw [hpts] at h1
  simp [Finset.sum_insert] at h1
  norm_num at a1 a0
  rw [a1] at h1
  refine ⟨by linarith, by linarith, by linarith⟩

/-- No convection, `Re = 1`, spacings 1/2: the differences have the weight 1. -/
noncomputable def twistInterp (dt : ℝ) : Interp 2 where
  const := fun c => if c = "dt" then dt else if c = "c0" then 0 else 1
  table := fun t => if t = "rknew" then [2/3, 5/12, 3/5] else [1/4, 3/20, 3/5]
  stage := 0
  cd := fun d k f x => Central.discretise 2 k (1/2 : ℝ) (fun y => f (Function.update x d y)) (x d)
  pow := fun a b => if b = -1 then a⁻¹ else 0
  fn := fun _ a => a

theorem twist_central (N : ℤ) (dt : ℝ) : IsCentral (twist N) (twistInterp dt) fun _ => 1/2 := fun _ _ _ _ => rfl

/-- The right hand side. -/
theorem twist_rhs (N : ℤ) (dt : ℝ) (full : String → P 2 → ℝ) (x y : ℤ) :
    ((twist N).rhs 0).eval (twistInterp dt) (memOf full) ![x, y] = full "q" ![x + 1, y + 1] - full "q" ![x + 1, y - 1] - full "q" ![x - 1, y + 1] + full "q" ![x - 1, y - 1] := by
  obtain ⟨w1, w2, w3⟩ := second_order_weights
  have hpts : Central.points 2 = {-1, 0, 1} := by decide
  simp [twist, qq, Ex.eval, twistInterp, Central.discretise, hpts, Finset.sum_insert, w1, w2, w3, update0, update1, memOf, ← sub_eq_add_neg]
  ring

/-! ## The exchanges -/

section
variable {α : Type} (st : Fin 4 → (Fin 2 → ℤ) → α)

def four : Fin 4 → Fin 2 → ℤ := fun _ => ![4, 4]

/-- The first points of the blocks. -/
def fourOff : Fin 4 → P 2 := ![![0, 0], ![4, 0], ![0, 4], ![4, 4]]

theorem four_range {x y : ℤ} (hx : -1 ≤ x ∧ x < 5) (hy : -1 ≤ y ∧ y < 5) (b : Fin 4) : ∀ d, -1 ≤ ![x, y] d ∧ ![x, y] d < four b d + 1 := by
  intro d; fin_cases d
  · exact hx
  · exact hy

/-- An exchange as a choice between two values. -/
theorem four_up (src dst : Fin 4) (d : Fin 2) (b : Fin 4) {x y : ℤ} (hx : -1 ≤ x ∧ x < 5) (hy : -1 ≤ y ∧ y < 5) :
    (nextTo src dst d true).run four 1 st b ![x, y] = if b = dst ∧ ![x, y] d < 0 then st src (Function.update ![x, y] d (![x, y] d + 4)) else st b ![x, y] := by
  by_cases hb : b = dst
  · subst hb
    rw [run_up four 1 (by decide) src b d (by revert d b; decide) st _ (four_range hx hy b)]
    have h4 : four src d = 4 := by fin_cases d <;> rfl
    simp [h4]
  · rw [run_other _ _ _ _ _ (by exact hb), if_neg fun h => hb h.1]

theorem four_down (src dst : Fin 4) (d : Fin 2) (b : Fin 4) {x y : ℤ} (hx : -1 ≤ x ∧ x < 5) (hy : -1 ≤ y ∧ y < 5) :
    (nextTo src dst d false).run four 1 st b ![x, y] = if b = dst ∧ 4 ≤ ![x, y] d then st src (Function.update ![x, y] d (![x, y] d - 4)) else st b ![x, y] := by
  by_cases hb : b = dst
  · subst hb
    rw [run_down four 1 (by decide) src b d (by revert d b; decide) st _ (four_range hx hy b)]
    have h4 : four b d = 4 := by fin_cases d <;> rfl
    simp [h4]
  · rw [run_other _ _ _ _ _ (by exact hb), if_neg fun h => hb h.1]

/-- All eight exchanges. -/
def fourPhase : Fin 4 → (Fin 2 → ℤ) → α := boundaryPhase four 1 (fun _ f => f) square st

theorem four_grid (b : Fin 4) {x y : ℤ} (hx : 0 ≤ x ∧ x < 4) (hy : 0 ≤ y ∧ y < 4) : fourPhase st b ![x, y] = st b ![x, y] := by
  have h1 : ¬ x < 0 := by omega
  have h2 : ¬ 4 ≤ x := by omega
  have h3 : ¬ y < 0 := by omega
  have h4 : ¬ 4 ≤ y := by omega
  rw [fourPhase, square_phase]
  simp (disch := omega) [four_up, four_down, h1, h2, h3, h4]

/-- The halos of the first block, with the corner. -/
theorem four_first {y : ℤ} (hy : 0 ≤ y ∧ y < 4) : fourPhase st 0 ![4, y] = st 1 ![0, y] ∧ fourPhase st 0 ![y, 4] = st 2 ![y, 0] ∧ fourPhase st 0 ![4, 4] = st 2 ![4, 0] := by
  have h3 : ¬ y < 0 := by omega
  have h4 : ¬ 4 ≤ y := by omega
  refine ⟨?_, ?_, ?_⟩ <;> rw [fourPhase, square_phase] <;> simp (disch := omega) [four_up, four_down, update0, update1, h3, h4]

/-- Halos of the second and third block. -/
theorem four_second {y : ℤ} (hy : 0 ≤ y ∧ y < 4) : fourPhase st 1 ![-1, y] = st 0 ![3, y] ∧ fourPhase st 2 ![y, -1] = st 0 ![y, 3] ∧ fourPhase st 2 ![4, y] = st 3 ![0, y] := by
  have h3 : ¬ y < 0 := by omega
  have h4 : ¬ 4 ≤ y := by omega
  refine ⟨?_, ?_, ?_⟩ <;> rw [fourPhase, square_phase] <;> simp (disch := omega) [four_up, four_down, update0, update1, h3, h4]

/-- The blocks hold the values of one array. -/
def Parts (g : P 2 → α) : Prop := ∀ b x y, (-1 ≤ x ∧ x < 5) → (-1 ≤ y ∧ y < 5) → st b ![x, y] = g (![x, y] + fourOff b)

variable {st}

theorem parts_up {g : P 2 → α} (h : Parts st g) (src dst : Fin 4) (d : Fin 2) (hoff : ∀ e, fourOff dst e = fourOff src e + if e = d then 4 else 0) : Parts ((nextTo src dst d true).run four 1 st) g := by
  intro b x y hx hy
  rw [four_up st src dst d b hx hy]
  split
  · rename_i hc
    obtain ⟨rfl, hc⟩ := hc
    fin_cases d
    · change x < 0 at hc
      change st src (Function.update ![x, y] 0 (x + 4)) = _
      rw [update0, h _ _ _ (by omega) hy]
      congr 1; funext e; rw [Pi.add_apply, Pi.add_apply, hoff e]; fin_cases e <;> simp
      ring
    · change y < 0 at hc
      change st src (Function.update ![x, y] 1 (y + 4)) = _
      rw [update1, h _ _ _ hx (by omega)]
      congr 1; funext e; rw [Pi.add_apply, Pi.add_apply, hoff e]; fin_cases e <;> simp
      ring
  · exact h b x y hx hy

theorem parts_down {g : P 2 → α} (h : Parts st g) (src dst : Fin 4) (d : Fin 2) (hoff : ∀ e, fourOff src e = fourOff dst e + if e = d then 4 else 0) : Parts ((nextTo src dst d false).run four 1 st) g := by
  intro b x y hx hy
  rw [four_down st src dst d b hx hy]
  split
  · rename_i hc
    obtain ⟨rfl, hc⟩ := hc
    fin_cases d
    · change 4 ≤ x at hc
      change st src (Function.update ![x, y] 0 (x - 4)) = _
      rw [update0, h _ _ _ (by omega) hy]
      congr 1; funext e; rw [Pi.add_apply, Pi.add_apply, hoff e]; fin_cases e <;> simp
    · change 4 ≤ y at hc
      change st src (Function.update ![x, y] 1 (y - 4)) = _
      rw [update1, h _ _ _ hx (by omega)]
      congr 1; funext e; rw [Pi.add_apply, Pi.add_apply, hoff e]; fin_cases e <;> simp
  · exact h b x y hx hy

/-- Exchanges between parts of one array change nothing. -/
theorem parts_phase {g : P 2 → α} (h : Parts st g) : Parts (fourPhase st) g := by
  rw [fourPhase, square_phase]
  have h1 := parts_up h 0 1 0 (by decide)
  have h2 := parts_up h1 0 2 1 (by decide)
  have h3 := parts_down h2 1 0 0 (by decide)
  have h4 := parts_up h3 1 3 1 (by decide)
  have h5 := parts_up h4 2 3 0 (by decide)
  have h6 := parts_down h5 2 0 1 (by decide)
  have h7 := parts_down h6 3 2 0 (by decide)
  exact parts_down h7 3 1 1 (by decide)

end

/-! ## Stages -/

/-- The mixed difference. -/
def mixed (f : P 2 → ℝ) (x y : ℤ) : ℝ := f ![x + 1, y + 1] - f ![x + 1, y - 1] - f ![x - 1, y + 1] + f ![x - 1, y - 1]

section
variable (F : Fin 4 → Sol 2 1 → Sol 2 1) (dt : ℝ) (s : Fin 4 → TState 2 1) (c : ℝ × ℝ)

/-- The new value at a point of the grid of a block. -/
def advanced (b : Fin 4) (x y : ℤ) : ℝ := (s b).aux 0 ![x, y] + dt * c.1 * mixed ((s b).q 0) x y

theorem four_in {x y : ℤ} (hx : 0 ≤ x ∧ x < 4) (hy : 0 ≤ y ∧ y < 4) (b : Fin 4) : Grid (four b) ![x, y] := by
  intro d; fin_cases d
  · exact hx
  · exact hy

theorem four_stage (hF : ∀ b q x y, F b q 0 ![x, y] = mixed (q 0) x y) (t : Fin 4 → TState 2 1) (ht : t = rkStageMB four F (exchanges four 1 (fun _ f => f) square) dt s c) {x y : ℤ}
    (hx : 0 ≤ x ∧ x < 4) (hy : 0 ≤ y ∧ y < 4) :
    (∀ b, (t b).q 0 ![x, y] = advanced dt s c b x y ∧ (t b).aux 0 ![x, y] = (s b).aux 0 ![x, y] + dt * c.2 * mixed ((s b).q 0) x y) ∧
    (t 0).q 0 ![4, y] = advanced dt s c 1 0 y ∧ (t 0).q 0 ![y, 4] = advanced dt s c 2 y 0 ∧ (t 0).q 0 ![4, 4] = (s 2).q 0 ![4, 0] ∧
    (t 1).q 0 ![-1, y] = advanced dt s c 0 3 y ∧ (t 2).q 0 ![y, -1] = advanced dt s c 0 y 3 ∧ (t 2).q 0 ![4, y] = advanced dt s c 3 0 y := by
  set st : Fin 4 → (Fin 2 → ℤ) → Fin 1 → ℝ := fun b x i => onGrid (four b) (fun i x => (s b).aux i x + dt * c.1 * F b (s b).q i x) (s b).q i x with hst
  have hq : ∀ b p, (t b).q 0 p = fourPhase st b p 0 := fun b p => by rw [ht]; rfl
  have hg : ∀ b (x y : ℤ), (0 ≤ x ∧ x < 4) → (0 ≤ y ∧ y < 4) → st b ![x, y] 0 = advanced dt s c b x y := by
    intro b x y hx hy
    simp only [hst, onGrid]
    rw [if_pos (four_in hx hy b), hF]
    rfl
  have h04 : ((0 : ℤ) ≤ 0 ∧ (0 : ℤ) < 4) ∧ ((0 : ℤ) ≤ 3 ∧ (3 : ℤ) < 4) := by decide
  refine ⟨fun b => ⟨?_, ?_⟩, ?_, ?_, ?_, ?_, ?_, ?_⟩
  · rw [hq, four_grid st b hx hy, hg b x y hx hy]
  · rw [ht]
    simp only [rkStageMB, onGrid]
    rw [if_pos (four_in hx hy b), hF]
  · rw [hq, (four_first st hy).1, hg _ _ _ h04.1 hy]
  · rw [hq, (four_first st hy).2.1, hg _ _ _ hy h04.1]
  · rw [hq, (four_first st hy).2.2]
    simp only [hst, onGrid]
    rw [if_neg]
    intro h
    have := (h 0).2
    simp [four] at this
  · rw [hq, (four_second st hy).1, hg _ _ _ h04.2 hy]
  · rw [hq, (four_second st hy).2.1, hg _ _ _ hy h04.2]
  · rw [hq, (four_second st hy).2.2, hg _ _ _ h04.1 hy]

end

/-- An array with a single one in it. -/
def impulse (x : P 2) : ℝ := if x 0 = 5 ∧ x 1 = 5 then 1 else 0

/-- One step on the four blocks, at the inner corner of the first one. -/
theorem four_step (F : Fin 4 → Sol 2 1 → Sol 2 1) (hF : ∀ b q x y, F b q 0 ![x, y] = mixed (q 0) x y) (dt : ℝ) (s : Fin 4 → TState 2 1) (hs : ∀ b, (s b).q 0 = fun x => impulse (x + fourOff b)) :
    (rkStepMB four F (exchanges four 1 (fun _ f => f) square) dt [(2/3, 1/4), (5/12, 3/20), (3/5, 3/5)] s 0).q 0 ![3, 3] = 2/5 * dt^2 := by
  set s0 : Fin 4 → TState 2 1 := fun b => { q := exchanges four 1 (fun _ f => f) square (fun b => (s b).q) b, aux := onGrid (four b) (exchanges four 1 (fun _ f => f) square (fun b => (s b).q) b) (s b).aux } with hs0
  have hp : Parts (fun b x i => (s b).q i x) fun x (_ : Fin 1) => impulse x := by
    intro b x y _ _
    funext i
    rw [Subsingleton.elim i 0]
    exact congrFun (hs b) _
  have q0 : ∀ b (x y : ℤ), (-1 ≤ x ∧ x < 5) → (-1 ≤ y ∧ y < 5) → (s0 b).q 0 ![x, y] = impulse (![x, y] + fourOff b) := fun b x y hx hy => congrFun (parts_phase hp b x y hx hy) 0
  have a0 : ∀ b (x y : ℤ), (0 ≤ x ∧ x < 4) → (0 ≤ y ∧ y < 4) → (s0 b).aux 0 ![x, y] = impulse (![x, y] + fourOff b) := by
    intro b x y hx hy
    rw [← q0 b x y (by omega) (by omega)]
    change onGrid (n := 1) (four b) _ _ 0 _ = _
    rw [onGrid, if_pos (four_in hx hy b)]
  set s1 := rkStageMB four F (exchanges four 1 (fun _ f => f) square) dt s0 (2/3, 1/4) with hs1
  set s2 := rkStageMB four F (exchanges four 1 (fun _ f => f) square) dt s1 (5/12, 3/20) with hs2
  set s3 := rkStageMB four F (exchanges four 1 (fun _ f => f) square) dt s2 (3/5, 3/5) with hs3
  change (s3 0).q 0 ![3, 3] = _
  have v1 := fun (x y : ℤ) hx hy => four_stage F dt s0 (2/3, 1/4) hF s1 hs1 (x := x) (y := y) hx hy
  have v2 := fun (x y : ℤ) hx hy => four_stage F dt s1 (5/12, 3/20) hF s2 hs2 (x := x) (y := y) hx hy
  have v3 := fun (x y : ℤ) hx hy => four_stage F dt s2 (3/5, 3/5) hF s3 hs3 (x := x) (y := y) hx hy
  clear_value s1 s2 s3 s0
  have g1 := fun b (x y : ℤ) hx hy => ((v1 x y hx hy).1 b)
  have g2 := fun b (x y : ℤ) hx hy => ((v2 x y hx hy).1 b)
  have k1 := fun (y : ℤ) hy => (v1 y y hy hy).2
  have k2 := fun (y : ℤ) hy => (v2 y y hy hy).2
  rw [((v3 3 3 (by decide) (by decide)).1 0).1]
  simp (disch := decide) [advanced, mixed, (k2 2 _).2.2.1, (k2 2 _).1, (k2 2 _).2.1, g2, (k1 2 _).2.2.1, k1, g1, q0, a0, fourOff]
  simp [impulse]
  ring

/-- One step on the undivided square. -/
theorem one_step (F : Sol 2 1 → Sol 2 1) (hF : ∀ q x y, F q 0 ![x, y] = mixed (q 0) x y) (dt : ℝ) (s : TState 2 1) (hs : s.q 0 = impulse) :
    (rkStep ![8, 8] F (fun f => f) dt [(2/3, 1/4), (5/12, 3/20), (3/5, 3/5)] s).q 0 ![3, 3] = 1/2 * dt^2 := by
  have hin : ∀ {x y : ℤ}, (0 ≤ x ∧ x < 8) → (0 ≤ y ∧ y < 8) → Grid ![8, 8] ![x, y] := by
    intro x y hx hy d; fin_cases d
    · exact hx
    · exact hy
  set s0 : TState 2 1 := { q := s.q, aux := onGrid ![8, 8] s.q s.aux } with hs0
  have q0 : s0.q 0 = impulse := hs
  have a0 : ∀ (x y : ℤ), (0 ≤ x ∧ x < 8) → (0 ≤ y ∧ y < 8) → s0.aux 0 ![x, y] = impulse ![x, y] := by
    intro x y hx hy
    rw [← q0]
    change onGrid (n := 1) ![8, 8] _ _ 0 _ = _
    rw [onGrid, if_pos (hin hx hy)]
  have hstage : ∀ (s t : TState 2 1) (c : ℝ × ℝ), t = rkStage ![8, 8] F (fun f => f) dt s c → ∀ (x y : ℤ), (0 ≤ x ∧ x < 8) → (0 ≤ y ∧ y < 8) →
      t.q 0 ![x, y] = s.aux 0 ![x, y] + dt * c.1 * mixed (s.q 0) x y ∧ t.aux 0 ![x, y] = s.aux 0 ![x, y] + dt * c.2 * mixed (s.q 0) x y := by
    intro s t c ht x y hx hy
    rw [ht]
    simp only [rkStage, onGrid]
    rw [if_pos (hin hx hy), if_pos (hin hx hy), hF]
    exact ⟨rfl, rfl⟩
  set s1 := rkStage ![8, 8] F (fun f => f) dt s0 (2/3, 1/4) with hs1
  set s2 := rkStage ![8, 8] F (fun f => f) dt s1 (5/12, 3/20) with hs2
  set s3 := rkStage ![8, 8] F (fun f => f) dt s2 (3/5, 3/5) with hs3
  change s3.q 0 ![3, 3] = _
  have v1 := hstage s0 s1 _ hs1
  have v2 := hstage s1 s2 _ hs2
  have v3 := hstage s2 s3 _ hs3
  clear_value s1 s2 s3 s0
  rw [(v3 3 3 (by decide) (by decide)).1]
  simp (disch := decide) [mixed, v2, v1, q0, a0]
  simp [impulse]
  ring

/-! ## The programs -/

/-- One step on one block. -/
noncomputable def twistBare : Alg.Input (Call 2) where
  temporalSchemes := 1
  items := [(twist 8).item .rk (twist_spatial 8).choose]
  stages := 3
  niter := 1
  monitorFrequency := none
  ios := [Alg.IO.new 0 true none 100]

/-- One step on four blocks. -/
noncomputable def twistBlocks : List (Alg.BlockMB (CallMB 2 4)) :=
  (List.finRange 4).map fun b => ⟨[⟨"RungeKutta", 3, 1, [((twist 8).sized (four b)).itemMB .rk b (square b) (twist_spatial 4).choose]⟩], [Alg.IO.new 0 true none 100]⟩

/-- **C93 fails for mixed derivatives.** The equation `q_t = Re^-1 (q_y)_x` from a single one in the arrays: both programs are generated, both start from the same values, in the halos too. After one step the program of one block
holds `dt^2/2` at the point next to the common corner of the blocks, as the exact solution of the differenced equations up to terms of order `dt^3`; the program of four blocks holds `2/5 dt^2`. The second stage reads the corner
of the halo before the values of the first stage have reached it. -/
theorem C93_mixed_derivatives_differ (dt : ℝ) {pts : Ranges.Kernel 2 → List (P 2)} (hp : Enumerates pts) (m : Mem 2) (ms : Fin 4 → Mem 2) (hm : m (.data "q") = impulse)
    (hms : ∀ b x, ms b (.data "q") x = m (.data "q") (x + fourOff b)) :
    ∃ prg prgs, Alg.generate twistBare = .ok prg ∧ Alg.generateMB twistBlocks = .ok prgs ∧
      Alg.effect (exec (twistInterp dt) pts ![ "q" ] fun f => f) (Alg.runProgram prg) m (.data "q") ![3, 3] = 1/2 * dt^2 ∧
      Alg.effect (execMB (fun _ => twistInterp dt) pts four 1 ![ "q" ] fun _ f => f) (Alg.runProgram prgs) ms 0 (.data "q") ![3, 3] = 2/5 * dt^2 := by
  have hg : ∃ prg, Alg.generate twistBare = .ok prg := by
    simp [Alg.generate, twistBare, Setup.item, Alg.Acc.add, Alg.sortByOrder]
    exact ⟨_, rfl⟩
  obtain ⟨prg, hg⟩ := hg
  obtain ⟨prgs, hgs⟩ := generateMB_ok (twist 8) four .rk square (fun _ => (twist_spatial 4).choose) "RungeKutta" 3 1 (fun _ => [Alg.IO.new 0 true none 100]) (by decide)
  have hh : (twist 8).h = 1 := by simp [Setup.h, twist]
  have hP : Program (twist 8) .rk (twistInterp dt) pts twistBare prg := by
    refine ⟨twist_valid 8, hp, central_local (twist_central 8 dt), ⟨[], [], _, (twist_spatial 8).choose_spec, rfl, by simp, by simp⟩, ?_, hg⟩
    intro o places k h
    simp [twistBare, Setup.item] at h
  have hM : ProgramMB (twist 8) four .rk (fun _ => twistInterp dt) pts square 3 1 twistBlocks prgs := by
    refine ⟨twist_valid 8, hp, fun b => central_local (S := (twist 8).sized (four b)) (twist_central 8 dt), ⟨fun _ => (twist_spatial 4).choose, fun _ => (twist_spatial 4).choose_spec, "RungeKutta", fun _ => [], fun _ => [],
      fun _ => [Alg.IO.new 0 true none 100], by simp, rfl⟩, ?_, hgs⟩
    intro o places k h
    simp [Alg.othersMB, twistBlocks, Setup.itemMB] at h
  have hmet : Alg.metricsMB twistBlocks = [] := by simp [Alg.metricsMB, twistBlocks, Setup.itemMB]
  have hoth : Alg.othersMB twistBlocks = [] := by simp [Alg.othersMB, twistBlocks, Setup.itemMB]
  have h1 : atStartMB (fun _ => twistInterp dt) pts four (twist 8).h (twist 8).sol (fun _ f => f) twistBlocks ms = ms := by
    unfold atStartMB
    rw [hmet, hoth]
    simp [Alg.sortByOrder, Alg.placedAt, Alg.calls, Alg.effect]
  have h2 : atStart (twistInterp dt) pts (twist 8).sol (fun f => f) twistBare m = m := by
    simp [atStart, twistBare, Setup.item, Alg.others, Alg.sortByOrder, Alg.placedAt, Alg.calls, Alg.effect]
  refine ⟨prg, prgs, hg, hgs, ?_, ?_⟩
  · obtain ⟨full, hfull⟩ := program_full hP fun s => atStart (twistInterp dt) pts (twist 8).sol (fun f => f) twistBare m (.data s)
    obtain ⟨w, -⟩ := C77_program_rk_partial hP rfl (by simp [twistInterp]) (by simp [twistInterp]) (fun f => f) m full hfull
    have := congrFun (w 0) ![3, 3]
    rw [h2] at this
    refine this.trans (one_step _ (fun q x y => ?_) dt (stateOf (twist 8) m) hm)
    rw [twist_rhs, show full q "q" = q 0 from (hfull q).sol 0]
    rfl
  · obtain ⟨full, hfull⟩ := blocks_full (inp := twistBare) hM fun b s => atStartMB (fun _ => twistInterp dt) pts four (twist 8).h (twist 8).sol (fun _ f => f) twistBlocks ms b (.data s)
    obtain ⟨w, -⟩ := C93_program_rk_partial (fun _ f => f) hM (by decide) rfl (dt := dt) (fun _ => by simp [twistInterp]) (fun _ => by simp [twistInterp]) (fun _ => by simp [twistInterp]) ms full hfull
    have := congrFun (w 0 0) ![3, 3]
    rw [h1, hh, show (1 : ℤ).toNat = 1 from rfl, Function.iterate_one] at this
    have h5 := four_step (fun b q i x => ((twist 8).rhs i).eval (twistInterp dt) (memOf (full b q)) x) (fun b q x y => by
      rw [twist_rhs, show full b q "q" = q 0 from (hfull b q).sol 0]
      rfl) dt (fun b => stateOf (twist 8) (ms b)) fun b => funext fun x => (hms b x).trans (by rw [hm])
    rw [h5] at this
    exact this

/-- So the results differ, for every time step. -/
theorem C93_mixed_derivatives_not_same (dt : ℝ) (hdt : dt ≠ 0) : ∃ (pts : Ranges.Kernel 2 → List (P 2)) (m : Mem 2) (ms : Fin 4 → Mem 2) (prg : List (Alg.Node (Call 2))) (prgs : List (Alg.Node (CallMB 2 4))),
    (∀ b a x, ms b a x = m a (x + fourOff b)) ∧ Alg.generate twistBare = .ok prg ∧ Alg.generateMB twistBlocks = .ok prgs ∧
      ¬ SameResults (twist 8) (twistInterp dt) pts (fun f => f) four fourOff (fun _ f => f) prg prgs m ms := by
  obtain ⟨pts, hp⟩ := exists_enumeration (D := 2)
  obtain ⟨prg, prgs, h1, h2, h3, h4⟩ := C93_mixed_derivatives_differ dt hp (fun _ => impulse) (fun b _ x => impulse (x + fourOff b)) rfl fun _ _ => rfl
  refine ⟨pts, fun _ => impulse, fun b _ x => impulse (x + fourOff b), prg, prgs, fun _ _ _ => rfl, h1, h2, fun h => hdt ?_⟩
  have := h.1 0 0 ![3, 3] (four_in (by decide) (by decide) 0)
  have hh : (twist 8).h = 1 := by simp [Setup.h, twist]
  rw [hh] at this
  have e : (![3, 3] : P 2) + fourOff 0 = ![3, 3] := by decide
  rw [e, show (twist 8).sol = ![ "q" ] from rfl, show (![ "q" ] : Fin 1 → String) 0 = "q" from rfl, h3, h4] at this
  have : dt^2 = 0 := by linarith
  simpa using this

end OpenSBLI.Sim
