import Verif.Props.C91_Isothermal
import Verif.Props.C29_Inlets

/-!
# C91: the text of the other conditions

Extrapolation, outlets, inlets and adiabatic walls; an adiabatic wall and a pressure outlet in a run of a printed program. `C91_Outlet.lean` has a complete program with both.
-/
namespace OpenSBLI.Bc
open OpenSBLI.CCode OpenSBLI.Sim OpenSBLI.Reg Expr

variable {D n : ℕ} {T : Text D} {prg : List (Alg.Node (Call D))} {vs : Fin n → Var D} {sol : Fin n → String}

/-- The cells, numbers and quotients of an expression. -/
def Expr.Plain (N : Spelling D) (Q : Cell D → Prop) (W : ℝ → Prop) : Expr D → Prop
  | .num r => W r
  | .cell c => Q c
  | .add a b => a.Plain N Q W ∧ b.Plain N Q W
  | .sub a b => a.Plain N Q W ∧ b.Plain N Q W
  | .mul a b => a.Plain N Q W ∧ b.Plain N Q W
  | .div a b => a.Plain N Q W ∧ b.Plain N Q W ∧ ¬ ((a.sym N).isInt = true ∧ (b.sym N).isInt = true)
  | .neg a => a.Plain N Q W
  | .sqrt a => a.Plain N Q W
  | .abs a => a.Plain N Q W
  | .rpow _ _ => False
  | .ge a b x y => a.Plain N Q W ∧ b.Plain N Q W ∧ x.Plain N Q W ∧ y.Plain N Q W

variable {N : Spelling D} {Q : Cell D → Prop} {W : ℝ → Prop}

theorem Plain.cells {e : Expr D} (h : e.Plain N Q W) : ∀ c ∈ e.cells, Q c := by
  induction e with
  | num r => intro c hc; cases hc
  | cell c => intro c' hc; rw [List.mem_singleton.1 hc]; exact h
  | add a b ha hb | sub a b ha hb | mul a b ha hb => intro c hc; exact (List.mem_append.1 hc).elim (ha h.1 c) (hb h.2 c)
  | div a b ha hb => intro c hc; exact (List.mem_append.1 hc).elim (ha h.1 c) (hb h.2.1 c)
  | neg a ha | sqrt a ha | abs a ha => exact ha h
  | rpow a b => exact h.elim
  | ge a b x y ha hb hx hy =>
    intro c hc
    rcases List.mem_append.1 hc with hc | hc <;> rcases List.mem_append.1 hc with hc | hc
    · exact ha h.1 c hc
    · exact hb h.2.1 c hc
    · exact hx h.2.2.1 c hc
    · exact hy h.2.2.2 c hc

theorem Plain.numbers {e : Expr D} (h : e.Plain N Q W) : e.Numbers W := by
  induction e with
  | num r => exact h
  | cell c => trivial
  | add a b ha hb | sub a b ha hb | mul a b ha hb => exact ⟨ha h.1, hb h.2⟩
  | div a b ha hb => exact ⟨ha h.1, hb h.2.1⟩
  | neg a ha | sqrt a ha | abs a ha => exact ha h
  | rpow a b => exact h.elim
  | ge a b x y ha hb hx hy => exact ⟨ha h.1, hb h.2.1, hx h.2.2.1, hy h.2.2.2⟩

theorem Plain.noIntegers {e : Expr D} (h : e.Plain N Q W) : e.NoIntegers N := by
  induction e with
  | num r => trivial
  | cell c => trivial
  | add a b ha hb | sub a b ha hb | mul a b ha hb => exact ⟨ha h.1, hb h.2⟩
  | div a b ha hb => exact ⟨ha h.1, hb h.2.1, h.2.2⟩
  | neg a ha | sqrt a ha | abs a ha => exact ha h
  | rpow a b => exact h.elim
  | ge a b x y ha hb hx hy => exact ⟨ha h.1, hb h.2.1, hx h.2.2.1, hy h.2.2.2⟩

theorem cell_isInt (c : Cell D) : (N.cell c).isInt = false := by cases c <;> rfl

theorem mapCells_isInt (f : Cell D → Cell D) (e : Expr D) : ((e.mapCells f).sym N).isInt = (e.sym N).isInt := by
  induction e with
  | cell c => simp only [mapCells, Expr.sym, cell_isInt]
  | num r => rfl
  | _ => simp_all [mapCells, Expr.sym, Sym.isInt]

theorem Plain.mapCells {f : Cell D → Cell D} {e : Expr D} (hf : ∀ c, Q c → Q (f c)) (h : e.Plain N Q W) : (e.mapCells f).Plain N Q W := by
  induction e with
  | num r => exact h
  | cell c => exact hf c h
  | add a b ha hb | sub a b ha hb | mul a b ha hb => exact ⟨ha h.1, hb h.2⟩
  | div a b ha hb =>
    refine ⟨ha h.1, hb h.2.1, ?_⟩
    rw [mapCells_isInt, mapCells_isInt]
    exact h.2.2
  | neg a ha | sqrt a ha | abs a ha => exact ha h
  | rpow a b => exact h.elim
  | ge a b x y ha hb hx hy => exact ⟨ha h.1, hb h.2.1, hx h.2.2.1, hy h.2.2.2⟩

/-- Cells of the solution, and some grid variables. -/
def Inside (vs : Fin n → Var D) (L : Loc → Prop) : Cell D → Prop
  | .data v _ => ∃ i, v = vs i
  | .loc l => L l

theorem Plain.shift {L : Loc → Prop} {e : Expr D} {k : ℤ} (h : e.Plain N (Inside vs L) W) : (e.shift k).Plain N (Inside vs L) W :=
  Plain.mapCells (fun c hc => by cases c <;> exact hc) h

theorem Plain.setLoc {L : Loc → Prop} {e : Expr D} {k : ℤ} (h : e.Plain N (Inside vs L) W) : (e.setLoc k).Plain N (Inside vs L) W :=
  Plain.mapCells (fun c hc => by cases c <;> exact hc) h

theorem Plain.sum {l : List (Expr D)} (h0 : W 0) (h : ∀ e ∈ l, e.Plain N Q W) : (Expr.sum l).Plain N Q W := by
  have : ∀ (l : List (Expr D)) (a : Expr D), a.Plain N Q W → (∀ e ∈ l, e.Plain N Q W) → (l.foldl .add a).Plain N Q W := by
    intro l
    induction l with
    | nil => exact fun a ha _ => ha
    | cons b l ih => exact fun a ha h => ih _ ⟨ha, h b (by simp)⟩ fun e he => h e (List.mem_cons_of_mem _ he)
  exact this l _ h0 h

/-- The equations of a condition concern the solution and some grid variables, with some numbers. -/
def PlainProgram (N : Spelling D) (vs : Fin n → Var D) (L : Loc → Prop) (W : ℝ → Prop) (prog : List (Assign D)) : Prop := ∀ a ∈ prog, Inside vs L a.target ∧ a.rhs.Plain N (Inside vs L) W

theorem PlainProgram.locals {L : Loc → Prop} {prog : List (Assign D)} (h : PlainProgram N vs L W prog) : ∀ l ∈ locals prog, L l :=
  locals_forall fun a ha => ⟨fun l e => by have := (h a ha).1; rwa [e] at this, fun l hl => Plain.cells (h a ha).2 _ hl⟩

theorem PlainProgram.confined {L : Loc → Prop} {prog : List (Assign D)} (h : PlainProgram N vs L W prog) : Confined vs prog := by
  refine ⟨fun a ha v k e => ?_, Inside vs L, fun i k => ⟨i, rfl⟩, fun v k h => h, fun a ha _ c hc => Plain.cells (h a ha).2 c hc⟩
  have := (h a ha).1
  rwa [e] at this

/-- C91: a condition about the solution whose numbers are properly spelled and whose grid variables have different names has a faithful text. -/
theorem C91_plain_proper {L : Loc → Prop} {prog : List (Assign D)} (h : PlainProgram N vs L (N.Spelled T) prog) (hv : ∀ l, L l → ¬ Generated (N.var l) ∧ N.var l ∉ T.start.names) : T.Proper (text N prog) :=
  C91_proper N prog (fun a ha => Plain.numbers (h a ha).2) (fun a ha => Plain.noIntegers (h a ha).2) fun l hl => hv l (h.locals l hl)

/-- C91: with constants of the right values the text says what the condition says. -/
theorem C91_plain (hL : T.lib.Conforms) (hM : Recon.Maths T.lib) (hN : Function.Injective N.array) (harr : ∀ i, N.array (vs i) = T.names (.data (sol i))) {L : Loc → Prop} {prog : List (Assign D)}
    (h : PlainProgram N vs L (N.Good T prg) prog) (hv : ∀ l l', L l → L l' → N.var l = N.var l' → l = l') (r : Ranges.Kernel D) {p : ℤ} (hr : r.totalRange N.dir = (p, p + 1)) :
    Renders T prg sol vs (.kernel r (text N prog)) (.lines r N.dir p prog) :=
  ⟨rfl, hr, h.confined, N, rfl, ⟨hN, fun l hl l' hl' e => hv l l' (h.locals l hl) (h.locals l' hl') e⟩, harr, fun stage x => C91_text_partial hL hM N prog (fun a ha => Plain.numbers (h a ha).2) stage x⟩

/-! ### The conditions -/

theorem plain_append {L : Loc → Prop} {a b : List (Assign D)} (ha : PlainProgram N vs L W a) (hb : PlainProgram N vs L W b) : PlainProgram N vs L W (a ++ b) := fun x hx => (List.mem_append.1 hx).elim (ha x) (hb x)

theorem plain_create {L : Loc → Prop} {left : List (Var D)} {right : List (Expr D)} {idx : List (ℤ × ℤ)} (hl : ∀ v ∈ left, ∃ i, v = vs i) (hr : ∀ e ∈ right, e.Plain N (Inside vs L) W) :
    PlainProgram N vs L W (createBoundaryEquations left right idx) := by
  intro a ha
  simp only [createBoundaryEquations, List.mem_flatMap, List.mem_map] at ha
  obtain ⟨p, -, ⟨v, e⟩, hz, rfl⟩ := ha
  exact ⟨hl v (List.of_mem_zip hz).1, Plain.setLoc (hr e (List.of_mem_zip hz).2)⟩

/-- C91: zero gradients. -/
theorem C91_zero_gradient {arrays : List (Arr D)} (ha : ∀ v ∈ flatten arrays, ∃ i, v = vs i) (s : Side) (nh : ℕ) : PlainProgram N vs (fun _ => False) W (zeroGradient arrays s nh) := by
  have h : ∀ e ∈ (flatten arrays).map fun v => (dat v 0 : Expr D), e.Plain N (Inside vs fun _ => False) W := fun e he => by
    obtain ⟨v, hv, rfl⟩ := List.mem_map.1 he
    exact ha v hv
  exact plain_append (plain_create ha h) (plain_create ha h)

/-- C91: extrapolation of both orders. -/
theorem C91_extrapolation {arrays : List (Arr D)} (ha : ∀ v ∈ flatten arrays, ∃ i, v = vs i) (h2 : W 2) {order : ℤ} {s : Side} {nh : ℕ} {prog : List (Assign D)} (h : extrapolation arrays order s nh = some prog) :
    PlainProgram N vs (fun _ => False) W prog := by
  have hc : ∀ e ∈ (flatten arrays).map fun v => (dat v 0 : Expr D), e.Plain N (Inside vs fun _ => False) W := fun e he => by
    obtain ⟨v, hv, rfl⟩ := List.mem_map.1 he
    exact ha v hv
  unfold extrapolation at h
  split at h
  · cases h
    intro a ha'
    obtain ⟨i, -, hi⟩ := List.mem_flatMap.1 ha'
    exact plain_create ha hc a hi
  · split at h
    · cases s <;> cases h <;>
      · intro a ha'
        obtain ⟨i, -, hi⟩ := List.mem_flatMap.1 ha'
        obtain ⟨v, hv, rfl⟩ := List.mem_map.1 hi
        exact ⟨ha v hv, ⟨h2, ha v hv⟩, ha v hv⟩
    · cases h

/-- C91: the transfer at an inlet. -/
theorem C91_inlet_transfer {arrays : List (Arr D)} (ha : ∀ v ∈ flatten arrays, ∃ i, v = vs i) {s : Side} {prog : List (Assign D)} (h : inletTransfer arrays s = some prog) : PlainProgram N vs (fun _ => False) W prog := by
  unfold inletTransfer at h
  split at h
  · cases h
    exact plain_create ha fun e he => by
      obtain ⟨v, hv, rfl⟩ := List.mem_map.1 he
      exact ha v hv
  · cases h

section gas
variable {L : Loc → Prop} (hρ : ∃ i, Var.rho = vs i) (hE : ∃ i, Var.rhoE = vs i) (hm : ∀ j, ∃ i, Var.mom j = vs i)
include hρ hE hm

omit hρ hE in
theorem momSq_plain (h0 : W 0) : (momSq D).Plain N (Inside vs L) W := Plain.sum h0 fun e he => by
  obtain ⟨i, -, rfl⟩ := List.mem_map.1 he
  exact ⟨hm i, hm i⟩

theorem temperature_plain {γ M : ℝ} (hγ : W γ) (hM : W M) (h0 : W 0) (h1 : W 1) (hh : W (1 / 2)) : (temperature D γ M).Plain N (Inside vs L) W :=
  ⟨⟨⟨hE, ⟨hh, momSq_plain hm h0⟩, hρ, fun h => by cases h.2⟩, ⟨hγ, hγ, h1⟩, hM, hM⟩, hρ, fun h => by cases h.2⟩

theorem cons_plain : ∀ v ∈ flatten (consArrays D), ∃ i, v = vs i := by
  intro v hv
  simp only [flatten, consArrays, List.flatMap_cons, List.flatMap_nil, List.append_nil, List.mem_append, List.mem_singleton, List.mem_map, List.mem_finRange, true_and] at hv
  rcases hv with rfl | ⟨j, rfl⟩ | rfl
  · exact hρ
  · exact hm j
  · exact hE

/-- C91: the adiabatic wall. -/
theorem C91_adiabatic {γ M : ℝ} (hγ : W γ) (hM : W M) (h0 : W 0) (h1 : W 1) (h3 : W 3) (hh : W (1 / 2)) (h611 : W (6 / 11)) (h13 : W (1 / 3)) (h32 : W (3 / 2)) (s : Side) (nh : ℕ) :
    PlainProgram N vs (fun _ => False) W (adiabaticWall D γ M s nh) := by
  have ht := fun k => Plain.shift (k := k) (temperature_plain (N := N) (L := fun _ => False) hρ hE hm hγ hM h0 h1 hh)
  intro a ha
  simp only [adiabaticWall, List.mem_append, List.mem_map, List.mem_flatMap, List.mem_singleton] at ha
  rcases ha with (⟨i, -, rfl⟩ | ⟨j, -, rfl⟩ | ⟨i, -, j, -, rfl⟩) | rfl | ⟨i, -, rfl⟩
  · exact ⟨hρ, hρ⟩
  · exact ⟨hm j, hρ, h0⟩
  · exact ⟨hm j, hm j⟩
  · refine ⟨hE, ⟨⟨hρ, h611, ⟨⟨h3, ht _⟩, h13, ht _⟩, h32, ht _⟩, ⟨⟨hγ, hM⟩, hM⟩, ?_⟩, ⟨hγ, h1⟩, ?_⟩ <;>
    · intro h
      have := h.1
      cases this
  · exact ⟨hE, hE⟩

/-- C91: the outlet of given pressure. -/
theorem C91_pressure_outlet {γ pb : ℝ} (hγ : W γ) (hpb : W pb) (h0 : W 0) (h1 : W 1) (hh : W (1 / 2)) {s : Side} {nh : ℕ} {prog : List (Assign D)} (hi : (N.lit pb).isInt = false ∨ ((Expr.num γ - .num 1 : Expr D).sym N).isInt = false)
    (h : pressureOutlet D γ pb s nh = some prog) : PlainProgram N vs (· = .localE) W prog := by
  unfold pressureOutlet at h
  split at h
  · cases h
    refine plain_append (fun a ha => ?_) fun a ha => ?_
    · rw [List.mem_singleton.1 ha]
      exact ⟨rfl, hE⟩
    · obtain ⟨i, -, hi'⟩ := List.mem_flatMap.1 ha
      refine plain_create (cons_plain hρ hE hm) (fun e he => ?_) a hi'
      simp only [List.mem_append, List.mem_singleton, List.mem_map] at he
      rcases he with (rfl | ⟨j, -, rfl⟩) | rfl
      · exact hρ
      · exact hm j
      · refine ⟨⟨hpb, ⟨hγ, h1⟩, fun h => ?_⟩, ⟨hh, momSq_plain hm h0⟩, hρ, fun h => by cases h.2⟩
        rcases hi with hi | hi
        · exact absurd (hi.symm.trans h.1) (by decide)
        · exact absurd (hi.symm.trans h.2) (by decide)
  · cases h

/-- The grid variables of the inlet. -/
inductive InletLoc (D : ℕ) : Loc → Prop
  | rhob : InletLoc D .rhob
  | ub (i : Fin D) : InletLoc D (.ub i)
  | pb : InletLoc D .pb
  | ab : InletLoc D .ab

/-- C91: the inlet with extrapolated pressure. -/
theorem C91_inlet_pressure {γ : ℝ} (hγ : W γ) (h0 : W 0) (h1 : W 1) (hh : W (1 / 2)) (dir : Fin D) {s : Side} {nh : ℕ} {prog : List (Assign D)} (h : inletPressure D γ dir s nh = some prog) :
    PlainProgram N vs (InletLoc D) W prog := by
  unfold inletPressure at h
  split at h
  · cases h
    intro a ha
    simp only [List.mem_append, List.mem_map, List.mem_cons, List.not_mem_nil, or_false] at ha
    rcases ha with (((rfl | ⟨i, -, rfl⟩) | rfl | rfl) | ⟨v, hv, rfl⟩) | ⟨i, -, rfl⟩
    · exact ⟨.rhob, hρ⟩
    · exact ⟨.ub i, hm i, hρ, fun h => by cases h.2⟩
    · refine ⟨.pb, ⟨hγ, h1⟩, hE, ⟨hh, .rhob⟩, Plain.sum h0 fun e he => ?_⟩
      obtain ⟨i, -, rfl⟩ := List.mem_map.1 he
      exact ⟨.ub i, .ub i⟩
    · exact ⟨.ab, ⟨hγ, .pb⟩, .rhob, fun h => by cases h.2⟩
    · have := cons_plain hρ hE hm v hv
      exact ⟨this, .ub dir, .ab, this, this⟩
    · exact ⟨hE, .ub dir, .ab, hE, hE⟩
  · cases h

end gas

/-- C91: the grid variables of the inlet have different names. -/
theorem C91_inlet_names {l l' : Loc} (h : InletLoc D l) (h' : InletLoc D l') (e : l.name = l'.name) : l = l' := by
  have hh : ∀ (b s : String), s.toList.head? ≠ some 'u' → "ub" ++ b ≠ s := fun b s hs e => hs (by rw [← e]; simp)
  cases h with
  | ub i =>
    cases h' with
    | ub j =>
      simp only [Loc.name] at e
      rw [String.append_right_inj] at e
      rw [Mon.toString_injective e]
    | _ => exact absurd e (hh _ _ (by decide))
  | rhob => cases h' with
    | ub j => exact absurd e.symm (hh _ _ (by decide))
    | rhob => rfl
    | _ => exact absurd e (by decide)
  | pb => cases h' with
    | ub j => exact absurd e.symm (hh _ _ (by decide))
    | pb => rfl
    | _ => exact absurd e (by decide)
  | ab => cases h' with
    | ub j => exact absurd e.symm (hh _ _ (by decide))
    | ab => rfl
    | _ => exact absurd e (by decide)

/-- C91, C28: the adiabatic wall sets the momentum at the wall to zero whatever the density is. -/
theorem C91_adiabatic_momentum (γ M : ℝ) (s : Side) (nh : ℕ) (st : Cell D → ℝ) (j : Fin D) : run (adiabaticWall D γ M s nh) st (.data (.mom j) 0) = 0 := by
  obtain ⟨a, ha, e1, e2⟩ := run_indep (adiabaticWall D γ M s nh) st adiabatic_indep (.data (.mom j) 0)
    ⟨⟨.data (.mom j) 0, dat .rho 0 * .num 0⟩, by
      simp only [adiabaticWall, List.mem_append, List.mem_map, List.mem_flatMap]
      exact Or.inl (Or.inr (Or.inl ⟨j, List.mem_finRange j, rfl⟩)), rfl⟩
  simp only [e2]
  rcases mem_adiabatic ha with ⟨k, _, -, rfl⟩ | ⟨j', rfl⟩ | ⟨k, hk, -, j', rfl⟩ | rfl | ⟨k, _, -, rfl⟩ <;>
    simp only [Cell.data.injEq, reduceCtorEq, false_and, Var.mom.injEq] at e1
  · simp
  · rcases mul_eq_zero.1 e1.2 with h | h
    · exact absurd h (fromF_ne s)
    · omega

/-! ### In a run -/

variable {pts : Ranges.Kernel D → List (P D)}

/-- C91: after the first time step, at the end and in the files with a number, a boundary with a pressure outlet and the halo behind it have the prescribed pressure, except where later conditions write. Partial: as C85. -/
theorem C91_outlet_pressure_partial {S : Setup D n} {U : Sim.Arr → Prop} {inp : Alg.Input (Call D)} (hS : T.Suits S .rk inp U) (hP : Program S .rk (T.meaning (T.const prg) 0) pts inp prg) (hst : inp.stages = 3)
    (hnew : T.table "rknew" = [2/3, 5/12, 3/5]) (hold : T.table "rkold" = [1/4, 3/20, 3/5]) (hvs : Function.Injective vs) {items pre post : List (Item D)} (h : List.Forall₂ (Renders T prg S.sol vs) T.bcs items)
    {r : Ranges.Kernel D} {dir : Fin D} {p : ℤ} {γ pb : ℝ} {nh : ℕ} {prog : List (Assign D)} (hprog : pressureOutlet D γ pb .right nh = some prog) (hi : items = pre ++ .lines r dir p prog :: post)
    (hr : r.totalRange dir = (p, p + 1)) (a : Arrays D) (hn : 1 ≤ inp.niter) (hγ1 : γ ≠ 1) {iρ iE : Fin n} {im : Fin D → Fin n} (hρ : vs iρ = .rho) (hE : vs iE = .rhoE) (hm : ∀ j, vs (im j) = .mom j) :
    let imposed (a' : Arrays D) := ∀ x, r.visits x → ∀ k : ℕ, k ≤ nh → (∀ c ∈ post, ∀ i, c.Keeps vs i (shift x dir k)) →
      Spec.pressureOf γ (a' (T.names (.data (S.sol iρ))) (shift x dir k)) (fun j => a' (T.names (.data (S.sol (im j)))) (shift x dir k)) (a' (T.names (.data (S.sol iE))) (shift x dir k)) = pb
    (∃ a', T.runText prg pts (Alg.runProgram prg) a = some a' ∧ imposed a') ∧
    ∀ before after o (k : ℤ) e, Alg.runProgram prg = before ++ .write o (some k) e :: after → ∃ a', T.runText prg pts before a = some a' ∧ imposed a' := by
  intro imposed
  obtain ⟨⟨a', r1, q, r2⟩, r3⟩ := C91_boundary_values_partial hS hP hst hnew hold hvs h hi hr a hn
  have key : ∀ (a' : Arrays D) (q : Sol D n), (∀ x, r.visits x → ∀ i k, (∀ c ∈ post, c.Keeps vs i (shift x dir k)) →
      a' (T.names (.data (S.sol i))) (shift x dir k) = run prog (lineState vs dir q x) (.data (vs i) k)) → imposed a' := by
    intro a' q hq x hx k hk hc
    obtain ⟨prog', h1, h2, -⟩ := C29_pressure_outlet γ pb hγ1 nh (lineState vs dir q x)
    rw [hprog] at h1
    cases h1
    have hv := fun i => hq x hx i k fun c hc' => hc c hc' i
    have := (h2 k hk).2.2
    rw [pAt, ← hρ, ← hE, ← hv, ← hv] at this
    simp only [← hm, ← hv] at this
    exact this
  refine ⟨⟨a', r1, key a' q r2⟩, fun before after o k e he => ?_⟩
  obtain ⟨a', s1, q, s2⟩ := r3 before after o k e he
  exact ⟨a', s1, key a' q s2⟩

/-- C91: after the first time step, at the end and in the files with a number, the momentum at an adiabatic wall is zero and, where the density is not, the one-sided difference of the temperature along the normal is zero, except where later conditions write. Partial: as C85. -/
theorem C91_adiabatic_no_slip_partial {S : Setup D n} {U : Sim.Arr → Prop} {inp : Alg.Input (Call D)} (hS : T.Suits S .rk inp U) (hP : Program S .rk (T.meaning (T.const prg) 0) pts inp prg) (hst : inp.stages = 3)
    (hnew : T.table "rknew" = [2/3, 5/12, 3/5]) (hold : T.table "rkold" = [1/4, 3/20, 3/5]) (hvs : Function.Injective vs) {items pre post : List (Item D)} (h : List.Forall₂ (Renders T prg S.sol vs) T.bcs items)
    {r : Ranges.Kernel D} {dir : Fin D} {p : ℤ} {γ M : ℝ} {s : Side} {nh : ℕ} (hi : items = pre ++ .lines r dir p (adiabaticWall D γ M s nh) :: post)
    (hr : r.totalRange dir = (p, p + 1)) (a : Arrays D) (hn : 1 ≤ inp.niter) (hγ : γ ≠ 0) (hγ1 : γ ≠ 1) (hM : M ≠ 0) {iρ iE : Fin n} {im : Fin D → Fin n} (hρ : vs iρ = .rho) (hE : vs iE = .rhoE) (hm : ∀ j, vs (im j) = .mom j) :
    let imposed (a' : Arrays D) := ∀ x, r.visits x → (∀ c ∈ post, ∀ i, ∀ k : ℕ, k ≤ 3 → c.Keeps vs i (shift x dir (s.toF * k))) → (∀ j, a' (T.names (.data (S.sol (im j)))) x = 0) ∧
      (a' (T.names (.data (S.sol iρ))) x ≠ 0 → oneSided.eval (fun k => Spec.temperatureOf γ M (a' (T.names (.data (S.sol iρ))) (shift x dir (s.toF * k))) (fun j => a' (T.names (.data (S.sol (im j)))) (shift x dir (s.toF * k)))
        (a' (T.names (.data (S.sol iE))) (shift x dir (s.toF * k)))) 0 = 0)
    (∃ a', T.runText prg pts (Alg.runProgram prg) a = some a' ∧ imposed a') ∧
    ∀ before after o (k : ℤ) e, Alg.runProgram prg = before ++ .write o (some k) e :: after → ∃ a', T.runText prg pts before a = some a' ∧ imposed a' := by
  intro imposed
  have h0 : ∀ x : P D, shift x dir 0 = x := fun x => by
    funext e
    by_cases he : e = dir
    · subst he
      simp [Sim.shift]
    · simp [Sim.shift, he]
  obtain ⟨⟨a', r1, q, r2⟩, r3⟩ := C91_boundary_values_partial hS hP hst hnew hold hvs h hi hr a hn
  have key : ∀ (a' : Arrays D) (q : Sol D n), (∀ x, r.visits x → ∀ i k, (∀ c ∈ post, c.Keeps vs i (shift x dir k)) →
      a' (T.names (.data (S.sol i))) (shift x dir k) = run (adiabaticWall D γ M s nh) (lineState vs dir q x) (.data (vs i) k)) → imposed a' := by
    intro a' q hq x hx hc
    have hv := fun i (k : ℕ) (hk : k ≤ 3) => hq x hx i (s.toF * k) fun c hc' => hc c hc' i k hk
    have hv0 : ∀ i, a' (T.names (.data (S.sol i))) x = run (adiabaticWall D γ M s nh) (lineState vs dir q x) (.data (vs i) 0) := fun i => by
      have := hv i 0 (by omega)
      rwa [Nat.cast_zero, mul_zero, h0] at this
    refine ⟨fun j => ?_, fun hne => ?_⟩
    · rw [hv0, hm]
      exact C91_adiabatic_momentum γ M s nh _ j
    · have hρ0 : lineState vs dir q x (.data .rho 0) ≠ 0 := by
        rw [hv0 iρ, hρ] at hne
        rwa [run_unwritten] at hne
        intro a ha
        simp only [adiabaticWall, List.mem_append, List.mem_map, List.mem_flatMap, List.mem_singleton, List.mem_range'_1] at ha
        rcases ha with (⟨i, hi, rfl⟩ | ⟨j, -, rfl⟩ | ⟨i, -, j, -, rfl⟩) | rfl | ⟨i, -, rfl⟩ <;> try (intro e; cases e)
        intro e
        have := (Cell.data.inj e).2
        rcases mul_eq_zero.1 this with h | h
        · exact fromF_ne s h
        · omega
      obtain ⟨-, -, c3⟩ := C28_wall γ M s nh (lineState vs dir q x) hγ hγ1 hM hρ0
      simp only [tAt, ← hρ, ← hE, ← hm] at c3
      rw [← c3]
      simp only [oneSided, Closure.Row.eval, List.map_cons, List.map_nil, List.sum_cons, List.sum_nil, zero_add]
      have w := fun i => hv i 0 (by omega)
      have w1 := fun i => hv i 1 (by omega)
      have w2 := fun i => hv i 2 (by omega)
      have w3 := fun i => hv i 3 (by omega)
      push_cast at w w1 w2 w3
      simp only [w, w1, w2, w3]
  refine ⟨⟨a', r1, key a' q r2⟩, fun before after o k e he => ?_⟩
  obtain ⟨a', s1, q, s2⟩ := r3 before after o k e he
  exact ⟨a', s1, key a' q s2⟩

end OpenSBLI.Bc
