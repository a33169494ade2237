import Verif.Lemmas.BoundaryText
import Verif.Spec.BoundarySpelling
import Verif.Props.C85_SimulationText
import Verif.Props.C27_C28_Walls
import Verif.Props.C25_C26_Mirror

/-!
# C91: printed boundary conditions

The kernels of the boundary conditions are printed and called point by point, like all others. Here: they make of the arrays what the conditions say, on every
line normal to the boundary, whatever the order of the points; programs with printed boundary conditions are those of C85 with these conditions.
-/
namespace OpenSBLI.Bc
open OpenSBLI.CCode OpenSBLI.Sim OpenSBLI.Reg

variable {D n : ℕ} {T : Text D} {prg : List (Alg.Node (Call D))} {pts : Ranges.Kernel D → List (P D)} {sol : Fin n → String} {vs : Fin n → Var D}

/-! ### The text of a condition -/

theorem sym_val {N : Spelling D} {L : Lib ℝ} (hL : L.Conforms) (hM : Recon.Maths L) {o : Outer D ℝ} (e : Expr D) (h : e.Numbers fun r => ∀ st, (N.lit r).val L o st = r)
    (st : CCode.Mem D ℝ) : (e.sym N).val L o st = e.eval (N.view st) := by
  have inv : ∀ x : ℝ, L.pow x ((-1 : ℚ) : ℝ) = x⁻¹ := fun x => by
    have := hL.neg x 1
    rw [Rat.cast_one, hL.one] at this
    exact this
  have root : ∀ x : ℝ, L.pow x ((1 / 2 : ℚ) : ℝ) = Real.sqrt x := fun x => by rw [← hL.sqrt, hM.sqrt]
  induction e with
  | num r => exact h st
  | cell c => cases c <;> rfl
  | add a b ha hb => simp only [Expr.sym, Sym.val, Expr.eval, ha h.1, hb h.2]
  | sub a b ha hb =>
    simp only [Expr.sym, Sym.val, Expr.eval, ha h.1, hb h.2]
    push_cast
    ring
  | mul a b ha hb => simp only [Expr.sym, Sym.val, Expr.eval, ha h.1, hb h.2]
  | div a b ha hb => simp only [Expr.sym, Sym.val, Expr.eval, ha h.1, hb h.2, inv, div_eq_mul_inv]
  | neg a ha =>
    simp only [Expr.sym, Sym.val, Expr.eval, ha h]
    push_cast
    ring
  | sqrt a ha => simp only [Expr.sym, Sym.val, Expr.eval, ha h, root]
  | abs a ha => simp only [Expr.sym, Sym.val, Expr.eval, ha h, hM.abs]
  | rpow a b => exact h.elim
  | ge a b x y ha hb hx hy => simp only [Expr.sym, Sym.val, Expr.eval, ha h.1, hb h.2.1, hx h.2.2.1, hy h.2.2.2, Rel.holds, ge_iff_le]

theorem Numbers.imp {P Q : ℝ → Prop} (hPQ : ∀ r, P r → Q r) (e : Expr D) (h : e.Numbers P) : e.Numbers Q := by
  induction e with
  | num r => exact hPQ r h
  | cell c => trivial
  | add a b ha hb | sub a b ha hb | mul a b ha hb | div a b ha hb => exact ⟨ha h.1, hb h.2⟩
  | neg a ha | sqrt a ha | abs a ha => exact ha h
  | rpow a b => exact h
  | ge a b x y ha hb hx hy => exact ⟨ha h.1, hb h.2.1, hx h.2.2.1, hy h.2.2.2⟩

/-- C91: the equations of a boundary condition, written with properly spelled numbers, say what the condition says. Partial: no general powers. -/
theorem C91_text_partial (hL : T.lib.Conforms) (hM : Recon.Maths T.lib) (N : Spelling D) (prog : List (Assign D)) (h : ∀ a ∈ prog, a.rhs.Numbers (N.Good T prg)) (stage : ℤ) (x : P D) :
    SaysLine N T.lib (T.outer prg stage x) (text N prog) prog := by
  unfold SaysLine text
  rw [List.forall₂_map_left_iff]
  refine List.forall₂_same.2 fun a ha => ⟨_, rfl, fun st => sym_val hL hM a.rhs (Numbers.imp (fun r hr st => ?_) _ (h a ha)) st⟩
  rcases hr with ⟨q, hq, e | e⟩ | ⟨c, -, e, hc⟩ <;> rw [e]
  · exact hq
  · exact hq
  · exact hc

theorem Spelling.Good.spelled {N : Spelling D} {r : ℝ} (h : N.Good T prg r) : N.Spelled T r := h.imp_right fun ⟨c, h1, h2, _⟩ => ⟨c, h1, h2⟩

theorem sym_recipInt {N : Spelling D} (e : Expr D) (h : e.Numbers (N.Spelled T)) : (e.sym N).recipInt = false := by
  cases e with
  | num r =>
    simp only [Expr.sym]
    rcases h with ⟨q, -, e | e⟩ | ⟨c, -, e⟩ <;> rw [e] <;> rfl
  | cell c => cases c <;> rfl
  | sqrt a =>
    simp only [Expr.sym, Sym.recipInt]
    norm_num
  | rpow a b => exact h.elim
  | _ => rfl

theorem sym_faithful {N : Spelling D} {L : Lib ℝ} (e : Expr D) (h : e.Numbers (N.Spelled T)) (hi : e.NoIntegers N) (o : Outer D ℝ) (st : CCode.Mem D ℝ) :
    (e.sym N).Faithful L o st Mode.inKernel := by
  induction e with
  | num r =>
    simp only [Expr.sym]
    rcases h with ⟨q, -, e | e⟩ | ⟨c, -, e⟩ <;> rw [e] <;> trivial
  | cell c => cases c <;> trivial
  | add a b ha hb => exact ⟨ha h.1 hi.1, hb h.2 hi.2⟩
  | sub a b ha hb => exact ⟨ha h.1 hi.1, trivial, hb h.2 hi.2, by simp [sym_recipInt b h.2]⟩
  | mul a b ha hb => exact ⟨ha h.1 hi.1, hb h.2 hi.2, by simp [sym_recipInt b h.2]⟩
  | div a b ha hb =>
    refine ⟨ha h.1 hi.1, ⟨hb h.2 hi.2.1, trivial⟩, fun hh => hi.2.2 ⟨hh.1, ?_⟩⟩
    simpa [Sym.recipInt] using hh.2
  | neg a ha => exact ⟨trivial, ha h hi, by simp [sym_recipInt a h]⟩
  | sqrt a ha => exact ⟨ha h hi, trivial⟩
  | abs a ha => exact ha h hi
  | rpow a b => exact h.elim
  | ge a b x y ha hb hx hy => exact ⟨ha h.1 hi.1, hb h.2.1 hi.2.1, hx h.2.2.1 hi.2.2.1, hy h.2.2.2 hi.2.2.2⟩

theorem sym_consts {N : Spelling D} (e : Expr D) (h : e.Numbers (N.Spelled T)) : ∀ c ∈ (e.sym N).consts, c ∈ T.start.names := by
  induction e with
  | num r =>
    simp only [Expr.sym]
    rcases h with ⟨q, -, e | e⟩ | ⟨c, hc, e⟩ <;> rw [e] <;> simp [Sym.consts]
    exact hc
  | cell c => cases c <;> simp [Expr.sym, Spelling.cell, Sym.consts]
  | add a b ha hb | mul a b ha hb =>
    simp only [Expr.sym, Sym.consts, Finset.mem_union]
    exact fun c hc => hc.elim (ha h.1 c) (hb h.2 c)
  | sub a b ha hb | div a b ha hb =>
    simp only [Expr.sym, Sym.consts, Finset.mem_union, Finset.notMem_empty, false_or, or_false]
    exact fun c hc => hc.elim (ha h.1 c) (hb h.2 c)
  | neg a ha | sqrt a ha | abs a ha =>
    simp only [Expr.sym, Sym.consts, Finset.mem_union, Finset.notMem_empty, false_or, or_false]
    exact ha h
  | rpow a b => exact h.elim
  | ge a b x y ha hb hx hy =>
    simp only [Expr.sym, Sym.consts, Finset.mem_union]
    rintro c ((hc | hc) | (hc | hc))
    · exact ha h.1 c hc
    · exact hb h.2.1 c hc
    · exact hx h.2.2.1 c hc
    · exact hy h.2.2.2 c hc

theorem sym_inverses {N : Spelling D} (e : Expr D) (h : e.Numbers (N.Spelled T)) : ∀ k ∈ (e.sym N).inverses, k.Closed := by
  have hpow : ∀ (x : Sym D) (q : ℚ), (∀ k ∈ x.inverses, k.Closed) → ∀ k ∈ (Sym.pow x (.num q)).inverses, k.Closed := by
    intro x q hx k hk
    rw [Sym.inverses] at hk
    split at hk
    · rename_i hc
      rw [List.mem_singleton.1 hk]
      rcases hc with hc | hc
      · rw [hc]
        exact ⟨⟨trivial, trivial⟩, trivial⟩
      · cases x with
        | const c => exact ⟨trivial, trivial⟩
        | _ => simp [isConst] at hc
    · simp only [Sym.inverses, List.append_nil] at hk
      exact hx k hk
  induction e with
  | num r =>
    simp only [Expr.sym]
    rcases h with ⟨q, -, e | e⟩ | ⟨c, hc, e⟩ <;> rw [e] <;> simp [Sym.inverses]
  | cell c => cases c <;> simp [Expr.sym, Spelling.cell, Sym.inverses]
  | add a b ha hb | mul a b ha hb =>
    simp only [Expr.sym, Sym.inverses, List.mem_append]
    exact fun c hc => hc.elim (ha h.1 c) (hb h.2 c)
  | sub a b ha hb =>
    simp only [Expr.sym, Sym.inverses, List.mem_append, List.not_mem_nil, false_or]
    exact fun c hc => hc.elim (ha h.1 c) (hb h.2 c)
  | div a b ha hb =>
    rw [Expr.sym, Sym.inverses]
    exact fun c hc => (List.mem_append.1 hc).elim (ha h.1 c) (hpow _ _ (hb h.2) c)
  | neg a ha =>
    simp only [Expr.sym, Sym.inverses, List.nil_append]
    exact ha h
  | abs a ha => exact ha h
  | sqrt a ha => exact hpow _ _ (ha h)
  | rpow a b => exact h.elim
  | ge a b x y ha hb hx hy =>
    simp only [Expr.sym, Sym.inverses, List.mem_append]
    rintro c ((hc | hc) | (hc | hc))
    · exact ha h.1 c hc
    · exact hb h.2.1 c hc
    · exact hx h.2.2.1 c hc
    · exact hy h.2.2.2 c hc

theorem sym_gvars {N : Spelling D} (e : Expr D) (h : e.Numbers (N.Spelled T)) : ∀ v ∈ (e.sym N).gvars, ∃ l, .loc l ∈ e.cells ∧ v = N.var l := by
  induction e with
  | num r =>
    simp only [Expr.sym]
    rcases h with ⟨q, -, e | e⟩ | ⟨c, hc, e⟩ <;> rw [e] <;> simp [Sym.gvars]
  | cell c => cases c <;> simp [Expr.sym, Spelling.cell, Sym.gvars, Expr.cells]
  | add a b ha hb | mul a b ha hb | sub a b ha hb | div a b ha hb =>
    simp only [Expr.sym, Sym.gvars, Finset.mem_union, Finset.notMem_empty, false_or, or_false, Expr.cells, List.mem_append]
    rintro v (hv | hv)
    · obtain ⟨l, h1, h2⟩ := ha h.1 v hv
      exact ⟨l, .inl h1, h2⟩
    · obtain ⟨l, h1, h2⟩ := hb h.2 v hv
      exact ⟨l, .inr h1, h2⟩
  | neg a ha | sqrt a ha | abs a ha =>
    simp only [Expr.sym, Sym.gvars, Finset.mem_union, Finset.notMem_empty, false_or, or_false, Expr.cells]
    exact ha h
  | rpow a b => exact h.elim
  | ge a b x y ha hb hx hy =>
    simp only [Expr.sym, Sym.gvars, Finset.mem_union, Expr.cells, List.mem_append]
    rintro v ((hv | hv) | (hv | hv))
    · obtain ⟨l, h1, h2⟩ := ha h.1 v hv
      exact ⟨l, .inl (.inl h1), h2⟩
    · obtain ⟨l, h1, h2⟩ := hb h.2.1 v hv
      exact ⟨l, .inl (.inr h1), h2⟩
    · obtain ⟨l, h1, h2⟩ := hx h.2.2.1 v hv
      exact ⟨l, .inr (.inl h1), h2⟩
    · obtain ⟨l, h1, h2⟩ := hy h.2.2.2 v hv
      exact ⟨l, .inr (.inr h1), h2⟩

/-- C91: such equations have a faithful text in any program, provided that no integer is divided by an integer and the grid variables are not called like
constants. -/
theorem C91_proper (N : Spelling D) (prog : List (Assign D)) (h : ∀ a ∈ prog, a.rhs.Numbers (N.Spelled T)) (hi : ∀ a ∈ prog, a.rhs.NoIntegers N)
    (hv : ∀ l ∈ locals prog, ¬ Generated (N.var l) ∧ N.var l ∉ T.start.names) : T.Proper (text N prog) := by
  have hex : ∀ e ∈ exprs (text N prog), ∃ a ∈ prog, e = a.rhs.sym N := by
    intro e he
    simp only [exprs, text, List.flatMap_map, List.mem_flatMap, Eqn.exprs, List.mem_singleton] at he
    exact he
  refine ⟨fun e he c hc => ?_, fun v hv' => ?_, fun e he o st => ?_, fun bs hb => ?_, fun e he k hk => ?_⟩
  · obtain ⟨a, ha, rfl⟩ := hex e he
    exact sym_consts a.rhs (h a ha) c hc
  · rw [declaredVars, mem_unions] at hv'
    obtain ⟨q, hq, hv'⟩ := hv'
    obtain ⟨a, ha, rfl⟩ := List.mem_map.1 hq
    simp only [Eqn.gvars, Assign.gvars, Finset.mem_union] at hv'
    have : ∃ l ∈ locals prog, v = N.var l := by
      rcases hv' with hv' | hv'
      · cases ht : a.target with
        | data w k => simp [ht, Spelling.lhs, Lhs.gvars] at hv'
        | loc l =>
          refine ⟨l, ?_, by simpa [ht, Spelling.lhs, Lhs.gvars] using hv'⟩
          exact List.mem_flatMap.2 ⟨a, ha, List.mem_filterMap.2 ⟨.loc l, by simp [ht], rfl⟩⟩
      · obtain ⟨l, h1, h2⟩ := sym_gvars a.rhs (h a ha) v hv'
        exact ⟨l, List.mem_flatMap.2 ⟨a, ha, List.mem_filterMap.2 ⟨.loc l, by simp [h1], rfl⟩⟩, h2⟩
    obtain ⟨l, h1, rfl⟩ := this
    exact hv l h1
  · obtain ⟨a, ha, rfl⟩ := hex e he
    exact sym_faithful a.rhs (h a ha) (hi a ha) o st
  · obtain ⟨a, -, e⟩ := List.mem_map.1 hb
    cases e
  · obtain ⟨a, ha, rfl⟩ := hex e he
    exact sym_inverses a.rhs (h a ha) k hk

/-! ### The loop over the boundary -/

/-- C91: the printed kernel of a boundary condition, called at the points of a boundary plane one after the other in any order, compiles, and gives the arrays on every line normal to the boundary
the values of the condition along this line, computed from the values before the loop; nothing else changes. -/
theorem C91_kernel (hl : T.lib.Conforms) (hr : Registered T.ops) (hw : T.AllProper prg) (hc : .bc ∈ written prg) {eqs : List (Eqn D)} (he : eqs ∈ T.bcTexts)
    {before after : List (List (Eqn D))} (hall : (written prg).flatMap T.texts = before ++ eqs :: after) {N : Spelling D} {prog : List (Assign D)} (hN : N.Distinct prog) (stage : ℤ)
    (hs : ∀ x, SaysLine N T.lib (T.outer prg stage x) eqs prog) (plane : List (P D)) (hnd : plane.Nodup) (p : ℤ) (hp : ∀ x ∈ plane, x N.dir = p) (a : Arrays D) :
    ∃ a', plane.foldlM (T.callEqs prg (printKernels before T.start).2 eqs stage) a = some a' ∧
      (∀ x ∈ plane, ∀ v k, a' (N.array v) (shift x N.dir k) = run prog (fun | .data w j => a (N.array w) (shift x N.dir j) | .loc _ => 0) (.data v k)) ∧
      ∀ b y, ((∀ v, b ≠ N.array v) ∨ ∀ x ∈ plane, ∀ k, y ≠ shift x N.dir k) → a' b y = a b y := by
  refine ⟨_, foldlM_some (callEqs_eq hl hr hw hc he hall) plane a, fun x hx v k => ?_, fun b y hb => ?_⟩
  · have := (loop_lines hs hN hnd hp a).1 x hx v k
    rw [add_single_eq_shift] at this
    rw [this]
    congr 1
    funext c
    cases c with
    | data w j => rw [lineOf, add_single_eq_shift]
    | loc l => rfl
  · refine (loop_lines hs hN hnd hp a).2 b y fun x hx ⟨v, k, h1, h2⟩ => ?_
    rw [add_single_eq_shift] at h2
    exact hb.elim (fun h => h v h1) fun h => h x hx k h2

/-! ### Programs -/

/-- C91: a program with printed boundary conditions, or any part of its run, does what the program with the conditions as functions of the solution does. -/
theorem C91_program {U : Sim.Arr → Prop} (hF : T.Fits prg U sol) (hp : Enumerates pts) {items : List (Item D)} (h : List.Forall₂ (Renders T prg sol vs) T.bcs items)
    (events : List (Alg.Event (Call D))) (hv : ∀ v ∈ events, v ∈ Alg.runProgram prg) (a : Arrays D) :
    T.runText prg pts events a = T.run prg pts sol (conditions vs items) events a := by
  induction events generalizing a with
  | nil => rfl
  | cons v events ih =>
    have hstep : T.execText prg pts v a = T.exec prg pts sol (conditions vs items) v a := by
      cases v with
      | call c e =>
        cases c with
        | bc =>
          obtain ⟨a', h1, h2⟩ := bcs_agree (stage := e.stage.getD 0) hF.lib hF.registered hF.allProper (written_of_call _ e (hv _ (by simp))) hp h a
          rw [exec_of_achieves h2 e]
          exact h1
        | comp k => rfl
        | fn k => rfl
      | _ => rfl
    rw [Text.runText, Text.run, List.foldlM_cons, List.foldlM_cons, hstep]
    cases T.exec prg pts sol (conditions vs items) v a with
    | none => rfl
    | some a1 => exact ih (fun v hv' => hv v (List.mem_cons_of_mem _ hv')) a1

/-- C91: the printed program of the three stage scheme with its printed boundary conditions compiles, and its solution arrays have, at the end and in the files with a number, the Runge-Kutta iterates of the equations with
these boundary conditions. Partial: as C85. -/
theorem C91_rk_partial {S : Setup D n} {U : Sim.Arr → Prop} {inp : Alg.Input (Call D)} (hS : T.Suits S .rk inp U) (hP : Program S .rk (T.meaning (T.const prg) 0) pts inp prg) (hst : inp.stages = 3)
    (hnew : T.table "rknew" = [2/3, 5/12, 3/5]) (hold : T.table "rkold" = [1/4, 3/20, 3/5]) {items : List (Item D)} (h : List.Forall₂ (Renders T prg S.sol vs) T.bcs items) (a : Arrays D)
    (full : Sol D n → String → P D → ℝ)
    (hfull : ∀ q, Consistent S (T.meaning (T.const prg) 0) (fun s => T.startState S prg pts (conditions vs items) inp a (.data s)) q (full q)) :
    let step := rkStep S.np (fun q i x => (S.rhs i).eval (T.meaning (T.const prg) 0) (memOf (full q)) x) (conditions vs items) (T.const prg "dt") [(2/3, 1/4), (5/12, 3/20), (3/5, 3/5)]
    let s0 := stateOf S (T.startState S prg pts (conditions vs items) inp a)
    (∃ a', T.runText prg pts (Alg.runProgram prg) a = some a' ∧ ∀ i, a' (T.names (.data (S.sol i))) = (step^[inp.niter.toNat] s0).q i) ∧
    ∀ before after o k e, Alg.runProgram prg = before ++ .write o (some k) e :: after → ∃ j : ℕ, (j : ℤ) = k ∧ 1 ≤ j ∧ j ≤ inp.niter.toNat ∧
      ∃ a', T.runText prg pts before a = some a' ∧ ∀ i, a' (T.names (.data (S.sol i))) = (step^[j] s0).q i := by
  intro step s0
  obtain ⟨h1, h2⟩ := C85_rk_partial hS hP hst hnew hold (conditions vs items) a full hfull
  have hF := (fits hS hP).1
  refine ⟨?_, fun before after o k e he => ?_⟩
  · rw [C91_program hF hP.loops h _ (fun _ h => h)]
    exact h1
  · rw [C91_program hF hP.loops h _ (fun v hv => by rw [he]; exact List.mem_append_left _ hv)]
    exact h2 before after o k e he

/-- C91: likewise for low storage schemes. Partial: as C85. -/
theorem C91_ls_partial {S : Setup D n} {U : Sim.Arr → Prop} {inp : Alg.Input (Call D)} (hS : T.Suits S .lowStorage inp U) (hP : Program S .lowStorage (T.meaning (T.const prg) 0) pts inp prg) (A C : List ℝ)
    (hAC : A.length = C.length) (hst : inp.stages = A.length) (hA : T.table "rkA" = A) (hC : T.table "rkB" = C) {items : List (Item D)} (h : List.Forall₂ (Renders T prg S.sol vs) T.bcs items) (a : Arrays D)
    (full : Sol D n → String → P D → ℝ)
    (hfull : ∀ q, Consistent S (T.meaning (T.const prg) 0) (fun s => T.startState S prg pts (conditions vs items) inp a (.data s)) q (full q)) :
    let step := lsStep S.np (fun q i x => (S.rhs i).eval (T.meaning (T.const prg) 0) (memOf (full q)) x) (conditions vs items) (T.const prg "dt") (A.zip C)
    let s0 := stateOf S (T.startState S prg pts (conditions vs items) inp a)
    (∃ a', T.runText prg pts (Alg.runProgram prg) a = some a' ∧ ∀ i, a' (T.names (.data (S.sol i))) = (step^[inp.niter.toNat] s0).q i) ∧
    ∀ before after o k e, Alg.runProgram prg = before ++ .write o (some k) e :: after → ∃ j : ℕ, (j : ℤ) = k ∧ 1 ≤ j ∧ j ≤ inp.niter.toNat ∧
      ∃ a', T.runText prg pts before a = some a' ∧ ∀ i, a' (T.names (.data (S.sol i))) = (step^[j] s0).q i := by
  intro step s0
  obtain ⟨h1, h2⟩ := C85_ls_partial hS hP A C hAC hst hA hC (conditions vs items) a full hfull
  have hF := (fits hS hP).1
  refine ⟨?_, fun before after o k e he => ?_⟩
  · rw [C91_program hF hP.loops h _ (fun _ h => h)]
    exact h1
  · rw [C91_program hF hP.loops h _ (fun v hv => by rw [he]; exact List.mem_append_left _ hv)]
    exact h2 before after o k e he

end OpenSBLI.Bc
