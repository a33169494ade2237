import Verif.Props.C88_Wave

/-!
# C88: `apps/wave` with the low storage schemes
-/
namespace OpenSBLI.Sim
open OpenSBLI.Reg OpenSBLI.CCode OpenSBLI.Order
open scoped ContDiff


/-- `niter` steps of a low storage scheme with `st` stages; the arrays are written at the end. -/
noncomputable def waveInputLs (st N niter : ℤ) : Alg.Input (Call 1) where
  temporalSchemes := 1
  items := [initialItem ![N] waveInitial, (wave N).item .lowStorage (wave_spatial N).choose]
  stages := st
  niter := niter
  monitorFrequency := none
  ios := [Alg.IO.new 0 true none 0]

/-- The text of the program. -/
noncomputable def waveTextLs (As Bs : List ℝ) (inputs : String → ℝ) : Text 1 where
  names
    | .data s => s ++ "_B0"
    | .work i => "wk" ++ toString i ++ "_B0"
    | .res i => "Residual" ++ toString i ++ "_B0"
    | .reg _ => "tempRK_phi_B0"
  delta := ![ "Delta0block0" ]
  order := 4
  lib := sineLib
  ops := waveOps
  inputs := inputs
  table t := if t = "rkA" then As else Bs
  mods := fun _ => ⟨none, none⟩
  points := ![ "block0np0" ]
  carpenter := fun _ _ => 0
  fns := fun _ => some waveInitialText

theorem wave_names_ls (As Bs : List ℝ) (inputs : String → ℝ) (a b : Arr) (ha : waveArrays a) (hb : waveArrays b) (h : (waveTextLs As Bs inputs).names a = (waveTextLs As Bs inputs).names b) : a = b := by
  have hw : ∀ i : ℕ, ("wk" ++ toString i ++ "_B0").toList.head? = some 'w' := fun i => toList_head (toList_head rfl)
  have hr : ∀ i : ℕ, ("Residual" ++ toString i ++ "_B0").toList.head? = some 'R' := fun i => toList_head (toList_head rfl)
  have hd : ∀ s ∈ ["phi", "x0"], (s ++ "_B0").toList.head? ≠ some 'w' ∧ (s ++ "_B0").toList.head? ≠ some 'R' ∧ s ++ "_B0" ≠ "tempRK_phi_B0" := by decide
  have hne : ∀ {s s' : String} {c c' : Char}, s = s' → s.toList.head? = some c → s'.toList.head? = some c' → c = c' := by
    rintro s s' c c' rfl h1 h2
    rw [h1] at h2; exact Option.some.inj h2
  have hg : ("tempRK_phi_B0" : String).toList.head? = some 't' := rfl
  have hnum : ∀ {p : String} {i j : ℕ}, p ++ toString i ++ "_B0" = p ++ toString j ++ "_B0" → i = j := by
    intro p i j h
    rw [String.append_left_inj, String.append_right_inj] at h
    exact Mon.toString_injective h
  cases a with
  | data s =>
    cases b with
    | data s' =>
      have : s ++ "_B0" = s' ++ "_B0" := h
      rw [String.append_left_inj] at this
      rw [this]
    | work i => exact absurd ((congrArg (fun s : String => s.toList.head?) h).trans (hw i)) (hd s ha).1
    | res i => exact absurd ((congrArg (fun s : String => s.toList.head?) h).trans (hr i)) (hd s ha).2.1
    | reg i => exact absurd h (hd s ha).2.2
  | work i =>
    cases b with
    | data s => exact absurd ((congrArg (fun s : String => s.toList.head?) h).symm.trans (hw i)) (hd s hb).1
    | work j => rw [hnum h]
    | res j => exact absurd (hne h (hw i) (hr j)) (by decide)
    | reg j => exact absurd (hne h (hw i) hg) (by decide)
  | res i =>
    cases b with
    | data s => exact absurd ((congrArg (fun s : String => s.toList.head?) h).symm.trans (hr i)) (hd s hb).2.1
    | work j => exact absurd (hne h (hr i) (hw j)) (by decide)
    | res j => rw [hnum h]
    | reg j => exact absurd (hne h (hr i) hg) (by decide)
  | reg i =>
    cases b with
    | data s => exact absurd h.symm (hd s hb).2.2
    | work j => exact absurd (hne h hg (hw j)) (by decide)
    | res j => exact absurd (hne h hg (hr j)) (by decide)
    | reg j =>
      simp only [waveArrays] at ha hb
      rw [ha, hb]

theorem wave_open_ls (As Bs : List ℝ) (inputs : String → ℝ) (d : Fin 1) : ¬ (waveTextLs As Bs inputs).hasClosure d := by simp [Text.hasClosure, waveTextLs]

theorem wave_start_ls (As Bs : List ℝ) (inputs : String → ℝ) (c : String) (hc : c ∈ ["dt", "c0", "Delta0block0", "M_PI"]) : ⟨c, none⟩ ∈ (waveTextLs As Bs inputs).start.constants := by
  change (⟨c, none⟩ : Const (Sym 1)) ∈ (Rc.empty.performs waveOps).constants
  have h : (Rc.empty.performs waveOps).constants = (Rc.empty.performs waveOps).constants.take 5 ++ (Rc.empty.performs waveOps).constants.drop 5 := (List.take_append_drop 5 _).symm
  have h2 : (Rc.empty.performs waveOps).constants.take 5 = [⟨"block0np0", none⟩, ⟨"dt", none⟩, ⟨"c0", none⟩, ⟨"Delta0block0", none⟩, ⟨"M_PI", none⟩] := by with_unfolding_all rfl
  rw [h, h2]
  simp only [List.mem_cons, List.not_mem_nil, or_false] at hc
  rcases hc with rfl | rfl | rfl | rfl <;> simp

theorem wave_says_ls (As Bs : List ℝ) (inputs : String → ℝ) (N : ℤ) : (waveTextLs As Bs inputs).Says waveArrays (initialKernel ![N] waveInitial) waveInitialText := by
  intro const stage x m st h
  have h0 : waveArrays (.data "x0") := by simp [waveArrays]
  have h1 : waveArrays (.data "phi") := by simp [waveArrays]
  have s1 := says_set (wave_names_ls As Bs inputs) h h0 (v := (Sym.mul (.const "Delta0block0") (.idx 0) : Sym 1).val sineLib ⟨const, fun t => ((waveTextLs As Bs inputs).table t).getD stage.toNat 0, x⟩ st) (w := const "Delta0block0" * x 0) rfl
  refine says_set (wave_names_ls As Bs inputs) s1 h1 ?_
  have := s1 _ h0 0
  rw [add_zero] at this
  simp only [Sym.val]
  refine congrArg ((waveTextLs As Bs inputs).lib.fn "sin") ?_
  refine congrArg₂ (· * ·) ?_ this
  simp [Text.meaning]

theorem wave_suits_ls (As Bs : List ℝ) (inputs : String → ℝ) (st N niter : ℤ) : (waveTextLs As Bs inputs).Suits (wave N) .lowStorage (waveInputLs st N niter) waveArrays where
  lib := sineLib_conforms
  powers := realLib_powers
  registered := waveOps_registered
  injective := wave_names_ls As Bs inputs
  order := rfl
  works i := trivial
  arrays i := by rw [Subsingleton.elim i 0]; simp [waveArrays, wave]
  rhs i := by
    rw [Subsingleton.elim i 0]
    have hc : "c0" ∈ (Rc.empty.performs waveOps).names := by decide +kernel
    refine ⟨fun a ha => ?_, trivial, ⟨hc, ⟨trivial, rfl, ⟨.inv, by simp [waveTextLs, waveOps, Text.inverse]⟩, fun h => absurd h (wave_open_ls As Bs inputs 0)⟩, by simp [Ex.isInt]⟩, by simp [Ex.recipInt]⟩
    have : a ∈ [Arr.data "phi"] := ha
    rw [List.mem_singleton.1 this]
    simp [waveArrays]
  rel s e h := by simp [wave] at h
  step := by
    change "dt" ∈ (Rc.empty.performs waveOps).names
    decide +kernel
  tables c hc := by
    refine ⟨?_, ?_⟩
    · simp only [coefficients, List.mem_cons, List.not_mem_nil, or_false] at hc
      rcases hc with rfl | rfl <;> exact not_generated (by decide)
    · change c ∉ (Rc.empty.performs waveOps).names
      revert c; decide +kernel
  others o places ks h := by
    simp only [waveInputLs, initialItem, Setup.item, List.mem_cons, List.not_mem_nil, or_false, reduceCtorEq, Alg.Item.nonSimulation.injEq] at h
    obtain ⟨rfl, rfl, rfl⟩ := h
    refine ⟨fun k hk => by simp at hk, fun k hk => .inr ⟨waveInitialText, rfl, ?_, ?_⟩⟩
    · have h1 : "Delta0block0" ∈ (Rc.empty.performs waveOps).names := by decide +kernel
      have h2 : "M_PI" ∈ (Rc.empty.performs waveOps).names := by decide +kernel
      refine ⟨?_, ?_, ?_, ?_, ?_⟩
      · intro e he c hc
        simp only [exprs, waveInitialText, List.flatMap_cons, List.flatMap_nil, Eqn.exprs, List.cons_append, List.nil_append, List.mem_cons, List.not_mem_nil, or_false] at he
        rcases he with rfl | rfl
        · simp [Sym.consts] at hc
          rw [hc]; exact h1
        · simp [Sym.consts] at hc
          rw [hc]; exact h2
      · intro v hv
        exact absurd hv (by simp [declaredVars, waveInitialText, unions, Eqn.gvars, Assign.gvars, Lhs.gvars, Sym.gvars])
      · intro e he o st
        simp only [exprs, waveInitialText, List.flatMap_cons, List.flatMap_nil, Eqn.exprs, List.cons_append, List.nil_append, List.mem_cons, List.not_mem_nil, or_false] at he
        rcases he with rfl | rfl
        · simp [Sym.Faithful, Sym.isInt]
        · simp [Sym.Faithful, Sym.isInt]
      · intro bs hb
        simp [waveInitialText] at hb
      · intro e he k hk
        simp only [exprs, waveInitialText, List.flatMap_cons, List.flatMap_nil, Eqn.exprs, List.cons_append, List.nil_append, List.mem_cons, List.not_mem_nil, or_false] at he
        rcases he with rfl | rfl <;> simp [Sym.inverses] at hk
    · simp only [List.mem_singleton, Call.fn.injEq] at hk
      rw [hk]
      exact wave_says_ls As Bs inputs N

theorem wave_program_ls (As Bs : List ℝ) {pts : Ranges.Kernel 1 → List (P 1)} (hp : Enumerates pts) (inputs : String → ℝ) (st N niter : ℤ) :
    ∃ prg, Program (wave N) .lowStorage ((waveTextLs As Bs inputs).meaning ((waveTextLs As Bs inputs).const prg) 0) pts (waveInputLs st N niter) prg := by
  have hg : ∃ prg, Alg.generate (waveInputLs st N niter) = .ok prg := by
    simp [Alg.generate, waveInputLs, initialItem, Setup.item, Alg.Acc.add, Alg.sortByOrder, bind, Except.bind, pure, Except.pure, Alg.Placed.addKernels]
  obtain ⟨prg, hg⟩ := hg
  refine ⟨prg, wave_valid N, hp, central_local (central_meaning rfl (wave_open_ls As Bs inputs) _ _), ⟨[initialItem ![N] waveInitial], [], _, (wave_spatial N).choose_spec, rfl, by simp [initialItem, Alg.Item.isSimulation], by simp⟩, ?_, hg⟩
  intro o places k h p hp
  simp only [waveInputLs, initialItem, Setup.item, List.mem_cons, List.not_mem_nil, or_false, reduceCtorEq, Alg.Item.nonSimulation.injEq] at h
  obtain ⟨-, rfl, -⟩ := h
  simpa using hp

/-- The initial values, whatever the arrays contain before. -/
theorem wave_initial_ls (As Bs : List ℝ) {pts : Ranges.Kernel 1 → List (P 1)} (hp : Enumerates pts) (inputs : String → ℝ) (st N niter : ℤ) (prg : List (Alg.Node (Call 1))) (B : Sol 1 1 → Sol 1 1) (a : Arrays 1) (x : P 1) (hx : Grid ![N] x) :
    (waveTextLs As Bs inputs).startState (wave N) prg pts B (waveInputLs st N niter) a (.data "phi") x =
      Real.sin (2 * (waveTextLs As Bs inputs).const prg "M_PI" * ((waveTextLs As Bs inputs).const prg "Delta0block0" * x 0)) := by
  have h : ∀ m, atStart ((waveTextLs As Bs inputs).meaning ((waveTextLs As Bs inputs).const prg) 0) pts (wave N).sol B (waveInputLs st N niter) m =
      runFn ((waveTextLs As Bs inputs).meaning ((waveTextLs As Bs inputs).const prg) 0) pts (initialKernel ![N] waveInitial) m := by
    intro m
    simp [atStart, waveInputLs, initialItem, Setup.item, Alg.others, Alg.sortByOrder, Alg.placedAt, Alg.calls, Alg.effect, exec]
  rw [Text.startState, h, runFn_at hp]
  · simp [initialKernel, waveInitial, Mem.set, Text.meaning, waveTextLs, sineLib]
  · intro q hq m m' y hm
    simp only [initialKernel, waveInitial, List.mem_cons, List.not_mem_nil, or_false] at hq
    rcases hq with rfl | rfl
    · rfl
    · simp [hm]
  · rw [initialKernel, rangeOf_visits]
    intro d
    have := hx d
    rw [if_pos (List.mem_finRange d)]
    omega

/-- C88: so does the printed program of `apps/wave` with `RungeKuttaLS(3)`, also with `formulation='SSP'`: it converges to the travelling wave, with one constant for all grids and time steps within the limit of stability, whatever the arrays contain before it starts. Nothing is assumed about the program: the initial conditions
are set by its initialisation kernel. -/
theorem C88_wave_ls (c time : ℝ) : ∃ C : ℝ, ∀ (As Bs : List ℝ), LowStorage3 As Bs → ∀ (N niter : ℕ) (inputs : String → ℝ), 2 ≤ N → inputs "c0" = c → inputs "Delta0block0" = 1 / N → inputs "M_PI" = Real.pi →
    0 ≤ inputs "dt" → inputs "dt" ≤ 1 → |c| * inputs "dt" * N ≤ 2 / √3 → niter * inputs "dt" ≤ time → ∀ (pts : Ranges.Kernel 1 → List (P 1)), Enumerates pts → ∀ a : Arrays 1,
      ∃ prg a', Alg.generate (waveInputLs 3 N niter) = .ok prg ∧ (waveTextLs As Bs inputs).run prg pts ![ "phi" ] (exchange ![(N : ℤ)] 2) (Alg.runProgram prg) a = some a' ∧
        ∑ x ∈ gridPoints ![(N : ℤ)], (a' "phi_B0" x - Real.sin (2 * Real.pi * (x 0 * (1 / N) - c * (niter * inputs "dt")))) ^ 2 ≤ N * (C * (inputs "dt" ^ 3 + (1 / N) ^ 4)) ^ 2 := by
  obtain ⟨C, hC⟩ := C88_text_convergence_ls_partial (m := 2) (by decide) (fun _ _ _ => -c) (fun _ _ _ => rfl) (fun _ => 1) (fun _ => one_pos) (travelling c) (travelling_solves c) time
  refine ⟨C, ?_⟩
  intro As Bs hAB N niter inputs hN hc hδ hπ hdt0 hdt1 hcfl htime pts hp a
  obtain ⟨prg, hP⟩ := wave_program_ls As Bs hp inputs 3 N niter
  have hS := wave_suits_ls As Bs inputs 3 N niter
  have hF := (fits hS hP).1
  have hcon : ∀ s ∈ ["dt", "c0", "Delta0block0", "M_PI"], (waveTextLs As Bs inputs).const prg s = inputs s := fun s hs =>
    C85_constants hF ⟨s, none⟩ (wave_start_ls As Bs inputs s hs) ⟨(waveTextLs As Bs inputs).const prg, fun _ => 0, 0⟩ rfl (by simp) ⟨fun _ _ => 0, fun _ => 0⟩
  have c1 := hcon "dt" (by simp)
  have c2 := (hcon "c0" (by simp)).trans hc
  have c3 := (hcon "Delta0block0" (by simp)).trans hδ
  have c4 := (hcon "M_PI" (by simp)).trans hπ
  have N0 : (0 : ℝ) < N := by exact_mod_cast (by omega : 0 < N)
  have cδ : (fun d => (waveTextLs As Bs inputs).const prg ((waveTextLs As Bs inputs).delta d)) = fun _ : Fin 1 => (1 / N : ℝ) := by
    funext d
    rw [Subsingleton.elim d 0]
    exact c3
  have key := hC (waveTextLs As Bs inputs) (wave N) waveArrays pts (waveInputLs 3 N niter) prg 0 (1 / N) As Bs hAB hS hP (wave_open_ls As Bs inputs) rfl (by simp [waveTextLs]) (by simp [waveTextLs]) rfl
    (by
      intro i f x
      rw [Subsingleton.elim i 0]
      simp only [Fin.sum_univ_one, wave, Ex.eval, Matrix.cons_val_zero]
      change ((-1 : ℚ) : ℝ) * ((waveTextLs As Bs inputs).const prg "c0" * _) = _
      rw [c2]
      push_cast
      rw [neg_one_mul, neg_mul]
      rfl)
    (by positivity)
    (by
      rw [cδ]
      refine ⟨fun d => ?_, fun d => ⟨by positivity, le_rfl⟩, ?_, fun d => ?_⟩
      · rw [Subsingleton.elim d 0]
        simp [wave, N0.ne']
      · rw [div_le_one N0]; exact_mod_cast (by omega : 1 ≤ N)
      · rw [Subsingleton.elim d 0]
        simp [wave, Setup.h]
        exact hN)
    (by rw [c1]; exact hdt0) (by rw [c1]; exact hdt1)
    (by
      rw [cδ, c1]
      refine ⟨fun _ => |c|, fun _ => abs_nonneg c, fun d i => by simp, ?_⟩
      have h3 : (0 : ℝ) < √3 := by positivity
      have hs : √3 * √3 = 3 := Real.mul_self_sqrt (by norm_num)
      rw [weights4, Fin.sum_univ_one]
      rw [le_div_iff₀ h3] at hcfl
      have : inputs "dt" * (|c| * (3 / 2) / (1 / N)) = |c| * inputs "dt" * N * (3 / 2) := by field_simp
      rw [this]
      nlinarith)
    (by rw [c1]; exact_mod_cast htime) a
    (by
      intro i x hx
      rw [Subsingleton.elim i 0]
      refine (wave_initial_ls As Bs hp inputs 3 N niter prg _ a x hx).trans ?_
      rw [c3, c4, cδ]
      simp only [travelling, pos]
      refine congrArg Real.sin ?_
      simp
      ring)
  obtain ⟨⟨a', r1, r2⟩, -⟩ := key
  have hh : (wave N).h = 2 := by simp [Setup.h, wave]
  rw [hh] at r1
  refine ⟨prg, a', hP.generated, r1, ?_⟩
  simp only [MeanSquare, Fin.sum_univ_one, cδ, c1] at r2
  have hcard : (((gridPoints (wave N).np).card : ℕ) : ℝ) = N := by
    simp [gridPoints, wave]
  rw [hcard] at r2
  refine le_trans (le_of_eq ?_) (r2.trans (le_of_eq ?_))
  · refine Finset.sum_congr rfl fun x _ => ?_
    simp [travelling, pos, wave, waveTextLs, waveInputLs]
  · simp

/-- Both schemes are meant, and differ. -/
example : LowStorage3 RK.lsA3 RK.lsB3 ∧ LowStorage3 RK.sspA RK.sspB ∧ (RK.lsB3 : List ℝ) ≠ RK.sspB := by
  refine ⟨.inl ⟨rfl, rfl⟩, .inr ⟨rfl, rfl⟩, fun h => ?_⟩
  have := List.head_eq_of_cons_eq h
  norm_num [RK.sspC] at this

end OpenSBLI.Sim
