import Verif.Props.C88_Convergence
import Verif.Props.C85_Examples
import Verif.Model.Initial
import Mathlib.Analysis.SpecialFunctions.Trigonometric.Deriv

/-!
# C88: the application `apps/wave`

The whole program, with its initial conditions: `phi_t = -c0 phi_x` with `phi = sin(2 pi x0)` at the beginning, on a periodic interval of length one with any number of points.
-/
namespace OpenSBLI.Sim
open OpenSBLI.Reg OpenSBLI.CCode OpenSBLI.Order
open scoped ContDiff

variable {D : ℕ}

/-! ## Kernels given by functions -/

/-- A kernel whose equations use values at the point only computes, at every point of its range, what its equations give there. -/
theorem runFn_at {I : Interp D} {pts : Ranges.Kernel D → List (P D)} (hp : Enumerates pts) (k : FnKer D) (hloc : ∀ q ∈ k.eqs, ∀ (m m' : Mem D) x, (∀ a, m a x = m' a x) → q.2 I m x = q.2 I m' x) (m : Mem D) (x : P D)
    (hx : k.range.visits x) (A : Arr) : runFn I pts k m A x = k.eqs.foldl (fun m q => m.set q.1 x (q.2 I m x)) m A x := by
  have out : ∀ (eqs : List (Arr × (Interp D → Mem D → P D → ℝ))) (m : Mem D) (y : P D), y ≠ x → ∀ A, eqs.foldl (fun m q => m.set q.1 y (q.2 I m y)) m A x = m A x := by
    intro eqs
    induction eqs with
    | nil => intro m y _ A; rfl
    | cons q eqs ih =>
      intro m y hy A
      rw [List.foldl_cons, ih _ y hy]
      simp [Mem.set, Ne.symm hy]
  have inn : ∀ (eqs : List (Arr × (Interp D → Mem D → P D → ℝ))), (∀ q ∈ eqs, ∀ (m m' : Mem D) x, (∀ a, m a x = m' a x) → q.2 I m x = q.2 I m' x) → ∀ m m' : Mem D, (∀ A, m A x = m' A x) → ∀ A,
      eqs.foldl (fun m q => m.set q.1 x (q.2 I m x)) m A x = eqs.foldl (fun m q => m.set q.1 x (q.2 I m x)) m' A x := by
    intro eqs
    induction eqs with
    | nil => intro _ m m' h A; exact h A
    | cons q eqs ih =>
      intro hq m m' h A
      refine ih (fun q' h' => hq q' (List.mem_cons_of_mem _ h')) _ _ (fun B => ?_) A
      simp only [Mem.set, hq q (by simp) m m' x h, h B]
  have skip : ∀ (l : List (P D)) (m : Mem D), x ∉ l → ∀ A, (l.foldl (fun m x => k.eqs.foldl (fun m q => m.set q.1 x (q.2 I m x)) m) m) A x = m A x := by
    intro l
    induction l with
    | nil => intro m _ A; rfl
    | cons y l ih =>
      intro m hy A
      rw [List.foldl_cons, ih _ (fun h => hy (List.mem_cons_of_mem _ h)), out _ _ _ fun e => hy (by rw [e]; simp)]
  have main : ∀ (l : List (P D)) (m m' : Mem D), l.Nodup → x ∈ l → (∀ A, m A x = m' A x) → ∀ A,
      (l.foldl (fun m x => k.eqs.foldl (fun m q => m.set q.1 x (q.2 I m x)) m) m) A x = k.eqs.foldl (fun m q => m.set q.1 x (q.2 I m x)) m' A x := by
    intro l
    induction l with
    | nil => intro m m' _ h; cases h
    | cons y l ih =>
      intro m m' hn hm h A
      rw [List.nodup_cons] at hn
      rw [List.foldl_cons]
      by_cases hy : y = x
      · subst hy
        rw [skip _ _ hn.1]
        exact inn _ hloc m m' h A
      · refine ih _ m' hn.2 ((List.mem_cons.1 hm).resolve_left fun e => hy e.symm) (fun B => ?_) A
        rw [out _ _ _ hy, h]
  exact main _ m m (hp _).1 (((hp _).2 x).2 hx) (fun _ => rfl) A

/-! ## The problem -/

def phi : Ex 1 := .arr (.data "phi")

/-- `apps/wave/wave.py` with `N` points. -/
def wave (N : ℤ) : Setup 1 1 where
  np := ![N]
  order := 4
  sol := ![ "phi" ]
  rhs := ![.mul (.num (-1)) (.mul (.const "c0") (.cd 0 1 phi))]
  rel := []
  w0 := 0
  known := ["phi", "x0"]
  groups := [(0, [.cd 0 1 phi])]
  vcds := []
  keys := ["phi"]

theorem wave_valid (N : ℤ) : (wave N).Valid where
  listed := {
    groupDirs := by simp [wave]
    groupDir := by simp [wave, Ex.dir]
    groupNonempty := by simp [wave]
    flatNodup := by simp [wave, Setup.flat]
    flatMem := fun c => by simp [wave, Setup.flat, Ex.convective, Ex.classified, Ex.hasRe, Ex.sum, Ex.zeroFn, Ex.cds, phi]
    vcdsNodup := by simp [wave]
    vcdsMem := fun c => by simp [wave, Ex.viscous, Ex.classified, Ex.hasRe, Ex.sum, Ex.zeroFn, Ex.cds, phi]
    keysNodup := by simp [wave]
    keysMem := fun s => by simp [wave, Setup.required, Setup.flat, Ex.convective, Ex.viscous, Ex.classified, Ex.hasRe, Ex.sum, Ex.zeroFn, Ex.datas, Ex.arrs, phi, eq_comm] }
  solInj := fun i j _ => Subsingleton.elim i j
  relSol := fun i => rfl
  relNodup := by simp [wave]
  relPlain := fun s e h => by simp [Setup.relation, wave] at h
  rhsPlain := fun i => by
    rw [Subsingleton.elim i 0]
    exact ⟨by simp [wave, Ex.plain, Ex.arrs, phi], rfl, rfl⟩
  rhsSteady := fun i => by rw [Subsingleton.elim i 0]; rfl
  groups := by simp [wave]
  convFlat := by simp [wave, Setup.flat, Ex.arg, Ex.cds, phi]
  visc := fun c hc => by simp [wave] at hc
  viscDer := .inr fun i t ht => by
    rw [Subsingleton.elim i 0] at ht
    simp [wave, Ex.classified, phi] at ht
    subst ht
    rfl
  known := fun s _ => rfl
  halos := fun s _ e h => by simp [Setup.relation, wave] at h

theorem wave_spatial (N : ℤ) : ∃ ks, (wave N).spatial = .ok ks := by
  have h : SortDict.sortDictionary ((((wave N).keys.filter fun s => ((wave N).relation s).isNone) ++ (wave N).known).dedup) ((wave N).keys.filterMap fun s => ((wave N).relation s).map fun e => (s, e.datas)) =
      .ok [] := by
    change SortDict.sortDictionary (["phi", "phi", "x0"].dedup) [] = .ok []
    decide +kernel
  unfold Setup.spatial Setup.relKernels Setup.relOrder
  rw [h]
  exact ⟨_, rfl⟩

/-- The initial conditions of the application: `x0 = Delta0block0*idx[0]` and `phi = sin(2.0*pi*x0)`. -/
def waveInitial : List (Arr × (Interp 1 → Mem 1 → P 1 → ℝ)) :=
  [(.data "x0", fun I _ x => I.const "Delta0block0" * x 0), (.data "phi", fun I m x => I.fn "sin" (2 * I.const "M_PI" * m (.data "x0") x))]

/-- `niter` steps; the arrays are written at the end. -/
noncomputable def waveInput (N niter : ℤ) : Alg.Input (Call 1) where
  temporalSchemes := 1
  items := [initialItem ![N] waveInitial, (wave N).item .rk (wave_spatial N).choose]
  stages := 3
  niter := niter
  monitorFrequency := none
  ios := [Alg.IO.new 0 true none 0]

/-- The constants of the program. `M_PI` is a macro of `math.h`, treated as a constant here. -/
def waveOps : List (Rc.Op (Sym 1)) :=
  [.add ⟨"block0np0", none⟩, .add ⟨"dt", none⟩, .add ⟨"c0", none⟩, .add ⟨"Delta0block0", none⟩, .add ⟨"M_PI", none⟩, .request .inv (.pow (.const "Delta0block0") (.num (-1)))]

theorem waveOps_registered : Registered waveOps := by
  refine ⟨fun c hc => ?_, fun p k hk => ?_, fun pre op post e k hk n hn => ?_⟩
  · simp only [waveOps, List.mem_cons, List.not_mem_nil, or_false, Rc.Op.add.injEq, reduceCtorEq] at hc
    rcases hc with rfl | rfl | rfl | rfl | rfl
    · exact not_generated_head (by decide)
    · exact not_generated_head (by decide)
    · exact not_generated_head (by decide)
    · exact not_generated_head (by decide)
    · exact not_generated_head (by decide)
  · simp only [waveOps, List.mem_cons, List.not_mem_nil, or_false, Rc.Op.request.injEq, reduceCtorEq, false_or] at hk
    rw [hk.2]
    exact ⟨trivial, trivial⟩
  · match pre, e with
    | [], e => cases e; cases hk
    | [_], e => cases e; cases hk
    | [_, _], e => cases e; cases hk
    | [_, _, _], e => cases e; cases hk
    | [_, _, _, _], e => cases e; cases hk
    | [_, _, _, _, _], e => cases e; subst hk; revert n; decide +kernel
    | _ :: _ :: _ :: _ :: _ :: _ :: l, e => simp [waveOps] at e

/-- A library with the sine. -/
noncomputable def sineLib : Lib ℝ where
  pow := realPow
  fn f x := if f = "sqrt" then realPow x ((1 / 2 : ℚ) : ℝ) else if f = "sin" then Real.sin x else x

theorem sineLib_conforms : sineLib.Conforms := ⟨realLib_conforms.one, realLib_conforms.neg, fun x => by simp [sineLib]⟩

/-- The equations of the initialisation kernel as they are printed. -/
def waveInitialText : List (Eqn 1) :=
  [.assign ⟨.data "x0_B0" 0, .mul (.const "Delta0block0") (.idx 0)⟩, .assign ⟨.data "phi_B0" 0, .fn "sin" (.mul (.mul (.flt 2) (.const "M_PI")) (.data "x0_B0" 0))⟩]

/-- The text of the program. -/
noncomputable def waveText (inputs : String → ℝ) : Text 1 where
  names
    | .data s => s ++ "_B0"
    | .work i => "wk" ++ toString i ++ "_B0"
    | .res i => "Residual" ++ toString i ++ "_B0"
    | .reg _ => "phi_RKold_B0"
  delta := ![ "Delta0block0" ]
  order := 4
  lib := sineLib
  ops := waveOps
  inputs := inputs
  table t := if t = "rknew" then [2/3, 5/12, 3/5] else [1/4, 3/20, 3/5]
  mods := fun _ => ⟨none, none⟩
  points := ![ "block0np0" ]
  carpenter := fun _ _ => 0
  fns := fun _ => some waveInitialText

/-- Its arrays. -/
def waveArrays : Arr → Prop
  | .data s => s ∈ ["phi", "x0"]
  | .reg i => i = 0
  | _ => True

theorem wave_names (inputs : String → ℝ) (a b : Arr) (ha : waveArrays a) (hb : waveArrays b) (h : (waveText inputs).names a = (waveText inputs).names b) : a = b := by
  have hw : ∀ i : ℕ, ("wk" ++ toString i ++ "_B0").toList.head? = some 'w' := fun i => toList_head (toList_head rfl)
  have hr : ∀ i : ℕ, ("Residual" ++ toString i ++ "_B0").toList.head? = some 'R' := fun i => toList_head (toList_head rfl)
  have hd : ∀ s ∈ ["phi", "x0"], (s ++ "_B0").toList.head? ≠ some 'w' ∧ (s ++ "_B0").toList.head? ≠ some 'R' ∧ s ++ "_B0" ≠ "phi_RKold_B0" := by decide
  have hne : ∀ {s s' : String} {c c' : Char}, s = s' → s.toList.head? = some c → s'.toList.head? = some c' → c = c' := by
    rintro s s' c c' rfl h1 h2
    rw [h1] at h2; exact Option.some.inj h2
  have hg : ("phi_RKold_B0" : String).toList.head? = some 'p' := rfl
  have hnum : ∀ {p : String} {i j : ℕ}, p ++ toString i ++ "_B0" = p ++ toString j ++ "_B0" → i = j := by
    intro p i j h
    rw [String.append_left_inj, String.append_right_inj] at h
    exact Mon.toString_injective h
  cases a with
  | data s =>
    cases b with
    | data s' =>
      have : s ++ "_B0" = s' ++ "_B0" := h
      rw [String.append_left_inj] at this
      rw [this]
    | work i => exact absurd ((congrArg (fun s : String => s.toList.head?) h).trans (hw i)) (hd s ha).1
    | res i => exact absurd ((congrArg (fun s : String => s.toList.head?) h).trans (hr i)) (hd s ha).2.1
    | reg i => exact absurd h (hd s ha).2.2
  | work i =>
    cases b with
    | data s => exact absurd ((congrArg (fun s : String => s.toList.head?) h).symm.trans (hw i)) (hd s hb).1
    | work j => rw [hnum h]
    | res j => exact absurd (hne h (hw i) (hr j)) (by decide)
    | reg j => exact absurd (hne h (hw i) hg) (by decide)
  | res i =>
    cases b with
    | data s => exact absurd ((congrArg (fun s : String => s.toList.head?) h).symm.trans (hr i)) (hd s hb).2.1
    | work j => exact absurd (hne h (hr i) (hw j)) (by decide)
    | res j => rw [hnum h]
    | reg j => exact absurd (hne h (hr i) hg) (by decide)
  | reg i =>
    cases b with
    | data s => exact absurd h.symm (hd s hb).2.2
    | work j => exact absurd (hne h hg (hw j)) (by decide)
    | res j => exact absurd (hne h hg (hr j)) (by decide)
    | reg j =>
      simp only [waveArrays] at ha hb
      rw [ha, hb]

theorem wave_open (inputs : String → ℝ) (d : Fin 1) : ¬ (waveText inputs).hasClosure d := by simp [Text.hasClosure, waveText]

theorem wave_start (inputs : String → ℝ) (c : String) (hc : c ∈ ["dt", "c0", "Delta0block0", "M_PI"]) : ⟨c, none⟩ ∈ (waveText inputs).start.constants := by
  change (⟨c, none⟩ : Const (Sym 1)) ∈ (Rc.empty.performs waveOps).constants
  have h : (Rc.empty.performs waveOps).constants = (Rc.empty.performs waveOps).constants.take 5 ++ (Rc.empty.performs waveOps).constants.drop 5 := (List.take_append_drop 5 _).symm
  have h2 : (Rc.empty.performs waveOps).constants.take 5 = [⟨"block0np0", none⟩, ⟨"dt", none⟩, ⟨"c0", none⟩, ⟨"Delta0block0", none⟩, ⟨"M_PI", none⟩] := by with_unfolding_all rfl
  rw [h, h2]
  simp only [List.mem_cons, List.not_mem_nil, or_false] at hc
  rcases hc with rfl | rfl | rfl | rfl <;> simp

/-- An assignment of the text, and of the kernel. -/
theorem says_set {T : Text D} {U : Arr → Prop} (hinj : ∀ a b, U a → U b → T.names a = T.names b → a = b) {x : P D} {m : Mem D} {st : CCode.Mem D ℝ}
    (h : ∀ A, U A → ∀ off, st.data (T.names A) off = m A (x + off)) {A₀ : Arr} (h₀ : U A₀) {v w : ℝ} (hv : v = w) :
    ∀ A, U A → ∀ off, (st.set (.data (T.names A₀) 0) v).data (T.names A) off = m.set A₀ x w A (x + off) := by
  intro A hA off
  subst hv
  simp only [CCode.Mem.set, Mem.set]
  by_cases e : A = A₀
  · subst e
    by_cases e0 : off = 0
    · subst e0; simp
    · simp [e0, h A hA]
  · rw [Function.update_of_ne fun e' => e (hinj _ _ hA h₀ e'), if_neg fun h => e h.1, h A hA]

theorem wave_says (inputs : String → ℝ) (N : ℤ) : (waveText inputs).Says waveArrays (initialKernel ![N] waveInitial) waveInitialText := by
  intro const stage x m st h
  have h0 : waveArrays (.data "x0") := by simp [waveArrays]
  have h1 : waveArrays (.data "phi") := by simp [waveArrays]
  have s1 := says_set (wave_names inputs) h h0 (v := (Sym.mul (.const "Delta0block0") (.idx 0) : Sym 1).val sineLib ⟨const, fun t => ((waveText inputs).table t).getD stage.toNat 0, x⟩ st) (w := const "Delta0block0" * x 0) rfl
  refine says_set (wave_names inputs) s1 h1 ?_
  have := s1 _ h0 0
  rw [add_zero] at this
  simp only [Sym.val]
  refine congrArg ((waveText inputs).lib.fn "sin") ?_
  refine congrArg₂ (· * ·) ?_ this
  simp [Text.meaning]

theorem wave_suits (inputs : String → ℝ) (N niter : ℤ) : (waveText inputs).Suits (wave N) .rk (waveInput N niter) waveArrays where
  lib := sineLib_conforms
  powers := realLib_powers
  registered := waveOps_registered
  injective := wave_names inputs
  order := rfl
  works i := trivial
  arrays i := by rw [Subsingleton.elim i 0]; simp [waveArrays, wave]
  rhs i := by
    rw [Subsingleton.elim i 0]
    have hc : "c0" ∈ (Rc.empty.performs waveOps).names := by decide +kernel
    refine ⟨fun a ha => ?_, trivial, ⟨hc, ⟨trivial, rfl, ⟨.inv, by simp [waveText, waveOps, Text.inverse]⟩, fun h => absurd h (wave_open inputs 0)⟩, by simp [Ex.isInt]⟩, by simp [Ex.recipInt]⟩
    have : a ∈ [Arr.data "phi"] := ha
    rw [List.mem_singleton.1 this]
    simp [waveArrays]
  rel s e h := by simp [wave] at h
  step := by
    change "dt" ∈ (Rc.empty.performs waveOps).names
    decide +kernel
  tables c hc := by
    refine ⟨?_, ?_⟩
    · simp only [coefficients, List.mem_cons, List.not_mem_nil, or_false] at hc
      rcases hc with rfl | rfl <;> exact not_generated (by decide)
    · change c ∉ (Rc.empty.performs waveOps).names
      revert c; decide +kernel
  others o places ks h := by
    simp only [waveInput, initialItem, Setup.item, List.mem_cons, List.not_mem_nil, or_false, reduceCtorEq, Alg.Item.nonSimulation.injEq] at h
    obtain ⟨rfl, rfl, rfl⟩ := h
    refine ⟨fun k hk => by simp at hk, fun k hk => .inr ⟨waveInitialText, rfl, ?_, ?_⟩⟩
    · have h1 : "Delta0block0" ∈ (Rc.empty.performs waveOps).names := by decide +kernel
      have h2 : "M_PI" ∈ (Rc.empty.performs waveOps).names := by decide +kernel
      refine ⟨?_, ?_, ?_, ?_, ?_⟩
      · intro e he c hc
        simp only [exprs, waveInitialText, List.flatMap_cons, List.flatMap_nil, Eqn.exprs, List.cons_append, List.nil_append, List.mem_cons, List.not_mem_nil, or_false] at he
        rcases he with rfl | rfl
        · simp [Sym.consts] at hc
          rw [hc]; exact h1
        · simp [Sym.consts] at hc
          rw [hc]; exact h2
      · intro v hv
        exact absurd hv (by simp [declaredVars, waveInitialText, unions, Eqn.gvars, Assign.gvars, Lhs.gvars, Sym.gvars])
      · intro e he o st
        simp only [exprs, waveInitialText, List.flatMap_cons, List.flatMap_nil, Eqn.exprs, List.cons_append, List.nil_append, List.mem_cons, List.not_mem_nil, or_false] at he
        rcases he with rfl | rfl
        · simp [Sym.Faithful, Sym.isInt]
        · simp [Sym.Faithful, Sym.isInt]
      · intro bs hb
        simp [waveInitialText] at hb
      · intro e he k hk
        simp only [exprs, waveInitialText, List.flatMap_cons, List.flatMap_nil, Eqn.exprs, List.cons_append, List.nil_append, List.mem_cons, List.not_mem_nil, or_false] at he
        rcases he with rfl | rfl <;> simp [Sym.inverses] at hk
    · simp only [List.mem_singleton, Call.fn.injEq] at hk
      rw [hk]
      exact wave_says inputs N

theorem wave_program {pts : Ranges.Kernel 1 → List (P 1)} (hp : Enumerates pts) (inputs : String → ℝ) (N niter : ℤ) :
    ∃ prg, Program (wave N) .rk ((waveText inputs).meaning ((waveText inputs).const prg) 0) pts (waveInput N niter) prg := by
  have hg : ∃ prg, Alg.generate (waveInput N niter) = .ok prg := by
    simp [Alg.generate, waveInput, initialItem, Setup.item, Alg.Acc.add, Alg.sortByOrder, bind, Except.bind, pure, Except.pure, Alg.Placed.addKernels]
  obtain ⟨prg, hg⟩ := hg
  refine ⟨prg, wave_valid N, hp, central_local (central_meaning rfl (wave_open inputs) _ _), ⟨[initialItem ![N] waveInitial], [], _, (wave_spatial N).choose_spec, rfl, by simp [initialItem, Alg.Item.isSimulation], by simp⟩, ?_, hg⟩
  intro o places k h p hp
  simp only [waveInput, initialItem, Setup.item, List.mem_cons, List.not_mem_nil, or_false, reduceCtorEq, Alg.Item.nonSimulation.injEq] at h
  obtain ⟨-, rfl, -⟩ := h
  simpa using hp

/-- The initial values, whatever the arrays contain before. -/
theorem wave_initial {pts : Ranges.Kernel 1 → List (P 1)} (hp : Enumerates pts) (inputs : String → ℝ) (N niter : ℤ) (prg : List (Alg.Node (Call 1))) (B : Sol 1 1 → Sol 1 1) (a : Arrays 1) (x : P 1) (hx : Grid ![N] x) :
    (waveText inputs).startState (wave N) prg pts B (waveInput N niter) a (.data "phi") x =
      Real.sin (2 * (waveText inputs).const prg "M_PI" * ((waveText inputs).const prg "Delta0block0" * x 0)) := by
  have h : ∀ m, atStart ((waveText inputs).meaning ((waveText inputs).const prg) 0) pts (wave N).sol B (waveInput N niter) m =
      runFn ((waveText inputs).meaning ((waveText inputs).const prg) 0) pts (initialKernel ![N] waveInitial) m := by
    intro m
    simp [atStart, waveInput, initialItem, Setup.item, Alg.others, Alg.sortByOrder, Alg.placedAt, Alg.calls, Alg.effect, exec]
  rw [Text.startState, h, runFn_at hp]
  · simp [initialKernel, waveInitial, Mem.set, Text.meaning, waveText, sineLib]
  · intro q hq m m' y hm
    simp only [initialKernel, waveInitial, List.mem_cons, List.not_mem_nil, or_false] at hq
    rcases hq with rfl | rfl
    · rfl
    · simp [hm]
  · rw [initialKernel, rangeOf_visits]
    intro d
    have := hx d
    rw [if_pos (List.mem_finRange d)]
    omega

/-! ## The solution of the differential equation -/

/-- A wave travelling with speed `c`. -/
noncomputable def travelling (c : ℝ) (_ : Fin 1) (t : ℝ) (x : E 1) : ℝ := Real.sin (2 * Real.pi * (x 0 - c * t))

theorem travelling_solves (c : ℝ) : Solves (fun _ _ _ => -c) (fun _ => 1) (travelling c) where
  smooth i := by
    unfold travelling
    refine Real.contDiff_sin.comp ?_
    fun_prop
  periodic i t k x := by
    have : 2 * Real.pi * ((x + fun d => (k d : ℝ) * 1) 0 - c * t) = 2 * Real.pi * (x 0 - c * t) + k 0 * (2 * Real.pi) := by
      simp only [Pi.add_apply]; ring
    rw [travelling, this, Real.sin_add_int_mul_two_pi]
    rfl
  equation i t x := by
    have h1 : HasDerivAt (fun s => travelling c i s x) (Real.cos (2 * Real.pi * (x 0 - c * t)) * (2 * Real.pi * -c)) t := by
      refine HasDerivAt.sin ?_
      have := ((hasDerivAt_id t).const_mul c).const_sub (x 0) |>.const_mul (2 * Real.pi)
      simpa using this
    have h2 : pd 0 (travelling c 0 t) x = Real.cos (2 * Real.pi * (x 0 - c * t)) * (2 * Real.pi) := by
      have : HasLineDerivAt ℝ (travelling c 0 t) (Real.cos (2 * Real.pi * (x 0 - c * t)) * (2 * Real.pi)) x (Pi.single 0 1) := by
        unfold HasLineDerivAt
        have h3 : HasDerivAt (fun s : ℝ => 2 * Real.pi * ((x + s • (Pi.single 0 1 : E 1)) 0 - c * t)) (2 * Real.pi) 0 := by
          have := (((hasDerivAt_id (0 : ℝ)).const_add (x 0)).sub_const (c * t)).const_mul (2 * Real.pi)
          simpa using this
        have := h3.sin
        simpa [travelling] using this
      exact this.lineDeriv
    rw [h1.deriv]
    simp [h2]
    ring

/-! ## What the program computes -/

theorem weights4 : ∑ p ∈ Central.points 4, |Central.weight ℝ 4 1 p| = 3 / 2 := by
  have : Central.points 4 = {-2, -1, 0, 1, 2} := by decide
  obtain ⟨w1, w2, w3, w4, w5⟩ := Central.C18_fourth_order_weights (K := ℝ)
  rw [this]
  simp [w1, w2, w3, w4, w5]
  norm_num

/-- C88: the printed program of `apps/wave` converges to the travelling wave, with one constant for all grids and time steps within the limit of stability, whatever the arrays contain before it starts. Nothing is assumed about the program: the initial conditions
are set by its initialisation kernel. -/
theorem C88_wave (c time : ℝ) : ∃ C : ℝ, ∀ (N niter : ℕ) (inputs : String → ℝ), 2 ≤ N → inputs "c0" = c → inputs "Delta0block0" = 1 / N → inputs "M_PI" = Real.pi →
    0 ≤ inputs "dt" → inputs "dt" ≤ 1 → |c| * inputs "dt" * N ≤ 2 / √3 → niter * inputs "dt" ≤ time → ∀ (pts : Ranges.Kernel 1 → List (P 1)), Enumerates pts → ∀ a : Arrays 1,
      ∃ prg a', Alg.generate (waveInput N niter) = .ok prg ∧ (waveText inputs).run prg pts ![ "phi" ] (exchange ![(N : ℤ)] 2) (Alg.runProgram prg) a = some a' ∧
        ∑ x ∈ gridPoints ![(N : ℤ)], (a' "phi_B0" x - Real.sin (2 * Real.pi * (x 0 * (1 / N) - c * (niter * inputs "dt")))) ^ 2 ≤ N * (C * (inputs "dt" ^ 3 + (1 / N) ^ 4)) ^ 2 := by
  obtain ⟨C, hC⟩ := C88_text_convergence_partial (m := 2) (by decide) (fun _ _ _ => -c) (fun _ _ _ => rfl) (fun _ => 1) (fun _ => one_pos) (travelling c) (travelling_solves c) time
  refine ⟨C, ?_⟩
  intro N niter inputs hN hc hδ hπ hdt0 hdt1 hcfl htime pts hp a
  obtain ⟨prg, hP⟩ := wave_program hp inputs N niter
  have hS := wave_suits inputs N niter
  have hF := (fits hS hP).1
  have hcon : ∀ s ∈ ["dt", "c0", "Delta0block0", "M_PI"], (waveText inputs).const prg s = inputs s := fun s hs =>
    C85_constants hF ⟨s, none⟩ (wave_start inputs s hs) ⟨(waveText inputs).const prg, fun _ => 0, 0⟩ rfl (by simp) ⟨fun _ _ => 0, fun _ => 0⟩
  have c1 := hcon "dt" (by simp)
  have c2 := (hcon "c0" (by simp)).trans hc
  have c3 := (hcon "Delta0block0" (by simp)).trans hδ
  have c4 := (hcon "M_PI" (by simp)).trans hπ
  have N0 : (0 : ℝ) < N := by exact_mod_cast (by omega : 0 < N)
  have cδ : (fun d => (waveText inputs).const prg ((waveText inputs).delta d)) = fun _ : Fin 1 => (1 / N : ℝ) := by
    funext d
    rw [Subsingleton.elim d 0]
    exact c3
  have key := hC (waveText inputs) (wave N) waveArrays pts (waveInput N niter) prg 0 (1 / N) hS hP (wave_open inputs) rfl (by simp [waveText]) (by simp [waveText]) rfl
    (by
      intro i f x
      rw [Subsingleton.elim i 0]
      simp only [Fin.sum_univ_one, wave, Ex.eval, Matrix.cons_val_zero]
      change ((-1 : ℚ) : ℝ) * ((waveText inputs).const prg "c0" * _) = _
      rw [c2]
      push_cast
      rw [neg_one_mul, neg_mul]
      rfl)
    (by positivity)
    (by
      rw [cδ]
      refine ⟨fun d => ?_, fun d => ⟨by positivity, le_rfl⟩, ?_, fun d => ?_⟩
      · rw [Subsingleton.elim d 0]
        simp [wave, N0.ne']
      · rw [div_le_one N0]; exact_mod_cast (by omega : 1 ≤ N)
      · rw [Subsingleton.elim d 0]
        simp [wave, Setup.h]
        exact hN)
    (by rw [c1]; exact hdt0) (by rw [c1]; exact hdt1)
    (by
      rw [cδ, c1]
      refine ⟨fun _ => |c|, fun _ => abs_nonneg c, fun d i => by simp, ?_⟩
      have h3 : (0 : ℝ) < √3 := by positivity
      have hs : √3 * √3 = 3 := Real.mul_self_sqrt (by norm_num)
      rw [weights4, Fin.sum_univ_one]
      rw [le_div_iff₀ h3] at hcfl
      have : inputs "dt" * (|c| * (3 / 2) / (1 / N)) = |c| * inputs "dt" * N * (3 / 2) := by field_simp
      rw [this]
      nlinarith)
    (by rw [c1]; exact_mod_cast htime) a
    (by
      intro i x hx
      rw [Subsingleton.elim i 0]
      refine (wave_initial hp inputs N niter prg _ a x hx).trans ?_
      rw [c3, c4, cδ]
      simp only [travelling, pos]
      refine congrArg Real.sin ?_
      simp
      ring)
  obtain ⟨⟨a', r1, r2⟩, -⟩ := key
  have hh : (wave N).h = 2 := by simp [Setup.h, wave]
  rw [hh] at r1
  refine ⟨prg, a', hP.generated, r1, ?_⟩
  simp only [MeanSquare, Fin.sum_univ_one, cδ, c1] at r2
  have hcard : (((gridPoints (wave N).np).card : ℕ) : ℝ) = N := by
    simp [gridPoints, wave]
  rw [hcard] at r2
  refine le_trans (le_of_eq ?_) (r2.trans (le_of_eq ?_))
  · refine Finset.sum_congr rfl fun x _ => ?_
    simp [travelling, pos, wave, waveText, waveInput]
  · simp

/-- With `c0 = 1` and `N` steps of `1/N` the wave comes back to where it started. The root mean square of what is left of the difference is at most `C/N³`. -/
theorem C88_wave_returns : ∃ C : ℝ, ∀ (N : ℕ) (inputs : String → ℝ), 2 ≤ N → inputs "c0" = 1 → inputs "Delta0block0" = 1 / N → inputs "M_PI" = Real.pi → inputs "dt" = 1 / N →
    ∀ (pts : Ranges.Kernel 1 → List (P 1)), Enumerates pts → ∀ a : Arrays 1,
      ∃ prg a', Alg.generate (waveInput N N) = .ok prg ∧ (waveText inputs).run prg pts ![ "phi" ] (exchange ![(N : ℤ)] 2) (Alg.runProgram prg) a = some a' ∧
        (1 / N) * ∑ x ∈ gridPoints ![(N : ℤ)], (a' "phi_B0" x - Real.sin (2 * Real.pi * (x 0 / N))) ^ 2 ≤ (C * (1 / N) ^ 3) ^ 2 := by
  obtain ⟨C, hC⟩ := C88_wave 1 1
  refine ⟨2 * |C|, ?_⟩
  intro N inputs hN h1 h2 h3 h4 pts hp a
  have N0 : (0 : ℝ) < N := by exact_mod_cast (by omega : 0 < N)
  have N1 : (1 : ℝ) / N ≤ 1 := by rw [div_le_one N0]; exact_mod_cast (by omega : 1 ≤ N)
  have h3' : (0 : ℝ) < √3 := by positivity
  have hs : √3 * √3 = 3 := Real.mul_self_sqrt (by norm_num)
  obtain ⟨prg, a', r1, r2, r3⟩ := hC N N inputs hN h1 h2 h3 (by rw [h4]; positivity) (by rw [h4]; exact N1)
    (by rw [h4, abs_one, one_mul, one_div_mul_cancel N0.ne', le_div_iff₀ h3']; nlinarith) (by rw [h4, mul_one_div_cancel N0.ne']) pts hp a
  refine ⟨prg, a', r1, r2, ?_⟩
  have e : ∀ x : P 1, Real.sin (2 * Real.pi * (x 0 / N)) = Real.sin (2 * Real.pi * (x 0 * (1 / N) - 1 * (N * inputs "dt"))) := by
    intro x
    rw [h4, mul_one_div_cancel N0.ne', ← Real.sin_sub_two_pi]
    congr 1
    ring
  simp only [e]
  rw [one_div_mul_eq_div, div_le_iff₀ N0, mul_comm _ (N : ℝ)]
  refine r3.trans (mul_le_mul_of_nonneg_left ?_ N0.le)
  rw [h4, ← sq_abs (C * _), abs_mul]
  refine pow_le_pow_left₀ (by positivity) ?_ 2
  have p1 : (0 : ℝ) < 1 / N := by positivity
  rw [abs_of_pos (add_pos (pow_pos p1 3) (pow_pos p1 4)), mul_comm 2, mul_assoc]
  refine mul_le_mul_of_nonneg_left ?_ (abs_nonneg C)
  have : (1 / N : ℝ) ^ 4 ≤ (1 / N) ^ 3 := pow_le_pow_of_le_one p1.le N1 (by norm_num)
  linarith

/-- The values of `apps/wave/wave.py` meet the hypotheses of the theorem: 200 points, `c0 = 0.5`, 1000 steps of `0.001`. -/
example : 2 ≤ 200 ∧ (0 : ℝ) ≤ 1 / 1000 ∧ (1 / 1000 : ℝ) ≤ 1 ∧ |(1 / 2 : ℝ)| * (1 / 1000) * 200 ≤ 2 / √3 ∧ 1000 * (1 / 1000 : ℝ) ≤ 1 := by
  have h3' : (0 : ℝ) < √3 := by positivity
  have hs : √3 * √3 = 3 := Real.mul_self_sqrt (by norm_num)
  refine ⟨by norm_num, by norm_num, by norm_num, ?_, by norm_num⟩
  rw [abs_of_pos (by norm_num), le_div_iff₀ h3']
  nlinarith

end OpenSBLI.Sim
