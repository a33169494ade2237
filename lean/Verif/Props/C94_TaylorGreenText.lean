import Verif.Props.C94_TaylorGreen
import Verif.Props.C86_Examples

/-!
# C94: the program of the Taylor-Green vortex

The complete application: initial conditions, three stage Runge-Kutta scheme, fourth order central differences, periodic boundaries, and the text that is printed.
-/
namespace OpenSBLI.Tgv
open OpenSBLI OpenSBLI.Sim OpenSBLI.Note OpenSBLI.Reg OpenSBLI.CCode

/-! ## The initial conditions -/

def spacing : Fin 3 → String := ![ "Delta0block0", "Delta1block0", "Delta2block0" ]

/-- The names of the constants in the initial conditions, as printed. -/
abbrev Y := Sym 3

def gv (s : String) : Y := .gvar s
def sin' (e : Y) : Y := .fn "sin" e
def cos' (e : Y) : Y := .fn "cos" e

/-- Lines 87-101 of the file. Grid variables are local variables of the kernel. -/
def initialText : List (Eqn 3) :=
  let γ : Y := .const "gama"
  let M : Y := .const "Minf"
  [.assign ⟨.gvar "x0", .mul (.const "Delta0block0") (.idx 0)⟩, .assign ⟨.gvar "x1", .mul (.const "Delta1block0") (.idx 1)⟩, .assign ⟨.gvar "x2", .mul (.const "Delta2block0") (.idx 2)⟩,
   .assign ⟨.gvar "u0", .mul (.mul (sin' (gv "x0")) (cos' (gv "x1"))) (cos' (gv "x2"))⟩,
   .assign ⟨.gvar "u1", .mul (.num (-1)) (.mul (.mul (cos' (gv "x0")) (sin' (gv "x1"))) (cos' (gv "x2")))⟩,
   .assign ⟨.gvar "u2", .flt 0⟩,
   .assign ⟨.gvar "p", .add (.mul (.flt 1) (.pow (.mul (.mul γ M) M) (.num (-1))))
     (.mul (.mul (.flt (1/16)) (.add (cos' (.mul (.flt 2) (gv "x0"))) (cos' (.mul (.flt 2) (gv "x1"))))) (.add (.flt 2) (cos' (.mul (.flt 2) (gv "x2")))))⟩,
   .assign ⟨.gvar "r", .mul (.mul (.mul γ M) M) (gv "p")⟩,
   .assign ⟨.data "rho_B0" 0, gv "r"⟩, .assign ⟨.data "rhou0_B0" 0, .mul (gv "r") (gv "u0")⟩, .assign ⟨.data "rhou1_B0" 0, .mul (gv "r") (gv "u1")⟩, .assign ⟨.data "rhou2_B0" 0, .mul (gv "r") (gv "u2")⟩,
   .assign ⟨.data "rhoE_B0" 0, .add (.mul (gv "p") (.pow (.add γ (.num (-1))) (.num (-1))))
     (.mul (.mul (.flt (1/2)) (gv "r")) (.add (.add (.pow (gv "u0") (.num 2)) (.pow (gv "u1") (.num 2))) (.pow (gv "u2") (.num 2))))⟩]

section
variable (I : Interp 3) (x : P 3)
noncomputable def at0 (d : Fin 3) : ℝ := I.const (spacing d) * x d
noncomputable def u0Start : ℝ := I.fn "sin" (at0 I x 0) * I.fn "cos" (at0 I x 1) * I.fn "cos" (at0 I x 2)
noncomputable def u1Start : ℝ := -(I.fn "cos" (at0 I x 0) * I.fn "sin" (at0 I x 1) * I.fn "cos" (at0 I x 2))
noncomputable def pStart : ℝ :=
  I.pow (I.const "gama" * I.const "Minf" * I.const "Minf") (-1) + 1 / 16 * (I.fn "cos" (2 * at0 I x 0) + I.fn "cos" (2 * at0 I x 1)) * (2 + I.fn "cos" (2 * at0 I x 2))
noncomputable def rStart : ℝ := I.const "gama" * I.const "Minf" * I.const "Minf" * pStart I x
end

/-- What the kernel of the initial conditions computes. The local variables are expanded. -/
noncomputable def initialValues : List (Arr × (Interp 3 → Mem 3 → P 3 → ℝ)) :=
  [(.data "rho", fun I _ x => rStart I x), (.data "rhou0", fun I _ x => rStart I x * u0Start I x), (.data "rhou1", fun I _ x => rStart I x * u1Start I x), (.data "rhou2", fun _ _ _ => 0),
   (.data "rhoE", fun I _ x => pStart I x * I.pow (I.const "gama" - 1) (-1) + 1 / 2 * rStart I x * (I.pow (u0Start I x) 2 + I.pow (u1Start I x) 2 + I.pow 0 2))]

/-- The whole program: `niter` steps, files every 10000 steps and at the end (line 129). -/
noncomputable def tgvInput (N : Fin 3 → ℤ) (niter : ℤ) : Alg.Input (Call 3) where
  temporalSchemes := 1
  items := [initialItem N initialValues, (tgv N).item .rk (tgv_spatial N).choose]
  stages := 3
  niter := niter
  monitorFrequency := none
  ios := [Alg.IO.new 0 true none 10000]

/-! ## The text -/

/-- The constants of the program. -/
def tgvOps : List (Rc.Op (Sym 3)) :=
  [.add ⟨"block0np0", none⟩, .add ⟨"block0np1", none⟩, .add ⟨"block0np2", none⟩, .add ⟨"dt", none⟩, .add ⟨"Re", none⟩, .add ⟨"Pr", none⟩, .add ⟨"gama", none⟩, .add ⟨"Minf", none⟩,
   .add ⟨"Delta0block0", none⟩, .add ⟨"Delta1block0", none⟩, .add ⟨"Delta2block0", none⟩,
   .request .inv (.pow (.const "Delta0block0") (.num (-1))), .request .inv (.pow (.const "Delta1block0") (.num (-1))), .request .inv (.pow (.const "Delta2block0") (.num (-1))),
   .request .inv (.pow (.const "Delta0block0") (.num (-2))), .request .inv (.pow (.const "Delta1block0") (.num (-2))), .request .inv (.pow (.const "Delta2block0") (.num (-2)))]

theorem tgvOps_names : (Rc.empty.performs tgvOps).names =
    ["block0np0", "block0np1", "block0np2", "dt", "Re", "Pr", "gama", "Minf", "Delta0block0", "Delta1block0", "Delta2block0", "inv_0", "inv_1", "inv_2", "inv_3", "inv_4", "inv_5"] := by decide +kernel

/-- A library with sine and cosine. -/
noncomputable def circularLib : Lib ℝ where
  pow := realPow
  fn f x := if f = "sqrt" then realPow x ((1 / 2 : ℚ) : ℝ) else if f = "sin" then Real.sin x else if f = "cos" then Real.cos x else x

theorem circularLib_conforms : circularLib.Conforms := ⟨realLib_conforms.one, realLib_conforms.neg, fun x => by simp [circularLib]⟩

noncomputable def tgvText (inputs : String → ℝ) : Text 3 where
  names := Recon.nameOf fun i => if h : i < 5 then sol ⟨i, h⟩ else ""
  delta := spacing
  order := 4
  lib := circularLib
  ops := tgvOps
  inputs := inputs
  table t := if t = "rknew" then [2/3, 5/12, 3/5] else [1/4, 3/20, 3/5]
  mods := fun _ => ⟨none, none⟩
  points := ![ "block0np0", "block0np1", "block0np2" ]
  carpenter := fun _ _ => 0
  fns := fun _ => some initialText

def datasets : List String := ["rho", "rhou0", "rhou1", "rhou2", "rhoE", "u0", "u1", "u2", "p", "T"]

def tgvArrays : Arr → Prop := Recon.arraysOf datasets 5

theorem tgv_names (inputs : String → ℝ) (a b : Arr) : tgvArrays a → tgvArrays b → (tgvText inputs).names a = (tgvText inputs).names b → a = b :=
  Recon.nameOf_injective _ _ _ (by decide) (fun i => by
    by_cases h : i < 5
    · simp only [h, dif_pos]
      have : ∀ j : Fin 5, (sol j ++ "_RKold_B0").toList.head? ≠ some 'w' ∧ (sol j ++ "_RKold_B0").toList.head? ≠ some 'R' := by decide
      exact this ⟨i, h⟩
    · simp only [h, dif_neg, not_false_eq_true]
      decide) (by decide) (by decide) a b

theorem tgv_open (inputs : String → ℝ) (d : Fin 3) : ¬ (tgvText inputs).hasClosure d := by simp [Text.hasClosure, tgvText]

theorem tgv_startNames (inputs : String → ℝ) : (tgvText inputs).start.names =
    ["block0np0", "block0np1", "block0np2", "dt", "Re", "Pr", "gama", "Minf", "Delta0block0", "Delta1block0", "Delta2block0", "inv_0", "inv_1", "inv_2", "inv_3", "inv_4", "inv_5"] := tgvOps_names

/-- The constants used by an operation on the registry. -/
def needs : Rc.Op (Sym 3) → Finset String
  | .add c => (c.value.map Sym.consts).getD ∅
  | .request _ k => k.consts

theorem tgvOps_order : ∀ i : Fin 17, ∀ n ∈ (tgvOps[(i : ℕ)]?.map needs).getD ∅, n ∈ (Rc.empty.performs (tgvOps.take i)).names := by decide +kernel

theorem tgvOps_registered : Registered tgvOps := by
  refine ⟨fun c hc => ?_, fun p k hk => ?_, fun pre op post e k hk n hn => ?_⟩
  · simp only [tgvOps, List.mem_cons, List.not_mem_nil, or_false, Rc.Op.add.injEq, reduceCtorEq] at hc
    rcases hc with rfl | rfl | rfl | rfl | rfl | rfl | rfl | rfl | rfl | rfl | rfl <;> exact not_generated_head (by decide)
  · simp only [tgvOps, List.mem_cons, List.not_mem_nil, or_false, Rc.Op.request.injEq, reduceCtorEq, false_or] at hk
    rcases hk with ⟨_, rfl⟩ | ⟨_, rfl⟩ | ⟨_, rfl⟩ | ⟨_, rfl⟩ | ⟨_, rfl⟩ | ⟨_, rfl⟩ <;> exact ⟨trivial, trivial⟩
  · have hlen : pre.length < 17 := by
      have : tgvOps.length = 17 := rfl
      rw [e, List.length_append, List.length_cons] at this
      omega
    have := tgvOps_order ⟨pre.length, hlen⟩
    simp only [e, List.take_left', List.getElem?_append_right le_rfl, Nat.sub_self, List.getElem?_cons_zero, Option.map_some, Option.getD_some] at this
    refine this n ?_
    cases op with
    | add c => simp only at hk; simp only [needs, hk, Option.map_some, Option.getD_some]; exact hn
    | request p k' => simp only at hk; subst hk; exact hn

theorem tgv_constants (inputs : String → ℝ) : ∀ c ∈ ["dt", "Re", "Pr", "gama", "Minf", "Delta0block0", "Delta1block0", "Delta2block0"], ⟨c, none⟩ ∈ (tgvText inputs).start.constants := by
  change ∀ c ∈ ["dt", "Re", "Pr", "gama", "Minf", "Delta0block0", "Delta1block0", "Delta2block0"], (⟨c, none⟩ : Const (Sym 3)) ∈ (Rc.empty.performs tgvOps).constants
  have h : (Rc.empty.performs tgvOps).constants = (Rc.empty.performs tgvOps).constants.take 11 ++ (Rc.empty.performs tgvOps).constants.drop 11 := (List.take_append_drop 11 _).symm
  have h2 : (Rc.empty.performs tgvOps).constants.take 11 = [⟨"block0np0", none⟩, ⟨"block0np1", none⟩, ⟨"block0np2", none⟩, ⟨"dt", none⟩, ⟨"Re", none⟩, ⟨"Pr", none⟩, ⟨"gama", none⟩, ⟨"Minf", none⟩,
      ⟨"Delta0block0", none⟩, ⟨"Delta1block0", none⟩, ⟨"Delta2block0", none⟩] := by with_unfolding_all rfl
  intro c hc
  rw [h, h2]
  refine List.mem_append_left _ ?_
  simp only [List.mem_cons, List.not_mem_nil, or_false] at hc
  rcases hc with rfl | rfl | rfl | rfl | rfl | rfl | rfl | rfl <;> simp

/-- The text of the initial conditions computes the initial values. -/
theorem tgv_says (inputs : String → ℝ) (N : Fin 3 → ℤ) : (tgvText inputs).Says tgvArrays (initialKernel N initialValues) initialText := by
  intro const stage x m st h
  have hU : ∀ s ∈ datasets, tgvArrays (.data s) := fun s hs => hs
  let I := (tgvText inputs).meaning const 0
  let o : Outer 3 ℝ := ⟨const, fun t => ((tgvText inputs).table t).getD stage.toNat 0, x⟩
  let s0 := effect (tgvText inputs).lib o (initialText.take 8) st
  have hd : s0.data = st.data := rfl
  have hr : s0.loc "r" = rStart I x := by
    simp [s0, initialText, effect, CCode.Mem.set, Sym.val, gv, sin', cos', rStart, pStart, at0, I, o, Text.meaning, spacing]
  have hp : s0.loc "p" = pStart I x := by
    simp [s0, initialText, effect, CCode.Mem.set, Sym.val, gv, sin', cos', pStart, at0, I, o, Text.meaning, spacing]
  have h0 : s0.loc "u0" = u0Start I x := by
    simp [s0, initialText, effect, CCode.Mem.set, Sym.val, gv, sin', cos', u0Start, at0, I, o, Text.meaning, spacing]
  have h1 : s0.loc "u1" = u1Start I x := by
    simp [s0, initialText, effect, CCode.Mem.set, Sym.val, gv, sin', cos', u1Start, at0, I, o, Text.meaning, spacing]
  have h2 : s0.loc "u2" = 0 := by
    simp [s0, initialText, effect, CCode.Mem.set, Sym.val]
  have a0 : ∀ A, tgvArrays A → ∀ off, s0.data ((tgvText inputs).names A) off = m A (x + off) := fun A hA off => by rw [hd]; exact h A hA off
  have a1 := says_set (tgv_names inputs) a0 (hU "rho" (by decide)) (v := s0.loc "r") (w := rStart I x) hr
  have a2 := says_set (tgv_names inputs) a1 (hU "rhou0" (by decide)) (v := s0.loc "r" * s0.loc "u0") (w := rStart I x * u0Start I x) (by rw [hr, h0])
  have a3 := says_set (tgv_names inputs) a2 (hU "rhou1" (by decide)) (v := s0.loc "r" * s0.loc "u1") (w := rStart I x * u1Start I x) (by rw [hr, h1])
  have a4 := says_set (tgv_names inputs) a3 (hU "rhou2" (by decide)) (v := s0.loc "r" * s0.loc "u2") (w := 0) (by rw [h2, mul_zero])
  exact says_set (tgv_names inputs) a4 (hU "rhoE" (by decide))
    (v := s0.loc "p" * circularLib.pow (const "gama" + ((-1 : ℚ) : ℝ)) ((-1 : ℚ) : ℝ) +
      ((1 / 2 : ℚ) : ℝ) * s0.loc "r" * (circularLib.pow (s0.loc "u0") ((2 : ℚ) : ℝ) + circularLib.pow (s0.loc "u1") ((2 : ℚ) : ℝ) + circularLib.pow (s0.loc "u2") ((2 : ℚ) : ℝ)))
    (w := pStart I x * I.pow (I.const "gama" - 1) (-1) + 1 / 2 * rStart I x * (I.pow (u0Start I x) 2 + I.pow (u1Start I x) 2 + I.pow 0 2)) (by
      rw [hr, hp, h0, h1, h2]
      push_cast
      rfl)

theorem initial_proper (inputs : String → ℝ) : (tgvText inputs).Proper initialText where
  consts := by
    rw [tgv_startNames]
    decide +kernel
  vars := by
    have h : declaredVars initialText ⊆ {"x0", "x1", "x2", "u0", "u1", "u2", "p", "r"} := by decide +kernel
    intro v hv
    have := h hv
    simp only [Finset.mem_insert, Finset.mem_singleton] at this
    rw [tgv_startNames]
    rcases this with rfl | rfl | rfl | rfl | rfl | rfl | rfl | rfl <;> exact ⟨by first | exact not_generated_head (by decide) | exact not_generated (by decide), by decide⟩
  faithful e he o st := by
    simp only [exprs, initialText, List.flatMap_cons, List.flatMap_nil, Eqn.exprs, List.cons_append, List.nil_append, List.mem_cons, List.not_mem_nil, or_false] at he
    rcases he with rfl | rfl | rfl | rfl | rfl | rfl | rfl | rfl | rfl | rfl | rfl | rfl | rfl <;> simp [Sym.Faithful, Sym.isInt, Sym.recipInt, gv, sin', cos']
  groups := by
    intro bs hb
    simp [initialText] at hb
  inverses e he k hk := by
    simp only [exprs, initialText, List.flatMap_cons, List.flatMap_nil, Eqn.exprs, List.cons_append, List.nil_append, List.mem_cons, List.not_mem_nil, or_false] at he
    rcases he with rfl | rfl | rfl | rfl | rfl | rfl | rfl | rfl | rfl | rfl | rfl | rfl | rfl <;> simp [Sym.inverses, gv, sin', cos'] at hk
    · obtain ⟨_, rfl⟩ := hk
      exact ⟨⟨⟨trivial, trivial⟩, trivial⟩, trivial⟩
    · rcases hk with ⟨_, rfl⟩ | ⟨h, _⟩ | ⟨h, _⟩ | ⟨h, _⟩
      · exact ⟨⟨trivial, trivial⟩, trivial⟩
      all_goals exact absurd h (by simp [invGammaMinusOne, isConst])

theorem printable_sum3 {T : Text 3} {f : Fin 3 → E} (h : ∀ i, (f i).Printable T) : (sum3 f).Printable T := ⟨⟨h 0, h 1⟩, h 2⟩

theorem tgv_printable (inputs : String → ℝ) (i : Fin 5) : (rhs i).Printable (tgvText inputs) := by
  have hcl : ∀ d k, (tgvText inputs).closable d k := fun d k h => absurd h (tgv_open inputs d)
  have h1 : ∀ d : Fin 3, ∃ p, .request p ((tgvText inputs).inverse d 1) ∈ (tgvText inputs).ops := fun d => ⟨.inv, by
    change Rc.Op.request .inv (Sym.pow (.const (spacing d)) (.num (-((1 : ℕ) : ℚ)))) ∈ tgvOps
    fin_cases d <;> simp [tgvOps, spacing]⟩
  have h2 : ∀ d : Fin 3, ∃ p, .request p ((tgvText inputs).inverse d 2) ∈ (tgvText inputs).ops := fun d => ⟨.inv, by
    change Rc.Op.request .inv (Sym.pow (.const (spacing d)) (.num (-((2 : ℕ) : ℚ)))) ∈ tgvOps
    fin_cases d <;> simp [tgvOps, spacing]⟩
  have hn := tgv_startNames inputs
  have conv : ∀ s, (convection (dat s)).Printable (tgvText inputs) := fun s => by
    simp [convection, sum3, dat, u, Ex.Printable, Ex.isInt, Ex.recipInt, h1, hcl]
  have fric : ∀ i, (friction i).Printable (tgvText inputs) := fun i => by
    fin_cases i <;> simp [friction, mixed, invRe, sum3, dat, u, Ex.Printable, Ex.isInt, Ex.recipInt, Ex.isConst, Ex.closed, h1, h2, hcl, hn]
  have mom : ∀ k, (momentumRhs k).Printable (tgvText inputs) := fun k => by
    refine ⟨⟨conv _, ?_⟩, fric k⟩
    simp [dat, Ex.Printable, Ex.isInt, Ex.recipInt, h1, hcl]
  fin_cases i
  · exact conv "rho"
  · exact mom 0
  · exact mom 1
  · exact mom 2
  · refine ⟨⟨⟨conv _, ?_⟩, ?_⟩, ?_, ?_⟩
    · simp [sum3, dat, u, Ex.Printable, Ex.isInt, Ex.recipInt, h1, hcl]
    · simp [invHeat, sum3, dat, Ex.Printable, Ex.isInt, Ex.recipInt, Ex.isConst, h2, hcl, hn]
    · simp [tau, invRe, sum3, dat, u, Ex.Printable, Ex.isInt, Ex.recipInt, Ex.isConst, Ex.closed, h1, hcl, hn]
    · refine printable_sum3 fun i => ⟨trivial, fric i, fun h => ?_⟩
      simp [u, dat, Ex.isInt] at h

theorem tgv_suits (inputs : String → ℝ) (N : Fin 3 → ℤ) (niter : ℤ) : (tgvText inputs).Suits (tgv N) .rk (tgvInput N niter) tgvArrays where
  lib := circularLib_conforms
  powers := realLib_powers
  registered := tgvOps_registered
  injective := tgv_names inputs
  order := rfl
  works i := trivial
  arrays i := ⟨trivial, i.2, by
    have : ∀ i, sol i ∈ datasets := by decide
    exact this i⟩
  rhs i := by
    refine ⟨fun a ha => ?_, tgv_printable inputs i⟩
    have hp := ((tgv_valid N).rhsPlain i).1 a ha
    obtain ⟨s, rfl⟩ := hp
    have : ∀ i, ∀ s ∈ (Tgv.rhs i).datas, s ∈ datasets := by decide +kernel
    exact this i s ((mem_datas _ s).2 ha)
  rel s e h := by
    have hd : ∀ r ∈ Tgv.rel, r.1 ∈ datasets ∧ ∀ t ∈ r.2.datas, t ∈ datasets := by decide +kernel
    have hpl : ∀ r ∈ Tgv.rel, r.2.plainly = true := by decide +kernel
    replace h : (s, e) ∈ Tgv.rel := h
    refine ⟨(hd _ h).1, fun a ha => ?_, ?_⟩
    · obtain ⟨t, rfl⟩ := Ex.plain_of (hpl _ h) a ha
      exact (hd _ h).2 t ((mem_datas _ t).2 ha)
    · have hn := tgv_startNames inputs
      simp only [Tgv.rel, List.mem_cons, List.not_mem_nil, or_false, Prod.mk.injEq] at h
      rcases h with ⟨-, rfl⟩ | ⟨-, rfl⟩ | ⟨-, rfl⟩ | ⟨-, rfl⟩ | ⟨-, rfl⟩ <;>
        simp [relVelocity, relPressure, relTemperature, rhou, sum3, dat, u, Ex.Printable, Ex.isInt, Ex.recipInt, Ex.isConst, hn]
  step := by rw [tgv_startNames]; decide
  tables c hc := by
    refine ⟨?_, ?_⟩
    · simp only [coefficients, List.mem_cons, List.not_mem_nil, or_false] at hc
      rcases hc with rfl | rfl <;> exact not_generated (by decide)
    · rw [tgv_startNames]
      revert c; decide
  others o places ks h := by
    simp only [tgvInput, initialItem, Setup.item, List.mem_cons, List.not_mem_nil, or_false, reduceCtorEq, Alg.Item.nonSimulation.injEq] at h
    obtain ⟨rfl, rfl, rfl⟩ := h
    refine ⟨fun k hk => by simp at hk, fun k hk => .inr ⟨initialText, rfl, initial_proper inputs, ?_⟩⟩
    simp only [List.mem_singleton, Call.fn.injEq] at hk
    rw [hk]
    exact tgv_says inputs N

theorem tgv_program {pts : Ranges.Kernel 3 → List (P 3)} (hp : Enumerates pts) (inputs : String → ℝ) (N : Fin 3 → ℤ) (niter : ℤ) :
    ∃ prg, Program (tgv N) .rk ((tgvText inputs).meaning ((tgvText inputs).const prg) 0) pts (tgvInput N niter) prg := by
  have hg : ∃ prg, Alg.generate (tgvInput N niter) = .ok prg := by
    simp [Alg.generate, tgvInput, initialItem, Setup.item, Alg.Acc.add, Alg.sortByOrder, bind, Except.bind, pure, Except.pure, Alg.Placed.addKernels]
  obtain ⟨prg, hg⟩ := hg
  refine ⟨prg, tgv_valid N, hp, central_local (central_meaning rfl (tgv_open inputs) _ _), ⟨[initialItem N initialValues], [], _, (tgv_spatial N).choose_spec, rfl, by simp [initialItem, Alg.Item.isSimulation], by simp⟩, ?_, hg⟩
  intro o places k h p hp
  simp only [tgvInput, initialItem, Setup.item, List.mem_cons, List.not_mem_nil, or_false, reduceCtorEq, Alg.Item.nonSimulation.injEq] at h
  obtain ⟨-, rfl, -⟩ := h
  simpa using hp

/-! ## What the program computes -/

/-- The parameters of an input file. -/
def gasIn (inputs : String → ℝ) : Flow.Gas := ⟨inputs "Re", inputs "Pr", inputs "gama", inputs "Minf"⟩

/-- The spacing of the grid in an input file. -/
def deltaIn (inputs : String → ℝ) : Fin 3 → ℝ := fun d => inputs (spacing d)

section
variable {pts : Ranges.Kernel 3 → List (P 3)} {inputs : String → ℝ} {N : Fin 3 → ℤ} {niter : ℤ} {prg : List (Alg.Node (Call 3))}

theorem tgv_inputs (hP : Program (tgv N) .rk ((tgvText inputs).meaning ((tgvText inputs).const prg) 0) pts (tgvInput N niter) prg) (s : String)
    (hs : s ∈ ["dt", "Re", "Pr", "gama", "Minf", "Delta0block0", "Delta1block0", "Delta2block0"]) : (tgvText inputs).const prg s = inputs s :=
  C85_constants (fits (tgv_suits inputs N niter) hP).1 ⟨s, none⟩ (tgv_constants inputs s hs) ⟨(tgvText inputs).const prg, fun _ => 0, 0⟩ rfl (by simp) ⟨fun _ _ => 0, fun _ => 0⟩

theorem tgv_spacing (hP : Program (tgv N) .rk ((tgvText inputs).meaning ((tgvText inputs).const prg) 0) pts (tgvInput N niter) prg) : (fun d => (tgvText inputs).const prg ((tgvText inputs).delta d)) = deltaIn inputs := by
  funext d
  have : ∀ d, spacing d ∈ ["dt", "Re", "Pr", "gama", "Minf", "Delta0block0", "Delta1block0", "Delta2block0"] := by decide
  exact tgv_inputs hP _ (this d)

theorem tgv_gas (hP : Program (tgv N) .rk ((tgvText inputs).meaning ((tgvText inputs).const prg) 0) pts (tgvInput N niter) prg) : gasOf ((tgvText inputs).meaning ((tgvText inputs).const prg) 0) = gasIn inputs := by
  have h := tgv_inputs hP
  simp only [gasOf, gasIn, Text.meaning]
  rw [h "Re" (by simp), h "Pr" (by simp), h "gama" (by simp), h "Minf" (by simp)]

theorem pow_inv (x : ℝ) : circularLib.pow x (-1) = x⁻¹ := by
  have h := circularLib_conforms.neg x 1
  push_cast at h
  rw [h, circularLib_conforms.one]

theorem pow_two' (x : ℝ) : circularLib.pow x 2 = x ^ 2 := by
  have := realLib_powers x 2
  push_cast at this
  exact this

/-- The initial values, whatever the arrays contain before. -/
theorem tgv_initial (hp : Enumerates pts) (hP : Program (tgv N) .rk ((tgvText inputs).meaning ((tgvText inputs).const prg) 0) pts (tgvInput N niter) prg) (B : Sol 3 5 → Sol 3 5) (a : Arrays 3) (i : Fin 5)
    (x : P 3) (hx : ∀ d, -5 ≤ x d ∧ x d < N d + 5) : (tgvText inputs).startState (tgv N) prg pts B (tgvInput N niter) a (.data (sol i)) x = Flow.vortex (gasIn inputs) (deltaIn inputs) i x := by
  have h : ∀ m, atStart ((tgvText inputs).meaning ((tgvText inputs).const prg) 0) pts (tgv N).sol B (tgvInput N niter) m =
      runFn ((tgvText inputs).meaning ((tgvText inputs).const prg) 0) pts (initialKernel N initialValues) m := by
    intro m
    simp [atStart, tgvInput, initialItem, Setup.item, Alg.others, Alg.sortByOrder, Alg.placedAt, Alg.calls, Alg.effect, exec]
  have hg := tgv_gas hP
  have hc := tgv_inputs hP
  have c1 := hc "gama" (by simp)
  have c2 := hc "Minf" (by simp)
  have hd : ∀ d, at0 ((tgvText inputs).meaning ((tgvText inputs).const prg) 0) x d = deltaIn inputs d * x d := fun d => by
    have := congrFun (tgv_spacing hP) d
    simp only [at0, Text.meaning]
    rw [show (tgvText inputs).const prg (spacing d) = deltaIn inputs d from this]
  have hsin : ∀ y, ((tgvText inputs).meaning ((tgvText inputs).const prg) 0).fn "sin" y = Real.sin y := fun y => by simp [Text.meaning, tgvText, circularLib]
  have hcos : ∀ y, ((tgvText inputs).meaning ((tgvText inputs).const prg) 0).fn "cos" y = Real.cos y := fun y => by simp [Text.meaning, tgvText, circularLib]
  have hp1 : ∀ y, ((tgvText inputs).meaning ((tgvText inputs).const prg) 0).pow y (-1) = y⁻¹ := pow_inv
  have hp2 : ∀ y, ((tgvText inputs).meaning ((tgvText inputs).const prg) 0).pow y 2 = y ^ 2 := pow_two'
  have hγ : ((tgvText inputs).meaning ((tgvText inputs).const prg) 0).const "gama" = inputs "gama" := c1
  have hM : ((tgvText inputs).meaning ((tgvText inputs).const prg) 0).const "Minf" = inputs "Minf" := c2
  rw [Text.startState, h, runFn_at hp]
  · have e1 : pStart ((tgvText inputs).meaning ((tgvText inputs).const prg) 0) x = Flow.vortexPressure (gasIn inputs) fun d => deltaIn inputs d * x d := by
      simp only [pStart, Flow.vortexPressure, hd, hcos, hp1, hγ, hM, gasIn]
      ring
    have e2 : rStart ((tgvText inputs).meaning ((tgvText inputs).const prg) 0) x = Flow.vortexDensity (gasIn inputs) fun d => deltaIn inputs d * x d := by
      simp only [rStart, Flow.vortexDensity, e1, hγ, hM, gasIn]
      ring
    have e3 : u0Start ((tgvText inputs).meaning ((tgvText inputs).const prg) 0) x = Flow.vortexVelocity (fun d => deltaIn inputs d * x d) 0 := by
      simp only [u0Start, Flow.vortexVelocity, hd, hsin, hcos, Matrix.cons_val_zero]
    have e4 : u1Start ((tgvText inputs).meaning ((tgvText inputs).const prg) 0) x = Flow.vortexVelocity (fun d => deltaIn inputs d * x d) 1 := by
      simp only [u1Start, Flow.vortexVelocity, hd, hsin, hcos, Matrix.cons_val_one, Matrix.cons_val_zero]
    have e5 : (0 : ℝ) = Flow.vortexVelocity (fun d => deltaIn inputs d * x d) 2 := rfl
    simp only [initialKernel, initialValues, List.foldl_cons, List.foldl_nil, Sim.Mem.set, and_true, e1, e2, e3, e4, hp1, hp2, hγ]
    fin_cases i <;> simp [sol, Flow.vortex, gasIn]
    · exact Or.inr e5.symm
    · rw [← e5]
      ring
  · intro q hq m m' y hm
    simp only [initialKernel, initialValues, List.mem_cons, List.not_mem_nil, or_false] at hq
    rcases hq with rfl | rfl | rfl | rfl | rfl <;> rfl
  · rw [initialKernel, rangeOf_visits]
    intro d
    have := hx d
    rw [if_pos (List.mem_finRange d)]
    omega

end

theorem tgv_h (N : Fin 3 → ℤ) : (tgv N).h = 2 := by
  simp [Setup.h, tgv, listing]

theorem tgv_np (N : Fin 3 → ℤ) : (tgv N).np = N := rfl

/-- C94: the printed program of `apps/taylor_green_vortex`, for any grid of at least two points in every direction, any spacing, any parameters, any number of steps and whatever the arrays contain before it starts: it compiles; at the beginning
of the time loop the arrays contain the vortex; every step of the time loop is the step of the three stage Runge-Kutta scheme for the discretised compressible Navier-Stokes equations with periodic halo points; the files and the arrays at
the end contain the solution after the respective number of steps; and the total mass and the three components of the total momentum on the grid are in every file and at the end exactly those of the vortex. Nothing is assumed about the program. -/
theorem C94_taylor_green (inputs : String → ℝ) (N : Fin 3 → ℕ) (hN : ∀ d, 2 ≤ N d) (niter : ℕ) (pts : Ranges.Kernel 3 → List (P 3)) (hp : Enumerates pts) (a : Arrays 3) :
    let np : Fin 3 → ℤ := fun d => N d
    let T := tgvText inputs
    let step := rkStep np (Flow.navierStokes (gasIn inputs) (deltaIn inputs)) (exchange np 2) (inputs "dt") [(2/3, 1/4), (5/12, 3/20), (3/5, 3/5)]
    let vortex := Flow.vortex (gasIn inputs) (deltaIn inputs)
    ∃ prg s0, Alg.generate (tgvInput np niter) = .ok prg ∧ (∀ i x, (∀ d, -5 ≤ x d ∧ x d < (N d : ℤ) + 5) → s0.q i x = vortex i x) ∧
      (∃ a', T.run prg pts sol (exchange np 2) (Alg.runProgram prg) a = some a' ∧
        (∀ i, a' (sol i ++ "_B0") = (step^[niter] s0).q i) ∧ ∀ i, i ≠ 4 → ∑ x ∈ gridPoints np, a' (sol i ++ "_B0") x = ∑ x ∈ gridPoints np, vortex i x) ∧
      ∀ before after o k e, Alg.runProgram prg = before ++ .write o (some k) e :: after → ∃ j : ℕ, (j : ℤ) = k ∧ 1 ≤ j ∧ j ≤ niter ∧
        ∃ a', T.run prg pts sol (exchange np 2) before a = some a' ∧
          (∀ i, a' (sol i ++ "_B0") = (step^[j] s0).q i) ∧ ∀ i, i ≠ 4 → ∑ x ∈ gridPoints np, a' (sol i ++ "_B0") x = ∑ x ∈ gridPoints np, vortex i x := by
  intro np T step vortex
  obtain ⟨prg, hP⟩ := tgv_program hp inputs np niter
  have hS := tgv_suits inputs np niter
  have hI : IsCentral (tgv np) (T.meaning (T.const prg) 0) (deltaIn inputs) := by
    have := central_meaning (T := T) (S := tgv np) rfl (tgv_open inputs) (T.const prg) 0
    rwa [tgv_spacing hP] at this
  have hn : ∀ d, (tgv np).h ≤ (tgv np).np d := fun d => by
    rw [tgv_h, tgv_np]
    exact Int.ofNat_le.2 (hN d)
  obtain ⟨full, hfull⟩ := program_full hP fun s => T.startState (tgv np) prg pts (exchange np 2) (tgvInput np niter) a (.data s)
  have hF : (fun q i x => ((tgv np).rhs i).eval (T.meaning (T.const prg) 0) (memOf (full q)) x) = Flow.navierStokes (gasIn inputs) (deltaIn inputs) := by
    funext q i x
    rw [C94_navier_stokes hI pow_inv (hfull q), tgv_gas hP]
  obtain ⟨r1, r2⟩ := C85_rk_partial hS hP rfl rfl rfl (exchange np 2) a full hfull
  rw [hF, tgv_inputs hP "dt" (by simp)] at r1 r2
  have hstart : ∀ i, ∀ x, (∀ d, -5 ≤ x d ∧ x d < np d + 5) → (stateOf (tgv np) (T.startState (tgv np) prg pts (exchange np 2) (tgvInput np niter) a)).q i x = vortex i x :=
    fun i x hx => tgv_initial hp hP _ a i x hx
  have hsum : ∀ i, ∑ x ∈ gridPoints np, T.startState (tgv np) prg pts (exchange np 2) (tgvInput np niter) a (.data (sol i)) x = ∑ x ∈ gridPoints np, vortex i x := fun i =>
    Finset.sum_congr rfl fun x hx => tgv_initial hp hP _ a i x fun d => by
      have := (mem_gridPoints np x).1 hx d
      constructor <;> omega
  have hcons : ∀ i, i ≠ 4 → TextConserves T (tgv np) pts (exchange np 2) (tgvInput np niter) prg a i := fun i hi =>
    text_conserves hS hP _ a i (by
      have := C94_skew_rk hP hI (tgv_closed np) hn rfl rfl rfl (fun A => a (T.names A)) i (balanced i hi)
      rwa [tgv_np, tgv_h] at this)
  obtain ⟨a', e1, e2⟩ := r1
  refine ⟨prg, _, hP.generated, hstart, ⟨a', e1, e2, fun i hi => ?_⟩, fun before after o k e he => ?_⟩
  · obtain ⟨b, b1, b2⟩ := (hcons i hi).1
    have hb : a' = b := Option.some.inj (e1.symm.trans b1)
    rw [hb]
    exact b2.trans (hsum i)
  · obtain ⟨j, j1, j2, j3, a', e1, e2⟩ := r2 before after o k e he
    refine ⟨j, j1, j2, j3, a', e1, e2, fun i hi => ?_⟩
    obtain ⟨b, b1, b2⟩ := (hcons i hi).2 before after o k e he
    have hb : a' = b := Option.some.inj (e1.symm.trans b1)
    rw [hb]
    exact b2.trans (hsum i)

end OpenSBLI.Tgv
