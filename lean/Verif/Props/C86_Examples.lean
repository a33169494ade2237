import Verif.Props.C86_ShockText
import Verif.Props.C85_Examples
import Verif.Props.C81_Examples

/-!
# C86: Burgers' equation and the Euler equations
-/
namespace OpenSBLI.Recon
open Sim CCode Reg

variable {D n : ℕ}

/-! ## The way numbers are held, the mathematical functions, SymPy without simplifications -/

open Classical in
/-- Rational numbers by their digits. -/
noncomputable def rational (q : ℝ) : Sym D := if h : ∃ r : ℚ, (r : ℝ) = q then .num h.choose else .num 0

theorem rational_lit (r : ℚ) : IsLit (D := D) rational (r : ℝ) := by
  have h : ∃ r' : ℚ, (r' : ℝ) = (r : ℝ) := ⟨r, rfl⟩
  exact ⟨h.choose, h.choose_spec, .inl (by rw [rational, dif_pos h])⟩

/-- The functions of `math.h`. -/
noncomputable def mathLib : Lib ℝ where
  pow := realPow
  fn f x := if f = "sqrt" then Real.sqrt x else if f = "fabs" then |x| else if f = "floor" then (⌊x⌋ : ℤ) else x

theorem mathLib_maths : Maths mathLib := ⟨fun _ => by simp [mathLib], fun _ => by simp [mathLib], fun _ => by simp [mathLib]⟩

theorem mathLib_conforms : mathLib.Conforms where
  one := realLib_conforms.one
  neg := realLib_conforms.neg
  sqrt x := by
    change Real.sqrt x = realPow x ((1 / 2 : ℚ) : ℝ)
    have h : ¬ ∃ z : ℤ, (((1 / 2 : ℚ)) : ℝ) = z := by
      rintro ⟨z, hz⟩
      have : (2 * z : ℝ) = 1 := by rw [← hz]; norm_num
      have : 2 * z = 1 := by exact_mod_cast this
      omega
    rw [realPow, dif_neg h]
    split
    · rw [Real.sqrt_eq_rpow]; norm_num
    · rename_i hx
      exact Real.sqrt_eq_zero_of_nonpos (not_le.1 hx).le

theorem optimal_digits (side : Weno.Side) (k r : ℕ) : ∃ q : ℚ, (q : ℝ) = Weno.optimal side k r := by
  refine ⟨Weno.optimal side k r, ?_⟩
  cases side <;> simp [Weno.optimal]

theorem literal_writes (T : Text D) (U : Arr → Prop) (lit : ℝ → Sym D) (ok : Var → Prop) : (literal D).Writes (Term.Good T U lit ok) where
  factor _ h := h
  subs l t hl h := by
    change (Term.replaceAll l t).Good T U lit ok
    unfold Term.replaceAll
    induction l generalizing t with
    | nil => exact h
    | cons q l ih =>
      have hq := hl q (by simp)
      have := replace_printable (T := T) (U := U) (lit := lit) (new := q.2) hq.2.2.1 hq.2.1 h.1
      refine ih _ (fun q hq => hl q (by simp [hq])) ⟨this.1, ?_⟩
      by_contra hr
      have := this.2.2.1 (by simpa using hr)
      rw [h.2] at this
      cases this
  gamma _ h := h

/-! ## Names of grid variables -/

/-- How the names of grid variables begin. -/
def prefixes : List String := ["AVG_", "inv_AVG_", "CF_", "CS_", "max_lambda_", "TENO_CT", "beta_", "alpha_", "inv_alpha_", "omega_", "delta_", "inv_omega_", "Recon_"]

theorem var_prefix (d : ℕ) (v : Var) : ∃ p ∈ prefixes, p.toList.isPrefixOf (v.name d).toList = true := by
  have h : ∀ (p : String) (s : String), p.toList.isPrefixOf (p ++ s).toList = true := fun p s => by simp [String.toList_append]
  cases v with
  | avg t => exact ⟨"AVG_", by simp [prefixes], by simp only [Var.name, String.append_assoc]; exact h _ _⟩
  | roeInv => exact ⟨"AVG_", by simp [prefixes], by simp only [Var.name, String.append_assoc]; exact h _ _⟩
  | invA | invRho | invMet => exact ⟨"inv_AVG_", by simp [prefixes], by simp only [Var.name]; decide⟩
  | lev i j => exact ⟨"AVG_", by simp [prefixes], by simp only [Var.name, String.append_assoc]; exact h _ _⟩
  | cf i j => exact ⟨"CF_", by simp [prefixes], by simp only [Var.name, String.append_assoc]; exact h _ _⟩
  | cs i j => exact ⟨"CS_", by simp [prefixes], by simp only [Var.name, String.append_assoc]; exact h _ _⟩
  | lam i => exact ⟨"max_lambda_", by simp [prefixes], by simp only [Var.name, String.append_assoc]; exact h _ _⟩
  | ct => exact ⟨"TENO_CT", by simp [prefixes], by simp only [Var.name]; decide⟩
  | beta r => exact ⟨"beta_", by simp [prefixes], h _ _⟩
  | alpha r => exact ⟨"alpha_", by simp [prefixes], h _ _⟩
  | invAlpha => exact ⟨"inv_alpha_", by simp [prefixes], by simp only [Var.name]; decide⟩
  | omega r => exact ⟨"omega_", by simp [prefixes], h _ _⟩
  | delta r => exact ⟨"delta_", by simp [prefixes], h _ _⟩
  | invOmega => exact ⟨"inv_omega_", by simp [prefixes], by simp only [Var.name]; decide⟩
  | recon i => exact ⟨"Recon_", by simp [prefixes], h _ _⟩

/-- Constants with other beginnings are apart from the variables. -/
theorem apart_of {names : List String} (h : ∀ c ∈ names, ∀ p ∈ prefixes, p.toList.isPrefixOf c.toList = false) (d : ℕ) : ∀ c ∈ names, ∀ v : Var, v.name d ≠ c := by
  rintro c hc v rfl
  obtain ⟨p, hp, hv⟩ := var_prefix d v
  rw [h _ hc p hp] at hv
  cases hv

/-! ## The texts of the kernels of the scheme in a program -/

theorem sym_fns (T : Text D) (f : FnKer D → Option (List (Eqn D))) (e : Ex D) (p : P D) : e.sym { T with fns := f } p = e.sym T p := by
  induction e generalizing p with
  | num | const | indexed | arr => rfl
  | add a b ha hb | mul a b ha hb | pow a b ha hb => simp only [Ex.sym, ha, hb]
  | fn g a ha => simp only [Ex.sym, ha]
  | cd d k e he =>
    simp only [Ex.sym, he]
    rfl

theorem term_fns (T : Text D) (f : FnKer D → Option (List (Eqn D))) (lit : ℝ → Sym D) (d : Fin D) (t : Term String D) : t.sym { T with fns := f } lit d = t.sym T lit d := by
  induction t with
  | num | const | var => rfl
  | «at» e p => exact sym_fns T f e _
  | add a b ha hb | mul a b ha hb | pow a b ha hb | max a b ha hb | cut a b ha hb => simp only [Term.sym, ha, hb]
  | npow a k ha | inv a ha | sqrt a ha | abs a ha | fn g a ha | tenFloor a ha => simp only [Term.sym, ha]

theorem text_fns (T : Text D) (f : FnKer D → Option (List (Eqn D))) (lit : ℝ → Sym D) (K : Input D n) (S : Sympy D) : K.text S { T with fns := f } lit = K.text S T lit := by
  have h : ∀ (d : Fin D) v (t : Term String D), eqnText { T with fns := f } lit d v t = eqnText T lit d v t := fun d v t => by
    cases t <;> simp only [eqnText, term_fns]
  have h' : ∀ (d : Fin D) l, bodyText { T with fns := f } lit d l = bodyText T lit d l := fun d l => by simp only [bodyText, h]
  simp only [Input.text, h', term_fns]

theorem residual_fns (T : Text D) (f : FnKer D → Option (List (Eqn D))) (C : Shock D n) : C.residualText { T with fns := f } = C.residualText T := by
  simp only [Shock.residualText, Shock.residualSym, sym_fns, Shock.differenceText]

open Classical in
/-- A text with the kernels of a scheme. -/
noncomputable def withKernels (T : Text D) (C : Shock D n) (K : Fin D → Input D n) (S : Sympy D) (lit : ℝ → Sym D) : Text D :=
  { T with fns := fun k => if k = C.residualKernel then some (C.residualText T) else if h : ∃ d ∈ C.dirs, k = C.reconKernel d then (K h.choose).text S T lit else none }

theorem withKernels_residual (T : Text D) (C : Shock D n) (K : Fin D → Input D n) (S : Sympy D) (lit : ℝ → Sym D) :
    (withKernels T C K S lit).fns C.residualKernel = some (C.residualText (withKernels T C K S lit)) := by
  exact (if_pos rfl).trans (congrArg some (residual_fns T _ C).symm)

theorem withKernels_recon (T : Text 1) (C : Shock 1 n) (hn : n ≠ 0) (hd : (0 : Fin 1) ∈ C.dirs) (K : Fin 1 → Input 1 n) (S : Sympy 1) (lit : ℝ → Sym 1) (hk : ∃ eqs, (K 0).eqs S = some eqs) (d : Fin 1) :
    ∃ eqs, (K d).text S (withKernels T C K S lit) lit = some eqs ∧ (withKernels T C K S lit).fns (C.reconKernel d) = some eqs := by
  obtain rfl : d = 0 := Subsingleton.elim _ _
  have hne : C.reconKernel 0 ≠ C.residualKernel := by
    intro h
    have := congrArg (fun k : FnKer 1 => (k.eqs.map fun q => q.1).head?) h
    obtain ⟨n, rfl⟩ := Nat.exists_eq_succ_of_ne_zero hn
    simp [Shock.reconKernel, Shock.residualKernel, List.finRange_succ] at this
  have hex : ∃ d ∈ C.dirs, C.reconKernel 0 = C.reconKernel d := ⟨0, hd, rfl⟩
  obtain ⟨eqs, he⟩ := hk
  unfold withKernels
  rw [text_fns]
  refine ⟨_, by rw [Input.text, he]; rfl, ?_⟩
  simp only [if_neg hne, dif_pos hex]
  rw [Subsingleton.elim hex.choose 0, Input.text, he]
  rfl

/-- Names as the code gives them, for data called `L` and a solution called `sol`. -/
def nameOf (sol : ℕ → String) : Arr → String
  | .data s => s ++ "_B0"
  | .work i => "wk" ++ toString i ++ "_B0"
  | .res i => "Residual" ++ toString i ++ "_B0"
  | .reg i => sol i ++ "_RKold_B0"

/-- The arrays of a program with data `L` and `n` components. -/
def arraysOf (L : List String) (n : ℕ) : Arr → Prop
  | .data s => s ∈ L
  | .reg i => i < n
  | _ => True

theorem nameOf_injective (sol : ℕ → String) (L : List String) (n : ℕ) (hd : ∀ s ∈ L, (s ++ "_B0").toList.head? ≠ some 'w' ∧ (s ++ "_B0").toList.head? ≠ some 'R')
    (hs : ∀ i, (sol i ++ "_RKold_B0").toList.head? ≠ some 'w' ∧ (sol i ++ "_RKold_B0").toList.head? ≠ some 'R') (hx : ∀ s ∈ L, ∀ i < n, s ++ "_B0" ≠ sol i ++ "_RKold_B0")
    (hi : ∀ i < n, ∀ j < n, sol i = sol j → i = j) (a b : Arr) (ha : arraysOf L n a) (hb : arraysOf L n b) (h : nameOf sol a = nameOf sol b) : a = b := by
  have hw : ∀ i : ℕ, ("wk" ++ toString i ++ "_B0").toList.head? = some 'w' := fun i => toList_head (toList_head rfl)
  have hr : ∀ i : ℕ, ("Residual" ++ toString i ++ "_B0").toList.head? = some 'R' := fun i => toList_head (toList_head rfl)
  have hnum : ∀ {p : String} {i j : ℕ}, p ++ toString i ++ "_B0" = p ++ toString j ++ "_B0" → i = j := by
    intro p i j h
    rw [String.append_left_inj, String.append_right_inj] at h
    exact Mon.toString_injective h
  have hh := congrArg (fun s : String => s.toList.head?) h
  cases a with
  | data s =>
    cases b with
    | data s' =>
      have : s ++ "_B0" = s' ++ "_B0" := h
      rw [String.append_left_inj] at this
      rw [this]
    | work i => exact absurd (hh.trans (hw i)) (hd s ha).1
    | res i => exact absurd (hh.trans (hr i)) (hd s ha).2
    | reg i => exact absurd h (hx s ha i hb)
  | work i =>
    cases b with
    | data s => exact absurd (hh.symm.trans (hw i)) (hd s hb).1
    | work j => rw [hnum h]
    | res j => exact absurd ((hw i).symm.trans (hh.trans (hr j))) (by decide)
    | reg j => exact absurd (hh.symm.trans (hw i)) (hs j).1
  | res i =>
    cases b with
    | data s => exact absurd (hh.symm.trans (hr i)) (hd s hb).2
    | work j => exact absurd ((hr i).symm.trans (hh.trans (hw j))) (by decide)
    | res j => rw [hnum h]
    | reg j => exact absurd (hh.symm.trans (hr i)) (hs j).2
  | reg i =>
    cases b with
    | data s => exact absurd h.symm (hx s hb i ha)
    | work j => exact absurd (hh.trans (hw j)) (hs i).1
    | res j => exact absurd (hh.trans (hr j)) (hs i).2
    | reg j =>
      have : sol i ++ "_RKold_B0" = sol j ++ "_RKold_B0" := h
      rw [String.append_left_inj] at this
      rw [hi i ha j hb this]

/-! ## One-dimensional problems -/

/-- The constants of the problems below, and the inverse spacings their second derivatives need. -/
def shockOps : List (Rc.Op (Sym 1)) :=
  [.add ⟨"block0np0", none⟩, .add ⟨"Delta0block0", none⟩, .add ⟨"dt", none⟩, .add ⟨"gama", none⟩, .add ⟨"gamma_m1", some (.add (.const "gama") (.num (-1)))⟩, .add ⟨"Re", none⟩,
   .request .inv (.pow (.const "Delta0block0") (.num (-2)))]

theorem shockOps_registered : Registered shockOps := by
  refine ⟨fun c hc => ?_, fun p k hk => ?_, fun pre op post e k hk n hn => ?_⟩
  · simp only [shockOps, List.mem_cons, List.not_mem_nil, or_false, Rc.Op.add.injEq, reduceCtorEq] at hc
    rcases hc with rfl | rfl | rfl | rfl | rfl | rfl
    · exact not_generated_head (by decide)
    · exact not_generated_head (by decide)
    · exact not_generated_head (by decide)
    · exact not_generated_head (by decide)
    · exact not_generated_head (by decide)
    · exact not_generated_head (by decide)
  · simp only [shockOps, List.mem_cons, List.not_mem_nil, or_false, Rc.Op.request.injEq, reduceCtorEq, false_or] at hk
    rw [hk.2]; exact ⟨trivial, trivial⟩
  · match pre, e with
    | [], e => cases e; cases hk
    | [_], e => cases e; cases hk
    | [_, _], e => cases e; cases hk
    | [_, _, _], e => cases e; cases hk
    | [_, _, _, _], e => cases e; cases hk; revert n; decide +kernel
    | [_, _, _, _, _], e => cases e; cases hk
    | [_, _, _, _, _, _], e => cases e; subst hk; revert n; decide +kernel
    | _ :: _ :: _ :: _ :: _ :: _ :: _ :: l, e => simp [shockOps] at e

/-- The text of a problem, without the kernels of its scheme. -/
noncomputable def shockBase (sol : ℕ → String) (inputs : String → ℝ) : Text 1 where
  names := nameOf sol
  delta := fun _ => "Delta0block0"
  order := 4
  lib := mathLib
  ops := shockOps
  inputs := inputs
  table t := if t = "rknew" then [2/3, 5/12, 3/5] else [1/4, 3/20, 3/5]
  mods := fun _ => ⟨none, none⟩
  points := fun _ => "block0np0"
  carpenter := fun _ _ => 0

theorem shockBase_open (sol : ℕ → String) (inputs : String → ℝ) (d : Fin 1) : ¬ (shockBase sol inputs).hasClosure d := by simp [Text.hasClosure, shockBase]

theorem shock_names : (Rc.empty.performs shockOps).names = ["block0np0", "Delta0block0", "dt", "gama", "gamma_m1", "Re", "inv_0"] := by decide +kernel

theorem shock_constants : (Rc.empty.performs shockOps).constants = [⟨"block0np0", none⟩, ⟨"Delta0block0", none⟩, ⟨"dt", none⟩, ⟨"gama", none⟩, ⟨"gamma_m1", some (.add (.const "gama") (.num (-1)))⟩, ⟨"Re", none⟩,
    ⟨"inv_0", some (.pow (.const "Delta0block0") (.num (-2)))⟩] := by with_unfolding_all rfl

theorem shock_apart (d : ℕ) : ∀ c ∈ (Rc.empty.performs shockOps).names, ∀ v : Var, v.name d ≠ c := by
  rw [shock_names]
  exact apart_of (by decide) d

end OpenSBLI.Recon

namespace OpenSBLI.Sim
open Recon CCode Reg Euler1

/-! ## Burgers' equation -/

/-- `q_t = - (q²/2)_x + Re^-1 q_xx`, the first derivative by WENO-Z of order 5. -/
noncomputable def burgers : Shock 1 1 where
  np := ![20]
  order := 4
  sol := !["q"]
  rhs := ![.mul (inv (.const "Re")) (.cd 0 2 (.arr (.data "q")))]
  rel := []
  w0 := 0
  known := ["q"]
  groups := []
  vcds := [.cd 0 2 (.arr (.data "q"))]
  keys := ["q"]
  scheme := .weno .Z 3 (1/20) fun side => Weno.optimal side 3
  dirs := [0]
  coef := fun _ _ => .num (-1)
  flux := fun _ _ => .mul (.num (1/2)) (.mul (.arr (.data "q")) (.arr (.data "q")))
  ev := fun _ _ => .arr (.data "q")
  rev := fun _ _ _ => .num 1
  lev := fun _ _ _ => .num 1
  avg := simpleAvg
  avgReads := fun t => [t]
  spacing := fun _ => "Delta0block0"

theorem burgers_core : burgers.Core where
  relations := {
    solInj := by decide
    relSol := by decide
    relNodup := by decide
    relPlain := fun s e h => by simp [burgers, Setup.relation] at h
    known := by decide
    keysNodup := by decide
    keysMem := fun s => by
      simp [burgers, Shock.required, Shock.symbols, Setup.required, Setup.flat, Ex.convective, Ex.viscous, Ex.classified, Ex.hasRe, Ex.sum, Ex.zeroFn, Ex.datas, Ex.arrs, inv]
      rintro (rfl | rfl) <;> rfl }
  dirs := by simp [burgers]
  dirsNodup := by simp [burgers]
  scheme := ⟨by norm_num, fun _ => by norm_num, by norm_num, fun side => Weno.optimal_satisfies side 3⟩
  groups := rfl
  conv := by decide
  vcdsNodup := by decide
  vcdsMem := fun c => by
    simp [burgers, Ex.viscous, Ex.classified, Ex.hasRe, Ex.sum, Ex.zeroFn, Ex.cds, inv]
  visc := fun c hc => by
    simp only [burgers, List.mem_cons, List.not_mem_nil, or_false] at hc
    subst hc; exact .inl rfl
  rhsPlain := fun i => by fin_cases i; refine ⟨?_, rfl⟩; simp [burgers, Ex.plain, Ex.arrs, inv]
  rhsSteady := by decide
  restShape := by decide
  coef := fun d _ i => ⟨by simp [burgers, Ex.plain, Ex.arrs], rfl, rfl⟩
  flux := fun d _ i => ⟨by simp [burgers, Ex.plain, Ex.arrs], rfl⟩
  ev := fun d _ i => ⟨by simp [burgers, Ex.plain, Ex.arrs], rfl⟩
  lev := fun d _ i j => ⟨by simp [burgers, Ex.plain, Ex.arrs], rfl⟩
  rev := fun d _ i j => ⟨by simp [burgers, Ex.plain, Ex.arrs], rfl⟩
  avgLocal := C78_simple_average_reads
  avgRead := fun d _ i j t ht => by simp [burgers, Ex.datas, Ex.arrs] at ht
  halos := fun s hs e h => by simp [burgers, Setup.relation] at h

theorem burgers_valid : burgers.Valid := ⟨burgers_core, fun _ => by decide⟩

theorem burgers_spatial : ∃ cs, burgers.spatial = .ok cs := by
  have h : burgers.relOrder = .ok [] := by decide +kernel
  unfold Shock.spatial
  rw [if_neg burgers_core.dirs, h]
  exact ⟨_, rfl⟩

noncomputable def burgersInput : Alg.Input (Call 1) where
  temporalSchemes := 1
  items := [.simulation ((burgers.startKernels .rk).map .comp) [] ((burgers.advanceKernels .rk).map .comp) [.bc] burgers_spatial.choose]
  stages := 3
  niter := 250
  monitorFrequency := none
  ios := [Alg.IO.new 0 true none 50]

noncomputable def burgersKernel : Input 1 1 := ⟨burgers, 0, false, none, none⟩

theorem burgers_terms (t : String) (h : t ∈ burgersKernel.terms) : t = "q" := by
  obtain ⟨i, h⟩ := mem_terms.1 h
  simpa [burgersKernel, burgers, Ex.datas, Ex.arrs] using h

theorem burgers_named : burgersKernel.Named where
  comps := by norm_num
  terms := fun t h => by
    rw [burgers_terms t h]
    refine ⟨by decide, fun c hc => ?_⟩
    simp at hc; subst hc; decide
  metric := fun e h => by simp [burgersKernel] at h

theorem burgers_ok {I : Interp 1} (hg : I.const "gamma_m1" = I.const "gama" - 1) : burgersKernel.Ok I where
  avg := by simp [burgersKernel, burgers]
  lev_cds := fun i j => rfl
  rev_cds := fun i j => rfl
  metric := fun e h => by simp [burgersKernel] at h
  gamma := hg
  weno := fun form k dz w h => by
    simp only [burgersKernel, burgers, Llf.Scheme.weno.injEq] at h
    obtain ⟨_, rfl, _⟩ := h
    exact ⟨by norm_num, fun _ => by norm_num⟩
  eps := fun o eps CT h => by simp [burgersKernel, burgers] at h
  ct := fun o eps CT h => by simp [burgersKernel, burgers] at h

/-- All states are regular. -/
theorem burgers_regular (I : Interp 1) (m : Mem 1) (x : P 1) : burgersKernel.RegularAt I m x :=
  ⟨fun i p _ => ⟨trivial, trivial, trivial⟩, fun i p _ => trivial, fun i j => trivial, fun i j => trivial, fun h => by cases h⟩

noncomputable def burgersText (inputs : String → ℝ) : Text 1 := withKernels (shockBase (fun _ => "q") inputs) burgers (fun _ => burgersKernel) (literal 1) rational

def burgersArrays : Arr → Prop := arraysOf ["q"] 1

theorem weno_eqs (K : Input 1 n) (S : Sympy 1) {dz w} (h : K.C.scheme = .weno .Z 3 dz w) : ∃ eqs, K.eqs S = some eqs := by
  simp [Input.eqs, Input.interp, Input.recipe, h, wenoAlpha, tauTerm]

theorem burgers_captures (inputs : String → ℝ) : (burgersText inputs).Captures burgers (fun _ => burgersKernel) (literal 1) rational .rk burgersInput burgersArrays where
  suits := {
    lib := mathLib_conforms
    powers := realLib_powers
    registered := shockOps_registered
    injective := nameOf_injective _ _ _ (by decide) (fun _ => by decide) (by decide) (by decide)
    order := rfl
    works := fun i => trivial
    arrays := fun i => ⟨trivial, i.2, by fin_cases i; simp [burgers, burgersArrays, arraysOf]⟩
    rhs := fun i => by
      fin_cases i
      refine ⟨fun a ha => ?_, ⟨?_, trivial, fun _ => rfl⟩, ⟨trivial, rfl, ⟨.inv, ?_⟩, fun h => absurd h (shockBase_open (fun _ => "q") inputs 0)⟩, by simp [Ex.recipInt]⟩
      · have : a ∈ [Arr.data "q"] := ha
        rw [List.mem_singleton] at this
        subst this
        simp [burgersArrays, arraysOf]
      · change "Re" ∈ (Rc.empty.performs shockOps).names; rw [shock_names]; decide
      · change _ ∈ shockOps
        simp [shockOps, Text.inverse, burgersText, withKernels, shockBase]
    rel := fun s e h => by simp [burgers] at h
    step := by change "dt" ∈ (Rc.empty.performs shockOps).names; rw [shock_names]; decide
    tables := fun c hc => by
      refine ⟨?_, ?_⟩
      · simp only [coefficients, List.mem_cons, List.not_mem_nil, or_false] at hc
        rcases hc with rfl | rfl <;> exact not_generated (by decide)
      · change c ∉ (Rc.empty.performs shockOps).names
        rw [shock_names]
        revert c; decide
    others := fun o places ks h => by simp [burgersInput] at h }
  maths := mathLib_maths
  kernels := fun d _ => ⟨rfl, Subsingleton.elim _ _, rfl⟩
  writable := fun d _ => {
    digits := rational_lit
    weights := fun form k dz w h => by
      simp only [burgersKernel, burgers, Llf.Scheme.weno.injEq] at h
      obtain ⟨_, rfl, rfl, rfl⟩ := h
      exact ⟨⟨1/20, by norm_num⟩, fun side i => optimal_digits side 3 i⟩
    writes := literal_writes _ _ _ _
    flux := fun i => ⟨⟨⟨trivial, ⟨trivial, trivial, by simp [Ex.recipInt]⟩, by simp [Ex.recipInt]⟩, rfl, rfl, by simp [burgersKernel, burgers, Ex.arrs, burgersArrays, arraysOf]⟩, by simp [burgersKernel, burgers, Ex.arrs, Ex.plain], rfl⟩
    ev := fun i => ⟨⟨trivial, rfl, rfl, by simp [burgersKernel, burgers, Ex.arrs, burgersArrays, arraysOf]⟩, by simp [burgersKernel, burgers, Ex.arrs, Ex.plain]⟩
    lev := fun i j => ⟨rational_lit 1, rfl⟩
    rev := fun i j => ⟨rational_lit 1, rfl⟩
    metric := fun e h => by simp [burgersKernel] at h
    sensor := fun e h => by simp [burgersKernel] at h
    sol := fun i => by fin_cases i; simp [burgersKernel, burgers, burgersArrays, arraysOf]
    terms := fun t h => by rw [burgers_terms t h]; simp [burgersArrays, arraysOf]
    works := fun i => trivial
    roe := fun h => by cases h
    teno := fun o eps CT h => by simp [burgersKernel, burgers] at h
    apart := fun c hc v hv => absurd hv (shock_apart _ c hc v) }
  printable := {
    coef := fun d _ i => ⟨⟨trivial, rfl, rfl, by simp [burgers, Ex.arrs]⟩, by simp [burgers, Ex.arrs, Ex.plain]⟩
    rest := fun i => by
      fin_cases i
      refine ⟨⟨?_, trivial, fun _ => rfl⟩, trivial, fun h => by cases h.2⟩
      change "Re" ∈ (Rc.empty.performs shockOps).names; rw [shock_names]; decide
    spacing := fun d _ => by change "Delta0block0" ∈ (Rc.empty.performs shockOps).names; rw [shock_names]; decide }
  recon := fun d _ => withKernels_recon _ _ (by decide) (by simp [burgers]) _ _ _ (weno_eqs _ _ rfl) d
  residual := withKernels_residual _ _ _ _ _

theorem burgers_program (inputs : String → ℝ) {pts : Ranges.Kernel 1 → List (P 1)} (hp : Enumerates pts) :
    ∃ prg, ShockProgram burgers .rk ((burgersText inputs).meaning ((burgersText inputs).const prg) 0) pts burgersInput prg := by
  have hg : ∃ prg, Alg.generate burgersInput = .ok prg := by
    simp [Alg.generate, burgersInput, Alg.Acc.add, Alg.sortByOrder]
    exact ⟨_, rfl⟩
  obtain ⟨prg, hg⟩ := hg
  refine ⟨prg, burgers_valid, hp, central_local (central_meaning (T := burgersText inputs) rfl (shockBase_open (fun _ => "q") inputs) _ _), _, burgers_spatial.choose_spec, ⟨[], [], rfl, by simp, by simp⟩, ?_, hg⟩
  intro o places k h
  simp [burgersInput] at h

/-- The derived constant of the problems. -/
theorem burgers_gamma (inputs : String → ℝ) {pts : Ranges.Kernel 1 → List (P 1)} {prg} (hP : ShockProgram burgers .rk ((burgersText inputs).meaning ((burgersText inputs).const prg) 0) pts burgersInput prg) :
    (burgersText inputs).const prg "gamma_m1" = (burgersText inputs).const prg "gama" - 1 := by
  refine C86_gamma (shock_fits (burgers_captures inputs) hP).1 ?_
  change _ ∈ (Rc.empty.performs shockOps).constants
  rw [shock_constants]
  simp

theorem burgers_closed : burgers.Closed := by
  rintro s (⟨d, _, h⟩ | ⟨d, _, i, h⟩ | ⟨i, h⟩ | ⟨t, e, he, h⟩)
  · have : s = "q" := by simpa [Shock.symbols, burgers, Ex.datas, Ex.arrs] using h
    subst this; decide
  · simp [burgers, Ex.datas, Ex.arrs] at h
  · revert s; fin_cases i; decide
  · simp [burgers, Setup.relation] at he

/-- From any initial data, with any input file, the printed program of Burgers' equation compiles, makes 250 Runge-Kutta steps and conserves the integral of the solution, in the five files and at the end. -/
example (inputs : String → ℝ) (pts : Ranges.Kernel 1 → List (P 1)) (hp : Enumerates pts) (a : Arrays 1) : ∃ prg, Alg.generate burgersInput = .ok prg ∧
    TextConserves (burgersText inputs) burgers.toSetup pts burgers.exchange burgersInput prg a 0 := by
  obtain ⟨prg, hP⟩ := burgers_program inputs hp
  obtain ⟨_, _, hA⟩ := hP.items
  exact ⟨prg, hA.generated, C86_conservation_rk_partial (burgers_captures inputs) hP ⟨literal_sound _, fun _ _ => burgers_ok (burgers_gamma inputs hP), fun _ _ => burgers_named⟩ (shockBase_open (fun _ => "q") inputs) burgers_closed
    (by simp [burgers]) (by decide) rfl rfl rfl a (fun _ _ _ _ _ _ _ _ => burgers_regular _ _ _) 0 (fun _ _ => rfl) rfl⟩

/-! ## The Euler equations -/

noncomputable def eulerText (inputs : String → ℝ) : Text 1 := withKernels (shockBase (fun i => if i = 0 then "rho" else if i = 1 then "rhou0" else "rhoE") inputs) euler (fun _ => eulerKernel) (literal 1) rational

def eulerArrays : Arr → Prop := arraysOf ["rho", "rhou0", "rhoE", "u0", "p", "a"] 3

theorem euler_start (inputs : String → ℝ) : (eulerText inputs).start.names = ["block0np0", "Delta0block0", "dt", "gama", "gamma_m1", "Re", "inv_0"] := shock_names

theorem euler_captures (inputs : String → ℝ) : (eulerText inputs).Captures euler (fun _ => eulerKernel) (literal 1) rational .rk eulerInput eulerArrays where
  suits := {
    lib := mathLib_conforms
    powers := realLib_powers
    registered := shockOps_registered
    injective := nameOf_injective _ _ _ (by decide) (fun i => by split_ifs <;> decide) (by decide) (by decide)
    order := rfl
    works := fun i => trivial
    arrays := fun i => ⟨trivial, i.2, by fin_cases i <;> simp [euler, eulerArrays, arraysOf]⟩
    rhs := fun i => by
      have hR : "Re" ∈ (eulerText inputs).start.names := by rw [euler_start]; decide
      have hq : ∃ p, .request p ((eulerText inputs).inverse 0 2) ∈ (eulerText inputs).ops := ⟨.inv, by
        change _ ∈ shockOps
        simp [shockOps, Text.inverse, eulerText, withKernels, shockBase]⟩
      have hcl : (eulerText inputs).closable 0 2 := fun h => absurd h (shockBase_open (fun i => if i = 0 then "rho" else if i = 1 then "rhou0" else "rhoE") inputs 0)
      fin_cases i
      · exact ⟨fun a ha => absurd ha (by simp [euler, Ex.arrs]), trivial⟩
      · refine ⟨fun a ha => ?_, ⟨hR, trivial, fun _ => rfl⟩, ⟨trivial, rfl, hq, hcl⟩, by simp [Ex.recipInt]⟩
        have : a ∈ [Arr.data "u0"] := ha
        rw [List.mem_singleton] at this
        subst this
        simp [eulerArrays, arraysOf]
      · refine ⟨fun a ha => ?_, ⟨hR, trivial, fun _ => rfl⟩, ⟨trivial, rfl, hq, hcl⟩, by simp [Ex.recipInt]⟩
        have : a ∈ [Arr.data "p"] := ha
        rw [List.mem_singleton] at this
        subst this
        simp [eulerArrays, arraysOf]
    rel := fun s e h => by
      simp only [euler, List.mem_cons, List.not_mem_nil, or_false, Prod.mk.injEq] at h
      rcases h with ⟨rfl, rfl⟩ | ⟨rfl, rfl⟩ | ⟨rfl, rfl⟩ <;>
        simp [Ex.Printable, eulerArrays, arraysOf, Ex.arrs, euler_start, Ex.isInt, Ex.recipInt, Ex.isConst, Ex.closed, inv, gm1, half, neg, square, rho, rhou0, rhoE, u0, Euler1.p]
    step := by rw [euler_start]; decide
    tables := fun c hc => by
      refine ⟨?_, ?_⟩
      · simp only [coefficients, List.mem_cons, List.not_mem_nil, or_false] at hc
        rcases hc with rfl | rfl <;> exact not_generated (by decide)
      · rw [euler_start]
        revert c; decide
    others := fun o places ks h => by simp [eulerInput] at h }
  maths := mathLib_maths
  kernels := fun d _ => ⟨rfl, Subsingleton.elim _ _, rfl⟩
  writable := fun d _ => {
    digits := rational_lit
    weights := fun form k dz w h => by
      simp only [eulerKernel, euler, Llf.Scheme.weno.injEq] at h
      obtain ⟨_, rfl, rfl, rfl⟩ := h
      exact ⟨⟨1/20, by norm_num⟩, fun side i => optimal_digits side 3 i⟩
    writes := literal_writes _ _ _ _
    flux := fun i => by
      fin_cases i <;> refine ⟨⟨?_, rfl, rfl, ?_⟩, ?_, rfl⟩ <;>
        simp [eulerKernel, euler, Ex.Printable, Ex.plain, Ex.arrs, Ex.isInt, Ex.recipInt, eulerArrays, arraysOf, rhou0, rhoE, u0, Euler1.p]
    ev := fun i => by
      fin_cases i <;> refine ⟨⟨?_, rfl, rfl, ?_⟩, ?_⟩ <;>
        simp [eulerKernel, euler, Ex.Printable, Ex.plain, Ex.arrs, Ex.isInt, Ex.recipInt, eulerArrays, arraysOf, u0, a, neg]
    lev := fun i j => by
      fin_cases i <;> fin_cases j <;> refine ⟨?_, rfl⟩ <;>
        simp [eulerKernel, euler, H, den, square, half, neg, inv, gm1, u0, a, avgTerm, Term.Printable, Term.isInt, Term.recipInt, Term.isConst, Term.closed, Input.usable, rational_lit, euler_start, -Rat.cast_ofNat, -Rat.cast_neg, -Rat.cast_one]
    rev := fun i j => by
      fin_cases i <;> fin_cases j <;> refine ⟨?_, rfl⟩ <;>
        simp [eulerKernel, euler, H, den, square, half, neg, inv, gm1, u0, a, avgTerm, Term.Printable, Term.isInt, Term.recipInt, Term.isConst, Term.closed, Input.usable, rational_lit, euler_start, -Rat.cast_ofNat, -Rat.cast_neg, -Rat.cast_one]
    metric := fun e h => by simp [eulerKernel] at h
    sensor := fun e h => by simp [eulerKernel] at h
    sol := fun i => by fin_cases i <;> simp [eulerKernel, euler, eulerArrays, arraysOf]
    terms := fun t h => by rcases euler_terms t h with rfl | rfl <;> simp [eulerArrays, arraysOf]
    works := fun i => trivial
    roe := fun _ => ⟨by rw [euler_start]; decide, by simp [eulerArrays, arraysOf], by simp [eulerArrays, arraysOf], by simp [eulerArrays, arraysOf], fun i => by fin_cases i; simp only [eulerArrays, arraysOf]; decide⟩
    teno := fun o eps CT h => by simp [eulerKernel, euler] at h
    apart := fun c hc v hv => absurd hv (shock_apart _ c hc v) }
  printable := {
    coef := fun d _ i => ⟨⟨trivial, rfl, rfl, by simp [euler, Ex.arrs]⟩, by simp [euler, Ex.arrs, Ex.plain]⟩
    rest := fun i => by
      have hR : "Re" ∈ (eulerText inputs).start.names := by rw [euler_start]; decide
      fin_cases i
      · trivial
      · exact ⟨⟨hR, trivial, fun _ => rfl⟩, trivial, fun h => by cases h.2⟩
      · exact ⟨⟨hR, trivial, fun _ => rfl⟩, trivial, fun h => by cases h.2⟩
    spacing := fun d _ => by change "Delta0block0" ∈ _; rw [euler_start]; decide }
  recon := fun d _ => withKernels_recon _ _ (by decide) (by simp [euler]) _ _ _ (weno_eqs _ _ rfl) d
  residual := withKernels_residual _ _ _ _ _

theorem euler_text_program (inputs : String → ℝ) {pts : Ranges.Kernel 1 → List (P 1)} (hp : Enumerates pts) :
    ∃ prg, ShockProgram euler .rk ((eulerText inputs).meaning ((eulerText inputs).const prg) 0) pts eulerInput prg := by
  obtain ⟨prg, hP⟩ := euler_program hp
  exact ⟨prg, hP.valid, hP.loops, central_local (central_meaning (T := eulerText inputs) rfl (shockBase_open (fun i => if i = 0 then "rho" else if i = 1 then "rhou0" else "rhoE") inputs) _ _), hP.items⟩

/-- The gas of the input file. -/
theorem euler_captured (inputs : String → ℝ) (hg : inputs "gama" = 7/5) {pts : Ranges.Kernel 1 → List (P 1)} {prg} (hP : ShockProgram euler .rk ((eulerText inputs).meaning ((eulerText inputs).const prg) 0) pts eulerInput prg) :
    (eulerText inputs).const prg "gama" = 7/5 ∧ Captured euler (fun _ => eulerKernel) (literal 1) ((eulerText inputs).meaning ((eulerText inputs).const prg) 0) := by
  have hF := (shock_fits (euler_captures inputs) hP).1
  have hc : ∀ c, c ∈ (eulerText inputs).start.constants ↔ c ∈ (Rc.empty.performs shockOps).constants := fun _ => Iff.rfl
  have h1 : (eulerText inputs).const prg "gama" = 7/5 :=
    (C85_constants hF ⟨"gama", none⟩ (by rw [hc, shock_constants]; simp) ((eulerText inputs).outer prg 0 0) rfl (fun k hk => by cases hk) ⟨fun _ _ => 0, fun _ => 0⟩).trans hg
  have h2 := C86_gamma hF (by rw [hc, shock_constants]; simp)
  exact ⟨h1, literal_sound _, fun _ _ => euler_ok h1 (by change (eulerText inputs).const prg "gamma_m1" = _; rw [h2, h1]; norm_num), fun _ _ => euler_named⟩

/-- The printed program of the Euler equations conserves mass, momentum and energy, in the five files and at the end, as long as the states it meets are those of ideal gases. -/
example (inputs : String → ℝ) (hg : inputs "gama" = 7/5) (pts : Ranges.Kernel 1 → List (P 1)) (hp : Enumerates pts) (a : Arrays 1) : ∃ prg, Alg.generate eulerInput = .ok prg ∧
    ((∀ before e after, Alg.runProgram prg = before ++ .call (.fn (euler.reconKernel 0)) e :: after → ∀ x,
      (primOf 1 fun s => Alg.effect (exec ((eulerText inputs).meaning ((eulerText inputs).const prg) 0) pts euler.sol euler.exchange) before (fun A => a ((eulerText inputs).names A)) (.data s) x).Ideal (7/5)) →
    ∀ i, TextConserves (eulerText inputs) euler.toSetup pts euler.exchange eulerInput prg a i) := by
  obtain ⟨prg, hP⟩ := euler_text_program inputs hp
  obtain ⟨_, _, hA⟩ := hP.items
  obtain ⟨h1, h2⟩ := euler_captured inputs hg hP
  refine ⟨prg, hA.generated, fun hid i => C86_conservation_rk_partial (euler_captures inputs) hP h2 (shockBase_open (fun i => if i = 0 then "rho" else if i = 1 then "rhou0" else "rhoE") inputs) euler_closed
    (by simp [euler]) euler_reach rfl rfl rfl a ?_ i (fun _ _ => rfl) (by revert i; decide)⟩
  intro before d e after _ hev x _
  obtain rfl : d = 0 := Subsingleton.elim _ _
  exact C81_euler_regular (fun x z => realPow_int x z) h1 _ x (hid before e after hev x) (hid before e after hev _)

end OpenSBLI.Sim
