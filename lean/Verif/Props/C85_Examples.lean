import Verif.Props.C85_Closures
import Verif.Props.C77_Examples
import Verif.Props.C68_Monitor
import Mathlib.Analysis.SpecialFunctions.Pow.Real

/-!
# C85: the text of a problem meeting the hypotheses, and what happens when names clash
-/
namespace OpenSBLI.Sim
open OpenSBLI.Reg OpenSBLI.CCode

open Classical in
/-- Powers of real numbers: integer powers of all of them, other powers of nonnegative ones. -/
noncomputable def realPow (x y : ℝ) : ℝ := if h : ∃ z : ℤ, y = z then x ^ h.choose else if 0 ≤ x then x ^ y else 0

noncomputable def realLib : Lib ℝ where
  pow := realPow
  fn f x := if f = "sqrt" then realPow x ((1 / 2 : ℚ) : ℝ) else x

theorem realPow_int (x : ℝ) (z : ℤ) : realPow x z = x ^ z := by
  have h : ∃ z' : ℤ, (z : ℝ) = z' := ⟨z, rfl⟩
  rw [realPow, dif_pos h]
  congr 1
  exact_mod_cast h.choose_spec.symm

theorem realLib_conforms : realLib.Conforms where
  one x := by
    have := realPow_int x 1
    rw [Int.cast_one, zpow_one] at this
    exact this
  neg x q := by
    change realPow x ((-q : ℚ) : ℝ) = (realPow x (q : ℝ))⁻¹
    by_cases h : ∃ z : ℤ, (q : ℝ) = z
    · obtain ⟨z, hz⟩ := h
      have hn : ((-q : ℚ) : ℝ) = ((-z : ℤ) : ℝ) := by push_cast; rw [hz]
      rw [hn, hz, realPow_int, realPow_int, zpow_neg]
    · have hn : ¬ ∃ z : ℤ, ((-q : ℚ) : ℝ) = z := by
        rintro ⟨z, hz⟩
        exact h ⟨-z, by push_cast at hz ⊢; linarith⟩
      rw [realPow, realPow, dif_neg h, dif_neg hn]
      split
      · rename_i hx
        push_cast
        exact Real.rpow_neg hx _
      · simp
  sqrt x := by simp [realLib]

theorem realLib_powers (x : ℝ) (k : ℕ) : realLib.pow x k = x ^ k := by
  have := realPow_int x k
  rw [Int.cast_natCast, zpow_natCast] at this
  exact this

/-- The constants of the problem `flow`, and the inverse spacings its derivatives need. -/
def flowOps : List (Rc.Op (Sym 2)) :=
  [.add ⟨"block0np0", none⟩, .add ⟨"block0np1", none⟩, .add ⟨"dt", none⟩, .add ⟨"gm1", none⟩, .add ⟨"Re", none⟩, .add ⟨"Delta0block0", none⟩, .add ⟨"Delta1block0", none⟩,
   .request .inv (.pow (.const "Delta1block0") (.num (-1))), .request .inv (.pow (.const "Delta0block0") (.num (-1)))]

theorem flowOps_registered : Registered flowOps := by
  refine ⟨fun c hc => ?_, fun p k hk => ?_, fun pre op post e k hk n hn => ?_⟩
  · simp only [flowOps, List.mem_cons, List.not_mem_nil, or_false, Rc.Op.add.injEq, reduceCtorEq] at hc
    rcases hc with rfl | rfl | rfl | rfl | rfl | rfl | rfl
    · exact not_generated_head (by decide)
    · exact not_generated_head (by decide)
    · exact not_generated_head (by decide)
    · exact not_generated_head (by decide)
    · exact not_generated_head (by decide)
    · exact not_generated_head (by decide)
    · exact not_generated_head (by decide)
  · simp only [flowOps, List.mem_cons, List.not_mem_nil, or_false, Rc.Op.request.injEq, reduceCtorEq, false_or] at hk
    rcases hk with hk | hk <;> rw [hk.2] <;> exact ⟨trivial, trivial⟩
  · match pre, e with
    | [], e => cases e; cases hk
    | [_], e => cases e; cases hk
    | [_, _], e => cases e; cases hk
    | [_, _, _], e => cases e; cases hk
    | [_, _, _, _], e => cases e; cases hk
    | [_, _, _, _, _], e => cases e; cases hk
    | [_, _, _, _, _, _], e => cases e; cases hk
    | [_, _, _, _, _, _, _], e => cases e; subst hk; revert n; decide +kernel
    | [_, _, _, _, _, _, _, _], e => cases e; subst hk; revert n; decide +kernel
    | _ :: _ :: _ :: _ :: _ :: _ :: _ :: _ :: _ :: l, e => simp [flowOps] at e

/-- The text of `flow`, with any closures: names as the code gives them. -/
noncomputable def flowClosed (mods : Fin 2 → Closure.Mods) (carpenter : Fin 4 → Fin 6 → ℚ) (inputs : String → ℝ) : Text 2 where
  names
    | .data s => s ++ "_B0"
    | .work i => "wk" ++ toString i ++ "_B0"
    | .res i => "Residual" ++ toString i ++ "_B0"
    | .reg i => (if i = 0 then "rho" else "rhou") ++ "_RKold_B0"
  delta := ![ "Delta0block0", "Delta1block0" ]
  order := 4
  lib := realLib
  ops := flowOps
  inputs := inputs
  table t := if t = "rknew" then [2/3, 5/12, 3/5] else [1/4, 3/20, 3/5]
  mods := mods
  points := ![ "block0np0", "block0np1" ]
  carpenter := carpenter

/-- The text of `flow` without closures. -/
noncomputable abbrev flowText (inputs : String → ℝ) : Text 2 := flowClosed (fun _ => ⟨none, none⟩) (fun _ _ => 0) inputs

section
variable (mods : Fin 2 → Closure.Mods) (carpenter : Fin 4 → Fin 6 → ℚ)


/-- The arrays of `flow`. -/
def flowArrays : Arr → Prop
  | .data s => s ∈ ["rho", "rhou", "u", "p"]
  | .reg i => i < 2
  | _ => True

theorem toList_head {a b : String} {c : Char} (h : a.toList.head? = some c) : (a ++ b).toList.head? = some c := by
  rw [String.toList_append]
  cases ha : a.toList with
  | nil => rw [ha] at h; cases h
  | cons x l => rw [ha] at h; exact h

theorem flow_names (inputs : String → ℝ) (a b : Arr) (ha : flowArrays a) (hb : flowArrays b) (h : (flowClosed mods carpenter inputs).names a = (flowClosed mods carpenter inputs).names b) : a = b := by
  have hw : ∀ i : ℕ, ("wk" ++ toString i ++ "_B0").toList.head? = some 'w' := fun i => toList_head (toList_head rfl)
  have hr : ∀ i : ℕ, ("Residual" ++ toString i ++ "_B0").toList.head? = some 'R' := fun i => toList_head (toList_head rfl)
  have hd : ∀ s ∈ ["rho", "rhou", "u", "p"], (s ++ "_B0").toList.head? ≠ some 'w' ∧ (s ++ "_B0").toList.head? ≠ some 'R' := by decide
  have hg : ∀ i : ℕ, ((if i = 0 then "rho" else "rhou") ++ "_RKold_B0" : String).toList.head? = some 'r' := by
    intro i; split <;> rfl
  have hne : ∀ {s s' : String} {c c' : Char}, s = s' → s.toList.head? = some c → s'.toList.head? = some c' → c = c' := by
    rintro s s' c c' rfl h1 h2
    rw [h1] at h2; exact Option.some.inj h2
  have hnum : ∀ {p : String} {i j : ℕ}, p ++ toString i ++ "_B0" = p ++ toString j ++ "_B0" → i = j := by
    intro p i j h
    rw [String.append_left_inj, String.append_right_inj] at h
    exact Mon.toString_injective h
  cases a with
  | data s =>
    cases b with
    | data s' =>
      have : s ++ "_B0" = s' ++ "_B0" := h
      rw [String.append_left_inj] at this
      rw [this]
    | work i => exact absurd ((congrArg (fun s : String => s.toList.head?) h).trans (hw i)) (hd s ha).1
    | res i => exact absurd ((congrArg (fun s : String => s.toList.head?) h).trans (hr i)) (hd s ha).2
    | reg i =>
      exfalso
      have key : ∀ s ∈ ["rho", "rhou", "u", "p"], ∀ t ∈ ["rho", "rhou"], s ++ "_B0" ≠ t ++ "_RKold_B0" := by decide
      refine key s ha (if i = 0 then "rho" else "rhou") ?_ h
      split <;> simp
  | work i =>
    cases b with
    | data s => exact absurd ((congrArg (fun s : String => s.toList.head?) h).symm.trans (hw i)) (hd s hb).1
    | work j => rw [hnum h]
    | res j => exact absurd (hne h (hw i) (hr j)) (by decide)
    | reg j => exact absurd (hne h (hw i) (hg j)) (by decide)
  | res i =>
    cases b with
    | data s => exact absurd ((congrArg (fun s : String => s.toList.head?) h).symm.trans (hr i)) (hd s hb).2
    | work j => exact absurd (hne h (hr i) (hw j)) (by decide)
    | res j => rw [hnum h]
    | reg j => exact absurd (hne h (hr i) (hg j)) (by decide)
  | reg i =>
    cases b with
    | data s =>
      exfalso
      have key : ∀ s ∈ ["rho", "rhou", "u", "p"], ∀ t ∈ ["rho", "rhou"], t ++ "_RKold_B0" ≠ s ++ "_B0" := by decide
      refine key s hb (if i = 0 then "rho" else "rhou") ?_ h
      split <;> simp
    | work j => exact absurd (hne h (hg i) (hw j)) (by decide)
    | res j => exact absurd (hne h (hg i) (hr j)) (by decide)
    | reg j =>
      have hi : i = 0 ∨ i = 1 := by simp only [flowArrays] at ha; omega
      have hj : j = 0 ∨ j = 1 := by simp only [flowArrays] at hb; omega
      have h' : ((if i = 0 then "rho" else "rhou") ++ "_RKold_B0" : String) = (if j = 0 then "rho" else "rhou") ++ "_RKold_B0" := h
      rcases hi with rfl | rfl <;> rcases hj with rfl | rfl
      · rfl
      · exact absurd h' (by decide)
      · exact absurd h' (by decide)
      · rfl

theorem flow_points (inputs : String → ℝ) (d : Fin 2) : ⟨(flowClosed mods carpenter inputs).points d, none⟩ ∈ (flowClosed mods carpenter inputs).start.constants := by
  change (⟨(![ "block0np0", "block0np1" ] : Fin 2 → String) d, none⟩ : Const (Sym 2)) ∈ (Rc.empty.performs flowOps).constants
  have h : (Rc.empty.performs flowOps).constants = (Rc.empty.performs flowOps).constants.take 2 ++ (Rc.empty.performs flowOps).constants.drop 2 := (List.take_append_drop 2 _).symm
  have h2 : (Rc.empty.performs flowOps).constants.take 2 = [⟨"block0np0", none⟩, ⟨"block0np1", none⟩] := by with_unfolding_all rfl
  rw [h, h2]
  fin_cases d <;> simp

theorem flow_suits (inputs : String → ℝ) (hz : ∀ d, (flowClosed mods carpenter inputs).hasClosure d → ∃ z : ℤ, inputs ((flowClosed mods carpenter inputs).points d) = z) : (flowClosed mods carpenter inputs).Suits flow .rk flowInput flowArrays where
  lib := realLib_conforms
  powers := realLib_powers
  registered := flowOps_registered
  injective := flow_names mods carpenter inputs
  order := rfl
  works i := trivial
  arrays i := by fin_cases i <;> simp [flowArrays, flow]
  rhs i := by
    have hn : (flowClosed mods carpenter inputs).start.names = (Rc.empty.performs flowOps).names := rfl
    have h0 : ∃ p, .request p ((flowClosed mods carpenter inputs).inverse 0 1) ∈ (flowClosed mods carpenter inputs).ops := ⟨.inv, by simp [flowClosed, flowOps, Text.inverse]⟩
    have h1 : ∃ p, .request p ((flowClosed mods carpenter inputs).inverse 1 1) ∈ (flowClosed mods carpenter inputs).ops := ⟨.inv, by simp [flowClosed, flowOps, Text.inverse]⟩
    have hc : ∀ {d}, (flowClosed mods carpenter inputs).closable d 1 := fun {d} hc => ⟨.inl rfl, flow_points mods carpenter inputs d, hz d hc⟩
    have hRe : "Re" ∈ (Rc.empty.performs flowOps).names := by decide +kernel
    fin_cases i
    · refine ⟨fun a ha => ?_, ⟨trivial, ⟨trivial, rfl, h0, hc⟩, by simp [Ex.recipInt]⟩, trivial, ⟨⟨trivial, trivial, by simp [Ex.recipInt, u, rhou]⟩, rfl, h1, hc⟩, by simp [Ex.recipInt]⟩
      have : a ∈ [Arr.data "rhou", .data "rhou", .data "u"] := ha
      simp only [List.mem_cons, List.not_mem_nil, or_false] at this
      rcases this with rfl | rfl | rfl <;> simp [flowArrays]
    · refine ⟨fun a ha => ?_, ⟨trivial, ⟨⟨⟨trivial, trivial, by simp [Ex.recipInt, u, rhou]⟩, trivial⟩, rfl, h0, hc⟩, by simp [Ex.recipInt]⟩,
        ⟨hRe, trivial, fun _ => rfl⟩, ⟨⟨trivial, rfl, h1, hc⟩, rfl, h0, hc⟩, by simp [Ex.recipInt]⟩
      have : a ∈ [Arr.data "rhou", .data "u", .data "p", .data "u"] := ha
      simp only [List.mem_cons, List.not_mem_nil, or_false] at this
      rcases this with rfl | rfl | rfl | rfl <;> simp [flowArrays]
  rel s e h := by
    have hg : "gm1" ∈ (Rc.empty.performs flowOps).names := by decide +kernel
    simp only [flow, List.mem_cons, List.not_mem_nil, or_false, Prod.mk.injEq] at h
    rcases h with ⟨rfl, rfl⟩ | ⟨rfl, rfl⟩
    · refine ⟨by simp [flowArrays], fun a ha => ?_, hg, ⟨trivial, trivial, by simp [Ex.recipInt, u, rhou]⟩, by simp [Ex.recipInt]⟩
      have : a ∈ [Arr.data "rhou", .data "u"] := ha
      simp only [List.mem_cons, List.not_mem_nil, or_false] at this
      rcases this with rfl | rfl <;> simp [flowArrays]
    · refine ⟨by simp [flowArrays], fun a ha => ?_, trivial, ⟨trivial, trivial, fun _ => rfl⟩, by simp [Ex.isInt, rhou]⟩
      have : a ∈ [Arr.data "rhou", .data "rho"] := ha
      simp only [List.mem_cons, List.not_mem_nil, or_false] at this
      rcases this with rfl | rfl <;> simp [flowArrays]
  step := by
    change "dt" ∈ (Rc.empty.performs flowOps).names
    decide +kernel
  tables c hc := by
    refine ⟨?_, ?_⟩
    · simp only [coefficients, List.mem_cons, List.not_mem_nil, or_false] at hc
      rcases hc with rfl | rfl <;> exact not_generated (by decide)
    · change c ∉ (Rc.empty.performs flowOps).names
      revert c; decide +kernel
  others o places ks h := by simp [flowInput, Setup.item] at h

end

theorem flow_open (inputs : String → ℝ) (d : Fin 2) : ¬ (flowText inputs).hasClosure d := by simp [Text.hasClosure, flowClosed]

theorem flowText_suits (inputs : String → ℝ) : (flowText inputs).Suits flow .rk flowInput flowArrays :=
  flow_suits _ _ inputs fun d hd => absurd hd (flow_open inputs d)

/-- The printed program of `flow`, 250 steps: it compiles, and conserves the totals of both components in the five files and at the end. -/
example (inputs : String → ℝ) (pts : Ranges.Kernel 2 → List (P 2)) (hp : Enumerates pts) (a : Arrays 2) : ∃ prg, Alg.generate flowInput = .ok prg ∧
    ∀ i, TextConserves (flowText inputs) flow pts (exchange flow.np flow.h) flowInput prg a i := by
  obtain ⟨prg, hP⟩ := flow_program hp
  refine ⟨prg, hP.generated, fun i => C85_conservation_rk_partial (flowText_suits inputs)
    ⟨hP.valid, hP.loops, central_local (central_meaning rfl (flow_open inputs) _ _), hP.items, hP.others, hP.generated⟩ flow_closed (flow_open inputs) (by decide) rfl (by simp [flowClosed]) (by simp [flowClosed]) a i ?_⟩
  revert i; decide

/-- Walls at both ends of the second direction, with reduced access on the left and Carpenter, printed with any digits, on the right: the printed program computes
the Runge-Kutta iterates with the derivatives of the closures, whatever is done in the halo. -/
example (carpenter : Fin 4 → Fin 6 → ℚ) (inputs : String → ℝ) (hnp : inputs "block0np1" = 6) (pts : Ranges.Kernel 2 → List (P 2)) (hp : Enumerates pts)
    (B : Sol 2 2 → Sol 2 2) (a : Arrays 2) :
    let T := flowClosed ![⟨none, none⟩, ⟨some .reducedAccess, some .carpenter⟩] carpenter inputs
    ∃ (prg : _) (full : Sol 2 2 → String → P 2 → ℝ), Alg.generate flowInput = .ok prg ∧ ∃ a', T.run prg pts flow.sol B (Alg.runProgram prg) a = some a' ∧
      ∀ i, a' (T.names (.data (flow.sol i))) =
        ((rkStep flow.np (fun q i x => (flow.rhs i).eval (T.meaning (T.const prg) 0) (memOf (full q)) x) B (T.const prg "dt") [(2/3, 1/4), (5/12, 3/20), (3/5, 3/5)])^[250]
          (stateOf flow (T.startState flow prg pts B flowInput a))).q i := by
  intro T
  obtain ⟨prg, hP⟩ := flow_program hp
  have h1 : ∀ d, T.hasClosure d → d = 1 := by
    intro d hd
    fin_cases d
    · simp [Text.hasClosure, T, flowClosed] at hd
    · rfl
  have hS : T.Suits flow .rk flowInput flowArrays := flow_suits _ _ inputs fun d hd => ⟨6, by rw [h1 d hd]; exact_mod_cast hnp⟩
  have hP' := C85_closures_program hS hP fun d hd => by
    rw [h1 d hd]
    exact ⟨flow_points _ _ inputs 1, hnp.trans (by simp [flow]), by decide⟩
  obtain ⟨full, hfull⟩ := program_full hP' fun s => T.startState flow prg pts B flowInput a (.data s)
  obtain ⟨⟨a', r1, r2⟩, -⟩ := C85_rk_partial hS hP' rfl (by simp [T, flowClosed]) (by simp [T, flowClosed]) B a full hfull
  exact ⟨prg, full, hP.generated, a', r1, r2⟩

/-- The derivative of `y⁴` at the wall of this program, with 6 points a distance 1/2 apart: `4 y³` at `y = 3`, the first point. -/
example (carpenter : Fin 4 → Fin 6 → ℚ) (const : String → ℝ) (hnp : const "block0np1" = 6) (hδ : const "Delta1block0" = 1 / 2) :
    let T := flowClosed ![⟨none, none⟩, ⟨some .reducedAccess, some .reducedOrder⟩] carpenter (fun _ => 0)
    (T.meaning const 0).cd 1 1 (fun x => (3 + x 1 * (1 / 2)) ^ 4) ![2, 0] = 4 * 3 ^ 3 := by
  intro T
  have h := C85_closure_exact_partial (T := T) const 0 1 1 (.inl rfl) 6 (by exact_mod_cast hnp) (fun _ => by simp [T, flowClosed]) false .reducedAccess (by simp)
    (by simp [T, flowClosed]) 0 (by decide) (fun x => (3 + x 1 * (1 / 2)) ^ 4) ![2, 0] rfl (by simp) (Polynomial.X ^ 4) (by simp [Closure.designDegree]) 3
    (by change const "Delta1block0" ≠ 0; rw [hδ]; norm_num) (fun i => by change _ = Polynomial.eval (3 + i * const "Delta1block0") _; rw [hδ]; simp)
  rw [h]
  simp
  norm_num

/-- Its second derivative of `y²` at the other end has the wrong sign when the spacing is one. -/
example (carpenter : Fin 4 → Fin 6 → ℚ) (const : String → ℝ) (hnp : const "block0np1" = 6) (hδ : const "Delta1block0" = 1) :
    ((flowClosed ![⟨none, none⟩, ⟨some .reducedAccess, some .reducedOrder⟩] carpenter (fun _ => 0)).meaning const 0).cd 1 2 (fun x => (x 1 : ℝ) ^ 2) ![2, 5] = -2 :=
  C85_reduced_order_wrong const 0 1 6 (by exact_mod_cast hnp) hδ rfl (by simp [flowClosed, Closure.leftPoints, Closure.closurePoints]) _ (by simp)

/-- C85: names can clash. With a user's dataset called `wk0`, which has the name of the first work array, the equation `q = wk0` after the work array has been set
to one gives `q = 1` in the printed program, not the values of the dataset. No name is checked (`work_array`, core/grid.py 26-45). -/
theorem C85_name_clash (inputs : String → ℝ) (r : Ranges.Kernel 2) (pts : Ranges.Kernel 2 → List (P 2)) (x : P 2) (hx : pts r = [x]) (B : Sol 2 0 → Sol 2 0)
    (a : Arrays 2) (I : Interp 2) :
    let k₁ : Ker 2 := ⟨r, [(.work 0, .num 1)]⟩
    let k₂ : Ker 2 := ⟨r, [(.data "q", .arr (.data "wk0"))]⟩
    let prg : List (Alg.Node (Call 2)) := [.kernel (.comp k₁), .kernel (.comp k₂)]
    (∃ a', (flowText inputs).run prg pts Fin.elim0 B (Alg.runProgram prg) a = some a' ∧ a' ((flowText inputs).names (.data "q")) x = 1) ∧
    Alg.effect (exec I pts Fin.elim0 B) (Alg.runProgram prg) (fun A => a ((flowText inputs).names A)) (.data "q") x = a ((flowText inputs).names (.data "wk0")) x := by
  intro k₁ k₂ prg
  classical
  have hw : ∀ c, c ∈ written prg ↔ c = .comp k₁ ∨ c = .comp k₂ := by
    intro c
    simp only [written, (Alg.C44_kernels_emitted_once prg).2]
    constructor
    · rintro ⟨n, hn, ho⟩
      simp only [prg, List.mem_cons, List.not_mem_nil, or_false] at hn
      rcases hn with rfl | rfl
      · exact .inl (Alg.occurs_kernel ho)
      · exact .inr (Alg.occurs_kernel ho)
    · rintro (rfl | rfl)
      · exact ⟨_, by simp [prg], .here⟩
      · exact ⟨_, by simp [prg], .here⟩
  have hp : ∀ k, .comp k ∈ written prg → ∀ q ∈ k.eqs, q.2.Printable (flowText inputs) := by
    intro k hk q hq
    rcases (hw _).1 hk with h | h <;> cases h <;> rw [List.mem_singleton] at hq <;> subst hq <;> trivial
  have hall : (flowText inputs).AllProper prg := by
    intro c hc eqs he
    rcases (hw c).1 hc with rfl | rfl <;> rw [List.mem_singleton.1 he] <;> exact comp_proper flowOps_registered _ (hp _ hc)
  let T := flowText inputs
  let after (k : Ker 2) (a : Arrays 2) : Arrays 2 := fun b y =>
    (effect T.lib (T.outer prg 0 x) (k.printed T) ⟨fun b off => a b (x + off), fun _ => 0⟩).data b (y - x)
  have e : ∀ (k : Ker 2) (_ : .comp k ∈ written prg) (a : Arrays 2), (pts r).foldlM (T.callAt prg (.comp k) 0) a = some (after k a) := fun k hk a => by
    rw [hx, List.foldlM_cons, callAt_eq realLib_conforms flowOps_registered hall _ hk _ rfl (comp_globs k (hp k hk))]
    rfl
  refine ⟨⟨after k₂ (after k₁ a), ?_, ?_⟩, ?_⟩
  · have h1 : T.exec prg pts Fin.elim0 B (.call (.comp k₁) ⟨none, none⟩) a = some (after k₁ a) := e k₁ ((hw _).2 (.inl rfl)) a
    have h2 : T.exec prg pts Fin.elim0 B (.call (.comp k₂) ⟨none, none⟩) (after k₁ a) = some (after k₂ (after k₁ a)) := e k₂ ((hw _).2 (.inr rfl)) _
    change (T.exec prg pts Fin.elim0 B (.call (.comp k₁) ⟨none, none⟩) a).bind (fun a => (T.exec prg pts Fin.elim0 B (.call (.comp k₂) ⟨none, none⟩) a).bind some) = _
    rw [h1, Option.bind_some, h2, Option.bind_some]
  · simp [after, T, Ker.printed, k₁, k₂, effect, Ex.sym, CCode.Mem.set, Sym.val, flowClosed]
    rw [show "wk" ++ Nat.repr 0 ++ "_B0" = "wk0_B0" from by decide +kernel]
    simp
  · simp [Alg.effect, Alg.runProgram, prg, Alg.runAll, Alg.Node.run, exec, runKer, k₁, k₂, hx, atPoint, Mem.set, Ex.eval]

end OpenSBLI.Sim
