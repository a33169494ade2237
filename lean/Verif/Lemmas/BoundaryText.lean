import Verif.Spec.BoundaryText
import Verif.Lemmas.Boundary
import Verif.Lemmas.SimulationText
import Verif.Lemmas.Simulation

/-! # The text of boundary conditions: helper lemmas for C91 -/
namespace OpenSBLI.Bc
open OpenSBLI.CCode OpenSBLI.Sim OpenSBLI.Reg

variable {D n : ℕ}

/-! ## Programs along a line -/

theorem run_congr {good : Cell D → Prop} {prog : List (Assign D)} (h : ∀ a ∈ prog, good a.target → ∀ c ∈ a.rhs.cells, good c) {st st' : Cell D → ℝ}
    (hs : ∀ c, good c → st c = st' c) : ∀ c, good c → run prog st c = run prog st' c := by
  induction prog generalizing st st' with
  | nil => exact hs
  | cons a prog ih =>
    rw [run_cons, run_cons]
    refine ih (fun b hb => h b (List.mem_cons_of_mem _ hb)) fun c hc => ?_
    by_cases e : c = a.target
    · subst e
      rw [Function.update_self, Function.update_self]
      exact eval_congr fun c' hc' => hs c' (h a (by simp) hc c' hc')
    · rw [Function.update_of_ne e, Function.update_of_ne e]
      exact hs c hc

theorem run_kept {prog : List (Assign D)} {c : Cell D} (h : ∀ a ∈ prog, a.target ≠ c) (st : Cell D → ℝ) : run prog st c = st c := by
  induction prog generalizing st with
  | nil => rfl
  | cons a prog ih =>
    rw [run_cons, ih (fun b hb => h b (List.mem_cons_of_mem _ hb)), Function.update_of_ne (Ne.symm (h a (by simp)))]

theorem single_inj {d : Fin D} {k k' : ℤ} (h : (Pi.single d k : P D) = Pi.single d k') : k = k' := by simpa using congrFun h d

/-! ## A kernel function at a point -/

theorem effect_says {N : Spelling D} {L : Lib ℝ} {o : Outer D ℝ} {eqs : List (Eqn D)} {prog : List (Assign D)} (h : SaysLine N L o eqs prog)
    (ha : Function.Injective N.array) (Ls : List Loc) (hv : ∀ l ∈ Ls, ∀ l' ∈ Ls, N.var l = N.var l' → l = l') (hL : ∀ l ∈ locals prog, l ∈ Ls)
    (st : CCode.Mem D ℝ) (r : Cell D → ℝ) (hd : ∀ v k, st.data (N.array v) (Pi.single N.dir k) = r (.data v k)) (hl : ∀ l ∈ Ls, st.loc (N.var l) = r (.loc l)) :
    (∀ v k, (effect L o eqs st).data (N.array v) (Pi.single N.dir k) = run prog r (.data v k)) ∧
    ∀ b off, (¬ ∃ v k, b = N.array v ∧ off = Pi.single N.dir k) → (effect L o eqs st).data b off = st.data b off := by
  induction h generalizing st r with
  | nil => exact ⟨hd, fun _ _ _ => rfl⟩
  | @cons q a eqs prog hq _ ih =>
    obtain ⟨rhs, rfl, hval⟩ := hq
    have hval' : rhs.val L o st = a.rhs.eval r := by
      rw [hval]
      refine eval_congr fun c hc => ?_
      cases c with
      | data v k => exact hd v k
      | loc l =>
        refine hl l (hL l ?_)
        simp only [locals, List.flatMap_cons, List.mem_append, List.mem_filterMap]
        exact .inl ⟨.loc l, by simp [hc], rfl⟩
    have hL' : ∀ l ∈ locals prog, l ∈ Ls := fun l hl' => hL l (by simp only [locals, List.flatMap_cons, List.mem_append]; exact .inr hl')
    have key := ih hL' (st.set (N.lhs a.target) (rhs.val L o st)) (Function.update r a.target (a.rhs.eval r)) ?_ ?_
    · refine ⟨key.1, fun b off hb => (key.2 b off hb).trans ?_⟩
      cases ht : a.target with
      | loc l => simp [Spelling.lhs, CCode.Mem.set]
      | data v k =>
        simp only [Spelling.lhs, CCode.Mem.set]
        by_cases e : b = N.array v
        · subst e
          rw [Function.update_self, Function.update_of_ne fun e => hb ⟨v, k, rfl, e⟩]
        · rw [Function.update_of_ne e]
    · intro v k
      rw [hval']
      cases ht : a.target with
      | loc l =>
        rw [Function.update_of_ne (by simp)]
        exact hd v k
      | data w j =>
        simp only [Spelling.lhs, CCode.Mem.set]
        by_cases e : v = w
        · subst e
          rw [Function.update_self]
          by_cases e' : k = j
          · subst e'
            rw [Function.update_self, Function.update_self]
          · rw [Function.update_of_ne fun h => e' (single_inj h), Function.update_of_ne (by simpa using e')]
            exact hd v k
        · rw [Function.update_of_ne fun h => e (ha h), Function.update_of_ne (by simp [e])]
          exact hd v k
    · intro l hl'
      rw [hval']
      cases ht : a.target with
      | data v k =>
        rw [Function.update_of_ne (by simp)]
        exact hl l hl'
      | loc m =>
        have hm : m ∈ Ls := hL m (by
          simp only [locals, List.flatMap_cons, List.mem_append, List.mem_filterMap]
          exact .inl ⟨.loc m, by simp [ht], rfl⟩)
        simp only [Spelling.lhs, CCode.Mem.set]
        by_cases e : l = m
        · subst e
          rw [Function.update_self, Function.update_self]
        · rw [Function.update_of_ne fun h => e (hv l hl' m hm h), Function.update_of_ne (by simpa using e)]
          exact hl l hl'

/-- The equations of a kernel carried out at a point. -/
noncomputable def effectAt (T : Text D) (prg : List (Alg.Node (Call D))) (eqs : List (Eqn D)) (stage : ℤ) (a : Arrays D) (x : P D) : Arrays D := fun b y =>
  (effect T.lib (T.outer prg stage x) eqs ⟨fun b off => a b (x + off), fun _ => 0⟩).data b (y - x)

/-- The arrays along the line through a point. -/
def lineOf (N : Spelling D) (a : Arrays D) (x : P D) : Cell D → ℝ
  | .data v k => a (N.array v) (x + Pi.single N.dir k)
  | .loc _ => 0

theorem effectAt_line {T : Text D} {prg : List (Alg.Node (Call D))} {N : Spelling D} {eqs : List (Eqn D)} {prog : List (Assign D)} {stage : ℤ} {x : P D}
    (h : SaysLine N T.lib (T.outer prg stage x) eqs prog) (hN : N.Distinct prog) (a : Arrays D) :
    (∀ v k, effectAt T prg eqs stage a x (N.array v) (x + Pi.single N.dir k) = run prog (lineOf N a x) (.data v k)) ∧
    ∀ b y, (¬ ∃ v k, b = N.array v ∧ y = x + Pi.single N.dir k) → effectAt T prg eqs stage a x b y = a b y := by
  obtain ⟨h1, h2⟩ := effect_says h hN.array _ hN.var (fun _ h => h) ⟨fun b off => a b (x + off), fun _ => 0⟩ (lineOf N a x) (fun _ _ => rfl) (fun _ _ => rfl)
  refine ⟨fun v k => ?_, fun b y hb => ?_⟩
  · rw [effectAt, add_sub_cancel_left]
    exact h1 v k
  · rw [effectAt, h2 b (y - x) fun ⟨v, k, e1, e2⟩ => hb ⟨v, k, e1, by rw [← e2]; abel⟩]
    simp only [add_sub_cancel]

/-! ## Loops whose points do not interfere -/

theorem loop_apart {f : Arrays D → P D → Arrays D} (terr : P D → String → P D → Prop) (l : List (P D)) (hl : l.Nodup)
    (hdisj : ∀ x ∈ l, ∀ y ∈ l, x ≠ y → ∀ b z, terr x b z → ¬ terr y b z) (hout : ∀ a, ∀ x ∈ l, ∀ b z, ¬ terr x b z → f a x b z = a b z)
    (hin : ∀ a a', ∀ x ∈ l, (∀ b z, terr x b z → a b z = a' b z) → ∀ b z, terr x b z → f a x b z = f a' x b z) (a : Arrays D) :
    (∀ x ∈ l, ∀ b z, terr x b z → l.foldl f a b z = f a x b z) ∧ ∀ b z, (∀ x ∈ l, ¬ terr x b z) → l.foldl f a b z = a b z := by
  induction l generalizing a with
  | nil => exact ⟨fun x hx => (by cases hx), fun _ _ _ => rfl⟩
  | cons x l ih =>
    obtain ⟨hx, hl'⟩ := List.nodup_cons.1 hl
    obtain ⟨i1, i2⟩ := ih hl' (fun y hy z hz => hdisj y (List.mem_cons_of_mem _ hy) z (List.mem_cons_of_mem _ hz)) (fun a y hy => hout a y (List.mem_cons_of_mem _ hy))
      (fun a a' y hy => hin a a' y (List.mem_cons_of_mem _ hy)) (f a x)
    refine ⟨fun y hy b z hz => ?_, fun b z hz => ?_⟩
    · rw [List.foldl_cons]
      rcases List.mem_cons.1 hy with rfl | hy'
      · exact i2 b z fun w hw => hdisj y (by simp) w (List.mem_cons_of_mem _ hw) (fun e => hx (e ▸ hw)) b z hz
      · rw [i1 y hy' b z hz]
        refine hin _ _ y hy (fun b z hz => ?_) b z hz
        exact hout a x (by simp) b z fun h => hdisj x (by simp) y hy (fun e => hx (e ▸ hy')) b z h hz
    · rw [List.foldl_cons, i2 b z fun y hy => hz y (List.mem_cons_of_mem _ hy)]
      exact hout a x (by simp) b z (hz x (by simp))

theorem single_zero' (d : Fin D) : (Pi.single d (0 : ℤ) : P D) = 0 := Pi.single_zero d

theorem add_single_eq_shift (x : P D) (d : Fin D) (k : ℤ) : x + Pi.single d k = shift x d k := by
  funext e
  by_cases h : e = d
  · subst h
    simp [shift]
  · simp [shift, h]

/-- Points of a plane are on different lines. -/
theorem plane_apart {x y : P D} {d : Fin D} (h : x d = y d) {k k' : ℤ} (e : x + Pi.single d k = y + Pi.single d k') : x = y := by
  have hk : k = k' := by
    have := congrFun e d
    simp only [Pi.add_apply, Pi.single_eq_same, h] at this
    omega
  subst hk
  exact add_right_cancel e

section
variable {T : Text D} {prg : List (Alg.Node (Call D))} {N : Spelling D} {eqs : List (Eqn D)} {prog : List (Assign D)} {stage : ℤ}

/-- The loop over the points of a plane. -/
theorem loop_lines (h : ∀ x, SaysLine N T.lib (T.outer prg stage x) eqs prog) (hN : N.Distinct prog) {l : List (P D)} (hl : l.Nodup) {p : ℤ} (hp : ∀ x ∈ l, x N.dir = p)
    (a : Arrays D) :
    (∀ x ∈ l, ∀ v k, l.foldl (effectAt T prg eqs stage) a (N.array v) (x + Pi.single N.dir k) = run prog (lineOf N a x) (.data v k)) ∧
    ∀ b y, (∀ x ∈ l, ¬ ∃ v k, b = N.array v ∧ y = x + Pi.single N.dir k) → l.foldl (effectAt T prg eqs stage) a b y = a b y := by
  obtain ⟨h1, h2⟩ := loop_apart (f := effectAt T prg eqs stage) (fun x b z => ∃ v k, b = N.array v ∧ z = x + Pi.single N.dir k) l hl
    (by
      rintro x hx y hy hne b z ⟨v, k, rfl, rfl⟩ ⟨v', k', -, e⟩
      exact hne (plane_apart ((hp x hx).trans (hp y hy).symm) e))
    (fun a x _ b z hz => (effectAt_line (h x) hN a).2 b z hz)
    (by
      rintro a a' x hx hag b z ⟨v, k, rfl, rfl⟩
      rw [(effectAt_line (h x) hN a).1, (effectAt_line (h x) hN a').1]
      congr 1
      funext c
      cases c with
      | data v k => exact hag _ _ ⟨v, k, rfl, rfl⟩
      | loc l => rfl) a
  exact ⟨fun x hx v k => (h1 x hx _ _ ⟨v, k, rfl, rfl⟩).trans ((effectAt_line (h x) hN a).1 v k), h2⟩

/-- The loop over points of a kernel that reads and writes at the point only. -/
theorem loop_points (h : ∀ x, SaysLine N T.lib (T.outer prg stage x) eqs prog) (hN : N.Distinct prog) (hz : AtPoint prog) {l : List (P D)} (hl : l.Nodup) (a : Arrays D) :
    (∀ x ∈ l, ∀ v, l.foldl (effectAt T prg eqs stage) a (N.array v) x = run prog (lineOf N a x) (.data v 0)) ∧
    ∀ b y, (∀ x ∈ l, ¬ ∃ v, b = N.array v ∧ y = x) → l.foldl (effectAt T prg eqs stage) a b y = a b y := by
  have hx0 : ∀ x : P D, x + Pi.single N.dir (0 : ℤ) = x := fun x => by rw [single_zero', add_zero]
  have key : ∀ a x v, effectAt T prg eqs stage a x (N.array v) x = run prog (lineOf N a x) (.data v 0) := fun a x v => by
    have := (effectAt_line (h x) hN a).1 v 0
    rwa [hx0] at this
  obtain ⟨h1, h2⟩ := loop_apart (f := effectAt T prg eqs stage) (fun x b z => ∃ v, b = N.array v ∧ z = x) l hl
    (by
      rintro x hx y hy hne b z ⟨v, rfl, rfl⟩ ⟨v', -, e⟩
      exact hne e)
    (by
      intro a x _ b z hb
      by_cases e : ∃ v k, b = N.array v ∧ z = x + Pi.single N.dir k
      · obtain ⟨v, k, rfl, rfl⟩ := e
        rw [(effectAt_line (h x) hN a).1, run_kept]
        · rfl
        · intro b hb' ht
          refine hb ⟨v, rfl, ?_⟩
          rw [hz b hb' v k (by simp [ht]), hx0]
      · exact (effectAt_line (h x) hN a).2 b z e)
    (by
      rintro a a' x hx hag b z ⟨v, rfl, rfl⟩
      rw [key, key]
      refine run_congr (good := fun c => ∀ v k, c = .data v k → k = 0) (fun b hb _ c hc v k e => ?_) (fun c hc => ?_) _ (by simp)
      · exact hz b hb v k (by subst e; simp [hc])
      · cases c with
        | data v k =>
          have := hc v k rfl
          subst this
          simp only [lineOf, hx0]
          exact hag _ _ ⟨v, rfl, rfl⟩
        | loc l => rfl) a
  exact ⟨fun x hx v => (h1 x hx _ _ ⟨v, rfl, rfl⟩).trans (key a x v), h2⟩

end

/-! ## The conditions of a block -/

section
variable {T : Text D} {prg : List (Alg.Node (Call D))} {sol : Fin n → String} {vs : Fin n → Var D} {pts : Ranges.Kernel D → List (P D)} {stage : ℤ}

/-- The solution in the arrays. -/
def solution (T : Text D) (sol : Fin n → String) (a : Arrays D) : Sol D n := fun i => a (T.names (.data (sol i)))

theorem line_agree {N : Spelling D} {prog : List (Assign D)} (hc : Confined vs prog) (hn : ∀ i, N.array (vs i) = T.names (.data (sol i))) (a : Arrays D) (x : P D) (i : Fin n) (k : ℤ) :
    run prog (lineOf N a x) (.data (vs i) k) = run prog (lineState vs N.dir (solution T sol a) x) (.data (vs i) k) := by
  obtain ⟨good, g1, g2, g3⟩ := hc.reads
  refine run_congr g3 (fun c hc' => ?_) _ (g1 i k)
  cases c with
  | loc l => rfl
  | data v k =>
    obtain ⟨j, rfl⟩ := g2 v k hc'
    simp only [lineOf, lineState]
    cases hf : (List.finRange n).find? fun i : Fin n => vs i = vs j with
    | none => exact absurd (List.find?_eq_none.1 hf j (by simp)) (by simp)
    | some j' =>
      have : vs j' = vs j := by simpa using List.find?_some hf
      simp only [solution]
      rw [← this, hn, add_single_eq_shift]

/-- What the loop of a kernel makes of the arrays. -/
def Achieves (T : Text D) (sol : Fin n → String) (op : Sol D n → Sol D n) (a a' : Arrays D) : Prop :=
  (∀ i, a' (T.names (.data (sol i))) = op (solution T sol a) i) ∧ ∀ b, (∀ i, b ≠ T.names (.data (sol i))) → a' b = a b

theorem lines_achieve {N : Spelling D} {eqs : List (Eqn D)} {prog : List (Assign D)} (hp : Enumerates pts) {r : Ranges.Kernel D} {p : ℤ} (hr : r.totalRange N.dir = (p, p + 1))
    (hc : Confined vs prog) (hN : N.Distinct prog) (hn : ∀ i, N.array (vs i) = T.names (.data (sol i))) (h : ∀ x, SaysLine N T.lib (T.outer prg stage x) eqs prog) (a : Arrays D) :
    Achieves T sol (onLines vs r.visits N.dir p prog) a ((pts r).foldl (effectAt T prg eqs stage) a) := by
  have hplane : ∀ x, r.visits x → x N.dir = p := fun x hx => by
    have := hx N.dir
    rw [hr] at this
    omega
  obtain ⟨h1, h2⟩ := loop_lines h hN (hp r).1 (p := p) (fun x hx => hplane x (((hp r).2 x).1 hx)) a
  have split : ∀ y : P D, Function.update y N.dir p + Pi.single N.dir (y N.dir - p) = y := fun y => by
    rw [add_single_eq_shift]
    simp [shift]
  refine ⟨fun i => funext fun y => ?_, fun b hb => funext fun y => ?_⟩
  · simp only [onLines]
    by_cases hv : r.visits (Function.update y N.dir p)
    · rw [if_pos hv, ← line_agree hc hn a, ← hn i, ← h1 _ (((hp r).2 _).2 hv) (vs i), split]
    · rw [if_neg hv, h2]
      · rfl
      · rintro x hx ⟨v, k, -, rfl⟩
        refine hv ?_
        have hx' := ((hp r).2 x).1 hx
        rw [add_single_eq_shift, shift, Function.update_idem, ← hplane x hx', Function.update_eq_self]
        exact hx'
  · by_cases e : ∃ v, b = N.array v
    · obtain ⟨v, rfl⟩ := e
      by_cases hv : r.visits (Function.update y N.dir p)
      · rw [← split y, h1 _ (((hp r).2 _).2 hv), run_kept]
        · rfl
        · intro q hq ht
          obtain ⟨i, rfl⟩ := hc.targets q hq v _ ht
          exact hb i (hn i)
      · refine h2 _ _ ?_
        rintro x hx ⟨v, k, -, rfl⟩
        refine hv ?_
        have hx' := ((hp r).2 x).1 hx
        rw [add_single_eq_shift, shift, Function.update_idem, ← hplane x hx', Function.update_eq_self]
        exact hx'
    · exact h2 _ _ fun x _ ⟨v, k, hv, _⟩ => e ⟨v, hv⟩

theorem points_achieve {N : Spelling D} {eqs : List (Eqn D)} {prog : List (Assign D)} (hp : Enumerates pts) {r : Ranges.Kernel D} (hz : AtPoint prog)
    (hc : Confined vs prog) (hN : N.Distinct prog) (hn : ∀ i, N.array (vs i) = T.names (.data (sol i))) (h : ∀ x, SaysLine N T.lib (T.outer prg stage x) eqs prog) (a : Arrays D) :
    Achieves T sol (onPoints vs r.visits N.dir prog) a ((pts r).foldl (effectAt T prg eqs stage) a) := by
  obtain ⟨h1, h2⟩ := loop_points h hN hz (hp r).1 a
  refine ⟨fun i => funext fun y => ?_, fun b hb => funext fun y => ?_⟩
  · simp only [onPoints]
    by_cases hv : r.visits y
    · rw [if_pos hv, ← line_agree hc hn a, ← hn i, ← h1 _ (((hp r).2 _).2 hv) (vs i)]
    · rw [if_neg hv, h2]
      · rfl
      · rintro x hx ⟨v, -, rfl⟩
        exact hv (((hp r).2 _).1 hx)
  · by_cases e : ∃ v, b = N.array v
    · obtain ⟨v, rfl⟩ := e
      by_cases hv : r.visits y
      · rw [h1 _ (((hp r).2 _).2 hv), run_kept]
        · simp only [lineOf, single_zero', add_zero]
        · intro q hq ht
          obtain ⟨i, rfl⟩ := hc.targets q hq v _ ht
          exact hb i (hn i)
      · refine h2 _ _ ?_
        rintro x hx ⟨v, -, rfl⟩
        exact hv (((hp r).2 _).1 hx)
    · exact h2 _ _ fun x _ ⟨v, hv, _⟩ => e ⟨v, hv⟩

theorem foldlM_some {α β : Type} {f : β → α → Option β} {g : β → α → β} (h : ∀ b a, f b a = some (g b a)) (l : List α) (b : β) : l.foldlM f b = some (l.foldl g b) := by
  induction l generalizing b with
  | nil => rfl
  | cons a l ih => rw [List.foldlM_cons, h, List.foldl_cons]; exact ih _

theorem callEqs_eq (hl : T.lib.Conforms) (hr : Registered T.ops) (hw : T.AllProper prg) (hc : .bc ∈ written prg) {eqs : List (Eqn D)} (he : eqs ∈ T.bcTexts)
    {before after : List (List (Eqn D))} (hall : (written prg).flatMap T.texts = before ++ eqs :: after) (a : Arrays D) (x : P D) :
    T.callEqs prg (printKernels before T.start).2 eqs stage a x = some (effectAt T prg eqs stage a x) := by
  rw [Text.callEqs, kernel_eq hl hr hw hc he hall ∅ (by simp)]
  rfl

theorem achieves_trans {f g : Sol D n → Sol D n} {a a' a'' : Arrays D} (h : Achieves T sol f a a') (h' : Achieves T sol g a' a'') : Achieves T sol (g ∘ f) a a'' := by
  have : solution T sol a' = f (solution T sol a) := funext h.1
  exact ⟨fun i => (h'.1 i).trans (by rw [this]; rfl), fun b hb => (h'.2 b hb).trans (h.2 b hb)⟩

theorem runBcs_agree (hl : T.lib.Conforms) (hr : Registered T.ops) (hw : T.AllProper prg) (hc : .bc ∈ written prg) (hp : Enumerates pts) {calls : List (BcCall D)} {items : List (Item D)}
    (h : List.Forall₂ (Renders T prg sol vs) calls items) (hsub : ∀ c ∈ calls, c ∈ T.bcs) {before after : List (List (Eqn D))}
    (hall : (written prg).flatMap T.texts = before ++ (calls.filterMap fun | .kernel _ eqs => some eqs | .exchange _ _ => none) ++ after) (a : Arrays D) :
    ∃ a', T.runBcs prg pts stage calls (printKernels before T.start).2 a = some a' ∧ Achieves T sol (conditions vs items) a a' := by
  induction h generalizing before a with
  | nil => exact ⟨a, rfl, fun _ => rfl, fun _ _ => rfl⟩
  | @cons c i calls items hci _ ih =>
    have hsub' : ∀ c ∈ calls, c ∈ T.bcs := fun c hc => hsub c (List.mem_cons_of_mem _ hc)
    have hcond : conditions vs (i :: items) = conditions (n := n) vs items ∘ i.op vs := rfl
    rw [hcond]
    cases c with
    | exchange t names =>
      cases i with
      | exchange t' =>
        obtain ⟨rfl, hn⟩ := hci
        obtain ⟨a', h1, h2⟩ := ih hsub' hall fun b => if b ∈ names then t.apply (a b) else a b
        refine ⟨a', h1, achieves_trans ⟨fun i => ?_, fun b hb => ?_⟩ h2⟩
        · rw [if_pos ((hn _).2 ⟨i, rfl⟩)]
          rfl
        · rw [if_neg fun h => ?_]
          obtain ⟨i, hi⟩ := (hn b).1 h
          exact hb i hi
      | lines => exact hci.elim
      | points => exact hci.elim
    | kernel r eqs =>
      have he : eqs ∈ T.bcTexts := List.mem_filterMap.2 ⟨.kernel r eqs, hsub _ (by simp), rfl⟩
      have hall' : (written prg).flatMap T.texts = before ++ eqs :: ((calls.filterMap fun | .kernel _ eqs => some eqs | .exchange _ _ => none) ++ after) := by
        rw [hall, List.append_assoc]
        rfl
      have hall'' : (written prg).flatMap T.texts = (before ++ [eqs]) ++ (calls.filterMap fun | .kernel _ eqs => some eqs | .exchange _ _ => none) ++ after := by
        rw [hall']
        simp
      have hreg : (printBody eqs (printKernels before T.start).2).2 = (printKernels (before ++ [eqs]) T.start).2 := by
        rw [printKernels_append]
        rfl
      have hloop := foldlM_some (f := T.callEqs prg (printKernels before T.start).2 eqs stage) (callEqs_eq (stage := stage) hl hr hw hc he hall') (pts r) a
      obtain ⟨a', h1, h2⟩ := ih hsub' hall'' ((pts r).foldl (effectAt T prg eqs stage) a)
      refine ⟨a', ?_, achieves_trans ?_ h2⟩
      · rw [Text.runBcs, hloop, Option.bind_some, hreg]
        exact h1
      · cases i with
        | lines r' dir p prog =>
          obtain ⟨rfl, k1, k2, N, rfl, k3, k4, k5⟩ := hci
          exact lines_achieve hp k1 k2 k3 k4 (fun x => k5 stage x) a
        | points r' dir prog =>
          obtain ⟨rfl, k1, k2, N, rfl, k3, k4, k5⟩ := hci
          exact points_achieve hp k1 k2 k3 k4 (fun x => k5 stage x) a
        | exchange t => exact hci.elim

open Classical in
/-- The conditions in a program. -/
theorem bcs_agree (hl : T.lib.Conforms) (hr : Registered T.ops) (hw : T.AllProper prg) (hc : .bc ∈ written prg) (hp : Enumerates pts) {items : List (Item D)}
    (h : List.Forall₂ (Renders T prg sol vs) T.bcs items) (a : Arrays D) :
    ∃ a', T.runBcs prg pts stage T.bcs (T.before prg .bc) a = some a' ∧ Achieves T sol (conditions vs items) a a' := by
  obtain ⟨after, ha⟩ := split_at .bc hc
  refine runBcs_agree hl hr hw hc hp h (fun _ h => h) (after := after.flatMap T.texts) ?_ a
  conv_lhs => rw [ha]
  rw [List.flatMap_append, List.flatMap_cons, List.append_assoc]
  rfl

theorem exec_of_achieves {op : Sol D n → Sol D n} {a a' : Arrays D} (h : Achieves T sol op a a') (e : Alg.Env) :
    T.exec prg pts sol op (.call .bc e) a = some a' := by
  simp only [Text.exec]
  congr 1
  funext b
  split
  · rename_i i hi
    have : T.names (.data (sol i)) = b := by simpa using List.find?_some hi
    rw [← this]
    exact (h.1 i).symm
  · rename_i hi
    exact (h.2 b fun i hb => by simpa [hb] using List.find?_eq_none.1 hi i (by simp)).symm

end

end OpenSBLI.Bc
