import Verif.Lemmas.ShockTextPoint
import Verif.Lemmas.SimulationTextSetup
import Verif.Props.C81_ReconKernel

/-! # The printed kernels of a shock capturing scheme in their loops: helper lemmas for C86 -/
namespace OpenSBLI.Sim
open Recon CCode Reg

variable {D n : ℕ} {T : Text D} {U : Arr → Prop} {lit : ℝ → Sym D} {S : Sympy D} {prg : List (Alg.Node (Call D))} {pts : Ranges.Kernel D → List (P D)}

/-- A kernel that reads no array it writes: it is enough that the printed function is right at every point. -/
theorem body_agrees (hp : Enumerates pts) (hinj : ∀ a b, U a → U b → T.names a = T.names b → a = b) (k : FnKer D) (hn : (k.eqs.map Prod.fst).Nodup) (hu : ∀ q ∈ k.eqs, U q.1)
    (hr : ∀ q ∈ k.eqs, ∀ m m' : Mem D, (∀ a, a ∉ k.eqs.map Prod.fst → m a = m' a) → q.2 (T.meaning (T.const prg) 0) m = q.2 (T.meaning (T.const prg) 0) m') (m : Mem D)
    (hcall : ∀ stage a, (∀ A, U A → A ∉ k.eqs.map Prod.fst → a (T.names A) = m A) → ∀ x, k.range.visits x → ∃ a', T.callAt prg (.fn k) stage a x = some a' ∧
      (∀ q ∈ k.eqs, a' (T.names q.1) x = q.2 (T.meaning (T.const prg) 0) m x) ∧ ∀ b y, (y ≠ x ∨ ∀ q ∈ k.eqs, b ≠ T.names q.1) → a' b y = a b y) : BodyAgrees T prg U pts k m := by
  intro stage a ha
  have key : ∀ l : List (P D), (∀ x ∈ l, k.range.visits x) → ∀ a : Arrays D, (∀ A, U A → A ∉ k.eqs.map Prod.fst → a (T.names A) = m A) →
      ∃ a', l.foldlM (T.callAt prg (.fn k) stage) a = some a' ∧ (∀ q ∈ k.eqs, ∀ x ∈ l, a' (T.names q.1) x = q.2 (T.meaning (T.const prg) 0) m x) ∧
        ∀ b y, (y ∉ l ∨ ∀ q ∈ k.eqs, b ≠ T.names q.1) → a' b y = a b y := by
    intro l
    induction l with
    | nil => exact fun _ a _ => ⟨a, rfl, by simp, fun _ _ _ => rfl⟩
    | cons x l ih =>
      intro hl a ha
      obtain ⟨a1, h1, h2, h3⟩ := hcall stage a ha x (hl x (by simp))
      have ha1 : ∀ A, U A → A ∉ k.eqs.map Prod.fst → a1 (T.names A) = m A := fun A hA hk => by
        rw [← ha A hA hk]
        funext y
        exact h3 _ _ (.inr fun q hq e => hk (List.mem_map.2 ⟨q, hq, (hinj _ _ hA (hu q hq) e).symm⟩))
      obtain ⟨a2, g1, g2, g3⟩ := ih (fun y hy => hl y (by simp [hy])) a1 ha1
      refine ⟨a2, by rw [List.foldlM_cons, h1]; exact g1, fun q hq y hy => ?_, fun b y hb => ?_⟩
      · by_cases hy' : y ∈ l
        · exact g2 q hq y hy'
        · have : y = x := (List.mem_cons.1 hy).resolve_right hy'
          subst this
          rw [g3 _ _ (.inl hy'), h2 q hq]
      · rw [g3 b y (hb.imp (fun h hy => h (by simp [hy])) id), h3 b y (hb.imp (fun h e => h (by simp [e])) id)]
  obtain ⟨a', h1, h2, h3⟩ := key (pts k.range) (fun x hx => ((hp _).2 x).1 hx) a fun A hA _ => ha A hA
  obtain ⟨r1, r2, r3⟩ := runFn_simul (I := T.meaning (T.const prg) 0) hp k hn hr m
  refine ⟨a', h1, fun A hA => ?_⟩
  funext y
  by_cases hA' : A ∈ k.eqs.map Prod.fst
  · obtain ⟨q, hq, rfl⟩ := List.mem_map.1 hA'
    by_cases hy : k.range.visits y
    · rw [h2 q hq y (((hp _).2 y).2 hy), r1 q hq y hy]
    · rw [h3 _ _ (.inl fun h => hy (((hp _).2 y).1 h)), r2 _ _ hy, ha _ hA]
  · rw [h3 _ _ (.inr fun q hq e => hA' (List.mem_map.2 ⟨q, hq, (hinj _ _ hA (hu q hq) e).symm⟩)), r3 _ hA', ha _ hA]


/-! ## Reconstruction -/

/-- The printed reconstruction kernel at a point, with any arrays that have the datasets of `m`. -/
theorem recon_call (hL : T.lib.Conforms) (hP : ∀ (x : ℝ) (k : ℕ), T.lib.pow x k = x ^ k) (hM : Maths T.lib) (hr : Registered T.ops) (hw : T.AllProper prg)
    (hinj : ∀ a b, U a → U b → T.names a = T.names b → a = b) {K : Input D n} (hK : K.Writable S T U lit) {k : FnKer D} (hk : .fn k ∈ written prg) {eqs : List (Eqn D)} (he : K.text S T lit = some eqs)
    (hf : T.fns k = some eqs) (stage : ℤ) (a : Arrays D) (m : Mem D) (x : P D) (ha : ∀ s, U (.data s) → a (T.names (.data s)) = m (.data s)) :
    ∃ v a', K.stored S (T.meaning (T.const prg) 0) m x = some v ∧ T.callAt prg (.fn k) stage a x = some a' ∧ (∀ i, a' (T.names (.work (K.C.reconWork K.d i))) x = v i) ∧
      ∀ b y, (y ≠ x ∨ ∀ i, b ≠ T.names (.work (K.C.reconWork K.d i))) → a' b y = a b y := by
  obtain ⟨v, h1, h2, h3⟩ := text_effect hL hP hM hinj hK he (T.outer prg stage x) ⟨fun b off => a b (x + off), fun _ => 0⟩ rfl m 0 x fun s hs off => congrFun (ha s hs) (x + off)
  refine ⟨v, _, h1, callAt_eq hL hr hw _ hk eqs hf (fn_globs k) stage a x, fun i => ?_, fun b y hb => ?_⟩
  · simpa only [sub_self] using h2 i
  · rw [h3 b (y - x) (hb.imp sub_ne_zero.2 id)]
    simp

theorem recon_body (hp : Enumerates pts) (hL : T.lib.Conforms) (hP : ∀ (x : ℝ) (k : ℕ), T.lib.pow x k = x ^ k) (hM : Maths T.lib) (hr : Registered T.ops) (hw : T.AllProper prg)
    (hinj : ∀ a b, U a → U b → T.names a = T.names b → a = b) {K : Input D n} (hK : K.Writable S T U lit) (hC : K.C.Core) (hd : K.d ∈ K.C.dirs) (hk : .fn (K.C.reconKernel K.d) ∈ written prg)
    {eqs : List (Eqn D)} (he : K.text S T lit = some eqs) (hf : T.fns (K.C.reconKernel K.d) = some eqs) (hS : S.Sound (T.meaning (T.const prg) 0)) (hO : K.Ok (T.meaning (T.const prg) 0)) (hN : K.Named)
    (hs : K.sensor = none) (m : Mem D) (hx : ∀ x, (K.C.reconKernel K.d).range.visits x → K.RegularAt (T.meaning (T.const prg) 0) m x) : BodyAgrees T prg U pts (K.C.reconKernel K.d) m := by
  have hmem : ∀ q ∈ (K.C.reconKernel K.d).eqs, ∃ i : Fin n, q = (.work (K.C.reconWork K.d i), fun I m x => K.C.interface I m K.d x i) := fun q hq => by
    obtain ⟨i, _, rfl⟩ := List.mem_map.1 hq
    exact ⟨i, rfl⟩
  have hwk : ∀ s, Arr.data s ∉ (K.C.reconKernel K.d).eqs.map Prod.fst := fun s hs => by
    obtain ⟨q, hq, e⟩ := List.mem_map.1 hs
    obtain ⟨i, rfl⟩ := hmem q hq
    cases e
  refine body_agrees hp hinj _ ?_ (fun q hq => ?_) (fun q hq m m' h => ?_) m fun stage a ha x hv => ?_
  · simp only [Shock.reconKernel, List.map_map]
    refine (List.nodup_finRange n).map fun i j h => ?_
    simp only [Function.comp_apply, Arr.work.injEq, Shock.reconWork] at h
    exact Fin.ext (by omega)
  · obtain ⟨i, rfl⟩ := hmem q hq
    exact hK.works i
  · obtain ⟨i, rfl⟩ := hmem q hq
    funext x
    exact congrFun (interface_reads hC hd (fun s => h _ (hwk s)) x) i
  · obtain ⟨v, a', h1, h2, h3, h4⟩ := recon_call hL hP hM hr hw hinj hK hk he hf stage a m x fun s hs => ha _ hs (hwk s)
    have hv' := C81_interface K S _ hS hO hN hs m x (hx x hv)
    rw [h1, Option.some.injEq] at hv'
    subst hv'
    refine ⟨a', h2, fun q hq => ?_, fun b y hb => h4 b y (hb.imp id fun h i => ?_)⟩
    · obtain ⟨i, rfl⟩ := hmem q hq
      exact h3 i
    · exact h _ (List.mem_map.2 ⟨i, List.mem_finRange i, rfl⟩)

/-! ## Residuals -/

variable {C : Shock D n}

theorem rest_static (hC : C.Core) (hR : C.Printable T U) (hU : ∀ i, ∀ a ∈ (C.rhs i).arrs, U a) (i : Fin n) : Static T U (C.rhs i).zeroDer :=
  ⟨hR.rest i, zeroDer_cds _, zeroDer_steady _ (hC.rhsSteady i), fun a ha => hU i a (zeroDer_arrs _ a ha)⟩

theorem residual_val (hL : T.lib.Conforms) (hC : C.Core) (hR : C.Printable T U) (hW : ∀ i, U (.work i)) (hU : ∀ i, ∀ a ∈ (C.rhs i).arrs, U a) (i : Fin n) (o : Outer D ℝ) (st : CCode.Mem D ℝ) (m : Mem D) (x : P D)
    (hst : ∀ A, U A → (∀ i : ℕ, A ≠ .res i) → ∀ off, st.data (T.names A) off = m A (x + off)) :
    (C.residualSym T i).val T.lib o st = (C.dirs.map fun d => (C.coef d i).zeroDer.eval (T.meaning o.const 0) m x * C.difference (T.meaning o.const 0) m d i x).sum + (C.rhs i).zeroDer.eval (T.meaning o.const 0) m x := by
  have hval : ∀ e : Ex D, Static T U e → e.plain → (e.sym T 0).val T.lib o st = e.eval (T.meaning o.const 0) m x := fun e he hpl => by
    have := static_val he.flat he.steady o st m 0 x 0 fun a ha => hst a (he.arrays a ha) fun j => by
      obtain ⟨s, rfl⟩ := hpl a ha
      simp
    rwa [add_zero] at this
  have hrest : (C.rhs i).zeroDer.plain := fun a ha => (hC.rhsPlain i).1 a (zeroDer_arrs _ a ha)
  simp only [Shock.residualSym, Sym.val, sumSym_val, List.map_map, Function.comp_def]
  rw [hval _ (rest_static hC hR hU i) hrest]
  congr 2
  refine List.map_congr_left fun d hd => ?_
  have hz : (C.coef d i).zeroDer = C.coef d i := zeroDer_id _ (hC.coef d hd i).2.1 (hC.coef d hd i).2.2
  rw [hz, hval _ (hR.coef d hd i).1 (hR.coef d hd i).2]
  simp only [Shock.differenceText, Sym.val, pow_inv hL, Shock.difference, hst _ (hW _) (by simp)]
  rw [add_zero, ← shift_add, add_zero]
  simp only [Text.meaning]
  push_cast
  ring

theorem residual_proper (hr : Registered T.ops) (hC : C.Core) (hR : C.Printable T U) : T.Proper (C.residualText T) := by
  have hex : ∀ e ∈ exprs (C.residualText T), ∃ i, e = C.residualSym T i := fun e he => by
    simp only [exprs, Shock.residualText, List.flatMap_map, List.mem_flatMap, List.mem_finRange, true_and] at he
    obtain ⟨i, he⟩ := he
    simp only [Eqn.exprs, List.mem_singleton] at he
    exact ⟨i, he⟩
  have hz : ∀ d ∈ C.dirs, ∀ i, (C.coef d i).zeroDer = C.coef d i := fun d hd i => zeroDer_id _ (hC.coef d hd i).2.1 (hC.coef d hd i).2.2
  refine ⟨fun e he c hc => ?_, fun v hv => ?_, fun e he o st => ?_, fun bs hb => ?_, fun e he q hq => ?_⟩
  · obtain ⟨i, rfl⟩ := hex e he
    simp only [Shock.residualSym, Sym.consts, Finset.mem_union] at hc
    rcases hc with hc | hc
    · obtain ⟨s, hs, hc⟩ := sumSym_consts _ _ hc
      obtain ⟨d, hd, rfl⟩ := List.mem_map.1 hs
      simp only [Shock.differenceText, Sym.consts, Finset.mem_union, Finset.mem_singleton, Finset.notMem_empty, false_or, or_false] at hc
      rcases hc with hc | rfl
      · rw [hz d hd] at hc
        exact sym_consts hr _ (hR.coef d hd i).1.printable 0 c hc
      · exact hR.spacing d hd
    · exact sym_consts hr _ (hR.rest i) 0 c hc
  · rw [declaredVars, mem_unions] at hv
    obtain ⟨q, hq, hv⟩ := hv
    obtain ⟨i, -, rfl⟩ := List.mem_map.1 hq
    have : (C.residualSym T i).gvars = ∅ := by
      simp only [Shock.residualSym, Sym.gvars, sym_gvars, Finset.union_empty]
      refine sumSym_gvars _ fun s hs => ?_
      obtain ⟨d, _, rfl⟩ := List.mem_map.1 hs
      simp [Shock.differenceText, Sym.gvars, sym_gvars]
    simp only [Eqn.gvars, Assign.gvars, Lhs.gvars, this, Finset.empty_union, Finset.notMem_empty] at hv
  · obtain ⟨i, rfl⟩ := hex e he
    refine ⟨sumSym_faithful _ _ _ _ _ fun s hs => ?_, sym_faithful _ (hR.rest i) o st 0⟩
    obtain ⟨d, hd, rfl⟩ := List.mem_map.1 hs
    rw [hz d hd]
    exact ⟨sym_faithful _ (hR.coef d hd i).1.printable o st 0, ⟨⟨trivial, trivial, trivial, by simp [Sym.recipInt]⟩, ⟨trivial, trivial⟩, by simp [Sym.recipInt, Sym.isInt]⟩, by simp [Shock.differenceText, Sym.recipInt]⟩
  · simp [Shock.residualText] at hb
  · obtain ⟨i, rfl⟩ := hex e he
    simp only [Shock.residualSym, Sym.inverses, List.mem_append] at hq
    rcases hq with hq | hq
    · obtain ⟨s, hs, hq⟩ := sumSym_inverses _ _ hq
      obtain ⟨d, hd, rfl⟩ := List.mem_map.1 hs
      rw [hz d hd] at hq
      simp only [Sym.inverses, List.mem_append] at hq
      rcases hq with hq | hq
      · exact (sym_inverses hr _ (hR.coef d hd i).1.printable 0 q hq).1
      · have : ∀ k ∈ (Sym.pow (.const (C.spacing d)) (.num (-1)) : Sym D).inverses, k.Closed := pow_inverses (by simp [Sym.inverses]) (by simp [Sym.inverses]) fun _ => trivial
        simp only [Shock.differenceText, Sym.inverses, List.append_nil, List.nil_append] at hq
        exact this q hq
    · exact (sym_inverses hr _ (hR.rest i) 0 q hq).1

theorem residual_effect (hL : T.lib.Conforms) (hinj : ∀ a b, U a → U b → T.names a = T.names b → a = b) (hC : C.Core) (hR : C.Printable T U) (hW : ∀ i, U (.work i)) (hU : ∀ i, ∀ a ∈ (C.rhs i).arrs, U a)
    (hres : ∀ i : Fin n, U (.res i)) (l : List (Fin n)) (hnd : l.Nodup) (o : Outer D ℝ) (st : CCode.Mem D ℝ) (m : Mem D) (x : P D)
    (hst : ∀ A, U A → (∀ i : ℕ, A ≠ .res i) → ∀ off, st.data (T.names A) off = m A (x + off)) :
    (∀ i ∈ l, (effect T.lib o (l.map fun i : Fin n => .assign ⟨.data (T.names (.res i)) 0, C.residualSym T i⟩) st).data (T.names (.res i)) 0 =
      (C.dirs.map fun d => (C.coef d i).zeroDer.eval (T.meaning o.const 0) m x * C.difference (T.meaning o.const 0) m d i x).sum + (C.rhs i).zeroDer.eval (T.meaning o.const 0) m x) ∧
    ∀ b off, (off ≠ 0 ∨ ∀ i ∈ l, b ≠ T.names (.res i)) → (effect T.lib o (l.map fun i : Fin n => .assign ⟨.data (T.names (.res i)) 0, C.residualSym T i⟩) st).data b off = st.data b off := by
  induction l generalizing st with
  | nil => exact ⟨by simp, fun _ _ _ => rfl⟩
  | cons i l ih =>
    simp only [List.nodup_cons] at hnd
    obtain ⟨h1, h2⟩ := ih hnd.2 (st.set (.data (T.names (.res i)) 0) ((C.residualSym T i).val T.lib o st)) fun A hA hn off => by
      rw [← hst A hA hn off]
      have : T.names A ≠ T.names (.res i) := fun e => hn i (hinj _ _ hA (hres i) e)
      simp only [CCode.Mem.set, Function.update_of_ne this]
    simp only [List.map_cons, effect]
    refine ⟨fun j hj => ?_, fun b off hb => ?_⟩
    · rcases List.mem_cons.1 hj with rfl | hj
      · rw [h2 _ _ (.inr fun j' hj' e => hnd.1 (by
          have := hinj _ _ (hres j) (hres j') e
          simp only [Arr.res.injEq] at this
          exact Fin.ext this ▸ hj'))]
        simp only [CCode.Mem.set, Function.update_self]
        exact residual_val hL hC hR hW hU j o st m x hst
      · exact h1 j hj
    · rw [h2 b off (hb.imp id fun h j hj => h j (by simp [hj]))]
      simp only [CCode.Mem.set]
      by_cases hbq : b = T.names (.res i)
      · subst hbq
        rcases hb with hb | hb
        · rw [Function.update_self, Function.update_of_ne hb]
        · exact absurd rfl (hb i (by simp))
      · rw [Function.update_of_ne hbq]

theorem residual_body (hp : Enumerates pts) (hL : T.lib.Conforms) (hr : Registered T.ops) (hw : T.AllProper prg) (hinj : ∀ a b, U a → U b → T.names a = T.names b → a = b) (hC : C.Core) (hR : C.Printable T U)
    (hW : ∀ i, U (.work i)) (hU : ∀ i, ∀ a ∈ (C.rhs i).arrs, U a) (hres : ∀ i : Fin n, U (.res i)) (hk : .fn C.residualKernel ∈ written prg) (hf : T.fns C.residualKernel = some (C.residualText T)) (m : Mem D) :
    BodyAgrees T prg U pts C.residualKernel m := by
  have hmem : ∀ q ∈ C.residualKernel.eqs, ∃ i : Fin n, q = (.res i, fun I m x => (C.dirs.map fun d => (C.coef d i).zeroDer.eval I m x * C.difference I m d i x).sum + (C.rhs i).zeroDer.eval I m x) := fun q hq => by
    obtain ⟨i, _, rfl⟩ := List.mem_map.1 hq
    exact ⟨i, rfl⟩
  have hwk : ∀ A, (∀ i : ℕ, A ≠ Arr.res i) → A ∉ C.residualKernel.eqs.map Prod.fst := fun A hA h => by
    obtain ⟨q, hq, e⟩ := List.mem_map.1 h
    obtain ⟨i, rfl⟩ := hmem q hq
    exact hA _ e.symm
  refine body_agrees hp hinj _ ?_ (fun q hq => ?_) (fun q hq m m' h => ?_) m fun stage a ha x _ => ?_
  · simp only [Shock.residualKernel, List.map_map]
    refine (List.nodup_finRange n).map fun i j h => ?_
    simp only [Function.comp_apply, Arr.res.injEq] at h
    exact Fin.ext h
  · obtain ⟨i, rfl⟩ := hmem q hq
    exact hres i
  · obtain ⟨i, rfl⟩ := hmem q hq
    funext x
    have hv : ∀ e : Ex D, e.plain → e.zeroDer.eval (T.meaning (T.const prg) 0) m x = e.zeroDer.eval (T.meaning (T.const prg) 0) m' x := fun e he => congrFun (Sim.eval_congr _ fun a ha => by
      obtain ⟨s, rfl⟩ := he a (zeroDer_arrs _ a ha)
      exact h _ (hwk _ (by simp))) x
    simp only [hv _ (hC.rhsPlain i).1]
    congr 2
    refine List.map_congr_left fun d hd => ?_
    simp only [hv _ (hC.coef d hd i).1, Shock.difference, h _ (hwk (.work _) (by simp))]
  · obtain ⟨h1, h2⟩ := residual_effect hL hinj hC hR hW hU hres (List.finRange n) (List.nodup_finRange n) (T.outer prg stage x) ⟨fun b off => a b (x + off), fun _ => 0⟩ m x
      fun A hA hn off => congrFun (ha A hA (hwk A hn)) (x + off)
    refine ⟨_, callAt_eq hL hr hw _ hk _ hf (fn_globs _) stage a x, fun q hq => ?_, fun b y hb => ?_⟩
    · obtain ⟨i, rfl⟩ := hmem q hq
      simp only [sub_self]
      exact h1 i (List.mem_finRange i)
    · rw [show C.residualText T = _ from rfl]
      refine (h2 b (y - x) (hb.imp sub_ne_zero.2 fun h i _ => h _ (List.mem_map.2 ⟨i, List.mem_finRange i, rfl⟩))).trans ?_
      simp

end OpenSBLI.Sim
