import Verif.Lemmas.ShockTextGood

/-! # The printed reconstruction kernel at a point: helper lemmas for C86 -/
namespace OpenSBLI.Recon
open Sim CCode Reg Weno

variable {D n : ℕ} {T : Text D} {U : Arr → Prop} {lit : ℝ → Sym D} {S : Sympy D} {K : Input D n}

/-! ## Proper texts -/

theorem name_not_generated (d : ℕ) (v : Var) : ¬ Generated (v.name d) := by
  have hh := name_head d v
  by_cases hi : headOf v = 'i'
  · cases v <;> simp [headOf] at hi <;> exact not_generated (by simp only [Var.name]; decide)
  · refine not_generated_head fun c hc => ?_
    rw [hh] at hc
    cases hc
    exact ⟨by cases v <;> simp [headOf], hi⟩

/-- Names of usable variables. -/
def Input.names (K : Input D n) (s : String) : Prop := ∃ v, K.usable v ∧ s = v.name K.d

theorem names_apart (hK : K.Writable S T U lit) {s : String} (h : K.names s) : ¬ Generated s ∧ s ∉ T.start.names := by
  obtain ⟨v, hv, rfl⟩ := h
  refine ⟨name_not_generated K.d v, fun hc => ?_⟩
  obtain ⟨rfl, hs⟩ := hK.apart _ hc v rfl
  have := hv rfl
  rw [hs] at this
  cases this

/-- The equations of the text. -/
theorem eqnText_exprs {d : Fin D} {v : String} {t : Term String D} {ok : String → Prop} (h : t.Printable T U lit ok) {e : Sym D} (he : e ∈ (eqnText T lit d v t).exprs) :
    (∃ t' : Term String D, t'.Printable T U lit ok ∧ e = t'.sym T lit d) ∨ ∃ q, e = .flt q := by
  cases t with
  | cut a c =>
    simp only [eqnText, Eqn.exprs, List.flatMap_cons, List.flatMap_nil, List.map_cons, List.map_nil, Cond.exprs, List.append_nil, List.mem_append, List.mem_cons, List.not_mem_nil, or_false] at he
    rcases he with (rfl | rfl | rfl) | rfl
    · exact .inr ⟨_, rfl⟩
    · exact .inl ⟨a, h.1, rfl⟩
    · exact .inl ⟨c, h.2, rfl⟩
    · exact .inr ⟨_, rfl⟩
  | _ =>
    simp only [eqnText, Eqn.exprs, List.mem_singleton] at he
    exact .inl ⟨_, h, he⟩

theorem eqnText_gvars {d : Fin D} {v : String} {t : Term String D} {ok : String → Prop} (hv : ok v) (h : t.Printable T U lit ok) : ∀ w ∈ (eqnText T lit d v t).gvars, ok w := by
  cases t with
  | cut a c =>
    intro w hw
    simp only [eqnText, Eqn.gvars, unions, List.foldr_cons, List.foldr_nil, Assign.gvars, Lhs.gvars, CCode.Cond.gvars, Sym.gvars, Finset.union_empty, Finset.mem_union, Finset.mem_singleton] at hw
    rcases hw with (rfl | hw | hw) | rfl
    · exact hv
    · exact term_gvars a d h.1 w hw
    · exact term_gvars c d h.2 w hw
    · exact hv
  | _ =>
    intro w hw
    simp only [eqnText, Eqn.gvars, Assign.gvars, Lhs.gvars, Finset.mem_union, Finset.mem_singleton] at hw
    rcases hw with rfl | hw
    · exact hv
    · exact term_gvars _ d h w hw

theorem body_proper (hr : Registered T.ops) {d : Fin D} {ok : String → Prop} (hok : ∀ s, ok s → ¬ Generated s ∧ s ∉ T.start.names) {l : List (String × Term String D)} (hl : ∀ q ∈ l, ok q.1 ∧ q.2.Printable T U lit ok)
    {r : List (Arr × Term String D)} (hrp : ∀ q ∈ r, q.2.Printable T U lit ok) : T.Proper (bodyText T lit d l ++ r.map fun q => .assign ⟨.data (T.names q.1) 0, q.2.sym T lit d⟩) := by
  have hex : ∀ e ∈ exprs (bodyText T lit d l ++ r.map fun q => .assign ⟨.data (T.names q.1) 0, q.2.sym T lit d⟩), (∃ t' : Term String D, t'.Printable T U lit ok ∧ e = t'.sym T lit d) ∨ ∃ q, e = .flt q := by
    intro e he
    simp only [exprs, bodyText, List.flatMap_append, List.flatMap_map, List.mem_append, List.mem_flatMap] at he
    rcases he with ⟨q, hq, he⟩ | ⟨q, hq, he⟩
    · exact eqnText_exprs (hl q hq).2 he
    · simp only [Eqn.exprs, List.mem_singleton] at he
      exact .inl ⟨q.2, hrp q hq, he⟩
  refine ⟨fun e he => ?_, fun v hv => ?_, fun e he => ?_, fun bs hb => ?_, fun e he => ?_⟩
  · rcases hex e he with ⟨t, ht, rfl⟩ | ⟨q, rfl⟩
    · exact term_consts hr t d ht
    · simp [Sym.consts]
  · refine hok v ?_
    rw [declaredVars, mem_unions] at hv
    obtain ⟨q, hq, hv⟩ := hv
    rcases List.mem_append.1 hq with hq | hq
    · obtain ⟨q', hq', rfl⟩ := List.mem_map.1 hq
      exact eqnText_gvars (hl q' hq').1 (hl q' hq').2 v hv
    · obtain ⟨q', hq', rfl⟩ := List.mem_map.1 hq
      simp only [Eqn.gvars, Assign.gvars, Lhs.gvars, Finset.empty_union] at hv
      exact term_gvars _ d (hrp q' hq') v hv
  · rcases hex e he with ⟨t, ht, rfl⟩ | ⟨q, rfl⟩
    · exact fun o st => term_faithful t d ht o st
    · exact fun o st => trivial
  · rcases List.mem_append.1 hb with hb | hb
    · obtain ⟨q, hq, hb⟩ := List.mem_map.1 hb
      cases ht : q.2 <;> rw [ht] at hb <;> simp only [eqnText, Eqn.grouped.injEq, reduceCtorEq] at hb
      subst hb
      refine ⟨by simp, fun b hb => ?_, fun b hb => ?_⟩
      · simp only [List.dropLast_cons_cons, List.dropLast_singleton, List.mem_singleton] at hb
        subst hb
        simp
      · simp only [List.mem_cons, List.not_mem_nil, or_false] at hb
        rcases hb with rfl | rfl <;> simp [CCode.Cond.NotEquality]
    · obtain ⟨q, _, hb⟩ := List.mem_map.1 hb
      cases hb
  · rcases hex e he with ⟨t, ht, rfl⟩ | ⟨q, rfl⟩
    · exact term_inverses hr t d ht
    · simp [Sym.inverses]

/-! ## Effect -/

/-- The equations in grid variables change these only, as `run` does. -/
theorem body_effect (hL : T.lib.Conforms) (hP : ∀ (x : ℝ) (k : ℕ), T.lib.pow x k = x ^ k) (hM : Maths T.lib) {ok : String → Prop} {d : Fin D} (l : List (String × Term String D)) (hl : ∀ q ∈ l, q.2.Printable T U lit ok)
    (rest : List (Eqn D)) (o : Outer D ℝ) (st : CCode.Mem D ℝ) (m : Sim.Mem D) (stage : ℤ) (x : P D) (hst : ∀ s, U (.data s) → ∀ off, st.data (T.names (.data s)) off = m (.data s) (x + off)) :
    effect T.lib o (bodyText T lit d l ++ rest) st = effect T.lib o rest ⟨st.data, run (T.meaning o.const stage) m d x l st.loc⟩ := by
  induction l generalizing st with
  | nil => rfl
  | cons q l ih =>
    have hv : ∀ t : Term String D, t.Printable T U lit ok → (t.sym T lit d).val T.lib o st = t.eval (T.meaning o.const stage) m d x st.loc := fun t ht => term_val hL hP hM t ht d o st m stage x hst
    have hq := hl q (by simp)
    have step : ∀ r, effect T.lib o (eqnText T lit d q.1 q.2 :: r) st = effect T.lib o r ⟨st.data, Function.update st.loc q.1 (q.2.eval (T.meaning o.const stage) m d x st.loc)⟩ := by
      intro r
      cases ht : q.2 with
      | cut a c =>
        rw [ht] at hq
        simp only [eqnText, effect, firstTrue, List.find?_cons, CCode.Cond.holds, Rel.holds, hv a hq.1, hv c hq.2, Term.eval]
        by_cases h : a.eval (T.meaning o.const stage) m d x st.loc < c.eval (T.meaning o.const stage) m d x st.loc
        · simp [h, assigns, CCode.Mem.set, Sym.val]
        · simp [h, assigns, CCode.Mem.set, Sym.val]
      | _ =>
        rw [ht] at hq
        simp only [eqnText, effect, CCode.Mem.set, hv _ hq]
    change effect T.lib o (eqnText T lit d q.1 q.2 :: (bodyText T lit d l ++ rest)) st = _
    rw [step, ih (fun q hq => hl q (by simp [hq])) ⟨st.data, Function.update st.loc q.1 (q.2.eval (T.meaning o.const stage) m d x st.loc)⟩ hst]
    rfl

/-- The stores into arrays which are not datasets. -/
theorem store_effect (hL : T.lib.Conforms) (hP : ∀ (x : ℝ) (k : ℕ), T.lib.pow x k = x ^ k) (hM : Maths T.lib) (hinj : ∀ a b, U a → U b → T.names a = T.names b → a = b) {ok : String → Prop} {d : Fin D}
    (r : List (Arr × Term String D)) (hr : ∀ q ∈ r, U q.1 ∧ (∀ s, q.1 ≠ .data s) ∧ q.2.Printable T U lit ok) (hnd : (r.map Prod.fst).Nodup) (o : Outer D ℝ) (st : CCode.Mem D ℝ) (m : Sim.Mem D) (stage : ℤ) (x : P D)
    (hst : ∀ s, U (.data s) → ∀ off, st.data (T.names (.data s)) off = m (.data s) (x + off)) :
    (∀ q ∈ r, (effect T.lib o (r.map fun q => .assign ⟨.data (T.names q.1) 0, q.2.sym T lit d⟩) st).data (T.names q.1) 0 = q.2.eval (T.meaning o.const stage) m d x st.loc) ∧
    ∀ b off, (off ≠ 0 ∨ ∀ q ∈ r, b ≠ T.names q.1) → (effect T.lib o (r.map fun q => .assign ⟨.data (T.names q.1) 0, q.2.sym T lit d⟩) st).data b off = st.data b off := by
  induction r generalizing st with
  | nil => exact ⟨by simp, fun _ _ _ => rfl⟩
  | cons q r ih =>
    obtain ⟨hu, hn, hp⟩ := hr q (by simp)
    have hv := term_val hL hP hM q.2 hp d o st m stage x hst
    simp only [List.map_cons, List.nodup_cons] at hnd
    obtain ⟨h1, h2⟩ := ih (fun q hq => hr q (by simp [hq])) hnd.2 (st.set (.data (T.names q.1) 0) ((q.2.sym T lit d).val T.lib o st)) (fun s hs off => by
      rw [← hst s hs off]
      have : T.names (.data s) ≠ T.names q.1 := fun e => hn s (hinj _ _ hs hu e).symm
      simp only [CCode.Mem.set, Function.update_of_ne this])
    simp only [List.map_cons, effect]
    refine ⟨fun p hp => ?_, fun b off hb => ?_⟩
    · rcases List.mem_cons.1 hp with rfl | hp
      · rw [h2 _ _ (.inr fun q' hq' e => hnd.1 (List.mem_map.2 ⟨q', hq', (hinj _ _ hu (hr q' (by simp [hq'])).1 e).symm⟩))]
        simp only [CCode.Mem.set, Function.update_self, hv]
      · exact h1 p hp
    · rw [h2 b off (hb.imp id fun h q hq => h q (by simp [hq]))]
      simp only [CCode.Mem.set]
      by_cases hbq : b = T.names q.1
      · subst hbq
        rcases hb with hb | hb
        · rw [Function.update_self, Function.update_of_ne hb]
        · exact absurd rfl (hb q (by simp))
      · rw [Function.update_of_ne hbq]

/-! ## The kernel -/

theorem text_proper (hr : Registered T.ops) (hK : K.Writable S T U lit) {eqs : List (Eqn D)} (he : K.text S T lit = some eqs) : T.Proper eqs := by
  simp only [Input.text, Option.map_eq_some_iff] at he
  obtain ⟨l, hl, rfl⟩ := he
  have hm : ∀ t : Term Var D, t.Printable T U lit K.usable → (t.map (Var.name K.d)).Printable T U lit K.names := fun t => map_printable _ (fun v hv => ⟨v, hv, rfl⟩) t
  have := body_proper (U := U) hr (fun s => names_apart hK) (d := K.d) (l := l.map fun q => (q.1.name K.d, q.2.map (Var.name K.d))) (lit := lit) (fun q hq => by
      obtain ⟨p, hp, rfl⟩ := List.mem_map.1 hq
      exact ⟨⟨_, (eqs_good hK hl p hp).1, rfl⟩, hm _ (eqs_good hK hl p hp).2⟩)
    (r := (List.finRange n).map fun i : Fin n => (.work (K.C.reconWork K.d i), (K.out S i).map (Var.name K.d))) (fun q hq => by
      obtain ⟨i, _, rfl⟩ := List.mem_map.1 hq
      exact hm _ (out_good hK i).1)
  simpa only [List.map_map, Function.comp_def] using this

theorem text_effect (hL : T.lib.Conforms) (hP : ∀ (x : ℝ) (k : ℕ), T.lib.pow x k = x ^ k) (hM : Maths T.lib) (hinj : ∀ a b, U a → U b → T.names a = T.names b → a = b) (hK : K.Writable S T U lit) {eqs : List (Eqn D)}
    (he : K.text S T lit = some eqs) (o : Outer D ℝ) (st : CCode.Mem D ℝ) (h0 : st.loc = fun _ => 0) (m : Sim.Mem D) (stage : ℤ) (x : P D)
    (hst : ∀ s, U (.data s) → ∀ off, st.data (T.names (.data s)) off = m (.data s) (x + off)) :
    ∃ v, K.stored S (T.meaning o.const stage) m x = some v ∧ (∀ i, (effect T.lib o eqs st).data (T.names (.work (K.C.reconWork K.d i))) 0 = v i) ∧
      ∀ b off, (off ≠ 0 ∨ ∀ i, b ≠ T.names (.work (K.C.reconWork K.d i))) → (effect T.lib o eqs st).data b off = st.data b off := by
  simp only [Input.text, Option.map_eq_some_iff] at he
  obtain ⟨l, hl, rfl⟩ := he
  have hm : ∀ t : Term Var D, t.Printable T U lit K.usable → (t.map (Var.name K.d)).Printable T U lit K.names := fun t => map_printable _ (fun v hv => ⟨v, hv, rfl⟩) t
  refine ⟨_, by rw [Input.stored, hl]; rfl, ?_⟩
  rw [body_effect hL hP hM (l.map fun q => (q.1.name K.d, q.2.map (Var.name K.d))) (fun q hq => by
      obtain ⟨p, hp, rfl⟩ := List.mem_map.1 hq
      exact hm _ (eqs_good hK hl p hp).2) _ o st m stage x hst]
  have hmap : ((List.finRange n).map fun i : Fin n => Eqn.assign ⟨.data (T.names (.work (K.C.reconWork K.d i))) 0, ((K.out S i).map (Var.name K.d)).sym T lit K.d⟩) =
      (((List.finRange n).map fun i : Fin n => (Arr.work (K.C.reconWork K.d i), (K.out S i).map (Var.name K.d))).map fun q => .assign ⟨.data (T.names q.1) 0, q.2.sym T lit K.d⟩) := by
    simp only [List.map_map, Function.comp_def]
  rw [hmap]
  obtain ⟨h1, h2⟩ := store_effect hL hP hM hinj (d := K.d) (lit := lit) ((List.finRange n).map fun i : Fin n => (Arr.work (K.C.reconWork K.d i), (K.out S i).map (Var.name K.d))) (fun q hq => by
      obtain ⟨i, _, rfl⟩ := List.mem_map.1 hq
      exact ⟨hK.works i, by simp, hm _ (out_good hK i).1⟩) (by
      rw [List.map_map]
      refine (List.nodup_finRange n).map fun i j h => ?_
      simp only [Function.comp_apply, Arr.work.injEq, Shock.reconWork] at h
      exact Fin.ext (by omega)) o ⟨st.data, run (T.meaning o.const stage) m K.d x (l.map fun q => (q.1.name K.d, q.2.map (Var.name K.d))) st.loc⟩ m stage x hst
  refine ⟨fun i => ?_, fun b off hb => h2 b off (hb.imp id fun h q hq => ?_)⟩
  · have := h1 _ (List.mem_map.2 ⟨i, List.mem_finRange i, rfl⟩)
    rw [this, h0]
  · obtain ⟨i, _, rfl⟩ := List.mem_map.1 hq
    exact h i

end OpenSBLI.Recon
