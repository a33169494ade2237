import Verif.Lemmas.ScopeMain

/-! # Helper lemmas on the text of the components -/
namespace OpenSBLI.Prog
open OpenSBLI.Reg OpenSBLI.CCode OpenSBLI.Alg

variable {d : ℕ} {inp : Input d} {lib : List String}

/-! ## Texts without declarations in inner blocks -/

/-- Every occurrence is declared before, in the text or in `U`; blocks contain occurrences only. -/
def Ready (U : Env) : List Stmt → Prop
  | [] => True
  | .decl n k :: l => Ready ((n, k) :: U) l
  | .use n k :: l => (n, k) ∈ U ∧ Ready U l
  | .block b :: l => (∃ k ns, b = uses k ns ∧ ∀ n ∈ ns, (n, k) ∈ U) ∧ Ready U l

theorem Ready.append {U : Env} {a b : List Stmt} (ha : Ready U a) (hb : Ready (added a ++ U) b) : Ready U (a ++ b) := by
  induction a generalizing U with
  | nil => exact hb
  | cons s a ih =>
    cases s with
    | decl n k => exact ih (U := (n, k) :: U) ha (by simpa [added, Stmt.adds] using hb)
    | use n k => exact ⟨ha.1, ih ha.2 (by simpa [added, Stmt.adds] using hb)⟩
    | block c => exact ⟨ha.1, ih ha.2 (by simpa [added, Stmt.adds] using hb)⟩

theorem Ready.mono {U U' : Env} {t : List Stmt} (h : Ready U t) (hs : ∀ p ∈ U, p ∈ U') : Ready U' t := by
  induction t generalizing U U' with
  | nil => trivial
  | cons s t ih =>
    cases s with
    | decl n k =>
      refine ih h fun p hp => ?_
      rcases List.mem_cons.1 hp with rfl | hp
      · exact List.mem_cons_self ..
      · exact List.mem_cons_of_mem _ (hs p hp)
    | use n k => exact ⟨hs _ h.1, ih h.2 hs⟩
    | block c =>
      obtain ⟨⟨k, ns, rfl, hk⟩, h2⟩ := h
      exact ⟨⟨k, ns, rfl, fun n hn => hs _ (hk n hn)⟩, ih h2 hs⟩

theorem ready_uses {U : Env} {k : Kind} {l : List String} (h : ∀ n ∈ l, (n, k) ∈ U) : Ready U (uses k l) := by
  induction l with
  | nil => trivial
  | cons n l ih => exact ⟨h n (List.mem_cons_self ..), ih fun m hm => h m (List.mem_cons_of_mem _ hm)⟩

theorem ready_decls {U : Env} {k : Kind} {l : List String} : Ready U (l.map (Stmt.decl · k)) := by
  induction l generalizing U with
  | nil => trivial
  | cons n l ih => exact ih (U := (n, k) :: U)

theorem ready_flatMap {A : Type} {U : Env} {l : List A} {f : A → List Stmt} (h : ∀ a ∈ l, Ready U (f a)) : Ready U (l.flatMap f) := by
  induction l generalizing U with
  | nil => trivial
  | cons a l ih =>
    rw [List.flatMap_cons]
    exact (h a (List.mem_cons_self ..)).append (ih fun b hb => (h b (List.mem_cons_of_mem _ hb)).mono fun p hp => List.mem_append_right _ hp)

/-- Such a text is well scoped where its own names are new. -/
theorem ready_ok {U : Env} (t : List Stmt) (outer cur : Env) (hv : Vis (cur ++ outer) U) (hn : (dom (added t)).Nodup) (hu : Apart (added t) U)
    (hc : Apart (added t) cur) (h : Ready U t) : allOk outer cur t = true := by
  induction t generalizing U cur with
  | nil => simp [allOk]
  | cons s t ih =>
    rw [allOk, Bool.and_eq_true]
    cases s with
    | decl n k =>
      have e : added (Stmt.decl n k :: t) = added t ++ [(n, k)] := rfl
      rw [e] at hn hu hc
      rw [dom_append, List.nodup_append] at hn
      have mn : n ∈ dom (added t ++ [(n, k)]) := by simp [dom]
      refine ⟨decide_eq_true (hc n mn), ih (U := (n, k) :: U) _ ?_ hn.1 ?_ ?_ h⟩
      · change Vis ([(n, k)] ++ cur ++ outer) ([(n, k)] ++ U)
        rw [List.append_assoc]
        refine hv.extend _ (by simp [dom]) fun m hm => ?_
        have : m = n := by simpa [dom] using hm
        rw [this]
        exact hu n mn
      · intro m hm hm'
        change m ∈ dom ([(n, k)] ++ U) at hm'
        rw [dom_append, List.mem_append] at hm'
        rcases hm' with hm' | hm'
        · exact hn.2.2 m hm m (by simpa [dom] using hm') rfl
        · exact hu m (by rw [dom_append]; exact List.mem_append_left _ hm) hm'
      · intro m hm hm'
        change m ∈ dom ([(n, k)] ++ cur) at hm'
        rw [dom_append, List.mem_append] at hm'
        rcases hm' with hm' | hm'
        · exact hn.2.2 m hm m (by simpa [dom] using hm') rfl
        · exact hc m (by rw [dom_append]; exact List.mem_append_left _ hm) hm'
    | use n k =>
      have e : added (Stmt.use n k :: t) = added t := by simp [added, Stmt.adds]
      rw [e] at hn hu hc
      exact ⟨by simpa [Stmt.ok] using hv _ h.1, ih cur hv hn hu hc h.2⟩
    | block b =>
      have e : added (Stmt.block b :: t) = added t := by simp [added, Stmt.adds]
      rw [e] at hn hu hc
      obtain ⟨⟨k, ns, rfl, hk⟩, h2⟩ := h
      refine ⟨?_, ih cur hv hn hu hc h2⟩
      rw [Stmt.ok]
      exact allOk_uses _ _ _ _ fun n hn => hv _ (hk n hn)

theorem added_nil {t : List Stmt} (h : ∀ s ∈ t, s.adds = []) : added t = [] := by
  induction t with
  | nil => rfl
  | cons s t ih => rw [added, ih fun x hx => h x (List.mem_cons_of_mem _ hx), h s (List.mem_cons_self ..)]; rfl

/-! ## What the components see -/

/-- The forms of the names the components declare. -/
def Form.loose : Form → Bool
  | .range => true
  | .handle => true
  | .output => true
  | .corner => true
  | .monitorRange => true
  | .fixed n => decide (n ∈ ["name0", "cpu_start0", "elapsed_start0", "cpu_end0", "elapsed_end0", "zero_stencil", "zero_stencil_indices"])
  | _ => false

/-- The declarations `S` contain everything the components refer to, except loop variables and their own names. -/
structure Has (inp : Input d) (S : Env) : Prop where
  finals : ∀ n ∈ inp.finalNames, (n, Kind.value) ∈ S
  tables : ∀ t ∈ inp.tableNames, (t, Kind.table) ∈ S
  block : (blockName inp.b, Kind.block) ∈ S
  arrays : ∀ x ∈ inp.arrays, (x, Kind.data) ∈ S
  stencils : ∀ s ∈ inp.stencils, (s.2, Kind.stencil) ∈ S
  groups : ∀ e ∈ inp.exchanges, (groupName inp.b e.1, Kind.group) ∈ S
  functions : ∀ p ∈ inp.kernels, (kernelName inp.b p.1, Kind.function) ∈ S
  monitors : ∀ p ∈ inp.monitored, ("monitor_" ++ toString p.2 ++ "_" ++ p.1, Kind.function) ∈ S
  file : inp.monitor.isSome → ("f", Kind.file) ∈ S
  tight : ∀ n ∈ dom S, (form n).loose = false ∧ n ≠ "iter" ∧ n ≠ "stage"

/-- The declarations visible inside the loops `vars`. -/
def inLoops (S : Env) (vars : List Alg.Var) : Env := vars.map (fun v => (varName v, Kind.counter)) ++ S

theorem var_words (v : Alg.Var) : varName v = "iter" ∨ varName v = "stage" := by cases v <;> simp [varName]

theorem var_tight (v : Alg.Var) : (form (varName v)).loose = false := by
  have : ∀ n ∈ ["iter", "stage"], (form n).loose = false := by decide +kernel
  exact this _ (by simpa using var_words v)

theorem inLoops_tight {S : Env} (h : Has inp S) (vars : List Alg.Var) : ∀ n ∈ dom (inLoops S vars), (form n).loose = false := by
  intro n hn
  rw [inLoops, dom_append, List.mem_append] at hn
  rcases hn with hn | hn
  · have : ∃ v ∈ vars, varName v = n := by simpa [dom] using hn
    obtain ⟨v, -, rfl⟩ := this
    exact var_tight v
  · exact (h.tight n hn).1

theorem loose_apart {S D : Env} (h : Has inp S) (vars : List Alg.Var) (hd : ∀ n ∈ dom D, (form n).loose = true) : Apart D (inLoops S vars) :=
  Apart.form Form.loose hd (inLoops_tight h vars)

/-- Entering a loop. -/
theorem enter_loop {S E : Env} (h : Has inp S) (vars : List Alg.Var) (v : Alg.Var) (hv : Vis E (inLoops S vars)) :
    Vis ([(varName v, Kind.counter)] ++ E) (inLoops S (v :: vars)) := by
  intro p hp
  by_cases e : p.1 = varName v
  · have : p.2 = .counter := by
      rw [inLoops, List.mem_append] at hp
      rcases hp with hp | hp
      · obtain ⟨w, -, rfl⟩ := List.mem_map.1 hp; rfl
      · have t := (h.tight p.1 (mem_dom hp)).2
        rcases var_words v with w | w
        · exact absurd (e.trans w) t.1
        · exact absurd (e.trans w) t.2
    rw [this, e]
    simp
  · rw [lookup_skip _ _ _ (by simpa [dom] using e)]
    refine hv p ?_
    rw [inLoops, List.map_cons, List.cons_append, List.mem_cons] at hp
    rcases hp with rfl | hp
    · exact absurd rfl e
    · exact hp

/-! ## Kernels, exchanges, outputs -/

theorem added_kernel (inp : Input d) (n : ℕ) (k : Kern d) : added (kernelText inp n k) = [(rangeName inp.b n, .ints)] := by
  unfold kernelText
  have h1 : added (rangeUses inp k) = [] := by
    unfold rangeUses
    cases k.split <;> exact added_uses ..
  have h2 : added (k.bases.flatMap fun x => [Stmt.use x .data, .use ((nameOf inp.stencils (k.stencil x)).getD "") .stencil]) = [] := by
    refine added_nil fun s hs => ?_
    obtain ⟨x, -, hs⟩ := List.mem_flatMap.1 hs
    rcases List.mem_pair.1 hs with rfl | rfl <;> rfl
  have h3 : added (k.indexed.flatMap fun c => Stmt.use c.1 .table :: uses .counter c.2.toList) = [] := by
    refine added_nil fun s hs => ?_
    obtain ⟨x, -, hs⟩ := List.mem_flatMap.1 hs
    rcases List.mem_cons.1 hs with rfl | hs
    · rfl
    · obtain ⟨n, -, rfl⟩ := List.mem_map.1 hs; rfl
  rw [added_append, added_append, added_append, added_append, h1, h2, h3, added_uses]
  rfl

theorem kernel_ready (h : Regular inp lib) {S : Env} (hS : Has inp S) (vars : List Alg.Var) (p : ℕ × Kern d) (hp : p ∈ inp.kernels)
    (hi : p.2.indexed.all (fun c => c.2.toList.all fun v => v ∈ vars.map varName) = true) : Ready (inLoops S vars) (kernelText inp p.1 p.2) := by
  have k := h.kernels p hp
  have sub : ∀ q ∈ S, q ∈ inLoops S vars := fun q hq => List.mem_append_right _ hq
  have r1 : Ready (inLoops S vars) (rangeUses inp p.2) := by
    unfold rangeUses
    cases hs : p.2.split with
    | none => exact ready_uses fun n hn => sub _ (hS.finals n (shape_final inp n hn))
    | some r =>
      refine ready_uses fun n hn => sub _ (hS.tables n ?_)
      have := k.split r hs
      rcases List.mem_pair.1 hn with rfl | rfl
      · exact this.1
      · exact this.2
  unfold kernelText
  rw [globs_nil h p hp]
  refine Ready.append (Ready.append (Ready.append (Ready.append r1 ?_) ?_) ?_) trivial
  · refine ⟨?_, ?_, ?_, trivial⟩
    · exact List.mem_cons_of_mem _ (List.mem_append_right _ (sub _ (hS.functions p hp)))
    · exact List.mem_cons_of_mem _ (List.mem_append_right _ (sub _ hS.block))
    · exact List.mem_cons_self ..
  · refine Ready.mono (U := inLoops S vars) (ready_flatMap fun x hx => ?_) fun q hq => List.mem_append_right _ hq
    obtain ⟨m, hm, hm'⟩ := stencils_mem inp p.1 k.created p.2 (kernels_kern p hp) x hx
    refine ⟨sub _ (hS.arrays x (bases_arrays h p hp x hx)), ?_, trivial⟩
    rw [hm]
    exact sub _ (hS.stencils _ hm')
  · refine Ready.mono (U := inLoops S vars) (ready_flatMap fun c hc => ⟨sub _ (hS.tables _ (k.indexed.2 c hc)), ready_uses fun n hn => ?_⟩)
      fun q hq => List.mem_append_right _ hq
    have := List.all_eq_true.1 (List.all_eq_true.1 hi c hc) n hn
    obtain ⟨v, hv, e⟩ := List.mem_map.1 (of_decide_eq_true this)
    exact List.mem_append_left _ (List.mem_map.2 ⟨v, hv, by rw [e]⟩)

theorem added_io (inp : Input d) (o : Alg.IO) (dyn : Bool) :
    added (ioText inp o dyn) = if o.write && o.name.isNone then [("name0", .text)] else [] := by
  have h2 : added ((inp.ioArrays o.id).flatMap fun x => Stmt.use x .data :: if o.name.isNone then [Stmt.use "name0" .text] else []) = [] := by
    refine added_nil fun s hs => ?_
    obtain ⟨x, -, hs⟩ := List.mem_flatMap.1 hs
    rcases List.mem_cons.1 hs with rfl | hs
    · rfl
    · split at hs
      · rw [List.mem_singleton] at hs; subst hs; rfl
      · cases hs
  unfold ioText
  cases o.write with
  | false => rfl
  | true =>
    rw [if_pos rfl, added_append, added_append, h2]
    cases o.name.isNone <;> cases dyn <;> rfl

theorem io_ready {S : Env} (hS : Has inp S) (vars : List Alg.Var) (o : Alg.IO) (dyn : Bool) (h1 : ∀ x ∈ inp.ioArrays o.id, x ∈ inp.arrays)
    (h2 : o.write = true → dyn = true → .iter ∈ vars) : Ready (inLoops S vars) (ioText inp o dyn) := by
  have sub : ∀ q ∈ S, q ∈ inLoops S vars := fun q hq => List.mem_append_right _ hq
  unfold ioText
  cases hw : o.write with
  | false => trivial
  | true =>
    rw [if_pos rfl]
    cases hn : o.name.isNone with
    | false =>
      refine ⟨sub _ hS.block, ready_flatMap fun x hx => ⟨sub _ (hS.arrays x (h1 x hx)), trivial⟩⟩
    | true =>
      have tail : Ready (("name0", Kind.text) :: inLoops S vars) ([.use (blockName inp.b) .block] ++
          (inp.ioArrays o.id).flatMap (fun x => .use x .data :: if true then [.use "name0" .text] else [])) :=
        ⟨List.mem_cons_of_mem _ (sub _ hS.block), ready_flatMap fun x hx =>
          ⟨List.mem_cons_of_mem _ (sub _ (hS.arrays x (h1 x hx))), List.mem_cons_self .., trivial⟩⟩
      cases hd : dyn with
      | false => exact ⟨List.mem_cons_self .., tail⟩
      | true => exact ⟨List.mem_cons_self .., List.mem_cons_of_mem _ (List.mem_append_left _ (List.mem_map.2 ⟨.iter, h2 hw hd, rfl⟩)), tail⟩

/-! ## Monitors -/

/-- The names of one monitor. -/
theorem added_monitorText (b d : ℕ) (x : String) (i : ℕ) : added (monitorText b d x i) = ("monitor_range_" ++ toString i ++ "_" ++ x, Kind.ints) ::
    (added (((["i", "j", "k"].take d).map (· ++ toString i)).map (Stmt.decl · .value)) ++
      [(x ++ "_" ++ toString i ++ "_output", Kind.value), ("reduce_" ++ toString i ++ "_" ++ x, Kind.handle)]) := by
  unfold monitorText
  rw [added_append, added_append, added_append, added_uses, List.map_map]
  rfl

theorem corner_form (d i : ℕ) (n : String) (h : n ∈ (["i", "j", "k"].take d).map (· ++ toString i)) : form n = .corner := by
  obtain ⟨v, hv, rfl⟩ := List.mem_map.1 h
  exact form_corner v (List.mem_of_mem_take hv) i

theorem mem_monitorText (b d : ℕ) (x : String) (i : ℕ) (n : String) : n ∈ dom (added (monitorText b d x i)) ↔
    n = "monitor_range_" ++ toString i ++ "_" ++ x ∨ n ∈ (["i", "j", "k"].take d).map (· ++ toString i) ∨ n = x ++ "_" ++ toString i ++ "_output" ∨
      n = "reduce_" ++ toString i ++ "_" ++ x := by
  rw [added_monitorText]
  change n ∈ dom ([_] ++ (_ ++ _)) ↔ _
  rw [dom_append, dom_append, List.mem_append, List.mem_append, dom_decls]
  simp [dom]

theorem monitorText_forms (b d : ℕ) (x : String) (i : ℕ) (hx : form x = .user) :
    ∀ n ∈ dom (added (monitorText b d x i)), form n = .monitorRange ∨ form n = .corner ∨ form n = .output ∨ form n = .handle := by
  intro n hn
  rcases (mem_monitorText ..).1 hn with rfl | hn | rfl | rfl
  · exact .inl (form_monitorRange _ _ (user_output hx))
  · exact .inr (.inl (corner_form d i n hn))
  · exact .inr (.inr (.inl (form_output _ _)))
  · exact .inr (.inr (.inr (form_handle _ _ (user_output hx))))

theorem monitorText_nodup (b d : ℕ) (x : String) (i : ℕ) (hx : form x = .user) : (dom (added (monitorText b d x i))).Nodup := by
  have f1 := form_monitorRange i x (user_output hx)
  have f2 := form_output x i
  have f3 := form_handle i x (user_output hx)
  have fc := corner_form d i
  rw [added_monitorText]
  change (dom ([_] ++ (_ ++ _))).Nodup
  rw [dom_append, dom_append, List.nodup_append, List.nodup_append]
  have nc : (dom (added (((["i", "j", "k"].take d).map (· ++ toString i)).map (Stmt.decl · .value)))).Nodup := by
    have e : dom (added (((["i", "j", "k"].take d).map (· ++ toString i)).map (Stmt.decl · .value))) = ((["i", "j", "k"].take d).map (· ++ toString i)).reverse := by
      rw [added_decls]
      simp [dom]
    rw [e, List.nodup_reverse]
    refine List.Nodup.map_on ?_ (List.Nodup.sublist (List.take_sublist _ _) (by decide))
    intro v hv w hw e
    exact (corner_injective (List.mem_of_mem_take hv) (List.mem_of_mem_take hw) e).1
  generalize "monitor_range_" ++ toString i ++ "_" ++ x = r at *
  generalize x ++ "_" ++ toString i ++ "_output" = o at *
  generalize "reduce_" ++ toString i ++ "_" ++ x = h at *
  refine ⟨by simp [dom], ⟨nc, ?_, ?_⟩, ?_⟩
  · have : o ≠ h := by rintro rfl; rw [f2] at f3; cases f3
    simpa [dom] using this
  · intro a ha c hc
    rw [dom_decls] at ha
    have := fc a ha
    rintro rfl
    have hc : a = o ∨ a = h := by simpa [dom] using hc
    rcases hc with rfl | rfl
    · rw [f2] at this; cases this
    · rw [f3] at this; cases this
  · intro a ha c hc
    have ha : a = r := by simpa [dom] using ha
    subst ha
    rintro rfl
    rw [List.mem_append, dom_decls] at hc
    rcases hc with hc | hc
    · have := fc _ hc; rw [f1] at this; cases this
    · have hc : a = o ∨ a = h := by simpa [dom] using hc
      rcases hc with rfl | rfl
      · rw [f2] at f1; cases f1
      · rw [f3] at f1; cases f1

theorem monitorText_ready {U : Env} (b d : ℕ) (x : String) (i : ℕ) (h1 : ("monitor_" ++ toString i ++ "_" ++ x, Kind.function) ∈ U)
    (h2 : (blockName b, Kind.block) ∈ U) (h3 : (x, Kind.data) ∈ U) (h4 : ("zero_stencil", Kind.stencil) ∈ U) : Ready U (monitorText b d x i) := by
  have cd : (["i", "j", "k"].take d).map (fun v => Stmt.decl (v ++ toString i) .value) =
      ((["i", "j", "k"].take d).map (· ++ toString i)).map (Stmt.decl · .value) := by rw [List.map_map]; rfl
  unfold monitorText
  refine Ready.append (Ready.append (Ready.append ?_ ?_) (ready_uses fun n hn => ?_)) ?_
  · exact trivial
  · rw [cd]
    exact ready_decls
  · rw [added_append, List.append_assoc]
    refine List.mem_append_left _ ?_
    rw [cd, added_decls, List.mem_reverse]
    exact List.mem_map.2 ⟨n, hn, rfl⟩
  · rw [added_append, added_uses, List.nil_append, added_append, List.append_assoc]
    generalize added ((["i", "j", "k"].take d).map fun v => Stmt.decl (v ++ toString i) .value) = C
    generalize "monitor_range_" ++ toString i ++ "_" ++ x = r at *
    generalize x ++ "_" ++ toString i ++ "_output" = o at *
    generalize "reduce_" ++ toString i ++ "_" ++ x = h at *
    have e : added [Stmt.decl h .handle, .decl o .value] = [(o, Kind.value), (h, Kind.handle)] := rfl
    rw [e]
    refine ⟨?_, ?_, ?_, ?_, ?_, ?_, ?_, ?_, trivial⟩ <;> simp_all

theorem monitored_eq {m : Mon} (hm : inp.monitor = some m) : inp.monitored = m.arrays.zipIdx := by
  unfold Input.monitored
  rw [hm]
  simp

/-- The names of all monitors. -/
theorem monitorTexts_nodup (h : Regular inp lib) {m : Mon} (hm : inp.monitor = some m) :
    (dom (added (m.arrays.zipIdx.flatMap fun p => monitorText inp.b d p.1 p.2))).Nodup := by
  rw [← monitored_eq hm]
  have hx : ∀ p ∈ inp.monitored, form p.1 = .user := fun p hp => (h.arrays _ (monitored_arrays h p hp)).1
  refine nodup_flatMap _ Prod.snd _ (monitored_nodup inp) (fun p hp => monitorText_nodup _ _ _ _ (hx p hp)) ?_
  intro p hp q hq n hn hn'
  have fp := user_output (hx p hp)
  have fq := user_output (hx q hq)
  rcases (mem_monitorText ..).1 hn with e | e | e | e <;> rcases (mem_monitorText ..).1 hn' with e' | e' | e' | e'
  · exact numbered_injective "monitor_range_" (e.symm.trans e')
  · have := corner_form _ _ _ e'; rw [e, form_monitorRange _ _ fp] at this; cases this
  · have := form_output q.1 q.2; rw [← e', e, form_monitorRange _ _ fp] at this; cases this
  · have := form_handle q.2 _ fq; rw [← e', e, form_monitorRange _ _ fp] at this; cases this
  · have := corner_form _ _ _ e; rw [e', form_monitorRange _ _ fq] at this; cases this
  · obtain ⟨v, hv, e⟩ := List.mem_map.1 e
    obtain ⟨w, hw, e'⟩ := List.mem_map.1 e'
    exact (corner_injective (List.mem_of_mem_take hv) (List.mem_of_mem_take hw) (e.trans e'.symm)).2
  · have := corner_form _ _ _ e; rw [e', form_output] at this; cases this
  · have := corner_form _ _ _ e; rw [e', form_handle _ _ fq] at this; cases this
  · have := form_output p.1 p.2; rw [← e, e', form_monitorRange _ _ fq] at this; cases this
  · have := corner_form _ _ _ e'; rw [e, form_output] at this; cases this
  · exact output_injective (e.symm.trans e')
  · have := form_output p.1 p.2; rw [← e, e', form_handle _ _ fq] at this; cases this
  · have := form_handle p.2 _ fp; rw [← e, e', form_monitorRange _ _ fq] at this; cases this
  · have := corner_form _ _ _ e'; rw [e, form_handle _ _ fp] at this; cases this
  · have := form_output q.1 q.2; rw [← e', e, form_handle _ _ fp] at this; cases this
  · exact numbered_injective "reduce_" (e.symm.trans e')

theorem added_monitorCode (inp : Input d) (m : Mon) : added (inp.monitorCode m) =
    added (m.arrays.zipIdx.flatMap fun p => monitorText inp.b d p.1 p.2) ++ [("zero_stencil", .stencil), ("zero_stencil_indices", .ints)] := by
  have h1 : added (if m.nan then uses .data (m.arrays.take 1) else []) = [] := by
    split
    · exact added_uses ..
    · rfl
  have h2 : added (if m.file then [Stmt.use "f" .file] else []) = [] := by split <;> rfl
  have h3 : added (m.arrays.zipIdx.map fun p => Stmt.use (p.1 ++ "_" ++ toString p.2 ++ "_output") .value) = [] := by
    refine added_nil fun s hs => ?_
    obtain ⟨p, -, rfl⟩ := List.mem_map.1 hs
    rfl
  unfold Input.monitorCode
  simp only [added_append, h1, h2, h3, List.append_nil, List.nil_append]
  rfl

theorem monitorTexts_forms (h : Regular inp lib) {m : Mon} (hm : inp.monitor = some m) :
    ∀ n ∈ dom (added (m.arrays.zipIdx.flatMap fun p => monitorText inp.b d p.1 p.2)),
      form n = .monitorRange ∨ form n = .corner ∨ form n = .output ∨ form n = .handle := by
  intro n hn
  rw [← monitored_eq hm] at hn
  obtain ⟨p, hp, hn⟩ := (mem_dom_flatMap _ _ _).1 hn
  exact monitorText_forms _ _ _ _ (h.arrays _ (monitored_arrays h p hp)).1 n hn

theorem zero_forms : form "zero_stencil" = .fixed "zero_stencil" ∧ form "zero_stencil_indices" = .fixed "zero_stencil_indices" :=
  ⟨form_fixed _ (by decide), form_fixed _ (by decide)⟩

theorem monitorCode_nodup (h : Regular inp lib) {m : Mon} (hm : inp.monitor = some m) : (dom (added (inp.monitorCode m))).Nodup := by
  rw [added_monitorCode, dom_append, List.nodup_append]
  refine ⟨monitorTexts_nodup h hm, by decide, ?_⟩
  rintro a ha b hb rfl
  have f := monitorTexts_forms h hm a ha
  have hb : a = "zero_stencil" ∨ a = "zero_stencil_indices" := by simpa [dom] using hb
  rcases hb with rfl | rfl
  · rw [zero_forms.1] at f; simp at f
  · rw [zero_forms.2] at f; simp at f

theorem monitorCode_loose (h : Regular inp lib) {m : Mon} (hm : inp.monitor = some m) : ∀ n ∈ dom (added (inp.monitorCode m)), (form n).loose = true ∧ form n ≠ .range ∧
    (∀ w ∈ ["name0", "cpu_start0", "elapsed_start0", "cpu_end0", "elapsed_end0"], n ≠ w) := by
  intro n hn
  rw [added_monitorCode, dom_append, List.mem_append] at hn
  rcases hn with hn | hn
  · have f := monitorTexts_forms h hm n hn
    refine ⟨by rcases f with f | f | f | f <;> rw [f] <;> rfl, by rcases f with f | f | f | f <;> rw [f] <;> simp, ?_⟩
    rintro w hw rfl
    have : ∀ w ∈ ["name0", "cpu_start0", "elapsed_start0", "cpu_end0", "elapsed_end0"], form w = .fixed w := by decide +kernel
    rw [this _ hw] at f
    simp at f
  · have hn : n = "zero_stencil" ∨ n = "zero_stencil_indices" := by simpa [dom] using hn
    rcases hn with rfl | rfl
    · rw [zero_forms.1]; decide
    · rw [zero_forms.2]; decide

theorem monitor_ready (h : Regular inp lib) {S : Env} (hS : Has inp S) (vars : List Alg.Var) {m : Mon} (hm : inp.monitor = some m) (hv : .iter ∈ vars) :
    Ready (inLoops S vars) (inp.monitorCode m) := by
  have sub : ∀ q ∈ S, q ∈ inLoops S vars := fun q hq => List.mem_append_right _ hq
  have it : ("iter", Kind.counter) ∈ inLoops S vars := List.mem_append_left _ (List.mem_map.2 ⟨.iter, hv, rfl⟩)
  have ff : ("f", Kind.file) ∈ inLoops S vars := sub _ (hS.file (by rw [hm]; rfl))
  have dt : ("dt", Kind.value) ∈ inLoops S vars := sub _ (hS.finals _ (time_final inp).2)
  have ha := (h.monitor m hm).2
  unfold Input.monitorCode
  refine Ready.append (Ready.append (Ready.append (Ready.append (Ready.append ?_ ?_) ?_) ?_) ?_) ?_
  · split
    · exact ready_uses fun n hn => sub _ (hS.arrays n (ha n (List.mem_of_mem_take hn)))
    · trivial
  · have e : ∀ c : Bool, ∃ k ns, (if c then [Stmt.use "f" Kind.file] else []) = uses k ns ∧ ∀ n ∈ ns, (n, k) ∈ inLoops S vars := by
      intro c
      cases c
      · exact ⟨.file, [], rfl, by simp⟩
      · exact ⟨.file, ["f"], rfl, by simpa using ff⟩
    have base : Ready (inLoops S vars) [.use "iter" .counter, .block (if m.file then [.use "f" .file] else []), .decl "zero_stencil_indices" .ints,
        .use "zero_stencil_indices" .ints, .decl "zero_stencil" .stencil] :=
      ⟨it, e m.file, List.mem_cons_self .., trivial⟩
    exact base.mono fun q hq => List.mem_append_right _ hq
  · refine ready_flatMap fun p hp => monitorText_ready _ _ _ _ ?_ ?_ ?_ ?_
    · exact List.mem_append_right _ (sub _ (hS.monitors p (by rw [monitored_eq hm]; exact hp)))
    · exact List.mem_append_right _ (sub _ hS.block)
    · exact List.mem_append_right _ (sub _ (hS.arrays _ (monitored_arrays h p (by rw [monitored_eq hm]; exact hp))))
    · rw [added_append]
      exact List.mem_append_left _ (List.mem_append_left _ (List.mem_cons_self ..))
  · generalize added _ = D
    cases m.file
    · trivial
    · exact ⟨List.mem_append_right _ ff, trivial⟩
  · exact ⟨List.mem_append_right _ it, List.mem_append_right _ it, List.mem_append_right _ dt, trivial⟩
  · have : m.arrays.zipIdx.map (fun p => Stmt.use (p.1 ++ "_" ++ toString p.2 ++ "_output") .value) =
        uses .value (m.arrays.zipIdx.map fun p => p.1 ++ "_" ++ toString p.2 ++ "_output") := by
      simp only [uses, List.map_map]
      rfl
    rw [this]
    refine ready_uses fun n hn => ?_
    obtain ⟨p, hp, rfl⟩ := List.mem_map.1 hn
    have inner : (p.1 ++ "_" ++ toString p.2 ++ "_output", Kind.value) ∈ added (monitorText inp.b d p.1 p.2) := by
      rw [added_monitorText]
      refine List.mem_cons_of_mem _ (List.mem_append_right _ (List.mem_cons_self ..))
    have := (mem_added_flatMap m.arrays.zipIdx (fun p => monitorText inp.b d p.1 p.2) _).2 ⟨p, hp, inner⟩
    rw [added_append, added_append, added_append]
    simp only [List.mem_append]
    tauto

end OpenSBLI.Prog
