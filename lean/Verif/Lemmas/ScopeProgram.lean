import Verif.Lemmas.ScopeNodes
import Mathlib.Data.List.Nodup

/-! # Helper lemmas on the components of a program and on the program -/
namespace OpenSBLI.Prog
open OpenSBLI.Reg OpenSBLI.CCode OpenSBLI.Alg

variable {d : ℕ} {inp : Input d} {lib : List String}

/-! ## The declarations of the components -/

/-- The names a mark stands for. -/
def markNames (inp : Input d) : Mark → List String
  | .kernel n => [rangeName inp.b n]
  | .buffer => ["name0"]
  | .clocks => ["elapsed_end0", "cpu_end0", "elapsed_start0", "cpu_start0"]
  | .monitor => match inp.monitor with
    | some m => dom (added (inp.monitorCode m))
    | none => []

theorem added_timers (body : List Stmt) : added (timersText body) =
    [("elapsed_end0", .clock), ("cpu_end0", .clock)] ++ (added body ++ [("elapsed_start0", .clock), ("cpu_start0", .clock)]) := by
  unfold timersText
  rw [added_append, added_append]
  rfl

mutual
theorem node_marks (inp : Input d) (n : Node ℕ) : (dom (added (nodeText inp n))).Perm ((nodeMarks inp n).flatMap (markNames inp)) := by
  match n with
  | .kernel n =>
    unfold nodeText nodeMarks Input.kern?
    cases inp.comp n with
    | kernel k => simp [added_kernel, dom, markNames]
    | exchange l => simp [added, Stmt.adds, dom]
  | .io o dyn =>
    unfold nodeText nodeMarks
    rw [added_io]
    split <;> simp [dom, markNames]
  | .monitor =>
    unfold nodeText nodeMarks
    simp only [List.flatMap_cons, List.flatMap_nil, List.append_nil, markNames]
    cases inp.monitor with
    | none => simp [added, dom]
    | some m => exact List.Perm.refl _
  | .loop v _ body => unfold nodeText nodeMarks; simp [added, Stmt.adds, dom]
  | .cond _ body => unfold nodeText nodeMarks; simp [added, Stmt.adds, dom]
  | .timers body =>
    unfold nodeText nodeMarks
    rw [added_timers, dom_append, dom_append, List.flatMap_cons]
    have ih := nodes_marks inp body
    have e : markNames inp .clocks = ["elapsed_end0", "cpu_end0"] ++ ["elapsed_start0", "cpu_start0"] := rfl
    rw [e, List.append_assoc]
    exact List.Perm.append_left _ ((List.perm_append_comm).trans (List.Perm.append_left _ ih))

theorem nodes_marks (inp : Input d) (l : List (Node ℕ)) : (dom (added (nodesText inp l))).Perm ((nodesMarks inp l).flatMap (markNames inp)) := by
  match l with
  | [] => unfold nodesText nodesMarks; exact List.Perm.refl _
  | n :: l =>
    unfold nodesText nodesMarks
    rw [added_append, dom_append, List.flatMap_append]
    exact List.perm_append_comm.trans ((node_marks inp n).append (nodes_marks inp l))
end

theorem word_forms : ∀ w ∈ ["name0", "cpu_start0", "elapsed_start0", "cpu_end0", "elapsed_end0"], form w = .fixed w ∧ (form w).loose = true := by decide +kernel

theorem markNames_loose (h : Regular inp lib) (m : Mark) : ∀ n ∈ markNames inp m, (form n).loose = true := by
  intro n hn
  cases m with
  | kernel k =>
    have : n = rangeName inp.b k := by simpa [markNames] using hn
    rw [this, form_range]; rfl
  | buffer =>
    have : n = "name0" := by simpa [markNames] using hn
    exact (word_forms n (by simp [this])).2
  | clocks =>
    refine (word_forms n ?_).2
    simp only [markNames, List.mem_cons, List.not_mem_nil, or_false] at hn
    rcases hn with rfl | rfl | rfl | rfl <;> simp
  | monitor =>
    unfold markNames at hn
    cases hm : inp.monitor with
    | none => rw [hm] at hn; cases hn
    | some m => rw [hm] at hn; exact (monitorCode_loose h hm n hn).1

theorem nodes_loose (h : Regular inp lib) (l : List (Node ℕ)) : ∀ n ∈ dom (added (nodesText inp l)), (form n).loose = true := by
  intro n hn
  obtain ⟨m, -, hm⟩ := List.mem_flatMap.1 ((nodes_marks inp l).mem_iff.1 hn)
  exact markNames_loose h m n hm

theorem node_loose (h : Regular inp lib) (a : Node ℕ) : ∀ n ∈ dom (added (nodeText inp a)), (form n).loose = true := by
  intro n hn
  obtain ⟨m, -, hm⟩ := List.mem_flatMap.1 ((node_marks inp a).mem_iff.1 hn)
  exact markNames_loose h m n hm

theorem markNames_nodup (h : Regular inp lib) (m : Mark) : (markNames inp m).Nodup := by
  cases m with
  | kernel k => simp [markNames]
  | buffer => simp [markNames]
  | clocks => simp [markNames]
  | monitor =>
    unfold markNames
    cases hm : inp.monitor with
    | none => simp
    | some m => exact monitorCode_nodup h hm

/-- Different marks stand for different names. -/
theorem markNames_disjoint (h : Regular inp lib) (m m' : Mark) (n : String) (hn : n ∈ markNames inp m) (hn' : n ∈ markNames inp m') : m = m' := by
  have key : ∀ m : Mark, n ∈ markNames inp m → (∃ k, m = .kernel k ∧ n = rangeName inp.b k) ∨ (m = .buffer ∧ n = "name0") ∨
      (m = .clocks ∧ n ∈ ["elapsed_end0", "cpu_end0", "elapsed_start0", "cpu_start0"]) ∨
      (m = .monitor ∧ form n ≠ .range ∧ ∀ w ∈ ["name0", "cpu_start0", "elapsed_start0", "cpu_end0", "elapsed_end0"], n ≠ w) := by
    intro m hn
    cases m with
    | kernel k => exact .inl ⟨k, rfl, by simpa [markNames] using hn⟩
    | buffer => exact .inr (.inl ⟨rfl, by simpa [markNames] using hn⟩)
    | clocks => exact .inr (.inr (.inl ⟨rfl, hn⟩))
    | monitor =>
      refine .inr (.inr (.inr ⟨rfl, ?_⟩))
      unfold markNames at hn
      cases hm : inp.monitor with
      | none => rw [hm] at hn; cases hn
      | some m => rw [hm] at hn; exact (monitorCode_loose h hm n hn).2
  have cw : ∀ w ∈ ["elapsed_end0", "cpu_end0", "elapsed_start0", "cpu_start0"], w ≠ "name0" ∧ form w = .fixed w ∧
      w ∈ ["name0", "cpu_start0", "elapsed_start0", "cpu_end0", "elapsed_end0"] := by decide +kernel
  have cn : form "name0" = .fixed "name0" := (word_forms _ (by simp)).1
  rcases key m hn with ⟨k, rfl, e⟩ | ⟨rfl, e⟩ | ⟨rfl, e⟩ | ⟨rfl, e⟩ <;> rcases key m' hn' with ⟨k', rfl, e'⟩ | ⟨rfl, e'⟩ | ⟨rfl, e'⟩ | ⟨rfl, e'⟩
  · rw [rangeName_injective inp.b (e.symm.trans e')]
  · have := form_range inp.b k; rw [← e, e', cn] at this; cases this
  · have := form_range inp.b k; rw [← e, (cw n e').2.1] at this; cases this
  · exact absurd (by rw [e]; exact form_range ..) e'.1
  · have := form_range inp.b k'; rw [← e', e, cn] at this; cases this
  · rfl
  · exact absurd e (cw n e').1
  · exact absurd e (e'.2 _ (by simp))
  · have := form_range inp.b k'; rw [← e', (cw n e).2.1] at this; cases this
  · exact absurd e' (cw n e).1
  · rfl
  · exact absurd rfl (e'.2 _ (cw n e).2.2)
  · exact absurd (by rw [e']; exact form_range ..) e.1
  · exact absurd e' (e.2 _ (by simp))
  · exact absurd rfl (e.2 _ (cw n e').2.2)
  · rfl

/-- The components declare different names if nothing stands in a block twice. -/
theorem nodes_nodup (h : Regular inp lib) (l : List (Node ℕ)) (hl : (nodesMarks inp l).Nodup) : (dom (added (nodesText inp l))).Nodup := by
  refine (nodes_marks inp l).nodup_iff.2 (List.nodup_flatMap.2 ⟨fun m _ => markNames_nodup h m, ?_⟩)
  refine hl.imp fun {m m'} hne n hn hn' => hne (markNames_disjoint h m m' n hn hn')

/-! ## The components are well scoped -/

theorem mem_kernels (inp : Input d) (n : ℕ) (k : Kern d) (hn : n ∈ loopAlg inp.prg) (hk : inp.comp n = .kernel k) : (n, k) ∈ inp.kernels :=
  List.mem_filterMap.2 ⟨n, hn, by simp [Input.kern?, hk]⟩

theorem mem_exchanges (inp : Input d) (n : ℕ) (x : List String) (hn : n ∈ loopAlg inp.prg) (hk : inp.comp n = .exchange x) : (n, x) ∈ inp.exchanges :=
  List.mem_filterMap.2 ⟨n, hn, by simp [Input.exch?, hk]⟩

mutual
theorem node_ok (h : Regular inp lib) {S : Env} (hS : Has inp S) (n : Node ℕ) (vars : List Alg.Var) (outer cur : Env)
    (hf : nodeFits inp vars n = true) (ho : ∀ k, Occurs k n → k ∈ loopAlg inp.prg) (hv : Vis (cur ++ outer) (inLoops S vars))
    (hn : (dom (added (nodeText inp n))).Nodup) (hc : Apart (added (nodeText inp n)) cur) : allOk outer cur (nodeText inp n) = true := by
  have hl := loose_apart hS vars (node_loose h n)
  match n with
  | .kernel n =>
    refine ready_ok _ _ _ hv hn hl hc ?_
    unfold nodeText
    unfold nodeFits at hf
    cases hk : inp.comp n with
    | kernel k =>
      rw [hk] at hf
      exact kernel_ready h hS vars (n, k) (mem_kernels inp n k (ho n .here) hk) hf
    | exchange x => exact ⟨List.mem_append_right _ (hS.groups (n, x) (mem_exchanges inp n x (ho n .here) hk)), trivial⟩
  | .io o dyn =>
    refine ready_ok _ _ _ hv hn hl hc ?_
    unfold nodeText
    unfold nodeFits at hf
    rw [Bool.and_eq_true] at hf
    refine io_ready hS vars o dyn (fun x hx => of_decide_eq_true (List.all_eq_true.1 hf.1 x hx)) fun hw hd => ?_
    have := hf.2
    rw [hw, hd] at this
    simp at this
    exact this.2.2
  | .monitor =>
    refine ready_ok _ _ _ hv hn hl hc ?_
    unfold nodeText
    unfold nodeFits at hf
    rw [Bool.and_eq_true] at hf
    cases hm : inp.monitor with
    | none => trivial
    | some m => exact monitor_ready h hS vars hm (of_decide_eq_true hf.2)
  | .loop v b body =>
    unfold nodeFits at hf
    rw [Bool.and_eq_true] at hf
    have nd := nodes_nodup h body (of_decide_eq_true hf.1)
    have ent := enter_loop hS vars v hv
    have ih := nodes_ok h hS body (v :: vars) ([(varName v, Kind.counter)] ++ (cur ++ outer)) [] hf.2
      (fun a ha k hk => ho k (.loop ha hk)) ent nd (by simp [Apart, dom])
    unfold nodeText
    cases v with
    | stage =>
      simp only [allOk, Stmt.ok, Stmt.adds, List.cons_append, List.nil_append, Bool.and_true, Bool.and_eq_true, List.map_nil, List.not_mem_nil, not_false_eq_true,
        decide_true, true_and]
      exact ih
    | iter =>
      have lk : ((varName .iter, Kind.counter) :: (cur ++ outer)).lookup "niter" = some .value := by
        refine ent ("niter", .value) (List.mem_append_right _ (hS.finals _ (time_final inp).1))
      simp only [allOk, Stmt.ok, Stmt.adds, List.cons_append, List.nil_append, Bool.and_true, Bool.and_eq_true, List.map_nil, List.not_mem_nil, not_false_eq_true,
        decide_true, true_and, lk]
      exact ih
  | .cond c body =>
    unfold nodeFits at hf
    rw [Bool.and_eq_true, Bool.and_eq_true] at hf
    have nd := nodes_nodup h body (of_decide_eq_true hf.1.2)
    have ih := nodes_ok h hS body vars (cur ++ outer) [] hf.2 (fun a ha k hk => ho k (.cond ha hk)) hv nd (by simp [Apart, dom])
    have lk : (cur ++ outer).lookup "iter" = some .counter := by
      refine hv ("iter", .counter) (List.mem_append_left _ (List.mem_map.2 ⟨.iter, of_decide_eq_true hf.1.1, rfl⟩))
    unfold nodeText
    simp only [allOk, Stmt.ok, Stmt.adds, List.nil_append, Bool.and_true, Bool.and_eq_true, lk, decide_true, true_and]
    exact ih
  | .timers body =>
    unfold nodeFits at hf
    unfold nodeText at hn hc hl ⊢
    rw [added_timers] at hn hc hl
    rw [dom_append, dom_append, List.nodup_append, List.nodup_append] at hn
    have m1 : ∀ x, x ∈ dom [("elapsed_start0", Kind.clock), ("cpu_start0", .clock)] → x ∈ dom ([("elapsed_end0", Kind.clock), ("cpu_end0", .clock)] ++
        (added (nodesText inp body) ++ [("elapsed_start0", .clock), ("cpu_start0", .clock)])) := fun x hx => by
      rw [dom_append, dom_append]; exact List.mem_append_right _ (List.mem_append_right _ hx)
    have m2 : ∀ x, x ∈ dom (added (nodesText inp body)) → x ∈ dom ([("elapsed_end0", Kind.clock), ("cpu_end0", .clock)] ++
        (added (nodesText inp body) ++ [("elapsed_start0", .clock), ("cpu_start0", .clock)])) := fun x hx => by
      rw [dom_append, dom_append]; exact List.mem_append_right _ (List.mem_append_left _ hx)
    have m3 : ∀ x, x ∈ dom [("elapsed_end0", Kind.clock), ("cpu_end0", .clock)] → x ∈ dom ([("elapsed_end0", Kind.clock), ("cpu_end0", .clock)] ++
        (added (nodesText inp body) ++ [("elapsed_start0", .clock), ("cpu_start0", .clock)])) := fun x hx => by
      rw [dom_append, dom_append]; exact List.mem_append_left _ hx
    have e1 : added [Stmt.decl "cpu_start0" .clock, .decl "elapsed_start0" .clock, .use "cpu_start0" .clock, .use "elapsed_start0" .clock] =
        [("elapsed_start0", Kind.clock), ("cpu_start0", .clock)] := rfl
    have e3 : added [Stmt.decl "cpu_end0" .clock, .decl "elapsed_end0" .clock, .use "cpu_end0" .clock, .use "elapsed_end0" .clock, .use "elapsed_end0" .clock,
        .use "elapsed_start0" .clock] = [("elapsed_end0", Kind.clock), ("cpu_end0", .clock)] := rfl
    have v1 : Vis (([("elapsed_start0", Kind.clock), ("cpu_start0", .clock)] ++ cur) ++ outer) (inLoops S vars) := by
      rw [List.append_assoc]; exact hv.skip _ fun x hx => hl x (m1 x hx)
    have v1' : Vis (([("elapsed_start0", Kind.clock), ("cpu_start0", .clock)] ++ cur) ++ outer) ([("elapsed_start0", Kind.clock), ("cpu_start0", .clock)] ++ inLoops S vars) := by
      rw [List.append_assoc]; exact hv.extend _ (by decide) fun x hx => hl x (m1 x hx)
    have nb := hn.2.1.1
    have apb : Apart (added (nodesText inp body)) ([("elapsed_start0", Kind.clock), ("cpu_start0", .clock)] ++ inLoops S vars) := by
      intro x hx hm
      rw [dom_append, List.mem_append] at hm
      rcases hm with hm | hm
      · exact hn.2.1.2.2 x hx x hm rfl
      · exact hl x (m2 x hx) hm
    have v2 := v1'.skip _ apb
    unfold timersText
    rw [allOk_append, allOk_append, Bool.and_eq_true, Bool.and_eq_true, added_append, e1]
    refine ⟨⟨?_, ?_⟩, ?_⟩
    · refine ready_ok _ _ _ hv (by rw [e1]; decide) (fun x hx => hl x (m1 x (e1 ▸ hx))) (fun x hx => hc x (m1 x (e1 ▸ hx))) ?_
      exact ⟨by simp, by simp, trivial⟩
    · refine nodes_ok h hS body vars outer _ hf (fun a ha k hk => ho k (.timers ha hk)) v1 nb ?_
      intro x hx hm
      rw [dom_append, List.mem_append] at hm
      rcases hm with hm | hm
      · exact hn.2.1.2.2 x hx x hm rfl
      · exact hc x (m2 x hx) hm
    · refine ready_ok _ _ _ (U := [("elapsed_start0", Kind.clock), ("cpu_start0", .clock)] ++ inLoops S vars) ?_ (by rw [e3]; decide) ?_ ?_ ?_
      · simpa only [List.append_assoc] using v2
      · rw [e3]
        intro x hx hm
        rw [dom_append, List.mem_append] at hm
        rcases hm with hm | hm
        · exact hn.2.2 x hx x (List.mem_append_right _ hm) rfl
        · exact hl x (m3 x hx) hm
      · rw [e3]
        intro x hx hm
        rw [dom_append, dom_append, List.mem_append, List.mem_append] at hm
        rcases hm with (hm | hm) | hm
        · exact hn.2.2 x hx x (List.mem_append_left _ hm) rfl
        · exact hn.2.2 x hx x (List.mem_append_right _ hm) rfl
        · exact hc x (m3 x hx) hm
      · exact ⟨by simp, by simp, by simp, by simp, trivial⟩

theorem nodes_ok (h : Regular inp lib) {S : Env} (hS : Has inp S) (l : List (Node ℕ)) (vars : List Alg.Var) (outer cur : Env)
    (hf : nodesFit inp vars l = true) (ho : ∀ a ∈ l, ∀ k, Occurs k a → k ∈ loopAlg inp.prg) (hv : Vis (cur ++ outer) (inLoops S vars))
    (hn : (dom (added (nodesText inp l))).Nodup) (hc : Apart (added (nodesText inp l)) cur) : allOk outer cur (nodesText inp l) = true := by
  match l with
  | [] => unfold nodesText; simp [allOk]
  | a :: l =>
    unfold nodesFit at hf
    rw [Bool.and_eq_true] at hf
    unfold nodesText at hn hc ⊢
    rw [added_append] at hn hc
    rw [dom_append, List.nodup_append] at hn
    have ma : ∀ x, x ∈ dom (added (nodeText inp a)) → x ∈ dom (added (nodesText inp l) ++ added (nodeText inp a)) := fun x hx => by
      rw [dom_append]; exact List.mem_append_right _ hx
    have ml : ∀ x, x ∈ dom (added (nodesText inp l)) → x ∈ dom (added (nodesText inp l) ++ added (nodeText inp a)) := fun x hx => by
      rw [dom_append]; exact List.mem_append_left _ hx
    rw [allOk_append, Bool.and_eq_true]
    refine ⟨node_ok h hS a vars outer cur hf.1 (ho a (List.mem_cons_self ..)) hv hn.2.1 fun x hx => hc x (ma x hx), ?_⟩
    refine nodes_ok h hS l vars outer _ hf.2 (fun b hb => ho b (List.mem_cons_of_mem _ hb)) ?_ hn.1 ?_
    · rw [List.append_assoc]
      exact hv.skip _ (loose_apart hS vars (node_loose h a))
    · intro x hx hm
      rw [dom_append, List.mem_append] at hm
      rcases hm with hm | hm
      · exact hn.2.2 x hx x hm rfl
      · exact hc x (ml x hx) hm
end

/-! ## The program -/

/-- The declaration of the log file. -/
def fileText (inp : Input d) : List Stmt :=
  match inp.monitor with
  | some m => if m.file then [.decl "f" .file] else []
  | none => []

theorem file_added (inp : Input d) : (∀ n ∈ dom (added (fileText inp)), n = "f") ∧ (dom (added (fileText inp))).Nodup := by
  unfold fileText
  cases inp.monitor with
  | none => simp [added, dom]
  | some m =>
    obtain ⟨a, c, f⟩ := m
    cases f <;> simp [added, dom, Stmt.adds]

theorem file_ok (inp : Input d) (outer cur : Env) (h : "f" ∉ dom cur) : allOk outer cur (fileText inp) = true := by
  unfold fileText
  cases inp.monitor with
  | none => simp [allOk]
  | some m =>
    obtain ⟨a, c, f⟩ := m
    cases f with
    | false => simp [allOk]
    | true =>
      change allOk outer cur [.decl "f" .file] = true
      rw [allOk, allOk, Bool.and_true]
      exact decide_eq_true h

theorem file_mem (h : Regular inp lib) (hm : inp.monitor.isSome) : ("f", Kind.file) ∈ added (fileText inp) := by
  unfold fileText
  cases e : inp.monitor with
  | none => rw [e] at hm; cases hm
  | some m =>
    have := (h.monitor m e).1
    simp [this, added, Stmt.adds]

theorem defDecs_forms (h : Regular inp lib) : ∀ n ∈ dom (added inp.defDecs), (form n).loose = false ∧ n ≠ "iter" ∧ n ≠ "stage" := by
  have nf : ∀ n, (form n).loose = false → (∀ m, form n ≠ .fixed m) → (form n).loose = false ∧ n ≠ "iter" ∧ n ≠ "stage" := by
    intro n h1 h2
    refine ⟨h1, ?_, ?_⟩ <;> rintro rfl
    · exact h2 _ (form_fixed _ (by decide))
    · exact h2 _ (form_fixed _ (by decide))
  intro n hn
  rw [added_defDecs h, dom_append, dom_append, dom_append, dom_append, List.mem_append, List.mem_append, List.mem_append, List.mem_append] at hn
  rcases hn with hn | hn | hn | hn | hn
  · have := exchanges_dom inp n hn
    exact nf n (by rw [this]; rfl) (by rw [this]; simp)
  · rcases stencils_dom inp n hn with this | this
    · exact nf n (by rw [this]; rfl) (by rw [this]; simp)
    · exact nf n (by rw [this]; rfl) (by rw [this]; simp)
  · have := (h.arrays n ((arrays_dom inp n).1 hn)).1
    exact nf n (by rw [this]; rfl) (by rw [this]; simp)
  · have e : n = blockName inp.b := by simpa [dom] using hn
    have : form n = .block := by rw [e]; exact form_block _
    exact nf n (by rw [this]; rfl) (by rw [this]; simp)
  · rw [tables_text, dom_decls] at hn
    have := (h.tables n hn).1
    exact nf n (by rw [this]; rfl) (by rw [this]; simp)

theorem has_all (h : Regular inp lib) (S : Env) (h1 : ∀ n ∈ inp.finalNames, (n, Kind.value) ∈ S) (h2 : ∀ p ∈ inp.kernels, (kernelName inp.b p.1, Kind.function) ∈ S)
    (h3 : ∀ p ∈ inp.monitored, ("monitor_" ++ toString p.2 ++ "_" ++ p.1, Kind.function) ∈ S) (h4 : inp.monitor.isSome → ("f", Kind.file) ∈ S)
    (ht : ∀ n ∈ dom S, (form n).loose = false ∧ n ≠ "iter" ∧ n ≠ "stage") : Has inp (added inp.defDecs ++ S) := by
  have e := added_defDecs h
  have r : ∀ p ∈ S, p ∈ added inp.defDecs ++ S := fun p hp => List.mem_append_right _ hp
  refine ⟨fun n hn => r _ (h1 n hn), fun t ht => ?_, ?_, fun x hx => ?_, fun s hs => ?_, fun g hg => ?_, fun p hp => r _ (h2 p hp), fun p hp => r _ (h3 p hp),
    fun hm => r _ (h4 hm), fun n hn => ?_⟩
  · have : (t, Kind.table) ∈ added (inp.tables.flatMap tableText) := by
      rw [tables_text, added_decls, List.mem_reverse]
      exact List.mem_map.2 ⟨t, ht, rfl⟩
    rw [e]
    exact List.mem_append_left _ (List.mem_append_right _ (List.mem_append_right _ (List.mem_append_right _ (List.mem_append_right _ this))))
  · rw [e]
    exact List.mem_append_left _ (List.mem_append_right _ (List.mem_append_right _ (List.mem_append_right _ (List.mem_append_left _ (List.mem_cons_self ..)))))
  · have := arrays_mem inp x hx
    rw [e]
    exact List.mem_append_left _ (List.mem_append_right _ (List.mem_append_right _ (List.mem_append_left _ this)))
  · have : (s.2, Kind.stencil) ∈ added (inp.stencils.flatMap stencilText) := (mem_added_flatMap _ _ _).2 ⟨s, hs, List.mem_cons_self ..⟩
    rw [e]
    exact List.mem_append_left _ (List.mem_append_right _ (List.mem_append_left _ this))
  · have := exchanges_mem inp g hg
    rw [e]
    exact List.mem_append_left _ (List.mem_append_left _ this)
  · rw [dom_append, List.mem_append] at hn
    exact hn.elim (defDecs_forms h n) (ht n)

/-- The text before the main program. -/
def globalText (inp : Input d) : List Stmt := inp.finalNames.map (.decl · .value) ++ inp.functions ++ inp.monitorFunctions ++ fileText inp

/-- The main program. -/
def bodyText (inp : Input d) : List Stmt := inp.defDecs ++ nodesText inp inp.prg ++ inp.exitText

theorem text_eq (inp : Input d) : inp.text = globalText inp ++ [.decl "main" .function, .block ([.decl "argc" .value, .decl "argv" .text] ++ bodyText inp)] := by
  unfold Input.text globalText fileText bodyText
  simp only [List.cons_append, List.nil_append]
  cases inp.monitor <;> rfl

theorem kernel_forms (inp : Input d) : ∀ n ∈ dom (added inp.functions), form n = .kernel := by
  intro n hm
  obtain ⟨p, -, rfl⟩ := (functions_dom inp n).1 hm
  exact form_kernel ..

theorem finals_dom (inp : Input d) (n : String) : n ∈ dom (added (inp.finalNames.map (Stmt.decl · .value))) ↔ n ∈ inp.finalNames := dom_decls ..

theorem finals_dom_nodup (inp : Input d) : (dom (added (inp.finalNames.map (Stmt.decl · .value)))).Nodup := by
  have e : dom ((inp.finalNames.map (·, Kind.value)).reverse) = inp.finalNames.reverse := by simp [dom, Function.comp_def]
  rw [added_decls, e, List.nodup_reverse]
  exact finalNames_nodup inp

theorem finals_mem (inp : Input d) (n : String) (hn : n ∈ inp.finalNames) : (n, Kind.value) ∈ added (inp.finalNames.map (Stmt.decl · .value)) := by
  rw [added_decls, List.mem_reverse]
  exact List.mem_map.2 ⟨n, hn, rfl⟩

theorem added_global (inp : Input d) : added (globalText inp) =
    added (fileText inp) ++ (added inp.monitorFunctions ++ (added inp.functions ++ added (inp.finalNames.map (Stmt.decl · .value)))) := by
  unfold globalText
  rw [added_append, added_append, added_append]

theorem form_f : form "f" = .fixed "f" := form_fixed _ (by decide)

theorem global_dom (h : Regular inp lib) : ∀ n ∈ dom (added (globalText inp)), n ∈ inp.finalNames ∨ form n = .kernel ∨ form n = .monitor ∨ n = "f" := by
  intro n hn
  rw [added_global, dom_append, dom_append, dom_append, List.mem_append, List.mem_append, List.mem_append, finals_dom] at hn
  rcases hn with hn | hn | hn | hn
  · exact .inr (.inr (.inr ((file_added inp).1 n hn)))
  · exact .inr (.inr (.inl (monitorFunctions_dom h n hn)))
  · exact .inr (.inl (kernel_forms inp n hn))
  · exact .inl hn

theorem global_nodup (h : Regular inp lib) : (dom (added (globalText inp))).Nodup := by
  have fu := finalNames_user h
  have kf := kernel_forms inp
  have mf := monitorFunctions_dom h
  have ff := form_f
  rw [added_global, dom_append, dom_append, dom_append, List.nodup_append, List.nodup_append, List.nodup_append]
  refine ⟨(file_added inp).2, ⟨monitorFunctions_nodup inp, ⟨functions_nodup inp, finals_dom_nodup inp, ?_⟩, ?_⟩, ?_⟩
  · rintro n hn m hm rfl
    have := (fu n ((finals_dom inp n).1 hm)).1
    rw [kf n hn] at this
    cases this
  · rintro n hn m hm rfl
    rcases List.mem_append.1 hm with hm | hm
    · have := kf n hm; rw [mf n hn] at this; cases this
    · have := (fu n ((finals_dom inp n).1 hm)).1; rw [mf n hn] at this; cases this
  · rintro n hn m hm rfl
    have e := (file_added inp).1 n hn
    subst e
    rcases List.mem_append.1 hm with hm | hm
    · have := mf _ hm; rw [ff] at this; cases this
    · rcases List.mem_append.1 hm with hm | hm
      · have := kf _ hm; rw [ff] at this; cases this
      · have := (fu _ ((finals_dom inp _).1 hm)).1; rw [ff] at this; cases this

theorem lib_forms (h : Regular inp lib) : ∀ n ∈ dom (lib.map (·, Kind.library)), form n = .user ∨ form n = .corner := by
  intro n hn
  have hn : n ∈ lib := by simpa [dom] using hn
  exact (h.library n hn).1

/-- The text before the main program is well scoped. -/
theorem global_ok (h : Regular inp lib) : allOk [] (lib.map (·, Kind.library)) (globalText inp) = true := by
  have fu := finalNames_user h
  have kf := kernel_forms inp
  have mf := monitorFunctions_dom h
  have lf := lib_forms h
  have dl : ∀ n, n ∈ dom (lib.map (·, Kind.library)) → n ∈ lib := by intro n hn; simpa [dom] using hn
  generalize lib.map (·, Kind.library) = L at *
  have c0 : ∀ n ∈ dom (added (inp.finalNames.map (Stmt.decl · .value)) ++ L), form n = .user ∨ form n = .corner := by
    intro n hn
    rw [dom_append, List.mem_append, finals_dom] at hn
    exact hn.elim (fun h => .inl (fu n h).1) (lf n)
  have c1 : ∀ n ∈ dom (added inp.functions ++ (added (inp.finalNames.map (Stmt.decl · .value)) ++ L)), form n = .user ∨ form n = .corner ∨ form n = .kernel := by
    intro n hn
    rw [dom_append, List.mem_append] at hn
    rcases hn with hn | hn
    · exact .inr (.inr (kf n hn))
    · exact (c0 n hn).elim .inl fun e => .inr (.inl e)
  unfold globalText
  rw [allOk_append, allOk_append, allOk_append, Bool.and_eq_true, Bool.and_eq_true, Bool.and_eq_true]
  refine ⟨⟨⟨?_, ?_⟩, ?_⟩, ?_⟩
  · exact allOk_decls _ _ _ _ (finalNames_nodup inp) fun n hn hm => (fu n hn).2.2.2 (dl n hm)
  · have v0 : Vis ((added (inp.finalNames.map (Stmt.decl · .value)) ++ L) ++ []) (added (inp.finalNames.map (Stmt.decl · .value))) := by
      have := Vis.extend (E := L) (S := []) (by simp [Vis]) (added (inp.finalNames.map (Stmt.decl · .value))) (finals_dom_nodup inp) (by simp [Apart, dom])
      simpa only [List.append_nil] using this
    refine functions_ok h _ _ _ v0 (finals_mem inp) (fun n hn e => ?_) fun n hn e => ?_
    · have := (fu n ((finals_dom inp n).1 hn)).1; rw [e] at this; cases this
    · have := c0 n hn; rw [e] at this; simp at this
  · rw [added_append, List.append_assoc]
    refine monitorFunctions_ok h _ _ fun n hn e => ?_
    have := c1 n hn; rw [e] at this; simp at this
  · rw [added_append, added_append, List.append_assoc, List.append_assoc]
    refine file_ok inp _ _ fun hn => ?_
    rw [dom_append, List.mem_append] at hn
    rcases hn with hn | hn
    · have := mf _ hn; rw [form_f] at this; cases this
    · have := c1 _ hn; rw [form_f] at this; simp at this

theorem main_words : ∀ w ∈ ["main", "argc", "argv"], form w = .fixed w ∧ w ≠ "f" ∧ (form w).loose = false := by decide +kernel

theorem global_tight (h : Regular inp lib) : ∀ n ∈ dom (added (globalText inp)), (form n).loose = false ∧ n ≠ "iter" ∧ n ≠ "stage" := by
  have iw : form "iter" = .fixed "iter" ∧ form "stage" = .fixed "stage" := ⟨form_fixed _ (by decide), form_fixed _ (by decide)⟩
  intro n hn
  rcases global_dom h n hn with e | e | e | e
  · have := (finalNames_user h n e).1
    refine ⟨by rw [this]; rfl, ?_, ?_⟩ <;> rintro rfl
    · rw [iw.1] at this; cases this
    · rw [iw.2] at this; cases this
  · refine ⟨by rw [e]; rfl, ?_, ?_⟩ <;> rintro rfl
    · rw [iw.1] at e; cases e
    · rw [iw.2] at e; cases e
  · refine ⟨by rw [e]; rfl, ?_, ?_⟩ <;> rintro rfl
    · rw [iw.1] at e; cases e
    · rw [iw.2] at e; cases e
  · subst e
    exact ⟨by rw [form_f]; rfl, by decide, by decide⟩

theorem global_words (h : Regular inp lib) : ∀ w ∈ ["main", "argc", "argv"], w ∉ dom (added (globalText inp)) := by
  intro w hw hm
  have fw := main_words w hw
  rcases global_dom h w hm with e | e | e | e
  · have := (finalNames_user h w e).1; rw [fw.1] at this; cases this
  · rw [fw.1] at e; cases e
  · rw [fw.1] at e; cases e
  · exact fw.2.1 e

theorem has_global (h : Regular inp lib) : Has inp (added inp.defDecs ++ added (globalText inp)) := by
  have e := added_global inp
  refine has_all h _ (fun n hn => ?_) (fun p hp => ?_) (fun p hp => ?_) (fun hm => ?_) (global_tight h)
  · rw [e]
    exact List.mem_append_right _ (List.mem_append_right _ (List.mem_append_right _ (finals_mem inp n hn)))
  · rw [e]
    exact List.mem_append_right _ (List.mem_append_right _ (List.mem_append_left _ (functions_mem inp p hp)))
  · rw [e]
    exact List.mem_append_right _ (List.mem_append_left _ (monitorFunctions_mem inp p hp))
  · rw [e]
    exact List.mem_append_left _ (file_mem h hm)

/-- The main program is well scoped. -/
theorem body_ok (h : Regular inp lib) (hm : (nodesMarks inp inp.prg).Nodup) (hf : nodesFit inp [] inp.prg = true) (cur outer : Env)
    (hc : ∀ n ∈ dom cur, n = "argv" ∨ n = "argc") (hv : Vis (cur ++ outer) (added (globalText inp))) : allOk outer cur (bodyText inp) = true := by
  have has := has_global h
  have nl := nodes_loose h inp.prg
  have gd := global_dom h
  have fG : inp.monitor.isSome → ("f", Kind.file) ∈ added (globalText inp) := fun hm => by
    rw [added_global]; exact List.mem_append_left _ (file_mem h hm)
  have finG : ∀ n ∈ inp.finalNames, (n, Kind.value) ∈ added (globalText inp) := fun n hn => by
    rw [added_global]; exact List.mem_append_right _ (List.mem_append_right _ (List.mem_append_right _ (finals_mem inp n hn)))
  generalize added (globalText inp) = G at *
  have w : ∀ n ∈ dom cur, form n = .fixed n ∧ (form n).loose = false := fun n hn => by
    have := main_words n (by rcases hc n hn with rfl | rfl <;> simp)
    exact ⟨this.1, this.2.2⟩
  obtain ⟨o5, v5⟩ := defDecs_ok h cur outer G hv finG (fun n hn => by
    rcases gd n hn with e | e | e | e
    · exact .inl e
    · exact .inr (.inl e)
    · exact .inr (.inr (.inl e))
    · exact .inr (.inr (.inr (by rw [e]; exact form_f)))) fun n hn => (w n hn).1
  have o6 := nodes_ok h has inp.prg [] _ _ hf (fun a ha k hk => ((C44_kernels_emitted_once inp.prg).2 k).2 ⟨a, ha, hk⟩) v5 (nodes_nodup h inp.prg hm) (by
    intro n hn hm
    have l := nl n hn
    rw [dom_append, List.mem_append] at hm
    rcases hm with hm | hm
    · rw [(defDecs_forms h n hm).1] at l; cases l
    · rw [(w n hm).2] at l; cases l)
  have v6 := v5.skip (added (nodesText inp inp.prg)) (Apart.form Form.loose nl fun n hn => (has.tight n hn).1)
  unfold bodyText
  rw [allOk_append, allOk_append, o5, o6, added_append, List.append_assoc]
  rw [← List.append_assoc] at v6
  generalize added (nodesText inp inp.prg) ++ (added inp.defDecs ++ cur) = C at v6
  unfold Input.exitText
  cases e : inp.monitor with
  | none => simp [allOk]
  | some m =>
    have lk := v6 ("f", .file) (List.mem_append_right _ (fG (by rw [e]; rfl)))
    simp only [(h.monitor m e).1, if_true, allOk, Stmt.ok, lk, decide_true, Bool.and_true]

/-- The whole program. -/
theorem text_ok (h : Regular inp lib) (hm : (nodesMarks inp inp.prg).Nodup) (hf : nodesFit inp [] inp.prg = true) : wellScoped lib inp.text = true := by
  have lf := lib_forms h
  have go := global_ok h
  have gd := global_dom h
  have gw := global_words h
  have fu := finalNames_user h
  have gv : Vis (added (globalText inp) ++ lib.map (·, Kind.library)) (added (globalText inp)) := by
    have := Vis.extend (E := lib.map (·, Kind.library)) (S := []) (by simp [Vis]) (added (globalText inp)) (global_nodup h) (by simp [Apart, dom])
    simpa only [List.append_nil] using this
  unfold wellScoped
  rw [text_eq, allOk_append, go, Bool.true_and]
  generalize lib.map (·, Kind.library) = L at *
  have om : "main" ∉ dom (added (globalText inp) ++ L) := by
    rw [dom_append, List.mem_append]
    rintro (hn | hn)
    · exact gw _ (by simp) hn
    · have := lf _ hn
      rw [(main_words "main" (by simp)).1] at this
      simp at this
  have v4 : Vis ([("argv", Kind.text), ("argc", Kind.value)] ++ ([("main", Kind.function)] ++ (added (globalText inp) ++ L))) (added (globalText inp)) := by
    refine (gv.skip _ fun n hn => gw n ?_).skip _ fun n hn => gw n ?_
    · have : n = "main" := by simpa [dom] using hn
      simp [this]
    · have : n = "argv" ∨ n = "argc" := by simpa [dom] using hn
      rcases this with rfl | rfl <;> simp
  generalize added (globalText inp) ++ L = E at *
  have body := body_ok h hm hf _ _ (fun n hn => by simpa [dom] using hn) v4
  have a8 : added [Stmt.decl "argc" .value, .decl "argv" .text] = [("argv", Kind.text), ("argc", Kind.value)] := rfl
  have o8 : allOk ([("main", Kind.function)] ++ E) [] [Stmt.decl "argc" .value, .decl "argv" .text] = true := by
    refine ready_ok (U := []) _ _ _ (by simp [Vis]) (by rw [a8]; decide) (by simp [Apart, dom]) (by simp [Apart, dom]) trivial
  have inner : allOk ([("main", Kind.function)] ++ E) [] ([.decl "argc" .value, .decl "argv" .text] ++ bodyText inp) = true := by
    rw [allOk_append, a8, o8, List.append_nil, body]
    rfl
  simp only [allOk, Stmt.ok, Stmt.adds, Bool.and_true, Bool.and_eq_true, List.append_nil]
  exact ⟨decide_eq_true om, inner⟩

/-! ## No failures -/

mutual
theorem node_io (inp : Input d) (vars : List Alg.Var) (n : Node ℕ) (hf : nodeFits inp vars n = true) : ∀ o ∈ nodeIOs n, ∀ x ∈ inp.ioArrays o.id, x ∈ inp.arrays := by
  match n with
  | .kernel _ => unfold nodeIOs; simp
  | .io o dyn =>
    unfold nodeFits at hf
    rw [Bool.and_eq_true] at hf
    unfold nodeIOs
    intro o' ho x hx
    rw [List.mem_singleton] at ho
    subst ho
    exact of_decide_eq_true (List.all_eq_true.1 hf.1 x hx)
  | .monitor => unfold nodeIOs; simp
  | .loop v _ body =>
    unfold nodeFits at hf
    rw [Bool.and_eq_true] at hf
    unfold nodeIOs
    exact nodes_io inp (v :: vars) body hf.2
  | .cond _ body =>
    unfold nodeFits at hf
    rw [Bool.and_eq_true] at hf
    unfold nodeIOs
    exact nodes_io inp vars body hf.2
  | .timers body =>
    unfold nodeFits at hf
    unfold nodeIOs
    exact nodes_io inp vars body hf

theorem nodes_io (inp : Input d) (vars : List Alg.Var) (l : List (Node ℕ)) (hf : nodesFit inp vars l = true) :
    ∀ o ∈ nodesIOs l, ∀ x ∈ inp.ioArrays o.id, x ∈ inp.arrays := by
  match l with
  | [] => unfold nodesIOs; simp
  | n :: l =>
    unfold nodesFit at hf
    rw [Bool.and_eq_true] at hf
    unfold nodesIOs
    intro o ho
    rcases List.mem_append.1 ho with ho | ho
    · exact node_io inp vars n hf.1 o ho
    · exact nodes_io inp vars l hf.2 o ho
end

mutual
theorem node_quiet (h : Regular inp lib) (vars : List Alg.Var) (n : Node ℕ) (ho : ∀ k, Occurs k n → k ∈ loopAlg inp.prg)
    (hf : nodeFits inp vars n = true) : nodeRaises inp n = false := by
  match n with
  | .kernel n =>
    unfold nodeRaises
    cases hk : inp.comp n with
    | exchange l => rfl
    | kernel k =>
      have := (h.kernels (n, k) (mem_kernels inp n k (ho n .here) hk)).nonempty
      simpa using this
  | .io o dyn =>
    unfold nodeFits at hf
    unfold nodeRaises IO.codeRaises
    rw [Bool.and_eq_true] at hf
    have := hf.2
    cases hw : o.write <;> cases dyn <;> cases hn : o.name <;> simp_all
  | .monitor =>
    unfold nodeFits at hf
    unfold nodeRaises
    rw [Bool.and_eq_true] at hf
    have := of_decide_eq_true hf.1
    exact decide_eq_false (by omega)
  | .loop v _ body =>
    unfold nodeFits at hf
    rw [Bool.and_eq_true] at hf
    unfold nodeRaises
    exact nodes_quiet h (v :: vars) body (fun a ha k hk => ho k (.loop ha hk)) hf.2
  | .cond _ body =>
    unfold nodeFits at hf
    rw [Bool.and_eq_true] at hf
    unfold nodeRaises
    exact nodes_quiet h vars body (fun a ha k hk => ho k (.cond ha hk)) hf.2
  | .timers body =>
    unfold nodeFits at hf
    unfold nodeRaises
    exact nodes_quiet h vars body (fun a ha k hk => ho k (.timers ha hk)) hf

theorem nodes_quiet (h : Regular inp lib) (vars : List Alg.Var) (l : List (Node ℕ)) (ho : ∀ a ∈ l, ∀ k, Occurs k a → k ∈ loopAlg inp.prg)
    (hf : nodesFit inp vars l = true) : nodesRaise inp l = false := by
  match l with
  | [] => rfl
  | n :: l =>
    unfold nodesFit at hf
    rw [Bool.and_eq_true] at hf
    unfold nodesRaise
    rw [node_quiet h vars n (ho n (List.mem_cons_self ..)) hf.1, nodes_quiet h vars l (fun a ha => ho a (List.mem_cons_of_mem _ ha)) hf.2]
    rfl
end

/-- The program is written. -/
theorem generate_ok (h : Regular inp lib) (hb : inp.b = 0 ∨ inp.kernels = []) (ht : ∀ t ∈ inp.tables, t.2 ≠ []) (hf : nodesFit inp [] inp.prg = true) :
    inp.generate = .ok inp.text := by
  unfold Input.generate
  rw [if_neg, if_neg, if_neg, if_neg, if_neg]
  · rw [nodes_quiet h [] inp.prg (fun a ha k hk => ((C44_kernels_emitted_once inp.prg).2 k).2 ⟨a, ha, hk⟩) hf]
    simp
  · cases e : inp.monitor with
    | none => simp
    | some m => simp [(h.monitor m e).1]
  · rw [List.any_eq_true]
    rintro ⟨t, hm, he⟩
    exact ht t hm (List.isEmpty_iff.1 he)
  · rintro ⟨h1, h2⟩
    exact hb.elim h1 h2
  · rw [List.any_eq_true]
    rintro ⟨o, ho, he⟩
    obtain ⟨x, hx, hn⟩ := List.any_eq_true.1 he
    exact of_decide_eq_true hn (nodes_io inp [] inp.prg hf o ho x hx)

end OpenSBLI.Prog
