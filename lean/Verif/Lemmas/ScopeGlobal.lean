import Verif.Lemmas.ScopeConsts
import Verif.Props.C42_C44_Algorithm

/-! # Helper lemmas on the text before the main program -/
namespace OpenSBLI.Prog
open OpenSBLI.Reg OpenSBLI.CCode OpenSBLI.Alg

variable {d : ℕ} {inp : Input d} {lib : List String}

theorem Apart.append {D A B : Env} (ha : Apart D A) (hb : Apart D B) : Apart D (A ++ B) := fun n hn hm => by
  rw [dom_append, List.mem_append] at hm
  exact hm.elim (ha n hn) (hb n hn)

/-! ## Kernels -/

theorem kernels_nodup (inp : Input d) : (inp.kernels.map Prod.fst).Nodup := by
  have h := (C44_kernels_emitted_once inp.prg).1
  unfold Input.kernels
  generalize loopAlg inp.prg = l at h
  have key : ∀ (l : List ℕ) (n : ℕ), n ∈ (l.filterMap fun n => (inp.kern? n).map (n, ·)).map Prod.fst → n ∈ l := by
    intro l n hn
    obtain ⟨p, hp, rfl⟩ := List.mem_map.1 hn
    obtain ⟨m, hm, hp⟩ := List.mem_filterMap.1 hp
    obtain ⟨k, -, rfl⟩ := Option.map_eq_some_iff.1 hp
    exact hm
  induction l with
  | nil => simp
  | cons n l ih =>
    rw [List.nodup_cons] at h
    rw [List.filterMap_cons]
    cases hk : inp.kern? n with
    | none => exact ih h.2
    | some k => exact List.nodup_cons.2 ⟨fun hm => h.1 (key l n hm), ih h.2⟩

theorem kernels_kern (p : ℕ × Kern d) (hp : p ∈ inp.kernels) : inp.kern? p.1 = some p.2 := by
  obtain ⟨m, -, hp⟩ := List.mem_filterMap.1 hp
  obtain ⟨k, hk, rfl⟩ := Option.map_eq_some_iff.1 hp
  exact hk

theorem bases_arrays (h : Regular inp lib) (p : ℕ × Kern d) (hp : p ∈ inp.kernels) : ∀ x ∈ p.2.bases, x ∈ inp.arrays := by
  intro x hx
  refine List.mem_dedup.2 (List.mem_flatMap.2 ⟨p.1, (h.kernels p hp).created, ?_⟩)
  rw [kernels_kern p hp]
  exact hx

/-- Constants are not arrays. -/
theorem finalNames_user (h : Regular inp lib) : ∀ n ∈ inp.finalNames, form n = .user ∧ n ∉ inp.tableNames ∧ n ∉ inp.arrays ∧ n ∉ lib := by
  intro n hn
  rcases finalNames_mem inp n hn with hc | hg
  · exact ⟨(h.constants n hc).1, (h.constants n hc).2.1, (h.constants n hc).2.2, fun hl => (h.library n hl).2.2 hc⟩
  · exact ⟨form_generated hg, fun ht => (h.tables n ht).2.1 hg, fun ha => (h.arrays n ha).2 hg, fun hl => (h.library n hl).2.1 hg⟩

theorem globs_nil (h : Regular inp lib) (p : ℕ × Kern d) (hp : p ∈ inp.kernels) : p.2.globs = [] := by
  unfold Kern.globs
  rw [List.dedup_eq_nil, List.flatMap_eq_nil_iff]
  exact (h.kernels p hp).globals

theorem params_nodup (h : Regular inp lib) (p : ℕ × Kern d) (hp : p ∈ inp.kernels) : p.2.params.Nodup := by
  have k := h.kernels p hp
  have hb := bases_arrays h p hp
  have hi : ∀ c ∈ p.2.indexed.map Prod.fst, c ∈ inp.tableNames := by
    intro c hc
    obtain ⟨q, hq, rfl⟩ := List.mem_map.1 hc
    exact k.indexed.2 q hq
  unfold Kern.params
  rw [globs_nil h p hp, List.append_nil, List.nodup_append, List.nodup_append]
  refine ⟨⟨List.nodup_dedup _, k.indexed.1, ?_⟩, by split <;> simp, ?_⟩
  · rintro x hx y hy rfl
    exact (h.tables x (hi x hy)).2.2 (hb x hx)
  · rintro x hx y hy rfl
    split at hy
    · rw [List.mem_singleton] at hy
      subst hy
      have : form "idx" = .fixed "idx" := form_fixed _ (by decide)
      rcases List.mem_append.1 hx with hx | hx
      · have := (h.arrays _ (hb _ hx)).1; simp_all
      · have := (h.tables _ (hi _ hx)).1; simp_all
    · cases hy

theorem params_mem (h : Regular inp lib) (p : ℕ × Kern d) (hp : p ∈ inp.kernels) (n : String) :
    n ∈ p.2.params ↔ n ∈ p.2.bases ∨ n ∈ p.2.indexed.map Prod.fst ∨ (n = "idx" ∧ p.2.usesIdx = true) := by
  unfold Kern.params
  rw [globs_nil h p hp, List.append_nil, List.mem_append, List.mem_append, or_assoc]
  split <;> simp_all

/-- The printed body of a kernel. -/
theorem body_fine (h : Regular inp lib) (q : (ℕ × Kern d) × List (Line d)) (hq : q ∈ inp.kernels.zip inp.printed.1) :
    FineLines (fun n => n ∈ q.1.2.gvars ∨ n ∈ inp.finalNames) (fun n => n ∈ q.1.2.bases ∨ (n = "idx" ∧ q.1.2.usesIdx = true)) (q.2.flatMap lineText) := by
  let VP : List (Eqn d) → (String → Prop) × (String → Prop) := fun eqs =>
    (fun n => n ∈ (⟨eqs, [], none⟩ : Kern d).gvars ∨ n ∈ inp.finalNames,
     fun n => n ∈ (⟨eqs, [], none⟩ : Kern d).bases ∨ (n = "idx" ∧ (⟨eqs, [], none⟩ : Kern d).usesIdx = true))
  have key := printKernels_fine (inp.kernels.map fun k : ℕ × Kern d => k.2.eqs) inp.start (start_inv inp) (· ∈ inp.finalNames) (printed_final inp) VP
    (fun _ _ hn => .inr hn) (by
      intro eqs he e hm
      obtain ⟨p, hp, rfl⟩ := List.mem_map.1 he
      have k := h.kernels p hp
      refine ⟨k.globals e hm, fun c hc => .inr (startNames_final inp c (k.constants e hm c hc)), fun v hv => .inl ?_, fun a ha => .inl ?_, fun hi => .inr ⟨rfl, ?_⟩⟩
      · exact List.mem_dedup.2 (List.mem_flatMap.2 ⟨e, hm, hv⟩)
      · exact List.mem_dedup.2 (List.mem_map.2 ⟨a, List.mem_flatMap.2 ⟨e, hm, ha⟩, rfl⟩)
      · exact List.any_eq_true.2 ⟨e, hm, hi⟩)
  have hz : (q.1.2.eqs, q.2) ∈ (inp.kernels.map fun k => k.2.eqs).zip inp.printed.1 := by
    rw [List.zip_map_left]
    exact List.mem_map.2 ⟨q, hq, rfl⟩
  exact key _ hz

theorem added_function (b n : ℕ) (k : Kern d) (body : List (Line d)) : added (functionText b n k body) = [(kernelName b n, .function)] := rfl

theorem function_ok (h : Regular inp lib) (q : (ℕ × Kern d) × List (Line d)) (hq : q ∈ inp.kernels.zip inp.printed.1) (cur outer : Env)
    (hv : ∀ n ∈ inp.finalNames, (cur ++ outer).lookup n = some .value) (hn : kernelName inp.b q.1.1 ∉ dom cur) :
    allOk outer cur (functionText inp.b q.1.1 q.1.2 q.2) = true := by
  have hp : q.1 ∈ inp.kernels := (List.of_mem_zip hq).1
  have k := h.kernels q.1 hp
  have pm := params_mem h q.1 hp
  have gp : ∀ v ∈ q.1.2.gvars, v ∉ q.1.2.params := by
    intro v hv hm
    have g := k.gvars v hv
    rcases (pm v).1 hm with h | h | h
    · exact g.1 h
    · exact g.2.1 h
    · exact g.2.2 h.1
  have np : ∀ n ∈ inp.finalNames, n ∉ q.1.2.params := by
    intro n hn hm
    have u := finalNames_user h n hn
    rcases (pm n).1 hm with h' | h' | h'
    · exact u.2.2.1 (bases_arrays h q.1 hp n h')
    · obtain ⟨c, hc, rfl⟩ := List.mem_map.1 h'
      exact u.2.1 (k.indexed.2 c hc)
    · have : form "idx" = .fixed "idx" := form_fixed _ (by decide)
      rw [h'.1, this] at u
      cases u.1
  have out : ∀ n ∈ inp.finalNames, (([(kernelName inp.b q.1.1, Kind.function)] ++ cur) ++ outer).lookup n = some .value := by
    intro n hn
    rw [List.append_assoc, lookup_skip _ _ _ ?_]
    · exact hv n hn
    · intro hm
      have : n = kernelName inp.b q.1.1 := by simpa [dom] using hm
      have u := (finalNames_user h n hn).1
      rw [this, form_kernel] at u
      cases u
  unfold functionText
  simp only [allOk, Stmt.ok, Stmt.adds, Bool.and_true, Bool.and_eq_true, decide_eq_true_eq]
  refine ⟨hn, ?_⟩
  rw [allOk_append, allOk_append, Bool.and_eq_true, Bool.and_eq_true]
  refine ⟨⟨allOk_decls _ _ _ _ (params_nodup h q.1 hp) (by simp [dom]), allOk_decls _ _ _ _ (List.nodup_dedup _) ?_⟩, ?_⟩
  · intro n hn hm
    rw [List.append_nil, dom_decls] at hm
    exact gp n hn hm
  · rw [added_append, List.append_nil]
    refine allOk_lines _ _ ?_ ?_ _ (body_fine h q hq)
    · intro n hn
      rw [List.append_assoc]
      by_cases hg : n ∈ q.1.2.gvars
      · exact lookup_decls _ _ _ _ hg
      · rw [lookup_skip _ _ _ (by rwa [dom_decls]), lookup_skip _ _ _ (by rw [dom_decls]; exact np n (hn.resolve_left hg))]
        exact out n (hn.resolve_left hg)
    · intro n hn
      have hm : n ∈ q.1.2.params := (pm n).2 (hn.elim .inl fun h => .inr (.inr h))
      rw [List.append_assoc, lookup_skip _ _ _ (by rw [dom_decls]; exact fun hg => gp n hg hm)]
      exact lookup_decls _ _ _ _ hm

/-- The declarations of the kernel functions. -/
theorem functions_dom (inp : Input d) (n : String) : n ∈ dom (added inp.functions) ↔ ∃ p ∈ inp.kernels, n = kernelName inp.b p.1 := by
  unfold Input.functions
  rw [mem_dom_flatMap]
  have hl : inp.kernels.length = inp.printed.1.length := by
    unfold Input.printed
    rw [printKernels_length, List.length_map]
  constructor
  · rintro ⟨q, hq, hn⟩
    exact ⟨q.1, (List.of_mem_zip hq).1, by simpa [added_function, dom] using hn⟩
  · rintro ⟨p, hp, rfl⟩
    have : p ∈ (inp.kernels.zip inp.printed.1).map Prod.fst := by rw [List.map_fst_zip (by omega)]; exact hp
    obtain ⟨q, hq, rfl⟩ := List.mem_map.1 this
    exact ⟨q, hq, by simp [added_function, dom]⟩

theorem functions_mem (inp : Input d) (p : ℕ × Kern d) (hp : p ∈ inp.kernels) : (kernelName inp.b p.1, Kind.function) ∈ added inp.functions := by
  obtain ⟨r, hr, e⟩ := List.mem_map.1 ((functions_dom inp _).2 ⟨p, hp, rfl⟩)
  have hk : r.2 = .function := by
    obtain ⟨q, -, hq⟩ := (mem_added_flatMap _ _ _).1 hr
    rw [added_function, List.mem_singleton] at hq
    rw [hq]
  rw [← e, ← hk]
  exact hr

theorem functions_nodup (inp : Input d) : (dom (added inp.functions)).Nodup := by
  have hl : inp.kernels.length = inp.printed.1.length := by
    unfold Input.printed
    rw [printKernels_length, List.length_map]
  unfold Input.functions
  refine nodup_flatMap _ (fun q => q.1.1) _ ?_ ?_ ?_
  · have : (inp.kernels.zip inp.printed.1).map (fun q => q.1.1) = ((inp.kernels.zip inp.printed.1).map Prod.fst).map Prod.fst := by simp
    rw [this, List.map_fst_zip (by omega)]
    exact kernels_nodup inp
  · intro q _
    simp [added_function, dom]
  · intro q _ q' _ n hn hn'
    simp only [added_function, dom, List.map_cons, List.map_nil, List.mem_singleton] at hn hn'
    exact (kernelName_injective (hn.symm.trans hn')).2

theorem functions_ok (h : Regular inp lib) (cur outer C : Env) (hC : Vis (cur ++ outer) C) (hv : ∀ n ∈ inp.finalNames, (n, Kind.value) ∈ C)
    (hc : ∀ n ∈ dom C, form n ≠ .kernel) (hn : ∀ n ∈ dom cur, form n ≠ .kernel) : allOk outer cur inp.functions = true := by
  have fk : ∀ n ∈ dom (added inp.functions), form n = .kernel := by
    intro n hm
    obtain ⟨p, -, rfl⟩ := (functions_dom inp n).1 hm
    exact form_kernel ..
  refine allOk_flatMap _ _ outer cur C hC (functions_nodup inp) (fun n hm hm' => hc n hm' (fk n hm)) (fun n hm hm' => hn n hm' (fk n hm)) ?_
  intro q hq cur' hS ha
  exact function_ok h q hq cur' outer (fun n hn => hS _ (hv n hn)) (ha _ (by simp [added_function, dom]))

/-! ## Monitors -/

/-- The function of a monitor. -/
def monitorFunction (p : String × ℕ) : List Stmt :=
  [.decl ("monitor_" ++ toString p.2 ++ "_" ++ p.1) .function,
   .block [.decl p.1 .param, .decl ("reduce_" ++ toString p.2 ++ "_" ++ p.1) .param, .use ("reduce_" ++ toString p.2 ++ "_" ++ p.1) .param, .use p.1 .param]]

theorem monitorFunctions_eq (inp : Input d) : inp.monitorFunctions = (inp.monitor.toList.flatMap fun m => m.arrays.zipIdx).flatMap monitorFunction := by
  unfold Input.monitorFunctions
  cases inp.monitor with
  | none => rfl
  | some m => simp; rfl

/-- The monitored arrays with their numbers. -/
def Input.monitored (inp : Input d) : List (String × ℕ) := inp.monitor.toList.flatMap fun m => m.arrays.zipIdx

theorem monitored_nodup (inp : Input d) : (inp.monitored.map Prod.snd).Nodup := by
  unfold Input.monitored
  cases inp.monitor with
  | none => simp
  | some m => simp [List.nodup_range']

theorem monitored_arrays (h : Regular inp lib) : ∀ p ∈ inp.monitored, p.1 ∈ inp.arrays := by
  intro p hp
  unfold Input.monitored at hp
  cases hm : inp.monitor with
  | none => rw [hm] at hp; simp at hp
  | some m =>
    rw [hm] at hp
    have hp : p ∈ m.arrays.zipIdx := by simpa using hp
    refine (h.monitor m hm).2 p.1 ?_
    obtain ⟨x, i⟩ := p
    exact (List.mem_zipIdx hp).2.2 ▸ List.getElem_mem _

/-- Arrays do not look like results of monitors. -/
theorem user_output {x : String} (h : form x = .user) : ends "output" x = false := by
  cases he : ends "output" x with
  | false => rfl
  | true =>
    rw [form, he, if_pos rfl] at h
    cases h

theorem monitorFunction_ok (p : String × ℕ) (hx : form p.1 = .user) (cur outer : Env)
    (hn : "monitor_" ++ toString p.2 ++ "_" ++ p.1 ∉ dom cur) : allOk outer cur (monitorFunction p) = true := by
  have hr := form_handle p.2 p.1 (user_output hx)
  have ne : p.1 ≠ "reduce_" ++ toString p.2 ++ "_" ++ p.1 := by
    intro e
    rw [← e, hx] at hr
    cases hr
  unfold monitorFunction
  simp only [allOk, Stmt.ok, Stmt.adds, Bool.and_true, Bool.and_eq_true, decide_eq_true_eq]
  refine ⟨hn, ?_⟩
  generalize "reduce_" ++ toString p.2 ++ "_" ++ p.1 = r at *
  have hb : (p.1 == r) = false := beq_eq_false_iff_ne.2 ne
  simp [List.lookup_cons, hb, ne.symm]

theorem monitorFunctions_dom (h : Regular inp lib) : ∀ n ∈ dom (added inp.monitorFunctions), form n = .monitor := by
  intro n hn
  rw [monitorFunctions_eq] at hn
  obtain ⟨p, hp, hn⟩ := (mem_dom_flatMap _ _ _).1 hn
  have : n = "monitor_" ++ toString p.2 ++ "_" ++ p.1 := by simpa [monitorFunction, added, Stmt.adds, dom] using hn
  rw [this]
  exact form_monitor _ _ (user_output (h.arrays _ (monitored_arrays h p hp)).1)

theorem monitorFunctions_mem (inp : Input d) (p : String × ℕ) (hp : p ∈ inp.monitored) :
    ("monitor_" ++ toString p.2 ++ "_" ++ p.1, Kind.function) ∈ added inp.monitorFunctions := by
  rw [monitorFunctions_eq]
  exact (mem_added_flatMap _ _ _).2 ⟨p, hp, by simp [monitorFunction, added, Stmt.adds]⟩

theorem monitorFunctions_nodup (inp : Input d) : (dom (added inp.monitorFunctions)).Nodup := by
  rw [monitorFunctions_eq]
  refine nodup_flatMap _ Prod.snd _ (monitored_nodup inp) ?_ ?_
  · intro p _
    simp [monitorFunction, added, Stmt.adds, dom]
  · intro p _ q _ n hn hn'
    have e : n = "monitor_" ++ toString p.2 ++ "_" ++ p.1 := by simpa [monitorFunction, added, Stmt.adds, dom] using hn
    have e' : n = "monitor_" ++ toString q.2 ++ "_" ++ q.1 := by simpa [monitorFunction, added, Stmt.adds, dom] using hn'
    exact numbered_injective "monitor_" (e.symm.trans e')

theorem monitorFunctions_ok (h : Regular inp lib) (cur outer : Env) (hn : ∀ n ∈ dom cur, form n ≠ .monitor) :
    allOk outer cur inp.monitorFunctions = true := by
  have nd := monitorFunctions_nodup inp
  have fm := monitorFunctions_dom h
  rw [monitorFunctions_eq] at *
  refine allOk_flatMap _ _ outer cur [] (by simp [Vis]) nd (by simp [Apart, dom]) (fun n hm hm' => hn n hm' (fm n hm)) ?_
  intro p hp cur' _ ha
  exact monitorFunction_ok p (h.arrays _ (monitored_arrays h p hp)).1 cur' outer (ha _ (by simp [monitorFunction, added, Stmt.adds, dom]))

end OpenSBLI.Prog
