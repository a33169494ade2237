import Verif.Props.C96_Restart

/-!
# C96: files and the objects that write and read them
-/
namespace OpenSBLI.Restart
open OpenSBLI.Sim

variable {D n : ℕ}

/-! ## Writing -/

section
variable {S : Setup D n} {t : Temporal} {cs : List (Call D)} {inp : Alg.Input (Call D)} {prg : List (Alg.Node (Call D))}

/-- The writes of a program. -/
theorem write_mem (hP : Assembled S t cs inp prg) (hio : ∀ o ∈ inp.ios, o.write = true → .before ∉ o.places) (o : Alg.IO) (k : Option ℤ) (e : Alg.Env) :
    .write o k e ∈ Alg.runProgram prg ↔ o ∈ inp.ios ∧ o.write = true ∧ ((k = none ∧ e = Alg.outside ∧ .after ∈ o.places) ∨
      ∃ i g : ℕ, i < inp.niter.toNat ∧ k = some ((i : ℤ) + 1) ∧ e = Alg.inStep i ∧ .inTheSimulation g ∈ o.places ∧ g ∣ i + 1) := by
  rw [program_events hP]
  have hnone : (Alg.writesAt inp.ios .before : List (Alg.Event (Call D))) = [] := by
    simp only [Alg.writesAt, List.flatMap_eq_nil_iff]
    intro o ho q hq
    rw [if_neg]
    rintro ⟨rfl, hw⟩
    exact hio o ho hw hq
  have hafter : (.write o k e : Alg.Event (Call D)) ∈ Alg.writesAt inp.ios .after ↔ o ∈ inp.ios ∧ o.write = true ∧ k = none ∧ e = Alg.outside ∧ .after ∈ o.places := by
    simp only [Alg.writesAt, List.mem_flatMap]
    constructor
    · rintro ⟨o', ho', q, hq, h⟩
      split at h
      · rename_i hc
        simp only [List.mem_singleton, Alg.Event.write.injEq] at h
        obtain ⟨rfl, rfl, rfl⟩ := h
        exact ⟨ho', hc.2, rfl, rfl, hc.1 ▸ hq⟩
      · cases h
    · rintro ⟨ho, hw, rfl, rfl, ha⟩
      exact ⟨o, ho, .after, ha, by rw [if_pos ⟨rfl, hw⟩]; simp⟩
  have hper : ∀ i, (.write o k e : Alg.Event (Call D)) ∈ Alg.periodicWrites inp.ios i ↔ o ∈ inp.ios ∧ o.write = true ∧ ∃ g : ℕ, k = some ((i : ℤ) + 1) ∧ e = Alg.inStep i ∧ .inTheSimulation g ∈ o.places ∧ g ∣ i + 1 := by
    intro i
    simp only [Alg.periodicWrites, List.mem_flatMap]
    constructor
    · rintro ⟨o', ho', q, hq, h⟩
      cases q with
      | before => cases h
      | after => cases h
      | inTheSimulation g =>
        simp only at h
        split at h
        · rename_i hc
          simp only [List.mem_singleton, Alg.Event.write.injEq] at h
          obtain ⟨rfl, rfl, rfl⟩ := h
          exact ⟨ho', hc.2, g, rfl, rfl, hq, hc.1⟩
        · cases h
    · rintro ⟨ho, hw, g, rfl, rfl, hg, hd⟩
      exact ⟨o, ho, .inTheSimulation g, hg, by simp only; rw [if_pos ⟨hd, hw⟩]; simp⟩
  have hmon : ∀ i, (.write o k e : Alg.Event (Call D)) ∉ Alg.monitorRuns inp.monitorFrequency i := by
    intro i h
    cases hfq : inp.monitorFrequency with
    | none => rw [hfq] at h; simp [Alg.monitorRuns] at h
    | some f =>
      rw [hfq] at h
      simp only [Alg.monitorRuns] at h
      split at h <;> simp at h
  have hcalls : ∀ (l : List (Call D)) e', (.write o k e : Alg.Event (Call D)) ∉ Alg.calls l e' := fun l e' h => by simp [Alg.calls] at h
  simp only [hnone, List.append_nil, List.mem_append, List.mem_flatMap, hcalls, hmon, hper, hafter, false_or, or_false, and_false, exists_false, List.mem_range]
  constructor
  · rintro (⟨i, hi, ho, hw, g, h⟩ | ⟨ho, hw, h⟩)
    · exact ⟨ho, hw, .inr ⟨i, g, hi, h⟩⟩
    · exact ⟨ho, hw, .inl h⟩
  · rintro ⟨ho, hw, h | ⟨i, g, hi, h⟩⟩
    · exact .inr ⟨ho, hw, h⟩
    · exact .inl ⟨i, hi, ho, hw, g, h⟩

/-- C96: `iohdf5(save_every=g)` leaves, for each multiple `j` of `g`, a file with the number `j` that has the solution after `j` steps. -/
theorem C96_numbered_file (hP : Assembled S t cs inp prg) (hio : ∀ o ∈ inp.ios, o.write = true → .before ∉ o.places) {arrays : ℕ → List String} {o : Alg.IO} (ho : o ∈ inp.ios) (hw : o.write = true) (hn : o.name = none)
    {g j : ℕ} (hg : .inTheSimulation g ∈ o.places) (hd : g ∣ j) (h1 : 1 ≤ j) (hj : j ≤ inp.niter.toNat) (harr : ∀ i, S.sol i ∈ arrays o.id)
    (hnames : ∀ o' ∈ inp.ios, o'.name.isSome → target o' none ≠ Alg.fileName (some j)) : Dump S inp prg arrays (Alg.fileName (some j)) j where
  written i := by
    refine ⟨o, some (j : ℤ), Alg.inStep (j - 1), (write_mem hP hio _ _ _).2 ⟨ho, hw, .inr ⟨j - 1, g, by omega, ?_, rfl, hg, by rwa [Nat.sub_add_cancel h1]⟩⟩, ?_, harr i⟩
    · simp only [Option.some.injEq]; omega
    · simp [target, hn]
  once o' k e hmem ht := by
    obtain ⟨ho', hw', hk⟩ := (write_mem hP hio _ _ _).1 hmem
    cases hn' : o'.name with
    | some s =>
      refine absurd ?_ (hnames o' ho' (by rw [hn']; rfl))
      rw [← ht]
      simp [target, hn']
    | none =>
      simp only [target, hn'] at ht
      have := Alg.C43_file_names_differ ht
      rcases hk with ⟨rfl, _⟩ | ⟨i, g', hi, rfl, _⟩
      · cases this
      · simp only [Option.map_some, Option.some.injEq] at this
        refine .inl ?_
        rw [← this]
        simp only [Option.some.injEq]
        omega

/-- C96: every object that writes leaves a file with the solution at the end. -/
theorem C96_final_file (hP : Assembled S t cs inp prg) (hio : ∀ o ∈ inp.ios, o.write = true → .before ∉ o.places) {arrays : ℕ → List String} {o : Alg.IO} (ho : o ∈ inp.ios) (hw : o.write = true)
    (ha : .after ∈ o.places) (harr : ∀ i, S.sol i ∈ arrays o.id) (hname : o.name = none ∨ ∀ j, target o none ≠ Alg.fileName (some j))
    (hnamed : ∀ o' ∈ inp.ios, o'.name.isSome → ∀ g, .inTheSimulation g ∉ o'.places) : Dump S inp prg arrays (target o none) inp.niter.toNat where
  written i := ⟨o, none, Alg.outside, (write_mem hP hio _ _ _).2 ⟨ho, hw, .inl ⟨rfl, rfl, ha⟩⟩, rfl, harr i⟩
  once o' k e hmem ht := by
    obtain ⟨ho', hw', hk⟩ := (write_mem hP hio _ _ _).1 hmem
    rcases hk with ⟨rfl, _⟩ | ⟨i, g', hi, rfl, _, hg', _⟩
    · exact .inr ⟨rfl, rfl⟩
    · exfalso
      cases hn' : o'.name with
      | some s => exact hnamed o' ho' (by rw [hn']; rfl) g' hg'
      | none =>
        simp only [target, hn'] at ht
        rcases hname with h | h
        · rw [h] at ht
          have := Alg.C43_file_names_differ ht
          cases this
        · exact h (i + 1) (by rw [target]; exact ht.symm)

/-- C96: the files of the second program. Its time loop counts from the beginning, so that the file with the number `k` it leaves, over a file of the first program with this number, has the solution after `j + k` steps in all. -/
theorem C96_files_continue {I : Interp D} {pts : Ranges.Kernel D → List (P D)} {B : Sol D n → Sol D n} {whole second : Alg.Input (Call D)} {p p2 : List (Alg.Node (Call D))} {m m2 : Mem D} {j k : ℕ}
    (hC : Continues S I pts B p p2 m m2 j) {arrays : ℕ → List String} {f f' : String} (h2 : Dump S second p2 arrays f k) (h : Dump S whole p arrays f' (j + k))
    (hk : k < second.niter.toNat) (hk' : j + k < whole.niter.toNat) (fs fs' : Files D) (i : Fin n) :
    (runFiles (exec I pts S.sol B) arrays (Alg.runProgram p2) (m2, fs)).2 f (S.sol i) = (runFiles (exec I pts S.sol B) arrays (Alg.runProgram p) (m, fs')).2 f' (S.sol i) ∧
    ((runFiles (exec I pts S.sol B) arrays (Alg.runProgram p) (m, fs')).2 f' (S.sol i)).isSome := by
  obtain ⟨o, l, e, hmem, ht, hs⟩ := h2.written i
  obtain ⟨o', l', e', hmem', ht', hs'⟩ := h.written i
  have hl : l = some (k : ℤ) := (h2.once o l e hmem ht).resolve_right fun h => by omega
  have hl' : l' = some ((j : ℤ) + k) := by
    have := (h.once o' l' e' hmem' ht').resolve_right fun h => by omega
    rw [this]; push_cast; rfl
  subst hl; subst hl'
  obtain ⟨b, a, hb⟩ := List.append_of_mem hmem
  obtain ⟨b', a', hb'⟩ := List.append_of_mem hmem'
  have v2 := runFiles_value (exec I pts S.sol B) arrays (Alg.runProgram p2) m2 fs f (S.sol i) (Alg.effect (exec I pts S.sol B) b' m (.data (S.sol i))) ⟨o, _, e, hmem, ht, hs⟩ fun before after o1 k1 e1 he h1 _ => by
    have : k1 = some (k : ℤ) := (h2.once o1 k1 e1 (by rw [he]; simp) h1).resolve_right fun h => by omega
    subst this
    exact congrFun (hC.2 k _ _ ⟨before, after, o1, e1, he, rfl⟩ ⟨b', a', o', e', hb', rfl⟩) i
  have v := runFiles_value (exec I pts S.sol B) arrays (Alg.runProgram p) m fs' f' (S.sol i) (Alg.effect (exec I pts S.sol B) b' m (.data (S.sol i))) ⟨o', _, e', hmem', ht', hs'⟩ fun before after o1 k1 e1 he h1 _ => by
    have : k1 = some ((j : ℤ) + k) := by
      have := (h.once o1 k1 e1 (by rw [he]; simp) h1).resolve_right fun h => by omega
      rw [this]; push_cast; rfl
    subst this
    have q1 := congrFun (hC.2 k _ _ ⟨b, a, o, e, hb, rfl⟩ ⟨before, after, o1, e1, he, rfl⟩) i
    have q2 := congrFun (hC.2 k _ _ ⟨b, a, o, e, hb, rfl⟩ ⟨b', a', o', e', hb', rfl⟩) i
    exact q1.symm.trans q2
  rw [v2, v]
  exact ⟨rfl, rfl⟩

end

/-- C96: the objects of `iohdf5` write after or within the time loop, never before it. -/
theorem C96_objects_write_later {arrays : List String} {saveEvery : ℕ} {kwargs : List (String × String)} {o : Obj} (h : Obj.new arrays saveEvery kwargs = .ok o) (id : ℕ) :
    ((o.io id).write = true → .before ∉ (o.io id).places ∧ .after ∈ (o.io id).places ∧ (saveEvery ≠ 0 → .inTheSimulation saveEvery ∈ (o.io id).places)) ∧
    ((o.io id).write = false → (o.io id).places = [.before]) := by
  unfold Obj.new at h
  dsimp only at h
  split at h
  · cases h
  · rename_i t ht
    split at h
    · rename_i hw
      subst hw
      injection h with h
      subst h
      simp only [Obj.io]
      refine ⟨fun _ => ⟨?_, by simp, ?_⟩, fun hf => ?_⟩
      · split <;> simp
      · intro hs; simp [hs]
      · simp only [decide_eq_false_iff_not] at hf
        exact absurd ht hf
    · split at h
      · rename_i hnw hr
        subst hr
        injection h with h
        subst h
        simp only [Obj.io]
        refine ⟨fun hw => ?_, fun _ => trivial⟩
        simp only [decide_eq_true_eq] at hw
        have : some "read" = some "write" := ht.symm.trans hw
        simp at this
      · cases h

/-! ## Reading -/

/-- The file an object reads. -/
def Obj.file (o : Obj) : String := (o.get "filename").getD "data.h5"

theorem readStep_known (file : String) (st : List Dset × Option String) (ar : String) (h : ∃ d ∈ st.1, d.name = ar) :
    readStep file st ar = .ok (st.1.map fun d => if d.name = ar then { d with file := some file } else d, some ar) := by
  unfold readStep
  rw [if_pos]
  simpa using h

theorem sources_step (ds : List Dset) (file ar s : String) (h : ∃ d ∈ ds, d.name = ar ∧ d.base) :
    sources (ds.map fun d => if d.name = ar then { d with file := some file } else d) s = if s = ar then some file else sources ds s := by
  unfold sources
  have hkey : ∀ d : Dset, (if d.name = ar then { d with file := some file } else d).name = d.name ∧ (if d.name = ar then { d with file := some file } else d).base = d.base := fun d => by split <;> simp
  have hp : ((fun d : Dset => decide (d.name = s ∧ d.base = true)) ∘ fun d : Dset => if d.name = ar then { d with file := some file } else d) = fun d => decide (d.name = s ∧ d.base = true) := by
    funext d; simp only [Function.comp, (hkey d).1, (hkey d).2]
  rw [List.find?_map, hp]
  by_cases hs : s = ar
  · subst hs
    rw [if_pos rfl]
    obtain ⟨d, hd, h1, h2⟩ := h
    cases hf : ds.find? (fun d => decide (d.name = s ∧ d.base = true)) with
    | none => exact absurd (List.find?_eq_none.1 hf d hd) (by simp [h1, h2])
    | some d' =>
      have := List.find?_some hf
      simp only [decide_eq_true_eq] at this
      simp [this.1]
  · rw [if_neg hs]
    cases hf : ds.find? (fun d => decide (d.name = s ∧ d.base = true)) with
    | none => rfl
    | some d' =>
      have := List.find?_some hf
      simp only [decide_eq_true_eq] at this
      have : d'.name ≠ ar := fun h => hs (this.1.symm.trans h)
      simp [this]

/-- The datasets of a block: their names and whether they are declared. -/
def Same (ds ds' : List Dset) : Prop := ds'.map (fun d => (d.name, d.base)) = ds.map fun d => (d.name, d.base)

theorem Same.exists {ds ds' : List Dset} (h : Same ds ds') {ar : String} (hd : ∃ d ∈ ds, d.name = ar ∧ d.base) : ∃ d ∈ ds', d.name = ar ∧ d.base := by
  obtain ⟨d, h1, h2, h3⟩ := hd
  have : (d.name, d.base) ∈ ds'.map fun d => (d.name, d.base) := by rw [h]; exact List.mem_map_of_mem h1
  obtain ⟨d', h1', h2'⟩ := List.mem_map.1 this
  simp only [Prod.mk.injEq] at h2'
  exact ⟨d', h1', h2'.1.trans h2, h2'.2.trans h3⟩

theorem readAll (file : String) (arrays : List String) (ds : List Dset) (last : Option String) (h : ∀ ar ∈ arrays, ∃ d ∈ ds, d.name = ar ∧ d.base) :
    ∃ ds' last', arrays.foldlM (readStep file) (ds, last) = .ok (ds', last') ∧ Same ds ds' ∧ ∀ s, sources ds' s = if s ∈ arrays then some file else sources ds s := by
  induction arrays generalizing ds last with
  | nil => exact ⟨ds, last, rfl, rfl, fun s => by simp⟩
  | cons ar arrays ih =>
    obtain ⟨d, h1, h2, h3⟩ := h ar (List.mem_cons_self ..)
    set ds1 := ds.map fun d => if d.name = ar then { d with file := some file } else d with hds1
    have hsame : Same ds ds1 := by
      unfold Same
      rw [hds1, List.map_map]
      refine List.map_congr_left fun d _ => ?_
      simp only [Function.comp]
      split <;> rfl
    obtain ⟨ds', last', r1, r2, r3⟩ := ih ds1 (some ar) fun a ha => hsame.exists (h a (List.mem_cons_of_mem _ ha))
    refine ⟨ds', last', ?_, r2.trans hsame, fun s => ?_⟩
    · rw [List.foldlM_cons, readStep_known _ _ _ ⟨d, h1, h2⟩]
      exact r1
    · rw [r3, hds1, sources_step _ _ _ _ ⟨d, h1, h2, h3⟩]
      by_cases hs : s = ar
      · subst hs; simp
      · simp [hs]

/-- C96: when all arrays of the reading objects are datasets of the block, every one of them is declared with the file of the last object that reads it, and all other arrays as before. -/
theorem C96_sources (objs : List Obj) (ds : List Dset) (h : ∀ o ∈ objs, o.get "iotype" = some "read" → ∀ ar ∈ o.arrays, ∃ d ∈ ds, d.name = ar ∧ d.base) :
    ∃ ds', setReads objs ds = .ok ds' ∧ Same ds ds' ∧ ∀ s, sources ds' s = match objs.reverse.find? (fun o => o.get "iotype" = some "read" ∧ s ∈ o.arrays) with
      | some o => some o.file
      | none => sources ds s := by
  induction objs using List.reverseRecOn with
  | nil => exact ⟨ds, rfl, rfl, fun s => rfl⟩
  | append_singleton objs o ih =>
    obtain ⟨ds1, r1, r2, r3⟩ := ih fun o' ho' => h o' (List.mem_append_left _ ho')
    have hrun : setReads (objs ++ [o]) ds = o.setRead ds1 := by
      unfold setReads at r1 ⊢
      rw [List.foldlM_append, r1]
      simp only [bind, Except.bind, List.foldlM_cons, List.foldlM_nil]
      cases o.setRead ds1 <;> rfl
    rw [hrun]
    simp only [List.reverse_append, List.reverse_singleton, List.singleton_append, List.find?_cons]
    by_cases hr : o.get "iotype" = some "read"
    · obtain ⟨ds', last', q1, q2, q3⟩ := readAll o.file o.arrays ds1 none fun ar ha => r2.exists (h o (by simp) hr ar ha)
      refine ⟨ds', ?_, q2.trans r2, fun s => ?_⟩
      · unfold Obj.setRead
        rw [if_pos hr]
        change Except.bind (o.arrays.foldlM (readStep o.file) (ds1, none)) _ = _
        rw [q1]
        rfl
      · rw [q3]
        by_cases hs : s ∈ o.arrays
        · simp [hr, hs]
        · simp only [hs, if_false, hr, and_false, decide_false]
          exact r3 s
    · refine ⟨ds1, by unfold Obj.setRead; rw [if_neg hr], r2, fun s => ?_⟩
      simp only [hr, false_and, decide_false]
      exact r3 s

/-- C96: keywords are converted to lower case, the names of files too: the file read is not the one given when its name has capital letters. -/
theorem C96_lower_case (arrays : List String) (f : String) : ∃ o, Obj.new arrays 0 [("iotype", "Read"), ("filename", f)] = .ok o ∧ o.file = lower f ∧ o.places = [.before] := by
  have h1 : lower "iotype" = "iotype" := by decide +kernel
  have h2 : lower "Read" = "read" := by decide +kernel
  have h3 : lower "filename" = "filename" := by decide +kernel
  refine ⟨⟨[("iotype", "read"), ("filename", lower f)], arrays, [.before]⟩, ?_, ?_, rfl⟩
  · unfold Obj.new
    simp only [reduceCtorEq, if_false, List.map_cons, List.map_nil, h1, h2, h3]
    rfl
  · simp [Obj.file, Obj.get]

example : lower "Results/Restart.h5" = "results/restart.h5" := by decide +kernel

/-- C96: an object whose first array is not a dataset of the block stops with an error about a variable of the generator. -/
theorem C96_unknown_first (o : Obj) (ds : List Dset) (ar : String) (rest : List String) (hr : o.get "iotype" = some "read") (ha : o.arrays = ar :: rest) (h : ∀ d ∈ ds, d.name ≠ ar) :
    o.setRead ds = .error "UnboundLocalError" := by
  unfold Obj.setRead
  rw [if_pos hr, ha, List.foldlM_cons]
  have : readStep ((o.get "filename").getD "data.h5") (ds, none) ar = .error "UnboundLocalError" := by
    unfold readStep
    rw [if_neg]
    simpa using h
  rw [this]
  rfl

/-- C96: an unknown array after a known one is accepted: it becomes an entry of the block's datasets, so that the check of the outputs finds it, but it is not declared and not read from the file. -/
theorem C96_unknown_later (o : Obj) (ds : List Dset) (a b : String) (hr : o.get "iotype" = some "read") (ho : o.arrays = [a, b]) (ha : ∃ d ∈ ds, d.name = a ∧ d.base) (hb : ∀ d ∈ ds, d.name ≠ b) :
    ∃ ds', o.setRead ds = .ok ds' ∧ (∃ d ∈ ds', d.name = b) ∧ sources ds' b = none ∧ (∀ d ∈ ds', d.name = b → d.base = false) ∧ sources ds' a = some o.file := by
  obtain ⟨d0, h1, h2, h3⟩ := ha
  set ds1 := ds.map fun d => if d.name = a then { d with file := some o.file } else d with hds1
  have hb1 : ∀ d ∈ ds1, d.name ≠ b := by
    intro d hd
    obtain ⟨d', hd', rfl⟩ := List.mem_map.1 hd
    have : (if d'.name = a then { d' with file := some o.file } else d').name = d'.name := by split <;> rfl
    rw [this]
    exact hb d' hd'
  have hf : ∀ s, ds1.find? (fun d => d.name = s ∧ d.base) = none → s = b → (ds1 ++ [(⟨b, false, none⟩ : Dset)]).find? (fun d => decide (d.name = s ∧ d.base = true)) = none := by
    intro s h hs
    rw [List.find?_append, h]
    simp
  refine ⟨ds1 ++ [⟨b, false, none⟩], ?_, ⟨_, List.mem_append_right _ (List.mem_singleton_self _), rfl⟩, ?_, ?_, ?_⟩
  · unfold Obj.setRead
    rw [if_pos hr, ho, List.foldlM_cons, readStep_known _ _ _ ⟨d0, h1, h2⟩]
    change (do let r ← (do let s' ← readStep o.file (ds1, some a) b; [].foldlM (readStep o.file) s'); (.ok r.1 : Except String (List Dset))) = _
    have : readStep o.file (ds1, some a) b = .ok (ds1 ++ [⟨b, false, none⟩], some a) := by
      unfold readStep
      rw [if_neg]
      simpa using hb1
    rw [this]
    rfl
  · unfold sources
    rw [hf b _ rfl]
    · rfl
    · rw [List.find?_eq_none]
      intro d hd
      simp [hb1 d hd]
  · intro d hd hn
    rcases List.mem_append.1 hd with hd | hd
    · exact absurd hn (hb1 d hd)
    · rw [List.mem_singleton] at hd; rw [hd]
  · have := sources_step ds o.file a a ⟨d0, h1, h2, h3⟩
    rw [if_pos rfl] at this
    unfold sources at this ⊢
    rw [List.find?_append]
    rw [← hds1] at this
    cases hq : ds1.find? (fun d => decide (d.name = a ∧ d.base = true)) with
    | none => rw [hq] at this; cases this
    | some d => rw [hq] at this; simpa using this

end OpenSBLI.Restart
