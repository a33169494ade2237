import Verif.Props.C73_MultiBlock
import Verif.Props.C42_C44_Algorithm
import Verif.Props.C68_Monitor
import Mathlib.Tactic.IntervalCases

/-!
# C73: output of several blocks
-/
namespace OpenSBLI.Alg
variable {K : Type}

theorem outputs_runMB (blocks : List (BlockMB K)) (prg : List (Node K)) (h : generateMB blocks = .ok prg) (id : ℕ) :
    ∃ niter, (∀ b ∈ blocks, ∀ s ∈ b.schemes, s.niter = niter) ∧
      outputsOf id (runProgram prg) = outputsOf id (writesAt (blocks.flatMap BlockMB.ios) .before : List (Event K)) ++
        ((List.range niter.toNat).flatMap fun i => outputsOf id (periodicWrites (blocks.flatMap BlockMB.ios) i : List (Event K))) ++
        outputsOf id (writesAt (blocks.flatMap BlockMB.ios) .after : List (Event K)) := by
  obtain ⟨stages, niter, hs, hr⟩ := C73_run blocks prg h
  refine ⟨niter, fun b hb s hsb => (hs b hb s hsb).2, ?_⟩
  rw [hr]
  have h0 : ∀ n : ℕ, (List.range n).flatMap (fun _ => ([] : List (Option ℤ))) = [] := fun n => by rw [List.flatMap_eq_nil_iff]; simp
  simp only [outputsOf_append, outputsOf_flatMap, outputsOf_calls, List.nil_append, List.append_nil, h0]

/-- **C73, output.** An object of any block which saves every `n` steps writes exactly the files numbered by the multiples of `n` up to the common number of steps, in increasing order, and then the final file, whatever the
other blocks do. -/
theorem C73_periodic_output (blocks : List (BlockMB K)) (prg : List (Node K)) (h : generateMB blocks = .ok prg) (hid : ((blocks.flatMap BlockMB.ios).map IO.id).Nodup)
    (b : BlockMB K) (hb : b ∈ blocks) (id n : ℕ) (name : Option String) (hn : n ≠ 0) (ho : IO.new id true name n ∈ b.ios) :
    ∃ niter, (∀ b ∈ blocks, ∀ s ∈ b.schemes, s.niter = niter) ∧
      outputsOf id (runProgram prg) = (((List.range niter.toNat).map (· + 1)).filter (fun m => n ∣ m)).map (fun m : ℕ => some (m : ℤ)) ++ [none] := by
  obtain ⟨niter, hs, e⟩ := outputs_runMB blocks prg h id
  refine ⟨niter, hs, ?_⟩
  have ho' : IO.new id true name n ∈ blocks.flatMap BlockMB.ios := List.mem_flatMap.2 ⟨b, hb, ho⟩
  have h1 := outputsOf_writesAt (K := K) _ hid _ ho' .before
  have h2 := outputsOf_writesAt (K := K) _ hid _ ho' .after
  have h3 := outputsOf_periodic (K := K) _ hid _ ho'
  simp only [IO.new] at h1 h2 h3
  rw [e, h1, h2]
  simp only [h3, hn, if_true, if_false, List.cons_append, List.nil_append, List.flatMap_cons, List.flatMap_nil, List.append_nil]
  simp only [reduceCtorEq, if_false, and_true, if_true, List.nil_append]
  congr 1
  generalize List.range niter.toNat = l
  induction l with
  | nil => rfl
  | cons x l ih =>
    rw [List.flatMap_cons, ih, List.map_cons, List.filter_cons]
    by_cases hx : n ∣ x + 1 <;> simp [hx]

/-- **C73, output.** Objects of different blocks which save equally often write at the same steps: as the name of a file depends on the step only (`C43_file_names_differ`), each file has the values of all these blocks after the
same number of steps. -/
theorem C73_saved_together (blocks : List (BlockMB K)) (prg : List (Node K)) (h : generateMB blocks = .ok prg) (hid : ((blocks.flatMap BlockMB.ios).map IO.id).Nodup)
    (b b' : BlockMB K) (hb : b ∈ blocks) (hb' : b' ∈ blocks) (id id' n : ℕ) (hn : n ≠ 0) (ho : IO.new id true none n ∈ b.ios) (ho' : IO.new id' true none n ∈ b'.ios) :
    outputsOf id (runProgram prg) = outputsOf id' (runProgram prg) := by
  obtain ⟨niter, hs, e⟩ := C73_periodic_output blocks prg h hid b hb id n none hn ho
  obtain ⟨niter', hs', e'⟩ := C73_periodic_output blocks prg h hid b' hb' id' n none hn ho'
  obtain ⟨⟨c, hc, hne⟩, -⟩ := (C73_generation_succeeds_iff blocks).1 ⟨prg, h⟩
  obtain ⟨s, hsm⟩ := List.exists_mem_of_ne_nil _ hne
  rw [e, e', ← hs c hc s hsm, ← hs' c hc s hsm]

/-! ### Names -/

/-- Output objects that use a buffer for the name of their file. -/
def unnamed (ios : List IO) : List IO := ios.filter fun o => o.write && o.name.isNone

theorem nodup_numbers (blocks : List (BlockMB K)) (k : ℕ) (block : IO → ℕ) (hblock : ∀ (i : ℕ) (hi : i < blocks.length), ∀ o ∈ blocks[i].ios, block o = k + i) :
    ((unnamed (blocks.flatMap BlockMB.ios)).map block).Nodup ↔ ∀ b ∈ blocks, (unnamed b.ios).length ≤ 1 := by
  induction blocks generalizing k with
  | nil => simp [unnamed]
  | cons b bs ih =>
    have hb : (unnamed b.ios).map block = List.replicate (unnamed b.ios).length k := by
      rw [List.eq_replicate_iff]
      refine ⟨by simp, fun x hx => ?_⟩
      obtain ⟨o, ho, rfl⟩ := List.mem_map.1 hx
      have := hblock 0 (by simp) o (List.mem_of_mem_filter ho)
      simpa using this
    have hrest := ih (k + 1) fun i hi o ho => by
      have := hblock (i + 1) (by simpa using hi) o (by simpa using ho)
      omega
    have hlater : ∀ x ∈ (unnamed (bs.flatMap BlockMB.ios)).map block, k < x := by
      intro x hx
      obtain ⟨o, ho, rfl⟩ := List.mem_map.1 hx
      obtain ⟨c, hc, hoc⟩ := List.mem_flatMap.1 (List.mem_of_mem_filter ho)
      obtain ⟨i, hi, rfl⟩ := List.mem_iff_getElem.1 hc
      have := hblock (i + 1) (by simpa using hi) o (by simpa using hoc)
      omega
    have hsplit : unnamed ((b :: bs).flatMap BlockMB.ios) = unnamed b.ios ++ unnamed (bs.flatMap BlockMB.ios) := by simp [unnamed]
    rw [hsplit, List.map_append, hb, List.nodup_append, hrest, List.nodup_replicate, List.forall_mem_cons]
    refine ⟨fun h => ⟨h.1, h.2.1⟩, fun h => ⟨h.1, h.2, fun x hx y hy => ?_⟩⟩
    rw [List.eq_of_mem_replicate hx]
    exact (hlater y hy).ne

/-- The variables of the buffers, after the time loop. -/
theorem declares_after (block : IO → ℕ) (ios : List IO) (hios : ∀ o ∈ ios, ∃ id w name n, o = IO.new id w name n) :
    (ioAt ios selAfter : List (Node K)).flatMap (Node.declaresMB block) = (unnamed ios).map fun o => "name" ++ toString (block o) := by
  induction ios with
  | nil => rfl
  | cons o l ih =>
    rw [ioAt, List.flatMap_cons, List.flatMap_append, ← ioAt, ih fun x hx => hios x (List.mem_cons_of_mem _ hx)]
    obtain ⟨id, w, name, n, rfl⟩ := hios o (List.mem_cons_self ..)
    cases w with
    | false => simp [IO.new, selAfter, unnamed]
    | true =>
      cases name with
      | some s => by_cases hn : n = 0 <;> simp [IO.new, selAfter, unnamed, Node.declaresMB, hn]
      | none => by_cases hn : n = 0 <;> simp [IO.new, selAfter, unnamed, Node.declaresMB, hn]

theorem declares_before (block : IO → ℕ) (ios : List IO) (hios : ∀ o ∈ ios, ∃ id w name n, o = IO.new id w name n) :
    (ioAt ios selBefore : List (Node K)).flatMap (Node.declaresMB block) = [] := by
  simp only [ioAt, List.flatMap_eq_nil_iff, List.mem_flatMap]
  rintro x ⟨o, ho, q, hq, hx⟩
  obtain ⟨id, w, name, n, rfl⟩ := hios o ho
  cases w with
  | true =>
    cases q with
    | before => exfalso; simp only [IO.new, if_true] at hq; split at hq <;> simp at hq
    | after => simp [selBefore] at hx
    | inTheSimulation f => simp [selBefore] at hx
  | false =>
    cases q with
    | before => simp only [selBefore, List.mem_singleton] at hx; subst hx; simp [Node.declaresMB, IO.new]
    | after => simp [selBefore] at hx
    | inTheSimulation f => simp [selBefore] at hx

/-- **C73, output.** The variables declared in `main` are different exactly if no block has two output objects without a file name: each block may have one, while one block could not have two (`C43_declarations_partial`). -/
theorem C73_declarations (blocks : List (BlockMB K)) (prg : List (Node K)) (h : generateMB blocks = .ok prg) (hios : ∀ b ∈ blocks, ∀ o ∈ b.ios, ∃ id w name n, o = IO.new id w name n)
    (block : IO → ℕ) (hblock : ∀ (i : ℕ) (hi : i < blocks.length), ∀ o ∈ blocks[i].ios, block o = i) :
    (prg.flatMap (Node.declaresMB block)).Nodup ↔ ∀ b ∈ blocks, (b.ios.filter fun o => o.write && o.name.isNone).length ≤ 1 := by
  have hall : ∀ o ∈ blocks.flatMap BlockMB.ios, ∃ id w name n, o = IO.new id w name n := fun o ho => by
    obtain ⟨b, hb, hob⟩ := List.mem_flatMap.1 ho
    exact hios b hb o hob
  have hk : ∀ k : List K, (k.map (Node.kernel (K := K))).flatMap (Node.declaresMB block) = [] := by
    intro k; simp [List.flatMap_eq_nil_iff, Node.declaresMB]
  unfold generateMB at h
  split at h
  · cases h
  split at h
  · cases h
  rename_i a h1
  split at h
  · cases h
  rename_i p h2
  have ep := addKernels_eqs _ _ _ h2
  subst ep
  simp only at h
  split at h
  · cases h
  split at h
  · cases h
  cases h
  have hnum := nodup_numbers blocks 0 block fun i hi o ho => by rw [Nat.zero_add]; exact hblock i hi o ho
  have hnames : ((unnamed (blocks.flatMap BlockMB.ios)).map fun o => "name" ++ toString (block o)).Nodup ↔ ((unnamed (blocks.flatMap BlockMB.ios)).map block).Nodup := by
    rw [show (fun o => "name" ++ toString (block o)) = (fun k : ℕ => "name" ++ toString k) ∘ block from rfl, ← List.map_map]
    refine List.nodup_map_iff fun i j e => ?_
    have e' := congrArg String.toList e
    simp only [String.toList_append, List.append_cancel_left_eq] at e'
    exact OpenSBLI.Mon.toString_injective (String.toList_injective e')
  have hother : ∀ k : ℕ, "name" ++ toString k ∉ (["cpu_start0", "elapsed_start0", "cpu_end0", "elapsed_end0"] : List String) := by
    intro k hm
    have hc : ("name" ++ toString k).toList.head? = some 'n' := by simp [String.toList_append]
    rcases List.mem_cons.1 hm with e | hm
    · rw [e] at hc; revert hc; decide
    rcases List.mem_cons.1 hm with e | hm
    · rw [e] at hc; revert hc; decide
    rcases List.mem_cons.1 hm with e | hm
    · rw [e] at hc; revert hc; decide
    · rw [List.mem_singleton.1 hm] at hc; revert hc; decide
  rw [assemble]
  simp only [addIO_all, List.flatMap_append, hk, declares_before block _ hall, declares_after block _ hall, List.nil_append, List.append_nil, List.flatMap_cons, List.flatMap_nil, Node.declaresMB]
  rw [List.nodup_append, hnames, hnum]
  refine ⟨fun h => h.2.1, fun h => ⟨by decide, h, fun x hx y hy e => ?_⟩⟩
  obtain ⟨o, -, rfl⟩ := List.mem_map.1 hy
  exact hother _ (e ▸ hx)

/-- Two blocks with an output object each, every tenth step. -/
def savedBlocks : List (BlockMB String) :=
  [⟨[⟨"RK", 3, 25, [.plain (.simulation ["s0"] ["e0"] ["k0"] ["b0"] ["f0"])]⟩], [IO.new 0 true none 10]⟩,
   ⟨[⟨"RK", 3, 25, [.plain (.simulation ["s1"] ["e1"] ["k1"] ["b1"] ["f1"])]⟩], [IO.new 1 true none 10]⟩]

/-- The hypotheses can be met: both write after 10 and 20 steps and at the end. -/
example : ∃ prg, generateMB savedBlocks = .ok prg ∧ outputsOf 0 (runProgram prg) = [some 10, some 20, none] ∧ outputsOf 1 (runProgram prg) = [some 10, some 20, none] ∧
    (prg.flatMap (Node.declaresMB IO.id)).Nodup := by
  obtain ⟨prg, h⟩ := (C73_generation_succeeds_iff savedBlocks).2 ⟨⟨_, List.mem_cons_self .., by simp⟩, ⟨"RK", 3, 25, by simp [savedBlocks]⟩, by simp [savedBlocks]⟩
  have hid : ((savedBlocks.flatMap BlockMB.ios).map IO.id).Nodup := by simp [savedBlocks, IO.new]
  have h0 : ∀ niter : ℤ, (∀ b ∈ savedBlocks, ∀ s ∈ b.schemes, s.niter = niter) → niter = 25 := fun niter hn => (hn _ (List.mem_cons_self ..) _ (List.mem_cons_self ..)).symm
  refine ⟨prg, h, ?_, ?_, ?_⟩
  · obtain ⟨niter, hn, e⟩ := C73_periodic_output savedBlocks prg h hid _ (List.mem_cons_self ..) 0 10 none (by decide) (List.mem_cons_self ..)
    rw [e, h0 niter hn]
    decide
  · obtain ⟨niter, hn, e⟩ := C73_periodic_output savedBlocks prg h hid _ (List.mem_cons_of_mem _ (List.mem_cons_self ..)) 1 10 none (by decide) (List.mem_cons_self ..)
    rw [e, h0 niter hn]
    decide
  · refine (C73_declarations savedBlocks prg h ?_ IO.id ?_).2 ?_
    · intro b hb o ho
      simp only [savedBlocks, List.mem_cons, List.not_mem_nil, or_false] at hb
      rcases hb with rfl | rfl <;> exact ⟨_, _, _, _, List.mem_singleton.1 ho⟩
    · intro i hi o ho
      simp only [savedBlocks, List.length_cons, List.length_nil] at hi
      interval_cases i <;> simp [savedBlocks] at ho <;> subst ho <;> rfl
    · simp [savedBlocks, IO.new]

end OpenSBLI.Alg
