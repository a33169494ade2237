import Verif.Lemmas.Restart

/-!
# C96: simulations continue from their files

A program writes its solution to a file, another program with the same equations reads it and goes on. The theorems compare the second program with the one that makes all the steps at once.
-/
namespace OpenSBLI.Restart
open OpenSBLI.Sim

variable {D n : ℕ}

/-- The file `f` has the solution after `j` steps: it is written, with all components, and only at this step. -/
structure Dump (S : Setup D n) (inp : Alg.Input (Call D)) (prg : List (Alg.Node (Call D))) (arrays : ℕ → List String) (f : String) (j : ℕ) : Prop where
  written : ∀ i, ∃ o k e, .write o k e ∈ Alg.runProgram prg ∧ target o k = f ∧ S.sol i ∈ arrays o.id
  once : ∀ o k e, .write o k e ∈ Alg.runProgram prg → target o k = f → k = some (j : ℤ) ∨ (k = none ∧ j = inp.niter.toNat)

/-- The solution at a write. -/
def SolutionAt (S : Setup D n) (I : Interp D) (pts : Ranges.Kernel D → List (P D)) (B : Sol D n → Sol D n) (prg : List (Alg.Node (Call D))) (m : Mem D) (k : ℤ) (q : Sol D n) : Prop :=
  ∃ before after o e, Alg.runProgram prg = before ++ .write o (some k) e :: after ∧ q = fun i => Alg.effect (exec I pts S.sol B) before m (.data (S.sol i))

/-- The program that reads continues the program that wrote: it ends like the program that makes all the steps, and its file with the number `k` has the solution that program has in the file with the number `j + k`. -/
def Continues (S : Setup D n) (I : Interp D) (pts : Ranges.Kernel D → List (P D)) (B : Sol D n → Sol D n) (whole second : List (Alg.Node (Call D))) (m m2 : Mem D) (j : ℕ) : Prop :=
  (∀ i, Alg.effect (exec I pts S.sol B) (Alg.runProgram second) m2 (.data (S.sol i)) = Alg.effect (exec I pts S.sol B) (Alg.runProgram whole) m (.data (S.sol i))) ∧
  ∀ k q q', SolutionAt S I pts B second m2 k q → SolutionAt S I pts B whole m (j + k) q' → q = q'

/-- The kernels before the time loop of the second program leave what was read, and make of the other arrays (coordinates, metric terms) what the first program made of them. -/
structure Prepared (S : Setup D n) (I : Interp D) (pts : Ranges.Kernel D → List (P D)) (B : Sol D n → Sol D n) (first second : Alg.Input (Call D)) (m m2 : Mem D) : Prop where
  keeps : ∀ i, atStart I pts S.sol B second m2 (.data (S.sol i)) = m2 (.data (S.sol i))
  rest : ∀ s, S.relation s = none → (∀ i, s ≠ S.sol i) → atStart I pts S.sol B second m2 (.data s) = atStart I pts S.sol B first m (.data s)

section
variable {S : Setup D n} {I : Interp D} {pts : Ranges.Kernel D → List (P D)} {first second whole : Alg.Input (Call D)} {p1 p2 p : List (Alg.Node (Call D))} {B : Sol D n → Sol D n}

theorem Dump.value {arrays : ℕ → List String} {f : String} {j : ℕ} (hD : Dump S first p1 arrays f j) {m : Mem D} {step : TState D n → TState D n} (hF : Follows S I pts B first p1 m step) (fs : Files D) (i : Fin n) :
    (runFiles (exec I pts S.sol B) arrays (Alg.runProgram p1) (m, fs)).2 f (S.sol i) = some ((step^[j] (stateOf S (atStart I pts S.sol B first m))).q i) := by
  refine runFiles_value _ _ _ _ _ _ _ _ (hD.written i) fun before after o k e he ht hs => ?_
  obtain ⟨j', _, hk, hR⟩ := hF.write before after o k e he
  have hj : j' = j := by
    rcases hD.once o k e (by rw [he]; simp) ht with h | ⟨h, h'⟩ <;> rcases hk with ⟨hk, _⟩ | ⟨hk, hk'⟩
    · rw [h] at hk; simp only [Option.some.injEq, Nat.cast_inj] at hk; exact hk.symm
    · rw [h] at hk; cases hk
    · rw [h] at hk; cases hk
    · rw [h', hk']
  rw [hR.q i, hj]

theorem continues_of {arrays : ℕ → List String} {f : String} {j : ℕ} {m m0 : Mem D} {fs : Files D} {source : String → Option String} {step : TState D n → TState D n}
    (hm : Memoryless step) (hD : Dump S first p1 arrays f j) (hsrc : ∀ i, source (S.sol i) = some f) (hit : whole.items = first.items) (hn : whole.niter.toNat = j + second.niter.toNat)
    (hF1 : Follows S I pts B first p1 m step) (hF : Follows S I pts B whole p m step)
    (hF2 : Follows S I pts B second p2 (load source (runFiles (exec I pts S.sol B) arrays (Alg.runProgram p1) (m, fs)).2 m0) step)
    (hkeep : ∀ i, atStart I pts S.sol B second (load source (runFiles (exec I pts S.sol B) arrays (Alg.runProgram p1) (m, fs)).2 m0) (.data (S.sol i)) =
      load source (runFiles (exec I pts S.sol B) arrays (Alg.runProgram p1) (m, fs)).2 m0 (.data (S.sol i))) :
    Continues S I pts B p p2 m (load source (runFiles (exec I pts S.sol B) arrays (Alg.runProgram p1) (m, fs)).2 m0) j := by
  set m2 := load source (runFiles (exec I pts S.sol B) arrays (Alg.runProgram p1) (m, fs)).2 m0 with hm2
  have hs0 : atStart I pts S.sol B whole m = atStart I pts S.sol B first m := by unfold atStart; rw [hit]
  set s0 := stateOf S (atStart I pts S.sol B first m) with hs0'
  have hq : (stateOf S (atStart I pts S.sol B second m2)).q = (step^[j] s0).q := by
    funext i
    change atStart I pts S.sol B second m2 (.data (S.sol i)) = _
    rw [hkeep i, hm2, load, hsrc i]
    simp only [hD.value hF1 fs i, Option.getD_some, hs0']
  have hstep : ∀ k, (step^[k] (stateOf S (atStart I pts S.sol B second m2))).q = (step^[j + k] s0).q := fun k => by
    rw [hm.iterate k _ _ hq, Nat.add_comm, Function.iterate_add_apply]
  refine ⟨fun i => ?_, fun k q q' h h' => ?_⟩
  · rw [hF2.final.q i, hF.final.q i, hs0, hn, hstep]
  · obtain ⟨b, a, o, e, he, rfl⟩ := h
    obtain ⟨b', a', o', e', he', rfl⟩ := h'
    obtain ⟨j1, _, hk1, hR1⟩ := hF2.write b a o _ e he
    obtain ⟨j2, _, hk2, hR2⟩ := hF.write b' a' o' _ e' he'
    simp only [Option.some.injEq, reduceCtorEq, false_and, or_false] at hk1 hk2
    have : j2 = j + j1 := by have h1 := hk1.1; have h2 := hk2.1; omega
    funext i
    rw [hR1.q i, hR2.q i, hs0, hstep, this]

/-- C96: the three stage scheme. A program writes its solution to a file; a second program of the same equations reads it. Then the second program goes on exactly where the first one was: it computes what the first one would have computed with as
many more steps. The boundary conditions may be any function of the solution arrays. -/
theorem C96_restart_rk (h1 : Program S .rk I pts first p1) (h2 : Program S .rk I pts second p2) (h : Program S .rk I pts whole p)
    (hio : ∀ o ∈ first.ios ++ second.ios ++ whole.ios, o.write = true → .before ∉ o.places) (hst : first.stages = 3 ∧ second.stages = 3 ∧ whole.stages = 3)
    (hnew : I.table "rknew" = [2/3, 5/12, 3/5]) (hold : I.table "rkold" = [1/4, 3/20, 3/5]) (hit : whole.items = first.items) {arrays : ℕ → List String} {f : String} {j : ℕ}
    (hn : whole.niter.toNat = j + second.niter.toNat) (hD : Dump S first p1 arrays f j) (source : String → Option String) (hsrc : ∀ i, source (S.sol i) = some f) (m m0 : Mem D) (fs : Files D)
    (hp : Prepared S I pts B first second m (load source (runFiles (exec I pts S.sol B) arrays (Alg.runProgram p1) (m, fs)).2 m0)) :
    Continues S I pts B p p2 m (load source (runFiles (exec I pts S.sol B) arrays (Alg.runProgram p1) (m, fs)).2 m0) j := by
  obtain ⟨ks, hks, a1⟩ := h1.assembled
  obtain ⟨ks2, hks2, a2⟩ := h2.assembled
  obtain ⟨ks3, hks3, a3⟩ := h.assembled
  choose full hfull using fun q => C77_datasets_exist h1.valid I ks hks (fun s => atStart I pts S.sol B first m (.data s)) q
  have hs0 : atStart I pts S.sol B whole m = atStart I pts S.sol B first m := by unfold atStart; rw [hit]
  have hfull2 : ∀ q, Consistent S I (fun s => atStart I pts S.sol B second (load source (runFiles (exec I pts S.sol B) arrays (Alg.runProgram p1) (m, fs)).2 m0) (.data s)) q (full q) := fun q =>
    ⟨(hfull q).sol, (hfull q).rel, fun s hs hi => ((hfull q).rest s hs hi).trans (hp.rest s (by
      rw [Option.eq_none_iff_forall_ne_some]
      exact fun e he => hs e ((relation_iff h1.valid.relNodup s e).1 he)) hi).symm⟩
  refine continues_of (rkStep_memoryless S.np (fun q i x => (S.rhs i).eval I (memOf (full q)) x) B (I.const "dt") _) hD hsrc hit hn
    (follows_rk a1 (fun o ho => hio o (by simp [ho])) h1.valid.solInj h1.loops hst.1 hnew hold B _ m (spatial_evaluates h1.valid h1.loops h1.reach hfull ks hks))
    (follows_rk a3 (fun o ho => hio o (by simp [ho])) h1.valid.solInj h1.loops hst.2.2 hnew hold B _ m (spatial_evaluates h.valid h.loops h.reach (by rw [hs0]; exact hfull) ks3 hks3))
    (follows_rk a2 (fun o ho => hio o (by simp [ho])) h1.valid.solInj h1.loops hst.2.1 hnew hold B _ _ (spatial_evaluates h2.valid h2.loops h2.reach hfull2 ks2 hks2)) hp.keeps

/-- C96: why the second program must not have the initial conditions any more: kernels that set the solution before the time loop replace what was read, and the program computes the same from every file. -/
theorem C96_initial_conditions_win (h1 : Program S .rk I pts second p2) (hio : ∀ o ∈ second.ios, o.write = true → .before ∉ o.places) (hst : second.stages = 3)
    (hnew : I.table "rknew" = [2/3, 5/12, 3/5]) (hold : I.table "rkold" = [1/4, 3/20, 3/5]) (source : String → Option String) (fs fs' : Files D) (m : Mem D)
    (hset : ∀ m', (∀ s, atStart I pts S.sol B second m' (.data s) = atStart I pts S.sol B second m (.data s))) (i : Fin n) :
    Alg.effect (exec I pts S.sol B) (Alg.runProgram p2) (load source fs m) (.data (S.sol i)) = Alg.effect (exec I pts S.sol B) (Alg.runProgram p2) (load source fs' m) (.data (S.sol i)) := by
  obtain ⟨ks, hks, a1⟩ := h1.assembled
  choose full hfull using fun q => C77_datasets_exist h1.valid I ks hks (fun s => atStart I pts S.sol B second m (.data s)) q
  have hF : ∀ m', Follows S I pts B second p2 m' (rkStep S.np (fun q i x => (S.rhs i).eval I (memOf (full q)) x) B (I.const "dt") [(2/3, 1/4), (5/12, 3/20), (3/5, 3/5)]) := fun m' =>
    follows_rk a1 hio h1.valid.solInj h1.loops hst hnew hold B _ m' (spatial_evaluates h1.valid h1.loops h1.reach (by simp only [hset m']; exact hfull) ks hks)
  have hm := rkStep_memoryless S.np (fun q i x => (S.rhs i).eval I (memOf (full q)) x) B (I.const "dt") [(2/3, 1/4), (5/12, 3/20), (3/5, 3/5)]
  rw [(hF _).final.q i, (hF _).final.q i, hm.iterate _ _ (stateOf S (atStart I pts S.sol B second (load source fs' m)))]
  funext j
  change atStart I pts S.sol B second _ (.data (S.sol j)) = atStart I pts S.sol B second _ (.data (S.sol j))
  rw [hset, hset (load source fs' m)]

/-- C96: the low storage schemes, whose first coefficient is zero. -/
theorem C96_restart_ls (h1 : Program S .lowStorage I pts first p1) (h2 : Program S .lowStorage I pts second p2) (h : Program S .lowStorage I pts whole p)
    (hio : ∀ o ∈ first.ios ++ second.ios ++ whole.ios, o.write = true → .before ∉ o.places) (A C : List ℝ) (hAC : A.length = C.length) (hA0 : A.head? = some 0)
    (hst : first.stages = A.length ∧ second.stages = A.length ∧ whole.stages = A.length) (hA : I.table "rkA" = A) (hC : I.table "rkB" = C) (hit : whole.items = first.items) {arrays : ℕ → List String} {f : String} {j : ℕ}
    (hn : whole.niter.toNat = j + second.niter.toNat) (hD : Dump S first p1 arrays f j) (source : String → Option String) (hsrc : ∀ i, source (S.sol i) = some f) (m m0 : Mem D) (fs : Files D)
    (hp : Prepared S I pts B first second m (load source (runFiles (exec I pts S.sol B) arrays (Alg.runProgram p1) (m, fs)).2 m0)) :
    Continues S I pts B p p2 m (load source (runFiles (exec I pts S.sol B) arrays (Alg.runProgram p1) (m, fs)).2 m0) j := by
  obtain ⟨ks, hks, a1⟩ := h1.assembled
  obtain ⟨ks2, hks2, a2⟩ := h2.assembled
  obtain ⟨ks3, hks3, a3⟩ := h.assembled
  choose full hfull using fun q => C77_datasets_exist h1.valid I ks hks (fun s => atStart I pts S.sol B first m (.data s)) q
  have hs0 : atStart I pts S.sol B whole m = atStart I pts S.sol B first m := by unfold atStart; rw [hit]
  have hfull2 : ∀ q, Consistent S I (fun s => atStart I pts S.sol B second (load source (runFiles (exec I pts S.sol B) arrays (Alg.runProgram p1) (m, fs)).2 m0) (.data s)) q (full q) := fun q =>
    ⟨(hfull q).sol, (hfull q).rel, fun s hs hi => ((hfull q).rest s hs hi).trans (hp.rest s (by
      rw [Option.eq_none_iff_forall_ne_some]
      exact fun e he => hs e ((relation_iff h1.valid.relNodup s e).1 he)) hi).symm⟩
  refine continues_of (lsStep_memoryless S.np (fun q i x => (S.rhs i).eval I (memOf (full q)) x) B (I.const "dt") A C hA0) hD hsrc hit hn
    (follows_ls a1 (fun o ho => hio o (by simp [ho])) h1.valid.solInj h1.loops A C hAC hst.1 hA hC B _ m (spatial_evaluates h1.valid h1.loops h1.reach hfull ks hks))
    (follows_ls a3 (fun o ho => hio o (by simp [ho])) h1.valid.solInj h1.loops A C hAC hst.2.2 hA hC B _ m (spatial_evaluates h.valid h.loops h.reach (by rw [hs0]; exact hfull) ks3 hks3))
    (follows_ls a2 (fun o ho => hio o (by simp [ho])) h1.valid.solInj h1.loops A C hAC hst.2.1 hA hC B _ _ (spatial_evaluates h2.valid h2.loops h2.reach hfull2 ks2 hks2)) hp.keeps

end

section
variable {C : Shock D n} {I : Interp D} {pts : Ranges.Kernel D → List (P D)} {first second whole : Alg.Input (Call D)} {p1 p2 p : List (Alg.Node (Call D))} {B : Sol D n → Sol D n}

/-- C96: shock capturing programs with the three stage scheme. -/
theorem C96_restart_shock_rk (h1 : ShockProgram C .rk I pts first p1) (h2 : ShockProgram C .rk I pts second p2) (h : ShockProgram C .rk I pts whole p)
    (hio : ∀ o ∈ first.ios ++ second.ios ++ whole.ios, o.write = true → .before ∉ o.places) (hst : first.stages = 3 ∧ second.stages = 3 ∧ whole.stages = 3)
    (hnew : I.table "rknew" = [2/3, 5/12, 3/5]) (hold : I.table "rkold" = [1/4, 3/20, 3/5]) (hit : whole.items = first.items) {arrays : ℕ → List String} {f : String} {j : ℕ}
    (hn : whole.niter.toNat = j + second.niter.toNat) (hD : Dump C.toSetup first p1 arrays f j) (source : String → Option String) (hsrc : ∀ i, source (C.sol i) = some f) (m m0 : Mem D) (fs : Files D)
    (hp : Prepared C.toSetup I pts B first second m (load source (runFiles (exec I pts C.sol B) arrays (Alg.runProgram p1) (m, fs)).2 m0)) :
    Continues C.toSetup I pts B p p2 m (load source (runFiles (exec I pts C.sol B) arrays (Alg.runProgram p1) (m, fs)).2 m0) j := by
  obtain ⟨ks, hks, a1⟩ := h1.items
  obtain ⟨ks2, hks2, a2⟩ := h2.items
  obtain ⟨ks3, hks3, a3⟩ := h.items
  obtain ⟨order, hord⟩ := shock_order hks
  choose full hfull using fun q => datasets_exist h1.valid.relations I order hord (fun s => atStart I pts C.sol B first m (.data s)) q
  have hs0 : atStart I pts C.sol B whole m = atStart I pts C.sol B first m := by unfold atStart; rw [hit]
  have hfull2 : ∀ q, ConsistentOn C.toSetup C.required I (fun s => atStart I pts C.sol B second (load source (runFiles (exec I pts C.sol B) arrays (Alg.runProgram p1) (m, fs)).2 m0) (.data s)) q (full q) := fun q =>
    ⟨(hfull q).sol, (hfull q).rel, fun s hs hi => ((hfull q).rest s hs hi).trans (hp.rest s (by
      rw [Option.eq_none_iff_forall_ne_some]
      exact fun e he => hs e ((relation_iff h1.valid.relations.relNodup s e).1 he)) hi).symm⟩
  have hinj := h1.valid.relations.solInj
  refine continues_of (rkStep_memoryless C.np (fun q i x => shockRhs C I (full q) i x) B (I.const "dt") _) hD hsrc hit hn
    (follows_rk a1 (fun o ho => hio o (by simp [ho])) hinj h1.loops hst.1 hnew hold B _ m (shock_evaluates h1.valid h1.loops h1.reach hfull ks hks))
    (follows_rk a3 (fun o ho => hio o (by simp [ho])) hinj h1.loops hst.2.2 hnew hold B _ m (shock_evaluates h.valid h.loops h.reach (by rw [hs0]; exact hfull) ks3 hks3))
    (follows_rk a2 (fun o ho => hio o (by simp [ho])) hinj h1.loops hst.2.1 hnew hold B _ _ (shock_evaluates h2.valid h2.loops h2.reach hfull2 ks2 hks2)) hp.keeps

/-- C96: shock capturing programs with a low storage scheme. -/
theorem C96_restart_shock_ls (h1 : ShockProgram C .lowStorage I pts first p1) (h2 : ShockProgram C .lowStorage I pts second p2) (h : ShockProgram C .lowStorage I pts whole p)
    (hio : ∀ o ∈ first.ios ++ second.ios ++ whole.ios, o.write = true → .before ∉ o.places) (A L : List ℝ) (hAC : A.length = L.length) (hA0 : A.head? = some 0)
    (hst : first.stages = A.length ∧ second.stages = A.length ∧ whole.stages = A.length) (hA : I.table "rkA" = A) (hL : I.table "rkB" = L) (hit : whole.items = first.items) {arrays : ℕ → List String} {f : String} {j : ℕ}
    (hn : whole.niter.toNat = j + second.niter.toNat) (hD : Dump C.toSetup first p1 arrays f j) (source : String → Option String) (hsrc : ∀ i, source (C.sol i) = some f) (m m0 : Mem D) (fs : Files D)
    (hp : Prepared C.toSetup I pts B first second m (load source (runFiles (exec I pts C.sol B) arrays (Alg.runProgram p1) (m, fs)).2 m0)) :
    Continues C.toSetup I pts B p p2 m (load source (runFiles (exec I pts C.sol B) arrays (Alg.runProgram p1) (m, fs)).2 m0) j := by
  obtain ⟨ks, hks, a1⟩ := h1.items
  obtain ⟨ks2, hks2, a2⟩ := h2.items
  obtain ⟨ks3, hks3, a3⟩ := h.items
  obtain ⟨order, hord⟩ := shock_order hks
  choose full hfull using fun q => datasets_exist h1.valid.relations I order hord (fun s => atStart I pts C.sol B first m (.data s)) q
  have hs0 : atStart I pts C.sol B whole m = atStart I pts C.sol B first m := by unfold atStart; rw [hit]
  have hfull2 : ∀ q, ConsistentOn C.toSetup C.required I (fun s => atStart I pts C.sol B second (load source (runFiles (exec I pts C.sol B) arrays (Alg.runProgram p1) (m, fs)).2 m0) (.data s)) q (full q) := fun q =>
    ⟨(hfull q).sol, (hfull q).rel, fun s hs hi => ((hfull q).rest s hs hi).trans (hp.rest s (by
      rw [Option.eq_none_iff_forall_ne_some]
      exact fun e he => hs e ((relation_iff h1.valid.relations.relNodup s e).1 he)) hi).symm⟩
  have hinj := h1.valid.relations.solInj
  refine continues_of (lsStep_memoryless C.np (fun q i x => shockRhs C I (full q) i x) B (I.const "dt") A L hA0) hD hsrc hit hn
    (follows_ls a1 (fun o ho => hio o (by simp [ho])) hinj h1.loops A L hAC hst.1 hA hL B _ m (shock_evaluates h1.valid h1.loops h1.reach hfull ks hks))
    (follows_ls a3 (fun o ho => hio o (by simp [ho])) hinj h1.loops A L hAC hst.2.2 hA hL B _ m (shock_evaluates h.valid h.loops h.reach (by rw [hs0]; exact hfull) ks3 hks3))
    (follows_ls a2 (fun o ho => hio o (by simp [ho])) hinj h1.loops A L hAC hst.2.1 hA hL B _ _ (shock_evaluates h2.valid h2.loops h2.reach hfull2 ks2 hks2)) hp.keeps

end

end OpenSBLI.Restart
