import Verif.Lemmas.ShockTextLoop
import Verif.Props.C78_Program

/-! # Programs with a shock capturing scheme have a faithful text: helper lemmas for C86 -/
namespace OpenSBLI.Sim
open Recon CCode Reg

variable {D n : ℕ} {T : Text D} {U : Arr → Prop} {lit : ℝ → Sym D} {S : Sympy D} {prg : List (Alg.Node (Call D))} {pts : Ranges.Kernel D → List (P D)}
  {C : Shock D n} {K : Fin D → Input D n} {t : Temporal} {inp : Alg.Input (Call D)}

/-- The kernels of such a program. -/
theorem shock_fits {I : Interp D} (hT : T.Captures C K S lit t inp U) (hP : ShockProgram C t I pts inp prg) :
    T.Fits prg U C.sol ∧ ∀ k, .fn k ∈ written prg → (T.fns k).isSome → (∃ eqs, T.fns k = some eqs ∧ T.Says U k eqs) ∨ (∃ d ∈ C.dirs, k = C.reconKernel d) ∨ k = C.residualKernel := by
  classical
  have hS := hT.suits
  have hC : C.Core := hP.valid.toCore
  obtain ⟨cs, hcs, hA⟩ := hP.items
  obtain ⟨pre, post, hit, hpre, hpost⟩ := hA.items
  have hspace : ∀ c ∈ cs, (∀ k, c = .comp k → ∀ q ∈ k.eqs, Fine T U q) ∧ ∀ k, c = .fn k → (∃ d ∈ C.dirs, k = C.reconKernel d) ∨ k = C.residualKernel := by
    intro c hc
    unfold Shock.spatial at hcs
    split at hcs
    · cases hcs
    split at hcs
    · cases hcs
    rename_i order ho
    cases hcs
    simp only [List.mem_append, List.mem_map, List.mem_singleton] at hc
    rcases hc with ((⟨k, hk, rfl⟩ | ⟨d, hd, rfl⟩) | rfl) | ⟨k, hk, rfl⟩
    · refine ⟨fun k' e => ?_, fun k' e => by cases e⟩
      cases e
      obtain ⟨s, -, hs⟩ := List.mem_filterMap.1 hk
      exact rel_fine hS (fun s e he => (hC.relations.relPlain s e he).1) hs
    · refine ⟨fun k' e => (by cases e), fun k' e => ?_⟩
      cases e
      exact .inl ⟨d, hd, rfl⟩
    · refine ⟨fun k' e => (by cases e), fun k' e => ?_⟩
      cases e
      exact .inr rfl
    · refine ⟨fun k' e => ?_, fun k' e => by cases e⟩
      cases e
      exact visc_fine hS hC.shape k hk
  have key : ∀ c ∈ Alg.loopAlg prg, (∀ k, c = .comp k → ∀ q ∈ k.eqs, Fine T U q) ∧
      ∀ k, c = .fn k → (T.fns k = none ∧ ∀ q ∈ k.eqs, U q.1 ∧ ∀ I I' (m m' : Mem D) x, (∀ a, U a → m a = m' a) → q.2 I m x = q.2 I' m' x) ∨
        (∃ eqs, T.fns k = some eqs ∧ T.Proper eqs ∧ T.Says U k eqs) ∨ (∃ d ∈ C.dirs, k = C.reconKernel d) ∨ k = C.residualKernel := by
    refine Alg.generated_kernels inp prg hA.generated _ fun i hi c hc => ?_
    cases i with
    | simulation s f k b sp =>
      have hs : Alg.Item.simulation s f k b sp = .simulation ((C.toSetup.startKernels t).map .comp) [] ((C.toSetup.advanceKernels t).map .comp) [.bc] cs := by
        rw [hit] at hi
        rcases List.mem_append.1 hi with hi | hi
        · exact absurd (hpre _ hi) (by simp [Alg.Item.isSimulation])
        · rcases List.mem_cons.1 hi with hi | hi
          · exact hi
          · exact absurd (hpost _ hi) (by simp [Alg.Item.isSimulation])
      cases hs
      simp only [Alg.Item.all, List.append_nil, List.mem_append, List.mem_map, List.mem_singleton] at hc
      rcases hc with ((⟨k, hk, rfl⟩ | ⟨k, hk, rfl⟩) | rfl) | hc
      · exact ⟨fun k' e => (by cases e; exact time_fine hS k (List.mem_append_left _ hk)), fun k' e => by cases e⟩
      · exact ⟨fun k' e => (by cases e; exact time_fine hS k (List.mem_append_right _ hk)), fun k' e => by cases e⟩
      · exact ⟨fun k' e => (by cases e), fun k' e => by cases e⟩
      · exact ⟨(hspace c hc).1, fun k e => .inr (.inr ((hspace c hc).2 k e))⟩
    | nonSimulation o p l =>
      obtain ⟨h1, h2⟩ := hS.others o p l hi
      exact ⟨fun k hk => h1 k (hk ▸ hc), fun k hk => (h2 k (hk ▸ hc)).imp_right .inl⟩
    | _ => cases hc
  refine ⟨⟨hS.lib, hS.powers, hS.registered, hS.injective, fun i => (hS.arrays i).2.2, fun k hk => (key _ hk).1 k rfl, fun k eqs hk he => ?_, fun k hk hn => ?_, hS.bcs⟩, fun k hk hs => ?_⟩
  · rcases (key _ hk).2 k rfl with h | ⟨eqs', h1, h2, h3⟩ | ⟨d, hd, rfl⟩ | rfl
    · rw [h.1] at he; cases he
    · rw [h1] at he; cases he; exact h2
    · obtain ⟨eqs', h1, h2⟩ := hT.recon d hd
      rw [h2] at he
      cases he
      exact text_proper hS.registered (hT.writable d hd) h1
    · rw [hT.residual] at he
      cases he
      exact residual_proper hS.registered hC hT.printable
  · rcases (key _ hk).2 k rfl with h | ⟨eqs', h1, h2, h3⟩ | ⟨d, hd, rfl⟩ | rfl
    · exact h.2
    · rw [h1] at hn; cases hn
    · obtain ⟨eqs', h1, h2⟩ := hT.recon d hd
      rw [h2] at hn
      cases hn
    · rw [hT.residual] at hn
      cases hn
  · rcases (key _ hk).2 k rfl with h | ⟨eqs', h1, h2, h3⟩ | h
    · rw [h.1] at hs; cases hs
    · exact .inl ⟨eqs', h1, h3⟩
    · exact .inr h

end OpenSBLI.Sim
