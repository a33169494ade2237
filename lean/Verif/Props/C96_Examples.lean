import Verif.Props.C77_Examples
import Verif.Props.C96_Files

/-!
# C96: a simulation in two parts
-/
namespace OpenSBLI.Restart
open OpenSBLI.Sim

/-- The problem of C77 with another number of steps. -/
noncomputable def flowSteps (niter : ℤ) : Alg.Input (Call 2) := { flowInput with niter := niter }

theorem flowSteps_program {pts : Ranges.Kernel 2 → List (P 2)} (hp : Enumerates pts) (niter : ℤ) : ∃ prg, Program flow .rk flowInterp pts (flowSteps niter) prg := by
  have hg : ∃ prg, Alg.generate (flowSteps niter) = .ok prg := by
    simp [Alg.generate, flowSteps, flowInput, Setup.item, Alg.Acc.add, Alg.sortByOrder]
    exact ⟨_, rfl⟩
  obtain ⟨prg, hg⟩ := hg
  refine ⟨prg, flow_valid, hp, central_local (delta := ![1/10, 1/7]) fun d k f x => rfl, ⟨[], [], _, flow_spatial.choose_spec, rfl, by simp, by simp⟩, ?_, hg⟩
  intro o places k h
  simp [flowSteps, flowInput, Setup.item] at h

/-- The object that reads the file of step 100, and the datasets of the block. -/
def reader : Obj := ⟨[("iotype", "read"), ("filename", "opensbli_output_000100.h5")], ["rho", "rhou"], [.before]⟩

def flowSets : List Dset := [⟨"rho", true, none⟩, ⟨"rhou", true, none⟩, ⟨"p", true, none⟩, ⟨"u", true, none⟩]

example : Obj.new ["rho", "rhou"] 0 [("iotype", "Read"), ("filename", "opensbli_output_000100.h5")] = .ok reader := by decide +kernel

theorem flow_sources : ∃ ds, setReads [reader] flowSets = .ok ds ∧ (∀ i, sources ds (flow.sol i) = some (Alg.fileName (some 100))) ∧ ∀ s, (∀ i, s ≠ flow.sol i) → sources ds s = none := by
  obtain ⟨ds, h1, _, h3⟩ := C96_sources [reader] flowSets (by
    intro o ho _ ar har
    rw [List.mem_singleton] at ho
    subst ho
    revert ar
    decide +kernel)
  have hn : Alg.fileName (some 100) = "opensbli_output_000100.h5" := by decide +kernel
  have hf : reader.file = "opensbli_output_000100.h5" := by decide +kernel
  have hr : reader.get "iotype" = some "read" := by decide +kernel
  refine ⟨ds, h1, fun i => ?_, fun s hs => ?_⟩
  · have : flow.sol i ∈ reader.arrays := by revert i; decide
    rw [h3, hn]
    simp [hr, this, hf]
  · have : s ∉ reader.arrays := by
      have h0 := hs 0
      have h1 := hs 1
      simp [reader, flow] at h0 h1 ⊢
      exact ⟨h0, h1⟩
    rw [h3]
    simp only [List.reverse_singleton, List.find?_cons, this, and_false, decide_false, List.find?_nil]
    simp only [sources, flowSets, List.find?_cons, List.find?_nil]
    split <;> try rfl
    split <;> try rfl
    split <;> try rfl
    split <;> rfl

/-- A run of 120 steps leaves the file of step 100. A program that reads it and makes 150 steps has the arrays of the run of 250 steps, and its files of the steps 50, 100 and 150 have the solution of the files of the steps 150, 200 and 250 there. -/
example (pts : Ranges.Kernel 2 → List (P 2)) (hp : Enumerates pts) (B : Sol 2 2 → Sol 2 2) (m m0 : Mem 2) (hm : ∀ s, (∀ i, s ≠ flow.sol i) → m0 (.data s) = m (.data s)) (fs : Files 2) :
    ∃ p1 p2 p ds, Alg.generate (flowSteps 120) = .ok p1 ∧ Alg.generate (flowSteps 150) = .ok p2 ∧ Alg.generate (flowSteps 250) = .ok p ∧ setReads [reader] flowSets = .ok ds ∧
      Continues flow flowInterp pts B p p2 m (load (sources ds) (runFiles (exec flowInterp pts flow.sol B) (fun _ => ["rho", "rhou"]) (Alg.runProgram p1) (m, fs)).2 m0) 100 := by
  obtain ⟨p1, h1⟩ := flowSteps_program hp 120
  obtain ⟨p2, h2⟩ := flowSteps_program hp 150
  obtain ⟨p, h⟩ := flowSteps_program hp 250
  obtain ⟨ds, hd, hs, hs'⟩ := flow_sources
  have hio : ∀ (k : ℤ), ∀ o ∈ (flowSteps k).ios, o.write = true → .before ∉ o.places := by
    intro k o ho _
    simp only [flowSteps, flowInput, List.mem_singleton] at ho
    subst ho
    decide
  obtain ⟨_, _, a1⟩ := h1.assembled
  have hD : Dump flow (flowSteps 120) p1 (fun _ => ["rho", "rhou"]) (Alg.fileName (some 100)) 100 :=
    C96_numbered_file a1 (hio 120) (o := Alg.IO.new 0 true none 50) (g := 50) (by simp [flowSteps, flowInput]) rfl rfl (by decide) (by decide) (by decide) (by decide) (by decide) (by
      intro o ho h
      simp only [flowSteps, flowInput, List.mem_singleton] at ho
      subst ho
      simp [Alg.IO.new] at h)
  have hstart : ∀ k m', atStart flowInterp pts flow.sol B (flowSteps k) m' = m' := fun k m' => by
    simp [atStart, flowSteps, flowInput, Alg.others, Setup.item, Alg.sortByOrder, Alg.placedAt, Alg.calls, Alg.effect]
  refine ⟨p1, p2, p, ds, h1.generated, h2.generated, h.generated, hd, C96_restart_rk h1 h2 h ?_ ⟨rfl, rfl, rfl⟩ (by simp [flowInterp]) (by simp [flowInterp]) rfl rfl hD _ hs m m0 fs ⟨fun i => by rw [hstart], fun s _ hs0 => ?_⟩⟩
  · intro o ho
    simp only [List.mem_append] at ho
    rcases ho with (ho | ho) | ho <;> exact hio _ o ho
  · rw [hstart, hstart, load, hs' s hs0]
    exact hm s hs0

end OpenSBLI.Restart
