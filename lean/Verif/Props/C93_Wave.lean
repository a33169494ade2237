import Verif.Props.C93_Split
import Verif.Props.C88_Wave

/-!
# C93: rings of blocks, and `apps/wave` on any number of blocks
-/
namespace OpenSBLI.Sim
open MultiBlock (Link nextTo)

variable {D n Nb : ℕ}

/-! ## Programs exist -/

theorem oneValue_const {A B : Type} [DecidableEq A] (l : List B) (hl : l ≠ []) (a : A) : Alg.oneValue (l.map fun _ => a) = true := by
  cases l with
  | nil => exact absurd rfl hl
  | cons x l => simp [Alg.oneValue]

/-- Generation succeeds for blocks with one simulation each. -/
theorem generateMB_ok (S : Setup D n) (np : Fin Nb → Fin D → ℤ) (t : Temporal) (links : Fin Nb → List (Link D Nb)) (ks : Fin Nb → List (Ker D)) (name : String) (stages niter : ℤ) (ios : Fin Nb → List Alg.IO)
    (hNb : 0 < Nb) : ∃ prg, Alg.generateMB ((List.finRange Nb).map fun b => ⟨[⟨name, stages, niter, [(S.sized (np b)).itemMB t b (links b) (ks b)]⟩], ios b⟩) = .ok prg := by
  set blocks : List (Alg.BlockMB (CallMB D Nb)) := (List.finRange Nb).map fun b => ⟨[⟨name, stages, niter, [(S.sized (np b)).itemMB t b (links b) (ks b)]⟩], ios b⟩ with hblocks
  have hne : List.finRange Nb ≠ [] := List.ne_nil_of_mem (List.mem_finRange ⟨0, hNb⟩)
  have hsch : Alg.schemesOf blocks = (List.finRange Nb).map fun b => ⟨name, stages, niter, [(S.sized (np b)).itemMB t b (links b) (ks b)]⟩ := by
    rw [hblocks, Alg.schemesOf, List.flatMap_map, ← List.flatMap_singleton' (List.map _ _), List.flatMap_map]
  have hfold : ∀ (l : List (Fin Nb)) (a : Alg.AccMB (CallMB D Nb)), a.acc.nonSim = [] →
      ∃ a', (l.flatMap fun b => [(S.sized (np b)).itemMB t b (links b) (ks b)]).foldlM Alg.AccMB.add a = .ok a' ∧ a'.acc.nonSim = [] := by
    intro l
    induction l with
    | nil => exact fun a ha => ⟨a, rfl, ha⟩
    | cons b l ih =>
      intro a ha
      obtain ⟨a', h1, h2⟩ := ih { a with acc := { a.acc with
        start := a.acc.start ++ (((S.sized (np b)).startKernels t).map fun k => .on b (.comp k))
        finish := a.acc.finish ++ []
        advance := a.acc.advance ++ (((S.sized (np b)).advanceKernels t).map fun k => .on b (.comp k))
        bc := a.acc.bc ++ (.on b .bc :: (links b).map .link)
        spatial := a.acc.spatial ++ ((ks b).map fun k => .on b (.comp k)) } } ha
      exact ⟨a', h1, h2⟩
  obtain ⟨a, h1, h2⟩ := hfold (List.finRange Nb) {} rfl
  unfold Alg.generateMB
  rw [hsch]
  simp only [List.map_map, Function.comp_def, List.flatMap_map]
  rw [oneValue_const _ hne, oneValue_const _ hne, oneValue_const _ hne, h1]
  simp only [h2, Bool.true_eq_false, if_false, or_self]
  have hs : Alg.sortByOrder ([] : List (ℤ × List Alg.Place × List (CallMB D Nb))) = [] := by simp [Alg.sortByOrder]
  rw [hs]
  simp only [List.foldlM_nil]
  cases hr : List.finRange Nb with
  | nil => exact absurd hr hne
  | cons b l => exact ⟨_, rfl⟩

/-! ## Rings -/

/-- The first point of a block in a ring. -/
def ringOff {k : ℕ} (size : Fin (k + 1) → ℤ) (b : Fin (k + 1)) : P 1 := ![∑ c ∈ Finset.Iio b, size c]

theorem ring_step {k : ℕ} (size : Fin (k + 1) → ℤ) (b : Fin (k + 1)) :
    (∑ c ∈ Finset.Iio (b + 1), size c = (∑ c ∈ Finset.Iio b, size c) + size b) ∨ (∑ c ∈ Finset.Iio b, size c) + size b = ∑ c, size c ∧ ∑ c ∈ Finset.Iio (b + 1), size c = 0 := by
  by_cases hb : b = Fin.last k
  · right
    subst hb
    have h1 : Finset.Iio (Fin.last k + 1) = (∅ : Finset (Fin (k + 1))) := by
      rw [Fin.last_add_one]
      ext c; simp
    have h2 : insert (Fin.last k) (Finset.Iio (Fin.last k)) = (Finset.univ : Finset (Fin (k + 1))) := by
      ext c
      simp only [Finset.mem_insert, Finset.mem_Iio, Finset.mem_univ, iff_true]
      exact (Fin.le_last c).eq_or_lt
    rw [h1, Finset.sum_empty, ← h2, Finset.sum_insert (by simp)]
    exact ⟨add_comm _ _, rfl⟩
  · left
    have h1 : Finset.Iio (b + 1) = insert b (Finset.Iio b) := by
      have hlt : b.val + 1 < k + 1 := by
        have : b.val ≠ k := fun e => hb (Fin.ext e)
        omega
      ext c
      simp only [Finset.mem_Iio, Finset.mem_insert, Fin.lt_def, Fin.ext_iff, Fin.val_add_one_of_lt (Fin.lt_last_iff_ne_last.2 hb)]
      omega
    rw [h1, Finset.sum_insert (by simp), add_comm]

/-- Blocks of any number and sizes one after another tile a periodic interval. -/
theorem ring_tiling {k : ℕ} (size : Fin (k + 1) → ℤ) {h : ℤ} (hh : 0 ≤ h) (hs : ∀ b, h ≤ size b) :
    Tiling ![∑ b, size b] h (fun b => ![size b]) (ringOff size) (fun b _ => b + 1) (fun b _ => b - 1) where
  thick := fun b d => by rw [Subsingleton.elim d 0]; exact hs b
  inside := fun b d => by
    rw [Subsingleton.elim d 0]
    have h0 : ∀ c, 0 ≤ size c := fun c => hh.trans (hs c)
    refine ⟨(Finset.sum_nonneg fun c _ => h0 c : 0 ≤ ∑ c ∈ Finset.Iio b, size c), h0 b, ?_⟩
    change (∑ c ∈ Finset.Iio b, size c) + size b ≤ ∑ c, size c
    rw [add_comm, ← Finset.sum_insert (by simp : b ∉ Finset.Iio b)]
    exact Finset.sum_le_sum_of_subset_of_nonneg (Finset.subset_univ _) fun c _ _ => h0 c
  follows := fun b d => by rw [Subsingleton.elim d 0]; exact ring_step size b
  beside := fun b d e he => absurd (Subsingleton.elim e d) he
  back := fun b _ => by simp
  forth := fun b _ => by simp

/-! ## The wave equation -/

/-- The program of the application without initial conditions. -/
noncomputable def waveBare (N niter : ℤ) : Alg.Input (Call 1) where
  temporalSchemes := 1
  items := [(wave N).item .rk (wave_spatial N).choose]
  stages := 3
  niter := niter
  monitorFrequency := none
  ios := [Alg.IO.new 0 true none 100]

theorem sized_wave (N M : ℤ) : (wave N).sized ![M] = wave M := rfl

/-- The program on a ring of blocks: every block has the equation and is joined to the blocks before and after it. -/
noncomputable def waveBlocks {k : ℕ} (N niter : ℤ) (size : Fin (k + 1) → ℤ) : List (Alg.BlockMB (CallMB 1 (k + 1))) :=
  (List.finRange (k + 1)).map fun b => ⟨[⟨"RungeKutta", 3, niter, [((wave N).sized ![size b]).itemMB .rk b (tilingLinks (fun b _ => b + 1) (fun b _ => b - 1) b) (wave_spatial (size b)).choose]⟩],
    [Alg.IO.new 0 true none 100]⟩

/-- **C93 for `apps/wave`.** The wave equation on a periodic interval cut into any number of blocks of any sizes of at least two points: both programs exist, and the blocks hold at every point of the grid, at the end and every
hundred steps, what the program for the whole interval computes. -/
theorem C93_wave {k : ℕ} (niter : ℤ) (size : Fin (k + 1) → ℤ) (hs : ∀ b, 2 ≤ size b) {pts : Ranges.Kernel 1 → List (P 1)} (hp : Enumerates pts) {I : Interp 1} {delta : Fin 1 → ℝ}
    (hI : IsCentral (wave (∑ b, size b)) I delta) (hnew : I.table "rknew" = [2/3, 5/12, 3/5]) (hold : I.table "rkold" = [1/4, 3/20, 3/5]) (m : Mem 1) (ms : Fin (k + 1) → Mem 1)
    (hstart : ∀ b x, 0 ≤ x 0 ∧ x 0 < size b → ms b (.data "phi") x = m (.data "phi") (x + ringOff size b)) :
    ∃ prg prgs, Alg.generate (waveBare (∑ b, size b) niter) = .ok prg ∧ Alg.generateMB (waveBlocks (∑ b, size b) niter size) = .ok prgs ∧
      SameResults (wave (∑ b, size b)) I pts (exchange ![∑ b, size b] 2) (fun b => ![size b]) (ringOff size) (fun _ f => f) prg prgs m ms := by
  set N := ∑ b, size b with hN
  have hg : ∃ prg, Alg.generate (waveBare N niter) = .ok prg := by
    simp [Alg.generate, waveBare, Setup.item, Alg.Acc.add, Alg.sortByOrder]
    exact ⟨_, rfl⟩
  obtain ⟨prg, hg⟩ := hg
  obtain ⟨prgs, hgs⟩ := generateMB_ok (wave N) (fun b => ![size b]) .rk (tilingLinks (fun (b : Fin (k + 1)) _ => b + 1) (fun b _ => b - 1)) (fun b => (wave_spatial (size b)).choose) "RungeKutta" 3 niter
    (fun _ => [Alg.IO.new 0 true none 100]) (Nat.succ_pos k)
  refine ⟨prg, prgs, hg, hgs, ?_⟩
  have hP : Program (wave N) .rk I pts (waveBare N niter) prg := by
    refine ⟨wave_valid N, hp, central_local hI, ⟨[], [], _, (wave_spatial N).choose_spec, rfl, by simp, by simp⟩, ?_, hg⟩
    intro o places k h
    simp [waveBare, Setup.item] at h
  have hM : ProgramMB (wave N) (fun b => ![size b]) .rk (fun _ => I) pts (tilingLinks (fun b _ => b + 1) (fun b _ => b - 1)) (waveBare N niter).stages (waveBare N niter).niter (waveBlocks N niter size) prgs := by
    refine ⟨wave_valid N, hp, fun b => central_local (S := (wave N).sized ![size b]) hI, ⟨fun b => (wave_spatial (size b)).choose, fun b => (wave_spatial (size b)).choose_spec, "RungeKutta", fun _ => [], fun _ => [],
      fun _ => [Alg.IO.new 0 true none 100], by simp, rfl⟩, ?_, hgs⟩
    intro o places k h
    simp [Alg.othersMB, waveBlocks, Setup.itemMB] at h
  have hmet : Alg.metricsMB (waveBlocks N niter size) = [] := by simp [Alg.metricsMB, waveBlocks, Setup.itemMB]
  have hoth : Alg.othersMB (waveBlocks N niter size) = [] := by simp [Alg.othersMB, waveBlocks, Setup.itemMB]
  have hcl : Closed (wave N) := by
    rintro s (⟨i, h⟩ | ⟨t, e, he, h⟩)
    · rw [Subsingleton.elim i 0] at h
      simp [wave, Ex.datas, Ex.arrs, phi] at h
      exact .inr ⟨0, by simpa [wave] using h⟩
    · simp [Setup.relation, wave] at he
  have hh : (wave N).h = 2 := by simp [Setup.h, wave]
  have ht : Tiling (wave N).np (wave N).h (fun b => ![size b]) (ringOff size) (fun b _ => b + 1) (fun b _ => b - 1) := by
    rw [hh]; exact ring_tiling size (by decide) hs
  have hx : exchange (n := 1) ![N] 2 = exchange (n := 1) (wave N).np (wave N).h := by rw [hh]; rfl
  rw [hx]
  refine C93_tiling_rk hP hM (Nat.succ_pos k) rfl hnew hold hI hcl ht ?_ m ms ?_
  · intro i c hc
    rw [Subsingleton.elim i 0] at hc
    simp [wave, Ex.cds, phi] at hc
    rw [hc]; rfl
  · intro b i x hx
    rw [Subsingleton.elim i 0]
    have h1 : atStartMB (fun _ => I) pts (fun b => ![size b]) (wave N).h (wave N).sol (fun _ f => f) (waveBlocks N niter size) ms = ms := by
      unfold atStartMB
      rw [hmet, hoth]
      simp [Alg.sortByOrder, Alg.placedAt, Alg.calls, Alg.effect]
    have h2 : atStart I pts (wave N).sol (exchange (wave N).np (wave N).h) (waveBare N niter) m = m := by
      simp [atStart, waveBare, Setup.item, Alg.others, Alg.sortByOrder, Alg.placedAt, Alg.calls, Alg.effect]
    rw [h1, h2]
    exact hstart b x (hx 0)

/-- Three blocks of 40, 60 and 28 points. -/
example {pts : Ranges.Kernel 1 → List (P 1)} (hp : Enumerates pts) {I : Interp 1} {delta : Fin 1 → ℝ} (hI : IsCentral (wave 128) I delta) (hnew : I.table "rknew" = [2/3, 5/12, 3/5])
    (hold : I.table "rkold" = [1/4, 3/20, 3/5]) (m : Mem 1) :
    let size : Fin 3 → ℤ := ![40, 60, 28]
    ∃ prg prgs, Alg.generate (waveBare (∑ b, size b) 1000) = .ok prg ∧ Alg.generateMB (waveBlocks (∑ b, size b) 1000 size) = .ok prgs ∧
      SameResults (wave (∑ b, size b)) I pts (exchange ![∑ b, size b] 2) (fun b => ![size b]) (ringOff size) (fun _ f => f) prg prgs m fun b a x => m a (x + ringOff size b) :=
  C93_wave 1000 ![40, 60, 28] (by decide) hp hI hnew hold m _ fun _ _ _ => rfl

/-- Four blocks in two directions, of different sizes. -/
example : Tiling ![8, 6] 2 ![![5, 2], ![3, 2], ![5, 4], ![3, 4]] ![![0, 0], ![5, 0], ![0, 2], ![5, 2]] ![![1, 2], ![0, 3], ![3, 0], ![2, 1]] ![![1, 2], ![0, 3], ![3, 0], ![2, 1]] where
  thick := by decide
  inside := by decide
  follows := by decide
  beside := by decide
  back := by decide
  forth := by decide

end OpenSBLI.Sim
