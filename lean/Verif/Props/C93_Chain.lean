import Verif.Props.C93_Wave

/-!
# C93: chains of blocks between boundaries
-/
namespace OpenSBLI.Sim
open MultiBlock (Link nextTo InFace InHalo across)

variable {n k : ℕ}

/-- The interfaces of a chain: every block but the first is joined to the one before it, every block but the last to the one after it. -/
def chainLinks (b : Fin (k + 1)) : List (Link 1 (k + 1)) :=
  (if b = 0 then [] else [nextTo b (b - 1) 0 false]) ++ if b = Fin.last k then [] else [nextTo b (b + 1) 0 true]

/-- Boundary conditions at the ends of `[0, N)`: `left` gives values at negative points, `right` at points `N + j` from an array beginning at `N`. -/
noncomputable def endConditions (left right : Sol 1 n → Sol 1 n) (N : ℤ) : Sol 1 n → Sol 1 n := fun q i x =>
  if x 0 < 0 then left q i x else if N ≤ x 0 then right (fun i x => q i (x + ![N])) i (x - ![N]) else q i x

/-- The conditions of the blocks of a chain: the first one has the left end, the last one the right end, a single block both. -/
noncomputable def chainConditions (left right : Sol 1 n → Sol 1 n) (size : Fin (k + 1) → ℤ) (b : Fin (k + 1)) : Sol 1 n → Sol 1 n := fun f i x =>
  if b = 0 ∧ x 0 < 0 then left f i x else if b = Fin.last k ∧ size b ≤ x 0 then right (fun i x => f i (x + ![size b])) i (x - ![size b]) else f i x

theorem ring_next (size : Fin (k + 1) → ℤ) (b : Fin (k + 1)) (hb : b ≠ Fin.last k) : ringOff size (b + 1) 0 = ringOff size b 0 + size b := by
  have h1 : Finset.Iio (b + 1) = insert b (Finset.Iio b) := by
    have hlt : b.val + 1 < k + 1 := by
      have : b.val ≠ k := fun e => hb (Fin.ext e)
      omega
    ext c
    simp only [Finset.mem_Iio, Finset.mem_insert, Fin.lt_def, Fin.ext_iff, Fin.val_add_one_of_lt (Fin.lt_last_iff_ne_last.2 hb)]
    omega
  change ∑ c ∈ Finset.Iio (b + 1), size c = (∑ c ∈ Finset.Iio b, size c) + size b
  rw [h1, Finset.sum_insert (by simp), add_comm]

theorem ring_first (size : Fin (k + 1) → ℤ) : ringOff size 0 = 0 := by
  funext d
  rw [Subsingleton.elim d 0]
  change ∑ c ∈ Finset.Iio (0 : Fin (k + 1)), size c = 0
  have : Finset.Iio (0 : Fin (k + 1)) = ∅ := by ext c; simp
  rw [this, Finset.sum_empty]

theorem ring_end (size : Fin (k + 1) → ℤ) : ringOff size (Fin.last k) 0 + size (Fin.last k) = ∑ c, size c := by
  have h2 : insert (Fin.last k) (Finset.Iio (Fin.last k)) = (Finset.univ : Finset (Fin (k + 1))) := by
    ext c
    simp only [Finset.mem_insert, Finset.mem_Iio, Finset.mem_univ, iff_true]
    exact (Fin.le_last c).eq_or_lt
  change (∑ c ∈ Finset.Iio (Fin.last k), size c) + size (Fin.last k) = _
  rw [← h2, Finset.sum_insert (by simp), add_comm]

theorem pred_ne_last {b : Fin (k + 1)} (hb : b ≠ 0) : b - 1 ≠ Fin.last k := fun e => hb (by rw [← sub_add_cancel b 1, e, Fin.last_add_one])

theorem mem_chainLinks (b : Fin (k + 1)) (l : Link 1 (k + 1)) : l ∈ chainLinks b ↔ b ≠ 0 ∧ l = nextTo b (b - 1) 0 false ∨ b ≠ Fin.last k ∧ l = nextTo b (b + 1) 0 true := by
  by_cases h1 : b = 0 <;> by_cases h2 : b = Fin.last k <;> simp [chainLinks, h1, h2]

theorem succ_ne_zero {b : Fin (k + 1)} (hb : b ≠ Fin.last k) : b + 1 ≠ 0 := fun e => hb (add_right_cancel (e.trans (Fin.last_add_one k).symm))

/-- The outer points of the blocks of a chain. -/
def chainOuter (size : Fin (k + 1) → ℤ) (b : Fin (k + 1)) (y : P 1) : Prop := b = 0 ∧ y 0 < 0 ∨ b = Fin.last k ∧ size b ≤ y 0

section
variable {left right : Sol 1 n → Sol 1 n} {size : Fin (k + 1) → ℤ} {h : ℤ}

theorem grid1 {N : ℤ} {x : P 1} : Grid ![N] x ↔ 0 ≤ x 0 ∧ x 0 < N := ⟨fun h => h 0, fun h d => by rw [Subsingleton.elim d 0]; exact h⟩

/-- Chains split an interval, whatever the conditions at its ends, as long as they read the blocks at the ends only. -/
theorem chain_splits (hh : 0 ≤ h) (hs : ∀ b, h ≤ size b) (hl : ∀ f g : Sol 1 n, (∀ i x, 0 ≤ x 0 ∧ x 0 < size 0 → f i x = g i x) → ∀ i x, x 0 < 0 → left f i x = left g i x)
    (hr : ∀ f g : Sol 1 n, (∀ i x, -size (Fin.last k) ≤ x 0 ∧ x 0 < 0 → f i x = g i x) → ∀ i x, 0 ≤ x 0 → right f i x = right g i x) :
    Splits ![∑ b, size b] h (endConditions left right (∑ b, size b)) (fun b => ![size b]) (ringOff size) (chainConditions left right size) chainLinks (chainOuter size) := by
  have h0 : ∀ b, 0 ≤ size b := fun b => hh.trans (hs b)
  have hin : ∀ b, 0 ≤ ringOff size b 0 ∧ ringOff size b 0 + size b ≤ ∑ c, size c := fun b => by
    refine ⟨(Finset.sum_nonneg fun c _ => h0 c : 0 ≤ ∑ c ∈ Finset.Iio b, size c), ?_⟩
    change (∑ c ∈ Finset.Iio b, size c) + size b ≤ ∑ c, size c
    rw [add_comm, ← Finset.sum_insert (by simp : b ∉ Finset.Iio b)]
    exact Finset.sum_le_sum_of_subset_of_nonneg (Finset.subset_univ _) fun c _ _ => h0 c
  refine ⟨?_, ?_, ?_, ?_, ?_, ?_, ?_, ?_, ?_⟩
  · intro b x hx
    have := grid1.1 hx; have := hin b
    refine grid1.2 ?_
    simp only [Pi.add_apply]; omega
  · intro b d; rw [Subsingleton.elim d 0]; exact h0 b
  · intro b l hl
    rcases (mem_chainLinks b l).1 hl with ⟨_, rfl⟩ | ⟨_, rfl⟩ <;> rfl
  · intro b l hl
    exact ⟨by rw [Subsingleton.elim l.direction 0]; exact hs b, fun d hd => absurd (Subsingleton.elim d _) hd⟩
  · rw [List.map_flatMap, List.nodup_flatMap]
    refine ⟨fun b _ => ?_, (List.nodup_finRange _).imp fun {b b'} hne => ?_⟩
    · unfold chainLinks
      split <;> split <;> simp [nextTo]
    · intro x hx hx'
      obtain ⟨l, hl, rfl⟩ := List.mem_map.1 hx
      obtain ⟨l', hl', e⟩ := List.mem_map.1 hx'
      rcases (mem_chainLinks b l).1 hl with ⟨_, rfl⟩ | ⟨_, rfl⟩ <;> rcases (mem_chainLinks b' l').1 hl' with ⟨_, rfl⟩ | ⟨_, rfl⟩ <;> simp [nextTo] at e
      · exact hne e.symm
      · exact hne e.symm
  · intro b l hl x hx f i
    rcases (mem_chainLinks b l).1 hl with ⟨hb, rfl⟩ | ⟨hb, rfl⟩
    · have h2 : size (b - 1) ≤ x 0 := by simpa [nextTo, InHalo] using hx.1.2
      have := h0 (b - 1)
      change chainConditions left right size (b - 1) f i x = f i x
      rw [chainConditions, if_neg fun h => by omega, if_neg fun h => pred_ne_last hb h.1]
    · have h2 : x 0 < 0 := by simpa [nextTo, InHalo] using hx.1.2
      have := h0 (b + 1)
      change chainConditions left right size (b + 1) f i x = f i x
      rw [chainConditions, if_neg fun h => succ_ne_zero hb h.1, if_neg fun h => by omega]
  · intro b y ho c l hl e hx
    rcases (mem_chainLinks c l).1 hl with ⟨hb, rfl⟩ | ⟨hb, rfl⟩
    · have e : c - 1 = b := e
      subst e
      have h2 : size (c - 1) ≤ y 0 := by simpa [nextTo, InHalo] using hx.2
      have := h0 (c - 1)
      rcases ho with ⟨_, ho⟩ | ⟨ho, _⟩
      · omega
      · exact pred_ne_last hb ho
    · have e : c + 1 = b := e
      subst e
      have h2 : y 0 < 0 := by simpa [nextTo, InHalo] using hx.2
      have := h0 (c + 1)
      rcases ho with ⟨ho, _⟩ | ⟨_, ho⟩
      · exact succ_ne_zero hb ho
      · omega
  · intro b l hl x hx q i
    congr 1
    funext d
    rw [Subsingleton.elim d 0]
    rcases (mem_chainLinks b l).1 hl with ⟨hb, rfl⟩ | ⟨hb, rfl⟩
    · have := ring_next size (b - 1) (pred_ne_last hb)
      rw [sub_add_cancel] at this
      simp [nextTo, across]
      omega
    · have := ring_next size b hb
      simp [nextTo, across]
      omega
  · intro b f q hf y hy i
    have hb := hin b
    rcases hy with hy | ⟨rfl, hy⟩ | ⟨rfl, hy⟩
    · have hy' := grid1.1 hy
      rw [chainConditions, if_neg fun h => by omega, if_neg fun h => by omega, endConditions, if_neg (by simp only [Pi.add_apply]; omega), if_neg (by simp only [Pi.add_apply]; omega)]
      exact hf i y hy
    · rw [chainConditions, if_pos ⟨rfl, hy⟩, endConditions, ring_first, add_zero, if_pos hy]
      refine hl _ _ (fun i x hx => ?_) i y hy
      have := hf i x (grid1.2 hx)
      rwa [ring_first, add_zero] at this
    · have he := ring_end size
      have h1 := h0 (Fin.last k)
      rw [chainConditions, if_neg fun h => by omega, if_pos ⟨rfl, hy⟩, endConditions, if_neg (by simp only [Pi.add_apply]; omega), if_pos (by simp only [Pi.add_apply]; omega)]
      have e1 : y + ringOff size (Fin.last k) - ![∑ b, size b] = y - ![size (Fin.last k)] := by
        funext d
        rw [Subsingleton.elim d 0]
        simp
        omega
      rw [e1]
      refine hr _ _ (fun i x hx => ?_) i _ (by simpa using hy)
      rw [hf i (x + ![size (Fin.last k)]) (grid1.2 (by
        rw [Pi.add_apply]
        change 0 ≤ x 0 + size (Fin.last k) ∧ x 0 + size (Fin.last k) < size (Fin.last k)
        omega))]
      congr 1
      funext d
      rw [Subsingleton.elim d 0]
      change x 0 + size (Fin.last k) + ringOff size (Fin.last k) 0 = x 0 + ∑ b, size b
      omega

/-- Everything within the halos is set properly. -/
theorem chain_reached (e : Ex 1) (hc : ∀ c ∈ e.cds, c.arg.cds = []) (b : Fin (k + 1)) (x y : P 1) (hx : Grid ![size b] x) (hr : e.reads h x y) :
    Reached h (fun b => ![size b]) chainLinks (chainOuter size) b y := by
  have hx' := grid1.1 hx
  have hy : |y 0 - x 0| ≤ h ∨ y = x := by
    rcases reads_near h e x y hc hr with rfl | ⟨d, j, hj, rfl⟩
    · exact .inr rfl
    · left
      rw [Subsingleton.elim d 0]
      simpa [shift] using hj
  rcases hy with hy | rfl
  swap
  · exact .inl hx
  rw [abs_le] at hy
  have hrange : ∀ d : Fin 1, -h ≤ y d ∧ y d < ![size b] d + h := fun d => by
    rw [Subsingleton.elim d 0]
    change -h ≤ y 0 ∧ y 0 < size b + h
    omega
  by_cases h1 : y 0 < 0
  · by_cases hb : b = 0
    · exact .inr (.inr (.inl ⟨hb, h1⟩))
    · refine .inr (.inl ⟨b - 1, nextTo (b - 1) (b - 1 + 1) 0 true, (mem_chainLinks _ _).2 (.inr ⟨pred_ne_last hb, rfl⟩), sub_add_cancel b 1, ⟨hrange, ?_⟩, fun d hd => absurd (Subsingleton.elim d _) hd⟩)
      simpa [nextTo] using h1
  · by_cases h2 : size b ≤ y 0
    · by_cases hb : b = Fin.last k
      · exact .inr (.inr (.inr ⟨hb, h2⟩))
      · refine .inr (.inl ⟨b + 1, nextTo (b + 1) (b + 1 - 1) 0 false, (mem_chainLinks _ _).2 (.inl ⟨succ_ne_zero hb, rfl⟩), add_sub_cancel_right b 1, ⟨hrange, ?_⟩, fun d hd => absurd (Subsingleton.elim d _) hd⟩)
        simpa [nextTo] using h2
    · exact .inl (grid1.2 (by omega))

variable {S : Setup 1 n} {I : Interp 1} {delta : Fin 1 → ℝ} {pts : Ranges.Kernel 1 → List (P 1)} {inp : Alg.Input (Call 1)} {prg : List (Alg.Node (Call 1))}
  {blocks : List (Alg.BlockMB (CallMB 1 (k + 1)))} {prgs : List (Alg.Node (CallMB 1 (k + 1)))}

/-- **C93, intervals between boundaries.** Equations without derivatives of derivatives on an interval with boundary conditions at both ends, and on a chain of blocks, the first of which has the condition of the left end and the last
one that of the right end: the same values at every point of the grid, at the end and in every numbered file. The conditions may be anything which reads only the block at its end. -/
theorem C93_chain_rk (hP : Program S .rk I pts inp prg) (hM : ProgramMB S (fun b => ![size b]) .rk (fun _ => I) pts chainLinks inp.stages inp.niter blocks prgs) (hst : inp.stages = 3)
    (hnew : I.table "rknew" = [2/3, 5/12, 3/5]) (hold : I.table "rkold" = [1/4, 3/20, 3/5]) (hI : IsCentral S I delta) (hcl : Closed S) (hnp : S.np = ![∑ b, size b]) (hs : ∀ b, S.h ≤ size b)
    (hl : ∀ f g : Sol 1 n, (∀ i x, 0 ≤ x 0 ∧ x 0 < size 0 → f i x = g i x) → ∀ i x, x 0 < 0 → left f i x = left g i x)
    (hr : ∀ f g : Sol 1 n, (∀ i x, -size (Fin.last k) ≤ x 0 ∧ x 0 < 0 → f i x = g i x) → ∀ i x, 0 ≤ x 0 → right f i x = right g i x)
    (hflat : ∀ i, ∀ c ∈ (S.rhs i).cds, c.arg.cds = []) (m : Mem 1) (ms : Fin (k + 1) → Mem 1)
    (hstart : ∀ b i x, Grid ![size b] x → atStartMB (fun _ => I) pts (fun b => ![size b]) S.h S.sol (chainConditions left right size) blocks ms b (.data (S.sol i)) x =
      atStart I pts S.sol (endConditions left right (∑ b, size b)) inp m (.data (S.sol i)) (x + ringOff size b)) :
    SameResults S I pts (endConditions left right (∑ b, size b)) (fun b => ![size b]) (ringOff size) (chainConditions left right size) prg prgs m ms :=
  C93_split_rk_partial hP hM (Nat.succ_pos k) hst hnew hold hI hcl (hnp ▸ chain_splits S.h_nonneg hs hl hr) (fun b i x y hx hy => chain_reached _ (hflat i) b x y hx hy) m ms hstart

/-- **C93, intervals between boundaries, low storage schemes.** -/
theorem C93_chain_ls (hP : Program S .lowStorage I pts inp prg) (hM : ProgramMB S (fun b => ![size b]) .lowStorage (fun _ => I) pts chainLinks inp.stages inp.niter blocks prgs) (A C : List ℝ)
    (hAC : A.length = C.length) (hst : inp.stages = A.length) (hA : I.table "rkA" = A) (hC : I.table "rkB" = C) (hA0 : A.head? = some 0) (hI : IsCentral S I delta) (hcl : Closed S)
    (hnp : S.np = ![∑ b, size b]) (hs : ∀ b, S.h ≤ size b)
    (hl : ∀ f g : Sol 1 n, (∀ i x, 0 ≤ x 0 ∧ x 0 < size 0 → f i x = g i x) → ∀ i x, x 0 < 0 → left f i x = left g i x)
    (hr : ∀ f g : Sol 1 n, (∀ i x, -size (Fin.last k) ≤ x 0 ∧ x 0 < 0 → f i x = g i x) → ∀ i x, 0 ≤ x 0 → right f i x = right g i x)
    (hflat : ∀ i, ∀ c ∈ (S.rhs i).cds, c.arg.cds = []) (m : Mem 1) (ms : Fin (k + 1) → Mem 1)
    (hstart : ∀ b i x, Grid ![size b] x → atStartMB (fun _ => I) pts (fun b => ![size b]) S.h S.sol (chainConditions left right size) blocks ms b (.data (S.sol i)) x =
      atStart I pts S.sol (endConditions left right (∑ b, size b)) inp m (.data (S.sol i)) (x + ringOff size b)) :
    SameResults S I pts (endConditions left right (∑ b, size b)) (fun b => ![size b]) (ringOff size) (chainConditions left right size) prg prgs m ms :=
  C93_split_ls_partial hP hM (Nat.succ_pos k) A C hAC hst hA hC hA0 hI hcl (hnp ▸ chain_splits S.h_nonneg hs hl hr) (fun b i x y hx hy => chain_reached _ (hflat i) b x y hx hy) m ms hstart

end

/-! ## The wave equation between boundaries -/

/-- A fixed value at the left end, the value of the last point at the right end. -/
def inflow (v : ℝ) : Sol 1 1 → Sol 1 1 := fun _ _ _ => v
def outflow : Sol 1 1 → Sol 1 1 := fun q i _ => q i ![-1]

/-- The program on a chain of blocks. -/
noncomputable def chainBlocks (N niter : ℤ) (size : Fin (k + 1) → ℤ) : List (Alg.BlockMB (CallMB 1 (k + 1))) :=
  (List.finRange (k + 1)).map fun b => ⟨[⟨"RungeKutta", 3, niter, [((wave N).sized ![size b]).itemMB .rk b (chainLinks b) (wave_spatial (size b)).choose]⟩], [Alg.IO.new 0 true none 100]⟩

/-- **C93 for the wave equation between an inflow and an outflow**, on a chain of any number of blocks. -/
theorem C93_wave_chain (v : ℝ) (niter : ℤ) (size : Fin (k + 1) → ℤ) (hs : ∀ b, 2 ≤ size b) {pts : Ranges.Kernel 1 → List (P 1)} (hp : Enumerates pts) {I : Interp 1} {delta : Fin 1 → ℝ}
    (hI : IsCentral (wave (∑ b, size b)) I delta) (hnew : I.table "rknew" = [2/3, 5/12, 3/5]) (hold : I.table "rkold" = [1/4, 3/20, 3/5]) (m : Mem 1) (ms : Fin (k + 1) → Mem 1)
    (hstart : ∀ b x, 0 ≤ x 0 ∧ x 0 < size b → ms b (.data "phi") x = m (.data "phi") (x + ringOff size b)) :
    ∃ prg prgs, Alg.generate (waveBare (∑ b, size b) niter) = .ok prg ∧ Alg.generateMB (chainBlocks (∑ b, size b) niter size) = .ok prgs ∧
      SameResults (wave (∑ b, size b)) I pts (endConditions (inflow v) outflow (∑ b, size b)) (fun b => ![size b]) (ringOff size) (chainConditions (inflow v) outflow size) prg prgs m ms := by
  set N := ∑ b, size b with hN
  have hg : ∃ prg, Alg.generate (waveBare N niter) = .ok prg := by
    simp [Alg.generate, waveBare, Setup.item, Alg.Acc.add, Alg.sortByOrder]
    exact ⟨_, rfl⟩
  obtain ⟨prg, hg⟩ := hg
  obtain ⟨prgs, hgs⟩ := generateMB_ok (wave N) (fun b => ![size b]) .rk chainLinks (fun b => (wave_spatial (size b)).choose) "RungeKutta" 3 niter (fun _ => [Alg.IO.new 0 true none 100]) (Nat.succ_pos k)
  refine ⟨prg, prgs, hg, hgs, ?_⟩
  have hP : Program (wave N) .rk I pts (waveBare N niter) prg := by
    refine ⟨wave_valid N, hp, central_local hI, ⟨[], [], _, (wave_spatial N).choose_spec, rfl, by simp, by simp⟩, ?_, hg⟩
    intro o places k h
    simp [waveBare, Setup.item] at h
  have hM : ProgramMB (wave N) (fun b => ![size b]) .rk (fun _ => I) pts chainLinks (waveBare N niter).stages (waveBare N niter).niter (chainBlocks N niter size) prgs := by
    refine ⟨wave_valid N, hp, fun b => central_local (S := (wave N).sized ![size b]) hI, ⟨fun b => (wave_spatial (size b)).choose, fun b => (wave_spatial (size b)).choose_spec, "RungeKutta", fun _ => [], fun _ => [],
      fun _ => [Alg.IO.new 0 true none 100], by simp, rfl⟩, ?_, hgs⟩
    intro o places k h
    simp [Alg.othersMB, chainBlocks, Setup.itemMB] at h
  have hmet : Alg.metricsMB (chainBlocks N niter size) = [] := by simp [Alg.metricsMB, chainBlocks, Setup.itemMB]
  have hoth : Alg.othersMB (chainBlocks N niter size) = [] := by simp [Alg.othersMB, chainBlocks, Setup.itemMB]
  have hcl : Closed (wave N) := by
    rintro s (⟨i, h⟩ | ⟨t, e, he, h⟩)
    · rw [Subsingleton.elim i 0] at h
      simp [wave, Ex.datas, Ex.arrs, phi] at h
      exact .inr ⟨0, by simpa [wave] using h⟩
    · simp [Setup.relation, wave] at he
  have hh : (wave N).h = 2 := by simp [Setup.h, wave]
  refine C93_chain_rk (left := inflow v) (right := outflow) hP hM rfl hnew hold hI hcl rfl (by rw [hh]; exact hs) (fun _ _ _ _ _ _ => rfl) (fun f g h i x _ => h i _ ?_) ?_ m ms ?_
  · have := hs (Fin.last k)
    simp
    omega
  · intro i c hc
    rw [Subsingleton.elim i 0] at hc
    simp [wave, Ex.cds, phi] at hc
    rw [hc]; rfl
  · intro b i x hx
    rw [Subsingleton.elim i 0]
    have h1 : atStartMB (fun _ => I) pts (fun b => ![size b]) (wave N).h (wave N).sol (chainConditions (inflow v) outflow size) (chainBlocks N niter size) ms = ms := by
      unfold atStartMB
      rw [hmet, hoth]
      simp [Alg.sortByOrder, Alg.placedAt, Alg.calls, Alg.effect]
    have h2 : atStart I pts (wave N).sol (endConditions (inflow v) outflow N) (waveBare N niter) m = m := by
      simp [atStart, waveBare, Setup.item, Alg.others, Alg.sortByOrder, Alg.placedAt, Alg.calls, Alg.effect]
    rw [h1, h2]
    exact hstart b x (hx 0)

end OpenSBLI.Sim
