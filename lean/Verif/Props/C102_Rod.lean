import Verif.Props.C91_Examples
import Verif.Props.C102_Heat

/-!
# C102: a rod with insulated ends

Diffusion between two symmetry planes. A solution on the rod is half of one on a periodic interval twice as long, minus the two points at the ends which are their own mirror images; the printed conditions make the
program do to the half what it would do to the whole.
-/
namespace OpenSBLI.Bc
open OpenSBLI.CCode OpenSBLI.Sim OpenSBLI.Reg OpenSBLI.Order Spec

/-- The point of the rod a point of the periodic interval is a copy of. -/
def foldIdx (N j : ℤ) : ℤ := max 0 (min (N - 1) (if j < 0 then -j else if j < N then j else 2 * (N - 1) - j))

theorem foldIdx_of {N j : ℤ} (h0 : 0 ≤ j) (h1 : j < N) : foldIdx N j = j := by
  unfold foldIdx; split_ifs <;> omega

/-- The same as a point of the grid. -/
def foldPt {N : ℤ} (hN : 2 ≤ N) (j : ℤ) : GP (D := 1) ![N] := ⟨fun _ => foldIdx N j, fun d => by
  rw [Subsingleton.elim d 0]
  show 0 ≤ foldIdx N j ∧ foldIdx N j < N
  unfold foldIdx
  omega⟩

theorem foldPt_self {N : ℤ} (hN : 2 ≤ N) (x : GP (D := 1) ![N]) : foldPt hN (x.1 0) = x := by
  have := x.2 0
  simp only [Matrix.cons_val_zero] at this
  apply Subtype.ext
  funext d
  rw [Subsingleton.elim d 0]
  exact foldIdx_of this.1 this.2

/-- Second differences on the rod. -/
noncomputable def rodWalk {N : ℤ} (hN : 2 ≤ N) (κ δ : ℝ) : GridSol (D := 1) ![N] 1 →ₗ[ℝ] GridSol (D := 1) ![N] 1 where
  toFun w := fun i x => κ * ((w i (foldPt hN (x.1 0 + 1)) - 2 * w i x + w i (foldPt hN (x.1 0 - 1))) / δ ^ 2)
  map_add' v w := by
    funext i x
    simp only [Pi.add_apply]
    ring
  map_smul' c w := by
    funext i x
    simp only [Pi.smul_apply, smul_eq_mul, RingHom.id_apply]
    ring

theorem rodWalk_apply {N : ℤ} (hN : 2 ≤ N) (κ δ : ℝ) (w : GridSol (D := 1) ![N] 1) (i : Fin 1) (x : GP (D := 1) ![N]) :
    rodWalk hN κ δ w i x = κ * ((w i (foldPt hN (x.1 0 + 1)) - 2 * w i x + w i (foldPt hN (x.1 0 - 1))) / δ ^ 2) := rfl

/-- Mirror images. -/
def unfolded {N : ℤ} (hN : 2 ≤ N) : GridSol (D := 1) ![N] 1 →ₗ[ℝ] GridSol (D := 1) ![2 * (N - 1)] 1 where
  toFun w := fun i y => w i (foldPt hN (y.1 0))
  map_add' _ _ := rfl
  map_smul' _ _ := rfl

theorem unfolded_apply {N : ℤ} (hN : 2 ≤ N) (w : GridSol (D := 1) ![N] 1) (i : Fin 1) (y : GP (D := 1) ![2 * (N - 1)]) : unfolded hN w i y = w i (foldPt hN (y.1 0)) := rfl

theorem walk_unfolded {N : ℤ} (hN : 2 ≤ N) (κ δ : ℝ) (w : GridSol (D := 1) ![N] 1) :
    walk ![2 * (N - 1)] 2 (fun _ _ => 0) (fun _ _ => κ) (fun _ => δ) (unfolded hN w) = unfolded hN (rodWalk hN κ δ w) := by
  funext i y
  have hy := y.2 0
  simp only [Matrix.cons_val_zero] at hy
  rw [walk_two, Fin.sum_univ_one, unfolded_apply, unfolded_apply, unfolded_apply, unfolded_apply, rodWalk_apply, zero_mul, zero_add]
  have hm : ∀ p : ℤ, (move 0 p y).1 0 = (y.1 0 + p) % (2 * (N - 1)) := fun p => Function.update_self (β := fun _ : Fin 1 => ℤ) 0 _ y.1
  have m1 : (y.1 0 + 1) % (2 * (N - 1)) = if y.1 0 + 1 = 2 * (N - 1) then 0 else y.1 0 + 1 := by
    split
    · rename_i h; rw [h, Int.emod_self]
    · exact Int.emod_eq_of_lt (by omega) (by omega)
  have m2 : (y.1 0 + -1) % (2 * (N - 1)) = if y.1 0 = 0 then 2 * (N - 1) - 1 else y.1 0 - 1 := by
    split
    · rename_i h
      rw [h, ← Int.add_emod_right, Int.emod_eq_of_lt (by omega) (by omega)]
      ring
    · exact Int.emod_eq_of_lt (by omega) (by omega)
  rw [hm, hm, m1, m2]
  have hf : ∀ a b : ℤ, foldIdx N a = foldIdx N b → foldPt hN a = foldPt hN b := fun a b h => Subtype.ext (funext fun _ => h)
  have hv : (foldPt hN (y.1 0)).1 0 = foldIdx N (y.1 0) := rfl
  rw [hv]
  by_cases hb : y.1 0 < N
  · rw [foldIdx_of hy.1 hb]
    have e1 : foldPt hN (if y.1 0 + 1 = 2 * (N - 1) then 0 else y.1 0 + 1) = foldPt hN (y.1 0 + 1) := by
      refine hf _ _ ?_
      unfold foldIdx
      split_ifs <;> omega
    have e2 : foldPt hN (if y.1 0 = 0 then 2 * (N - 1) - 1 else y.1 0 - 1) = foldPt hN (y.1 0 - 1) := by
      refine hf _ _ ?_
      unfold foldIdx
      split_ifs <;> omega
    rw [e1, e2]
  · have e0 : foldIdx N (y.1 0) = 2 * (N - 1) - y.1 0 := by
      unfold foldIdx
      split_ifs <;> omega
    have e1 : foldPt hN (if y.1 0 + 1 = 2 * (N - 1) then 0 else y.1 0 + 1) = foldPt hN (2 * (N - 1) - y.1 0 - 1) := by
      refine hf _ _ ?_
      unfold foldIdx
      split_ifs <;> omega
    have e2 : foldPt hN (if y.1 0 = 0 then 2 * (N - 1) - 1 else y.1 0 - 1) = foldPt hN (2 * (N - 1) - y.1 0 + 1) := by
      refine hf _ _ ?_
      unfold foldIdx
      split_ifs <;> omega
    rw [e0, e1, e2]
    ring

theorem advance_unfolded {N : ℤ} (hN : 2 ≤ N) (κ δ dt : ℝ) (w : GridSol (D := 1) ![N] 1) :
    unfolded hN (advance (rodWalk hN κ δ) dt w) = advance (walk ![2 * (N - 1)] 2 (fun _ _ => 0) (fun _ _ => κ) (fun _ => δ)) dt (unfolded hN w) := by
  simp only [advance, map_add, map_smul, walk_unfolded]

/-- The conditions at both ends fill the halos from the grid. -/
theorem rod_fills {N : ℤ} (hN : 2 ≤ N) : FillsHalos ![N] 1 (conditions ![Var.aux 0] (rodItems N)) := by
  have hB := rod_conditions N
  have hg : ∀ x : P 1, Grid ![N] x ↔ 0 ≤ x 0 ∧ x 0 < N := fun x => ⟨fun h => by simpa using h 0, fun h d => by rw [Subsingleton.elim d 0]; simpa using h⟩
  have hal : ∀ x : P 1, Allocated ![N] 1 x ↔ -1 ≤ x 0 ∧ x 0 < N + 1 := fun x => ⟨fun h => by simpa using h 0, fun h d => by rw [Subsingleton.elim d 0]; simpa using h⟩
  have hup : ∀ (x : P 1) (k : ℤ), 0 ≤ k → k < N → Grid ![N] (Function.update x 0 k) := fun x k h1 h2 => (hg _).2 (by simpa using ⟨h1, h2⟩)
  refine ⟨fun v i x hx => ?_, fun v i x hx => ?_, fun v v' hv i x hx => ?_⟩ <;> rw [Subsingleton.elim i 0]
  · rw [hg] at hx
    rw [hB, if_neg (by omega), if_neg (by omega)]
  · rw [hal] at hx
    rw [hB, if_neg (by omega), if_neg (by omega)]
  · rw [hal] at hx
    rw [hB, hB]
    split
    · rw [if_neg (by omega), if_neg (by omega), hv 0 _ (hup _ _ (by omega) (by omega))]
    · split
      · rw [hv 0 _ (hup _ _ (by omega) (by omega))]
      · exact hv 0 x ((hg x).2 (by omega))

/-- What the right hand side makes of values on the rod. -/
theorem values_rod {N : ℤ} (hN : 2 ≤ N) {I : Interp 1} {κ δ : ℝ} (hI : IsCentral (heat N) I fun _ => δ) (hM : IsParabolic (heat N) I (fun _ _ => 0) fun _ _ => κ)
    (full : Sol 1 1 → String → P 1 → ℝ) (hfull : ∀ q i, full q ((heat N).sol i) = q i) (q0 : Sol 1 1) :
    (fun u => restrict ![N] fun i x => ((heat N).rhs i).eval I (memOf (full (complete ![N] (conditions ![Var.aux 0] (rodItems N)) q0 u))) x) = rodWalk hN κ δ := by
  funext u i x
  set q := complete ![N] (conditions ![Var.aux 0] (rodItems N)) q0 u with hq
  show ((heat N).rhs i).eval I (memOf (full q)) x.1 = _
  have hx := x.2 0
  simp only [Matrix.cons_val_zero] at hx
  rw [hM, Fin.sum_univ_one, hfull, hI 0 2 (q i) x.1, rodWalk_apply, zero_mul, zero_add]
  have hw := weights2 δ (fun j => q i (Function.update x.1 0 j)) (x.1 0)
  have hval : ∀ j : ℤ, -1 ≤ j → j ≤ N → q i (Function.update x.1 0 j) = u i (foldPt hN j) := by
    intro j j1 j2
    classical
    have hu : ∀ k : ℤ, 0 ≤ k → k < N → foldIdx N j = k → (fun (i : Fin 1) (x : P 1) => if h : Grid ![N] x then u i ⟨x, h⟩ else q0 i x) 0 (Function.update x.1 0 k) = u 0 (foldPt hN j) := by
      intro k k1 k2 e
      have hg : Grid ![N] (Function.update x.1 0 k) := fun d => by
        rw [Subsingleton.elim d 0, Function.update_self]
        exact ⟨k1, k2⟩
      simp only [dif_pos hg]
      refine congrArg (u 0) (Subtype.ext (funext fun d => ?_))
      rw [Subsingleton.elim d 0]
      show Function.update x.1 0 k 0 = foldIdx N j
      rw [Function.update_self, e]
    rw [Subsingleton.elim i 0, hq]
    unfold complete
    rw [rod_conditions, Function.update_self, Function.update_idem, Function.update_idem, if_neg (by omega : ¬ N = 1)]
    split
    · refine hu _ ?_ ?_ ?_ <;> first | omega | (unfold foldIdx; split_ifs <;> omega)
    · split
      · refine hu _ ?_ ?_ ?_ <;> first | omega | (unfold foldIdx; split_ifs <;> omega)
      · refine hu _ ?_ ?_ ?_ <;> first | omega | (unfold foldIdx; split_ifs <;> omega)
  have e0 := hval (x.1 0) (by omega) (by omega)
  rw [foldPt_self hN x] at e0
  simp only [hval (x.1 0 + 1) (by omega) (by omega), hval (x.1 0 - 1) (by omega) (by omega), e0] at hw
  exact congrArg (κ * ·) hw

theorem step_rod {N : ℤ} (hN : 2 ≤ N) {I : Interp 1} {κ δ : ℝ} (hI : IsCentral (heat N) I fun _ => δ) (hM : IsParabolic (heat N) I (fun _ _ => 0) fun _ _ => κ) (dt : ℝ)
    (full : Sol 1 1 → String → P 1 → ℝ) (hfull : ∀ q i, full q ((heat N).sol i) = q i) (s0 : TState 1 1) (k : ℕ) :
    let q := fun k => ((rkStep (heat N).np (fun q i x => ((heat N).rhs i).eval I (memOf (full q)) x) (conditions ![Var.aux 0] (rodItems N)) dt [(2/3, 1/4), (5/12, 3/20), (3/5, 3/5)])^[k] s0).q
    restrict ![N] (q (k + 1)) = advance (rodWalk hN κ δ) dt (restrict ![N] (q k)) := by
  intro q
  let r0 : RK.State (GridSol ![N] 1) := ⟨restrict ![N] s0.q, restrict ![N] s0.q, restrict ![N] s0.q⟩
  have run := fun k => C77_grid_values (np := ![N]) (by decide : (0 : ℤ) ≤ 1) (rod_fills hN) (fun q i x => ((heat N).rhs i).eval I (memOf (full q)) x) dt s0 r0 rfl k
  have hv := values_rod hN hI hM full hfull s0.q
  rw [hv] at run
  have run' : ∀ k, restrict ![N] (q k) = _ := run
  rw [run', run', RK.run_succ', RK.C03_linear_amplification]
  rfl

/-- What the printed program of the rod computes. -/
theorem rod_run {N niter : ℕ} (hN : (2 : ℤ) ≤ N) (inputs : String → ℝ) {pts : Ranges.Kernel 1 → List (P 1)} (hp : Enumerates pts) (a : Arrays 1) :
    ∃ prg a', Alg.generate (heatInput N niter) = .ok prg ∧ (heatWith (rodBcs N) inputs).runText prg pts (Alg.runProgram prg) a = some a' ∧ ∃ w : ℕ → GridSol (D := 1) ![(N : ℤ)] 1,
      w 0 = (fun _ x => a "phi_B0" x.1) ∧ (∀ k, w (k + 1) = advance (rodWalk hN (inputs "kappa") (inputs "Delta0block0")) (inputs "dt") (w k)) ∧
      ∀ x : GP (D := 1) ![(N : ℤ)], a' "phi_B0" x.1 = w niter 0 x := by
  set B := conditions ![Var.aux 0] (rodItems N) with hB
  obtain ⟨prg, hP⟩ := heat_program (bcs := rodBcs N) hp inputs N niter
  have hc := heat_inputs inputs (rod_proper inputs N) N niter hP
  have c1 := hc "dt" (by simp)
  have c2 := hc "kappa" (by simp)
  have c3 := hc "Delta0block0" (by simp)
  set T := heatWith (rodBcs N) inputs with hT
  have hstart : T.startState (heat N) prg pts B (heatInput N niter) a = fun A => a (T.names A) := by
    simp [Text.startState, atStart, heatInput, Alg.others, Setup.item, Alg.sortByOrder, Alg.placedAt, Alg.calls, Alg.effect]
  obtain ⟨full, hfull⟩ := program_full hP fun s => T.startState (heat N) prg pts B (heatInput N niter) a (.data s)
  have hI : IsCentral (heat N) (T.meaning (T.const prg) 0) fun _ => inputs "Delta0block0" := by
    have := central_meaning (S := heat N) rfl (heat_open (bcs := rodBcs N) inputs) (T.const prg) 0
    have e : (fun d => T.const prg (T.delta d)) = fun _ : Fin 1 => inputs "Delta0block0" := by
      funext d
      rw [Subsingleton.elim d 0]
      exact c3
    rw [← e]
    exact this
  have hM : IsParabolic (heat N) (T.meaning (T.const prg) 0) (fun _ _ => 0) fun _ _ => inputs "kappa" := by
    intro i f x
    rw [Subsingleton.elim i 0]
    simp only [Fin.sum_univ_one, zero_mul, zero_add]
    change T.const prg "kappa" * _ = _
    rw [c2]
    rfl
  set s0 := stateOf (heat N) (T.startState (heat N) prg pts B (heatInput N niter) a) with hs0
  have steps := step_rod hN hI hM (inputs "dt") full (fun q i => (hfull q).sol i) s0
  obtain ⟨⟨a', r1, r2⟩, -⟩ := C85_rk_partial (heat_suits inputs (rod_proper inputs N) N niter) hP rfl (by simp [heatWith]) (by simp [heatWith]) B a full hfull
  have r2' := r2 0
  refine ⟨prg, a', hP.generated, ?_, fun k => restrict ![(N : ℤ)] ((rkStep (heat N).np (fun q i x => ((heat N).rhs i).eval (T.meaning (T.const prg) 0) (memOf (full q)) x) B (inputs "dt")
    [(2/3, 1/4), (5/12, 3/20), (3/5, 3/5)])^[k] s0).q, ?_, steps, fun x => ?_⟩
  · rw [C91_program (fits (heat_suits inputs (rod_proper inputs N) N niter) hP).1 hp (rod_renders inputs N prg) _ (fun _ h => h)]
    exact r1
  · funext i y
    rw [Subsingleton.elim i 0]
    show s0.q 0 y.1 = _
    rw [hs0, hstart]
    rfl
  · have := congrFun r2' x.1
    rw [c1] at this
    exact this

/-- **C102.** The complete printed program of diffusion in a rod with insulated ends, with its kernels for the symmetry conditions at both ends, converges at every grid point to any smooth solution with zero slope at both ends
(continued by its mirror images: even, with period 2), with one constant for all numbers of points and all time steps up to half the square of the spacing over the diffusivity. Nothing is assumed about the program or its
boundary conditions. -/
theorem C102_rod (κ time : ℝ) (U : Fin 1 → ℝ → E 1 → ℝ) (hU : SolvesParabolic (fun _ _ => 0) (fun _ _ => κ) (fun _ => 2) U) (heven : ∀ i t x, U i t (-x) = U i t x) :
    ∃ C : ℝ, ∀ (N niter : ℕ) (inputs : String → ℝ), 2 ≤ N → inputs "kappa" = κ → inputs "Delta0block0" = 1 / (N - 1) → 0 ≤ κ → 0 ≤ inputs "dt" → inputs "dt" ≤ 1 → inputs "dt" * κ ≤ (1 / (N - 1)) ^ 2 / 2 →
      niter * inputs "dt" ≤ time → ∀ (pts : Ranges.Kernel 1 → List (P 1)), Enumerates pts → ∀ a : Arrays 1, (∀ x, Grid ![(N : ℤ)] x → a "phi_B0" x = U 0 0 fun d => x d * (1 / (N - 1))) →
      ∃ prg a', Alg.generate (heatInput N niter) = .ok prg ∧ (heatWith (rodBcs N) inputs).runText prg pts (Alg.runProgram prg) a = some a' ∧
        ∀ x, Grid ![(N : ℤ)] x → |a' "phi_B0" x - U 0 (niter * inputs "dt") fun d => x d * (1 / (N - 1))| ≤ C * (inputs "dt" ^ 3 + (1 / (N - 1)) ^ 2) := by
  obtain ⟨C, hC0, hC⟩ := p_local_error (m := 1) le_rfl (fun _ _ => 0) (fun _ _ => κ) (fun _ => 2) (fun _ => two_pos) U hU time
  refine ⟨time * C, ?_⟩
  intro N niter inputs hN' hκ hδ hκ0 hdt0 hdt1 hlim htime pts hp a ha
  have hN : (2 : ℤ) ≤ N := by exact_mod_cast hN'
  have hNR : (2 : ℝ) ≤ N := by exact_mod_cast hN'
  set δ : ℝ := 1 / (N - 1) with hδd
  have δ0 : 0 < δ := by rw [hδd]; exact div_pos one_pos (by linarith)
  have δ1 : δ ≤ 1 := by rw [hδd, div_le_one (by linarith)]; linarith
  have hbox : ((2 * ((N : ℤ) - 1) : ℤ) : ℝ) * δ = 2 := by
    rw [hδd]
    push_cast
    have : (N : ℝ) - 1 ≠ 0 := by linarith
    field_simp
  obtain ⟨prg, a', g1, g2, w, w0, w1, w2⟩ := rod_run (niter := niter) hN inputs hp a
  rw [hκ, hδ] at w1
  refine ⟨prg, a', g1, g2, ?_⟩
  intro x hx
  set np2 : Fin 1 → ℤ := ![2 * ((N : ℤ) - 1)] with hnp2
  set v : ℕ → GridSol np2 1 := fun k => sampled np2 0 (fun _ => δ) fun i => U i (k * inputs "dt") with hv
  have hdiff : Diffusive (D := 1) (n := 1) (fun _ _ => 0) (fun _ _ => κ) (fun _ => δ) (inputs "dt") := by
    refine ⟨fun d i => by simpa using hκ0, fun i => ?_⟩
    rw [Fin.sum_univ_one]
    have h2 : (0 : ℝ) < δ ^ 2 := by positivity
    rw [mul_div_assoc', div_le_one h2]
    linarith
  -- the sampled solution is its own continuation
  have hpos : ∀ y : P 1, pos 0 (fun _ : Fin 1 => δ) y = fun d => y d * δ := by
    intro y
    funext d
    simp [pos]
  have hcopy : ∀ t : ℝ, unfolded hN (fun i x => U i t fun d => x.1 d * δ) = sampled np2 0 (fun _ => δ) fun i => U i t := by
    intro t
    funext i y
    have hy := y.2 0
    simp only [hnp2, Matrix.cons_val_zero] at hy
    rw [unfolded_apply]
    show U i t (fun d => (foldPt hN (y.1 0)).1 d * δ) = U i t (pos 0 (fun _ => δ) y.1)
    rw [hpos]
    by_cases hb : y.1 0 < N
    · congr 1
      funext d
      rw [Subsingleton.elim d 0]
      show ((foldIdx N (y.1 0) : ℤ) : ℝ) * δ = _
      rw [foldIdx_of hy.1 hb]
    · have e0 : foldIdx N (y.1 0) = 2 * ((N : ℤ) - 1) - y.1 0 := by
        unfold foldIdx
        split_ifs <;> omega
      rw [← heven, ← hU.periodic i t (fun _ => 1)]
      congr 1
      funext d
      rw [Subsingleton.elim d 0]
      show -(((foldIdx N (y.1 0) : ℤ) : ℝ) * δ) + ((1 : ℤ) : ℝ) * 2 = _
      rw [e0, Int.cast_sub, sub_mul, hbox]
      push_cast
      ring
  have err := advance_error (fun _ => δ0) hdt0 hdiff (fun k => unfolded hN (w k)) v (C * (inputs "dt" * (inputs "dt" ^ 3 + δ ^ 2))) niter
    (by
      intro k
      rw [w1, advance_unfolded])
    (by
      intro j hj
      have ht : (j : ℝ) * inputs "dt" + inputs "dt" ≤ time := by
        refine le_trans ?_ htime
        have : ((j : ℝ) + 1) ≤ niter := by exact_mod_cast hj
        nlinarith
      have := hC np2 0 (fun _ => δ) δ (inputs "dt") (j * inputs "dt") (fun d => by rw [Subsingleton.elim d 0]; exact hbox) (fun d => ⟨δ0, le_rfl⟩) δ0.le δ1 hdt0 hdt1 (by positivity) ht
      simp only [hv]
      rw [show ((j + 1 : ℕ) : ℝ) * inputs "dt" = j * inputs "dt" + inputs "dt" by push_cast; ring]
      exact this)
    (by
      simp only [hv]
      rw [Nat.cast_zero, zero_mul, ← hcopy]
      rw [w0]
      congr 1
      funext i y
      rw [Subsingleton.elim i 0]
      exact ha y.1 y.2) niter le_rfl 0 ⟨x, fun d => by
        have := hx d
        rw [Subsingleton.elim d 0] at this ⊢
        simp only [hnp2, Matrix.cons_val_zero] at this ⊢
        omega⟩
  have hx0 := hx 0
  simp only [Matrix.cons_val_zero] at hx0
  have e2 : unfolded hN (w niter) 0 ⟨x, fun d => by
        have := hx d
        rw [Subsingleton.elim d 0] at this ⊢
        simp only [hnp2, Matrix.cons_val_zero] at this ⊢
        omega⟩ = a' "phi_B0" x := by
    rw [unfolded_apply]
    rw [w2 ⟨x, hx⟩]
    exact congrArg (w niter 0) (foldPt_self hN ⟨x, hx⟩)
  rw [Pi.sub_apply, Pi.sub_apply, e2] at err
  have e3 : v niter 0 ⟨x, fun d => by
        have := hx d
        rw [Subsingleton.elim d 0] at this ⊢
        simp only [hnp2, Matrix.cons_val_zero] at this ⊢
        omega⟩ = U 0 (niter * inputs "dt") fun d => x d * δ := by
    show U 0 (niter * inputs "dt") (pos 0 (fun _ => δ) x) = _
    rw [hpos]
  rw [e3] at err
  refine err.trans ?_
  have : (niter : ℝ) * (C * (inputs "dt" * (inputs "dt" ^ 3 + δ ^ 2))) = (niter * inputs "dt") * (C * (inputs "dt" ^ 3 + δ ^ 2)) := by ring
  rw [this]
  exact (mul_le_mul_of_nonneg_right htime (by positivity)).trans (le_of_eq (by ring))

/-- The heat in the rod: the points at the ends stand for half a cell each. -/
noncomputable def rodHeat (N : ℕ) (v : P 1 → ℝ) : ℝ := (v ![0] + v ![(N : ℤ) - 1]) / 2 + ∑ j ∈ Finset.range (N - 2), v ![(j : ℤ) + 1]

theorem rodWalk_heat {N : ℕ} (hN : (2 : ℤ) ≤ N) (κ δ : ℝ) (w : GridSol (D := 1) ![(N : ℤ)] 1) (f : ℤ → ℝ) (hf : ∀ j, f j = w 0 (foldPt hN j)) (v : P 1 → ℝ)
    (hv : ∀ x : GP (D := 1) ![(N : ℤ)], v x.1 = rodWalk hN κ δ w 0 x) : rodHeat N v = 0 := by
  have hval : ∀ j : ℤ, 0 ≤ j → j < N → v ![j] = κ * ((f (j + 1) - 2 * f j + f (j - 1)) / δ ^ 2) := by
    intro j h0 h1
    have := hv ⟨![j], fun d => by rw [Subsingleton.elim d 0]; exact ⟨h0, h1⟩⟩
    rw [this, rodWalk_apply, hf, hf, hf]
    have e : foldPt hN j = ⟨![j], fun d => by rw [Subsingleton.elim d 0]; exact ⟨h0, h1⟩⟩ := foldPt_self hN ⟨![j], _⟩
    rw [e]
    rfl
  have m1 : f (-1) = f 1 := by
    rw [hf, hf]
    refine congrArg (w 0) (Subtype.ext (funext fun _ => ?_))
    show foldIdx N (-1) = foldIdx N 1
    unfold foldIdx
    split_ifs <;> omega
  have m2 : f N = f (N - 2) := by
    rw [hf, hf]
    refine congrArg (w 0) (Subtype.ext (funext fun _ => ?_))
    show foldIdx N N = foldIdx N (N - 2)
    unfold foldIdx
    split_ifs <;> omega
  have hs : ∀ n : ℕ, n + 2 ≤ N → ∑ j ∈ Finset.range n, v ![(j : ℤ) + 1] = κ * (((f (n + 1) - f n) - (f 1 - f 0)) / δ ^ 2) := by
    intro n
    induction n with
    | zero => intro _; simp
    | succ n ih =>
      intro hn
      rw [Finset.sum_range_succ, ih (by omega), hval _ (by omega) (by omega)]
      push_cast
      rw [show (n : ℤ) + 1 - 1 = n by ring]
      ring
  rw [rodHeat, hs (N - 2) (by omega), hval 0 le_rfl (by omega), hval (N - 1) (by omega) (by omega)]
  have e1 : ((N - 2 : ℕ) : ℤ) = N - 2 := by omega
  rw [e1, show (N : ℤ) - 2 + 1 = N - 1 by ring, show (N : ℤ) - 1 + 1 = N by ring, show (N : ℤ) - 1 - 1 = N - 2 by ring, m2, show (0 : ℤ) - 1 = -1 by ring, m1, zero_add]
  ring

/-- **C102.** No heat is lost through the insulated ends: the complete printed program keeps the sum of all values, of which those at the ends count half, exactly, for any number of points and time steps of any length. -/
theorem C102_rod_heat {N niter : ℕ} (hN : 2 ≤ N) (inputs : String → ℝ) {pts : Ranges.Kernel 1 → List (P 1)} (hp : Enumerates pts) (a : Arrays 1) :
    ∃ prg a', Alg.generate (heatInput N niter) = .ok prg ∧ (heatWith (rodBcs N) inputs).runText prg pts (Alg.runProgram prg) a = some a' ∧ rodHeat N (a' "phi_B0") = rodHeat N (a "phi_B0") := by
  have hN' : (2 : ℤ) ≤ N := by exact_mod_cast hN
  obtain ⟨prg, a', g1, g2, w, w0, w1, w2⟩ := rod_run (niter := niter) hN' inputs hp a
  refine ⟨prg, a', g1, g2, ?_⟩
  -- the heat of values on the grid
  let total : GridSol (D := 1) ![(N : ℤ)] 1 → ℝ := fun u => rodHeat N fun x => u 0 (foldPt hN' (x 0))
  have hadd : ∀ u u', total (u + u') = total u + total u' := by
    intro u u'
    simp only [total, rodHeat, Pi.add_apply, Finset.sum_add_distrib]
    ring
  have hsmul : ∀ (c : ℝ) u, total (c • u) = c * total u := by
    intro c u
    simp only [total, rodHeat, Pi.smul_apply, smul_eq_mul, ← Finset.mul_sum]
    ring
  have hzero : ∀ u, total (rodWalk hN' (inputs "kappa") (inputs "Delta0block0") u) = 0 := by
    intro u
    refine rodWalk_heat hN' (inputs "kappa") (inputs "Delta0block0") u (fun j => u 0 (foldPt hN' j)) (fun _ => rfl) _ fun x => ?_
    rw [foldPt_self]
  have hstep : ∀ k, total (w k) = total (w 0) := by
    intro k
    induction k with
    | zero => rfl
    | succ k ih =>
      rw [w1]
      simp only [advance, hadd, hsmul, hzero, mul_zero, add_zero]
      exact ih
  have hgrid : ∀ (v : P 1 → ℝ) (u : GridSol (D := 1) ![(N : ℤ)] 1), (∀ x : GP (D := 1) ![(N : ℤ)], v x.1 = u 0 x) → rodHeat N v = total u := by
    intro v u h
    have hj : ∀ j : ℤ, 0 ≤ j → j < N → v ![j] = u 0 (foldPt hN' (![j] 0 : ℤ)) := by
      intro j h0 h1
      have e := foldPt_self hN' ⟨![j], fun d => by rw [Subsingleton.elim d 0]; exact ⟨h0, h1⟩⟩
      rw [show foldPt hN' (![j] 0 : ℤ) = _ from e]
      exact h ⟨![j], _⟩
    simp only [total, rodHeat]
    rw [hj 0 le_rfl (by omega), hj (N - 1) (by omega) (by omega)]
    congr 1
    refine Finset.sum_congr rfl fun j hjm => ?_
    rw [Finset.mem_range] at hjm
    exact hj _ (by omega) (by omega)
  rw [hgrid _ (w niter) w2, hstep, ← hgrid (a "phi_B0") (w 0) fun x => by rw [w0]]

/-- A rod of three points has two halves and a whole cell. -/
example : rodHeat 3 (fun x => x 0 + 1) = 4 := by
  simp [rodHeat]
  norm_num

/-- Half a cosine wave that levels out. -/
noncomputable def levelling (κ : ℝ) (_ : Fin 1) (t : ℝ) (x : E 1) : ℝ := Real.exp (-Real.pi ^ 2 * κ * t) * Real.cos (Real.pi * x 0)

theorem levelling_solves (κ : ℝ) : SolvesParabolic (fun _ _ => 0) (fun _ _ => κ) (fun _ => 2) (levelling κ) where
  smooth i := by
    unfold levelling
    refine ContDiff.mul (Real.contDiff_exp.comp ?_) (Real.contDiff_cos.comp ?_) <;> fun_prop
  periodic i t k x := by
    have : Real.pi * (x + fun d => (k d : ℝ) * 2) 0 = Real.pi * x 0 + k 0 * (2 * Real.pi) := by
      simp only [Pi.add_apply]; ring
    rw [levelling, this, Real.cos_add_int_mul_two_pi]
    rfl
  equation i t x := by
    have h1 : HasDerivAt (fun s => levelling κ i s x) (Real.exp (-Real.pi ^ 2 * κ * t) * (-Real.pi ^ 2 * κ) * Real.cos (Real.pi * x 0)) t := by
      refine HasDerivAt.mul_const ?_ _
      have := ((hasDerivAt_id t).const_mul (-Real.pi ^ 2 * κ)).exp
      simpa using this
    have h3 : ∀ y : E 1, HasDerivAt (fun s : ℝ => Real.pi * (y + s • (Pi.single 0 1 : E 1)) 0) Real.pi 0 := by
      intro y
      have := ((hasDerivAt_id (0 : ℝ)).const_add (y 0)).const_mul Real.pi
      simpa using this
    have h2 : pd 0 (levelling κ 0 t) = fun y => Real.exp (-Real.pi ^ 2 * κ * t) * (-Real.sin (Real.pi * y 0) * Real.pi) := by
      funext y
      have : HasLineDerivAt ℝ (levelling κ 0 t) (Real.exp (-Real.pi ^ 2 * κ * t) * (-Real.sin (Real.pi * y 0) * Real.pi)) y (Pi.single 0 1) := by
        unfold HasLineDerivAt
        have := (h3 y).cos.const_mul (Real.exp (-Real.pi ^ 2 * κ * t))
        simpa [levelling] using this
      exact this.lineDeriv
    have h4 : pd 0 (pd 0 (levelling κ 0 t)) x = Real.exp (-Real.pi ^ 2 * κ * t) * (-(Real.cos (Real.pi * x 0) * Real.pi) * Real.pi) := by
      rw [h2]
      have : HasLineDerivAt ℝ (fun y : E 1 => Real.exp (-Real.pi ^ 2 * κ * t) * (-Real.sin (Real.pi * y 0) * Real.pi))
          (Real.exp (-Real.pi ^ 2 * κ * t) * (-(Real.cos (Real.pi * x 0) * Real.pi) * Real.pi)) x (Pi.single 0 1) := by
        unfold HasLineDerivAt
        have := ((h3 x).sin.neg.mul_const Real.pi).const_mul (Real.exp (-Real.pi ^ 2 * κ * t))
        simpa using this
      exact this.lineDeriv
    rw [h1.deriv, Subsingleton.elim i 0]
    simp only [Fin.sum_univ_one, h4]
    ring

/-- The hypotheses of the theorem can be met: half a cosine wave, with 101 points, `kappa = 1/10` and time steps of `1/2000`. -/
example : SolvesParabolic (fun _ _ => 0) (fun _ _ => 1 / 10) (fun _ => 2) (levelling (1 / 10)) ∧ (∀ i t x, levelling (1 / 10) i t (-x) = levelling (1 / 10) i t x) ∧
    (1 / 2000 : ℝ) * (1 / 10) ≤ (1 / ((101 : ℕ) - 1)) ^ 2 / 2 :=
  ⟨levelling_solves _, fun _ _ _ => by simp [levelling], by norm_num⟩

end OpenSBLI.Bc
