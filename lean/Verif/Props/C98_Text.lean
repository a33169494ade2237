import Verif.Props.C98_Notation
import Verif.Props.C98_EulerWave
import Verif.Props.C95_Text
import Verif.Props.C88_Wave

/-!
# C98: from the texts of apps/euler_wave to what its program computes
-/
namespace OpenSBLI.Note
open OpenSBLI.Ein OpenSBLI.Sim

variable {D n : ℕ}

/-- The equations and relations in index notation are those of a problem with a shock capturing scheme. -/
structure Captures (r : Reading) (order : List String → List String) (eqs rels : List (Expr × Expr)) (C : Shock D n) : Prop where
  coordinate : r.coordinate ≠ ""
  dimensions : 0 < D
  equations : splitEquations r order eqs = some (List.ofFn fun i => (C.sol i, C.rhs i, C.dirs.map fun d => (d, C.coef d i, C.flux d i)))
  relations : Note.equations r order defined rels = some C.rel

/-- C98: the fluxes of a direction handed to the scheme are those of the problem, equation after equation, and its directions those of the problem. -/
theorem C98_flux_vectors {r : Reading} {order : List String → List String} {eqs rels : List (Expr × Expr)} {C : Shock D n} (h : Captures r order eqs rels C) (hn : 0 < n) (hs : C.dirs.Pairwise (· < ·)) :
    ∃ l, splitEquations r order eqs = some l ∧ fluxDirections l = C.dirs ∧ ∀ d ∈ C.dirs, fluxVector d l = List.ofFn (C.flux d) := by
  refine ⟨_, h.equations, ?_, fun d hd => ?_⟩
  · have hm : ∀ d, d ∈ fluxDirections (List.ofFn fun i => (C.sol i, C.rhs i, C.dirs.map fun d => (d, C.coef d i, C.flux d i))) ↔ d ∈ C.dirs := by
      intro d
      simp only [fluxDirections, List.mem_filter, List.mem_finRange, true_and, decide_eq_true_eq, List.mem_flatMap, List.mem_ofFn', Set.mem_range]
      constructor
      · rintro ⟨_, ⟨i, rfl⟩, hd⟩
        simpa [Function.comp_def] using hd
      · exact fun hd => ⟨_, ⟨⟨0, hn⟩, rfl⟩, by simpa [Function.comp_def] using hd⟩
    refine List.Perm.eq_of_pairwise (fun _ _ _ _ h1 h2 => absurd (lt_trans h1 h2) (lt_irrefl _)) ((List.pairwise_lt_finRange D).filter _) hs ((List.perm_ext_iff_of_nodup ((List.nodup_finRange D).filter _) (hs.imp fun h => h.ne)).2 hm)
  · have hone : ∀ i, (((C.dirs.map fun d => (d, C.coef d i, C.flux d i)).filter fun p => p.1 = d).map fun p => p.2.2) = [C.flux d i] := by
      intro i
      rw [List.filter_map, List.map_map]
      have : C.dirs.filter ((fun p : Part D => decide (p.1 = d)) ∘ fun d => (d, C.coef d i, C.flux d i)) = [d] := by
        have hnd : C.dirs.Nodup := hs.imp fun h => h.ne
        simp only [Function.comp_def]
        rw [show (C.dirs.filter fun x => decide (x = d)) = C.dirs.filter (· == d) from List.filter_congr fun x _ => by simp [beq_eq_decide], List.filter_beq, List.count_eq_one_of_mem hnd hd]
        rfl
      rw [this]
      rfl
    unfold fluxVector
    rw [List.ofFn_eq_map, List.flatMap_map, List.ofFn_eq_map]
    simp only [hone]
    induction List.finRange n <;> simp_all

variable {C : Shock D n} {I : Interp D} {pts : Ranges.Kernel D → List (P D)} {inp : Alg.Input (Call D)} {prg : List (Alg.Node (Call D))}

/-- C98: from index notation to the program. The solution arrays have the Runge-Kutta iterates of a system of ordinary differential equations on arrays satisfying the relations as written. The right hand sides have the values of those
written, for every operator `wd` that gives for the flux of every equation the difference of its numerical fluxes at the two interfaces over the spacing. -/
theorem C98_rk_partial {r : Reading} {order : List String → List String} {eqs rels : List (Expr × Expr)} (hR : Captures r order eqs rels C) (hP : ShockProgram C .rk I pts inp prg) (hst : inp.stages = 3)
    (hnew : I.table "rknew" = [2/3, 5/12, 3/5]) (hold : I.table "rkold" = [1/4, 3/20, 3/5]) (B : Sol D n → Sol D n) (m : Mem D) :
    ∃ (full : Sol D n → String → P D → ℝ) (F : Sol D n → Sol D n),
      (∀ q, (∀ i, full q (C.sol i) = q i) ∧ (∀ s, (∀ e, (s, e) ∉ C.rel) → (∀ i, s ≠ C.sol i) → full q s = atStart I pts C.sol B inp m (.data s)) ∧ Satisfied r I (memOf (full q)) C.required rels ∧
        ∀ wd : Fin D → (P D → ℝ) → P D → ℝ, (∀ d ∈ C.dirs, ∀ i x, wd d (fun y => (C.flux d i).eval I (memOf (full q)) y) x =
            (numericalFlux C I (full q) d x i - numericalFlux C I (full q) d (Function.update x d (x d - 1)) i) / I.const (C.spacing d)) →
          RightSidesIn (capturing wd r I (memOf (full q))) eqs C.sol (F q)) ∧
      let step := rkStep C.np F B (I.const "dt") [(2/3, 1/4), (5/12, 3/20), (3/5, 3/5)]
      let s0 := stateOf C.toSetup (atStart I pts C.sol B inp m)
      (∀ i : Fin n, Alg.effect (exec I pts C.sol B) (Alg.runProgram prg) m (.data (C.sol i)) = (step^[inp.niter.toNat] s0).q i) ∧
      ∀ before after o k e, Alg.runProgram prg = before ++ .write o (some k) e :: after → ∃ j : ℕ, (j : ℤ) = k ∧ 1 ≤ j ∧ j ≤ inp.niter.toNat ∧
        ∀ i : Fin n, Alg.effect (exec I pts C.sol B) before m (.data (C.sol i)) = (step^[j] s0).q i := by
  obtain ⟨cs, hcs, -⟩ := hP.items
  obtain ⟨full, hfull⟩ := shock_full hP.valid hcs fun s => atStart I pts C.sol B inp m (.data s)
  refine ⟨full, fun q i x => shockRhs C I (full q) i x, fun q => ⟨(hfull q).sol, (hfull q).rest, ?_, fun wd hwd => ?_⟩, C78_program_rk_partial hP hst hnew hold B m full hfull⟩
  · obtain ⟨h1, -⟩ := equations_spec hR.coordinate hR.dimensions left_defined (fun _ _ _ _ h => by cases h; exact ⟨rfl, rfl⟩) hR.relations I (memOf (full q))
    intro eq heq
    obtain ⟨b, idx, e1, y, hy, hc⟩ := h1 eq heq
    refine ⟨b, idx, e1, y, hy, fun env henv hq => ?_⟩
    obtain ⟨p, hp, e2, e3⟩ := hc env henv
    rw [← e2] at hq ⊢
    rw [← e3]
    exact funext fun x => (hfull q).rel p.1 p.2 hq hp x
  · have h := C98_right_sides hR.coordinate hR.dimensions hR.equations I (memOf (full q)) wd
    have e : (fun (i : Fin n) (x : P D) => ((C.dirs.map fun d => ((d, C.coef d i, C.flux d i) : Part D)).map fun p => p.2.1.eval I (memOf (full q)) x * wd p.1 (fun y => p.2.2.eval I (memOf (full q)) y) x).sum + (C.rhs i).eval I (memOf (full q)) x) =
        fun i x => shockRhs C I (full q) i x := by
      funext i x
      unfold shockRhs
      rw [List.map_map]
      congr 2
      refine List.map_congr_left fun d hd => ?_
      simp only [Function.comp]
      rw [hwd d hd]
    rw [e] at h
    exact h

end OpenSBLI.Note

namespace OpenSBLI.Source.Wave
open OpenSBLI.Note OpenSBLI.Sim

/-- Lines 8-15 of apps/euler_wave/euler_wave.py. -/
def conservation : List String :=
  ["Eq(Der(rho,t), - Conservative(rhou_j,x_j,**{'scheme':'Weno'}))",
   "Eq(Der(rhou_i,t) , -Conservative(rhou_i*u_j + KD(_i,_j)*p,x_j , **{'scheme':'Weno'})  )",
   "Eq(Der(rhoE,t), - Conservative((p+rhoE)*u_j,x_j, **{'scheme':'Weno'})  )"]

/-- Lines 26-28. -/
def relations : List String :=
  ["Eq(u_i, rhou_i/rho)",
   "Eq(p, (gama-1)*(rhoE - rho*(1/2)*(KD(_i,_j)*u_i*u_j)))",
   "Eq(a, (gama*p/rho)**0.5)"]

instance : DecidableEq (String × Ex 2 × List (Part 2)) := @instDecidableEqProd _ _ _ (@instDecidableEqProd _ _ _ (@instDecidableEqList _ (@instDecidableEqProd _ _ _ (@instDecidableEqProd _ _ _ _))))

/-- C98: the texts of the file are equations and relations in index notation, and these are those of the problem. -/
theorem C98_texts : ∃ eqs rels, equations (namesOf ["gama"]) id [] conservation = some eqs ∧ equations (namesOf ["gama"]) id [] relations = some rels ∧ Captures (reading ["gama"]) id eqs rels eulerWave := by
  have h1 : ((equations (namesOf ["gama"]) id [] conservation).bind (splitEquations (D := 2) (reading ["gama"]) id)) =
      some (List.ofFn fun i => (eulerWave.sol i, eulerWave.rhs i, eulerWave.dirs.map fun d => (d, eulerWave.coef d i, eulerWave.flux d i))) := by decide +kernel
  have h2 : ((equations (namesOf ["gama"]) id [] relations).bind (Note.equations (D := 2) (reading ["gama"]) id defined)) = some eulerWave.rel := by decide +kernel
  obtain ⟨eqs, e1, h1⟩ := Option.bind_eq_some_iff.1 h1
  obtain ⟨rels, e2, h2⟩ := Option.bind_eq_some_iff.1 h2
  exact ⟨eqs, rels, e1, e2, by decide, by decide, h1, h2⟩

end OpenSBLI.Source.Wave

namespace OpenSBLI.Sim
open EulerWave

/-- The initial conditions of lines 70-88: coordinates, then density, momentum and energy by way of the variables `d`, `u0`, `u1` and `p` of the kernel. -/
noncomputable def eulerWaveInitial : List (Arr × (Interp 2 → Mem 2 → P 2 → ℝ)) :=
  let d := fun (I : Interp 2) (m : Mem 2) (x : P 2) => 1 + 1/5 * I.fn "sin" (I.const "M_PI" * (m (.data "x0") x + m (.data "x1") x))
  [(.data "x0", fun I _ x => I.const "Delta0block0" * x 0), (.data "x1", fun I _ x => I.const "Delta1block0" * x 1),
   (.data "rho", d), (.data "rhou0", fun I m x => d I m x * 1), (.data "rhou1", fun I m x => d I m x * (-1/2)),
   (.data "rhoE", fun I m x => 1 / (I.const "gama" - 1) + 1/2 * d I m x * (1 ^ 2 + (-1/2) ^ 2))]

/-- The algorithm, with the parameters of lines 98-112: the arrays are written every 250000 steps. -/
noncomputable def eulerWaveInput : Alg.Input (Call 2) where
  temporalSchemes := 1
  items := [.constituent, .simulation ((eulerWave.startKernels .rk).map .comp) [] ((eulerWave.advanceKernels .rk).map .comp) [.bc] eulerWave_spatial.choose, initialItem ![400, 400] eulerWaveInitial]
  stages := 3
  niter := 2500
  monitorFrequency := none
  ios := [Alg.IO.new 0 true none 250000]

theorem eulerWave_program {pts : Ranges.Kernel 2 → List (P 2)} (hp : Enumerates pts) {I : Interp 2} {delta : Fin 2 → ℝ} (hI : IsCentral eulerWave.toSetup I delta) : ∃ prg, ShockProgram eulerWave .rk I pts eulerWaveInput prg := by
  have hg : ∃ prg, Alg.generate eulerWaveInput = .ok prg := by
    simp [Alg.generate, eulerWaveInput, initialItem, Alg.Acc.add, Alg.sortByOrder, bind, Except.bind, pure, Except.pure, Alg.Placed.addKernels]
  obtain ⟨prg, hg⟩ := hg
  refine ⟨prg, eulerWave_valid, hp, central_local hI, _, eulerWave_spatial.choose_spec, ⟨[.constituent], [initialItem ![400, 400] eulerWaveInitial], rfl, by simp [Alg.Item.isSimulation], by simp [initialItem, Alg.Item.isSimulation]⟩, ?_, hg⟩
  intro o places k h
  simp only [eulerWaveInput, initialItem, List.mem_cons, List.not_mem_nil, or_false, reduceCtorEq, false_or, Alg.Item.nonSimulation.injEq] at h
  obtain ⟨-, rfl, -⟩ := h
  intro p hp
  simpa using hp

/-- The initial values, whatever the arrays contain before. -/
theorem eulerWave_initial {pts : Ranges.Kernel 2 → List (P 2)} (hp : Enumerates pts) (I : Interp 2) (B : Sol 2 4 → Sol 2 4) (m : Mem 2) (i : Fin 4) (x : P 2) (hx : Grid ![400, 400] x) :
    atStart I pts eulerWave.sol B eulerWaveInput m (.data (eulerWave.sol i)) x = resting (I.const "gama") 1 i +
      (1 + 1/5 * I.fn "sin" (I.const "M_PI" * (I.const "Delta0block0" * x 0 + I.const "Delta1block0" * x 1))) * moving ![1, -1/2] i := by
  have h : atStart I pts eulerWave.sol B eulerWaveInput m = runFn I pts (initialKernel ![400, 400] eulerWaveInitial) m := by
    simp [atStart, eulerWaveInput, initialItem, Alg.others, Alg.sortByOrder, Alg.placedAt, Alg.calls, Alg.effect, exec]
  rw [h, runFn_at hp]
  · fin_cases i <;> simp [initialKernel, eulerWaveInitial, Mem.set, eulerWave, resting, moving]; ring
  · intro q hq m m' y hm
    simp only [initialKernel, eulerWaveInitial, List.mem_cons, List.not_mem_nil, or_false] at hq
    rcases hq with rfl | rfl | rfl | rfl | rfl | rfl <;> simp [hm]
  · rw [initialKernel, rangeOf_visits]
    intro d
    have := hx d
    rw [if_pos (List.mem_finRange d)]
    omega

/-- The wave at the beginning, with the spacings of line 111. -/
noncomputable def densityWave (x : P 2) : ℝ := 1 + 1/5 * Real.sin (Real.pi * (1/200 * x 0 + 1/200 * x 1))

/-- The values of constants and functions in the program. -/
structure EulerWave.Meant (I : Interp 2) : Prop where
  gama : I.const "gama" = 7/5
  pi : I.const "M_PI" = Real.pi
  delta0 : I.const "Delta0block0" = 1/200
  delta1 : I.const "Delta1block0" = 1/200
  powers : RealPowers I
  sine : I.fn "sin" = Real.sin
  new : I.table "rknew" = [2/3, 5/12, 3/5]
  old : I.table "rkold" = [1/4, 3/20, 3/5]
  central : IsCentral eulerWave.toSetup I fun _ => 1/200

/-- C98: the program of apps/euler_wave conserves mass, momentum and energy, in its files and at the end. -/
theorem C98_euler_wave_conserves {pts : Ranges.Kernel 2 → List (P 2)} (hp : Enumerates pts) {I : Interp 2} (hI : EulerWave.Meant I) (m : Mem 2) :
    ∃ prg, Alg.generate eulerWaveInput = .ok prg ∧ ∀ i, Conserves eulerWave.toSetup I pts eulerWave.exchange eulerWaveInput prg m i := by
  obtain ⟨prg, hP⟩ := eulerWave_program hp hI.central
  obtain ⟨_, _, hA⟩ := hP.items
  exact ⟨prg, hA.generated, fun i => C78_conservation_rk hP hI.central eulerWave_closed (by simp [eulerWave]) eulerWave_reach rfl hI.new hI.old m i (fun d _ => rfl) rfl⟩

/-- C98: the program of apps/euler_wave moves its density wave as the scalar upwind scheme does. Whatever the arrays contain before, at the end density is that of the scalar scheme after 2500 steps, while velocity and pressure are
exactly those of the beginning: momentum is density times `(1, -1/2)`, energy that of pressure one. This holds as long as the scalar scheme keeps densities positive. -/
theorem C98_density_wave_partial {pts : Ranges.Kernel 2 → List (P 2)} (hp : Enumerates pts) {I : Interp 2} (hI : EulerWave.Meant I) (m : Mem 2) :
    ∃ prg, Alg.generate eulerWaveInput = .ok prg ∧
      let scalar := fun l => rkStep ![400, 400] (fun (ρ : Sol 2 1) _ x => Spec.advection eulerWave.scheme [0, 1] ![1, -1/2] (fun _ => 1/200) (ρ 0) x) (periodic ![400, 400]) (I.const "dt") l
      let coef : List (ℝ × ℝ) := [(2/3, 1/4), (5/12, 3/20), (3/5, 3/5)]
      let s0 : TState 2 1 := ⟨fun _ => densityWave, fun _ => densityWave⟩
      (∀ j < 2500, ∀ l, l <+: coef → ∀ x, Grid ![400, 400] x → 0 < (scalar l ((scalar coef)^[j] s0)).q 0 x) →
      ∀ x, Grid ![400, 400] x →
        let ρ := ((scalar coef)^[2500] s0).q 0 x
        let final := Alg.effect (exec I pts eulerWave.sol eulerWave.exchange) (Alg.runProgram prg) m
        final (.data "rho") x = ρ ∧ final (.data "rhou0") x = ρ ∧ final (.data "rhou1") x = -ρ / 2 ∧ final (.data "rhoE") x = 1 / (7/5 - 1) + ρ * (1 ^ 2 + (1/2) ^ 2) / 2 := by
  obtain ⟨prg, hP⟩ := eulerWave_program hp hI.central
  obtain ⟨_, _, hA⟩ := hP.items
  refine ⟨prg, hA.generated, ?_⟩
  intro scalar coef s0 hpos x hx
  have hF : eulerWave.advected I ![1, -1/2] = fun (ρ : Sol 2 1) _ x => Spec.advection eulerWave.scheme [0, 1] ![1, -1/2] (fun _ => 1/200) (ρ 0) x := by
    funext ρ i x
    unfold Shock.advected
    congr 1
    funext d
    fin_cases d
    · exact hI.delta0
    · exact hI.delta1
  have hK := eulerWave_carries hI.powers (U := ![1, -1/2]) (q := 1) (by rw [hI.gama]; norm_num) one_pos
  have h := C97_contact_rk_partial hP hK (by simp [eulerWave]) eulerWave_reach rfl hI.new hI.old m densityWave (fun i x hx => by
    rw [eulerWave_initial hp I eulerWave.exchange m i x hx, hI.sine, hI.pi, hI.delta0, hI.delta1]; rfl)
  rw [hF] at h
  rw [show eulerWaveInput.niter.toNat = 2500 from rfl, show eulerWave.np = ![400, 400] from rfl] at h
  obtain ⟨h, -⟩ := h hpos
  generalize (scalar coef)^[2500] s0 = last at h ⊢
  intro ρ final
  have e0 : final (.data "rho") x = resting (I.const "gama") 1 0 + ρ * moving ![1, -1/2] 0 := h 0 x hx
  have e1 : final (.data "rhou0") x = resting (I.const "gama") 1 1 + ρ * moving ![1, -1/2] 1 := h 1 x hx
  have e2 : final (.data "rhou1") x = resting (I.const "gama") 1 2 + ρ * moving ![1, -1/2] 2 := h 2 x hx
  have e3 : final (.data "rhoE") x = resting (I.const "gama") 1 3 + ρ * moving ![1, -1/2] 3 := h 3 x hx
  refine ⟨by rw [e0]; simp [resting, moving], by rw [e1]; simp [resting, moving], by rw [e2]; simp [resting, moving]; ring, by rw [e3, hI.gama]; simp [resting, moving]; ring⟩

end OpenSBLI.Sim
