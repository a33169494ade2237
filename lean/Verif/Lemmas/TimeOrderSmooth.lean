import Verif.Spec.TimeOrder
import Verif.Props.C77_Periodic
import Verif.Lemmas.SkewGrid
import Mathlib.Analysis.Calculus.ContDiff.Operations

/-!
# Right hand sides as differentiable functions of the values on the grid

Helper lemmas for C89.
-/
namespace OpenSBLI.TimeOrder
open Spec Sim

variable {D n : ℕ} {m : WithTop ℕ∞} {V : Type} [NormedAddCommGroup V] [NormedSpace ℝ V]

/-- Values of expressions are differentiable where the arrays and the powers and functions are. -/
theorem eval_smooth {S : Setup D n} {I : Interp D} {δ : Fin D → ℝ} (hI : IsCentral S I δ) {arrays : V → Mem D} {Ω : Set V} (e : Ex D) (ha : ∀ a ∈ e.arrs, ∀ x, ContDiffOn ℝ m (fun v => arrays v a x) Ω)
    (he : PowersSmooth m I arrays Ω e) (x : P D) : ContDiffOn ℝ m (fun v => e.eval I (arrays v) x) Ω := by
  induction e generalizing x with
  | num _ => exact contDiffOn_const
  | const _ => exact contDiffOn_const
  | indexed _ => exact contDiffOn_const
  | arr a => exact ha a (by simp [Ex.arrs]) x
  | cd d k e ih =>
    simp only [Ex.eval, hI _ _ _ _, Central.discretise]
    refine ContDiffOn.mul (ContDiffOn.sum fun p _ => contDiffOn_const.mul (ih ha he _)) contDiffOn_const
  | add a b iha ihb => exact (iha (fun c hc => ha c (by simp [Ex.arrs, hc])) he.1 x).add (ihb (fun c hc => ha c (by simp [Ex.arrs, hc])) he.2 x)
  | mul a b iha ihb => exact (iha (fun c hc => ha c (by simp [Ex.arrs, hc])) he.1 x).mul (ihb (fun c hc => ha c (by simp [Ex.arrs, hc])) he.2 x)
  | pow a b _ _ => exact he x
  | fn f e _ => exact he x

/-- So do datasets. -/
theorem datasets_smooth {S : Setup D n} {req : String → Prop} (hS : S.Relations req) {I : Interp D} {δ : Fin D → ℝ} (hI : IsCentral S I δ) {order : List String} (hord : S.relOrder = .ok order)
    {init : String → P D → ℝ} {q : V → Sol D n} {f : V → String → P D → ℝ} (hf : ∀ v, ConsistentOn S req I init (q v) (f v)) {Ω : Set V} (hq : ∀ i y, ContDiffOn ℝ m (fun v => q v i y) Ω)
    (hp : ∀ s e, (s, e) ∈ S.rel → PowersSmooth m I (fun v => memOf (f v)) Ω e) (s : String) (hs : req s) (y : P D) : ContDiffOn ℝ m (fun v => f v s y) Ω := by
  obtain ⟨known, hk, _, hmem, hdep⟩ := rel_order hS order hord
  have hbase : ∀ u, S.relation u = none → ∀ y, ContDiffOn ℝ m (fun v => f v u y) Ω := fun u hn y => by
    by_cases hsol : ∃ j, u = S.sol j
    · obtain ⟨j, rfl⟩ := hsol
      simp only [fun v => (hf v).sol j]
      exact hq j y
    · push Not at hsol
      simp only [fun v => (hf v).rest u (relation_none hS.relNodup hn) hsol]
      exact contDiffOn_const
  have main : ∀ order : List String, (∀ s ∈ order, s ∈ S.keys ∧ (S.relation s).isSome) →
      Spec.RespectsDeps known (S.keys.filterMap fun s => (S.relation s).map fun e => (s, e.datas)) order → ∀ s ∈ order, ∀ y, ContDiffOn ℝ m (fun v => f v s y) Ω := by
    intro order
    induction order using List.reverseRecOn with
    | nil => exact fun _ _ s hs => by simp at hs
    | append_singleton pre s ih =>
      intro hord hdep t ht y
      have ih := ih (fun t ht => hord t (List.mem_append_left _ ht)) fun p x r he => hdep p x (r ++ [s]) (by rw [he]; simp)
      by_cases hts : t = s
      · subst hts
        obtain ⟨hkey, hsome⟩ := hord t (by simp)
        obtain ⟨e, he⟩ := Option.isSome_iff_exists.1 hsome
        have hreq := (hS.keysMem t).1 hkey
        have he' := (relation_iff hS.relNodup t e).1 he
        simp only [fun v => (hf v).rel t e hreq he' y]
        obtain ⟨_, hepl, _⟩ := hS.relPlain t e he
        refine eval_smooth hI e (fun a ha x => ?_) (hp t e he') y
        obtain ⟨u, rfl⟩ := hepl a ha
        have hu : u ∈ e.datas := (mem_datas e u).2 ha
        change ContDiffOn ℝ m (fun v => f v u x) Ω
        rcases Option.eq_none_or_eq_some (S.relation u) with hn | ⟨e', he'⟩
        · exact hbase u hn x
        · rcases hdep pre t [] (by simp) e.datas (List.mem_filterMap.2 ⟨t, hkey, by rw [he]; rfl⟩) u hu with h | h
          · rw [hk u h] at he'; cases he'
          · exact ih u h x
      · exact ih t (by simpa [hts] using ht) y
  rcases Option.eq_none_or_eq_some (S.relation s) with hn | ⟨e', he'⟩
  · exact hbase s hn y
  · exact main order (fun s hs => (hmem s).1 hs) hdep s ((hmem s).2 ⟨(hS.keysMem s).2 hs, by rw [he']; rfl⟩) y

/-- The completed solution of a periodic box is a differentiable function of the values on the grid. -/
theorem exchange_smooth {np : Fin D → ℤ} {h : ℤ} (hh : 0 ≤ h) (hn : ∀ d, h ≤ np d) (q0 : Sol D n) (Ω : Set (GridSol np n)) (i : Fin n) (y : P D) :
    ContDiffOn ℝ m (fun u : GridSol np n => complete np (exchange np h) q0 u i y) Ω := by
  classical
  by_cases hy : Allocated np h y
  · have : (fun u : GridSol np n => complete np (exchange np h) q0 u i y) = fun u => if hg : Grid np (fun d => y d % np d) then u i ⟨_, hg⟩ else q0 i fun d => y d % np d := by
      funext u
      unfold complete
      rw [exchange_image hh hn _ i _ hy]
    rw [this]
    split
    · exact ((contDiff_apply_apply ℝ ℝ i _).contDiffOn)
    · exact contDiffOn_const
  · have : (fun u : GridSol np n => complete np (exchange np h) q0 u i y) = fun u => if hg : Grid np y then u i ⟨_, hg⟩ else q0 i y := by
      funext u
      unfold complete
      rw [(exchange_fills hh hn).outside _ _ _ hy]
    rw [this]
    split
    · exact ((contDiff_apply_apply ℝ ℝ i _).contDiffOn)
    · exact contDiffOn_const

end OpenSBLI.TimeOrder
