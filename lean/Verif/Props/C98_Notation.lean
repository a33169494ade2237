import Verif.Model.ShockNotation
import Verif.Spec.ShockNotation
import Verif.Props.C92_Notation

/-!
# C98: shock capturing derivatives in index notation
-/
namespace OpenSBLI.Note
open OpenSBLI.Ein OpenSBLI.Sim

variable {D n : ℕ} {r : Reading} {I : Interp D} {m : Mem D} {wd : Fin D → (P D → ℝ) → P D → ℝ}

theorem capturing_fn {s : String} (h : s ∉ ["Weno", "Teno"]) (f g : P D → ℝ) : (capturing wd r I m).fn s f g = (meaning r I m).fn s f g := if_neg h

/-- Where nothing is captured the meaning is the same. -/
theorem read_capturing (e : SumExpr) (e' : Ex D) (h : read r e = some e') (env : String → ℕ) : e.eval (capturing wd r I m) D env = e.eval (meaning r I m) D env := by
  have num : ∀ {a : SumExpr} {v : ℕ}, number a = some v → a.eval (capturing wd r I m) D env = a.eval (meaning r I m) D env := fun {a v} h => by
    unfold number at h
    split at h
    · rfl
    · cases h
  have dir : ∀ {a : SumExpr} {d : Fin D}, direction r a = some d → a.eval (capturing wd r I m) D env = a.eval (meaning r I m) D env := fun {a d} h => by
    unfold direction at h
    split at h
    · rfl
    · cases h
  induction e generalizing e' with
  | zero => rfl
  | term b idx => rfl
  | add a b iha ihb =>
    simp only [read, Option.bind_eq_bind, Option.bind_eq_some_iff, Option.some.injEq] at h
    obtain ⟨a', ha, b', hb, rfl⟩ := h
    simp only [SumExpr.eval, iha a' ha, ihb b' hb]
  | mul a b iha ihb =>
    simp only [read, Option.bind_eq_bind, Option.bind_eq_some_iff, Option.some.injEq] at h
    obtain ⟨a', ha, b', hb, rfl⟩ := h
    simp only [SumExpr.eval, iha a' ha, ihb b' hb]
    rfl
  | fn f a b iha ihb =>
    simp only [read] at h
    split_ifs at h with h1 h2 h3 <;> simp only [Option.bind_eq_bind, Option.bind_eq_some_iff, Option.some.injEq] at h
    · obtain ⟨i, hi, j, hj, rfl⟩ := h
      subst h1
      simp only [SumExpr.eval, num hi, num hj]
      exact capturing_fn (by decide) _ _
    · obtain ⟨a', ha, b', hb, rfl⟩ := h
      subst h2
      simp only [SumExpr.eval, iha a' ha, ihb b' hb]
      exact capturing_fn (by decide) _ _
    · obtain ⟨d, hd, a', ha, rfl⟩ := h
      simp only [SumExpr.eval, iha a' ha, dir hd]
      refine capturing_fn (fun hm => ?_) _ _
      revert hm h3
      simp only [derivatives, List.mem_cons, List.not_mem_nil, or_false]
      rintro (rfl | rfl) <;> decide
  | fn3 f a b c iha ihb ihc =>
    simp only [read] at h
    split_ifs at h with h3
    simp only [Option.bind_eq_bind, Option.bind_eq_some_iff, Option.some.injEq] at h
    obtain ⟨a', ha, i, hi, j, hj, rfl⟩ := h
    simp only [SumExpr.eval, iha a' ha, dir hi, dir hj]
    rfl
  | sum k a _ => cases h

/-- The value of a right hand side taken apart. -/
noncomputable def Parts.value (wd : Fin D → (P D → ℝ) → P D → ℝ) (I : Interp D) (m : Mem D) (q : Ex D × List (Part D)) : P D → ℝ := fun x =>
  (q.2.map fun p => p.2.1.eval I m x * wd p.1 (fun y => p.2.2.eval I m y) x).sum + q.1.eval I m x

theorem parts_times (e : Ex D) (l : List (Part D)) (x : P D) :
    ((l.map (Part.times e)).map fun p => p.2.1.eval I m x * wd p.1 (fun y => p.2.2.eval I m y) x).sum = e.eval I m x * (l.map fun p => p.2.1.eval I m x * wd p.1 (fun y => p.2.2.eval I m y) x).sum := by
  rw [List.map_map, ← List.sum_map_mul_left]
  congr 1
  refine List.map_congr_left fun p _ => ?_
  simp only [Function.comp, Part.times, times_eval]
  ring

/-- Taking apart keeps the meaning. -/
theorem split_eval (hr : r.coordinate ≠ "") (e : SumExpr) (q : Ex D × List (Part D)) (h : split r e = some q) (env : String → ℕ) : Parts.value wd I m q = e.eval (capturing wd r I m) D env := by
  have plain : ∀ (e : SumExpr) (q : Ex D × List (Part D)), (do some (← read r e, [])) = some q → Parts.value wd I m q = e.eval (capturing wd r I m) D env := by
    intro e q h
    simp only [Option.bind_eq_bind, Option.bind_eq_some_iff, Option.some.injEq] at h
    obtain ⟨e', he, rfl⟩ := h
    rw [read_capturing e e' he env, ← read_eval hr e e' he env]
    funext x
    simp [Parts.value]
  induction e generalizing q with
  | zero => exact plain _ q h
  | term b idx => exact plain _ q h
  | add a b iha ihb =>
    simp only [split, Option.bind_eq_bind, Option.bind_eq_some_iff, Option.some.injEq] at h
    obtain ⟨⟨e, l⟩, ha, ⟨e', l'⟩, hb, rfl⟩ := h
    rw [SumExpr.eval, ← iha _ ha, ← ihb _ hb]
    funext x
    simp only [Parts.value, List.map_append, List.sum_append, plus_eval, Pi.add_apply]
    ring
  | mul a b iha ihb =>
    simp only [split, Option.bind_eq_bind, Option.bind_eq_some_iff] at h
    obtain ⟨⟨e, l⟩, ha, ⟨e', l'⟩, hb, h⟩ := h
    rw [show (SumExpr.mul a b).eval (capturing wd r I m) D env = a.eval (capturing wd r I m) D env * b.eval (capturing wd r I m) D env from rfl, ← iha _ ha, ← ihb _ hb]
    split_ifs at h with h1 h2 <;> cases h
    · simp only at h1; subst h1
      funext x
      simp only [Parts.value, parts_times, List.map_nil, List.sum_nil, times_eval, Pi.mul_apply]
      ring
    · simp only at h2; subst h2
      funext x
      simp only [Parts.value, parts_times, List.map_nil, List.sum_nil, times_eval, Pi.mul_apply]
      ring
  | fn f a b iha ihb =>
    simp only [split] at h
    split_ifs at h with hf
    · simp only [Option.bind_eq_bind, Option.bind_eq_some_iff, Option.some.injEq] at h
      obtain ⟨d, hd, a', ha, rfl⟩ := h
      have e1 : b.eval (capturing wd r I m) D env = coord d := by
        rw [← direction_eval (I := I) (m := m) hr hd env]
        unfold direction at hd
        split at hd
        · rfl
        · cases hd
      have e2 : a.eval (capturing wd r I m) D env = fun y => a'.eval I m y := by rw [read_capturing a a' ha env, ← read_eval hr a a' ha env]
      have hex : ∃ d' : Fin D, coord d = coord d' := ⟨d, rfl⟩
      have e3 : (SumExpr.fn f a b).eval (capturing wd r I m) D env = wd d fun y => a'.eval I m y := by
        rw [SumExpr.eval, e1, e2]
        simp only [capturing]
        rw [if_pos (show f ∈ ["Weno", "Teno"] from hf), dif_pos hex, ← coord_injective hex.choose_spec]
      rw [e3]
      funext x
      simp [Parts.value, Ex.eval]
    · exact plain _ q h
  | fn3 f a b c iha ihb ihc => exact plain _ q h
  | sum k a _ => simp [split, read] at h

/-- C98: when equations in index notation with shock capturing derivatives are taken apart, the value of every right hand side is the sum of coefficient times derivative of the flux over the parts, plus the rest: whatever the derivative
computes. The values have the meaning of index notation, with the summation convention. -/
theorem C98_right_sides (hr : r.coordinate ≠ "") (hD : 0 < D) {order : List String → List String} {eqs : List (Expr × Expr)} {sol : Fin n → String} {rest : Fin n → Ex D} {parts : Fin n → List (Part D)}
    (h : splitEquations r order eqs = some (List.ofFn fun i => (sol i, rest i, parts i))) (I : Interp D) (m : Mem D) (wd : Fin D → (P D → ℝ) → P D → ℝ) :
    RightSidesIn (capturing wd r I m) eqs sol fun i x => ((parts i).map fun p => p.2.1.eval I m x * wd p.1 (fun y => p.2.2.eval I m y) x).sum + (rest i).eval I m x := by
  obtain ⟨ls, hls, hflat⟩ := Option.map_eq_some_iff.1 h
  obtain ⟨h1, h2⟩ := mapM_mem hls
  have key : ∀ eq l, splitEquation r order eq = some l → ∃ y, Value (capturing wd r I m) D eq.2 y ∧
      (∀ env : String → ℕ, (∀ k, env k < D) → ∃ b idx, eq.1 = .fn "Der" (.term b idx) (.term "t" []) ∧ ∃ p ∈ l, p.1 = component b (idx.map env) ∧ Parts.value wd I m p.2 = y env) ∧
      ∀ p ∈ l, ∃ b idx env, eq.1 = .fn "Der" (.term b idx) (.term "t" []) ∧ (∀ k, env k < D) ∧ p.1 = component b (idx.map env) ∧ Parts.value wd I m p.2 = y env := by
    intro eq l he
    simp only [splitEquation] at he
    split at he
    · cases he
    rename_i l0 hl0
    obtain ⟨pl, pr, hpl, hpr, m1, m2⟩ := expand_mem hl0
    obtain ⟨n1, n2⟩ := mapM_mem he
    obtain ⟨hv, hs, -⟩ := C49_summation (capturing wd r I m) D eq.2 pr.1 pr.2 hpr
    have one : ∀ map (q : String × Ex D × List (Part D)) env, (do some (← advanced ((expandSums D pl.1).applyMany map), ← split r ((expandSums D pr.1).applyMany map))) = some q →
        (∃ b idx, eq.1 = .fn "Der" (.term b idx) (.term "t" []) ∧ q.1 = component b (idx.map (setMany env map))) ∧ Parts.value wd I m q.2 = (expandSums D pr.1).eval (capturing wd r I m) D (setMany env map) := by
      intro map q env hq
      simp only [Option.bind_eq_bind, Option.bind_eq_some_iff, Option.some.injEq] at hq
      obtain ⟨s, hs1, e, he1, rfl⟩ := hq
      obtain ⟨b, idx, e1, e2⟩ := advanced_spec hpl hs1
      refine ⟨⟨b, idx, e1, e2 env⟩, ?_⟩
      rw [split_eval hr _ _ he1 env, (applyMany_spec (capturing wd r I m) D map _ hs).2.1 env]
    refine ⟨_, hv, fun env henv => ?_, fun p hp => ?_⟩
    · obtain ⟨map, hmap, hmem⟩ := m1 env henv
      obtain ⟨q, hq, hq'⟩ := n1 _ hmem
      obtain ⟨⟨b, idx, e1, e2⟩, e3⟩ := one map q env hq'
      rw [hmap] at e2 e3
      exact ⟨b, idx, e1, q, hq, e2, e3⟩
    · obtain ⟨q, hq, hq'⟩ := n2 p hp
      obtain ⟨map, hmap, rfl⟩ := m2 q hq
      obtain ⟨⟨b, idx, e1, e2⟩, e3⟩ := one map p (fun _ => 0) hq'
      exact ⟨b, idx, _, e1, setMany_lt hmap hD, e2, e3⟩
  refine ⟨fun eq heq => ?_, fun i => ?_⟩
  · obtain ⟨l, hlm, hle⟩ := h1 eq heq
    obtain ⟨y, hy, k1, -⟩ := key eq l hle
    obtain ⟨b, idx, e1, -⟩ := k1 (fun _ => 0) fun _ => hD
    refine ⟨b, idx, e1, y, hy, fun env henv => ?_⟩
    obtain ⟨b', idx', e1', p, hp, e2, e3⟩ := k1 env henv
    have hbi := e1.symm.trans e1'
    cases hbi
    have hp' : p ∈ List.ofFn fun i => (sol i, rest i, parts i) := hflat ▸ List.mem_flatten.2 ⟨l, hlm, hp⟩
    obtain ⟨i, rfl⟩ := (List.mem_ofFn' _ _).1 hp'
    exact ⟨i, e2, e3⟩
  · have hp : (sol i, rest i, parts i) ∈ ls.flatten := hflat ▸ (List.mem_ofFn' _ _).2 ⟨i, rfl⟩
    obtain ⟨l, hlm, hpl⟩ := List.mem_flatten.1 hp
    obtain ⟨eq, heq, hle⟩ := h2 l hlm
    obtain ⟨y, hy, -, k2⟩ := key eq l hle
    obtain ⟨b, idx, env, e1, e2, e3, e4⟩ := k2 _ hpl
    exact ⟨eq, heq, b, idx, y, env, e1, hy, e2, e3, e4⟩

end OpenSBLI.Note
