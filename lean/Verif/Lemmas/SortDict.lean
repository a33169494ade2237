import Mathlib.Data.List.Basic
import Mathlib.Data.List.Nodup
import Mathlib.Data.List.Perm.Basic
import Mathlib.Logic.Function.Iterate
import Mathlib.Data.List.Dedup
import Mathlib.Data.List.Perm.Subperm
import Verif.Model.SortDict
import Verif.Spec.Ordering

set_option linter.unusedSectionVars false

namespace OpenSBLI.SortDict
open Spec

variable {α : Type} [DecidableEq α]

theorem mem_pending {dict : List (α × List α)} {order : List α} {e} :
    e ∈ pending dict order ↔ e ∈ dict ∧ e.1 ∉ order := by
  simp [pending]

theorem mem_round {dict : List (α × List α)} {order : List α} {x} :
    x ∈ round dict order ↔ x ∈ order ∨ (∃ reqs, (x, reqs) ∈ dict ∧ x ∉ order ∧ ∀ r ∈ reqs, r ∈ order) := by
  simp only [round, List.mem_append, List.mem_map, List.mem_filter, mem_pending, List.all_eq_true,
    List.contains_iff_mem]
  constructor
  · rintro (h | ⟨⟨a, b⟩, ⟨⟨h1, h2⟩, h3⟩, rfl⟩)
    · exact Or.inl h
    · exact Or.inr ⟨b, h1, h2, h3⟩
  · rintro (h | ⟨reqs, h1, h2, h3⟩)
    · exact Or.inl h
    · exact Or.inr ⟨(x, reqs), ⟨⟨h1, h2⟩, h3⟩, rfl⟩

theorem ComputableIn.mono {known : List α} {rels : List (α × List α)} {n m x}
    (h : ComputableIn known rels n x) (hnm : n ≤ m) : ComputableIn known rels m x := by
  induction h generalizing m with
  | known h => exact .known h
  | step h1 _ ih =>
    obtain ⟨m, rfl⟩ : ∃ k, m = k + 1 := ⟨m - 1, by omega⟩
    exact .step h1 (fun r hr => ih r hr (by omega))

theorem mem_iter_round {known : List α} {dict : List (α × List α)} (j : Nat) (x : α) :
    x ∈ (round dict)^[j] known ↔ ComputableIn known dict j x := by
  induction j generalizing x with
  | zero =>
    constructor
    · exact fun h => .known h
    · intro h; cases h; assumption
  | succ j ih =>
    rw [Function.iterate_succ', Function.comp, mem_round]
    constructor
    · rintro (h | ⟨reqs, h1, _, h3⟩)
      · exact ComputableIn.mono ((ih x).1 h) (by omega)
      · exact .step h1 (fun r hr => (ih r).1 (h3 r hr))
    · intro h
      by_cases hx : x ∈ (round dict)^[j] known
      · exact Or.inl hx
      · cases h with
        | known h => exact Or.inl ((ih x).2 (.known h))
        | step h1 h2 => exact Or.inr ⟨_, h1, hx, fun r hr => (ih r).2 (h2 r hr)⟩

theorem pending_isEmpty_iff {dict : List (α × List α)} {order : List α} :
    (pending dict order).isEmpty = true ↔ ∀ e ∈ dict, e.1 ∈ order := by
  rw [List.isEmpty_iff, List.eq_nil_iff_forall_not_mem]
  simp only [mem_pending, not_and, not_not]

theorem sortLoop_ok {dict : List (α × List α)} {it : Nat} {order o : List α}
    (h : sortLoop dict it order = .ok o) :
    ∃ j, (j = 0 ∨ it + j ≤ 1000) ∧ o = (round dict)^[j] order ∧
      (pending dict o).isEmpty = true := by
  fun_induction sortLoop dict it order with
  | case1 it order hp =>
    cases h; exact ⟨0, Or.inl rfl, rfl, hp⟩
  | case2 => exact absurd h (by simp)
  | case3 => exact absurd h (by simp)
  | case4 it order hp o' hit ih =>
    obtain ⟨j, hj, ho, hpo⟩ := ih h
    refine ⟨j + 1, Or.inr (by omega), ?_, hpo⟩
    rw [Function.iterate_succ, Function.comp]; exact ho

theorem sortLoop_complete {dict : List (α × List α)} (j : Nat) {it : Nat} {order : List α}
    (hj : j = 0 ∨ it + j ≤ 1000) (hp : (pending dict ((round dict)^[j] order)).isEmpty = true) :
    ∃ o, sortLoop dict it order = .ok o := by
  induction j generalizing it order with
  | zero => 
    rw [sortLoop]
    have : (pending dict order).isEmpty = true := hp
    simp [this]
  | succ j ih =>
    rw [sortLoop]
    by_cases h0 : (pending dict order).isEmpty = true
    · simp [h0]
    · have hit : ¬ (it + 1 > 1000) := by omega
      simp only [h0, hit, Bool.false_eq_true, if_false, dite_false]
      apply ih
      · omega
      · rwa [Function.iterate_succ, Function.comp] at hp

/-- The invariant of the sort: `order = known ++ done`. -/
structure Inv (known : List α) (dict : List (α × List α)) (order : List α) : Prop where
  pre : ∃ done, order = known ++ done ∧ done.Nodup ∧
    (∀ x ∈ done, x ∉ known ∧ ∃ reqs, (x, reqs) ∈ dict) ∧ RespectsDeps known dict done

theorem Inv.init (known : List α) (dict : List (α × List α)) : Inv known dict known :=
  ⟨[], by simp, by simp, by simp, by
    intro pre x post h; simp at h⟩

theorem respects_append {known : List α} {dict : List (α × List α)} {a b : List α}
    (ha : RespectsDeps known dict a)
    (hb : ∀ x ∈ b, ∀ reqs, (x, reqs) ∈ dict → ∀ r ∈ reqs, r ∈ known ∨ r ∈ a) :
    RespectsDeps known dict (a ++ b) := by
  intro pre x post h reqs hr r hrr
  rcases List.append_eq_append_iff.1 h with ⟨a', h1, h2⟩ | ⟨c', h1, h2⟩
  · -- pre = a ++ a', b = a' ++ x :: post
    have hx : x ∈ b := by rw [h2]; simp
    rcases hb x hx reqs hr r hrr with h | h
    · exact Or.inl h
    · exact Or.inr (by rw [h1]; simp [h])
  · cases c' with
    | nil =>
      simp only [List.nil_append] at h2
      have hx : x ∈ b := by rw [← h2]; simp
      rcases hb x hx reqs hr r hrr with h | h
      · exact Or.inl h
      · refine Or.inr ?_
        rw [h1] at h; simpa using h
    | cons y ys =>
      simp only [List.cons_append, List.cons.injEq] at h2
      obtain ⟨rfl, h2⟩ := h2
      exact ha pre x ys (by rw [h1]) reqs hr r hrr

theorem Inv.round {known : List α} {dict : List (α × List α)} {order : List α}
    (hd : (dict.map Prod.fst).Nodup) (h : Inv known dict order) :
    Inv known dict (round dict order) := by
  obtain ⟨done, rfl, hn, hk, hr⟩ := h
  set new := ((pending dict (known ++ done)).filter
    (fun e => e.2.all (fun r => (known ++ done).contains r))).map Prod.fst with hnew
  have hmem : ∀ x ∈ new, ∃ reqs, (x, reqs) ∈ dict ∧ x ∉ known ∧ x ∉ done ∧
      ∀ r ∈ reqs, r ∈ known ∨ r ∈ done := by
    intro x hx
    rw [hnew] at hx
    simp only [List.mem_map, List.mem_filter, mem_pending, List.all_eq_true,
      List.contains_iff_mem, List.mem_append, not_or] at hx
    obtain ⟨⟨a, b⟩, ⟨⟨h1, h2, h3⟩, h4⟩, rfl⟩ := hx
    exact ⟨b, h1, h2, h3, h4⟩
  refine ⟨done ++ new, ?_, ?_, ?_, ?_⟩
  · simp [SortDict.round, hnew]
  · refine List.Nodup.append hn ?_ ?_
    · have : List.Sublist new (dict.map Prod.fst) := by
        rw [hnew]
        exact ((List.filter_sublist).trans List.filter_sublist).map _
      exact hd.sublist this
    · intro x hx hx'
      obtain ⟨_, _, _, h3, _⟩ := hmem x hx'
      exact h3 hx
  · intro x hx
    rcases List.mem_append.1 hx with hx | hx
    · exact hk x hx
    · obtain ⟨reqs, h1, h2, _⟩ := hmem x hx
      exact ⟨h2, reqs, h1⟩
  · apply respects_append hr
    intro x hx reqs hreq r hrr
    obtain ⟨reqs', h1, _, _, h4⟩ := hmem x hx
    have : reqs = reqs' := by
      have := List.inj_on_of_nodup_map hd hreq h1 rfl
      simpa using this
    subst this
    exact h4 r hrr

theorem Inv.iter {known : List α} {dict : List (α × List α)} 
    (hd : (dict.map Prod.fst).Nodup) (j : Nat) :
    Inv known dict ((SortDict.round dict)^[j] known) := by
  induction j with
  | zero => exact Inv.init _ _
  | succ j ih => rw [Function.iterate_succ', Function.comp]; exact ih.round hd

/-- An element of `known` or a key. -/
theorem Computable.key {known : List α} {dict : List (α × List α)} {x}
    (h : Computable known dict x) : x ∈ known ∨ ∃ reqs, (x, reqs) ∈ dict := by
  cases h with
  | known h => exact Or.inl h
  | step h _ => exact Or.inr ⟨_, h⟩

theorem ComputableIn.toComputable {known : List α} {dict : List (α × List α)} {n x}
    (h : ComputableIn known dict n x) : Computable known dict x := by
  induction h with
  | known h => exact .known h
  | step h _ ih => exact .step h ih

/-- Progress: if some round adds nothing, nothing further is ever computable. -/
theorem stable_of_round_eq {known : List α} {dict : List (α × List α)} {j}
    (hst : ∀ x, ComputableIn known dict (j+1) x → ComputableIn known dict j x) :
    ∀ x, Computable known dict x → ComputableIn known dict j x := by
  intro x h
  induction h with
  | known h => exact .known h
  | step h _ ih => exact hst _ (.step h ih)

theorem round_length_progress {known : List α} {dict : List (α × List α)} (j : Nat)
    (hns : ∃ x, Computable known dict x ∧ ¬ ComputableIn known dict j x) :
    j + 1 ≤ ((SortDict.round dict)^[j+1] known).length - known.length := by
  have len_mono : ∀ o : List α, o.length ≤ (SortDict.round dict o).length := by
    intro o; simp [SortDict.round]
  have step : ∀ i, (∃ x, Computable known dict x ∧ ¬ ComputableIn known dict i x) →
      ((SortDict.round dict)^[i] known).length + 1 ≤ ((SortDict.round dict)^[i+1] known).length := by
    intro i hi
    by_contra hcon
    rw [Function.iterate_succ', Function.comp] at hcon
    have hl := len_mono ((SortDict.round dict)^[i] known)
    have heq : (SortDict.round dict ((SortDict.round dict)^[i] known)) =
        (SortDict.round dict)^[i] known := by
      have : List.Sublist ((SortDict.round dict)^[i] known)
          (SortDict.round dict ((SortDict.round dict)^[i] known)) := by
        rw [SortDict.round]; exact List.sublist_append_left _ _
      exact (this.eq_of_length (by omega)).symm
    have hst : ∀ x, ComputableIn known dict (i+1) x → ComputableIn known dict i x := by
      intro x hx
      have := (mem_iter_round (i+1) x).2 hx
      rw [Function.iterate_succ', Function.comp, heq] at this
      exact (mem_iter_round i x).1 this
    obtain ⟨x, hx, hnx⟩ := hi
    exact hnx (stable_of_round_eq hst x hx)
  induction j with
  | zero =>
    have := step 0 hns
    simp only [Function.iterate_zero, id] at this
    omega
  | succ j ih =>
    obtain ⟨x, hx, hnx⟩ := hns
    have h1 := ih ⟨x, hx, fun h => hnx (ComputableIn.mono h (by omega))⟩
    have h2 := step (j+1) ⟨x, hx, hnx⟩
    omega

theorem computable_depth_le {known : List α} {dict : List (α × List α)}
    (hd : (dict.map Prod.fst).Nodup) {x} (h : Computable known dict x) :
    ComputableIn known dict dict.length x := by
  by_contra hcon
  have h1 := round_length_progress dict.length ⟨x, h, hcon⟩
  obtain ⟨done, h2, hn, hk, _⟩ := Inv.iter (known := known) hd (dict.length + 1)
  rw [h2] at h1
  have : done.length ≤ (dict.map Prod.fst).length := by
    apply List.Subperm.length_le
    apply List.subperm_of_subset hn
    intro y hy
    obtain ⟨_, reqs, hr⟩ := hk y hy
    exact List.mem_map.2 ⟨_, hr, rfl⟩
  simp at h1 this
  omega

end OpenSBLI.SortDict
