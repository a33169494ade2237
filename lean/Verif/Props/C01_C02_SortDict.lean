import Verif.Lemmas.SortDict

set_option linter.unusedSectionVars false

/-!
# C01, C02 — ordering of constituent relations
`hd` says that the keys of the dictionary are distinct (true of every Python dictionary).
-/
namespace OpenSBLI.SortDict
open Spec

variable {α : Type} [DecidableEq α]

/-- **C01.** Whatever order is returned is a permutation of the relations that are not already
known, and every relation only reads known or earlier computed quantities. -/
theorem C01_order_respects_dependencies (known : List α) (dict : List (α × List α))
    (hd : (dict.map Prod.fst).Nodup) (order : List α)
    (h : sortDictionary known dict = .ok order) :
    order.Perm ((dict.map Prod.fst).filter (fun k => k ∉ known)) ∧
    RespectsDeps known dict order := by
  unfold sortDictionary at h
  split at h
  case h_2 => cases h
  case h_1 o ho =>
  obtain ⟨j, _, hoj, hp⟩ := sortLoop_ok ho
  obtain ⟨done, h2, hn, hk, hr⟩ := Inv.iter (known := known) hd j
  have : order = done := by
    have h' : o = known ++ done := by rw [hoj, h2]
    cases h
    rw [h']; simp
  subst this
  refine ⟨?_, hr⟩
  rw [List.perm_ext_iff_of_nodup hn (hd.filter _)]
  intro x
  simp only [List.mem_filter, List.mem_map, decide_eq_true_eq]
  constructor
  · intro hx
    obtain ⟨h1, reqs, h3⟩ := hk x hx
    exact ⟨⟨_, h3, rfl⟩, h1⟩
  · rintro ⟨⟨⟨y, reqs⟩, hy, rfl⟩, hnk⟩
    have := pending_isEmpty_iff.1 hp _ hy
    rw [hoj, h2] at this
    simpa [hnk] using this

/-- **C02.** The routine returns an order if and only if every relation can be computed from the
known quantities through at most 1000 layers; otherwise it raises. -/
theorem C02_succeeds_iff_resolvable_in_budget (known : List α) (dict : List (α × List α)) :
    (∃ order, sortDictionary known dict = .ok order) ↔
    ∀ e ∈ dict, ComputableIn known dict 1000 e.1 := by
  have key : (∃ order, sortDictionary known dict = .ok order) ↔
      ∃ o, sortLoop dict 0 known = .ok o := by
    unfold sortDictionary
    constructor
    · rintro ⟨order, h⟩
      split at h
      case h_2 => cases h
      case h_1 o ho => exact ⟨o, ho⟩
    · rintro ⟨o, ho⟩
      exact ⟨o.drop known.length, by simp [ho]⟩
  rw [key]
  constructor
  · rintro ⟨o, ho⟩ e he
    obtain ⟨j, hj, hoj, hp⟩ := sortLoop_ok ho
    have := pending_isEmpty_iff.1 hp e he
    rw [hoj] at this
    exact ComputableIn.mono ((mem_iter_round j _).1 this) (by omega)
  · intro h
    apply sortLoop_complete 1000 (by omega)
    rw [pending_isEmpty_iff]
    intro e he
    exact (mem_iter_round _ _).2 (h e he)

/-- **C02 (small systems).** With at most 1000 relations the budget is irrelevant: the routine
succeeds exactly on resolvable systems. -/
theorem C02_succeeds_iff_resolvable (known : List α) (dict : List (α × List α))
    (hd : (dict.map Prod.fst).Nodup) (hsize : dict.length ≤ 1000) :
    (∃ order, sortDictionary known dict = .ok order) ↔
    ∀ e ∈ dict, Computable known dict e.1 := by
  rw [C02_succeeds_iff_resolvable_in_budget]
  constructor
  · exact fun h e he => ComputableIn.toComputable (h e he)
  · exact fun h e he => ComputableIn.mono (computable_depth_le hd (h e he)) hsize

/-- **C01/C02 (iteration order).** The outcome does not depend on the dictionary iteration order
nor on the order of the known list, except that independent relations may be listed differently. -/
theorem C01_iteration_order_irrelevant (known known' : List α) (dict dict' : List (α × List α))
    (hk : ∀ x, x ∈ known ↔ x ∈ known') (hp : dict.Perm dict')
    (hd : (dict.map Prod.fst).Nodup) :
    (∀ order, sortDictionary known dict = .ok order →
      ∃ order', sortDictionary known' dict' = .ok order' ∧ order.Perm order') := by
  intro order h
  have tr : ∀ n x, ComputableIn known dict n x → ComputableIn known' dict' n x := by
    intro n x hx
    induction hx with
    | known h => exact .known ((hk _).1 h)
    | step h _ ih => exact .step (hp.mem_iff.1 h) ih
  have h1 := (C02_succeeds_iff_resolvable_in_budget known dict).1 ⟨_, h⟩
  obtain ⟨order', h2⟩ := (C02_succeeds_iff_resolvable_in_budget known' dict').2
    (fun e he => tr _ _ (h1 e (hp.mem_iff.2 he)))
  have hd' : (dict'.map Prod.fst).Nodup := (hp.map _).nodup_iff.1 hd
  refine ⟨order', h2, ?_⟩
  have p1 := (C01_order_respects_dependencies known dict hd order h).1
  have p2 := (C01_order_respects_dependencies known' dict' hd' order' h2).1
  refine p1.trans (.trans ?_ p2.symm)
  have : (fun k => decide (k ∉ known)) = (fun k => decide (k ∉ known')) := by
    funext k; simp [hk]
  rw [this]
  exact (hp.map _).filter _

/-- **C02.** A relation that (directly or through others) needs itself is never silently ordered:
if some relation is not computable from the known quantities, the routine raises. -/
theorem C02_unresolvable_raises (known : List α) (dict : List (α × List α))
    (e) (he : e ∈ dict) (h : ¬ Computable known dict e.1) :
    ∃ err, sortDictionary known dict = .error err := by
  cases hs : sortDictionary known dict with
  | error e => exact ⟨e, rfl⟩
  | ok o =>
    exact absurd (ComputableIn.toComputable ((C02_succeeds_iff_resolvable_in_budget known dict).1 ⟨o, hs⟩ e he)) h

/-- A chain `1 ← 2 ← ... ← n` of relations, `0` being known. -/
def chain (n : Nat) : List (Nat × List Nat) := (List.range n).map (fun i => (i+1, [i]))

theorem chain_computable (n : Nat) : ∀ e ∈ chain n, Computable [0] (chain n) e.1 := by
  intro e he
  simp only [chain, List.mem_map, List.mem_range] at he
  obtain ⟨i, hi, rfl⟩ := he
  have : ∀ i, i ≤ n → Computable [0] (chain n) i := by
    intro i
    induction i with
    | zero => intro _; exact .known (by simp)
    | succ i ih =>
      intro h
      refine .step (reqs := [i]) ?_ ?_
      · simp only [chain, List.mem_map, List.mem_range]; exact ⟨i, by omega, rfl⟩
      · intro r hr; simp only [List.mem_singleton] at hr; subst hr; exact ih (by omega)
  exact this (i+1) (by omega)

theorem chain_depth (n : Nat) : ∀ d x, ComputableIn [0] (chain n) d x → x ≤ d := by
  intro d x h
  induction h with
  | known h => simp at h; omega
  | step h _ ih =>
    simp only [chain, List.mem_map, List.mem_range, Prod.mk.injEq] at h
    obtain ⟨i, _, rfl, rfl⟩ := h
    have := ih i (by simp)
    omega

/-- **C02 (defect).** The hard-coded budget makes the routine fail on a resolvable chain of 1001
relations (any longer chain too). -/
theorem C02_budget_rejects_resolvable (n : Nat) (hn : 1001 ≤ n) :
    (∀ e ∈ chain n, Computable [0] (chain n) e.1) ∧
    ∃ err, sortDictionary [0] (chain n) = .error err := by
  refine ⟨chain_computable n, ?_⟩
  cases hs : sortDictionary [0] (chain n) with
  | error e => exact ⟨e, rfl⟩
  | ok o =>
    have h := (C02_succeeds_iff_resolvable_in_budget [0] (chain n)).1 ⟨o, hs⟩ (1000+1, [1000])
      (by simp only [chain, List.mem_map, List.mem_range]; exact ⟨1000, by omega, rfl⟩)
    have := chain_depth n _ _ h
    omega

/-- Non-vacuity: the documentation's example — p needs rho,u; T needs p; u needs rho. -/
example : sortDictionary ["rho", "rhou", "rhoE"]
    [("T", ["p", "rho"]), ("p", ["u", "rho", "rhoE"]), ("u", ["rhou", "rho"])] =
    .ok ["u", "p", "T"] := by decide +kernel

/-- Non-vacuity: hypotheses of `C02_unresolvable_raises` hold for a two-cycle. -/
example : ¬ Computable ["rho"] [("p", ["T"]), ("T", ["p"])] "p" := by
  have : ∀ x, Computable ["rho"] [("p", ["T"]), ("T", ["p"])] x → x ≠ "p" ∧ x ≠ "T" := by
    intro x h
    induction h with
    | known h => simp at h; subst h; decide
    | step h _ ih =>
      simp only [List.mem_cons, Prod.mk.injEq, List.not_mem_nil, or_false] at h
      rcases h with ⟨rfl, rfl⟩ | ⟨rfl, rfl⟩
      · exact absurd rfl (ih "T" (by simp)).2
      · exact absurd rfl (ih "p" (by simp)).1
  exact fun h => (this _ h).1 rfl

end OpenSBLI.SortDict
