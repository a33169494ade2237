import Verif.Lemmas.ReconValue
import Verif.Props.C68_Monitor

/-!
# Names of the variables of the reconstruction kernel: helper lemmas for C81
-/
namespace OpenSBLI.Recon
open Sim Weno

/-- Variables whose names determine them: datasets not called `inv_rho` with names not starting with a digit, fewer than eleven components. -/
def Allowed : Var → Prop
  | .avg t => t ≠ "inv_rho" ∧ ∀ c, t.toList.head? = some c → c.isDigit = false
  | .lev i _ | .cf i _ | .cs i _ | .lam i => i < 10
  | _ => True

/-- First character of a name. -/
def headOf : Var → Char
  | .avg _ | .roeInv | .lev _ _ => 'A'
  | .invA | .invRho | .invMet | .invAlpha | .invOmega => 'i'
  | .cf _ _ | .cs _ _ => 'C'
  | .lam _ => 'm'
  | .ct => 'T'
  | .beta _ => 'b'
  | .alpha _ => 'a'
  | .omega _ => 'o'
  | .delta _ => 'd'
  | .recon _ => 'R'

theorem name_head (d : ℕ) (v : Var) : (v.name d).toList.head? = some (headOf v) := by
  cases v <;> simp [Var.name, headOf]

theorem digits_one {i : ℕ} (h : i < 10) : ∃ c, (toString i).toList = [c] ∧ c.isDigit = true := by
  interval_cases i <;> exact ⟨_, rfl, rfl⟩

theorem two_inj {i j i' j' : ℕ} (h : i < 10) (h' : i' < 10) (e : (toString i).toList ++ (toString j).toList = (toString i').toList ++ (toString j').toList) : i = i' ∧ j = j' := by
  obtain ⟨c, hc, _⟩ := digits_one h
  obtain ⟨c', hc', _⟩ := digits_one h'
  rw [hc, hc'] at e
  simp only [List.singleton_append, List.cons.injEq] at e
  refine ⟨Mon.toString_injective (String.toList_injective (by rw [hc, hc', e.1])), Mon.toString_injective (String.toList_injective e.2)⟩

theorem digit_head (n : ℕ) : ∃ c, (toString n).toList.head? = some c ∧ c.isDigit = true := by
  have e : (toString n).toList = Nat.toDigits 10 n := by simp [Nat.toString_eq_repr, Nat.repr]
  have h0 : (toString n).toList ≠ [] := by simp [Nat.toString_eq_repr]
  cases h : (toString n).toList with
  | nil => exact absurd h h0
  | cons c l => exact ⟨c, rfl, Nat.isDigit_of_mem_toDigits (b := 10) (n := n) (by norm_num) (by norm_num) (by rw [← e, h]; simp)⟩

theorem name_inj (d : ℕ) {v w : Var} (hv : Allowed v) (hw : Allowed w) (h : v.name d = w.name d) : v = w := by
  have hh := congrArg (fun s => s.toList.head?) h
  simp only [name_head, Option.some.injEq] at hh
  have hl := congrArg String.toList h
  have hd := digit_head d
  cases v <;> cases w <;> first | rfl | (simp [headOf] at hh; done) | (simp [Var.name] at h; done) | skip
  all_goals simp only [Var.name, String.toList_append, List.append_assoc, List.append_cancel_left_eq] at hl
  · rw [String.toList_injective hl]
  · exact absurd (String.toList_injective (by simpa using hl)) hv.1
  · obtain ⟨c, hc, hc'⟩ := hd
    have := hv.2 c (by rw [hl, List.head?_append, hc]; rfl)
    simp [hc'] at this
  · exact absurd (String.toList_injective (by simpa using hl.symm)) hw.1
  · obtain ⟨c, hc, hc'⟩ := hd
    have := congrArg (fun l => l.tail.head?) hl
    rw [Nat.toString_eq_repr, Nat.toList_repr] at hc
    simp [hc] at this
    simp [← this] at hc'
  · obtain ⟨c, hc, hc'⟩ := hd
    have := hw.2 c (by rw [← hl, List.head?_append, hc]; rfl)
    simp [hc'] at this
  · obtain ⟨c, hc, hc'⟩ := hd
    have := congrArg (fun l => l.tail.head?) hl
    rw [Nat.toString_eq_repr, Nat.toList_repr] at hc
    simp [hc] at this
    simp [this] at hc'
  · obtain ⟨rfl, rfl⟩ := two_inj hv hw hl; rfl
  · obtain ⟨rfl, rfl⟩ := two_inj hv hw hl; rfl
  · exact absurd (congrArg (fun l => l.tail.head?) hl) (by simp)
  · exact absurd (congrArg (fun l => l.tail.head?) hl) (by simp)
  · obtain ⟨rfl, rfl⟩ := two_inj hv hw hl; rfl
  · obtain ⟨rfl, _⟩ := two_inj hv hw hl; rfl
  all_goals rw [Mon.toString_injective (String.toList_injective hl)]

/-! ## Variables occurring -/

variable {D n : ℕ} {I : Interp D} {S : Sympy D} {K : Input D n}

/-- Hypotheses on names. -/
structure Input.Named (K : Input D n) : Prop where
  comps : n ≤ 10
  terms : ∀ t ∈ K.terms, Allowed (.avg t)
  metric : ∀ e, K.invMetric = some e → ∀ t ∈ e.datas, Allowed (.avg t)

theorem allowed_u (i : ℕ) : Allowed (.avg s!"u{i}") := by
  rw [velocity_name]
  refine ⟨fun h => ?_, fun c hc => ?_⟩
  · have := congrArg (fun s => s.toList.head?) h
    simp at this
  · simp at hc
    subst hc; decide

/-- All variables of a list of equations are allowed. -/
def AllOk (l : List (Var × Term Var D)) : Prop := ∀ q ∈ l, Allowed q.1 ∧ ∀ v ∈ q.2.vars, Allowed v

theorem AllOk.append {l l' : List (Var × Term Var D)} (h : AllOk l) (h' : AllOk l') : AllOk (l ++ l') := fun q hq => by
  rcases List.mem_append.1 hq with hq | hq
  · exact h q hq
  · exact h' q hq

theorem AllOk.gamma (hS : S.Sound I) {l : List (Var × Term Var D)} (h : AllOk l) : AllOk (l.map fun q => (q.1, S.gamma q.2)) := fun q hq => by
  obtain ⟨r, hr, rfl⟩ := List.mem_map.1 hq
  exact ⟨(h r hr).1, fun v hv => (h r hr).2 v (hS.gamma_vars _ v hv)⟩

theorem simple_ok (hS : S.Sound I) {ts : List String} (h : ∀ t ∈ ts, Allowed (.avg t)) : AllOk (simpleEqs S ts) := fun q hq => by
  simp only [simpleEqs, List.mem_map] at hq
  obtain ⟨t, ht, rfl⟩ := hq
  exact ⟨h t ht, fun v hv => by simpa [Term.vars, left, right] using hS.factor_vars _ v hv⟩

theorem avg_ok (hS : S.Sound I) (hN : K.Named) : AllOk (K.avgEqs S) := by
  unfold Input.avgEqs
  split
  · unfold roeEqs
    refine .append (.append (.append ?_ ?_) ?_) (simple_ok hS fun t ht => hN.terms t (List.mem_of_mem_filter ht))
    · intro q hq
      simp only [List.mem_cons, List.not_mem_nil, or_false] at hq
      rcases hq with rfl | rfl
      · exact ⟨⟨by decide, by simp⟩, by simp [Term.vars, left, right]⟩
      · exact ⟨trivial, by simp [Term.vars, left, right]⟩
    · intro q hq
      simp only [List.mem_map] at hq
      obtain ⟨i, _, rfl⟩ := hq
      refine ⟨allowed_u i.val, fun v hv => ?_⟩
      simp [Term.vars, left, right] at hv
      subst hv; trivial
    · intro q hq
      simp only [List.mem_cons, List.not_mem_nil, or_false] at hq
      subst hq
      refine ⟨⟨by decide, by simp⟩, fun v hv => ?_⟩
      simp only [Term.vars, List.mem_append, List.not_mem_nil, false_or, roeHTerm, left, right, or_false, List.mem_singleton] at hv
      rcases hv with rfl | hv
      · trivial
      · have := hS.factor_vars _ v hv
        simp only [roeKETerm, Term.vars, List.mem_append, List.not_mem_nil, false_or, vars_sum, List.mem_map] at this
        obtain ⟨t, ⟨i, _, rfl⟩, hv⟩ := this
        simp only [Term.vars, List.mem_singleton] at hv
        subst hv
        exact allowed_u i.val
  · exact simple_ok hS hN.terms

theorem inverses_ok (hN : K.Named) : ∀ q ∈ K.inverses, Allowed q.2 ∧ ∀ v ∈ q.1.vars, Allowed v := by
  intro q hq
  simp only [Input.inverses, List.mem_append, List.mem_cons, List.not_mem_nil, or_false, List.mem_map, Option.mem_toList] at hq
  rcases hq with (rfl | rfl) | ⟨e, he, rfl⟩
  · exact ⟨trivial, fun v hv => by simp [Term.vars] at hv; subst hv; exact ⟨by decide, by simp⟩⟩
  · exact ⟨trivial, fun v hv => by simp [Term.vars] at hv; subst hv; exact ⟨by decide, by simp⟩⟩
  · refine ⟨trivial, fun v hv => ?_⟩
    obtain ⟨t, ht, rfl⟩ := avgTerm_vars e v hv
    exact hN.metric e he t ht

theorem inv_ok (hN : K.Named) : AllOk K.invEqs := fun q hq => by
  simp only [Input.invEqs, List.mem_map] at hq
  obtain ⟨q, hq, rfl⟩ := hq
  exact inverses_ok hN q hq

theorem emit_ok (hS : S.Sound I) {v : Var} {t : Term Var D} (hv : Allowed v) (ht : ∀ w ∈ t.vars, Allowed w) : AllOk (emit S v t) := fun q hq => by
  unfold emit at hq
  split at hq
  · simp at hq
  · simp only [List.mem_singleton] at hq
    subst hq
    exact ⟨hv, fun w hw => ht w (hS.factor_vars _ w hw)⟩

theorem index_ok (hN : K.Named) (i : Fin n) : i.val < 10 := lt_of_lt_of_le i.isLt hN.comps

theorem lev_ok (hS : S.Sound I) (hN : K.Named) : AllOk (K.levEqs S) := fun q hq => by
  simp only [Input.levEqs, List.mem_flatMap, List.mem_finRange, true_and] at hq
  obtain ⟨i, j, hq⟩ := hq
  split at hq
  · simp at hq
  · refine emit_ok hS (by exact index_ok hN i) (fun w hw => ?_) q hq
    rcases hS.subs_vars _ _ w hw with hw | hw
    · obtain ⟨t, ht, rfl⟩ := avgTerm_vars _ w hw
      exact hN.terms t (mem_terms.2 ⟨i, .inr ⟨j, .inl ht⟩⟩)
    · obtain ⟨q, hq, rfl⟩ := List.mem_map.1 hw
      exact (inverses_ok hN q hq).1

theorem levTerm_ok (hN : K.Named) (i j : Fin n) : ∀ v ∈ (K.levTerm i j).vars, Allowed v := by
  unfold Input.levTerm
  split
  · simp [Term.vars]
  · intro v hv
    simp only [Term.vars, List.mem_singleton] at hv
    subst hv
    exact index_ok hN i

theorem char_ok (hS : S.Sound I) (hN : K.Named) : AllOk (K.charEqs S) := fun q hq => by
  obtain ⟨p, j, i, _, hq | hq⟩ := mem_charEqs.1 hq
  · refine emit_ok hS (by exact index_ok hN i) (fun w hw => ?_) q hq
    simp only [Input.cfTerm, vars_sum, List.mem_map] at hw
    obtain ⟨t, ⟨k, _, rfl⟩, hw⟩ := hw
    simp only [Term.vars, List.append_nil] at hw
    exact levTerm_ok hN i k w hw
  · refine emit_ok hS (by exact index_ok hN i) (fun w hw => ?_) q hq
    simp only [Input.csTerm, vars_sum, List.mem_map] at hw
    obtain ⟨t, ⟨k, _, rfl⟩, hw⟩ := hw
    simp only [Term.vars, List.append_nil] at hw
    exact levTerm_ok hN i k w hw

theorem lamTerm_vars (i : Fin n) : (K.lamTerm i).vars = [] := by
  unfold Input.lamTerm
  suffices H : ∀ (l : List ℤ) (o : Term Var D), o.vars = [] → (l.foldl (fun o p => Term.max o (.abs (.at (K.C.ev K.d i) p))) o).vars = [] from H _ _ rfl
  intro l
  induction l with
  | nil => exact fun o h => h
  | cons p l ih => intro o h; exact ih _ (by simp [Term.vars, h])

theorem lamAll_ok (hS : S.Sound I) (hN : K.Named) : AllOk (K.lamAll S) := fun q hq => by
  obtain ⟨i, hq⟩ := mem_lamAll.1 hq
  exact emit_ok hS (by exact index_ok hN i) (fun w hw => by rw [lamTerm_vars] at hw; simp at hw) q hq

theorem lam_ok (hS : S.Sound I) (hN : K.Named) : AllOk (K.lamEqs S) := by
  have h := lamAll_ok hS hN
  unfold Input.lamEqs
  cases hall : K.lamAll S with
  | nil => intro q hq; simp at hq
  | cons q l =>
    rw [hall] at h
    intro r hr
    simp only [List.mem_cons, List.mem_map] at hr
    rcases hr with rfl | ⟨r, hr, rfl⟩
    · exact h r (by simp)
    · refine ⟨(h r (by simp [hr])).1, ?_⟩
      simp only
      split
      · intro v hv
        simp only [Term.vars, List.mem_singleton] at hv
        subst hv
        exact (h q (by simp)).1
      · exact (h r (by simp [hr])).2

theorem pre_ok (hS : S.Sound I) (hN : K.Named) : AllOk (K.pre S ++ K.ctEqs) := by
  unfold Input.pre
  refine .append (.append (.append (.gamma hS (avg_ok hS hN)) (inv_ok hN)) (.gamma hS (.append (.append (lev_ok hS hN) (char_ok hS hN)) (lam_ok hS hN)))) ?_
  intro q hq
  simp only [Input.ctEqs, List.mem_map] at hq
  obtain ⟨e, _, rfl⟩ := hq
  exact ⟨trivial, by simp [Term.vars]⟩

theorem entry_ok (hS : S.Sound I) (hN : K.Named) (side : Side) (i : Fin n) (p : ℤ) : ∀ v ∈ (K.entry S side i p).vars, Allowed v := by
  have hl : ∀ v ∈ (K.lamVar i).vars, Allowed v := by
    unfold Input.lamVar
    split
    · simp [Term.vars]
    · intro v hv
      simp only [Term.vars, List.mem_singleton] at hv
      subst hv
      exact index_ok hN i
  unfold Input.entry
  split
  · unfold Input.split
    intro v hv
    cases side <;>
    · have := hS.factor_vars _ v hv
      simp only [Term.vars, List.mem_append, List.not_mem_nil, false_or, List.mem_singleton] at this
      rcases this with rfl | h | rfl
      · exact index_ok hN i
      · exact hl v h
      · exact index_ok hN i
  · simp [Term.vars]

theorem sum_ok {l : List (Term Var D)} (h : ∀ t ∈ l, ∀ v ∈ t.vars, Allowed v) : ∀ v ∈ (Term.sum l).vars, Allowed v := fun v hv => by
  obtain ⟨t, ht, hv⟩ := (vars_sum l v).1 hv
  exact h t ht v hv

theorem range_ok {k : ℕ} {name : ℕ → Var} {t : ℕ → Term Var D} (h : ∀ r, Allowed (name r)) (ht : ∀ r, ∀ v ∈ (t r).vars, Allowed v) : AllOk ((List.range k).map fun r => (name r, t r)) := fun q hq => by
  obtain ⟨r, _, rfl⟩ := List.mem_map.1 hq
  exact ⟨h r, ht r⟩

theorem one_ok {v : Var} {t : Term Var D} (h : Allowed v) (ht : ∀ v ∈ t.vars, Allowed v) : AllOk [(v, t)] := fun q hq => by
  rw [List.mem_singleton] at hq
  subst hq
  exact ⟨h, ht⟩

theorem wenoAlpha_ok {form : Formulation} {k : ℕ} {al : (ℕ → ℝ) → ℕ → Term Var D} (h : wenoAlpha form k = some al) (w : ℕ → ℝ) (r : ℕ) : ∀ v ∈ (al w r).vars, Allowed v := by
  cases form with
  | JS =>
    simp only [wenoAlpha, Option.some.injEq] at h
    subst h
    intro v hv
    simp [Term.vars] at hv
    subst hv; trivial
  | Z =>
    simp only [wenoAlpha, Option.map_eq_some_iff] at h
    obtain ⟨t, ht, rfl⟩ := h
    intro v hv
    simp only [Term.vars, List.mem_append, List.not_mem_nil, false_or, List.mem_singleton] at hv
    rcases hv with hv | rfl
    · obtain ⟨s, _, rfl⟩ := tauTerm_vars ht v hv; trivial
    · trivial

theorem weno_ok {alpha : ℕ → Term Var D} (ha : ∀ r, ∀ v ∈ (alpha r).vars, Allowed v) {side : Side} {k : ℕ} {dz : ℝ} {i : ℕ} {f : ℤ → Term Var D} (hf : ∀ p, ∀ v ∈ (f p).vars, Allowed v) :
    AllOk (wenoEqs alpha side k dz i f) := by
  unfold wenoEqs
  refine .append (.append (.append (.append (range_ok (fun _ => trivial) fun r => ?_) (range_ok (fun _ => trivial) ha)) (one_ok trivial ?_)) (range_ok (fun _ => trivial) fun r => ?_)) (one_ok trivial ?_)
  · refine sum_ok fun t ht => ?_
    obtain ⟨e, _, rfl⟩ := List.mem_map.1 ht
    intro v hv
    simp only [Term.vars, List.mem_append, List.not_mem_nil, false_or] at hv
    rcases hv with hv | hv <;> exact hf _ v hv
  · refine sum_ok fun t ht => ?_
    obtain ⟨r, _, rfl⟩ := List.mem_map.1 ht
    intro v hv
    simp only [Term.vars, List.mem_singleton] at hv
    subst hv; trivial
  · intro v hv
    simp only [Term.vars, List.mem_append, List.mem_singleton] at hv
    rcases hv with rfl | rfl <;> trivial
  · intro v hv
    simp only [Term.vars, List.mem_append, List.mem_singleton] at hv
    rcases hv with rfl | hv
    · trivial
    refine sum_ok (fun t ht => ?_) v hv
    obtain ⟨r, _, rfl⟩ := List.mem_map.1 ht
    intro v hv
    simp only [Term.vars, List.mem_append, List.mem_singleton] at hv
    rcases hv with rfl | hv
    · trivial
    refine sum_ok (fun t ht => ?_) v hv
    obtain ⟨j, _, rfl⟩ := List.mem_map.1 ht
    intro v hv
    simp only [Term.vars, List.mem_append, List.not_mem_nil, false_or] at hv
    exact hf _ v hv

theorem lin_ok {f : ℤ → Term Var D} (hf : ∀ p, ∀ v ∈ (f p).vars, Allowed v) (l : List (ℝ × ℤ)) : ∀ v ∈ (lin f l).vars, Allowed v := by
  refine sum_ok fun t ht => ?_
  obtain ⟨e, _, rfl⟩ := List.mem_map.1 ht
  intro v hv
  simp only [times, Term.vars, List.mem_append, List.not_mem_nil, false_or] at hv
  exact hf _ v hv

theorem tenoBeta_ok {f : ℤ → Term Var D} (hf : ∀ p, ∀ v ∈ (f p).vars, Allowed v) (side : Side) (r : ℕ) : ∀ v ∈ (tenoBeta side f r).vars, Allowed v := by
  intro v hv
  unfold tenoBeta at hv
  split at hv <;> simp only [times, Term.vars, List.mem_append, List.not_mem_nil, false_or] at hv
  all_goals first
    | (rcases hv with hv | hv | hv <;> exact lin_ok hf _ v hv)
    | (rcases hv with hv | hv <;> exact lin_ok hf _ v hv)

theorem teno_ok {o : Teno.Order} {ct : Term Var D} (hc : ∀ v ∈ ct.vars, Allowed v) {side : Side} {i : ℕ} {f : ℤ → Term Var D} (hf : ∀ p, ∀ v ∈ (f p).vars, Allowed v) : AllOk (tenoEqs o ct side i f) := by
  unfold tenoEqs
  have htau : ∀ v ∈ (tenoTau o : Term Var D).vars, Allowed v := by
    intro v hv
    cases o <;> simp [tenoTau, Term.vars, times] at hv
    · rcases hv with rfl | rfl <;> trivial
    · rcases hv with rfl | rfl | rfl | rfl <;> trivial
  refine .append (.append (.append (.append (.append (range_ok (fun _ => trivial) fun r => tenoBeta_ok hf side r) (range_ok (fun _ => trivial) fun r => ?_)) (one_ok trivial ?_)) (range_ok (fun _ => trivial) fun r => ?_))
    (one_ok trivial ?_)) (one_ok trivial ?_)
  · intro v hv
    simp only [Term.vars, List.mem_append, List.not_mem_nil, false_or, List.mem_singleton] at hv
    rcases hv with hv | rfl
    · exact htau v hv
    · trivial
  · refine sum_ok fun t ht => ?_
    obtain ⟨r, _, rfl⟩ := List.mem_map.1 ht
    intro v hv
    simp only [Term.vars, List.mem_singleton] at hv
    subst hv; trivial
  · intro v hv
    simp only [Term.vars, List.mem_append, List.mem_singleton] at hv
    rcases hv with (rfl | rfl) | hv
    · trivial
    · trivial
    · exact hc v hv
  · refine sum_ok fun t ht => ?_
    obtain ⟨r, _, rfl⟩ := List.mem_map.1 ht
    intro v hv
    simp only [times, Term.vars, List.mem_append, List.not_mem_nil, false_or, List.mem_singleton] at hv
    subst hv; trivial
  · intro v hv
    simp only [Term.vars, List.mem_append, List.mem_singleton] at hv
    rcases hv with rfl | hv
    · trivial
    refine sum_ok (fun t ht => ?_) v hv
    obtain ⟨r, _, rfl⟩ := List.mem_map.1 ht
    intro v hv
    simp only [times, Term.vars, List.mem_append, List.mem_singleton, List.not_mem_nil, false_or] at hv
    rcases hv with (rfl | rfl) | hv
    · trivial
    · trivial
    refine sum_ok (fun t ht => ?_) v hv
    obtain ⟨j, _, rfl⟩ := List.mem_map.1 ht
    intro v hv
    simp only [Term.vars, List.append_nil] at hv
    exact hf _ v hv

theorem recipe_ok (hS : S.Sound I) (hN : K.Named) {f : Side → Fin n → List (Var × Term Var D)} (hf : K.recipe S = some f) (side : Side) (i : Fin n) : AllOk (f side i) := by
  unfold Input.recipe at hf
  cases hs : K.C.scheme with
  | weno form k dz w =>
    rw [hs] at hf
    simp only [Option.map_eq_some_iff] at hf
    obtain ⟨al, ha, rfl⟩ := hf
    exact weno_ok (wenoAlpha_ok ha _) (entry_ok hS hN side i)
  | teno o eps CT =>
    rw [hs] at hf
    simp only [Option.some.injEq] at hf
    subst hf
    refine teno_ok (fun v hv => ?_) (entry_ok hS hN side i)
    unfold Input.ctTerm at hv
    split at hv
    · simp only [Term.vars, List.mem_singleton] at hv
      subst hv; trivial
    · simp [Term.vars] at hv

theorem eqs_ok (hS : S.Sound I) (hN : K.Named) {l : List (Var × Term Var D)} (hl : K.eqs S = some l) : AllOk l := by
  simp only [Input.eqs, Input.interp, Option.map_map, Option.map_eq_some_iff, Function.comp] at hl
  obtain ⟨f, hf, rfl⟩ := hl
  refine .append (pre_ok hS hN) fun q hq => ?_
  simp only [List.mem_flatMap, List.mem_append] at hq
  obtain ⟨i, _, hq | hq⟩ := hq
  · exact recipe_ok hS hN hf _ _ q hq
  · exact recipe_ok hS hN hf _ _ q hq

theorem out_ok (hS : S.Sound I) (hN : K.Named) (i : Fin n) : ∀ v ∈ (K.out S i).vars, Allowed v := by
  intro v hv
  refine sum_ok (fun t ht => ?_) v (hS.gamma_vars _ v hv)
  obtain ⟨j, _, rfl⟩ := List.mem_map.1 ht
  intro v hv
  simp only [Term.vars, List.mem_append, List.mem_singleton] at hv
  rcases hv with hv | rfl
  · rcases replaceAll_vars _ _ v hv with hv | hv
    · obtain ⟨t, ht, rfl⟩ := avgTerm_vars _ v hv
      exact hN.terms t (mem_terms.2 ⟨i, .inr ⟨j, .inr ht⟩⟩)
    · obtain ⟨q, hq, rfl⟩ := List.mem_map.1 hv
      exact (inverses_ok hN q hq).1
  · trivial

end OpenSBLI.Recon
