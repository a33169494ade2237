import Verif.Lemmas.ShockText
import Verif.Lemmas.WenoRational

/-! # The equations of the reconstruction kernel have faithful texts: helper lemmas for C86 -/
namespace OpenSBLI.Recon
open Sim CCode Reg Weno

variable {D n : ℕ} {T : Text D} {U : Arr → Prop} {lit : ℝ → Sym D} {S : Sympy D} {K : Input D n}

section
variable {ok : Var → Prop}

theorem sum_printable {l : List (Term Var D)} (h0 : IsLit lit 0) (h : ∀ t ∈ l, t.Printable T U lit ok) : (Term.sum l).Printable T U lit ok := by
  induction l with
  | nil => exact h0
  | cons t l ih => exact ⟨h t (by simp), ih fun t ht => h t (by simp [ht])⟩

theorem sum_recipInt (l : List (Term Var D)) : (Term.sum l).recipInt = false := by
  cases l <;> rfl

theorem mul_printable {a b : Term Var D} (ha : a.Printable T U lit ok) (hb : b.Good T U lit ok) : (Term.mul a b).Printable T U lit ok :=
  ⟨ha, hb.1, fun h => by rw [hb.2] at h; exact Bool.false_ne_true h.2⟩

theorem mul_good {a b : Term Var D} (ha : a.Printable T U lit ok) (hb : b.Good T U lit ok) : (Term.mul a b).Good T U lit ok := ⟨mul_printable ha hb, rfl⟩

theorem mul_printable' {a b : Term Var D} (ha : a.Printable T U lit ok) (hi : a.isInt = false) (hb : b.Printable T U lit ok) : (Term.mul a b).Printable T U lit ok :=
  ⟨ha, hb, fun h => by rw [hi] at h; exact Bool.false_ne_true h.1⟩

open Classical in
theorem replace_printable {t old : Term Var D} {new : Var} (hn : ok new) (ho : old.closed = false) (h : t.Printable T U lit ok) :
    (t.replace old new).Printable T U lit ok ∧ ((t.replace old new).isInt = true → t.isInt = true) ∧ ((t.replace old new).recipInt = true → t.recipInt = true) ∧
    (t.closed = true → (t.replace old new).closed = true) ∧ ((t.replace old new).isConst = true → t.isConst = true) := by
  induction t with
  | num q | const c | var v | «at» e p =>
    unfold Term.replace
    split
    · rename_i he
      exact ⟨hn, fun h => Bool.noConfusion h, fun h => Bool.noConfusion h, fun hc => by rw [he, ho] at hc; exact Bool.noConfusion hc, fun h => Bool.noConfusion h⟩
    · exact ⟨h, id, id, id, id⟩
  | add a b iha ihb =>
    unfold Term.replace
    split
    · rename_i he
      exact ⟨hn, fun h => Bool.noConfusion h, fun h => Bool.noConfusion h, fun hc => by rw [he, ho] at hc; exact Bool.noConfusion hc, fun h => Bool.noConfusion h⟩
    · obtain ⟨a1, a2, a3, a4, a5⟩ := iha h.1
      obtain ⟨b1, b2, b3, b4, b5⟩ := ihb h.2
      refine ⟨⟨a1, b1⟩, ?_, fun h => Bool.noConfusion h, ?_, fun h => Bool.noConfusion h⟩
      · simp only [Term.isInt, Bool.and_eq_true]
        exact fun h => ⟨a2 h.1, b2 h.2⟩
      · simp only [Term.closed, Bool.and_eq_true]
        exact fun h => ⟨a4 h.1, b4 h.2⟩
  | mul a b iha ihb =>
    unfold Term.replace
    split
    · rename_i he
      exact ⟨hn, fun h => Bool.noConfusion h, fun h => Bool.noConfusion h, fun hc => by rw [he, ho] at hc; exact Bool.noConfusion hc, fun h => Bool.noConfusion h⟩
    · obtain ⟨a1, a2, a3, a4, a5⟩ := iha h.1
      obtain ⟨b1, b2, b3, b4, b5⟩ := ihb h.2.1
      refine ⟨⟨a1, b1, fun hh => h.2.2 ⟨a2 hh.1, b3 hh.2⟩⟩, ?_, fun h => Bool.noConfusion h, ?_, fun h => Bool.noConfusion h⟩
      · simp only [Term.isInt, Bool.and_eq_true]
        exact fun h => ⟨a2 h.1, b2 h.2⟩
      · simp only [Term.closed, Bool.and_eq_true]
        exact fun h => ⟨a4 h.1, b4 h.2⟩
  | pow a b iha ihb =>
    unfold Term.replace
    split
    · rename_i he
      exact ⟨hn, fun h => Bool.noConfusion h, fun h => Bool.noConfusion h, fun hc => by rw [he, ho] at hc; exact Bool.noConfusion hc, fun h => Bool.noConfusion h⟩
    · obtain ⟨a1, a2, a3, a4, a5⟩ := iha h.1
      obtain ⟨b1, b2, b3, b4, b5⟩ := ihb h.2.1
      refine ⟨⟨a1, b1, fun hh => b4 (h.2.2 (a5 hh))⟩, fun h => Bool.noConfusion h, a2, ?_, fun h => Bool.noConfusion h⟩
      simp only [Term.closed, Bool.and_eq_true]
      exact fun h => ⟨a4 h.1, b4 h.2⟩
  | max a b iha ihb | cut a b iha ihb =>
    unfold Term.replace
    split
    · rename_i he
      exact ⟨hn, fun h => Bool.noConfusion h, fun h => Bool.noConfusion h, fun hc => by rw [he, ho] at hc; exact Bool.noConfusion hc, fun h => Bool.noConfusion h⟩
    · obtain ⟨a1, a2, a3, a4, a5⟩ := iha h.1
      obtain ⟨b1, b2, b3, b4, b5⟩ := ihb h.2
      refine ⟨⟨a1, b1⟩, fun h => Bool.noConfusion h, fun h => Bool.noConfusion h, ?_, fun h => Bool.noConfusion h⟩
      simp only [Term.closed, Bool.and_eq_true]
      exact fun h => ⟨a4 h.1, b4 h.2⟩
  | npow a k iha | sqrt a iha | abs a iha | fn f a iha | tenFloor a iha =>
    unfold Term.replace
    split
    · rename_i he
      exact ⟨hn, fun h => Bool.noConfusion h, fun h => Bool.noConfusion h, fun hc => by rw [he, ho] at hc; exact Bool.noConfusion hc, fun h => Bool.noConfusion h⟩
    · obtain ⟨a1, a2, a3, a4, a5⟩ := iha h
      exact ⟨a1, fun h => Bool.noConfusion h, fun h => Bool.noConfusion h, a4, fun h => Bool.noConfusion h⟩
  | inv a iha =>
    unfold Term.replace
    split
    · rename_i he
      exact ⟨hn, fun h => Bool.noConfusion h, fun h => Bool.noConfusion h, fun hc => by rw [he, ho] at hc; exact Bool.noConfusion hc, fun h => Bool.noConfusion h⟩
    · obtain ⟨a1, a2, a3, a4, a5⟩ := iha h
      exact ⟨a1, fun h => Bool.noConfusion h, a2, a4, fun h => Bool.noConfusion h⟩

theorem replaceAll_printable {l : List (Term Var D × Var)} (hl : ∀ q ∈ l, ok q.2 ∧ q.1.closed = false) {t : Term Var D} (h : t.Printable T U lit ok) : (t.replaceAll l).Printable T U lit ok := by
  unfold Term.replaceAll
  induction l generalizing t with
  | nil => exact h
  | cons q l ih => exact ih (fun q hq => hl q (by simp [hq])) (replace_printable (hl q (by simp)).1 (hl q (by simp)).2 h).1

end

/-- All equations are good. -/
def Input.AllGood (K : Input D n) (T : Text D) (U : Arr → Prop) (lit : ℝ → Sym D) (l : List (Var × Term Var D)) : Prop := ∀ q ∈ l, K.usable q.1 ∧ q.2.Good T U lit K.usable

/-- All equations are printable. -/
def Input.AllPrintable (K : Input D n) (T : Text D) (U : Arr → Prop) (lit : ℝ → Sym D) (l : List (Var × Term Var D)) : Prop := ∀ q ∈ l, K.usable q.1 ∧ q.2.Printable T U lit K.usable

theorem Input.AllGood.append {l l' : List (Var × Term Var D)} (h : K.AllGood T U lit l) (h' : K.AllGood T U lit l') : K.AllGood T U lit (l ++ l') := fun q hq => by
  rcases List.mem_append.1 hq with hq | hq
  · exact h q hq
  · exact h' q hq

theorem Input.AllPrintable.append {l l' : List (Var × Term Var D)} (h : K.AllPrintable T U lit l) (h' : K.AllPrintable T U lit l') : K.AllPrintable T U lit (l ++ l') := fun q hq => by
  rcases List.mem_append.1 hq with hq | hq
  · exact h q hq
  · exact h' q hq

theorem Input.AllGood.printable {l : List (Var × Term Var D)} (h : K.AllGood T U lit l) : K.AllPrintable T U lit l := fun q hq => ⟨(h q hq).1, (h q hq).2.1⟩

variable (hK : K.Writable S T U lit)
include hK

theorem lit_nat (k : ℤ) : IsLit lit (k : ℝ) := by have := hK.digits k; rwa [Rat.cast_intCast] at this

theorem lit_of {q : ℝ} (h : q ∈ rationals) : IsLit lit q := by
  obtain ⟨r, rfl⟩ := mem_rationals.1 h
  exact hK.digits r

theorem Input.AllGood.gamma {l : List (Var × Term Var D)} (h : K.AllGood T U lit l) : K.AllGood T U lit (l.map fun q => (q.1, S.gamma q.2)) := fun q hq => by
  obtain ⟨r, hr, rfl⟩ := List.mem_map.1 hq
  exact ⟨(h r hr).1, hK.writes.gamma _ (h r hr).2⟩

omit hK in
theorem arr_static {t : String} (h : U (.data t)) : Static T U (.arr (.data t) : Ex D) ∧ (.arr (.data t) : Ex D).plain :=
  ⟨⟨trivial, rfl, rfl, fun a ha => by rw [Ex.arrs, List.mem_singleton] at ha; exact ha ▸ h⟩, fun a ha => ⟨t, by rw [Ex.arrs, List.mem_singleton] at ha; exact ha⟩⟩

omit hK in
theorem arr_good {t : String} (h : U (.data t)) (p : ℤ) : (Term.at (.arr (.data t)) p : Term Var D).Good T U lit K.usable := ⟨arr_static h, rfl⟩

omit hK in
theorem usable_of {v : Var} (h : v ≠ .ct) : K.usable v := fun e => absurd e h

theorem simple_good {ts : List String} (h : ∀ t ∈ ts, U (.data t)) : K.AllGood T U lit (simpleEqs S ts) := fun q hq => by
  simp only [simpleEqs, List.mem_map] at hq
  obtain ⟨t, ht, rfl⟩ := hq
  refine ⟨usable_of (by simp), hK.writes.factor _ (mul_good ⟨(arr_good (K := K) (lit := lit) (h t ht) 0).1, (arr_good (K := K) (lit := lit) (h t ht) 1).1⟩ ⟨lit_of hK ?_, rfl⟩)⟩
  numerals

theorem avg_good : K.AllGood T U lit (K.avgEqs S) := by
  unfold Input.avgEqs
  split
  · rename_i hr
    obtain ⟨hg, hrho, hp, hE, hu⟩ := hK.roe hr
    unfold roeEqs
    have L : ∀ t, U (.data t) → (left t : Term Var D).Good T U lit K.usable := fun t h => arr_good h 0
    have R : ∀ t, U (.data t) → (right t : Term Var D).Good T U lit K.usable := fun t h => arr_good h 1
    have hs : ∀ a : Term Var D, a.Printable T U lit K.usable → (Term.sqrt a).Good T U lit K.usable := fun a h => ⟨h, rfl⟩
    have hv : ∀ v : Var, v ≠ .ct → (Term.var v : Term Var D).Good T U lit K.usable := fun v h => ⟨usable_of h, rfl⟩
    refine .append (.append (.append ?_ ?_) ?_) (simple_good hK fun t ht => hK.terms t (List.mem_of_mem_filter ht))
    · intro q hq
      simp only [List.mem_cons, List.not_mem_nil, or_false] at hq
      rcases hq with rfl | rfl
      · exact ⟨usable_of (by simp), hs _ (mul_printable (L _ hrho).1 (R _ hrho))⟩
      · exact ⟨usable_of (by simp), ⟨(hs _ (R _ hrho).1).1, (hs _ (L _ hrho).1).1⟩, rfl⟩
    · intro q hq
      simp only [List.mem_map] at hq
      obtain ⟨i, _, rfl⟩ := hq
      exact ⟨usable_of (by simp), mul_good ⟨mul_printable (hs _ (L _ hrho).1).1 (L _ (hu i)), mul_printable (hs _ (R _ hrho).1).1 (R _ (hu i))⟩ (hv _ (by simp))⟩
    · intro q hq
      simp only [List.mem_cons, List.not_mem_nil, or_false] at hq
      subst hq
      have hi : ∀ t : Term Var D, t.Good T U lit K.usable → t.isInt = false → (Term.inv t).Good T U lit K.usable := fun t h h' => ⟨h.1, h'⟩
      have hH : (roeHTerm : Term Var D).Good T U lit K.usable := by
        refine mul_good ⟨mul_printable (hs _ (L _ hrho).1).1 (mul_good ⟨(L _ hE).1, (L _ hp).1⟩ (hi _ (L _ hrho) rfl)), mul_printable (hs _ (R _ hrho).1).1 (mul_good ⟨(R _ hE).1, (R _ hp).1⟩ (hi _ (R _ hrho) rfl))⟩ (hv _ (by simp))
      have hKE : (roeKETerm D : Term Var D).Good T U lit K.usable := by
        refine mul_good (lit_of hK (by numerals)) ⟨sum_printable (lit_of hK (by numerals)) fun t ht => ?_, sum_recipInt _⟩
        obtain ⟨i, _, rfl⟩ := List.mem_map.1 ht
        exact (hv _ (by simp)).1
      exact ⟨usable_of (by simp), hs _ (mul_printable ⟨hg, lit_of hK (by numerals)⟩ ⟨⟨hH.1, mul_printable (lit_of hK (by numerals)) (hK.writes.factor _ hKE)⟩, rfl⟩)⟩
  · exact simple_good hK hK.terms

theorem inverses_good : ∀ q ∈ K.inverses, K.usable q.2 ∧ q.1.Good T U lit K.usable ∧ q.1.closed = false := by
  intro q hq
  simp only [Input.inverses, List.mem_append, List.mem_cons, List.not_mem_nil, or_false, List.mem_map, Option.mem_toList] at hq
  have hp : ∀ t, (Term.pow (.var (.avg t)) (.num (-1)) : Term Var D).Good T U lit K.usable := fun t =>
    ⟨⟨usable_of (by simp), lit_of hK (by numerals), fun h => Bool.noConfusion h⟩, rfl⟩
  rcases hq with (rfl | rfl) | ⟨e, he, rfl⟩
  · exact ⟨usable_of (by simp), hp _, rfl⟩
  · exact ⟨usable_of (by simp), hp _, rfl⟩
  · exact ⟨usable_of (by simp), hK.metric e he⟩

theorem inv_good : K.AllGood T U lit K.invEqs := fun q hq => by
  simp only [Input.invEqs, List.mem_map] at hq
  obtain ⟨q, hq, rfl⟩ := hq
  exact ⟨(inverses_good hK q hq).1, (inverses_good hK q hq).2.1⟩

theorem emit_good {v : Var} {t : Term Var D} (hv : v ≠ .ct) (ht : t.Good T U lit K.usable) : K.AllGood T U lit (emit S v t) := fun q hq => by
  unfold emit at hq
  split at hq
  · simp at hq
  · simp only [List.mem_singleton] at hq
    subst hq
    exact ⟨usable_of hv, hK.writes.factor _ ht⟩

theorem lev_good : K.AllGood T U lit (K.levEqs S) := fun q hq => by
  simp only [Input.levEqs, List.mem_flatMap, List.mem_finRange, true_and] at hq
  obtain ⟨i, j, hq⟩ := hq
  split at hq
  · simp at hq
  · exact emit_good hK (by simp) (hK.writes.subs _ _ (fun q hq => ⟨(inverses_good hK q hq).2.1, (inverses_good hK q hq).2.2, (inverses_good hK q hq).1, rfl⟩) (hK.lev i j)) q hq

theorem levTerm_good (i j : Fin n) : (K.levTerm i j).Good T U lit K.usable := by
  unfold Input.levTerm
  split
  · exact ⟨lit_of hK (by numerals), rfl⟩
  · exact ⟨usable_of (by simp), rfl⟩

theorem char_good : K.AllGood T U lit (K.charEqs S) := fun q hq => by
  obtain ⟨p, j, i, _, hq | hq⟩ := mem_charEqs.1 hq
  · refine emit_good hK (by simp) ⟨sum_printable (lit_of hK (by numerals)) fun t ht => ?_, sum_recipInt _⟩ q hq
    obtain ⟨k, _, rfl⟩ := List.mem_map.1 ht
    exact mul_printable (levTerm_good hK i k).1 ⟨⟨(hK.flux k).1, (hK.flux k).2.1⟩, (hK.flux k).2.2⟩
  · refine emit_good hK (by simp) ⟨sum_printable (lit_of hK (by numerals)) fun t ht => ?_, sum_recipInt _⟩ q hq
    obtain ⟨k, _, rfl⟩ := List.mem_map.1 ht
    exact mul_printable (levTerm_good hK i k).1 (arr_good (hK.sol k) _)

theorem lamTerm_good (i : Fin n) : (K.lamTerm i).Good T U lit K.usable := by
  unfold Input.lamTerm
  suffices H : ∀ (l : List ℤ) (o : Term Var D), o.Good T U lit K.usable → (l.foldl (fun o p => Term.max o (.abs (.at (K.C.ev K.d i) p))) o).Good T U lit K.usable from H _ _ ⟨lit_of hK (by numerals), rfl⟩
  intro l
  induction l with
  | nil => exact fun o h => h
  | cons p l ih => exact fun o h => ih _ ⟨⟨h.1, hK.ev i⟩, rfl⟩

theorem lamAll_good : K.AllGood T U lit (K.lamAll S) := fun q hq => by
  obtain ⟨i, hq⟩ := mem_lamAll.1 hq
  exact emit_good hK (by simp) (lamTerm_good hK i) q hq

theorem lam_good : K.AllGood T U lit (K.lamEqs S) := by
  have h := lamAll_good hK
  unfold Input.lamEqs
  cases hall : K.lamAll S with
  | nil => intro q hq; simp at hq
  | cons q l =>
    rw [hall] at h
    intro r hr
    simp only [List.mem_cons, List.mem_map] at hr
    rcases hr with rfl | ⟨r, hr, rfl⟩
    · exact h r (by simp)
    · refine ⟨(h r (by simp [hr])).1, ?_⟩
      simp only
      split
      · exact ⟨(h q (by simp)).1, rfl⟩
      · exact (h r (by simp [hr])).2

theorem ct_good : K.AllGood T U lit K.ctEqs := by
  intro q hq
  simp only [Input.ctEqs, List.mem_map, Option.mem_toList] at hq
  obtain ⟨e, he, rfl⟩ := hq
  obtain ⟨hs, hp, hr, h1, h2⟩ := hK.sensor e he
  have hm : (Term.at e 0 : Term Var D).Good T U lit K.usable := ⟨⟨hs, hp⟩, hr⟩
  refine ⟨fun _ => by rw [he]; rfl, ⟨h1, mul_printable (lit_of hK (by numerals)) (mul_good h2 ⟨⟨lit_of hK (by numerals), mul_printable (lit_of hK (by numerals)) (mul_good ?_ ?_)⟩, rfl⟩)⟩, rfl⟩
  · exact ⟨lit_of hK (by numerals), mul_printable (lit_of hK (by numerals)) hm⟩
  · exact ⟨⟨lit_of hK (by numerals), mul_printable (lit_of hK (by numerals)) hm⟩, rfl⟩

theorem pre_good : K.AllGood T U lit (K.pre S ++ K.ctEqs) := by
  unfold Input.pre
  exact .append (.append (.append (.gamma hK (avg_good hK)) (inv_good hK)) (.gamma hK (.append (.append (lev_good hK) (char_good hK)) (lam_good hK)))) (ct_good hK)

theorem entry_good (side : Side) (i : Fin n) (p : ℤ) : (K.entry S side i p).Good T U lit K.usable := by
  have hl : (K.lamVar i).Good T U lit K.usable := by
    unfold Input.lamVar
    split
    · exact ⟨lit_of hK (by numerals), rfl⟩
    · exact ⟨usable_of (by simp), rfl⟩
  have hv : ∀ v : Var, v ≠ .ct → (Term.var v : Term Var D).Good T U lit K.usable := fun v h => ⟨usable_of h, rfl⟩
  unfold Input.entry
  split
  · unfold Input.split
    cases side
    · exact hK.writes.factor _ (mul_good (lit_of hK (by numerals)) ⟨⟨(hv _ (by simp)).1, mul_printable (lit_of hK (by numerals)) (mul_good hl.1 (hv _ (by simp)))⟩, rfl⟩)
    · exact hK.writes.factor _ (mul_good (lit_of hK (by numerals)) ⟨⟨(hv _ (by simp)).1, mul_printable hl.1 (hv _ (by simp))⟩, rfl⟩)
  · exact ⟨lit_of hK (by numerals), rfl⟩

omit hK in
theorem range_good {k : ℕ} {name : ℕ → Var} {t : ℕ → Term Var D} (h : ∀ r, K.usable (name r)) (ht : ∀ r, (t r).Printable T U lit K.usable) : K.AllPrintable T U lit ((List.range k).map fun r => (name r, t r)) := fun q hq => by
  obtain ⟨r, _, rfl⟩ := List.mem_map.1 hq
  exact ⟨h r, ht r⟩

omit hK in
theorem one_good {v : Var} {t : Term Var D} (h : K.usable v) (ht : t.Printable T U lit K.usable) : K.AllPrintable T U lit [(v, t)] := fun q hq => by
  rw [List.mem_singleton] at hq
  subst hq
  exact ⟨h, ht⟩

omit hK in
theorem var_good {v : Var} (h : v ≠ .ct) : (Term.var v : Term Var D).Good T U lit K.usable := ⟨usable_of h, rfl⟩

theorem tauTerm_good {k : ℕ} {t : Term Var D} (h : tauTerm k = some t) : t.Printable T U lit K.usable ∧ t.isInt = false := by
  have hl : ∀ l : List (ℝ × ℕ), (∀ e ∈ l, e.1 ∈ rationals) → (Term.sum (l.map fun e => times e.1 (.var (.beta e.2))) : Term Var D).Printable T U lit K.usable := fun l hr =>
    sum_printable (lit_of hK (by numerals)) fun t ht => by
      obtain ⟨e, he, rfl⟩ := List.mem_map.1 ht
      exact mul_printable (lit_of hK (hr e he)) (var_good (by simp))
  simp only [tauTerm] at h
  split_ifs at h <;> cases h <;> refine ⟨hl _ fun e he => ?_, rfl⟩ <;> simp only [List.mem_cons, List.not_mem_nil, or_false] at he
  · rcases he with rfl | rfl <;> numerals
  · rcases he with rfl | rfl <;> numerals
  · rcases he with rfl | rfl | rfl | rfl <;> numerals
  · rcases he with rfl | rfl | rfl | rfl | rfl <;> numerals
  · rcases he with rfl | rfl | rfl | rfl | rfl | rfl <;> numerals
  · rcases he with rfl | rfl | rfl | rfl | rfl | rfl <;> numerals

theorem wenoAlpha_good {form : Formulation} {k : ℕ} {al : (ℕ → ℝ) → ℕ → Term Var D} (h : wenoAlpha form k = some al) {w : ℕ → ℝ} (hw : ∀ r, w r ∈ rationals) (r : ℕ) : (al w r).Printable T U lit K.usable := by
  have hv : (Term.var (.beta r) : Term Var D).Printable T U lit K.usable := (var_good (by simp)).1
  cases form with
  | JS =>
    simp only [wenoAlpha, Option.some.injEq] at h
    subst h
    exact mul_printable (lit_of hK (hw r)) ⟨⟨lit_of hK (by unfold epsJS; numerals), hv⟩, rfl⟩
  | Z =>
    simp only [wenoAlpha, Option.map_eq_some_iff] at h
    obtain ⟨t, ht, rfl⟩ := h
    exact mul_printable (lit_of hK (hw r)) ⟨⟨lit_of hK (by numerals), mul_printable' (tauTerm_good hK ht).1 (tauTerm_good hK ht).2 ⟨lit_of hK (by unfold epsZ; numerals), hv⟩⟩, rfl⟩

theorem weno_good {alpha : ℕ → Term Var D} (ha : ∀ r, (alpha r).Printable T U lit K.usable) {side : Side} {k : ℕ} {dz : ℝ} (hz : dz ∈ rationals) {i : ℕ} {f : ℤ → Term Var D} (hf : ∀ p, (f p).Good T U lit K.usable) :
    K.AllPrintable T U lit (wenoEqs alpha side k dz i f) := by
  have h0 : IsLit lit 0 := lit_of hK (by numerals)
  unfold wenoEqs
  refine .append (.append (.append (.append (range_good (fun _ => usable_of (by simp)) fun r => ?_) (range_good (fun _ => usable_of (by simp)) ha)) (one_good (usable_of (by simp)) ?_))
    (range_good (fun _ => usable_of (by simp)) fun r => ?_)) (one_good (usable_of (by simp)) ?_)
  · refine sum_printable h0 fun t ht => ?_
    obtain ⟨e, he, rfl⟩ := List.mem_map.1 ht
    exact mul_printable (lit_of hK (smoothCoeffs_rational k r hz e he)) (mul_good (hf _).1 (hf _))
  · refine sum_printable h0 fun t ht => ?_
    obtain ⟨r, _, rfl⟩ := List.mem_map.1 ht
    exact (var_good (by simp)).1
  · exact mul_printable (var_good (by simp)).1 (var_good (by simp))
  · refine ⟨(var_good (by simp)).1, sum_printable h0 fun t ht => ?_⟩
    obtain ⟨r, _, rfl⟩ := List.mem_map.1 ht
    refine mul_printable (var_good (by simp)).1 ⟨sum_printable h0 fun t ht => ?_, sum_recipInt _⟩
    obtain ⟨j, _, rfl⟩ := List.mem_map.1 ht
    exact mul_printable (lit_of hK (enoCoeff_rational side k r j)) (hf _)

theorem lin_good {f : ℤ → Term Var D} (hf : ∀ p, (f p).Good T U lit K.usable) (l : List (ℝ × ℤ)) (hl : ∀ e ∈ l, e.1 ∈ rationals) : (lin f l).Good T U lit K.usable := by
  refine ⟨sum_printable (lit_of hK (by numerals)) fun t ht => ?_, sum_recipInt _⟩
  obtain ⟨e, he, rfl⟩ := List.mem_map.1 ht
  exact mul_printable (lit_of hK (hl e he)) (hf _)

theorem tenoBeta_good {f : ℤ → Term Var D} (hf : ∀ p, (f p).Good T U lit K.usable) (side : Side) (r : ℕ) : (tenoBeta side f r).Printable T U lit K.usable := by
  have h3 : ∀ a b c : ℝ × ℤ, a.1 ∈ rationals → b.1 ∈ rationals → c.1 ∈ rationals → ∀ e ∈ [a, b, c], e.1 ∈ rationals := fun a b c ha hb hc e he => by
    simp only [List.mem_cons, List.not_mem_nil, or_false] at he
    rcases he with rfl | rfl | rfl <;> assumption
  have h2 : ∀ a b : ℝ × ℤ, a.1 ∈ rationals → b.1 ∈ rationals → ∀ e ∈ [a, b], e.1 ∈ rationals := fun a b ha hb e he => by
    simp only [List.mem_cons, List.not_mem_nil, or_false] at he
    rcases he with rfl | rfl <;> assumption
  have h4 : ∀ a b c d : ℝ × ℤ, a.1 ∈ rationals → b.1 ∈ rationals → c.1 ∈ rationals → d.1 ∈ rationals → ∀ e ∈ [a, b, c, d], e.1 ∈ rationals := fun a b c d ha hb hc hd e he => by
    simp only [List.mem_cons, List.not_mem_nil, or_false] at he
    rcases he with rfl | rfl | rfl | rfl <;> assumption
  have hs : ∀ (q : ℝ) (l : List (ℝ × ℤ)), q ∈ rationals → (∀ e ∈ l, e.1 ∈ rationals) → (times q (.npow (lin f l) 2)).Printable T U lit K.usable := fun q l hq hl =>
    mul_printable (lit_of hK hq) ⟨(lin_good hK hf l hl).1, rfl⟩
  have ht : ∀ (q : ℝ) (l : List (ℝ × ℤ)), q ∈ rationals → (∀ e ∈ l, e.1 ∈ rationals) → (times q (lin f l)).Printable T U lit K.usable := fun q l hq hl =>
    mul_printable (lit_of hK hq) (lin_good hK hf l hl)
  unfold tenoBeta
  split
  · exact ⟨hs _ _ (by numerals) (h2 _ _ (by numerals) (by numerals)), hs _ _ (by numerals) (h3 _ _ _ (by numerals) (by numerals) (by numerals))⟩
  · exact ⟨hs _ _ (by numerals) (h3 _ _ _ (by numerals) (by numerals) (by numerals)), hs _ _ (by numerals) (h3 _ _ _ (by numerals) (by numerals) (by numerals))⟩
  · exact ⟨hs _ _ (by numerals) (h3 _ _ _ (by numerals) (by numerals) (by numerals)), hs _ _ (by numerals) (h3 _ _ _ (by numerals) (by numerals) (by numerals))⟩
  · exact ⟨hs _ _ (by numerals) (h4 _ _ _ _ (by numerals) (by numerals) (by numerals) (by numerals)), hs _ _ (by numerals) (h4 _ _ _ _ (by numerals) (by numerals) (by numerals) (by numerals)),
      ht _ _ (by numerals) (h4 _ _ _ _ (by numerals) (by numerals) (by numerals) (by numerals))⟩
  · exact ⟨hs _ _ (by numerals) (h2 _ _ (by numerals) (by numerals)), hs _ _ (by numerals) (h3 _ _ _ (by numerals) (by numerals) (by numerals))⟩
  · exact ⟨hs _ _ (by numerals) (h3 _ _ _ (by numerals) (by numerals) (by numerals)), hs _ _ (by numerals) (h3 _ _ _ (by numerals) (by numerals) (by numerals))⟩
  · exact ⟨hs _ _ (by numerals) (h3 _ _ _ (by numerals) (by numerals) (by numerals)), hs _ _ (by numerals) (h3 _ _ _ (by numerals) (by numerals) (by numerals))⟩
  · exact ⟨hs _ _ (by numerals) (h4 _ _ _ _ (by numerals) (by numerals) (by numerals) (by numerals)), hs _ _ (by numerals) (h4 _ _ _ _ (by numerals) (by numerals) (by numerals) (by numerals)),
      hs _ _ (by numerals) (h4 _ _ _ _ (by numerals) (by numerals) (by numerals) (by numerals))⟩
  · exact lit_of hK (by numerals)

theorem tenoTau_good (o : Teno.Order) : (tenoTau o : Term Var D).Printable T U lit K.usable ∧ (tenoTau o : Term Var D).isInt = false := by
  have hv : ∀ r, (Term.var (.beta r) : Term Var D).Good T U lit K.usable := fun r => var_good (by simp)
  have ht : ∀ (q : ℝ) (t : Term Var D), q ∈ rationals → t.Good T U lit K.usable → (times q t).Printable T U lit K.usable := fun q t hq h => mul_printable (lit_of hK hq) h
  cases o
  · exact ⟨⟨(hv 0).1, ht _ _ (by numerals) (hv 2)⟩, rfl⟩
  · exact ⟨⟨(hv 3).1, ht _ _ (by numerals) ⟨⟨(hv 0).1, (hv 2).1, ht _ _ (by numerals) (hv 1)⟩, rfl⟩⟩, rfl⟩

theorem teno_good {o : Teno.Order} {ct : Term Var D} (he : "eps" ∈ T.start.names) (hc : ct.Printable T U lit K.usable) {side : Side} {i : ℕ} {f : ℤ → Term Var D} (hf : ∀ p, (f p).Good T U lit K.usable) :
    K.AllPrintable T U lit (tenoEqs o ct side i f) := by
  have h0 : IsLit lit 0 := lit_of hK (by numerals)
  unfold tenoEqs
  refine .append (.append (.append (.append (.append (range_good (fun _ => usable_of (by simp)) fun r => tenoBeta_good hK hf side r) (range_good (fun _ => usable_of (by simp)) fun r => ?_)) (one_good (usable_of (by simp)) ?_))
    (range_good (fun _ => usable_of (by simp)) fun r => ?_)) (one_good (usable_of (by simp)) ?_)) (one_good (usable_of (by simp)) ?_)
  · exact ⟨lit_of hK (by numerals), mul_printable' (tenoTau_good hK o).1 (tenoTau_good hK o).2 ⟨he, (var_good (by simp)).1⟩⟩
  · refine sum_printable h0 fun t ht => ?_
    obtain ⟨r, _, rfl⟩ := List.mem_map.1 ht
    exact (var_good (by simp)).1
  · exact ⟨mul_printable (var_good (by simp)).1 (var_good (by simp)), hc⟩
  · refine sum_printable h0 fun t ht => ?_
    obtain ⟨r, _, rfl⟩ := List.mem_map.1 ht
    exact mul_printable (lit_of hK (tenoOpt_rational o r)) (var_good (by simp))
  · refine ⟨(var_good (by simp)).1, sum_printable h0 fun t ht => ?_⟩
    obtain ⟨r, _, rfl⟩ := List.mem_map.1 ht
    refine mul_printable (mul_printable (mul_printable (lit_of hK (tenoOpt_rational o r)) (var_good (by simp))) (var_good (by simp))) ⟨sum_printable h0 fun t ht => ?_, sum_recipInt _⟩
    obtain ⟨pc, hpc, rfl⟩ := List.mem_map.1 ht
    exact mul_printable (hf _).1 ⟨lit_of hK (tenoCoeffs_rational side r _ (List.of_mem_zip hpc).2), rfl⟩

theorem recipe_good {f : Side → Fin n → List (Var × Term Var D)} (hf : K.recipe S = some f) (side : Side) (i : Fin n) : K.AllPrintable T U lit (f side i) := by
  unfold Input.recipe at hf
  cases hs : K.C.scheme with
  | weno form k dz w =>
    rw [hs] at hf
    simp only [Option.map_eq_some_iff] at hf
    obtain ⟨al, ha, rfl⟩ := hf
    obtain ⟨hz, hw⟩ := hK.weights form k dz w hs
    exact weno_good hK (wenoAlpha_good hK ha (hw side)) hz (entry_good hK side i)
  | teno o eps CT =>
    rw [hs] at hf
    simp only [Option.some.injEq] at hf
    subst hf
    obtain ⟨he, hc⟩ := hK.teno o eps CT hs
    refine teno_good hK he ?_ (entry_good hK side i)
    unfold Input.ctTerm
    split
    · rename_i h
      exact fun _ => h
    · rename_i h
      exact hc (by simpa using h)

theorem eqs_good {l : List (Var × Term Var D)} (hl : K.eqs S = some l) : K.AllPrintable T U lit l := by
  simp only [Input.eqs, Input.interp, Option.map_map, Option.map_eq_some_iff, Function.comp] at hl
  obtain ⟨f, hf, rfl⟩ := hl
  refine .append (pre_good hK).printable fun q hq => ?_
  simp only [List.mem_flatMap, List.mem_append] at hq
  obtain ⟨i, _, hq | hq⟩ := hq
  · exact recipe_good hK hf _ _ q hq
  · exact recipe_good hK hf _ _ q hq

theorem out_good (i : Fin n) : (K.out S i).Good T U lit K.usable := by
  refine hK.writes.gamma _ ⟨sum_printable (lit_of hK (by numerals)) fun t ht => ?_, sum_recipInt _⟩
  obtain ⟨j, _, rfl⟩ := List.mem_map.1 ht
  exact mul_printable (replaceAll_printable (fun q hq => ⟨(inverses_good hK q hq).1, (inverses_good hK q hq).2.2⟩) (hK.rev i j).1) (var_good (by simp))

end OpenSBLI.Recon
