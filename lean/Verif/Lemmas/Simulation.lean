import Verif.Model.Simulation
import Mathlib.Algebra.BigOperators.Group.List.Basic
import Mathlib.Data.Int.Interval
import Mathlib.Data.Fintype.Pi
import Mathlib.Tactic.Ring
import Mathlib.Tactic.Linarith

/-!
# Lemmas on kernels, ranges and expressions of the simulation program
-/
namespace OpenSBLI.Sim
set_option linter.unusedSectionVars false

variable {D n : ℕ}

/-! ## Ranges -/

/-- The points of a range extended by `h` in some directions. -/
def Box (np : Fin D → ℤ) (h : ℤ) (dirs : List (Fin D)) (x : P D) : Prop :=
  ∀ d, if d ∈ dirs then -h ≤ x d ∧ x d < np d + h else 0 ≤ x d ∧ x d < np d

theorem rangeOf_visits (np : Fin D → ℤ) (h : ℤ) (dirs : List (Fin D)) (x : P D) : (rangeOf np h dirs).visits x ↔ Box np h dirs x := by
  have key : ∀ (l : List (Fin D)) (k : Ranges.Kernel D),
      ((l.foldl (fun k d => (k.setHaloRange d false {(-h, h)}).setHaloRange d true {(-h, h)}) k).ranges = k.ranges) ∧
      ∀ d, (l.foldl (fun k d => (k.setHaloRange d false {(-h, h)}).setHaloRange d true {(-h, h)}) k).halos d =
        if d ∈ l then ((k.halos d).1 ∪ {(-h, h)}, (k.halos d).2 ∪ {(-h, h)}) else k.halos d := by
    intro l
    induction l with
    | nil => intro k; simp
    | cons e l ih =>
      intro k
      rw [List.foldl_cons]
      refine ⟨(ih _).1.trans rfl, fun d => ?_⟩
      rw [(ih _).2 d]
      by_cases he : d = e
      · subst he
        by_cases hl : d ∈ l <;> simp [hl, Ranges.Kernel.setHaloRange]
      · by_cases hl : d ∈ l <;> simp [hl, he, Ranges.Kernel.setHaloRange]
  unfold Ranges.Kernel.visits Box
  refine forall_congr' fun d => ?_
  have k1 := (key dirs (Ranges.Kernel.onGrid fun d => (0, np d))).1
  have k2 := (key dirs (Ranges.Kernel.onGrid fun d => (0, np d))).2 d
  rw [Ranges.Kernel.totalRange, rangeOf, k1, k2]
  by_cases hd : d ∈ dirs <;> simp [hd, Ranges.Kernel.onGrid, Ranges.minHalo, Ranges.maxHalo]

theorem Box.mono {np : Fin D → ℤ} {h : ℤ} (hh : 0 ≤ h) {a b : List (Fin D)} (hab : ∀ d ∈ a, d ∈ b) {x : P D} (hx : Box np h a x) : Box np h b x := by
  intro d
  have := hx d
  by_cases ha : d ∈ a
  · rw [if_pos ha] at this; rw [if_pos (hab d ha)]; exact this
  · rw [if_neg ha] at this
    split_ifs <;> omega

theorem Box.shift' {np : Fin D → ℤ} {h : ℤ} {a : List (Fin D)} {x : P D} (hh : 0 ≤ h) (hx : Box np h a x) {d : Fin D} (hd : d ∉ a) {j : ℤ}
    (hj : |j| ≤ h ∨ 0 ≤ x d + j ∧ x d + j < np d) :
    Box np h (d :: a) (shift x d j) := by
  intro e
  have := hx e
  rw [abs_le] at hj
  by_cases he : e = d
  · subst he
    rw [if_neg hd] at this
    simp only [Sim.shift, Function.update_self, List.mem_cons, true_or, if_true]
    omega
  · simp only [Sim.shift, Function.update_of_ne he, List.mem_cons, he, false_or]
    exact this

theorem Box.shift {np : Fin D → ℤ} {h : ℤ} {a : List (Fin D)} {x : P D} (hx : Box np h a x) {d : Fin D} (hd : d ∉ a) {j : ℤ} (hj : |j| ≤ h) :
    Box np h (d :: a) (shift x d j) := Box.shift' ((abs_nonneg j).trans hj) hx hd (.inl hj)

/-- The loop orders list the points of a range, each once. -/
def Enumerates (pts : Ranges.Kernel D → List (P D)) : Prop := ∀ k, (pts k).Nodup ∧ ∀ x, x ∈ pts k ↔ k.visits x

theorem exists_enumeration : ∃ pts : Ranges.Kernel D → List (P D), Enumerates pts := by
  refine ⟨fun k => (Fintype.piFinset fun d => Finset.Ico (k.totalRange d).1 (k.totalRange d).2).toList, fun k => ⟨Finset.nodup_toList _, fun x => ?_⟩⟩
  simp [Ranges.Kernel.visits]

/-! ## Expressions -/

/-- The points around `x` in direction `d`, and further ones only as long as they are on the grid, determine a derivative. -/
def Local (I : Interp D) (np : Fin D → ℤ) (h : ℤ) : Prop :=
  ∀ d k f g x, (∀ j : ℤ, |j| ≤ h ∨ 0 ≤ x d + j ∧ x d + j < np d → f (shift x d j) = g (shift x d j)) → I.cd d k f x = I.cd d k g x

theorem eval_at {I : Interp D} {m m' : Mem D} {x : P D} (e : Ex D) (hc : e.cds = []) (h : ∀ a ∈ e.arrs, m a x = m' a x) : e.eval I m x = e.eval I m' x := by
  induction e with
  | num _ => rfl
  | const _ => rfl
  | indexed _ => rfl
  | arr a => exact h a (by simp [Ex.arrs])
  | cd d k e _ => simp [Ex.cds] at hc
  | add a b iha ihb =>
    simp only [Ex.cds, List.append_eq_nil_iff] at hc
    simp only [Ex.arrs, List.mem_append] at h
    simp only [Ex.eval]; rw [iha hc.1 fun a ha => h a (.inl ha), ihb hc.2 fun a ha => h a (.inr ha)]
  | mul a b iha ihb =>
    simp only [Ex.cds, List.append_eq_nil_iff] at hc
    simp only [Ex.arrs, List.mem_append] at h
    simp only [Ex.eval]; rw [iha hc.1 fun a ha => h a (.inl ha), ihb hc.2 fun a ha => h a (.inr ha)]
  | pow a b iha ihb =>
    simp only [Ex.cds, List.append_eq_nil_iff] at hc
    simp only [Ex.arrs, List.mem_append] at h
    simp only [Ex.eval]; rw [iha hc.1 fun a ha => h a (.inl ha), ihb hc.2 fun a ha => h a (.inr ha)]
  | fn f e ih =>
    simp only [Ex.eval]; rw [ih hc h]

theorem eval_congr {I : Interp D} {m m' : Mem D} (e : Ex D) (h : ∀ a ∈ e.arrs, m a = m' a) : e.eval I m = e.eval I m' := by
  induction e with
  | num _ => rfl
  | const _ => rfl
  | indexed _ => rfl
  | arr a => exact h a (by simp [Ex.arrs])
  | cd d k e ih => simp only [Ex.eval]; rw [ih h]
  | add a b iha ihb =>
    simp only [Ex.arrs, List.mem_append] at h
    simp only [Ex.eval]; rw [iha fun a ha => h a (.inl ha), ihb fun a ha => h a (.inr ha)]
  | mul a b iha ihb =>
    simp only [Ex.arrs, List.mem_append] at h
    simp only [Ex.eval]; rw [iha fun a ha => h a (.inl ha), ihb fun a ha => h a (.inr ha)]
  | pow a b iha ihb =>
    simp only [Ex.arrs, List.mem_append] at h
    simp only [Ex.eval]; rw [iha fun a ha => h a (.inl ha), ihb fun a ha => h a (.inr ha)]
  | fn f e ih => simp only [Ex.eval]; rw [ih h]

theorem cds_arrs (e c : Ex D) (hc : c ∈ e.cds) : ∀ a ∈ c.arrs, a ∈ e.arrs := by
  induction e with
  | num _ => simp [Ex.cds] at hc
  | const _ => simp [Ex.cds] at hc
  | indexed _ => simp [Ex.cds] at hc
  | arr a => simp [Ex.cds] at hc
  | cd d k e ih =>
    rcases List.mem_append.1 hc with h | h
    · exact ih h
    · rw [List.mem_singleton] at h; subst h; exact fun a ha => ha
  | add a b iha ihb =>
    simp only [Ex.arrs, List.mem_append]
    rcases List.mem_append.1 hc with h | h
    · exact fun a ha => .inl (iha h a ha)
    · exact fun a ha => .inr (ihb h a ha)
  | mul a b iha ihb =>
    simp only [Ex.arrs, List.mem_append]
    rcases List.mem_append.1 hc with h | h
    · exact fun a ha => .inl (iha h a ha)
    · exact fun a ha => .inr (ihb h a ha)
  | pow a b iha ihb =>
    simp only [Ex.arrs, List.mem_append]
    rcases List.mem_append.1 hc with h | h
    · exact fun a ha => .inl (iha h a ha)
    · exact fun a ha => .inr (ihb h a ha)
  | fn f e ih => exact ih hc

theorem cds_trans (e c c' : Ex D) (hc : c ∈ e.cds) (hc' : c' ∈ c.cds) : c' ∈ e.cds := by
  induction e with
  | num _ => simp [Ex.cds] at hc
  | const _ => simp [Ex.cds] at hc
  | indexed _ => simp [Ex.cds] at hc
  | arr a => simp [Ex.cds] at hc
  | cd d k e ih =>
    rcases List.mem_append.1 hc with h | h
    · exact List.mem_append_left _ (ih h)
    · rw [List.mem_singleton] at h; subst h; exact hc'
  | add a b iha ihb =>
    rcases List.mem_append.1 hc with h | h
    · exact List.mem_append_left _ (iha h)
    · exact List.mem_append_right _ (ihb h)
  | mul a b iha ihb =>
    rcases List.mem_append.1 hc with h | h
    · exact List.mem_append_left _ (iha h)
    · exact List.mem_append_right _ (ihb h)
  | pow a b iha ihb =>
    rcases List.mem_append.1 hc with h | h
    · exact List.mem_append_left _ (iha h)
    · exact List.mem_append_right _ (ihb h)
  | fn f e ih => exact ih hc

theorem mem_cds_cd (e c : Ex D) (hc : c ∈ e.cds) : ∃ d k a, c = .cd d k a := by
  induction e with
  | num _ => simp [Ex.cds] at hc
  | const _ => simp [Ex.cds] at hc
  | indexed _ => simp [Ex.cds] at hc
  | arr a => simp [Ex.cds] at hc
  | cd d k e ih =>
    rcases List.mem_append.1 hc with h | h
    · exact ih h
    · rw [List.mem_singleton] at h; exact ⟨_, _, _, h⟩
  | add a b iha ihb => exact (List.mem_append.1 hc).elim iha ihb
  | mul a b iha ihb => exact (List.mem_append.1 hc).elim iha ihb
  | pow a b iha ihb => exact (List.mem_append.1 hc).elim iha ihb
  | fn f e ih => exact ih hc

/-- Replacing derivatives by arrays that hold them keeps the value at a point; only the derivatives' arrays and the arrays of the expression are read, and no derivative is left. -/
theorem resolve_eval {I : Interp D} {m E : Mem D} {x : P D} (work : Ex D → Option ℕ) (e : Ex D)
    (hw : ∀ c ∈ e.cds, ∃ i, work c = some i ∧ m (.work i) x = c.eval I E x) (ha : ∀ a ∈ e.arrs, m a x = E a x) :
    (e.resolve work).eval I m x = e.eval I E x := by
  induction e with
  | num _ => rfl
  | const _ => rfl
  | indexed _ => rfl
  | arr a => exact ha a (by simp [Ex.arrs])
  | cd d k e _ =>
    obtain ⟨i, hi, hv⟩ := hw (.cd d k e) (by simp [Ex.cds])
    simp only [Ex.resolve, hi]; exact hv
  | add a b iha ihb =>
    simp only [Ex.cds, Ex.arrs, List.mem_append] at hw ha
    simp only [Ex.resolve, Ex.eval]
    rw [iha (fun c hc => hw c (.inl hc)) fun a h => ha a (.inl h), ihb (fun c hc => hw c (.inr hc)) fun a h => ha a (.inr h)]
  | mul a b iha ihb =>
    simp only [Ex.cds, Ex.arrs, List.mem_append] at hw ha
    simp only [Ex.resolve, Ex.eval]
    rw [iha (fun c hc => hw c (.inl hc)) fun a h => ha a (.inl h), ihb (fun c hc => hw c (.inr hc)) fun a h => ha a (.inr h)]
  | pow a b iha ihb =>
    simp only [Ex.cds, Ex.arrs, List.mem_append] at hw ha
    simp only [Ex.resolve, Ex.eval]
    rw [iha (fun c hc => hw c (.inl hc)) fun a h => ha a (.inl h), ihb (fun c hc => hw c (.inr hc)) fun a h => ha a (.inr h)]
  | fn f e ih => simp only [Ex.resolve, Ex.eval]; rw [ih hw ha]

theorem resolve_cds (work : Ex D → Option ℕ) (e : Ex D) (hw : ∀ c ∈ e.cds, (work c).isSome) : (e.resolve work).cds = [] := by
  induction e with
  | num _ => rfl
  | const _ => rfl
  | indexed _ => rfl
  | arr a => rfl
  | cd d k e _ =>
    obtain ⟨i, hi⟩ := Option.isSome_iff_exists.1 (hw (.cd d k e) (by simp [Ex.cds]))
    simp only [Ex.resolve, hi, Ex.cds]
  | add a b iha ihb =>
    simp only [Ex.cds, List.mem_append] at hw
    simp only [Ex.resolve, Ex.cds]; rw [iha fun c h => hw c (.inl h), ihb fun c h => hw c (.inr h)]; rfl
  | mul a b iha ihb =>
    simp only [Ex.cds, List.mem_append] at hw
    simp only [Ex.resolve, Ex.cds]; rw [iha fun c h => hw c (.inl h), ihb fun c h => hw c (.inr h)]; rfl
  | pow a b iha ihb =>
    simp only [Ex.cds, List.mem_append] at hw
    simp only [Ex.resolve, Ex.cds]; rw [iha fun c h => hw c (.inl h), ihb fun c h => hw c (.inr h)]; rfl
  | fn f e ih => simp only [Ex.resolve, Ex.cds]; exact ih hw

theorem resolve_arrs (work : Ex D → Option ℕ) (e : Ex D) : ∀ a ∈ (e.resolve work).arrs, a ∈ e.arrs ∨ ∃ c ∈ e.cds, ∃ i, work c = some i ∧ a = .work i := by
  induction e with
  | num _ => simp [Ex.resolve, Ex.arrs]
  | const _ => simp [Ex.resolve, Ex.arrs]
  | indexed _ => simp [Ex.resolve, Ex.arrs]
  | arr a => simp [Ex.resolve, Ex.arrs]
  | cd d k e ih =>
    intro a ha
    cases hw : work (.cd d k e) with
    | some i =>
      simp only [Ex.resolve, hw, Ex.arrs, List.mem_singleton] at ha
      exact .inr ⟨_, by simp [Ex.cds], i, hw, ha⟩
    | none =>
      simp only [Ex.resolve, hw, Ex.arrs] at ha
      rcases ih a ha with h | ⟨c, hc, i, h⟩
      · exact .inl h
      · exact .inr ⟨c, List.mem_append_left _ hc, i, h⟩
  | add a b iha ihb =>
    intro r hr
    simp only [Ex.resolve, Ex.arrs, Ex.cds, List.mem_append] at hr ⊢
    rcases hr with h | h
    · rcases iha r h with h | ⟨c, hc, i⟩
      · exact .inl (.inl h)
      · exact .inr ⟨c, .inl hc, i⟩
    · rcases ihb r h with h | ⟨c, hc, i⟩
      · exact .inl (.inr h)
      · exact .inr ⟨c, .inr hc, i⟩
  | mul a b iha ihb =>
    intro r hr
    simp only [Ex.resolve, Ex.arrs, Ex.cds, List.mem_append] at hr ⊢
    rcases hr with h | h
    · rcases iha r h with h | ⟨c, hc, i⟩
      · exact .inl (.inl h)
      · exact .inr ⟨c, .inl hc, i⟩
    · rcases ihb r h with h | ⟨c, hc, i⟩
      · exact .inl (.inr h)
      · exact .inr ⟨c, .inr hc, i⟩
  | pow a b iha ihb =>
    intro r hr
    simp only [Ex.resolve, Ex.arrs, Ex.cds, List.mem_append] at hr ⊢
    rcases hr with h | h
    · rcases iha r h with h | ⟨c, hc, i⟩
      · exact .inl (.inl h)
      · exact .inr ⟨c, .inl hc, i⟩
    · rcases ihb r h with h | ⟨c, hc, i⟩
      · exact .inl (.inr h)
      · exact .inr ⟨c, .inr hc, i⟩
  | fn f e ih => exact ih

/-! ## Terms -/

/-- No function other than derivatives. -/
def Ex.noFn : Ex D → Bool
  | .fn _ _ => false
  | .cd _ _ e => e.noFn
  | .add a b => a.noFn && b.noFn
  | .mul a b => a.noFn && b.noFn
  | .pow a b => a.noFn && b.noFn
  | _ => true

theorem zeroFn_id (e : Ex D) (h : e.noFn = true) : e.zeroFn = e := by
  induction e <;> simp_all [Ex.noFn, Ex.zeroFn]

theorem terms_noFn (e : Ex D) (h : e.noFn = true) : ∀ t ∈ e.terms, t.noFn = true := by
  induction e with
  | add a b iha ihb =>
    simp only [Ex.noFn, Bool.and_eq_true] at h
    intro t ht
    rcases List.mem_append.1 ht with ht | ht
    · exact iha h.1 t ht
    · exact ihb h.2 t ht
  | _ => intro t ht; simp only [Ex.terms, List.mem_singleton] at ht; subst ht; exact h

theorem classified_noFn (e : Ex D) (h : e.noFn = true) : ∀ t ∈ e.classified, t.noFn = true := by
  cases e with
  | add a b => exact terms_noFn (.add a b) h
  | mul a b => intro t ht; simp only [Ex.classified, List.mem_singleton] at ht; subst ht; exact h
  | _ => intro t ht; simp [Ex.classified] at ht

theorem foldl_add_noFn (l : List (Ex D)) (z : Ex D) (hz : z.noFn = true) (h : ∀ t ∈ l, t.noFn = true) : (l.foldl Ex.add z).noFn = true := by
  induction l generalizing z with
  | nil => exact hz
  | cons t l ih => exact ih _ (by simp [Ex.noFn, hz, h t]) fun t ht => h t (List.mem_cons_of_mem _ ht)

theorem foldl_add_eval (I : Interp D) (m : Mem D) (x : P D) (l : List (Ex D)) (z : Ex D) :
    (l.foldl Ex.add z).eval I m x = z.eval I m x + (l.map fun t => t.eval I m x).sum := by
  induction l generalizing z with
  | nil => simp
  | cons t l ih => rw [List.foldl_cons, ih]; simp only [Ex.eval, List.map_cons, List.sum_cons]; ring

theorem sum_eval (I : Interp D) (m : Mem D) (x : P D) (l : List (Ex D)) : (Ex.sum l).eval I m x = (l.map fun t => t.eval I m x).sum := by
  rw [Ex.sum, foldl_add_eval]; simp [Ex.eval]

theorem terms_eval (I : Interp D) (m : Mem D) (x : P D) (e : Ex D) : (e.terms.map fun t => t.eval I m x).sum = e.eval I m x := by
  induction e with
  | add a b iha ihb => simp only [Ex.terms, List.map_append, List.sum_append, iha, ihb, Ex.eval]
  | _ => simp [Ex.terms]

/-- A sum or a product. -/
def Ex.isSum : Ex D → Bool
  | .add _ _ => true
  | .mul _ _ => true
  | _ => false

theorem filter_sum (l : List (Ex D)) (p : Ex D → Bool) (f : Ex D → ℝ) : ((l.filter fun t => !p t).map f).sum + ((l.filter p).map f).sum = (l.map f).sum := by
  induction l with
  | nil => simp
  | cons t l ih =>
    cases hp : p t <;> simp only [hp, List.filter_cons, Bool.not_true, Bool.not_false, if_true, if_false, List.map_cons, List.sum_cons, Bool.false_eq_true] <;> rw [← ih] <;> ring

/-- The two parts add up to the right hand side. -/
theorem parts_eval (I : Interp D) (m : Mem D) (x : P D) (e : Ex D) (hn : e.noFn = true) (hs : e.isSum = true) :
    e.convective.eval I m x + e.viscous.eval I m x = e.eval I m x := by
  have hc := classified_noFn e hn
  rw [Ex.convective, Ex.viscous, zeroFn_id, zeroFn_id, sum_eval, sum_eval, filter_sum]
  · cases e with
    | add a b => exact terms_eval I m x (.add a b)
    | mul a b => simp [Ex.classified]
    | _ => simp [Ex.isSum] at hs
  · exact foldl_add_noFn _ _ rfl fun t ht => hc t (List.mem_filter.1 ht).1
  · exact foldl_add_noFn _ _ rfl fun t ht => hc t (List.mem_filter.1 ht).1

/-! ## Kernels -/

theorem set_other (m : Mem D) (a b : Arr) (x y : P D) (v : ℝ) (h : ¬ (b = a ∧ y = x)) : m.set a x v b y = m b y := if_neg h

theorem atPoint_other (I : Interp D) (eqs : List (Arr × Ex D)) (m : Mem D) (x y : P D) (h : y ≠ x) (a : Arr) : atPoint I eqs m x a y = m a y := by
  unfold atPoint
  induction eqs generalizing m with
  | nil => rfl
  | cons q eqs ih => rw [List.foldl_cons, ih, set_other _ _ _ _ _ _ fun hh => h hh.2]

theorem atPoint_agree (I : Interp D) (eqs : List (Arr × Ex D)) (hc : ∀ q ∈ eqs, q.2.cds = []) (m m' : Mem D) (x : P D) (h : ∀ a, m a x = m' a x) (a : Arr) :
    atPoint I eqs m x a x = atPoint I eqs m' x a x := by
  unfold atPoint
  induction eqs generalizing m m' with
  | nil => exact h a
  | cons q eqs ih =>
    refine ih (fun q hq => hc q (List.mem_cons_of_mem _ hq)) _ _ fun b => ?_
    beta_reduce
    rw [eval_at (m' := m') q.2 (hc q (List.mem_cons_self ..)) fun a _ => h a]
    unfold Mem.set
    rw [h b]

/-- A loop without derivatives treats every point as if it were alone. -/
theorem loop_at (I : Interp D) (eqs : List (Arr × Ex D)) (hc : ∀ q ∈ eqs, q.2.cds = []) (pts : List (P D)) (hn : pts.Nodup) (m : Mem D) (a : Arr) (x : P D) :
    pts.foldl (atPoint I eqs) m a x = if x ∈ pts then atPoint I eqs m x a x else m a x := by
  induction pts generalizing m with
  | nil => rfl
  | cons p pts ih =>
    rw [List.nodup_cons] at hn
    rw [List.foldl_cons, ih hn.2]
    by_cases hx : x = p
    · subst hx; rw [if_neg hn.1, if_pos (List.mem_cons_self ..)]
    · have hm : x ∈ p :: pts ↔ x ∈ pts := by simp [hx]
      rw [atPoint_other I eqs m p x hx a]
      simp only [hm]
      split
      · exact atPoint_agree I eqs hc _ _ x (fun b => atPoint_other I eqs m p x hx b) a
      · rfl

theorem atPoint_frame (I : Interp D) (eqs : List (Arr × Ex D)) (m : Mem D) (x y : P D) (a : Arr) (h : a ∉ eqs.map Prod.fst) : atPoint I eqs m x a y = m a y := by
  unfold atPoint
  induction eqs generalizing m with
  | nil => rfl
  | cons q eqs ih =>
    simp only [List.map_cons, List.mem_cons, not_or] at h
    rw [List.foldl_cons, ih _ h.2, set_other _ _ _ _ _ _ fun hh => h.1 hh.1]

/-- Equations with different targets, none of which reads the target of another one. -/
theorem atPoint_simul (I : Interp D) (eqs : List (Arr × Ex D)) (hn : (eqs.map Prod.fst).Nodup) (hr : ∀ q ∈ eqs, ∀ q' ∈ eqs, q'.1 ∈ q.2.arrs → q' = q)
    (hc : ∀ q ∈ eqs, q.2.cds = []) (m : Mem D) (x : P D) (q : Arr × Ex D) (hq : q ∈ eqs) : atPoint I eqs m x q.1 x = q.2.eval I m x := by
  induction eqs generalizing m with
  | nil => simp at hq
  | cons p eqs ih =>
    simp only [List.map_cons, List.nodup_cons] at hn
    change atPoint I eqs (m.set p.1 x (p.2.eval I m x)) x q.1 x = _
    rcases List.mem_cons.1 hq with rfl | hq
    · rw [atPoint_frame I eqs _ x x _ hn.1]
      simp [Mem.set]
    · rw [ih hn.2 (fun a ha b hb => hr a (List.mem_cons_of_mem _ ha) b (List.mem_cons_of_mem _ hb)) (fun a ha => hc a (List.mem_cons_of_mem _ ha)) _ hq]
      refine eval_at q.2 (hc q (List.mem_cons_of_mem _ hq)) fun a ha => set_other _ _ _ _ _ _ fun hh => ?_
      have := hr q (List.mem_cons_of_mem _ hq) p (List.mem_cons_self ..) (hh.1 ▸ ha)
      subst this
      exact hn.1 (List.mem_map_of_mem hq)

/-- A kernel without derivatives whose equations do not read each other's targets: every target gets its value on the range, everything else stays. -/
theorem runKer_simul (I : Interp D) {pts : Ranges.Kernel D → List (P D)} (hp : Enumerates pts) (k : Ker D) (hn : (k.eqs.map Prod.fst).Nodup)
    (hr : ∀ q ∈ k.eqs, ∀ q' ∈ k.eqs, q'.1 ∈ q.2.arrs → q' = q) (hc : ∀ q ∈ k.eqs, q.2.cds = []) (m : Mem D) :
    (∀ q ∈ k.eqs, ∀ x, k.range.visits x → runKer I pts k m q.1 x = q.2.eval I m x) ∧
    (∀ a x, ¬ k.range.visits x → runKer I pts k m a x = m a x) ∧ ∀ a, a ∉ k.eqs.map Prod.fst → runKer I pts k m a = m a := by
  refine ⟨fun q hq x hx => ?_, fun a x hx => ?_, fun a ha => funext fun x => ?_⟩
  · rw [runKer, loop_at I k.eqs hc _ (hp _).1, if_pos (((hp _).2 x).2 hx)]
    exact atPoint_simul I k.eqs hn hr hc m x q hq
  · rw [runKer, loop_at I k.eqs hc _ (hp _).1, if_neg fun h => hx (((hp _).2 x).1 h)]
  · rw [runKer, loop_at I k.eqs hc _ (hp _).1]
    split
    · exact atPoint_frame I k.eqs m x x a ha
    · rfl

/-- A kernel of one equation which does not read its target: derivatives are allowed. -/
theorem runKer_single (I : Interp D) {pts : Ranges.Kernel D → List (P D)} (hp : Enumerates pts) (r : Ranges.Kernel D) (t : Arr) (e : Ex D) (hr : t ∉ e.arrs) (m : Mem D) :
    (∀ x, r.visits x → runKer I pts ⟨r, [(t, e)]⟩ m t x = e.eval I m x) ∧ (∀ x, ¬ r.visits x → runKer I pts ⟨r, [(t, e)]⟩ m t x = m t x) ∧
    ∀ a, a ≠ t → runKer I pts ⟨r, [(t, e)]⟩ m a = m a := by
  have key : ∀ (l : List (P D)) (m' : Mem D), (∀ a, a ≠ t → m' a = m a) → ∀ a x,
      l.foldl (atPoint I [(t, e)]) m' a x = if a = t ∧ x ∈ l then e.eval I m x else m' a x := by
    intro l
    induction l with
    | nil => intro m' _ a x; simp
    | cons p l ih =>
      intro m' hm a x
      rw [List.foldl_cons, ih]
      · have he : e.eval I m' = e.eval I m := eval_congr e fun a ha => hm a fun h => hr (h ▸ ha)
        simp only [atPoint, List.foldl_cons, List.foldl_nil, he, Mem.set]
        by_cases ha : a = t
        · by_cases hx : x ∈ l
          · simp [ha, hx]
          · by_cases hxp : x = p
            · subst hxp; simp [ha]
            · simp [hx, hxp]
        · simp [ha]
      · intro a ha
        funext y
        simp only [atPoint, List.foldl_cons, List.foldl_nil]
        rw [set_other _ _ _ _ _ _ fun h => ha h.1, hm a ha]
  refine ⟨fun x hx => ?_, fun x hx => ?_, fun a ha => funext fun x => ?_⟩
  · rw [runKer, key _ m (fun _ _ => rfl), if_pos ⟨rfl, ((hp _).2 x).2 hx⟩]
  · rw [runKer, key _ m (fun _ _ => rfl), if_neg fun h => hx (((hp _).2 x).1 h.2)]
  · rw [runKer, key _ m (fun _ _ => rfl), if_neg fun h => ha h.1]

end OpenSBLI.Sim
