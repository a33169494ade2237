import Verif.Model.UserEqs
import Mathlib.Data.List.Nodup

/-!
# Lemmas on user defined equations
-/
namespace OpenSBLI.User
set_option linter.unusedSectionVars false

variable {P : Type} [DecidableEq P]

/-- Write an array on a list of points at once. -/
def setOn (pts : List P) (t : Target) (f : P → ℝ) (v : Env P) : Env P :=
  match t with
  | .data s => { v with data := fun s' y => if s' = s ∧ y ∈ pts then f y else v.data s' y }
  | .work i => { v with work := fun i' y => if i' = i ∧ y ∈ pts then f y else v.work i' y }

/-- Equations one after the other, each on all points. -/
def seq (pts : List P) (eqs : List Eqn) (v : Env P) : Env P := eqs.foldl (fun v q => setOn pts q.lhs (q.rhs.eval v) v) v

/-- The same memory at a point, and the same operators. -/
structure AgreeAt (x : P) (v v' : Env P) : Prop where
  data : ∀ s, v.data s x = v'.data s x
  work : ∀ i, v.work i x = v'.work i x
  cd : v.cd = v'.cd
  un : v.un = v'.un
  bin : v.bin = v'.bin

theorem AgreeAt.refl (x : P) (v : Env P) : AgreeAt x v v := ⟨fun _ => rfl, fun _ => rfl, rfl, rfl, rfl⟩

theorem AgreeAt.trans {x : P} {a b c : Env P} (h : AgreeAt x a b) (h' : AgreeAt x b c) : AgreeAt x a c :=
  ⟨fun s => (h.data s).trans (h'.data s), fun s => (h.work s).trans (h'.work s), h.cd.trans h'.cd, h.un.trans h'.un, h.bin.trans h'.bin⟩

theorem AgreeAt.symm {x : P} {a b : Env P} (h : AgreeAt x a b) : AgreeAt x b a :=
  ⟨fun s => (h.data s).symm, fun s => (h.work s).symm, h.cd.symm, h.un.symm, h.bin.symm⟩

theorem env_ext {v v' : Env P} (h : ∀ x, AgreeAt x v v') (ho : v.cd = v'.cd ∧ v.un = v'.un ∧ v.bin = v'.bin) : v = v' := by
  obtain ⟨d, w, c, u, b⟩ := v
  obtain ⟨d', w', c', u', b'⟩ := v'
  simp only at ho
  obtain ⟨rfl, rfl, rfl⟩ := ho
  have h1 : d = d' := by funext s x; exact (h x).data s
  have h2 : w = w' := by funext s x; exact (h x).work s
  rw [h1, h2]

theorem eval_at {x : P} {v v' : Env P} (h : AgreeAt x v v') (e : Ex) (he : e.cds = []) : e.eval v x = e.eval v' x := by
  induction e with
  | num n => rfl
  | data s => exact h.data s
  | work i => exact h.work i
  | cd d e _ => simp [Ex.cds] at he
  | un f e ih => simp only [Ex.eval, Ex.cds] at he ⊢; rw [ih he, h.un]
  | bin f a b iha ihb =>
    simp only [Ex.cds, List.append_eq_nil_iff] at he
    simp only [Ex.eval]; rw [iha he.1, ihb he.2, h.bin]

theorem set_other (v : Env P) (t : Target) (x y : P) (a : ℝ) (h : y ≠ x) : AgreeAt y (v.set t x a) v := by
  cases t <;> exact ⟨fun s => by simp [Env.set, h], fun s => by simp [Env.set, h], rfl, rfl, rfl⟩

theorem set_agree {x : P} {v v' : Env P} (h : AgreeAt x v v') (t : Target) (a : ℝ) : AgreeAt x (v.set t x a) (v'.set t x a) := by
  cases t with
  | data s => exact ⟨fun s' => by simp only [Env.set, h.data], h.work, h.cd, h.un, h.bin⟩
  | work i => exact ⟨h.data, fun i' => by simp only [Env.set, h.work], h.cd, h.un, h.bin⟩

theorem atPoint_other (eqs : List Eqn) (v : Env P) (x y : P) (h : y ≠ x) : AgreeAt y (atPoint eqs v x) v := by
  induction eqs generalizing v with
  | nil => exact .refl _ _
  | cons q eqs ih => exact (ih _).trans (set_other v q.lhs x y _ h)

theorem atPoint_agree (eqs : List Eqn) (hc : ∀ q ∈ eqs, q.rhs.cds = []) {x : P} {v v' : Env P} (h : AgreeAt x v v') :
    AgreeAt x (atPoint eqs v x) (atPoint eqs v' x) := by
  induction eqs generalizing v v' with
  | nil => exact h
  | cons q eqs ih =>
    refine ih (fun q hq => hc q (List.mem_cons_of_mem _ hq)) ?_
    simp only [eval_at h _ (hc q (List.mem_cons_self ..))]
    exact set_agree h _ _

/-- The loop over distinct points: every point is treated as if it were alone. -/
theorem loop_at (eqs : List Eqn) (hc : ∀ q ∈ eqs, q.rhs.cds = []) (pts : List P) (hn : pts.Nodup) (v : Env P) (x : P) :
    AgreeAt x (pts.foldl (atPoint eqs) v) (if x ∈ pts then atPoint eqs v x else v) := by
  induction pts generalizing v with
  | nil => exact .refl _ _
  | cons p pts ih =>
    rw [List.nodup_cons] at hn
    rw [List.foldl_cons]
    have := ih hn.2 (atPoint eqs v p)
    by_cases hx : x = p
    · subst hx
      rw [if_neg hn.1] at this
      rw [if_pos (List.mem_cons_self ..)]; exact this
    · have hm : x ∈ p :: pts ↔ x ∈ pts := by simp [hx]
      simp only [hm]
      refine this.trans ?_
      split
      · exact atPoint_agree eqs hc (atPoint_other eqs v p x hx)
      · exact atPoint_other eqs v p x hx

theorem setOn_at (pts : List P) (t : Target) (f : P → ℝ) (v v' : Env P) (x : P) (h : AgreeAt x v v') :
    AgreeAt x (setOn pts t f v) (if x ∈ pts then v'.set t x (f x) else v') := by
  cases t with
  | data s =>
    by_cases hx : x ∈ pts
    · rw [if_pos hx]; exact ⟨fun s' => by simp [setOn, Env.set, hx, h.data], h.work, h.cd, h.un, h.bin⟩
    · rw [if_neg hx]; exact ⟨fun s' => by simp [setOn, hx, h.data], h.work, h.cd, h.un, h.bin⟩
  | work i =>
    by_cases hx : x ∈ pts
    · rw [if_pos hx]; exact ⟨h.data, fun s' => by simp [setOn, Env.set, hx, h.work], h.cd, h.un, h.bin⟩
    · rw [if_neg hx]; exact ⟨h.data, fun s' => by simp [setOn, hx, h.work], h.cd, h.un, h.bin⟩

theorem seq_at (eqs : List Eqn) (hc : ∀ q ∈ eqs, q.rhs.cds = []) (pts : List P) {v v' : Env P} {x : P} (h : AgreeAt x v v') :
    AgreeAt x (seq pts eqs v) (if x ∈ pts then atPoint eqs v' x else v') := by
  induction eqs generalizing v v' with
  | nil => simpa [seq, atPoint] using h
  | cons q eqs ih =>
    have h1 := setOn_at pts q.lhs (q.rhs.eval v) v v' x h
    have e := eval_at h q.rhs (hc q (List.mem_cons_self ..))
    have := ih (fun q hq => hc q (List.mem_cons_of_mem _ hq)) h1
    simp only [seq, List.foldl_cons] at this ⊢
    refine this.trans ?_
    split
    · rw [e]; exact .refl _ _
    · exact .refl _ _

theorem loop_ops (eqs : List Eqn) (pts : List P) (v : Env P) :
    (pts.foldl (atPoint eqs) v).cd = v.cd ∧ (pts.foldl (atPoint eqs) v).un = v.un ∧ (pts.foldl (atPoint eqs) v).bin = v.bin := by
  have h1 : ∀ v : Env P, ∀ t x a, (v.set t x a).cd = v.cd ∧ (v.set t x a).un = v.un ∧ (v.set t x a).bin = v.bin := by
    intro v t x a; cases t <;> exact ⟨rfl, rfl, rfl⟩
  have h2 : ∀ v : Env P, ∀ x, (atPoint eqs v x).cd = v.cd ∧ (atPoint eqs v x).un = v.un ∧ (atPoint eqs v x).bin = v.bin := by
    intro v x
    induction eqs generalizing v with
    | nil => exact ⟨rfl, rfl, rfl⟩
    | cons q eqs ih =>
      have a := ih (v.set q.lhs x (q.rhs.eval v x))
      have b := h1 v q.lhs x (q.rhs.eval v x)
      exact ⟨a.1.trans b.1, a.2.1.trans b.2.1, a.2.2.trans b.2.2⟩
  induction pts generalizing v with
  | nil => exact ⟨rfl, rfl, rfl⟩
  | cons p pts ih =>
    have a := ih (atPoint eqs v p)
    have b := h2 v p
    exact ⟨a.1.trans b.1, a.2.1.trans b.2.1, a.2.2.trans b.2.2⟩

theorem seq_ops (eqs : List Eqn) (pts : List P) (v : Env P) : (seq pts eqs v).cd = v.cd ∧ (seq pts eqs v).un = v.un ∧ (seq pts eqs v).bin = v.bin := by
  unfold seq
  induction eqs generalizing v with
  | nil => exact ⟨rfl, rfl, rfl⟩
  | cons q eqs ih =>
    have a := ih (setOn pts q.lhs (q.rhs.eval v) v)
    have b : (setOn pts q.lhs (q.rhs.eval v) v).cd = v.cd ∧ (setOn pts q.lhs (q.rhs.eval v) v).un = v.un ∧ (setOn pts q.lhs (q.rhs.eval v) v).bin = v.bin := by
      cases q.lhs <;> exact ⟨rfl, rfl, rfl⟩
    exact ⟨a.1.trans b.1, a.2.1.trans b.2.1, a.2.2.trans b.2.2⟩

/-- A kernel without derivatives does the same as its equations one after the other on all its points. -/
theorem kernel_seq (eqs : List Eqn) (hc : ∀ q ∈ eqs, q.rhs.cds = []) (pts : List P) (hn : pts.Nodup) (v : Env P) :
    pts.foldl (atPoint eqs) v = seq pts eqs v := by
  apply env_ext
  · intro x
    exact (loop_at eqs hc pts hn v x).trans (seq_at eqs hc pts (AgreeAt.refl x v)).symm
  · have a := loop_ops eqs pts v
    have b := seq_ops eqs pts v
    exact ⟨a.1.trans b.1.symm, a.2.1.trans b.2.1.symm, a.2.2.trans b.2.2.symm⟩

/-! ## Work arrays -/

/-- No work array occurs. -/
def Ex.plain : Ex → Bool
  | .work _ => false
  | .cd _ e => e.plain
  | .un _ e => e.plain
  | .bin _ a b => a.plain && b.plain
  | _ => true

theorem eval_plain {v v' : Env P} (hd : v.data = v'.data) (ho : v.cd = v'.cd ∧ v.un = v'.un ∧ v.bin = v'.bin) (e : Ex) (h : e.plain = true) :
    e.eval v = e.eval v' := by
  induction e with
  | num n => rfl
  | data s => simp [Ex.eval, hd]
  | work i => simp [Ex.plain] at h
  | cd d e ih => simp only [Ex.eval]; rw [ih h, ho.1]
  | un f e ih => simp only [Ex.eval]; rw [ih h, ho.2.1]
  | bin f a b iha ihb =>
    simp only [Ex.plain, Bool.and_eq_true] at h
    simp only [Ex.eval]; rw [iha h.1, ihb h.2, ho.2.2]

/-- Work array `i` occurs. -/
def Ex.uses (i : ℕ) : Ex → Bool
  | .work j => i == j
  | .cd _ e => e.uses i
  | .un _ e => e.uses i
  | .bin _ a b => a.uses i || b.uses i
  | _ => false

theorem uses_of_plain (e : Ex) (h : e.plain = true) (i : ℕ) : e.uses i = false := by
  induction e <;> simp_all [Ex.plain, Ex.uses]

theorem eval_uses {v v' : Env P} (i : ℕ) (hd : v.data = v'.data) (hw : ∀ j, j ≠ i → v.work j = v'.work j) (ho : v.cd = v'.cd ∧ v.un = v'.un ∧ v.bin = v'.bin) (e : Ex)
    (h : e.uses i = false) : e.eval v = e.eval v' := by
  induction e with
  | num n => rfl
  | data s => simp [Ex.eval, hd]
  | work j => simp only [Ex.uses, beq_eq_false_iff_ne] at h; exact hw j (Ne.symm h)
  | cd d e ih => simp only [Ex.eval]; rw [ih h, ho.1]
  | un f e ih => simp only [Ex.eval]; rw [ih h, ho.2.1]
  | bin f a b iha ihb =>
    simp only [Ex.uses, Bool.or_eq_false_iff] at h
    simp only [Ex.eval]; rw [iha h.1, ihb h.2, ho.2.2]

/-- The kernel of one derivative: the work array holds it on the grid. -/
theorem derivative_kernel (i : ℕ) (c : Ex) (hc : c.uses i = false) (pts : List P) (v : Env P) :
    pts.foldl (atPoint [⟨.work i, c⟩]) v = setOn pts (.work i) (c.eval v) v := by
  have : ∀ v' : Env P, (v'.data = v.data ∧ (∀ j, j ≠ i → v'.work j = v.work j) ∧ v'.cd = v.cd ∧ v'.un = v.un ∧ v'.bin = v.bin) →
      pts.foldl (atPoint [⟨.work i, c⟩]) v' = setOn pts (.work i) (c.eval v) v' := by
    induction pts with
    | nil => intro v' _; simp [setOn]
    | cons p pts ih =>
      intro v' h
      have hv : c.eval v' p = c.eval v p := congrFun (eval_uses i h.1 h.2.1 h.2.2 c hc) p
      rw [List.foldl_cons, ih]
      · simp only [atPoint, List.foldl_cons, List.foldl_nil, hv, Env.set, setOn]
        congr 1
        funext i' y
        by_cases hi : i' = i
        · by_cases hy : y ∈ pts
          · simp [hi, hy]
          · by_cases hyp : y = p
            · subst hyp; simp [hi]
            · simp [hi, hy, hyp]
        · simp [hi]
      · refine ⟨h.1, ?_, h.2.2⟩
        intro j hj
        rw [← h.2.1 j hj]
        funext y
        simp [atPoint, Env.set, hj]
  exact this v ⟨rfl, fun _ _ => rfl, rfl, rfl, rfl⟩

/-! ## Replacing derivatives -/

/-- No derivative inside a derivative. -/
def Ex.flat (e : Ex) : Prop := ∀ d a, .cd d a ∈ e.cds → a.cds = []

theorem mem_cds (e : Ex) : ∀ c ∈ e.cds, ∃ d a, c = .cd d a := by
  induction e with
  | cd d e ih =>
    intro c hc
    rcases List.mem_cons.1 hc with rfl | hc
    · exact ⟨d, e, rfl⟩
    · exact ih c hc
  | un f e ih => exact ih
  | bin f a b iha ihb =>
    intro c hc
    rcases List.mem_append.1 hc with hc | hc
    · exact iha c hc
    · exact ihb c hc
  | _ => intro c hc; simp [Ex.cds] at hc

theorem replace_noCds (d : ℕ) (a new e : Ex) (h : e.cds = []) : Ex.replace (.cd d a) new e = e := by
  induction e with
  | cd d' e ih => simp [Ex.cds] at h
  | un f e ih => simp only [Ex.cds] at h; simp [Ex.replace, ih h]
  | bin f x y ihx ihy => simp only [Ex.cds, List.append_eq_nil_iff] at h; simp [Ex.replace, ihx h.1, ihy h.2]
  | _ => simp [Ex.replace]

theorem flat_bin {f : String} {a b : Ex} (h : (Ex.bin f a b).flat) : a.flat ∧ b.flat :=
  ⟨fun d x hx => h d x (by simp [Ex.cds, hx]), fun d x hx => h d x (by simp [Ex.cds, hx])⟩

theorem flat_cd {d : ℕ} {a : Ex} (h : (Ex.cd d a).flat) : a.cds = [] := h d a (by simp [Ex.cds])

/-- After replacing a derivative, the others remain. -/
theorem cds_replace (d : ℕ) (a : Ex) (i : ℕ) (e : Ex) (he : e.flat) (c : Ex) (hc : c ∈ (Ex.replace (.cd d a) (.work i) e).cds) :
    c ∈ e.cds ∧ c ≠ .cd d a := by
  induction e with
  | cd d' e ih =>
    have := flat_cd he
    simp only [Ex.replace] at hc
    split at hc
    · simp [Ex.cds] at hc
    · rename_i hne
      rw [replace_noCds _ _ _ _ this] at hc
      simp only [Ex.cds, this, List.mem_singleton] at hc ⊢
      exact ⟨hc, hc ▸ hne⟩
  | un f e ih => simp only [Ex.replace, reduceCtorEq, if_false] at hc; exact ih he hc
  | bin f x y ihx ihy =>
    simp only [Ex.replace, reduceCtorEq, if_false, Ex.cds, List.mem_append] at hc ⊢
    rcases hc with hc | hc
    · have := ihx (flat_bin he).1 hc; exact ⟨Or.inl this.1, this.2⟩
    · have := ihy (flat_bin he).2 hc; exact ⟨Or.inr this.1, this.2⟩
  | _ => simp [Ex.replace, Ex.cds] at hc

theorem flat_replace (d : ℕ) (a : Ex) (i : ℕ) (e : Ex) (he : e.flat) : (Ex.replace (.cd d a) (.work i) e).flat :=
  fun d' a' h => he d' a' (cds_replace d a i e he _ h).1

/-- Values at a point, with the derivatives taken from elsewhere. -/
def Ex.evalF (v0 v : Env P) : Ex → P → ℝ
  | .num n => fun _ => n
  | .data s => v.data s
  | .work i => v.work i
  | .cd d e => (Ex.cd d e).eval v0
  | .un f e => fun x => v.un f (e.evalF v0 v x)
  | .bin f a b => fun x => v.bin f (a.evalF v0 v x) (b.evalF v0 v x)

theorem evalF_replace (v0 v : Env P) (d : ℕ) (a : Ex) (i : ℕ) (x : P) (hw : v.work i x = (Ex.cd d a).eval v0 x) (e : Ex) (he : e.flat) :
    (Ex.replace (.cd d a) (.work i) e).evalF v0 v x = e.evalF v0 v x := by
  induction e with
  | cd d' e ih =>
    simp only [Ex.replace]
    split
    · rename_i h; rw [h]; simp only [Ex.evalF]; exact hw
    · rw [replace_noCds _ _ _ _ (flat_cd he)]
  | un f e ih => simp only [Ex.replace, reduceCtorEq, if_false, Ex.evalF]; rw [ih he]
  | bin f x y ihx ihy =>
    simp only [Ex.replace, reduceCtorEq, if_false, Ex.evalF]
    rw [ihx (flat_bin he).1, ihy (flat_bin he).2]
  | _ => simp [Ex.replace]

theorem evalF_noCds (v0 v : Env P) (e : Ex) (h : e.cds = []) : e.evalF v0 v = e.eval v := by
  induction e with
  | cd d e => simp [Ex.cds] at h
  | un f e ih => simp only [Ex.cds] at h; simp only [Ex.evalF, Ex.eval]; rw [ih h]
  | bin f a b iha ihb => simp only [Ex.cds, List.append_eq_nil_iff] at h; simp only [Ex.evalF, Ex.eval]; rw [iha h.1, ihb h.2]
  | _ => rfl

theorem evalF_self (v : Env P) (e : Ex) : e.evalF v v = e.eval v := by
  induction e with
  | cd d e => rfl
  | un f e ih => simp only [Ex.evalF, Ex.eval]; rw [ih]
  | bin f a b iha ihb => simp only [Ex.evalF, Ex.eval]; rw [iha, ihb]
  | _ => rfl

/-- Substituting a list of derivatives by work arrays holding them. -/
theorem evalF_subs (v0 v : Env P) (x : P) (pairs : List (Ex × Ex)) (hp : ∀ p ∈ pairs, ∃ d a i, p = (.cd d a, .work i) ∧ v.work i x = (Ex.cd d a).eval v0 x)
    (e : Ex) (he : e.flat) : (Ex.subs pairs e).evalF v0 v x = e.evalF v0 v x := by
  unfold Ex.subs
  induction pairs generalizing e with
  | nil => rfl
  | cons p ps ih =>
    obtain ⟨d, a, i, rfl, hw⟩ := hp p (List.mem_cons_self ..)
    rw [List.foldl_cons, ih (fun q hq => hp q (List.mem_cons_of_mem _ hq)) _ (flat_replace d a i e he), evalF_replace v0 v d a i x hw e he]

theorem cds_subs (pairs : List (Ex × Ex)) (hp : ∀ p ∈ pairs, ∃ d a i, p = (.cd d a, .work i)) (e : Ex) (he : e.flat) (c : Ex)
    (hc : c ∈ (Ex.subs pairs e).cds) : c ∈ e.cds ∧ ∀ p ∈ pairs, c ≠ p.1 := by
  unfold Ex.subs at hc
  induction pairs generalizing e with
  | nil => exact ⟨hc, by simp⟩
  | cons p ps ih =>
    obtain ⟨d, a, i, rfl⟩ := hp p (List.mem_cons_self ..)
    rw [List.foldl_cons] at hc
    have h1 := ih (fun q hq => hp q (List.mem_cons_of_mem _ hq)) _ (flat_replace d a i e he) hc
    have h2 := cds_replace d a i e he c h1.1
    refine ⟨h2.1, ?_⟩
    intro q hq
    rcases List.mem_cons.1 hq with rfl | hq
    · exact h2.2
    · exact h1.2 q hq

theorem subs_noCds (pairs : List (Ex × Ex)) (hp : ∀ p ∈ pairs, ∃ d a i, p = (.cd d a, .work i)) (e : Ex) (he : e.cds = []) : Ex.subs pairs e = e := by
  unfold Ex.subs
  induction pairs generalizing e with
  | nil => rfl
  | cons p ps ih =>
    obtain ⟨d, a, i, rfl⟩ := hp p (List.mem_cons_self ..)
    rw [List.foldl_cons, replace_noCds _ _ _ _ he]
    exact ih (fun q hq => hp q (List.mem_cons_of_mem _ hq)) _ he

end OpenSBLI.User
