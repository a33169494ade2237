import Verif.Props.C32_C33_Arguments
import Verif.Props.C34_C38_C39_Registries

/-!
# C32 everything a kernel uses is passed to it, C34 a kernel touches an array only at the points of its stencil

The statements here compare executions: what is not passed cannot influence what the kernel computes, and is not changed by it.
-/
namespace OpenSBLI.Ker

variable {d : ℕ} {V : Type}

/-- All assignments of an equation, those of every branch included. -/
def Eqn.assigns : Eqn d → List (Assign d)
  | .assign a => [a]
  | .piecewise bs => bs.flatMap Prod.fst

/-- All conditions of an equation. -/
def Eqn.conds : Eqn d → List (Cond d)
  | .assign _ => []
  | .piecewise bs => bs.map Prod.snd

/-- Store a value in the object on the left of an assignment. -/
def Lhs.set (p : Fin d → ℤ) (l : Lhs d) (v : V) (s : Point d V) : Point d V :=
  match l with
  | .data b o => { s with store := s.store.setData b (p + o) v }
  | .gvar x => { s with loc := Function.update s.loc x v }
  | .glob g => { s with store := { s.store with glob := Function.update s.store.glob g v } }

theorem exec_eq_set (I : Interp V) (p : Fin d → ℤ) (a : Assign d) (s : Point d V) : a.exec I p s = a.lhs.set p (a.rhs.eval I p s) s := by
  obtain ⟨l, r⟩ := a
  cases l <;> rfl

/-- Executions under two interpretations stay related when every expression, every condition and every store respects the relation. -/
theorem sim_assigns (I I' : Interp V) (p : Fin d → ℤ) (R : Point d V → Point d V → Prop) (as : List (Assign d))
    (h1 : ∀ a ∈ as, ∀ s s', R s s' → a.rhs.eval I p s = a.rhs.eval I' p s')
    (h2 : ∀ a ∈ as, ∀ v s s', R s s' → R (a.lhs.set p v s) (a.lhs.set p v s')) {s s' : Point d V} (h : R s s') :
    R (execAssigns I p as s) (execAssigns I' p as s') := by
  induction as generalizing s s' with
  | nil => exact h
  | cons a as ih =>
    simp only [execAssigns, List.foldl_cons]
    refine ih (fun a ha => h1 a (List.mem_cons_of_mem _ ha)) (fun a ha => h2 a (List.mem_cons_of_mem _ ha)) ?_
    rw [exec_eq_set, exec_eq_set, h1 a (List.mem_cons_self ..) s s' h]
    exact h2 a (List.mem_cons_self ..) _ s s' h

theorem sim_eqn (I I' : Interp V) (p : Fin d → ℤ) (R : Point d V → Point d V → Prop) (e : Eqn d)
    (h1 : ∀ a ∈ e.assigns, ∀ s s', R s s' → a.rhs.eval I p s = a.rhs.eval I' p s')
    (h2 : ∀ a ∈ e.assigns, ∀ v s s', R s s' → R (a.lhs.set p v s) (a.lhs.set p v s'))
    (h3 : ∀ c ∈ e.conds, ∀ s s', R s s' → c.eval I p s = c.eval I' p s') {s s' : Point d V} (h : R s s') :
    R (e.exec I p s) (e.exec I' p s') := by
  cases e with
  | assign a =>
    simp only [Eqn.exec]
    rw [exec_eq_set, exec_eq_set, h1 a (by simp [Eqn.assigns]) s s' h]
    exact h2 a (by simp [Eqn.assigns]) _ s s' h
  | piecewise bs =>
    simp only [Eqn.exec]
    induction bs with
    | nil => exact h
    | cons x bs ih =>
      obtain ⟨as, c⟩ := x
      simp only [execBranches]
      rw [h3 c (by simp [Eqn.conds]) s s' h]
      have e1 : ∀ a ∈ as, a ∈ (Eqn.piecewise ((as, c) :: bs)).assigns := fun a ha => by simp [Eqn.assigns, ha]
      split
      · exact sim_assigns I I' p R as (fun a ha => h1 a (e1 a ha)) (fun a ha => h2 a (e1 a ha)) h
      · refine ih (fun a ha => h1 a ?_) (fun a ha => h2 a ?_) (fun c hc => h3 c ?_)
        · simp only [Eqn.assigns, List.flatMap_cons, List.mem_append]; exact Or.inr ha
        · simp only [Eqn.assigns, List.flatMap_cons, List.mem_append]; exact Or.inr ha
        · simp only [Eqn.conds, List.map_cons, List.mem_cons]; exact Or.inr hc

theorem sim_eqns (I I' : Interp V) (p : Fin d → ℤ) (R : Point d V → Point d V → Prop) (eqs : List (Eqn d))
    (h1 : ∀ e ∈ eqs, ∀ a ∈ e.assigns, ∀ s s', R s s' → a.rhs.eval I p s = a.rhs.eval I' p s')
    (h2 : ∀ e ∈ eqs, ∀ a ∈ e.assigns, ∀ v s s', R s s' → R (a.lhs.set p v s) (a.lhs.set p v s'))
    (h3 : ∀ e ∈ eqs, ∀ c ∈ e.conds, ∀ s s', R s s' → c.eval I p s = c.eval I' p s') {s s' : Point d V} (h : R s s') :
    R (eqs.foldl (fun s e => e.exec I p s) s) (eqs.foldl (fun s e => e.exec I' p s) s') := by
  induction eqs generalizing s s' with
  | nil => exact h
  | cons e eqs ih =>
    rw [List.foldl_cons, List.foldl_cons]
    exact ih (fun e he => h1 e (List.mem_cons_of_mem _ he)) (fun e he => h2 e (List.mem_cons_of_mem _ he))
      (fun e he => h3 e (List.mem_cons_of_mem _ he))
      (sim_eqn I I' p R e (h1 e (List.mem_cons_self ..)) (h2 e (List.mem_cons_self ..)) (h3 e (List.mem_cons_self ..)) h)

theorem sim_loop (I I' : Interp V) (hn : I.num = I'.num) (T : Store d V → Store d V → Prop) (eqs : List (Eqn d)) (pts : List (Fin d → ℤ))
    (h1 : ∀ p, ∀ e ∈ eqs, ∀ a ∈ e.assigns, ∀ s s', T s.store s'.store ∧ s.loc = s'.loc → a.rhs.eval I p s = a.rhs.eval I' p s')
    (h2 : ∀ p, ∀ e ∈ eqs, ∀ a ∈ e.assigns, ∀ (v : V) s s', T s.store s'.store ∧ s.loc = s'.loc →
      T (a.lhs.set p v s).store (a.lhs.set p v s').store ∧ (a.lhs.set p v s).loc = (a.lhs.set p v s').loc)
    (h3 : ∀ p, ∀ e ∈ eqs, ∀ c ∈ e.conds, ∀ s s', T s.store s'.store ∧ s.loc = s'.loc → c.eval I p s = c.eval I' p s') {st st' : Store d V}
    (h : T st st') : T (execLoop I eqs pts st) (execLoop I' eqs pts st') := by
  induction pts generalizing st st' with
  | nil => exact h
  | cons p pts ih =>
    simp only [execLoop, List.foldl_cons]
    refine ih ?_
    exact (sim_eqns I I' p (fun s s' => T s.store s'.store ∧ s.loc = s'.loc) eqs (h1 p) (h2 p) (h3 p) (s := ⟨st, fun _ => I.num 0⟩)
      (s' := ⟨st', fun _ => I'.num 0⟩) ⟨h, by rw [hn]⟩).1

/-! ## Grid indices -/

theorem eval_no_idx (I : Interp V) (f : ℤ → V) (p : Fin d → ℤ) (s : Point d V) (e : Expr d) (h : e.usesIdx = false) :
    e.eval I p s = e.eval { I with ofIdx := f } p s := by
  induction e with
  | idx k => simp [Expr.usesIdx] at h
  | un g x ih => simp only [Expr.usesIdx] at h; simp only [Expr.eval]; rw [ih h]
  | bin g x y ihx ihy =>
    simp only [Expr.usesIdx, Bool.or_eq_false_iff] at h
    simp only [Expr.eval]; rw [ihx h.1, ihy h.2]
  | _ => rfl

theorem ceval_no_idx (I : Interp V) (f : ℤ → V) (p : Fin d → ℤ) (s : Point d V) (c : Cond d) (h : c.usesIdx = false) :
    c.eval I p s = c.eval { I with ofIdx := f } p s := by
  induction c with
  | tt => rfl
  | rel r x y =>
    simp only [Cond.usesIdx, Bool.or_eq_false_iff] at h
    simp only [Cond.eval]; rw [eval_no_idx I f p s x h.1, eval_no_idx I f p s y h.2]
  | and x y ihx ihy =>
    simp only [Cond.usesIdx, Bool.or_eq_false_iff] at h
    simp only [Cond.eval]; rw [ihx h.1, ihy h.2]
  | or x y ihx ihy =>
    simp only [Cond.usesIdx, Bool.or_eq_false_iff] at h
    simp only [Cond.eval]; rw [ihx h.1, ihy h.2]
  | not x ih => simp only [Cond.usesIdx] at h; simp only [Cond.eval]; rw [ih h]

theorem usesIdx_false {e : Eqn d} (h : e.usesIdx = false) :
    (∀ a ∈ e.assigns, a.rhs.usesIdx = false) ∧ ∀ c ∈ e.conds, c.usesIdx = false := by
  cases e with
  | assign a => simpa [Eqn.assigns, Eqn.conds, Eqn.usesIdx] using h
  | piecewise bs =>
    simp only [Eqn.usesIdx, List.any_eq_false, Bool.not_eq_true, Bool.or_eq_false_iff] at h
    refine ⟨fun a ha => ?_, fun c hc => ?_⟩
    · simp only [Eqn.assigns, List.mem_flatMap] at ha
      obtain ⟨b, hb, ha⟩ := ha
      exact (h b hb).1 a ha
    · simp only [Eqn.conds, List.mem_map] at hc
      obtain ⟨b, hb, rfl⟩ := hc
      exact (h b hb).2

/-- C32: if the index of the grid point is not among the arguments of the call, then nothing the kernel computes, at any points and from any memory, depends on
it: any other meaning of the index gives the same result. -/
theorem C32_index_passed_if_needed (E : Enum String) (EI : Enum (String × IIdx)) (eqs : List (Eqn d)) (args : List Arg)
    (ha : callArgs E EI eqs = some args) (hidx : Arg.idx ∉ args) (I : Interp V) (f : ℤ → V) (pts : List (Fin d → ℤ)) (st : Store d V) :
    execLoop { I with ofIdx := f } eqs pts st = execLoop I eqs pts st := by
  have hg : gridIndicesUsed eqs = false := by
    rw [mem_args ha] at hidx
    by_contra hcon
    rw [Bool.not_eq_false] at hcon
    apply hidx
    simp [hcon]
  simp only [gridIndicesUsed, List.any_eq_false, Bool.not_eq_true] at hg
  refine (sim_loop I { I with ofIdx := f } rfl (fun a b => b = a) eqs pts ?_ ?_ ?_ (st := st) rfl)
  · rintro p e he a ha ⟨s, l⟩ ⟨s', l'⟩ ⟨h1, h2⟩
    simp only at h1 h2; subst h1; subst h2
    exact eval_no_idx I f p _ _ ((usesIdx_false (hg e he)).1 a ha)
  · rintro p e he a ha v ⟨s, l⟩ ⟨s', l'⟩ ⟨h1, h2⟩
    simp only at h1 h2; subst h1; subst h2; exact ⟨rfl, rfl⟩
  · rintro p e he c hc ⟨s, l⟩ ⟨s', l'⟩ ⟨h1, h2⟩
    simp only at h1 h2; subst h1; subst h2
    exact ceval_no_idx I f p _ _ ((usesIdx_false (hg e he)).2 c hc)

/-! ## Globals -/

theorem eval_no_glob (I : Interp V) (g : String) (v : V) (p : Fin d → ℤ) (s : Store d V) (l : String → V) (e : Expr d) (h : g ∉ e.globs) :
    e.eval I p ⟨s, l⟩ = e.eval I p ⟨{ s with glob := Function.update s.glob g v }, l⟩ := by
  induction e with
  | glob g' =>
    simp only [Expr.globs, Finset.mem_singleton] at h
    simp only [Expr.eval]; rw [Function.update_of_ne (Ne.symm h)]
  | un f x ih => simp only [Expr.globs] at h; simp only [Expr.eval]; rw [ih h]
  | bin f x y ihx ihy =>
    simp only [Expr.globs, Finset.mem_union, not_or] at h
    simp only [Expr.eval]; rw [ihx h.1, ihy h.2]
  | _ => rfl

theorem ceval_no_glob (I : Interp V) (g : String) (v : V) (p : Fin d → ℤ) (s : Store d V) (l : String → V) (c : Cond d) (h : g ∉ c.globs) :
    c.eval I p ⟨s, l⟩ = c.eval I p ⟨{ s with glob := Function.update s.glob g v }, l⟩ := by
  induction c with
  | tt => rfl
  | rel r x y =>
    simp only [Cond.globs, Finset.mem_union, not_or] at h
    simp only [Cond.eval]; rw [eval_no_glob I g v p s l x h.1, eval_no_glob I g v p s l y h.2]
  | and x y ihx ihy =>
    simp only [Cond.globs, Finset.mem_union, not_or] at h
    simp only [Cond.eval]; rw [ihx h.1, ihy h.2]
  | or x y ihx ihy =>
    simp only [Cond.globs, Finset.mem_union, not_or] at h
    simp only [Cond.eval]; rw [ihx h.1, ihy h.2]
  | not x ih => simp only [Cond.globs] at h; simp only [Cond.eval]; rw [ih h]

theorem not_mem_globs {e : Eqn d} {g : String} (h : g ∉ e.globs) :
    (∀ a ∈ e.assigns, g ∉ a.lhs.globs ∧ g ∉ a.rhs.globs) ∧ ∀ c ∈ e.conds, g ∉ c.globs := by
  cases e with
  | assign a => simpa [Eqn.assigns, Eqn.conds, Eqn.globs] using h
  | piecewise bs =>
    simp only [Eqn.globs, mem_unionAll, Finset.mem_union, not_exists, not_and, not_or] at h
    refine ⟨fun a ha => ?_, fun c hc => ?_⟩
    · simp only [Eqn.assigns, List.mem_flatMap] at ha
      obtain ⟨b, hb, ha⟩ := ha
      exact (h b hb).1 a ha
    · simp only [Eqn.conds, List.mem_map] at hc
      obtain ⟨b, hb, rfl⟩ := hc
      exact (h b hb).2

/-- C32: if a global value is not among the arguments of the call, its value neither influences what the kernel computes nor is changed by it. -/
theorem C32_global_passed_if_needed (E : Enum String) (EI : Enum (String × IIdx)) (eqs : List (Eqn d)) (args : List Arg)
    (ha : callArgs E EI eqs = some args) (g : String) (hg : ∀ m, Arg.glob g m ∉ args) (I : Interp V) (pts : List (Fin d → ℤ)) (st : Store d V) (v : V) :
    execLoop I eqs pts { st with glob := Function.update st.glob g v } =
      { execLoop I eqs pts st with glob := Function.update (execLoop I eqs pts st).glob g v } := by
  have hg' : ∀ e ∈ eqs, g ∉ e.globs := by
    have h := hg .read
    rw [mem_args ha] at h
    intro e he hge
    apply h
    have : g ∈ (globalVariables eqs).1 := (mem_unionAll ..).2 ⟨e, he, hge⟩
    have := (E.mem _ g).2 this
    simp only [List.mem_append, List.mem_map]
    exact Or.inl (Or.inl (Or.inr ⟨g, this, rfl⟩))
  refine sim_loop I I rfl (fun a b => b = { a with glob := Function.update a.glob g v }) eqs pts ?_ ?_ ?_ (st := st) rfl
  · rintro p e he a ha ⟨s, l⟩ ⟨s', l'⟩ ⟨h1, h2⟩
    simp only at h1 h2; subst h1; subst h2
    exact eval_no_glob I g v p _ _ _ ((not_mem_globs (hg' e he)).1 a ha).2
  · rintro p e he ⟨lhs, rhs⟩ ha w ⟨s, l⟩ ⟨s', l'⟩ ⟨h1, h2⟩
    simp only at h1 h2; subst h1; subst h2
    have hl := ((not_mem_globs (hg' e he)).1 _ ha).1
    cases lhs with
    | data b o => exact ⟨rfl, rfl⟩
    | gvar x => exact ⟨rfl, rfl⟩
    | glob g' =>
      simp only [Lhs.globs, Finset.mem_singleton] at hl
      simp only [Lhs.set, and_true]
      rw [Function.update_comm (Ne.symm hl)]
  · rintro p e he c hc ⟨s, l⟩ ⟨s', l'⟩ ⟨h1, h2⟩
    simp only at h1 h2; subst h1; subst h2
    exact ceval_no_glob I g v p _ _ _ ((not_mem_globs (hg' e he)).2 c hc)

/-! ## Indexed constants -/

/-- Change one element of one indexed constant. -/
def Store.setIConst (st : Store d V) (c : String × IIdx) (v : V) : Store d V :=
  { st with iconst := fun b i => if (b, i) = c then v else st.iconst b i }

theorem eval_no_iconst (I : Interp V) (k : String × IIdx) (v : V) (p : Fin d → ℤ) (s : Store d V) (l : String → V) (e : Expr d) (h : k ∉ e.iconsts) :
    e.eval I p ⟨s, l⟩ = e.eval I p ⟨s.setIConst k v, l⟩ := by
  induction e with
  | iconst b i =>
    simp only [Expr.iconsts, Finset.mem_singleton] at h
    simp only [Expr.eval, Store.setIConst]; rw [if_neg (Ne.symm h)]
  | un f x ih => simp only [Expr.iconsts] at h; simp only [Expr.eval]; rw [ih h]
  | bin f x y ihx ihy =>
    simp only [Expr.iconsts, Finset.mem_union, not_or] at h
    simp only [Expr.eval]; rw [ihx h.1, ihy h.2]
  | _ => rfl

theorem ceval_no_iconst (I : Interp V) (k : String × IIdx) (v : V) (p : Fin d → ℤ) (s : Store d V) (l : String → V) (c : Cond d)
    (h : k ∉ c.iconsts) : c.eval I p ⟨s, l⟩ = c.eval I p ⟨s.setIConst k v, l⟩ := by
  induction c with
  | tt => rfl
  | rel r x y =>
    simp only [Cond.iconsts, Finset.mem_union, not_or] at h
    simp only [Cond.eval]; rw [eval_no_iconst I k v p s l x h.1, eval_no_iconst I k v p s l y h.2]
  | and x y ihx ihy =>
    simp only [Cond.iconsts, Finset.mem_union, not_or] at h
    simp only [Cond.eval]; rw [ihx h.1, ihy h.2]
  | or x y ihx ihy =>
    simp only [Cond.iconsts, Finset.mem_union, not_or] at h
    simp only [Cond.eval]; rw [ihx h.1, ihy h.2]
  | not x ih => simp only [Cond.iconsts] at h; simp only [Cond.eval]; rw [ih h]

theorem not_mem_iconsts {e : Eqn d} {k : String × IIdx} (h : k ∉ e.iconsts) :
    (∀ a ∈ e.assigns, k ∉ a.rhs.iconsts) ∧ ∀ c ∈ e.conds, k ∉ c.iconsts := by
  cases e with
  | assign a => simpa [Eqn.assigns, Eqn.conds, Eqn.iconsts] using h
  | piecewise bs =>
    simp only [Eqn.iconsts, mem_unionAll, Finset.mem_union, not_exists, not_and, not_or] at h
    refine ⟨fun a ha => ?_, fun c hc => ?_⟩
    · simp only [Eqn.assigns, List.mem_flatMap] at ha
      obtain ⟨b, hb, ha⟩ := ha
      exact (h b hb).1 a ha
    · simp only [Eqn.conds, List.mem_map] at hc
      obtain ⟨b, hb, rfl⟩ := hc
      exact (h b hb).2

/-- C32: if an element of an indexed constant is not among the arguments of the call, its value does not influence what the kernel computes. -/
theorem C32_indexed_constant_passed_if_needed (E : Enum String) (EI : Enum (String × IIdx)) (eqs : List (Eqn d)) (args : List Arg)
    (ha : callArgs E EI eqs = some args) (k : String × IIdx) (hk : ∀ m, Arg.iconst k.1 k.2 m ∉ args) (I : Interp V) (pts : List (Fin d → ℤ))
    (st : Store d V) (v : V) : execLoop I eqs pts (st.setIConst k v) = (execLoop I eqs pts st).setIConst k v := by
  have hk' : ∀ e ∈ eqs, k ∉ e.iconsts := by
    have h := hk .read
    rw [mem_args ha] at h
    intro e he hge
    apply h
    have := (EI.mem _ k).2 ((mem_unionAll eqs Eqn.iconsts k).2 ⟨e, he, hge⟩)
    simp only [List.mem_append, List.mem_map]
    exact Or.inl (Or.inl (Or.inl (Or.inr ⟨k, this, rfl⟩)))
  refine sim_loop I I rfl (fun a b => b = a.setIConst k v) eqs pts ?_ ?_ ?_ (st := st) rfl
  · rintro p e he a ha ⟨s, l⟩ ⟨s', l'⟩ ⟨h1, h2⟩
    simp only at h1 h2; subst h1; subst h2
    exact eval_no_iconst I k v p _ _ _ ((not_mem_iconsts (hk' e he)).1 a ha)
  · rintro p e he ⟨lhs, rhs⟩ ha w ⟨s, l⟩ ⟨s', l'⟩ ⟨h1, h2⟩
    simp only at h1 h2; subst h1; subst h2
    cases lhs <;> exact ⟨rfl, rfl⟩
  · rintro p e he c hc ⟨s, l⟩ ⟨s', l'⟩ ⟨h1, h2⟩
    simp only at h1 h2; subst h1; subst h2
    exact ceval_no_iconst I k v p _ _ _ ((not_mem_iconsts (hk' e he)).2 c hc)

/-! ## Stencils -/

/-- C34: running a kernel at grid point `p` changes an array only at points of its declared stencil. -/
theorem C34_writes_within_stencil (I : Interp V) (eqs : List (Eqn d)) (st : Store d V) (p : Fin d → ℤ) (b : String) (x : Fin d → ℤ)
    (h : ∀ o ∈ stencilOf eqs b, x ≠ p + o) : (execPoint I eqs st p).data b x = st.data b x :=
  point_frame I eqs st p b x fun e he o ho =>
    h o ((Reg.C34_stencil_is_accesses eqs b o).2 (List.mem_flatMap.2 ⟨e, he, mayWrite_accesses ho⟩))

/-- C34: what a kernel computes at grid point `p` depends on every array only through the points of its declared stencil: memories agreeing there give, for
every array, the same values at the points of its stencil. -/
theorem C34_reads_within_stencil (I : Interp V) (eqs : List (Eqn d)) (st st' : Store d V) (p : Fin d → ℤ) (hs : SameScalars st st')
    (h : ∀ b, ∀ o ∈ stencilOf eqs b, st.data b (p + o) = st'.data b (p + o)) :
    ∀ b, ∀ o ∈ stencilOf eqs b, (execPoint I eqs st p).data b (p + o) = (execPoint I eqs st' p).data b (p + o) := by
  intro b o ho
  have := AgreeOn.eqns (C := {c | ∃ o ∈ stencilOf eqs c.1, c.2 = p + o}) I p eqs (fun c hc => ⟨c.2, (Reg.C34_stencil_is_accesses eqs c.1 c.2).2 hc, rfl⟩)
    (s := ⟨st, fun _ => I.num 0⟩) (s' := ⟨st', fun _ => I.num 0⟩) ⟨rfl, hs, by rintro c ⟨o, ho, hc⟩; simp only [hc]; exact h c.1 o ho⟩
  exact this.data (b, p + o) ⟨o, ho, rfl⟩

/-- A kernel with a conditional assignment of a global, an index in a condition and one read neighbour. -/
def indexedKernel : List (Eqn 1) :=
  [.assign ⟨.data "u" 0, .bin "*" (.iconst "rk" (.sym "stage")) (.data "f" 1)⟩,
   .piecewise [([⟨.glob "count", .num 1⟩], .rel "<" (.idx 0) (.num 3)), ([⟨.data "u" 0, .num 0⟩], .tt)]]

example (E : Enum String) (EI : Enum (String × IIdx)) : ∃ args, callArgs E EI indexedKernel = some args ∧ Arg.idx ∈ args ∧
    Arg.glob "count" .read ∈ args ∧ (∀ m, Arg.glob "time" m ∉ args) ∧ Arg.iconst "rk" (.sym "stage") .read ∈ args := by
  obtain ⟨args, _, ha, _⟩ := C32_match_iff E EI indexedKernel (by simp [indexedKernel])
  have hg : (globalVariables indexedKernel).1 = {"count"} := by decide
  have hg2 : (globalVariables indexedKernel).2 = ∅ := rfl
  refine ⟨args, ha, ?_, ?_, ?_, ?_⟩ <;> rw [mem_args ha]
  · simp [show gridIndicesUsed indexedKernel = true by decide]
  · simp [hg, E.mem]
  · intro m; simp [hg, hg2, E.mem, show gridIndicesUsed indexedKernel = true by decide]
  · simp [show indexedConstants indexedKernel = {("rk", IIdx.sym "stage")} by decide, EI.mem]

example : stencilOf indexedKernel "u" = {0} ∧ stencilOf indexedKernel "f" = {1} ∧ stencilOf indexedKernel "g" = ∅ := by decide

end OpenSBLI.Ker
