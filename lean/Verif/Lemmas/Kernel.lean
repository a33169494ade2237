import Verif.Model.Kernel

/-!
# Lemmas on kernels
-/
namespace OpenSBLI.Ker

variable {d : ℕ} {V : Type}

theorem mem_unionAll {α β : Type} [DecidableEq β] (l : List α) (f : α → Finset β) (b : β) :
    b ∈ unionAll l f ↔ ∃ a ∈ l, b ∈ f a := by
  induction l with
  | nil => simp [unionAll]
  | cons a l ih => rw [unionAll, List.foldr_cons, Finset.mem_union, ← unionAll, ih]; simp

theorem mem_bases {e : Expr d} {b : String} : b ∈ e.bases ↔ ∃ o, (b, o) ∈ e.accesses := by
  simp [Expr.bases]

theorem mem_cbases {e : Cond d} {b : String} : b ∈ e.bases ↔ ∃ o, (b, o) ∈ e.accesses := by
  simp [Cond.bases]

theorem mem_lbases {e : Lhs d} {b : String} : b ∈ e.bases ↔ ∃ o, e = .data b o := by
  cases e <;> simp [Lhs.bases, Lhs.accesses, eq_comm]

/-- Two memories agree except possibly on array `b` outside the cells `W`. -/
structure Rel (b : String) (W : Set (Fin d → ℤ)) (s s' : Point d V) : Prop where
  loc : s.loc = s'.loc
  const : s.store.const = s'.store.const
  iconst : s.store.iconst = s'.store.iconst
  glob : s.store.glob = s'.store.glob
  other : ∀ b', b' ≠ b → s.store.data b' = s'.store.data b'
  own : ∀ x ∈ W, s.store.data b x = s'.store.data b x

theorem Rel.mono {b : String} {W W' : Set (Fin d → ℤ)} {s s' : Point d V} (h : Rel b W s s') (hW : W' ⊆ W) : Rel b W' s s' :=
  { h with own := fun x hx => h.own x (hW hx) }

theorem Rel.eval {b : String} {W : Set (Fin d → ℤ)} {s s' : Point d V} (h : Rel b W s s') (I : Interp V) (p : Fin d → ℤ) (e : Expr d)
    (he : ∀ o, (b, o) ∉ e.accesses) : e.eval I p s = e.eval I p s' := by
  induction e with
  | num q => rfl
  | data b' o =>
    have : b' ≠ b := by
      rintro rfl; exact he o (by simp [Expr.accesses])
    simp [Expr.eval, h.other b' this]
  | const c => simp [Expr.eval, h.const]
  | iconst c i => simp [Expr.eval, h.iconst]
  | glob g => simp [Expr.eval, h.glob]
  | gvar v => simp [Expr.eval, h.loc]
  | idx k => rfl
  | un f x ih => simp only [Expr.eval]; rw [ih he]
  | bin f x y ihx ihy =>
    simp only [Expr.accesses, List.mem_append, not_or] at he
    simp only [Expr.eval]; rw [ihx fun o => (he o).1, ihy fun o => (he o).2]

theorem Rel.ceval {b : String} {W : Set (Fin d → ℤ)} {s s' : Point d V} (h : Rel b W s s') (I : Interp V) (p : Fin d → ℤ) (c : Cond d)
    (he : ∀ o, (b, o) ∉ c.accesses) : c.eval I p s = c.eval I p s' := by
  induction c with
  | tt => rfl
  | rel r x y =>
    simp only [Cond.accesses, List.mem_append, not_or] at he
    simp only [Cond.eval]; rw [h.eval I p x fun o => (he o).1, h.eval I p y fun o => (he o).2]
  | and x y ihx ihy =>
    simp only [Cond.accesses, List.mem_append, not_or] at he
    simp only [Cond.eval]; rw [ihx fun o => (he o).1, ihy fun o => (he o).2]
  | or x y ihx ihy =>
    simp only [Cond.accesses, List.mem_append, not_or] at he
    simp only [Cond.eval]; rw [ihx fun o => (he o).1, ihy fun o => (he o).2]
  | not x ih => simp only [Cond.eval]; rw [ih he]

/-- Cells of array `b` written by an assignment executed at `p`. -/
def Assign.cells (b : String) (p : Fin d → ℤ) (a : Assign d) : Set (Fin d → ℤ) := {x | ∃ o, a.lhs = .data b o ∧ x = p + o}

theorem Rel.assign {b : String} {W : Set (Fin d → ℤ)} {s s' : Point d V} (h : Rel b W s s') (I : Interp V) (p : Fin d → ℤ) (a : Assign d)
    (he : ∀ o, (b, o) ∉ a.rhs.accesses) : Rel b (W ∪ a.cells b p) (a.exec I p s) (a.exec I p s') := by
  have hv := h.eval I p a.rhs he
  obtain ⟨l, r⟩ := a
  cases l with
  | data c o =>
    refine ⟨h.loc, h.const, h.iconst, h.glob, ?_, ?_⟩
    · intro b' hb'
      funext x
      simp only [Assign.exec, Store.setData, h.other b' hb', hv]
    · rintro x (hx | ⟨o', e, rfl⟩)
      · simp only [Assign.exec, Store.setData, h.own x hx, hv]
      · simp only [Lhs.data.injEq] at e
        obtain ⟨rfl, rfl⟩ := e
        simp [Assign.exec, Store.setData, hv]
  | gvar v =>
    refine ⟨?_, h.const, h.iconst, h.glob, h.other, ?_⟩
    · simp only [Assign.exec]; rw [h.loc, hv]
    · rintro x (hx | ⟨o', e, -⟩)
      · exact h.own x hx
      · cases e
  | glob v =>
    refine ⟨h.loc, h.const, h.iconst, ?_, h.other, ?_⟩
    · simp only [Assign.exec]; rw [h.glob, hv]
    · rintro x (hx | ⟨o', e, -⟩)
      · exact h.own x hx
      · cases e

theorem Rel.assigns {b : String} (I : Interp V) (p : Fin d → ℤ) (as : List (Assign d)) (he : ∀ a ∈ as, ∀ o, (b, o) ∉ a.rhs.accesses)
    {W : Set (Fin d → ℤ)} {s s' : Point d V} (h : Rel b W s s') : Rel b W (execAssigns I p as s) (execAssigns I p as s') := by
  induction as generalizing s s' with
  | nil => exact h
  | cons a as ih =>
    simp only [execAssigns, List.foldl_cons]
    exact ih (fun a ha => he a (List.mem_cons_of_mem _ ha))
      ((h.assign I p a (he a (List.mem_cons_self ..))).mono Set.subset_union_left)

theorem Rel.branches {b : String} (I : Interp V) (p : Fin d → ℤ) (bs : List (List (Assign d) × Cond d))
    (he : ∀ x ∈ bs, (∀ a ∈ x.1, ∀ o, (b, o) ∉ a.rhs.accesses) ∧ ∀ o, (b, o) ∉ x.2.accesses)
    {W : Set (Fin d → ℤ)} {s s' : Point d V} (h : Rel b W s s') : Rel b W (execBranches I p bs s) (execBranches I p bs s') := by
  induction bs with
  | nil => exact h
  | cons x bs ih =>
    obtain ⟨as, c⟩ := x
    have h1 := he (as, c) (List.mem_cons_self ..)
    simp only [execBranches]
    rw [h.ceval I p c h1.2]
    split
    · exact Rel.assigns I p as h1.1 h
    · exact ih fun x hx => he x (List.mem_cons_of_mem _ hx)

/-- Offsets at which an equation writes array `b` whatever the data. -/
def Eqn.surelyWrites (b : String) : Eqn d → Set (Fin d → ℤ)
  | .assign a => {o | a.lhs = .data b o}
  | .piecewise _ => ∅

theorem not_mem_rhs {b : String} {e : Eqn d} (h : b ∉ e.rhsBases) :
    match e with
    | .assign a => ∀ o, (b, o) ∉ a.rhs.accesses
    | .piecewise bs => ∀ x ∈ bs, (∀ a ∈ x.1, ∀ o, (b, o) ∉ a.rhs.accesses) ∧ ∀ o, (b, o) ∉ x.2.accesses := by
  cases e with
  | assign a => intro o ho; exact h (mem_bases.2 ⟨o, ho⟩)
  | piecewise bs =>
    simp only [Eqn.rhsBases, mem_unionAll, Finset.mem_union, not_exists, not_and, not_or] at h
    intro x hx
    refine ⟨fun a ha o ho => ?_, fun o ho => ?_⟩
    · exact (h x hx).1 a ha (mem_bases.2 ⟨o, ho⟩)
    · exact (h x hx).2 (mem_cbases.2 ⟨o, ho⟩)

theorem Rel.eqn {b : String} (I : Interp V) (p : Fin d → ℤ) (e : Eqn d) (he : b ∉ e.rhsBases)
    {W : Set (Fin d → ℤ)} {s s' : Point d V} (h : Rel b W s s') :
    Rel b (W ∪ {x | ∃ o ∈ e.surelyWrites b, x = p + o}) (e.exec I p s) (e.exec I p s') := by
  have h1 := not_mem_rhs he
  cases e with
  | assign a => exact (h.assign I p a h1)
  | piecewise bs =>
    refine (Rel.branches I p bs h1 h).mono ?_
    simp [Eqn.surelyWrites]

theorem Rel.eqns {b : String} (I : Interp V) (p : Fin d → ℤ) (eqs : List (Eqn d)) (he : b ∉ rhsBases eqs)
    {W : Set (Fin d → ℤ)} {s s' : Point d V} (h : Rel b W s s') :
    Rel b (W ∪ {x | ∃ e ∈ eqs, ∃ o ∈ e.surelyWrites b, x = p + o}) (eqs.foldl (fun s e => e.exec I p s) s)
      (eqs.foldl (fun s e => e.exec I p s) s') := by
  induction eqs generalizing W s s' with
  | nil => exact h.mono (by simp)
  | cons e eqs ih =>
    simp only [rhsBases, mem_unionAll, not_exists, not_and] at he
    have h1 := h.eqn I p e (he e (List.mem_cons_self ..))
    have h2 := ih (by
      simp only [rhsBases, mem_unionAll, not_exists, not_and]
      exact fun e he' => he e (List.mem_cons_of_mem _ he')) h1
    refine h2.mono ?_
    rintro x (hx | ⟨e', he', o, ho, rfl⟩)
    · exact Or.inl (Or.inl hx)
    · rcases List.mem_cons.1 he' with rfl | h
      · exact Or.inl (Or.inr ⟨o, ho, rfl⟩)
      · exact Or.inr ⟨e', h, o, ho, rfl⟩

/-- Store version of `Rel`. -/
def SRel (b : String) (W : Set (Fin d → ℤ)) (st st' : Store d V) : Prop := Rel b W ⟨st, st.glob⟩ ⟨st', st'.glob⟩

theorem SRel.iff {b : String} {W : Set (Fin d → ℤ)} {st st' : Store d V} : SRel b W st st' ↔
    st.const = st'.const ∧ st.iconst = st'.iconst ∧ st.glob = st'.glob ∧ (∀ b', b' ≠ b → st.data b' = st'.data b') ∧
      ∀ x ∈ W, st.data b x = st'.data b x :=
  ⟨fun h => ⟨h.const, h.iconst, h.glob, h.other, h.own⟩, fun ⟨h1, h2, h3, h4, h5⟩ => ⟨h3, h1, h2, h3, h4, h5⟩⟩

theorem SRel.point {b : String} (I : Interp V) (eqs : List (Eqn d)) (he : b ∉ rhsBases eqs) (p : Fin d → ℤ)
    {W : Set (Fin d → ℤ)} {st st' : Store d V} (h : SRel b W st st') :
    SRel b (W ∪ {x | ∃ e ∈ eqs, ∃ o ∈ e.surelyWrites b, x = p + o}) (execPoint I eqs st p) (execPoint I eqs st' p) := by
  have h1 : Rel b W (⟨st, fun _ => I.num 0⟩ : Point d V) ⟨st', fun _ => I.num 0⟩ := { h with loc := rfl }
  have h2 := h1.eqns I p eqs he
  exact { h2 with loc := h2.glob }

theorem SRel.loop {b : String} (I : Interp V) (eqs : List (Eqn d)) (he : b ∉ rhsBases eqs) (pts : List (Fin d → ℤ))
    {W : Set (Fin d → ℤ)} {st st' : Store d V} (h : SRel b W st st') :
    SRel b (W ∪ {x | ∃ p ∈ pts, ∃ e ∈ eqs, ∃ o ∈ e.surelyWrites b, x = p + o}) (execLoop I eqs pts st)
      (execLoop I eqs pts st') := by
  induction pts generalizing W st st' with
  | nil => exact Rel.mono h (by simp)
  | cons p pts ih =>
    have h2 := ih (h.point I eqs he p)
    refine Rel.mono h2 ?_
    rintro x (hx | ⟨p', hp', r⟩)
    · exact Or.inl (Or.inl hx)
    · rcases List.mem_cons.1 hp' with rfl | h
      · exact Or.inl (Or.inr r)
      · exact Or.inr ⟨p', h, r⟩

/-! ## Writes -/

/-- Offsets at which an equation may write array `b`. -/
def Eqn.mayWrite (b : String) : Eqn d → Set (Fin d → ℤ)
  | .assign a => {o | a.lhs = .data b o}
  | .piecewise bs => {o | ∃ x ∈ bs, ∃ a ∈ x.1, a.lhs = .data b o}

theorem mem_mayWrite_bases {b : String} {e : Eqn d} : b ∈ e.lhsBases ↔ ∃ o, o ∈ e.mayWrite b := by
  cases e with
  | assign a => exact mem_lbases
  | piecewise bs =>
    simp only [Eqn.lhsBases, mem_unionAll, Eqn.mayWrite, Set.mem_ofPred_eq, mem_lbases]
    constructor
    · rintro ⟨x, hx, a, ha, o, ho⟩; exact ⟨o, x, hx, a, ha, ho⟩
    · rintro ⟨o, x, hx, a, ha, ho⟩; exact ⟨x, hx, a, ha, o, ho⟩

theorem assign_frame (I : Interp V) (p : Fin d → ℤ) (a : Assign d) (s : Point d V) (b : String) (x : Fin d → ℤ)
    (h : ∀ o, a.lhs = .data b o → x ≠ p + o) : (a.exec I p s).store.data b x = s.store.data b x := by
  obtain ⟨l, r⟩ := a
  cases l with
  | data c o =>
    simp only [Assign.exec, Store.setData]
    rw [if_neg]
    rintro ⟨rfl, rfl⟩
    exact h o rfl rfl
  | gvar v => rfl
  | glob v => rfl

theorem assigns_frame (I : Interp V) (p : Fin d → ℤ) (as : List (Assign d)) (s : Point d V) (b : String) (x : Fin d → ℤ)
    (h : ∀ a ∈ as, ∀ o, a.lhs = .data b o → x ≠ p + o) : (execAssigns I p as s).store.data b x = s.store.data b x := by
  induction as generalizing s with
  | nil => rfl
  | cons a as ih =>
    simp only [execAssigns, List.foldl_cons]
    have := ih (a.exec I p s) fun a ha => h a (List.mem_cons_of_mem _ ha)
    rw [execAssigns] at this
    rw [this, assign_frame I p a s b x (h a (List.mem_cons_self ..))]

theorem branches_frame (I : Interp V) (p : Fin d → ℤ) (bs : List (List (Assign d) × Cond d)) (s : Point d V) (b : String) (x : Fin d → ℤ)
    (h : ∀ y ∈ bs, ∀ a ∈ y.1, ∀ o, a.lhs = .data b o → x ≠ p + o) : (execBranches I p bs s).store.data b x = s.store.data b x := by
  induction bs with
  | nil => rfl
  | cons y bs ih =>
    obtain ⟨as, c⟩ := y
    simp only [execBranches]
    split
    · exact assigns_frame I p as s b x (h (as, c) (List.mem_cons_self ..))
    · exact ih fun y hy => h y (List.mem_cons_of_mem _ hy)

theorem eqn_frame (I : Interp V) (p : Fin d → ℤ) (e : Eqn d) (s : Point d V) (b : String) (x : Fin d → ℤ)
    (h : ∀ o ∈ e.mayWrite b, x ≠ p + o) : (e.exec I p s).store.data b x = s.store.data b x := by
  cases e with
  | assign a => exact assign_frame I p a s b x h
  | piecewise bs => exact branches_frame I p bs s b x fun y hy a ha o ho => h o ⟨y, hy, a, ha, ho⟩

theorem eqns_frame (I : Interp V) (p : Fin d → ℤ) (eqs : List (Eqn d)) (s : Point d V) (b : String) (x : Fin d → ℤ)
    (h : ∀ e ∈ eqs, ∀ o ∈ e.mayWrite b, x ≠ p + o) :
    (eqs.foldl (fun s e => e.exec I p s) s).store.data b x = s.store.data b x := by
  induction eqs generalizing s with
  | nil => rfl
  | cons e eqs ih =>
    rw [List.foldl_cons, ih _ fun e he => h e (List.mem_cons_of_mem _ he),
      eqn_frame I p e s b x (h e (List.mem_cons_self ..))]

theorem point_frame (I : Interp V) (eqs : List (Eqn d)) (st : Store d V) (p : Fin d → ℤ) (b : String) (x : Fin d → ℤ)
    (h : ∀ e ∈ eqs, ∀ o ∈ e.mayWrite b, x ≠ p + o) : (execPoint I eqs st p).data b x = st.data b x :=
  eqns_frame I p eqs _ b x h

theorem loop_frame (I : Interp V) (eqs : List (Eqn d)) (pts : List (Fin d → ℤ)) (st : Store d V) (b : String) (x : Fin d → ℤ)
    (h : ∀ p ∈ pts, ∀ e ∈ eqs, ∀ o ∈ e.mayWrite b, x ≠ p + o) : (execLoop I eqs pts st).data b x = st.data b x := by
  induction pts generalizing st with
  | nil => rfl
  | cons p pts ih =>
    rw [execLoop, List.foldl_cons, ← execLoop, ih _ fun p hp => h p (List.mem_cons_of_mem _ hp),
      point_frame I eqs st p b x (h p (List.mem_cons_self ..))]

/-! ## Scalars are not changed by kernels without global left hand sides -/

/-- No equation assigns a global. -/
def Eqn.noGlob : Eqn d → Prop
  | .assign a => ∀ g, a.lhs ≠ .glob g
  | .piecewise bs => ∀ x ∈ bs, ∀ a ∈ x.1, ∀ g, a.lhs ≠ .glob g

/-- Constants, indexed constants and globals are equal. -/
def SameScalars (st st' : Store d V) : Prop := st.const = st'.const ∧ st.iconst = st'.iconst ∧ st.glob = st'.glob

theorem assign_scalars (I : Interp V) (p : Fin d → ℤ) (a : Assign d) (h : ∀ g, a.lhs ≠ .glob g) (s : Point d V) :
    SameScalars (a.exec I p s).store s.store := by
  obtain ⟨l, r⟩ := a
  cases l with
  | data c o => exact ⟨rfl, rfl, rfl⟩
  | gvar v => exact ⟨rfl, rfl, rfl⟩
  | glob v => exact absurd rfl (h v)

theorem SameScalars.trans {a b c : Store d V} (h : SameScalars a b) (h' : SameScalars b c) : SameScalars a c :=
  ⟨h.1.trans h'.1, h.2.1.trans h'.2.1, h.2.2.trans h'.2.2⟩

theorem assigns_scalars (I : Interp V) (p : Fin d → ℤ) (as : List (Assign d)) (h : ∀ a ∈ as, ∀ g, a.lhs ≠ .glob g) (s : Point d V) :
    SameScalars (execAssigns I p as s).store s.store := by
  induction as generalizing s with
  | nil => exact ⟨rfl, rfl, rfl⟩
  | cons a as ih =>
    simp only [execAssigns, List.foldl_cons]
    exact (ih (fun a ha => h a (List.mem_cons_of_mem _ ha)) _).trans (assign_scalars I p a (h a (List.mem_cons_self ..)) s)

theorem branches_scalars (I : Interp V) (p : Fin d → ℤ) (bs : List (List (Assign d) × Cond d))
    (h : ∀ x ∈ bs, ∀ a ∈ x.1, ∀ g, a.lhs ≠ .glob g) (s : Point d V) : SameScalars (execBranches I p bs s).store s.store := by
  induction bs with
  | nil => exact ⟨rfl, rfl, rfl⟩
  | cons x bs ih =>
    obtain ⟨as, c⟩ := x
    simp only [execBranches]
    split
    · exact assigns_scalars I p as (h (as, c) (List.mem_cons_self ..)) s
    · exact ih fun y hy => h y (List.mem_cons_of_mem _ hy)

theorem eqn_scalars (I : Interp V) (p : Fin d → ℤ) (e : Eqn d) (h : e.noGlob) (s : Point d V) : SameScalars (e.exec I p s).store s.store := by
  cases e with
  | assign a => exact assign_scalars I p a h s
  | piecewise bs => exact branches_scalars I p bs h s

theorem eqns_scalars (I : Interp V) (p : Fin d → ℤ) (eqs : List (Eqn d)) (h : ∀ e ∈ eqs, e.noGlob) (s : Point d V) :
    SameScalars (eqs.foldl (fun s e => e.exec I p s) s).store s.store := by
  induction eqs generalizing s with
  | nil => exact ⟨rfl, rfl, rfl⟩
  | cons e eqs ih =>
    rw [List.foldl_cons]
    exact (ih (fun e he => h e (List.mem_cons_of_mem _ he)) _).trans (eqn_scalars I p e (h e (List.mem_cons_self ..)) s)

/-! ## Dependence of a point execution on the cells it reads -/

/-- Memories agree on scalars, locals, and on the cells of a set. -/
structure AgreeOn (C : Set (String × (Fin d → ℤ))) (s s' : Point d V) : Prop where
  loc : s.loc = s'.loc
  scal : SameScalars s.store s'.store
  data : ∀ c ∈ C, s.store.data c.1 c.2 = s'.store.data c.1 c.2

theorem AgreeOn.eval {C : Set (String × (Fin d → ℤ))} {s s' : Point d V} (h : AgreeOn C s s') (I : Interp V) (p : Fin d → ℤ) (e : Expr d)
    (he : ∀ a ∈ e.accesses, (a.1, p + a.2) ∈ C) : e.eval I p s = e.eval I p s' := by
  induction e with
  | num q => rfl
  | data b o => exact h.data _ (he (b, o) (by simp [Expr.accesses]))
  | const c => simp [Expr.eval, h.scal.1]
  | iconst c i => simp [Expr.eval, h.scal.2.1]
  | glob g => simp [Expr.eval, h.scal.2.2]
  | gvar v => simp [Expr.eval, h.loc]
  | idx k => rfl
  | un f x ih => simp only [Expr.eval]; rw [ih he]
  | bin f x y ihx ihy =>
    simp only [Expr.accesses, List.mem_append] at he
    simp only [Expr.eval]; rw [ihx fun a ha => he a (Or.inl ha), ihy fun a ha => he a (Or.inr ha)]

theorem AgreeOn.ceval {C : Set (String × (Fin d → ℤ))} {s s' : Point d V} (h : AgreeOn C s s') (I : Interp V) (p : Fin d → ℤ) (c : Cond d)
    (he : ∀ a ∈ c.accesses, (a.1, p + a.2) ∈ C) : c.eval I p s = c.eval I p s' := by
  induction c with
  | tt => rfl
  | rel r x y =>
    simp only [Cond.accesses, List.mem_append] at he
    simp only [Cond.eval]; rw [h.eval I p x fun a ha => he a (Or.inl ha), h.eval I p y fun a ha => he a (Or.inr ha)]
  | and x y ihx ihy =>
    simp only [Cond.accesses, List.mem_append] at he
    simp only [Cond.eval]; rw [ihx fun a ha => he a (Or.inl ha), ihy fun a ha => he a (Or.inr ha)]
  | or x y ihx ihy =>
    simp only [Cond.accesses, List.mem_append] at he
    simp only [Cond.eval]; rw [ihx fun a ha => he a (Or.inl ha), ihy fun a ha => he a (Or.inr ha)]
  | not x ih => simp only [Cond.eval]; rw [ih he]

theorem AgreeOn.assign {C : Set (String × (Fin d → ℤ))} {s s' : Point d V} (h : AgreeOn C s s') (I : Interp V) (p : Fin d → ℤ) (a : Assign d)
    (he : ∀ c ∈ a.rhs.accesses, (c.1, p + c.2) ∈ C) : AgreeOn C (a.exec I p s) (a.exec I p s') := by
  have hv := h.eval I p a.rhs he
  obtain ⟨l, r⟩ := a
  cases l with
  | data b o =>
    refine ⟨h.loc, h.scal, ?_⟩
    intro c hc
    simp only [Assign.exec, Store.setData, h.data c hc, hv]
  | gvar v =>
    refine ⟨?_, h.scal, h.data⟩
    simp only [Assign.exec]; rw [h.loc, hv]
  | glob v =>
    refine ⟨h.loc, ⟨h.scal.1, h.scal.2.1, ?_⟩, h.data⟩
    simp only [Assign.exec]; rw [h.scal.2.2, hv]

theorem AgreeOn.assigns {C : Set (String × (Fin d → ℤ))} (I : Interp V) (p : Fin d → ℤ) (as : List (Assign d))
    (he : ∀ a ∈ as, ∀ c ∈ a.rhs.accesses, (c.1, p + c.2) ∈ C) {s s' : Point d V} (h : AgreeOn C s s') :
    AgreeOn C (execAssigns I p as s) (execAssigns I p as s') := by
  induction as generalizing s s' with
  | nil => exact h
  | cons a as ih =>
    simp only [execAssigns, List.foldl_cons]
    exact ih (fun a ha => he a (List.mem_cons_of_mem _ ha)) (h.assign I p a (he a (List.mem_cons_self ..)))

theorem AgreeOn.branches {C : Set (String × (Fin d → ℤ))} (I : Interp V) (p : Fin d → ℤ) (bs : List (List (Assign d) × Cond d))
    (he : ∀ x ∈ bs, (∀ a ∈ x.1, ∀ c ∈ a.rhs.accesses, (c.1, p + c.2) ∈ C) ∧ ∀ c ∈ x.2.accesses, (c.1, p + c.2) ∈ C)
    {s s' : Point d V} (h : AgreeOn C s s') : AgreeOn C (execBranches I p bs s) (execBranches I p bs s') := by
  induction bs with
  | nil => exact h
  | cons x bs ih =>
    obtain ⟨as, c⟩ := x
    have h1 := he (as, c) (List.mem_cons_self ..)
    simp only [execBranches]
    rw [h.ceval I p c h1.2]
    split
    · exact AgreeOn.assigns I p as h1.1 h
    · exact ih fun x hx => he x (List.mem_cons_of_mem _ hx)

theorem AgreeOn.eqn {C : Set (String × (Fin d → ℤ))} (I : Interp V) (p : Fin d → ℤ) (e : Eqn d)
    (he : ∀ c ∈ e.accesses, (c.1, p + c.2) ∈ C) {s s' : Point d V} (h : AgreeOn C s s') :
    AgreeOn C (e.exec I p s) (e.exec I p s') := by
  cases e with
  | assign a =>
    simp only [Eqn.accesses, List.mem_append] at he
    exact h.assign I p a fun c hc => he c (Or.inr hc)
  | piecewise bs =>
    simp only [Eqn.accesses, List.mem_flatMap, List.mem_append] at he
    exact AgreeOn.branches I p bs (fun x hx => ⟨fun a ha c hc => he c ⟨x, hx, Or.inl ⟨a, ha, Or.inr hc⟩⟩,
      fun c hc => he c ⟨x, hx, Or.inr hc⟩⟩) h

theorem AgreeOn.eqns {C : Set (String × (Fin d → ℤ))} (I : Interp V) (p : Fin d → ℤ) (eqs : List (Eqn d))
    (he : ∀ c ∈ accesses eqs, (c.1, p + c.2) ∈ C) {s s' : Point d V} (h : AgreeOn C s s') :
    AgreeOn C (eqs.foldl (fun s e => e.exec I p s) s) (eqs.foldl (fun s e => e.exec I p s) s') := by
  induction eqs generalizing s s' with
  | nil => exact h
  | cons e eqs ih =>
    simp only [accesses, List.flatMap_cons, List.mem_append] at he
    rw [List.foldl_cons, List.foldl_cons]
    exact ih (fun c hc => he c (Or.inr hc)) (h.eqn I p e fun c hc => he c (Or.inl hc))

theorem mayWrite_accesses {e : Eqn d} {b : String} {o : Fin d → ℤ} (h : o ∈ e.mayWrite b) : (b, o) ∈ e.accesses := by
  cases e with
  | assign a =>
    simp only [Eqn.mayWrite, Set.mem_ofPred_eq] at h
    simp [Eqn.accesses, h, Lhs.accesses]
  | piecewise bs =>
    obtain ⟨x, hx, a, ha, h⟩ := h
    simp only [Eqn.accesses, List.mem_flatMap, List.mem_append]
    exact ⟨x, hx, Or.inl ⟨a, ha, by simp [h, Lhs.accesses]⟩⟩

end OpenSBLI.Ker
