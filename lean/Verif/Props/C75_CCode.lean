import Mathlib.Tactic.LinearCombination
import Mathlib.Data.Rat.Floor
import Verif.Props.C75_Lemmas

/-!
# C75: the C text of a kernel computes the equations of the kernel
-/
set_option linter.unusedSectionVars false

namespace OpenSBLI.CCode
open OpenSBLI.Reg

variable {d : ℕ} {K : Type} [Field K] [LinearOrder K] [IsStrictOrderedRing K] [FloorRing K]

/-! ## Names -/

/-- `ConstantObject`s of an expression. -/
def Sym.consts : Sym d → Finset String
  | .const c => {c}
  | .add x y => x.consts ∪ y.consts
  | .mul x y => x.consts ∪ y.consts
  | .pow x y => x.consts ∪ y.consts
  | .mod x y => x.consts ∪ y.consts
  | .max x y => x.consts ∪ y.consts
  | .fn _ x => x.consts
  | .pw _ a b x y => a.consts ∪ b.consts ∪ (x.consts ∪ y.consts)
  | _ => ∅

/-- Expressions of a condition. -/
def Cond.exprs : Cond d → List (Sym d)
  | .tt => []
  | .rel _ x y => [x, y]
  | .and c e => c.exprs ++ e.exprs
  | .or c e => c.exprs ++ e.exprs
  | .not c => c.exprs

/-- Expressions of an entry of a kernel: right hand sides and conditions. -/
def Eqn.exprs : Eqn d → List (Sym d)
  | .assign a => [a.rhs]
  | .grouped bs => bs.flatMap fun b => b.1.map Assign.rhs ++ b.2.exprs

/-- All expressions of a kernel. -/
def exprs (eqs : List (Eqn d)) : List (Sym d) := eqs.flatMap Eqn.exprs

theorem scoped_of_names (decl globs : Finset String) (e : Sym d) (hg : e.gvars ⊆ decl) (hc : ∀ c ∈ e.consts, c ∉ decl ∧ c ∉ globs) :
    e.Scoped decl globs := by
  induction e with
  | gvar v => exact hg (by simp [Sym.gvars])
  | const c => exact hc c (by simp [Sym.consts])
  | add x y hx hy =>
    simp only [Sym.gvars, Finset.union_subset_iff] at hg
    simp only [Sym.consts, Finset.mem_union] at hc
    exact ⟨hx hg.1 fun c h => hc c (.inl h), hy hg.2 fun c h => hc c (.inr h)⟩
  | mul x y hx hy =>
    simp only [Sym.gvars, Finset.union_subset_iff] at hg
    simp only [Sym.consts, Finset.mem_union] at hc
    exact ⟨hx hg.1 fun c h => hc c (.inl h), hy hg.2 fun c h => hc c (.inr h)⟩
  | pow x y hx hy =>
    simp only [Sym.gvars, Finset.union_subset_iff] at hg
    simp only [Sym.consts, Finset.mem_union] at hc
    exact ⟨hx hg.1 fun c h => hc c (.inl h), hy hg.2 fun c h => hc c (.inr h)⟩
  | mod x y hx hy =>
    simp only [Sym.gvars, Finset.union_subset_iff] at hg
    simp only [Sym.consts, Finset.mem_union] at hc
    exact ⟨hx hg.1 fun c h => hc c (.inl h), hy hg.2 fun c h => hc c (.inr h)⟩
  | max x y hx hy =>
    simp only [Sym.gvars, Finset.union_subset_iff] at hg
    simp only [Sym.consts, Finset.mem_union] at hc
    exact ⟨hx hg.1 fun c h => hc c (.inl h), hy hg.2 fun c h => hc c (.inr h)⟩
  | fn f x hx => exact hx hg hc
  | pw r a b x y ha hb hx hy =>
    simp only [Sym.gvars, Finset.union_subset_iff] at hg
    simp only [Sym.consts, Finset.mem_union] at hc
    exact ⟨ha hg.1.1 fun c h => hc c (.inl (.inl h)), hb hg.1.2 fun c h => hc c (.inl (.inr h)), hx hg.2.1 fun c h => hc c (.inr (.inl h)),
      hy hg.2.2 fun c h => hc c (.inr (.inr h))⟩
  | _ => trivial

theorem mem_unions {α : Type} (l : List α) (f : α → Finset String) (v : String) : v ∈ unions l f ↔ ∃ a ∈ l, v ∈ f a := by
  induction l with
  | nil => simp [unions]
  | cons a l ih =>
    rw [show unions (a :: l) f = f a ∪ unions l f from rfl, Finset.mem_union, ih]
    simp

theorem cond_gvars (c : Cond d) (e : Sym d) (h : e ∈ c.exprs) : e.gvars ⊆ c.gvars := by
  induction c with
  | tt => simp [Cond.exprs] at h
  | rel r x y =>
    simp only [Cond.exprs, List.mem_cons, List.not_mem_nil, or_false] at h
    rcases h with rfl | rfl
    · exact Finset.subset_union_left
    · exact Finset.subset_union_right
  | and c e hc he =>
    rcases List.mem_append.1 h with h | h
    · exact (hc h).trans Finset.subset_union_left
    · exact (he h).trans Finset.subset_union_right
  | or c e hc he =>
    rcases List.mem_append.1 h with h | h
    · exact (hc h).trans Finset.subset_union_left
    · exact (he h).trans Finset.subset_union_right
  | not c hc => exact hc h

theorem exprs_gvars (eqs : List (Eqn d)) (e : Sym d) (h : e ∈ exprs eqs) : e.gvars ⊆ declaredVars eqs := by
  obtain ⟨x, hx, he⟩ := List.mem_flatMap.1 h
  intro v hv
  refine (mem_unions _ _ _).2 ⟨x, hx, ?_⟩
  cases x with
  | assign a =>
    simp only [Eqn.exprs, List.mem_singleton] at he
    subst he
    exact Finset.mem_union_right _ hv
  | grouped bs =>
    obtain ⟨b, hb, he⟩ := List.mem_flatMap.1 he
    refine (mem_unions _ _ _).2 ⟨b, hb, ?_⟩
    rcases List.mem_append.1 he with he | he
    · obtain ⟨a, ha, rfl⟩ := List.mem_map.1 he
      exact Finset.mem_union_left _ ((mem_unions _ _ _).2 ⟨a, ha, Finset.mem_union_right _ hv⟩)
    · exact Finset.mem_union_right _ (cond_gvars _ _ he hv)

/-! ## What is asked of a kernel -/

/-- No constant of the kernel bears the name of one of its grid variables or of one of its global values. -/
def NamesApart (globs : Finset String) (eqs : List (Eqn d)) : Prop :=
  ∀ e ∈ exprs eqs, ∀ c ∈ e.consts, c ∉ declaredVars eqs ∧ c ∉ globs

/-- Every expression of the kernel is of the kind whose text is faithful. -/
def TextFaithful (L : Lib K) (o : Outer d K) (eqs : List (Eqn d)) : Prop :=
  ∀ e ∈ exprs eqs, ∀ st, e.Faithful L o st Mode.inKernel

/-- Every grouped piecewise has a pair, `True` is the last condition if at all, and no condition is an equality. -/
def GroupsRegular (eqs : List (Eqn d)) : Prop :=
  ∀ bs, Eqn.grouped bs ∈ eqs → bs ≠ [] ∧ TrueLast bs ∧ ∀ b ∈ bs, b.2.NotEquality

theorem cond_fine (L : Lib K) (decl globs : Finset String) (o : Outer d K) (c : Cond d) (h : ∀ e ∈ c.exprs, e.Fine L decl globs o) :
    c.Fine L decl globs o := by
  induction c with
  | tt => trivial
  | rel r x y => exact ⟨h x (by simp [Cond.exprs]), h y (by simp [Cond.exprs])⟩
  | and c e hc he => exact ⟨hc fun x hx => h x (List.mem_append_left _ hx), he fun x hx => h x (List.mem_append_right _ hx)⟩
  | or c e hc he => exact ⟨hc fun x hx => h x (List.mem_append_left _ hx), he fun x hx => h x (List.mem_append_right _ hx)⟩
  | not c hc => exact hc h

theorem eqns_fine (L : Lib K) (globs : Finset String) (o : Outer d K) (eqs : List (Eqn d)) (hn : NamesApart globs eqs)
    (hf : TextFaithful L o eqs) (hg : GroupsRegular eqs) : ∀ e ∈ eqs, e.Fine L (declaredVars eqs) globs o := by
  have key : ∀ e ∈ exprs eqs, e.Fine L (declaredVars eqs) globs o := fun e he =>
    ⟨hf e he, scoped_of_names _ _ e (exprs_gvars eqs e he) (hn e he)⟩
  intro e he
  cases e with
  | assign a => exact key _ (List.mem_flatMap.2 ⟨_, he, by simp [Eqn.exprs]⟩)
  | grouped bs =>
    obtain ⟨g1, g2, g3⟩ := hg bs he
    refine ⟨g1, g2, fun b hb => ⟨fun a ha => key _ (List.mem_flatMap.2 ⟨_, he, ?_⟩), cond_fine _ _ _ _ _ fun x hx => key _
      (List.mem_flatMap.2 ⟨_, he, ?_⟩), g3 b hb⟩⟩
    · exact List.mem_flatMap.2 ⟨b, hb, List.mem_append_left _ (List.mem_map.2 ⟨a, ha, rfl⟩)⟩
    · exact List.mem_flatMap.2 ⟨b, hb, List.mem_append_right _ hx⟩

/-! ## The property -/

/-- C75: the text of a kernel computes its equations. For all array contents, calling the kernel function at a grid point gives the arrays the values obtained by
carrying out the equations in order, a grouped piecewise carrying out the equations of the first pair whose condition holds. The generated constants are assumed to
have their values (see `C75_generated_constants`). Partial: conditions that are equalities, quotients of integers, moduli of negative numbers or of global values and
hidden names are excluded; the theorems below show that the text is wrong or does not compile for them. -/
theorem C75_kernel_text_partial (L : Lib K) (hL : L.Conforms) (globs : Finset String) (o : Outer d K) (eqs : List (Eqn d)) (s : Rc (Sym d))
    (hn : NamesApart globs eqs) (hf : TextFaithful L o eqs) (hg : GroupsRegular eqs)
    (hv : ∀ st, Valued L (declaredVars eqs) globs o st (printBody eqs s).2) (data : String → (Fin d → ℤ) → K) :
    callKernel L globs o eqs s data = some (effect L o eqs ⟨data, fun _ => 0⟩).data := by
  rw [callKernel, runBody hL eqs s (eqns_fine L globs o eqs hn hf hg) hv]
  rfl

/-! ## The generated constants -/

/-- Values of an expression depend on the program wide constants only. -/
def Sym.Closed : Sym d → Prop
  | .data _ _ => False
  | .gvar _ => False
  | .glob _ => False
  | .idx _ => False
  | .add x y => x.Closed ∧ y.Closed
  | .mul x y => x.Closed ∧ y.Closed
  | .pow x y => x.Closed ∧ y.Closed
  | .mod x y => x.Closed ∧ y.Closed
  | .max x y => x.Closed ∧ y.Closed
  | .fn _ x => x.Closed
  | .pw _ a b x y => a.Closed ∧ b.Closed ∧ x.Closed ∧ y.Closed
  | _ => True

theorem closed_val (L : Lib K) (e : Sym d) (hc : e.Closed) (o o' : Outer d K) (st st' : Mem d K) (h : ∀ c ∈ e.consts, o.const c = o'.const c) :
    e.val L o st = e.val L o' st' := by
  induction e with
  | num q => rfl
  | flt q => rfl
  | const c => exact h c (by simp [Sym.consts])
  | data b off => exact hc.elim
  | gvar v => exact hc.elim
  | glob g => exact hc.elim
  | idx k => exact hc.elim
  | add x y hx hy =>
    simp only [Sym.consts, Finset.mem_union] at h
    simp only [Sym.val, hx hc.1 fun c m => h c (.inl m), hy hc.2 fun c m => h c (.inr m)]
  | mul x y hx hy =>
    simp only [Sym.consts, Finset.mem_union] at h
    simp only [Sym.val, hx hc.1 fun c m => h c (.inl m), hy hc.2 fun c m => h c (.inr m)]
  | pow x y hx hy =>
    simp only [Sym.consts, Finset.mem_union] at h
    simp only [Sym.val, hx hc.1 fun c m => h c (.inl m), hy hc.2 fun c m => h c (.inr m)]
  | mod x y hx hy =>
    simp only [Sym.consts, Finset.mem_union] at h
    simp only [Sym.val, hx hc.1 fun c m => h c (.inl m), hy hc.2 fun c m => h c (.inr m)]
  | max x y hx hy =>
    simp only [Sym.consts, Finset.mem_union] at h
    simp only [Sym.val, hx hc.1 fun c m => h c (.inl m), hy hc.2 fun c m => h c (.inr m)]
  | fn f x hx => simp only [Sym.val, hx hc h]
  | pw r a b x y ha hb hx hy =>
    simp only [Sym.consts, Finset.mem_union] at h
    simp only [Sym.val, ha hc.1 fun c m => h c (.inl (.inl m)), hb hc.2.1 fun c m => h c (.inl (.inr m)),
      hx hc.2.2.1 fun c m => h c (.inr (.inl m)), hy hc.2.2.2 fun c m => h c (.inr (.inr m))]

/-- The powers of an expression that become generated constants: negative powers of constants, and `1/(gama - 1)`. -/
def Sym.inverses : Sym d → List (Sym d)
  | .add x y => x.inverses ++ y.inverses
  | .mul x y => x.inverses ++ y.inverses
  | .pow x y =>
    if .pow x y = invGammaMinusOne ∨ (isConst x ∧ coeffIsNeg y) then [.pow x y] else x.inverses ++ y.inverses
  | .mod x y => x.inverses ++ y.inverses
  | .max x y => x.inverses ++ y.inverses
  | .fn _ x => x.inverses
  | .pw _ a b x y => a.inverses ++ b.inverses ++ (x.inverses ++ y.inverses)
  | _ => []

/-- The registry `s'` arises from `s` by requests for rational numbers and for the powers `ks`. -/
def Extends (ks : List (Sym d)) (s s' : Rc (Sym d)) : Prop :=
  ∃ l : List (Prefix × Sym d), s' = s.requests l ∧ ∀ r ∈ l, (∃ q, r.2 = .num q) ∨ r.2 ∈ ks

theorem Extends.refl (ks : List (Sym d)) (s : Rc (Sym d)) : Extends ks s s := ⟨[], rfl, by simp⟩

theorem Extends.trans {ks : List (Sym d)} {s s' s'' : Rc (Sym d)} (h : Extends ks s s') (h' : Extends ks s' s'') : Extends ks s s'' := by
  obtain ⟨l, rfl, hl⟩ := h
  obtain ⟨l', rfl, hl'⟩ := h'
  refine ⟨l ++ l', by simp [Rc.requests], fun r hr => ?_⟩
  rcases List.mem_append.1 hr with h | h
  · exact hl r h
  · exact hl' r h

theorem Extends.mono {ks ks' : List (Sym d)} {s s' : Rc (Sym d)} (h : Extends ks s s') (hk : ∀ k ∈ ks, k ∈ ks') : Extends ks' s s' := by
  obtain ⟨l, rfl, hl⟩ := h
  exact ⟨l, rfl, fun r hr => (hl r hr).imp_right (hk _)⟩

theorem printNum_extends (ks : List (Sym d)) (m : Mode) (q : ℚ) (s : Rc (Sym d)) : Extends ks s (printNum m q s).2 := by
  unfold printNum
  split
  · exact .refl ..
  · split
    · exact .refl ..
    · exact ⟨[(.rc, .num q)], rfl, by simp⟩

theorem printPowNum_extends (ks : List (Sym d)) (m : Mode) (p : CExpr d) (q : ℚ) (s : Rc (Sym d)) : Extends ks s (printPowNum m p q s).2 := by
  unfold printPowNum
  split
  · exact .refl ..
  · split
    · exact .refl ..
    · exact printNum_extends ..

theorem print_extends (ks : List (Sym d)) (e : Sym d) (m : Mode) (s : Rc (Sym d)) :
    Extends ks s (print m e s).1.2 ∧ ∀ q ∈ (print m e s).2, Extends ks s q.2 := by
  induction e generalizing m s with
  | num q => exact ⟨printNum_extends ks m q s, by simp [print]⟩
  | add x y hx hy => exact ⟨(hx m s).1.trans (hy m _).1, by simp [print]⟩
  | mul x y hx hy =>
    have h1 := hy m (print m x s).1.2
    simp only [print]
    cases hq : (print m y (print m x s).1.2).2 with
    | none => exact ⟨(hx m s).1.trans h1.1, by simp⟩
    | some q => exact ⟨(hx m s).1.trans (h1.2 q (by simp [hq])), by simp⟩
  | pow x y hx hy =>
    refine ⟨?_, ?_⟩
    · simp only [print]
      split
      · exact (hx m s).1
      · split
        · exact (hx m s).1
        · exact (hx m s).1.trans (hy m _).1
    · intro q hq
      simp only [print, Option.mem_def, Option.map_eq_some_iff] at hq
      obtain ⟨r, -, rfl⟩ := hq
      exact (hx m s).1.trans (printPowNum_extends ..)
  | mod x y hx hy => exact ⟨(hx _ s).1.trans (hy _ _).1, by simp [print]⟩
  | max x y hx hy => exact ⟨(hx m s).1.trans (hy m _).1, by simp [print]⟩
  | fn f x hx => exact ⟨(hx m s).1, by simp [print]⟩
  | pw r a b x y ha hb hx hy => exact ⟨(((ha m s).1.trans (hb m _).1).trans (hx m _).1).trans (hy m _).1, by simp [print]⟩
  | _ => exact ⟨.refl .., by simp [print]⟩

theorem powToConst_extends (e : Sym d) (s : Rc (Sym d)) : Extends e.inverses s (powToConst e s).2 := by
  induction e generalizing s with
  | add x y hx hy => exact ((hx s).mono (by simp +contextual [Sym.inverses])).trans ((hy _).mono (by simp +contextual [Sym.inverses]))
  | mul x y hx hy => exact ((hx s).mono (by simp +contextual [Sym.inverses])).trans ((hy _).mono (by simp +contextual [Sym.inverses]))
  | pow x y hx hy =>
    simp only [powToConst, Sym.inverses]
    split
    · exact ⟨[(.rcinv, .pow x y)], rfl, by simp⟩
    · exact ((hx s).mono (by simp +contextual)).trans ((hy _).mono (by simp +contextual))
  | mod x y hx hy => exact ((hx s).mono (by simp +contextual [Sym.inverses])).trans ((hy _).mono (by simp +contextual [Sym.inverses]))
  | max x y hx hy => exact ((hx s).mono (by simp +contextual [Sym.inverses])).trans ((hy _).mono (by simp +contextual [Sym.inverses]))
  | fn f x hx => exact hx s
  | pw r a b x y ha hb hx hy =>
    exact ((((ha s).mono (by simp +contextual [Sym.inverses])).trans ((hb _).mono (by simp +contextual [Sym.inverses]))).trans
      ((hx _).mono (by simp +contextual [Sym.inverses]))).trans ((hy _).mono (by simp +contextual [Sym.inverses]))
  | _ => exact .refl ..

theorem printAssign_extends (a : Assign d) (s : Rc (Sym d)) : Extends a.rhs.inverses s (printAssign a s).2 :=
  (powToConst_extends ..).trans (print_extends ..).1

theorem printAssigns_extends (l : List (Assign d)) (s : Rc (Sym d)) :
    Extends ((l.map Assign.rhs).flatMap Sym.inverses) s (printAssigns l s).2 := by
  induction l generalizing s with
  | nil => exact .refl ..
  | cons a l ih =>
    exact ((printAssign_extends a s).mono (by simp +contextual)).trans ((ih _).mono (by simp +contextual))

theorem printInner_extends (ks : List (Sym d)) (c : Cond d) (s : Rc (Sym d)) : Extends ks s (printInner c s).2 := by
  induction c generalizing s with
  | tt => exact .refl ..
  | rel r x y => exact (print_extends ..).1.trans (print_extends ..).1
  | and c e hc he => exact (hc s).trans (he _)
  | or c e hc he => exact (hc s).trans (he _)
  | not c hc => exact hc s

theorem printCond_extends (c : Cond d) (s : Rc (Sym d)) : Extends (c.exprs.flatMap Sym.inverses) s (printCond c s).2 := by
  unfold printCond
  split
  · exact ((((powToConst_extends ..).mono (by simp +contextual [Cond.exprs])).trans
      ((powToConst_extends ..).mono (by simp +contextual [Cond.exprs]))).trans (print_extends ..).1).trans (print_extends ..).1
  · exact printInner_extends ..

theorem printRest_extends (bs : List (List (Assign d) × Cond d)) (s : Rc (Sym d)) :
    Extends ((Eqn.grouped bs).exprs.flatMap Sym.inverses) s (printRest bs s).2 := by
  induction bs generalizing s with
  | nil => exact .refl ..
  | cons b bs ih =>
    obtain ⟨eqs, c⟩ := b
    by_cases hc : c = .tt
    · subst hc
      exact ((printAssigns_extends eqs s).mono (by simp +contextual [Eqn.exprs])).trans
        ((ih _).mono (by simp +contextual [Eqn.exprs]))
    · rw [printRest_cons _ _ hc]
      exact (((printCond_extends c s).mono (by simp +contextual [Eqn.exprs])).trans
        ((printAssigns_extends eqs _).mono (by simp +contextual [Eqn.exprs]))).trans ((ih _).mono (by simp +contextual [Eqn.exprs]))

theorem printBody_extends (eqs : List (Eqn d)) (s : Rc (Sym d)) : Extends ((exprs eqs).flatMap Sym.inverses) s (printBody eqs s).2 := by
  induction eqs generalizing s with
  | nil => exact .refl ..
  | cons e l ih =>
    cases e with
    | assign a => exact ((printAssign_extends a s).mono (by simp +contextual [exprs, Eqn.exprs])).trans ((ih _).mono (by simp +contextual [exprs]))
    | grouped bs =>
      refine Extends.trans ?_ ((ih (printGrouped bs s).2).mono (by simp +contextual [exprs]))
      cases bs with
      | nil => exact .refl ..
      | cons b bs =>
        obtain ⟨eqs, c⟩ := b
        exact (((printCond_extends c s).mono (by simp +contextual [exprs, Eqn.exprs])).trans
          ((printAssigns_extends eqs _).mono (by simp +contextual [exprs, Eqn.exprs]))).trans
          ((printRest_extends bs _).mono (by simp +contextual [exprs, Eqn.exprs]))

theorem printKernels_extends (ks : List (List (Eqn d))) (s : Rc (Sym d)) :
    Extends (ks.flatMap fun eqs => (exprs eqs).flatMap Sym.inverses) s (printKernels ks s).2 := by
  induction ks generalizing s with
  | nil => exact .refl ..
  | cons k l ih => exact ((printBody_extends k s).mono (by simp +contextual)).trans ((ih _).mono (by simp +contextual))

theorem printKernels_append (ks l : List (List (Eqn d))) (s : Rc (Sym d)) :
    (printKernels (ks ++ l) s).2 = (printKernels l (printKernels ks s).2).2 := by
  induction ks generalizing s with
  | nil => rfl
  | cons k ks ih => exact ih _

theorem printKernels_prefix (ks : List (List (Eqn d))) (s : Rc (Sym d)) : s.existing <+: (printKernels ks s).2.existing := by
  induction ks generalizing s with
  | nil => exact List.prefix_rfl
  | cons k l ih => exact (printBody_prefix k s).trans (ih _)

theorem val_congr (L : Lib K) (e : Sym d) (o o' : Outer d K) (st : Mem d K) (hg : o.glob = o'.glob) (hi : o.idx = o'.idx)
    (h : ∀ c ∈ e.consts, o.const c = o'.const c) : e.val L o st = e.val L o' st := by
  induction e with
  | num q => rfl
  | flt q => rfl
  | const c => exact h c (by simp [Sym.consts])
  | data b off => rfl
  | gvar v => rfl
  | glob g => simp only [Sym.val, hg]
  | idx k => simp only [Sym.val, hi]
  | add x y hx hy =>
    simp only [Sym.consts, Finset.mem_union] at h
    simp only [Sym.val, hx fun c m => h c (.inl m), hy fun c m => h c (.inr m)]
  | mul x y hx hy =>
    simp only [Sym.consts, Finset.mem_union] at h
    simp only [Sym.val, hx fun c m => h c (.inl m), hy fun c m => h c (.inr m)]
  | pow x y hx hy =>
    simp only [Sym.consts, Finset.mem_union] at h
    simp only [Sym.val, hx fun c m => h c (.inl m), hy fun c m => h c (.inr m)]
  | mod x y hx hy =>
    simp only [Sym.consts, Finset.mem_union] at h
    simp only [Sym.val, hx fun c m => h c (.inl m), hy fun c m => h c (.inr m)]
  | max x y hx hy =>
    simp only [Sym.consts, Finset.mem_union] at h
    simp only [Sym.val, hx fun c m => h c (.inl m), hy fun c m => h c (.inr m)]
  | fn f x hx => simp only [Sym.val, hx h]
  | pw r a b x y ha hb hx hy =>
    simp only [Sym.consts, Finset.mem_union] at h
    simp only [Sym.val, ha fun c m => h c (.inl (.inl m)), hb fun c m => h c (.inl (.inr m)),
      hx fun c m => h c (.inr (.inl m)), hy fun c m => h c (.inr (.inr m))]

/-- Constants an expression mentions. -/
noncomputable def deps (k : Sym d) : List String := k.consts.toList

/-- What is asked of the history before the kernels are written: the names that are registered do not look generated; the powers that are requested contain
constants only; values and powers mention constants that are there already. -/
structure Registered (ops : List (Rc.Op (Sym d))) : Prop where
  names : ∀ c, .add c ∈ ops → ¬ Generated c.name
  closed : ∀ p k, .request p k ∈ ops → k.Closed
  order : ∀ pre op post, ops = pre ++ op :: post → ∀ k, (match op with | .add c => c.value = some k | .request _ k' => k' = k) →
    ∀ n ∈ k.consts, n ∈ (Rc.empty.performs pre).names

/-- The invariant: names are used once, constants are declared before use, and the generated ones replace closed expressions. -/
structure Sound (s : Rc (Sym d)) : Prop where
  ok : s.Ok
  nodup : s.names.Nodup
  order : DeclaredBeforeUse deps s.constants
  closed : ∀ k n, (k, n) ∈ s.existing → k.Closed

theorem Sound.request {s : Rc (Sym d)} (h : Sound s) (p : Prefix) (k : Sym d) (hk : k.Closed) (hc : ∀ c ∈ k.consts, c ∈ s.names) :
    Sound (s.request p k).1 ∧ s.constants <+: (s.request p k).1.constants ∧ s.existing <+: (s.request p k).1.existing := by
  obtain ⟨g1, -, g3, g4⟩ := request_ok s h.ok p k
  refine ⟨⟨g1, ?_, ?_, ?_⟩, g4, g3⟩
  · unfold Rc.request
    cases s.existing.lookup k with
    | some n => exact h.nodup
    | none => exact nodup_addConstant _ _ h.nodup
  · unfold Rc.request
    cases s.existing.lookup k with
    | some n => exact h.order
    | none =>
      refine C38_declared_before_use deps _ _ h.order fun k' hk' n hn => ?_
      cases hk'
      exact hc n (by simpa [deps] using hn)
  · intro k' n hm
    unfold Rc.request at hm
    cases hlk : s.existing.lookup k with
    | some n' =>
      rw [hlk] at hm
      exact h.closed k' n hm
    | none =>
      rw [hlk] at hm
      rcases List.mem_append.1 hm with hm | hm
      · exact h.closed k' n hm
      · simp only [List.mem_singleton, Prod.mk.injEq] at hm
        exact hm.1 ▸ hk

theorem Sound.add {s : Rc (Sym d)} (h : Sound s) (c : Const (Sym d)) (hn : ¬ Generated c.name)
    (hc : ∀ k, c.value = some k → ∀ n ∈ k.consts, n ∈ s.names) : Sound (s.perform (.add c)) := by
  refine ⟨⟨h.ok.keys, h.ok.names, h.ok.inj, fun k n hm => ?_, fun c' hc' hg => ?_⟩, nodup_addConstant _ _ h.nodup,
    C38_declared_before_use deps _ _ h.order fun k hk n hn => hc k hk n (by simpa [deps] using hn), h.closed⟩
  · have := h.ok.declared k n hm
    rw [Reg.declared, Option.map_eq_some_iff] at this ⊢
    obtain ⟨x, hx, hv⟩ := this
    refine ⟨x, ?_, hv⟩
    simp only [Rc.perform, addConstant]
    split
    · exact hx
    · rw [List.find?_append, hx]; rfl
  · simp only [Rc.perform, addConstant] at hc'
    split at hc'
    · exact h.ok.fresh c' hc' hg
    · rcases List.mem_append.1 hc' with hc' | hc'
      · exact h.ok.fresh c' hc' hg
      · rw [List.mem_singleton] at hc'
        subst hc'
        exact absurd hg hn

/-- The registry before the kernels are written. -/
theorem Registered.sound {ops : List (Rc.Op (Sym d))} (h : Registered ops) : Sound (Rc.empty.performs ops) := by
  induction ops using List.reverseRecOn with
  | nil =>
    refine ⟨⟨?_, ?_, ?_, ?_, ?_⟩, ?_, ?_, ?_⟩ <;> try simp [Rc.performs, Rc.empty, Rc.names]
    intro l₁ c l₂ e
    simp at e
  | append_singleton ops op ih =>
    have hp := ih ⟨fun c hc => h.names c (List.mem_append_left _ hc), fun p k hk => h.closed p k (List.mem_append_left _ hk),
      fun pre o post e => h.order pre o (post ++ [op]) (by rw [e]; simp)⟩
    have e : Rc.empty.performs (ops ++ [op]) = (Rc.empty.performs ops).perform op := by simp [Rc.performs]
    have ho := h.order ops op [] rfl
    rw [e]
    cases op with
    | add c => exact hp.add c (h.names c (by simp)) ho
    | request p k => exact (hp.request p k (h.closed p k (by simp)) (ho k rfl)).1

/-- Requests for closed expressions in the constants that are there keep the invariant. -/
theorem Sound.requests {s : Rc (Sym d)} (h : Sound s) (l : List (Prefix × Sym d))
    (hl : ∀ r ∈ l, r.2.Closed ∧ ∀ c ∈ r.2.consts, c ∈ s.names) : Sound (s.requests l) := by
  induction l generalizing s with
  | nil => exact h
  | cons r l ih =>
    obtain ⟨h1, h2, -⟩ := h.request r.1 r.2 (hl r (List.mem_cons_self ..)).1 (hl r (List.mem_cons_self ..)).2
    exact ih h1 fun r' hr => ⟨(hl r' (List.mem_cons_of_mem _ hr)).1, fun c hc => List.map_subset _ h2.subset ((hl r' (List.mem_cons_of_mem _ hr)).2 c hc)⟩

/-- Values of the constants in the running program: the assignments written by `define_constants` (opsc.py 625-632) for all registered constants, in order. -/
def programConstants (L : Lib K) (inputs : String → K) (s : Rc (Sym d)) : String → K :=
  runConstants (fun env k => k.val L (⟨env, fun _ => 0, fun _ => 0⟩ : Outer d K) ⟨fun _ _ => 0, fun _ => 0⟩) inputs s.constants fun _ => 0

/-- In a sound registry the generated constants have, in the program, the values of the expressions they replace. -/
theorem Sound.values {s : Rc (Sym d)} (h : Sound s) (L : Lib K) (inputs : String → K) (o : Outer d K) (ho : o.const = programConstants L inputs s)
    (k : Sym d) (n : String) (hm : (k, n) ∈ s.existing) (st : Mem d K) : o.const n = k.val L o st ∧ Generated n := by
  have hd := h.ok.declared _ n hm
  rw [declared, Option.map_eq_some_iff] at hd
  obtain ⟨c, hc, hcv⟩ := hd
  have hcm := List.mem_of_find?_eq_some hc
  have hcn : c.name = n := by simpa using List.find?_some hc
  have hval := C38_values_in_program
    (fun env k => k.val L (⟨env, fun _ => 0, fun _ => 0⟩ : Outer d K) ⟨fun _ _ => 0, fun _ => 0⟩) deps
    (fun k env env' h => val_congr L k ⟨env, _, _⟩ ⟨env', _, _⟩ _ rfl rfl fun c hc => h c (by simpa [deps] using hc)) inputs _ h.nodup h.order (fun _ => 0) c hcm
  rw [hcv, hcn] at hval
  simp only at hval
  refine ⟨?_, ?_⟩
  · rw [ho]
    refine hval.trans (closed_val L _ (h.closed k n hm) _ _ _ _ fun c _ => ?_)
    rw [ho]; rfl
  · obtain ⟨p, i, hn, -⟩ := h.ok.names _ n hm
    exact ⟨p, i, hn⟩

/-- The registry after the kernels. -/
theorem Sound.printKernels {s : Rc (Sym d)} (h : Sound s) (ks : List (List (Eqn d)))
    (hk : ∀ eqs ∈ ks, ∀ e ∈ exprs eqs, ∀ k ∈ e.inverses, k.Closed ∧ ∀ c ∈ k.consts, c ∈ s.names) : Sound (CCode.printKernels ks s).2 := by
  obtain ⟨l, hl, hl'⟩ := printKernels_extends ks s
  rw [hl]
  refine h.requests l fun r hr => ?_
  rcases hl' r hr with ⟨q, hq⟩ | h
  · rw [hq]; exact ⟨trivial, by simp [Sym.consts]⟩
  · simp only [List.mem_flatMap] at h
    obtain ⟨eqs, h1, e, h2, h3⟩ := h
    exact hk eqs h1 e h2 _ h3

/-- C75: in the program, every constant generated while the equations are discretised and the kernels are written has the value of the number or power it
replaces, at every grid point, provided the powers that are replaced mention constants that are registered before the kernels are written. -/
theorem C75_generated_constants (L : Lib K) (ops : List (Rc.Op (Sym d))) (hu : Registered ops) (ks : List (List (Eqn d)))
    (hk : ∀ eqs ∈ ks, ∀ e ∈ exprs eqs, ∀ k ∈ e.inverses, k.Closed ∧ ∀ c ∈ k.consts, c ∈ (Rc.empty.performs ops).names)
    (inputs : String → K) (o : Outer d K) (ho : o.const = programConstants L inputs (printKernels ks (Rc.empty.performs ops)).2) (k : Sym d) (n : String)
    (hm : (k, n) ∈ (printKernels ks (Rc.empty.performs ops)).2.existing) (st : Mem d K) : o.const n = k.val L o st ∧ Generated n :=
  (hu.sound.printKernels ks hk).values L inputs o ho k n hm st

/-- C75: the kernels of a program. For every kernel of the list, with the constants the program defines, calling the kernel function computes the equations of the
kernel. Partial: as `C75_kernel_text_partial`. -/
theorem C75_program_partial (L : Lib K) (hL : L.Conforms) (ops : List (Rc.Op (Sym d))) (hu : Registered ops)
    (before after : List (List (Eqn d))) (eqs : List (Eqn d))
    (hk : ∀ k' ∈ before ++ eqs :: after, ∀ e ∈ exprs k', ∀ k ∈ e.inverses, k.Closed ∧ ∀ c ∈ k.consts, c ∈ (Rc.empty.performs ops).names)
    (inputs : String → K) (o : Outer d K)
    (ho : o.const = programConstants L inputs (printKernels (before ++ eqs :: after) (Rc.empty.performs ops)).2) (globs : Finset String)
    (hn : NamesApart globs eqs) (hgen : ∀ v, v ∈ declaredVars eqs ∨ v ∈ globs → ¬ Generated v)
    (hf : TextFaithful L o eqs) (hg : GroupsRegular eqs) (data : String → (Fin d → ℤ) → K) :
    callKernel L globs o eqs (printKernels before (Rc.empty.performs ops)).2 data = some (effect L o eqs ⟨data, fun _ => 0⟩).data := by
  refine C75_kernel_text_partial L hL globs o eqs _ hn hf hg (fun st k n hm => ?_) data
  have hm' : (k, n) ∈ (printKernels (before ++ eqs :: after) (Rc.empty.performs ops)).2.existing := by
    rw [printKernels_append]
    exact (printKernels_prefix after _).subset hm
  obtain ⟨h1, h2⟩ := C75_generated_constants L ops hu _ hk inputs o ho k n hm' st
  exact ⟨fun h => hgen n (.inl h) h2, fun h => hgen n (.inr h) h2, h1⟩

/-! ## The text of a definition of a constant -/

/-- No modulus in the expression. -/
def Sym.NoMod : Sym d → Prop
  | .mod _ _ => False
  | .add x y => x.NoMod ∧ y.NoMod
  | .mul x y => x.NoMod ∧ y.NoMod
  | .pow x y => x.NoMod ∧ y.NoMod
  | .max x y => x.NoMod ∧ y.NoMod
  | .fn _ x => x.NoMod
  | .pw _ a b x y => a.NoMod ∧ b.NoMod ∧ x.NoMod ∧ y.NoMod
  | _ => True

/-- Settings with which `define_constants` prints (opsc.py 630). -/
def Mode.definition : Mode := ⟨true, false⟩

theorem printNum_definition (q : ℚ) (s s' : Rc (Sym d)) :
    (printNum Mode.definition q s).2 = s ∧ (printNum Mode.definition q s).1 = (printNum Mode.definition q s').1 := by
  unfold printNum
  split
  · exact ⟨rfl, rfl⟩
  · exact ⟨rfl, rfl⟩

theorem printPowNum_definition (p : CExpr d) (q : ℚ) (s s' : Rc (Sym d)) :
    (printPowNum Mode.definition p q s).2 = s ∧ (printPowNum Mode.definition p q s).1 = (printPowNum Mode.definition p q s').1 := by
  unfold printPowNum
  split
  · exact ⟨rfl, rfl⟩
  · split
    · exact ⟨rfl, rfl⟩
    · obtain ⟨h1, h2⟩ := printNum_definition q s s'
      exact ⟨h1, by simp only [h2]⟩

/-- Printing the definition of a constant adds no constant, and the text does not depend on the constants there are. -/
theorem print_definition (e : Sym d) (h : e.NoMod) (s s' : Rc (Sym d)) :
    (print Mode.definition e s).1.2 = s ∧ (print Mode.definition e s).1.1 = (print Mode.definition e s').1.1 ∧
      (print Mode.definition e s).2.map Prod.fst = (print Mode.definition e s').2.map Prod.fst ∧
      ∀ q ∈ (print Mode.definition e s).2, q.2 = s := by
  induction e generalizing s s' with
  | num q => exact ⟨(printNum_definition q s s').1, (printNum_definition q s s').2, rfl, by simp [print]⟩
  | add x y hx hy =>
    obtain ⟨a1, a2, -, -⟩ := hx h.1 s s'
    obtain ⟨b1, b2, -, -⟩ := hy h.2 (print Mode.definition x s).1.2 (print Mode.definition x s').1.2
    exact ⟨b1.trans a1, by simp only [print, a2, b2], rfl, by simp [print]⟩
  | mul x y hx hy =>
    obtain ⟨a1, a2, -, -⟩ := hx h.1 s s'
    obtain ⟨b1, b2, b3, b4⟩ := hy h.2 (print Mode.definition x s).1.2 (print Mode.definition x s').1.2
    simp only [print]
    cases h1 : (print Mode.definition y (print Mode.definition x s).1.2).2 with
    | none =>
      cases h2 : (print Mode.definition y (print Mode.definition x s').1.2).2 with
      | none => exact ⟨b1.trans a1, by simp only [a2, b2], rfl, by simp⟩
      | some q => rw [h1, h2] at b3; cases b3
    | some p =>
      cases h2 : (print Mode.definition y (print Mode.definition x s').1.2).2 with
      | none => rw [h1, h2] at b3; cases b3
      | some q =>
        rw [h1, h2] at b3
        refine ⟨?_, ?_, rfl, by simp⟩
        · exact (b4 p (by simp [h1])).trans a1
        · simp only [Option.map_some, Option.some.injEq] at b3
          simp only [a2, b3]
  | pow x y hx hy =>
    obtain ⟨a1, a2, -, -⟩ := hx h.1 s s'
    obtain ⟨b1, b2, -, -⟩ := hy h.2 (print Mode.definition x s).1.2 (print Mode.definition x s').1.2
    refine ⟨?_, ?_, ?_, ?_⟩
    · simp only [print]
      split
      · exact a1
      · split
        · exact a1
        · exact b1.trans a1
    · simp only [print]
      split
      · simp only [a2]
      · split
        · simp only [a2]
        · simp only [a2, b2]
    · simp only [print, Option.map_map]
      cases negExp y with
      | none => rfl
      | some q =>
        simp only [Option.map_some, Function.comp, a2]
        rw [(printPowNum_definition _ (-q) (print Mode.definition x s).1.2 (print Mode.definition x s').1.2).2]
    · intro q hq
      simp only [print, Option.mem_def, Option.map_eq_some_iff] at hq
      obtain ⟨r, -, rfl⟩ := hq
      exact (printPowNum_definition _ _ _ s').1.trans a1
  | mod x y hx hy => exact h.elim
  | max x y hx hy =>
    obtain ⟨a1, a2, -, -⟩ := hx h.1 s s'
    obtain ⟨b1, b2, -, -⟩ := hy h.2 (print Mode.definition x s).1.2 (print Mode.definition x s').1.2
    exact ⟨b1.trans a1, by simp only [print, a2, b2], rfl, by simp [print]⟩
  | fn f x hx =>
    obtain ⟨a1, a2, -, -⟩ := hx h s s'
    exact ⟨by simp only [print, a1], by simp only [print, a2], rfl, by simp [print]⟩
  | pw r a b x y ha hb hx hy =>
    obtain ⟨a1, a2, -, -⟩ := ha h.1 s s'
    obtain ⟨b1, b2, -, -⟩ := hb h.2.1 (print Mode.definition a s).1.2 (print Mode.definition a s').1.2
    obtain ⟨c1, c2, -, -⟩ := hx h.2.2.1 (print Mode.definition b (print Mode.definition a s).1.2).1.2
      (print Mode.definition b (print Mode.definition a s').1.2).1.2
    obtain ⟨d1, d2, -, -⟩ := hy h.2.2.2 (print Mode.definition x (print Mode.definition b (print Mode.definition a s).1.2).1.2).1.2
      (print Mode.definition x (print Mode.definition b (print Mode.definition a s').1.2).1.2).1.2
    exact ⟨((d1.trans c1).trans b1).trans a1, by simp only [print, a2, b2, c2, d2], rfl, by simp [print]⟩
  | _ => exact ⟨rfl, rfl, rfl, by simp [print]⟩

theorem closed_faithful_names (e : Sym d) (h : e.Closed) : e.gvars = ∅ := by
  induction e with
  | gvar v => exact h.elim
  | add x y hx hy => simp [Sym.gvars, hx h.1, hy h.2]
  | mul x y hx hy => simp [Sym.gvars, hx h.1, hy h.2]
  | pow x y hx hy => simp [Sym.gvars, hx h.1, hy h.2]
  | mod x y hx hy => simp [Sym.gvars, hx h.1, hy h.2]
  | max x y hx hy => simp [Sym.gvars, hx h.1, hy h.2]
  | fn f x hx => simp [Sym.gvars, hx h]
  | pw r a b x y ha hb hx hy => simp [Sym.gvars, ha h.1, hb h.2.1, hx h.2.2.1, hy h.2.2.2]
  | _ => rfl

/-- C75: the line `name = text;` defining a constant gives it the value of its defining expression, whatever constants were generated; printing it generates no further
constant. -/
theorem C75_definition_text (L : Lib K) (hL : L.Conforms) (e : Sym d) (hc : e.Closed) (hm : e.NoMod) (o : Outer d K) (st : Mem d K)
    (hf : e.Faithful L o st Mode.definition) (s : Rc (Sym d)) :
    (print Mode.definition e s).1.2 = s ∧
      ∃ v, (print Mode.definition e s).1.1.eval L ∅ ∅ o st = some v ∧ v.toK = e.val L o st := by
  obtain ⟨h1, h2, -, -⟩ := print_definition e hm s ⟨0, [], []⟩
  refine ⟨h1, ?_⟩
  rw [h2]
  have hs : e.Scoped ∅ ∅ := scoped_of_names _ _ e (by simp [closed_faithful_names e hc]) (by simp)
  obtain ⟨v, a1, a2, -⟩ := (print_eval hL e Mode.definition (⟨0, [], []⟩ : Rc (Sym d)) hf hs).1 (by
    rw [(print_definition e hm ⟨0, [], []⟩ s).1]
    intro k n h
    simp at h)
  exact ⟨v, a1, a2⟩

/-! ## Where the text is not faithful -/

section
variable {L : Lib K} {decl globs : Finset String} {o : Outer d K}

/-- A condition of a grouped piecewise that is an equality of a grid variable or array element with an expression is printed as an assignment: evaluating it overwrites
the variable, and the branch is taken when the new value is not zero. -/
theorem C75_equality_condition_assigns (hL : L.Conforms) (l : Lhs d) (hl : ∀ v, l = .gvar v → v ∈ decl) (y : Sym d) (hy : y.Fine L decl globs o)
    (s : Rc (Sym d)) (st : Mem d K)
    (hv : Valued L decl globs o st (printCond (.rel .eq (match l with | .data b off => .data b off | .gvar v => .gvar v) y) s).2) :
    (printCond (.rel .eq (match l with | .data b off => .data b off | .gvar v => .gvar v) y) s).1.run L decl globs o st =
      some (decide (y.val L o st ≠ 0), st.set l (y.val L o st)) := by
  have key : ∀ x : Sym d, (∀ s, powToConst x s = (x, s)) → ∀ c : CExpr d, (∀ s, (print Mode.inKernel x s).1 = (c, s)) →
      c.lvalue decl = some l → Valued L decl globs o st (printCond (.rel .eq x y) s).2 →
      (printCond (.rel .eq x y) s).1.run L decl globs o st = some (decide (y.val L o st ≠ 0), st.set l (y.val L o st)) := by
    intro x hx c hc hlv hv
    simp only [printCond, hx, hc] at hv ⊢
    obtain ⟨b1, -, -, b4, b5⟩ := powToConst_spec y s Mode.inKernel (hv.mono (print_prefix ..).1) (hy.1 st) hy.2
    obtain ⟨v, c1, c2, -⟩ := (print_eval hL _ Mode.inKernel (powToConst y s).2 b4 b5).1 hv
    simp only [CCond.run, hlv, c1, Option.bind_eq_bind, Option.bind_some, c2, b1]
  cases l with
  | data b off => exact key _ (fun _ => rfl) (.access b off) (fun _ => rfl) rfl hv
  | gvar v => exact key _ (fun _ => rfl) (.var v) (fun _ => rfl) (by simp [CExpr.lvalue, hl v rfl]) hv

/-- If the left side of the equality is a grid index, the text does not compile. -/
theorem C75_equality_condition_of_index (k : Fin d) (y : Sym d) (s : Rc (Sym d)) (st : Mem d K) :
    (printCond (.rel .eq (.idx k) y) s).1.run L decl globs o st = none := rfl

/-- The quotient of two grid indices is truncated to an integer. -/
theorem C75_index_quotient_truncated (i j : Fin d) (m : Mode) (s : Rc (Sym d)) (st : Mem d K) :
    (print m (.mul (.idx i) (.pow (.idx j) (.num (-1)))) s).1.1.eval L decl globs o st = some (.int ((o.idx i).tdiv (o.idx j))) := by
  have h : negExp (.num (-1) : Sym d) = some (-1) := by simp [negExp]
  have h' : printPowNum m (CExpr.idx j : CExpr d) (- -1) s = (.idx j, s) := by simp [printPowNum]
  simp only [print, h, Option.map_some, h', CExpr.eval]
  rfl

/-- A modulus whose dividend and divisor have opposite signs is printed as `fmod`, which differs from the modulus by the divisor, unless it is zero. -/
theorem C75_modulus_sign (hL : L.Conforms) (x y : Sym d) (m : Mode) (s : Rc (Sym d)) (st : Mem d K)
    (hx : x.Faithful L o st Mode.default) (hy : y.Faithful L o st Mode.default) (sx : x.Scoped decl globs) (sy : y.Scoped decl globs)
    (hv : Valued L decl globs o st (print m (.mod x y) s).1.2) (hneg : x.val L o st / y.val L o st < 0)
    (hi : ∀ n : ℤ, x.val L o st / y.val L o st ≠ n) :
    ∃ v, (print m (.mod x y) s).1.1.eval L decl globs o st = some v ∧
      (Sym.mod x y).val L o st = v.toK + y.val L o st ∧ v.toK ≠ (Sym.mod x y).val L o st := by
  obtain ⟨v, a1, a2, -⟩ := (print_eval hL x _ s hx sx).1 (hv.mono (print_prefix y _ _).1)
  obtain ⟨w, b1, b2, -⟩ := (print_eval hL y _ (print Mode.default x s).1.2 hy sy).1 hv
  have hy0 : y.val L o st ≠ 0 := fun h => by rw [h, div_zero] at hneg; exact lt_irrefl _ hneg
  have hc : trunc (x.val L o st / y.val L o st) = ⌊x.val L o st / y.val L o st⌋ + 1 := by
    rw [trunc, if_neg (not_le.2 hneg), Int.ceil_eq_iff]
    push_cast
    refine ⟨?_, (Int.lt_floor_add_one _).le⟩
    rw [add_sub_cancel_right]
    exact lt_of_le_of_ne (Int.floor_le _) fun h => hi _ h.symm
  refine ⟨_, by simp only [print, CExpr.eval, a1, b1]; rfl, ?_, ?_⟩
  · rw [toK_dbl, a2, b2, hc]
    simp only [Sym.val]
    push_cast; ring
  · rw [toK_dbl, a2, b2, hc]
    simp only [Sym.val]
    push_cast
    intro h
    apply hy0
    linear_combination -h

/-- A global value inside a modulus is printed without `*`, a pointer in an arithmetic expression: the text does not compile. -/
theorem C75_modulus_of_global (g : String) (hg : g ∈ globs) (hd : g ∉ decl) (y : Sym d) (s : Rc (Sym d)) (st : Mem d K) :
    (print Mode.inKernel (.mod (.glob g) y) s).1.1.eval L decl globs o st = none := by
  simp [print, Mode.default, CExpr.eval, hd, hg]

/-- A constant with the name of a grid variable of the kernel is hidden: the text reads the local variable. -/
theorem C75_hidden_constant (c : String) (hc : c ∈ decl) (m : Mode) (s : Rc (Sym d)) (st : Mem d K) :
    (print m (.const c) s).1.1.eval L decl globs o st = some (.dbl (st.loc c)) := by
  simp [print, CExpr.eval, hc]

end

/-! ## A case -/

/-- Integer powers over the rational numbers. -/
def ratLib : Lib ℚ where
  pow b e := if e.den = 1 then b ^ e.num else 0
  fn _ _ := 0

theorem ratLib_conforms : ratLib.Conforms where
  one x := by simp [ratLib]
  neg x q := by
    simp only [ratLib, Rat.cast_id, Rat.neg_den, Rat.neg_num]
    split
    · exact zpow_neg ..
    · simp
  sqrt x := by
    have : ((1 / 2 : ℚ)).den ≠ 1 := by decide +kernel
    simp only [ratLib, Rat.cast_id, if_neg this]

/-- A negative power of a constant whose exponent varies from point to point is replaced by a program wide constant as well: whatever value the constant has, the
kernel `v = x; q = c**(-v)` computes a wrong result for some array contents. -/
theorem C75_varying_exponent (value : ℚ) :
    let eqs : List (Eqn 1) := [.assign ⟨.gvar "v", .data "x" 0⟩, .assign ⟨.data "q" 0, .pow (.const "c") (.mul (.num (-1)) (.gvar "v"))⟩]
    let o : Outer 1 ℚ := ⟨fun n => if n = "c" then 2 else value, fun _ => 0, fun _ => 0⟩
    ∃ data, ∃ out, callKernel ratLib ∅ o eqs (Rc.initial [⟨"c", none⟩]) data = some out ∧
      out "q" 0 ≠ (effect ratLib o eqs ⟨data, fun _ => 0⟩).data "q" 0 := by
  intro eqs o
  have hd : declaredVars eqs = {"v"} := by decide +kernel
  have hb : (printBody eqs (Rc.initial [⟨"c", none⟩])).1 =
      [.assign ⟨.gvar "v", .access "x" 0⟩, .assign ⟨.data "q" 0, .var "rcinv0"⟩] := by decide +kernel
  have run : ∀ data, callKernel ratLib ∅ o eqs (Rc.initial [⟨"c", none⟩]) data =
      some (Function.update data "q" (Function.update (data "q") 0 value)) := by
    intro data
    rw [callKernel, hd, hb]
    simp [runLines, CAssign.run, CExpr.eval, Mem.set, Val.toK, o]
  have spec : ∀ data : String → (Fin 1 → ℤ) → ℚ, (effect ratLib o eqs ⟨data, fun _ => 0⟩).data "q" 0 = ratLib.pow 2 (-(data "x" 0)) := by
    intro data
    simp [eqs, effect, Mem.set, Sym.val, o]
  by_cases h : value = 1
  · refine ⟨fun _ _ => 1, _, run _, ?_⟩
    rw [spec, h]
    norm_num [ratLib]
  · refine ⟨fun _ _ => 0, _, run _, ?_⟩
    rw [spec]
    simpa [ratLib] using h

/-- A kernel with a rational number, the inverse of a constant, a grid variable and a grouped piecewise. -/
def sample : List (Eqn 1) :=
  [.assign ⟨.gvar "u", .mul (.mul (.num (1 / 2)) (.data "rho" fun _ => 1)) (.pow (.const "Re") (.num (-1)))⟩,
   .grouped [([⟨.data "q" 0, .gvar "u"⟩], .rel .lt (.gvar "u") (.num 1)),
     ([⟨.data "q" 0, .add (.idx 0) (.num 2)⟩, ⟨.gvar "u", .num 0⟩], .tt)]]

/-- Its text: `u = rc1*rho[OPS_ACC0(1)]*rcinv0; if (u < 1){ q[OPS_ACC1(0)] = u; } else{ q[OPS_ACC1(0)] = idx[0] + 2; u = 0; }`. -/
example : (printBody sample (Rc.initial [⟨"Re", none⟩])).1 =
    [.assign ⟨.gvar "u", .mul (.mul (.var "rc1") (.access "rho" fun _ => 1)) (.var "rcinv0")⟩,
     .ifL (.rel .lt (.var "u") (.ilit 1)) [⟨.data "q" 0, .var "u"⟩],
     .elseL [⟨.data "q" 0, .add (.idx 0) (.ilit 2)⟩, ⟨.gvar "u", .ilit 0⟩]] := by decide +kernel

theorem not_generated {n : String} (h : ∀ c, n.toList.getLast? = some c → c.isDigit = false) : ¬ Generated n := by
  rintro ⟨p, i, hn⟩
  have h1 := congrArg String.toList hn
  rw [String.toList_append] at h1
  have h2 : (toString i).toList ≠ [] := by
    simp [Nat.toString_eq_repr]
  obtain ⟨c, hc⟩ : ∃ c, (toString i).toList.getLast? = some c := by
    cases hl : (toString i).toList.getLast? with
    | none => exact absurd (List.getLast?_eq_none_iff.1 hl) h2
    | some c => exact ⟨c, rfl⟩
  have h3 : n.toList.getLast? = some c := by rw [h1, List.getLast?_append, hc]; rfl
  have h4 := h c h3
  have h5 : c ∈ (toString i).toList := List.mem_of_getLast? hc
  have h6 : c.isDigit = true := by
    rw [show (toString i).toList = Nat.toDigits 10 i from by simp [Nat.toString_eq_repr, Nat.repr]] at h5
    exact Nat.isDigit_of_mem_toDigits (by norm_num) (by norm_num) h5
  rw [h4] at h6
  cases h6

/-- Generated names begin with `r` or `i`. -/
theorem not_generated_head {n : String} (h : ∀ c, n.toList.head? = some c → c ≠ 'r' ∧ c ≠ 'i') : ¬ Generated n := by
  rintro ⟨p, i, rfl⟩
  cases p
  · exact (h 'r' (by rw [String.toList_append]; rfl)).1 rfl
  · exact (h 'r' (by rw [String.toList_append]; rfl)).1 rfl
  · exact (h 'i' (by rw [String.toList_append]; rfl)).2 rfl

/-- A history: the spacing and a constant are registered, an inverse of the spacing is requested, and the time step is registered. -/
def sampleOps : List (Rc.Op (Sym 1)) :=
  [.add ⟨"Delta0block0", none⟩, .add ⟨"Re", none⟩, .request .inv (.pow (.const "Delta0block0") (.num (-1))), .add ⟨"dt", none⟩]

theorem sampleOps_registered : Registered sampleOps := by
  refine ⟨fun c hc => ?_, fun p k hk => ?_, fun pre op post e k hk n hn => ?_⟩
  · simp only [sampleOps, List.mem_cons, List.not_mem_nil, or_false, Rc.Op.add.injEq, reduceCtorEq, false_or] at hc
    rcases hc with rfl | rfl | rfl <;> exact not_generated_head (by decide)
  · simp only [sampleOps, List.mem_cons, List.not_mem_nil, or_false, Rc.Op.request.injEq, reduceCtorEq, false_or] at hk
    rw [hk.2]
    exact ⟨trivial, trivial⟩
  · match pre, e with
    | [], e => cases e; cases hk
    | [_], e => cases e; cases hk
    | [_, _], e => cases e; subst hk; revert n; decide +kernel
    | [_, _, _], e => cases e; cases hk
    | _ :: _ :: _ :: _ :: l, e => simp [sampleOps] at e

/-- The hypotheses of `C75_program_partial` hold for this kernel, in a program with this kernel before and after. -/
example (inputs : String → ℚ) (idx : Fin 1 → ℤ) (data : String → (Fin 1 → ℤ) → ℚ) :
    let s : Rc (Sym 1) := Rc.empty.performs sampleOps
    let o : Outer 1 ℚ := ⟨programConstants ratLib inputs (printKernels [sample, sample, sample] s).2, fun _ => 0, idx⟩
    callKernel ratLib ∅ o sample (printKernels [sample] s).2 data = some (effect ratLib o sample ⟨data, fun _ => 0⟩).data := by
  have hd : declaredVars sample = {"u"} := by decide +kernel
  refine C75_program_partial ratLib ratLib_conforms sampleOps sampleOps_registered [sample] [sample] sample ?_ inputs _ rfl ∅ ?_ ?_ ?_ ?_ data
  · intro eqs h e he k hk
    have : eqs = sample := by simpa using h
    subst this
    have hin : ∀ e ∈ exprs sample, ∀ k ∈ e.inverses, k = .pow (.const "Re") (.num (-1)) := by decide +kernel
    rw [hin e he k hk]
    exact ⟨⟨trivial, trivial⟩, by decide +kernel⟩
  · have : ∀ e ∈ exprs sample, ∀ c ∈ e.consts, c ∉ declaredVars sample ∧ c ∉ (∅ : Finset String) := by decide +kernel
    exact this
  · intro v hv
    rw [hd] at hv
    simp only [Finset.mem_singleton, Finset.notMem_empty, or_false] at hv
    subst hv
    exact not_generated (by decide)
  · intro e he st
    simp only [exprs, sample, Eqn.exprs, List.flatMap_cons, List.flatMap_nil, Cond.exprs, List.map_cons, List.map_nil, List.append_nil,
      List.cons_append, List.nil_append, List.mem_cons, List.not_mem_nil, or_false] at he
    rcases he with rfl | rfl | rfl | rfl | rfl | rfl <;>
      simp [Sym.Faithful, Sym.isInt, Sym.recipInt]
  · intro bs hb
    simp only [sample, List.mem_cons, List.not_mem_nil, or_false, reduceCtorEq, false_or, Eqn.grouped.injEq] at hb
    subst hb
    exact ⟨by simp, by intro b hb; simp at hb; subst hb; simp, by intro b hb; simp at hb; rcases hb with rfl | rfl <;> trivial⟩

/-- An equality as condition: `Eq(v, 0)` holds at the start, so the equations set `q` to `1`; the text `if (v = 0){ q = 1; }` leaves `q` as it was. -/
theorem C75_equality_condition_wrong :
    let eqs : List (Eqn 1) := [.grouped [([⟨.data "q" 0, .num 1⟩], .rel .eq (.gvar "v") (.num 0))]]
    let o : Outer 1 ℚ := ⟨fun _ => 0, fun _ => 0, fun _ => 0⟩
    ∀ data, callKernel ratLib ∅ o eqs (Rc.initial []) data = some data ∧
      (effect ratLib o eqs ⟨data, fun _ => 0⟩).data "q" 0 = 1 := by
  intro eqs o data
  have hd : declaredVars eqs = {"v"} := by decide +kernel
  have hb : (printBody eqs (Rc.initial [])).1 = [.ifL (.assign (.var "v") (.ilit 0)) [⟨.data "q" 0, .ilit 1⟩]] := by decide +kernel
  refine ⟨?_, ?_⟩
  · rw [callKernel, hd, hb]
    simp [runLines, CCond.run, CExpr.eval, CExpr.lvalue, Mem.set, Val.toK]
  · simp [eqs, effect, firstTrue, Cond.holds, Rel.holds, Sym.val, assigns, Mem.set]

/-- The hypothesis on the sign of a modulus fails for `Mod(-1, 3)`: `2` by the equations, `fmod(-1, 3) = -1` in C. -/
example (o : Outer 1 ℚ) (st : Mem 1 ℚ) : (Sym.mod (.num (-1)) (.num 3) : Sym 1).val ratLib o st = 2 := by
  have : ⌊(-1 : ℚ) / 3⌋ = -1 := by norm_num [Int.floor_eq_iff]
  simp only [Sym.val, Rat.cast_id, this]
  norm_num

end OpenSBLI.CCode
