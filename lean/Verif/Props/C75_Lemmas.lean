import Mathlib.Tactic.Ring
import Mathlib.Tactic.NormNum
import Mathlib.Tactic.Linarith
import Verif.Model.CCode
import Verif.Props.C34_C38_C39_Registries

/-!
# C75: meaning of the equations of a kernel, and lemmas on printing

The meaning of the symbolic equations (`Sym.val`, `Cond.holds`, `firstTrue`, `effect`) is stated first, without reference to printing. The property
theorems are in `C75_CCode.lean`.
-/
set_option linter.unusedSectionVars false
set_option linter.unnecessarySeqFocus false
set_option linter.unnecessarySimpa false

namespace OpenSBLI.CCode
open OpenSBLI.Reg

variable {d : ℕ} {K : Type} [Field K] [LinearOrder K] [IsStrictOrderedRing K] [FloorRing K]

/-! ## Meaning of the symbolic equations, without reference to printing -/

/-- Value of a symbolic expression. `Mod` is the mathematical modulus of SymPy, with the sign of the divisor. -/
def Sym.val (L : Lib K) (o : Outer d K) (st : Mem d K) : Sym d → K
  | .num q => (q : K)
  | .flt q => (q : K)
  | .data b off => st.data b off
  | .const c => o.const c
  | .gvar v => st.loc v
  | .glob g => o.glob g
  | .idx k => (o.idx k : K)
  | .add x y => x.val L o st + y.val L o st
  | .mul x y => x.val L o st * y.val L o st
  | .pow x y => L.pow (x.val L o st) (y.val L o st)
  | .mod x y => x.val L o st - y.val L o st * (⌊x.val L o st / y.val L o st⌋ : ℤ)
  | .max x y => Max.max (x.val L o st) (y.val L o st)
  | .fn f x => L.fn f (x.val L o st)
  | .pw r a b x y => if r.holds (a.val L o st) (b.val L o st) then x.val L o st else y.val L o st

/-- Truth of a condition. -/
def Cond.holds (L : Lib K) (o : Outer d K) (st : Mem d K) : Cond d → Bool
  | .tt => true
  | .rel r x y => decide (r.holds (x.val L o st) (y.val L o st))
  | .and c e => c.holds L o st && e.holds L o st
  | .or c e => c.holds L o st || e.holds L o st
  | .not c => !c.holds L o st

/-- Effect of equations, one after the other. -/
def assigns (L : Lib K) (o : Outer d K) : List (Assign d) → Mem d K → Mem d K
  | [], st => st
  | a :: l, st => assigns L o l (st.set a.lhs (a.rhs.val L o st))

/-- Effect of a grouped piecewise: the equations of the first pair whose condition holds. -/
def firstTrue (L : Lib K) (o : Outer d K) (bs : List (List (Assign d) × Cond d)) (st : Mem d K) : Mem d K :=
  match bs.find? fun b => b.2.holds L o st with
  | some b => assigns L o b.1 st
  | none => st

/-- Effect of the equations of a kernel at a grid point. -/
def effect (L : Lib K) (o : Outer d K) : List (Eqn d) → Mem d K → Mem d K
  | [], st => st
  | .assign a :: l, st => effect L o l (st.set a.lhs (a.rhs.val L o st))
  | .grouped bs :: l, st => effect L o l (firstTrue L o bs st)

/-- The C library computes powers as SymPy means them. -/
structure Lib.Conforms (L : Lib K) : Prop where
  one : ∀ x, L.pow x 1 = x
  neg : ∀ x (q : ℚ), L.pow x ((-q : ℚ) : K) = (L.pow x (q : K))⁻¹
  sqrt : ∀ x, L.fn "sqrt" x = L.pow x ((1 / 2 : ℚ) : K)

/-! ## When the text is faithful -/

/-- Expressions whose C text has type `int`. -/
def Sym.isInt : Sym d → Bool
  | .num q => decide (q.den = 1)
  | .idx _ => true
  | .add x y => x.isInt && y.isInt
  | .mul x y => x.isInt && y.isInt
  | .pw _ _ _ x y => x.isInt && y.isInt
  | _ => false

/-- Reciprocals of expressions whose text has type `int`. -/
def Sym.recipInt : Sym d → Bool
  | .pow x (.num q) => x.isInt && decide (q = -1)
  | _ => false

/-- What the text needs to be faithful: no `int` divided by an `int`; dividend and divisor of a modulus of the same sign; no global value inside a modulus. -/
def Sym.Faithful (L : Lib K) (o : Outer d K) (st : Mem d K) : Mode → Sym d → Prop
  | m, .glob _ => m.kernel = true
  | m, .add x y => x.Faithful L o st m ∧ y.Faithful L o st m
  | m, .mul x y => x.Faithful L o st m ∧ y.Faithful L o st m ∧ ¬ (x.isInt = true ∧ y.recipInt = true)
  | m, .pow x y => x.Faithful L o st m ∧ y.Faithful L o st m
  | _, .mod x y => x.Faithful L o st Mode.default ∧ y.Faithful L o st Mode.default ∧ 0 ≤ x.val L o st / y.val L o st
  | m, .max x y => x.Faithful L o st m ∧ y.Faithful L o st m
  | m, .fn _ x => x.Faithful L o st m
  | m, .pw _ a b x y => a.Faithful L o st m ∧ b.Faithful L o st m ∧ x.Faithful L o st m ∧ y.Faithful L o st m
  | _, _ => True

/-- The names of an expression mean what they should in C: grid variables are declared, constants are not hidden by a local variable or a pointer parameter. -/
def Sym.Scoped (decl globs : Finset String) : Sym d → Prop
  | .gvar v => v ∈ decl
  | .const c => c ∉ decl ∧ c ∉ globs
  | .add x y => x.Scoped decl globs ∧ y.Scoped decl globs
  | .mul x y => x.Scoped decl globs ∧ y.Scoped decl globs
  | .pow x y => x.Scoped decl globs ∧ y.Scoped decl globs
  | .mod x y => x.Scoped decl globs ∧ y.Scoped decl globs
  | .max x y => x.Scoped decl globs ∧ y.Scoped decl globs
  | .fn _ x => x.Scoped decl globs
  | .pw _ a b x y => a.Scoped decl globs ∧ b.Scoped decl globs ∧ x.Scoped decl globs ∧ y.Scoped decl globs
  | _ => True

/-- The generated constants of a registry have the value of what they stand for, and their names are visible. -/
def Valued (L : Lib K) (decl globs : Finset String) (o : Outer d K) (st : Mem d K) (s : Rc (Sym d)) : Prop :=
  ∀ k n, (k, n) ∈ s.existing → n ∉ decl ∧ n ∉ globs ∧ o.const n = k.val L o st

section
variable {L : Lib K} {decl globs : Finset String} {o : Outer d K} {st : Mem d K}

theorem Valued.mono {s s' : Rc (Sym d)} (h : Valued L decl globs o st s') (hp : s.existing <+: s'.existing) : Valued L decl globs o st s :=
  fun k n hm => h k n (hp.subset hm)

theorem request_prefix (s : Rc (Sym d)) (p : Prefix) (k : Sym d) :
    s.existing <+: (s.request p k).1.existing ∧ (k, (s.request p k).2) ∈ (s.request p k).1.existing := by
  unfold Rc.request
  cases hl : s.existing.lookup k with
  | some n => exact ⟨List.prefix_rfl, lookup_mem hl⟩
  | none => exact ⟨List.prefix_append .., by simp⟩

/-- Being an integer value. -/
def Val.isInt : Val K → Bool
  | .int _ => true
  | .dbl _ => false

theorem arith_int {fi : ℤ → ℤ → ℤ} {fd : K → K → K} (h : ∀ a b : ℤ, ((fi a b : ℤ) : K) = fd a b) (v w : Val K) :
    (arith fi fd v w).toK = fd v.toK w.toK ∧ (arith fi fd v w).isInt = (v.isInt && w.isInt) := by
  cases v <;> cases w <;> simp [arith, Val.toK, Val.isInt, h]

theorem arith_dbl {fi : ℤ → ℤ → ℤ} {fd : K → K → K} (v w : Val K) (h : ¬ (v.isInt = true ∧ w.isInt = true)) :
    arith fi fd v w = .dbl (fd v.toK w.toK) := by
  cases v <;> cases w <;> simp_all [arith, Val.toK, Val.isInt]

theorem printNum_prefix (m : Mode) (q : ℚ) (s : Rc (Sym d)) : s.existing <+: (printNum m q s).2.existing := by
  unfold printNum
  split
  · exact List.prefix_rfl
  · split
    · exact List.prefix_rfl
    · exact (request_prefix s .rc _).1

theorem printNum_eval (m : Mode) (q : ℚ) (s : Rc (Sym d)) (hv : Valued L decl globs o st (printNum m q s).2) :
    ∃ v, (printNum m q s).1.eval L decl globs o st = some v ∧ v.toK = (q : K) ∧ v.isInt = decide (q.den = 1) := by
  unfold printNum at hv ⊢
  by_cases h1 : q.den = 1
  · rw [if_pos h1]
    refine ⟨_, rfl, ?_, by simp [Val.isInt, h1]⟩
    simp only [Val.toK]
    conv_rhs => rw [← Rat.num_div_den q, h1]
    simp
  · rw [if_neg h1] at hv ⊢
    by_cases h2 : m.rational = true
    · rw [if_pos h2] at hv ⊢
      refine ⟨_, rfl, ?_, by simp [Val.isInt, h1, arith]⟩
      simp only [arith, Val.toK]
      rw [Rat.cast_def]; simp
    · rw [if_neg h2] at hv ⊢
      obtain ⟨a, b, c⟩ := hv _ _ (request_prefix s .rc (.num q)).2
      simp only [CExpr.eval, if_neg a, if_neg b]
      exact ⟨_, rfl, c, by simp [Val.isInt, h1]⟩

theorem printPowNum_prefix (m : Mode) (p : CExpr d) (q : ℚ) (s : Rc (Sym d)) : s.existing <+: (printPowNum m p q s).2.existing := by
  unfold printPowNum
  split
  · exact List.prefix_rfl
  · split
    · exact List.prefix_rfl
    · exact printNum_prefix m q s

theorem printPowNum_eval (hL : L.Conforms) (m : Mode) (p : CExpr d) (q : ℚ) (s : Rc (Sym d)) (v : Val K)
    (hp : p.eval L decl globs o st = some v) (hv : Valued L decl globs o st (printPowNum m p q s).2) :
    ∃ w, (printPowNum m p q s).1.eval L decl globs o st = some w ∧ w.toK = L.pow v.toK (q : K) ∧
      w.isInt = (v.isInt && decide (q = 1)) := by
  unfold printPowNum at hv ⊢
  by_cases h1 : q = 1
  · rw [if_pos h1]
    refine ⟨v, hp, ?_, by simp [h1]⟩
    rw [h1, Rat.cast_one, hL.one]
  · rw [if_neg h1] at hv ⊢
    by_cases h2 : q = 1 / 2
    · rw [if_pos h2]
      refine ⟨.dbl (L.fn "sqrt" v.toK), by simp [CExpr.eval, hp], ?_, by simp [Val.isInt, h1]⟩
      rw [h2]; exact hL.sqrt _
    · rw [if_neg h2] at hv ⊢
      obtain ⟨w, e1, e2, -⟩ := printNum_eval m q s hv
      exact ⟨.dbl (L.pow v.toK w.toK), by simp [CExpr.eval, hp, e1], by rw [← e2]; rfl, by simp [Val.isInt, h1]⟩

omit [Field K] [LinearOrder K] [IsStrictOrderedRing K] [FloorRing K] in
/-- Printing only adds generated constants. -/
theorem print_prefix (e : Sym d) (m : Mode) (s : Rc (Sym d)) :
    s.existing <+: (print m e s).1.2.existing ∧ ∀ q ∈ (print m e s).2, s.existing <+: q.2.existing := by
  induction e generalizing m s with
  | num q => exact ⟨printNum_prefix m q s, by simp [print]⟩
  | flt q => exact ⟨List.prefix_rfl, by simp [print]⟩
  | data b o => exact ⟨List.prefix_rfl, by simp [print]⟩
  | const c => exact ⟨List.prefix_rfl, by simp [print]⟩
  | gvar v => exact ⟨List.prefix_rfl, by simp [print]⟩
  | glob g => exact ⟨List.prefix_rfl, by simp [print]⟩
  | idx k => exact ⟨List.prefix_rfl, by simp [print]⟩
  | add x y hx hy => exact ⟨(hx m s).1.trans (hy m _).1, by simp [print]⟩
  | mul x y hx hy =>
    have h1 := hy m (print m x s).1.2
    simp only [print]
    cases hq : (print m y (print m x s).1.2).2 with
    | none => exact ⟨(hx m s).1.trans h1.1, by simp⟩
    | some q => exact ⟨(hx m s).1.trans (h1.2 q (by simp [hq])), by simp⟩
  | pow x y hx hy =>
    refine ⟨?_, ?_⟩
    · simp only [print]
      split
      · exact (hx m s).1
      · split
        · exact (hx m s).1
        · exact (hx m s).1.trans (hy m _).1
    · intro q hq
      simp only [print, Option.mem_def, Option.map_eq_some_iff] at hq
      obtain ⟨r, -, rfl⟩ := hq
      exact (hx m s).1.trans (printPowNum_prefix ..)
  | mod x y hx hy => exact ⟨(hx _ s).1.trans (hy _ _).1, by simp [print]⟩
  | max x y hx hy => exact ⟨(hx m s).1.trans (hy m _).1, by simp [print]⟩
  | fn f x hx => exact ⟨(hx m s).1, by simp [print]⟩
  | pw r a b x y ha hb hx hy => exact ⟨(((ha m s).1.trans (hb m _).1).trans (hx m _).1).trans (hy m _).1, by simp [print]⟩

theorem trunc_of_nonneg (x : K) (h : 0 ≤ x) : trunc x = ⌊x⌋ := if_pos h

theorem negExp_eq (y : Sym d) (q : ℚ) (h : negExp y = some q) : y = .num q ∧ q < 0 := by
  cases y with
  | num r =>
    simp only [negExp] at h
    split at h
    · cases h; exact ⟨rfl, by assumption⟩
    · cases h
  | _ => simp [negExp] at h

theorem toK_dbl (x : K) : (Val.dbl x).toK = x := rfl

theorem print_eval (hL : L.Conforms) (e : Sym d) (m : Mode) (s : Rc (Sym d)) (hf : e.Faithful L o st m) (hs : e.Scoped decl globs) :
    (Valued L decl globs o st (print m e s).1.2 →
      ∃ v, (print m e s).1.1.eval L decl globs o st = some v ∧ v.toK = e.val L o st ∧ v.isInt = e.isInt) ∧
    ∀ q ∈ (print m e s).2, Valued L decl globs o st q.2 →
      ∃ v, q.1.eval L decl globs o st = some v ∧ v.toK⁻¹ = e.val L o st ∧ v.isInt = e.recipInt := by
  induction e generalizing m s with
  | num q =>
    refine ⟨fun hv => ?_, by simp [print]⟩
    obtain ⟨v, h1, h2, h3⟩ := printNum_eval m q s hv
    exact ⟨v, h1, h2, h3⟩
  | flt q => exact ⟨fun _ => ⟨_, rfl, rfl, rfl⟩, by simp [print]⟩
  | data b off => exact ⟨fun _ => ⟨_, rfl, rfl, rfl⟩, by simp [print]⟩
  | const c =>
    refine ⟨fun _ => ?_, by simp [print]⟩
    simp only [print, CExpr.eval, if_neg hs.1, if_neg hs.2]
    exact ⟨_, rfl, rfl, rfl⟩
  | gvar v =>
    refine ⟨fun _ => ?_, by simp [print]⟩
    simp only [print, CExpr.eval, if_pos (show v ∈ decl from hs)]
    exact ⟨_, rfl, rfl, rfl⟩
  | glob g =>
    refine ⟨fun _ => ?_, by simp [print]⟩
    simp only [print, if_pos (show m.kernel = true from hf)]
    exact ⟨_, rfl, rfl, rfl⟩
  | idx k => exact ⟨fun _ => ⟨_, rfl, rfl, rfl⟩, by simp [print]⟩
  | add x y hx hy =>
    refine ⟨fun hv => ?_, by simp [print]⟩
    obtain ⟨v, a1, a2, a3⟩ := (hx m s hf.1 hs.1).1 (hv.mono (print_prefix y m _).1)
    obtain ⟨w, b1, b2, b3⟩ := (hy m _ hf.2 hs.2).1 hv
    obtain ⟨c1, c2⟩ := arith_int (K := K) (fi := (· + ·)) (fd := (· + ·)) (fun a b => by push_cast; rfl) v w
    exact ⟨_, by simp only [print, CExpr.eval, a1, b1]; rfl, by simp only [c1, a2, b2, Sym.val], by rw [c2, a3, b3]; rfl⟩
  | mul x y hx hy =>
    refine ⟨fun hv => ?_, ?_⟩
    · simp only [print] at hv ⊢
      cases hq : (print m y (print m x s).1.2).2 with
      | none =>
        simp only [hq] at hv ⊢
        obtain ⟨v, a1, a2, a3⟩ := (hx m s hf.1 hs.1).1 (hv.mono (print_prefix y m _).1)
        obtain ⟨w, b1, b2, b3⟩ := (hy m _ hf.2.1 hs.2).1 hv
        obtain ⟨c1, c2⟩ := arith_int (K := K) (fi := (· * ·)) (fd := (· * ·)) (fun a b => by push_cast; rfl) v w
        exact ⟨_, by simp only [CExpr.eval, a1, b1]; rfl, by simp only [c1, a2, b2, Sym.val], by rw [c2, a3, b3]; rfl⟩
      | some q =>
        simp only [hq] at hv ⊢
        obtain ⟨v, a1, a2, a3⟩ := (hx m s hf.1 hs.1).1 (hv.mono ((print_prefix y m _).2 q (by simp [hq])))
        obtain ⟨w, b1, b2, b3⟩ := (hy m (print m x s).1.2 hf.2.1 hs.2).2 q (by simp [hq]) hv
        have hd := arith_dbl (fi := Int.tdiv) (fd := ((· / ·) : K → K → K)) v w (by rw [a3, b3]; exact hf.2.2)
        refine ⟨_, by simp only [CExpr.eval, a1, b1]; rfl, ?_, ?_⟩
        · rw [hd]; simp only [toK_dbl, Sym.val, ← b2, ← a2, div_eq_mul_inv]
        · rw [hd]
          have hy : y.isInt = false := by
            cases y with
            | pow a b => rfl
            | mul a b =>
              exfalso
              simp only [print] at hq
              cases h : (print m b (print m a (print m x s).1.2).1.2).2 <;> simp [h] at hq
            | _ => simp [print] at hq
          simp [Val.isInt, Sym.isInt, hy]
    · intro q hq
      exfalso
      simp only [print] at hq
      cases h : (print m y (print m x s).1.2).2 <;> simp [h] at hq
  | pow x y hx hy =>
    refine ⟨fun hv => ?_, ?_⟩
    · simp only [print] at hv ⊢
      by_cases h1 : y = .num (-1)
      · rw [if_pos h1] at hv ⊢
        obtain ⟨v, a1, a2, a3⟩ := (hx m s hf.1 hs.1).1 hv
        refine ⟨_, by simp only [CExpr.eval, a1]; rfl, ?_, by rw [arith_dbl _ _ (by simp [Val.isInt])]; rfl⟩
        have := hL.neg (x.val L o st) 1
        rw [Rat.cast_one, hL.one] at this
        have h3 : Sym.val L o st (.pow x y) = (x.val L o st)⁻¹ := by rw [h1]; simpa only [Sym.val] using this
        rw [h3, arith_dbl _ _ (by simp [Val.isInt]), ← a2]
        show ((1 : ℤ) : K) / v.toK = _
        rw [Int.cast_one, one_div]
      · rw [if_neg h1] at hv ⊢
        by_cases h2 : y = .num (1 / 2)
        · rw [if_pos h2] at hv ⊢
          obtain ⟨v, a1, a2, a3⟩ := (hx m s hf.1 hs.1).1 hv
          refine ⟨_, by simp only [CExpr.eval, a1]; rfl, ?_, rfl⟩
          simp only [toK_dbl, Sym.val, h2, hL.sqrt, ← a2]
        · rw [if_neg h2] at hv ⊢
          obtain ⟨v, a1, a2, a3⟩ := (hx m s hf.1 hs.1).1 (hv.mono (print_prefix y m _).1)
          obtain ⟨w, b1, b2, b3⟩ := (hy m _ hf.2 hs.2).1 hv
          exact ⟨_, by simp only [CExpr.eval, a1, b1]; rfl, by simp only [toK_dbl, Sym.val, ← a2, ← b2], rfl⟩
    · intro q hq hv
      simp only [print, Option.mem_def, Option.map_eq_some_iff] at hq
      obtain ⟨r, hr, rfl⟩ := hq
      obtain ⟨rfl, hneg⟩ := negExp_eq y r hr
      obtain ⟨v, a1, a2, a3⟩ := (hx m s hf.1 hs.1).1 (hv.mono (printPowNum_prefix ..))
      obtain ⟨w, b1, b2, b3⟩ := printPowNum_eval hL m _ (-r) _ v a1 hv
      refine ⟨w, b1, ?_, ?_⟩
      · rw [b2, hL.neg, inv_inv, a2]; rfl
      · rw [b3, a3]
        simp only [Sym.recipInt]
        congr 1
        exact decide_eq_decide.2 (neg_eq_iff_eq_neg)
  | mod x y hx hy =>
    refine ⟨fun hv => ?_, by simp [print]⟩
    obtain ⟨v, a1, a2, a3⟩ := (hx _ s hf.1 hs.1).1 (hv.mono (print_prefix y _ _).1)
    obtain ⟨w, b1, b2, b3⟩ := (hy _ _ hf.2.1 hs.2).1 hv
    refine ⟨_, by simp only [print, CExpr.eval, a1, b1]; rfl, ?_, rfl⟩
    simp only [toK_dbl, Sym.val, a2, b2, trunc_of_nonneg _ hf.2.2]
  | max x y hx hy =>
    refine ⟨fun hv => ?_, by simp [print]⟩
    obtain ⟨v, a1, a2, a3⟩ := (hx m s hf.1 hs.1).1 (hv.mono (print_prefix y m _).1)
    obtain ⟨w, b1, b2, b3⟩ := (hy m _ hf.2 hs.2).1 hv
    exact ⟨_, by simp only [print, CExpr.eval, a1, b1]; rfl, by simp only [toK_dbl, Sym.val, a2, b2], rfl⟩
  | fn f x hx =>
    refine ⟨fun hv => ?_, by simp [print]⟩
    obtain ⟨v, a1, a2, a3⟩ := (hx m s hf hs).1 hv
    exact ⟨_, by simp only [print, CExpr.eval, a1]; rfl, by simp only [toK_dbl, Sym.val, a2], rfl⟩
  | pw r a b x y ha hb hx hy =>
    refine ⟨fun hv => ?_, by simp [print]⟩
    have hvx := hv.mono (print_prefix y m _).1
    have hvb := hvx.mono (print_prefix x m _).1
    have hva := hvb.mono (print_prefix b m _).1
    obtain ⟨v1, a1, a2, a3⟩ := (ha m s hf.1 hs.1).1 hva
    obtain ⟨v2, b1, b2, b3⟩ := (hb m _ hf.2.1 hs.2.1).1 hvb
    obtain ⟨v3, c1, c2, c3⟩ := (hx m _ hf.2.2.1 hs.2.2.1).1 hvx
    obtain ⟨v4, d1, d2, d3⟩ := (hy m _ hf.2.2.2 hs.2.2.2).1 hv
    refine ⟨_, by simp only [print, CExpr.eval, a1, b1, c1, d1]; rfl, ?_, ?_⟩
    · simp only [Sym.val, ← a2, ← b2, ← c2, ← d2]
      cases v3 <;> cases v4 <;> simp only [Val.toK] <;> split <;> simp_all [Val.toK]
    · simp only [Sym.isInt, ← c3, ← d3]
      cases v3 <;> cases v4 <;> rfl

/-! ## Replacing inverse powers by constants -/

theorem powToConst_prefix (e : Sym d) (s : Rc (Sym d)) : s.existing <+: (powToConst e s).2.existing := by
  induction e generalizing s with
  | add x y hx hy => exact (hx s).trans (hy _)
  | mul x y hx hy => exact (hx s).trans (hy _)
  | pow x y hx hy =>
    simp only [powToConst]
    split
    · exact (request_prefix ..).1
    · exact (hx s).trans (hy _)
  | mod x y hx hy => exact (hx s).trans (hy _)
  | max x y hx hy => exact (hx s).trans (hy _)
  | fn f x hx => exact hx s
  | pw r a b x y ha hb hx hy => exact (((ha s).trans (hb _)).trans (hx _)).trans (hy _)
  | _ => exact List.prefix_rfl

theorem powToConst_num (e : Sym d) (s : Rc (Sym d)) (q : ℚ) (h : (powToConst e s).1 = .num q) : e = .num q := by
  cases e with
  | pow x y =>
    simp only [powToConst] at h
    split at h <;> simp at h
  | _ => simpa [powToConst] using h

theorem powToConst_spec (e : Sym d) (s : Rc (Sym d)) (m : Mode) (hv : Valued L decl globs o st (powToConst e s).2)
    (hf : e.Faithful L o st m) (hs : e.Scoped decl globs) :
    (powToConst e s).1.val L o st = e.val L o st ∧ (powToConst e s).1.isInt = e.isInt ∧ (powToConst e s).1.recipInt = e.recipInt ∧
      (powToConst e s).1.Faithful L o st m ∧ (powToConst e s).1.Scoped decl globs := by
  induction e generalizing m s with
  | add x y hx hy =>
    obtain ⟨a1, a2, a3, a4, a5⟩ := hx s m (hv.mono (powToConst_prefix y _)) hf.1 hs.1
    obtain ⟨b1, b2, b3, b4, b5⟩ := hy _ m hv hf.2 hs.2
    refine ⟨?_, ?_, rfl, ⟨a4, b4⟩, ⟨a5, b5⟩⟩
    · simp only [powToConst, Sym.val, a1, b1]
    · simp only [powToConst, Sym.isInt, a2, b2]
  | mul x y hx hy =>
    obtain ⟨a1, a2, a3, a4, a5⟩ := hx s m (hv.mono (powToConst_prefix y _)) hf.1 hs.1
    obtain ⟨b1, b2, b3, b4, b5⟩ := hy _ m hv hf.2.1 hs.2
    refine ⟨?_, ?_, rfl, ⟨a4, b4, ?_⟩, ⟨a5, b5⟩⟩
    · simp only [powToConst, Sym.val, a1, b1]
    · simp only [powToConst, Sym.isInt, a2, b2]
    · rw [a2, b3]; exact hf.2.2
  | pow x y hx hy =>
    simp only [powToConst] at hv ⊢
    split at hv
    · rename_i hc
      rw [if_pos hc]
      obtain ⟨c1, c2, c3⟩ := hv _ _ (request_prefix ..).2
      refine ⟨c3, rfl, ?_, trivial, ⟨c1, c2⟩⟩
      rcases hc with hc | ⟨hc, -⟩
      · rw [invGammaMinusOne] at hc
        rw [hc]; rfl
      · cases x <;> simp [isConst] at hc
        cases y <;> simp [Sym.recipInt, Sym.isInt]
    · rename_i hc
      rw [if_neg hc]
      obtain ⟨a1, a2, a3, a4, a5⟩ := hx s m (hv.mono (powToConst_prefix y _)) hf.1 hs.1
      obtain ⟨b1, b2, b3, b4, b5⟩ := hy _ m hv hf.2 hs.2
      refine ⟨?_, rfl, ?_, ⟨a4, b4⟩, ⟨a5, b5⟩⟩
      · simp only [Sym.val, a1, b1]
      · cases hn : (powToConst y (powToConst x s).2).1 with
        | num q =>
          rw [powToConst_num _ _ _ hn]
          simp only [Sym.recipInt, a2]
        | _ =>
          cases y with
          | num q => simp [powToConst] at hn
          | _ => rfl
  | mod x y hx hy =>
    obtain ⟨a1, a2, a3, a4, a5⟩ := hx s Mode.default (hv.mono (powToConst_prefix y _)) hf.1 hs.1
    obtain ⟨b1, b2, b3, b4, b5⟩ := hy _ Mode.default hv hf.2.1 hs.2
    refine ⟨?_, rfl, rfl, ⟨a4, b4, ?_⟩, ⟨a5, b5⟩⟩
    · simp only [powToConst, Sym.val, a1, b1]
    · rw [a1, b1]; exact hf.2.2
  | max x y hx hy =>
    obtain ⟨a1, a2, a3, a4, a5⟩ := hx s m (hv.mono (powToConst_prefix y _)) hf.1 hs.1
    obtain ⟨b1, b2, b3, b4, b5⟩ := hy _ m hv hf.2 hs.2
    refine ⟨?_, rfl, rfl, ⟨a4, b4⟩, ⟨a5, b5⟩⟩
    simp only [powToConst, Sym.val, a1, b1]
  | fn f x hx =>
    obtain ⟨a1, a2, a3, a4, a5⟩ := hx s m hv hf hs
    refine ⟨?_, rfl, rfl, a4, a5⟩
    simp only [powToConst, Sym.val, a1]
  | pw r a b x y ha hb hx hy =>
    have hvx := hv.mono (powToConst_prefix y _)
    have hvb := hvx.mono (powToConst_prefix x _)
    have hva := hvb.mono (powToConst_prefix b _)
    obtain ⟨a1, a2, a3, a4, a5⟩ := ha s m hva hf.1 hs.1
    obtain ⟨b1, b2, b3, b4, b5⟩ := hb _ m hvb hf.2.1 hs.2.1
    obtain ⟨c1, c2, c3, c4, c5⟩ := hx _ m hvx hf.2.2.1 hs.2.2.1
    obtain ⟨d1, d2, d3, d4, d5⟩ := hy _ m hv hf.2.2.2 hs.2.2.2
    refine ⟨?_, ?_, rfl, ⟨a4, b4, c4, d4⟩, ⟨a5, b5, c5, d5⟩⟩
    · simp only [powToConst, Sym.val, a1, b1, c1, d1]
    · simp only [powToConst, Sym.isInt, c2, d2]
  | _ => exact ⟨rfl, rfl, rfl, hf, hs⟩

/-! ## Statements -/

theorem printAssign_prefix (a : Assign d) (s : Rc (Sym d)) : s.existing <+: (printAssign a s).2.existing :=
  (powToConst_prefix ..).trans (print_prefix ..).1

theorem printAssigns_prefix (l : List (Assign d)) (s : Rc (Sym d)) : s.existing <+: (printAssigns l s).2.existing := by
  induction l generalizing s with
  | nil => exact List.prefix_rfl
  | cons a l ih => exact (printAssign_prefix a s).trans (ih _)

theorem printInner_prefix (c : Cond d) (s : Rc (Sym d)) : s.existing <+: (printInner c s).2.existing := by
  induction c generalizing s with
  | tt => exact List.prefix_rfl
  | rel r x y => exact (print_prefix ..).1.trans (print_prefix ..).1
  | and c e hc he => exact (hc s).trans (he _)
  | or c e hc he => exact (hc s).trans (he _)
  | not c hc => exact hc s

theorem printCond_prefix (c : Cond d) (s : Rc (Sym d)) : s.existing <+: (printCond c s).2.existing := by
  unfold printCond
  split
  · exact (((powToConst_prefix ..).trans (powToConst_prefix ..)).trans (print_prefix ..).1).trans (print_prefix ..).1
  · exact printInner_prefix ..

theorem printRest_prefix (bs : List (List (Assign d) × Cond d)) (s : Rc (Sym d)) : s.existing <+: (printRest bs s).2.existing := by
  induction bs generalizing s with
  | nil => exact List.prefix_rfl
  | cons b bs ih =>
    obtain ⟨eqs, c⟩ := b
    unfold printRest
    split
    · exact List.prefix_rfl
    · rename_i h
      obtain ⟨h1, h2⟩ := List.cons.inj h
      cases h1; subst h2
      exact (printAssigns_prefix ..).trans (ih _)
    · rename_i h
      obtain ⟨h1, h2⟩ := List.cons.inj h
      cases h1; subst h2
      exact ((printCond_prefix ..).trans (printAssigns_prefix ..)).trans (ih _)

theorem printGrouped_prefix (bs : List (List (Assign d) × Cond d)) (s : Rc (Sym d)) : s.existing <+: (printGrouped bs s).2.existing := by
  cases bs with
  | nil => exact List.prefix_rfl
  | cons b bs => exact ((printCond_prefix ..).trans (printAssigns_prefix ..)).trans (printRest_prefix ..)

theorem printBody_prefix (eqs : List (Eqn d)) (s : Rc (Sym d)) : s.existing <+: (printBody eqs s).2.existing := by
  induction eqs generalizing s with
  | nil => exact List.prefix_rfl
  | cons e l ih =>
    cases e with
    | assign a => exact (printAssign_prefix ..).trans (ih _)
    | grouped bs => exact (printGrouped_prefix ..).trans (ih _)

/-- An expression of a kernel is faithful in every memory and its names are visible. -/
def Sym.Fine (L : Lib K) (decl globs : Finset String) (o : Outer d K) (e : Sym d) : Prop :=
  (∀ st, e.Faithful L o st Mode.inKernel) ∧ e.Scoped decl globs

def Cond.Fine (L : Lib K) (decl globs : Finset String) (o : Outer d K) : Cond d → Prop
  | .tt => True
  | .rel _ x y => x.Fine L decl globs o ∧ y.Fine L decl globs o
  | .and c e => c.Fine L decl globs o ∧ e.Fine L decl globs o
  | .or c e => c.Fine L decl globs o ∧ e.Fine L decl globs o
  | .not c => c.Fine L decl globs o

/-- The condition is not an equality. -/
def Cond.NotEquality : Cond d → Prop
  | .rel .eq _ _ => False
  | _ => True

theorem printAssign_run (hL : L.Conforms) (a : Assign d) (s : Rc (Sym d)) (hf : a.rhs.Fine L decl globs o)
    (hv : Valued L decl globs o st (printAssign a s).2) :
    (printAssign a s).1.run L decl globs o st = some (st.set a.lhs (a.rhs.val L o st)) := by
  obtain ⟨b1, -, -, b4, b5⟩ := powToConst_spec a.rhs s Mode.inKernel (hv.mono (print_prefix ..).1) (hf.1 st) hf.2
  obtain ⟨v, c1, c2, -⟩ := (print_eval hL _ Mode.inKernel (powToConst a.rhs s).2 b4 b5).1 hv
  simp only [printAssign, CAssign.run, c1, ← b1, ← c2]
  rfl

theorem printAssigns_run (hL : L.Conforms) (l : List (Assign d)) (s : Rc (Sym d)) (hf : ∀ a ∈ l, a.rhs.Fine L decl globs o)
    (hv : ∀ st, Valued L decl globs o st (printAssigns l s).2) (st : Mem d K) :
    runAssigns L decl globs o (printAssigns l s).1 st = some (assigns L o l st) := by
  induction l generalizing s st with
  | nil => rfl
  | cons a l ih =>
    have h1 := printAssign_run hL a s (hf a (List.mem_cons_self ..)) ((hv st).mono (printAssigns_prefix ..))
    have h2 := ih (printAssign a s).2 (fun b hb => hf b (List.mem_cons_of_mem _ hb)) hv (st.set a.lhs (a.rhs.val L o st))
    simp only [printAssigns, runAssigns, h1]
    exact h2

theorem printInner_run (hL : L.Conforms) (c : Cond d) (s : Rc (Sym d)) (hf : c.Fine L decl globs o)
    (hv : Valued L decl globs o st (printInner c s).2) :
    (printInner c s).1.run L decl globs o st = some (c.holds L o st, st) := by
  induction c generalizing s with
  | tt => rfl
  | rel r x y =>
    obtain ⟨v, a1, a2, -⟩ := (print_eval hL x Mode.inKernel s (hf.1.1 st) hf.1.2).1 (hv.mono (print_prefix ..).1)
    obtain ⟨w, b1, b2, -⟩ := (print_eval hL y Mode.inKernel (print Mode.inKernel x s).1.2 (hf.2.1 st) hf.2.2).1 hv
    simp only [printInner, CCond.run, a1, b1, Cond.holds, ← a2, ← b2]
    rfl
  | and c e hc he =>
    have h1 := hc s hf.1 (hv.mono (printInner_prefix ..))
    have h2 := he _ hf.2 hv
    simp only [printInner, CCond.run, h1, Option.bind_eq_bind, Option.bind_some, h2, Cond.holds]
    cases c.holds L o st <;> simp
  | or c e hc he =>
    have h1 := hc s hf.1 (hv.mono (printInner_prefix ..))
    have h2 := he _ hf.2 hv
    simp only [printInner, CCond.run, h1, Option.bind_eq_bind, Option.bind_some, h2, Cond.holds]
    cases c.holds L o st <;> simp
  | not c hc =>
    have h1 := hc s hf hv
    simp only [printInner, CCond.run, h1, Option.bind_eq_bind, Option.bind_some, Cond.holds]

theorem printCond_run (hL : L.Conforms) (c : Cond d) (s : Rc (Sym d)) (hf : c.Fine L decl globs o) (hne : c.NotEquality)
    (hv : Valued L decl globs o st (printCond c s).2) :
    (printCond c s).1.run L decl globs o st = some (c.holds L o st, st) := by
  have h : printCond c s = printInner c s := by
    unfold printCond
    split
    · simp [Cond.NotEquality] at hne
    · rfl
  rw [h] at hv ⊢
  exact printInner_run hL c s hf hv

/-- A list of lines that does not begin in the middle of a chain. -/
def Fresh : List (Line d) → Prop
  | .elifL _ _ :: _ => False
  | .elseL _ :: _ => False
  | _ => True

theorem runLines_fresh (c : Chain) (l : List (Line d)) (h : Fresh l) (st : Mem d K) :
    runLines L decl globs o c l st = runLines L decl globs o .out l st := by
  cases l with
  | nil => cases c <;> rfl
  | cons x l => cases x <;> first | (cases c <;> rfl) | exact absurd h (by simp [Fresh])

theorem fresh_printBody (eqs : List (Eqn d)) (hne : ∀ bs, Eqn.grouped bs ∈ eqs → bs ≠ []) (s : Rc (Sym d)) : Fresh (printBody eqs s).1 := by
  cases eqs with
  | nil => trivial
  | cons e l =>
    cases e with
    | assign a => trivial
    | grouped bs =>
      cases bs with
      | nil => exact absurd rfl (hne [] (List.mem_cons_self ..))
      | cons b bs => trivial

/-- `True` is the condition of the last pair only, as `Piecewise` ensures. -/
def TrueLast (bs : List (List (Assign d) × Cond d)) : Prop := ∀ b ∈ bs.dropLast, b.2 ≠ .tt

theorem printRest_cons (eqs : List (Assign d)) (c : Cond d) (hc : c ≠ .tt) (l : List (List (Assign d) × Cond d)) (s : Rc (Sym d)) :
    printRest ((eqs, c) :: l) s =
      (.elifL (printCond c s).1 (printAssigns eqs (printCond c s).2).1 ::
        (printRest l (printAssigns eqs (printCond c s).2).2).1, (printRest l (printAssigns eqs (printCond c s).2).2).2) := by
  cases c with
  | tt => exact absurd rfl hc
  | _ => rfl

theorem run_taken (bs : List (List (Assign d) × Cond d)) (s : Rc (Sym d)) (hl : TrueLast bs) (rest : List (Line d)) (hr : Fresh rest)
    (st : Mem d K) :
    runLines L decl globs o .taken ((printRest bs s).1 ++ rest) st = runLines L decl globs o .out rest st := by
  induction bs generalizing s with
  | nil => exact runLines_fresh _ rest hr st
  | cons b bs ih =>
    obtain ⟨eqs, c⟩ := b
    by_cases hc : c = .tt
    · subst hc
      cases bs with
      | nil => simp [printRest, runLines]
      | cons b' bs => exact absurd rfl (hl (eqs, .tt) (by simp))
    · rw [printRest_cons _ _ hc]
      simp only [List.cons_append, runLines]
      refine ih _ ?_
      cases bs with
      | nil => intro b hb; simp at hb
      | cons b' bs => exact fun b hb => hl b (by simp only [List.dropLast_cons_cons]; exact List.mem_cons_of_mem _ hb)

/-- The pairs of a grouped piecewise can be printed faithfully. -/
def BranchesFine (L : Lib K) (decl globs : Finset String) (o : Outer d K) (bs : List (List (Assign d) × Cond d)) : Prop :=
  ∀ b ∈ bs, (∀ a ∈ b.1, a.rhs.Fine L decl globs o) ∧ b.2.Fine L decl globs o ∧ b.2.NotEquality

theorem run_pending (hL : L.Conforms) (bs : List (List (Assign d) × Cond d)) (s : Rc (Sym d)) (hl : TrueLast bs)
    (hf : BranchesFine L decl globs o bs) (hv : ∀ st, Valued L decl globs o st (printRest bs s).2)
    (rest : List (Line d)) (hr : Fresh rest) (st : Mem d K) :
    runLines L decl globs o .pending ((printRest bs s).1 ++ rest) st = runLines L decl globs o .out rest (firstTrue L o bs st) := by
  induction bs generalizing s with
  | nil => exact runLines_fresh _ rest hr st
  | cons b bs ih =>
    obtain ⟨eqs, c⟩ := b
    obtain ⟨f1, f2, f3⟩ := hf (eqs, c) (List.mem_cons_self ..)
    by_cases hc : c = .tt
    · subst hc
      cases bs with
      | nil =>
        have h1 := printAssigns_run hL eqs s f1 hv st
        simp [printRest, runLines, h1, firstTrue, Cond.holds]
      | cons b' bs => exact absurd rfl (hl (eqs, .tt) (by simp))
    · rw [printRest_cons _ _ hc] at hv ⊢
      have hv1 : ∀ st, Valued L decl globs o st (printAssigns eqs (printCond c s).2).2 := fun st => (hv st).mono (printRest_prefix ..)
      have h1 := printCond_run hL c s f2 f3 ((hv1 st).mono (printAssigns_prefix ..))
      have h2 := printAssigns_run hL eqs (printCond c s).2 f1 hv1 st
      have hl' : TrueLast bs := by
        cases bs with
        | nil => intro b hb; simp at hb
        | cons b' bs => exact fun b hb => hl b (by simp only [List.dropLast_cons_cons]; exact List.mem_cons_of_mem _ hb)
      have h3 := ih (printAssigns eqs (printCond c s).2).2 hl' (fun b hb => hf b (List.mem_cons_of_mem _ hb)) hv
      simp only [List.cons_append, runLines, h1, Option.bind_eq_bind, Option.bind_some]
      cases hh : c.holds L o st with
      | true =>
        simp only [if_true, h2, Option.bind_some, run_taken _ _ hl' rest hr, firstTrue, List.find?_cons, hh]
      | false =>
        simp only [Bool.false_eq_true, if_false, h3, firstTrue, List.find?_cons, hh]

/-- The entries of a kernel can be printed faithfully. -/
def Eqn.Fine (L : Lib K) (decl globs : Finset String) (o : Outer d K) : Eqn d → Prop
  | .assign a => a.rhs.Fine L decl globs o
  | .grouped bs => bs ≠ [] ∧ TrueLast bs ∧ BranchesFine L decl globs o bs

theorem runBody (hL : L.Conforms) (eqs : List (Eqn d)) (s : Rc (Sym d)) (hf : ∀ e ∈ eqs, e.Fine L decl globs o)
    (hv : ∀ st, Valued L decl globs o st (printBody eqs s).2) (st : Mem d K) :
    runLines L decl globs o .out (printBody eqs s).1 st = some (effect L o eqs st) := by
  induction eqs generalizing s st with
  | nil => rfl
  | cons e l ih =>
    have hf' : ∀ e ∈ l, e.Fine L decl globs o := fun e he => hf e (List.mem_cons_of_mem _ he)
    cases e with
    | assign a =>
      have h1 := printAssign_run hL a s (hf _ (List.mem_cons_self ..)) ((hv st).mono (printBody_prefix ..))
      have h2 := ih (printAssign a s).2 hf' hv (st.set a.lhs (a.rhs.val L o st))
      simp only [printBody, runLines, h1]
      exact h2
    | grouped bs =>
      obtain ⟨g1, g2, g3⟩ := hf _ (List.mem_cons_self ..)
      have hfr : ∀ s, Fresh (printBody l s).1 := fresh_printBody l fun bs hb => (hf' _ hb).1
      cases bs with
      | nil => exact absurd rfl g1
      | cons b bs =>
        obtain ⟨eqs, c⟩ := b
        obtain ⟨f1, f2, f3⟩ := g3 (eqs, c) (List.mem_cons_self ..)
        set s1 := (printCond c s).2 with hs1
        set s2 := (printAssigns eqs s1).2 with hs2
        set s3 := (printRest bs s2).2 with hs3
        have hv3 : ∀ st, Valued L decl globs o st s3 := fun st => (hv st).mono (printBody_prefix ..)
        have hv2 : ∀ st, Valued L decl globs o st s2 := fun st => (hv3 st).mono (printRest_prefix ..)
        have h1 := printCond_run hL c s f2 f3 ((hv2 st).mono (printAssigns_prefix ..))
        have h2 := printAssigns_run hL eqs s1 f1 hv2 st
        have hl' : TrueLast bs := by
          cases bs with
          | nil => intro b hb; simp at hb
          | cons b' bs => exact fun b hb => g2 b (by simp only [List.dropLast_cons_cons]; exact List.mem_cons_of_mem _ hb)
        have h4 := run_pending hL bs s2 hl' (fun b hb => g3 b (List.mem_cons_of_mem _ hb)) hv3 (printBody l s3).1 (hfr _) st
        have h5 := ih s3 hf' hv
        simp only [printBody, printGrouped, List.cons_append, runLines, h1, Option.bind_eq_bind, Option.bind_some]
        rw [← hs1, ← hs2, ← hs3]
        cases hh : c.holds L o st with
        | true =>
          simp only [if_true, h2, Option.bind_some, run_taken _ _ hl' _ (hfr _), h5, effect, firstTrue, List.find?_cons, hh]
        | false =>
          simp only [Bool.false_eq_true, if_false, h4, h5, effect, firstTrue, List.find?_cons, hh]

end
end OpenSBLI.CCode
