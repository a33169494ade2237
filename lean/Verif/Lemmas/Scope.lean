import Verif.Spec.Scope
import Mathlib.Data.List.Dedup
import Mathlib.Data.List.Nodup

/-! # Helper lemmas on the names in printed kernels -/
namespace OpenSBLI.Prog
open OpenSBLI.Reg OpenSBLI.CCode OpenSBLI.Alg

variable {d : ℕ}

/-! ## The registry of constants -/

/-- Names of the registered constants. -/
def names (s : Rc (Sym d)) : List String := s.constants.map Const.name

/-- Every generated constant is registered. -/
def Inv (s : Rc (Sym d)) : Prop := ∀ p ∈ s.existing, p.2 ∈ names s

/-- A later state of the registry. -/
structure Grows (s s' : Rc (Sym d)) : Prop where
  inv : Inv s → Inv s'
  sub : ∃ l, s'.constants = s.constants ++ l

theorem Grows.refl (s : Rc (Sym d)) : Grows s s := ⟨id, [], by simp⟩

theorem Grows.trans {s s' s'' : Rc (Sym d)} (h : Grows s s') (h' : Grows s' s'') : Grows s s'' := by
  obtain ⟨l, hl⟩ := h.sub
  obtain ⟨l', hl'⟩ := h'.sub
  exact ⟨fun i => h'.inv (h.inv i), l ++ l', by rw [hl', hl, List.append_assoc]⟩

theorem Grows.names {s s' : Rc (Sym d)} (h : Grows s s') (n : String) (hn : n ∈ names s) : n ∈ names s' := by
  obtain ⟨l, hl⟩ := h.sub
  rw [Prog.names, hl, List.map_append]
  exact List.mem_append_left _ hn

theorem addConstant_mem (l : List (Const (Sym d))) (c : Const (Sym d)) :
    (∃ l', addConstant l c = l ++ l') ∧ c.name ∈ (addConstant l c).map Const.name := by
  unfold addConstant
  split
  · exact ⟨⟨[], by simp⟩, by assumption⟩
  · exact ⟨⟨[c], rfl⟩, by simp⟩

theorem mem_of_lookup {A B : Type} [BEq A] [LawfulBEq A] (l : List (A × B)) (a : A) (b : B) (h : l.lookup a = some b) : (a, b) ∈ l := by
  induction l with
  | nil => cases h
  | cons x l ih =>
    obtain ⟨u, v⟩ := x
    rw [List.lookup_cons] at h
    split at h
    · cases h
      rename_i hb
      have : a = u := by simpa using hb
      subst this
      simp
    · exact List.mem_cons_of_mem _ (ih h)

theorem request_grows (s : Rc (Sym d)) (p : Prefix) (k : Sym d) : Grows s (s.request p k).1 ∧ (Inv s → (s.request p k).2 ∈ names (s.request p k).1) := by
  unfold Rc.request
  split
  · rename_i n hn
    exact ⟨.refl s, fun h => h _ (mem_of_lookup _ _ _ hn)⟩
  · obtain ⟨⟨l, hl⟩, hm⟩ := addConstant_mem s.constants ⟨p.str ++ toString s.counter, some k⟩
    refine ⟨⟨?_, l, hl⟩, fun _ => hm⟩
    intro h q hq
    rcases List.mem_append.1 hq with hq | hq
    · have := h q hq
      change q.2 ∈ (addConstant s.constants ⟨p.str ++ toString s.counter, some k⟩).map Const.name
      rw [hl, List.map_append]
      exact List.mem_append_left _ this
    · rw [List.mem_singleton] at hq
      subst hq
      exact hm

/-! ## Names in printed text -/

/-- Occurrences of values satisfying `V` and of parameters satisfying `P` only. -/
def Fine (V P : String → Prop) (l : List Stmt) : Prop := ∀ s ∈ l, (∃ n, s = .use n .value ∧ V n) ∨ ∃ n, s = .use n .param ∧ P n

theorem Fine.nil (V P : String → Prop) : Fine V P [] := by simp [Fine]

theorem Fine.append {V P : String → Prop} {a b : List Stmt} (ha : Fine V P a) (hb : Fine V P b) : Fine V P (a ++ b) := by
  intro s hs
  rcases List.mem_append.1 hs with h | h
  · exact ha s h
  · exact hb s h

theorem Fine.value {V P : String → Prop} {n : String} (h : V n) : Fine V P [.use n .value] := by
  intro s hs
  rw [List.mem_singleton] at hs
  exact .inl ⟨n, hs, h⟩

theorem Fine.param {V P : String → Prop} {n : String} (h : P n) : Fine V P [.use n .param] := by
  intro s hs
  rw [List.mem_singleton] at hs
  exact .inr ⟨n, hs, h⟩

/-- The names of an expression are allowed: no globals, constants and grid variables in `V`, arrays and the grid index in `P`. -/
structure NamesIn (V P : String → Prop) (e : Sym d) : Prop where
  globs : symGlobs e = []
  consts : ∀ c ∈ symConsts e, V c
  gvars : ∀ c ∈ symGvars e, V c
  data : ∀ c ∈ symData e, P c.1
  idx : symIdx e = true → P "idx"

theorem NamesIn.split {V P : String → Prop} {e x y : Sym d} (h : NamesIn V P e) (hg : symGlobs e = symGlobs x ++ symGlobs y)
    (hc : symConsts e = symConsts x ++ symConsts y) (hv : symGvars e = symGvars x ++ symGvars y) (hd : symData e = symData x ++ symData y)
    (hi : symIdx e = (symIdx x || symIdx y)) : NamesIn V P x ∧ NamesIn V P y := by
  have g := h.globs
  rw [hg, List.append_eq_nil_iff] at g
  refine ⟨⟨g.1, fun c hc' => h.consts c (by rw [hc]; exact List.mem_append_left _ hc'), fun c hc' => h.gvars c (by rw [hv]; exact List.mem_append_left _ hc'),
    fun c hc' => h.data c (by rw [hd]; exact List.mem_append_left _ hc'), fun hx => h.idx (by rw [hi, hx]; rfl)⟩,
    ⟨g.2, fun c hc' => h.consts c (by rw [hc]; exact List.mem_append_right _ hc'), fun c hc' => h.gvars c (by rw [hv]; exact List.mem_append_right _ hc'),
    fun c hc' => h.data c (by rw [hd]; exact List.mem_append_right _ hc'), fun hx => h.idx (by rw [hi, hx]; simp)⟩⟩

theorem NamesIn.join {V P : String → Prop} {e x y : Sym d} (hx : NamesIn V P x) (hy : NamesIn V P y) (hg : symGlobs e = symGlobs x ++ symGlobs y)
    (hc : symConsts e = symConsts x ++ symConsts y) (hv : symGvars e = symGvars x ++ symGvars y) (hd : symData e = symData x ++ symData y)
    (hi : symIdx e = (symIdx x || symIdx y)) : NamesIn V P e := by
  refine ⟨by rw [hg, hx.globs, hy.globs]; rfl, ?_, ?_, ?_, ?_⟩
  · intro c h; rw [hc] at h; exact (List.mem_append.1 h).elim (hx.consts c) (hy.consts c)
  · intro c h; rw [hv] at h; exact (List.mem_append.1 h).elim (hx.gvars c) (hy.gvars c)
  · intro c h; rw [hd] at h; exact (List.mem_append.1 h).elim (hx.data c) (hy.data c)
  · intro h; rw [hi, Bool.or_eq_true] at h; exact h.elim hx.idx hy.idx

/-- What is shown for a printed piece of text and the registry after it. -/
def Prints (V P : String → Prop) (s : Rc (Sym d)) (t : List Stmt) (s' : Rc (Sym d)) : Prop :=
  Grows s s' ∧ (Inv s → (∀ n ∈ names s', V n) → Fine V P t)

theorem Prints.seq {V P : String → Prop} {s s' s'' : Rc (Sym d)} {a b : List Stmt} (ha : Prints V P s a s') (hb : Prints V P s' b s'') :
    Prints V P s (a ++ b) s'' :=
  ⟨ha.1.trans hb.1, fun i hv => (ha.2 i fun n hn => hv n (hb.1.names n hn)).append (hb.2 (ha.1.inv i) hv)⟩

theorem Prints.nil (V P : String → Prop) (s : Rc (Sym d)) : Prints V P s [] s := ⟨.refl s, fun _ _ => .nil V P⟩

theorem printNum_prints (V P : String → Prop) (m : Mode) (q : ℚ) (s : Rc (Sym d)) :
    Prints V P s (exprUses (printNum m q s).1) (printNum m q s).2 := by
  unfold printNum
  split
  · exact .nil V P s
  · split
    · exact .nil V P s
    · have h := request_grows s .rc (.num q)
      exact ⟨h.1, fun i hv => .value (hv _ (h.2 i))⟩

theorem printPowNum_prints (V P : String → Prop) (m : Mode) (p : CExpr d) (q : ℚ) (s0 s : Rc (Sym d)) (h : Prints V P s0 (exprUses p) s) :
    Prints V P s0 (exprUses (printPowNum m p q s).1) (printPowNum m p q s).2 := by
  unfold printPowNum
  split
  · exact h
  · split
    · exact h
    · exact h.seq (printNum_prints V P m q s)

theorem print_prints (V P : String → Prop) (e : Sym d) (m : Mode) (s : Rc (Sym d)) (h : NamesIn V P e) :
    Prints V P s (exprUses (print m e s).1.1) (print m e s).1.2 ∧
      ∀ q ∈ (print m e s).2, Prints V P s (exprUses q.1) q.2 := by
  induction e generalizing m s with
  | num q => exact ⟨printNum_prints V P m q s, by simp [print]⟩
  | flt q => exact ⟨⟨.refl s, fun _ _ => by simp [print, exprUses, Fine]⟩, by simp [print]⟩
  | data b o => exact ⟨⟨.refl s, fun _ _ => .param (h.data (b, o) (by simp [symData]))⟩, by simp [print]⟩
  | const c => exact ⟨⟨.refl s, fun _ _ => .value (h.consts c (by simp [symConsts]))⟩, by simp [print]⟩
  | gvar v => exact ⟨⟨.refl s, fun _ _ => .value (h.gvars v (by simp [symGvars]))⟩, by simp [print]⟩
  | glob g => have := h.globs; simp [symGlobs] at this
  | idx k => exact ⟨⟨.refl s, fun _ _ => .param (h.idx rfl)⟩, by simp [print]⟩
  | add x y hx hy =>
    obtain ⟨h1, h2⟩ := h.split rfl rfl rfl rfl rfl
    exact ⟨(hx m s h1).1.seq (hy m _ h2).1, by simp [print]⟩
  | mul x y hx hy =>
    obtain ⟨h1, h2⟩ := h.split rfl rfl rfl rfl rfl
    have a := (hx m s h1).1
    have b := hy m (print m x s).1.2 h2
    simp only [print]
    cases hq : (print m y (print m x s).1.2).2 with
    | none => exact ⟨a.seq b.1, by simp⟩
    | some q => exact ⟨a.seq (b.2 q (by simp [hq])), by simp⟩
  | pow x y hx hy =>
    obtain ⟨h1, h2⟩ := h.split rfl rfl rfl rfl rfl
    have a := (hx m s h1).1
    refine ⟨?_, ?_⟩
    · simp only [print]
      split
      · simpa [exprUses] using a
      · split
        · exact a
        · exact a.seq (hy m _ h2).1
    · intro q hq
      simp only [print, Option.mem_def, Option.map_eq_some_iff] at hq
      obtain ⟨r, _, rfl⟩ := hq
      exact printPowNum_prints V P m _ _ _ _ a
  | mod x y hx hy =>
    obtain ⟨h1, h2⟩ := h.split rfl rfl rfl rfl rfl
    exact ⟨(hx .default s h1).1.seq (hy .default _ h2).1, by simp [print]⟩
  | max x y hx hy =>
    obtain ⟨h1, h2⟩ := h.split rfl rfl rfl rfl rfl
    exact ⟨(hx m s h1).1.seq (hy m _ h2).1, by simp [print]⟩
  | fn f x hx => exact ⟨(hx m s ⟨h.globs, h.consts, h.gvars, h.data, h.idx⟩).1, by simp [print]⟩
  | pw r a b x y ha hb hx hy =>
    obtain ⟨h1, h2⟩ := h.split (x := .add a b) (y := .add x y) rfl rfl rfl rfl rfl
    obtain ⟨ha', hb'⟩ := h1.split rfl rfl rfl rfl rfl
    obtain ⟨hx', hy'⟩ := h2.split rfl rfl rfl rfl rfl
    refine ⟨?_, by simp [print]⟩
    have h1 := ((ha m s ha').1.seq (hb m _ hb').1).seq ((hx m _ hx').1.seq (hy m _ hy').1)
    exact h1

/-- `pow_to_constant` introduces registered constants only. -/
theorem powToConst_names (V P : String → Prop) (e : Sym d) (s : Rc (Sym d)) (h : NamesIn V P e) :
    Grows s (powToConst e s).2 ∧ (Inv s → (∀ n ∈ names (powToConst e s).2, V n) → NamesIn V P (powToConst e s).1) := by
  have two : ∀ (x y : Sym d) (s : Rc (Sym d)), 
      (∀ s, Grows s (powToConst x s).2 ∧ (Inv s → (∀ n ∈ names (powToConst x s).2, V n) → NamesIn V P (powToConst x s).1)) →
      (∀ s, Grows s (powToConst y s).2 ∧ (Inv s → (∀ n ∈ names (powToConst y s).2, V n) → NamesIn V P (powToConst y s).1)) →
      Grows s (powToConst y (powToConst x s).2).2 ∧ (Inv s → (∀ n ∈ names (powToConst y (powToConst x s).2).2, V n) →
        NamesIn V P (powToConst x s).1 ∧ NamesIn V P (powToConst y (powToConst x s).2).1) := by
    intro x y s hx hy
    refine ⟨(hx s).1.trans (hy _).1, fun i hv => ⟨(hx s).2 i fun n hn => hv n ((hy _).1.names n hn), (hy _).2 ((hx s).1.inv i) hv⟩⟩
  induction e generalizing s with
  | add x y hx hy =>
    obtain ⟨h1, h2⟩ := h.split rfl rfl rfl rfl rfl
    obtain ⟨g, k⟩ := two x y s (fun s => hx s h1) (fun s => hy s h2)
    exact ⟨g, fun i hv => .join (k i hv).1 (k i hv).2 rfl rfl rfl rfl rfl⟩
  | mul x y hx hy =>
    obtain ⟨h1, h2⟩ := h.split rfl rfl rfl rfl rfl
    obtain ⟨g, k⟩ := two x y s (fun s => hx s h1) (fun s => hy s h2)
    exact ⟨g, fun i hv => .join (k i hv).1 (k i hv).2 rfl rfl rfl rfl rfl⟩
  | pow x y hx hy =>
    obtain ⟨h1, h2⟩ := h.split rfl rfl rfl rfl rfl
    obtain ⟨g, k⟩ := two x y s (fun s => hx s h1) (fun s => hy s h2)
    simp only [powToConst]
    split
    · have r := request_grows s .rcinv (.pow x y)
      refine ⟨r.1, fun i hv => ⟨rfl, ?_, by simp [symGvars], by simp [symData], by simp [symIdx]⟩⟩
      intro c hc
      simp only [symConsts, List.mem_singleton] at hc
      subst hc
      exact hv _ (r.2 i)
    · exact ⟨g, fun i hv => .join (k i hv).1 (k i hv).2 rfl rfl rfl rfl rfl⟩
  | mod x y hx hy =>
    obtain ⟨h1, h2⟩ := h.split rfl rfl rfl rfl rfl
    obtain ⟨g, k⟩ := two x y s (fun s => hx s h1) (fun s => hy s h2)
    exact ⟨g, fun i hv => .join (k i hv).1 (k i hv).2 rfl rfl rfl rfl rfl⟩
  | max x y hx hy =>
    obtain ⟨h1, h2⟩ := h.split rfl rfl rfl rfl rfl
    obtain ⟨g, k⟩ := two x y s (fun s => hx s h1) (fun s => hy s h2)
    exact ⟨g, fun i hv => .join (k i hv).1 (k i hv).2 rfl rfl rfl rfl rfl⟩
  | fn f x hx =>
    obtain ⟨g, k⟩ := hx s ⟨h.globs, h.consts, h.gvars, h.data, h.idx⟩
    exact ⟨g, fun i hv => let r := k i hv; ⟨r.globs, r.consts, r.gvars, r.data, r.idx⟩⟩
  | pw r a b x y ha hb hx hy =>
    obtain ⟨h1, h2⟩ := h.split (x := .add a b) (y := .add x y) rfl rfl rfl rfl rfl
    obtain ⟨ha', hb'⟩ := h1.split rfl rfl rfl rfl rfl
    obtain ⟨hx', hy'⟩ := h2.split rfl rfl rfl rfl rfl
    obtain ⟨g, k⟩ := two a b s (fun s => ha s ha') (fun s => hb s hb')
    obtain ⟨g', k'⟩ := two x y (powToConst b (powToConst a s).2).2 (fun s => hx s hx') (fun s => hy s hy')
    refine ⟨g.trans g', fun i hv => ?_⟩
    have p := k i fun n hn => hv n (g'.names n hn)
    have q := k' (g.inv i) hv
    exact .join (x := .add _ _) (y := .add _ _) (.join p.1 p.2 rfl rfl rfl rfl rfl) (.join q.1 q.2 rfl rfl rfl rfl rfl) rfl rfl rfl rfl rfl
  | num q => exact ⟨.refl s, fun _ _ => h⟩
  | flt q => exact ⟨.refl s, fun _ _ => h⟩
  | data b o => exact ⟨.refl s, fun _ _ => h⟩
  | const c => exact ⟨.refl s, fun _ _ => h⟩
  | gvar v => exact ⟨.refl s, fun _ _ => h⟩
  | glob g => exact ⟨.refl s, fun _ _ => h⟩
  | idx k => exact ⟨.refl s, fun _ _ => h⟩

theorem powToConst_grows (e : Sym d) (s : Rc (Sym d)) : Grows s (powToConst e s).2 := by
  induction e generalizing s with
  | add x y hx hy => exact (hx s).trans (hy _)
  | mul x y hx hy => exact (hx s).trans (hy _)
  | pow x y hx hy =>
    simp only [powToConst]
    split
    · exact (request_grows ..).1
    · exact (hx s).trans (hy _)
  | mod x y hx hy => exact (hx s).trans (hy _)
  | max x y hx hy => exact (hx s).trans (hy _)
  | fn f x hx => exact hx s
  | pw r a b x y ha hb hx hy => exact (((ha s).trans (hb _)).trans (hx _)).trans (hy _)
  | _ => exact .refl s

/-- Printing after `pow_to_constant`: the names of the intermediate expression are those of the expression and registered ones. -/
theorem Prints.after {V P : String → Prop} {s s' s'' : Rc (Sym d)} {e : Sym d} {t : List Stmt}
    (h1 : Grows s s' ∧ (Inv s → (∀ n ∈ names s', V n) → NamesIn V P e)) (h2 : Grows s' s'')
    (h3 : NamesIn V P e → Prints V P s' t s'') : Prints V P s t s'' :=
  ⟨h1.1.trans h2, fun i hv => (h3 (h1.2 i fun n hn => hv n (h2.names n hn))).2 (h1.1.inv i) hv⟩

theorem print_grows (e : Sym d) (m : Mode) (s : Rc (Sym d)) :
    Grows s (print m e s).1.2 ∧ ∀ q ∈ (print m e s).2, Grows s q.2 := by
  have num : ∀ (m : Mode) (q : ℚ) (s : Rc (Sym d)), Grows s (printNum m q s).2 := fun m q s =>
    (printNum_prints (fun _ => True) (fun _ => True) m q s).1
  have pnum : ∀ (m : Mode) (p : CExpr d) (q : ℚ) (s : Rc (Sym d)), Grows s (printPowNum m p q s).2 := by
    intro m p q s
    unfold printPowNum
    split
    · exact .refl s
    · split
      · exact .refl s
      · exact num m q s
  induction e generalizing m s with
  | num q => exact ⟨num m q s, by simp [print]⟩
  | flt q => exact ⟨.refl s, by simp [print]⟩
  | data b o => exact ⟨.refl s, by simp [print]⟩
  | const c => exact ⟨.refl s, by simp [print]⟩
  | gvar v => exact ⟨.refl s, by simp [print]⟩
  | glob g => exact ⟨.refl s, by simp [print]⟩
  | idx k => exact ⟨.refl s, by simp [print]⟩
  | add x y hx hy => exact ⟨(hx m s).1.trans (hy m _).1, by simp [print]⟩
  | mul x y hx hy =>
    have b := hy m (print m x s).1.2
    simp only [print]
    cases hq : (print m y (print m x s).1.2).2 with
    | none => exact ⟨(hx m s).1.trans b.1, by simp⟩
    | some q => exact ⟨(hx m s).1.trans (b.2 q (by simp [hq])), by simp⟩
  | pow x y hx hy =>
    refine ⟨?_, ?_⟩
    · simp only [print]
      split
      · exact (hx m s).1
      · split
        · exact (hx m s).1
        · exact (hx m s).1.trans (hy m _).1
    · intro q hq
      simp only [print, Option.mem_def, Option.map_eq_some_iff] at hq
      obtain ⟨r, _, rfl⟩ := hq
      exact (hx m s).1.trans (pnum m _ _ _)
  | mod x y hx hy => exact ⟨(hx .default s).1.trans (hy .default _).1, by simp [print]⟩
  | max x y hx hy => exact ⟨(hx m s).1.trans (hy m _).1, by simp [print]⟩
  | fn f x hx => exact ⟨(hx m s).1, by simp [print]⟩
  | pw r a b x y ha hb hx hy => exact ⟨(((ha m s).1.trans (hb m _).1).trans (hx m _).1).trans (hy m _).1, by simp [print]⟩

theorem printAssign_prints (V P : String → Prop) (a : Assign d) (s : Rc (Sym d)) (h : ∀ e ∈ assignSyms a, NamesIn V P e) :
    Prints V P s (assignUses (printAssign a s).1) (printAssign a s).2 := by
  have hl : Fine V P (lhsUses a.lhs) := by
    have := h (lhsSym a.lhs) (by simp [assignSyms])
    cases hh : a.lhs with
    | data b o => rw [hh] at this; exact .param (this.data (b, o) (by simp [lhsSym, symData]))
    | gvar v => rw [hh] at this; exact .value (this.gvars v (by simp [lhsSym, symGvars]))
  have hr : NamesIn V P a.rhs := h a.rhs (by simp [assignSyms])
  have p : Prints V P s (exprUses (printAssign a s).1.rhs) (printAssign a s).2 :=
    .after (powToConst_names V P a.rhs s hr) (print_grows ..).1 fun hn => (print_prints V P _ _ _ hn).1
  exact ⟨p.1, fun i hv => hl.append (p.2 i hv)⟩

theorem printAssigns_prints (V P : String → Prop) (l : List (Assign d)) (s : Rc (Sym d)) (h : ∀ a ∈ l, ∀ e ∈ assignSyms a, NamesIn V P e) :
    Prints V P s ((printAssigns l s).1.flatMap assignUses) (printAssigns l s).2 := by
  induction l generalizing s with
  | nil => exact .nil V P s
  | cons a l ih =>
    exact (printAssign_prints V P a s (h a (List.mem_cons_self ..))).seq (ih _ fun x hx => h x (List.mem_cons_of_mem _ hx))

theorem printInner_prints (V P : String → Prop) (c : CCode.Cond d) (s : Rc (Sym d)) (h : ∀ e ∈ condSyms c, NamesIn V P e) :
    Prints V P s (condUses (printInner c s).1) (printInner c s).2 := by
  induction c generalizing s with
  | tt => exact .nil V P s
  | rel r x y => exact (print_prints V P _ _ _ (h x (by simp [condSyms]))).1.seq (print_prints V P _ _ _ (h y (by simp [condSyms]))).1
  | and c e hc he =>
    exact (hc s fun x hx => h x (List.mem_append_left _ hx)).seq (he _ fun x hx => h x (List.mem_append_right _ hx))
  | or c e hc he =>
    exact (hc s fun x hx => h x (List.mem_append_left _ hx)).seq (he _ fun x hx => h x (List.mem_append_right _ hx))
  | not c hc => exact hc s h

theorem printCond_prints (V P : String → Prop) (c : CCode.Cond d) (s : Rc (Sym d)) (h : ∀ e ∈ condSyms c, NamesIn V P e) :
    Prints V P s (condUses (printCond c s).1) (printCond c s).2 := by
  unfold printCond
  split
  · rename_i x y
    have hx := powToConst_names V P x s (h x (by simp [condSyms]))
    have hy := powToConst_names V P y (powToConst x s).2 (h y (by simp [condSyms]))
    have ga := (print_grows (powToConst x s).1 Mode.inKernel (powToConst y (powToConst x s).2).2).1
    refine ⟨((hx.1.trans hy.1).trans ga).trans (print_grows ..).1, fun i hv => ?_⟩
    have gb := (print_grows (powToConst y (powToConst x s).2).1 Mode.inKernel
      (print Mode.inKernel (powToConst x s).1 (powToConst y (powToConst x s).2).2).1.2).1
    have nx := hx.2 i fun n hn => hv n (gb.names n (ga.names n (hy.1.names n hn)))
    have ny := hy.2 (hx.1.inv i) fun n hn => hv n (gb.names n (ga.names n hn))
    have a := (print_prints V P _ Mode.inKernel (powToConst y (powToConst x s).2).2 nx).1
    have b := (print_prints V P _ Mode.inKernel (print Mode.inKernel (powToConst x s).1 (powToConst y (powToConst x s).2).2).1.2 ny).1
    exact (a.seq b).2 (hy.1.inv (hx.1.inv i)) hv
  · exact printInner_prints V P _ s h

/-- Occurrences as in `Fine`, directly or in blocks without declarations. -/
def FineLines (V P : String → Prop) (l : List Stmt) : Prop := ∀ s ∈ l, Fine V P [s] ∨ ∃ b, s = .block b ∧ Fine V P b

theorem Fine.lines {V P : String → Prop} {l : List Stmt} (h : Fine V P l) : FineLines V P l := fun s hs => .inl fun t ht => by
  rw [List.mem_singleton] at ht
  exact h t (ht ▸ hs)

theorem Fine.blk {V P : String → Prop} {l : List Stmt} (h : Fine V P l) : FineLines V P [.block l] := fun _ hs =>
  .inr ⟨l, List.mem_singleton.1 hs, h⟩

theorem FineLines.append {V P : String → Prop} {a b : List Stmt} (ha : FineLines V P a) (hb : FineLines V P b) : FineLines V P (a ++ b) := by
  intro s hs
  rcases List.mem_append.1 hs with h | h
  · exact ha s h
  · exact hb s h

/-- `Prints` for lines. -/
def PrintsLines (V P : String → Prop) (s : Rc (Sym d)) (t : List Stmt) (s' : Rc (Sym d)) : Prop :=
  Grows s s' ∧ (Inv s → (∀ n ∈ names s', V n) → FineLines V P t)

theorem PrintsLines.seq {V P : String → Prop} {s s' s'' : Rc (Sym d)} {a b : List Stmt} (ha : PrintsLines V P s a s') (hb : PrintsLines V P s' b s'') :
    PrintsLines V P s (a ++ b) s'' :=
  ⟨ha.1.trans hb.1, fun i hv => (ha.2 i fun n hn => hv n (hb.1.names n hn)).append (hb.2 (ha.1.inv i) hv)⟩

theorem PrintsLines.nil (V P : String → Prop) (s : Rc (Sym d)) : PrintsLines V P s [] s := ⟨.refl s, fun _ _ _ hs => by simp at hs⟩

theorem Prints.lines {V P : String → Prop} {s s' : Rc (Sym d)} {t : List Stmt} (h : Prints V P s t s') : PrintsLines V P s t s' :=
  ⟨h.1, fun i hv => (h.2 i hv).lines⟩

theorem Prints.blk {V P : String → Prop} {s s' : Rc (Sym d)} {t : List Stmt} (h : Prints V P s t s') : PrintsLines V P s [.block t] s' :=
  ⟨h.1, fun i hv => (h.2 i hv).blk⟩

theorem branch_prints (V P : String → Prop) (l : List (Assign d)) (c : CCode.Cond d) (s : Rc (Sym d)) (h : ∀ a ∈ l, ∀ e ∈ assignSyms a, NamesIn V P e)
    (hc : ∀ e ∈ condSyms c, NamesIn V P e) :
    PrintsLines V P s (condUses (printCond c s).1 ++ [.block ((printAssigns l (printCond c s).2).1.flatMap assignUses)])
      (printAssigns l (printCond c s).2).2 :=
  (printCond_prints V P c s hc).lines.seq (printAssigns_prints V P l _ h).blk

/-- The names of a list of branches are allowed. -/
def BranchNames (V P : String → Prop) (bs : List (List (Assign d) × CCode.Cond d)) : Prop :=
  ∀ b ∈ bs, (∀ a ∈ b.1, ∀ e ∈ assignSyms a, NamesIn V P e) ∧ ∀ e ∈ condSyms b.2, NamesIn V P e

theorem printRest_prints (V P : String → Prop) (bs : List (List (Assign d) × CCode.Cond d)) (s : Rc (Sym d)) (h : BranchNames V P bs) :
    PrintsLines V P s ((printRest bs s).1.flatMap lineText) (printRest bs s).2 := by
  induction bs generalizing s with
  | nil => exact .nil V P s
  | cons b bs ih =>
    obtain ⟨eqs, c⟩ := b
    have hb := h (eqs, c) (List.mem_cons_self ..)
    have ih' := fun s => ih s fun b hb => h b (List.mem_cons_of_mem _ hb)
    cases c with
    | tt => exact (printAssigns_prints V P eqs s hb.1).blk.seq (ih' _)
    | rel r x y => exact (branch_prints V P eqs _ s hb.1 hb.2).seq (ih' _)
    | and c e => exact (branch_prints V P eqs _ s hb.1 hb.2).seq (ih' _)
    | or c e => exact (branch_prints V P eqs _ s hb.1 hb.2).seq (ih' _)
    | not c => exact (branch_prints V P eqs _ s hb.1 hb.2).seq (ih' _)

theorem printGrouped_prints (V P : String → Prop) (bs : List (List (Assign d) × CCode.Cond d)) (s : Rc (Sym d)) (h : BranchNames V P bs) :
    PrintsLines V P s ((printGrouped bs s).1.flatMap lineText) (printGrouped bs s).2 := by
  cases bs with
  | nil => exact .nil V P s
  | cons b bs =>
    obtain ⟨eqs, c⟩ := b
    have hb := h (eqs, c) (List.mem_cons_self ..)
    exact (branch_prints V P eqs c s hb.1 hb.2).seq (printRest_prints V P bs _ fun b hb => h b (List.mem_cons_of_mem _ hb))

theorem printBody_prints (V P : String → Prop) (eqs : List (Eqn d)) (s : Rc (Sym d)) (h : ∀ e ∈ eqs.flatMap eqnSyms, NamesIn V P e) :
    PrintsLines V P s ((printBody eqs s).1.flatMap lineText) (printBody eqs s).2 := by
  induction eqs generalizing s with
  | nil => exact .nil V P s
  | cons e l ih =>
    have h1 : ∀ x ∈ eqnSyms e, NamesIn V P x := fun x hx => h x (by rw [List.flatMap_cons]; exact List.mem_append_left _ hx)
    have ih' := fun s => ih s fun x hx => h x (by rw [List.flatMap_cons]; exact List.mem_append_right _ hx)
    cases e with
    | assign a => exact (printAssign_prints V P a s h1).lines.seq (ih' _)
    | grouped bs =>
      have hb : BranchNames V P bs := by
        intro b hb
        refine ⟨fun a ha x hx => h1 x ?_, fun x hx => h1 x ?_⟩
        · exact List.mem_flatMap.2 ⟨b, hb, List.mem_append_left _ (List.mem_flatMap.2 ⟨a, ha, hx⟩)⟩
        · exact List.mem_flatMap.2 ⟨b, hb, List.mem_append_right _ hx⟩
      have := (printGrouped_prints V P bs s hb).seq (ih' _)
      simpa only [printBody, List.flatMap_append] using this

theorem printBody_grows (eqs : List (Eqn d)) (s : Rc (Sym d)) : Grows s (printBody eqs s).2 := by
  have assign : ∀ (a : Assign d) (s : Rc (Sym d)), Grows s (printAssign a s).2 := fun a s =>
    Grows.trans (powToConst_grows a.rhs s) (print_grows ..).1
  have assigns : ∀ (l : List (Assign d)) (s : Rc (Sym d)), Grows s (printAssigns l s).2 := by
    intro l
    induction l with
    | nil => exact fun s => .refl s
    | cons a l ih => exact fun s => (assign a s).trans (ih _)
  have inner : ∀ (c : CCode.Cond d) (s : Rc (Sym d)), Grows s (printInner c s).2 := by
    intro c
    induction c with
    | tt => exact fun s => .refl s
    | rel r x y => exact fun s => (print_grows ..).1.trans (print_grows ..).1
    | and c e hc he => exact fun s => (hc s).trans (he _)
    | or c e hc he => exact fun s => (hc s).trans (he _)
    | not c hc => exact hc
  have cond : ∀ (c : CCode.Cond d) (s : Rc (Sym d)), Grows s (printCond c s).2 := by
    intro c s
    unfold printCond
    split
    · exact (((powToConst_grows ..).trans (powToConst_grows ..)).trans (print_grows ..).1).trans (print_grows ..).1
    · exact inner _ s
  have rest : ∀ (bs : List (List (Assign d) × CCode.Cond d)) (s : Rc (Sym d)), Grows s (printRest bs s).2 := by
    intro bs
    induction bs with
    | nil => exact fun s => .refl s
    | cons b bs ih =>
      intro s
      obtain ⟨eqs, c⟩ := b
      cases c with
      | tt => exact (assigns eqs s).trans (ih _)
      | rel r x y => exact ((cond _ s).trans (assigns eqs _)).trans (ih _)
      | and c e => exact ((cond _ s).trans (assigns eqs _)).trans (ih _)
      | or c e => exact ((cond _ s).trans (assigns eqs _)).trans (ih _)
      | not c => exact ((cond _ s).trans (assigns eqs _)).trans (ih _)
  induction eqs generalizing s with
  | nil => exact .refl s
  | cons e l ih =>
    cases e with
    | assign a => exact (assign a s).trans (ih _)
    | grouped bs =>
      cases bs with
      | nil => exact ih s
      | cons b bs => exact (((cond b.2 s).trans (assigns b.1 _)).trans (rest bs _)).trans (ih _)

theorem printKernels_grows (ks : List (List (Eqn d))) (s : Rc (Sym d)) : Grows s (printKernels ks s).2 := by
  induction ks generalizing s with
  | nil => exact .refl s
  | cons k ks ih => exact (printBody_grows k s).trans (ih _)

/-- The bodies of all kernels use their own grid variables and arrays and registered constants. -/
theorem printKernels_fine (ks : List (List (Eqn d))) (s : Rc (Sym d)) (hi : Inv s) (N : String → Prop)
    (hN : ∀ n ∈ names (printKernels ks s).2, N n) (VP : List (Eqn d) → (String → Prop) × (String → Prop)) (hV : ∀ k n, N n → (VP k).1 n)
    (h : ∀ k ∈ ks, ∀ e ∈ k.flatMap eqnSyms, NamesIn (VP k).1 (VP k).2 e) :
    ∀ p ∈ ks.zip (printKernels ks s).1, FineLines (VP p.1).1 (VP p.1).2 (p.2.flatMap lineText) := by
  induction ks generalizing s with
  | nil => simp
  | cons k ks ih =>
    have g := printBody_grows k s
    intro p hp
    simp only [printKernels, List.zip_cons_cons, List.mem_cons] at hp
    rcases hp with rfl | hp
    · exact (printBody_prints _ _ k s (h k (List.mem_cons_self ..))).2 hi fun n hn => hV k n (hN n ((printKernels_grows ks _).names n hn))
    · exact ih _ (g.inv hi) hN (fun k hk => h k (List.mem_cons_of_mem _ hk)) p hp

theorem printKernels_length (ks : List (List (Eqn d))) (s : Rc (Sym d)) : (printKernels ks s).1.length = ks.length := by
  induction ks generalizing s with
  | nil => rfl
  | cons k ks ih => simp only [printKernels, List.length_cons, ih]

end OpenSBLI.Prog
