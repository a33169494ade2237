import Verif.Lemmas.ScopeText

/-! # Helper lemmas on the constants of the generated program -/
namespace OpenSBLI.Prog
open OpenSBLI.Reg OpenSBLI.CCode OpenSBLI.Alg

variable {d : ℕ}

theorem mem_symConsts (e : Sym d) (c : String) : c ∈ symConsts e ↔ c ∈ e.consts := by
  induction e <;> simp_all [symConsts, Sym.consts]

theorem NamesIn.mono {V V' P : String → Prop} {e : Sym d} (h : NamesIn V P e) (hv : ∀ n, V n → V' n) : NamesIn V' P e :=
  ⟨h.globs, fun c hc => hv c (h.consts c hc), fun c hc => hv c (h.gvars c hc), h.data, h.idx⟩

/-- The names in a closed expression are constants. -/
theorem Closed.namesIn (V P : String → Prop) (e : Sym d) (h : e.Closed) (hc : ∀ c ∈ e.consts, V c) : NamesIn V P e := by
  have hc' : ∀ c ∈ symConsts e, V c := fun c h => hc c ((mem_symConsts e c).1 h)
  clear hc
  induction e with
  | num q => exact ⟨rfl, by simp [symConsts], by simp [symGvars], by simp [symData], by simp [symIdx]⟩
  | flt q => exact ⟨rfl, by simp [symConsts], by simp [symGvars], by simp [symData], by simp [symIdx]⟩
  | const c => exact ⟨rfl, hc', by simp [symGvars], by simp [symData], by simp [symIdx]⟩
  | data b o => exact h.elim
  | gvar v => exact h.elim
  | glob g => exact h.elim
  | idx k => exact h.elim
  | add x y hx hy =>
    exact .join (hx h.1 fun c hm => hc' c (List.mem_append_left _ hm)) (hy h.2 fun c hm => hc' c (List.mem_append_right _ hm)) rfl rfl rfl rfl rfl
  | mul x y hx hy =>
    exact .join (hx h.1 fun c hm => hc' c (List.mem_append_left _ hm)) (hy h.2 fun c hm => hc' c (List.mem_append_right _ hm)) rfl rfl rfl rfl rfl
  | pow x y hx hy =>
    exact .join (hx h.1 fun c hm => hc' c (List.mem_append_left _ hm)) (hy h.2 fun c hm => hc' c (List.mem_append_right _ hm)) rfl rfl rfl rfl rfl
  | mod x y hx hy =>
    exact .join (hx h.1 fun c hm => hc' c (List.mem_append_left _ hm)) (hy h.2 fun c hm => hc' c (List.mem_append_right _ hm)) rfl rfl rfl rfl rfl
  | max x y hx hy =>
    exact .join (hx h.1 fun c hm => hc' c (List.mem_append_left _ hm)) (hy h.2 fun c hm => hc' c (List.mem_append_right _ hm)) rfl rfl rfl rfl rfl
  | fn f x hx =>
    have r := hx h hc'
    exact ⟨r.globs, r.consts, r.gvars, r.data, r.idx⟩
  | pw r a b x y ha hb hx hy =>
    have ra := ha h.1 fun c hm => hc' c (List.mem_append_left _ (List.mem_append_left _ hm))
    have rb := hb h.2.1 fun c hm => hc' c (List.mem_append_left _ (List.mem_append_right _ hm))
    have rx := hx h.2.2.1 fun c hm => hc' c (List.mem_append_right _ (List.mem_append_left _ hm))
    have ry := hy h.2.2.2 fun c hm => hc' c (List.mem_append_right _ (List.mem_append_right _ hm))
    exact .join (x := .add a b) (y := .add x y) (.join ra rb rfl rfl rfl rfl rfl) (.join rx ry rfl rfl rfl rfl rfl) rfl rfl rfl rfl rfl

/-- The constants of the powers computed once are constants of the expression. -/
theorem inverses_consts (e q : Sym d) (h : q ∈ e.inverses) : ∀ c ∈ q.consts, c ∈ e.consts := by
  induction e with
  | pow x y hx hy =>
    simp only [Sym.inverses] at h
    split at h
    · rw [List.mem_singleton] at h
      subst h
      exact fun c hc => hc
    · simp only [Sym.consts, Finset.mem_union]
      rcases List.mem_append.1 h with h | h
      · exact fun c hc => .inl (hx h c hc)
      · exact fun c hc => .inr (hy h c hc)
  | pw r a b x y ha hb hx hy =>
    simp only [Sym.inverses, List.mem_append] at h
    simp only [Sym.consts, Finset.mem_union]
    rcases h with (h | h) | (h | h)
    · exact fun c hc => .inl (.inl (ha h c hc))
    · exact fun c hc => .inl (.inr (hb h c hc))
    · exact fun c hc => .inr (.inl (hx h c hc))
    · exact fun c hc => .inr (.inr (hy h c hc))
  | fn f x hx => exact hx h
  | num q => simp [Sym.inverses] at h
  | flt q => simp [Sym.inverses] at h
  | data b o => simp [Sym.inverses] at h
  | const c => simp [Sym.inverses] at h
  | gvar v => simp [Sym.inverses] at h
  | glob g => simp [Sym.inverses] at h
  | idx k => simp [Sym.inverses] at h
  | add x y hx hy =>
    simp only [Sym.inverses, List.mem_append] at h
    simp only [Sym.consts, Finset.mem_union]
    exact h.elim (fun h c hc => .inl (hx h c hc)) (fun h c hc => .inr (hy h c hc))
  | mul x y hx hy =>
    simp only [Sym.inverses, List.mem_append] at h
    simp only [Sym.consts, Finset.mem_union]
    exact h.elim (fun h c hc => .inl (hx h c hc)) (fun h c hc => .inr (hy h c hc))
  | mod x y hx hy =>
    simp only [Sym.inverses, List.mem_append] at h
    simp only [Sym.consts, Finset.mem_union]
    exact h.elim (fun h c hc => .inl (hx h c hc)) (fun h c hc => .inr (hy h c hc))
  | max x y hx hy =>
    simp only [Sym.inverses, List.mem_append] at h
    simp only [Sym.consts, Finset.mem_union]
    exact h.elim (fun h c hc => .inl (hx h c hc)) (fun h c hc => .inr (hy h c hc))

theorem condSyms_exprs (c : CCode.Cond d) : c.exprs = condSyms c := by
  induction c <;> simp_all [CCode.Cond.exprs, condSyms]

theorem exprs_syms (eqs : List (Eqn d)) : ∀ e ∈ exprs eqs, e ∈ eqs.flatMap eqnSyms := by
  intro e he
  obtain ⟨q, hq, he⟩ := List.mem_flatMap.1 he
  refine List.mem_flatMap.2 ⟨q, hq, ?_⟩
  cases q with
  | assign a =>
    simp only [Eqn.exprs, List.mem_singleton] at he
    subst he
    simp [eqnSyms, assignSyms]
  | grouped bs =>
    simp only [Eqn.exprs] at he
    obtain ⟨b, hb, he⟩ := List.mem_flatMap.1 he
    refine List.mem_flatMap.2 ⟨b, hb, ?_⟩
    rcases List.mem_append.1 he with he | he
    · obtain ⟨a, ha, rfl⟩ := List.mem_map.1 he
      exact List.mem_append_left _ (List.mem_flatMap.2 ⟨a, ha, by simp [assignSyms]⟩)
    · rw [condSyms_exprs] at he
      exact List.mem_append_right _ he

/-! ## The registry -/

/-- What holds of the values of the constants and of the requested expressions holds of the values of all constants. -/
theorem extends_values {ks : List (Sym d)} {s s' : Rc (Sym d)} (h : Extends ks s s') (Q : Sym d → Prop) (hq : ∀ q, Q (.num q)) (hk : ∀ k ∈ ks, Q k)
    (hs : ∀ c ∈ s.constants, ∀ v, c.value = some v → Q v) : ∀ c ∈ s'.constants, ∀ v, c.value = some v → Q v := by
  obtain ⟨l, rfl, hl⟩ := h
  have hl' : ∀ r ∈ l, Q r.2 := fun r hr => (hl r hr).elim (fun ⟨q, e⟩ => e ▸ hq q) (hk r.2)
  clear hl
  induction l generalizing s with
  | nil => exact hs
  | cons r l ih =>
    change ∀ c ∈ ((s.request r.1 r.2).1.requests l).constants, _
    refine ih ?_ fun r' hr => hl' r' (List.mem_cons_of_mem _ hr)
    intro c hc v hv
    unfold Rc.request at hc
    split at hc
    · exact hs c hc v hv
    · simp only [addConstant] at hc
      split at hc
      · exact hs c hc v hv
      · rcases List.mem_append.1 hc with hc | hc
        · exact hs c hc v hv
        · rw [List.mem_singleton] at hc
          subst hc
          cases hv
          exact hl' r (List.mem_cons_self ..)

/-- New constants have generated names; names stay different. -/
theorem extends_names {ks : List (Sym d)} {s s' : Rc (Sym d)} (h : Extends ks s s') :
    (∀ n ∈ names s', n ∈ names s ∨ Generated n) ∧ ((names s).Nodup → (names s').Nodup) := by
  obtain ⟨l, rfl, -⟩ := h
  induction l generalizing s with
  | nil => exact ⟨fun n hn => .inl hn, id⟩
  | cons r l ih =>
    change (∀ n ∈ Prog.names ((s.request r.1 r.2).1.requests l), _) ∧ (_ → (Prog.names ((s.request r.1 r.2).1.requests l)).Nodup)
    have step : (∀ n ∈ Prog.names (s.request r.1 r.2).1, n ∈ Prog.names s ∨ Generated n) ∧
        ((Prog.names s).Nodup → (Prog.names (s.request r.1 r.2).1).Nodup) := by
      unfold Rc.request
      split
      · exact ⟨fun n hn => .inl hn, id⟩
      · refine ⟨fun n hn => ?_, fun h => nodup_addConstant _ _ h⟩
        rcases (mem_addConstant _ _ _).1 hn with h | h
        · exact .inl h
        · exact .inr ⟨r.1, s.counter, h⟩
    obtain ⟨a, b⟩ := ih (s := (s.request r.1 r.2).1)
    refine ⟨fun n hn => (a n hn).elim (fun h => step.1 n h) .inr, fun h => b (step.2 h)⟩

theorem defineConstant_prints (V P : String → Prop) (c : Const (Sym d)) (s : Rc (Sym d)) (hn : V c.name)
    (hv : ∀ v, c.value = some v → NamesIn V P v) :
    Prints V P s (defineConstant c s).1 (defineConstant c s).2 ∧ Extends [] s (defineConstant c s).2 := by
  obtain ⟨n, v⟩ := c
  cases v with
  | none => exact ⟨⟨.refl s, fun _ _ => .value hn⟩, .refl ..⟩
  | some e =>
    have p := (print_prints V P e ⟨true, false⟩ s (hv e rfl)).1
    exact ⟨⟨p.1, fun i h => (Fine.value hn).append (p.2 i h)⟩, (print_extends [] e _ s).1⟩

theorem defineConstants_prints (V P : String → Prop) (l : List (Const (Sym d))) (s : Rc (Sym d)) (hn : ∀ c ∈ l, V c.name)
    (hv : ∀ c ∈ l, ∀ v, c.value = some v → NamesIn V P v) :
    Prints V P s (defineConstants l s).1 (defineConstants l s).2 ∧ Extends [] s (defineConstants l s).2 := by
  induction l generalizing s with
  | nil => exact ⟨.nil V P s, .refl ..⟩
  | cons c l ih =>
    obtain ⟨a, b⟩ := defineConstant_prints V P c s (hn c (List.mem_cons_self ..)) (hv c (List.mem_cons_self ..))
    obtain ⟨a', b'⟩ := ih (defineConstant c s).2 (fun c hc => hn c (List.mem_cons_of_mem _ hc)) fun c hc => hv c (List.mem_cons_of_mem _ hc)
    exact ⟨a.seq a', b.trans b'⟩

theorem defineConstants_extends (l : List (Const (Sym d))) (s : Rc (Sym d)) : Extends [] s (defineConstants l s).2 := by
  induction l generalizing s with
  | nil => exact .refl ..
  | cons c l ih =>
    refine Extends.trans ?_ (ih (defineConstant c s).2)
    obtain ⟨n, v⟩ := c
    cases v with
    | none => exact .refl ..
    | some e => exact (print_extends [] e _ s).1

/-- Names of all constants of the program. -/
def Input.finalNames (inp : Input d) : List String := names inp.definitions.2

variable {inp : Input d} {lib : List String}

theorem registered_nodup (inp : Input d) : inp.constantNames.Nodup := (C38_declared_once [] _ (by simp)).1

/-- The registry after the kernels and after the definitions. -/
theorem printed_extends (inp : Input d) :
    Extends ((inp.kernels.map fun k => k.2.eqs).flatMap fun eqs => (exprs eqs).flatMap Sym.inverses) inp.start inp.printed.2 := printKernels_extends ..

theorem start_extends (inp : Input d) : Extends inp.inverses ⟨0, [], inp.registered⟩ inp.start :=
  ⟨_, rfl, fun r hr => .inr (by obtain ⟨k, hk, rfl⟩ := List.mem_map.1 hr; exact hk)⟩

theorem definitions_extends (inp : Input d) : Extends [] inp.printed.2 inp.definitions.2 :=
  (defineConstants_extends inp.printed.2.constants inp.printed.2).trans (defineConstants_extends _ _)

theorem finalNames_mem (inp : Input d) : ∀ n ∈ inp.finalNames, n ∈ inp.constantNames ∨ Generated n := by
  intro n hn
  rcases (extends_names (definitions_extends inp)).1 n hn with h | h
  · rcases (extends_names (printed_extends inp)).1 n h with h | h
    · exact (extends_names (start_extends inp)).1 n h
    · exact .inr h
  · exact .inr h

theorem finalNames_nodup (inp : Input d) : inp.finalNames.Nodup :=
  (extends_names (definitions_extends inp)).2 ((extends_names (printed_extends inp)).2 ((extends_names (start_extends inp)).2 (registered_nodup inp)))

/-- Requests keep names and the invariant. -/
theorem requests_grows (s : Rc (Sym d)) (l : List (Prefix × Sym d)) : Grows s (s.requests l) := by
  induction l generalizing s with
  | nil => exact .refl s
  | cons r l ih => exact (request_grows s r.1 r.2).1.trans (ih _)

theorem start_grows (inp : Input d) : Grows ⟨0, [], inp.registered⟩ inp.start := requests_grows ..

theorem start_inv (inp : Input d) : Inv inp.start := by
  refine (start_grows inp).inv ?_
  intro p hp
  cases hp

theorem printed_grows (inp : Input d) : Grows inp.start inp.printed.2 := printKernels_grows ..

theorem defineConstants_grows (l : List (Const (Sym d))) (s : Rc (Sym d)) : Grows s (defineConstants l s).2 := by
  induction l generalizing s with
  | nil => exact .refl s
  | cons c l ih =>
    refine Grows.trans ?_ (ih (defineConstant c s).2)
    obtain ⟨n, v⟩ := c
    cases v with
    | none => exact .refl s
    | some e => exact (print_grows ..).1

theorem definitions_grows (inp : Input d) : Grows inp.printed.2 inp.definitions.2 :=
  (defineConstants_grows inp.printed.2.constants inp.printed.2).trans (defineConstants_grows _ _)

theorem constantNames_final (inp : Input d) : ∀ n ∈ inp.constantNames, n ∈ inp.finalNames :=
  fun n hn => (definitions_grows inp).names n ((printed_grows inp).names n ((start_grows inp).names n hn))

theorem startNames_final (inp : Input d) : ∀ n ∈ inp.start.names, n ∈ inp.finalNames :=
  fun n hn => (definitions_grows inp).names n ((printed_grows inp).names n hn)

theorem printed_final (inp : Input d) : ∀ n ∈ names inp.printed.2, n ∈ inp.finalNames := (definitions_grows inp).names

/-- The values of all constants mention registered constants only. -/
theorem printed_values (h : Regular inp lib) (P : String → Prop) :
    ∀ c ∈ inp.printed.2.constants, ∀ v, c.value = some v → NamesIn (· ∈ inp.start.names) P v := by
  refine extends_values (printed_extends inp) (NamesIn (· ∈ inp.start.names) P) ?_ ?_ ?_
  · intro q
    exact ⟨rfl, by simp [symConsts], by simp [symGvars], by simp [symData], by simp [symIdx]⟩
  · intro q hq
    obtain ⟨eqs, he, hq⟩ := List.mem_flatMap.1 hq
    obtain ⟨p, hp, rfl⟩ := List.mem_map.1 he
    obtain ⟨e, hee, hq⟩ := List.mem_flatMap.1 hq
    have k := h.kernels p hp
    exact Closed.namesIn _ _ q (k.inverses e hee q hq) fun c hc =>
      k.constants e (exprs_syms _ e hee) c ((mem_symConsts ..).2 (inverses_consts e q hq c hc))
  · intro c hc v hv
    refine extends_values (start_extends inp) (NamesIn (· ∈ inp.start.names) P) ?_ ?_ ?_ c hc v hv
    · intro q
      exact ⟨rfl, by simp [symConsts], by simp [symGvars], by simp [symData], by simp [symIdx]⟩
    · intro k hk
      obtain ⟨h1, h2⟩ := h.inverses k hk
      exact Closed.namesIn _ _ k h1 fun n hn => (start_grows inp).names n (h2 n hn)
    · intro c hc v hv
      obtain ⟨h1, h2⟩ := h.values c hc v hv
      exact Closed.namesIn _ _ v h1 fun n hn => (start_grows inp).names n (h2 n hn)

/-- The definitions of the constants mention constants only. -/
theorem definitions_fine (h : Regular inp lib) : Fine (· ∈ inp.finalNames) (fun _ => False) inp.definitions.1 := by
  have mono : ∀ v : Sym d, NamesIn (· ∈ inp.start.names) (fun _ => False) v → NamesIn (· ∈ inp.finalNames) (fun _ => False) v :=
    fun v hv => hv.mono (startNames_final inp)
  have v0 := printed_values h fun _ => False
  have ip := (printed_grows inp).inv (start_inv inp)
  obtain ⟨a, b⟩ := defineConstants_prints (· ∈ inp.finalNames) (fun _ => False) inp.printed.2.constants inp.printed.2
    (fun c hc => printed_final inp _ (List.mem_map.2 ⟨c, hc, rfl⟩)) fun c hc v hv => mono v (v0 c hc v hv)
  have v1 := extends_values b (NamesIn (· ∈ inp.start.names) fun _ => False)
    (fun q => ⟨rfl, by simp [symConsts], by simp [symGvars], by simp [symData], by simp [symIdx]⟩) (by simp) v0
  have g2 := defineConstants_grows ((defineConstants inp.printed.2.constants inp.printed.2).2.constants.drop inp.printed.2.constants.length)
    (defineConstants inp.printed.2.constants inp.printed.2).2
  obtain ⟨a', -⟩ := defineConstants_prints (· ∈ inp.finalNames) (fun _ => False)
    ((defineConstants inp.printed.2.constants inp.printed.2).2.constants.drop inp.printed.2.constants.length)
    (defineConstants inp.printed.2.constants inp.printed.2).2
    (fun c hc => g2.names _ (List.mem_map.2 ⟨c, List.mem_of_mem_drop hc, rfl⟩)) fun c hc v hv => mono v (v1 c (List.mem_of_mem_drop hc) v hv)
  exact (a.2 ip fun n hn => g2.names n hn).append (a'.2 (a.1.inv ip) fun n hn => hn)

end OpenSBLI.Prog
