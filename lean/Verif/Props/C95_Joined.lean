import Verif.Props.C95_Grammar

/-!
# C95: texts with and without spaces
-/
namespace OpenSBLI.Source

/-- What may stand directly behind a token: a name ends before what cannot be part of it, a number too, a product is not written before another star; schemes follow commas. -/
def Ends : Tok → List Char → Prop
  | .name _, rest => (∀ c cs, rest = c :: cs → (c.isAlphanum || c = '_') = false ∧ c ≠ '(') ∧ ¬ ['*', '*', '{'] <+: rest
  | .num _, rest => (∀ c cs, rest = c :: cs → (c.isAlphanum || c = '_' || c = '.') = false) ∧ ¬ ['*', '*', '{'] <+: rest
  | .op .mul, rest => rest.head? ≠ some '*'
  | .op .pow, rest => rest.head? ≠ some '{'
  | _, _ => True

/-- Texts that write tokens, with spaces anywhere between them or none where tokens end by themselves. -/
inductive Joined : List Tok → List Char → Prop
  | nil : Joined [] []
  | space {ts : List Tok} {s : List Char} : Joined ts s → Joined ts (' ' :: s)
  | token {t : Tok} {w : List Char} {ts : List Tok} {s : List Char} : Written t w → Ends t s → Joined ts s → Joined (t :: ts) (w ++ s)

theorem lex_start {c : Char} {cs : List Char} (h : ¬ ['*', '*', '{'] <+: c :: cs) : lex .start (c :: cs) = (between c).bind fun p => (lex p.1 cs).bind fun ts => some (p.2 ++ ts) := by
  rw [lex]
  · rfl
  · rintro cs' _ rfl rfl
    exact h ⟨cs', rfl⟩

theorem bind_cons (t : Tok) (rest : List Char) (h : ¬ ['*', '*', '{'] <+: rest) (st : Lex) (hf : finish st = some [t])
    (hn : ∀ c cs, rest = c :: cs → next st c = (between c).bind fun p => some (p.1, t :: p.2)) (hst : (∃ s, st = .name s ∨ st = .num s) ∨ st = .star) :
    lex st rest = (lex .start rest).bind fun ts => some (t :: ts) := by
  cases rest with
  | nil => rw [lex, hf]; rfl
  | cons c cs =>
    rw [lex_start h, lex_next (by rcases hst with ⟨s, h | h⟩ | h <;> simp [h]), hn c cs rfl]
    cases between c with
    | none => rfl
    | some p => cases hl : lex p.1 cs <;> simp [hl]

theorem lex_token_joined {t : Tok} {w : List Char} (h : Written t w) {rest : List Char} (he : Ends t rest) : lex .start (w ++ rest) = (lex .start rest).bind fun ts => some (t :: ts) := by
  cases h with
  | @name c s hc hs =>
    obtain ⟨h1, h2⟩ := between_alpha hc
    rw [List.cons_append, lex_next (.inr (.inr h2))]
    simp only [next, h1, Option.bind_some, bind_id]
    rw [lex_name hs]
    refine bind_cons _ rest he.2 _ (by simp [finish]) (fun c cs hr => ?_) (.inl ⟨_, .inl rfl⟩)
    obtain ⟨e1, e2⟩ := he.1 c cs hr
    simp only [next, e1, Bool.false_eq_true, if_false, e2]
    simp
  | @call c s hc hs =>
    obtain ⟨h1, h2⟩ := between_alpha hc
    rw [List.append_assoc, List.cons_append, lex_next (.inr (.inr h2))]
    simp only [next, h1, Option.bind_some, bind_id]
    rw [lex_name hs, List.singleton_append, lex_next (.inl ⟨_, .inl rfl⟩)]
    simp only [next, show (('('.isAlphanum || decide ('(' = '_')) = false) from rfl, Bool.false_eq_true, if_false, if_true, Option.bind_some]
    simp
  | @num c s q hc hs hq =>
    obtain ⟨h1, h2⟩ := between_digit hc
    rw [List.cons_append, lex_next (.inr (.inr h2))]
    simp only [next, h1, Option.bind_some, bind_id]
    rw [lex_num hs]
    have hd : decimal (s.reverse ++ [c]).reverse = some q := by simpa using hq
    refine bind_cons _ rest he.2 _ (by simp [finish, hq]) (fun c' cs hr => ?_) (.inl ⟨_, .inr rfl⟩)
    have e1 := he.1 c' cs hr
    have e2 : (c'.isDigit || decide (c' = '.')) = false := by
      rw [Bool.or_eq_false_iff] at e1 ⊢
      refine ⟨?_, e1.2⟩
      have := (Bool.or_eq_false_iff.1 e1.1).1
      rw [Char.isAlphanum, Bool.or_eq_false_iff] at this
      exact this.2
    simp only [next, e2, Bool.false_eq_true, if_false, hd]
    rfl
  | @kw s hs =>
    have h0 : lex .start (('*' :: '*' :: '{' :: s ++ ['}']) ++ rest) = lex (.brace []) (s ++ '}' :: rest) := by
      simp only [List.cons_append, List.append_assoc, List.nil_append, lex]
    rw [h0, lex_brace hs, lex_next (.inl ⟨_, .inr (.inr rfl)⟩)]
    simp [next]
  | mul =>
    have hp : ¬ ['*', '*', '{'] <+: rest := by
      rintro ⟨cs, rfl⟩
      simp [Ends] at he
    have h0 : lex .start (['*'] ++ rest) = lex .star rest := by
      rw [List.singleton_append, lex_start]
      · simp [between]
      · rintro ⟨cs, h⟩
        simp at h
        exact he (by rw [← h]; rfl)
    rw [h0]
    refine bind_cons _ rest hp _ rfl (fun c cs hr => ?_) (.inr rfl)
    have : c ≠ '*' := by rintro rfl; exact he (by rw [hr]; rfl)
    simp only [next, this, if_false]
    rfl
  | pow =>
    have h0 : lex .start (['*', '*'] ++ rest) = lex .star ('*' :: rest) := by
      rw [List.cons_append, lex_start]
      · simp [between]
      · rintro ⟨cs, h⟩
        simp at h
        exact he (by rw [← h]; rfl)
    rw [h0, lex_next (.inr (.inl rfl))]
    simp [next]
  | _ =>
    rw [List.singleton_append, lex_next (.inr (.inr (by decide)))]
    rfl

theorem lex_joined {ts : List Tok} {s : List Char} (h : Joined ts s) : lex .start s = some ts := by
  induction h with
  | nil => rfl
  | space _ ih =>
    rw [lex_next (.inr (.inr (by decide)))]
    simp [next, between, ih]
  | token hw he _ ih => rw [lex_token_joined hw he, ih]; rfl

/-- C95: the text is read as the grammar says wherever spaces are written: between any tokens, or nowhere but between tokens that would otherwise be one. -/
theorem C95_read_joined {text : String} {ts : List Tok} {e : Syn} (ht : Joined ts text.toList) (h : Says (.expr 1 e) ts) : read text = some e := by
  rw [read, lex_joined ht]
  exact (C95_grammar ts e).2 h

/-- C95: spaces do not matter. -/
theorem C95_spaces {text text' : String} {ts : List Tok} (h : Joined ts text.toList) (h' : Joined ts text'.toList) : read text = read text' := by
  rw [read, read, lex_joined h, lex_joined h']

/-- A relation as the applications write it. -/
example : read "Eq(u_i, rhou_i/rho)" = some (.call "Eq" [.name "u_i", .bin .div (.name "rhou_i") (.name "rho")]) := by
  refine C95_read_joined (ts := [.call "Eq", .name "u_i", .comma, .name "rhou_i", .op .div, .name "rho", .rpar]) ?_ ?_
  · have key : ∀ {t w ts s}, Written t w → Ends t s → Joined ts s → Joined (t :: ts) (w ++ s) := fun h h' h'' => .token h h' h''
    refine key (w := "Eq(".toList) (s := "u_i, rhou_i/rho)".toList) (.call (c := 'E') (s := ['q']) rfl (by decide)) trivial ?_
    refine key (w := "u_i".toList) (s := ", rhou_i/rho)".toList) (.name (c := 'u') (s := ['_', 'i']) rfl (by decide)) ⟨?_, by decide⟩ ?_
    · intro c cs h; simp only [String.toList] at h; injection h with h; subst h; decide
    refine key (w := ",".toList) (s := " rhou_i/rho)".toList) .comma trivial (.space ?_)
    refine key (w := "rhou_i".toList) (s := "/rho)".toList) (.name (c := 'r') (s := ['h', 'o', 'u', '_', 'i']) rfl (by decide)) ⟨?_, by decide⟩ ?_
    · intro c cs h; injection h with h; subst h; decide
    refine key (w := "/".toList) (s := "rho)".toList) .div trivial ?_
    refine key (w := "rho".toList) (s := ")".toList) (.name (c := 'r') (s := ['h', 'o']) rfl (by decide)) ⟨?_, by decide⟩ ?_
    · intro c cs h; injection h with h; subst h; decide
    exact key (w := ")".toList) (s := []) .rpar trivial .nil
  · exact (C95_grammar _ _).1 (by with_unfolding_all rfl)

end OpenSBLI.Source
