import Verif.Lemmas.TexWrap

/-! The expressions `LatexWriter` prints can stand in formulas. -/
namespace OpenSBLI.Tex
open OpenSBLI Latex

/-! ## Expressions -/

/-- SymPy's printer makes text for formulas of texts for formulas. -/
def SympySound (P : Sympy) : Prop := ∀ f args, (∀ a ∈ args, Sound true a) → Sound true (P f args)

/-- Names of terms in index notation with at most one index. -/
def Indexed1 (n : List Char) : Prop := ∃ a b : List Char, a ≠ [] ∧ b ≠ [] ∧ (∀ c ∈ a ++ b, c.isAlphanum = true) ∧ (n = a ∨ n = a ++ '_' :: b)

mutual
/-- Expressions without `GroupedPiecewise` whose terms in index notation have at most one index. -/
def Fine : Ex → Prop
  | .other _ args => Fines args
  | .base l b => Fine l ∧ Fine b
  | .dataset b is => Fine b ∧ Fines is
  | .indexed b is => Fine b ∧ Fines is
  | .pow b e => Fine b ∧ Fine e
  | .einstein n => Indexed1 n
  | .der _ args => Fines args
  | .piecewise _ => False

def Fines : List Ex → Prop
  | [] => True
  | e :: es => Fine e ∧ Fines es
end

theorem alnum_plain {c : Char} (h : c.isAlphanum = true) : plainChar c = true := by
  simp only [plainChar, Bool.not_eq_true', Bool.or_eq_false_iff, beq_eq_false_iff_ne, ne_eq]
  refine ⟨⟨⟨⟨⟨⟨?_, ?_⟩, ?_⟩, ?_⟩, ?_⟩, ?_⟩, ?_⟩ <;> (rintro rfl; exact absurd h (by decide))

theorem alnum_ws {c : Char} (h : c.isAlphanum = true) : Text.ws c = false := by
  by_contra hw
  rcases ws_cases (by simpa using hw) with rfl | rfl | rfl | rfl | rfl | rfl <;> exact absurd h (by decide)

theorem lex_alnum {a : List Char} (h : ∀ c ∈ a, c.isAlphanum = true) : Done a ∧ lex a = a.map Tok.ch := by
  obtain ⟨h1, h2⟩ := lex_plain fun c hc => alnum_plain (h c hc)
  refine ⟨h1, ?_⟩
  rw [h2, List.filter_eq_self.2 fun c hc => by simp [alnum_ws (h c hc)]]

theorem step_alnum {s : Reader} (h2 : s.name = .no) {c : Char} (h : c.isAlphanum = true) : s.step (.ch c) = some (s.atom (.ch c)) := by
  have h' := alnum_plain h
  simp only [plainChar, Bool.not_eq_true', Bool.or_eq_false_iff, beq_eq_false_iff_ne, ne_eq] at h'
  rw [step_ch h2]; simp [h']

/-- After a name there are no scripts. -/
theorem run_alnum {a : List Char} (h : ∀ c ∈ a, c.isAlphanum = true) (ha : a ≠ []) {s : Reader} (h2 : s.name = .no) (h3 : s.script.pend = false) :
    s.run (a.map Tok.ch) = some { s with cur := s.cur ++ a.map Tok.ch, script := .none } := by
  induction a generalizing s with
  | nil => exact absurd rfl ha
  | cons c a ih =>
    rw [List.map_cons, Reader.run, step_alnum h2 (h c (by simp)), Option.bind_some]
    by_cases h0 : a = []
    · subst h0; simp [Reader.run, Reader.atom, next_of h3]
    · rw [ih (fun d hd => h d (by simp [hd])) h0 (by exact h2) (next_pend _)]
      simp [Reader.atom]

/-- A subscript in a formula, after a symbol which has none. -/
theorem step_sub {s : Reader} (h2 : s.name = .no) (hm : s.math = true) (hs : s.script = .none) : s.step (.ch '_') = some { s with script := ⟨true, false, true⟩, cur := s.cur ++ [.ch '_'] } := by
  rw [step_ch h2]
  simp [Reader.scripted, hm, hs, Script.none]

theorem step_sup {s : Reader} (h2 : s.name = .no) (hm : s.math = true) (hs : s.script = .none) : s.step (.ch '^') = some { s with script := ⟨false, true, true⟩, cur := s.cur ++ [.ch '^'] } := by
  rw [step_ch h2]
  simp [Reader.scripted, hm, hs, Script.none]

theorem lex_under {a b : List Char} (ha : Done a) (hb : lex b = b.map Tok.ch) : lex (a ++ '_' :: b) = lex a ++ .ch '_' :: b.map Tok.ch := by
  rw [(lex_done ha _).1]
  have := (lex_done (show Done ['_'] from rfl) b).1
  rw [List.singleton_append] at this
  rw [this, hb]; rfl

theorem indexed_sound {n : List Char} (h : Indexed1 n) : Sound true n := by
  obtain ⟨a, b, ha, hb, hab, h⟩ := h
  have ha' : ∀ c ∈ a, c.isAlphanum = true := fun c hc => hab c (by simp [hc])
  have hb' : ∀ c ∈ b, c.isAlphanum = true := fun c hc => hab c (by simp [hc])
  rcases h with rfl | rfl
  · exact plain_sound true fun c hc => alnum_plain (ha' c hc)
  · obtain ⟨d1, e1⟩ := lex_alnum ha'
    obtain ⟨d2, e2⟩ := lex_alnum hb'
    have dd : Done (a ++ '_' :: b) := done_append d1 (done_append (show Done ['_'] from rfl) d2)
    refine ⟨Or.inl dd, ?_, ?_⟩
    · have p1 : '%' ∉ a := fun h => absurd (ha' _ h) (by decide)
      have p2 : '%' ∉ b := fun h => absurd (hb' _ h) (by decide)
      simp [p1, p2]
    · intro s h1 h2 h3
      rw [lex_under d1 e2, e1]
      cases b with
      | nil => exact absurd rfl hb
      | cons c b =>
        set s1 : Reader := { s with cur := s.cur ++ a.map Tok.ch, script := .none } with hs1
        set s2 : Reader := { s1 with script := ⟨true, false, true⟩, cur := s1.cur ++ [.ch '_'] } with hs2
        have ih : Inert true (b.map Tok.ch) := by
          have := (plain_sound true (l := b) fun d hd => alnum_plain (hb' d (by simp [hd]))).inert
          rwa [(lex_alnum (a := b) fun d hd => hb' d (by simp [hd])).2] at this
        obtain ⟨sc, p, e⟩ := ih (s2.atom (.ch c)) h1 h2 (next_pend _)
        refine ⟨sc, p, ?_⟩
        rw [run_append, run_alnum ha' ha h2 h3, Option.bind_some, Reader.run, step_sub (by exact h2) (by exact h1) rfl, Option.bind_some, List.map_cons, Reader.run,
          step_alnum (by exact h2) (hb' c (by simp)), Option.bind_some]
        refine e.trans ?_
        simp [hs2, hs1, Reader.atom]

theorem commas_sound {l : List (List Char)} (h : ∀ a ∈ l, Sound true a) : Sound true (commas l) := by
  induction l with
  | nil => exact plain_sound true (by simp [commas])
  | cons a l ih =>
    cases l with
    | nil => exact h a (by simp)
    | cons b l =>
      have i := ih fun x hx => h x (by simp [hx])
      have c : Sound true ([','] ++ commas (b :: l)) := (plain_sound true (by decide)).append i (Or.inl rfl)
      exact (h a (by simp)).append c (Or.inr rfl)

/-- A text in brackets within brackets, as subscript. -/
theorem base_sound {a b : List Char} (ha : Sound true a) (hb : Sound true b) : Sound true (a ++ "{_{B".toList ++ b ++ "}}".toList) := by
  have hB : Sound true ('B' :: b) := Sound.append (a := ['B']) (plain_sound true (by decide)) hb (Or.inl rfl)
  obtain ⟨s1, d1, e1⟩ := hB.brace
  have hsub : Sound true ('{' :: ('_' :: ('{' :: ('B' :: b) ++ ['}'])) ++ ['}']) ∧ Done ('{' :: ('_' :: ('{' :: ('B' :: b) ++ ['}'])) ++ ['}']) := by
    have el : lex ('{' :: ('_' :: ('{' :: ('B' :: b) ++ ['}'])) ++ ['}']) = .ch '{' :: .ch '_' :: (.ch '{' :: lex ('B' :: b) ++ [.ch '}']) ++ [.ch '}'] := by
      have q := lex_done (show Done "{_".toList from rfl) (('{' :: ('B' :: b) ++ ['}']) ++ ['}'])
      rw [(lex_done d1 ['}']).1, e1] at q
      exact q.1
    have ed : Done ('{' :: ('_' :: ('{' :: ('B' :: b) ++ ['}'])) ++ ['}']) := by
      have := done_append (p := "{_".toList) (x := ('{' :: ('B' :: b) ++ ['}']) ++ ['}']) rfl (done_append d1 (show Done ['}'] from rfl))
      exact this
    refine ⟨⟨Or.inl ed, ?_, ?_⟩, ed⟩
    · have := hb.clean
      simp [this]
    · rw [el]
      intro s h1 h2 h3
      refine ⟨s.script.next, next_pend _, ?_⟩
      set s1 : Reader := { s.push .brace s.math (.ch '{') with script := ⟨true, false, true⟩, cur := (s.push .brace s.math (.ch '{')).cur ++ [.ch '_'] } with hs1
      obtain ⟨sc, p, e⟩ := hB.inert (s1.push .brace s1.math (.ch '{')) h1 h2 rfl
      rw [List.cons_append, Reader.run, step_open h2, Option.bind_some, List.cons_append, Reader.run, step_sub (by exact h2) (by exact h1) rfl, Option.bind_some, List.cons_append, List.cons_append, List.append_assoc,
        Reader.run, step_open (by exact h2), Option.bind_some, run_append]
      have e' := e
      rw [hs1] at e'
      rw [e', Option.bind_some, List.singleton_append, Reader.run, step_close (by exact h2)]
      simp only [Reader.push, Reader.pop, p, and_self, if_true, Option.bind_some, Reader.run]
      rw [step_close (by exact h2)]
      simp [Reader.pop, Script.next]
  have := ha.append hsub.1 (Or.inr rfl)
  have e : a ++ "{_{B".toList ++ b ++ "}}".toList = a ++ ('{' :: ('_' :: ('{' :: ('B' :: b) ++ ['}'])) ++ ['}']) := by simp
  rw [e]; exact this

/-- The text of an array with its indices. -/
theorem entry_sound {a b : List Char} (ha : Sound true a) (hb : Sound true b) : Sound true ('{' :: a ++ "}[{".toList ++ b ++ "}]".toList) := by
  obtain ⟨s1, d1, -⟩ := ha.brace
  obtain ⟨s2, d2, -⟩ := hb.brace
  have h1 : Sound true (('{' :: a ++ ['}']) ++ ['[']) := s1.append (plain_sound true (by decide)) (Or.inl d1)
  have h2 := (h1.append s2 (Or.inl (done_append d1 (show Done ['['] from rfl)))).append (plain_sound true (l := [']']) (by decide)) (Or.inl (done_append (done_append d1 (show Done ['['] from rfl)) d2))
  have e : '{' :: a ++ "}[{".toList ++ b ++ "}]".toList = ('{' :: a ++ ['}']) ++ ['['] ++ ('{' :: b ++ ['}']) ++ [']'] := by simp
  rw [e]; exact h2

theorem step_left {s : Reader} (h : s.name = .no) : s.step (.word "left".toList) = some (s.push .left s.math (.word "left".toList)) := by
  rw [step_word h, if_neg (by decide), if_neg (by decide), if_pos rfl]

theorem step_right {s : Reader} (h : s.name = .no) : s.step (.word "right".toList) = s.pop .left (.word "right".toList) := by
  rw [step_word h, if_neg (by decide), if_neg (by decide), if_neg (by decide), if_pos rfl]

/-- Between delimiters, without scripts after it. -/
theorem run_between {l : List Tok} (hl : Inert true l) {o c : Char} (ho : plainChar o = true) (hc : plainChar c = true) {s : Reader} (h1 : s.math = true) (h2 : s.name = .no) (h3 : s.script.pend = false) :
    s.run (.word "left".toList :: .ch o :: l ++ [.word "right".toList, .ch c]) = some { s with cur := s.cur ++ (.word "left".toList :: .ch o :: l ++ [.word "right".toList, .ch c]), script := .none } := by
  have at' {c : Char} (hc : plainChar c = true) {s : Reader} (h2 : s.name = .no) : s.step (.ch c) = some (s.atom (.ch c)) := by
    simp only [plainChar, Bool.not_eq_true', Bool.or_eq_false_iff, beq_eq_false_iff_ne, ne_eq] at hc
    rw [step_ch h2]; simp [hc]
  obtain ⟨sc, p, e⟩ := hl ((s.push .left s.math (.word "left".toList)).atom (.ch o)) h1 h2 (next_pend _)
  rw [List.cons_append, Reader.run, step_left h2, Option.bind_some, List.cons_append, Reader.run, at' ho (by exact h2), Option.bind_some, run_append, e, Option.bind_some, Reader.run, step_right (by exact h2)]
  simp only [Reader.push, Reader.pop, Reader.atom, p, and_self, if_true, Option.bind_some, Reader.run, next_of h3]
  rw [at' hc (by exact h2)]
  simp [Reader.atom, Script.next, Script.none]

/-- A superscript in brackets. -/
theorem run_sup {l : List Tok} (hl : Inert true l) {s : Reader} (h1 : s.math = true) (h2 : s.name = .no) (hs : s.script = .none) :
    s.run (.ch '^' :: .ch '{' :: (l ++ [.ch '}'])) = some { s with cur := s.cur ++ (.ch '^' :: .ch '{' :: (l ++ [.ch '}'])), script := ⟨false, true, false⟩ } := by
  rw [Reader.run, step_sup h2 h1 hs, Option.bind_some, Reader.run, step_open (by exact h2), Option.bind_some, run_append]
  obtain ⟨sc, p, e⟩ := hl (Reader.push { s with script := ⟨false, true, true⟩, cur := s.cur ++ [.ch '^'] } .brace s.math (.ch '{')) h1 h2 rfl
  rw [e, Option.bind_some, Reader.run, step_close (by exact h2)]
  simp [Reader.pop, Reader.push, Reader.run, p, Script.next]

/-- A subscript in brackets. -/
theorem run_sub {l : List Tok} (hl : Inert true l) {s : Reader} (h1 : s.math = true) (h2 : s.name = .no) (hs : s.script = .none) :
    s.run (.ch '_' :: .ch '{' :: (l ++ [.ch '}'])) = some { s with cur := s.cur ++ (.ch '_' :: .ch '{' :: (l ++ [.ch '}'])), script := ⟨true, false, false⟩ } := by
  rw [Reader.run, step_sub h2 h1 hs, Option.bind_some, Reader.run, step_open (by exact h2), Option.bind_some, run_append]
  obtain ⟨sc, p, e⟩ := hl (Reader.push { s with script := ⟨true, false, true⟩, cur := s.cur ++ [.ch '_'] } .brace s.math (.ch '{')) h1 h2 rfl
  rw [e, Option.bind_some, Reader.run, step_close (by exact h2)]
  simp [Reader.pop, Reader.push, Reader.run, p, Script.next]

theorem pow_sound {a b : List Char} (ha : Sound true a) (hb : Sound true b) : Sound true ("\\left(".toList ++ a ++ " \\right)^{".toList ++ b ++ ['}']) := by
  have q1 := lex_done (show Done "\\left(".toList from rfl) (a ++ (" \\right)^{".toList ++ (b ++ ['}'])))
  have q2 := lex_ended ha.ended (Starts.append (b ++ ['}']) (show Starts " \\right)^{".toList from rfl))
  have q3 := lex_done (show Done " \\right)^{".toList from rfl) (b ++ ['}'])
  have q4 := lex_ended hb.ended (show Starts ['}'] from rfl)
  have ea : "\\left(".toList ++ a ++ " \\right)^{".toList ++ b ++ ['}'] = "\\left(".toList ++ (a ++ (" \\right)^{".toList ++ (b ++ ['}']))) := by simp only [List.append_assoc]
  rw [ea]
  refine ⟨Or.inl ?_, ?_, ?_⟩
  · rw [q1.2, q2.2, q3.2, q4.2]; rfl
  · have c1 := ha.clean
    have c2 := hb.clean
    simp [c1, c2]
  · rw [q1.1, q2.1, q3.1, q4.1]
    have e1 : lex "\\left(".toList = [.word "left".toList, .ch '('] := rfl
    have e2 : lex " \\right)^{".toList = [.word "right".toList, .ch ')', .ch '^', .ch '{'] := rfl
    have e3 : lex ['}'] = [.ch '}'] := rfl
    rw [e1, e2, e3]
    have ee : [Tok.word "left".toList, .ch '('] ++ (lex a ++ ([.word "right".toList, .ch ')', .ch '^', .ch '{'] ++ (lex b ++ [.ch '}']))) =
        (.word "left".toList :: .ch '(' :: lex a ++ [.word "right".toList, .ch ')']) ++ ([.ch '^'] ++ (.ch '{' :: lex b ++ [.ch '}'])) := by simp
    rw [ee]
    intro s h1 h2 h3
    refine ⟨⟨false, true, false⟩, rfl, ?_⟩
    have := run_sup hb.inert (s := { s with cur := s.cur ++ (.word "left".toList :: .ch '(' :: lex a ++ [.word "right".toList, .ch ')']), script := .none }) h1 h2 rfl
    rw [run_append, run_between ha.inert (by decide) (by decide) h1 h2 h3, Option.bind_some]
    refine this.trans ?_
    simp

theorem der_sound {d : List Char} (hd : Sound true d) {g : List Char} (hg : ∀ c ∈ g, c.isAlphanum = true) : Sound true ("\\left. ".toList ++ d ++ " \\right|_{{".toList ++ g ++ " }}".toList) := by
  have hg' : Sound true (g ++ [' ']) := plain_sound true (by
    intro c hc
    rcases List.mem_append.1 hc with h | h
    · exact alnum_plain (hg c h)
    · simp at h; subst h; rfl)
  obtain ⟨s1, d1, -⟩ := hg'.brace
  obtain ⟨s2, d2, e2⟩ := s1.brace
  set g2 := '{' :: ('{' :: (g ++ [' ']) ++ ['}']) ++ ['}'] with hg2
  have ea : "\\left. ".toList ++ d ++ " \\right|_{{".toList ++ g ++ " }}".toList = "\\left. ".toList ++ (d ++ (" \\right|_".toList ++ g2)) := by simp [hg2]
  have q1 := lex_done (show Done "\\left. ".toList from rfl) (d ++ (" \\right|_".toList ++ g2))
  have q2 := lex_ended hd.ended (Starts.append g2 (show Starts " \\right|_".toList from rfl))
  have q3 := lex_done (show Done " \\right|_".toList from rfl) g2
  rw [ea]
  refine ⟨Or.inl ?_, ?_, ?_⟩
  · rw [q1.2, q2.2, q3.2]; exact d2
  · have c1 := hd.clean
    have c2 := s2.clean
    simp only [List.mem_append, not_or]
    exact ⟨by decide, c1, by decide, c2⟩
  · rw [q1.1, q2.1, q3.1, e2]
    have e1 : lex "\\left. ".toList = [.word "left".toList, .ch '.'] := rfl
    have e3 : lex " \\right|_".toList = [.word "right".toList, .ch '|', .ch '_'] := rfl
    rw [e1, e3]
    set g1 := '{' :: (g ++ [' ']) ++ ['}']
    have ee : [Tok.word "left".toList, .ch '.'] ++ (lex d ++ ([.word "right".toList, .ch '|', .ch '_'] ++ (.ch '{' :: lex g1 ++ [.ch '}']))) =
        (.word "left".toList :: .ch '.' :: lex d ++ [.word "right".toList, .ch '|']) ++ ([.ch '_'] ++ (.ch '{' :: lex g1 ++ [.ch '}'])) := by simp
    rw [ee]
    intro s h1 h2 h3
    refine ⟨⟨true, false, false⟩, rfl, ?_⟩
    have := run_sub s1.inert (s := { s with cur := s.cur ++ (.word "left".toList :: .ch '.' :: lex d ++ [.word "right".toList, .ch '|']), script := .none }) h1 h2 rfl
    rw [run_append, run_between hd.inert (by decide) (by decide) h1 h2 h3, Option.bind_some]
    refine this.trans ?_
    simp

mutual
theorem fine_sound {P : Sympy} (hP : SympySound P) : ∀ e : Ex, Fine e → Sound true (e.print P)
  | .other f args, h => by
    exact hP f _ (fines_sound hP args (by simpa [Fine] using h))
  | .base l b, h => by
    simp only [Fine] at h; exact base_sound (fine_sound hP l h.1) (fine_sound hP b h.2)
  | .dataset b is, h => by
    simp only [Fine] at h
    exact entry_sound (fine_sound hP b h.1) (commas_sound fun a ha => fines_sound hP is h.2 a (List.mem_of_mem_dropLast ha))
  | .indexed b is, h => by
    simp only [Fine] at h
    exact entry_sound (fine_sound hP b h.1) (commas_sound (fines_sound hP is h.2))
  | .pow b e, h => by
    simp only [Fine] at h; exact pow_sound (fine_sound hP b h.1) (fine_sound hP e h.2)
  | .einstein n, h => by
    simp only [Fine] at h; exact indexed_sound h
  | .der k args, h => by
    simp only [Fine] at h
    change Sound true (if k = .central then P "Derivative" (Ex.prints P args) else "\\left. ".toList ++ P "Derivative" (Ex.prints P args) ++ " \\right|_{{".toList ++ k.tag ++ " }}".toList)
    have hd := hP "Derivative" _ (fines_sound hP args h)
    split_ifs
    · exact hd
    · exact der_sound hd (by cases k <;> decide)
  | .piecewise _, h => by simp only [Fine] at h

theorem fines_sound {P : Sympy} (hP : SympySound P) : ∀ es : List Ex, Fines es → ∀ a ∈ Ex.prints P es, Sound true a
  | [], _ => fun a ha => absurd (show a ∈ ([] : List (List Char)) from ha) (by simp)
  | e :: es, h => by
    simp only [Fines] at h
    intro a ha
    rcases List.mem_cons.1 (show a ∈ e.print P :: Ex.prints P es from ha) with rfl | ha
    · exact fine_sound hP e h.1
    · exact fines_sound hP es h.2 a ha
end

end OpenSBLI.Tex
