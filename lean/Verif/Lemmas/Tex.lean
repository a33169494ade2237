import Verif.Spec.Tex
import Verif.Model.Latex
import Mathlib.Data.List.Chain

/-! Lemmas on the reading of LaTeX files. -/
namespace OpenSBLI.Tex
open OpenSBLI

theorem lexRun_append (s : Lex) (a b : List Char) :
    lexRun s (a ++ b) = ((lexRun (lexRun s a).1 b).1, (lexRun s a).2 ++ (lexRun (lexRun s a).1 b).2) := by
  induction a generalizing s with
  | nil => simp [lexRun]
  | cons c a ih => simp [lexRun, ih, List.append_assoc]

/-- After a whole number of tokens, or within a control word. -/
def Ended (l : List Char) : Prop := (lexRun .neutral l).1 = .neutral ∨ ∃ acc, (lexRun .neutral l).1 = .word acc

/-- After a whole number of tokens. -/
def Done (l : List Char) : Prop := (lexRun .neutral l).1 = .neutral

/-- The text is not empty and does not begin with a letter. -/
def Starts : List Char → Prop
  | [] => False
  | c :: _ => c.isAlpha = false

theorem Starts.append {a : List Char} (b : List Char) (h : Starts a) : Starts (a ++ b) := by
  cases a with
  | nil => exact h.elim
  | cons c a => exact h

theorem lex_done {p : List Char} (h : Done p) (x : List Char) : lex (p ++ x) = lex p ++ lex x ∧ (lexRun .neutral (p ++ x)).1 = (lexRun .neutral x).1 := by
  have h' : (lexRun .neutral p).1 = .neutral := h
  constructor
  · simp only [lex, lexRun_append, h', Lex.rest, List.append_nil, List.append_assoc]
  · simp only [lexRun_append, h']

theorem lex_ended {a : List Char} (h : Ended a) {q : List Char} (hq : Starts q) : lex (a ++ q) = lex a ++ lex q ∧ (lexRun .neutral (a ++ q)).1 = (lexRun .neutral q).1 := by
  rcases h with h | ⟨acc, h⟩
  · exact lex_done h q
  · cases q with
    | nil => exact hq.elim
    | cons c q =>
      have hc : c.isAlpha = false := hq
      constructor
      · simp [lex, lexRun_append, h, lexRun, lexStep, hc, Lex.rest]
      · simp [lexRun_append, h, lexRun, lexStep, hc]

theorem done_append {p x : List Char} (h : Done p) (hx : Done x) : Done (p ++ x) := by rw [Done, (lex_done h x).2]; exact hx

theorem ended_append {p x : List Char} (h : Done p) (hx : Ended x) : Ended (p ++ x) := by rw [Ended, (lex_done h x).2]; exact hx

theorem done_ended {a q : List Char} (h : Ended a) (hq : Starts q) (hd : Done q) : Done (a ++ q) := by rw [Done, (lex_ended h hq).2]; exact hd

theorem run_append (s : Reader) (a b : List Tok) : s.run (a ++ b) = (s.run a).bind fun s' => s'.run b := by
  induction a generalizing s with
  | nil => rfl
  | cons t a ih => simp only [List.cons_append, Reader.run]; cases s.step t <;> simp [ih]

theorem step_ch {s : Reader} (h : s.name = .no) (c : Char) : s.step (.ch c) =
    if c = '{' then some (s.push .brace s.math (.ch c))
    else if c = '}' then s.pop .brace (.ch c)
    else if c = '$' then (if s.math then s.pop .dollar (.ch c) else some (s.push .dollar true (.ch c)))
    else if c = '_' then s.scripted (.ch c) false
    else if c = '^' then s.scripted (.ch c) true
    else some (s.atom (.ch c)) := by
  obtain ⟨a, b, n, d, e, f⟩ := s
  cases (h : n = .no); rfl

theorem step_open {s : Reader} (h : s.name = .no) : s.step (.ch '{') = some (s.push .brace s.math (.ch '{')) := by rw [step_ch h, if_pos rfl]

theorem step_close {s : Reader} (h : s.name = .no) : s.step (.ch '}') = s.pop .brace (.ch '}') := by rw [step_ch h, if_neg (by decide), if_pos rfl]

theorem step_word {s : Reader} (h : s.name = .no) (w : List Char) : s.step (.word w) =
    if w = "begin".toList then some { s with name := .want true }
    else if w = "end".toList then some { s with name := .want false }
    else if w = "left".toList then some (s.push .left s.math (.word w))
    else if w = "right".toList then s.pop .left (.word w)
    else if w = "noindent".toList ∧ s.math = false then some { s with script := .none, cur := [], out := s.flush }
    else some (s.atom (.word w)) := by
  obtain ⟨a, b, n, d, e, f⟩ := s
  cases (h : n = .no); rfl

/-- A list of tokens which, outside names of environments, leaves everything as it was, in text or in formulas. -/
def Inert (m : Bool) (l : List Tok) : Prop :=
  ∀ s : Reader, s.math = m → s.name = .no → s.script.pend = false → ∃ sc : Script, sc.pend = false ∧ s.run l = some { s with cur := s.cur ++ l, script := sc }

theorem Inert.nil (m : Bool) : Inert m [] := fun s _ _ h3 => ⟨s.script, h3, by simp [Reader.run]⟩

theorem Inert.append {m : Bool} {a b : List Tok} (ha : Inert m a) (hb : Inert m b) : Inert m (a ++ b) := by
  intro s h1 h2 h3
  obtain ⟨sa, pa, ea⟩ := ha s h1 h2 h3
  obtain ⟨sb, pb, eb⟩ := hb { s with cur := s.cur ++ a, script := sa } h1 h2 pa
  exact ⟨sb, pb, by rw [run_append, ea]; simp [eb]⟩

theorem next_pend (s : Script) : s.next.pend = false := by
  unfold Script.next; split <;> rfl

theorem next_of {s : Script} (h : s.pend = false) : s.next = .none := by simp [Script.next, h]

/-- A single symbol. -/
theorem Inert.atom {m : Bool} {t : Tok} (h : ∀ s : Reader, s.math = m → s.name = .no → s.step t = some (s.atom t)) : Inert m [t] := by
  intro s h1 h2 h3
  exact ⟨s.script.next, next_pend _, by simp [Reader.run, h s h1 h2, Reader.atom]⟩

theorem Inert.brace {m : Bool} {a : List Tok} (ha : Inert m a) : Inert m (.ch '{' :: a ++ [.ch '}']) := by
  intro s h1 h2 h3
  obtain ⟨sa, pa, ea⟩ := ha (s.push .brace s.math (.ch '{')) h1 h2 rfl
  refine ⟨s.script.next, next_pend _, ?_⟩
  rw [run_append, Reader.run, step_open h2, Option.bind_some, ea, Option.bind_some, Reader.run, step_close (by exact h2)]
  simp [Reader.run, Reader.push, Reader.pop, pa]

/-- Characters with no meaning for TeX, where they stand in text. -/
def plainChar (c : Char) : Bool := !(c == '\\' || c == '%' || c == '{' || c == '}' || c == '$' || c == '_' || c == '^')

theorem plain_inert (m : Bool) {c : Char} (h : plainChar c = true) : Inert m [.ch c] := by
  refine Inert.atom fun s _ h2 => ?_
  simp only [plainChar, Bool.not_eq_true', Bool.or_eq_false_iff, beq_eq_false_iff_ne, ne_eq] at h
  rw [step_ch h2]
  simp [h]

/-- Text which can stand in a paragraph (`false`) or in a formula (`true`). -/
structure Sound (m : Bool) (l : List Char) : Prop where
  ended : Ended l
  clean : '%' ∉ l
  inert : Inert m (lex l)

theorem lexRun_plain (l : List Char) (h : ∀ c ∈ l, plainChar c = true) : (lexRun .neutral l).1 = .neutral ∧ (lexRun .neutral l).2 = (l.filter fun c => !Text.ws c).map Tok.ch := by
  induction l with
  | nil => simp [lexRun]
  | cons c l ih =>
    have hc := h c (by simp)
    have hp : c ≠ '\\' ∧ c ≠ '%' := by
      simp only [plainChar, Bool.not_eq_true', Bool.or_eq_false_iff, beq_eq_false_iff_ne, ne_eq] at hc
      simp [hc]
    obtain ⟨i1, i2⟩ := ih fun d hd => h d (by simp [hd])
    by_cases hw : Text.ws c = true
    · simp [lexRun, lexStep, fresh, hp, hw, i1, i2]
    · simp [lexRun, lexStep, fresh, hp, hw, i1, i2]

theorem lex_plain {l : List Char} (h : ∀ c ∈ l, plainChar c = true) : Done l ∧ lex l = (l.filter fun c => !Text.ws c).map Tok.ch := by
  obtain ⟨h1, h2⟩ := lexRun_plain l h
  exact ⟨h1, by simp [lex, h1, h2, Lex.rest]⟩

theorem plain_sound (m : Bool) {l : List Char} (h : ∀ c ∈ l, plainChar c = true) : Sound m l := by
  obtain ⟨h1, h2⟩ := lex_plain h
  refine ⟨Or.inl h1, fun hc => by simpa [plainChar] using h _ hc, ?_⟩
  rw [h2]
  clear h1 h2
  induction l with
  | nil => exact Inert.nil m
  | cons c l ih =>
    have i := ih fun d hd => h d (by simp [hd])
    by_cases hw : Text.ws c = true
    · simpa [hw] using i
    · simpa [hw] using (plain_inert m (h c (by simp))).append i

theorem Sound.append {m : Bool} {a b : List Char} (ha : Sound m a) (hb : Sound m b) (h : Done a ∨ Starts b) : Sound m (a ++ b) := by
  have e : lex (a ++ b) = lex a ++ lex b ∧ (lexRun .neutral (a ++ b)).1 = (lexRun .neutral b).1 := by
    rcases h with h | h
    · exact lex_done h b
    · exact lex_ended ha.ended h
  refine ⟨?_, ?_, ?_⟩
  · have := hb.ended; unfold Ended at this ⊢; rwa [e.2]
  · simp only [List.mem_append, not_or]; exact ⟨ha.clean, hb.clean⟩
  · rw [e.1]; exact ha.inert.append hb.inert

/-- In brackets. -/
theorem Sound.brace {m : Bool} {a : List Char} (ha : Sound m a) : Sound m ('{' :: a ++ ['}']) ∧ Done ('{' :: a ++ ['}']) ∧ lex ('{' :: a ++ ['}']) = .ch '{' :: lex a ++ [.ch '}'] := by
  have e1 := lex_done (show Done ['{'] from rfl) (a ++ ['}'])
  have e2 := lex_ended ha.ended (show Starts ['}'] from rfl)
  have el : lex ('{' :: a ++ ['}']) = .ch '{' :: lex a ++ [.ch '}'] := by
    have : '{' :: a ++ ['}'] = ['{'] ++ (a ++ ['}']) := rfl
    rw [this, e1.1, e2.1]; rfl
  have ed : Done ('{' :: a ++ ['}']) := by
    have : '{' :: a ++ ['}'] = ['{'] ++ (a ++ ['}']) := rfl
    rw [Done, this, e1.2, e2.2]; rfl
  refine ⟨⟨Or.inl ed, by simpa using ha.clean, ?_⟩, ed, el⟩
  rw [el]; exact ha.inert.brace

end OpenSBLI.Tex
