import Verif.Model.Text
import Mathlib.Order.Lattice
import Mathlib.Order.Defs.LinearOrder
import Mathlib.Data.List.Basic
import Mathlib.Algebra.Order.Ring.Int

/-!
# C40 line wrapping, C41 printing of maxima
-/
namespace OpenSBLI.Text

/-! ## C40 -/

theorem splitP_ne_nil (p : Char → Bool) (l : List Char) : splitP p l ≠ [] := by
  cases l with
  | nil => simp [splitP]
  | cons c cs =>
    rw [splitP]
    split
    · simp
    · split <;> simp

theorem splitP_append_sep (p : Char → Bool) (a b : List Char) (s : Char) (hs : p s = true) :
    splitP p (a ++ s :: b) = splitP p a ++ splitP p b := by
  induction a with
  | nil => simp [splitP, hs]
  | cons c cs ih =>
    simp only [List.cons_append, splitP]
    split
    · rw [ih]; rfl
    · rw [ih]
      cases h : splitP p cs with
      | nil => exact absurd h (splitP_ne_nil p cs)
      | cons w ws => simp

theorem splitP_no_sep (p : Char → Bool) (a : List Char) (h : ∀ c ∈ a, p c = false) : splitP p a = [a] := by
  induction a with
  | nil => rfl
  | cons c cs ih =>
    rw [splitP, if_neg (by simp [h c (List.mem_cons_self ..)]), ih (fun x hx => h x (List.mem_cons_of_mem _ hx))]

theorem words_append_ws (a b : List Char) (s : Char) (hs : ws s = true) : words (a ++ s :: b) = words a ++ words b := by
  rw [words, splitP_append_sep ws a b s hs, List.filter_append]; rfl

theorem words_nil : words [] = [] := by simp [words, splitP]

theorem words_blank (a b : List Char) (ha : ∀ c ∈ a, ws c = true) : words (a ++ b) = words b := by
  induction a with
  | nil => rfl
  | cons c cs ih =>
    have := words_append_ws [] (cs ++ b) c (ha c (List.mem_cons_self ..))
    rw [words_nil, List.nil_append, List.nil_append] at this
    rw [List.cons_append, this, ih (fun x hx => ha x (List.mem_cons_of_mem _ hx))]

theorem words_trailing (a b : List Char) (hb : ∀ c ∈ b, ws c = true) : words (a ++ b) = words a := by
  cases b with
  | nil => simp
  | cons c cs =>
    rw [words_append_ws a cs c (hb c (List.mem_cons_self ..))]
    have := words_blank cs [] (fun x hx => hb x (List.mem_cons_of_mem _ hx))
    rw [List.append_nil, words_nil] at this
    rw [this, List.append_nil]

/-- The first separator. -/
theorem first_sep (p : Char → Bool) (l : List Char) :
    (∀ c ∈ l, p c = false) ∨ ∃ a s b, l = a ++ s :: b ∧ (∀ c ∈ a, p c = false) ∧ p s = true := by
  induction l with
  | nil => left; simp
  | cons c cs ih =>
    by_cases hc : p c = true
    · exact Or.inr ⟨[], c, cs, rfl, by simp, hc⟩
    · have hc : p c = false := by simpa using hc
      rcases ih with h | ⟨a, s, b, rfl, ha, hs⟩
      · left; intro x hx
        rcases List.mem_cons.1 hx with rfl | hx
        · exact hc
        · exact h x hx
      · right
        refine ⟨c :: a, s, b, rfl, ?_, hs⟩
        intro x hx
        rcases List.mem_cons.1 hx with rfl | hx
        · exact hc
        · exact ha x hx

theorem words_splitSpace (l : List Char) : (splitSpace l).flatMap words = words l := by
  induction hn : l.length using Nat.strong_induction_on generalizing l with
  | _ n ih =>
    rcases first_sep (fun c => c == ' ') l with h | ⟨a, s, b, rfl, ha, hs⟩
    · rw [splitSpace, splitP_no_sep _ _ h]; simp
    · have hsp : s = ' ' := by simpa using hs
      subst hsp
      have hb : b.length < n := by rw [← hn]; simp; omega
      have e : splitSpace (a ++ ' ' :: b) = a :: splitSpace b := by
        rw [splitSpace, splitP_append_sep (fun c => c == ' ') _ _ _ hs, splitP_no_sep _ _ ha]; rfl
      rw [e, List.flatMap_cons, ih _ hb b rfl, words_append_ws a b ' ' rfl]

theorem replicate_ws (k : ℕ) : ∀ c ∈ List.replicate k ' ', ws c = true := by
  intro c hc; rw [List.eq_of_mem_replicate hc]; rfl

/-- The words of the lines produced by the loop. -/
theorem wrapLoop_words (limit lead : ℕ) (pieces done : List (List Char)) (string : List Char) :
    (wrapLoop limit lead pieces done string).flatMap words = done.flatMap words ++ words string ++ pieces.flatMap words := by
  induction pieces generalizing done string with
  | nil => simp [wrapLoop]
  | cons s rest ih =>
    rw [wrapLoop]
    split
    · rw [ih, words_blank _ _ (replicate_ws _)]
      simp
    · rw [ih, words_append_ws string s ' ' rfl]
      simp

theorem mem_takeWhile {p : Char → Bool} {l : List Char} {c : Char} (h : c ∈ l.takeWhile p) : p c = true := by
  induction l with
  | nil => simp at h
  | cons x xs ih =>
    rw [List.takeWhile_cons] at h
    split at h
    · rcases List.mem_cons.1 h with rfl | h
      · assumption
      · exact ih h
    · simp at h

/-- What the compiler sees of a list of lines: the text joined by new lines. -/
def joined (lines : List (List Char)) : List Char := lines.flatMap fun l => l ++ ['\n']

theorem words_joined (lines : List (List Char)) : words (joined lines) = lines.flatMap words := by
  induction lines with
  | nil => rfl
  | cons l ls ih =>
    rw [joined, List.flatMap_cons, List.append_assoc]
    exact (words_append_ws l (joined ls) '\n' rfl).trans (by rw [ih]; rfl)

theorem mem_splitP {p : Char → Bool} {l w : List Char} (h : w ∈ splitP p l) : ∀ c ∈ w, p c = false := by
  induction l generalizing w with
  | nil => simp only [splitP, List.mem_singleton] at h; subst h; simp
  | cons x xs ih =>
    rw [splitP] at h
    split at h
    · rcases List.mem_cons.1 h with rfl | h
      · simp
      · exact ih h
    · rename_i hx
      cases e : splitP p xs with
      | nil => exact absurd e (splitP_ne_nil p xs)
      | cons w' ws' =>
        rw [e] at h
        simp only [List.mem_cons] at h
        rcases h with rfl | h
        · intro c hc
          rcases List.mem_cons.1 hc with rfl | hc
          · simpa using hx
          · exact ih (by rw [e]; exact List.mem_cons_self ..) c hc
        · exact ih (by rw [e]; exact List.mem_cons_of_mem _ h)

/-- Concatenating the words is removing the white space. -/
theorem words_flatten (l : List Char) : (words l).flatten = l.filter (fun c => !ws c) := by
  have : ∀ l : List Char, (splitP ws l).flatten = l.filter (fun c => !ws c) := by
    intro l
    induction l with
    | nil => rfl
    | cons c cs ih =>
      rw [splitP]
      split
      · rename_i h; simp [h, ih]
      · rename_i h
        cases e : splitP ws cs with
        | nil => exact absurd e (splitP_ne_nil ws cs)
        | cons w ws' =>
          rw [e] at ih
          simp only [List.flatten_cons] at ih
          simp [h, ← ih]
  rw [words, ← this l]
  generalize splitP ws l = ll
  induction ll with
  | nil => rfl
  | cons w ll ih => cases w <;> simp [ih]

/-- C40: wrapping never raises, and the words (tokens separated by white space) seen by the compiler, their contents and their order, are those of
the original line; the number of characters allowed on a line is arbitrary. -/
theorem C40_line_preserves_words (limit : ℕ) (code : List Char) :
    ∃ out, wrapLine limit code = some out ∧ words (joined out) = words code := by
  unfold wrapLine
  split
  · set lead := code.length - (lstrip code).length
    set out := wrapLoop limit lead (splitSpace (lstrip code)) [] (List.replicate lead ' ')
    have hstrip : words (lstrip code) = words code := by
      have h := List.takeWhile_append_dropWhile (p := ws) (l := code)
      conv_rhs => rw [← h]
      rw [words_blank _ _ (fun c hc => mem_takeWhile hc)]
      rfl
    have hblank : words (List.replicate lead ' ') = [] := by
      have := words_blank (List.replicate lead ' ') [] (replicate_ws _)
      rwa [List.append_nil, words_nil] at this
    have hw : out.flatMap words = words code := by
      rw [show out = wrapLoop limit lead (splitSpace (lstrip code)) [] (List.replicate lead ' ') from rfl, wrapLoop_words, words_splitSpace,
        hblank, hstrip]
      rfl
    have hcheck : (words out.flatten).flatten = (words code).flatten := by
      rw [words_flatten, ← hw]
      have : ∀ ll : List (List Char), ll.flatten.filter (fun c => !ws c) = (ll.flatMap words).flatten := by
        intro ll
        induction ll with
        | nil => rfl
        | cons w ll ih => rw [List.flatten_cons, List.filter_append, ih, List.flatMap_cons, List.flatten_append, words_flatten]
      exact this out
    exact ⟨out, if_pos hcheck, by rw [words_joined, hw]⟩
  · exact ⟨[code], rfl, by rw [words_joined]; simp⟩

/-- C40: the same for a whole file. -/
theorem C40_file_preserves_words (limit : ℕ) (code : List (List Char)) :
    ∃ out, wrapLines limit code = some out ∧ words (joined out) = words (joined code) := by
  induction code with
  | nil => exact ⟨[], rfl, rfl⟩
  | cons l ls ih =>
    obtain ⟨o1, h1, h1'⟩ := C40_line_preserves_words limit l
    obtain ⟨o2, h2, h2'⟩ := ih
    rw [wrapLines, Option.map_eq_some_iff] at h2
    obtain ⟨m, hm, rfl⟩ := h2
    refine ⟨o1 ++ m.flatten, ?_, ?_⟩
    · simp [wrapLines, List.mapM_cons, h1, hm]
    · rw [words_joined] at *
      rw [words_joined] at *
      rw [List.flatMap_append, h1', h2', List.flatMap_cons]

/-- C40: the non-blank characters are preserved. -/
theorem C40_nonblank_characters (limit : ℕ) (code : List (List Char)) (out : List (List Char)) (h : wrapLines limit code = some out) :
    (joined out).filter (fun c => !ws c) = (joined code).filter (fun c => !ws c) := by
  obtain ⟨o, ho, hw⟩ := C40_file_preserves_words limit code
  rw [h] at ho
  cases ho
  rw [← words_flatten, ← words_flatten, hw]

/-- C40: short lines are untouched. -/
theorem C40_short_lines (limit : ℕ) (code : List Char) (h : code.length ≤ limit) : wrapLine limit code = some [code] := by
  rw [wrapLine, if_neg (by omega)]

/-- C40: every line produced fits, is blank, or consists of indentation and a single space-free piece of the source that cannot be broken. -/
theorem C40_line_length (limit : ℕ) (code : List Char) (out : List (List Char)) (h : wrapLine limit code = some out) (l : List Char) (hl : l ∈ out) :
    l.length ≤ limit ∨ (∀ c ∈ l, c = ' ') ∨ ∃ k s, l = List.replicate k ' ' ++ s ∧ s <:+: code ∧ ' ' ∉ s := by
  unfold wrapLine at h
  split at h
  · simp only [Option.ite_none_right_eq_some, Option.some.injEq] at h
    obtain ⟨-, rfl⟩ := h
    have hpieces : ∀ s ∈ splitSpace (lstrip code), s <:+: code ∧ ' ' ∉ s := by
      intro s hs
      refine ⟨?_, fun hc => by simpa using mem_splitP hs ' ' hc⟩
      have hsuf : lstrip code <:+ code := List.dropWhile_suffix _
      refine List.IsInfix.trans ?_ hsuf.isInfix
      generalize lstrip code = t at hs
      induction hn : t.length using Nat.strong_induction_on generalizing t with
      | _ n ih =>
        rcases first_sep (fun c => c == ' ') t with h | ⟨a, sep, b, rfl, ha, hsep⟩
        · rw [splitSpace, splitP_no_sep _ _ h, List.mem_singleton] at hs
          rw [hs]
        · rw [splitSpace, splitP_append_sep (fun c => c == ' ') _ _ _ hsep, splitP_no_sep _ _ ha] at hs
          rcases List.mem_cons.1 hs with rfl | hs
          · exact (List.prefix_append ..).isInfix
          · have hb : b.length < n := by rw [← hn]; simp; omega
            exact (ih _ hb b hs rfl).trans ⟨a ++ [sep], [], by simp⟩
    generalize splitSpace (lstrip code) = pieces at hl hpieces
    generalize code.length - (lstrip code).length = lead at hl
    have key : ∀ (pieces done : List (List Char)) (string : List Char),
        (∀ s ∈ pieces, s <:+: code ∧ ' ' ∉ s) →
        (∀ l ∈ done, l.length ≤ limit ∨ (∀ c ∈ l, c = ' ') ∨ ∃ k s, l = List.replicate k ' ' ++ s ∧ s <:+: code ∧ ' ' ∉ s) →
        (string.length ≤ limit ∨ (∀ c ∈ string, c = ' ') ∨ ∃ k s, string = List.replicate k ' ' ++ s ∧ s <:+: code ∧ ' ' ∉ s) →
        ∀ l ∈ wrapLoop limit lead pieces done string,
          l.length ≤ limit ∨ (∀ c ∈ l, c = ' ') ∨ ∃ k s, l = List.replicate k ' ' ++ s ∧ s <:+: code ∧ ' ' ∉ s := by
      intro pieces
      induction pieces with
      | nil =>
        intro done string _ hd hs l hl
        rw [wrapLoop, List.mem_append, List.mem_singleton] at hl
        rcases hl with hl | rfl
        · exact hd l hl
        · exact hs
      | cons s rest ih =>
        intro done string hp hd hs l hl
        have hp' := fun x hx => hp x (List.mem_cons_of_mem _ hx)
        rw [wrapLoop] at hl
        split at hl
        · refine ih _ _ hp' ?_ ?_ l hl
          · intro x hx
            rcases List.mem_append.1 hx with hx | hx
            · exact hd x hx
            · rw [List.mem_singleton.1 hx]; exact hs
          · exact Or.inr (Or.inr ⟨_, s, rfl, hp s (List.mem_cons_self ..)⟩)
        · refine ih _ _ hp' hd (Or.inl ?_) l hl
          simp only [List.length_append, List.length_cons]
          omega
    exact key pieces [] _ hpieces (by simp) (Or.inr (Or.inl fun c hc => List.eq_of_mem_replicate hc)) l hl
  · simp only [Option.some.injEq] at h
    subst h
    rw [List.mem_singleton] at hl
    subst hl
    left; omega

/-- Wrapping at 10 characters. -/
example : wrapLine 10 "a = bbb + ccc*ddd;".toList = some [" a = bbb +".toList, "ccc*ddd;".toList] := by decide +kernel

/-! ## C41 -/

variable {α : Type} {V : Type} [LinearOrder V]

/-- Value of a printed expression, with `fmax` the maximum of two numbers. -/
def MaxExpr.eval (v : α → V) : MaxExpr α → V
  | .arg a => v a
  | .fmax a b => max (a.eval v) (b.eval v)

/-- `m` is the largest of the values of the arguments. -/
def IsMax (v : α → V) (args : List α) (m : V) : Prop := (∃ a ∈ args, m = v a) ∧ ∀ a ∈ args, v a ≤ m

theorem printMaxLoop_spec (v : α → V) (k : ℕ) (l : List (MaxExpr α)) (hl : l.length = k + 1) :
    ∃ e, printMaxLoop k l = some [e] ∧ (∃ x ∈ l, e.eval v = x.eval v) ∧ ∀ x ∈ l, x.eval v ≤ e.eval v := by
  induction k generalizing l with
  | zero =>
    match l, hl with
    | [e], _ => exact ⟨e, rfl, ⟨e, by simp, rfl⟩, by simp⟩
  | succ k ih =>
    match l, hl with
    | a :: b :: l, hl =>
      obtain ⟨e, he, ⟨x, hx, hex⟩, hmax⟩ := ih (.fmax b a :: l) (by simpa using hl)
      have hba := hmax _ (List.mem_cons_self ..)
      simp only [MaxExpr.eval, max_le_iff] at hba
      refine ⟨e, he, ?_, ?_⟩
      · rcases List.mem_cons.1 hx with rfl | hx
        · simp only [MaxExpr.eval] at hex
          rcases max_choice (b.eval v) (a.eval v) with h | h
          · exact ⟨b, by simp, hex.trans h⟩
          · exact ⟨a, by simp, hex.trans h⟩
        · exact ⟨x, by simp [hx], hex⟩
      · intro y hy
        rcases List.mem_cons.1 hy with rfl | hy
        · exact hba.2
        · rcases List.mem_cons.1 hy with rfl | hy
          · exact hba.1
          · exact hmax y (List.mem_cons_of_mem _ hy)

/-- C41: for every non-empty list of arguments and all values, printing succeeds and the printed nested calls evaluate to the maximum. -/
theorem C41_nested_maximum (v : α → V) (args : List α) (h : args ≠ []) :
    ∃ e, printMax args = some e ∧ IsMax v args (e.eval v) := by
  have hlen : (args.map MaxExpr.arg).reverse.length = (args.length - 1) + 1 := by
    have := List.length_pos_iff.2 h
    simp; omega
  obtain ⟨e, he, ⟨x, hx, hex⟩, hmax⟩ := printMaxLoop_spec v _ _ hlen
  refine ⟨e, by simp [printMax, he], ?_, ?_⟩
  · simp only [List.mem_reverse, List.mem_map] at hx
    obtain ⟨a, ha, rfl⟩ := hx
    exact ⟨a, ha, hex⟩
  · intro a ha
    exact hmax (.arg a) (by simp [ha])

/-- `Max(a, b, c, d)` is written as `fmax(a, fmax(b, fmax(c, d)))`. -/
example : printMax [1, 2, 3, 4] = some (.fmax (.arg 1) (.fmax (.arg 2) (.fmax (.arg 3) (.arg 4)))) := rfl

end OpenSBLI.Text
