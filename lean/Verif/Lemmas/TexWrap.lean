import Verif.Lemmas.Tex

/-! `textwrap.wrap` does not change the tokens of a text. -/
namespace OpenSBLI.Tex
open OpenSBLI Latex

/-- What is used of the regular expression `textwrap` splits with: nothing is lost, no chunk is empty, and between two chunks there is white space, in one of them, or the first ends with a hyphen. -/
structure Splits (split : List Char → List (List Char)) : Prop where
  flatten : ∀ l, (split l).flatten = l
  nonempty : ∀ l, [] ∉ split l
  chain : ∀ l, (split l).IsChain fun a b => blank a = true ∨ blank b = true ∨ a.getLast? = some '-'

theorem ws_cases {c : Char} (h : Text.ws c = true) : c = ' ' ∨ c = '\t' ∨ c = '\n' ∨ c = '\r' ∨ c = '\x0b' ∨ c = '\x0c' := by
  simpa [Text.ws, or_assoc] using h

theorem ws_step {st : Lex} (h : st ≠ .comment) {c : Char} (hc : Text.ws c = true) : lexStep st c = lexStep st ' ' ∧ (lexStep st c).1 = .neutral := by
  rcases ws_cases hc with rfl | rfl | rfl | rfl | rfl | rfl <;> cases st <;> first | exact absurd rfl h | exact ⟨rfl, rfl⟩

theorem ws_run {w : List Char} (hw : ∀ c ∈ w, Text.ws c = true) : lexRun .neutral w = (.neutral, []) := by
  induction w with
  | nil => rfl
  | cons c w ih =>
    have h := ws_step (st := .neutral) (by simp) (hw c (by simp))
    have h2 : lexStep .neutral c = (.neutral, []) := by rw [h.1]; rfl
    simp [lexRun, h2, ih fun d hd => hw d (by simp [hd])]

theorem blank_run {st : Lex} (h : st ≠ .comment) {w : List Char} (hn : w ≠ []) (hw : ∀ c ∈ w, Text.ws c = true) : lexRun st w = lexRun st [' '] ∧ (lexRun st w).1 = .neutral := by
  cases w with
  | nil => exact absurd rfl hn
  | cons c w =>
    have h1 := ws_step h (hw c (by simp))
    have h2 := ws_run (w := w) fun d hd => hw d (List.mem_cons_of_mem _ hd)
    have h3 := (ws_step h (show Text.ws ' ' = true from rfl)).2
    constructor
    · simp [lexRun, h1.1, h3, h2]
    · simp [lexRun, h1.1, h3, h2]

theorem run_noncomment {st : Lex} (h : st ≠ .comment) {l : List Char} (hl : '%' ∉ l) : (lexRun st l).1 ≠ .comment := by
  induction l generalizing st with
  | nil => exact h
  | cons c l ih =>
    simp only [List.mem_cons, not_or] at hl
    have hc : c ≠ '%' := fun e => hl.1 e.symm
    refine ih (st := (lexStep st c).1) ?_ hl.2
    cases st with
    | comment => exact absurd rfl h
    | neutral => simp only [lexStep, fresh]; split_ifs <;> simp
    | esc => simp only [lexStep]; split_ifs <;> simp
    | word acc => simp only [lexStep, fresh]; split_ifs <;> simp

/-- Two texts with the same tokens, in a file. -/
theorem run_congr {a b c : List Char} {st : Lex} (h : lexRun (lexRun st a).1 b = lexRun (lexRun st a).1 c) : lexRun st (a ++ b) = lexRun st (a ++ c) := by
  rw [lexRun_append, lexRun_append, h]

theorem run_left {a b : List Char} {st : Lex} (h : lexRun st a = lexRun st b) (t : List Char) : lexRun st (a ++ t) = lexRun st (b ++ t) := by
  rw [lexRun_append, lexRun_append, h]

/-- White space twice. -/
theorem space_twice {a w : List Char} (ha : '%' ∉ a) (hw : ∀ c ∈ w, Text.ws c = true) (t : List Char) : lexRun .neutral (a ++ (w ++ ' ' :: t)) = lexRun .neutral (a ++ ' ' :: t) := by
  refine run_congr ?_
  have hs : (lexRun .neutral a).1 ≠ .comment := run_noncomment (by simp) ha
  have h1 : lexRun (lexRun .neutral a).1 (w ++ [' ']) = lexRun (lexRun .neutral a).1 [' '] := (blank_run hs (by simp) (by
    intro c hc; rcases List.mem_append.1 hc with h | h
    · exact hw c h
    · simp at h; subst h; rfl)).1
  have := run_left h1 t
  simpa using this

theorem space_before {a w : List Char} (ha : '%' ∉ a) (hn : w ≠ []) (hw : ∀ c ∈ w, Text.ws c = true) (t : List Char) : lexRun .neutral (a ++ ' ' :: (w ++ t)) = lexRun .neutral (a ++ (w ++ t)) := by
  refine run_congr ?_
  have hs : (lexRun .neutral a).1 ≠ .comment := run_noncomment (by simp) ha
  have h1 : lexRun (lexRun .neutral a).1 (' ' :: w) = lexRun (lexRun .neutral a).1 w := by
    rw [(blank_run hs (w := ' ' :: w) (by simp) (by
      intro c hc; rcases List.mem_cons.1 hc with h | h
      · subst h; rfl
      · exact hw c h)).1, (blank_run hs hn hw).1]
  have := run_left h1 t
  simpa using this

theorem blank_ws {c : List Char} (h : blank c = true) : ∀ x ∈ c, Text.ws x = true := by simpa [blank] using h

theorem space_neutral {a : List Char} (h : (lexRun .neutral a).1 = .neutral) (t : List Char) : lexRun .neutral (a ++ ' ' :: t) = lexRun .neutral (a ++ t) := by
  refine run_congr ?_
  rw [h]; rfl

/-- A space between two chunks changes nothing. -/
theorem insert_space {a b : List (List Char)} (hn : [] ∉ a ++ b) (hc : (a ++ b).IsChain fun x y => blank x = true ∨ blank y = true ∨ x.getLast? = some '-') (hp : '%' ∉ (a ++ b).flatten) :
    lexRun .neutral (a.flatten ++ ' ' :: (b.flatten ++ [' '])) = lexRun .neutral (a.flatten ++ (b.flatten ++ [' '])) := by
  have hpa : '%' ∉ a.flatten := fun h => hp (by rw [List.flatten_append]; simp [h])
  rcases List.eq_nil_or_concat a with rfl | ⟨a', x, rfl⟩
  · exact space_neutral (a := []) rfl _
  · cases b with
    | nil => simpa using space_twice hpa (w := [' ']) (by simp [Text.ws]) []
    | cons y b =>
      have hxy : blank x = true ∨ blank y = true ∨ x.getLast? = some '-' := by
        have := List.isChain_append.1 hc
        exact this.2.2 x (by simp) y (by simp)
      have hx0 : x ≠ [] := fun e => hn (by simp [e])
      have hy0 : y ≠ [] := fun e => hn (by simp [e])
      rcases hxy with h | h | h
      · refine space_neutral ?_ _
        have hpa' : '%' ∉ a'.flatten := fun h => hpa (by simp [h])
        have hs : (lexRun .neutral a'.flatten).1 ≠ .comment := run_noncomment (by simp) hpa'
        rw [List.concat_eq_append, List.flatten_append, lexRun_append]
        simpa using (blank_run hs hx0 (blank_ws h)).2
      · have := space_before hpa hy0 (blank_ws h) (b.flatten ++ [' '])
        simpa using this
      · refine space_neutral ?_ _
        obtain ⟨x', rfl⟩ : ∃ x', x = x' ++ ['-'] := by
          rw [List.getLast?_eq_some_iff] at h; exact h
        have hpa' : '%' ∉ a'.flatten ++ x' := fun h => hpa (by rcases List.mem_append.1 h with h | h <;> simp [h])
        have hs : (lexRun .neutral (a'.flatten ++ x')).1 ≠ .comment := run_noncomment (by simp) hpa'
        have e : (List.concat a' (x' ++ ['-'])).flatten = (a'.flatten ++ x') ++ ['-'] := by simp
        rw [e, lexRun_append]
        generalize (lexRun .neutral (a'.flatten ++ x')).1 = st at hs ⊢
        cases st <;> first | exact absurd rfl hs | rfl

theorem fit_append (w : ℕ) (l : List (List Char)) (len : ℕ) : (fit w len l).1 ++ (fit w len l).2 = l := by
  induction l generalizing len with
  | nil => rfl
  | cons c l ih => simp only [fit]; split_ifs <;> simp [ih]

theorem longWord_append (w : ℕ) (x : List (List Char) × List (List Char)) : (longWord w x).1 ++ (longWord w x).2 = x.1 ++ x.2 := by
  unfold longWord
  split
  · next c r h => split_ifs with h'
                  · simp [h, h'.2]
                  · rfl
  · rfl

theorem longWord_first (w : ℕ) {c : List Char} {l : List (List Char)} : (longWord w (fit w 0 (c :: l))).1 ≠ [] := by
  by_cases h : c.length ≤ w
  · have : (fit w 0 (c :: l)).1 = c :: (fit w (0 + c.length) l).1 := by simp [fit, h]
    unfold longWord
    split
    · split_ifs with h'
      · simp
      · simp [this]
    · simp [this]
  · have : fit w 0 (c :: l) = ([], c :: l) := by simp [fit, h]
    simp [this, longWord, Nat.lt_of_not_le h]

theorem dropBlank_run {cur : List (List Char)} (hp : '%' ∉ cur.flatten) (t : List Char) : lexRun .neutral ((dropBlank cur).flatten ++ ' ' :: t) = lexRun .neutral (cur.flatten ++ ' ' :: t) := by
  unfold dropBlank
  split_ifs with h
  · rcases List.eq_nil_or_concat cur with rfl | ⟨a, x, rfl⟩
    · rfl
    · have hb : blank x = true := by simpa using h
      have hp' : '%' ∉ a.flatten := fun h => hp (by simp [h])
      have := space_twice hp' (blank_ws hb) t
      simpa using this.symm
  · rfl

/-- The rest of a file from a list of lines on. -/
def tailLines (ls : List (List Char)) : List Char := joinLines ls ++ "\n\n".toList

theorem tail_cons {a : List Char} (ha : '%' ∉ a) (ls : List (List Char)) : lexRun .neutral (tailLines (a :: ls)) = lexRun .neutral (a ++ ' ' :: tailLines ls) := by
  cases ls with
  | nil =>
    have hs : (lexRun .neutral a).1 ≠ .comment := run_noncomment (by simp) ha
    change lexRun .neutral (a ++ "\n\n".toList) = _
    refine run_congr ?_
    rw [(blank_run hs (w := "\n\n".toList) (by decide) (by decide)).1, (blank_run hs (w := ' ' :: tailLines []) (by decide) (by decide)).1]
  | cons b l =>
    have e : tailLines (a :: b :: l) = a ++ ' ' :: (['\n'] ++ tailLines (b :: l)) := by simp [tailLines, joinLines]
    rw [e]
    refine run_congr ?_
    have hs : (lexRun .neutral a).1 ≠ .comment := run_noncomment (by simp) ha
    have h1 : lexRun (lexRun .neutral a).1 [' ', '\n'] = lexRun (lexRun .neutral a).1 [' '] := (blank_run hs (by simp) (by decide)).1
    simpa using run_left h1 (tailLines (b :: l))

theorem wrapChunks_run (w n : ℕ) (first : Bool) (chunks : List (List Char)) (hlen : chunks.length ≤ n) (hn : [] ∉ chunks)
    (hc : chunks.IsChain fun x y => blank x = true ∨ blank y = true ∨ x.getLast? = some '-') (hp : '%' ∉ chunks.flatten) :
    lexRun .neutral (tailLines (wrapChunks w n first chunks)) = lexRun .neutral (chunks.flatten ++ [' ']) := by
  induction n generalizing first chunks with
  | zero =>
    have : chunks = [] := by simpa using hlen
    subst this; rfl
  | succ n ih =>
    cases chunks with
    | nil => rfl
    | cons c cs =>
      set cs0 := if !first && blank c then cs else c :: cs with hcs0
      have e0 : lexRun .neutral ((c :: cs).flatten ++ [' ']) = lexRun .neutral (cs0.flatten ++ [' ']) := by
        rw [hcs0]
        split_ifs with h
        · have hb : blank c = true := by simp at h; exact h.2
          rw [List.flatten_cons, List.append_assoc, lexRun_append, ws_run (blank_ws hb)]
          simp
        · rfl
      have hsuf : cs0 <:+ c :: cs := by
        rw [hcs0]; split_ifs
        · exact List.suffix_cons c cs
        · exact List.suffix_rfl
      set x := longWord w (fit w 0 cs0) with hx
      have hap : x.1 ++ x.2 = cs0 := by rw [hx, longWord_append, fit_append]
      have hn0 : [] ∉ x.1 ++ x.2 := by rw [hap]; exact fun h => hn (hsuf.subset h)
      have hc0 : (x.1 ++ x.2).IsChain fun x y => blank x = true ∨ blank y = true ∨ x.getLast? = some '-' := by rw [hap]; exact hc.suffix hsuf
      have hp0 : '%' ∉ (x.1 ++ x.2).flatten := by
        rw [hap]; intro h
        obtain ⟨l, hl, hm⟩ := List.mem_flatten.1 h
        exact hp (List.mem_flatten.2 ⟨l, hsuf.subset hl, hm⟩)
      have hp1 : '%' ∉ x.1.flatten := fun h => hp0 (by rw [List.flatten_append]; exact List.mem_append_left _ h)
      have hp2 : '%' ∉ x.2.flatten := fun h => hp0 (by rw [List.flatten_append]; exact List.mem_append_right _ h)
      have hlen2 : x.2.length ≤ n := by
        have hl : x.1.length + x.2.length = cs0.length := by rw [← hap, List.length_append]
        have hcl : cs.length ≤ n := by simpa using hlen
        by_cases h : (!first && blank c) = true
        · have : cs0 = cs := by rw [hcs0, if_pos h]
          rw [this] at hl; omega
        · have h1 : cs0 = c :: cs := by rw [hcs0, if_neg h]
          have h2 : x.1 ≠ [] := by rw [hx, h1]; exact longWord_first w
          have h3 : 0 < x.1.length := List.length_pos_iff.2 h2
          rw [h1, List.length_cons] at hl; omega
      have ihx (f : Bool) := ih f x.2 hlen2 (fun h => hn0 (List.mem_append_right _ h)) (List.isChain_append.1 hc0).2.1 hp2
      have key : lexRun .neutral ((dropBlank x.1).flatten ++ ' ' :: (x.2.flatten ++ [' '])) = lexRun .neutral (cs0.flatten ++ [' ']) := by
        rw [dropBlank_run hp1, insert_space hn0 hc0 hp0, ← hap]; simp
      have hw : wrapChunks w (n + 1) first (c :: cs) = if dropBlank x.1 = [] then wrapChunks w n first x.2 else (dropBlank x.1).flatten :: wrapChunks w n false x.2 := rfl
      rw [hw, e0, ← key]
      split_ifs with h
      · rw [h, ihx first]; exact (space_neutral (a := []) rfl _).symm
      · have hpd : '%' ∉ (dropBlank x.1).flatten := by
          intro hm; refine hp1 ?_
          unfold dropBlank at hm
          split_ifs at hm
          · obtain ⟨l, hl, hm⟩ := List.mem_flatten.1 hm
            exact List.mem_flatten.2 ⟨l, List.mem_of_mem_dropLast hl, hm⟩
          · exact hm
        rw [tail_cons hpd]
        refine run_congr ?_
        have hs : (lexRun .neutral (dropBlank x.1).flatten).1 ≠ .comment := run_noncomment (by simp) hpd
        have h2 : (lexRun (lexRun .neutral (dropBlank x.1).flatten).1 [' ']).1 = .neutral := (blank_run hs (w := [' ']) (by simp) (by decide)).2
        have e1 : ∀ t, ' ' :: t = [' '] ++ t := fun t => rfl
        rw [e1, e1 (x.2.flatten ++ [' ']), lexRun_append, lexRun_append, h2, ihx false]

theorem munge_run {l : List Char} (hp : '%' ∉ l) (st : Lex) (h : st ≠ .comment) : lexRun st (munge l) = lexRun st l := by
  induction l generalizing st with
  | nil => rfl
  | cons c l ih =>
    have hp' : '%' ∉ l := fun h => hp (by simp [h])
    have hst : (lexStep st c).1 ≠ .comment := run_noncomment h (l := [c]) (fun hm => hp (List.mem_cons.2 (Or.inl (by simpa using hm))))
    have e : lexStep st (if Text.ws c then ' ' else c) = lexStep st c := by
      split_ifs with hw
      · exact (ws_step h hw).1.symm
      · rfl
    change lexRun st ((if Text.ws c then ' ' else c) :: munge l) = _
    simp only [lexRun, e, ih hp' _ hst]

/-- Wrapping leaves the tokens of a text as they are. -/
theorem wrap_run {split : List Char → List (List Char)} (hs : Splits split) (w : ℕ) {l : List Char} (hp : '%' ∉ l) :
    lexRun .neutral (tailLines (wrap split w l)) = lexRun .neutral (l ++ [' ']) := by
  have hm : '%' ∉ munge l := by
    intro h
    obtain ⟨c, hc, e⟩ := List.mem_map.1 h
    split_ifs at e with hw
    · exact absurd e (by decide)
    · exact hp (e ▸ hc)
  rw [wrap, wrapChunks_run _ _ _ _ le_rfl (hs.nonempty _) (hs.chain _) (by rw [hs.flatten]; exact hm), hs.flatten]
  exact run_left (munge_run hp .neutral (by simp)) [' ']

end OpenSBLI.Tex
