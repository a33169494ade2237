import Verif.Lemmas.TexPrint

/-!
# C103: the LaTeX documents

Documents are read with `Tex.read`, which knows nothing of the writer.
-/
namespace OpenSBLI.Tex
open OpenSBLI Latex

/-- What a document must contain for a call: a paragraph for a string, a formula for every expression. -/
def opItems (P : Sympy) : Op → List Item
  | .string s => [.text (lex s ++ [.sym '\\'])]
  | .expression es => es.map fun e => .math "dmath".toList (lex (e.print P))

/-- What is asked of strings and expressions: the texts can stand in a paragraph, or in a formula. -/
def OpOk (P : Sympy) : Op → Prop
  | .string s => Sound false s
  | .expression es => ∀ e ∈ es, Sound true (e.print P)

/-- The header before the document begins. -/
def preamble (title : List Char) : List Char :=
  "\\documentclass{article}\n\\title".toList ++ ('{' :: title ++ ['}'])
    ++ "\n\\author{Satya P Jammy \\& OpenSBLI developers team}\n\\date{\\today}\n\\usepackage{color}\n\\usepackage{amsmath}\n\\usepackage{breqn}\n".toList

/-- Preamble and title. -/
def headItems (title : List Char) : List Item := [.text (lex (preamble title)), .text [.word "maketitle".toList]]

/-! ## Tokens of the calls -/

theorem string_lex {s : List Char} (hs : Sound false s) : Done (writeString s) ∧ lex (writeString s) = .word "noindent".toList :: lex s ++ [.sym '\\'] := by
  have q1 := lex_done (show Done "\\noindent ".toList from rfl) (s ++ "\\\\".toList)
  have q2 := lex_ended hs.ended (show Starts "\\\\".toList from rfl)
  have e : writeString s = "\\noindent ".toList ++ (s ++ "\\\\".toList) := List.append_assoc _ _ _
  rw [e]
  refine ⟨by rw [Done, q1.2, q2.2]; rfl, by rw [q1.1, q2.1]; rfl⟩

theorem latexify_dmath (tex : List Char) : latexify "dmath".toList tex = "\\begin{dmath}".toList ++ (tex ++ "\\end{dmath}".toList) := by
  have h1 : ¬ "dmath".toList = "plain".toList := by decide
  have h2 : ¬ "dmath".toList = "inline".toList := by decide
  rw [latexify, if_neg h1, if_neg h2]
  simp

/-- The tokens of a formula. -/
def formula (l : List Tok) : List Tok := lex "\\begin{dmath}".toList ++ (l ++ lex "\\end{dmath}".toList)

theorem latexify_lex {tex : List Char} (h : Ended tex) : Done (latexify "dmath".toList tex) ∧ lex (latexify "dmath".toList tex) = formula (lex tex) := by
  have q1 := lex_done (show Done "\\begin{dmath}".toList from rfl) (tex ++ "\\end{dmath}".toList)
  have q2 := lex_ended h (show Starts "\\end{dmath}".toList from rfl)
  rw [latexify_dmath]
  exact ⟨by rw [Done, q1.2, q2.2]; rfl, by rw [q1.1, q2.1]; rfl⟩

theorem join_lex (l : List (List Char)) (h : ∀ a ∈ l, Done a) : Done (joinLines l) ∧ lex (joinLines l) = l.flatMap lex := by
  induction l with
  | nil => exact ⟨rfl, rfl⟩
  | cons a l ih =>
    cases l with
    | nil => exact ⟨h a (by simp), by simp [joinLines]⟩
    | cons b l =>
      obtain ⟨i1, i2⟩ := ih fun x hx => h x (by simp [hx])
      have q1 := lex_done (h a (by simp)) ([' ', '\n'] ++ joinLines (b :: l))
      have q2 := lex_done (show Done [' ', '\n'] from rfl) (joinLines (b :: l))
      have e : joinLines (a :: b :: l) = a ++ ([' ', '\n'] ++ joinLines (b :: l)) := rfl
      rw [e]
      refine ⟨by rw [Done, q1.2, q2.2]; exact i1, ?_⟩
      rw [q1.1, q2.1, i2]; rfl

theorem join_clean {l : List (List Char)} (h : ∀ a ∈ l, '%' ∉ a) : '%' ∉ joinLines l := by
  induction l with
  | nil => simp [joinLines]
  | cons a l ih =>
    cases l with
    | nil => exact h a (by simp)
    | cons b l =>
      have i := ih fun x hx => h x (by simp [hx])
      have e : joinLines (a :: b :: l) = a ++ ' ' :: '\n' :: joinLines (b :: l) := rfl
      rw [e]
      simp [h a (by simp), i]

theorem expression_lex {E : Env} (hE : Splits E.split) {es : List Ex} (h1 : ∀ e ∈ es, Ended (e.print E.P)) (h2 : ∀ e ∈ es, '%' ∉ e.print E.P) :
    Done (writeExpression E es) ∧ lex (writeExpression E es) = es.flatMap fun e => formula (lex (e.print E.P)) := by
  set j := joinLines (es.map fun e => latexify "dmath".toList (e.print E.P)) with hj
  have hd : ∀ a ∈ es.map fun e => latexify "dmath".toList (e.print E.P), Done a := by
    intro a ha
    obtain ⟨e, he, rfl⟩ := List.mem_map.1 ha
    exact (latexify_lex (h1 e he)).1
  have hc : '%' ∉ j := by
    refine join_clean fun a ha => ?_
    obtain ⟨e, he, rfl⟩ := List.mem_map.1 ha
    rw [latexify_dmath]
    simp only [List.mem_append, not_or]
    exact ⟨by decide, h2 e he, by decide⟩
  obtain ⟨j1, j2⟩ := join_lex _ hd
  have w := wrap_run hE 250 hc
  have w' : lexRun .neutral (writeExpression E es) = lexRun .neutral (j ++ [' ']) := w
  have q := lex_done j1 [' ']
  refine ⟨by rw [Done, w', q.2]; rfl, ?_⟩
  have e : lex (writeExpression E es) = lex (j ++ [' ']) := by rw [lex, w', ← lex]
  rw [e, q.1, j2, List.flatMap_map]
  have : lex [' '] = [] := rfl
  rw [this, List.append_nil, List.flatMap_def, List.flatMap_def]
  congr 1
  refine List.map_congr_left fun e he => (latexify_lex (h1 e he)).2

theorem op_done {E : Env} (hE : Splits E.split) {o : Op} (ho : OpOk E.P o) : Done (o.text E) := by
  cases o with
  | string s => exact (string_lex ho).1
  | expression es => exact (expression_lex hE (fun e he => (ho e he).ended) fun e he => (ho e he).clean).1

theorem ops_lex {E : Env} (hE : Splits E.split) (ops : List Op) (h : ∀ o ∈ ops, OpOk E.P o) : Done (ops.flatMap (Op.text E)) ∧ lex (ops.flatMap (Op.text E)) = ops.flatMap fun o => lex (o.text E) := by
  induction ops with
  | nil => exact ⟨rfl, rfl⟩
  | cons o ops ih =>
    obtain ⟨i1, i2⟩ := ih fun x hx => h x (by simp [hx])
    have d := op_done hE (h o (by simp))
    have q := lex_done d (ops.flatMap (Op.text E))
    rw [List.flatMap_cons, List.flatMap_cons]
    exact ⟨by rw [Done, q.2]; exact i1, by rw [q.1, i2]⟩

/-! ## Reading the calls -/

/-- Within the document, between formulas. -/
def para (out : List Item) (cur : List Tok) (sc : Script) : Reader := ⟨[(.env "document".toList, false, .none)], false, .no, sc, cur, out⟩

theorem begin_run (out : List Item) (cur : List Tok) (sc : Script) :
    (para out cur sc).run (lex "\\begin{dmath}".toList) = some ⟨[(.env "dmath".toList, false, .none), (.env "document".toList, false, .none)], true, .no, .none, [], (para out cur sc).flush⟩ := rfl

theorem end_run (out : List Item) (cur : List Tok) {sc : Script} (h : sc.pend = false) :
    Reader.run ⟨[(.env "dmath".toList, false, .none), (.env "document".toList, false, .none)], true, .no, sc, cur, out⟩ (lex "\\end{dmath}".toList) = some (para (out ++ [.math "dmath".toList cur]) [] .none) := by
  obtain ⟨a, b, c⟩ := sc
  cases (h : c = false)
  rfl

theorem formula_run {l : List Tok} (hl : Inert true l) (out : List Item) (cur : List Tok) (sc : Script) :
    (para out cur sc).run (formula l) = some (para ((para out cur sc).flush ++ [.math "dmath".toList l]) [] .none) := by
  rw [formula, run_append, begin_run, Option.bind_some, run_append]
  obtain ⟨sd, p, e⟩ := hl ⟨[(.env "dmath".toList, false, .none), (.env "document".toList, false, .none)], true, .no, .none, [], (para out cur sc).flush⟩ rfl rfl rfl
  rw [e, Option.bind_some]
  exact end_run _ _ p

theorem formulas_run {P : Sympy} (es : List Ex) (h : ∀ e ∈ es, Sound true (e.print P)) (out : List Item) (cur : List Tok) {sc : Script} (hs : sc.pend = false) :
    ∃ out' cur' sc', sc'.pend = false ∧ (para out cur sc).run (es.flatMap fun e => formula (lex (e.print P))) = some (para out' cur' sc') ∧
      (para out' cur' sc').flush = (para out cur sc).flush ++ es.map fun e => .math "dmath".toList (lex (e.print P)) := by
  induction es generalizing out cur sc with
  | nil => exact ⟨out, cur, sc, hs, rfl, by simp⟩
  | cons e es ih =>
    obtain ⟨out', cur', sc', h1, h2, h3⟩ := ih (fun x hx => h x (by simp [hx])) ((para out cur sc).flush ++ [.math "dmath".toList (lex (e.print P))]) [] (sc := .none) rfl
    refine ⟨out', cur', sc', h1, ?_, ?_⟩
    · rw [List.flatMap_cons, run_append, formula_run (h e (by simp)).inert, Option.bind_some, h2]
    · rw [h3]; simp [para, Reader.flush]

theorem step_noindent (out : List Item) (cur : List Tok) (sc : Script) : (para out cur sc).step (.word "noindent".toList) = some (para (para out cur sc).flush [] .none) := by
  rw [step_word rfl, if_neg (by decide), if_neg (by decide), if_neg (by decide), if_neg (by decide), if_pos ⟨rfl, rfl⟩]
  rfl

theorem op_run {E : Env} (hE : Splits E.split) {o : Op} (ho : OpOk E.P o) (out : List Item) (cur : List Tok) {sc : Script} (hs : sc.pend = false) :
    ∃ out' cur' sc', sc'.pend = false ∧ (para out cur sc).run (lex (o.text E)) = some (para out' cur' sc') ∧ (para out' cur' sc').flush = (para out cur sc).flush ++ opItems E.P o := by
  cases o with
  | string s =>
    have ho' : Sound false s := ho
    obtain ⟨sd, p, e⟩ := ho'.inert (para (para out cur sc).flush [] .none) rfl rfl rfl
    refine ⟨(para out cur sc).flush, lex s ++ [.sym '\\'], sd.next, next_pend _, ?_, ?_⟩
    · change (para out cur sc).run (lex (writeString s)) = _
      rw [(string_lex ho').2, List.cons_append, Reader.run, step_noindent, Option.bind_some, run_append, e, Option.bind_some]
      rfl
    · have hne : ¬ lex s ++ [Tok.sym '\\'] = [] := by simp
      exact if_neg hne
  | expression es =>
    obtain ⟨out', cur', sc', h1, h2, h3⟩ := formulas_run es ho out cur hs
    refine ⟨out', cur', sc', h1, ?_, h3⟩
    change (para out cur sc).run (lex (writeExpression E es)) = _
    rw [(expression_lex hE (fun e he => (ho e he).ended) fun e he => (ho e he).clean).2, h2]

theorem ops_run {E : Env} (hE : Splits E.split) (ops : List Op) (h : ∀ o ∈ ops, OpOk E.P o) (out : List Item) (cur : List Tok) {sc : Script} (hs : sc.pend = false) :
    ∃ out' cur' sc', sc'.pend = false ∧ (para out cur sc).run (ops.flatMap fun o => lex (o.text E)) = some (para out' cur' sc') ∧ (para out' cur' sc').flush = (para out cur sc).flush ++ ops.flatMap (opItems E.P) := by
  induction ops generalizing out cur sc with
  | nil => exact ⟨out, cur, sc, hs, rfl, by simp⟩
  | cons o ops ih =>
    obtain ⟨o1, c1, s1, h1, h2, h3⟩ := op_run hE (h o (by simp)) out cur hs
    obtain ⟨o2, c2, s2, g1, g2, g3⟩ := ih (fun x hx => h x (by simp [hx])) o1 c1 h1
    refine ⟨o2, c2, s2, g1, ?_, ?_⟩
    · rw [List.flatMap_cons, run_append, h2, Option.bind_some, g2]
    · rw [g3, h3, List.flatMap_cons, List.append_assoc]

/-! ## The header -/

theorem header_split (title : List Char) : header title = preamble title ++ "\\begin{document}\n\\maketitle\n".toList := rfl

theorem word_inert {m : Bool} {w : List Char} (h : w ∉ ["begin".toList, "end".toList, "left".toList, "right".toList, "noindent".toList]) : Inert m [.word w] := by
  refine Inert.atom fun s _ h2 => ?_
  simp only [List.mem_cons, List.not_mem_nil, or_false, not_or] at h
  rw [step_word h2, if_neg h.1, if_neg h.2.1, if_neg h.2.2.1, if_neg h.2.2.2.1, if_neg (fun q => h.2.2.2.2 q.1)]

theorem step_sym {s : Reader} (h : s.name = .no) {c : Char} (h1 : c ≠ '[') (h2 : c ≠ ']') : s.step (.sym c) = some (s.atom (.sym c)) := by
  obtain ⟨a, b, n, d, e, f⟩ := s
  cases (h : n = .no)
  change (if c = '[' then _ else if c = ']' then _ else _) = _
  rw [if_neg h1, if_neg h2]

theorem sym_inert {m : Bool} {c : Char} (h1 : c ≠ '[') (h2 : c ≠ ']') : Inert m [.sym c] := Inert.atom fun _ _ h => step_sym h h1 h2

theorem head_sound : Sound false "\\documentclass{article}\n\\title".toList := by
  refine ⟨Or.inr ⟨"title".toList, by decide +kernel⟩, by decide, ?_⟩
  have e : lex "\\documentclass{article}\n\\title".toList = [.word "documentclass".toList] ++ (.ch '{' :: lex "article".toList ++ [.ch '}']) ++ [.word "title".toList] := by decide +kernel
  rw [e]
  exact ((word_inert (by decide)).append (plain_sound false (by decide)).inert.brace).append (word_inert (by decide))

theorem foot_lex : Done "\n\\author{Satya P Jammy \\& OpenSBLI developers team}\n\\date{\\today}\n\\usepackage{color}\n\\usepackage{amsmath}\n\\usepackage{breqn}\n".toList ∧
    Sound false "\n\\author{Satya P Jammy \\& OpenSBLI developers team}\n\\date{\\today}\n\\usepackage{color}\n\\usepackage{amsmath}\n\\usepackage{breqn}\n".toList := by
  have d : Done "\n\\author{Satya P Jammy \\& OpenSBLI developers team}\n\\date{\\today}\n\\usepackage{color}\n\\usepackage{amsmath}\n\\usepackage{breqn}\n".toList := by unfold Done; decide +kernel
  refine ⟨d, Or.inl d, by decide +kernel, ?_⟩
  have e : lex "\n\\author{Satya P Jammy \\& OpenSBLI developers team}\n\\date{\\today}\n\\usepackage{color}\n\\usepackage{amsmath}\n\\usepackage{breqn}\n".toList =
      [.word "author".toList] ++ (.ch '{' :: (lex "Satya P Jammy".toList ++ [.sym '&'] ++ lex "OpenSBLI developers team".toList) ++ [.ch '}']) ++
      [.word "date".toList] ++ (.ch '{' :: [.word "today".toList] ++ [.ch '}']) ++ [.word "usepackage".toList] ++ (.ch '{' :: lex "color".toList ++ [.ch '}']) ++
      [.word "usepackage".toList] ++ (.ch '{' :: lex "amsmath".toList ++ [.ch '}']) ++ [.word "usepackage".toList] ++ (.ch '{' :: lex "breqn".toList ++ [.ch '}']) := by decide +kernel
  rw [e]
  have p {l : List Char} (h : ∀ c ∈ l, plainChar c = true) : Inert false (lex l) := (plain_sound false h).inert
  have a1 : Inert false [.word "author".toList] := word_inert (by decide)
  have a2 : Inert false [.word "date".toList] := word_inert (by decide)
  have a3 : Inert false [.word "usepackage".toList] := word_inert (by decide)
  have a4 : Inert false [.word "today".toList] := word_inert (by decide)
  exact (((((((((a1.append ((((p (by decide)).append (sym_inert (by decide) (by decide))).append (p (by decide))).brace)).append a2).append a4.brace).append a3).append (p (by decide)).brace).append a3).append (p (by decide)).brace).append a3).append (p (by decide)).brace)

theorem preamble_sound {title : List Char} (ht : Sound false title) : Done (preamble title) ∧ Sound false (preamble title) := by
  obtain ⟨s1, d1, -⟩ := ht.brace
  have h1 := head_sound.append s1 (Or.inr rfl)
  have d2 : Done ("\\documentclass{article}\n\\title".toList ++ ('{' :: title ++ ['}'])) := done_ended head_sound.ended rfl d1
  exact ⟨done_append d2 foot_lex.1, h1.append foot_lex.2 (Or.inl d2)⟩

/-- After the header. -/
theorem header_run {title : List Char} (ht : Sound false title) : Done (header title) ∧ ∃ cur sc, sc.pend = false ∧ Reader.start.run (lex (header title)) = some (para [.text (lex (preamble title))] cur sc) ∧ (para [.text (lex (preamble title))] cur sc).flush = headItems title := by
  obtain ⟨d, hp⟩ := preamble_sound ht
  have q := lex_done d "\\begin{document}\n\\maketitle\n".toList
  rw [header_split]
  refine ⟨by rw [Done, q.2]; rfl, [.word "maketitle".toList], .none, rfl, ?_, rfl⟩
  obtain ⟨sc, p, es⟩ := hp.inert Reader.start rfl rfl rfl
  rw [q.1, run_append, es, Option.bind_some]
  have hne : ¬ lex (preamble title) = [] := by
    have e : ∃ r, lex (preamble title) = lex "\\documentclass{article}\n\\title".toList ++ r :=
      ⟨_, (congrArg lex (List.append_assoc _ _ _)).trans (lex_ended head_sound.ended (q := '{' :: _) (show Starts ('{' :: _) from rfl)).1⟩
    obtain ⟨r, e⟩ := e
    rw [e]; intro h; exact absurd (List.append_eq_nil_iff.1 h).1 (by decide +kernel)
  have : Reader.run { Reader.start with cur := Reader.start.cur ++ lex (preamble title), script := sc } (lex "\\begin{document}\n\\maketitle\n".toList) =
      some (para (Reader.flush ⟨[], false, .no, sc, lex (preamble title), []⟩) [.word "maketitle".toList] .none) := rfl
  rw [this]
  have f : Reader.flush ⟨[], false, .no, sc, lex (preamble title), []⟩ = [.text (lex (preamble title))] := if_neg hne
  rw [f]

/-! ## Documents -/

theorem end_document (out : List Item) (cur : List Tok) {sc : Script} (h : sc.pend = false) :
    (para out cur sc).run (lex "\\end{document}".toList) = some ⟨[], false, .no, .none, [], (para out cur sc).flush⟩ := by
  obtain ⟨a, b, c⟩ := sc
  cases (h : c = false)
  rfl

/-- C103: a document contains, in order, one paragraph for every string and one formula for every expression, with the text given or printed for it, and nothing else: environments and brackets are closed, formulas are outside
formulas, no script is misplaced, however the text is wrapped. -/
theorem C103_document {E : Env} (hE : Splits E.split) {title : List Char} (ht : Sound false title) (ops : List Op) (h : ∀ o ∈ ops, OpOk E.P o) :
    read (document E title ops) = some (headItems title ++ ops.flatMap (opItems E.P)) := by
  obtain ⟨d, cur, sc, p, hr, hf⟩ := header_run ht
  obtain ⟨o2, c2, s2, g1, g2, g3⟩ := ops_run hE ops h [.text (lex (preamble title))] cur p
  obtain ⟨d2, e2⟩ := ops_lex hE ops h
  have hl : lex (document E title ops) = lex (header title) ++ ((ops.flatMap fun o => lex (o.text E)) ++ lex "\\end{document}".toList) := by
    rw [document, List.append_assoc, (lex_done d _).1, (lex_done d2 _).1, e2]
  rw [read, hl, run_append, hr, Option.bind_some, run_append, g2, Option.bind_some, end_document _ _ g1, Option.bind_some, if_pos ⟨rfl, rfl, rfl⟩, g3, hf]
  rfl

end OpenSBLI.Tex
