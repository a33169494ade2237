import Verif.Props.C103_Latex
import Mathlib.Data.List.SplitBy

/-!
# C103: documents of equations and of the program
-/
namespace OpenSBLI.Tex
open OpenSBLI Latex

/-- Text without characters TeX gives a meaning to. -/
def Plain (l : List Char) : Prop := ∀ c ∈ l, plainChar c = true

theorem Plain.append {a b : List Char} (ha : Plain a) (hb : Plain b) : Plain (a ++ b) := by
  intro c hc
  rcases List.mem_append.1 hc with h | h
  · exact ha c h
  · exact hb c h

/-- The formulas of a document. -/
def formulas (l : List Item) : List (List Tok) := l.filterMap fun i => match i with
  | .math _ t => some t
  | .text _ => none

/-! ## Equations -/

/-- C103: the document of the equations of a class contains them all, in order, each in a formula of its own. -/
theorem C103_equations {E : Env} (hE : Splits E.split) (hP : SympySound E.P) {title name : List Char} (ht : Plain title) (hn : Plain name) (eqs : List Ex) (h : ∀ e ∈ eqs, Fine e) :
    ∃ items, read (document E title (equationsOps name eqs)) = some items ∧ formulas items = eqs.map fun e => lex (e.print E.P) := by
  have hs : Plain ("The euqations are ".toList ++ name) := Plain.append (by unfold Plain; decide) hn
  refine ⟨_, C103_document hE (plain_sound false ht) _ ?_, ?_⟩
  · intro o ho
    rcases List.mem_cons.1 (show o ∈ Op.string ("The euqations are ".toList ++ name) :: eqs.map fun e => Op.expression [e] from ho) with rfl | ho
    · exact plain_sound false hs
    · obtain ⟨e, he, rfl⟩ := List.mem_map.1 ho
      intro x hx
      rw [List.mem_singleton.1 hx]
      exact fine_sound hP e (h e he)
  · change formulas (headItems title ++ (.text _ :: (eqs.map fun e => Op.expression [e]).flatMap (opItems E.P))) = _
    clear h
    induction eqs with
    | nil => rfl
    | cons e eqs ih => exact congrArg (List.cons (lex (e.print E.P))) ih

/-! ## The program -/

/-- A kernel with plain names and fine equations, an exchange of arrays with plain names. -/
def LeafFine : Leaf → Prop
  | .kernel n b r eqs => Plain n ∧ Plain b ∧ Plain r ∧ ∀ e ∈ eqs, ∀ x, e = some x → Fine x
  | .exchange arrays => ∀ a ∈ arrays, Plain a

mutual
/-- Components without conditions, with such leaves. -/
def NodeFine : Alg.Node Leaf → Prop
  | .kernel k => LeafFine k
  | .io _ _ => True
  | .monitor => True
  | .loop _ _ body => NodesFine body
  | .cond _ _ => False
  | .timers body => NodesFine body

def NodesFine : List (Alg.Node Leaf) → Prop
  | [] => True
  | n :: ns => NodeFine n ∧ NodesFine ns
end

mutual
/-- The equations of the kernels of a program, in its order; a `GroupedPiecewise` is not an equation. -/
def nodeEqs : Alg.Node Leaf → List Ex
  | .kernel (.kernel _ _ _ eqs) => eqs.filterMap id
  | .kernel (.exchange _) => []
  | .io _ _ => []
  | .monitor => []
  | .loop _ _ body => nodesEqs body
  | .cond _ body => nodesEqs body
  | .timers body => nodesEqs body

def nodesEqs : List (Alg.Node Leaf) → List Ex
  | [] => []
  | n :: ns => nodeEqs n ++ nodesEqs ns
end

/-- Names of arrays, limits and conditions have no meaning for TeX. -/
structure PlainNames (N : Names) : Prop where
  arrays : ∀ i, ∀ a ∈ N.arrays i, Plain a
  upper : ∀ v b, Plain (N.upper v b)

theorem break_sound {p : List Char} (hp : Plain p) : Sound false (p ++ "\\\\\n".toList) := by
  refine (plain_sound false hp).append ⟨Or.inl (by decide), by decide, ?_⟩ (Or.inl (lex_plain hp).1)
  have e : lex "\\\\\n".toList = [.sym '\\'] := by decide
  rw [e]; exact sym_inert (by decide) (by decide)

theorem break_sound' {p : List Char} (hp : Plain p) : Sound false (p ++ "\\\\".toList) := by
  refine (plain_sound false hp).append ⟨Or.inl (by decide), by decide, ?_⟩ (Or.inl (lex_plain hp).1)
  have e : lex "\\\\".toList = [.sym '\\'] := by decide
  rw [e]; exact sym_inert (by decide) (by decide)

theorem commaSpaces_plain {l : List (List Char)} (h : ∀ a ∈ l, Plain a) : Plain (commaSpaces l) := by
  induction l with
  | nil => intro c hc; exact absurd (show c ∈ ([] : List Char) from hc) (by simp)
  | cons a l ih =>
    cases l with
    | nil => exact h a (by simp)
    | cons b l =>
      have e : commaSpaces (a :: b :: l) = a ++ ", ".toList ++ commaSpaces (b :: l) := rfl
      rw [e]
      exact ((h a (by simp)).append (by unfold Plain; decide)).append (ih fun x hx => h x (by simp [hx]))

/-- All calls are in order. -/
def AllOk (P : Sympy) (ops : List Op) : Prop := ∀ o ∈ ops, OpOk P o

theorem AllOk.append {P : Sympy} {a b : List Op} (ha : AllOk P a) (hb : AllOk P b) : AllOk P (a ++ b) := by
  intro o ho
  rcases List.mem_append.1 ho with h | h
  · exact ha o h
  · exact hb o h

theorem AllOk.string {P : Sympy} {s : List Char} (hs : Sound false s) {l : List Op} (hl : AllOk P l) : AllOk P (.string s :: l) := by
  intro o ho
  rcases List.mem_cons.1 ho with rfl | h
  · exact hs
  · exact hl o h

theorem AllOk.nil {P : Sympy} : AllOk P [] := by intro o ho; simp at ho

theorem leaf_ok {P : Sympy} (hP : SympySound P) {k : Leaf} (h : LeafFine k) : AllOk P k.ops := by
  cases k with
  | kernel n b r eqs =>
    obtain ⟨h1, h2, h3, h4⟩ := h
    have s1 : Plain ("The kernel is ".toList ++ n ++ ", block is ".toList ++ b) := (((show Plain "The kernel is ".toList by unfold Plain; decide).append h1).append (by unfold Plain; decide)).append h2
    have s2 : Plain ("The ranges are ".toList ++ r) := (show Plain "The ranges are ".toList by unfold Plain; decide).append h3
    refine AllOk.string (plain_sound false s1) (AllOk.string (plain_sound false s2) ?_)
    intro o ho
    obtain ⟨e, he, ho⟩ := List.mem_filterMap.1 ho
    cases e with
    | none => simp at ho
    | some x =>
      have : Op.expression [x] = o := by simpa using ho
      subst this
      intro y hy
      rw [List.mem_singleton.1 hy]
      exact fine_sound hP x (h4 _ he x rfl)
  | exchange arrays =>
    exact AllOk.string (break_sound' ((show Plain "This is an exchange self kernel on variables ".toList by unfold Plain; decide).append (commaSpaces_plain h))) AllOk.nil

theorem var_plain (v : Alg.Var) : Plain (varText v) := by cases v <;> (unfold Plain; decide)

mutual
theorem node_ok {P : Sympy} (hP : SympySound P) {N : Names} (hN : PlainNames N) : ∀ n : Alg.Node Leaf, NodeFine n → AllOk P (nodeOps N n)
  | .kernel k, h => leaf_ok hP (by simpa only [NodeFine] using h)
  | .io o _, _ => by
    have h1 : Plain (if o.write then "write".toList else "read".toList) := by split_ifs <;> (unfold Plain; decide)
    have h2 : Plain ((N.arrays o.id).flatMap fun a => ' ' :: a) := by
      intro c hc
      obtain ⟨a, ha, hc⟩ := List.mem_flatMap.1 hc
      rcases List.mem_cons.1 hc with rfl | hc
      · rfl
      · exact hN.arrays o.id a ha c hc
    exact AllOk.string (plain_sound false ((((show Plain "HDF5 IO type ".toList by unfold Plain; decide).append h1).append (show Plain " on arrays".toList by unfold Plain; decide)).append h2)) AllOk.nil
  | .monitor, _ => AllOk.string (break_sound (p := "Simulation monitoring start".toList) (by unfold Plain; decide)) (AllOk.string (break_sound (p := "Simulation monitoring end".toList) (by unfold Plain; decide)) AllOk.nil)
  | .loop v b body, h => by
    have hb := nodes_ok hP hN body (by simpa only [NodeFine] using h)
    have s1 := break_sound ((((show Plain "Do loop ".toList by unfold Plain; decide).append (var_plain v)).append (show Plain ",0, ".toList by unfold Plain; decide)).append (hN.upper v b))
    have s2 := break_sound ((show Plain "Ending Do loop ".toList by unfold Plain; decide).append (var_plain v))
    exact AllOk.append (AllOk.string s1 hb) (AllOk.string s2 AllOk.nil)
  | .cond _ _, h => by simp only [NodeFine] at h
  | .timers body, h => by
    have hb := nodes_ok hP hN body (by simpa only [NodeFine] using h)
    exact AllOk.append (AllOk.string (break_sound (p := "Initialising timers".toList) (by unfold Plain; decide)) hb) (AllOk.string (break_sound (p := "Ending timers".toList) (by unfold Plain; decide)) AllOk.nil)

theorem nodes_ok {P : Sympy} (hP : SympySound P) {N : Names} (hN : PlainNames N) : ∀ l : List (Alg.Node Leaf), NodesFine l → AllOk P (nodesOps N l)
  | [], _ => AllOk.nil
  | n :: ns, h => by
    have h' : NodeFine n ∧ NodesFine ns := by simpa only [NodesFine] using h
    exact AllOk.append (node_ok hP hN n h'.1) (nodes_ok hP hN ns h'.2)
end

/-- Formulas of calls. -/
def opFormulas (P : Sympy) (ops : List Op) : List (List Tok) := formulas (ops.flatMap (opItems P))

theorem opFormulas_append (P : Sympy) (a b : List Op) : opFormulas P (a ++ b) = opFormulas P a ++ opFormulas P b := by
  simp only [opFormulas, formulas, List.flatMap_append, List.filterMap_append]

theorem opFormulas_around (P : Sympy) (s t : List Char) (l : List Op) : opFormulas P (.string s :: l ++ [.string t]) = opFormulas P l := by
  rw [opFormulas_append]
  exact List.append_nil _

theorem leaf_formulas (P : Sympy) (k : Leaf) : opFormulas P k.ops = (nodeEqs (.kernel k)).map fun e => lex (e.print P) := by
  cases k with
  | kernel n b r eqs =>
    change opFormulas P (eqs.filterMap fun e => e.map fun e => Op.expression [e]) = (eqs.filterMap id).map _
    induction eqs with
    | nil => rfl
    | cons e eqs ih =>
      cases e with
      | none => exact ih
      | some x => exact congrArg (List.cons (lex (x.print P))) ih
  | exchange arrays => rfl

mutual
theorem node_formulas (P : Sympy) (N : Names) : ∀ n : Alg.Node Leaf, opFormulas P (nodeOps N n) = (nodeEqs n).map fun e => lex (e.print P)
  | .kernel k => leaf_formulas P k
  | .io _ _ => rfl
  | .monitor => rfl
  | .loop _ _ body => (opFormulas_around P _ _ _).trans (nodes_formulas P N body)
  | .cond _ body => (opFormulas_around P _ _ _).trans (nodes_formulas P N body)
  | .timers body => (opFormulas_around P _ _ _).trans (nodes_formulas P N body)

theorem nodes_formulas (P : Sympy) (N : Names) : ∀ l : List (Alg.Node Leaf), opFormulas P (nodesOps N l) = (nodesEqs l).map fun e => lex (e.print P)
  | [] => rfl
  | n :: ns => by
    have e : nodesEqs (n :: ns) = nodeEqs n ++ nodesEqs ns := rfl
    refine (opFormulas_append P _ _).trans ?_
    rw [node_formulas P N n, nodes_formulas P N ns, e, List.map_append]
end

/-- C103: the document of the algorithm contains the equations of all kernels, in the order of the program, each in a formula of its own. Partial: names must have no character with a meaning for TeX, there must be no conditions,
and `GroupedPiecewise` is left out by the writer; see the theorems below. -/
theorem C103_program_partial {E : Env} (hE : Splits E.split) (hP : SympySound E.P) {N : Names} (hN : PlainNames N) (prg : List (Alg.Node Leaf)) (h : NodesFine prg) :
    ∃ items, read (programDocument E N prg) = some items ∧ formulas items = (nodesEqs prg).map fun e => lex (e.print E.P) := by
  have hok : AllOk E.P (.string "Starting of the main program\\\\\n".toList :: nodesOps N prg ++ [.string "End of Main".toList]) :=
    AllOk.append (AllOk.string (break_sound (p := "Starting of the main program".toList) (by unfold Plain; decide)) (nodes_ok hP hN prg h)) (AllOk.string (plain_sound false (by decide)) AllOk.nil)
  refine ⟨_, C103_document hE (plain_sound false (by decide)) _ hok, ?_⟩
  have := (opFormulas_around E.P "Starting of the main program\\\\\n".toList "End of Main".toList (nodesOps N prg)).trans (nodes_formulas E.P N prg)
  exact this

/-! ## Where it fails -/

theorem scripted_text {s : Reader} (h : s.name = .no) (hm : s.math = false) : s.step (.ch '_') = none := by
  rw [step_ch h]; simp [Reader.scripted, hm]

/-- C103 fails for names with an underscore in strings, whatever comes before and after them. -/
theorem C103_underscore {E : Env} (hE : Splits E.split) {title : List Char} (ht : Sound false title) (ops : List Op) (h : ∀ o ∈ ops, OpOk E.P o) {a : List Char} (ha : Sound false a) (b : List Char) (ops' : List Op) :
    read (document E title (ops ++ .string (a ++ '_' :: b) :: ops')) = none := by
  obtain ⟨d, cur, sc, p, hr, -⟩ := header_run ht
  obtain ⟨o2, c2, s2, g1, g2, -⟩ := ops_run hE ops h [.text (lex (preamble title))] cur p
  obtain ⟨d2, e2⟩ := ops_lex hE ops h
  set r := b ++ ("\\\\".toList ++ (ops'.flatMap (Op.text E) ++ "\\end{document}".toList)) with hrr
  have e : document E title (ops ++ .string (a ++ '_' :: b) :: ops') = header title ++ (ops.flatMap (Op.text E) ++ ("\\noindent ".toList ++ (a ++ ('_' :: r)))) := by
    change header title ++ (ops ++ .string (a ++ '_' :: b) :: ops').flatMap (Op.text E) ++ "\\end{document}".toList = _
    rw [List.flatMap_append, List.flatMap_cons]
    change header title ++ (_ ++ (("\\noindent ".toList ++ (a ++ '_' :: b) ++ "\\\\".toList) ++ _)) ++ _ = _
    rw [hrr]
    simp only [List.append_assoc, List.cons_append]
  have q1 := lex_done (show Done "\\noindent ".toList from rfl) (a ++ ('_' :: r))
  have q2 := lex_ended ha.ended (show Starts ('_' :: r) from rfl)
  have q3 := lex_done (show Done ['_'] from rfl) r
  have q3' : lex ('_' :: r) = .ch '_' :: lex r := q3.1
  have hl : lex (document E title (ops ++ .string (a ++ '_' :: b) :: ops')) = lex (header title) ++ ((ops.flatMap fun o => lex (o.text E)) ++ (.word "noindent".toList :: (lex a ++ .ch '_' :: lex r))) := by
    rw [e, (lex_done d _).1, (lex_done d2 _).1, e2, q1.1, q2.1, q3']; rfl
  obtain ⟨sd, -, es⟩ := ha.inert (para (para o2 c2 s2).flush [] .none) rfl rfl rfl
  rw [read, hl, run_append, hr, Option.bind_some, run_append, g2, Option.bind_some, Reader.run, step_noindent, Option.bind_some, run_append, es, Option.bind_some, Reader.run, scripted_text rfl rfl]
  rfl

theorem nodesOps_append (N : Names) (a b : List (Alg.Node Leaf)) : nodesOps N (a ++ b) = nodesOps N a ++ nodesOps N b := by
  induction a with
  | nil => rfl
  | cons n a ih =>
    change nodeOps N n ++ nodesOps N (a ++ b) = (nodeOps N n ++ nodesOps N a) ++ nodesOps N b
    rw [ih, List.append_assoc]

/-- C103 fails for the algorithm of every problem with exchanges: arrays are named with label, underscore and block. -/
theorem C103_exchange {E : Env} (hE : Splits E.split) (hP : SympySound E.P) {N : Names} (hN : PlainNames N) (pre : List (Alg.Node Leaf)) (h : NodesFine pre) {label : List Char} (hl : Plain label) (block : List Char)
    (arrays : List (List Char)) (post : List (Alg.Node Leaf)) : read (programDocument E N (pre ++ .kernel (.exchange ((label ++ '_' :: block) :: arrays)) :: post)) = none := by
  have hc : ∃ t, commaSpaces ((label ++ '_' :: block) :: arrays) = label ++ '_' :: t := by
    cases arrays with
    | nil => exact ⟨block, rfl⟩
    | cons b l =>
      refine ⟨block ++ (", ".toList ++ commaSpaces (b :: l)), ?_⟩
      change (label ++ '_' :: block) ++ ", ".toList ++ commaSpaces (b :: l) = _
      simp only [List.append_assoc, List.cons_append]
  obtain ⟨t, hc⟩ := hc
  have hs := C103_underscore hE (title := "Algorithm for the equations".toList) (plain_sound false (by decide)) (.string "Starting of the main program\\\\\n".toList :: nodesOps N pre)
    (AllOk.string (break_sound (p := "Starting of the main program".toList) (by unfold Plain; decide)) (nodes_ok hP hN pre h))
    (a := "This is an exchange self kernel on variables ".toList ++ label) (plain_sound false ((show Plain "This is an exchange self kernel on variables ".toList by unfold Plain; decide).append hl)) (t ++ "\\\\".toList)
    (nodesOps N post ++ [.string "End of Main".toList])
  rw [programDocument, nodesOps_append]
  change read (document E _ (.string _ :: (nodesOps N pre ++ (Op.string ("This is an exchange self kernel on variables ".toList ++ commaSpaces ((label ++ '_' :: block) :: arrays) ++ "\\\\".toList) :: nodesOps N post)) ++ [_])) = none
  rw [hc]
  simp only [List.append_assoc, List.cons_append] at hs ⊢
  exact hs

/-- A formula which cannot be read. -/
theorem formula_none {E : Env} (hE : Splits E.split) {title : List Char} (ht : Sound false title) (ops : List Op) (h : ∀ o ∈ ops, OpOk E.P o) {e : Ex} (h1 : Ended (e.print E.P)) (h2 : '%' ∉ e.print E.P)
    (h3 : ∀ out, Reader.run ⟨[(.env "dmath".toList, false, .none), (.env "document".toList, false, .none)], true, .no, .none, [], out⟩ (lex (e.print E.P)) = none) (ops' : List Op) :
    read (document E title (ops ++ .expression [e] :: ops')) = none := by
  obtain ⟨d, cur, sc, p, hr, -⟩ := header_run ht
  obtain ⟨o2, c2, s2, g1, g2, -⟩ := ops_run hE ops h [.text (lex (preamble title))] cur p
  obtain ⟨d2, e2⟩ := ops_lex hE ops h
  obtain ⟨d3, e3⟩ := expression_lex hE (es := [e]) (fun x hx => by rw [List.mem_singleton.1 hx]; exact h1) (fun x hx => by rw [List.mem_singleton.1 hx]; exact h2)
  have ee : document E title (ops ++ .expression [e] :: ops') = header title ++ (ops.flatMap (Op.text E) ++ (writeExpression E [e] ++ (ops'.flatMap (Op.text E) ++ "\\end{document}".toList))) := by
    change header title ++ (ops ++ .expression [e] :: ops').flatMap (Op.text E) ++ "\\end{document}".toList = _
    rw [List.flatMap_append, List.flatMap_cons]
    simp only [List.append_assoc]
    rfl
  rw [read, ee, (lex_done d _).1, (lex_done d2 _).1, e2, (lex_done d3 _).1, e3, run_append, hr, Option.bind_some, run_append, g2, Option.bind_some, run_append]
  have : (para o2 c2 s2).run ([e].flatMap fun e => formula (lex (e.print E.P))) = none := by
    rw [List.flatMap_cons, List.flatMap_nil, List.append_nil, formula, run_append, begin_run, Option.bind_some, run_append, h3]
    rfl
  rw [this]; rfl

/-- C103 fails for terms in index notation with two indices, `tau_i_j`: they are printed with two subscripts. -/
theorem C103_two_indices {E : Env} (hE : Splits E.split) {title : List Char} (ht : Sound false title) (ops : List Op) (h : ∀ o ∈ ops, OpOk E.P o) {a b : List Char} (ha : a ≠ []) {i : Char} (hab : ∀ c ∈ a ++ i :: b, c.isAlphanum = true)
    (ops' : List Op) : read (document E title (ops ++ .expression [.einstein (a ++ '_' :: i :: '_' :: b)] :: ops')) = none := by
  have ha' : ∀ c ∈ a, c.isAlphanum = true := fun c hc => hab c (by simp [hc])
  have hi : i.isAlphanum = true := hab i (by simp)
  have hb' : ∀ c ∈ b, c.isAlphanum = true := fun c hc => hab c (by simp [hc])
  obtain ⟨d1, e1⟩ := lex_alnum ha'
  obtain ⟨d2, e2⟩ := lex_alnum hb'
  obtain ⟨d3, e3⟩ := lex_alnum (a := [i]) (by simpa using hi)
  have du : Done ['_'] := rfl
  have q : lex (a ++ (['_'] ++ ([i] ++ (['_'] ++ b)))) = a.map Tok.ch ++ ([.ch '_'] ++ ([.ch i] ++ ([.ch '_'] ++ b.map Tok.ch))) := by
    rw [(lex_done d1 _).1, (lex_done du _).1, (lex_done d3 _).1, (lex_done du _).1, e1, e2, e3]; rfl
  have qd : Done (a ++ (['_'] ++ ([i] ++ (['_'] ++ b)))) := done_append d1 (done_append du (done_append d3 (done_append du d2)))
  refine formula_none hE ht ops h (e := .einstein (a ++ '_' :: i :: '_' :: b)) (Or.inl qd) ?_ ?_ ops'
  · change '%' ∉ a ++ '_' :: i :: '_' :: b
    have p1 : '%' ∉ a := fun h => absurd (ha' _ h) (by decide)
    have p2 : '%' ∉ b := fun h => absurd (hb' _ h) (by decide)
    have p3 : ¬ '%' = i := fun h => absurd (h ▸ hi) (by decide)
    simp [p1, p2, p3]
  · intro out
    change Reader.run _ (lex (a ++ (['_'] ++ ([i] ++ (['_'] ++ b))))) = none
    rw [q, run_append, run_alnum ha' ha rfl rfl, Option.bind_some, List.singleton_append, Reader.run, step_sub rfl rfl rfl, Option.bind_some, List.singleton_append, Reader.run, step_alnum rfl hi, Option.bind_some,
      List.singleton_append, Reader.run, step_ch rfl]
    rfl

/-- C103 fails for `GroupedPiecewise`: a displayed formula is begun within a formula; its text is the same for all of them. -/
theorem C103_piecewise {E : Env} (hE : Splits E.split) {title : List Char} (ht : Sound false title) (ops : List Op) (h : ∀ o ∈ ops, OpOk E.P o) (pieces : List Ex) (ops' : List Op) :
    read (document E title (ops ++ .expression [.piecewise pieces] :: ops')) = none := by
  have d : Done placeholder := by unfold Done; decide +kernel
  have hp : lex placeholder = .sym '[' :: (lex placeholder).tail := by decide +kernel
  refine formula_none hE ht ops h (e := .piecewise pieces) (Or.inl d) (show '%' ∉ placeholder by decide +kernel) ?_ ops'
  intro out
  change Reader.run _ (lex placeholder) = none
  rw [hp, Reader.run]
  rfl

theorem comment_run {b : List Char} (hb : '\n' ∉ b) : lexRun .comment b = (.comment, []) := by
  induction b with
  | nil => rfl
  | cons c b ih =>
    simp only [List.mem_cons, not_or] at hb
    have hc : ¬ c = '\n' := fun e => hb.1 e.symm
    simp [lexRun, lexStep, hc, ih hb.2]

/-- C103 fails after a condition: its last string has a percent sign, which hides everything written afterwards, up to the end of the line. -/
theorem C103_condition {a b : List Char} (ha : Done a) (hb : '\n' ∉ b) (c : List Char) :
    lex (a ++ (writeString "Ending condition loop %s".toList ++ (b ++ '\n' :: c))) = lex a ++ (lex "\\noindent Ending condition loop ".toList ++ lex c) := by
  rw [(lex_done ha _).1]
  congr 1
  have e : writeString "Ending condition loop %s".toList = "\\noindent Ending condition loop ".toList ++ '%' :: "s\\\\".toList := by decide
  have d : Done "\\noindent Ending condition loop ".toList := by unfold Done; decide +kernel
  have e2 : ("\\noindent Ending condition loop ".toList ++ '%' :: "s\\\\".toList) ++ (b ++ '\n' :: c) = "\\noindent Ending condition loop ".toList ++ ('%' :: (("s\\\\".toList ++ b) ++ '\n' :: c)) := by simp
  rw [e, e2, (lex_done d _).1]
  congr 1
  have hs : '\n' ∉ "s\\\\".toList ++ b := by
    rw [List.mem_append, not_or]; exact ⟨by decide, hb⟩
  have r : lexRun .neutral ('%' :: (("s\\\\".toList ++ b) ++ '\n' :: c)) = lexRun .neutral c := by
    have r1 : lexRun .neutral ('%' :: (("s\\\\".toList ++ b) ++ '\n' :: c)) = lexRun .comment (("s\\\\".toList ++ b) ++ '\n' :: c) := rfl
    rw [r1, lexRun_append, comment_run hs]
    rfl
  rw [lex, r, ← lex]

end OpenSBLI.Tex
