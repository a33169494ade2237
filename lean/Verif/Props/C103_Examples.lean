import Verif.Props.C103_Program

/-!
# C103: a splitting, a printer and documents
-/
namespace OpenSBLI.Tex
open OpenSBLI Latex

/-- Chunks are cut where white space begins or ends, and after hyphens. -/
def cuts (l : List Char) : List (List Char) := l.splitBy fun a b => Text.ws a == Text.ws b && a != '-'

theorem chain_ws {l : List Char} (h : l.IsChain fun a b => (Text.ws a == Text.ws b && a != '-') = true) : ∀ x ∈ l, ∀ y ∈ l, Text.ws x = Text.ws y := by
  induction l with
  | nil => simp
  | cons a l ih =>
    cases l with
    | nil => simp
    | cons b l =>
      rw [List.isChain_cons_cons] at h
      have hab : Text.ws a = Text.ws b := by have := h.1; simp at this; exact this.1
      have i := ih h.2
      intro x hx y hy
      have key : ∀ z ∈ a :: b :: l, Text.ws z = Text.ws b := by
        intro z hz
        rcases List.mem_cons.1 hz with rfl | hz
        · exact hab
        · exact i z hz b (by simp)
      rw [key x hx, key y hy]

theorem cuts_splits : Splits cuts where
  flatten l := List.flatten_splitBy _ l
  nonempty l := List.nil_notMem_splitBy _ l
  chain l := by
    have hm : ∀ a ∈ cuts l, ∀ x ∈ a, ∀ y ∈ a, Text.ws x = Text.ws y := fun a ha => chain_ws (List.isChain_of_mem_splitBy ha)
    have hc := List.isChain_getLast_head_splitBy (fun a b => Text.ws a == Text.ws b && a != '-') l
    refine List.IsChain.imp_of_mem_imp ?_ hc
    rintro a b ha hb ⟨ha0, hb0, hr⟩
    by_cases h1 : Text.ws (a.getLast ha0) = true
    · left
      simp only [blank, List.all_eq_true]
      intro x hx
      rw [hm a ha x hx _ (List.getLast_mem ha0)]; exact h1
    · by_cases h2 : Text.ws (b.head hb0) = true
      · right; left
        simp only [blank, List.all_eq_true]
        intro x hx
        rw [hm b hb x hx _ (List.head_mem hb0)]; exact h2
      · right; right
        simp only [Bool.not_eq_true] at h1 h2
        simp only [h1, h2, BEq.rfl, Bool.true_and, bne_eq_false_iff_eq] at hr
        rw [List.getLast?_eq_some_getLast ha0, hr]

/-- A printer: letters and digits of the name, then the arguments in brackets. -/
def simplePrinter : Sympy := fun f args => f.toList.filter Char.isAlphanum ++ args.flatMap fun a => '{' :: a ++ ['}']

theorem simplePrinter_sound : SympySound simplePrinter := by
  intro f args h
  have hf : ∀ c ∈ f.toList.filter Char.isAlphanum, c.isAlphanum = true := fun c hc => (List.mem_filter.1 hc).2
  refine (plain_sound true fun c hc => alnum_plain (hf c hc)).append ?_ (Or.inl (lex_alnum hf).1)
  induction args with
  | nil => exact plain_sound true (by simp)
  | cons a args ih =>
    obtain ⟨s, d, -⟩ := (h a (by simp)).brace
    exact s.append (ih fun x hx => h x (by simp [hx])) (Or.inl d)

/-- The writer of the examples. -/
def writer : Env := ⟨simplePrinter, cuts⟩

/-- `Eq(d(rho)/dt, -d(rhou_i)/dx_i)`, with derivatives of two schemes and a power. -/
def mass : Ex := .other "Eq" [.der .temporal [.dataset (.base (.other "rho" []) (.other "0" [])) [.other "0" [], .other "1" []], .other "t" []],
  .der .central [.pow (.einstein "rhou_i".toList) (.other "2" []), .einstein "x_i".toList]]

theorem mass_fine : Fine mass := by
  refine ⟨⟨⟨⟨trivial, trivial⟩, trivial, trivial, trivial⟩, trivial, trivial⟩, ⟨⟨?_, trivial⟩, ?_, trivial⟩, trivial⟩
  · exact ⟨"rhou".toList, "i".toList, by decide, by decide, by decide, Or.inr (by decide)⟩
  · exact ⟨"x".toList, "i".toList, by decide, by decide, by decide, Or.inr (by decide)⟩

/-- The document of two equations can be read. -/
example : ∃ items, read (document writer "Equations".toList (equationsOps "SimulationEquations".toList [mass, mass])) = some items ∧ formulas items = [lex (mass.print simplePrinter), lex (mass.print simplePrinter)] :=
  C103_equations cuts_splits simplePrinter_sound (by unfold Plain; decide) (by unfold Plain; decide) [mass, mass] (by simp [mass_fine])

/-- The text of an expression. -/
example : (Ex.pow (.einstein "u_i".toList) (.other "2" [])).print simplePrinter = "\\left(u_i \\right)^{2}".toList := by decide +kernel

/-- Names without underscores. -/
def names : Names := ⟨fun _ => ["rho".toList], fun _ _ => "9".toList, fun _ => "Eq(Mod(iter + 1, 5), 0)".toList⟩

theorem names_plain : PlainNames names := ⟨by intro i a ha; simp [names] at ha; subst ha; unfold Plain; decide, by intro v b; change ∀ c ∈ "9".toList, plainChar c = true; decide⟩

/-- A kernel with one equation. -/
def advance : Alg.Node Leaf := .kernel (.kernel "advance".toList "0".toList "0,8".toList [some mass])

/-- The document of a program with a loop. -/
example : ∃ items, read (programDocument writer names [.timers [.loop .iter 10 [advance]]]) = some items ∧ formulas items = [lex (mass.print simplePrinter)] :=
  C103_program_partial cuts_splits simplePrinter_sound names_plain _ (by
    refine ⟨⟨⟨⟨?_, ?_, ?_, ?_⟩, trivial⟩, trivial⟩, trivial⟩
    · unfold Plain; decide
    · unfold Plain; decide
    · unfold Plain; decide
    · intro e he x hx
      simp at he; subst he; cases hx; exact mass_fine)

/-- The document with an exchange of `rho_B0` cannot. -/
example : read (programDocument writer names ([] ++ .kernel (.exchange ["rho_B0".toList]) :: [])) = none :=
  C103_exchange cuts_splits simplePrinter_sound names_plain [] trivial (label := "rho".toList) (by unfold Plain; decide) "B0".toList [] []

/-- A document with `tau_i_j` cannot. -/
example : read (document writer "T".toList ([] ++ .expression [.einstein "tau_i_j".toList] :: [])) = none :=
  C103_two_indices cuts_splits (plain_sound false (by decide)) [] (by simp) (a := "tau".toList) (i := 'i') (b := "j".toList) (by decide) (by decide) []

/-- C103 fails for programs with output during the simulation: the equation of the kernel after the condition is not in the document, although nothing else is wrong with it. -/
theorem C103_equation_lost : nodesEqs [.loop .iter 10 [.cond (.every 5) [.io (Alg.IO.new 0 true none 5) true], advance]] = [mass] ∧
    (read (programDocument writer names [.loop .iter 10 [.cond (.every 5) [.io (Alg.IO.new 0 true none 5) true], advance]])).map formulas = some [] := by
  constructor
  · rfl
  · decide +kernel

end OpenSBLI.Tex
