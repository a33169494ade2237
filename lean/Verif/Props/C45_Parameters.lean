import Verif.Model.Text
import Mathlib.Data.List.Basic
import Mathlib.Data.List.Infix
import Mathlib.Data.List.Nodup
import Mathlib.Tactic.Common

/-!
# C45 substitution of simulation parameters
-/
namespace OpenSBLI.Text

/-! ## Replacement of text -/

theorem replaceAux_fuel (pat new : List Char) (hp : pat ≠ []) (n m : ℕ) (l : List Char) (hn : l.length ≤ n) (hm : l.length ≤ m) :
    replaceAux pat new n l = replaceAux pat new m l := by
  induction hk : l.length using Nat.strong_induction_on generalizing l n m with
  | _ k ih =>
    cases l with
    | nil => cases n <;> cases m <;> rfl
    | cons c cs =>
      simp only [List.length_cons] at hn hm hk
      obtain ⟨n, rfl⟩ : ∃ n', n = n' + 1 := ⟨n - 1, by omega⟩
      obtain ⟨m, rfl⟩ : ∃ m', m = m' + 1 := ⟨m - 1, by omega⟩
      rw [replaceAux, replaceAux]
      have hpl : 0 < pat.length := List.length_pos_iff.2 hp
      have hdl : ((c :: cs).drop pat.length).length = cs.length + 1 - pat.length := by simp
      split
      · congr 1
        exact ih _ (by omega) _ _ _ (by omega) (by omega) rfl
      · congr 1
        exact ih _ (by omega) _ _ _ (by omega) (by omega) rfl

/-- Unfolding of `replace` at the head of the text. -/
theorem replace_cons (pat new : List Char) (hp : pat ≠ []) (c : Char) (cs : List Char) :
    replace pat new (c :: cs) = if pat <+: c :: cs then new ++ replace pat new ((c :: cs).drop pat.length) else c :: replace pat new cs := by
  rw [replace, List.length_cons, replaceAux]
  have hpl : 0 < pat.length := List.length_pos_iff.2 hp
  have hdl : ((c :: cs).drop pat.length).length = cs.length + 1 - pat.length := by simp
  split
  · congr 1
    exact replaceAux_fuel _ _ hp _ _ _ (by omega) le_rfl
  · rfl

theorem replace_nil (pat new : List Char) : replace pat new [] = [] := rfl

theorem replace_absent (pat new l : List Char) (hp : pat ≠ []) (h : ¬ pat <:+: l) : replace pat new l = l := by
  induction l with
  | nil => rfl
  | cons c cs ih =>
    rw [replace_cons _ _ hp, if_neg fun hpre => h hpre.isInfix, ih fun hi => h (hi.trans (List.suffix_cons c cs).isInfix)]

/-- The test `if old_str in s` does not matter. -/
theorem substituteOne_eq (s : List Char) (cv : List Char × List Char) :
    substituteOne s cv = replace (cv.1 ++ inputTag) (cv.1 ++ [' ', '=', ' '] ++ cv.2 ++ [';']) s := by
  rw [substituteOne]
  split
  · rfl
  · rename_i h
    exact (replace_absent _ _ _ (by simp [inputTag]) h).symm

theorem prefix_line (pat line rest : List Char) (hp : '\n' ∉ pat) : pat <+: line ++ '\n' :: rest ↔ pat <+: line := by
  induction pat generalizing line with
  | nil => simp
  | cons p pat ih =>
    have hp' : '\n' ∉ pat := fun h => hp (List.mem_cons_of_mem _ h)
    cases line with
    | nil =>
      constructor
      · intro h
        rw [List.nil_append, List.cons_prefix_cons] at h
        exact absurd (h.1 ▸ List.mem_cons_self ..) hp
      · intro h; simp at h
    | cons c cs => rw [List.cons_append, List.cons_prefix_cons, List.cons_prefix_cons, ih cs hp']

/-- Replacement works line by line when the pattern has no line break. -/
theorem replace_line (pat new line rest : List Char) (hp : pat ≠ []) (hnl : '\n' ∉ pat) :
    replace pat new (line ++ '\n' :: rest) = replace pat new line ++ '\n' :: replace pat new rest := by
  induction hk : line.length using Nat.strong_induction_on generalizing line with
  | _ k ih =>
    cases line with
    | nil =>
      rw [List.nil_append, replace_cons _ _ hp, if_neg, replace_nil, List.nil_append]
      intro h
      have := (prefix_line pat [] rest hnl).1 h
      exact hp (List.prefix_nil.1 this)
    | cons c cs =>
      rw [List.cons_append, replace_cons _ _ hp, replace_cons _ _ hp, ← List.cons_append, if_congr (prefix_line pat (c :: cs) rest hnl) rfl rfl]
      have hpl : 0 < pat.length := List.length_pos_iff.2 hp
      split
      · rename_i h
        have hle : pat.length ≤ (c :: cs).length := h.length_le
        rw [List.drop_append_of_le_length hle, ih _ (by rw [← hk, List.length_drop]; simp only [List.length_cons]; omega) _ rfl,
          List.append_assoc]
      · rw [ih _ (by rw [← hk]; simp) _ rfl, List.cons_append]

/-! ## The declaration of a constant -/

/-- Where a pattern `c=Input;` can match in the declaration `name=Input;`: at the end of the name. -/
theorem prefix_decl (c name : List Char) (hc : '=' ∉ c) (hn : '=' ∉ name) : c ++ inputTag <+: name ++ inputTag ↔ c = name := by
  constructor
  · intro h
    induction c generalizing name with
    | nil =>
      cases name with
      | nil => rfl
      | cons x xs =>
        rw [List.nil_append, List.cons_append, inputTag, List.cons_prefix_cons] at h
        exact absurd (h.1 ▸ List.mem_cons_self ..) hn
    | cons y ys ih =>
      cases name with
      | nil =>
        rw [List.nil_append, List.cons_append, inputTag, List.cons_prefix_cons] at h
        exact absurd (h.1 ▸ List.mem_cons_self ..) hc
      | cons x xs =>
        rw [List.cons_append, List.cons_append, List.cons_prefix_cons] at h
        rw [h.1, ih xs (fun m => hc (List.mem_cons_of_mem _ m)) (fun m => hn (List.mem_cons_of_mem _ m)) h.2]
  · rintro rfl; exact List.prefix_rfl

/-- Replacement in a declaration: the text `name=Input;` is rewritten exactly when the constant is a suffix of the name. -/
theorem replace_decl (c name v : List Char) (hc : '=' ∉ c) (hn : '=' ∉ name) :
    replace (c ++ inputTag) (c ++ [' ', '=', ' '] ++ v ++ [';']) (name ++ inputTag) =
      if c <:+ name then name ++ [' ', '=', ' '] ++ v ++ [';'] else name ++ inputTag := by
  have hp : c ++ inputTag ≠ [] := by simp [inputTag]
  induction name with
  | nil =>
    have e : [] ++ inputTag = '=' :: ['I', 'n', 'p', 'u', 't', ';'] := rfl
    rw [e, replace_cons _ _ hp, ← e, if_congr (prefix_decl c [] hc hn) rfl rfl]
    split
    · rename_i h
      subst h
      rw [if_pos List.suffix_rfl, List.drop_length, replace_nil, List.append_nil]
    · rename_i h
      rw [if_neg (by simpa using h), replace_absent _ _ _ hp]
      · rfl
      · intro hi
        have : '=' ∈ ['I', 'n', 'p', 'u', 't', ';'] := hi.subset (by simp [inputTag])
        simp at this
  | cons x xs ih =>
    have hx : '=' ∉ xs := fun h => hn (List.mem_cons_of_mem _ h)
    rw [List.cons_append, replace_cons _ _ hp, ← List.cons_append, if_congr (prefix_decl c (x :: xs) hc hn) rfl rfl]
    split
    · rename_i h
      subst h
      rw [if_pos List.suffix_rfl, List.drop_length, replace_nil, List.append_nil]
    · rename_i h
      rw [ih hx]
      by_cases hs : c <:+ xs
      · rw [if_pos hs, if_pos (hs.trans (List.suffix_cons x xs))]
        rfl
      · rw [if_neg hs, if_neg]
        · rfl
        · intro h'
          rcases List.suffix_cons_iff.1 h' with h' | h'
          · exact h h'
          · exact hs h'

/-! ## The file -/

/-- Lines of the generated file: declarations of constants without a value, and anything else. -/
inductive Line where
  | input (name : List Char)
  | other (text : List Char)
  deriving DecidableEq

def Line.text : Line → List Char
  | .input name => name ++ inputTag
  | .other t => t

/-- The file. -/
def render (lines : List Line) : List Char := lines.flatMap fun l => l.text ++ ['\n']

/-- Lines of a well-formed file: names without `=`, other lines without the text `=Input;`, and no line breaks within lines. -/
def Line.Ok : Line → Prop
  | .input name => '=' ∉ name ∧ '\n' ∉ name
  | .other t => '\n' ∉ t ∧ ¬ inputTag <:+: t

/-- Constants and values to substitute: names without `=`, no line breaks; values without `=` (numbers). -/
def SubOk (cv : List Char × List Char) : Prop := ('=' ∉ cv.1 ∧ '\n' ∉ cv.1) ∧ '=' ∉ cv.2 ∧ '\n' ∉ cv.2

/-- A line with the value assigned. -/
def assigned (name v : List Char) : Line := .other (name ++ [' ', '=', ' '] ++ v ++ [';'])

theorem render_cons (l : Line) (ls : List Line) : render (l :: ls) = l.text ++ '\n' :: render ls := by
  simp [render]

/-- Effect of one substitution on a line. -/
def step (cv : List Char × List Char) : Line → Line
  | .input name => if cv.1 <:+ name then assigned name cv.2 else .input name
  | .other t => .other t

theorem substituteOne_render (cv : List Char × List Char) (hcv : SubOk cv) (lines : List Line) (hl : ∀ l ∈ lines, l.Ok) :
    substituteOne (render lines) cv = render (lines.map (step cv)) := by
  rw [substituteOne_eq]
  have hp : cv.1 ++ inputTag ≠ [] := by simp [inputTag]
  have hnl : '\n' ∉ cv.1 ++ inputTag := by
    rw [List.mem_append, not_or]; exact ⟨hcv.1.2, by simp [inputTag]⟩
  induction lines with
  | nil => rfl
  | cons l ls ih =>
    rw [render_cons, replace_line _ _ _ _ hp hnl, ih fun x hx => hl x (List.mem_cons_of_mem _ hx), List.map_cons, render_cons]
    congr 1
    have hok := hl l (List.mem_cons_self ..)
    cases l with
    | input name =>
      simp only [Line.text, step]
      rw [replace_decl cv.1 name cv.2 hcv.1.1 hok.1]
      split <;> simp [assigned]
    | other t =>
      simp only [Line.text, step]
      exact replace_absent _ _ _ hp fun h => hok.2 ((List.suffix_append _ _).isInfix.trans h)

theorem step_ok (cv : List Char × List Char) (hcv : SubOk cv) (l : Line) (hl : l.Ok) : (step cv l).Ok := by
  cases l with
  | other t => exact hl
  | input name =>
    simp only [step]
    split
    · refine ⟨?_, ?_⟩
      · simp only [List.mem_append, not_or]
        refine ⟨⟨⟨hl.2, by simp⟩, hcv.2.2⟩, by simp⟩
      · rintro ⟨a, b, h⟩
        have hmem : ∀ (n : List Char) (a : List Char), '=' ∉ n → a ++ inputTag ++ b ≠ n ++ [' ', '=', ' '] ++ cv.2 ++ [';'] := by
          intro n
          induction n with
          | nil =>
            intro a _ h
            match a, h with
            | [], h => simp [inputTag] at h
            | [x], h => simp [inputTag] at h
            | x :: y :: a, h =>
              simp only [List.nil_append, List.cons_append, List.append_assoc, List.cons.injEq] at h
              have h2 := congrArg (fun l => '=' ∈ l) h.2.2
              simp only [List.mem_append, List.mem_cons, List.not_mem_nil, or_false, inputTag] at h2
              simp [hcv.2.1] at h2
          | cons x n ih =>
            intro a hn h
            cases a with
            | nil =>
              simp only [List.nil_append, List.cons_append, inputTag, List.cons.injEq] at h
              exact hn (h.1 ▸ List.mem_cons_self ..)
            | cons y a =>
              simp only [List.cons_append, List.cons.injEq] at h
              exact ih a (fun m => hn (List.mem_cons_of_mem _ m)) h.2
        exact hmem name a hl.1 h
    · exact hl

theorem substitute_render (subs : List (List Char × List Char)) (hs : ∀ cv ∈ subs, SubOk cv) (lines : List Line) (hl : ∀ l ∈ lines, l.Ok) :
    substitute subs (render lines) = render (lines.map fun l => subs.foldl (fun l cv => step cv l) l) := by
  induction subs generalizing lines with
  | nil => simp [substitute]
  | cons cv subs ih =>
    rw [substitute, List.foldl_cons, substituteOne_render cv (hs _ (List.mem_cons_self ..)) lines hl, ← substitute,
      ih (fun x hx => hs x (List.mem_cons_of_mem _ hx))]
    · rw [List.map_map]; rfl
    · intro l hl'
      obtain ⟨l0, h0, rfl⟩ := List.mem_map.1 hl'
      exact step_ok cv (hs _ (List.mem_cons_self ..)) l0 (hl l0 h0)

theorem steps_other (subs : List (List Char × List Char)) (t : List Char) : subs.foldl (fun l cv => step cv l) (.other t) = .other t := by
  induction subs with
  | nil => rfl
  | cons cv subs ih => rw [List.foldl_cons]; exact ih

theorem steps_input (subs : List (List Char × List Char)) (name : List Char) :
    subs.foldl (fun l cv => step cv l) (.input name) =
      match subs.find? (fun cv => decide (cv.1 <:+ name)) with
      | some cv => assigned name cv.2
      | none => .input name := by
  induction subs with
  | nil => rfl
  | cons cv subs ih =>
    rw [List.foldl_cons, List.find?_cons]
    by_cases h : cv.1 <:+ name
    · simp only [step, h, if_true, decide_true]
      exact steps_other subs _
    · simp only [step, h, if_false, decide_false]
      exact ih

/-- C45: what the substitution does to any file: each declared constant gets the value of the first substituted name that is a suffix of its own name (its
own name being one of them); declarations without such a name and all other lines are unchanged. -/
theorem C45_exact (subs : List (List Char × List Char)) (hs : ∀ cv ∈ subs, SubOk cv) (lines : List Line) (hl : ∀ l ∈ lines, l.Ok) :
    substitute subs (render lines) = render (lines.map fun
      | .other t => .other t
      | .input name =>
        match subs.find? (fun cv => decide (cv.1 <:+ name)) with
        | some cv => assigned name cv.2
        | none => .input name) := by
  rw [substitute_render subs hs lines hl]
  congr 1
  apply List.map_congr_left
  intro l _
  cases l with
  | other t => exact steps_other subs t
  | input name => exact steps_input subs name

theorem dict_nodup (l acc : List (List Char × List Char)) (h : ((acc ++ l).map Prod.fst).Nodup) : l.foldl dictSet acc = acc ++ l := by
  induction l generalizing acc with
  | nil => simp
  | cons x l ih =>
    rw [List.foldl_cons, dictSet, if_neg, ih]
    · simp
    · simpa using h
    · rw [List.map_append, List.nodup_append] at h
      intro hx
      exact h.2.2 _ hx _ (by simp) rfl

/-- The value a dictionary holds for a key. -/
def dictGet (d : List (List Char × List Char)) (k : List Char) : Option (List Char) := (d.find? fun x => x.1 = k).map Prod.snd

theorem dictGet_map (l : List (List Char × List Char)) (c v k : List Char) :
    dictGet (l.map fun x => if x.1 = c then (c, v) else x) k = if k = c ∧ c ∈ l.map Prod.fst then some v else dictGet l k := by
  induction l with
  | nil => simp [dictGet]
  | cons a l ih =>
    rw [List.map_cons]
    unfold dictGet at ih ⊢
    by_cases hac : a.1 = c
    · by_cases hk : k = c
      · subst hk; simp [hac]
      · rw [if_neg (fun h : _ ∧ _ => hk h.1)] at ih
        rw [if_neg (fun h : _ ∧ _ => hk h.1)]
        rw [if_pos hac, List.find?_cons_of_neg (by simpa using Ne.symm hk), List.find?_cons_of_neg (by simpa [hac] using Ne.symm hk), ih]
    · rw [if_neg hac]
      by_cases hak : a.1 = k
      · rw [List.find?_cons_of_pos (by simpa using hak), List.find?_cons_of_pos (by simpa using hak), if_neg]
        rintro ⟨h, -⟩; exact hac (hak.trans h)
      · rw [List.find?_cons_of_neg (by simpa using hak), List.find?_cons_of_neg (by simpa using hak), ih]
        have : c ∈ (a :: l).map Prod.fst ↔ c ∈ l.map Prod.fst := by simp [Ne.symm hac]
        simp only [this]

theorem dictGet_set (l : List (List Char × List Char)) (c v k : List Char) :
    dictGet (dictSet l (c, v)) k = if k = c then some v else dictGet l k := by
  unfold dictSet
  split
  · rename_i h
    have := dictGet_map l c v k
    simp only at h
    simpa [h] using this
  · rename_i h
    unfold dictGet
    rw [List.find?_append]
    by_cases hk : k = c
    · subst hk
      rw [List.find?_eq_none.2 (by
        intro x hx hxk
        exact h (List.mem_map.2 ⟨x, hx, by simpa using hxk⟩))]
      simp
    · rw [if_neg hk, List.find?_cons_of_neg (by simpa using Ne.symm hk)]
      simp

/-- C45: the dictionary built from the two lists gives each name the value that comes last for it; names that are not given have none, and no name occurs twice. -/
theorem C45_last_value_wins (pairs : List (List Char × List Char)) :
    (∀ k, dictGet (pairs.foldl dictSet []) k = dictGet pairs.reverse k) ∧ ((pairs.foldl dictSet []).map Prod.fst).Nodup := by
  induction pairs using List.reverseRecOn with
  | nil => simp
  | append_singleton l a ih =>
    obtain ⟨ih1, ih2⟩ := ih
    rw [List.foldl_append, List.foldl_cons, List.foldl_nil]
    refine ⟨fun k => ?_, ?_⟩
    · rw [show a = (a.1, a.2) from rfl, dictGet_set, ih1, List.reverse_append]
      unfold dictGet
      by_cases hk : k = a.1
      · simp [hk]
      · rw [if_neg hk, List.reverse_cons, List.reverse_nil, List.nil_append, List.singleton_append,
          List.find?_cons_of_neg (by simpa using Ne.symm hk)]
    · unfold dictSet
      split
      · rw [List.map_map]
        have : (Prod.fst ∘ fun x : List Char × List Char => if x.1 = a.1 then a else x) = Prod.fst := by
          funext x
          simp only [Function.comp]
          split
          · rename_i h; exact h.symm
          · rfl
        rw [this]; exact ih2
      · rename_i h
        rw [List.map_append, List.nodup_append]
        refine ⟨ih2, by simp, ?_⟩
        intro x hx y hy
        simp only [List.map_cons, List.map_nil, List.mem_singleton] at hy
        subst hy
        rintro rfl; exact h hx

example : [("M".toList, "2".toList), ("Re".toList, "9".toList), ("M".toList, "3".toList)].foldl dictSet [] =
    [("M".toList, "3".toList), ("Re".toList, "9".toList)] := by decide

/-- C45: with distinct names, as many values as names, and no substituted name a proper suffix of a declared constant's name, every declared constant that
is named gets its own value, every other line is unchanged. What is missing: the restriction on suffixes, see `C45_suffix_collision`. -/
theorem C45_own_value_partial (constants values : List (List Char)) (hlen : constants.length = values.length) (hnd : constants.Nodup)
    (hs : ∀ cv ∈ constants.zip values, SubOk cv) (lines : List Line) (hl : ∀ l ∈ lines, l.Ok)
    (hsuffix : ∀ name, .input name ∈ lines → ∀ c ∈ constants, c <:+ name → c = name) :
    ∃ lines', substituteParameters constants values (render lines) = render lines' ∧
      List.Forall₂ (fun l l' => ∀ name, (l = .input name →
          (∀ i : ℕ, constants[i]? = some name → ∃ v, values[i]? = some v ∧ l' = assigned name v) ∧ (name ∉ constants → l' = l)) ∧
        ∀ t, l = .other t → l' = l) lines lines' := by
  have hfst : (constants.zip values).map Prod.fst = constants := List.map_fst_zip hlen.le
  rw [substituteParameters, dict_nodup _ [] (by rw [List.nil_append, hfst]; exact hnd), List.nil_append]
  refine ⟨_, C45_exact _ hs lines hl, ?_⟩
  rw [List.forall₂_map_right_iff, List.forall₂_same]
  intro l hlm name
  refine ⟨?_, ?_⟩
  · rintro rfl
    refine ⟨?_, ?_⟩
    · intro i hi
      have hil : i < constants.length := (List.getElem?_eq_some_iff.1 hi).1
      have hmem : name ∈ constants := List.mem_of_getElem? hi
      have hv : values[i]? = some (values[i]'(hlen ▸ hil)) := List.getElem?_eq_getElem _
      refine ⟨_, hv, ?_⟩
      simp only
      cases hf : (constants.zip values).find? (fun cv => decide (cv.1 <:+ name)) with
      | none =>
        rw [List.find?_eq_none] at hf
        have hz : (name, values[i]'(hlen ▸ hil)) ∈ constants.zip values := by
          apply List.mem_of_getElem? (i := i)
          rw [List.getElem?_zip_eq_some]
          exact ⟨hi, hv⟩
        exact absurd (by simp) (hf _ hz)
      | some cv =>
        have h1 := List.find?_some hf
        have h2 := List.mem_of_find?_eq_some hf
        rw [decide_eq_true_eq] at h1
        obtain ⟨j, hj⟩ := List.mem_iff_getElem?.1 h2
        rw [List.getElem?_zip_eq_some] at hj
        have hc := hsuffix name hlm cv.1 (List.mem_of_getElem? hj.1) h1
        rw [hc] at hj
        have hij : i = j := (List.getElem?_inj hil hnd).1 (hi.trans hj.1.symm)
        subst hij
        rw [hv] at hj
        simp only [Option.some.injEq] at hj
        rw [hj.2]
    · intro hn
      simp only
      cases hf : (constants.zip values).find? (fun cv => decide (cv.1 <:+ name)) with
      | none => rfl
      | some cv =>
        have h1 := List.find?_some hf
        have h2 := List.mem_of_find?_eq_some hf
        rw [decide_eq_true_eq] at h1
        have hcm : cv.1 ∈ constants := by rw [← hfst]; exact List.mem_map_of_mem h2
        exact absurd (hsuffix name hlm cv.1 hcm h1 ▸ hcm) hn
  · rintro t rfl; rfl

/-- C45, negative: whenever the name of one constant is a proper suffix of another's and is given first, the other constant silently gets its value, and the
value meant for it is used nowhere; for all names and values. -/
theorem C45_suffix_collision (pre c v w : List Char) (hp : '=' ∉ pre ∧ '\n' ∉ pre) (hne : pre ≠ [])
    (h1 : SubOk (c, v)) (h2 : SubOk (pre ++ c, w)) :
    substituteParameters [c, pre ++ c] [v, w] (render [.input (pre ++ c), .input c]) = render [assigned (pre ++ c) v, assigned c v] := by
  have hnd : [c, pre ++ c].Nodup := by
    simp only [List.nodup_cons, List.mem_singleton, List.not_mem_nil, not_false_eq_true, List.nodup_nil, and_true]
    intro h
    exact hne (List.append_left_eq_self.1 h.symm)
  have _ := hp
  rw [substituteParameters, dict_nodup _ [] (by simpa using hnd), List.nil_append, C45_exact]
  · simp
  · intro cv hcv
    simp only [List.zip_cons_cons, List.zip_nil_right, List.mem_cons, List.not_mem_nil, or_false] at hcv
    rcases hcv with rfl | rfl
    · exact h1
    · exact h2
  · intro l hl
    simp only [List.mem_cons, List.not_mem_nil, or_false] at hl
    rcases hl with rfl | rfl
    · exact h2.1
    · exact h1.1

/-- Substituting `Re` = 100 and `gRe` = 5. -/
example : substituteParameters ["Re".toList, "gRe".toList] ["100".toList, "5".toList] "gRe=Input;\nRe=Input;\n".toList =
    "gRe = 100;\nRe = 100;\n".toList := by decide +kernel

/-- Without a collision. -/
example : substituteParameters ["Re".toList, "dt".toList] ["100".toList, "0.5".toList] "dt=Input;\nx = 3;\nRe=Input;\n".toList =
    "dt = 0.5;\nx = 3;\nRe = 100;\n".toList := by decide +kernel

end OpenSBLI.Text
