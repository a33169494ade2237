import Verif.Spec.Scope
import Verif.Props.C46_Names
import Verif.Props.C34_C38_C39_Registries
import Verif.Props.C68_Monitor

/-! # Helper lemmas on the forms of generated names -/
namespace OpenSBLI.Prog
open OpenSBLI.Reg

theorem starts_append (p x : String) : starts p (p ++ x) = true := by
  simp [starts, String.toList_append]

/-- Text in front decides about a prefix of at most its length. -/
theorem starts_false (p q x : String) (h : ∀ l : List Char, p.toList.isPrefixOf (q.toList ++ l) = false) : starts p (q ++ x) = false := by
  rw [starts, String.toList_append]
  exact h _

theorem digits_ne_nil (n : ℕ) : (toString n).toList ≠ [] := by
  rw [show toString n = Nat.repr n from rfl]
  simp [Nat.repr]

theorem padded_ne_nil (w n : ℕ) : (padded w n).toList ≠ [] := by
  rw [padded_toList]
  simp

/-- Text ending in digits does not end in a word. -/
theorem ends_digits (w : String) (c : Char) (l : List Char) (hw : w.toList = l ++ [c]) (hc : c.isDigit = false) (a ds : List Char)
    (hd : ∀ c ∈ ds, c.isDigit = true) (hn : ds ≠ []) (n : String) (h : n.toList = a ++ ds) : ends w n = false := by
  rw [Bool.eq_false_iff]
  intro he
  rw [ends, List.isSuffixOf_iff_suffix, hw, h] at he
  have h1 : [c] <:+ a ++ ds := (List.suffix_append l [c]).trans he
  have h2 : ds <:+ a ++ ds := List.suffix_append ..
  rcases List.suffix_or_suffix_of_suffix h1 h2 with h | h
  · have := hd c (h.subset (by simp))
    rw [hc] at this
    cases this
  · obtain ⟨x, hx⟩ := List.exists_mem_of_ne_nil ds hn
    have : x = c := by simpa using h.subset hx
    have h3 := hd x hx
    rw [this, hc] at h3
    cases h3

theorem ends_output_digits (n : String) (a ds : List Char) (hd : ∀ c ∈ ds, c.isDigit = true) (hn : ds ≠ []) (h : n.toList = a ++ ds) :
    ends "output" n = false :=
  ends_digits "output" 't' "outpu".toList (by decide) (by decide) a ds hd hn n h

/-- A word after an underscore. -/
theorem ends_output_tail (n : String) (a : List Char) (x : String) (hx : ends "output" x = false) (h : n.toList = a ++ '_' :: x.toList) :
    ends "output" n = false := by
  rw [Bool.eq_false_iff]
  intro he
  rw [ends, List.isSuffixOf_iff_suffix, h] at he
  have h2 : '_' :: x.toList <:+ a ++ '_' :: x.toList := List.suffix_append ..
  have no : '_' ∉ "output".toList := by decide
  rcases List.suffix_or_suffix_of_suffix he h2 with h | h
  · rcases List.suffix_cons_iff.1 h with h | h
    · exact no (h ▸ List.mem_cons_self ..)
    · rw [Bool.eq_false_iff, ne_eq, ends, List.isSuffixOf_iff_suffix] at hx
      exact hx h
  · exact no (h.subset (List.mem_cons_self ..))

theorem form_kernel (b n : ℕ) : form (kernelName b n) = .kernel := by
  have e : ends "output" (kernelName b n) = false :=
    ends_output_digits _ _ _ (padded_isDigit 3 n) (padded_ne_nil 3 n) (by rw [kernelName, String.toList_append])
  have s : starts "opensbliblock" (kernelName b n) = true := by
    rw [kernelName, blockName, String.append_assoc, String.append_assoc]; exact starts_append ..
  have k : 'K' ∈ (kernelName b n).toList := by
    rw [kernelName, String.toList_append, String.toList_append]
    simp
  simp [form, e, s, k]

theorem form_block (b : ℕ) : form (blockName b) = .block := by
  have e : ends "output" (blockName b) = false :=
    ends_output_digits _ _ _ (padded_isDigit 2 b) (padded_ne_nil 2 b) (by rw [blockName, String.toList_append])
  have s : starts "opensbliblock" (blockName b) = true := starts_append ..
  have k : 'K' ∉ (blockName b).toList := by
    rw [blockName, String.toList_append]
    intro h
    rcases List.mem_append.1 h with h | h
    · exact absurd h (by decide)
    · exact absurd (padded_isDigit 2 b _ h) (by decide)
  simp [form, e, s, k]

theorem form_stencil (b n : ℕ) : form (stencilName b n) = .stencil := by
  have e : ends "output" (stencilName b n) = false :=
    ends_output_digits _ _ _ (padded_isDigit 2 n) (padded_ne_nil 2 n) (by rw [stencilName, String.toList_append])
  have t : ends "temp" (stencilName b n) = false :=
    ends_digits "temp" 'p' "tem".toList (by decide) (by decide) _ _ (padded_isDigit 2 n) (padded_ne_nil 2 n) _ (by rw [stencilName, String.toList_append])
  have s : starts "stencil_" (stencilName b n) = true := by
    rw [stencilName, String.append_assoc, String.append_assoc]; exact starts_append ..
  have o : starts "opensbliblock" (stencilName b n) = false := by
    rw [stencilName, String.append_assoc, String.append_assoc]; exact starts_false _ _ _ fun _ => rfl
  simp [form, e, s, o, t]

theorem form_temp (b n : ℕ) : form (stencilName b n ++ "temp") = .temp := by
  have e : ends "output" (stencilName b n ++ "temp") = false := by
    rw [Bool.eq_false_iff]
    intro he
    rw [ends, List.isSuffixOf_iff_suffix, String.toList_append] at he
    have h1 : ['t'] <:+ (stencilName b n).toList ++ "temp".toList := (List.suffix_append "outpu".toList ['t']).trans he
    have h2 : ['p'] <:+ (stencilName b n).toList ++ "temp".toList :=
      (List.suffix_append "tem".toList ['p']).trans (List.suffix_append (stencilName b n).toList "temp".toList)
    rcases List.suffix_or_suffix_of_suffix h1 h2 with h | h <;> exact absurd h (by decide)
  have t : ends "temp" (stencilName b n ++ "temp") = true := by
    rw [ends, List.isSuffixOf_iff_suffix, String.toList_append]
    exact List.suffix_append ..
  have s : starts "stencil_" (stencilName b n ++ "temp") = true := by
    simp only [stencilName, String.append_assoc]; exact starts_append ..
  have o : starts "opensbliblock" (stencilName b n ++ "temp") = false := by
    simp only [stencilName, String.append_assoc]; exact starts_false _ _ _ fun _ => rfl
  simp [form, e, s, o, t]

theorem form_group (b n : ℕ) : form (groupName b n) = .group := by
  have e : ends "output" (groupName b n) = false :=
    ends_output_digits _ _ _ (Mon.digits_toString b) (digits_ne_nil b) (by rw [groupName, String.toList_append])
  have s : ∀ p : String, (∀ l : List Char, p.toList.isPrefixOf ("exchange".toList ++ l) = false) → starts p (groupName b n) = false := by
    intro p h; simp only [groupName, String.append_assoc]; exact starts_false _ _ _ h
  have g : starts "exchange" (groupName b n) = true := by
    rw [groupName, String.append_assoc, String.append_assoc, starts_append]
  simp only [form, e, s "opensbliblock" fun _ => rfl, s "stencil_" fun _ => rfl, g, Bool.false_eq_true, if_false, if_true]

theorem form_range (b n : ℕ) : form (rangeName b n) = .range := by
  have aux : ∀ x : String, ends "output" ("iteration_range_" ++ x) = false → form ("iteration_range_" ++ x) = .range := by
    intro x e
    have s : ∀ p : String, (∀ l : List Char, p.toList.isPrefixOf ("iteration_range_".toList ++ l) = false) → starts p ("iteration_range_" ++ x) = false :=
      fun p h => starts_false _ _ _ h
    have g : starts "iteration_range_" ("iteration_range_" ++ x) = true := starts_append ..
    simp only [form, e, s "opensbliblock" fun _ => rfl, s "stencil_" fun _ => rfl, s "exchange" fun _ => rfl, g, Bool.false_eq_true, if_false, if_true]
  have h : rangeName b n = "iteration_range_" ++ (toString n ++ "_block" ++ toString b) := by
    unfold rangeName
    simp only [String.append_assoc]
  rw [h]
  apply aux
  refine ends_output_digits _ ("iteration_range_" ++ (toString n ++ "_block")).toList (toString b).toList (Mon.digits_toString b) (digits_ne_nil b) ?_
  simp only [String.toList_append, List.append_assoc]

/-- The names of the monitors. -/
theorem form_word (p : String) (i : ℕ) (x : String) (hx : ends "output" x = false) : ends "output" (p ++ toString i ++ "_" ++ x) = false :=
  ends_output_tail _ (p ++ toString i).toList x hx (by simp [String.toList_append])

theorem form_monitorRange (i : ℕ) (x : String) (hx : ends "output" x = false) : form ("monitor_range_" ++ toString i ++ "_" ++ x) = .monitorRange := by
  have e := form_word "monitor_range_" i x hx
  have s : ∀ p : String, (∀ l : List Char, p.toList.isPrefixOf ("monitor_range_".toList ++ l) = false) →
      starts p ("monitor_range_" ++ toString i ++ "_" ++ x) = false := by
    intro p h; simp only [String.append_assoc]; exact starts_false _ _ _ h
  have g : starts "monitor_range_" ("monitor_range_" ++ toString i ++ "_" ++ x) = true := by
    rw [String.append_assoc, String.append_assoc, starts_append]
  simp only [form, e, s "opensbliblock" fun _ => rfl, s "stencil_" fun _ => rfl, s "exchange" fun _ => rfl, s "iteration_range_" fun _ => rfl, g, Bool.false_eq_true, if_false, if_true]

theorem form_monitor (i : ℕ) (x : String) (hx : ends "output" x = false) : form ("monitor_" ++ toString i ++ "_" ++ x) = .monitor := by
  have e := form_word "monitor_" i x hx
  have s : ∀ p : String, (∀ l : List Char, p.toList.isPrefixOf ("monitor_".toList ++ l) = false) →
      starts p ("monitor_" ++ toString i ++ "_" ++ x) = false := by
    intro p h; simp only [String.append_assoc]; exact starts_false _ _ _ h
  have g : starts "monitor_" ("monitor_" ++ toString i ++ "_" ++ x) = true := by
    rw [String.append_assoc, String.append_assoc, starts_append]
  have r : starts "monitor_range_" ("monitor_" ++ toString i ++ "_" ++ x) = false := by
    obtain ⟨c, l, hl⟩ := List.exists_cons_of_ne_nil (digits_ne_nil i)
    have hc : c.isDigit = true := Mon.digits_toString i c (by rw [hl]; exact List.mem_cons_self ..)
    have hr : ('r' == c) = false := by
      rw [beq_eq_false_iff_ne]
      rintro rfl
      exact absurd hc (by decide)
    simp only [starts, String.toList_append, hl]
    simp [List.isPrefixOf, hr]
  simp only [form, e, s "opensbliblock" fun _ => rfl, s "stencil_" fun _ => rfl, s "exchange" fun _ => rfl, s "iteration_range_" fun _ => rfl, g, r, Bool.false_eq_true, if_false, if_true]

theorem form_handle (i : ℕ) (x : String) (hx : ends "output" x = false) : form ("reduce_" ++ toString i ++ "_" ++ x) = .handle := by
  have e := form_word "reduce_" i x hx
  have s : ∀ p : String, (∀ l : List Char, p.toList.isPrefixOf ("reduce_".toList ++ l) = false) →
      starts p ("reduce_" ++ toString i ++ "_" ++ x) = false := by
    intro p h; simp only [String.append_assoc]; exact starts_false _ _ _ h
  have g : starts "reduce_" ("reduce_" ++ toString i ++ "_" ++ x) = true := by
    rw [String.append_assoc, String.append_assoc, starts_append]
  simp only [form, e, s "opensbliblock" fun _ => rfl, s "stencil_" fun _ => rfl, s "exchange" fun _ => rfl, s "iteration_range_" fun _ => rfl,
    s "monitor_range_" fun _ => rfl, s "monitor_" fun _ => rfl, g, Bool.false_eq_true, if_false, if_true]

theorem form_output (x : String) (i : ℕ) : form (x ++ "_" ++ toString i ++ "_output") = .output := by
  have e : ends "output" (x ++ "_" ++ toString i ++ "_output") = true := by
    rw [ends, List.isSuffixOf_iff_suffix, String.toList_append]
    exact (List.suffix_cons '_' "output".toList).trans (List.suffix_append ..)
  rw [form, e, if_pos rfl]

theorem form_halo (i : ℕ) : form ("halo" ++ toString i) = .halo := by
  have e : ends "output" ("halo" ++ toString i) = false :=
    ends_output_digits _ _ _ (Mon.digits_toString i) (digits_ne_nil i) (by rw [String.toList_append])
  have s : ∀ p : String, (∀ l : List Char, p.toList.isPrefixOf ("halo".toList ++ l) = false) → starts p ("halo" ++ toString i) = false :=
    fun p h => starts_false _ _ _ h
  have g : starts "halo" ("halo" ++ toString i) = true := starts_append ..
  simp only [form, e, s "opensbliblock" fun _ => rfl, s "stencil_" fun _ => rfl, s "exchange" fun _ => rfl, s "iteration_range_" fun _ => rfl,
    s "monitor_range_" fun _ => rfl, s "monitor_" fun _ => rfl, s "reduce_" fun _ => rfl, g, Bool.false_eq_true, if_false, if_true]

theorem form_corner (v : String) (hv : v ∈ ["i", "j", "k"]) (i : ℕ) : form (v ++ toString i) = .corner := by
  have e : ends "output" (v ++ toString i) = false :=
    ends_output_digits _ _ _ (Mon.digits_toString i) (digits_ne_nil i) (by rw [String.toList_append])
  obtain ⟨c, l, hl⟩ := List.exists_cons_of_ne_nil (digits_ne_nil i)
  have hc : c.isDigit = true := Mon.digits_toString i c (by rw [hl]; exact List.mem_cons_self ..)
  have hd : l.all Char.isDigit = true := List.all_eq_true.2 fun c hm => Mon.digits_toString i c (by rw [hl]; exact List.mem_cons_of_mem _ hm)
  have ht : ('t' == c) = false := by
    rw [beq_eq_false_iff_ne]
    rintro rfl
    exact absurd hc (by decide)
  simp only [List.mem_cons, List.not_mem_nil, or_false] at hv
  rcases hv with rfl | rfl | rfl <;>
  simp only [form, e, starts, String.toList_append, hl, isCorner] <;> simp [List.isPrefixOf, ht, hc, hd]

theorem form_fixed : ∀ n ∈ fixedNames, form n = .fixed n := by decide +kernel

theorem form_halo_words : ∀ n ∈ ["halo_p", "halo_m", "halo_iter"], form n = .halo := by decide +kernel

theorem form_constants : form "niter" = .user ∧ form "dt" = .user := by decide +kernel

theorem form_user_of {n : String} (e : ends "output" n = false) (c : isCorner n = false) (f : n ∉ fixedNames)
    (s : ∀ p ∈ ["opensbliblock", "stencil_", "exchange", "iteration_range_", "monitor_range_", "monitor_", "reduce_", "halo"], starts p n = false) :
    form n = .user := by
  simp only [List.mem_cons, List.not_mem_nil, or_false, forall_eq_or_imp, forall_eq] at s
  obtain ⟨h1, h2, h3, h4, h5, h6, h7, h8⟩ := s
  simp [form, e, c, f, h1, h2, h3, h4, h5, h6, h7, h8]

/-- A prefix that none of the words and fixed names begin with. -/
theorem form_prefix (q : String) (x : String) (e : ends "output" (q ++ x) = false)
    (c : ∀ l : List Char, (match q.toList ++ l with
      | c :: e :: l => (c == 'i' || c == 'j' || c == 'k') && e.isDigit && l.all Char.isDigit
      | _ => false) = false)
    (f : ∀ n ∈ fixedNames, starts q n = false)
    (s : ∀ p ∈ ["opensbliblock", "stencil_", "exchange", "iteration_range_", "monitor_range_", "monitor_", "reduce_", "halo"],
      ∀ l : List Char, p.toList.isPrefixOf (q.toList ++ l) = false) : form (q ++ x) = .user := by
  refine form_user_of e ?_ ?_ fun p hp => starts_false _ _ _ (s p hp)
  · rw [isCorner, String.toList_append]
    exact c _
  · intro h
    have := f _ h
    rw [starts_append] at this
    cases this

theorem form_generated {n : String} (h : Generated n) : form n = .user := by
  obtain ⟨p, i, rfl⟩ := h
  have e : ends "output" (p.str ++ toString i) = false :=
    ends_output_digits _ _ _ (Mon.digits_toString i) (digits_ne_nil i) (by rw [String.toList_append])
  cases p with
  | rc =>
    refine form_prefix "rc" _ e (fun _ => rfl) (by decide +kernel) ?_
    simp only [List.mem_cons, List.not_mem_nil, or_false, forall_eq_or_imp, forall_eq]
    exact ⟨fun _ => rfl, fun _ => rfl, fun _ => rfl, fun _ => rfl, fun _ => rfl, fun _ => rfl, fun _ => rfl, fun _ => rfl⟩
  | rcinv =>
    refine form_prefix "rcinv" _ e (fun _ => rfl) (by decide +kernel) ?_
    simp only [List.mem_cons, List.not_mem_nil, or_false, forall_eq_or_imp, forall_eq]
    exact ⟨fun _ => rfl, fun _ => rfl, fun _ => rfl, fun _ => rfl, fun _ => rfl, fun _ => rfl, fun _ => rfl, fun _ => rfl⟩
  | inv =>
    refine form_prefix "inv_" _ e (fun _ => rfl) (by decide +kernel) ?_
    simp only [List.mem_cons, List.not_mem_nil, or_false, forall_eq_or_imp, forall_eq]
    exact ⟨fun _ => rfl, fun _ => rfl, fun _ => rfl, fun _ => rfl, fun _ => rfl, fun _ => rfl, fun _ => rfl, fun _ => rfl⟩

theorem form_shape (b i : ℕ) : form (shapeName b i) = .user := by
  have e : ends "output" (shapeName b i) = false :=
    ends_output_digits _ _ _ (Mon.digits_toString i) (digits_ne_nil i) (by rw [shapeName, String.toList_append])
  simp only [shapeName, String.append_assoc] at *
  refine form_prefix "block" _ e (fun _ => rfl) (by decide +kernel) ?_
  simp only [List.mem_cons, List.not_mem_nil, or_false, forall_eq_or_imp, forall_eq]
  exact ⟨fun _ => rfl, fun _ => rfl, fun _ => rfl, fun _ => rfl, fun _ => rfl, fun _ => rfl, fun _ => rfl, fun _ => rfl⟩

theorem form_delta (b i : ℕ) : form (deltaName b i) = .user := by
  have e : ends "output" (deltaName b i) = false :=
    ends_output_digits _ _ _ (Mon.digits_toString b) (digits_ne_nil b) (by rw [deltaName, String.toList_append])
  simp only [deltaName, String.append_assoc] at *
  refine form_prefix "Delta" _ e (fun _ => rfl) (by decide +kernel) ?_
  simp only [List.mem_cons, List.not_mem_nil, or_false, forall_eq_or_imp, forall_eq]
  exact ⟨fun _ => rfl, fun _ => rfl, fun _ => rfl, fun _ => rfl, fun _ => rfl, fun _ => rfl, fun _ => rfl, fun _ => rfl⟩

/-! ## Different numbers give different names -/

theorem rangeName_injective (b : ℕ) {n n' : ℕ} (h : rangeName b n = rangeName b n') : n = n' := by
  have h := congrArg String.toList h
  unfold rangeName at h
  simp only [String.toList_append] at h
  have h := List.append_cancel_right h
  have h := List.append_cancel_right h
  have h := List.append_cancel_left h
  exact Mon.toString_injective (String.toList_injective h)

theorem groupName_injective (b : ℕ) {n n' : ℕ} (h : groupName b n = groupName b n') : n = n' := by
  have h := congrArg String.toList h
  unfold groupName at h
  simp only [String.toList_append] at h
  have h := List.append_cancel_right h
  have h := List.append_cancel_right h
  have h := List.append_cancel_left h
  exact Mon.toString_injective (String.toList_injective h)

/-- A number followed by an underscore. -/
theorem numbered_injective (p : String) {i j : ℕ} {x y : String} (h : p ++ toString i ++ "_" ++ x = p ++ toString j ++ "_" ++ y) : i = j := by
  have h := congrArg String.toList h
  simp only [String.toList_append, List.append_assoc] at h
  have h := List.append_cancel_left h
  have key : ∀ (i : ℕ) (x : String), ((toString i).toList ++ ("_".toList ++ x.toList)).takeWhile Char.isDigit = (toString i).toList := by
    intro i x
    rw [List.takeWhile_append_of_pos (Mon.digits_toString i)]
    rw [show "_".toList = ['_'] from rfl, List.cons_append, List.takeWhile_cons_of_neg (by decide), List.append_nil]
  have e := congrArg (List.takeWhile Char.isDigit) h
  rw [key, key] at e
  exact Mon.toString_injective (String.toList_injective e)

theorem output_injective {i j : ℕ} {x y : String} (h : x ++ "_" ++ toString i ++ "_output" = y ++ "_" ++ toString j ++ "_output") : i = j := by
  have h := congrArg String.toList h
  simp only [String.toList_append] at h
  have h := List.append_cancel_right h
  exact Mon.toString_injective (String.toList_injective
    (split_digits (Mon.digits_toString i) (Mon.digits_toString j) '_' '_' (by decide) (by decide) h).2)

theorem corner_injective {v w : String} (hv : v ∈ ["i", "j", "k"]) (hw : w ∈ ["i", "j", "k"]) {i j : ℕ} (h : v ++ toString i = w ++ toString j) :
    v = w ∧ i = j := by
  have h := congrArg String.toList h
  simp only [String.toList_append] at h
  simp only [List.mem_cons, List.not_mem_nil, or_false] at hv hw
  rcases hv with rfl | rfl | rfl <;> rcases hw with rfl | rfl | rfl <;>
    simp only [String.reduceToList, List.cons_append, List.nil_append, List.cons.injEq, Char.reduceEq, false_and, true_and] at h <;>
    exact ⟨rfl, Mon.toString_injective (String.toList_injective h)⟩

theorem halo_injective {i j : ℕ} (h : "halo" ++ toString i = "halo" ++ toString j) : i = j := by
  have h := congrArg String.toList h
  simp only [String.toList_append] at h
  exact Mon.toString_injective (String.toList_injective (List.append_cancel_left h))

theorem halo_ne_word (i : ℕ) : ∀ n ∈ ["halo_p", "halo_m", "halo_iter"], "halo" ++ toString i ≠ n := by
  obtain ⟨c, l, hl⟩ := List.exists_cons_of_ne_nil (digits_ne_nil i)
  have hc : c.isDigit = true := Mon.digits_toString i c (by rw [hl]; exact List.mem_cons_self ..)
  have ht : c ≠ '_' := by
    rintro rfl
    exact absurd hc (by decide)
  intro n hn h
  have h := congrArg String.toList h
  rw [String.toList_append, hl] at h
  simp only [List.mem_cons, List.not_mem_nil, or_false] at hn
  rcases hn with rfl | rfl | rfl <;> simp at h <;> exact ht h.1

end OpenSBLI.Prog
