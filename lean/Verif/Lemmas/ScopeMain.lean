import Verif.Lemmas.ScopeGlobal

/-! # Helper lemmas on the definitions and declarations in the main program -/
namespace OpenSBLI.Prog
open OpenSBLI.Reg OpenSBLI.CCode OpenSBLI.Alg

variable {d : ℕ} {inp : Input d} {lib : List String}

theorem shape_final (inp : Input d) : ∀ n ∈ shapeNames inp.b d, n ∈ inp.finalNames := by
  intro n hn
  refine constantNames_final inp n (((C38_declared_once [] _ (by simp)).2 n).2 (.inr ?_))
  rw [List.map_append, List.mem_append, List.map_map]
  refine .inl (List.mem_map.2 ⟨n, ?_, rfl⟩)
  rw [List.append_assoc]
  exact List.mem_append_left _ hn

theorem time_final (inp : Input d) : "niter" ∈ inp.finalNames ∧ "dt" ∈ inp.finalNames := by
  have key : ∀ n ∈ ["niter", "dt"], n ∈ inp.finalNames := by
    intro n hn
    refine constantNames_final inp n (((C38_declared_once [] _ (by simp)).2 n).2 (.inr ?_))
    rw [List.map_append, List.mem_append, List.map_map]
    exact .inl (List.mem_map.2 ⟨n, List.mem_append_right _ hn, rfl⟩)
  exact ⟨key _ (by simp), key _ (by simp)⟩

/-! ## Tables, block -/

theorem tables_text (inp : Input d) : inp.tables.flatMap tableText = inp.tableNames.map (Stmt.decl · .table) := by
  unfold Input.tableNames
  induction inp.tables with
  | nil => rfl
  | cons t l ih => rw [List.flatMap_cons, ih]; rfl

/-! ## Arrays -/

theorem added_array (inp : Input d) (x : String) : added (arrayText inp x) = [(x, .data)] := rfl

/-- What the text of an array or an exchange needs to see. -/
structure Sees (inp : Input d) (E : Env) : Prop where
  shape : ∀ n ∈ shapeNames inp.b d, E.lookup n = some .value
  block : E.lookup (blockName inp.b) = some .block

theorem shape_user (b n : ℕ) : ∀ x ∈ shapeNames b n, form x = .user := by
  intro x hx
  obtain ⟨i, -, rfl⟩ := List.mem_map.1 hx
  exact form_shape ..

/-- Names of the forms written in `l` are not those of `D`. -/
theorem lookup_form (D E : Env) (n : String) (f : Form → Bool) (hd : ∀ m ∈ dom D, f (form m) = true) (hn : f (form n) = false) :
    (D ++ E).lookup n = E.lookup n := by
  refine lookup_skip D E n fun hm => ?_
  have := hd n hm
  rw [hn] at this
  cases this

/-- The forms of the variables of inner blocks. -/
def Form.inner : Form → Bool
  | .halo => true
  | .fixed n => decide (n ∈ ["size", "base", "value", "from_base", "to_base", "from_dir", "to_dir", "grp"])
  | _ => false

theorem inner_words : ∀ n ∈ ["halo_p", "halo_m", "size", "base", "value", "halo_iter", "from_base", "to_base", "from_dir", "to_dir", "grp"],
    (form n).inner = true := by decide +kernel

theorem array_ok (inp : Input d) (x : String) (hx : form x = .user) (cur outer : Env) (hs : Sees inp (cur ++ outer)) (hn : x ∉ dom cur)
    (hsh : x ∉ shapeNames inp.b d) : allOk outer cur (arrayText inp x) = true := by
  have hb : x ≠ blockName inp.b := fun e => by
    have := form_block inp.b
    rw [← e, hx] at this
    cases this
  have l1 : (([(x, Kind.data)] ++ cur) ++ outer).lookup x = some .data := by simp
  have l2 : (([(x, Kind.data)] ++ cur) ++ outer).lookup (blockName inp.b) = some .block := by
    rw [List.append_assoc, lookup_skip _ _ _ (by simpa [dom] using hb.symm)]
    exact hs.block
  have l3 : ∀ n ∈ shapeNames inp.b d, (([(x, Kind.data)] ++ cur) ++ outer).lookup n = some .value := by
    intro n hm
    rw [List.append_assoc, lookup_skip _ _ _ (by
      intro hd
      have : n = x := by simpa [dom] using hd
      exact hsh (this ▸ hm))]
    exact hs.shape n hm
  unfold arrayText
  simp only [allOk, Stmt.ok, Stmt.adds, Bool.and_true, Bool.and_eq_true, decide_eq_true_eq]
  refine ⟨hn, ?_⟩
  generalize ([(x, Kind.data)] ++ cur) ++ outer = E at *
  split
  · simp only [allOk, Stmt.ok, Stmt.adds, List.nil_append, l1, l2, decide_true, Bool.and_true]
  · have skip : ∀ (D : Env) (n : String), (∀ m ∈ dom D, (form m).inner = true) → (form n).inner = false → (D ++ E).lookup n = E.lookup n :=
      fun D n hd hn => lookup_form D E n Form.inner hd hn
    have d1 : ∀ m ∈ dom (added (["halo_p", "halo_m"].map (Stmt.decl · .ints))), (form m).inner = true := by
      intro m hm
      rw [dom_decls] at hm
      exact inner_words m (by simp at hm ⊢; tauto)
    have d2 : ∀ m ∈ dom (added (["halo_p", "halo_m"].map (Stmt.decl · .ints) ++ uses .value (shapeNames inp.b d) ++
        ["size", "base", "value"].map (Stmt.decl · .ints))), (form m).inner = true := by
      intro m hm
      rw [added_append, added_append, added_uses, List.nil_append, dom_append, List.mem_append, dom_decls, dom_decls] at hm
      exact inner_words m (by simp at hm ⊢; tauto)
    simp only [allOk_append, Bool.and_eq_true]
    refine ⟨⟨⟨⟨allOk_decls _ _ _ _ (by decide) (by simp [dom]), allOk_uses _ _ _ _ ?_⟩, allOk_decls _ _ _ _ (by decide) ?_⟩, ?_⟩, allOk_uses _ _ _ _ ?_⟩
    · intro n hm
      rw [List.append_nil, skip _ _ d1 (by rw [shape_user _ _ n hm]; rfl)]
      exact l3 n hm
    · intro n hm hd
      rw [List.append_nil, added_append, added_uses, List.nil_append, dom_decls] at hd
      revert hm hd
      revert n
      decide
    · have e1 := skip _ x d2 (by rw [hx]; rfl)
      have e2 := skip _ (blockName inp.b) d2 (by rw [form_block]; rfl)
      rw [List.append_nil]
      simp only [allOk, Stmt.ok, Stmt.adds, List.nil_append, e1, e2, l1, l2, decide_true, Bool.and_true]
    · intro n hm
      have : added ([Stmt.use x .data, .use (blockName inp.b) .block]) = ([] : Env) := rfl
      rw [added_append, List.append_nil, this, List.nil_append, added_append, added_append, added_uses, List.nil_append]
      revert hm
      revert n
      simp only [List.map_cons, List.map_nil, added, Stmt.adds, List.nil_append, List.cons_append, List.mem_cons, List.not_mem_nil, or_false,
        forall_eq_or_imp, forall_eq, List.lookup_cons]
      simp

/-! ## Stencils -/

theorem stencils_ok (inp : Input d) : inp.stencils.Ok inp.b := by
  unfold Input.stencils
  have key : ∀ (l : List ℕ) (r : Stencils d), r.Ok inp.b → (l.foldl (fun r n => match inp.kern? n with
    | some k => k.bases.foldl (fun r x => register inp.b r (k.stencil x)) r
    | none => r) r).Ok inp.b := by
    intro l
    induction l with
    | nil => exact fun r h => h
    | cons n l ih =>
      intro r h
      refine ih _ ?_
      beta_reduce
      cases inp.kern? n with
      | none => exact h
      | some k =>
        have : ∀ (xs : List String) (r : Stencils d), r.Ok inp.b → (xs.foldl (fun r x => register inp.b r (k.stencil x)) r).Ok inp.b := by
          intro xs
          induction xs with
          | nil => exact fun r h => h
          | cons x xs ih => exact fun r h => ih _ (register_ok inp.b r h _)
        exact this k.bases r h
  exact key inp.created [] ⟨by simp, by simp⟩

/-- The stencils of the kernels given to the block are declared. -/
theorem stencils_mem (inp : Input d) (n : ℕ) (hn : n ∈ inp.created) (k : Kern d) (hk : inp.kern? n = some k) (x : String) (hx : x ∈ k.bases) :
    ∃ m, nameOf inp.stencils (k.stencil x) = some m ∧ (k.stencil x, m) ∈ inp.stencils := by
  have ok := stencils_ok inp
  have inner : ∀ (k : Kern d) (xs : List String) (r : Stencils d), r <+: xs.foldl (fun r x => register inp.b r (k.stencil x)) r := by
    intro k xs
    induction xs with
    | nil => exact fun r => List.prefix_rfl
    | cons x xs ih => exact fun r => (register_prefix inp.b r _).trans (ih _)
  have inner' : ∀ (xs : List String) (r : Stencils d), x ∈ xs → k.stencil x ∈ (xs.foldl (fun r x => register inp.b r (k.stencil x)) r).map Prod.fst := by
    intro xs
    induction xs with
    | nil => simp
    | cons y xs ih =>
      intro r hm
      by_cases e : x ∈ xs
      · exact ih _ e
      · have e : x = y := (List.mem_cons.1 hm).resolve_right e
        subst e
        exact List.map_subset _ (inner k xs _).subset (register_mem inp.b r (k.stencil x))
  have step : ∀ (n : ℕ) (r : Stencils d), r <+: (match inp.kern? n with
    | some k => k.bases.foldl (fun r x => register inp.b r (k.stencil x)) r
    | none => r) := by
    intro n r
    cases inp.kern? n with
    | none => exact List.prefix_rfl
    | some k => exact inner k _ r
  have key : ∀ (l : List ℕ) (r : Stencils d), (r <+: l.foldl (fun r n => match inp.kern? n with
    | some k => k.bases.foldl (fun r x => register inp.b r (k.stencil x)) r
    | none => r) r) ∧ (n ∈ l → k.stencil x ∈ (l.foldl (fun r n => match inp.kern? n with
    | some k => k.bases.foldl (fun r x => register inp.b r (k.stencil x)) r
    | none => r) r).map Prod.fst) := by
    intro l
    induction l with
    | nil => exact fun r => ⟨List.prefix_rfl, by simp⟩
    | cons m l ih =>
      intro r
      refine ⟨(step m r).trans (ih _).1, fun hm => ?_⟩
      by_cases e : n ∈ l
      · exact (ih _).2 e
      · have e : n = m := (List.mem_cons.1 hm).resolve_right e
        subst e
        refine List.map_subset _ (ih _).1.subset ?_
        beta_reduce
        rw [hk]
        exact inner' k.bases r hx
  obtain ⟨⟨s, m⟩, hm, e⟩ := List.mem_map.1 ((key inp.created []).2 hn)
  simp only at e
  subst e
  exact ⟨m, lookup_of_mem _ ok.nodup _ _ hm, hm⟩

theorem stencil_names (inp : Input d) (s : Finset (Fin d → ℤ) × String) (hs : s ∈ inp.stencils) : ∃ k, s.2 = stencilName inp.b k := by
  obtain ⟨k, hk⟩ := List.getElem?_of_mem hs
  exact ⟨k, (stencils_ok inp).named k s.1 s.2 hk⟩

theorem stencil_names_nodup (inp : Input d) : (inp.stencils.map Prod.snd).Nodup := by
  have h := stencils_ok inp
  rw [List.nodup_iff_injective_getElem]
  intro i j hij
  have hi : i.1 < inp.stencils.length := by simpa using i.2
  have hj : j.1 < inp.stencils.length := by simpa using j.2
  simp only [List.getElem_map] at hij
  have e1 := h.named i.1 inp.stencils[i.1].1 inp.stencils[i.1].2 (List.getElem?_eq_getElem hi)
  have e2 := h.named j.1 inp.stencils[j.1].1 inp.stencils[j.1].2 (List.getElem?_eq_getElem hj)
  rw [e1, e2] at hij
  exact Fin.ext (stencilName_injective hij)

theorem added_stencil (s : Finset (Fin d → ℤ) × String) : added (stencilText s) = [(s.2, .stencil), (s.2 ++ "temp", .ints)] := rfl

theorem temp_ne (s : String) : s ≠ s ++ "temp" := by
  intro e
  have := congrArg (fun t => t.toList.length) e
  simp [String.toList_append] at this

theorem stencil_ok (s : Finset (Fin d → ℤ) × String) (cur outer : Env) (h1 : s.2 ∉ dom cur) (h2 : s.2 ++ "temp" ∉ dom cur) :
    allOk outer cur (stencilText s) = true := by
  unfold stencilText
  have ne := temp_ne s.2
  generalize s.2 ++ "temp" = t at *
  simp only [allOk, Stmt.ok, Stmt.adds, Bool.and_true, Bool.and_eq_true, decide_eq_true_eq]
  refine ⟨h2, by simp, ?_⟩
  refine decide_eq_true ?_
  change s.2 ∉ dom ([] ++ ([(t, Kind.ints)] ++ cur))
  rw [List.nil_append, dom_append, List.mem_append]
  rintro (h | h)
  · exact ne (by simpa [dom] using h)
  · exact h1 h

theorem stencils_dom (inp : Input d) : ∀ n ∈ dom (added (inp.stencils.flatMap stencilText)), form n = .stencil ∨ form n = .temp := by
  intro n hn
  obtain ⟨s, hs, hn⟩ := (mem_dom_flatMap _ _ _).1 hn
  obtain ⟨k, hk⟩ := stencil_names inp s hs
  simp only [added_stencil, dom, List.map_cons, List.map_nil, List.mem_cons, List.not_mem_nil, or_false] at hn
  rcases hn with rfl | rfl
  · left; rw [hk]; exact form_stencil ..
  · right; rw [hk]; exact form_temp ..

theorem stencils_nodup (inp : Input d) : (dom (added (inp.stencils.flatMap stencilText))).Nodup := by
  refine nodup_flatMap _ Prod.snd _ (stencil_names_nodup inp) ?_ ?_
  · intro s _
    simpa [added_stencil, dom] using temp_ne s.2
  · intro s hs t ht n hn hn'
    obtain ⟨k, hk⟩ := stencil_names inp s hs
    obtain ⟨k', hk'⟩ := stencil_names inp t ht
    simp only [added_stencil, dom, List.map_cons, List.map_nil, List.mem_cons, List.not_mem_nil, or_false] at hn hn'
    have f1 := form_stencil inp.b k
    have f2 := form_temp inp.b k
    have f1' := form_stencil inp.b k'
    have f2' := form_temp inp.b k'
    rw [← hk] at f1 f2
    rw [← hk'] at f1' f2'
    rcases hn with rfl | rfl <;> rcases hn' with hn' | hn'
    · exact hn'
    · rw [← hn', f1] at f2'; cases f2'
    · rw [← hn', f2] at f1'; cases f1'
    · have := congrArg String.toList hn'
      rw [String.toList_append, String.toList_append] at this
      exact String.toList_injective (List.append_cancel_right this)

/-! ## Exchanges -/

theorem exchanges_nodup (inp : Input d) : (inp.exchanges.map Prod.fst).Nodup := by
  have h := (C44_kernels_emitted_once inp.prg).1
  unfold Input.exchanges
  generalize loopAlg inp.prg = l at h
  have key : ∀ (l : List ℕ) (n : ℕ), n ∈ (l.filterMap fun n => (inp.exch? n).map (n, ·)).map Prod.fst → n ∈ l := by
    intro l n hn
    obtain ⟨p, hp, rfl⟩ := List.mem_map.1 hn
    obtain ⟨m, hm, hp⟩ := List.mem_filterMap.1 hp
    obtain ⟨k, -, rfl⟩ := Option.map_eq_some_iff.1 hp
    exact hm
  induction l with
  | nil => simp
  | cons n l ih =>
    rw [List.nodup_cons] at h
    rw [List.filterMap_cons]
    cases hk : inp.exch? n with
    | none => exact ih h.2
    | some k => exact List.nodup_cons.2 ⟨fun hm => h.1 (key l n hm), ih h.2⟩

theorem added_exchange (inp : Input d) (e : ℕ × List String) : added (exchangeText inp e) = [(groupName inp.b e.1, .group)] := rfl

/-- The text of one halo. -/
def haloText (W : List String) (h : String × String) : List Stmt := [Stmt.use h.2 .data, .use h.2 .data] ++ uses .ints W ++ [.decl h.1 .halo]

theorem added_halos (W : List String) (l : List (String × String)) : added (l.flatMap (haloText W)) = added ((l.map Prod.fst).map (Stmt.decl · .halo)) := by
  induction l with
  | nil => rfl
  | cons h l ih =>
    rw [List.flatMap_cons, added_append, ih, List.map_cons, List.map_cons, added]
    unfold haloText
    rw [added_append, added_append, added_uses]
    rfl

theorem halos_ok (W hl xs : List String) (g : String) (E : Env) (hW : W.Nodup) (hn : hl.Nodup) (hd : ∀ n ∈ hl, n ∉ W) (hlen : hl.length = xs.length)
    (hx : ∀ x ∈ xs, x ∉ W ∧ x ∉ hl ∧ E.lookup x = some .data) (hgrp : "grp" ∉ W ∧ "grp" ∉ hl)
    (hg : g ∉ W ∧ g ∉ hl ∧ g ≠ "grp" ∧ E.lookup g = some .group) :
    allOk E [] (W.map (Stmt.decl · .ints) ++ (hl.zip xs).flatMap (haloText W) ++ uses .halo hl ++
      [.decl "grp" .halo, .use g .group, .use "grp" .halo]) = true := by
  have hmap : (hl.zip xs).map Prod.fst = hl := List.map_fst_zip (by omega)
  have dflat : ∀ n, n ∈ dom (added ((hl.zip xs).flatMap (haloText W))) ↔ n ∈ hl := by
    intro n
    rw [added_halos, dom_decls, hmap]
  have flnd : (dom (added ((hl.zip xs).flatMap (haloText W)))).Nodup := by
    rw [added_halos, hmap, added_decls]
    have : dom ((hl.map (·, Kind.halo)).reverse) = hl.reverse := by simp [dom, Function.comp_def]
    rw [this]
    exact List.nodup_reverse.2 hn
  rw [allOk_append, allOk_append, allOk_append, Bool.and_eq_true, Bool.and_eq_true, Bool.and_eq_true]
  refine ⟨⟨⟨allOk_decls _ _ _ _ hW (by simp [dom]), ?_⟩, allOk_uses _ _ _ _ ?_⟩, ?_⟩
  · rw [List.append_nil]
    refine allOk_flatMap _ (haloText W) E _ (W.map (·, Kind.ints) ++ xs.map (·, Kind.data)) ?_ flnd ?_ ?_ ?_
    · intro p hp
      rcases List.mem_append.1 hp with hp | hp
      · obtain ⟨n, hn, rfl⟩ := List.mem_map.1 hp
        exact lookup_decls _ _ _ _ hn
      · obtain ⟨x, hm, rfl⟩ := List.mem_map.1 hp
        rw [lookup_skip _ _ _ (by rw [dom_decls]; exact (hx x hm).1)]
        exact (hx x hm).2.2
    · intro n hn hm
      rw [dflat] at hn
      rw [dom_append, List.mem_append] at hm
      rcases hm with hm | hm
      · exact hd n hn (by simpa [dom] using hm)
      · have hm : n ∈ xs := by simpa [dom] using hm
        exact (hx n hm).2.1 hn
    · intro n hn hm
      rw [dflat] at hn
      exact hd n hn ((dom_decls _ _ _).1 hm)
    · intro h hm cur' hv hap
      have hx := (List.of_mem_zip (a := h.1) (b := h.2) hm).2
      have hd : (cur' ++ E).lookup h.2 = some .data := hv (h.2, .data) (List.mem_append_right _ (List.mem_map.2 ⟨h.2, hx, rfl⟩))
      have hi : ∀ n ∈ W, (cur' ++ E).lookup n = some .ints := fun n hn =>
        hv (n, .ints) (List.mem_append_left _ (List.mem_map.2 ⟨n, hn, rfl⟩))
      have ho : h.1 ∉ dom cur' := by
        refine hap h.1 ?_
        unfold haloText
        rw [added_append]
        exact List.mem_cons_self ..
      unfold haloText
      rw [allOk_append, allOk_append, Bool.and_eq_true, Bool.and_eq_true]
      refine ⟨⟨?_, allOk_uses _ _ _ _ hi⟩, ?_⟩
      · simp only [allOk, Stmt.ok, Stmt.adds, List.nil_append, hd, decide_true, Bool.and_true]
      · rw [added_append, added_uses]
        simp only [allOk, Stmt.ok, Bool.and_true, decide_eq_true_eq]
        exact ho
  · intro n hn
    rw [List.append_nil, added_append, List.append_assoc, added_halos, hmap]
    exact lookup_decls _ _ _ _ hn
  · rw [List.append_nil, added_append, added_uses, List.nil_append, added_append]
    have dd : ∀ m ∈ dom (added ((hl.zip xs).flatMap (haloText W)) ++ added (W.map (Stmt.decl · .ints))), m ∈ hl ∨ m ∈ W := by
      intro m hm
      rw [dom_append, List.mem_append, dflat, dom_decls] at hm
      exact hm
    generalize added ((hl.zip xs).flatMap (haloText W)) ++ added (W.map (Stmt.decl · .ints)) = L at *
    simp only [allOk, Stmt.ok, Stmt.adds, Bool.and_true, Bool.and_eq_true, decide_eq_true_eq]
    refine ⟨fun hm => (dd _ hm).elim hgrp.2 hgrp.1, decide_eq_true ?_, by simp⟩
    have sk : g ∉ dom ([("grp", Kind.halo)] ++ L) := by
      intro hm
      rw [dom_append, List.mem_append] at hm
      rcases hm with hm | hm
      · exact hg.2.2.1 (by simpa [dom] using hm)
      · exact (dd _ hm).elim hg.2.1 hg.1
    exact (lookup_skip _ _ _ sk).trans hg.2.2.2

/-- The local names of an exchange. -/
def haloWords : List String := ["halo_iter", "from_base", "to_base", "from_dir", "to_dir"]

theorem haloWords_inner : ∀ n ∈ haloWords, (form n).inner = true := by decide +kernel

theorem halo_not_word (i : ℕ) : "halo" ++ toString i ∉ haloWords := by
  intro h
  have f := form_halo i
  have g : ∀ n ∈ haloWords, n = "halo_iter" ∨ form n ≠ .halo := by decide +kernel
  rcases g _ h with e | e
  · exact halo_ne_word i _ (by simp) e
  · exact e f

theorem exchange_ok (inp : Input d) (e : ℕ × List String) (cur outer : Env) (hsh : ∀ n ∈ shapeNames inp.b d, (cur ++ outer).lookup n = some .value)
    (ha : ∀ x ∈ e.2, form x = .user ∧ (cur ++ outer).lookup x = some .data) (hn : groupName inp.b e.1 ∉ dom cur) :
    allOk outer cur (exchangeText inp e) = true := by
  have fg := form_group inp.b e.1
  have out : ∀ n, form n = .user → (([(groupName inp.b e.1, Kind.group)] ++ cur) ++ outer).lookup n = (cur ++ outer).lookup n := by
    intro n hu
    rw [List.append_assoc, lookup_skip]
    intro hm
    have : n = groupName inp.b e.1 := by simpa [dom] using hm
    rw [this, fg] at hu
    cases hu
  have lg : (([(groupName inp.b e.1, Kind.group)] ++ cur) ++ outer).lookup (groupName inp.b e.1) = some .group := by simp
  have hsh' : ∀ n ∈ shapeNames inp.b d, (([(groupName inp.b e.1, Kind.group)] ++ cur) ++ outer).lookup n = some .value := fun n hm => by
    rw [out n (shape_user _ _ n hm)]; exact hsh n hm
  have hl : ∀ n ∈ (List.range e.2.length).map (fun i => "halo" ++ toString i), ∃ i : ℕ, n = "halo" ++ toString i := by
    intro n hm
    obtain ⟨i, -, hi⟩ := List.mem_map.1 hm
    exact ⟨i, hi.symm⟩
  have ni : ∀ n, (form n).inner = false → n ∉ haloWords ∧ n ∉ (List.range e.2.length).map (fun i => "halo" ++ toString i) := by
    intro n hf
    refine ⟨fun hm => ?_, fun hm => ?_⟩
    · rw [haloWords_inner n hm] at hf; cases hf
    · obtain ⟨i, rfl⟩ := hl n hm
      rw [form_halo] at hf; cases hf
  have key := halos_ok haloWords ((List.range e.2.length).map fun i => "halo" ++ toString i) e.2 (groupName inp.b e.1)
    (([(groupName inp.b e.1, Kind.group)] ++ cur) ++ outer) (by decide) (List.Nodup.map (fun i j h => halo_injective h) List.nodup_range)
    (fun n hm => by obtain ⟨i, rfl⟩ := hl n hm; exact halo_not_word i) (by simp)
    (fun x hx => by
      have nx := ni x (by rw [(ha x hx).1]; rfl)
      exact ⟨nx.1, nx.2, by rw [out x (ha x hx).1]; exact (ha x hx).2⟩)
    ⟨by decide, fun hm => by
      obtain ⟨i, hi⟩ := hl _ hm
      have f := form_halo i
      rw [← hi, form_fixed "grp" (by decide)] at f
      cases f⟩
    ⟨(ni _ (by rw [fg]; rfl)).1, (ni _ (by rw [fg]; rfl)).2, (fun he => by
      rw [he, form_fixed "grp" (by decide)] at fg
      cases fg), lg⟩
  have text : exchangeText inp e = [.decl (groupName inp.b e.1) .group, .block (uses .value (shapeNames inp.b d) ++
      (haloWords.map (Stmt.decl · .ints) ++ (((List.range e.2.length).map fun i => "halo" ++ toString i).zip e.2).flatMap (haloText haloWords) ++
        uses .halo ((List.range e.2.length).map fun i => "halo" ++ toString i) ++
        [.decl "grp" .halo, .use (groupName inp.b e.1) .group, .use "grp" .halo]))] := by
    unfold exchangeText
    simp only [List.append_assoc]
    rfl
  rw [text]
  simp only [allOk, Stmt.ok, Stmt.adds, Bool.and_true, Bool.and_eq_true, decide_eq_true_eq]
  refine ⟨hn, ?_⟩
  rw [allOk_append, Bool.and_eq_true]
  refine ⟨allOk_uses _ _ _ _ (by rw [List.nil_append]; exact hsh'), ?_⟩
  rw [added_uses, List.nil_append]
  exact key

/-! ## All definitions and declarations -/

/-- The declarations of the arrays, in the order of the text. -/
theorem arrays_dom (inp : Input d) (n : String) : n ∈ dom (added ((inp.arrays.insertionSort lowerLe).flatMap (arrayText inp))) ↔ n ∈ inp.arrays := by
  rw [mem_dom_flatMap]
  simp [added_array, dom]

theorem arrays_mem (inp : Input d) (x : String) (hx : x ∈ inp.arrays) :
    (x, Kind.data) ∈ added ((inp.arrays.insertionSort lowerLe).flatMap (arrayText inp)) :=
  (mem_added_flatMap _ _ _).2 ⟨x, by simpa using hx, by simp [added_array]⟩

theorem arrays_nodup (inp : Input d) : (dom (added ((inp.arrays.insertionSort lowerLe).flatMap (arrayText inp)))).Nodup := by
  refine nodup_flatMap _ id _ ?_ ?_ ?_
  · rw [List.map_id]
    exact (List.perm_insertionSort _ _).nodup_iff.2 (List.nodup_dedup _)
  · intro x _
    simp [added_array, dom]
  · intro x _ y _ n hn hn'
    simp only [added_array, dom, List.map_cons, List.map_nil, List.mem_singleton] at hn hn'
    exact hn.symm.trans hn'

theorem exchanges_mem (inp : Input d) (e : ℕ × List String) (he : e ∈ inp.exchanges) :
    (groupName inp.b e.1, Kind.group) ∈ added (inp.exchanges.flatMap (exchangeText inp)) :=
  (mem_added_flatMap _ _ _).2 ⟨e, he, by simp [added_exchange]⟩

theorem exchanges_dom (inp : Input d) : ∀ n ∈ dom (added (inp.exchanges.flatMap (exchangeText inp))), form n = .group := by
  intro n hn
  obtain ⟨e, -, hn⟩ := (mem_dom_flatMap _ _ _).1 hn
  have : n = groupName inp.b e.1 := by simpa [added_exchange, dom] using hn
  rw [this]
  exact form_group ..

theorem exchanges_names_nodup (inp : Input d) : (dom (added (inp.exchanges.flatMap (exchangeText inp)))).Nodup := by
  refine nodup_flatMap _ Prod.fst _ (exchanges_nodup inp) ?_ ?_
  · intro e _
    simp [added_exchange, dom]
  · intro e _ e' _ n hn hn'
    simp only [added_exchange, dom, List.map_cons, List.map_nil, List.mem_singleton] at hn hn'
    exact groupName_injective inp.b (hn.symm.trans hn')

theorem added_defDecs (h : Regular inp lib) : added inp.defDecs = added (inp.exchanges.flatMap (exchangeText inp)) ++
    (added (inp.stencils.flatMap stencilText) ++ (added ((inp.arrays.insertionSort lowerLe).flatMap (arrayText inp)) ++
      ([(blockName inp.b, .block)] ++ added (inp.tables.flatMap tableText)))) := by
  unfold Input.defDecs
  simp only [added_append, added_uses, added_fine (definitions_fine h).lines, List.append_nil, List.append_assoc]
  rfl

/-- The definitions and declarations are well scoped, given the constants, and they hide nothing. -/
theorem defDecs_ok (h : Regular inp lib) (cur outer S : Env) (hv : Vis (cur ++ outer) S) (hf : ∀ n ∈ inp.finalNames, (n, Kind.value) ∈ S)
    (hS : ∀ n ∈ dom S, n ∈ inp.finalNames ∨ form n = .kernel ∨ form n = .monitor ∨ form n = .fixed n) (hc : ∀ n ∈ dom cur, form n = .fixed n) :
    allOk outer cur inp.defDecs = true ∧ Vis ((added inp.defDecs ++ cur) ++ outer) (added inp.defDecs ++ S) := by
  have fu := finalNames_user h
  have tn : ∀ n, n ∈ dom (added (inp.tables.flatMap tableText)) ↔ n ∈ inp.tableNames := fun n => by rw [tables_text, dom_decls]
  have tnd : (dom (added (inp.tables.flatMap tableText))).Nodup := by
    rw [tables_text, added_decls]
    simpa [dom, Function.comp_def] using h.tables_nodup
  have an := arrays_dom inp
  have sn := stencils_dom inp
  have gn := exchanges_dom inp
  rw [added_defDecs h]
  unfold Input.defDecs
  have dfine := definitions_fine h
  have o1 : allOk outer cur inp.definitions.1 = true := allOk_fine outer cur (fun n hn => hv _ (hf n hn)) (fun _ h => h.elim) _ dfine
  have a1 : added inp.definitions.1 = [] := added_fine dfine.lines
  -- the arrays of constants
  have o2 : allOk outer cur (inp.tables.flatMap tableText) = true := by
    rw [tables_text]
    refine allOk_decls _ _ _ _ h.tables_nodup fun n hn hm => ?_
    have := hc n hm
    rw [(h.tables n hn).1] at this
    cases this
  have v2 : Vis ((added (inp.tables.flatMap tableText) ++ cur) ++ outer) (added (inp.tables.flatMap tableText) ++ S) := by
    rw [List.append_assoc]
    refine hv.extend _ tnd fun n hn hm => ?_
    rw [tn] at hn
    have u := (h.tables n hn).1
    rcases hS n hm with hm | hm | hm | hm
    · exact (fu n hm).2.1 hn
    all_goals rw [u] at hm; cases hm
  -- the block
  have o3 : allOk outer (added (inp.tables.flatMap tableText) ++ cur) [.decl (blockName inp.b) .block] = true := by
    simp only [allOk, Stmt.ok, Bool.and_true, decide_eq_true_eq]
    change blockName inp.b ∉ dom _
    intro hm
    have fb := form_block inp.b
    rw [dom_append, List.mem_append, tn] at hm
    rcases hm with hm | hm
    · rw [(h.tables _ hm).1] at fb; cases fb
    · rw [hc _ hm] at fb; cases fb
  have v3 : Vis (([(blockName inp.b, Kind.block)] ++ (added (inp.tables.flatMap tableText) ++ cur)) ++ outer)
      ([(blockName inp.b, Kind.block)] ++ (added (inp.tables.flatMap tableText) ++ S)) := by
    rw [List.append_assoc]
    refine v2.extend _ (by simp [dom]) fun n hn hm => ?_
    have : n = blockName inp.b := by simpa [dom] using hn
    have fb : form n = .block := by rw [this]; exact form_block _
    rw [dom_append, List.mem_append, tn] at hm
    rcases hm with hm | hm
    · rw [(h.tables _ hm).1] at fb; cases fb
    · rcases hS n hm with hm | hm | hm | hm
      · rw [(fu _ hm).1] at fb; cases fb
      all_goals rw [fb] at hm; cases hm
  -- the arrays
  have m3 : ∀ n ∈ dom ([(blockName inp.b, Kind.block)] ++ (added (inp.tables.flatMap tableText) ++ S)),
      form n = .block ∨ n ∈ inp.tableNames ∨ n ∈ inp.finalNames ∨ form n = .kernel ∨ form n = .monitor ∨ form n = .fixed n := by
    intro n hm
    rw [dom_append, dom_append, List.mem_append, List.mem_append, tn] at hm
    rcases hm with hm | hm | hm
    · left
      have : n = blockName inp.b := by simpa [dom] using hm
      rw [this]; exact form_block _
    · exact .inr (.inl hm)
    · exact .inr (.inr (hS n hm))
  have c3 : ∀ n ∈ dom ([(blockName inp.b, Kind.block)] ++ (added (inp.tables.flatMap tableText) ++ cur)),
      form n = .block ∨ n ∈ inp.tableNames ∨ form n = .fixed n := by
    intro n hm
    rw [dom_append, dom_append, List.mem_append, List.mem_append, tn] at hm
    rcases hm with hm | hm | hm
    · left
      have : n = blockName inp.b := by simpa [dom] using hm
      rw [this]; exact form_block _
    · exact .inr (.inl hm)
    · exact .inr (.inr (hc n hm))
  have ap4 : Apart (added ((inp.arrays.insertionSort lowerLe).flatMap (arrayText inp))) ([(blockName inp.b, Kind.block)] ++ (added (inp.tables.flatMap tableText) ++ S)) := by
    intro n hn hm
    rw [an] at hn
    have u := (h.arrays n hn).1
    rcases m3 n hm with hm | hm | hm | hm | hm | hm
    · rw [u] at hm; cases hm
    · exact (h.tables n hm).2.2 hn
    · exact (fu n hm).2.2.1 hn
    all_goals rw [u] at hm; cases hm
  have o4 : allOk outer ([(blockName inp.b, Kind.block)] ++ (added (inp.tables.flatMap tableText) ++ cur)) ((inp.arrays.insertionSort lowerLe).flatMap (arrayText inp)) = true := by
    refine allOk_flatMap _ _ _ _ _ v3 (arrays_nodup inp) ap4 ?_ ?_
    · intro n hn hm
      rw [an] at hn
      have u := (h.arrays n hn).1
      rcases c3 n hm with hm | hm | hm
      · rw [u] at hm; cases hm
      · exact (h.tables n hm).2.2 hn
      · rw [u] at hm; cases hm
    · intro x hx cur' hv' ha
      have hx : x ∈ inp.arrays := by simpa using hx
      refine array_ok inp x (h.arrays x hx).1 cur' outer ⟨fun n hn => ?_, ?_⟩ (ha x (by simp [added_array, dom])) fun hm => ?_
      · exact hv' (n, .value) (List.mem_append_right _ (List.mem_append_right _ (hf n (shape_final inp n hn))))
      · exact hv' (blockName inp.b, .block) (List.mem_append_left _ (List.mem_singleton.2 rfl))
      · exact (fu x (shape_final inp x hm)).2.2.1 hx
  have v4 := v3.extend _ (arrays_nodup inp) ap4
  -- the stencils
  have ap5 : Apart (added (inp.stencils.flatMap stencilText)) (added ((inp.arrays.insertionSort lowerLe).flatMap (arrayText inp)) ++
      ([(blockName inp.b, Kind.block)] ++ (added (inp.tables.flatMap tableText) ++ S))) := by
    intro n hn hm
    have f := sn n hn
    rw [dom_append, List.mem_append, an] at hm
    rcases hm with hm | hm
    · rw [(h.arrays n hm).1] at f; simp at f
    · rcases m3 n hm with hm | hm | hm | hm | hm | hm
      · rw [hm] at f; simp at f
      · rw [(h.tables n hm).1] at f; simp at f
      · rw [(fu n hm).1] at f; simp at f
      all_goals rw [hm] at f; simp at f
  have o5 : allOk outer (added ((inp.arrays.insertionSort lowerLe).flatMap (arrayText inp)) ++ ([(blockName inp.b, Kind.block)] ++
      (added (inp.tables.flatMap tableText) ++ cur))) (inp.stencils.flatMap stencilText) = true := by
    refine allOk_flatMap _ _ _ _ [] (by simp [Vis]) (stencils_nodup inp) (by simp [Apart, dom]) ?_ ?_
    · intro n hn hm
      have f := sn n hn
      rw [dom_append, List.mem_append, an] at hm
      rcases hm with hm | hm
      · rw [(h.arrays n hm).1] at f; simp at f
      · rcases c3 n hm with hm | hm | hm
        · rw [hm] at f; simp at f
        · rw [(h.tables n hm).1] at f; simp at f
        · rw [hm] at f; simp at f
    · intro s _ cur' _ ha
      exact stencil_ok s cur' outer (ha _ (by simp [added_stencil, dom])) (ha _ (by simp [added_stencil, dom]))
  have v5 := v4.extend _ (stencils_nodup inp) ap5
  -- the exchanges
  have ap6 : Apart (added (inp.exchanges.flatMap (exchangeText inp))) (added (inp.stencils.flatMap stencilText) ++
      (added ((inp.arrays.insertionSort lowerLe).flatMap (arrayText inp)) ++ ([(blockName inp.b, Kind.block)] ++ (added (inp.tables.flatMap tableText) ++ S)))) := by
    intro n hn hm
    have f := gn n hn
    rw [dom_append, dom_append, List.mem_append, List.mem_append, an] at hm
    rcases hm with hm | hm | hm
    · have := sn n hm; rw [f] at this; simp at this
    · rw [(h.arrays n hm).1] at f; simp at f
    · rcases m3 n hm with hm | hm | hm | hm | hm | hm
      · rw [hm] at f; simp at f
      · rw [(h.tables n hm).1] at f; simp at f
      · rw [(fu n hm).1] at f; simp at f
      all_goals rw [hm] at f; simp at f
  have v5' : Vis ((added (inp.stencils.flatMap stencilText) ++ (added ((inp.arrays.insertionSort lowerLe).flatMap (arrayText inp)) ++
      ([(blockName inp.b, Kind.block)] ++ (added (inp.tables.flatMap tableText) ++ cur)))) ++ outer) (added (inp.stencils.flatMap stencilText) ++
      (added ((inp.arrays.insertionSort lowerLe).flatMap (arrayText inp)) ++ ([(blockName inp.b, Kind.block)] ++ (added (inp.tables.flatMap tableText) ++ S)))) := by
    simpa only [List.append_assoc] using v5
  have o6 : allOk outer (added (inp.stencils.flatMap stencilText) ++ (added ((inp.arrays.insertionSort lowerLe).flatMap (arrayText inp)) ++
      ([(blockName inp.b, Kind.block)] ++ (added (inp.tables.flatMap tableText) ++ cur)))) (inp.exchanges.flatMap (exchangeText inp)) = true := by
    refine allOk_flatMap _ _ _ _ _ v5' (exchanges_names_nodup inp) (by simpa only [List.append_assoc] using ap6) ?_ ?_
    · intro n hn hm
      have f := gn n hn
      rw [dom_append, dom_append, List.mem_append, List.mem_append, an] at hm
      rcases hm with hm | hm | hm
      · have := sn n hm; rw [f] at this; simp at this
      · rw [(h.arrays n hm).1] at f; simp at f
      · rcases c3 n hm with hm | hm | hm
        · rw [hm] at f; simp at f
        · rw [(h.tables n hm).1] at f; simp at f
        · rw [hm] at f; simp at f
    · intro e he cur' hv' ha
      refine exchange_ok inp e cur' outer (fun n hn => ?_) (fun x hx => ?_) (ha _ (by simp [added_exchange, dom]))
      · refine hv' (n, .value) ?_
        have := hf n (shape_final inp n hn)
        simp [this]
      · have hx := h.exchanges e he x hx
        refine ⟨(h.arrays x hx).1, hv' (x, .data) ?_⟩
        have := arrays_mem inp x hx
        rw [List.mem_append, List.mem_append]
        exact .inr (.inl this)
  have v6 := v5.extend _ (exchanges_names_nodup inp) ap6
  refine ⟨?_, ?_⟩
  · have o2' : allOk outer cur (uses .value (inp.definitions.2.constants.map Const.name)) = true := allOk_uses _ _ _ _ fun n hn => hv _ (hf n hn)
    have o3' : allOk outer (added (inp.tables.flatMap tableText) ++ cur) (uses .value (inp.definitions.2.constants.map Const.name)) = true :=
      allOk_uses _ _ _ _ fun n hn => v2 (n, .value) (List.mem_append_right _ (hf n hn))
    have ab : added [Stmt.decl (blockName inp.b) .block] = [(blockName inp.b, Kind.block)] := rfl
    simp only [allOk_append, added_uses, a1, ab, List.nil_append, o1, o2, o3', o3, Bool.true_and, List.append_assoc]
    rw [Bool.and_eq_true, Bool.and_eq_true]
    exact ⟨o4, o5, o6⟩
  · simpa only [List.append_assoc] using v6

end OpenSBLI.Prog
