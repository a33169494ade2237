import Verif.Model.Einstein
import Mathlib.Data.Nat.Digits.Defs
import Mathlib.Tactic.Basic

/-!
# C50 Substituting index values
-/
namespace OpenSBLI.Ein

/-- A name of a base or index: no underscore. -/
def Plain (n : List Char) : Prop := '_' ∉ n

/-- The name of an index: not empty, no underscore and no digit. -/
def IsIndexName (n : List Char) : Prop := n ≠ [] ∧ '_' ∉ n ∧ ∀ c ∈ n, c.isDigit = false

/-- The text of values: digits only. -/
def Seg.Good : Seg → Prop
  | .idx n => IsIndexName n
  | .val d => ∀ c ∈ d, c.isDigit = true

/-! ## Replacing in a name -/

theorem not_prefix_of_head {c : Char} {idx s : List Char} (h : c ≠ '_') : ('_' :: idx).isPrefixOf (c :: s) = false := by
  simp [List.isPrefixOf, Ne.symm h]

theorem replaceAux_skip (idx new : List Char) (pre s : List Char) (hpre : '_' ∉ pre) (n : ℕ) (hn : (pre ++ s).length ≤ n) :
    replaceAux ('_' :: idx) new n (pre ++ s) = pre ++ replaceAux ('_' :: idx) new (n - pre.length) s := by
  induction pre generalizing n with
  | nil => simp
  | cons c pre ih =>
    simp only [List.mem_cons, not_or] at hpre
    cases n with
    | zero => simp at hn
    | succ n =>
      simp only [List.cons_append, replaceAux]
      rw [not_prefix_of_head (Ne.symm hpre.1), if_neg (by simp), ih hpre.2 n (by simpa using hn)]
      simp

/-- What follows a symbolic index in a name: nothing, an underscore or a digit. -/
def Stop : List Char → Prop
  | [] => True
  | c :: _ => c = '_' ∨ c.isDigit = true

theorem stop_text (segs : List Seg) (h : ∀ s ∈ segs, s.Good) : Stop (segs.map Seg.text).flatten := by
  induction segs with
  | nil => trivial
  | cons s segs ih =>
    cases s with
    | idx n => exact Or.inl rfl
    | val d =>
      cases d with
      | nil => simpa [Seg.text] using ih fun t ht => h t (List.mem_cons_of_mem _ ht)
      | cons c d => exact Or.inr (h (.val (c :: d)) List.mem_cons_self c List.mem_cons_self)

theorem prefix_append_stop {idx n rest : List Char} (hidx : IsIndexName idx) (hs : Stop rest) (h : idx <+: n ++ rest) : idx <+: n := by
  by_cases hl : idx.length ≤ n.length
  · exact List.prefix_of_prefix_length_le h (List.prefix_append n rest) hl
  · exfalso
    have hl : n.length < idx.length := by omega
    obtain ⟨t, ht⟩ := h
    cases rest with
    | nil =>
      have := congrArg List.length ht
      simp at this
      omega
    | cons c rest =>
      have hc : idx[n.length]'hl = c := by
        have h1 : (idx ++ t)[n.length]? = some (idx[n.length]'hl) := by
          rw [List.getElem?_append_left hl, List.getElem?_eq_getElem hl]
        have h2 : (n ++ c :: rest)[n.length]? = some c := by
          rw [List.getElem?_append_right (Nat.le_refl _)]; simp
        rw [ht, h2] at h1
        exact (Option.some.inj h1).symm
      have hm : c ∈ idx := hc ▸ List.getElem_mem hl
      rcases hs with rfl | hd
      · exact hidx.2.1 hm
      · rw [hidx.2.2 c hm] at hd; cases hd

/-- One substitution on the parts of a name: the index is replaced where it stands; the text behind it is kept if it is a proper prefix of an index. -/
theorem replaceAux_segs (idx : List Char) (hidx : IsIndexName idx) (v : List Char) (segs : List Seg) (h : ∀ s ∈ segs, s.Good)
    (hpre : ∀ s ∈ segs, ∀ n, s = .idx n → idx <+: n → n = idx) (k : ℕ) (hk : (segs.map Seg.text).flatten.length ≤ k) :
    replaceAux ('_' :: idx) v k (segs.map Seg.text).flatten =
      (segs.map fun s => if s = .idx idx then v else s.text).flatten := by
  induction segs generalizing k with
  | nil => cases k <;> rfl
  | cons s segs ih =>
    have hg : ∀ t ∈ segs, t.Good := fun t ht => h t (List.mem_cons_of_mem _ ht)
    have ih := ih hg fun t ht => hpre t (List.mem_cons_of_mem _ ht)
    simp only [List.map_cons, List.flatten_cons] at *
    cases s with
    | val d =>
      have hd : '_' ∉ d := by
        intro hm
        have := h (.val d) List.mem_cons_self '_' hm
        revert this; decide
      rw [show (Seg.val d).text = d from rfl] at *
      rw [replaceAux_skip idx v d _ hd k hk, ih (k - d.length) (by simp at hk ⊢; omega), if_neg (by simp)]
    | idx n =>
      rw [show (Seg.idx n).text = '_' :: n from rfl] at *
      obtain ⟨hn0, hn1, hn2⟩ := h (.idx n) List.mem_cons_self
      cases k with
      | zero => simp at hk
      | succ k =>
        simp only [List.cons_append, replaceAux]
        by_cases he : n = idx
        · subst he
          have hp : ('_' :: n).isPrefixOf ('_' :: (n ++ (segs.map Seg.text).flatten)) = true := by
            rw [List.isPrefixOf_iff_prefix]
            exact ⟨_, rfl⟩
          rw [if_pos hp, if_pos rfl]
          congr 1
          rw [show ('_' :: (n ++ (segs.map Seg.text).flatten)).drop ('_' :: n).length = (segs.map Seg.text).flatten by simp]
          exact ih k (by simp at hk ⊢; omega)
        · have hp : ('_' :: idx).isPrefixOf ('_' :: (n ++ (segs.map Seg.text).flatten)) = false := by
            rw [Bool.eq_false_iff]
            intro hh
            rw [List.isPrefixOf_iff_prefix, List.cons_prefix_cons] at hh
            exact he (hpre (.idx n) List.mem_cons_self n rfl (prefix_append_stop hidx (stop_text segs hg) hh.2))
          rw [hp, if_neg (by simp), if_neg (by simpa using he), List.cons_append]
          congr 1
          rw [replaceAux_skip idx v n _ hn1 k (by simpa using hk), ih (k - n.length) (by simp at hk ⊢; omega)]

/-! ## C50 -/

/-- The specification: the parts with one index replaced by a value. -/
def setIndex (idx : List Char) (v : ℕ) (segs : List Seg) : List Seg := segs.map fun s => if s = .idx idx then .val (digits v) else s

theorem isDigit_digitChar (d : ℕ) (h : d < 10) : (Nat.digitChar d).isDigit = true := by
  have : ∀ d : Fin 10, (Nat.digitChar d).isDigit = true := by decide
  exact this ⟨d, h⟩

theorem digits_good (v : ℕ) : ∀ c ∈ digits v, c.isDigit = true := by
  intro c hc
  exact Nat.isDigit_of_mem_toDigits (by decide) (by decide) hc

/-- C50: for every base name and list of indices, any of which may already have values: substituting a value for an index changes exactly the occurrences of this index, provided no
other index of the term begins with the name of this one. -/
theorem C50_apply_index (base : List Char) (hb : Plain base) (segs : List Seg) (h : ∀ s ∈ segs, s.Good) (idx : List Char) (hidx : IsIndexName idx) (v : ℕ)
    (hpre : ∀ n, Seg.idx n ∈ segs → idx <+: n → n = idx) : applyIndex (name base segs) idx v = name base (setIndex idx v segs) := by
  unfold applyIndex replace name
  rw [replaceAux_skip idx (digits v) base _ hb _ (Nat.le_refl _), replaceAux_segs idx hidx (digits v) segs h]
  · congr 2
    simp only [setIndex, List.map_map]
    refine List.map_congr_left fun s _ => ?_
    simp only [Function.comp]
    split
    · rfl
    · rfl
  · intro s hs n hn hp
    exact hpre n (hn ▸ hs) hp
  · simp

/-- C50: all indices of a term at once: the name of the component is the base name followed by the values. No index may be the beginning of another one. -/
theorem C50_all_indices (base : List Char) (hb : Plain base) (idxs : List (List Char)) (hidx : ∀ n ∈ idxs, IsIndexName n)
    (hpre : ∀ a ∈ idxs, ∀ b ∈ idxs, a <+: b → b = a) (val : List Char → ℕ) :
    applyMultiple (name base (idxs.map .idx)) (idxs.map fun n => (n, val n)) = base ++ (idxs.map fun n => digits (val n)).flatten := by
  -- the indices of `todo` are still to be replaced, all others have their value
  have key : ∀ (todo : List (List Char)), (∀ n ∈ todo, n ∈ idxs) → ∀ done : List (List Char), 
      applyMultiple (name base (idxs.map fun n => if n ∈ done then Seg.val (digits (val n)) else .idx n)) (todo.map fun n => (n, val n)) =
        name base (idxs.map fun n => if n ∈ done ∨ n ∈ todo then Seg.val (digits (val n)) else .idx n) := by
    intro todo
    induction todo with
    | nil => intro _ done; simp [applyMultiple]
    | cons k todo ih =>
      intro hsub done
      have hk := hsub k List.mem_cons_self
      rw [List.map_cons, applyMultiple, List.foldl_cons]
      rw [C50_apply_index base hb _ ?_ k (hidx k hk) (val k) ?_]
      · have : setIndex k (val k) (idxs.map fun n => if n ∈ done then Seg.val (digits (val n)) else .idx n) =
            idxs.map fun n => if n ∈ k :: done then Seg.val (digits (val n)) else .idx n := by
          simp only [setIndex, List.map_map]
          refine List.map_congr_left fun n _ => ?_
          simp only [Function.comp]
          by_cases hd : n ∈ done
          · simp [hd]
          · by_cases hn : n = k
            · subst hn; simp [hd]
            · simp [hd, hn]
        rw [this]
        have := ih (fun n hn => hsub n (List.mem_cons_of_mem _ hn)) (k :: done)
        unfold applyMultiple at this
        rw [this]
        congr 2
        funext n
        congr 1
        simp only [List.mem_cons, eq_iff_iff]
        tauto
      · intro s hs
        obtain ⟨n, hn, rfl⟩ := List.mem_map.mp hs
        split
        · exact digits_good _
        · exact hidx n hn
      · intro n hn hp
        obtain ⟨b, hbm, hbe⟩ := List.mem_map.mp hn
        split at hbe
        · cases hbe
        · injection hbe with hbe
          subst hbe
          exact hpre k hk b hbm hp
  have := key idxs (fun _ h => h) []
  simp only [List.not_mem_nil, if_false, false_or] at this
  rw [this]
  unfold name
  congr 2
  simp only [List.map_map]
  refine List.map_congr_left fun n hn => ?_
  simp [Function.comp, hn, Seg.text]

/-- C50: in up to ten dimensions different components of a term get different names. -/
theorem C50_distinct (base : List Char) (hb : Plain base) (idxs : List (List Char)) (hidx : ∀ n ∈ idxs, IsIndexName n)
    (hpre : ∀ a ∈ idxs, ∀ b ∈ idxs, a <+: b → b = a) (val val' : List Char → ℕ) (h10 : ∀ n ∈ idxs, val n < 10 ∧ val' n < 10)
    (heq : applyMultiple (name base (idxs.map .idx)) (idxs.map fun n => (n, val n)) = applyMultiple (name base (idxs.map .idx)) (idxs.map fun n => (n, val' n))) :
    ∀ n ∈ idxs, val n = val' n := by
  rw [C50_all_indices base hb idxs hidx hpre, C50_all_indices base hb idxs hidx hpre] at heq
  replace heq := List.append_cancel_left heq
  have dig : ∀ v, v < 10 → digits v = [Nat.digitChar v] := by
    have : ∀ v : Fin 10, digits v = [Nat.digitChar v] := by decide
    exact fun v hv => this ⟨v, hv⟩
  have inj : ∀ v w, v < 10 → w < 10 → Nat.digitChar v = Nat.digitChar w → v = w := by
    have : ∀ v w : Fin 10, Nat.digitChar v = Nat.digitChar w → v = w := by decide
    exact fun v w hv hw h => congrArg Fin.val (this ⟨v, hv⟩ ⟨w, hw⟩ h)
  clear hidx hpre
  induction idxs with
  | nil => simp
  | cons a idxs ih =>
    have ha := h10 a List.mem_cons_self
    simp only [List.map_cons, List.flatten_cons, dig _ ha.1, dig _ ha.2, List.cons_append, List.nil_append, List.cons.injEq] at heq
    intro n hn
    rcases List.mem_cons.mp hn with rfl | hn
    · exact inj _ _ ha.1 ha.2 heq.1
    · exact ih (fun n hn => h10 n (List.mem_cons_of_mem _ hn)) heq.2 n hn

/-- C50 (finding): an index whose name begins with the name of another index is damaged: in `tau_i_in`, setting `i` to 0 changes `in` to `0n`. -/
theorem C50_prefix_capture :
    applyIndex "tau_i_in".toList "i".toList 0 = "tau00n".toList := by decide

/-- C50 (finding): components of different terms can get the same name: `u_i_j` with values 1 and 0, and `u1_j` with value 0. -/
theorem C50_collision :
    applyMultiple "u_i_j".toList [("i".toList, 1), ("j".toList, 0)] = applyMultiple "u1_j".toList [("i".toList, 1), ("j".toList, 0)] := by decide

/-- The usual names meet the hypotheses: `tau_i_j` with values 2 and 0. -/
example : applyMultiple "tau_i_j".toList [("i".toList, 2), ("j".toList, 0)] = "tau20".toList ∧ Plain "tau".toList ∧ IsIndexName "i".toList ∧
    IsIndexName "j".toList ∧ ∀ a ∈ ["i".toList, "j".toList], ∀ b ∈ ["i".toList, "j".toList], a <+: b → b = a := by
  refine ⟨by decide, by unfold Plain; decide, ⟨by decide, by decide, by decide⟩, ⟨by decide, by decide, by decide⟩, by decide⟩

end OpenSBLI.Ein
