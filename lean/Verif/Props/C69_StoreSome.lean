import Verif.Model.StoreSome
import Mathlib.Tactic.Ring
import Mathlib.Tactic.NormNum

/-!
# C69 Storing some derivatives
-/
namespace OpenSBLI.Store

/-- An expression as written by the user: no work arrays or grid variables. -/
def Ex.plain : Ex → Bool
  | .work _ => false
  | .gv _ => false
  | .cd _ e => e.plain
  | .fn _ e => e.plain
  | .add a b => a.plain && b.plain
  | .mul a b => a.plain && b.plain
  | _ => true

/-- No grid variables. -/
def Ex.noGv : Ex → Bool
  | .gv _ => false
  | .cd _ e => e.noGv
  | .fn _ e => e.noGv
  | .add a b => a.noGv && b.noGv
  | .mul a b => a.noGv && b.noGv
  | _ => true

/-! ## Values are kept -/

variable {P : Type}

theorem eval_replace (v : Env P) (old new : Ex) (h : new.eval v = old.eval v) (e : Ex) : (Ex.replace old new e).eval v = e.eval v := by
  induction e with
  | num n => simp only [Ex.replace]; split <;> simp_all
  | data n => simp only [Ex.replace]; split <;> simp_all
  | par n => simp only [Ex.replace]; split <;> simp_all
  | work n => simp only [Ex.replace]; split <;> simp_all
  | gv n => simp only [Ex.replace]; split <;> simp_all
  | cd d e ih =>
    simp only [Ex.replace]; split
    · rename_i h'; rw [h', h]
    · simp only [Ex.eval, ih]
  | fn d e ih =>
    simp only [Ex.replace]; split
    · rename_i h'; rw [h', h]
    · simp only [Ex.eval, ih]
  | add a b iha ihb =>
    simp only [Ex.replace]; split
    · rename_i h'; rw [h', h]
    · simp only [Ex.eval, iha, ihb]
  | mul a b iha ihb =>
    simp only [Ex.replace]; split
    · rename_i h'; rw [h', h]
    · simp only [Ex.eval, iha, ihb]

theorem eval_subs (v : Env P) (pairs : List (Ex × Ex)) (h : ∀ p ∈ pairs, p.2.eval v = p.1.eval v) (e : Ex) : (Ex.subs pairs e).eval v = e.eval v := by
  unfold Ex.subs
  induction pairs generalizing e with
  | nil => rfl
  | cons p ps ih =>
    rw [List.foldl_cons, ih (fun q hq => h q (List.mem_cons_of_mem _ hq)), eval_replace v _ _ (h p (by simp))]

theorem eval_plain (v v' : Env P) (h1 : v.data = v'.data) (h2 : v.par = v'.par) (h3 : v.fn = v'.fn) (h4 : v.op = v'.op) (e : Ex) (h : e.plain = true) :
    e.eval v = e.eval v' := by
  induction e <;> simp_all [Ex.eval, Ex.plain]

theorem eval_noGv (v : Env P) (g : ℕ → P → ℝ) (e : Ex) (h : e.noGv = true) : e.eval { v with gv := g } = e.eval v := by
  induction e <;> simp_all [Ex.eval, Ex.noGv]

theorem noGv_of_plain (e : Ex) (h : e.plain = true) : e.noGv = true := by
  induction e <;> simp_all [Ex.plain, Ex.noGv]

theorem noGv_replace (old new : Ex) (hn : new.noGv = true) (e : Ex) (h : e.noGv = true) : (Ex.replace old new e).noGv = true := by
  induction e with
  | num | data | par | work => simp only [Ex.replace]; split <;> simp_all [Ex.noGv]
  | gv => cases h
  | cd d e ih =>
    simp only [Ex.replace]; split
    · exact hn
    · exact ih h
  | fn d e ih =>
    simp only [Ex.replace]; split
    · exact hn
    · exact ih h
  | add a b iha ihb =>
    simp only [Ex.noGv, Bool.and_eq_true] at h
    simp only [Ex.replace]; split
    · exact hn
    · simp [Ex.noGv, iha h.1, ihb h.2]
  | mul a b iha ihb =>
    simp only [Ex.noGv, Bool.and_eq_true] at h
    simp only [Ex.replace]; split
    · exact hn
    · simp [Ex.noGv, iha h.1, ihb h.2]

theorem noGv_subs (pairs : List (Ex × Ex)) (hp : ∀ p ∈ pairs, p.2.noGv = true) (e : Ex) (h : e.noGv = true) : (Ex.subs pairs e).noGv = true := by
  unfold Ex.subs
  induction pairs generalizing e with
  | nil => exact h
  | cons p ps ih => exact ih (fun q hq => hp q (List.mem_cons_of_mem _ hq)) _ (noGv_replace _ _ (hp p (by simp)) e h)

theorem noGv_cds (e : Ex) (h : e.noGv = true) : ∀ c ∈ e.cds, c.noGv = true := by
  induction e with
  | cd d e ih =>
    intro c hc
    rcases List.mem_cons.1 hc with rfl | hc
    · exact h
    · exact ih h c hc
  | fn f e ih => exact ih h
  | add a b iha ihb =>
    simp only [Ex.noGv, Bool.and_eq_true] at h
    intro c hc
    rcases List.mem_append.1 hc with hc | hc
    · exact iha h.1 c hc
    · exact ihb h.2 c hc
  | mul a b iha ihb =>
    simp only [Ex.noGv, Bool.and_eq_true] at h
    intro c hc
    rcases List.mem_append.1 hc with hc | hc
    · exact iha h.1 c hc
    · exact ihb h.2 c hc
  | _ => simp [Ex.cds]

theorem plain_zeroFns (e : Ex) (h : e.plain = true) : e.zeroFns.plain = true := by
  induction e <;> simp_all [Ex.plain, Ex.zeroFns]

/-! ## Derivatives left by a replacement -/

theorem replace_noCds (d : ℕ) (a new : Ex) (e : Ex) (h : e.cds = []) : Ex.replace (.cd d a) new e = e := by
  induction e with
  | cd => simp [Ex.cds] at h
  | fn f e ih => simp only [Ex.cds] at h; simp [Ex.replace, ih h]
  | add a b iha ihb => simp only [Ex.cds, List.append_eq_nil_iff] at h; simp [Ex.replace, iha h.1, ihb h.2]
  | mul a b iha ihb => simp only [Ex.cds, List.append_eq_nil_iff] at h; simp [Ex.replace, iha h.1, ihb h.2]
  | _ => simp [Ex.replace]

/-- A derivative left by a replacement comes from a derivative that was not replaced. -/
theorem cds_replace (d : ℕ) (a new : Ex) (hnew : new.cds = []) (e c : Ex) (hc : c ∈ (Ex.replace (.cd d a) new e).cds) :
    ∃ d' e', .cd d' e' ∈ e.cds ∧ Ex.cd d' e' ≠ .cd d a ∧ c = .cd d' (Ex.replace (.cd d a) new e') := by
  induction e with
  | cd d' e ih =>
    simp only [Ex.replace] at hc
    split at hc
    · rw [hnew] at hc; cases hc
    · rename_i hne
      rcases List.mem_cons.1 hc with h | h
      · exact ⟨d', e, by simp [Ex.cds], hne, h⟩
      · obtain ⟨d2, e2, h1, h2, h3⟩ := ih h
        exact ⟨d2, e2, List.mem_cons_of_mem _ h1, h2, h3⟩
  | fn f e ih =>
    simp only [Ex.replace, reduceCtorEq, if_false, Ex.cds] at hc ⊢
    exact ih hc
  | add x y ihx ihy =>
    simp only [Ex.replace, reduceCtorEq, if_false, Ex.cds, List.mem_append] at hc ⊢
    rcases hc with hc | hc
    · obtain ⟨d2, e2, h1, h2⟩ := ihx hc; exact ⟨d2, e2, Or.inl h1, h2⟩
    · obtain ⟨d2, e2, h1, h2⟩ := ihy hc; exact ⟨d2, e2, Or.inr h1, h2⟩
  | mul x y ihx ihy =>
    simp only [Ex.replace, reduceCtorEq, if_false, Ex.cds, List.mem_append] at hc ⊢
    rcases hc with hc | hc
    · obtain ⟨d2, e2, h1, h2⟩ := ihx hc; exact ⟨d2, e2, Or.inl h1, h2⟩
    · obtain ⟨d2, e2, h1, h2⟩ := ihy hc; exact ⟨d2, e2, Or.inr h1, h2⟩
  | _ => simp [Ex.replace, Ex.cds] at hc

/-- The same for several replacements of derivatives without inner derivatives. -/
theorem cds_subs (pairs : List (Ex × Ex)) (hk : ∀ p ∈ pairs, (∃ d a, p.1 = .cd d a ∧ a.cds = []) ∧ p.2.cds = []) (e c : Ex) (hc : c ∈ (Ex.subs pairs e).cds) :
    ∃ d' e', .cd d' e' ∈ e.cds ∧ Ex.cd d' e' ∉ pairs.map Prod.fst ∧ c = .cd d' (Ex.subs pairs e') := by
  unfold Ex.subs at *
  induction pairs generalizing e with
  | nil =>
    have : ∀ e : Ex, ∀ c ∈ e.cds, ∃ d a, c = .cd d a := by
      intro e
      induction e with
      | cd d e ih =>
        intro c hc
        rcases List.mem_cons.1 hc with h | h
        · exact ⟨d, e, h⟩
        · exact ih c h
      | fn f e ih => exact ih
      | add a b iha ihb => intro c hc; rcases List.mem_append.1 hc with h | h; exacts [iha c h, ihb c h]
      | mul a b iha ihb => intro c hc; rcases List.mem_append.1 hc with h | h; exacts [iha c h, ihb c h]
      | _ => simp [Ex.cds]
    obtain ⟨d, a, rfl⟩ := this e c hc
    exact ⟨d, a, hc, by simp, rfl⟩
  | cons p ps ih =>
    obtain ⟨⟨d, a, hp, ha⟩, hnew⟩ := hk p (by simp)
    have hk' := fun q hq => hk q (List.mem_cons_of_mem p hq)
    obtain ⟨d1, e1, h1, h2, h3⟩ := ih hk' _ hc
    simp only [hp] at h1
    obtain ⟨d2, e2, g1, g2, g3⟩ := cds_replace d a p.2 hnew e _ h1
    obtain ⟨rfl, rfl⟩ := Ex.cd.inj g3
    refine ⟨d1, e2, g1, ?_, ?_⟩
    · rw [List.map_cons, List.mem_cons, not_or, hp]
      refine ⟨g2, fun hin => h2 ?_⟩
      obtain ⟨q, hq, hq1⟩ := List.mem_map.1 hin
      obtain ⟨⟨d3, a3, h5, h6⟩, _⟩ := hk' q hq
      rw [hq1] at h5
      obtain ⟨rfl, rfl⟩ := Ex.cd.inj h5
      rw [replace_noCds _ _ _ _ h6]; exact hin
    · rw [h3, List.foldl_cons]; simp only [hp]

/-! ## The stored derivatives -/

theorem mem_storedPairs {fns : List String} {dirs : List ℕ} {p : Ex × Ex} (h : p ∈ storedPairs fns dirs) :
    ∃ i, (toStore fns dirs)[i]? = some p.1 ∧ p.2 = .work i := by
  unfold storedPairs at h
  obtain ⟨i, hi⟩ := List.getElem?_of_mem h
  rw [List.getElem?_mapIdx] at hi
  obtain ⟨d, hd, rfl⟩ := Option.map_eq_some_iff.1 hi
  exact ⟨i, hd, rfl⟩

theorem keys_storedPairs (fns : List String) (dirs : List ℕ) : (storedPairs fns dirs).map Prod.fst = toStore fns dirs := by
  apply List.ext_getElem?
  intro i
  simp only [storedPairs, List.getElem?_map, List.getElem?_mapIdx, Option.map_map]
  cases (toStore fns dirs)[i]? <;> rfl

theorem mem_toStore {fns : List String} {dirs : List ℕ} {c : Ex} : c ∈ toStore fns dirs ↔ ∃ a ∈ fns, ∃ b ∈ dirs, c = .cd b (.data a) := by
  simp only [toStore, List.mem_flatMap, List.mem_map]
  constructor
  · rintro ⟨a, ha, b, hb, rfl⟩; exact ⟨a, ha, b, hb, rfl⟩
  · rintro ⟨a, ha, b, hb, rfl⟩; exact ⟨a, ha, b, hb, rfl⟩

theorem stored_flat {fns : List String} {dirs : List ℕ} : ∀ p ∈ storedPairs fns dirs, (∃ d a, p.1 = .cd d a ∧ a.cds = []) ∧ p.2.cds = [] := by
  intro p hp
  obtain ⟨i, h1, h2⟩ := mem_storedPairs hp
  obtain ⟨a, _, b, _, h3⟩ := mem_toStore.1 (List.mem_of_getElem? h1)
  exact ⟨⟨b, .data a, h3, rfl⟩, by rw [h2]; rfl⟩

/-- Running the kernels of the stored derivatives. -/
theorem runStored_frame (fns : List String) (dirs : List ℕ) (v : Env P) : (runStored fns dirs v).data = v.data ∧ (runStored fns dirs v).par = v.par ∧
    (runStored fns dirs v).fn = v.fn ∧ (runStored fns dirs v).op = v.op ∧ (runStored fns dirs v).gv = v.gv := by
  unfold runStored
  have : ∀ (l : List (Ex × Ex)) (w : Env P), (w.data = v.data ∧ w.par = v.par ∧ w.fn = v.fn ∧ w.op = v.op ∧ w.gv = v.gv) →
      (fun w : Env P => w.data = v.data ∧ w.par = v.par ∧ w.fn = v.fn ∧ w.op = v.op ∧ w.gv = v.gv) (l.foldl (fun v p => match p.2 with
    | .work i => { v with work := Function.update v.work i (p.1.eval v) }
    | _ => v) w) := by
    intro l
    induction l with
    | nil => exact fun w h => h
    | cons p l ih =>
      intro w h
      rw [List.foldl_cons]
      apply ih
      cases p.2 <;> exact h
  exact this _ v ⟨rfl, rfl, rfl, rfl, rfl⟩

theorem eval_leaf (w : Env P) (b : ℕ) (a : String) : (Ex.cd b (.data a)).eval w = w.op b (w.data a) := rfl

theorem runStored_work (fns : List String) (dirs : List ℕ) (v : Env P) (i : ℕ) (c : Ex) (h : (toStore fns dirs)[i]? = some c) :
    (runStored fns dirs v).work i = c.eval v := by
  have key : ∀ (l : List Ex) (k : ℕ) (w : Env P), w.data = v.data → w.op = v.op → (∀ c ∈ l, ∃ b a, c = .cd b (.data a)) →
      ∀ i, ((l.mapIdx fun i d => (d, Ex.work (k + i))).foldl (fun v p => match p.2 with
        | .work i => { v with work := Function.update v.work i (p.1.eval v) }
        | _ => v) w).work i = if k ≤ i then (match l[i - k]? with | some c => c.eval v | none => w.work i) else w.work i := by
    intro l
    induction l with
    | nil => intro k w _ _ _ i; simp
    | cons d l ih =>
      intro k w hd ho hl i
      rw [List.mapIdx_cons, List.foldl_cons]
      have e : (l.mapIdx fun i d => (d, Ex.work (k + (i + 1)))) = l.mapIdx fun i d => (d, Ex.work (k + 1 + i)) := by
        congr 1; funext i d; rw [show k + (i + 1) = k + 1 + i by omega]
      simp only [Nat.add_zero]
      rw [e, ih (k + 1) { w with work := Function.update w.work k (d.eval w) } hd ho fun c hc => hl c (List.mem_cons_of_mem _ hc)]
      obtain ⟨b, a, rfl⟩ := hl d (by simp)
      have ev : (Ex.cd b (.data a)).eval w = (Ex.cd b (.data a)).eval v := by rw [eval_leaf, eval_leaf, hd, ho]
      by_cases h1 : k + 1 ≤ i
      · rw [if_pos h1, if_pos (by omega), show i - k = (i - (k + 1)) + 1 by omega, List.getElem?_cons_succ]
        cases l[i - (k + 1)]? with
        | some c => rfl
        | none => exact Function.update_of_ne (by omega) _ _
      · rw [if_neg h1]
        by_cases h2 : k = i
        · subst h2; simp [ev]
        · rw [if_neg (by omega)]; exact Function.update_of_ne (by omega) _ _
  unfold runStored storedPairs
  have := key (toStore fns dirs) 0 v rfl rfl (fun c hc => by obtain ⟨a, _, b, _, h⟩ := mem_toStore.1 hc; exact ⟨b, a, h⟩) i
  simp only [Nat.zero_add, Nat.zero_le, if_true, Nat.sub_zero, h] at this
  exact this

/-- Replacing stored derivatives by their arrays keeps the value, once the arrays are computed. -/
theorem eval_stored (fns : List String) (dirs : List ℕ) (v : Env P) (e : Ex) (he : e.plain = true) :
    (Ex.subs (storedPairs fns dirs) e).eval (runStored fns dirs v) = e.eval v := by
  obtain ⟨h1, h2, h3, h4, _⟩ := runStored_frame fns dirs v
  rw [eval_subs, eval_plain _ v h1 h2 h3 h4 e he]
  intro p hp
  obtain ⟨i, g1, g2⟩ := mem_storedPairs hp
  obtain ⟨a, _, b, _, g3⟩ := mem_toStore.1 (List.mem_of_getElem? g1)
  rw [g2, Ex.eval, runStored_work _ _ _ _ _ g1, g3, eval_leaf, eval_leaf, h1, h4]

/-! ## The classification after storing -/

theorem hasPar_replace (d : ℕ) (a : String) (i : ℕ) (q : String) (e : Ex) : (Ex.replace (.cd d (.data a)) (.work i) e).hasPar q = e.hasPar q := by
  induction e with
  | cd d' e ih =>
    simp only [Ex.replace]; split
    · rename_i h; obtain ⟨rfl, rfl⟩ := Ex.cd.inj h; rfl
    · exact ih
  | fn f e ih => simpa [Ex.replace, Ex.hasPar] using ih
  | add a b iha ihb => simp [Ex.replace, Ex.hasPar, iha, ihb]
  | mul a b iha ihb => simp [Ex.replace, Ex.hasPar, iha, ihb]
  | _ => simp [Ex.replace]

theorem zeroFns_eq_data {e : Ex} {a : String} (h : e.zeroFns = .data a) : e = .data a := by
  cases e <;> simp_all [Ex.zeroFns]

theorem zeroFns_replace (d : ℕ) (a : String) (i : ℕ) (e : Ex) :
    (Ex.replace (.cd d (.data a)) (.work i) e).zeroFns = Ex.replace (.cd d (.data a)) (.work i) e.zeroFns := by
  induction e with
  | cd d' e ih =>
    simp only [Ex.replace, Ex.zeroFns]
    by_cases h : Ex.cd d' e = .cd d (.data a)
    · obtain ⟨rfl, rfl⟩ := Ex.cd.inj h; simp [Ex.zeroFns]
    · have h' : Ex.cd d' e.zeroFns ≠ .cd d (.data a) := by
        intro h'
        obtain ⟨rfl, h2⟩ := Ex.cd.inj h'
        exact h (by rw [zeroFns_eq_data h2])
      rw [if_neg h, if_neg h', Ex.zeroFns, ih]
  | fn f e ih => simp [Ex.replace, Ex.zeroFns]
  | add a b iha ihb => simp [Ex.replace, Ex.zeroFns, iha, ihb]
  | mul a b iha ihb => simp [Ex.replace, Ex.zeroFns, iha, ihb]
  | _ => simp [Ex.replace, Ex.zeroFns]

theorem subs_stored {β : Type} (f : Ex → β) (hg : ∀ d a i e, f (Ex.replace (.cd d (.data a)) (.work i) e) = f e) (fns : List String) (dirs : List ℕ) (e : Ex) :
    f (Ex.subs (storedPairs fns dirs) e) = f e := by
  have : ∀ (l : List (Ex × Ex)), (∀ p ∈ l, ∃ d a i, p = (.cd d (.data a), .work i)) → ∀ e, f (Ex.subs l e) = f e := by
    intro l
    induction l with
    | nil => intro _ e; rfl
    | cons p l ih =>
      intro hl e
      obtain ⟨d, a, i, rfl⟩ := hl p (by simp)
      rw [show Ex.subs ((Ex.cd d (.data a), .work i) :: l) e = Ex.subs l (Ex.replace (.cd d (.data a)) (.work i) e) from rfl,
        ih (fun q hq => hl q (List.mem_cons_of_mem _ hq)), hg]
  refine this _ ?_ e
  intro p hp
  obtain ⟨i, g1, g2⟩ := mem_storedPairs hp
  obtain ⟨a, _, b, _, g3⟩ := mem_toStore.1 (List.mem_of_getElem? g1)
  exact ⟨b, a, i, Prod.ext g3 g2⟩

theorem zeroFns_subs (fns : List String) (dirs : List ℕ) (e : Ex) :
    (Ex.subs (storedPairs fns dirs) e).zeroFns = Ex.subs (storedPairs fns dirs) e.zeroFns := by
  have : ∀ (l : List (Ex × Ex)), (∀ p ∈ l, ∃ d a i, p = (.cd d (.data a), .work i)) → ∀ e, (Ex.subs l e).zeroFns = Ex.subs l e.zeroFns := by
    intro l
    induction l with
    | nil => intro _ e; rfl
    | cons p l ih =>
      intro hl e
      obtain ⟨d, a, i, rfl⟩ := hl p (by simp)
      rw [show Ex.subs ((Ex.cd d (.data a), .work i) :: l) e = Ex.subs l (Ex.replace (.cd d (.data a)) (.work i) e) from rfl,
        ih (fun q hq => hl q (List.mem_cons_of_mem _ hq)), zeroFns_replace]; rfl
  refine this _ ?_ e
  intro p hp
  obtain ⟨i, g1, g2⟩ := mem_storedPairs hp
  obtain ⟨a, _, b, _, g3⟩ := mem_toStore.1 (List.mem_of_getElem? g1)
  exact ⟨b, a, i, Prod.ext g3 g2⟩

theorem part_store (fns : List String) (dirs : List ℕ) (b : Bool) (e : Eqn) :
    (e.store fns dirs).part b = (e.part b).map (Ex.subs (storedPairs fns dirs)) := by
  unfold Eqn.store Eqn.part
  cases e.bare
  · simp only [Bool.false_eq_true, if_false, List.filter_map, List.map_map]
    have : ((fun t : Ex => t.hasPar "Re" == b) ∘ Ex.subs (storedPairs fns dirs)) = fun t : Ex => t.hasPar "Re" == b := by
      funext t
      simp only [Function.comp]
      rw [subs_stored (fun e => e.hasPar "Re") (fun d a i e => hasPar_replace d a i "Re" e)]
    rw [this]
    exact List.map_congr_left fun t _ => zeroFns_subs fns dirs t
  · rfl

/-! ## Grid variables -/

theorem runLocal_spec (cds : List Ex) (h : ∀ c ∈ cds, c.noGv = true) (v : Env P) :
    (∃ g, runLocal (cds.mapIdx fun i d => (i, d)) v = { v with gv := g } ∧ ∀ i c, cds[i]? = some c → g i = c.eval v) := by
  have key : ∀ (l : List Ex) (k : ℕ) (w : Env P), (∀ c ∈ l, c.noGv = true) →
      ∃ g, (l.mapIdx fun i d => (k + i, d)).foldl (fun v p => { v with gv := Function.update v.gv p.1 (p.2.eval v) }) w = { w with gv := g } ∧
        (∀ i < k, g i = w.gv i) ∧ ∀ i c, l[i]? = some c → g (k + i) = c.eval w := by
    intro l
    induction l with
    | nil => intro k w _; exact ⟨w.gv, rfl, fun _ _ => rfl, by simp⟩
    | cons d l ih =>
      intro k w hl
      rw [List.mapIdx_cons, List.foldl_cons]
      have e : (l.mapIdx fun i d => (k + (i + 1), d)) = l.mapIdx fun i d => (k + 1 + i, d) := by
        congr 1; funext i d; rw [show k + (i + 1) = k + 1 + i by omega]
      obtain ⟨g, h1, h2, h3⟩ := ih (k + 1) { w with gv := Function.update w.gv (k + 0) (d.eval w) } fun c hc => hl c (List.mem_cons_of_mem _ hc)
      rw [e, h1]
      refine ⟨g, rfl, fun i hi => ?_, fun i c hc => ?_⟩
      · rw [h2 i (by omega)]; exact Function.update_of_ne (by omega) _ _
      · cases i with
        | zero =>
          rw [List.getElem?_cons_zero, Option.some.injEq] at hc
          subst hc
          rw [Nat.add_zero, h2 k (by omega)]; simp
        | succ i =>
          rw [List.getElem?_cons_succ] at hc
          rw [show k + (i + 1) = k + 1 + i by omega, h3 i c hc, eval_noGv _ _ _ (hl c (List.mem_cons_of_mem _ (List.mem_of_getElem? hc)))]
  obtain ⟨g, h1, _, h3⟩ := key cds 0 v h
  simp only [Nat.zero_add] at h1 h3
  exact ⟨g, h1, h3⟩

theorem evalSum_ss (cds : List Ex) (hg : ∀ c ∈ cds, c.noGv = true) (ts : List Ex) (ht : ∀ t ∈ ts, t.noGv = true) (v : Env P) :
    evalSum (runLocal (cds.mapIdx fun i d => (i, d)) v) (ts.map (Ex.subs (cds.mapIdx fun i d => (d, .gv i)))) = evalSum v ts := by
  obtain ⟨g, h1, h2⟩ := runLocal_spec cds hg v
  funext x
  rw [evalSum, evalSum, h1, List.map_map]
  congr 1
  refine List.map_congr_left fun t htm => ?_
  simp only [Function.comp]
  rw [eval_subs, eval_noGv _ _ _ (ht t htm)]
  intro p hp
  obtain ⟨i, hi⟩ := List.getElem?_of_mem hp
  rw [List.getElem?_mapIdx] at hi
  obtain ⟨d, hd, rfl⟩ := Option.map_eq_some_iff.1 hi
  rw [eval_noGv _ _ _ (hg d (List.mem_of_getElem? hd))]
  exact h2 i d hd

/-! ## Specification -/

/-- Sum of the terms of a right hand side that contain (`true`) or do not contain (`false`) the Reynolds number, with functions other than central derivatives set to zero (they are treated by other
schemes) and derivatives replaced by their discretisation. -/
def spec (b : Bool) (e : Eqn) (v : Env P) (x : P) : ℝ := ((e.terms.filter fun t => t.hasPar "Re" == b).map fun t => t.zeroFns.eval v x).sum

/-- A derivative that is not stored occurs in the viscous or convective terms. -/
def Unstored (fns : List String) (dirs : List ℕ) (b : Bool) (eqs : List Eqn) : Prop :=
  ∃ e ∈ eqs, e.bare = false ∧ ∃ t ∈ e.terms, t.hasPar "Re" = b ∧ ∃ c ∈ t.zeroFns.cds, ∀ a ∈ fns, ∀ d ∈ dirs, c ≠ .cd d (.data a)

/-- `l` lists each derivative left after storing once, in any order. -/
def Lists (fns : List String) (dirs : List ℕ) (b : Bool) (eqs : List Eqn) (l : List Ex) : Prop :=
  l.Nodup ∧ ∀ c, c ∈ l ↔ c ∈ allCds ((eqs.map (Eqn.store fns dirs)).map (Eqn.part b))

theorem cds_isCd (e : Ex) : ∀ c ∈ e.cds, ∃ d a, c = .cd d a := by
  induction e with
  | cd d e ih =>
    intro c hc
    rcases List.mem_cons.1 hc with h | h
    · exact ⟨d, e, h⟩
    · exact ih c h
  | fn f e ih => exact ih
  | add a b iha ihb => intro c hc; rcases List.mem_append.1 hc with h | h; exacts [iha c h, ihb c h]
  | mul a b iha ihb => intro c hc; rcases List.mem_append.1 hc with h | h; exacts [iha c h, ihb c h]
  | _ => simp [Ex.cds]

/-- A derivative that is not stored survives. -/
theorem cds_replace_survives (d : ℕ) (a : String) (i : ℕ) (e : Ex) (d' : ℕ) (e' : Ex) (h : .cd d' e' ∈ e.cds) (hne : Ex.cd d' e' ≠ .cd d (.data a)) :
    .cd d' (Ex.replace (.cd d (.data a)) (.work i) e') ∈ (Ex.replace (.cd d (.data a)) (.work i) e).cds := by
  induction e with
  | cd d2 e ih =>
    simp only [Ex.replace]
    rcases List.mem_cons.1 h with h | h
    · obtain ⟨rfl, rfl⟩ := Ex.cd.inj h
      rw [if_neg hne]; simp [Ex.cds]
    · have : Ex.cd d2 e ≠ .cd d (.data a) := by
        intro h2; obtain ⟨rfl, rfl⟩ := Ex.cd.inj h2; cases h
      rw [if_neg this]
      exact List.mem_cons_of_mem _ (ih h)
  | fn f e ih => simpa [Ex.replace, Ex.cds] using ih h
  | add x y ihx ihy =>
    simp only [Ex.replace, reduceCtorEq, if_false, Ex.cds, List.mem_append] at h ⊢
    exact h.imp ihx ihy
  | mul x y ihx ihy =>
    simp only [Ex.replace, reduceCtorEq, if_false, Ex.cds, List.mem_append] at h ⊢
    exact h.imp ihx ihy
  | _ => simp [Ex.cds] at h

theorem cds_subs_survives (l : List (Ex × Ex)) (hl : ∀ p ∈ l, ∃ d a i, p = (.cd d (.data a), .work i)) (e : Ex) (d' : ℕ) (e' : Ex) (h : .cd d' e' ∈ e.cds)
    (hne : .cd d' e' ∉ l.map Prod.fst) : .cd d' (Ex.subs l e') ∈ (Ex.subs l e).cds := by
  induction l generalizing e e' with
  | nil => exact h
  | cons p l ih =>
    obtain ⟨d, a, i, rfl⟩ := hl p (by simp)
    rw [List.map_cons, List.mem_cons, not_or] at hne
    refine ih (fun q hq => hl q (List.mem_cons_of_mem _ hq)) _ _ (cds_replace_survives d a i e d' e' h hne.1) ?_
    intro hin
    obtain ⟨q, hq, hq1⟩ := List.mem_map.1 hin
    obtain ⟨d3, a3, i3, rfl⟩ := hl q (List.mem_cons_of_mem _ hq)
    obtain ⟨rfl, h2⟩ := Ex.cd.inj hq1
    have : e' = .data a3 := by
      cases e' with
      | cd d4 e4 => simp only [Ex.replace] at h2; split at h2 <;> cases h2
      | data s => simpa [Ex.replace] using h2.symm
      | _ => simp [Ex.replace] at h2
    subst this
    exact hne.2 (List.mem_map.2 ⟨_, hq, rfl⟩)

theorem storedPairs_shape {fns : List String} {dirs : List ℕ} : ∀ p ∈ storedPairs fns dirs, ∃ d a i, p = (.cd d (.data a), .work i) := by
  intro p hp
  obtain ⟨i, g1, g2⟩ := mem_storedPairs hp
  obtain ⟨a, _, b, _, g3⟩ := mem_toStore.1 (List.mem_of_getElem? g1)
  exact ⟨b, a, i, Prod.ext g3 g2⟩

theorem lists_nil_iff {fns : List String} {dirs : List ℕ} {b : Bool} {eqs : List Eqn} {l : List Ex} (hl : Lists fns dirs b eqs l) :
    l = [] ↔ ¬ Unstored fns dirs b eqs := by
  rw [List.eq_nil_iff_forall_not_mem]
  have mem : ∀ c, c ∈ l ↔ ∃ e ∈ eqs, ∃ t ∈ e.part b, c ∈ (Ex.subs (storedPairs fns dirs) t).cds := by
    intro c
    rw [hl.2]
    simp only [allCds, List.mem_flatMap, List.mem_map]
    constructor
    · rintro ⟨ts, ⟨e', ⟨e, he, rfl⟩, rfl⟩, t, ht, hc⟩
      rw [part_store, List.mem_map] at ht
      obtain ⟨t, ht, rfl⟩ := ht
      exact ⟨e, he, t, ht, hc⟩
    · rintro ⟨e, he, t, ht, hc⟩
      refine ⟨_, ⟨_, ⟨e, he, rfl⟩, rfl⟩, _, ?_, hc⟩
      rw [part_store]
      exact List.mem_map_of_mem ht
  have part : ∀ (e : Eqn) t, t ∈ e.part b ↔ e.bare = false ∧ ∃ t0 ∈ e.terms, t0.hasPar "Re" = b ∧ t = t0.zeroFns := by
    intro e t
    unfold Eqn.part
    cases hb : e.bare
    · simp only [Bool.false_eq_true, if_false, List.mem_map, List.mem_filter, beq_iff_eq, true_and]
      constructor
      · rintro ⟨t0, ⟨h1, h2⟩, h3⟩; exact ⟨t0, h1, h2, h3.symm⟩
      · rintro ⟨t0, h1, h2, h3⟩; exact ⟨t0, ⟨h1, h2⟩, h3.symm⟩
    · simp
  constructor
  · rintro h ⟨e, he, hb, t, ht, hre, c, hc, hns⟩
    obtain ⟨d, a, rfl⟩ := cds_isCd _ c hc
    refine h _ ((mem _).2 ⟨e, he, t.zeroFns, (part e _).2 ⟨hb, t, ht, hre, rfl⟩, cds_subs_survives _ storedPairs_shape _ d a hc ?_⟩)
    rw [keys_storedPairs]
    intro hin
    obtain ⟨n, hn, b', hb', h4⟩ := mem_toStore.1 hin
    exact hns n hn b' hb' h4
  · intro h c hc
    obtain ⟨e, he, t, ht, hc⟩ := (mem c).1 hc
    obtain ⟨hb, t0, ht0, hre, rfl⟩ := (part e t).1 ht
    obtain ⟨d', e', h1, h2, _⟩ := cds_subs _ stored_flat _ _ hc
    rw [keys_storedPairs] at h2
    refine h ⟨e, he, hb, t0, ht0, hre, _, h1, ?_⟩
    intro a ha d hd h3
    exact h2 (mem_toStore.2 ⟨a, ha, d, hd, h3⟩)

/-- **C69, kernels.** Whatever set of functions the derivatives of which are stored, in whatever order the derivatives are met, for all data: the residual of every equation is set to its convective
terms if one of these contains a derivative that is not stored, and is increased by its viscous terms if one of these contains a derivative that is not stored. -/
theorem C69_kernels (order : Bool → List Ex) (fns : List String) (dirs : List ℕ) (eqs : List Eqn) (v : Env P) (res : List (P → ℝ))
    (horder : ∀ b, Lists fns dirs b eqs (order b)) (hplain : ∀ e ∈ eqs, ∀ t ∈ e.terms, t.plain = true) (hbare : ∀ e ∈ eqs, e.bare = false)
    (k : ℕ) (e : Eqn) (r : P → ℝ) (he : eqs[k]? = some e) (hr : res[k]? = some r) (x : P) :
    ∃ r', (rhs order fns dirs eqs v res)[k]? = some r' ∧
      (Unstored fns dirs false eqs → Unstored fns dirs true eqs → r' x = spec false e v x + spec true e v x) ∧
      (Unstored fns dirs false eqs → ¬ Unstored fns dirs true eqs → r' x = spec false e v x) ∧
      (¬ Unstored fns dirs false eqs → Unstored fns dirs true eqs → r' x = r x + spec true e v x) ∧
      (¬ Unstored fns dirs false eqs → ¬ Unstored fns dirs true eqs → r' x = r x) := by
  have hmem : e ∈ eqs := List.mem_of_getElem? he
  have nogv : ∀ b, ∀ c ∈ order b, c.noGv = true := by
    intro b c hc
    rw [(horder b).2] at hc
    simp only [allCds, List.mem_flatMap, List.mem_map] at hc
    obtain ⟨ts, ⟨e', ⟨e, he, rfl⟩, rfl⟩, t, ht, hc⟩ := hc
    rw [part_store, List.mem_map] at ht
    obtain ⟨t, ht, rfl⟩ := ht
    refine noGv_cds _ (noGv_subs _ ?_ t ?_) c hc
    · intro p hp; obtain ⟨d, a, i, rfl⟩ := storedPairs_shape p hp; rfl
    · unfold Eqn.part at ht
      split at ht
      · cases ht
      · obtain ⟨t0, ht0, rfl⟩ := List.mem_map.1 ht
        exact noGv_of_plain _ (plain_zeroFns _ (hplain e he t0 (List.mem_filter.1 ht0).1))
  have val : ∀ b, evalSum (runLocal ((order b).mapIdx fun i d => (i, d)) (runStored fns dirs v))
      (((e.store fns dirs).part b).map (Ex.subs ((order b).mapIdx fun i d => (d, .gv i)))) x = spec b e v x := by
    intro b
    rw [part_store, evalSum_ss _ (nogv b)]
    · rw [evalSum, List.map_map, spec, Eqn.part, hbare e hmem]
      simp only [Bool.false_eq_true, if_false, List.map_map]
      congr 1
      refine List.map_congr_left fun t ht => ?_
      simp only [Function.comp]
      rw [eval_stored _ _ _ _ (plain_zeroFns _ (hplain e hmem t (List.mem_filter.1 ht).1))]
    · intro t ht
      obtain ⟨t0, ht0, rfl⟩ := List.mem_map.1 ht
      refine noGv_subs _ ?_ _ ?_
      · intro p hp; obtain ⟨d, a, i, rfl⟩ := storedPairs_shape p hp; rfl
      · unfold Eqn.part at ht0
        split at ht0
        · cases ht0
        · obtain ⟨t1, ht1, rfl⟩ := List.mem_map.1 ht0
          exact noGv_of_plain _ (plain_zeroFns _ (hplain e hmem t1 (List.mem_filter.1 ht1).1))
  have n0 := lists_nil_iff (horder false)
  have n1 := lists_nil_iff (horder true)
  have hk : ∀ b, ((eqs.map (Eqn.store fns dirs)).map (Eqn.part b))[k]? = some ((e.store fns dirs).part b) := by
    intro b; rw [List.getElem?_map, List.getElem?_map, he]; rfl
  unfold rhs ss
  by_cases h0 : order false = [] <;> by_cases h1 : order true = []
  · simp only [h0, h1, if_true, runKernel]
    refine ⟨r, hr, fun u => absurd u (n0.1 h0), fun u => absurd u (n0.1 h0), fun _ u => absurd u (n1.1 h1), fun _ _ => rfl⟩
  · simp only [h0, h1, if_true, if_false, runKernel, Option.isSome_some, Bool.or_true]
    refine ⟨_, by rw [List.getElem?_zipWith, hr, List.getElem?_map, hk]; rfl, fun u => absurd u (n0.1 h0), fun u => absurd u (n0.1 h0), fun _ _ => ?_,
      fun _ u => absurd (n1.2 u) h1⟩
    rw [val true]
  · simp only [h0, h1, if_true, if_false, runKernel, Option.isSome_some, Bool.true_or, Bool.false_eq_true]
    refine ⟨_, by rw [List.getElem?_map, List.getElem?_map, hk]; rfl, fun _ u => absurd u (n1.1 h1), fun _ _ => val false, fun u => absurd (n0.2 u) h0, fun u => absurd (n0.2 u) h0⟩
  · simp only [h0, h1, if_true, if_false, runKernel, Option.isSome_some, Bool.true_or, Bool.false_eq_true]
    refine ⟨_, by rw [List.getElem?_zipWith, List.getElem?_map, List.getElem?_map (f := fun ts : List Ex => ts.map _), List.getElem?_map (f := fun ts : List Ex => ts.map _), hk, hk]; rfl, fun _ _ => ?_, fun _ u => absurd (n1.2 u) h1,
      fun u => absurd (n0.2 u) h0, fun u => absurd (n0.2 u) h0⟩
    exact congrArg₂ (· + ·) (val false) (val true)

/-- The whole right hand side, derivatives replaced by their discretisation. -/
def total (e : Eqn) (v : Env P) (x : P) : ℝ := (e.terms.map fun t => t.eval v x).sum

/-- No functions other than central derivatives. -/
def Ex.noFn : Ex → Bool
  | .fn _ _ => false
  | .cd _ e => e.noFn
  | .add a b => a.noFn && b.noFn
  | .mul a b => a.noFn && b.noFn
  | _ => true

theorem zeroFns_of_noFn (e : Ex) (h : e.noFn = true) : e.zeroFns = e := by
  induction e <;> simp_all [Ex.noFn, Ex.zeroFns]

theorem spec_total (e : Eqn) (v : Env P) (x : P) (h : ∀ t ∈ e.terms, t.noFn = true) : spec false e v x + spec true e v x = total e v x := by
  unfold spec total
  generalize e.terms = l at h ⊢
  induction l with
  | nil => simp
  | cons t l ih =>
    have ih := ih fun t ht => h t (List.mem_cons_of_mem _ ht)
    have hz := zeroFns_of_noFn t (h t (by simp))
    rw [List.filter_cons, List.filter_cons, List.map_cons, List.sum_cons, ← ih]
    cases ht : t.hasPar "Re" <;> simp [hz] <;> ring

theorem spec_true_zero (e : Eqn) (v : Env P) (x : P) (h : ∀ t ∈ e.terms, t.hasPar "Re" = false) : spec true e v x = 0 := by
  unfold spec
  rw [List.filter_eq_nil_iff.2 (by intro t ht; simp [h t ht])]; rfl

/-- **C69, complete right hand side (partial).** If a derivative that is not stored occurs in the convective terms, and one in the viscous terms if there are any, the residual of every equation is its
right hand side, whichever derivatives are stored. The claim without these two hypotheses is false: `C69_all_stored`, `C69_viscous_dropped`. -/
theorem C69_residual_partial (order : Bool → List Ex) (fns : List String) (dirs : List ℕ) (eqs : List Eqn) (v : Env P) (res : List (P → ℝ))
    (horder : ∀ b, Lists fns dirs b eqs (order b)) (hplain : ∀ e ∈ eqs, ∀ t ∈ e.terms, t.plain = true ∧ t.noFn = true) (hbare : ∀ e ∈ eqs, e.bare = false)
    (hres : res.length = eqs.length) (hconv : Unstored fns dirs false eqs) (hvisc : (∃ e ∈ eqs, ∃ t ∈ e.terms, t.hasPar "Re" = true) → Unstored fns dirs true eqs) :
    rhs order fns dirs eqs v res = eqs.map fun e => total e v := by
  have key := C69_kernels order fns dirs eqs v res horder (fun e he t ht => (hplain e he t ht).1) hbare
  apply List.ext_getElem?
  intro k
  rw [List.getElem?_map]
  by_cases hk : k < eqs.length
  · have he := List.getElem?_eq_getElem hk
    have hr := List.getElem?_eq_getElem (l := res) (i := k) (by omega)
    have hm : eqs[k] ∈ eqs := List.getElem_mem hk
    rw [he, Option.map_some]
    have hval : ∀ x, ∃ r', (rhs order fns dirs eqs v res)[k]? = some r' ∧ r' x = total eqs[k] v x := by
      intro x
      obtain ⟨r', h1, h2, h3, _⟩ := key k _ _ he hr x
      refine ⟨r', h1, ?_⟩
      rw [← spec_total _ v x fun t ht => (hplain _ hm t ht).2]
      by_cases hu : Unstored fns dirs true eqs
      · exact h2 hconv hu
      · rw [h3 hconv hu, spec_true_zero, add_zero]
        intro t ht
        by_contra hne
        exact hu (hvisc ⟨_, hm, t, ht, by simpa using hne⟩)
    have hlen : ∃ r', (rhs order fns dirs eqs v res)[k]? = some r' := by
      by_cases hP : Nonempty P
      · obtain ⟨r', h, _⟩ := hval hP.some; exact ⟨r', h⟩
      · have : k < (rhs order fns dirs eqs v res).length := by
          simp only [rhs, ss]
          by_cases h0 : order false = [] <;> by_cases h1 : order true = [] <;> simp [h0, h1, runKernel, hres, hk]
        exact ⟨_, List.getElem?_eq_getElem this⟩
    obtain ⟨r', h⟩ := hlen
    rw [h, Option.some.injEq]
    funext x
    obtain ⟨r2, h2, h3⟩ := hval x
    rw [h, Option.some.injEq] at h2
    rw [h2, h3]
  · rw [List.getElem?_eq_none (l := eqs) (by omega), List.getElem?_eq_none]
    · rfl
    · simp only [rhs, ss]
      by_cases h0 : order false = [] <;> by_cases h1 : order true = [] <;> simp [h0, h1, runKernel, hres] <;> omega

/-- **C69, storing does not change the result**: two sets of stored functions for which the hypotheses of `C69_residual_partial` hold give the same residuals. -/
theorem C69_storing_irrelevant (order order' : Bool → List Ex) (fns fns' : List String) (dirs : List ℕ) (eqs : List Eqn) (v : Env P) (res res' : List (P → ℝ))
    (horder : ∀ b, Lists fns dirs b eqs (order b)) (horder' : ∀ b, Lists fns' dirs b eqs (order' b)) (hplain : ∀ e ∈ eqs, ∀ t ∈ e.terms, t.plain = true ∧ t.noFn = true)
    (hbare : ∀ e ∈ eqs, e.bare = false) (hres : res.length = eqs.length) (hres' : res'.length = eqs.length)
    (hu : ∀ b, Unstored fns dirs b eqs ∧ Unstored fns' dirs b eqs) : rhs order fns dirs eqs v res = rhs order' fns' dirs eqs v res' := by
  rw [C69_residual_partial order fns dirs eqs v res horder hplain hbare hres (hu false).1 fun _ => (hu true).1,
    C69_residual_partial order' fns' dirs eqs v res' horder' hplain hbare hres' (hu false).2 fun _ => (hu true).2]

/-- **C69, generated code.** If every derivative inside another derivative is stored, neither the grid variables nor the residuals of the generated kernels contain a derivative that has not been
discretised: the argument of each evaluated derivative and all right hand sides are free of derivatives. -/
theorem C69_no_derivative_left (order : Bool → List Ex) (fns : List String) (dirs : List ℕ) (eqs : List Eqn) (b : Bool) (horder : Lists fns dirs b eqs (order b))
    (hnest : ∀ e ∈ eqs, ∀ t ∈ e.part b, ∀ d a, .cd d a ∈ t.cds → ∀ c ∈ a.cds, ∃ f ∈ fns, ∃ d' ∈ dirs, c = .cd d' (.data f)) :
    ∀ evals rs, ss (order b) ((eqs.map (Eqn.store fns dirs)).map (Eqn.part b)) = some (evals, rs) →
      (∀ p ∈ evals, ∃ d a, p.2 = .cd d a ∧ a.cds = []) ∧ ∀ ts ∈ rs, ∀ t ∈ ts, t.cds = [] := by
  intro evals rs h
  unfold ss at h
  split at h
  · cases h
  simp only [Option.some.injEq, Prod.mk.injEq] at h
  obtain ⟨rfl, rfl⟩ := h
  have flat : ∀ c, c ∈ allCds ((eqs.map (Eqn.store fns dirs)).map (Eqn.part b)) → ∃ d a, c = .cd d a ∧ a.cds = [] := by
    intro c hc
    simp only [allCds, List.mem_flatMap, List.mem_map] at hc
    obtain ⟨ts, ⟨e', ⟨e, he, rfl⟩, rfl⟩, t, ht, hc⟩ := hc
    rw [part_store, List.mem_map] at ht
    obtain ⟨t, ht, rfl⟩ := ht
    obtain ⟨d, a, h1, _, h3⟩ := cds_subs _ stored_flat _ _ hc
    refine ⟨d, _, h3, ?_⟩
    rw [List.eq_nil_iff_forall_not_mem]
    intro c' hc'
    obtain ⟨d2, a2, g1, g2, _⟩ := cds_subs _ stored_flat _ _ hc'
    rw [keys_storedPairs, mem_toStore] at g2
    exact g2 (hnest e he t ht d a h1 _ g1)
  refine ⟨?_, ?_⟩
  · intro p hp
    obtain ⟨i, hi⟩ := List.getElem?_of_mem hp
    rw [List.getElem?_mapIdx] at hi
    obtain ⟨d, hd, rfl⟩ := Option.map_eq_some_iff.1 hi
    exact flat d ((horder.2 d).1 (List.mem_of_getElem? hd))
  · intro ts hts t ht
    obtain ⟨ts0, hts0, rfl⟩ := List.mem_map.1 hts
    obtain ⟨t0, ht0, rfl⟩ := List.mem_map.1 ht
    rw [List.eq_nil_iff_forall_not_mem]
    intro c hc
    have keys : ((order b).mapIdx fun i d => (d, Ex.gv i)).map Prod.fst = order b := by
      apply List.ext_getElem?
      intro i
      simp only [List.getElem?_map, List.getElem?_mapIdx, Option.map_map]
      cases (order b)[i]? <;> rfl
    obtain ⟨d, a, g1, g2, _⟩ := cds_subs _ (by
      intro p hp
      obtain ⟨i, hi⟩ := List.getElem?_of_mem hp
      rw [List.getElem?_mapIdx] at hi
      obtain ⟨d, hd, rfl⟩ := Option.map_eq_some_iff.1 hi
      exact ⟨flat d ((horder.2 d).1 (List.mem_of_getElem? hd)), rfl⟩) _ _ hc
    rw [keys] at g2
    refine g2 ((horder.2 _).2 ?_)
    exact List.mem_flatMap.2 ⟨ts0, hts0, List.mem_flatMap.2 ⟨t0, ht0, g1⟩⟩

/-! ## Findings -/

/-- **C69, finding: everything stored.** If every derivative of the equations is stored, no kernel is generated and the residuals keep their old values. -/
theorem C69_all_stored (order : Bool → List Ex) (fns : List String) (dirs : List ℕ) (eqs : List Eqn) (v : Env P) (res : List (P → ℝ))
    (horder : ∀ b, Lists fns dirs b eqs (order b)) (hall : ∀ e ∈ eqs, ∀ t ∈ e.terms, ∀ c ∈ t.zeroFns.cds, ∃ a ∈ fns, ∃ d ∈ dirs, c = .cd d (.data a)) :
    rhs order fns dirs eqs v res = res := by
  have nu : ∀ b, order b = [] := by
    intro b
    rw [lists_nil_iff (horder b)]
    rintro ⟨e, he, _, t, ht, _, c, hc, hns⟩
    obtain ⟨a, ha, d, hd, h⟩ := hall e he t ht c hc
    exact hns a ha d hd h
  simp [rhs, ss, nu, runKernel]

/-- An instance: linear advection `u_t = -c u_x` with `u` stored; the right hand side is `-c` times the stored derivative but the residual keeps its old value. -/
theorem C69_advection_lost (v : Env P) (stale : P → ℝ) :
    rhs (fun _ => []) ["u"] [0] [⟨false, [.mul (.num (-1)) (.mul (.par "c") (.cd 0 (.data "u")))]⟩] v [stale] = [stale] := by
  simp [rhs, ss, runKernel]

/-- **C69, finding: viscous terms.** Viscous terms in which every derivative is stored, for example a dissipation `(∂u/∂x)² / Re`, are dropped. -/
theorem C69_viscous_dropped (order : Bool → List Ex) (fns : List String) (dirs : List ℕ) (eqs : List Eqn) (v : Env P) (res : List (P → ℝ))
    (horder : ∀ b, Lists fns dirs b eqs (order b)) (hplain : ∀ e ∈ eqs, ∀ t ∈ e.terms, t.plain = true) (hbare : ∀ e ∈ eqs, e.bare = false)
    (hconv : Unstored fns dirs false eqs) (hall : ¬ Unstored fns dirs true eqs) (k : ℕ) (e : Eqn) (r : P → ℝ) (he : eqs[k]? = some e) (hr : res[k]? = some r) (x : P) :
    ∃ r', (rhs order fns dirs eqs v res)[k]? = some r' ∧ r' x = spec false e v x := by
  obtain ⟨r', h1, _, h3, _⟩ := C69_kernels order fns dirs eqs v res horder hplain hbare k e r he hr x
  exact ⟨r', h1, h3 hconv hall⟩

/-- **C69, finding: nested derivative.** With a derivative inside another one that is not stored, `∂/∂x (μ ∂T/∂x)` with `T` not stored, the kernel contains a derivative that is not discretised, in
every order. -/
theorem C69_unstored_inner_left (order : List Ex) (h : Lists ["u"] [0] true [⟨false, [.mul (.par "Re") (.cd 0 (.mul (.data "mu") (.cd 0 (.data "T"))))]⟩] order) :
    ∃ evals rs, ss order (([⟨false, [.mul (.par "Re") (.cd 0 (.mul (.data "mu") (.cd 0 (.data "T"))))]⟩].map (Eqn.store ["u"] [0])).map (Eqn.part true)) = some (evals, rs) ∧
      ∃ p ∈ evals, ∃ d a, p.2 = .cd d a ∧ a.cds ≠ [] := by
  have hm : Ex.cd 0 (.mul (.data "mu") (.cd 0 (.data "T"))) ∈ order := by
    rw [h.2]; decide +kernel
  have hne : order ≠ [] := List.ne_nil_of_mem hm
  refine ⟨_, _, by rw [ss, if_neg hne], ?_⟩
  obtain ⟨i, hi⟩ := List.getElem?_of_mem hm
  refine ⟨(i, .cd 0 (.mul (.data "mu") (.cd 0 (.data "T")))), List.mem_of_getElem? (i := i) ?_, 0, _, rfl, by simp [Ex.cds]⟩
  rw [List.getElem?_mapIdx, hi]; rfl

/-- **C69, finding: a scheme object works once.** The first use replaces the method by its result, the second use of the same scheme, for example on a second block, fails. -/
theorem C69_second_use_fails (fns : List String) (dirs dirs' : List ℕ) :
    (callToStore .method fns dirs).isSome ∧ (callToStore .method fns dirs).bind (fun a => callToStore a fns dirs') = none := ⟨rfl, rfl⟩

/-- **C69, constituent relations.** With constituent relations in one class, every array occurring in the equations that has a relation is evaluated, once, and nothing without a relation is added; without a
class of constituent relations the scheme raises, with two classes the second is ignored. -/
theorem C69_constituents (required arrays lhs : List String) (more : List (List String)) :
    checkMissing required [] arrays = none ∧
    (∃ r, checkMissing required (lhs :: more) arrays = some r ∧ (∀ a, a ∈ r ↔ a ∈ required ∨ (a ∈ arrays ∧ a ∈ lhs)) ∧
      (required.Nodup → arrays.Nodup → r.Nodup)) := by
  refine ⟨rfl, _, rfl, fun a => ?_, fun h1 h2 => ?_⟩
  · simp only [List.mem_append, List.mem_filter, Bool.and_eq_true, Bool.not_eq_true', List.contains_eq_mem, decide_eq_true_eq, decide_eq_false_iff_not]
    by_cases h : a ∈ required <;> simp [h]
  · refine List.nodup_append'.2 ⟨h1, h2.filter _, ?_⟩
    intro a ha hb
    simp [List.mem_filter, ha] at hb

/-! ## Example -/

/-- Diffusion and convection in one direction, `-∂(ρu)/∂x + Re ∂/∂x(μ ∂u/∂x)`, with `∂u/∂x` stored. -/
def exampleEqs : List Eqn := [⟨false, [.mul (.num (-1)) (.cd 0 (.data "rhou")), .mul (.par "Re") (.cd 0 (.mul (.data "mu") (.cd 0 (.data "u"))))]⟩]

/-- Its derivatives after storing. -/
def exampleOrder : Bool → List Ex
  | false => [.cd 0 (.data "rhou")]
  | true => [.cd 0 (.mul (.data "mu") (.work 0))]

theorem exampleLists (b : Bool) : Lists ["u"] [0] b exampleEqs (exampleOrder b) := by
  have e : allCds ((exampleEqs.map (Eqn.store ["u"] [0])).map (Eqn.part b)) = exampleOrder b := by cases b <;> decide +kernel
  exact ⟨by cases b <;> simp [exampleOrder], fun c => by rw [e]⟩

example (v : Env ℤ) (stale : ℤ → ℝ) :
    rhs exampleOrder ["u"] [0] exampleEqs v [stale] =
      [fun x => -(v.op 0 (v.data "rhou") x) + v.par "Re" * v.op 0 (fun y => v.data "mu" y * v.op 0 (v.data "u") y) x] := by
  rw [C69_residual_partial exampleOrder ["u"] [0] exampleEqs v [stale] exampleLists]
  · simp only [exampleEqs, List.map_cons, List.map_nil]
    congr 1
    funext x
    simp [total, Ex.eval]
  · intro e he t ht
    simp only [exampleEqs, List.mem_singleton] at he
    subst he
    simp only [List.mem_cons, List.not_mem_nil, or_false] at ht
    rcases ht with rfl | rfl <;> exact ⟨rfl, rfl⟩
  · intro e he; simp only [exampleEqs, List.mem_singleton] at he; subst he; rfl
  · rfl
  · refine ⟨_, List.mem_singleton.2 rfl, rfl, _, List.mem_cons_self, rfl, _, List.mem_cons_self, ?_⟩
    simp [Ex.zeroFns]
  · intro _
    refine ⟨_, List.mem_singleton.2 rfl, rfl, _, List.mem_cons_of_mem _ (List.mem_singleton.2 rfl), rfl, _, List.mem_cons_self, ?_⟩
    simp [Ex.zeroFns]

end OpenSBLI.Store
