import Verif.Spec.ScopeInput
import Verif.Lemmas.Scope
import Verif.Lemmas.ScopeNames

/-! # Helper lemmas on scopes -/
namespace OpenSBLI.Prog
open OpenSBLI.Reg OpenSBLI.CCode OpenSBLI.Alg

/-! ## Environments -/

/-- The declared names. -/
def dom (E : Env) : List String := E.map Prod.fst

theorem dom_append (a b : Env) : dom (a ++ b) = dom a ++ dom b := List.map_append

theorem mem_dom {E : Env} {p : String × Kind} (h : p ∈ E) : p.1 ∈ dom E := List.mem_map.2 ⟨p, h, rfl⟩

theorem lookup_skip (D E : Env) (n : String) (h : n ∉ dom D) : (D ++ E).lookup n = E.lookup n := by
  induction D with
  | nil => rfl
  | cons p D ih =>
    obtain ⟨m, k⟩ := p
    have hb : (n == m) = false := by
      rw [beq_eq_false_iff_ne]
      rintro rfl
      exact h (List.mem_cons_self ..)
    rw [List.cons_append, List.lookup_cons, hb]
    exact ih fun hm => h (List.mem_cons_of_mem _ hm)

theorem lookup_mem_nodup (D E : Env) (h : (dom D).Nodup) (p : String × Kind) (hp : p ∈ D) : (D ++ E).lookup p.1 = some p.2 := by
  induction D with
  | nil => cases hp
  | cons q D ih =>
    obtain ⟨m, k⟩ := q
    have h' : m ∉ dom D ∧ (dom D).Nodup := by simpa [dom] using h
    rcases List.mem_cons.1 hp with rfl | hq
    · simp
    · have hb : (p.1 == m) = false := by
        rw [beq_eq_false_iff_ne]
        rintro rfl
        exact h'.1 (mem_dom hq)
      rw [List.cons_append, List.lookup_cons, hb]
      exact ih h'.2 hq

/-- The declarations `S` are visible. -/
def Vis (E S : Env) : Prop := ∀ p ∈ S, E.lookup p.1 = some p.2

/-- No name of one environment is a name of the other. -/
def Apart (D S : Env) : Prop := ∀ n ∈ dom D, n ∉ dom S

theorem Vis.skip {E S : Env} (h : Vis E S) (D : Env) (ha : Apart D S) : Vis (D ++ E) S := fun p hp => by
  rw [lookup_skip D E p.1 fun hm => ha _ hm (mem_dom hp)]
  exact h p hp

theorem Vis.extend {E S : Env} (h : Vis E S) (D : Env) (hd : (dom D).Nodup) (ha : Apart D S) : Vis (D ++ E) (D ++ S) := fun p hp => by
  rcases List.mem_append.1 hp with hp | hp
  · exact lookup_mem_nodup D E hd p hp
  · exact h.skip D ha p hp

theorem Vis.mono {E S S' : Env} (h : Vis E S) (hs : ∀ p ∈ S', p ∈ S) : Vis E S' := fun p hp => h p (hs p hp)

theorem Apart.form {D S : Env} (f : Form → Bool) (hd : ∀ n ∈ dom D, f (form n) = true) (hs : ∀ n ∈ dom S, f (form n) = false) : Apart D S := by
  intro n h h'
  have := hd n h
  rw [hs n h'] at this
  cases this

/-! ## Statements -/

theorem added_append (a b : List Stmt) : added (a ++ b) = added b ++ added a := by
  induction a with
  | nil => simp [added]
  | cons s a ih => rw [List.cons_append, added, ih, added, List.append_assoc]

theorem allOk_append (a b : List Stmt) (outer cur : Env) : allOk outer cur (a ++ b) = (allOk outer cur a && allOk outer (added a ++ cur) b) := by
  induction a generalizing cur with
  | nil => simp [allOk, added]
  | cons s a ih => rw [List.cons_append, allOk, allOk, ih, Bool.and_assoc, added, List.append_assoc]

theorem added_uses (k : Kind) (l : List String) : added (uses k l) = [] := by
  induction l with
  | nil => rfl
  | cons n l ih =>
    change added (uses k l) ++ [] = []
    rw [ih]; rfl

theorem allOk_uses (k : Kind) (l : List String) (outer cur : Env) (h : ∀ n ∈ l, (cur ++ outer).lookup n = some k) : allOk outer cur (uses k l) = true := by
  induction l with
  | nil => simp [uses, allOk]
  | cons n l ih =>
    have h1 := h n (List.mem_cons_self ..)
    have h2 := ih fun m hm => h m (List.mem_cons_of_mem _ hm)
    simp only [uses, List.map_cons, allOk, Stmt.ok, h1, decide_true, Bool.true_and]
    exact h2

theorem added_decls (k : Kind) (l : List String) : added (l.map (Stmt.decl · k)) = (l.map (·, k)).reverse := by
  induction l with
  | nil => rfl
  | cons n l ih => simp [added, ih, Stmt.adds]

theorem dom_decls (k : Kind) (l : List String) (n : String) : n ∈ dom (added (l.map (Stmt.decl · k))) ↔ n ∈ l := by
  rw [added_decls]
  simp [dom]

theorem allOk_decls (k : Kind) (l : List String) (outer cur : Env) (hn : l.Nodup) (h : ∀ n ∈ l, n ∉ dom cur) :
    allOk outer cur (l.map (Stmt.decl · k)) = true := by
  induction l generalizing cur with
  | nil => simp [allOk]
  | cons n l ih =>
    rw [List.nodup_cons] at hn
    simp only [List.map_cons, allOk, Stmt.ok, Bool.and_eq_true, decide_eq_true_eq]
    refine ⟨h n (List.mem_cons_self ..), ih _ hn.2 fun m hm hm' => ?_⟩
    change m ∈ dom ([(n, k)] ++ cur) at hm'
    rw [dom_append, List.mem_append] at hm'
    rcases hm' with hm' | hm'
    · have : m = n := by simpa [dom] using hm'
      exact hn.1 (this ▸ hm)
    · exact h m (List.mem_cons_of_mem _ hm) hm'

/-- A list of declarations of one kind is found, whatever their order. -/
theorem lookup_decls (k : Kind) (l : List String) (E : Env) (n : String) (h : n ∈ l) : (added (l.map (Stmt.decl · k)) ++ E).lookup n = some k := by
  rw [added_decls]
  have : ∀ (l : List String), n ∈ l → ((l.map (·, k)) ++ E).lookup n = some k := by
    intro l
    induction l with
    | nil => simp
    | cons m l ih =>
      intro hm
      rw [List.map_cons, List.cons_append, List.lookup_cons]
      by_cases he : n = m
      · subst he; simp
      · rw [beq_eq_false_iff_ne.2 he]
        exact ih ((List.mem_cons.1 hm).resolve_left he)
  rw [← List.map_reverse]
  exact this l.reverse (by simpa using h)

theorem added_fine {V P : String → Prop} {t : List Stmt} (h : FineLines V P t) : added t = [] := by
  induction t with
  | nil => rfl
  | cons s t ih =>
    rw [added, ih fun x hx => h x (List.mem_cons_of_mem _ hx)]
    rcases h s (List.mem_cons_self ..) with h | ⟨b, rfl, -⟩
    · rcases h s (by simp) with ⟨n, rfl, -⟩ | ⟨n, rfl, -⟩ <;> rfl
    · rfl

theorem allOk_fine {V P : String → Prop} (outer cur : Env) (hV : ∀ n, V n → (cur ++ outer).lookup n = some .value)
    (hP : ∀ n, P n → (cur ++ outer).lookup n = some .param) (t : List Stmt) (h : Fine V P t) : allOk outer cur t = true := by
  induction t with
  | nil => simp [allOk]
  | cons s t ih =>
    have ih' := ih fun x hx => h x (List.mem_cons_of_mem _ hx)
    rcases h s (List.mem_cons_self ..) with ⟨n, rfl, hn⟩ | ⟨n, rfl, hn⟩
    · simp only [allOk, Stmt.ok, hV n hn, decide_true, Bool.true_and]; exact ih'
    · simp only [allOk, Stmt.ok, hP n hn, decide_true, Bool.true_and]; exact ih'

theorem allOk_lines {V P : String → Prop} (outer cur : Env) (hV : ∀ n, V n → (cur ++ outer).lookup n = some .value)
    (hP : ∀ n, P n → (cur ++ outer).lookup n = some .param) (t : List Stmt) (h : FineLines V P t) : allOk outer cur t = true := by
  induction t with
  | nil => simp [allOk]
  | cons s t ih =>
    have ih' := ih fun x hx => h x (List.mem_cons_of_mem _ hx)
    rcases h s (List.mem_cons_self ..) with hs | ⟨b, rfl, hb⟩
    · have := allOk_fine outer cur hV hP [s] hs
      simp only [allOk, Bool.and_true] at this
      have ha : s.adds = [] := by
        have := added_fine (V := V) (P := P) hs.lines
        simpa [added] using this
      rw [allOk, this, ha, Bool.true_and]
      exact ih'
    · have := allOk_fine (cur ++ outer) [] (by simpa using hV) (by simpa using hP) b hb
      simp only [allOk, Stmt.ok, this, Bool.true_and]
      exact ih'

/-- A sequence of similar pieces of text: each is well scoped when `S` is visible and its own names are new. -/
theorem allOk_flatMap {A : Type} (l : List A) (f : A → List Stmt) (outer cur S : Env) (hS : Vis (cur ++ outer) S)
    (hnd : (dom (added (l.flatMap f))).Nodup) (hS' : Apart (added (l.flatMap f)) S) (hc : Apart (added (l.flatMap f)) cur)
    (step : ∀ a ∈ l, ∀ cur', Vis (cur' ++ outer) S → Apart (added (f a)) cur' → allOk outer cur' (f a) = true) :
    allOk outer cur (l.flatMap f) = true := by
  induction l generalizing cur with
  | nil => simp [allOk]
  | cons a l ih =>
    rw [List.flatMap_cons, added_append, dom_append, List.nodup_append] at hnd
    have split : ∀ n, n ∈ dom (added ((a :: l).flatMap f)) ↔ n ∈ dom (added (l.flatMap f)) ∨ n ∈ dom (added (f a)) := by
      intro n
      rw [List.flatMap_cons, added_append, dom_append, List.mem_append]
    rw [List.flatMap_cons, allOk_append, Bool.and_eq_true]
    refine ⟨step a (List.mem_cons_self ..) cur hS fun n hn => hc n ((split n).2 (.inr hn)), ?_⟩
    refine ih _ ?_ hnd.1 (fun n hn => hS' n ((split n).2 (.inl hn))) ?_ fun b hb => step b (List.mem_cons_of_mem _ hb)
    · rw [List.append_assoc]
      exact hS.skip _ fun n hn => hS' n ((split n).2 (.inr hn))
    · intro n hn hm
      rw [dom_append, List.mem_append] at hm
      rcases hm with hm | hm
      · exact hnd.2.2 n hn n hm rfl
      · exact hc n ((split n).2 (.inl hn)) hm

theorem mem_added_flatMap {A : Type} (l : List A) (f : A → List Stmt) (p : String × Kind) : p ∈ added (l.flatMap f) ↔ ∃ a ∈ l, p ∈ added (f a) := by
  induction l with
  | nil => simp [added]
  | cons a l ih => simp [List.flatMap_cons, added_append, ih, or_comm]

theorem mem_dom_flatMap {A : Type} (l : List A) (f : A → List Stmt) (n : String) : n ∈ dom (added (l.flatMap f)) ↔ ∃ a ∈ l, n ∈ dom (added (f a)) := by
  simp only [dom, List.mem_map, mem_added_flatMap]
  constructor
  · rintro ⟨p, ⟨a, ha, hp⟩, rfl⟩
    exact ⟨a, ha, p, hp, rfl⟩
  · rintro ⟨a, ha, p, hp, rfl⟩
    exact ⟨p, ⟨a, ha, hp⟩, rfl⟩

/-- The names of a sequence are different when those of each piece are and determine the piece. -/
theorem nodup_flatMap {A B : Type} (l : List A) (key : A → B) (f : A → List Stmt) (hl : (l.map key).Nodup) (h : ∀ a ∈ l, (dom (added (f a))).Nodup)
    (hk : ∀ a ∈ l, ∀ b ∈ l, ∀ n, n ∈ dom (added (f a)) → n ∈ dom (added (f b)) → key a = key b) : (dom (added (l.flatMap f))).Nodup := by
  induction l with
  | nil => simp [added, dom]
  | cons a l ih =>
    rw [List.map_cons, List.nodup_cons] at hl
    rw [List.flatMap_cons, added_append, dom_append, List.nodup_append]
    refine ⟨ih hl.2 (fun b hb => h b (List.mem_cons_of_mem _ hb))
      fun b hb c hc => hk b (List.mem_cons_of_mem _ hb) c (List.mem_cons_of_mem _ hc), h a (List.mem_cons_self ..), ?_⟩
    rintro n hn m hm rfl
    obtain ⟨b, hb, hn⟩ := (mem_dom_flatMap ..).1 hn
    exact hl.1 (List.mem_map.2 ⟨b, hb, hk b (List.mem_cons_of_mem _ hb) a (List.mem_cons_self ..) n hn hm⟩)

end OpenSBLI.Prog
