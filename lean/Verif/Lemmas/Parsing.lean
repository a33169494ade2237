import Verif.Spec.Parsing
import Mathlib.Tactic.Ring

/-! # Lemmas about the parsing of derivatives -/
namespace OpenSBLI.Parse

/-! ## Replacement -/

/-- No `Der` or `Conservative`, and no SymPy derivative directly inside another. -/
def Expr.Tidy : Expr → Prop
  | .add a b | .mul a b => a.Tidy ∧ b.Tidy
  | .app _ a | .disc _ a _ => a.Tidy
  | .der a _ => a.Tidy ∧ ∀ b ws, a ≠ .der b ws
  | .user _ _ _ => False
  | _ => True

theorem mkDer_of_ne {a : Expr} (h : ∀ b ws, a ≠ .der b ws) (vs : List String) : mkDer a vs = .der a vs := by
  cases a <;> simp [mkDer] at *

theorem mkDer_mkDer (a : Expr) (ws vs : List String) : mkDer (mkDer a ws) vs = mkDer a (ws ++ vs) := by
  cases a <;> simp [mkDer]

theorem Expr.Plain.tidy {e : Expr} (h : e.Plain) : e.Tidy := by
  induction e <;> simp_all [Expr.Plain, Expr.Tidy]

theorem Expr.Plain.hasDer {e : Expr} (h : e.Plain) : e.hasDer = false := by
  induction e <;> simp_all [Expr.Plain, Expr.hasDer]

theorem Expr.Plain.flat {e : Expr} (h : e.Plain) (o : Op) : e.Flat o := by
  induction e <;> simp_all [Expr.Plain, Expr.Flat]

theorem Expr.Plain.ne_der {e : Expr} (h : e.Plain) (b ws) : e ≠ .der b ws := by rintro rfl; exact h

theorem subst_self (t : String) (p q : Expr) : subst t p q p = q := by unfold subst; simp

theorem subst_mul (t : String) (o : Op) (a : Expr) (args : List String) (q x y : Expr) : subst t (.user o a args) q (.mul x y) = .mul (subst t (.user o a args) q x) (subst t (.user o a args) q y) := by
  rw [subst]; simp

theorem subst_der (t : String) (o : Op) (a : Expr) (args : List String) (q x : Expr) (vs : List String) : subst t (.user o a args) q (.der x vs) = mkDer (subst t (.user o a args) q x) vs := by
  rw [subst]; simp

theorem subst_tidy (t : String) (o : Op) (a : Expr) (args : List String) (q : Expr) {e : Expr} (h : e.Tidy) : subst t (.user o a args) q e = e := by
  induction e with
  | add a b iha ihb => rw [subst]; simp [iha h.1, ihb h.2]
  | mul a b iha ihb => rw [subst]; simp [iha h.1, ihb h.2]
  | app f a ih => rw [subst]; simp [ih h]
  | der a vs ih => rw [subst]; simp [ih h.1, mkDer_of_ne h.2]
  | disc s a vs ih => rw [subst]; simp [ih h]
  | user => exact h.elim
  | _ => simp [subst]

/-- Replaces the derivatives of the user by given expressions, if they are in the list. -/
def part (R : Expr → List String → Expr) (S : List (Expr × List String)) : Expr → Expr
  | .add a b => .add (part R S a) (part R S b)
  | .mul a b => .mul (part R S a) (part R S b)
  | .app f a => .app f (part R S a)
  | .user o a args => if (a, args) ∈ S then R a args else .user o a args
  | e => e

/-- Replaces the derivatives of the user by given expressions. -/
def mapUser (R : Expr → List String → Expr) : Expr → Expr
  | .add a b => .add (mapUser R a) (mapUser R b)
  | .mul a b => .mul (mapUser R a) (mapUser R b)
  | .app f a => .app f (mapUser R a)
  | .user _ a args => R a args
  | e => e

theorem part_nil (R) (e : Expr) : part R [] e = e := by
  induction e <;> simp_all [part]

theorem subst_part (t : String) (o : Op) (R : Expr → List String → Expr) (hR : ∀ a args, a.Plain → (R a args).Tidy) (S) (a : Expr) (args : List String) {e : Expr} (h : e.Flat o) :
    subst t (.user o a args) (R a args) (part R S e) = part R ((a, args) :: S) e := by
  induction e with
  | add x y ihx ihy => rw [part, subst]; simp [ihx h.1, ihy h.2, part]
  | mul x y ihx ihy => rw [part, subst]; simp [ihx h.1, ihy h.2, part]
  | app f x ih => rw [part, subst]; simp [ih h, part]
  | user o' x xs =>
    obtain ⟨rfl, hx⟩ := h
    by_cases hS : (x, xs) ∈ S
    · simp [part, hS, subst_tidy t o' a args _ (hR x xs hx)]
    · rw [part, if_neg hS, part, subst]
      by_cases he : x = a ∧ xs = args
      · obtain ⟨rfl, rfl⟩ := he; simp
      · have : ¬ (x, xs) ∈ (a, args) :: S := by simp [hS]; tauto
        rw [if_neg this, if_neg (by simpa using he)]
        simp [subst_tidy t o' a args _ hx.tidy]
  | der => exact h.elim
  | disc => exact h.elim
  | bad => exact h.elim
  | _ => simp [part, subst]

theorem foldl_part (t : String) (o : Op) (R : Expr → List String → Expr) (hR : ∀ a args, a.Plain → (R a args).Tidy) {e : Expr} (h : e.Flat o) (ps : List (Expr × List String)) (S) :
    ps.foldl (fun acc p => subst t (.user o p.1 p.2) (R p.1 p.2) acc) (part R S e) = part R (ps.reverse ++ S) e := by
  induction ps generalizing S with
  | nil => rfl
  | cons p ps ih => rw [List.foldl_cons, subst_part t o R hR S _ _ h, ih]; simp

/-- All derivatives of the user in a flat expression. -/
def userNodes : Expr → List (Expr × List String)
  | .add a b | .mul a b => userNodes a ++ userNodes b
  | .app _ a => userNodes a
  | .user _ a args => [(a, args)]
  | _ => []

theorem userNodes_plain {o : Op} {e : Expr} (h : e.Flat o) {p : Expr × List String} (hp : p ∈ userNodes e) : p.1.Plain := by
  induction e with
  | add a b iha ihb => simp only [userNodes, List.mem_append] at hp; exact hp.elim (iha h.1) (ihb h.2)
  | mul a b iha ihb => simp only [userNodes, List.mem_append] at hp; exact hp.elim (iha h.1) (ihb h.2)
  | app f a ih => exact ih h hp
  | user o a args => simp only [userNodes, List.mem_singleton] at hp; subst hp; exact h.2
  | _ => simp [userNodes] at hp

theorem part_eq_mapUser (R) {o : Op} {e : Expr} (h : e.Flat o) (S) (hS : ∀ p ∈ userNodes e, p ∈ S) : part R S e = mapUser R e := by
  induction e with
  | add a b iha ihb =>
    simp only [userNodes, List.mem_append] at hS
    rw [part, mapUser, iha h.1 fun p hp => hS p (Or.inl hp), ihb h.2 fun p hp => hS p (Or.inr hp)]
  | mul a b iha ihb =>
    simp only [userNodes, List.mem_append] at hS
    rw [part, mapUser, iha h.1 fun p hp => hS p (Or.inl hp), ihb h.2 fun p hp => hS p (Or.inr hp)]
  | app f a ih => rw [part, mapUser, ih h hS]
  | user o' a args => rw [part, mapUser, if_pos (hS _ (by simp [userNodes]))]
  | _ => rfl

theorem Expr.Plain.derNodes {e : Expr} (h : e.Plain) : Parse.derNodes e = [] := by
  induction e <;> simp_all [Expr.Plain, Parse.derNodes]

theorem Expr.Plain.consNodes {e : Expr} (h : e.Plain) : Parse.consNodes e = [] := by
  induction e <;> simp_all [Expr.Plain, Parse.consNodes]

theorem derNodes_flat {e : Expr} (h : e.Flat .der) : derNodes e = userNodes e := by
  induction e with
  | user o a args => obtain ⟨rfl, ha⟩ := h; simp [derNodes, userNodes, ha.derNodes]
  | _ => simp_all [Expr.Flat, derNodes, userNodes]

theorem consNodes_flat {e : Expr} (h : e.Flat .conservative) : consNodes e = userNodes e := by
  induction e with
  | user o a args => obtain ⟨rfl, ha⟩ := h; simp [consNodes, userNodes, ha.consNodes]
  | _ => simp_all [Expr.Flat, consNodes, userNodes]

/-! ## Differentiation -/

/-- What `Der` works with: derivatives of data objects only. -/
def Expr.Elementary : Expr → Prop
  | .add a b | .mul a b => a.Elementary ∧ b.Elementary
  | .app _ a => a.Elementary
  | .der a _ => ∃ s, a = .data s
  | .disc _ _ _ | .user _ _ _ | .bad => False
  | _ => True

theorem Expr.Plain.elementary {e : Expr} (h : e.Plain) : e.Elementary := by
  induction e <;> simp_all [Expr.Plain, Expr.Elementary]

theorem Expr.Elementary.tidy {e : Expr} (h : e.Elementary) : e.Tidy := by
  induction e with
  | der a vs => obtain ⟨s, rfl⟩ := h; simp [Expr.Tidy]
  | _ => simp_all [Expr.Elementary, Expr.Tidy]

theorem diff_elementary (deps : List String) (x : String) {e : Expr} (h : e.Elementary) : (diff deps x e).Elementary := by
  induction e with
  | data s => simp only [diff]; split <;> simp [Expr.Elementary]
  | coord s => simp only [diff]; split <;> simp [Expr.Elementary]
  | der a vs => simp only [diff]; split <;> simp [Expr.Elementary]; exact h
  | disc => exact h.elim
  | user => exact h.elim
  | bad => exact h.elim
  | _ => simp_all [diff, Expr.Elementary]

theorem diffs_elementary (deps vars : List String) {e : Expr} (h : e.Elementary) : (diffs deps vars e).Elementary := by
  induction vars generalizing e with
  | nil => exact h
  | cons x xs ih => exact ih (diff_elementary deps x h)

section
variable {R : Type*} [CommRing R] [Algebra ℚ R] (C : Calculus R)

theorem Calculus.Ds_append (vs ws : List String) (a : R) : C.Ds (vs ++ ws) a = C.Ds ws (C.Ds vs a) := by simp [Calculus.Ds]

theorem Calculus.Ds_perm {vs ws : List String} (h : vs.Perm ws) (a : R) : C.Ds vs a = C.Ds ws a := by
  induction h generalizing a with
  | nil => rfl
  | cons x _ ih => exact ih _
  | swap x y l => simp only [Calculus.Ds, List.foldl_cons, C.comm]
  | trans _ _ ih1 ih2 => rw [ih1, ih2]

theorem Calculus.eval_mkDer (a : Expr) (vs : List String) : C.eval (mkDer a vs) = C.Ds vs (C.eval a) := by
  cases a <;> simp [mkDer, Calculus.eval, Calculus.Ds_append]

theorem Calculus.D_ratCast (x : String) (q : ℚ) : C.D x (algebraMap ℚ R q) = 0 := (C.D x).map_algebraMap q

theorem eval_diff {deps : List String} {x : String} (hx : x ∈ deps) {e : Expr} (h : e.Elementary) : C.eval (diff deps x e) = C.D x (C.eval e) := by
  induction e with
  | data s => simp [diff, hx, Calculus.eval, Calculus.Ds]
  | const s => simp [diff, Calculus.eval, C.const_D]
  | coord s => simp only [diff, Calculus.eval, C.coord_D]; split <;> simp [Calculus.eval]
  | num q => simp [diff, Calculus.eval]
  | add a b iha ihb => simp [diff, Calculus.eval, iha h.1, ihb h.2]
  | mul a b iha ihb => simp [diff, Calculus.eval, iha h.1, ihb h.2]; ring
  | app f a ih => simp [diff, Calculus.eval, ih h, C.chain]
  | der a vs => simp [diff, hx, Calculus.eval, Calculus.Ds]
  | disc => exact h.elim
  | user => exact h.elim
  | bad => exact h.elim

theorem eval_diffs {deps vars : List String} (hv : ∀ x ∈ vars, x ∈ deps) {e : Expr} (h : e.Elementary) : C.eval (diffs deps vars e) = C.Ds vars (C.eval e) := by
  induction vars generalizing e with
  | nil => rfl
  | cons x xs ih =>
    have := ih (fun y hy => hv y (List.mem_cons_of_mem _ hy)) (diff_elementary deps x h)
    rw [diffs, List.foldl_cons]
    change C.eval (diffs deps xs (diff deps x e)) = _
    rw [this, eval_diff C (hv x List.mem_cons_self) h]; rfl

theorem eval_mapUser (F : Expr → List String → Expr) {e : Expr} (hF : ∀ p ∈ userNodes e, C.eval (F p.1 p.2) = C.Ds p.2.dropLast (C.eval p.1)) : C.eval (mapUser F e) = C.eval e := by
  induction e with
  | add a b iha ihb =>
    simp only [userNodes, List.mem_append] at hF
    rw [mapUser, Calculus.eval, Calculus.eval, iha fun p hp => hF p (Or.inl hp), ihb fun p hp => hF p (Or.inr hp)]
  | mul a b iha ihb =>
    simp only [userNodes, List.mem_append] at hF
    rw [mapUser, Calculus.eval, Calculus.eval, iha fun p hp => hF p (Or.inl hp), ihb fun p hp => hF p (Or.inr hp)]
  | app f a ih => rw [mapUser, Calculus.eval, Calculus.eval, ih hF]
  | user o a args => rw [mapUser, hF (a, args) (by simp [userNodes])]; rfl
  | _ => rfl

end

/-! ## `Der` -/

theorem setArgs_default {time : String} {args : List String} (h : schemeOf args = (if args.head? = some time then "Temporal" else "Central")) (h0 : args ≠ []) : setArgs time none args = args := by
  rw [setArgs, if_pos]
  rw [Option.getD_none, ← h, schemeOf, List.getLastD_eq_getLast?, List.getLast?_eq_some_getLast h0]; rfl

theorem rebuilt_default {time : String} {e : Expr} (h : e.Default time) : rebuilt time e = e := by
  induction e with
  | user o a args ih => rw [rebuilt, ih h.1, setArgs_default h.2.1 h.2.2]; simp
  | _ => simp_all [rebuilt, Expr.Default]

theorem resolve_flat (time : String) (deps : List String) {e : Expr} (h : e.Flat .der) : resolve time deps e = mapUser (fun a args => diffs deps args.dropLast a) e := by
  have := foldl_part time .der (fun a args => diffs deps args.dropLast a) (fun a args ha => (diffs_elementary deps _ ha.elementary).tidy) h (derNodes e) []
  rw [part_nil] at this
  rw [resolve, this, part_eq_mapUser _ h]
  intro p hp
  simpa [derNodes_flat h] using hp

theorem resolve_elementary (deps : List String) {e : Expr} {o : Op} (h : e.Flat o) : (mapUser (fun a args => diffs deps args.dropLast a) e).Elementary := by
  induction e with
  | user o a args => exact diffs_elementary _ _ h.2.elementary
  | _ => simp_all [mapUser, Expr.Elementary, Expr.Flat]

theorem Expr.Elementary.modifications {e : Expr} (h : e.Elementary) : Parse.modifications e = [] := by
  induction e with
  | der a vs => obtain ⟨s, rfl⟩ := h; simp [Parse.modifications, Expr.hasDer]
  | _ => simp_all [Expr.Elementary, Parse.modifications]

/-- Elementary expressions after `set_schemes`: every derivative, of a data object, has the scheme. -/
theorem setSchemes_elementary (time : String) {s : String} (hs : s ∈ schemes) (order : List String → List String) {e : Expr} (h : e.Elementary) :
    setSchemes time s order e = .ok (inner time s order e) := by
  rw [setSchemes, h.modifications]
  simp [hs]; rfl

theorem inner_discretised (time s : String) (order : List String → List String) {e : Expr} (h : e.Elementary) : (inner time s order e).Discretised s := by
  induction e with
  | der a vs => obtain ⟨n, rfl⟩ := h; simp [inner, Expr.hasDer, Expr.Discretised]
  | _ => simp_all [Expr.Elementary, inner, Expr.Discretised]

theorem inner_discs (time s : String) (order : List String → List String) {e : Expr} (h : e.Elementary) (p) (hp : p ∈ (inner time s order e).discs) :
    ∃ d vs, p = (.data d, order vs) := by
  induction e with
  | der a vs => obtain ⟨n, rfl⟩ := h; simp [inner, Expr.hasDer, Expr.discs] at hp; exact ⟨n, vs, hp⟩
  | add a b iha ihb =>
    simp only [inner, Expr.discs, List.mem_append] at hp
    exact hp.elim (iha h.1) (ihb h.2)
  | mul a b iha ihb =>
    simp only [inner, Expr.discs, List.mem_append] at hp
    exact hp.elim (iha h.1) (ihb h.2)
  | app f a ih => exact ih h hp
  | disc => exact h.elim
  | user => exact h.elim
  | _ => simp [inner, Expr.discs] at hp

theorem eval_inner {R : Type*} [CommRing R] [Algebra ℚ R] (C : Calculus R) (time s : String) (order : List String → List String) (ho : ∀ l, (order l).Perm l) {e : Expr} (h : e.Elementary) :
    C.eval (inner time s order e) = C.eval e := by
  induction e with
  | der a vs => obtain ⟨n, rfl⟩ := h; simp [inner, Expr.hasDer, Calculus.eval, C.Ds_perm (ho vs)]
  | disc => exact h.elim
  | user => exact h.elim
  | _ => simp_all [Expr.Elementary, inner, Calculus.eval]

theorem sortBy_perm (order l : List String) : (sortBy order l).Perm l := List.perm_insertionSort _ _

theorem sortBy_sorted (order l : List String) : (sortBy order l).Pairwise fun x y => lastIdx order x ≤ lastIdx order y := by
  have : Std.Total (α := String) (fun x y => lastIdx order x ≤ lastIdx order y) := ⟨fun a b => Nat.le_total _ _⟩
  have : IsTrans String (fun x y => lastIdx order x ≤ lastIdx order y) := ⟨fun a b c => Nat.le_trans⟩
  exact List.pairwise_insertionSort _ l

/-- The variables of the last part of the order come last. -/
theorem sortBy_split (inn outer l : List String) : ∃ l1 l2, sortBy (inn ++ outer) l = l1 ++ l2 ∧ (∀ x ∈ l1, x ∉ outer) ∧ ∀ x ∈ l2, x ∈ outer := by
  have hin : ∀ x ∈ outer, inn.length < lastIdx (inn ++ outer) x := by
    intro x hx
    have h1 : x ∈ outer.reverse := by simpa using hx
    have h2 := List.idxOf_lt_length_of_mem h1
    rw [lastIdx, List.reverse_append, List.idxOf_append_of_mem h1, List.length_append]
    simp at h2; omega
  have hout : ∀ x, x ∉ outer → lastIdx (inn ++ outer) x ≤ inn.length := by
    intro x hx
    have h1 : x ∉ outer.reverse := by simpa using hx
    rw [lastIdx, List.reverse_append, List.idxOf_append_of_notMem h1, List.length_append, List.length_reverse]
    omega
  generalize hm : sortBy (inn ++ outer) l = m
  have hs := sortBy_sorted (inn ++ outer) l
  rw [hm] at hs
  clear hm
  induction m with
  | nil => exact ⟨[], [], rfl, by simp, by simp⟩
  | cons x xs ih =>
    rw [List.pairwise_cons] at hs
    by_cases hx : x ∈ outer
    · refine ⟨[], x :: xs, rfl, by simp, ?_⟩
      intro y hy
      rcases List.mem_cons.1 hy with rfl | hy
      · exact hx
      · by_contra hn
        have := hs.1 y hy; have := hin x hx; have := hout y hn; omega
    · obtain ⟨l1, l2, rfl, h1, h2⟩ := ih hs.2
      exact ⟨x :: l1, l2, rfl, by simpa [hx] using h1, h2⟩

/-! ## `Conservative` -/

theorem foldl_mkDer (time : String) (F : Expr → List String → Expr) (ps : List (Expr × List String)) (b : Expr) (vs : List String) :
    ps.foldl (fun acc p => subst time (.user .conservative p.1 p.2) (F p.1 p.2) acc) (mkDer b vs)
      = mkDer (ps.foldl (fun acc p => subst time (.user .conservative p.1 p.2) (F p.1 p.2) acc) b) vs := by
  induction ps generalizing b with
  | nil => rfl
  | cons p ps ih =>
    rw [List.foldl_cons, List.foldl_cons, ← ih]
    congr 1
    cases b <;> simp [mkDer, subst]
    rename_i c ws
    exact (mkDer_mkDer _ _ _).symm

theorem unwrap_flat (time : String) {a : Expr} (h : a.Flat .conservative) (args : List String) :
    unwrap time (.user .conservative a args) = mkDer (mapUser (fun a args => mkDer a args.dropLast) a) args.dropLast := by
  have hT : ∀ (b : Expr) (bs : List String), b.Plain → (mkDer b bs.dropLast).Tidy := by
    intro b bs hb
    rw [mkDer_of_ne hb.ne_der]
    exact ⟨hb.tidy, hb.ne_der⟩
  have h1 := foldl_part time .conservative (fun a args => mkDer a args.dropLast) hT h (consNodes a) []
  rw [part_nil, part_eq_mapUser _ h _ (by intro p hp; simpa [consNodes_flat h] using hp)] at h1
  rw [unwrap, consNodes, List.foldl_cons]
  have : subst time (.user .conservative a args) (mkDer a args.dropLast) (.user .conservative a args) = mkDer a args.dropLast := by rw [subst]; simp
  simp only [this]
  rw [foldl_mkDer time (fun a args => mkDer a args.dropLast), h1]

theorem withScheme_plain (s : String) (order : List String → List String) {e : Expr} (h : e.Plain) : e.withScheme s order = e := by
  induction e <;> simp_all [Expr.Plain, Expr.withScheme]

theorem inner_plain (time s : String) (order : List String → List String) {e : Expr} (h : e.Plain) : inner time s order e = e := by
  induction e <;> simp_all [Expr.Plain, inner]

theorem modifications_plain {e : Expr} (h : e.Plain) : modifications e = [] := by
  induction e <;> simp_all [Expr.Plain, modifications]

theorem modifications_flat {e : Expr} {o : Op} (h : e.Flat o) : modifications (mapUser (fun a args => mkDer a args.dropLast) e) = [] := by
  induction e with
  | user o' a args => simp [mapUser, mkDer_of_ne h.2.ne_der, modifications, h.2.hasDer, modifications_plain h.2]
  | _ => simp_all [Expr.Flat, mapUser, modifications]

theorem inner_flat (time s : String) (order : List String → List String) {e : Expr} {o : Op} (h : e.Flat o) :
    inner time s order (mapUser (fun a args => mkDer a args.dropLast) e) = e.withScheme s order := by
  induction e with
  | user o' a args => simp [mapUser, mkDer_of_ne h.2.ne_der, inner, h.2.hasDer, Expr.withScheme, withScheme_plain s order h.2]
  | _ => simp_all [Expr.Flat, mapUser, inner, Expr.withScheme]

theorem withScheme_hasDer (s : String) (order : List String → List String) {e : Expr} {o : Op} (h : e.Flat o) : (e.withScheme s order).hasDer = false := by
  induction e with
  | user o' a args => simp [Expr.withScheme, Expr.hasDer, withScheme_plain s order h.2, h.2.hasDer]
  | _ => simp_all [Expr.Flat, Expr.hasDer, Expr.withScheme]

theorem withScheme_ne_der (s : String) (order : List String → List String) {e : Expr} {o : Op} (h : e.Flat o) (b ws) : e.withScheme s order ≠ .der b ws := by
  intro he
  have := withScheme_hasDer s order h
  rw [he] at this
  simp [Expr.hasDer] at this

theorem mapUser_of_no_der (s : String) (order : List String → List String) {e : Expr} {o : Op} (h : e.Flat o) (hd : (mapUser (fun a args => mkDer a args.dropLast) e).hasDer = false) :
    mapUser (fun a args => mkDer a args.dropLast) e = e.withScheme s order := by
  induction e with
  | user o' b bs => simp [mapUser, mkDer_of_ne h.2.ne_der, Expr.hasDer] at hd
  | _ => simp_all [Expr.Flat, mapUser, Expr.hasDer, Expr.withScheme]

/-- `set_schemes` on what `Conservative` makes. -/
theorem setSchemes_conservative (time : String) {s : String} (hs : s ∈ schemes) (canon : List String → List String) {a : Expr} (h : a.Flat .conservative) (vars : List String) :
    setSchemes time s canon (mkDer (mapUser (fun a args => mkDer a args.dropLast) a) vars) = .ok (consForm s canon a vars) := by
  have main : (∀ o b bs, a ≠ .user o b bs) → setSchemes time s canon (mkDer (mapUser (fun a args => mkDer a args.dropLast) a) vars) = .ok (.disc s (a.withScheme s canon) (canon vars)) := by
    intro hu
    set A := mapUser (fun a args => mkDer a args.dropLast) a with hA
    have hne : ∀ b ws, A ≠ .der b ws := by
      intro b ws hb
      rw [hA] at hb
      cases a <;> simp_all [mapUser, Expr.Flat]
    have hI : inner time s canon A = a.withScheme s canon := inner_flat time s canon h
    have hM : modifications A = [] := modifications_flat h
    have hD := withScheme_hasDer s canon h
    have hN := withScheme_ne_der s canon h
    rw [mkDer_of_ne hne, setSchemes, modifications, hM, inner, hI, mkDer_of_ne hN]
    cases hAd : A.hasDer
    · have : A = a.withScheme s canon := mapUser_of_no_der s canon h hAd
      simp [hs, this]; rfl
    · simp [hs, inner, hAd, hI, mkDer_of_ne hN, List.foldlM, hD, subst]
  cases a with
  | user o b bs =>
    obtain ⟨_, hb⟩ := h
    rw [mapUser, mkDer_of_ne hb.ne_der]
    change setSchemes time s canon (.der b (bs.dropLast ++ vars)) = .ok (.disc s b (canon (bs.dropLast ++ vars)))
    rw [setSchemes]
    simp [hs, modifications, hb.hasDer, modifications_plain hb, inner]; rfl
  | _ => rw [main (by simp)]; simp [consForm]

section
variable {R : Type*} [CommRing R] [Algebra ℚ R] (C : Calculus R)

theorem eval_withScheme (s : String) (order : List String → List String) (ho : ∀ l, (order l).Perm l) {e : Expr} {o : Op} (h : e.Flat o) : C.eval (e.withScheme s order) = C.eval e := by
  induction e with
  | user o' a args => simp [Expr.withScheme, Calculus.eval, C.Ds_perm (ho _), withScheme_plain s order h.2]
  | _ => simp_all [Expr.Flat, Expr.withScheme, Calculus.eval]

theorem eval_consForm (s : String) (canon : List String → List String) (ho : ∀ l, (canon l).Perm l) {a : Expr} {o : Op} (h : a.Flat o) (vars : List String) :
    C.eval (consForm s canon a vars) = C.Ds vars (C.eval a) := by
  cases a with
  | user o' b bs => simp [consForm, Calculus.eval, C.Ds_perm (ho _), C.Ds_append]
  | _ =>
    change C.Ds (canon vars) (C.eval (Expr.withScheme s canon _)) = _
    rw [eval_withScheme C s canon ho h, C.Ds_perm (ho vars)]

theorem eval_subst (time : String) {p q : Expr} (hpq : C.eval p = C.eval q) {e : Expr} (he : e.Default time) : C.eval (subst time p q e) = C.eval e := by
  induction e with
  | add a b iha ihb =>
    rw [subst]; split
    · rename_i hp; rw [hp]; exact hpq.symm
    · simp only [Calculus.eval, iha he.1, ihb he.2]
  | mul a b iha ihb =>
    rw [subst]; split
    · rename_i hp; rw [hp]; exact hpq.symm
    · simp only [Calculus.eval, iha he.1, ihb he.2]
  | app f a ih =>
    rw [subst]; split
    · rename_i hp; rw [hp]; exact hpq.symm
    · simp only [Calculus.eval, ih he]
  | der a vs ih =>
    rw [subst]; split
    · rename_i hp; rw [hp]; exact hpq.symm
    · simp only [Calculus.eval_mkDer, Calculus.eval, ih he]
  | disc s a vs ih =>
    rw [subst]; split
    · rename_i hp; rw [hp]; exact hpq.symm
    · simp only [Calculus.eval, ih he]
  | user o a args ih =>
    rw [subst]; split
    · rename_i hp; rw [hp]; exact hpq.symm
    · simp only [Calculus.eval, ih he.1, setArgs_default he.2.1 he.2.2, ite_self]
  | _ =>
    simp only [subst]; split
    · rename_i hp; rw [hp]; exact hpq.symm
    · rfl

end

theorem mkDer_default {time : String} {a : Expr} (h : a.Default time) (vs : List String) : (mkDer a vs).Default time := by
  cases a <;> exact h

theorem subst_default (time : String) {p q : Expr} (hq : q.Default time) {e : Expr} (he : e.Default time) : (subst time p q e).Default time := by
  induction e with
  | der a vs ih => rw [subst]; split; exacts [hq, mkDer_default (ih he) vs]
  | user o a args ih =>
    rw [subst]
    split
    · exact hq
    · simp only [setArgs_default he.2.1 he.2.2, ite_self]
      exact ⟨ih he.1, he.2⟩
  | add a b iha ihb => rw [subst]; split; exacts [hq, ⟨iha he.1, ihb he.2⟩]
  | mul a b iha ihb => rw [subst]; split; exacts [hq, ⟨iha he.1, ihb he.2⟩]
  | app f a ih => rw [subst]; split; exacts [hq, ih he]
  | disc s a vs ih => rw [subst]; split; exacts [hq, ih he]
  | _ => simp only [subst]; split <;> simp_all [Expr.Default]

end OpenSBLI.Parse
