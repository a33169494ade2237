import Verif.Lemmas.SimulationText
import Verif.Props.C77_Conservation

/-! # Helper lemmas: the kernels of a problem have a faithful text -/
namespace OpenSBLI.Alg

variable {K : Type}

/-- All kernels of an entry. -/
def Item.all : Item K → List K
  | .simulation s f k b sp => s ++ f ++ k ++ b ++ sp
  | .nonSimulation _ _ k => k
  | _ => []

theorem acc_kernels (items : List (Item K)) (Q : K → Prop) (hQ : ∀ i ∈ items, ∀ k ∈ i.all, Q k) (a a' : Acc K) (h : items.foldlM Acc.add a = .ok a')
    (ha : ∀ k ∈ a.bc ++ a.advance ++ a.start ++ a.finish ++ a.spatial ++ a.nonSim.flatMap (·.2.2), Q k) :
    ∀ k ∈ a'.bc ++ a'.advance ++ a'.start ++ a'.finish ++ a'.spatial ++ a'.nonSim.flatMap (·.2.2), Q k := by
  induction items generalizing a with
  | nil => simp only [List.foldlM_nil] at h; cases h; exact ha
  | cons i is ih =>
    rw [List.foldlM_cons] at h
    have his := fun x hx => hQ x (List.mem_cons_of_mem _ hx)
    have hi := hQ i (List.mem_cons_self ..)
    cases i with
    | simulation s f k b sp =>
      refine ih his _ h fun x hx => ?_
      simp only [List.mem_append, Item.all] at hx hi ha
      grind
    | nonSimulation o p k =>
      refine ih his _ h fun x hx => ?_
      simp only [List.mem_append, Item.all, List.flatMap_append, List.flatMap_cons, List.flatMap_nil, List.append_nil] at hx hi ha
      grind
    | constituent => exact ih his _ h ha
    | other => cases h

theorem mem_placedAt (eqs : List (ℤ × List Place × List K)) (p : Place) (k : K) (h : k ∈ placedAt eqs p) : k ∈ eqs.flatMap (·.2.2) := by
  simp only [placedAt, List.mem_flatMap] at h ⊢
  obtain ⟨x, hx, q, -, hk⟩ := h
  refine ⟨x, hx, ?_⟩
  split at hk
  · exact hk
  · cases hk

theorem occurs_kernel {k k' : K} (h : Occurs k (.kernel k')) : k = k' := by cases h; rfl

theorem occurs_kernels {k : K} {l : List K} {n : Node K} (hn : n ∈ l.map Node.kernel) (h : Occurs k n) : k ∈ l := by
  obtain ⟨k', hk, rfl⟩ := List.mem_map.1 hn
  exact occurs_kernel h ▸ hk

theorem occurs_io {k : K} (ios : List IO) (sel : IO → Place → List (Node K)) (hs : ∀ o p, ∀ n ∈ sel o p, ¬ Occurs k n) {n : Node K} (hn : n ∈ ioAt ios sel) : ¬ Occurs k n := by
  simp only [ioAt, List.mem_flatMap] at hn
  obtain ⟨o, -, p, -, hn⟩ := hn
  exact hs o p n hn

/-- The kernels of a generated program come from the entries. -/
theorem generated_kernels [DecidableEq K] (inp : Input K) (prg : List (Node K)) (h : generate inp = .ok prg) (Q : K → Prop) (hQ : ∀ i ∈ inp.items, ∀ k ∈ i.all, Q k) :
    ∀ k ∈ loopAlg prg, Q k := by
  intro k hk
  obtain ⟨n, hn, ho⟩ := ((C44_kernels_emitted_once prg).2 k).1 hk
  unfold generate at h
  split at h
  · cases h
  split at h
  · cases h
  rename_i a h1
  split at h
  · cases h
  rename_i p h2
  split at h
  · cases h
  have ep := addKernels_eqs _ _ _ h2
  subst ep
  have ha := acc_kernels inp.items Q hQ _ _ h1 (by simp)
  have hp : ∀ q, ∀ k ∈ placedAt (sortByOrder a.nonSim) q, Q k := by
    intro q k hk
    refine ha k (List.mem_append_right _ ?_)
    have := mem_placedAt _ _ _ hk
    rw [List.mem_flatMap] at this ⊢
    obtain ⟨x, hx, hk⟩ := this
    exact ⟨x, (C42_sorted a.nonSim).1.mem_iff.1 hx, hk⟩
  have io1 : ∀ (o : IO) (b : Bool), ¬ Occurs k (.io o b) := fun o b h => by cases h
  have mon : ∀ n ∈ monitorNodes inp.monitorFrequency, ¬ Occurs k n := by
    intro n hn hk
    unfold monitorNodes at hn
    split at hn
    · rw [List.mem_singleton] at hn
      subst hn
      cases hk with
      | cond hb hk => rw [List.mem_singleton] at hb; subst hb; cases hk
    · cases hn
  cases h
  simp only [assemble, addIO_all, List.nil_append] at hn
  simp only [List.mem_append, List.mem_singleton] at hn
  have ioB : ∀ n ∈ ioAt inp.ios selBefore, ¬ Occurs k n := fun n => occurs_io _ _ (by
    intro o p n hn
    unfold selBefore at hn
    split at hn
    · rw [List.mem_singleton] at hn; subst hn; exact io1 _ _
    · cases hn)
  have ioA : ∀ n ∈ ioAt inp.ios selAfter, ¬ Occurs k n := fun n => occurs_io _ _ (by
    intro o p n hn
    unfold selAfter at hn
    split at hn
    · rw [List.mem_singleton] at hn; subst hn; exact io1 _ _
    · cases hn)
  have ioI : ∀ n ∈ ioAt inp.ios selIn, ¬ Occurs k n := fun n => occurs_io _ _ (by
    intro o p n hn hk
    unfold selIn at hn
    split at hn
    · rw [List.mem_singleton] at hn; subst hn
      cases hk with
      | cond hb hk => rw [List.mem_singleton] at hb; subst hb; exact io1 _ _ hk
    · cases hn)
  have inA : ∀ k, k ∈ a.bc ∨ k ∈ a.advance ∨ k ∈ a.start ∨ k ∈ a.finish ∨ k ∈ a.spatial → Q k := by
    intro k hk
    refine ha k ?_
    simp only [List.mem_append]
    tauto
  rcases hn with ((hn | hn) | hn) | hn | hn
  · exact hp _ k (occurs_kernels hn ho)
  · exact absurd ho (ioB n hn)
  · subst hn
    cases ho with
    | timers hb ho =>
      rw [List.mem_singleton] at hb
      subst hb
      cases ho with
      | loop hb ho =>
        simp only [List.mem_append, List.mem_singleton] at hb
        rcases hb with ((hb | hb) | (hb | hb) | hb) | hb
        · have := occurs_kernels hb ho
          rw [List.mem_append] at this
          exact inA k (by tauto)
        · subst hb
          cases ho with
          | loop hb ho =>
            have := occurs_kernels hb ho
            simp only [List.mem_append] at this
            exact inA k (by tauto)
        · exact hp _ k (occurs_kernels hb ho)
        · exact absurd ho (mon _ hb)
        · exact absurd ho (ioI _ hb)
        · exact inA k (by have := occurs_kernels hb ho; tauto)
  · exact hp _ k (occurs_kernels hn ho)
  · exact absurd ho (ioA n hn)

end OpenSBLI.Alg

namespace OpenSBLI.Sim
open OpenSBLI.Reg OpenSBLI.CCode

variable {D n : ℕ} {T : Text D}

theorem foldl_add_printable (l : List (Ex D)) (z : Ex D) (hz : z.Printable T) (h : ∀ t ∈ l, t.Printable T) : (l.foldl Ex.add z).Printable T := by
  induction l generalizing z with
  | nil => exact hz
  | cons t l ih => exact ih _ ⟨hz, h t (by simp)⟩ fun t ht => h t (List.mem_cons_of_mem _ ht)

theorem terms_printable (e : Ex D) (h : e.Printable T) : ∀ t ∈ e.terms, t.Printable T := by
  induction e with
  | add a b iha ihb =>
    intro t ht
    exact (List.mem_append.1 ht).elim (iha h.1 t) (ihb h.2 t)
  | _ => intro t ht; rw [List.mem_singleton.1 ht]; exact h

theorem classified_printable (e : Ex D) (h : e.Printable T) : ∀ t ∈ e.classified, t.Printable T := by
  cases e with
  | add a b => exact terms_printable (.add a b) h
  | mul a b => intro t ht; rw [List.mem_singleton.1 ht]; exact h
  | _ => intro t ht; cases ht

theorem part_printable (e : Ex D) (hn : e.noFn = true) (h : e.Printable T) (p : Ex D → Bool) : (Ex.sum (e.classified.filter p)).zeroFn.Printable T := by
  rw [zeroFn_id _ (by unfold Ex.sum; exact foldl_add_noFn _ _ rfl fun t ht => classified_noFn e hn t (List.mem_filter.1 ht).1)]
  exact foldl_add_printable _ _ trivial fun t ht => classified_printable e h t (List.mem_filter.1 ht).1

theorem cds_printable (e : Ex D) (h : e.Printable T) : ∀ c ∈ e.cds, c.Printable T := by
  induction e with
  | cd d k e ih =>
    intro c hc
    rcases List.mem_append.1 hc with hc | hc
    · exact ih h.1 c hc
    · rw [List.mem_singleton.1 hc]; exact h
  | add a b iha ihb => exact fun c hc => (List.mem_append.1 hc).elim (iha h.1 c) (ihb h.2 c)
  | mul a b iha ihb => exact fun c hc => (List.mem_append.1 hc).elim (iha h.1 c) (ihb h.2.1 c)
  | pow a b iha ihb => exact fun c hc => (List.mem_append.1 hc).elim (iha h.1 c) (ihb h.2.1 c)
  | fn f e ih => exact ih h
  | _ => intro c hc; cases hc

theorem resolve_isInt (W : Ex D → Option ℕ) (e : Ex D) : (e.resolve W).isInt = e.isInt := by
  induction e with
  | cd d k e ih => simp only [Ex.resolve]; split <;> rfl
  | add a b iha ihb => simp only [Ex.resolve, Ex.isInt, iha, ihb]
  | mul a b iha ihb => simp only [Ex.resolve, Ex.isInt, iha, ihb]
  | _ => rfl

theorem resolve_recipInt (W : Ex D → Option ℕ) (e : Ex D) : (e.resolve W).recipInt = e.recipInt := by
  cases e with
  | cd d k e => simp only [Ex.resolve]; split <;> rfl
  | pow a b =>
    cases b with
    | num z => simp only [Ex.resolve, Ex.recipInt, resolve_isInt]
    | cd d k e => simp only [Ex.resolve]; split <;> rfl
    | _ => rfl
  | _ => rfl

theorem resolve_isConst (W : Ex D → Option ℕ) (e : Ex D) : (e.resolve W).isConst = e.isConst := by
  cases e with
  | cd d k e => simp only [Ex.resolve]; split <;> rfl
  | _ => rfl

theorem resolve_closed (W : Ex D → Option ℕ) (e : Ex D) (h : e.closed = true) : (e.resolve W).closed = true := by
  induction e with
  | cd d k e ih => cases h
  | add a b iha ihb => simp only [Ex.closed, Bool.and_eq_true] at h; simp only [Ex.resolve, Ex.closed, iha h.1, ihb h.2, Bool.and_self]
  | mul a b iha ihb => simp only [Ex.closed, Bool.and_eq_true] at h; simp only [Ex.resolve, Ex.closed, iha h.1, ihb h.2, Bool.and_self]
  | pow a b iha ihb => simp only [Ex.closed, Bool.and_eq_true] at h; simp only [Ex.resolve, Ex.closed, iha h.1, ihb h.2, Bool.and_self]
  | fn f e ih => exact ih h
  | _ => exact h

theorem ders_unnested (e : Ex D) (h : e.ders = []) : e.Unnested T := by
  induction e with
  | cd d k e ih => cases h
  | add a b iha ihb => exact ⟨iha (List.append_eq_nil_iff.1 h).1, ihb (List.append_eq_nil_iff.1 h).2⟩
  | mul a b iha ihb => exact ⟨iha (List.append_eq_nil_iff.1 h).1, ihb (List.append_eq_nil_iff.1 h).2⟩
  | pow a b iha ihb => exact ⟨iha (List.append_eq_nil_iff.1 h).1, ihb (List.append_eq_nil_iff.1 h).2⟩
  | fn f e ih => exact ih h
  | _ => trivial

theorem cds_ders (e : Ex D) (h : e.cds = []) : e.ders = [] := by
  induction e with
  | cd d k e ih => simp [Ex.cds] at h
  | add a b iha ihb => simp only [Ex.cds, List.append_eq_nil_iff] at h; simp [Ex.ders, iha h.1, ihb h.2]
  | mul a b iha ihb => simp only [Ex.cds, List.append_eq_nil_iff] at h; simp [Ex.ders, iha h.1, ihb h.2]
  | pow a b iha ihb => simp only [Ex.cds, List.append_eq_nil_iff] at h; simp [Ex.ders, iha h.1, ihb h.2]
  | fn f e ih => exact ih h
  | _ => rfl

/-- When all derivatives are replaced, none are left. -/
theorem resolve_none (W : Ex D → Option ℕ) (e : Ex D) (h : ∀ c ∈ e.cds, (W c).isSome) : (e.resolve W).ders = [] := by
  induction e with
  | cd d k e ih =>
    simp only [Ex.resolve]
    have := h (.cd d k e) (by simp [Ex.cds])
    split
    · rfl
    · rename_i hn; rw [hn] at this; cases this
  | add a b iha ihb =>
    simp only [Ex.resolve, Ex.ders, iha fun c hc => h c (List.mem_append_left _ hc), ihb fun c hc => h c (List.mem_append_right _ hc), List.append_nil]
  | mul a b iha ihb =>
    simp only [Ex.resolve, Ex.ders, iha fun c hc => h c (List.mem_append_left _ hc), ihb fun c hc => h c (List.mem_append_right _ hc), List.append_nil]
  | pow a b iha ihb =>
    simp only [Ex.resolve, Ex.ders, iha fun c hc => h c (List.mem_append_left _ hc), ihb fun c hc => h c (List.mem_append_right _ hc), List.append_nil]
  | fn f e ih => exact ih h
  | _ => rfl

theorem resolve_printable (W : Ex D → Option ℕ) (e : Ex D) (h : e.Printable T) : (e.resolve W).Printable T := by
  induction e with
  | cd d k e ih =>
    simp only [Ex.resolve]
    split
    · trivial
    · exact ⟨ih h.1, by rw [resolve_recipInt]; exact h.2.1, h.2.2⟩
  | add a b iha ihb => exact ⟨iha h.1, ihb h.2⟩
  | mul a b iha ihb => exact ⟨iha h.1, ihb h.2.1, by rw [resolve_isInt, resolve_recipInt]; exact h.2.2⟩
  | pow a b iha ihb => exact ⟨iha h.1, ihb h.2.1, fun hc => resolve_closed W b (h.2.2 (by rw [resolve_isConst] at hc; exact hc))⟩
  | fn f e ih => exact ih h
  | _ => exact h

variable {S : Setup D n} {t : Temporal} {inp : Alg.Input (Call D)} {prg : List (Alg.Node (Call D))} {U : Arr → Prop}

/-- An equation with a faithful text. -/
abbrev Fine (T : Text D) (U : Arr → Prop) (q : Arr × Ex D) : Prop := U q.1 ∧ (∀ a ∈ q.2.arrs, U a) ∧ q.2.Printable T ∧ q.2.Unnested T

variable (hS : T.Suits S t inp U)
include hS

theorem der_printable (hV : S.Shape) (c : Ex D) (hc : c ∈ S.flat ++ S.vcds) : c.Printable T ∧ ∀ a ∈ c.arrs, U a := by
  rcases List.mem_append.1 hc with hc | hc
  · obtain ⟨i, hi⟩ := (hV.flatMem c).1 hc
    exact ⟨cds_printable _ (part_printable _ (hV.rhsPlain i).2 (hS.rhs i).2 _) c hi,
      fun a ha => (hS.rhs i).1 a (conv_arrs _ (hV.rhsPlain i).2 a (cds_arrs _ c hi a ha))⟩
  · obtain ⟨i, hi⟩ := (hV.vcdsMem c).1 hc
    exact ⟨cds_printable _ (part_printable _ (hV.rhsPlain i).2 (hS.rhs i).2 _) c hi,
      fun a ha => (hS.rhs i).1 a (visc_arrs _ (hV.rhsPlain i).2 a (cds_arrs _ c hi a ha))⟩

theorem resolve_fine (W : Ex D → Option ℕ) (e : Ex D) (h : e.Printable T) (ha : ∀ a ∈ e.arrs, U a) : (e.resolve W).Printable T ∧ ∀ a ∈ (e.resolve W).arrs, U a := by
  refine ⟨resolve_printable W e h, fun a h' => ?_⟩
  rcases resolve_arrs W e a h' with h' | ⟨c, -, i, -, rfl⟩
  · exact ha a h'
  · exact hS.works i

theorem rel_fine (hV : ∀ s e, S.relation s = some e → e.cds = []) {r : Ranges.Kernel D} {s : String} {k : Ker D} (hs : S.relKernelOn r s = some k) : ∀ q ∈ k.eqs, Fine T U q := by
  intro q hq
  simp only [Setup.relKernelOn, Setup.relation, Option.map_map, Option.map_eq_some_iff, Function.comp] at hs
  obtain ⟨r, hr, rfl⟩ := hs
  rw [List.mem_singleton] at hq
  subst hq
  have h1 := List.mem_of_find?_eq_some hr
  have h2 : r.1 = s := by simpa using List.find?_some hr
  subst h2
  obtain ⟨u1, u2, u3⟩ := hS.rel r.1 r.2 h1
  exact ⟨u1, u2, u3, ders_unnested _ (cds_ders _ (hV r.1 r.2 (by rw [Setup.relation, hr]; rfl)))⟩

theorem visc_fine (hV : S.Shape) : ∀ k ∈ S.viscKernels, ∀ q ∈ k.eqs, Fine T U q := by
  intro k hk q hq
  have hw : ∀ c, c ∈ S.vcds → (S.viscWork c).isSome := fun c hc => by rw [Setup.viscWork, if_pos hc]; rfl
  unfold Setup.viscKernels at hk
  split at hk
  · cases hk
  rcases List.mem_append.1 hk with hk | hk
  · obtain ⟨c, hc, rfl⟩ := List.mem_map.1 hk
    have hc' : c ∈ S.flat ++ S.vcds := List.mem_append_right _ (List.mem_mergeSort.1 hc)
    simp only [Setup.viscKernel, List.mem_singleton] at hq
    subst hq
    obtain ⟨d, k, e, rfl⟩ := (der_shape hV c hc').1
    obtain ⟨h1, h2⟩ := der_printable hS hV _ hc'
    obtain ⟨h3, h4⟩ := resolve_fine hS S.viscWork e h1.1 h2
    have hn : (e.resolve S.viscWork).ders = [] := resolve_none _ _ fun c' hc'' => hw c' (by
      obtain ⟨i, hi⟩ := (hV.vcdsMem _).1 (List.mem_mergeSort.1 hc)
      exact (hV.vcdsMem c').2 ⟨i, cds_trans _ _ _ hi (List.mem_append_left _ hc'')⟩)
    refine ⟨hS.works _, h4, ?_, ders_unnested _ hn, fun _ q hq => by rw [hn] at hq; cases hq⟩
    exact ⟨h3, by rw [resolve_recipInt]; exact h1.2.1, h1.2.2⟩
  · rw [List.mem_singleton] at hk
    subst hk
    obtain ⟨i, -, rfl⟩ := List.mem_map.1 hq
    obtain ⟨h1, h2⟩ := resolve_fine hS S.viscWork (S.rhs i).viscous
      (part_printable _ (hV.rhsPlain i).2 (hS.rhs i).2 _) fun a ha => (hS.rhs i).1 a (visc_arrs _ (hV.rhsPlain i).2 a ha)
    refine ⟨(hS.arrays i).1, fun a ha => ?_, ⟨trivial, h1⟩, trivial, ders_unnested _ (resolve_none _ _ fun c hc => hw c ((hV.vcdsMem c).2 ⟨i, hc⟩))⟩
    rcases List.mem_append.1 ha with ha | ha
    · rw [List.mem_singleton.1 ha]; exact (hS.arrays i).1
    · exact h2 a ha

theorem spatial_fine (hV : S.Valid) (ks : List (Ker D)) (h : S.spatial = .ok ks) : ∀ k ∈ ks, ∀ q ∈ k.eqs, Fine T U q := by
  intro k hk q hq
  unfold Setup.spatial at h
  split at h
  · cases h
  rename_i r hr
  cases h
  rcases List.mem_append.1 hk with hk | hk
  · rcases List.mem_append.1 hk with hk | hk
    · unfold Setup.relKernels at hr
      split at hr
      · cases hr
      cases hr
      obtain ⟨s, -, hs⟩ := List.mem_filterMap.1 hk
      exact rel_fine hS (fun s e he => (hV.relPlain s e he).1) hs q hq
    · unfold Setup.convKernels at hk
      split at hk
      · cases hk
      rcases List.mem_append.1 hk with hk | hk
      · obtain ⟨g, hg, hk⟩ := List.mem_flatMap.1 hk
        have hmem : ∀ c ∈ g.2, c ∈ S.flat ++ S.vcds := fun c hc => List.mem_append_left _ (List.mem_flatMap.2 ⟨g, hg, hc⟩)
        unfold Setup.groupKernels at hk
        rcases List.mem_append.1 hk with hk | hk
        · split at hk
          · cases hk
          · rw [List.mem_singleton] at hk
            subst hk
            obtain ⟨c, hc, rfl⟩ := List.mem_map.1 hq
            have hc' := hmem c (List.mem_filter.1 hc).1
            obtain ⟨d, k, e, rfl⟩ := (der_shape hV.shape c hc').1
            obtain ⟨h1, h2⟩ := der_printable hS hV.shape _ hc'
            exact ⟨hS.works _, h2, h1.1, ders_unnested _ (cds_ders _ (hV.convFlat _ (List.mem_flatMap.2 ⟨g, hg, (List.mem_filter.1 hc).1⟩)))⟩
        · obtain ⟨c, hc, rfl⟩ := List.mem_map.1 hk
          rw [List.mem_singleton] at hq
          subst hq
          obtain ⟨d, k, e, rfl⟩ := (der_shape hV.shape c (hmem c hc)).1
          obtain ⟨h1, h2⟩ := der_printable hS hV.shape _ (hmem _ hc)
          refine ⟨hS.works _, ?_, ?_⟩
          · simp only
            split
            · intro a ha
              simp only [Ex.arrs, List.mem_singleton] at ha
              subst ha
              exact hS.works _
            · exact h2
          · simp only
            split
            · exact ⟨⟨trivial, rfl, h1.2.2⟩, trivial, fun _ q hq => by cases hq⟩
            · have hn : e.ders = [] := cds_ders e (hV.convFlat _ (List.mem_flatMap.2 ⟨g, hg, hc⟩))
              exact ⟨h1, ders_unnested e hn, fun _ q hq => by rw [hn] at hq; cases hq⟩
      · rw [List.mem_singleton] at hk
        subst hk
        obtain ⟨i, -, rfl⟩ := List.mem_map.1 hq
        obtain ⟨h1, h2⟩ := resolve_fine hS (fun c => if c ∈ S.flat then some (S.convWork c) else none) (S.rhs i).convective
          (part_printable _ (hV.rhsPlain i).2.1 (hS.rhs i).2 _) fun a ha => (hS.rhs i).1 a (conv_arrs _ (hV.rhsPlain i).2.1 a ha)
        exact ⟨(hS.arrays i).1, h2, h1, ders_unnested _ (resolve_none _ _ fun c hc => by rw [if_pos ((hV.listed.flatMem c).2 ⟨i, hc⟩)]; rfl)⟩
  · exact visc_fine hS hV.shape k hk q hq

theorem time_fine : ∀ k ∈ S.startKernels t ++ S.advanceKernels t, ∀ q ∈ k.eqs, Fine T U q := by
  intro k hk q hq
  have hd : (Ex.const "dt" : Ex D).Printable T := hS.step
  cases t with
  | rk =>
    have h1 : (Ex.indexed "rknew" : Ex D).Printable T := hS.tables _ (by simp [coefficients])
    have h2 : (Ex.indexed "rkold" : Ex D).Printable T := hS.tables _ (by simp [coefficients])
    simp only [Setup.startKernels, Setup.advanceKernels, List.cons_append, List.nil_append, List.mem_cons, List.not_mem_nil, or_false] at hk
    rcases hk with rfl | rfl | rfl <;> obtain ⟨i, -, rfl⟩ := List.mem_map.1 hq <;> obtain ⟨a1, a2, a3⟩ := hS.arrays i
    · refine ⟨a2, fun a ha => ?_, trivial, trivial⟩
      rw [List.mem_singleton.1 ha]; exact a3
    · refine ⟨a3, fun a ha => ?_, ⟨trivial, ⟨hd, h1, by simp [Ex.isInt]⟩, trivial, by simp [Ex.isInt]⟩, ders_unnested _ rfl⟩
      simp only [Ex.arrs, List.nil_append, List.cons_append, List.mem_cons, List.not_mem_nil, or_false] at ha
      rcases ha with rfl | rfl
      · exact a2
      · exact a1
    · refine ⟨a2, fun a ha => ?_, ⟨trivial, ⟨hd, h2, by simp [Ex.isInt]⟩, trivial, by simp [Ex.isInt]⟩, ders_unnested _ rfl⟩
      simp only [Ex.arrs, List.nil_append, List.cons_append, List.mem_cons, List.not_mem_nil, or_false] at ha
      rcases ha with rfl | rfl
      · exact a2
      · exact a1
  | lowStorage =>
    have h1 : (Ex.indexed "rkA" : Ex D).Printable T := hS.tables _ (by simp [coefficients])
    have h2 : (Ex.indexed "rkB" : Ex D).Printable T := hS.tables _ (by simp [coefficients])
    simp only [Setup.startKernels, Setup.advanceKernels, List.nil_append, List.mem_singleton] at hk
    subst hk
    obtain ⟨i, -, hq⟩ := List.mem_flatMap.1 hq
    obtain ⟨a1, a2, a3⟩ := hS.arrays i
    simp only [List.mem_cons, List.not_mem_nil, or_false] at hq
    rcases hq with rfl | rfl
    · refine ⟨a2, fun a ha => ?_, ⟨⟨h1, trivial, by simp [Ex.isInt]⟩, hd, trivial, by simp [Ex.isInt]⟩, ders_unnested _ rfl⟩
      simp only [Ex.arrs, List.nil_append, List.cons_append, List.mem_cons, List.not_mem_nil, or_false] at ha
      rcases ha with rfl | rfl
      · exact a2
      · exact a1
    · refine ⟨a3, fun a ha => ?_, ⟨trivial, h2, trivial, by simp [Ex.isInt]⟩, ders_unnested _ rfl⟩
      simp only [Ex.arrs, List.nil_append, List.cons_append, List.mem_cons, List.not_mem_nil, or_false] at ha
      rcases ha with rfl | rfl
      · exact a3
      · exact a2

/-- A problem that suits gives a program that fits. -/
theorem fits {I : Interp D} {pts : Ranges.Kernel D → List (P D)} (hP : Program S t I pts inp prg) :
    T.Fits prg U S.sol ∧ ∀ k, .fn k ∈ written prg → ∀ eqs, T.fns k = some eqs → T.Says U k eqs := by
  classical
  have hV := hP.valid
  obtain ⟨pre, post, ks, hks, hit, hpre, hpost⟩ := hP.items
  have key : ∀ c ∈ Alg.loopAlg prg, (∀ k, c = .comp k → ∀ q ∈ k.eqs, Fine T U q) ∧
      ∀ k, c = .fn k → (T.fns k = none ∧ ∀ q ∈ k.eqs, U q.1 ∧ ∀ I I' (m m' : Mem D) x, (∀ a, U a → m a = m' a) → q.2 I m x = q.2 I' m' x) ∨
        ∃ eqs, T.fns k = some eqs ∧ T.Proper eqs ∧ T.Says U k eqs := by
    refine Alg.generated_kernels inp prg hP.generated _ fun i hi c hc => ?_
    cases i with
    | simulation s f k b sp =>
      have hs : Alg.Item.simulation s f k b sp = S.item t ks := by
        rw [hit] at hi
        rcases List.mem_append.1 hi with hi | hi
        · exact absurd (hpre _ hi) (by simp [Alg.Item.isSimulation])
        · rcases List.mem_cons.1 hi with hi | hi
          · exact hi
          · exact absurd (hpost _ hi) (by simp [Alg.Item.isSimulation])
      unfold Setup.item at hs
      cases hs
      have hk : ∀ k, c = .comp k → k ∈ S.startKernels t ++ S.advanceKernels t ∨ k ∈ ks := by
        rintro k rfl
        simpa [Alg.Item.all, or_assoc] using hc
      refine ⟨fun k hk' q hq => ?_, fun k hk' => ?_⟩
      · rcases hk k hk' with hk | hk
        · exact time_fine hS k hk q hq
        · exact spatial_fine hS hV ks hks k hk q hq
      · subst hk'
        simp [Alg.Item.all] at hc
    | nonSimulation o p l =>
      obtain ⟨h1, h2⟩ := hS.others o p l hi
      exact ⟨fun k hk => h1 k (hk ▸ hc), fun k hk => h2 k (hk ▸ hc)⟩
    | _ => cases hc
  refine ⟨⟨hS.lib, hS.powers, hS.registered, hS.injective, fun i => (hS.arrays i).2.2, fun k hk => (key _ hk).1 k rfl, fun k eqs hk he => ?_, fun k hk hn => ?_, hS.bcs⟩, fun k hk eqs he => ?_⟩
  · rcases (key _ hk).2 k rfl with h | ⟨eqs', h1, h2, h3⟩
    · rw [h.1] at he; cases he
    · rw [h1] at he; cases he; exact h2
  · rcases (key _ hk).2 k rfl with h | ⟨eqs', h1, h2, h3⟩
    · exact h.2
    · rw [h1] at hn; cases hn
  · rcases (key _ hk).2 k rfl with h | ⟨eqs', h1, h2, h3⟩
    · rw [h.1] at he; cases he
    · rw [h1] at he; cases he; exact h3

end OpenSBLI.Sim
