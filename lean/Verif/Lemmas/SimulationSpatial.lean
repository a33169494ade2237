import Verif.Lemmas.Simulation
import Verif.Spec.Simulation
import Verif.Props.C01_C02_SortDict

/-!
# The spatial kernels of the simulation program
-/
namespace OpenSBLI.Sim
set_option linter.unusedSectionVars false

variable {D n : ℕ}

/-- Only datasets are read. -/
def Ex.plain (e : Ex D) : Prop := ∀ a ∈ e.arrs, ∃ s, a = .data s

/-- No coefficient of the stage is read. -/
def Ex.steady : Ex D → Bool
  | .indexed _ => false
  | .add a b | .mul a b | .pow a b => a.steady && b.steady
  | .cd _ _ e | .fn _ e => e.steady
  | _ => true

/-- What the program is proved for. -/
structure Setup.Valid (S : Setup D n) : Prop where
  listed : S.Listed
  /-- different equations advance different arrays, and no relation gives one of them -/
  solInj : Function.Injective S.sol
  relSol : ∀ i, S.relation (S.sol i) = none
  /-- no dataset has two relations -/
  relNodup : (S.rel.map Prod.fst).Nodup
  /-- relations are without derivatives -/
  relPlain : ∀ s e, S.relation s = some e → e.cds = [] ∧ e.plain ∧ e.steady = true
  /-- right hand sides are sums or products, without functions -/
  rhsPlain : ∀ i, (S.rhs i).plain ∧ (S.rhs i).noFn = true ∧ (S.rhs i).isSum = true
  rhsSteady : ∀ i, (S.rhs i).steady = true
  /-- there are convective derivatives, with no derivatives inside -/
  groups : S.groups ≠ []
  convFlat : ∀ c ∈ S.flat, c.arg.cds = []
  /-- viscous derivatives contain at most one other derivative, of another direction -/
  visc : ∀ c ∈ S.vcds, c.arg.cds = [] ∨ ∃ c', c.arg.cds = [c'] ∧ c'.dir ≠ c.dir
  /-- viscous terms without any derivative would be lost -/
  viscDer : S.vcds ≠ [] ∨ ∀ i, ∀ t ∈ (S.rhs i).classified, t.hasRe = false
  /-- the block knows no array given by a relation -/
  known : ∀ s ∈ S.known, S.relation s = none
  /-- a relation is differentiated only in directions in which the relations it uses are differentiated -/
  halos : ∀ s ∈ S.keys, ∀ e, S.relation s = some e → ∀ t ∈ e.datas, (S.relation t).isSome → ∀ d ∈ S.crDirs s, d ∈ S.crDirs t

/-- What the evaluation of derivatives needs: the lists of derivatives are complete, right hand sides are as in `Setup.Valid`. -/
structure Setup.Shape (S : Setup D n) : Prop where
  flatMem : ∀ c, c ∈ S.flat ↔ ∃ i, c ∈ (S.rhs i).convective.cds
  vcdsNodup : S.vcds.Nodup
  vcdsMem : ∀ c, c ∈ S.vcds ↔ ∃ i, c ∈ (S.rhs i).viscous.cds
  rhsPlain : ∀ i, (S.rhs i).plain ∧ (S.rhs i).noFn = true
  visc : ∀ c ∈ S.vcds, c.arg.cds = [] ∨ ∃ c', c.arg.cds = [c'] ∧ c'.dir ≠ c.dir

theorem Setup.Valid.shape {S : Setup D n} (h : S.Valid) : S.Shape := ⟨h.listed.flatMem, h.listed.vcdsNodup, h.listed.vcdsMem, fun i => ⟨(h.rhsPlain i).1, (h.rhsPlain i).2.1⟩, h.visc⟩

/-- What the evaluation of the relations needs, for the datasets `req`. -/
structure Setup.Relations (S : Setup D n) (req : String → Prop) : Prop where
  solInj : Function.Injective S.sol
  relSol : ∀ i, S.relation (S.sol i) = none
  relNodup : (S.rel.map Prod.fst).Nodup
  relPlain : ∀ s e, S.relation s = some e → e.cds = [] ∧ e.plain ∧ e.steady = true
  known : ∀ s ∈ S.known, S.relation s = none
  keysNodup : S.keys.Nodup
  keysMem : ∀ s, s ∈ S.keys ↔ req s

theorem Setup.Valid.relations {S : Setup D n} (h : S.Valid) : S.Relations S.required :=
  ⟨h.solInj, h.relSol, h.relNodup, h.relPlain, h.known, h.listed.keysNodup, h.listed.keysMem⟩

theorem relation_iff {S : Setup D n} (h : (S.rel.map Prod.fst).Nodup) (s : String) (e : Ex D) : S.relation s = some e ↔ (s, e) ∈ S.rel := by
  unfold Setup.relation
  generalize S.rel = l at h
  induction l with
  | nil => simp
  | cons r l ih =>
    rw [List.map_cons, List.nodup_cons] at h
    rw [List.find?_cons]
    by_cases hr : r.1 = s
    · simp only [hr, decide_true, Option.map_some, Option.some.injEq, List.mem_cons]
      constructor
      · intro he; left; rw [← hr, ← he]
      · rintro (he | he)
        · rw [← he]
        · exact absurd (List.mem_map_of_mem (f := Prod.fst) he) (hr ▸ h.1)
    · simp only [hr, decide_false, List.mem_cons]
      rw [ih h.2]
      constructor
      · exact .inr
      · rintro (he | he)
        · exact absurd (by rw [← he]) hr
        · exact he

theorem relation_none {S : Setup D n} (h : (S.rel.map Prod.fst).Nodup) {s : String} (hs : S.relation s = none) (e : Ex D) : (s, e) ∉ S.rel := fun he => by
  rw [(relation_iff h s e).2 he] at hs
  cases hs

/-- Kernels one after another. -/
def runKers (I : Interp D) (pts : Ranges.Kernel D → List (P D)) (ks : List (Ker D)) (m : Mem D) : Mem D := ks.foldl (fun m k => runKer I pts k m) m

theorem runKers_append (I : Interp D) (pts : Ranges.Kernel D → List (P D)) (a b : List (Ker D)) (m : Mem D) :
    runKers I pts (a ++ b) m = runKers I pts b (runKers I pts a m) := List.foldl_append ..

/-- Values at two points, in two memories. -/
theorem eval_two {I : Interp D} {m m' : Mem D} {y z : P D} (e : Ex D) (hc : e.cds = []) (h : ∀ a ∈ e.arrs, m a y = m' a z) : e.eval I m y = e.eval I m' z := by
  induction e with
  | num _ => rfl
  | const _ => rfl
  | indexed _ => rfl
  | arr a => exact h a (by simp [Ex.arrs])
  | cd d k e _ => simp [Ex.cds] at hc
  | add a b iha ihb | mul a b iha ihb | pow a b iha ihb =>
    simp only [Ex.cds, List.append_eq_nil_iff] at hc
    simp only [Ex.arrs, List.mem_append] at h
    simp only [Ex.eval]
    rw [iha hc.1 fun a ha => h a (.inl ha), ihb hc.2 fun a ha => h a (.inr ha)]
  | fn g e ih => simp only [Ex.eval]; rw [ih hc h]

theorem mem_datas (e : Ex D) (s : String) : s ∈ e.datas ↔ .data s ∈ e.arrs := by
  unfold Ex.datas
  rw [List.mem_filterMap]
  constructor
  · rintro ⟨a, ha, h⟩
    cases a <;> simp at h
    subst h; exact ha
  · exact fun h => ⟨_, h, rfl⟩

theorem mem_crDirs (S : Setup D n) (s : String) (d : Fin D) : d ∈ S.crDirs s ↔ ∃ c ∈ S.flat ++ S.vcds, s ∈ c.datas ∧ c.dir = some d := by
  unfold Setup.crDirs
  simp only [List.mem_filterMap, List.mem_filter, decide_eq_true_eq]
  constructor
  · rintro ⟨c, ⟨h1, h2⟩, h3⟩; exact ⟨c, h1, h2, h3⟩
  · rintro ⟨c, h1, h2, h3⟩; exact ⟨c, ⟨h1, h2⟩, h3⟩

theorem Setup.h_nonneg (S : Setup D n) : 0 ≤ S.h := by unfold Setup.h; omega

section Relations
variable {S : Setup D n} {req : String → Prop} (hR : S.Relations req) {I : Interp D} {pts : Ranges.Kernel D → List (P D)} (hp : Enumerates pts) {full : String → P D → ℝ}
  (hrel : ∀ s ∈ S.keys, ∀ e, S.relation s = some e → ∀ x, full s x = e.eval I (memOf full) x)

/-! ## Relations -/

include hR hp hrel in
theorem rel_phase (range : String → Ranges.Kernel D)
    (halos : ∀ s ∈ S.keys, ∀ e, S.relation s = some e → ∀ t ∈ e.datas, (S.relation t).isSome → ∀ x, (range s).visits x → (range t).visits x)
    (known : List String) (hk : ∀ s ∈ known, S.relation s = none) (order : List String)
    (hord : ∀ s ∈ order, s ∈ S.keys ∧ (S.relation s).isSome) (hdep : Spec.RespectsDeps known (S.keys.filterMap fun s => (S.relation s).map fun e => (s, e.datas)) order)
    (m : Mem D) (hm : ∀ s, S.relation s = none → ∀ x, m (.data s) x = full s x) :
    (∀ s ∈ order, ∀ x, (range s).visits x → runKers I pts (order.filterMap fun s => S.relKernelOn (range s) s) m (.data s) x = full s x) ∧
    ∀ a, (∀ s, (S.relation s).isSome → a ≠ .data s) → runKers I pts (order.filterMap fun s => S.relKernelOn (range s) s) m a = m a := by
  induction order using List.reverseRecOn with
  | nil => exact ⟨fun s hs => by simp at hs, fun a _ => rfl⟩
  | append_singleton pre s ih =>
    have ih := ih (fun t ht => hord t (List.mem_append_left _ ht)) fun p x q he => hdep p x (q ++ [s]) (by rw [he]; simp)
    obtain ⟨hkey, hsome⟩ := hord s (by simp)
    obtain ⟨e, he⟩ := Option.isSome_iff_exists.1 hsome
    obtain ⟨hec, hepl, _⟩ := hR.relPlain s e he
    rw [List.filterMap_append, runKers_append]
    set m' := runKers I pts (pre.filterMap fun s => S.relKernelOn (range s) s) m with hm'
    have hker : runKers I pts ([s].filterMap fun s => S.relKernelOn (range s) s) m' = runKer I pts ⟨range s, [(.data s, e)]⟩ m' := by
      simp [Setup.relKernelOn, he, runKers]
    rw [hker]
    obtain ⟨k1, k2, k3⟩ := runKer_simul I hp ⟨range s, [(.data s, e)]⟩ (by simp) (by simp) (by simpa using hec) m'
    -- the inputs of the relation are right on its range
    have hin : ∀ x, (range s).visits x → ∀ a ∈ e.arrs, m' a x = memOf full a x := by
      intro x hx a ha
      obtain ⟨t, rfl⟩ := hepl a ha
      have ht : t ∈ e.datas := (mem_datas e t).2 ha
      cases hrt : S.relation t with
      | none =>
        have := congrFun (ih.2 (.data t) fun s hs h => by cases h; rw [hrt] at hs; cases hs) x
        rw [this]
        exact hm t hrt x
      | some e' =>
        have hmem := hdep pre s [] (by simp) e.datas (by
          rw [List.mem_filterMap]; exact ⟨s, hkey, by rw [he]; rfl⟩) t ht
        rcases hmem with h | h
        · rw [hk t h] at hrt; cases hrt
        · exact ih.1 t h x (halos s hkey e he t ht (by rw [hrt]; rfl) x hx)
    refine ⟨fun t ht x hx => ?_, fun a ha => ?_⟩
    · by_cases hts : t = s
      · subst hts
        rw [k1 (.data t, e) (by simp) x hx, eval_at e hec (hin x hx), hrel t hkey e he]
      · have hpre : t ∈ pre := by simpa [hts] using ht
        rw [k3 (.data t) (by simp [hts])]
        exact ih.1 t hpre x hx
    · rw [k3 a (by simpa using ha s hsome)]
      exact ih.2 a ha

include hR in
/-- The order of the relations. -/
theorem rel_order (order : List String) (hord : S.relOrder = .ok order) : ∃ known, (∀ s ∈ known, S.relation s = none) ∧
    order.Nodup ∧ (∀ s, s ∈ order ↔ s ∈ S.keys ∧ (S.relation s).isSome) ∧ Spec.RespectsDeps known (S.keys.filterMap fun s => (S.relation s).map fun e => (s, e.datas)) order := by
  have hnd : ((S.keys.filterMap fun s => (S.relation s).map fun e => (s, e.datas)).map Prod.fst).Nodup := by
    have : (S.keys.filterMap fun s => (S.relation s).map fun e => (s, e.datas)).map Prod.fst = S.keys.filter fun s => (S.relation s).isSome := by
      generalize S.keys = l
      induction l with
      | nil => rfl
      | cons a l ih =>
        cases hr : S.relation a with
        | none => simp [hr, ih]
        | some e => simp [hr, ih]
    rw [this]
    exact hR.keysNodup.filter _
  obtain ⟨hperm, hdep⟩ := SortDict.C01_order_respects_dependencies _ _ hnd _ hord
  have hk : ∀ s ∈ ((S.keys.filter fun s => (S.relation s).isNone) ++ S.known).dedup, S.relation s = none := by
    intro s hs
    rw [List.mem_dedup, List.mem_append, List.mem_filter] at hs
    rcases hs with ⟨_, h⟩ | h
    · simpa using h
    · exact hR.known s h
  have hmem : ∀ s, s ∈ order ↔ s ∈ S.keys ∧ (S.relation s).isSome := by
    intro s
    rw [hperm.mem_iff, List.mem_filter, List.mem_map]
    constructor
    · rintro ⟨⟨p, hp, rfl⟩, _⟩
      obtain ⟨t, ht, h⟩ := List.mem_filterMap.1 hp
      obtain ⟨e, he, h⟩ := Option.map_eq_some_iff.1 h
      subst h
      exact ⟨ht, by rw [he]; rfl⟩
    · rintro ⟨h1, h2⟩
      obtain ⟨e, he⟩ := Option.isSome_iff_exists.1 h2
      refine ⟨⟨(s, e.datas), List.mem_filterMap.2 ⟨s, h1, by rw [he]; rfl⟩, rfl⟩, ?_⟩
      rw [decide_eq_true_eq]
      intro h
      rw [hk s h] at he; cases he
  exact ⟨_, hk, hperm.nodup_iff.2 (hnd.filter _), hmem, hdep⟩

include hR hp hrel in
/-- After the kernels of the relations. -/
theorem rel_right (range : String → Ranges.Kernel D)
    (halos : ∀ s ∈ S.keys, ∀ e, S.relation s = some e → ∀ t ∈ e.datas, (S.relation t).isSome → ∀ x, (range s).visits x → (range t).visits x)
    (order : List String) (hord : S.relOrder = .ok order) (m : Mem D) (hm : ∀ s, S.relation s = none → ∀ x, m (.data s) x = full s x) :
    (∀ s, req s → ∀ x, (range s).visits x → runKers I pts (order.filterMap fun s => S.relKernelOn (range s) s) m (.data s) x = full s x) ∧
    ∀ a, (∀ s, (S.relation s).isSome → a ≠ .data s) → runKers I pts (order.filterMap fun s => S.relKernelOn (range s) s) m a = m a := by
  obtain ⟨known, hk, _, hmem, hdep⟩ := rel_order hR order hord
  have := rel_phase hR hp hrel range halos _ hk order (fun s hs => (hmem s).1 hs) hdep m hm
  refine ⟨fun s hs x hx => ?_, this.2⟩
  replace hs := (hR.keysMem s).2 hs
  cases hrs : S.relation s with
  | some e => exact this.1 s ((hmem s).2 ⟨hs, by rw [hrs]; rfl⟩) x hx
  | none =>
    rw [this.2 (.data s) fun t ht h => by cases h; rw [hrs] at ht; cases ht]
    exact hm s hrs x

end Relations

theorem relKernels_order {S : Setup D n} {r : List (Ker D)} (h : S.relKernels = .ok r) :
    ∃ order, S.relOrder = .ok order ∧ r = order.filterMap fun s => S.relKernelOn (rangeOf S.np S.h (S.crDirs s)) s := by
  unfold Setup.relKernels at h
  split at h
  · cases h
  · rename_i order hord
    injection h with h
    exact ⟨order, hord, h.symm⟩

theorem spatial_order {S : Setup D n} {ks : List (Ker D)} (h : S.spatial = .ok ks) : ∃ order, S.relOrder = .ok order := by
  unfold Setup.spatial at h
  cases hr : S.relKernels with
  | error e => rw [hr] at h; cases h
  | ok r => exact ⟨_, (relKernels_order hr).choose_spec.1⟩

/-- All data needed are right where they are needed. -/
def RightData (S : Setup D n) (full : String → P D → ℝ) (m : Mem D) : Prop := ∀ s, S.required s → ∀ x, Box S.np S.h (S.crDirs s) x → m (.data s) x = full s x

section Phase
variable {S : Setup D n} (hS : S.Valid) {I : Interp D} {pts : Ranges.Kernel D → List (P D)} (hp : Enumerates pts) (hl : Local I S.np S.h) {full : String → P D → ℝ}
  (hrel : ∀ s ∈ S.keys, ∀ e, S.relation s = some e → ∀ x, full s x = e.eval I (memOf full) x)

/-! ## Reading data -/

theorem foldl_add_arrs (l : List (Ex D)) (z : Ex D) : ∀ a ∈ (l.foldl Ex.add z).arrs, a ∈ z.arrs ∨ ∃ t ∈ l, a ∈ t.arrs := by
  induction l generalizing z with
  | nil => exact fun a ha => .inl ha
  | cons t l ih =>
    intro a ha
    rcases ih _ a ha with h | ⟨t', h1, h2⟩
    · rcases List.mem_append.1 h with h | h
      · exact .inl h
      · exact .inr ⟨t, List.mem_cons_self .., h⟩
    · exact .inr ⟨t', List.mem_cons_of_mem _ h1, h2⟩

theorem terms_arrs (e : Ex D) : ∀ t ∈ e.terms, ∀ a ∈ t.arrs, a ∈ e.arrs := by
  induction e with
  | add a b iha ihb =>
    intro t ht r hr
    rcases List.mem_append.1 ht with ht | ht
    · exact List.mem_append_left _ (iha t ht r hr)
    · exact List.mem_append_right _ (ihb t ht r hr)
  | _ => intro t ht; simp only [Ex.terms, List.mem_singleton] at ht; subst ht; exact fun a ha => ha

theorem classified_arrs (e : Ex D) : ∀ t ∈ e.classified, ∀ a ∈ t.arrs, a ∈ e.arrs := by
  cases e with
  | add a b => exact terms_arrs (.add a b)
  | mul a b => intro t ht; simp only [Ex.classified, List.mem_singleton] at ht; subst ht; exact fun a ha => ha
  | _ => intro t ht; simp [Ex.classified] at ht

theorem part_arrs (e : Ex D) (hn : e.noFn = true) (p : Ex D → Bool) : ∀ a ∈ (Ex.sum (e.classified.filter p)).zeroFn.arrs, a ∈ e.arrs := by
  intro a ha
  rw [zeroFn_id _ (by unfold Ex.sum; exact foldl_add_noFn _ _ rfl fun t ht => classified_noFn e hn t (List.mem_filter.1 ht).1)] at ha
  unfold Ex.sum at ha
  rcases foldl_add_arrs _ _ a ha with h | ⟨t, h1, h2⟩
  · simp [Ex.arrs] at h
  · exact classified_arrs e t (List.mem_filter.1 h1).1 a h2

theorem conv_arrs (e : Ex D) (hn : e.noFn = true) : ∀ a ∈ e.convective.arrs, a ∈ e.arrs := part_arrs e hn _

theorem visc_arrs (e : Ex D) (hn : e.noFn = true) : ∀ a ∈ e.viscous.arrs, a ∈ e.arrs := part_arrs e hn _

theorem cds_size (t : Ex D) : ∀ r ∈ t.cds, sizeOf r ≤ sizeOf t := by
  induction t with
  | cd d k t ih =>
    intro r hr
    rcases List.mem_append.1 hr with hr | hr
    · have := ih r hr; simp only [Ex.cd.sizeOf_spec]; omega
    · rw [List.mem_singleton] at hr; rw [hr]
  | add a b iha ihb | mul a b iha ihb | pow a b iha ihb =>
    intro r hr
    simp only [Ex.add.sizeOf_spec, Ex.mul.sizeOf_spec, Ex.pow.sizeOf_spec]
    rcases List.mem_append.1 hr with hr | hr
    · have := iha r hr; omega
    · have := ihb r hr; omega
  | fn f t ih => intro r hr; have := ih r hr; simp only [Ex.fn.sizeOf_spec]; omega
  | _ => intro r hr; simp [Ex.cds] at hr

/-- No derivative is inside itself. -/
theorem not_in_arg {d : Fin D} {k : ℕ} {e c : Ex D} (h : c ∈ e.cds) : c ≠ .cd d k e := by
  intro hc
  have := cds_size e c h
  rw [hc] at this
  simp only [Ex.cd.sizeOf_spec] at this
  omega

theorem cds_length (t : Ex D) : ∀ u ∈ t.cds, u.cds.length ≤ t.cds.length := by
  induction t with
  | cd d k t ih =>
    intro u hu
    rcases List.mem_append.1 hu with hu | hu
    · have := ih u hu; simp only [Ex.cds, List.length_append]; omega
    · rw [List.mem_singleton] at hu; rw [hu]
  | add a b iha ihb | mul a b iha ihb | pow a b iha ihb =>
    intro u hu
    simp only [Ex.cds, List.length_append]
    rcases List.mem_append.1 hu with hu | hu
    · have := iha u hu; omega
    · have := ihb u hu; omega
  | fn f t ih => intro u hu; exact ih u hu
  | _ => intro u hu; simp [Ex.cds] at hu

theorem resolve_id (W : Ex D → Option ℕ) (t : Ex D) (h : t.cds = []) : t.resolve W = t := by
  induction t <;> simp_all [Ex.cds, Ex.resolve]

variable (hT : S.Shape)

include hT in
theorem conv_plain (i : Fin n) : (S.rhs i).convective.plain := fun a ha => (hT.rhsPlain i).1 a (conv_arrs _ (hT.rhsPlain i).2 a ha)

include hT in
theorem visc_plain (i : Fin n) : (S.rhs i).viscous.plain := fun a ha => (hT.rhsPlain i).1 a (visc_arrs _ (hT.rhsPlain i).2 a ha)

include hT in
/-- A derivative has a direction and reads only datasets. -/
theorem der_shape (c : Ex D) (hc : c ∈ S.flat ++ S.vcds) : (∃ d k e, c = .cd d k e) ∧ c.plain := by
  rcases List.mem_append.1 hc with h | h
  · obtain ⟨i, hi⟩ := (hT.flatMem c).1 h
    exact ⟨mem_cds_cd _ c hi, fun a ha => conv_plain hT i a (cds_arrs _ c hi a ha)⟩
  · obtain ⟨i, hi⟩ := (hT.vcdsMem c).1 h
    exact ⟨mem_cds_cd _ c hi, fun a ha => visc_plain hT i a (cds_arrs _ c hi a ha)⟩

include hT in
/-- The data of a derivative are right wherever only directions occur in which they are differentiated. -/
theorem data_right {m : Mem D} (hm : RightData S full m) (c : Ex D) (hc : c ∈ S.flat ++ S.vcds) (dirs : List (Fin D))
    (hd : ∀ d ∈ dirs, ∃ o ∈ S.flat ++ S.vcds, o.dir = some d ∧ ∀ a ∈ c.arrs, a ∈ o.arrs) {x : P D} (hx : Box S.np S.h dirs x) :
    ∀ a ∈ c.arrs, m a x = memOf full a x := by
  intro a ha
  obtain ⟨s, rfl⟩ := (der_shape hT c hc).2 a ha
  refine hm s (.inl ⟨c, hc, (mem_datas c s).2 ha⟩) x (hx.mono S.h_nonneg fun d hd' => ?_)
  obtain ⟨o, ho, hod, hoa⟩ := hd d hd'
  exact (mem_crDirs S s d).2 ⟨o, ho, (mem_datas o s).2 (hoa _ ha), hod⟩

include hT in
/-- Data in a part of the right hand side are right on the grid. -/
theorem data_right_grid {m : Mem D} (hm : RightData S full m) (e : Ex D) (he : e.plain) (hreq : ∀ s ∈ e.datas, S.required s) {x : P D} (hx : Box S.np S.h [] x) :
    ∀ a ∈ e.arrs, m a x = memOf full a x := by
  intro a ha
  obtain ⟨s, rfl⟩ := he a ha
  exact hm s (hreq s ((mem_datas e s).2 ha)) x (hx.mono S.h_nonneg fun d hd => by simp at hd)

/-! ## Convective terms -/

theorem idxOf_inj_of_mem {α : Type} [DecidableEq α] {l : List α} {a b : α} (ha : a ∈ l) (h : l.idxOf a = l.idxOf b) : a = b := (List.idxOf_inj ha).1 h

/-- What a step of the convective part leaves alone: everything except work arrays. -/
def SameData (m m' : Mem D) : Prop := ∀ a, (∀ i, a ≠ .work i) → m' a = m a

theorem SameData.trans {a b c : Mem D} (h : SameData a b) (h' : SameData b c) : SameData a c := fun x hx => (h' x hx).trans (h x hx)

theorem SameData.right {m m' : Mem D} (h : SameData m m') (hm : RightData S full m) : RightData S full m' := by
  intro s hs x hx
  rw [h (.data s) (by simp)]
  exact hm s hs x hx

/-- A kernel for the derivative `c` in work array `w`. -/
def derKernel (S : Setup D n) (g : List (Ex D)) (c : Ex D) : Ker D :=
  ⟨rangeOf S.np S.h [], [(.work (S.convWork c), match c with
    | .cd d k e => .cd d k (if c.several then .arr (.work (S.localWork g c)) else e)
    | e => e)]⟩

include hS hp hl in
theorem derKernels_phase (d : Fin D) (g : List (Ex D)) (hg : (d, g) ∈ S.groups) (l : List (Ex D)) (hlg : ∀ c ∈ l, c ∈ g) (hnd : l.Nodup) (m : Mem D) (hm : RightData S full m)
    (hloc : ∀ c ∈ g, c.several = true → ∀ x, Box S.np S.h [d] x → m (.work (S.localWork g c)) x = c.arg.eval I (memOf full) x) :
    SameData m (runKers I pts (l.map (derKernel S g)) m) ∧
    (∀ c ∈ l, ∀ x, Box S.np S.h [] x → runKers I pts (l.map (derKernel S g)) m (.work (S.convWork c)) x = c.eval I (memOf full) x) ∧
    ∀ j, (∀ c ∈ l, j ≠ S.convWork c) → runKers I pts (l.map (derKernel S g)) m (.work j) = m (.work j) := by
  induction l generalizing m with
  | nil => exact ⟨fun _ _ => rfl, fun c hc => by simp at hc, fun _ _ => rfl⟩
  | cons c l ih =>
    rw [List.nodup_cons] at hnd
    have hcg := hlg c (List.mem_cons_self ..)
    have hflat : ∀ c ∈ g, c ∈ S.flat := fun c hc => List.mem_flatMap.2 ⟨_, hg, hc⟩
    have hcf := hflat c hcg
    have hcm : c ∈ S.flat ++ S.vcds := List.mem_append_left _ hcf
    obtain ⟨⟨d', k, e, hce⟩, hpl⟩ := der_shape hS.shape c hcm
    have hd' : d' = d := by
      have := hS.listed.groupDir _ hg c hcg
      rw [hce] at this; simpa [Ex.dir] using this
    subst hd'
    have hec : e.cds = [] := by have := hS.convFlat c hcf; rw [hce] at this; exact this
    have hlt : S.convWork c < S.w0 + S.flat.length := by unfold Setup.convWork; have := List.idxOf_lt_length_iff.2 hcf; omega
    have hker : derKernel S g c = ⟨rangeOf S.np S.h [], [(.work (S.convWork c), .cd d' k (if c.several then .arr (.work (S.localWork g c)) else e))]⟩ := by
      unfold derKernel; rw [hce]
    have hread : (.work (S.convWork c) : Arr) ∉ (Ex.cd d' k (if c.several then .arr (.work (S.localWork g c)) else e) : Ex D).arrs := by
      simp only [Ex.arrs]
      split
      · simp only [Ex.arrs, List.mem_singleton, Arr.work.injEq]
        unfold Setup.localWork; omega
      · intro h
        obtain ⟨s, hs⟩ := hpl (.work (S.convWork c)) ((congrArg (fun t : Ex D => (.work (S.convWork c) : Arr) ∈ t.arrs) hce).mpr h)
        cases hs
    obtain ⟨k1, _, k3⟩ := runKer_single I hp (rangeOf S.np S.h []) (.work (S.convWork c)) _ hread m
    rw [← hker] at k1 k3
    set m1 := runKer I pts (derKernel S g c) m with hm1
    have hsame : SameData m m1 := fun a ha => k3 a (ha _)
    have ih := ih (fun c hc => hlg c (List.mem_cons_of_mem _ hc)) hnd.2 m1 (hsame.right hm) (fun c' hc' hs x hx => by
      have hne : (Arr.work (S.localWork g c')) ≠ .work (S.convWork c) := by
        simp only [ne_eq, Arr.work.injEq]; unfold Setup.localWork; omega
      rw [k3 _ hne]
      exact hloc c' hc' hs x hx)
    have hrun : runKers I pts ((c :: l).map (derKernel S g)) m = runKers I pts (l.map (derKernel S g)) m1 := rfl
    rw [hrun]
    refine ⟨hsame.trans ih.1, fun c' hc' x hx => ?_, fun j hj => ?_⟩
    · rcases List.mem_cons.1 hc' with rfl | hc'
      · rw [ih.2.2 _ fun c'' hc'' h => ?_]
        · rw [k1 x ((rangeOf_visits _ _ _ _).2 hx)]
          conv_rhs => rw [hce]
          simp only [Ex.eval]
          refine hl d' k _ _ x fun j hj => ?_
          have hb := hx.shift' S.h_nonneg (d := d') (by simp) hj
          by_cases hs : c'.several = true
          · rw [if_pos hs]
            simp only [Ex.eval]
            rw [hloc c' hcg hs _ hb]
            rw [hce]; rfl
          · rw [if_neg hs]
            refine eval_at e hec fun a ha => ?_
            exact data_right hS.shape hm c' hcm [d'] (fun d hd => ⟨c', hcm, by rw [List.mem_singleton] at hd; subst hd; rw [hce]; rfl, fun a ha => ha⟩) hb a (by rw [hce]; exact ha)
        · unfold Setup.convWork at h
          have := idxOf_inj_of_mem hcf (by omega : S.flat.idxOf c' = S.flat.idxOf c'')
          exact hnd.1 (this ▸ hc'')
      · exact ih.2.1 c' hc' x hx
    · rw [ih.2.2 j fun c hc => hj c (List.mem_cons_of_mem _ hc), k3 _ (by simpa using hj c (List.mem_cons_self ..))]

include hS hp hl in
theorem group_phase (g : Fin D × List (Ex D)) (hg : g ∈ S.groups) (m : Mem D) (hm : RightData S full m) :
    SameData m (runKers I pts (S.groupKernels g) m) ∧
    (∀ c ∈ g.2, ∀ x, Box S.np S.h [] x → runKers I pts (S.groupKernels g) m (.work (S.convWork c)) x = c.eval I (memOf full) x) ∧
    ∀ j, j < S.w0 + S.flat.length → (∀ c ∈ g.2, j ≠ S.convWork c) → runKers I pts (S.groupKernels g) m (.work j) = m (.work j) := by
  obtain ⟨d, g⟩ := g
  have hflat : ∀ c ∈ g, c ∈ S.flat := fun c hc => List.mem_flatMap.2 ⟨_, hg, hc⟩
  have hgn : g.Nodup := by
    have : ∀ (l : List (Fin D × List (Ex D))), (l.flatMap Prod.snd).Nodup → ∀ p ∈ l, p.2.Nodup := by
      intro l
      induction l with
      | nil => simp
      | cons a l ih =>
        intro h p hp
        rw [List.flatMap_cons] at h
        rcases List.mem_cons.1 hp with rfl | hp
        · exact (List.nodup_append.1 h).1
        · exact ih (List.nodup_append.1 h).2.1 p hp
    exact this S.groups hS.listed.flatNodup _ hg
  have hsplit : S.groupKernels (d, g) = (if g.filter Ex.several = [] then [] else
    [⟨rangeOf S.np S.h [d], (g.filter Ex.several).map fun c => (.work (S.localWork g c), c.arg)⟩]) ++ g.map (derKernel S g) := rfl
  rw [hsplit, runKers_append]
  -- the local evaluations
  have hloc : ∀ m1, m1 = runKers I pts (if g.filter Ex.several = [] then [] else
      [⟨rangeOf S.np S.h [d], (g.filter Ex.several).map fun c => (.work (S.localWork g c), c.arg)⟩]) m →
      SameData m m1 ∧ (∀ c ∈ g, c.several = true → ∀ x, Box S.np S.h [d] x → m1 (.work (S.localWork g c)) x = c.arg.eval I (memOf full) x) ∧
      ∀ j, j < S.w0 + S.flat.length → m1 (.work j) = m (.work j) := by
    intro m1 hm1
    by_cases hempty : g.filter Ex.several = []
    · rw [if_pos hempty] at hm1
      subst hm1
      refine ⟨fun _ _ => rfl, fun c hc hs => ?_, fun _ _ => rfl⟩
      have : c ∈ g.filter Ex.several := List.mem_filter.2 ⟨hc, hs⟩
      rw [hempty] at this; simp at this
    · rw [if_neg hempty] at hm1
      have hder : ∀ c ∈ g, ∃ k e, c = .cd d k e ∧ e.cds = [] := by
        intro c hc
        obtain ⟨⟨d', k, e, hce⟩, _⟩ := der_shape hS.shape c (List.mem_append_left _ (hflat c hc))
        have hd' := hS.listed.groupDir _ hg c hc
        rw [hce] at hd'
        have : d' = d := by simpa [Ex.dir] using hd'
        subst this
        exact ⟨k, e, hce, by have := hS.convFlat c (hflat c hc); rw [hce] at this; exact this⟩
      obtain ⟨k1, k2, k3⟩ := runKer_simul I hp ⟨rangeOf S.np S.h [d], (g.filter Ex.several).map fun c => (.work (S.localWork g c), c.arg)⟩ (by
          simp only [List.map_map]
          refine List.Nodup.map_on ?_ (hgn.filter _)
          intro a ha b hb h
          simp only [Function.comp_apply, Arr.work.injEq, Setup.localWork] at h
          exact idxOf_inj_of_mem ha (by omega)) (by
          intro q hq q' hq' h
          obtain ⟨c, hc, rfl⟩ := List.mem_map.1 hq
          obtain ⟨c', hc', rfl⟩ := List.mem_map.1 hq'
          obtain ⟨k, e, hce, _⟩ := hder c (List.mem_filter.1 hc).1
          obtain ⟨s, hs⟩ := (der_shape hS.shape c (List.mem_append_left _ (hflat c (List.mem_filter.1 hc).1))).2 _ (by rw [hce] at h ⊢; exact h)
          cases hs) (by
          intro q hq
          obtain ⟨c, hc, rfl⟩ := List.mem_map.1 hq
          obtain ⟨k, e, hce, hec⟩ := hder c (List.mem_filter.1 hc).1
          rw [hce]; exact hec) m
      have hrun : m1 = runKer I pts ⟨rangeOf S.np S.h [d], (g.filter Ex.several).map fun c => (.work (S.localWork g c), c.arg)⟩ m := hm1
      rw [hrun]
      refine ⟨fun a ha => k3 a ?_, fun c hc hs x hx => ?_, fun j hj => k3 _ ?_⟩
      · simp only [List.map_map, List.mem_map, not_exists, not_and]
        intro c _ h
        exact ha _ h.symm
      · rw [k1 (.work (S.localWork g c), c.arg) (List.mem_map.2 ⟨c, List.mem_filter.2 ⟨hc, hs⟩, rfl⟩) x ((rangeOf_visits _ _ _ _).2 hx)]
        obtain ⟨k, e, hce, hec⟩ := hder c hc
        have hcm : c ∈ S.flat ++ S.vcds := List.mem_append_left _ (hflat c hc)
        refine eval_at c.arg (by rw [hce]; exact hec) fun a ha => ?_
        exact data_right hS.shape hm c hcm [d] (fun d' hd => ⟨c, hcm, by rw [List.mem_singleton] at hd; subst hd; rw [hce]; rfl, fun a ha => ha⟩) hx a (by rw [hce] at ha ⊢; exact ha)
      · simp only [List.map_map, List.mem_map, not_exists, not_and, Function.comp_apply, Arr.work.injEq]
        intro c _ h
        unfold Setup.localWork at h; omega
  obtain ⟨l1, l2, l3⟩ := hloc _ rfl
  have := derKernels_phase hS hp hl d g hg g (fun _ h => h) hgn _ (l1.right hm) l2
  refine ⟨l1.trans this.1, this.2.1, fun j hj hc => ?_⟩
  rw [this.2.2 j hc, l3 j hj]

include hS hp hl in
theorem groups_phase (gs : List (Fin D × List (Ex D))) (hgs : ∀ g ∈ gs, g ∈ S.groups) (hnd : (gs.flatMap Prod.snd).Nodup) (m : Mem D) (hm : RightData S full m) :
    SameData m (runKers I pts (gs.flatMap S.groupKernels) m) ∧
    (∀ c ∈ gs.flatMap Prod.snd, ∀ x, Box S.np S.h [] x → runKers I pts (gs.flatMap S.groupKernels) m (.work (S.convWork c)) x = c.eval I (memOf full) x) ∧
    ∀ j, j < S.w0 + S.flat.length → (∀ c ∈ gs.flatMap Prod.snd, j ≠ S.convWork c) → runKers I pts (gs.flatMap S.groupKernels) m (.work j) = m (.work j) := by
  induction gs generalizing m with
  | nil => exact ⟨fun _ _ => rfl, fun c hc => by simp at hc, fun _ _ _ => rfl⟩
  | cons g gs ih =>
    rw [List.flatMap_cons] at hnd
    rw [List.nodup_append] at hnd
    have g1 := group_phase hS hp hl g (hgs g (List.mem_cons_self ..)) m hm
    have ih := ih (fun g hg => hgs g (List.mem_cons_of_mem _ hg)) hnd.2.1 _ (g1.1.right hm)
    rw [List.flatMap_cons, runKers_append]
    refine ⟨g1.1.trans ih.1, fun c hc x hx => ?_, fun j hj hc => ?_⟩
    · rw [List.flatMap_cons] at hc
      rcases List.mem_append.1 hc with hc | hc
      · have hcf : c ∈ S.flat := List.mem_flatMap.2 ⟨g, hgs g (List.mem_cons_self ..), hc⟩
        have hlt := List.idxOf_lt_length_iff.2 hcf
        rw [ih.2.2 _ (by unfold Setup.convWork; omega) fun c' hc' h => ?_]
        · exact g1.2.1 c hc x hx
        · unfold Setup.convWork at h
          have := idxOf_inj_of_mem hcf (by omega : S.flat.idxOf c = S.flat.idxOf c')
          exact hnd.2.2 c hc c' hc' this
      · exact ih.2.1 c hc x hx
    · rw [List.flatMap_cons] at hc
      rw [ih.2.2 j hj fun c' hc' => hc c' (List.mem_append_right _ hc'), g1.2.2 j hj fun c' hc' => hc c' (List.mem_append_left _ hc')]

include hS hp hl in
/-- After the convective kernels. -/
theorem conv_phase (m : Mem D) (hm : RightData S full m) :
    (∀ a, (∀ i, a ≠ .work i) → (∀ i : Fin n, a ≠ .res i) → runKers I pts S.convKernels m a = m a) ∧
    ∀ i : Fin n, ∀ x, Box S.np S.h [] x → runKers I pts S.convKernels m (.res i) x = (S.rhs i).convective.eval I (memOf full) x := by
  unfold Setup.convKernels
  rw [if_neg hS.groups, runKers_append]
  obtain ⟨g1, g2, _⟩ := groups_phase hS hp hl S.groups (fun _ h => h) hS.listed.flatNodup m hm
  set m1 := runKers I pts (S.groups.flatMap S.groupKernels) m with hm1
  have hright := g1.right hm
  set W : Ex D → Option ℕ := fun c => if c ∈ S.flat then some (S.convWork c) else none with hW
  have hWs : ∀ i, ∀ c ∈ (S.rhs i).convective.cds, W c = some (S.convWork c) := fun i c hc => by
    simp only [hW]; rw [if_pos ((hS.listed.flatMem c).2 ⟨i, hc⟩)]
  obtain ⟨k1, k2, k3⟩ := runKer_simul I hp ⟨rangeOf S.np S.h [], (List.finRange n).map fun i : Fin n => (.res i, (S.rhs i).convective.resolve W)⟩ (by
      simp only [List.map_map]
      exact (List.nodup_finRange n).map fun a b h => by simpa [Fin.ext_iff] using h) (by
      intro q hq q' hq' h
      obtain ⟨i, _, rfl⟩ := List.mem_map.1 hq
      obtain ⟨j, _, rfl⟩ := List.mem_map.1 hq'
      rcases resolve_arrs W _ _ h with h | ⟨_, _, _, _, h⟩
      · obtain ⟨s, hs⟩ := conv_plain hS.shape i _ h; cases hs
      · cases h) (by
      intro q hq
      obtain ⟨i, _, rfl⟩ := List.mem_map.1 hq
      exact resolve_cds W _ fun c hc => by rw [hWs i c hc]; rfl) m1
  change (∀ a, _ → _ → runKer I pts _ m1 a = m a) ∧ ∀ i : Fin n, ∀ x, _ → runKer I pts _ m1 (.res i) x = _
  refine ⟨fun a h1 h2 => ?_, fun i x hx => ?_⟩
  · rw [k3 a, g1 a h1]
    simp only [List.map_map, List.mem_map, not_exists, not_and, Function.comp_apply]
    exact fun i _ h => h2 i h.symm
  · rw [k1 (.res i, (S.rhs i).convective.resolve W) (List.mem_map.2 ⟨i, List.mem_finRange i, rfl⟩) x ((rangeOf_visits _ _ _ _).2 hx)]
    refine resolve_eval W _ (fun c hc => ⟨_, hWs i c hc, g2 c ((hS.listed.flatMem c).2 ⟨i, hc⟩) x hx⟩) ?_
    exact data_right_grid hS.shape hright _ (conv_plain hS.shape i) (fun s hs => .inr (.inl ⟨hS.groups, i, hs⟩)) hx

/-! ## Viscous terms -/

include hT in
theorem visc_inner (o c : Ex D) (ho : o ∈ S.vcds) (hc : c ∈ o.cds) : c = o ∨ o.arg.cds = [c] := by
  obtain ⟨i, hi⟩ := (hT.vcdsMem o).1 ho
  obtain ⟨d, k, e, rfl⟩ := mem_cds_cd _ o hi
  simp only [Ex.cds, List.mem_append, List.mem_singleton] at hc
  rcases hc with hc | rfl
  · right
    rcases hT.visc _ ho with h | ⟨c', h, _⟩
    · simp only [Ex.arg] at h; rw [h] at hc; simp at hc
    · simp only [Ex.arg] at h ⊢; rw [h] at hc ⊢; rw [List.mem_singleton] at hc; rw [hc]
  · exact .inl rfl

include hT in
theorem mem_viscDirs (c : Ex D) (d : Fin D) : d ∈ S.viscDirs c ↔ ∃ o ∈ S.vcds, o.arg.cds = [c] ∧ o.dir = some d := by
  unfold Setup.viscDirs
  simp only [List.mem_flatMap, List.mem_filterMap, List.mem_filter, decide_eq_true_eq]
  have hshape : ∀ o ∈ S.vcds, ∃ d k e, o = .cd d k e := fun o ho => (der_shape hT o (List.mem_append_right _ ho)).1
  constructor
  · rintro ⟨o, ho, p, ⟨hz, hpc⟩, hpd⟩
    obtain ⟨d', k, e, rfl⟩ := hshape o ho
    refine ⟨_, ho, ?_⟩
    rcases hT.visc _ ho with h | ⟨c', h, _⟩
    · simp only [Ex.arg] at h
      simp [Ex.cds, h] at hz
    · simp only [Ex.arg] at h
      simp only [Ex.cds, h, List.cons_append, List.nil_append, List.tail_cons, List.zip_cons_cons, List.zip_nil_right, List.mem_singleton] at hz
      subst hz
      simp only at hpc hpd
      exact ⟨by simp only [Ex.arg]; rw [h, hpc], hpd⟩
  · rintro ⟨o, ho, hoc, hod⟩
    obtain ⟨d', k, e, rfl⟩ := hshape o ho
    refine ⟨_, ho, (c, .cd d' k e), ⟨?_, rfl⟩, hod⟩
    simp only [Ex.arg] at hoc
    simp [Ex.cds, hoc]

include hT hp hl in
theorem viscKernels_phase (l : List (Ex D)) (hmem : ∀ c ∈ l, c ∈ S.vcds) (hnd : l.Nodup) (hsort : ∀ pre c post, l = pre ++ c :: post → ∀ c', c.arg.cds = [c'] → c' ∈ pre)
    (m : Mem D) (hm : RightData S full m) :
    SameData m (runKers I pts (l.map S.viscKernel) m) ∧
    (∀ c ∈ l, ∀ x, Box S.np S.h (S.viscDirs c) x → runKers I pts (l.map S.viscKernel) m (.work (S.vcds.idxOf c)) x = c.eval I (memOf full) x) := by
  induction l using List.reverseRecOn with
  | nil => exact ⟨fun _ _ => rfl, fun c hc => by simp at hc⟩
  | append_singleton pre c ih =>
    rw [List.nodup_append] at hnd
    have ih := ih (fun c hc => hmem c (List.mem_append_left _ hc)) hnd.1 fun p x q he => hsort p x (q ++ [c]) (by rw [he]; simp)
    have hcv := hmem c (by simp)
    have hcm : c ∈ S.flat ++ S.vcds := List.mem_append_right _ hcv
    obtain ⟨⟨d, k, e, hce⟩, hpl⟩ := der_shape hT c hcm
    have hinv : ∀ c' ∈ e.cds, c' ∈ S.vcds := by
      intro c' hc'
      obtain ⟨i, hi⟩ := (hT.vcdsMem c).1 hcv
      exact (hT.vcdsMem c').2 ⟨i, cds_trans _ c c' hi (by rw [hce]; exact List.mem_append_left _ hc')⟩
    have hW : ∀ c' ∈ S.vcds, S.viscWork c' = some (S.vcds.idxOf c') := fun c' h => by unfold Setup.viscWork; rw [if_pos h]
    rw [List.map_append, runKers_append]
    set m1 := runKers I pts (pre.map S.viscKernel) m with hm1
    have hright := ih.1.right hm
    have hker : S.viscKernel c = ⟨rangeOf S.np S.h (S.viscDirs c), [(.work (S.vcds.idxOf c), .cd d k (e.resolve S.viscWork))]⟩ := by
      unfold Setup.viscKernel; rw [hce]
    -- a derivative with another one inside is itself inside none
    have hcase : e.cds = [] ∨ ∃ c', e.cds = [c'] ∧ c'.dir ≠ some d ∧ S.viscDirs c = [] := by
      rcases hT.visc c hcv with h | ⟨c', h, hd⟩
      · left; rw [hce] at h; exact h
      · right
        refine ⟨c', by rw [hce] at h; exact h, by rw [hce] at hd; exact hd, ?_⟩
        rw [List.eq_nil_iff_forall_not_mem]
        intro d' hd'
        obtain ⟨o, ho, hoc, _⟩ := (mem_viscDirs hT c d').1 hd'
        -- `c'` is in `c` is in `o`
        obtain ⟨d1, k1, e1, rfl⟩ := (der_shape hT o (List.mem_append_right _ ho)).1
        have hc'c : c' ∈ c.cds := by rw [hce]; rw [hce] at h; simp only [Ex.arg] at h; simp [Ex.cds, h]
        have : c' ∈ e1.cds := cds_trans _ c c' (by simp only [Ex.arg] at hoc; rw [hoc]; simp) hc'c
        simp only [Ex.arg] at hoc
        rw [hoc, List.mem_singleton] at this
        have h2 : c' ∈ e.cds := by rw [hce] at h; simp only [Ex.arg] at h; rw [h]; simp
        exact not_in_arg h2 (this.trans hce)
    have hread : (.work (S.vcds.idxOf c) : Arr) ∉ (Ex.cd d k (e.resolve S.viscWork) : Ex D).arrs := by
      simp only [Ex.arrs]
      intro h
      rcases resolve_arrs _ _ _ h with h | ⟨c', hc', i, hi, h⟩
      · obtain ⟨s, hs⟩ := hpl (.work (S.vcds.idxOf c)) ((congrArg (fun t : Ex D => (.work (S.vcds.idxOf c) : Arr) ∈ t.arrs) hce).mpr h); cases hs
      · rw [hW c' (hinv c' hc')] at hi
        injection hi with hi
        injection h with h
        have := idxOf_inj_of_mem hcv (h.trans hi.symm)
        subst this
        have hpre := hsort pre c [] (by simp) c (by
          rcases hcase with h | ⟨c2, h, _⟩
          · rw [h] at hc'; simp at hc'
          · rw [h, List.mem_singleton] at hc'; subst hc'; conv_lhs => rw [hce]
            exact h)
        exact hnd.2.2 c hpre c (by simp) rfl
    obtain ⟨k1, _, k3⟩ := runKer_single I hp (rangeOf S.np S.h (S.viscDirs c)) (.work (S.vcds.idxOf c)) _ hread m1
    rw [← hker] at k1 k3
    change SameData m (runKer I pts (S.viscKernel c) m1) ∧ ∀ c' ∈ pre ++ [c], ∀ x, _ → runKer I pts (S.viscKernel c) m1 _ x = _
    refine ⟨ih.1.trans fun a ha => k3 a (ha _), fun c' hc' x hx => ?_⟩
    by_cases hcc : c' = c
    · subst hcc
      rw [k1 x ((rangeOf_visits _ _ _ _).2 hx)]
      conv_rhs => rw [hce]
      simp only [Ex.eval]
      refine hl d k _ _ x fun j hj => ?_
      have hself : ∃ o ∈ S.flat ++ S.vcds, o.dir = some d ∧ ∀ a ∈ c'.arrs, a ∈ o.arrs := ⟨c', hcm, by rw [hce]; rfl, fun a ha => ha⟩
      rcases hcase with hec | ⟨c1, hec, hd1, hnil⟩
      · have hres : e.resolve S.viscWork = e := resolve_id _ e hec
        rw [hres]
        -- the shifted point lies in the box of `d` and of the directions of the derivatives around
        have hbox : Box S.np S.h (d :: S.viscDirs c') (shift x d j) := by
          by_cases hdin : d ∈ S.viscDirs c'
          · -- excluded: an outer derivative has another direction
            obtain ⟨o, ho, hoc, hod⟩ := (mem_viscDirs hT c' d).1 hdin
            rcases hT.visc o ho with h | ⟨c2, h, hd2⟩
            · rw [h] at hoc; simp at hoc
            · rw [h] at hoc
              simp only [List.cons.injEq, and_true] at hoc
              rw [hoc, hod, hce] at hd2
              exact absurd rfl hd2
          · exact hx.shift' S.h_nonneg hdin hj
        refine eval_at e hec fun a ha => ?_
        refine data_right hT hright c' hcm (d :: S.viscDirs c') (fun d' hd' => ?_) hbox a (by rw [hce]; exact ha)
        rcases List.mem_cons.1 hd' with rfl | hd'
        · exact hself
        · obtain ⟨o, ho, hoc, hod⟩ := (mem_viscDirs hT c' d').1 hd'
          obtain ⟨d1, k1', e1, rfl⟩ := (der_shape hT o (List.mem_append_right _ ho)).1
          refine ⟨_, List.mem_append_right _ ho, hod, fun a ha => cds_arrs e1 c' ?_ a ha⟩
          simp only [Ex.arg] at hoc
          rw [hoc]; simp
      · rw [hnil] at hx
        have hb := hx.shift' S.h_nonneg (d := d) (by simp) hj
        refine resolve_eval S.viscWork e (fun c2 hc2 => ?_) fun a ha => ?_
        · rw [hec, List.mem_singleton] at hc2
          subst hc2
          refine ⟨_, hW c2 (hinv c2 (by rw [hec]; simp)), ?_⟩
          refine ih.2 c2 (hsort pre c' [] (by simp) c2 (by conv_lhs => rw [hce]
                                                           exact hec)) _ (hb.mono S.h_nonneg fun d' hd' => ?_)
          rw [List.mem_singleton] at hd'
          subst hd'
          exact (mem_viscDirs hT c2 d').2 ⟨c', hcv, by rw [hce]; exact hec, by rw [hce]; rfl⟩
        · refine data_right hT hright c' hcm [d] (fun d' hd' => ?_) hb a (by rw [hce]; exact ha)
          rw [List.mem_singleton] at hd'
          subst hd'
          exact hself
    · have hpre : c' ∈ pre := by simpa [hcc] using hc'
      have hne : (Arr.work (S.vcds.idxOf c')) ≠ .work (S.vcds.idxOf c) := by
        simp only [ne_eq, Arr.work.injEq]
        exact fun h => hcc (idxOf_inj_of_mem (hmem c' (List.mem_append_left _ hpre)) h)
      rw [k3 _ hne]
      exact ih.2 c' hpre x hx

include hT in
theorem visc_sorted : ∀ pre c post, (S.vcds.mergeSort fun a b => decide (a.coords ≤ b.coords)) = pre ++ c :: post → ∀ c', c.arg.cds = [c'] → c' ∈ pre := by
  intro pre c post he c' hc'
  have hperm : (S.vcds.mergeSort fun a b => decide (a.coords ≤ b.coords)).Perm S.vcds := List.mergeSort_perm ..
  have hpw := List.pairwise_mergeSort (le := fun a b : Ex D => decide (a.coords ≤ b.coords)) (by intro a b c; simp only [decide_eq_true_eq]; omega)
    (by intro a b; simp only [Bool.or_eq_true, decide_eq_true_eq]; omega) S.vcds
  have hcv : c ∈ S.vcds := hperm.mem_iff.1 (by rw [he]; simp)
  obtain ⟨d, k, e, hce⟩ := (der_shape hT c (List.mem_append_right _ hcv)).1
  have hec : e.cds = [c'] := by rw [hce] at hc'; exact hc'
  have hc'v : c' ∈ S.vcds := by
    obtain ⟨i, hi⟩ := (hT.vcdsMem c).1 hcv
    exact (hT.vcdsMem c').2 ⟨i, cds_trans _ c c' hi (by rw [hce]; simp [Ex.cds, hec])⟩
  obtain ⟨d', k', e', hce'⟩ := mem_cds_cd e c' (by rw [hec]; simp)
  have hdne : d' ≠ d := by
    rcases hT.visc c hcv with h | ⟨c2, h, hd2⟩
    · rw [h] at hc'; simp at hc'
    · rw [h] at hc'
      simp only [List.cons.injEq, and_true] at hc'
      rw [hc', hce', hce] at hd2
      simpa [Ex.dir] using hd2
  have he' : e'.cds = [] := by
    rcases visc_inner hT c c' hcv (by rw [hce]; simp [Ex.cds, hec]) with h | h
    · exfalso
      have hin : c' ∈ e.cds := by rw [hec]; simp
      exact not_in_arg hin (h.trans hce)
    · rw [List.eq_nil_iff_forall_not_mem]
      intro r hr
      have := cds_length e c' (by rw [hec]; simp)
      rw [hec, hce'] at this
      simp only [Ex.cds, List.length_append, List.length_cons, List.length_nil] at this
      have : e'.cds.length = 0 := by omega
      rw [List.length_eq_zero_iff] at this
      rw [this] at hr; simp at hr
  have h1 : c'.coords = 1 := by rw [hce']; simp [Ex.coords, Ex.cds, he', Ex.dir]
  have h2 : c.coords = 2 := by
    rw [hce]
    simp only [Ex.coords, Ex.cds, hec, List.cons_append, List.nil_append]
    rw [hce']
    simp [Ex.dir, hdne]
  rw [he] at hpw hperm
  have hmem := hperm.mem_iff.2 hc'v
  rcases List.mem_append.1 hmem with h | h
  · exact h
  · exfalso
    rcases List.mem_cons.1 h with h | h
    · rw [h, h2] at h1; omega
    · have := (List.pairwise_append.1 hpw).2.1
      rw [List.pairwise_cons] at this
      have := this.1 c' h
      simp only [decide_eq_true_eq] at this
      omega

include hT hp hl in
/-- After the viscous kernels. -/
theorem visc_phase (hD : S.vcds ≠ [] ∨ ∀ i, ∀ t ∈ (S.rhs i).classified, t.hasRe = false) (m : Mem D) (hm : RightData S full m) (r : Fin n → P D → ℝ) (hr : ∀ i : Fin n, ∀ x, Box S.np S.h [] x → m (.res i) x = r i x) :
    (∀ a, (∀ i, a ≠ .work i) → (∀ i : Fin n, a ≠ .res i) → runKers I pts S.viscKernels m a = m a) ∧
    ∀ i : Fin n, ∀ x, Box S.np S.h [] x → runKers I pts S.viscKernels m (.res i) x = r i x + (S.rhs i).viscous.eval I (memOf full) x := by
  unfold Setup.viscKernels
  by_cases hv : S.vcds = []
  · rw [if_pos hv]
    refine ⟨fun _ _ _ => rfl, fun i x hx => ?_⟩
    have hz : (S.rhs i).viscous = .num 0 := by
      rcases hD with h | h
      · exact absurd hv h
      · have : (S.rhs i).classified.filter (fun t => t.hasRe) = [] := List.filter_eq_nil_iff.2 fun t ht => by simp [h i t ht]
        rw [Ex.viscous, this]; rfl
    rw [hz]
    simp only [Ex.eval, runKers, List.foldl_nil]
    rw [hr i x hx]; simp
  · rw [if_neg hv, runKers_append]
    have hperm : (S.vcds.mergeSort fun a b => decide (a.coords ≤ b.coords)).Perm S.vcds := List.mergeSort_perm ..
    obtain ⟨g1, g2⟩ := viscKernels_phase hp hl hT _ (fun c hc => hperm.mem_iff.1 hc) (hperm.nodup_iff.2 hT.vcdsNodup) (visc_sorted hT) m hm
    set m1 := runKers I pts ((S.vcds.mergeSort fun a b => decide (a.coords ≤ b.coords)).map S.viscKernel) m with hm1
    have hright := g1.right hm
    have hW : ∀ c' ∈ S.vcds, S.viscWork c' = some (S.vcds.idxOf c') := fun c' h => by unfold Setup.viscWork; rw [if_pos h]
    have hWs : ∀ i, ∀ c ∈ (S.rhs i).viscous.cds, S.viscWork c = some (S.vcds.idxOf c) := fun i c hc => hW c ((hT.vcdsMem c).2 ⟨i, hc⟩)
    obtain ⟨k1, k2, k3⟩ := runKer_simul I hp ⟨rangeOf S.np S.h [], (List.finRange n).map fun i : Fin n => (.res i, .add (.arr (.res i)) ((S.rhs i).viscous.resolve S.viscWork))⟩ (by
        simp only [List.map_map]
        exact (List.nodup_finRange n).map fun a b h => by simpa [Fin.ext_iff] using h) (by
        intro q hq q' hq' h
        obtain ⟨i, _, rfl⟩ := List.mem_map.1 hq
        obtain ⟨j, _, rfl⟩ := List.mem_map.1 hq'
        simp only [Ex.arrs, List.mem_append, List.mem_singleton, Arr.res.injEq] at h
        rcases h with h | h
        · rw [Fin.ext h]
        · rcases resolve_arrs _ _ _ h with h | ⟨_, _, _, _, h⟩
          · obtain ⟨s, hs⟩ := visc_plain hT i _ h; cases hs
          · cases h) (by
        intro q hq
        obtain ⟨i, _, rfl⟩ := List.mem_map.1 hq
        simp only [Ex.cds, List.nil_append]
        exact resolve_cds _ _ fun c hc => by rw [hWs i c hc]; rfl) m1
    change (∀ a, _ → _ → runKer I pts _ m1 a = m a) ∧ ∀ i : Fin n, ∀ x, _ → runKer I pts _ m1 (.res i) x = _
    refine ⟨fun a h1 h2 => ?_, fun i x hx => ?_⟩
    · rw [k3 a, g1 a h1]
      simp only [List.map_map, List.mem_map, not_exists, not_and, Function.comp_apply]
      exact fun i _ h => h2 i h.symm
    · rw [k1 (.res i, .add (.arr (.res i)) ((S.rhs i).viscous.resolve S.viscWork)) (List.mem_map.2 ⟨i, List.mem_finRange i, rfl⟩) x ((rangeOf_visits _ _ _ _).2 hx)]
      simp only [Ex.eval]
      rw [g1 (.res i) (by simp), hr i x hx]
      congr 1
      refine resolve_eval _ _ (fun c hc => ⟨_, hWs i c hc, ?_⟩) ?_
      · exact g2 c (hperm.mem_iff.2 ((hT.vcdsMem c).2 ⟨i, hc⟩)) x (hx.mono S.h_nonneg fun d hd => by simp at hd)
      · exact data_right_grid hT hright _ (visc_plain hT i) (fun s hs => .inr (.inr ⟨i, hs⟩)) hx

/-! ## All spatial kernels -/

include hS hp hl hrel in
/-- The spatial kernels put the right hand side of every equation into its residual array, on the grid; they change no array of the solution, no register and no array without relation. -/
theorem spatial_phase (ks : List (Ker D)) (hks : S.spatial = .ok ks) (m : Mem D) (hm : ∀ s, S.relation s = none → ∀ x, m (.data s) x = full s x) :
    (∀ i : Fin n, ∀ x, Box S.np S.h [] x → runKers I pts ks m (.res i) x = (S.rhs i).eval I (memOf full) x) ∧
    (∀ s, S.relation s = none → runKers I pts ks m (.data s) = m (.data s)) ∧ ∀ i, runKers I pts ks m (.reg i) = m (.reg i) := by
  unfold Setup.spatial at hks
  split at hks
  · cases hks
  · rename_i r hr
    injection hks with hks
    subst hks
    rw [runKers_append, runKers_append]
    obtain ⟨order, hord, hro⟩ := relKernels_order hr
    obtain ⟨a1, a2⟩ := rel_right hS.relations hp hrel (fun s => rangeOf S.np S.h (S.crDirs s)) (fun s hs e he t ht hsome x hx =>
      (rangeOf_visits _ _ _ _).2 (((rangeOf_visits _ _ _ _).1 hx).mono S.h_nonneg fun d hd => hS.halos s hs e he t ht hsome d hd)) order hord m hm
    rw [← hro] at a1 a2
    replace a1 : RightData S full (runKers I pts r m) := fun s hs x hx => a1 s hs x ((rangeOf_visits _ _ _ _).2 hx)
    obtain ⟨b1, b2⟩ := conv_phase hS hp hl _ a1
    obtain ⟨c1, c2⟩ := visc_phase (full := full) hp hl hS.shape hS.viscDer _ (fun s hs x hx => by rw [b1 (.data s) (by simp) (by simp)]; exact a1 s hs x hx) _ b2
    refine ⟨fun i x hx => ?_, fun s hs => ?_, fun i => ?_⟩
    · rw [c2 i x hx]
      exact parts_eval I (memOf full) x _ (hS.rhsPlain i).2.1 (hS.rhsPlain i).2.2
    · rw [c1 _ (by simp) (by simp), b1 _ (by simp) (by simp), a2 _ fun t ht h => by cases h; rw [hs] at ht; cases ht]
    · rw [c1 _ (by simp) (by simp), b1 _ (by simp) (by simp), a2 _ fun t _ h => by cases h]

end Phase

end OpenSBLI.Sim
