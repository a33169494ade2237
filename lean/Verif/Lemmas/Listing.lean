import Verif.Lemmas.SimulationSpatial

/-!
# A problem with its lists

Every set of equations and relations has lists as `Setup.Listed` wants them: the derivatives by direction, those of the viscous terms, and the required datasets.
-/
namespace OpenSBLI.Sim

variable {D n : ℕ}

/-- All derivatives of the convective terms. -/
def convectiveDers (rhs : Fin n → Ex D) : List (Ex D) := ((List.finRange n).flatMap fun i => (rhs i).convective.cds).dedup

/-- All derivatives of the viscous terms. -/
def viscousDers (rhs : Fin n → Ex D) : List (Ex D) := ((List.finRange n).flatMap fun i => (rhs i).viscous.cds).dedup

/-- The derivatives of a direction. -/
def inDirection (l : List (Ex D)) (d : Fin D) : List (Ex D) := l.filter fun c => c.dir = some d

/-- The derivatives by direction. -/
def byDirection (l : List (Ex D)) : List (Fin D × List (Ex D)) := ((List.finRange D).filter fun d => !(inDirection l d).isEmpty).map fun d => (d, inDirection l d)

/-- The required datasets. -/
def requiredKeys (rhs : Fin n → Ex D) : List String :=
  (((convectiveDers rhs ++ viscousDers rhs).flatMap Ex.datas) ++ (if convectiveDers rhs = [] then [] else (List.finRange n).flatMap fun i => (rhs i).convective.datas) ++
    (List.finRange n).flatMap fun i => (rhs i).viscous.datas).dedup

/-- The problem given by equations and relations. -/
def listing (np : Fin D → ℤ) (order : ℕ) (sol : Fin n → String) (rhs : Fin n → Ex D) (rel : List (String × Ex D)) (w0 : ℕ) (known : List String) : Setup D n where
  np := np
  order := order
  sol := sol
  rhs := rhs
  rel := rel
  w0 := w0
  known := known
  groups := byDirection (convectiveDers rhs)
  vcds := viscousDers rhs
  keys := requiredKeys rhs

theorem cds_dir (e : Ex D) : ∀ c ∈ e.cds, ∃ d, c.dir = some d := by
  induction e with
  | cd d k e ih =>
    intro c hc
    rcases List.mem_append.1 hc with h | h
    · exact ih c h
    · rw [List.mem_singleton.1 h]; exact ⟨d, rfl⟩
  | add a b iha ihb | mul a b iha ihb | pow a b iha ihb =>
    intro c hc
    rcases List.mem_append.1 hc with h | h
    exacts [iha c h, ihb c h]
  | fn f e ih => exact ih
  | _ => intro c hc; cases hc

theorem mem_byDirection {l : List (Ex D)} (h : ∀ c ∈ l, ∃ d, c.dir = some d) (c : Ex D) : c ∈ (byDirection l).flatMap Prod.snd ↔ c ∈ l := by
  simp only [byDirection, List.mem_flatMap, List.mem_map, List.mem_filter, List.mem_finRange, true_and, inDirection]
  constructor
  · rintro ⟨g, ⟨d, _, rfl⟩, hc⟩
    exact (List.mem_filter.1 hc).1
  · intro hc
    obtain ⟨d, hd⟩ := h c hc
    have : c ∈ l.filter fun c => decide (c.dir = some d) := List.mem_filter.2 ⟨hc, by simpa using hd⟩
    refine ⟨_, ⟨d, ?_, rfl⟩, this⟩
    cases hl : (l.filter fun c => decide (c.dir = some d)) with
    | nil => rw [hl] at this; cases this
    | cons => rfl

theorem mem_convectiveDers (rhs : Fin n → Ex D) (c : Ex D) : c ∈ convectiveDers rhs ↔ ∃ i, c ∈ (rhs i).convective.cds := by simp [convectiveDers]

theorem mem_viscousDers (rhs : Fin n → Ex D) (c : Ex D) : c ∈ viscousDers rhs ↔ ∃ i, c ∈ (rhs i).viscous.cds := by simp [viscousDers]

theorem byDirection_nil {l : List (Ex D)} (h : ∀ c ∈ l, ∃ d, c.dir = some d) : byDirection l = [] ↔ l = [] := by
  constructor
  · intro h'
    by_contra hne
    obtain ⟨c, hc⟩ := List.exists_mem_of_ne_nil l hne
    have := (mem_byDirection h c).2 hc
    rw [h'] at this
    cases this
  · rintro rfl
    simp [byDirection, inDirection]

/-- The lists are those of the problem. -/
theorem listing_listed (np : Fin D → ℤ) (order : ℕ) (sol : Fin n → String) (rhs : Fin n → Ex D) (rel : List (String × Ex D)) (w0 : ℕ) (known : List String) :
    (listing np order sol rhs rel w0 known).Listed := by
  have hdir : ∀ c ∈ convectiveDers rhs, ∃ d, c.dir = some d := fun c hc => by
    obtain ⟨i, hi⟩ := (mem_convectiveDers rhs c).1 hc
    exact cds_dir _ c hi
  have hflat : ∀ c, c ∈ (listing np order sol rhs rel w0 known).flat ↔ c ∈ convectiveDers rhs := fun c => mem_byDirection hdir c
  refine ⟨?_, ?_, ?_, ?_, fun c => (hflat c).trans (mem_convectiveDers rhs c), List.nodup_dedup _, fun c => mem_viscousDers rhs c, List.nodup_dedup _, fun s => ?_⟩
  · change ((byDirection (convectiveDers rhs)).map Prod.fst).Nodup
    rw [byDirection, List.map_map]
    exact (List.map_id' (l := _) ▸ (List.nodup_finRange D).filter _)
  · intro g hg c hc
    simp only [listing, byDirection, List.mem_map, List.mem_filter] at hg
    obtain ⟨d, _, rfl⟩ := hg
    simpa using (List.mem_filter.1 hc).2
  · intro g hg
    simp only [listing, byDirection, List.mem_map, List.mem_filter] at hg
    obtain ⟨d, ⟨_, hd⟩, rfl⟩ := hg
    intro h
    rw [show inDirection (convectiveDers rhs) d = [] from h] at hd
    cases hd
  · change ((byDirection (convectiveDers rhs)).flatMap Prod.snd).Nodup
    rw [List.nodup_flatMap]
    refine ⟨fun g hg => ?_, ?_⟩
    · simp only [byDirection, List.mem_map, List.mem_filter] at hg
      obtain ⟨d, _, rfl⟩ := hg
      exact (List.nodup_dedup _).filter _
    · rw [byDirection, List.pairwise_map]
      refine (((List.nodup_finRange D).filter _).imp ?_)
      intro d e hde c hc hc'
      have h1 : c.dir = some d := by simpa using (List.mem_filter.1 hc).2
      have h2 : c.dir = some e := by simpa using (List.mem_filter.1 hc').2
      rw [h1] at h2
      exact hde (Option.some.inj h2)
  · have hg : (listing np order sol rhs rel w0 known).groups ≠ [] ↔ ¬ convectiveDers rhs = [] := not_congr (byDirection_nil hdir)
    simp only [Setup.required, hg, List.mem_append, hflat]
    change s ∈ requiredKeys rhs ↔ (∃ c, (c ∈ convectiveDers rhs ∨ c ∈ viscousDers rhs) ∧ s ∈ c.datas) ∨ (¬ convectiveDers rhs = [] ∧ ∃ i, s ∈ (rhs i).convective.datas) ∨ ∃ i, s ∈ (rhs i).viscous.datas
    simp only [requiredKeys, List.mem_dedup, List.mem_append, List.mem_flatMap, List.mem_finRange, true_and]
    by_cases hc : convectiveDers rhs = [] <;> simp [hc, or_assoc]

/-! ## Checking a problem

`Setup.Valid` in a form that can be evaluated. -/

/-- The array of a dataset. -/
def Arr.isData : Arr → Bool
  | .data _ => true
  | _ => false

/-- Only datasets are read. -/
def Ex.plainly (e : Ex D) : Bool := e.arrs.all Arr.isData

theorem Ex.plain_of {e : Ex D} (h : e.plainly = true) : e.plain := by
  intro a ha
  have := List.all_eq_true.1 h a ha
  cases a with
  | data s => exact ⟨s, rfl⟩
  | _ => cases this

/-- A derivative contains at most one other derivative, of another direction. -/
def Ex.shallow (c : Ex D) : Bool :=
  match c.arg.cds with
  | [] => true
  | [c'] => decide (c'.dir ≠ c.dir)
  | _ => false

/-- The conditions on a problem other than those on its lists. -/
def Setup.Checks (S : Setup D n) : Prop :=
  (∀ i j, S.sol i = S.sol j → i = j) ∧ (∀ i, S.relation (S.sol i) = none) ∧ (S.rel.map Prod.fst).Nodup ∧ (∀ r ∈ S.rel, r.2.cds = [] ∧ r.2.plainly = true ∧ r.2.steady = true) ∧
  (∀ i, (S.rhs i).plainly = true ∧ (S.rhs i).noFn = true ∧ (S.rhs i).isSum = true ∧ (S.rhs i).steady = true) ∧ S.groups ≠ [] ∧ (∀ c ∈ S.flat, c.arg.cds = []) ∧ (∀ c ∈ S.vcds, c.shallow = true) ∧
  (S.vcds ≠ [] ∨ ∀ i, ∀ t ∈ (S.rhs i).classified, t.hasRe = false) ∧ (∀ s ∈ S.known, S.relation s = none) ∧
  (∀ r ∈ S.rel, ∀ t ∈ r.2.datas, (S.relation t).isSome → ∀ d ∈ S.crDirs r.1, d ∈ S.crDirs t)

instance (S : Setup D n) : Decidable S.Checks := by
  unfold Setup.Checks
  infer_instance

theorem Setup.Checks.valid {S : Setup D n} (h : S.Checks) (hl : S.Listed) : S.Valid := by
  obtain ⟨h1, h2, h3, h4, h5, h6, h7, h8, h9, h10, h11⟩ := h
  have hrel : ∀ s e, S.relation s = some e → (s, e) ∈ S.rel := by
    intro s e h
    simp only [Setup.relation, Option.map_eq_some_iff] at h
    obtain ⟨r, hr, rfl⟩ := h
    have := List.find?_some hr
    simp only [decide_eq_true_eq] at this
    rw [← this]
    exact List.mem_of_find?_eq_some hr
  exact {
    listed := hl
    solInj := fun i j => h1 i j
    relSol := h2
    relNodup := h3
    relPlain := fun s e h => ⟨(h4 _ (hrel s e h)).1, Ex.plain_of (h4 _ (hrel s e h)).2.1, (h4 _ (hrel s e h)).2.2⟩
    rhsPlain := fun i => ⟨Ex.plain_of (h5 i).1, (h5 i).2.1, (h5 i).2.2.1⟩
    rhsSteady := fun i => (h5 i).2.2.2
    groups := h6
    convFlat := h7
    visc := fun c hc => by
      have := h8 c hc
      unfold Ex.shallow at this
      split at this
      · exact .inl ‹_›
      · exact .inr ⟨_, ‹_›, of_decide_eq_true this⟩
      · cases this
    viscDer := h9
    known := h10
    halos := fun s _ e he t ht hs d hd => h11 _ (hrel s e he) t ht hs d hd }

theorem listing_keys (np : Fin D → ℤ) (order : ℕ) (sol : Fin n → String) (rhs : Fin n → Ex D) (rel : List (String × Ex D)) (w0 : ℕ) (known : List String) :
    (listing np order sol rhs rel w0 known).keys = requiredKeys rhs := rfl

/-- The number of points does not matter. -/
theorem checks_listing {np np' : Fin D → ℤ} {order w0 : ℕ} {sol : Fin n → String} {rhs : Fin n → Ex D} {rel : List (String × Ex D)} {known : List String}
    (h : (listing np order sol rhs rel w0 known).Checks) : (listing np' order sol rhs rel w0 known).Checks := h

end OpenSBLI.Sim
