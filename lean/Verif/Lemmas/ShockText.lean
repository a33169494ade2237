import Verif.Spec.ShockText
import Verif.Lemmas.SimulationTextSetup
import Verif.Props.C81_ReconKernel

/-! # Helper lemmas on the text of the kernels of a shock capturing scheme -/
namespace OpenSBLI.Recon
open Sim CCode Reg

variable {D n : ℕ} {V W : Type} {T : Text D} {U : Arr → Prop} {lit : ℝ → Sym D}

/-! ## Values -/

theorem static_val {e : Ex D} (hc : e.cds = []) (hs : e.steady = true) (o : Outer D ℝ) (st : CCode.Mem D ℝ) (m : Sim.Mem D) (stage : ℤ) (x off : P D)
    (hst : ∀ a ∈ e.arrs, ∀ off, st.data (T.names a) off = m a (x + off)) : (e.sym T off).val T.lib o st = e.eval (T.meaning o.const stage) m (x + off) := by
  induction e with
  | num z => simp [Ex.sym, Sym.val, Ex.eval]
  | const c => rfl
  | indexed t => simp [Ex.steady] at hs
  | arr a => exact hst a (by simp [Ex.arrs]) off
  | cd d k e ih => simp [Ex.cds] at hc
  | add a b iha ihb | mul a b iha ihb =>
    simp only [Ex.cds, List.append_eq_nil_iff] at hc
    simp only [Ex.steady, Bool.and_eq_true] at hs
    simp only [Ex.sym, Sym.val, Ex.eval]
    rw [iha hc.1 hs.1 fun a h => hst a (List.mem_append_left _ h), ihb hc.2 hs.2 fun a h => hst a (List.mem_append_right _ h)]
  | pow a b iha ihb =>
    simp only [Ex.cds, List.append_eq_nil_iff] at hc
    simp only [Ex.steady, Bool.and_eq_true] at hs
    simp only [Ex.sym, Sym.val, Ex.eval]
    rw [iha hc.1 hs.1 fun a h => hst a (List.mem_append_left _ h), ihb hc.2 hs.2 fun a h => hst a (List.mem_append_right _ h)]
    rfl
  | fn f e ih =>
    simp only [Ex.sym, Sym.val, Ex.eval]
    rw [ih hc hs hst]
    rfl

theorem pow_inv (hL : T.lib.Conforms) (x : ℝ) : T.lib.pow x ((-1 : ℚ) : ℝ) = x⁻¹ := by
  have := hL.neg x 1
  rw [Rat.cast_one, hL.one] at this
  exact this

theorem pow_int (hL : T.lib.Conforms) (hP : ∀ (x : ℝ) (k : ℕ), T.lib.pow x k = x ^ k) (x : ℝ) (z : ℤ) : T.lib.pow x z = x ^ z := by
  obtain ⟨k, rfl | rfl⟩ := z.eq_nat_or_neg
  · rw [Int.cast_natCast, hP, zpow_natCast]
  · have := hL.neg x (k : ℚ)
    rw [Rat.cast_natCast, hP] at this
    rw [zpow_neg, zpow_natCast, ← this]
    push_cast
    rfl

/-- The text of a right hand side has its value. -/
theorem term_val (hL : T.lib.Conforms) (hP : ∀ (x : ℝ) (k : ℕ), T.lib.pow x k = x ^ k) (hM : Maths T.lib) {ok : String → Prop} (t : Term String D) (h : t.Printable T U lit ok) (d : Fin D) (o : Outer D ℝ)
    (st : CCode.Mem D ℝ) (m : Sim.Mem D) (stage : ℤ) (x : P D) (hst : ∀ s, U (.data s) → ∀ off, st.data (T.names (.data s)) off = m (.data s) (x + off)) :
    (t.sym T lit d).val T.lib o st = t.eval (T.meaning o.const stage) m d x st.loc := by
  induction t with
  | num q =>
    obtain ⟨r, hr, hl | hl⟩ := h <;> simp only [Term.sym, Term.eval, hl, Sym.val, hr]
  | const c => rfl
  | var v => rfl
  | «at» e p =>
    have hsh : shift x d p = x + shift 0 d p := by simpa using shift_add x 0 d p
    simp only [Term.sym, Term.eval, hsh]
    refine static_val h.1.flat h.1.steady o st m stage x _ fun a ha => ?_
    obtain ⟨s, rfl⟩ := h.2 a ha
    exact hst s (h.1.arrays _ ha)
  | add a b iha ihb => simp only [Term.sym, Sym.val, Term.eval, iha h.1, ihb h.2]
  | mul a b iha ihb => simp only [Term.sym, Sym.val, Term.eval, iha h.1, ihb h.2.1]
  | pow a b iha ihb => simp only [Term.sym, Sym.val, Term.eval, iha h.1, ihb h.2.1]; rfl
  | npow a k iha =>
    simp only [Term.sym, Sym.val, Term.eval, iha h]
    rw [Rat.cast_natCast, hP]
  | inv a iha => simp only [Term.sym, Sym.val, Term.eval, iha h, pow_inv hL]
  | sqrt a iha =>
    simp only [Term.sym, Sym.val, Term.eval, iha h]
    rw [← hL.sqrt, hM.sqrt]
  | abs a iha => simp only [Term.sym, Sym.val, Term.eval, iha h, hM.abs]
  | max a b iha ihb => simp only [Term.sym, Sym.val, Term.eval, iha h.1, ihb h.2]
  | fn f a iha => simp only [Term.sym, Sym.val, Term.eval, iha h]; rfl
  | cut a c iha ihc =>
    simp only [Term.sym, Sym.val, Term.eval, iha h.1, ihc h.2, Rel.holds]
    norm_num
  | tenFloor a iha =>
    simp only [Term.sym, Sym.val, Term.eval, iha h, hM.floor, pow_int hL hP]
    norm_num

/-! ## The text of a right hand side -/

theorem lit_plain {q : ℝ} (h : IsLit lit q) : (lit q).recipInt = false ∧ (lit q).gvars = ∅ ∧ (lit q).consts = ∅ ∧ (lit q).inverses = [] ∧ (lit q).Closed ∧ CCode.isConst (lit q) = false ∧
    ∀ (L : Lib ℝ) (o : Outer D ℝ) (st : CCode.Mem D ℝ) md, (lit q).Faithful L o st md := by
  obtain ⟨r, -, h | h⟩ := h <;> rw [h] <;> exact ⟨rfl, rfl, rfl, rfl, trivial, rfl, fun _ _ _ _ => trivial⟩

variable {ok : String → Prop}

theorem term_isInt (t : Term String D) (d : Fin D) (h : (t.sym T lit d).isInt = true) (hp : t.Printable T U lit ok) : t.isInt = true := by
  induction t with
  | num q => rfl
  | «at» e p => simpa only [Term.sym, sym_isInt, Term.isInt] using h
  | add a b iha ihb =>
    simp only [Term.sym, Sym.isInt, Bool.and_eq_true] at h
    simp only [Term.isInt, iha h.1 hp.1, ihb h.2 hp.2, Bool.and_self]
  | mul a b iha ihb =>
    simp only [Term.sym, Sym.isInt, Bool.and_eq_true] at h
    simp only [Term.isInt, iha h.1 hp.1, ihb h.2 hp.2.1, Bool.and_self]
  | _ => simp [Term.sym, Sym.isInt] at h

theorem term_recipInt (t : Term String D) (d : Fin D) (h : (t.sym T lit d).recipInt = true) (hp : t.Printable T U lit ok) : t.recipInt = true := by
  cases t with
  | num q => rw [Term.sym, (lit_plain hp).1] at h; cases h
  | «at» e p => simpa only [Term.sym, sym_recipInt, Term.recipInt] using h
  | pow a b =>
    simp only [Term.sym] at h
    cases hb : b.sym T lit d <;> rw [hb] at h <;> simp only [Sym.recipInt, Bool.and_eq_true, Bool.false_eq_true] at h
    exact term_isInt a d h.1 hp.1
  | npow a k =>
    simp only [Term.sym, Sym.recipInt, Bool.and_eq_true, decide_eq_true_eq] at h
    have : (0 : ℚ) ≤ k := Nat.cast_nonneg k
    rw [h.2] at this
    norm_num at this
  | inv a =>
    simp only [Term.sym, Sym.recipInt, Bool.and_eq_true] at h
    exact term_isInt a d h.1 hp
  | sqrt a =>
    simp only [Term.sym, Sym.recipInt, Bool.and_eq_true, decide_eq_true_eq] at h
    norm_num at h
  | _ => simp [Term.sym, Sym.recipInt] at h

theorem term_faithful (t : Term String D) (d : Fin D) (h : t.Printable T U lit ok) (o : Outer D ℝ) (st : CCode.Mem D ℝ) : (t.sym T lit d).Faithful T.lib o st Mode.inKernel := by
  induction t with
  | num q => exact (lit_plain h).2.2.2.2.2.2 _ _ _ _
  | const c => trivial
  | var v => trivial
  | «at» e p => exact sym_faithful e h.1.printable o st _
  | add a b iha ihb => exact ⟨iha h.1, ihb h.2⟩
  | mul a b iha ihb => exact ⟨iha h.1, ihb h.2.1, fun hh => h.2.2 ⟨term_isInt a d hh.1 h.1, term_recipInt b d hh.2 h.2.1⟩⟩
  | pow a b iha ihb => exact ⟨iha h.1, ihb h.2.1⟩
  | npow a k iha => exact ⟨iha h, trivial⟩
  | inv a iha => exact ⟨iha h, trivial⟩
  | sqrt a iha => exact ⟨iha h, trivial⟩
  | abs a iha => exact iha h
  | max a b iha ihb => exact ⟨iha h.1, ihb h.2⟩
  | fn f a iha => exact iha h
  | cut a c iha ihc => exact ⟨iha h.1, ihc h.2, trivial, trivial⟩
  | tenFloor a iha => exact ⟨trivial, iha h⟩

theorem term_gvars (t : Term String D) (d : Fin D) (h : t.Printable T U lit ok) : ∀ v ∈ (t.sym T lit d).gvars, ok v := by
  induction t with
  | num q => rw [Term.sym, (lit_plain h).2.1]; simp
  | const c => simp [Term.sym, Sym.gvars]
  | var v =>
    intro w hw
    simp only [Term.sym, Sym.gvars, Finset.mem_singleton] at hw
    exact hw ▸ h
  | «at» e p => simp [Term.sym, sym_gvars]
  | add a b iha ihb | max a b iha ihb | cut a b iha ihb =>
    intro v hv
    simp only [Term.sym, Sym.gvars, Finset.mem_union, Finset.notMem_empty, or_false] at hv
    exact hv.elim (iha h.1 v) (ihb h.2 v)
  | mul a b iha ihb | pow a b iha ihb =>
    intro v hv
    simp only [Term.sym, Sym.gvars, Finset.mem_union] at hv
    exact hv.elim (iha h.1 v) (ihb h.2.1 v)
  | npow a k iha | inv a iha | sqrt a iha =>
    intro v hv
    simp only [Term.sym, Sym.gvars, Finset.mem_union, Finset.notMem_empty, or_false] at hv
    exact iha h v hv
  | abs a iha | fn f a iha => exact iha h
  | tenFloor a iha =>
    intro v hv
    simp only [Term.sym, Sym.gvars, Finset.mem_union, Finset.notMem_empty, false_or] at hv
    exact iha h v hv

theorem term_consts (hr : Registered T.ops) (t : Term String D) (d : Fin D) (h : t.Printable T U lit ok) : ∀ c ∈ (t.sym T lit d).consts, c ∈ T.start.names := by
  induction t with
  | num q => rw [Term.sym, (lit_plain h).2.2.1]; simp
  | const c =>
    intro w hw
    simp only [Term.sym, Sym.consts, Finset.mem_singleton] at hw
    exact hw ▸ h
  | var v => simp [Term.sym, Sym.consts]
  | «at» e p => exact sym_consts hr e h.1.printable _
  | add a b iha ihb | max a b iha ihb | cut a b iha ihb =>
    intro v hv
    simp only [Term.sym, Sym.consts, Finset.mem_union, Finset.notMem_empty, or_false] at hv
    exact hv.elim (iha h.1 v) (ihb h.2 v)
  | mul a b iha ihb | pow a b iha ihb =>
    intro v hv
    simp only [Term.sym, Sym.consts, Finset.mem_union] at hv
    exact hv.elim (iha h.1 v) (ihb h.2.1 v)
  | npow a k iha | inv a iha | sqrt a iha =>
    intro v hv
    simp only [Term.sym, Sym.consts, Finset.mem_union, Finset.notMem_empty, or_false] at hv
    exact iha h v hv
  | abs a iha | fn f a iha => exact iha h
  | tenFloor a iha =>
    intro v hv
    simp only [Term.sym, Sym.consts, Finset.mem_union, Finset.notMem_empty, false_or] at hv
    exact iha h v hv

theorem term_closed (t : Term String D) (d : Fin D) (h : t.Printable T U lit ok) (hc : t.closed = true) : (t.sym T lit d).Closed := by
  induction t with
  | num q => exact (lit_plain h).2.2.2.2.1
  | const c => trivial
  | var v => simp [Term.closed] at hc
  | «at» e p => exact sym_closed e hc _
  | add a b iha ihb | max a b iha ihb =>
    simp only [Term.closed, Bool.and_eq_true] at hc
    exact ⟨iha h.1 hc.1, ihb h.2 hc.2⟩
  | mul a b iha ihb | pow a b iha ihb =>
    simp only [Term.closed, Bool.and_eq_true] at hc
    exact ⟨iha h.1 hc.1, ihb h.2.1 hc.2⟩
  | npow a k iha | inv a iha | sqrt a iha => exact ⟨iha h hc, trivial⟩
  | abs a iha | fn f a iha => exact iha h hc
  | cut a b iha ihb =>
    simp only [Term.closed, Bool.and_eq_true] at hc
    exact ⟨iha h.1 hc.1, ihb h.2 hc.2, trivial, trivial⟩
  | tenFloor a iha => exact ⟨trivial, iha h hc⟩

theorem term_isConst (t : Term String D) (d : Fin D) (h : t.Printable T U lit ok) (hc : CCode.isConst (t.sym T lit d) = true) : t.isConst = true := by
  cases t with
  | num q => rw [Term.sym, (lit_plain h).2.2.2.2.2.1] at hc; cases hc
  | const c => rfl
  | «at» e p => exact sym_isConst e _ hc
  | _ => cases hc

theorem isConst_closed (e : Sym D) (h : CCode.isConst e = true) : e.Closed := by
  cases e <;> first | exact trivial | exact absurd h Bool.false_ne_true

theorem pow_inverses {a b : Sym D} (ha : ∀ k ∈ a.inverses, k.Closed) (hb : ∀ k ∈ b.inverses, k.Closed) (hc : CCode.isConst a = true → b.Closed) : ∀ k ∈ (Sym.pow a b).inverses, k.Closed := by
  intro q hq
  simp only [Sym.inverses] at hq
  split at hq
  · rename_i hcc
    rw [List.mem_singleton] at hq
    subst hq
    rcases hcc with hcc | hcc
    · rw [hcc]; exact ⟨⟨trivial, trivial⟩, trivial⟩
    · exact ⟨isConst_closed a hcc.1, hc hcc.1⟩
  · rcases List.mem_append.1 hq with hq | hq
    · exact ha q hq
    · exact hb q hq

theorem term_inverses (hr : Registered T.ops) (t : Term String D) (d : Fin D) (h : t.Printable T U lit ok) : ∀ k ∈ (t.sym T lit d).inverses, k.Closed := by
  induction t with
  | num q => rw [Term.sym, (lit_plain h).2.2.2.1]; simp
  | const c => simp [Term.sym, Sym.inverses]
  | var v => simp [Term.sym, Sym.inverses]
  | «at» e p => exact fun k hk => (sym_inverses hr e h.1.printable _ k hk).1
  | add a b iha ihb | max a b iha ihb | cut a b iha ihb =>
    intro v hv
    simp only [Term.sym, Sym.inverses, List.mem_append, List.not_mem_nil, or_false] at hv
    exact hv.elim (iha h.1 v) (ihb h.2 v)
  | mul a b iha ihb =>
    intro v hv
    simp only [Term.sym, Sym.inverses, List.mem_append] at hv
    exact hv.elim (iha h.1 v) (ihb h.2.1 v)
  | pow a b iha ihb => exact pow_inverses (iha h.1) (ihb h.2.1) fun hc => term_closed b d h.2.1 (h.2.2 (term_isConst a d h.1 hc))
  | npow a k iha | inv a iha | sqrt a iha => exact pow_inverses (iha h) (by simp [Sym.inverses]) fun _ => trivial
  | abs a iha | fn f a iha => exact iha h
  | tenFloor a iha => exact pow_inverses (by simp [Sym.inverses]) (iha h) fun hc => by cases hc

/-! ## Renaming -/

theorem map_isInt (g : V → W) (t : Term V D) : (t.map g).isInt = t.isInt := by
  induction t with
  | add a b iha ihb | mul a b iha ihb => simp only [Term.map, Term.isInt, iha, ihb]
  | _ => rfl

theorem map_recipInt (g : V → W) (t : Term V D) : (t.map g).recipInt = t.recipInt := by
  cases t <;> simp only [Term.map, Term.recipInt, map_isInt]

theorem map_closed (g : V → W) (t : Term V D) : (t.map g).closed = t.closed := by
  induction t with
  | add a b iha ihb | mul a b iha ihb | pow a b iha ihb | max a b iha ihb | cut a b iha ihb => simp only [Term.map, Term.closed, iha, ihb]
  | npow a k iha | inv a iha | sqrt a iha | abs a iha | fn f a iha | tenFloor a iha => simp only [Term.map, Term.closed, iha]
  | _ => rfl

theorem map_isConst (g : V → W) (t : Term V D) : (t.map g).isConst = t.isConst := by
  cases t <;> rfl

theorem map_printable {okv : V → Prop} {okw : W → Prop} (g : V → W) (hg : ∀ v, okv v → okw (g v)) (t : Term V D) (h : t.Printable T U lit okv) : (t.map g).Printable T U lit okw := by
  induction t with
  | num q => exact h
  | const c => exact h
  | var v => exact hg v h
  | «at» e p => exact h
  | add a b iha ihb | max a b iha ihb | cut a b iha ihb => exact ⟨iha h.1, ihb h.2⟩
  | mul a b iha ihb => exact ⟨iha h.1, ihb h.2.1, by rw [map_isInt, map_recipInt]; exact h.2.2⟩
  | pow a b iha ihb => exact ⟨iha h.1, ihb h.2.1, by rw [map_isConst, map_closed]; exact h.2.2⟩
  | npow a k iha | inv a iha | sqrt a iha | abs a iha | fn f a iha | tenFloor a iha => exact iha h

end OpenSBLI.Recon
