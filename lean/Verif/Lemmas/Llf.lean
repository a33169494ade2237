import Verif.Model.Llf
import Verif.Props.C09_C10_Weno
import Verif.Props.C11_C13_Teno

/-!
# Lemmas on the reconstruction used by the characteristic scheme
-/
namespace OpenSBLI.Llf
open Weno

theorem tauZ_congr (k : ℕ) (b b' : ℕ → ℝ) (h : ∀ r < k, b r = b' r) : tauZ k b = tauZ k b' := by
  unfold tauZ
  split_ifs <;> subst_vars <;> simp [h]

theorem omega_congr (k : ℕ) (a a' : ℕ → ℝ) (h : ∀ r < k, a r = a' r) (r : ℕ) (hr : r < k) :
    omega k a r = omega k a' r := by
  unfold omega
  rw [h r hr, Finset.sum_congr rfl fun r hr => h r (Finset.mem_range.1 hr)]

theorem wenoReconstruct_congr (form : Formulation) (side : Side) (k : ℕ) (hk : 2 ≤ k) (dz : ℝ)
    (d : ℕ → ℝ) (f g : ℤ → ℝ) (h : ∀ r < k, ∀ j < k, f (funcPoint side r j) = g (funcPoint side r j)) :
    wenoReconstruct form side k dz d f = wenoReconstruct form side k dz d g := by
  have hb : ∀ r < k, beta side k r dz f = beta side k r dz g := by
    intro r hr
    unfold beta
    congr 1
    apply List.map_congr_left
    intro e he
    obtain ⟨h1, h2⟩ := C10_extraction_in_stencil k r hk dz e he
    have e1 := h r hr _ h1
    have e2 := h r hr _ h2
    unfold funcPoint at e1 e2
    rw [e1, e2]
  have hc : ∀ r < k, candidate side k r f = candidate side k r g := by
    intro r hr
    unfold candidate
    exact Finset.sum_congr rfl fun j hj => by rw [h r hr j (Finset.mem_range.1 hj)]
  have hrec : ∀ ω ω' : ℕ → ℝ, (∀ r < k, ω r = ω' r) →
      reconstruction side k ω f = reconstruction side k ω' g := by
    intro ω ω' hω
    unfold reconstruction
    exact Finset.sum_congr rfl fun r hr => by
      rw [hc r (Finset.mem_range.1 hr), hω r (Finset.mem_range.1 hr)]
  unfold wenoReconstruct weights
  cases form with
  | JS =>
    simp only [Option.map_some, Option.some.injEq]
    exact hrec _ _ fun r hr => omega_congr k _ _ (fun r hr => by simp only [alphaJS, hb r hr]) r hr
  | Z =>
    simp only [Option.map_map]
    rw [tauZ_congr k _ _ hb]
    cases tauZ k fun r => beta side k r dz g with
    | none => rfl
    | some tau =>
      simp only [Option.map_some, Function.comp, Option.some.injEq]
      exact hrec _ _ fun r hr => omega_congr k _ _ (fun r hr => by simp only [alphaZ, hb r hr]) r hr

theorem tenoReconstruct_congr (o : Teno.Order) (side : Side) (eps CT : ℝ) (f g : ℤ → ℝ)
    (h : ∀ i < o.n, ∀ p ∈ Teno.points side i, f p = g p) :
    Teno.reconstruct o side eps CT f = Teno.reconstruct o side eps CT g := by
  have hb : ∀ i < o.n, Teno.beta side i f = Teno.beta side i g := by
    intro i hi
    have hi' := h i hi
    have hi4 : i < 4 := lt_of_lt_of_le hi (by cases o <;> simp [Teno.Order.n])
    interval_cases i <;> cases side <;> simp [Teno.points] at hi' <;> simp [Teno.beta, hi']
  have hc : ∀ i < o.n, Teno.candidate side i f = Teno.candidate side i g := by
    intro i hi
    unfold Teno.candidate
    congr 1
    apply List.map_congr_left
    intro e he
    rw [h i hi e.1 (List.of_mem_zip he).1]
  have ht : Teno.tau o (fun r => Teno.beta side r f) = Teno.tau o (fun r => Teno.beta side r g) := by
    cases o <;> simp only [Teno.tau, Teno.Order.n] at * <;> simp [hb]
  have ha : ∀ r < o.n, Teno.alpha o eps (fun r => Teno.beta side r f) r =
      Teno.alpha o eps (fun r => Teno.beta side r g) r := by
    intro r hr
    simp only [Teno.alpha, ht, hb r hr]
  have hd : ∀ r < o.n, Teno.delta o CT (Teno.alpha o eps (fun r => Teno.beta side r f)) r =
      Teno.delta o CT (Teno.alpha o eps (fun r => Teno.beta side r g)) r := by
    intro r hr
    unfold Teno.delta
    rw [ha r hr, Finset.sum_congr rfl fun r hr => ha r (Finset.mem_range.1 hr)]
  unfold Teno.reconstruct Teno.weights Teno.omega Teno.omegaSum
  refine Finset.sum_congr rfl fun r hr => ?_
  rw [hc r (Finset.mem_range.1 hr), hd r (Finset.mem_range.1 hr),
    Finset.sum_congr rfl fun r hr => by rw [hd r (Finset.mem_range.1 hr)]]

/-- A reconstruction only depends on the values at its function points. -/
theorem recon_congr (s : Scheme) (hs : s.Valid) (side : Side) (f g : ℤ → ℝ)
    (h : ∀ p ∈ s.funcPoints side, f p = g p) : s.recon side f = s.recon side g := by
  cases s with
  | weno form k dz d =>
    simp only [Scheme.recon]
    rw [wenoReconstruct_congr form side k hs.1 dz (d side) f g]
    intro r hr j hj
    apply h
    simp only [Scheme.funcPoints, Finset.mem_biUnion, Finset.mem_image, Finset.mem_range]
    exact ⟨r, hr, j, hj, rfl⟩
  | teno o eps CT =>
    simp only [Scheme.recon]
    apply tenoReconstruct_congr
    intro i hi p hp
    apply h
    simp only [Scheme.funcPoints, Finset.mem_biUnion, List.mem_toFinset, Finset.mem_range]
    exact ⟨i, hi, hp⟩

theorem recon_const (s : Scheme) (hs : s.Valid) (side : Side) (c : ℝ) :
    s.recon side (fun _ => c) = c := by
  cases s with
  | weno form k dz d =>
    obtain ⟨hk, hz, hdz, hd⟩ := hs
    simp only [Scheme.recon]
    obtain ⟨ω, hω⟩ := (C09_weights_defined form k (d side)
      (fun r => beta side k r dz fun _ => c)).2 fun hf => ⟨hk, hz hf⟩
    have hv : wenoReconstruct form side k dz (d side) (fun _ => c) =
        some (reconstruction side k ω fun _ => c) := by
      unfold wenoReconstruct; rw [hω]; rfl
    rw [hv]
    exact C09_constant_exact form side k hk dz hdz (d side) (hd side) c _ hv
  | teno o eps CT => exact Teno.C11_constant_exact o side eps CT hs.1 hs.2 c

theorem mem_stencilPoints (s : Scheme) (side : Side) (p : ℤ) (h : p ∈ s.funcPoints side) :
    p ∈ s.stencilPoints := by
  unfold Scheme.stencilPoints
  rw [Finset.mem_sort, Finset.mem_union]
  cases side
  · exact Or.inr h
  · exact Or.inl h

theorem le_foldl_max (ev : ℤ → ℝ) (pts : List ℤ) (a : ℝ) :
    a ≤ pts.foldl (fun out p => max out |ev p|) a := by
  induction pts generalizing a with
  | nil => exact le_rfl
  | cons x l ih => exact (le_max_left _ _).trans (ih _)

theorem abs_le_foldl_max (ev : ℤ → ℝ) (pts : List ℤ) (a : ℝ) (p : ℤ) (hp : p ∈ pts) :
    |ev p| ≤ pts.foldl (fun out p => max out |ev p|) a := by
  induction pts generalizing a with
  | nil => cases hp
  | cons x l ih =>
    rcases List.mem_cons.1 hp with rfl | h
    · exact (le_max_right _ _).trans (le_foldl_max ev l _)
    · exact ih _ h

theorem foldl_max_le (ev : ℤ → ℝ) (pts : List ℤ) (a c : ℝ) (ha : a ≤ c)
    (h : ∀ p ∈ pts, |ev p| ≤ c) : pts.foldl (fun out p => max out |ev p|) a ≤ c := by
  induction pts generalizing a with
  | nil => exact ha
  | cons x l ih =>
    exact ih _ (max_le ha (h x (List.mem_cons_self ..))) fun p hp => h p (List.mem_cons_of_mem _ hp)

end OpenSBLI.Llf
