import Verif.Model.Hdf5
import Mathlib.Tactic.NormNum
import Mathlib.Tactic.Linarith

/-!
# C58 Stripping halos from output
-/
namespace OpenSBLI.Hdf5

/-- The specification. One axis of a stored array: halo depth below, interior points, halo depth above. -/
structure Axis where
  lower : ℕ
  interior : ℕ
  upper : ℕ

/-- The length of the stored axis. -/
def Axis.total (x : Axis) : ℕ := x.lower + x.interior + x.upper

/-- The array `b` holds exactly the interior of `a`: its shape is that of the interior, and every interior point has its value. -/
def IsInterior {α : Type} (axes : List Axis) (a b : Arr α) : Prop :=
  b.shape = axes.map Axis.interior ∧
    ∀ idx : List ℕ, idx.length = axes.length → b.at_ idx = a.at_ (List.zipWith (fun (i : ℕ) (x : Axis) => i + x.lower) idx axes)

theorem pySlice_axis (x : Axis) : pySlice x.lower ((x.total : ℤ) - (-(x.lower : ℤ)).natAbs) x.total = (x.lower, x.interior + x.upper - x.lower) := by
  have h : (x.total : ℤ) - ((-(x.lower : ℤ)).natAbs : ℕ) = (x.interior + x.upper : ℕ) := by
    simp only [Int.natAbs_neg, Int.natAbs_natCast, Axis.total]; omega
  have ht : x.total = x.lower + x.interior + x.upper := rfl
  rw [h]
  generalize x.total = t at *
  simp only [pySlice]
  rw [if_neg (by omega)]
  have : min x.lower t = x.lower := by omega
  rw [this]
  refine Prod.ext rfl ?_
  show (min ((x.interior + x.upper : ℕ) : ℤ) _ - _).toNat = _
  omega

/-- The slices the function uses for stored axes and metadata describing them. -/
theorem slices_get (axes : List Axis) (k : ℕ) (hk : k < axes.length) :
    (((axes.map fun x => -(x.lower : ℤ)).map fun d => d.natAbs).zip
      (((axes.map fun x => -(x.lower : ℤ)).zip (axes.map Axis.total)).map fun p => (p.2 : ℤ) - p.1.natAbs))[k]? =
      some (axes[k].lower, (axes[k].total : ℤ) - (-(axes[k].lower : ℤ)).natAbs) := by
  simp [hk]

theorem shape_slices (axes : List Axis) :
    (sliceAxes (α := α) ⟨axes.map Axis.total, f⟩ (((axes.map fun x => -(x.lower : ℤ)).map fun d => d.natAbs).zip
      (((axes.map fun x => -(x.lower : ℤ)).zip (axes.map Axis.total)).map fun p => (p.2 : ℤ) - p.1.natAbs))).shape =
      axes.map fun x => x.interior + x.upper - x.lower := by
  apply List.ext_getElem
  · simp [sliceAxes]
  · intro k h1 h2
    have hk : k < axes.length := by simpa using h2
    simp only [sliceAxes, List.getElem_map, List.getElem_zipIdx, Nat.zero_add]
    rw [slices_get axes k hk]
    simp only [pySlice_axis]

theorem at_slices (axes : List Axis) (f : List ℕ → α) (idx : List ℕ) (hi : idx.length = axes.length) :
    (sliceAxes ⟨axes.map Axis.total, f⟩ (((axes.map fun x => -(x.lower : ℤ)).map fun d => d.natAbs).zip
      (((axes.map fun x => -(x.lower : ℤ)).zip (axes.map Axis.total)).map fun p => (p.2 : ℤ) - p.1.natAbs))).at_ idx =
      f (List.zipWith (fun (i : ℕ) (x : Axis) => i + x.lower) idx axes) := by
  simp only [sliceAxes]
  congr 1
  apply List.ext_getElem
  · simp [hi]
  · intro k h1 h2
    have hk : k < axes.length := by simp at h2; omega
    simp only [List.getElem_map, List.getElem_zipIdx, Nat.zero_add, List.getElem_zipWith]
    rw [slices_get axes k hk]
    have ht : (axes.map Axis.total).getD k 0 = axes[k].total := by simp [hk]
    simp only [ht, pySlice_axis]

/-- C58, partial: for two and three dimensional arrays of any size with any halo depths, with metadata that describes them, reading gives exactly the interior points if and only if the
lower and upper depth agree in every direction. Missing: different depths, for which the upper end is cut at the lower depth, and one dimension (`C58_one_dimension`). -/
theorem C58_interior_partial {α : Type} (axes : List Axis) (hrank : axes.length = 2 ∨ axes.length = 3) (hint : ∀ x ∈ axes, 0 < x.interior)
    (f : List ℕ → α) :
    ∃ b, readDataset ⟨axes.map Axis.total, f⟩ (axes.map fun x => -(x.lower : ℤ)) = .ok b ∧
      (IsInterior axes ⟨axes.map Axis.total, f⟩ b ↔ ∀ x ∈ axes, x.upper = x.lower) := by
  refine ⟨sliceAxes ⟨axes.map Axis.total, f⟩ (((axes.map fun x => -(x.lower : ℤ)).map fun d => d.natAbs).zip
      (((axes.map fun x => -(x.lower : ℤ)).zip (axes.map Axis.total)).map fun p => (p.2 : ℤ) - p.1.natAbs)), ?_, ?_⟩
  · unfold readDataset
    have hl : (((axes.map fun x => -(x.lower : ℤ)).zip (axes.map Axis.total)).map fun p => (p.2 : ℤ) - p.1.natAbs).length = axes.length := by simp
    simp only []
    rw [hl, if_neg (by omega), if_pos hrank]
  · constructor
    · rintro ⟨hs, _⟩ x hx
      rw [shape_slices] at hs
      have := List.map_inj_left.mp hs x hx
      have := hint x hx
      omega
    · intro h
      refine ⟨?_, fun idx hi => at_slices axes f idx hi⟩
      rw [shape_slices]
      refine List.map_congr_left fun x hx => ?_
      have := h x hx
      omega

/-- C58: one dimensional datasets cannot be read, and neither can datasets of rank above three. -/
theorem C58_one_dimension {α : Type} (axes : List Axis) (f : List ℕ → α) :
    (axes.length = 1 → readDataset ⟨axes.map Axis.total, f⟩ (axes.map fun x => -(x.lower : ℤ)) = .error .nameError) ∧
      (3 < axes.length → readDataset ⟨axes.map Axis.total, f⟩ (axes.map fun x => -(x.lower : ℤ)) = .error .notImplemented) := by
  have hl : (((axes.map fun x => -(x.lower : ℤ)).zip (axes.map Axis.total)).map fun p => (p.2 : ℤ) - p.1.natAbs).length = axes.length := by simp
  constructor
  · intro h
    unfold readDataset
    simp only []
    rw [hl, if_pos h]
  · intro h
    unfold readDataset
    simp only []
    rw [hl, if_neg (by omega), if_neg (by omega)]

/-- C58: the metadata of a two dimensional dataset, halos given as one pair for each direction: lower depths in `d_m`, upper depths in `d_p`. -/
theorem C58_metadata_two (m0 p0 m1 p1 : ℤ) : setMetadata [[m0, p0], [m1, p1]] 2 = .ok ([m0, m1], [p0, p1]) := rfl

/-- C58: written and read back in two dimensions, with equal depths: exactly the interior. -/
theorem C58_round_trip_two {α : Type} (x y : Axis) (hx : x.upper = x.lower) (hy : y.upper = y.lower) (hxi : 0 < x.interior) (hyi : 0 < y.interior)
    (f : List ℕ → α) :
    ∃ d_m d_p b, setMetadata [[-(x.lower : ℤ), x.upper], [-(y.lower : ℤ), y.upper]] 2 = .ok (d_m, d_p) ∧
      readDataset ⟨[x.total, y.total], f⟩ d_m = .ok b ∧ IsInterior [x, y] ⟨[x.total, y.total], f⟩ b := by
  obtain ⟨b, hb, hi⟩ := C58_interior_partial [x, y] (Or.inl rfl) (by simp [hxi, hyi]) f
  exact ⟨_, _, b, C58_metadata_two _ _ _ _, hb, hi.mpr (by simp [hx, hy])⟩

/-- C58 (finding): in three dimensions halos given as one pair for each direction are rejected. -/
theorem C58_three_rejected (h0 h1 h2 : List ℤ) : setMetadata [h0, h1, h2] 3 = .error .valueError := rfl

/-- C58 (finding): whatever three dimensional metadata is accepted, it describes two directions only, and reading the dataset leaves the halo points of the third direction in
place. -/
theorem C58_three_truncated {α : Type} (halos : List (List ℤ)) (d_m d_p : List ℤ) (h : setMetadata halos 3 = .ok (d_m, d_p)) (a : Arr α) (s0 s1 s2 : ℕ)
    (ha : a.shape = [s0, s1, s2]) : d_m.length = 2 ∧ d_p.length = 2 ∧ ∃ b, readDataset a d_m = .ok b ∧ b.shape[2]? = some s2 := by
  unfold setMetadata at h
  split at h
  · cases h
  · split at h
    · cases h
    · split at h
      · split at h
        · cases h
          refine ⟨rfl, rfl, _, by simp only [readDataset, ha, List.zip_cons_cons, List.zip_nil_left, List.map_cons, List.map_nil, List.length_cons, List.length_nil, Nat.reduceAdd, Nat.reduceEqDiff, if_false, true_or, if_true]; rfl, ?_⟩
          simp [sliceAxes, ha]
        · cases h
      · cases h

/-- C58 (finding): one dimensional metadata cannot be written. -/
theorem C58_one_metadata (halos : List (List ℤ)) : ∃ e, setMetadata halos 1 = .error e := by
  unfold setMetadata
  split
  · exact ⟨_, rfl⟩
  · split
    · exact ⟨_, rfl⟩
    · rename_i hl
      split
      · rename_i a b _ 
        have ha : a.length = 1 := by simp_all
        have : a[1]? = none := List.getElem?_eq_none (by omega)
        rw [this]
        split
        · rename_i heq _ ; simp_all
        · exact ⟨_, rfl⟩
      · exact ⟨_, rfl⟩

/-- Halo depth five below and above in both directions, as in the Kelvin-Helmholtz application. -/
example : setMetadata [[-5, 5], [-5, 5]] 2 = .ok ([-5, -5], [5, 5]) := rfl

/-- Depth one below and two above, three interior points: four points are read instead of three. -/
example : (match readDataset (α := ℕ) ⟨[6, 6], fun _ => 0⟩ [-1, -1] with | .ok b => b.shape | .error _ => []) = [4, 4] := by decide

end OpenSBLI.Hdf5
