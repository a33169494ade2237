import Mathlib.Data.List.Basic
import Mathlib.Data.Int.Order.Basic

/-!
# Halo metadata of HDF5 datasets

Model of `set_hdf5_metadata` (utilities/helperfunctions.py 80-101) and `read_dataset` (postprocess/removehalos.py 14-27). The HDF5 file is a dataset with shape, values and the attributes
`d_m`, `d_p`. Not modelled: the file itself, the remaining attributes, and the Python 2 `print` statements of the script.
-/
namespace OpenSBLI.Hdf5

/-- Exceptions of the two functions. -/
inductive Err where
  | valueError
  | indexError
  | nameError
  | notImplemented
  deriving DecidableEq, Repr

/-- An array of any rank: the shape, and the value at each multi-index. -/
structure Arr (α : Type) where
  shape : List ℕ
  at_ : List ℕ → α

/-- `a[start:stop]` along one axis of the given length, Python slice with non-negative start: a negative stop counts from the end. Gives first index and
number of entries. -/
def pySlice (start : ℕ) (stop : ℤ) (len : ℕ) : ℕ × ℕ :=
  let e : ℤ := if stop < 0 then max 0 (stop + len) else min stop len
  (min start len, (e - (min start len : ℕ)).toNat)

/-- `a[s0:e0, s1:e1, ...]`: one slice per leading axis, further axes are kept whole. -/
def sliceAxes {α : Type} (a : Arr α) (slices : List (ℕ × ℤ)) : Arr α where
  shape := (a.shape.zipIdx).map fun p => match slices[p.2]? with
    | some s => (pySlice s.1 s.2 p.1).2
    | none => p.1
  at_ := fun idx => a.at_ ((idx.zipIdx).map fun p => match slices[p.2]? with
    | some s => p.1 + (pySlice s.1 s.2 (a.shape.getD p.2 0)).1
    | none => p.1)

/-- `read_dataset`, removehalos.py 14-27: `read_start` from `d_m`, `read_end` from the size and `d_m` again, with `zip` stopping at the shorter list. The one dimensional branch
reads the undefined name `group`. -/
def readDataset {α : Type} (a : Arr α) (d_m : List ℤ) : Except Err (Arr α) :=
  let readStart := d_m.map fun d => d.natAbs
  let readEnd := (d_m.zip a.shape).map fun p => (p.2 : ℤ) - p.1.natAbs
  if readEnd.length = 1 then .error .nameError
  else if readEnd.length = 2 ∨ readEnd.length = 3 then .ok (sliceAxes a (readStart.zip readEnd))
  else .error .notImplemented

/-- `set_hdf5_metadata`, helperfunctions.py 82-90: the checks, then `d_m` and `d_p` from the first and second entries of `halos[0]` and `halos[1]`. Result `(d_m, d_p)`. -/
def setMetadata (halos : List (List ℤ)) (ndim : ℕ) : Except Err (List ℤ × List ℤ) :=
  if halos.length ≠ 2 then .error .valueError
  else if ¬ halos.all (fun h => h.length = ndim) then .error .valueError
  else match halos with
    | [a, b] => match a[0]?, b[0]?, a[1]?, b[1]? with
      | some a0, some b0, some a1, some b1 => .ok ([a0, b0], [a1, b1])
      | _, _, _, _ => .error .indexError
    | _ => .error .valueError

end OpenSBLI.Hdf5
