import Verif.Model.Ranges

/-!
# Multi-block interfaces

Model of `core/boundary_conditions/multi_block.py` (`InterfaceBC.apply_interface` 41-92, `SharedInterfaceBC.apply_interface` 97-148) for full
planes, and of the generated halo transfer (`bc_exchange_call_code`, opsc.py 555-593).
-/
namespace OpenSBLI.MultiBlock
open Ranges

variable {n : ℕ}

/-- The `match` argument of an interface: block, direction, side, and possibly a further entry; the block number is not needed here. -/
structure Match (n : ℕ) where
  direction : Fin n
  side : Bool
  /-- a fourth entry, when given -/
  extra : Option Bool

/-- `instance.flip[-1]`, opsc.py 573, with `flip = match` (multi_block.py 90): the last entry, which is the side when there are three. -/
def Match.flip (m : Match n) : Bool := m.extra.getD m.side

/-- Transfer sizes and locations, multi_block.py 53-77 and 109-133. `np1`, `np2` are the numbers of points of the two blocks (`Idxed_shape` has
`lower = 0`, `upper = np`), `halos` are those of the receiving block. -/
def interface (shared : Bool) (np1 np2 : Fin n → ℤ) (halos : Fin n → ℤ × ℤ) (direction : Fin n) (side : Bool) (m : Match n) : Transfer n :=
  { size := Function.update (fun d => (np2 d + 0) + (abs (halos d).1 + abs (halos d).2)) direction
      (if m.side then abs (halos m.direction).2 else abs (halos m.direction).1)
    src := Function.update (fun d => (halos d).1) direction
      (if side then np1 direction + (halos m.direction).1 - (if shared then 1 else 0) else 0 + (if shared then 1 else 0))
    dst := if m.side then Function.update (fun d => (halos d).1) m.direction (np2 m.direction) else fun d => (halos d).1 }

/-- Meaning of the OPS halo transfer from array `a` of the first block to array `b` of the second, with `to_dir` negated in the direction of the
match when flipped (opsc.py 570-574): that direction of the destination box is traversed backwards. -/
def transfer {α : Type} (t : Transfer n) (m : Match n) (a b : (Fin n → ℤ) → α) (x : Fin n → ℤ) : α :=
  if ∀ d, t.dst d ≤ x d ∧ x d < t.dst d + t.size d then
    a fun d => if d = m.direction ∧ m.flip = true then t.src d + (t.size d - 1 - (x d - t.dst d)) else t.src d + (x d - t.dst d)
  else b x

end OpenSBLI.MultiBlock
