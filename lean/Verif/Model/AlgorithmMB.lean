import Verif.Model.Algorithm
import Verif.Model.MultiBlock

/-!
# The generated program for several blocks

Model of `multiblock/algorithm.py` (`TraditionalAlgorithmRKMB`, 388-585) on top of the components of `Model/Algorithm.lean`, which this file of the code repeats, and of the order in which the
boundary kernels of the blocks run (`multiblock/blockcollection.py` 6-27 and 66-78). Python 2, as `iteritems` (474) exists there only.
-/
namespace OpenSBLI.Alg
variable {K : Type}

/-- Equation classes of a temporal scheme's `solution`, lines 474-493: as in one block, and metrics with their two lists of kernels. -/
inductive ItemMB (K : Type) where
  | plain (i : Item K)
  | metrics (fd sd : List K)

/-- A temporal scheme of a block: class name, bounds of the loops over stages and steps, and its solutions. -/
structure SchemeMB (K : Type) where
  name : String
  stages : ℤ
  niter : ℤ
  items : List (ItemMB K)

/-- A block. -/
structure BlockMB (K : Type) where
  schemes : List (SchemeMB K)
  ios : List IO

/-- State of the loop of lines 468-493. -/
structure AccMB (K : Type) where
  acc : Acc K := {}
  metrics : List (List K × List K) := []

/-- Lines 476-493: everything is accumulated. -/
def AccMB.add (a : AccMB K) : ItemMB K → Except String (AccMB K)
  | .plain (.simulation s f k b sp) => .ok { a with
      acc := { a.acc with
        start := a.acc.start ++ s
        finish := a.acc.finish ++ f
        advance := a.acc.advance ++ k
        bc := a.acc.bc ++ b
        spatial := a.acc.spatial ++ sp } }
  | .metrics fd sd => .ok { a with metrics := a.metrics ++ [(fd, sd)] }
  | .plain (.nonSimulation o p k) => .ok { a with acc := { a.acc with nonSim := a.acc.nonSim ++ [(o, p, k)] } }
  | .plain .constituent => .ok a
  | .plain .other => .error "Equations class can not be classified"

/-- All temporal schemes, block by block. -/
def schemesOf (blocks : List (BlockMB K)) : List (SchemeMB K) := blocks.flatMap BlockMB.schemes

/-- All entries of a list are equal and there is one: `len(set(l)) == 1`. -/
def oneValue {A : Type} [DecidableEq A] (l : List A) : Bool :=
  match l with
  | [] => false
  | a :: l => l.all fun b => b == a

/-- `TraditionalAlgorithmRKMB.__init__`, lines 395-412: `check_temporal_scheme` (571-585) and `spatial_solution` (449-533). -/
def generateMB (blocks : List (BlockMB K)) : Except String (List (Node K)) :=
  if oneValue ((schemesOf blocks).map SchemeMB.name) = false then .error "More than one temporal scheme"
  else match ((schemesOf blocks).flatMap SchemeMB.items).foldlM AccMB.add ({} : AccMB K) with
    | .error e => .error e
    | .ok a =>
      match (sortByOrder a.acc.nonSim).foldlM (fun p (x : ℤ × List Place × List K) => x.2.1.foldlM (Placed.addKernels x.2.2) p) ({} : Placed K) with
      | .error e => .error e
      | .ok p =>
        let p : Placed K := { p with before := p.before ++ (a.metrics.flatMap Prod.fst ++ a.metrics.flatMap Prod.snd).map .kernel }
        if oneValue ((schemesOf blocks).map SchemeMB.niter) = false ∨ oneValue ((schemesOf blocks).map SchemeMB.stages) = false then .error ""
        else match schemesOf blocks with
          | [] => .error ""
          | s :: _ => .ok (assemble ⟨1, [], s.stages, s.niter, none, blocks.flatMap BlockMB.ios⟩ a.acc p)

/-- Variables declared by the printed code in the scope of `main`, as `Node.declares`: an output object has the number of its block (`io.block_number = block_number`, `get_io_mb` 541), which is
part of the name of its buffer (io_hdf5.py 100, 113). -/
def Node.declaresMB (block : IO → ℕ) : Node K → List String
  | .io o _ => if o.write && o.name.isNone then ["name" ++ toString (block o)] else []
  | .timers _ => ["cpu_start0", "elapsed_start0", "cpu_end0", "elapsed_end0"]
  | _ => []

end OpenSBLI.Alg

namespace OpenSBLI.MultiBlock
variable {n : ℕ} {α : Type}

/-- An interface of block `src` to block `dst`. -/
structure Link (n B : ℕ) where
  src : Fin B
  dst : Fin B
  direction : Fin n
  side : Bool
  target : Match n

/-- The exchange of one interface on the arrays of all blocks; `np b` are the numbers of points of block `b`, all halos are of depth `h`. -/
def Link.run {B : ℕ} (np : Fin B → Fin n → ℤ) (h : ℤ) (l : Link n B) (st : Fin B → (Fin n → ℤ) → α) : Fin B → (Fin n → ℤ) → α :=
  Function.update st l.dst (transfer (interface false (np l.src) (np l.dst) (fun _ => (-h, h)) l.direction l.side l.target) l.target (st l.src) (st l.dst))

/-- The boundary kernels of all blocks, `bc_kernels` of algorithm.py 481: block by block, the conditions of the block itself and then its interfaces (`apply_interface_bc` appends them after all
blocks have been discretised, blockcollection.py 68-79; by direction and side, 8-16). -/
def boundaryPhase {B : ℕ} (np : Fin B → Fin n → ℤ) (h : ℤ) (own : Fin B → ((Fin n → ℤ) → α) → (Fin n → ℤ) → α) (links : Fin B → List (Link n B))
    (st : Fin B → (Fin n → ℤ) → α) : Fin B → (Fin n → ℤ) → α :=
  (List.finRange B).foldl (fun st b => (links b).foldl (fun st l => l.run np h st) (Function.update st b (own b (st b)))) st

end OpenSBLI.MultiBlock
