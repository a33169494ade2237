import Verif.Model.Simulation

/-!
# Writing and reading HDF5 files

Model of the objects of `core/io_hdf5.py` as far as their arguments are concerned (19-49, 63-79), of the declaration of arrays read from files (`declare_dataset`, code_generation/opsc.py 693-723) and of the files of a run: which
file a write goes to (io_hdf5.py 99-125) and what it leaves there. The places of the objects in the program are in `Model/Algorithm.lean`.
-/
namespace OpenSBLI.Restart
open OpenSBLI.Sim

/-! ## The objects -/

/-- Python's `str.lower` on ASCII text. -/
def lower (s : String) : String := String.ofList (s.toList.map Char.toLower)

/-- An `iohdf5` object after its construction. -/
structure Obj where
  kwargs : List (String × String)
  arrays : List String
  places : List Alg.Place
  deriving DecidableEq

/-- The value of a key; of two equal keys, which the conversion to lower case can produce, the later one. -/
def Obj.get (o : Obj) (key : String) : Option String := (o.kwargs.reverse.find? fun p => p.1 = key).map Prod.snd

/-- `iohdf5.__new__`, io_hdf5.py 20-37, and `get_algorithm_location`, 39-49: keys and values are converted to lower case; without keywords the object writes. `saveEvery` is 0 for `None`. -/
def Obj.new (arrays : List String) (saveEvery : ℕ) (kwargs : List (String × String)) : Except String Obj :=
  let kw := if kwargs = [] then [("iotype", "write")] else kwargs.map fun p => (lower p.1, lower p.2)
  let inTime : List Alg.Place := if saveEvery = 0 then [] else [.inTheSimulation saveEvery]
  let o : Obj := ⟨kw, arrays, []⟩
  match o.get "iotype" with
  | none => .error "KeyError"
  | some t => if t = "write" then .ok { o with places := inTime ++ [.after] } else if t = "read" then .ok { o with places := [.before] } else .error "ValueError"

/-- The object as the algorithm sees it. -/
def Obj.io (o : Obj) (id : ℕ) : Alg.IO := ⟨id, o.get "iotype" = some "write", o.get "name", o.places⟩

/-! ## Reading -/

/-- An entry of `block.block_datasets`: whether it is a `DataSetBase` with the attributes of `dataset_attributes` (helperfunctions.py 154-163), which alone are declared (opsc.py 498), and the file it is read from. -/
structure Dset where
  name : String
  base : Bool
  file : Option String
  deriving DecidableEq

/-- `set_read_from_hdf5_arrays`, io_hdf5.py 63-79, one array: the entry is marked; an array that is no dataset of the block is entered as it is, and the file name is given to the variable `dset`, which is the entry marked before or not bound. -/
def readStep (file : String) (st : List Dset × Option String) (ar : String) : Except String (List Dset × Option String) :=
  if st.1.any fun d => d.name = ar then .ok (st.1.map fun d => if d.name = ar then { d with file := some file } else d, some ar)
  else match st.2 with
    | none => .error "UnboundLocalError"
    | some _ => .ok (st.1 ++ [⟨ar, false, none⟩], st.2)

/-- `set_read_from_hdf5_arrays`. The default file is `data.h5`. -/
def Obj.setRead (o : Obj) (ds : List Dset) : Except String (List Dset) :=
  if o.get "iotype" = some "read" then do
    let r ← o.arrays.foldlM (readStep ((o.get "filename").getD "data.h5")) (ds, none)
    .ok r.1
  else .ok ds

/-- `discretise`, block.py 176-178: all objects of the block. -/
def setReads (objs : List Obj) (ds : List Dset) : Except String (List Dset) := objs.foldlM (fun ds o => o.setRead ds) ds

/-- The files from which the declared arrays are read (`ops_decl_dat_hdf5`, opsc.py 702-705). -/
def sources (ds : List Dset) (s : String) : Option String := (ds.find? fun d => d.name = s ∧ d.base).bind Dset.file

/-! ## Files -/

variable {D n : ℕ}

/-- The files: the arrays they hold. -/
abbrev Files (D : ℕ) := String → String → Option (P D → ℝ)

/-- The file of a write, io_hdf5.py 99-119: a name given by the user, with the ending `.h5`, or `opensbli_output` with the number. -/
def target (o : Alg.IO) (number : Option ℤ) : String :=
  match o.name with
  | some f => if (f.splitOn ".h5").length > 1 then f else f ++ ".h5"
  | none => Alg.fileName (number.map Int.toNat)

open Classical in
/-- The effect of a write: the arrays of the object are replaced in the file, the others stay (`ops_fetch_dat_hdf5_file`). -/
noncomputable def store (arrays : List String) (file : String) (m : Mem D) (fs : Files D) : Files D :=
  fun f s => if f = file ∧ s ∈ arrays then some (m (.data s)) else fs f s

/-- The files after an event; writes see the arrays before it, which they do not change. -/
noncomputable def filesAfter (arrays : ℕ → List String) (st : Mem D × Files D) : Alg.Event (Call D) → Files D
  | .write o k _ => store (arrays o.id) (target o k) st.1 st.2
  | _ => st.2

/-- A run with its files. -/
noncomputable def runFiles (exec : Alg.Event (Call D) → Mem D → Mem D) (arrays : ℕ → List String) (evs : List (Alg.Event (Call D))) (st : Mem D × Files D) : Mem D × Files D :=
  evs.foldl (fun st v => (exec v st.1, filesAfter arrays st v)) st

/-- The arrays when the program starts: those read from files have the values of the file, the others whatever the memory holds. OPS stops when a file does not have the array; here the memory is then left as it is, and the theorems show
that the arrays they speak about are in the file. -/
def load (source : String → Option String) (fs : Files D) (m : Mem D) : Mem D
  | .data s => match source s with
    | some f => (fs f s).getD (m (.data s))
    | none => m (.data s)
  | a => m a

end OpenSBLI.Restart
