import Verif.Model.MpiLayout
import Mathlib.Data.Real.Basic
import Mathlib.Logic.Function.Basic

/-!
# Exchange of arrays with files through PDI

Model of `src/io/pdi_helper.hpp`, `src/io/output.hpp`, of the reading of the species at a restart (`src/speciesinfo/species_init.cpp`) and of the
parallel output of the distribution function (`simulations/geometryXYVxVy/landau/landau4d_fft.cpp`,
`simulations/geometryXYVxVy/landau/pdi_out.yml.hpp`).

PDI itself is external.  The part of its specification that is used: a name denotes a stack of references to buffers; `PDI_share` pushes a
reference, `PDI_reclaim` pops one and keeps the value of a metadata for `$name` expressions; an event makes the plugin `decl_hdf5` read the
datasets listed in the configuration into the buffers on top of the stacks, the size of an array being given by the expression `$<name>_extents[0]`
(the convention of the configurations in the repository, e.g. `tests/io/test_pdi.cpp` 22-48).
-/
namespace Verif.Pdi

/-- What a call does: it returns, PDI stops the program with an error message, or memory which does not belong to a buffer is accessed (undefined
behaviour; the comment of each use says where). Used in the model of `pdi_helper.hpp:19-34`. -/
inductive Out (α : Type*)
  | ok (a : α)
  | error
  | ub

/-- Sequence of two statements (pdi_helper.hpp 19-34: the statements follow each other). -/
def Out.bind {α β : Type*} : Out α → (α → Out β) → Out β
  | .ok a, k => k a
  | .error, _ => .error
  | .ub, _ => .ub

/-- A fold expression `(f(I), ...)` (pdi_helper.hpp 21, 25, 28, 30, 34): one statement per element, in order. -/
def Out.forAll {α β : Type*} (f : α → β → Out β) : List α → β → Out β
  | [], s => .ok s
  | a :: l, s => (f a s).bind (Out.forAll f l)

/-- A reference to a buffer: element `i` of the local array `sizes` (pdi_helper.hpp 19), or a vector of the caller (pdi_helper.hpp 30). -/
inductive Ref
  | size (i : ℕ)
  | vec (v : ℕ)

/-- The state: the local array `sizes` (not initialised: `none`, pdi_helper.hpp 19), the vectors of the caller, and the store of PDI: the stack of
references of each name and the value kept for a metadata. -/
structure St (V : Type) where
  sizes : ℕ → Option ℕ
  vecs : ℕ → List V
  shared : String → List Ref
  known : String → Option ℕ

/-- A dataset of the file: a size or an array. Used in the model of `pdi_helper.hpp:23`. -/
inductive Dataset (V : Type)
  | scalar (n : ℕ)
  | array (d : List V)

variable {V : Type}

/-- `PDI_share(name, pointer, PDI_INOUT)` (pdi_helper.hpp 21, 30). -/
def share (n : String) (r : Ref) (s : St V) : Out (St V) :=
  .ok { s with shared := Function.update s.shared n (r :: s.shared n) }

/-- `PDI_reclaim(name)` (pdi_helper.hpp 25, 34); an error when nothing is shared under this name. -/
def reclaim (n : String) (s : St V) : Out (St V) :=
  match s.shared n with
  | [] => .error
  | .size i :: t => .ok { s with shared := Function.update s.shared n t, known := Function.update s.known n (s.sizes i) }
  | .vec _ :: t => .ok { s with shared := Function.update s.shared n t }

/-- One dataset read by an event (pdi_helper.hpp 23, 32).  The declared size of an array is the metadata `<name>_extents`; a dataset of another size is
an error; a buffer smaller than the declared size is overrun. -/
def readOne (file : String → Option (Dataset V)) (n : String) (s : St V) : Out (St V) :=
  match s.shared n, file n with
  | .size i :: _, some (.scalar k) => .ok { s with sizes := Function.update s.sizes i (some k) }
  | .vec v :: _, some (.array d) =>
    match s.known (n ++ "_extents") with
    | none => .error
    | some k =>
      if d.length ≠ k then .error
      else if (s.vecs v).length < k then .ub
      else .ok { s with vecs := Function.update s.vecs v (d ++ (s.vecs v).drop k) }
  | _, _ => .error

/-- `PDI_event(name)` (pdi_helper.hpp 23, 32): `reads` is the configuration, from events to the names of the datasets that are read. -/
def event (reads : String → List String) (file : String → Option (Dataset V)) (e : String) (s : St V) : Out (St V) :=
  Out.forAll (readOne file) (reads e) s

/-- `std::get<I>(args).resize(sizes[I])` (pdi_helper.hpp 28): the elements which are kept, then default elements.  An uninitialised size is undefined
behaviour. -/
def resize (fill : V) (p : (String × ℕ) × ℕ) (s : St V) : Out (St V) :=
  match s.sizes p.2 with
  | none => .ub
  | some k =>
    .ok { s with vecs := Function.update s.vecs p.1.2 ((s.vecs p.1.2).take k ++ List.replicate (k - (s.vecs p.1.2).length) fill) }

/-- `detail::PDI_get_array` (pdi_helper.hpp 12-35) for pairs (name, vector). -/
def getArray (fill : V) (reads : String → List String) (file : String → Option (Dataset V)) (e : String) (ps : List (String × ℕ)) (s : St V) :
    Out (St V) :=
  (Out.forAll (fun p => share (p.1.1 ++ "_extents") (.size p.2)) ps.zipIdx { s with sizes := fun _ => none }).bind fun s =>
  (event reads file (e ++ "_extents") s).bind fun s =>
  (Out.forAll (fun p => reclaim (p.1 ++ "_extents")) ps s).bind fun s =>
  (Out.forAll (resize fill) ps.zipIdx s).bind fun s =>
  (Out.forAll (fun p => share p.1 (.vec p.2)) ps s).bind fun s =>
  (event reads file e s).bind fun s =>
  Out.forAll (fun p => reclaim p.1) ps s

/-- An argument of `PDI_get_arrays` after the first one: a string or a vector (pdi_helper.hpp 60-66). -/
inductive Arg
  | str (n : String)
  | vec (v : ℕ)

/-- `get_name_tuple` and `get_vector_tuple` (pdi_helper.hpp 37-47) with the index sequence of line 67: pair `I` is made of the arguments `2I` and
`2I+1`, for `I` below `sizeof...(Args) / 2 + 1`, `sizeof...(Args)` being the number of arguments after the first two.  `none`: does not compile. -/
def argPairs (args : List Arg) : Option (List (String × ℕ)) :=
  (List.range ((args.length - 2) / 2 + 1)).mapM fun i : ℕ =>
    match args[i * 2]?, args[i * 2 + 1]? with
    | some (.str n), some (.vec v) => some (n, v)
    | _, _ => none

/-- The arrays of `init_kinetic_species` (species_init.cpp 142-160): the species are numbered by the charges; `masses[i]` is not checked. -/
def speciesTable (charges masses : List ℝ) : Out (List (ℝ × ℝ)) :=
  if charges.length ≤ masses.length then .ok ((List.range charges.length).map fun i => (charges.getD i 0, masses.getD i 0)) else .ub

/-- Call of `PDI_get_arrays("read_species", "species", species, "charges", charges, "masses", masses)` (species_init.cpp 144-149), then the loop over
the species (153-157).  The vectors are numbered 0, 1 and 2. -/
noncomputable def restartSpecies (reads : String → List String) (file : String → Option (Dataset ℝ)) (s : St ℝ) : Out (List (ℝ × ℝ)) :=
  (getArray 0 reads file "read_species" [("species", 0), ("charges", 1), ("masses", 2)]
    { s with vecs := Function.update (Function.update (Function.update s.vecs 0 []) 1 []) 2 [] }).bind fun s => speciesTable (s.vecs 1) (s.vecs 2)

/-! ## Output -/

open Layout

variable {τ : Type*} [DecidableEq τ]

/-- `PDI_expose_idx_range` (pdi_helper.hpp 74-93): `<name>_starts` and `<name>_extents` in the order of the dimensions; the starts count from the
index 0 of each dimension. -/
def exposeIdxRange (R : IdxRange τ) : List ℕ × List ℕ := (R.map Dim.front, R.map Dim.size)

/-- `PDI_expose_vector_field` (pdi_helper.hpp 104-116): the names and the arrays that are exposed, in order; `none`: the assertion of line 111 fails at
compile time. -/
def exposeVectorField {A : Type*} (stem : String) (comps : List A) (suffixes : List String) : Option (List (String × A)) :=
  if suffixes.length = comps.length then some ((suffixes.map (stem ++ ·)).zip comps) else none

/-- `expose_mesh_to_pdi` (src/io/output.hpp 16-28): the coordinates of the points of the index range. -/
def exposeMesh (d : Dim τ) (coord : ℕ → ℝ) : List ℝ := (List.range d.size).map fun i => coord (d.front + i)

/-- Position in a row major array of the given extents (HDF5, memory space of the selection `size:` of pdi_out.yml.hpp 57-60, 98). -/
def rowMajor : List ℕ → List ℕ → ℕ
  | _ :: es, p :: ps => p * es.prod + rowMajor es ps
  | _, _ => 0

/-- A position is in the selection. Used in the model of `yml.hpp:90-99`. -/
def inSlab : List ℕ → List ℕ → List ℕ → Bool
  | s :: ss, e :: es, p :: ps => s ≤ p && p < s + e && inSlab ss es ps
  | [], [], [] => true
  | _, _, _ => false

/-- The selection is inside of the dataset. Used in the model of `yml.hpp:90-99`. -/
def slabFits : List ℕ → List ℕ → List ℕ → Bool
  | s :: ss, e :: es, d :: ds => s + e ≤ d && slabFits ss es ds
  | [], [], [] => true
  | _, _, _ => false

/-- Writing of a buffer in a selection of a dataset of size `dims` (pdi_out.yml.hpp 90-99, `dataset_selection`). HDF5 refuses a selection which is not
inside of the dataset. -/
def writeSlab (dims starts extents : List ℕ) (buf : ℕ → ℝ) (ds : List ℕ → ℝ) : Out (List ℕ → ℝ) :=
  if slabFits starts extents dims then
    .ok fun p => if inSlab starts extents p then buf (rowMajor extents (p.zipWith (· - ·) starts)) else ds p
  else .error

/-- What one process writes at an `iteration` event: its local index range in the order `T` of the output (landau4d_fft.cpp 177-178,
src/geometryXYVxVy/time_integration/predcorr.cpp 26-30), its buffer in this layout (predcorr.cpp 53-66). -/
def writeRank (T : List τ) (R : IdxRange τ) (loc : ℕ → IdxRange τ) (buf : ℕ → ℕ → ℝ) (r : ℕ) (ds : List ℕ → ℝ) : Out (List ℕ → ℝ) :=
  let e := exposeIdxRange (reorder T (loc r))
  writeSlab ((reorder T R).map Dim.size) e.1 e.2 (buf r) ds

/-- The file after the processes of the list have written, in this order. (predcorr.cpp:53-66 of all processes.) -/
def writeAll (T : List τ) (R : IdxRange τ) (loc : ℕ → IdxRange τ) (buf : ℕ → ℕ → ℝ) (ranks : List ℕ) (ds : List ℕ → ℝ) : Out (List ℕ → ℝ) :=
  Out.forAll (writeRank T R loc buf) ranks ds

end Verif.Pdi
