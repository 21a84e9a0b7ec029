import Verif.Model.TypeSeq
import Mathlib.Algebra.BigOperators.Group.List.Basic
import Mathlib.Algebra.Field.Defs
import Mathlib.Data.Int.Cast.Basic
/-!
# Model of static tensors, their indices and `tensor_mul`

Dimension tags are the elements of a type `T`; `VectorIndexSet`s are lists of tags, tensor index sets are lists of such lists.
-/
namespace Verif.Tensor

universe u v
variable {T : Type u} [DecidableEq T] {R : Type v}

/-- `TensorIndexElement::valid_indices` and the rank assertion, src/data_types/tensor_index_tools.hpp:52-66. -/
def validElement (sets : List (List T)) (e : List T) : Bool :=
  decide (e.length = sets.length) && (List.zip e sets).all fun p => decide (p.1 ∈ p.2)

/-- `Kokkos::layout_right::mapping` applied to (position, extent) pairs: `((i0) * n1 + i1) * n2 + ...`. Used in the model of `src/data_types/tensor_index_tools.hpp:68-88`. -/
def layoutRight (l : List (ℕ × ℕ)) : ℕ := l.foldl (fun acc p => acc * p.2 + p.1) 0

/-- `TensorIndexElement::index` / `internal_index`, src/data_types/tensor_index_tools.hpp:68-88. -/
def index (sets : List (List T)) (e : List T) : ℕ :=
  layoutRight ((List.zip e sets).map fun p => (p.2.idxOf p.1, p.2.length))

/-- `GetNthTensorIndexElement<Elem, IdxDimHint, TypeSeqVectorIndexSet>::tensor_index_type_seq`,
src/data_types/tensor_index_tools.hpp:346-366. `none` if the element does not exist (empty index set: compile error). -/
def nthElement (sets : List (List T)) : ℕ → ℕ → Option (List T)
  | 0, _ => some []
  | k + 1, elem =>
    match sets[k]? with
    | none => none
    | some s =>
      match s[elem % s.length]? with
      | none => none
      | some x => (nthElement sets k (elem / s.length)).map fun r => r ++ [x]

/-- `get_nth_tensor_index_element_t`, src/data_types/tensor_index_tools.hpp:441-445. -/
def getNth (elem : ℕ) (sets : List (List T)) : Option (List T) := nthElement sets sets.length elem

/-- `TensorCommon::size`, src/data_types/tensor_common.hpp:48 and 79-82. -/
def size (sets : List (List T)) : ℕ := (sets.map List.length).prod

/-- The storage of a `Tensor`: an array of `size` elements, src/data_types/tensor.hpp:14-42 (modelled as a function; the
accesses are shown to be below `size`). -/
abbrev Storage (R : Type v) := ℕ → R

/-- `TensorCommon::get`, src/data_types/tensor_common.hpp:115-134. -/
def get (sets : List (List T)) (m : Storage R) (e : List T) : R := m (index sets e)

/-- Assignment (`= v`) through the reference returned by `TensorCommon::get`, src/data_types/tensor_common.hpp:115-121. -/
def set (sets : List (List T)) (m : Storage R) (e : List T) (v : R) : Storage R :=
  fun i => if i = index sets e then v else m i

/-- `t.get<e>() += v`, src/data_types/tensor_common.hpp:115-121. -/
def addTo [Add R] (sets : List (List T)) (m : Storage R) (e : List T) (v : R) : Storage R :=
  fun i => if i = index sets e then m i + v else m i

/-! ## Index sets with variance -/

/-- The variance information carried by dimension tags: `Dims::IS_CONTRAVARIANT`, `Dims::IS_COVARIANT`, `Dims::Dual`
(src/utils/geometry_descriptors.hpp and the tag definitions; src/data_types/vector_index_tools.hpp:22-113). -/
structure Variance (T : Type u) where
  dual : T → T
  contra : T → Bool
  co : T → Bool

/-- `get_contravariant_dims_t`, src/data_types/vector_index_tools.hpp:29-35. -/
def contraDims (V : Variance T) (s : List T) : List T := s.map fun d => if V.contra d then d else V.dual d

/-- `is_covariant_vector_index_set_v`, src/data_types/vector_index_tools.hpp:78-83. -/
def isCo (V : Variance T) (s : List T) : Bool := s.all V.co

/-- `is_contravariant_vector_index_set_v`, src/data_types/vector_index_tools.hpp:89-94. -/
def isContra (V : Variance T) (s : List T) : Bool := s.all V.contra

/-- `VectorIndexIdMap<Id, Set>`, src/data_types/vector_index_tools.hpp:125-135. -/
abbrev IdMap (T : Type u) := Char × List T

/-- An `IndexedTensor`: its `index_pattern` and the value of `get` on each tensor index element
(src/data_types/indexed_tensor.hpp:27-79). `get` is that of a `Tensor` or of one of the static tensors. -/
structure Indexed (T : Type u) (R : Type v) where
  pattern : List (IdMap T)
  get : List T → R

/-- `char_occurrences_v` on `index_identifiers_t`, src/data_types/tensor_index_tools.hpp:114-121,142-157. -/
def occurrences (c : Char) : List Char → ℕ
  | [] => 0
  | h :: t => (if h = c then 1 else 0) + occurrences c t

/-- `GetUniqueIndices`, src/data_types/tensor_index_tools.hpp:201-224. -/
def uniqueIndices (V : Variance T) : List (IdMap T) → List (IdMap T) → List (IdMap T)
  | [], res => res
  | h :: t, res =>
    let ins := (h.1, contraDims V h.2)
    uniqueIndices V t (if ins ∈ res then res else res ++ [ins])

/-- `GetNonRepeatedIndices`, src/data_types/tensor_index_tools.hpp:226-267: from the last position `Elem` down to 0. -/
def nonRepeated (m : List (IdMap T)) (ids : List Char) : ℕ → List (IdMap T) → List (IdMap T)
  | elem, out =>
    match m[elem]? with
    | none => out
    | some cur =>
      let out' := if occurrences cur.1 ids = 1 then cur :: out else out
      match elem with
      | 0 => out'
      | e + 1 => nonRepeated m ids e out'

/-- `non_repeated_indices_t`, src/data_types/tensor_index_tools.hpp:326-330. -/
def nonRepeatedIndices (m : List (IdMap T)) : List (IdMap T) := nonRepeated m (m.map (·.1)) (m.length - 1) []

/-- `GetRelevantVectorIndexSets`, src/data_types/tensor_index_tools.hpp:269-297 (found sets are prepended). -/
def relevantSets (c : Char) : List (IdMap T) → List (List T) → List (List T)
  | [], res => res
  | h :: t, res => relevantSets c t (if h.1 = c then h.2 :: res else res)

/-- `check_id_validity`, src/data_types/indexed_tensor.hpp:155-180: the static assertions. -/
def checkId (V : Variance T) (all : List (IdMap T)) (c : Char) : Bool :=
  if occurrences c (all.map (·.1)) = 2 then
    match relevantSets c all [] with
    | s1 :: s2 :: _ =>
      (isCo V s1 || isCo V s2) && (isContra V s1 || isContra V s2) && decide (contraDims V s1 = contraDims V s2)
    | _ => false
  else decide (occurrences c (all.map (·.1)) = 1)

/-- All the static assertions met by `tensor_mul(index<...>(a), index<...>(b), ...)`: uniqueness of each pattern
(src/data_types/indexed_tensor.hpp:36-40) and `check_all_id_validity` (lines 182-186, 234-237). -/
def compiles (V : Variance T) (ts : List (Indexed T R)) : Bool :=
  ts.all (fun t => Verif.TypeSeq.hasUniqueElements t.pattern) &&
    (Verif.TypeSeq.unique ((ts.flatMap (·.pattern)).map (·.1))).all
      (checkId V (ts.flatMap (·.pattern)))

/-- `GetNthTensorIndexElementFromMap`, src/data_types/tensor_index_tools.hpp:368-408 for the `StartElement` `start`: for
every entry of the global map, the tag chosen for its identifier (its dual for a covariant entry). -/
def elementFromMap (V : Variance T) (m : List (IdMap T)) (start : List T) : List (Option T) :=
  m.map fun vi =>
    let contraVi := (vi.1, contraDims V vi.2)
    (start[(uniqueIndices V m []).idxOf contraVi]?).map fun rel =>
      if isContra V vi.2 then rel else V.dual rel

/-- `ExtractSubTensorElement`, src/data_types/tensor_index_tools.hpp:410-426. -/
def extractSub (glob loc : List (IdMap T)) (elem : List (Option T)) : Option (List T) :=
  loc.mapM fun vi => (elem[glob.idxOf vi]?).join

/-- `internal_tensor_mul_elem`, src/data_types/indexed_tensor.hpp:110-140: the value added for the element number `is`. -/
def mulTerm [Monoid R] (V : Variance T) (glob : List (IdMap T)) (elem : List (Option T)) (ts : List (Indexed T R)) :
    Option R :=
  (ts.mapM fun t => (extractSub glob t.pattern elem).map t.get).map List.prod

/-- One step of `internal_tensor_mul`, src/data_types/indexed_tensor.hpp:110-153, for a tensor result. -/
def mulStep [Semiring R] (V : Variance T) (glob res : List (IdMap T)) (ts : List (Indexed T R)) (is : ℕ)
    (m : Storage R) : Option (Storage R) :=
  (getNth is ((uniqueIndices V glob []).map (·.2))).bind fun start =>
    let elem := elementFromMap V glob start
    (extractSub glob res elem).bind fun re =>
      (mulTerm V glob elem ts).map fun v => addTo (res.map (·.2)) m re v

/-- `internal_tensor_mul`: the fold over `Is...`, src/data_types/indexed_tensor.hpp:142-153. -/
def mulLoop [Semiring R] (V : Variance T) (glob res : List (IdMap T)) (ts : List (Indexed T R)) :
    List ℕ → Storage R → Option (Storage R)
  | [], m => some m
  | i :: is, m => (mulStep V glob res ts i m).bind fun m' => mulLoop V glob res ts is m'

/-- `tensor_mul`, src/data_types/indexed_tensor.hpp:226-268; `none` when the program does not compile. The scalar case
(lines 248-255) is the case of an empty result pattern, whose storage has the single element 0. -/
def tensorMul [Semiring R] (V : Variance T) (ts : List (Indexed T R)) : Option (List (IdMap T) × Storage R) :=
  if compiles V ts then
    let glob := ts.flatMap (·.pattern)
    let res := nonRepeatedIndices glob
    (mulLoop V glob res ts (List.range (size ((uniqueIndices V glob []).map (·.2)))) (fun _ => 0)).map fun m => (res, m)
  else none

/-! ## Static tensors -/

/-- `IdentityTensor::get`, src/data_types/static_tensors.hpp:64-79. -/
def identityGet [Zero R] [One R] (row col : List T) (e : List T) : R :=
  match e with
  | [a, b] => if row.idxOf a = col.idxOf b then 1 else 0
  | _ => 0

/-- `CartesianLeviCivitaTensor::get`, src/data_types/static_tensors.hpp:152-159. -/
def leviCivitaCartesian (s : List T) (e : List T) : Option ℤ := Verif.TypeSeq.parity e s

/-- `LeviCivitaTensor`: constructor and `get`, src/data_types/static_tensors.hpp:227-250. -/
def leviCivita [Field R] (V : Variance T) (s : List T) (jacobian : R) (e : List T) : Option R :=
  (Verif.TypeSeq.parity e s).map fun eps : ℤ => ((eps : ℤ) : R) * (if isCo V s then jacobian else 1 / jacobian)

/-! ## Arithmetic on tensors -/

/-- `operator+=`, src/data_types/tensor_common.hpp:197-203 (loop over the `n` stored elements). -/
def addAssign [Add R] (n : ℕ) (a b : Storage R) : Storage R := fun i => if i < n then a i + b i else a i

/-- `operator-=`, src/data_types/tensor_common.hpp:210-216. -/
def subAssign [Sub R] (n : ℕ) (a b : Storage R) : Storage R := fun i => if i < n then a i - b i else a i

/-- `operator*=`, src/data_types/tensor_common.hpp:168-175. -/
def mulAssign [Mul R] (n : ℕ) (a : Storage R) (v : R) : Storage R := fun i => if i < n then a i * v else a i

/-- unary `operator-`, src/data_types/tensor_common.hpp:541-547. -/
def neg [Sub R] [Zero R] (n : ℕ) (a : Storage R) : Storage R := subAssign n (fun _ => 0) a

/-- `operator==`, src/data_types/tensor_common.hpp:223-230. -/
def eq [DecidableEq R] (n : ℕ) (a b : Storage R) : Bool := (List.range n).foldl (fun acc i => acc && decide (a i = b i)) true

/-- `ddcHelper::assign_elements`, src/data_types/tensor_common.hpp:256-298 and 357-381. -/
def assignElements (outSets inSets : List (List T)) (out inp : Storage R) : Option (Storage R) :=
  let sets := if size inSets < size outSets then inSets else outSets
  (List.range (size sets)).foldlM (fun m i =>
    (getNth i sets).bind fun e =>
      if validElement outSets e && validElement inSets e then some (set outSets m e (get inSets inp e)) else none) out

end Verif.Tensor
