import Mathlib.Data.List.Basic
import Mathlib.Data.Int.Basic

/-!
# Vector fields: components, memory and views

Model of `src/data_types/vector_field_common.hpp`, `src/data_types/vector_field_mem.hpp` and
`src/data_types/vector_field.hpp`.

Memory is a map from (buffer, offset) to values; allocating takes a new buffer.  A `Field` (DDC's `ChunkSpan`) is
a buffer, the offset of its first element and, for each dimension, the first index, the extent and the stride.
The tags of the vector components and the names of the grid dimensions are arbitrary types with decidable equality.
Memory spaces, constness and layouts as C++ types are not modelled, except "accessible or not" in the mirror.
-/
namespace Verif.VectorFields

variable {δ τ α : Type}

/-- One dimension of a field: its name, first index, number of points and stride in memory
(`ddc::ChunkSpan` with an `IdxRange` and a layout; `field_type` at src/data_types/vector_field.hpp 83). -/
structure Dim (δ : Type) where
  name : δ
  front : ℤ
  ext : ℕ
  stride : ℤ

/-- A (non-owning) scalar field: buffer, offset of the first element and dimensions
(`Field`, used as `field_type` at src/data_types/vector_field.hpp 83). -/
structure Fld (δ : Type) where
  buf : ℕ
  base : ℤ
  dims : List (Dim δ)

/-- The memory: number of buffers allocated so far, and contents
(the storage behind `FieldMem`, src/data_types/vector_field_mem.hpp 65). -/
structure Heap (α : Type) where
  next : ℕ
  mem : ℕ → ℤ → α

/-- Offset of an index with respect to the first element. Element access of `ddc::ChunkSpan`,
called at src/data_types/vector_field.hpp 216. -/
def offset (i : δ → ℤ) : List (Dim δ) → ℤ
  | [] => 0
  | d :: ds => (i d.name - d.front) * d.stride + offset i ds

/-- Address of an index in a field (`m_values[k](delems)`, src/data_types/vector_field.hpp 216). -/
def addr (f : Fld δ) (i : δ → ℤ) : ℤ := f.base + offset i f.dims

/-- Value of a scalar field (`m_values[k](delems)`, src/data_types/vector_field.hpp 216). -/
def rd (h : Heap α) (f : Fld δ) (i : δ → ℤ) : α := h.mem f.buf (addr f i)

/-- Assignment to an element of a scalar field
(`ddcHelper::get<Dims>(field)(idx) = ...`, src/data_types/vector_field.hpp 532). -/
def wr (h : Heap α) (f : Fld δ) (i : δ → ℤ) (x : α) : Heap α :=
  { h with mem := fun b a => if b = f.buf ∧ a = addr f i then x else h.mem b a }

/-- The strides of `Kokkos::layout_right`: the stride of a dimension is the product of the later extents
(`LayoutStridedPolicy = Kokkos::layout_right`, src/data_types/vector_field.hpp 16). -/
def layoutRight : List (δ × ℤ × ℕ) → List (Dim δ)
  | [] => []
  | (n, a, e) :: ds => ⟨n, a, e, ((ds.map fun x => x.2.2).prod : ℕ)⟩ :: layoutRight ds

/-- Allocation of one component: `chunk_type(idx_range, allocator)` (src/data_types/vector_field_mem.hpp 128, 141). -/
def alloc (h : Heap α) (dom : List (δ × ℤ × ℕ)) : Heap α × Fld δ :=
  ({ h with next := h.next + 1 }, ⟨h.next, 0, layoutRight dom⟩)

/-- The components of a vector field, in the order of the tags (`m_values`, src/data_types/vector_field_common.hpp 104). -/
structure VF (τ δ : Type) where
  tags : List τ
  comps : List (Fld δ)

/-- Allocation of `n` components one after the other (pack expansion at src/data_types/vector_field_mem.hpp 123-130). -/
def allocN (h : Heap α) (dom : List (δ × ℤ × ℕ)) : ℕ → Heap α × List (Fld δ)
  | 0 => (h, [])
  | n + 1 =>
    let (h1, f) := alloc h dom
    let (h2, fs) := allocN h1 dom n
    (h2, f :: fs)

/-- `VectorFieldMem(idx_range)` (src/data_types/vector_field_mem.hpp 167-170): one allocation per tag. -/
def vfMem (h : Heap α) (tags : List τ) (dom : List (δ × ℤ × ℕ)) : Heap α × VF τ δ :=
  let (h1, fs) := allocN h dom tags.length
  (h1, ⟨tags, fs⟩)

/-- `VectorField(idx_range, ptr...)` (src/data_types/vector_field.hpp 290-293): the pointers are taken in the order of
the tags, each with the same index range and the right layout.  A pointer is a buffer and an offset. -/
def vfOfPtrs (tags : List τ) (dom : List (δ × ℤ × ℕ)) (ptrs : List (ℕ × ℤ)) : VF τ δ :=
  ⟨tags, ptrs.map fun p => ⟨p.1, p.2, layoutRight dom⟩⟩

/-- `VectorField(fields...)` (src/data_types/vector_field.hpp 301-303): the fields are stored without any check. -/
def vfOfFields (tags : List τ) (fs : List (Fld δ)) : VF τ δ := ⟨tags, fs⟩

/-- `get<QueryTag>()` (src/data_types/vector_field.hpp 404-408, src/data_types/vector_field_mem.hpp 338-354):
`m_values[type_seq_rank_v<QueryTag>]`; `none` when the static assertion rejects the tag. -/
def vget [DecidableEq τ] (v : VF τ δ) (t : τ) : Option (Fld δ) :=
  if t ∈ v.tags then v.comps[v.tags.idxOf t]? else none

/-- `operator()` (src/data_types/vector_field.hpp 212-217, src/data_types/vector_field_mem.hpp 151-155): the vector of
the values of the components, in the order of the storage. -/
def vread (h : Heap α) (v : VF τ δ) (i : δ → ℤ) : List α := v.comps.map fun f => rd h f i

/-- `ddcHelper::get<Tag>(vector)` on the result of `operator()`: the component at the position of the tag
(`element_type = Vector<..., DDims...>`, src/data_types/vector_field_common.hpp 78). -/
def vecGet [DecidableEq τ] (tags : List τ) (x : List α) (t : τ) : Option α :=
  if t ∈ tags then x[tags.idxOf t]? else none

/-- Construction of a view from the owning object or from another view, component by component through the tags
(src/data_types/vector_field.hpp 149-190, used by `span_view`, `span_cview` and the conversions). -/
def vspan [DecidableEq τ] (v : VF τ δ) : VF τ δ :=
  ⟨v.tags, v.tags.filterMap fun t => vget v t⟩

/-- `idx_range()` (src/data_types/vector_field_common.hpp 135-138): the index range of the first component. -/
def vdom (v : VF τ δ) : Option (List (δ × ℤ × ℕ)) :=
  v.comps[0]?.map fun f => f.dims.map fun d => (d.name, d.front, d.ext)

/-- Slice of a scalar field at an index: the dimensions of the index are removed and the first element moves
(`get<...>()[slice_spec]` with an `Idx`, src/data_types/vector_field.hpp 195-197). -/
def sliceIdx [DecidableEq δ] (f : Fld δ) (s : List (δ × ℤ)) : Fld δ :=
  let S := s.map Prod.fst
  let iv : δ → ℤ := fun d => (s.lookup d).getD 0
  ⟨f.buf, f.base + offset iv (f.dims.filter fun d => d.name ∈ S), f.dims.filter fun d => d.name ∉ S⟩

/-- Slice of a scalar field on an index range: the dimensions of the range get its first index and extent, the
strides are kept (`get<...>()[slice_spec]` with an `IdxRange`, src/data_types/vector_field.hpp 195-197). -/
def sliceRange [DecidableEq δ] (f : Fld δ) (s : List (δ × ℤ × ℕ)) : Fld δ :=
  let S := s.map Prod.fst
  let iv : δ → ℤ := fun d => ((s.lookup d).getD (0, 0)).1
  ⟨f.buf, f.base + offset iv (f.dims.filter fun d => d.name ∈ S),
    f.dims.map fun d => match s.lookup d.name with
      | some (a, e) => ⟨d.name, a, e, d.stride⟩
      | none => d⟩

/-- `operator[](Idx)` (src/data_types/vector_field.hpp 193-205, 378-381): every component is sliced. -/
def vsliceIdx [DecidableEq τ] [DecidableEq δ] (v : VF τ δ) (s : List (δ × ℤ)) : VF τ δ :=
  ⟨v.tags, v.tags.filterMap fun t => (vget v t).map (sliceIdx · s)⟩

/-- `operator[](IdxRange)` (src/data_types/vector_field.hpp 193-205, 393-396): every component is sliced. -/
def vsliceRange [DecidableEq τ] [DecidableEq δ] (v : VF τ δ) (s : List (δ × ℤ × ℕ)) : VF τ δ :=
  ⟨v.tags, v.tags.filterMap fun t => (vget v t).map (sliceRange · s)⟩

/-- All the positions of a box, as lists of offsets (iteration of `ddc::parallel_deepcopy`, called at
src/data_types/vector_field_common.hpp 157-159). -/
def positions : List ℕ → List (List ℕ)
  | [] => [[]]
  | e :: es => (List.range e).flatMap fun k => (positions es).map fun ks => k :: ks

/-- Offset in memory of a position (`Kokkos::deep_copy` works on positions, not on indices). Used in the model of `src/data_types/vector_field_common.hpp:157-159`. -/
def posOffset : List (Dim δ) → List ℕ → ℤ
  | d :: ds, k :: ks => (k : ℤ) * d.stride + posOffset ds ks
  | _, _ => 0

/-- Copy of the element at one position (body of `ddc::parallel_deepcopy`, called at
src/data_types/vector_field_common.hpp 157-159). -/
def copyOne (h : Heap α) (dst src : Fld δ) (ks : List ℕ) : Heap α :=
  { h with mem := fun b a => if b = dst.buf ∧ a = dst.base + posOffset dst.dims ks then
                               h.mem src.buf (src.base + posOffset src.dims ks) else h.mem b a }

/-- `ddc::parallel_deepcopy(dst, src)` for one component (called at src/data_types/vector_field_common.hpp 157-159):
for every position of the box the element of the source is copied.
Simplification: the loop is written sequentially; overlapping source and destination are outside of the model. -/
def copyField (h : Heap α) (dst src : Fld δ) : Heap α :=
  (positions (dst.dims.map Dim.ext)).foldl
    (fun h ks => copyOne h dst src ks) h

/-- The loop over the tags of `VectorFieldCommon::deepcopy` (src/data_types/vector_field_common.hpp 155-161): the component
of the destination at the rank of the tag receives the component of the source with this tag. -/
def copyTags [DecidableEq τ] (dst src : VF τ δ) : List τ → Heap α → Heap α
  | [], h => h
  | t :: ts, h =>
    match vget dst t, vget src t with
    | some d, some s => copyTags dst src ts (copyField h d s)
    | _, _ => copyTags dst src ts h

/-- `ddcHelper::deepcopy(dst, src)` (src/data_types/vector_field_common.hpp 35-45): rejected by the static assertion if the
tags differ and by the assertion if the extents (of the first components) differ. -/
def deepcopy [DecidableEq τ] (h : Heap α) (dst src : VF τ δ) : Option (Heap α) :=
  if dst.tags = src.tags ∧
      (vdom dst).map (fun l => l.map fun x => x.2.2) = (vdom src).map (fun l => l.map fun x => x.2.2) then
    some (copyTags dst src dst.tags h)
  else none

/-- `create_mirror_view_and_copy` (src/data_types/vector_field.hpp 483-505): the same field if it is accessible, otherwise
a new allocation on the same index range with the components copied one tag after the other. -/
def mirror [DecidableEq τ] (accessible : Bool) (h : Heap α) (v : VF τ δ) : Heap α × VF τ δ :=
  if accessible then (h, v)
  else
    let (h1, w) := vfMem h v.tags ((vdom v).getD [])
    (copyTags w v v.tags h1, w)

/-- The loop of `assign_vector_field_element` (src/data_types/vector_field.hpp 522-533). -/
def assignTags [DecidableEq τ] (v : VF τ δ) (i : δ → ℤ) (x : List α) : List τ → Heap α → Heap α
  | [], h => h
  | t :: ts, h =>
    match vget v t, vecGet v.tags x t with
    | some f, some y => assignTags v i x ts (wr h f i y)
    | _, _ => assignTags v i x ts h

/-- `assign_vector_field_element(field, idx, vector)` (src/data_types/vector_field.hpp 522-533). -/
def assign [DecidableEq τ] (h : Heap α) (v : VF τ δ) (i : δ → ℤ) (x : List α) : Heap α :=
  assignTags v i x v.tags h

end Verif.VectorFields
