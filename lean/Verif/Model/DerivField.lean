import Mathlib.Data.Nat.Bits
import Mathlib.Data.List.Basic
import Mathlib.Algebra.BigOperators.Group.List.Basic

/-!
# Fields with their derivatives

`src/data_types/derivative_field_common.hpp`, `src/data_types/derivative_field_mem.hpp`, `src/data_types/derivative_field.hpp`, `src/data_types/deriv_details.hpp`.

The values and each combination of derivatives are kept in arrays of their own. A discrete dimension is the grid or the derivative order of a physical dimension `k`. Indices are integers (DDC stores
them unsigned; only differences are used). Accesses for which an assertion fails, or which are outside the array, give `none`.
-/

namespace Verif.DerivField

/-- One of `DDims...`: the grid of dimension `k`, or `ddc::Deriv` of it. Used in the model of `derivative_field_common.hpp:151-158`. -/
inductive Tag
  | grid (k : ℕ)
  | der (k : ℕ)
deriving DecidableEq

/-- The static and dynamic description of a field: the dimensions, in order, `m_physical_idx_range` (first index and number of points), `m_cross_derivative_idx_range` (first index, stride, number of
points of each `IdxRangeSlice`) and the number of derivatives `NDerivs`; derivative_field_common.hpp:151-158. -/
structure Desc where
  ddims : List Tag
  front : ℕ → ℤ
  size : ℕ → ℕ
  sFront : ℕ → ℤ
  sStride : ℕ → ℕ
  sCount : ℕ → ℕ
  nDerivs : ℕ

/-- An element: position on each grid and order of the derivative in each dimension. Used in the model of `derivative_field_common.hpp:212-248`. -/
structure Elem where
  pos : ℕ → ℤ
  ord : ℕ → ℕ

/-- `deriv_tags`, derivative_field_common.hpp:55 with deriv_details.hpp:38-64. -/
def Desc.derivTags (d : Desc) : List ℕ := d.ddims.filterMap fun t => match t with
  | .der k => some k
  | .grid _ => none

/-- `ddc::type_seq_rank_v<Deriv, deriv_tags>`. Used in the model of `derivative_field_common.hpp:193-200`. -/
def Desc.rank (d : Desc) (k : ℕ) : ℕ := d.derivTags.idxOf k

/-- `get_array_index`, derivative_field_common.hpp:193-200. -/
def arrayIndex (d : Desc) (ord : ℕ → ℕ) : ℕ := (d.derivTags.map fun k => (if ord k ≠ 0 then 1 else 0) <<< d.rank k).sum

/-- `IdxRangeSlice::contains` (DDC). Used in the model of `derivative_field_common.hpp:169-176`. -/
def sliceContains (d : Desc) (k : ℕ) (i : ℤ) : Bool :=
  d.sFront k ≤ i ∧ (i - d.sFront k) % d.sStride k = 0 ∧ (i - d.sFront k) / d.sStride k < d.sCount k

/-- `get_index`, derivative_field_common.hpp:169-176. -/
def getIndex (d : Desc) (k : ℕ) (i : ℤ) : Option ℕ :=
  if sliceContains d k i then some ((i - d.sFront k) / d.sStride k).toNat else none

/-- `array_idx & (1 << rank)`. Used in the model of `derivative_field_common.hpp:212-248`. -/
def hasDeriv (d : Desc) (a k : ℕ) : Bool := decide (k ∈ d.derivTags) && a.testBit (d.rank k)

/-- A difference of indices converted to `std::size_t`; negative differences are out of range. Used in the model of `derivative_field_common.hpp:212-248`. -/
def asSize (i : ℤ) : Option ℕ := if 0 ≤ i then some i.toNat else none

/-- `get_slicer_for(Idx, array_idx)` for a dimension which is among those of the index, derivative_field_common.hpp:212-248. -/
def slicer (d : Desc) (a : ℕ) (e : Elem) : Tag → Option ℕ
  | .grid k => if hasDeriv d a k then getIndex d k (e.pos k) else asSize (e.pos k - d.front k)
  | .der k =>
    if hasDeriv d a k then asSize ((e.ord k : ℤ) - 1)
    else if e.ord k = 0 then some 0 else none

/-- `get_mdspan_size`, derivative_field_mem.hpp:199-224. -/
def extent (d : Desc) (a : ℕ) : Tag → ℕ
  | .der k => if hasDeriv d a k then d.nDerivs else 1
  | .grid k => if hasDeriv d a k then d.sCount k else d.size k

/-- `alloc_size`, derivative_field_mem.hpp:231 and 255. -/
def allocSize (d : Desc) (a : ℕ) : ℕ := (d.ddims.map (extent d a)).prod

/-- The strides of `layout_right` for the given extents (`mapping_r.stride`, derivative_field_mem.hpp:234-239). -/
def strides : List ℕ → List ℕ
  | [] => []
  | _ :: es => es.prod :: strides es

/-- Offset of an element of an mdspan with the given extents and strides; `none` if a position is missing or outside of its extent. Used in the model of `derivative_field_mem.hpp:334-359`. -/
def offset : List ℕ → List ℕ → List (Option ℕ) → Option ℕ
  | [], [], [] => some 0
  | e :: es, s :: ss, some p :: ps => if p < e then (offset es ss ps).map (p * s + ·) else none
  | _, _, _ => none

/-- The element of the internal arrays, with the positions `sl` in the dimensions of the array `a`. Used in the model of `derivative_field_mem.hpp:334-359`. -/
def at' (d : Desc) (a : ℕ) (sl : Tag → Option ℕ) : Option (ℕ × ℕ) :=
  let es := d.ddims.map (extent d a)
  (offset es (strides es) (d.ddims.map sl)).map (a, ·)

/-- `operator()` with all dimensions given, derivative_field_mem.hpp:334-359, derivative_field.hpp:369-376 through `get_internal_field(Idx)`, derivative_field_common.hpp:383-438: the array and the offset of the element. -/
def cell (d : Desc) (e : Elem) : Option (ℕ × ℕ) :=
  let a := arrayIndex d e.ord
  at' d a (slicer d a e)

/-- `operator[](Idx)`, derivative_field_common.hpp:383-438: the dimensions `fixed` are those of the index (the orders of derivatives not among them are zero, derivative_field_common.hpp:412-417), the others are left; the field it gives has
the whole `m_physical_idx_range` in them (derivative_field_common.hpp:423). The result is the element of that field at the remaining positions of `e`. -/
def sliceCell (d : Desc) (fixed : List Tag) (e : Elem) : Option (ℕ × ℕ) :=
  let ord := fun k => if Tag.der k ∈ fixed then e.ord k else 0
  let a := arrayIndex d ord
  at' d a fun t => match t with
    | .der k => slicer d a ⟨e.pos, ord⟩ (.der k)
    | .grid k => if Tag.grid k ∈ fixed then slicer d a ⟨e.pos, ord⟩ (.grid k) else asSize (e.pos k - d.front k)

/-- An index range in some of the dimensions: first index and number of elements. Used in the model of `derivative_field_common.hpp:337-346`. -/
structure Ranges where
  grid : ℕ → Option (ℤ × ℕ)
  der : ℕ → Option (ℕ × ℕ)

/-- `full_idx_range`, derivative_field_common.hpp:337-346: the range in the dimension of a grid. -/
def Ranges.gridRange (q : Ranges) (d : Desc) (k : ℕ) : ℤ × ℕ := (q.grid k).getD (d.front k, d.size k)
/-- `deriv_idx_range`, derivative_field_common.hpp:337-339: the range of orders. -/
def Ranges.derRange (q : Ranges) (k : ℕ) : ℕ × ℕ := (q.der k).getD (0, 1)

/-- `operator[](IdxRange)`, derivative_field_common.hpp:325-369 with `get_slicer_for(IdxRange)`, derivative_field_common.hpp:261-311: the element of the field it gives at `e`. The ranges are not empty. The order of a derivative that was not requested is zero
(derivative_field_common.hpp:367). -/
def rangeCell (d : Desc) (q : Ranges) (e : Elem) : Option (ℕ × ℕ) :=
  let a := arrayIndex d fun k => (q.derRange k).1
  at' d a fun t => match t with
    | .grid k =>
      let r := q.gridRange d k
      if hasDeriv d a k then
        if sliceContains d k r.1 ∧ (r.2 = 1 ∨ d.sStride k = 1) then
          match getIndex d k r.1, getIndex d k (r.1 + r.2 - 1), asSize (e.pos k - r.1) with
          | some lo, some hi, some x => if lo + x < hi + 1 then some (lo + x) else none
          | _, _, _ => none
        else none
      else
        match asSize (r.1 - d.front k), asSize (e.pos k - r.1) with
        | some lo, some x => if x < r.2 then some (lo + x) else none
        | _, _ => none
    | .der k =>
      let r := q.derRange k
      if hasDeriv d a k then
        match asSize ((r.1 : ℤ) - 1), asSize ((e.ord k : ℤ) - r.1) with
        | some lo, some x => if x < r.2 then some (lo + x) else none
        | _, _ => none
      else if r.1 = 0 ∧ r.2 = 1 ∧ e.ord k = 0 then some 0 else none

/-- `initialise_fields`, derivative_field.hpp:186-221: the array of the original that a `DerivField` uses as its array `a`. -/
def viewArray (d : Desc) (a : ℕ) : ℕ := arrayIndex d fun k => if a.testBit (d.rank k) then 1 else 0

/-! ### Ownership of the arrays -/

/-- The memory: the blocks which are allocated, and the next free name for a block. Used in the model of `derivative_field_mem.hpp:227-249`. -/
structure Heap where
  live : List ℕ
  next : ℕ

/-- `make_internal_mdspan` for the `n` arrays, derivative_field_mem.hpp:227-249: the pointers of the new object. -/
def construct (h : Heap) (n : ℕ) : Heap × List ℕ := (⟨(List.range n).map (h.next + ·) ++ h.live, h.next + n⟩, (List.range n).map (h.next + ·))

/-- `allocator.deallocate`; `none` if the block is not allocated (anymore). Used in the model of `derivative_field_mem.hpp:311-314`. -/
def free (h : Heap) (p : ℕ) : Option Heap := if p ∈ h.live then some { h with live := h.live.erase p } else none

/-- `~DerivFieldMem`, derivative_field_mem.hpp:311-314: frees the blocks of the array. -/
def destroy (h : Heap) (ptrs : List ℕ) : Option Heap := ptrs.foldlM free h

/-- `operator=(DerivFieldMem&&) = default`, derivative_field_mem.hpp:323: the members are arrays of pointers and index ranges, for which a move is a copy; gives the pointers of the two objects afterwards. -/
def moveAssign (_this other : List ℕ) : List ℕ × List ℕ := (other, other)

end Verif.DerivField
