import Verif.Model.EdgeTransform

/-! Model of `src/multipatch/connectivity/matching_idx_slice.hpp` (class `MatchingIdxSlice`).

Indices of an edge are counted from the front of its index range: an edge with `size` indices has `0 .. size-1` (for a
periodic dimension the repeated last point is not an index of the range). -/

namespace Verif.MatchSlice

/-- Result of a C++ evaluation: a value, the exception `std::invalid_argument`, or undefined behaviour. Used in the model of `matching_idx_slice.hpp:189-198`. -/
inductive Outcome (α : Type) where
  | ok (a : α)
  | throws
  | ub
  deriving DecidableEq, Repr

/-- Conversion of a signed integer to `std::size_t`. Used in the model of `matching_idx_slice.hpp:217-226`. -/
def toU64 (x : ℤ) : ℕ := (x % 2 ^ 64).toNat

/-- `ddc::StridedDiscreteDomain` as returned: front (always 0 here), number of elements and stride. Used in the model of `matching_idx_slice.hpp:217-226`. -/
structure Slice where
  size : ℕ
  stride : ℤ
  deriving DecidableEq, Repr

/-- The indices of a slice, in order (`front + k * stride`). Type of the result, matching_idx_slice.hpp:189-198. -/
def Slice.indices (s : Slice) : List ℤ := (List.range s.size).map fun k : ℕ => (k : ℤ) * s.stride

/-- `get_idx_step`, uniform branch, matching_idx_slice.hpp:189-198: the step on the edge with `sizeThis` indices. The `std::gcd` of
0 and 0 is 0 and the integer division by it is undefined. -/
def stepUniform (size1 size2 sizeThis : ℕ) : Outcome ℤ :=
  let n1 := size1 - 1
  let n2 := size2 - 1
  let g := Nat.gcd n1 n2
  if g = 0 then .ub else .ok (((sizeThis - 1) / g : ℕ) : ℤ)

/-- The loop of `get_idx_step`, non-uniform branch, matching_idx_slice.hpp:201-210: every later step is compared with the first. -/
def stepsAgree (d : ℤ) : List ℤ → Bool
  | a :: b :: rest => decide (b - a = d) && stepsAgree d (b :: rest)
  | _ => true

/-- `get_idx_step`, non-uniform branch, matching_idx_slice.hpp:199-212; reading elements 0 and 1 of a shorter vector is undefined. -/
def stepNonUniform : List ℤ → Outcome ℤ
  | a :: b :: rest => if stepsAgree (b - a) (b :: rest) then .ok (b - a) else .throws
  | _ => .ub

/-- `get_idx_range_slice`, matching_idx_slice.hpp:217-226: `idx_range.size() - 1` is a `std::size_t`, so the (signed) stride is
converted to `std::size_t` for the division. -/
def idxRangeSlice (size : ℕ) : Outcome ℤ → Outcome Slice
  | .ub => .ub
  | .throws => .throws
  | .ok d => if toU64 d = 0 then .ub else .ok ⟨toU64 ((size : ℤ) - 1) / toU64 d + 1, d⟩

/-- The constructor for uniform grids, matching_idx_slice.hpp:90-101: slices of the first and of the second edge. -/
def uniform (size1 size2 : ℕ) : Outcome Slice × Outcome Slice :=
  (idxRangeSlice size1 (stepUniform size1 size2 size1), idxRangeSlice size2 (stepUniform size1 size2 size2))

/-- `get_conforming_idx_vector`, matching_idx_slice.hpp:170-182; `m` is `search_for_match` from the first to the second edge. -/
def conforming (size1 : ℕ) (m : ℕ → Option ℕ) : List ℤ × List ℤ :=
  (((List.range size1).filter fun i => (m i).isSome).map fun i : ℕ => (i : ℤ), ((List.range size1).filterMap m).map fun i : ℕ => (i : ℤ))

/-- The constructor for non-uniform grids, matching_idx_slice.hpp:90-101. -/
def nonUniform (size1 size2 : ℕ) (m : ℕ → Option ℕ) : Outcome Slice × Outcome Slice :=
  (idxRangeSlice size1 (stepNonUniform (conforming size1 m).1), idxRangeSlice size2 (stepNonUniform (conforming size1 m).2))

end Verif.MatchSlice
