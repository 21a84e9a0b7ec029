import Mathlib.Data.List.Basic
import Mathlib.Algebra.BigOperators.Group.List.Basic
import Mathlib.Data.Nat.Basic

/-!
# DDC index ranges and their memory layout

Model of the parts of DDC that the transposition and the MPI code of /repo rely on:
`IdxRange<Tags...>` (a box: a tag, a front and a size per dimension, in the order of the tags) and the default
(row major, `layout_right`) mapping from a multi-index to a position in `data_handle()`.
Used by `src/utils/transpose.hpp`, `src/mpi_parallelisation/*.hpp`.
Simplification: indices are natural numbers and a multi-index is a function from tags to naturals
(only its values on the tags of the range matter).
-/

namespace Verif.Layout

/-- One dimension of an `IdxRange`: `ddc::select<Tag>(idx_range)` with its `front()` and `size()`
(`src/utils/ddc_aliases.hpp:29-31`: aliases of `ddc::DiscreteDomain`). -/
structure Dim (κ : Type*) where
  tag : κ
  front : ℕ
  size : ℕ
deriving DecidableEq, Repr

variable {κ : Type*}

/-- `IdxRange<Tags...>`: its dimensions in order (`src/utils/ddc_aliases.hpp:29-31`). -/
abbrev IdxRange (κ : Type*) := List (Dim κ)

/-- `idx_range.size()` (`src/utils/ddc_aliases.hpp:29-31`). -/
def size (R : IdxRange κ) : ℕ := (R.map Dim.size).prod

/-- The tags of an index range, `ddc::to_type_seq_t` (`src/utils/ddc_aliases.hpp:29-31`). -/
def tags (R : IdxRange κ) : List κ := R.map Dim.tag

/-- Position in memory of the element with multi-index `x` of a field on `R` with the default layout
(`Field`, `src/utils/ddc_aliases.hpp:48-54`: `Kokkos::layout_right`). -/
def offset : IdxRange κ → (κ → ℕ) → ℕ
  | [], _ => 0
  | d :: R, x => (x d.tag - d.front) * size R + offset R x

/-- `x` is an index of `R` (`src/utils/ddc_aliases.hpp:29-31`). -/
def InBox (R : IdxRange κ) (x : κ → ℕ) : Prop :=
  ∀ d ∈ R, d.front ≤ x d.tag ∧ x d.tag < d.front + d.size

/-- `ddc::select<Tag>(idx_range)` (`src/utils/ddc_aliases.hpp:29-31`); an empty dimension if
the tag is absent (a compile-time error in C++). -/
def select [DecidableEq κ] (R : IdxRange κ) (t : κ) : Dim κ :=
  (R.find? (fun d => d.tag = t)).getD ⟨t, 0, 0⟩

/-- Construction of an `IdxRange<Tags...>` with tags `T` from another index range containing these tags:
`IdxRange<Tags...>(other)` as used at `src/mpi_parallelisation/mpitransposealltoall.hpp:71-76,282-283`. -/
def reorder [DecidableEq κ] (T : List κ) (R : IdxRange κ) : IdxRange κ :=
  T.map (select R)

/-- The multi-indices of a range in row major order (the iteration space of `ddc::parallel_for_each` and
`ddc::device_for_each`, `src/utils/transpose.hpp:58-64,75-83`). -/
def enum [DecidableEq κ] : IdxRange κ → List (κ → ℕ)
  | [] => [fun _ => 0]
  | d :: R => (List.range d.size).flatMap fun i => (enum R).map fun x => Function.update x d.tag (d.front + i)

end Verif.Layout
