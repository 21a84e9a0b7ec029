import Verif.Model.Layout

/-! # `MPILayout::distribute_idx_range` (src/mpi_parallelisation/mpilayout.hpp) -/

namespace Verif.MpiLayout
open Verif.Layout

/-- The ways in which the distribution can fail. Used in the model of `src/mpi_parallelisation/mpilayout.hpp:87-107`. -/
inductive LayoutError
  /-- `throw` of `src/mpi_parallelisation/mpilayout.hpp:65-71`. -/
  | notDivisible
  /-- `throw` of `src/mpi_parallelisation/mpilayout.hpp:94-97`. -/
  | nestedNotDivisible
  /-- `assert(comm_size == 1)` of `src/mpi_parallelisation/mpilayout.hpp:104`. -/
  | assertion
deriving DecidableEq, Repr

variable {τ : Type*} [DecidableEq τ]

/-- `internal_distribute_idx_range`, `src/mpi_parallelisation/mpilayout.hpp:87-107` (one dimension) and
`122-162` (recursion on the dimensions). `D` is the list of distributed dimensions.
An empty index range does not occur in C++ (no overload); it is returned unchanged here. -/
def internalDistribute (D : List τ) : IdxRange τ → ℕ → ℕ → Except LayoutError (IdxRange τ)
  | [], _, _ => .ok []
  | [d], commSize, rank =>
    if d.tag ∈ D then
      if d.size % commSize ≠ 0 then .error .nestedNotDivisible
      else
        let elemsOnDim := d.size / commSize
        .ok [⟨d.tag, d.front + rank * elemsOnDim, elemsOnDim⟩]
    else if commSize = 1 then .ok [d] else .error .assertion
  | d :: d' :: R, commSize, rank =>
    if d.tag ∈ D then
      let nRanksAlongDim := Nat.gcd commSize d.size
      let nElemsLowerDims := commSize / nRanksAlongDim
      let rankAlongDim := rank / nElemsLowerDims
      let remainingRank := rank % nElemsLowerDims
      let elemsOnDim := d.size / nRanksAlongDim
      match internalDistribute D (d' :: R) nElemsLowerDims remainingRank with
      | .ok R' => .ok (⟨d.tag, d.front + rankAlongDim * elemsOnDim, elemsOnDim⟩ :: R')
      | .error e => .error e
    else
      match internalDistribute D (d' :: R) commSize rank with
      | .ok R' => .ok (d :: R')
      | .error e => .error e

/-- Size of `distributed_sub_idx_range distrib_idx_range(global_idx_range)`,
`src/mpi_parallelisation/mpilayout.hpp:64-65`, `impilayout.hpp:23`. The distributed dimensions form a subset of the
tags of the index range, so the product over them is the product over the dimensions of the range that are distributed. -/
def distribSize (D : List τ) (R : IdxRange τ) : ℕ :=
  ((R.filter (fun d => d.tag ∈ D)).map Dim.size).prod

/-- `MPILayout::distribute_idx_range`, `src/mpi_parallelisation/mpilayout.hpp:59-73`. -/
def distribute (D : List τ) (R : IdxRange τ) (commSize rank : ℕ) : Except LayoutError (IdxRange τ) :=
  if distribSize D R % commSize ≠ 0 then .error .notDivisible
  else internalDistribute D R commSize rank

end Verif.MpiLayout
