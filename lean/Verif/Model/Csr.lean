import Mathlib.Algebra.Group.Defs
import Mathlib.Algebra.Ring.Defs
import Mathlib.Logic.Function.Basic

/-!
# `convert_coo_to_csr` and `MatrixBatchCsr` storage (src/matrix_tools/matrix_batch_csr.hpp)

Kokkos views are total functions on `ℕ` (the in-range conditions are proved separately).
-/

namespace Verif.Csr

variable {α : Type*}

/-- The three arrays of a batched CSR matrix, matrix_batch_csr.hpp:155-175: values by (batch, position), column
indices and row pointers shared by all batches. -/
structure Csr (α : Type*) where
  vals : ℕ → ℕ → α
  cols : ℕ → ℕ
  ptr : ℕ → ℕ

/-- State of the inner loop: `n_non_zero_in_row`, `idx_view_host`, `values_view_host(0, ·)`. Used in the model of `matrix_batch_csr.hpp:385-393`. -/
structure Row (α : Type*) where
  cnt : ℕ
  cols : ℕ → ℕ
  vals : ℕ → α

/-- The inner loop over `k` for row `i`, matrix_batch_csr.hpp:385-393; `p` is `nnz_per_row_view_host(i)`. -/
def rowLoop (nnz : ℕ) (vals : ℕ → α) (row col : ℕ → ℕ) (i p : ℕ) (c : ℕ → ℕ) (v : ℕ → α) : Row α :=
  (List.range nnz).foldl (fun s k =>
    if row k = i then
      { cnt := s.cnt + 1,
        cols := Function.update s.cols (p + s.cnt) (col k),
        vals := Function.update s.vals (p + s.cnt) (vals k) }
    else s) ⟨0, c, v⟩

/-- State of the outer loop. Used in the model of `matrix_batch_csr.hpp:375-382`. -/
structure Conv (α : Type*) where
  ptr : ℕ → ℕ
  cols : ℕ → ℕ
  vals : ℕ → α

/-- Contents of the views before the loop over rows, matrix_batch_csr.hpp:375-382 (`nnz_per_row(0) = 0`,
`nnz_per_row(n) = nnz`). -/
def rowsInit [Zero α] (n nnz : ℕ) : Conv α :=
  ⟨Function.update (Function.update (fun _ => 0) 0 0) n nnz, fun _ => 0, fun _ => 0⟩

/-- One iteration of the loop over rows, matrix_batch_csr.hpp:385-394. -/
def rowsStep (nnz : ℕ) (vals : ℕ → α) (row col : ℕ → ℕ) (s : Conv α) (i : ℕ) : Conv α :=
  let r := rowLoop nnz vals row col i (s.ptr i) s.cols s.vals
  { ptr := Function.update s.ptr (i + 1) (s.ptr i + r.cnt), cols := r.cols, vals := r.vals }

/-- The loop over rows, matrix_batch_csr.hpp:384-395. -/
def rowsLoop [Zero α] (n nnz : ℕ) (vals : ℕ → α) (row col : ℕ → ℕ) : Conv α :=
  (List.range n).foldl (rowsStep nnz vals row col) (rowsInit n nnz)

/-- `convert_coo_to_csr`, matrix_batch_csr.hpp:364-405, with `nnz = non_zero_per_system`: batch 0 is filled by the
loop over rows, the other batches by a plain copy (lines 396-400). -/
def convert [Zero α] (n nnz : ℕ) (vals : ℕ → α) (row col : ℕ → ℕ) : Csr α :=
  let s := rowsLoop n nnz vals row col
  { vals := fun b idx => if b = 0 then s.vals idx else vals (b * nnz + idx),
    cols := s.cols, ptr := s.ptr }

/-- `setup_solver`'s sorting loop, matrix_batch_csr.hpp:190-196: for each batch item in turn, if the (shared) column
indices are not sorted inside the rows, sort them and move *that item's* values accordingly. `perm` is the
permutation applied by Ginkgo's `sort_by_column_index` and `isSorted` its `is_sorted_by_column_index`. -/
def setupSort (isSorted : (ℕ → ℕ) → Bool) (perm : (ℕ → ℕ) → (ℕ → ℕ)) (batch : ℕ) (m : Csr α) : Csr α :=
  (List.range batch).foldl (fun m b =>
    if isSorted m.cols then m
    else { m with
      cols := fun k => m.cols (perm m.cols k),
      vals := Function.update m.vals b (fun k => m.vals b (perm m.cols k)) }) m

end Verif.Csr
