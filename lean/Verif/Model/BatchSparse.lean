import Verif.Model.Norms
import Mathlib.Data.Real.Basic
import Mathlib.Algebra.BigOperators.Group.Finset.Basic
import Mathlib.Data.Int.Notation

/-!
# Batched sparse matrices and the use of the iterative solvers of Ginkgo

src/matrix_tools/matrix_batch_ell.hpp, src/matrix_tools/matrix_batch_csr.hpp and 
src/matrix_tools/matrix_utils.hpp. Ginkgo itself is not modelled: a solver is any function giving, for a batch of right-hand
sides and initial guesses, the approximate solutions and what the logger says.
-/

namespace Verif.BatchSparse
open Verif

/-- A `MatrixBatchEll`, matrix_batch_ell.hpp:35: sizes, and the two arrays of `gko::batch::matrix::Ell`: values of all the systems and column
indices shared by them. The allocations have `batch * n * nnz` and `n * nnz` elements. -/
structure Ell where
  batch : ℕ
  n : ℕ
  nnz : ℕ
  vals : ℕ → ℝ
  cols : ℕ → ℤ

/-- Number of values allocated by Ginkgo, matrix_batch_ell.hpp:67-71. -/
def Ell.alloc (A : Ell) : ℕ := A.batch * A.n * A.nnz

/-- Address used by `get_ell_element` and `set_ell_element`, matrix_batch_ell.hpp:148-150 and 165-167. -/
def Ell.addr (A : Ell) (b i k : ℕ) : ℕ := b * A.n * A.nnz + k * A.n + i

/-- Result of an element access: a failed `assert`, an access outside of the allocation, or a value. Used in the model of `matrix_batch_ell.hpp:143-151`. -/
inductive Access (α : Type*) where
  | assertFails : Access α
  | outOfRange : Access α
  | ok : α → Access α

/-- `get_ell_element`, matrix_batch_ell.hpp:143-151. -/
def Ell.get (A : Ell) (b i : ℕ) (k : ℤ) : Access ℝ :=
  if 0 ≤ k ∧ k ≤ A.nnz then
    (if A.addr b i k.toNat < A.alloc then .ok (A.vals (A.addr b i k.toNat)) else .outOfRange)
  else .assertFails

/-- `set_ell_element`, matrix_batch_ell.hpp:160-169. -/
def Ell.set (A : Ell) (b i : ℕ) (k : ℤ) (a : ℝ) : Access Ell :=
  if 0 ≤ k ∧ k ≤ A.nnz then
    (if A.addr b i k.toNat < A.alloc then
      .ok { A with vals := fun p => if p = A.addr b i k.toNat then a else A.vals p } else .outOfRange)
  else .assertFails

/-- Element `(b, i, k)` of the view of values returned by `get_batch_ell` and used by `norm`, with the strides of matrix_batch_ell.hpp:122-128
and 234-240. -/
def Ell.view (A : Ell) (b i k : ℕ) : ℝ := A.vals (b * (A.nnz * A.n) + i * 1 + k * A.n)
/-- Element `(i, k)` of the view of column indices (layout left), matrix_batch_ell.hpp:129-130. -/
def Ell.viewCols (A : Ell) (i k : ℕ) : ℤ := A.cols (i + k * A.n)

/-- The constructor from views, matrix_batch_ell.hpp:85-107: Ginkgo receives the pointers, whatever the strides `(s0, s1, s2)` of the view of values
are; `data` is the memory behind the view. -/
def Ell.ofViews (batch n nnz : ℕ) (data : ℕ → ℝ) (cols : ℕ → ℤ) : Ell := ⟨batch, n, nnz, data, cols⟩
/-- Element of a `Kokkos::View<double***, Kokkos::LayoutStride>` with the given strides. Parameter type of the constructor, matrix_batch_ell.hpp:85-107. -/
def strided (data : ℕ → ℝ) (s0 s1 s2 : ℕ) (b i k : ℕ) : ℝ := data (b * s0 + i * s1 + k * s2)

/-- A `parallel_reduce` with reducer `Max`: the tree says which thread treats which list of rows and how the partial results
are joined; each thread starts from the neutral element `lowest` (the lowest double). Used in the model of `matrix_batch_ell.hpp:228-259`. -/
noncomputable def maxReduce (t : Norms.Tree (List ℕ)) (lowest : ℝ) (rowSum : ℕ → ℝ) : ℝ :=
  t.reduce max lowest (fun rows => rows.foldl (fun res i => if rowSum i > res then rowSum i else res) lowest)

/-- Row sum, matrix_batch_ell.hpp:249-252: the loop over the stored elements of the row. -/
noncomputable def Ell.rowSum (A : Ell) (b i : ℕ) : ℝ := (List.range A.nnz).foldl (fun s k => s + |A.view b i k|) 0
/-- `MatrixBatchEll::norm`, matrix_batch_ell.hpp:228-259. -/
noncomputable def Ell.norm (A : Ell) (t : Norms.Tree (List ℕ)) (lowest : ℝ) (b : ℕ) : ℝ := maxReduce t lowest (A.rowSum b)

/-- A `MatrixBatchCsr`, matrix_batch_csr.hpp:56: values (the system, then the position), columns and row pointers. -/
structure Csr where
  n : ℕ
  vals : ℕ → ℕ → ℝ
  cols : ℕ → ℕ
  ptr : ℕ → ℕ

/-- Row sum, matrix_batch_csr.hpp:341-344. -/
noncomputable def Csr.rowSum (A : Csr) (b i : ℕ) : ℝ :=
  (List.range' (A.ptr i) (A.ptr (i + 1) - A.ptr i)).foldl (fun s k => s + |A.vals b k|) 0
/-- `MatrixBatchCsr::norm`, matrix_batch_csr.hpp:323-352. -/
noncomputable def Csr.norm (A : Csr) (t : Norms.Tree (List ℕ)) (lowest : ℝ) (b : ℕ) : ℝ := maxReduce t lowest (A.rowSum b)

/-- Batches of vectors: the system, then the component. Used in the model of `matrix_batch_ell.hpp:197-221`. -/
abbrev Vecs := ℕ → ℕ → ℝ

/-- A batched Ginkgo solver (`m_solver->apply` with the convergence logger): from the right-hand sides and the initial guesses
to the approximate solutions and the logged residual norms. Used in the model of `matrix_batch_ell.hpp:197-221`. -/
abbrev BatchSolver := Vecs → Vecs → Vecs × (ℕ → ℝ)

/-- `check_conv`, matrix_utils.hpp:38-57: `true` if it does not throw. -/
noncomputable def checkConv (t : Norms.Tree (List ℕ)) (tol : ℝ) (resid : ℕ → ℝ) : Bool :=
  t.reduce (· && ·) true (fun L => L.foldl (fun check i => check && decide (resid i ≤ tol)) true)

/-- How a call ends. Used in the model of `matrix_batch_ell.hpp:197-221`. -/
inductive Ended where
  | returned : Ended
  | threw : Ended
  deriving DecidableEq

/-- `MatrixBatchEll::solve(b)`, matrix_batch_ell.hpp:197-221: how it ends and what `b` then is. -/
noncomputable def ellSolve (s : BatchSolver) (t : Norms.Tree (List ℕ)) (tol : ℝ) (b : Vecs) : Ended × Vecs :=
  let r := s b b
  if checkConv t tol r.2 then (.returned, r.1) else (.threw, b)

/-- `MatrixBatchCsr::solve(x, b)` for the batched solvers, matrix_batch_csr.hpp:296-315: how it ends and what `x` then is. -/
noncomputable def csrSolve2 (s : BatchSolver) (t : Norms.Tree (List ℕ)) (tol : ℝ) (x b : Vecs) : Ended × Vecs :=
  let r := s b x
  (if checkConv t tol r.2 then .returned else .threw, r.1)

/-- The solver of one system (`m_solver[i]->apply`): from right-hand side and initial guess to the approximate solution and
`has_converged`. Used in the model of `matrix_batch_csr.hpp:266-295`. -/
abbrev Solver := (ℕ → ℝ) → (ℕ → ℝ) → (ℕ → ℝ) × Bool

/-- The loop over the systems for the solvers which are not batched, matrix_batch_csr.hpp:266-295, from system `i` on, with `m` systems left. -/
def csrLoop (s : ℕ → Solver) (b : Vecs) : ℕ → ℕ → Vecs → Ended × Vecs
  | _, 0, x => (.returned, x)
  | i, m + 1, x =>
    let r := s i (b i) (x i)
    let x' := fun j => if j = i then r.1 else x j
    if r.2 then csrLoop s b (i + 1) m x' else (.threw, x')

/-- `MatrixBatchCsr::solve(x, b)` for the solvers which are not batched, matrix_batch_csr.hpp:264-295. -/
def csrSolve2' (s : ℕ → Solver) (batch : ℕ) (x b : Vecs) : Ended × Vecs := csrLoop s b 0 batch x

/-- `MatrixBatchCsr::solve(b)`, matrix_batch_csr.hpp:247-253, from `solve(x, b)`: an exception of the latter leaves before the copy into `b`. -/
def csrSolve (two : Vecs → Vecs → Ended × Vecs) (b : Vecs) : Ended × Vecs :=
  let r := two b b
  match r.1 with
  | .returned => (.returned, r.2)
  | .threw => (.threw, b)

end Verif.BatchSparse
