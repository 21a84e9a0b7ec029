import Mathlib.Algebra.Field.Defs
import Mathlib.Algebra.Order.Field.Basic
import Mathlib.Algebra.Order.Group.Unbundled.Abs
import Mathlib.Logic.Function.Basic

/-!
# `MatrixBatchTridiag` (src/matrix_tools/matrix_batch_tridiag.hpp)

Kokkos views are total functions of (batch, row). `double` is an exact field in which division by zero gives
some unspecified value (the theorems assume or prove that the divisors are non-zero). The parallel loop over
batches writes disjoint rows, so it is modelled per batch.
-/

namespace Verif.Tridiag

variable {α : Type*}

/-- The three diagonals, indexed by (batch, row) (matrix_batch_tridiag.hpp:36-38). -/
structure Batch (α : Type*) where
  batch : ℕ
  n : ℕ
  sub : ℕ → ℕ → α
  diag : ℕ → ℕ → α
  upp : ℕ → ℕ → α

section solve
variable [Field α]

/-- `cprim(batch_idx, i)` after the forward loop, lines 168 and 171-174. -/
def cprim (sub diag upp : ℕ → α) : ℕ → α
  | 0 => upp 0 / diag 0
  | i + 1 => upp (i + 1) / (diag (i + 1) - sub (i + 1) * cprim sub diag upp i)

/-- `dprim(batch_idx, i)` after the forward loop, lines 169 and 175-179. -/
def dprim (sub diag upp b : ℕ → α) : ℕ → α
  | 0 => b 0 / diag 0
  | i + 1 => (b (i + 1) - sub (i + 1) * dprim sub diag upp b i)
      / (diag (i + 1) - sub (i + 1) * cprim sub diag upp i)

/-- The backward loop, lines 182-186: `i` runs from `n - 2` down to `0` and `b` is overwritten in place. -/
def backward (n : ℕ) (c d b : ℕ → α) : ℕ → α :=
  let b := Function.update b (n - 1) (d (n - 1))
  (List.range (n - 1)).reverse.foldl (fun b i => Function.update b i (d i - c i * b (i + 1))) b

/-- The body of the `parallel_for`, lines 166-187, for one batch. -/
def solveOne (n : ℕ) (sub diag upp b : ℕ → α) : ℕ → α :=
  backward n (cprim sub diag upp) (dprim sub diag upp b) b

/-- `solve`, lines 140-188: every batch in turn, in place. -/
def Batch.solve (m : Batch α) (b : ℕ → ℕ → α) : ℕ → ℕ → α :=
  (List.range m.batch).foldl
    (fun b k => Function.update b k (solveOne m.n (m.sub k) (m.diag k) (m.upp k) (b k))) b

end solve

section check
variable [Field α] [LinearOrder α] [IsStrictOrderedRing α]

/-- The reduction "DiagDominant", lines 98-107. -/
def Batch.isDiagDom (m : Batch α) : Bool :=
  (List.range m.batch).all fun b => (List.range m.n).all fun k =>
    decide (|m.sub b k| + |m.upp b k| ≤ |m.diag b k|)

/-- The reduction "Symmetric", lines 108-118; `tol` is `1e-16`. -/
def Batch.isSymmetric (m : Batch α) (tol : α) : Bool :=
  (List.range m.batch).all fun b => (List.range m.n).all fun k =>
    decide (|m.sub b k - m.upp b k| < tol)

/-- `check_stability`, lines 79-121. -/
def Batch.checkStability (m : Batch α) (tol : α) : Bool := m.isDiagDom || m.isSymmetric tol

end check

end Verif.Tridiag
