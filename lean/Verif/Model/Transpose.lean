import Verif.Model.Layout

/-! # `transpose_layout` (src/utils/transpose.hpp) -/

namespace Verif.Transpose
open Verif.Layout

variable {κ α : Type*} [DecidableEq κ]

/-- One execution of a loop body `transposed_field(idx) = field_to_transpose(idx)`
(`src/utils/transpose.hpp:63` and `81`) on the memory `dst` of the transposed field. -/
def copyAt (Rdst Rsrc : IdxRange κ) (src : ℕ → α) (dst : ℕ → α) (idx : κ → ℕ) : ℕ → α :=
  Function.update dst (offset Rdst idx) (src (offset Rsrc idx))

/-- The multi-index `(p_idx, s_idx)` built from an index on the first six dimensions and one on the
others (`src/utils/transpose.hpp:80-81`). -/
def joinIdx (Rp : IdxRange κ) (p s : κ → ℕ) : κ → ℕ :=
  fun t => if t ∈ tags Rp then p t else s t

/-- The sequence of multi-indices visited by `transpose_layout`, for a source range `R`
(`src/utils/transpose.hpp:51-84`): for fewer than 7 dimensions the full range in
any order `sched` chosen by `parallel_for_each`; otherwise the first six dimensions in any order `sched` and, for
each of these, a serial sweep over the remaining dimensions. -/
def visited (R : IdxRange κ) (sched : List (κ → ℕ)) : List (κ → ℕ) :=
  if R.length < 7 then sched
  else sched.flatMap fun p => (enum (R.drop 6)).map fun s => joinIdx (R.take 6) p s

/-- The iteration space of the `parallel_for_each` of `transpose_layout`
(`src/utils/transpose.hpp:58-61` and `66-78`). -/
def parallelRange (R : IdxRange κ) : IdxRange κ :=
  if R.length < 7 then R else R.take 6

/-- `transpose_layout` (`src/utils/transpose.hpp:30-86`): final memory of `transposed_field`.
`Rdst`, `Rsrc` are the index ranges (in their own tag order); `sched` is the order in which the
iterations of `parallel_for_each` run. Simplification: iterations are interleaved at the
granularity of whole iterations of the parallel loop (each iteration writes its own locations). -/
def transposeLayout (Rdst Rsrc : IdxRange κ) (sched : List (κ → ℕ)) (dst src : ℕ → α) : ℕ → α :=
  (visited Rsrc sched).foldl (copyAt Rdst Rsrc src) dst

end Verif.Transpose
