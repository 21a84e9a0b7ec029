import Mathlib.Algebra.BigOperators.Group.Finset.Basic
import Mathlib.Algebra.Ring.Defs
import Mathlib.Logic.Function.Basic

/-!
# The matrix classes of src/matrix_tools

Models `Matrix_Dense`, `Matrix_Banded`, `Matrix_PDS_Tridiag` (the leaf classes, whose solve is done by
LAPACK), `Matrix_Corner_Block`, `Matrix_Periodic_Banded`, `Matrix_Centre_Block` and the three factories of
`Matrix`.

Simplifications: `double` is an exact commutative ring; heap arrays are total functions on `ℕ` and 2-D spans
total functions on `ℕ × ℕ` (so the flat layout of `lambda`/`Abm_1_gamma` is not modelled, that of the leaf
classes is); `assert`s are hypotheses of the theorems. LAPACK is a parameter (`Lapack`).
-/

namespace Verif.MatrixTools

variable {α : Type*}

/-! ### Leaf storage -/

/-- `Matrix_Dense` storage: `n` and the array `a` (matrix_dense.cpp:11-19). -/
structure Dense (α : Type*) where
  n : ℕ
  a : ℕ → α

/-- Constructor, matrix_dense.cpp:11-19 (zero fill). -/
def Dense.new [Zero α] (n : ℕ) : Dense α := ⟨n, fun _ => 0⟩

/-- matrix_dense.cpp:21-24. -/
def Dense.set (m : Dense α) (i j : ℕ) (v : α) : Dense α :=
  { m with a := Function.update m.a (j * m.n + i) v }

/-- matrix_dense.cpp:26-31. -/
def Dense.get (m : Dense α) (i j : ℕ) : α := m.a (j * m.n + i)

/-- `Matrix_Banded` storage in LAPACK band layout (matrix_banded.cpp:13-39). -/
structure Banded (α : Type*) where
  n : ℕ
  kl : ℕ
  ku : ℕ
  q : ℕ → α

/-- Constructor, matrix_banded.cpp:13-39. -/
def Banded.new [Zero α] (n kl ku : ℕ) : Banded α := ⟨n, kl, ku, fun _ => 0⟩

/-- Leading dimension, matrix_banded.cpp:17. -/
def Banded.c (m : Banded α) : ℕ := 2 * m.kl + m.ku + 1

/-- The test of matrix_banded.cpp:43 and :52, in C `int`s. -/
def Banded.stored (m : Banded α) (i j : ℕ) : Prop :=
  (i : ℤ) ≥ max 0 ((j : ℤ) - m.ku) ∧ (i : ℤ) < min (m.n : ℤ) (j + m.kl + 1)

instance (m : Banded α) (i j : ℕ) : Decidable (m.stored i j) := by unfold Banded.stored; infer_instance

/-- The flat index of matrix_banded.cpp:44 and :53 (the C expression is nonnegative since `j ≤ j * c`). -/
def Banded.idx (m : Banded α) (i j : ℕ) : ℕ := j * m.c + m.kl + m.ku + i - j

/-- matrix_banded.cpp:41-48. -/
def Banded.get [Zero α] (m : Banded α) (i j : ℕ) : α := if m.stored i j then m.q (m.idx i j) else 0

/-- matrix_banded.cpp:50-57 (the `assert` of line 55 is a precondition). -/
def Banded.set (m : Banded α) (i j : ℕ) (v : α) : Banded α :=
  if m.stored i j then { m with q := Function.update m.q (m.idx i j) v } else m

/-- `Matrix_PDS_Tridiag` storage (matrix_pds_tridiag.cpp:14-21). -/
structure Pds (α : Type*) where
  n : ℕ
  d : ℕ → α
  l : ℕ → α

/-- matrix_pds_tridiag.cpp:14-21. -/
def Pds.new [Zero α] (n : ℕ) : Pds α := ⟨n, fun _ => 0, fun _ => 0⟩

/-- matrix_pds_tridiag.cpp:23-35. -/
def Pds.get [Zero α] (m : Pds α) (i j : ℕ) : α :=
  if i = j then m.d i
  else
    let i' := if i > j then j else i
    let j' := if i > j then i else j
    if i' + 1 = j' then m.l i' else 0

/-- matrix_pds_tridiag.cpp:37-51. -/
def Pds.set (m : Pds α) (i j : ℕ) (v : α) : Pds α :=
  if i = j then { m with d := Function.update m.d i v }
  else
    let i' := if i > j then j else i
    let j' := if i > j then i else j
    if i' + 1 ≠ j' then m else { m with l := Function.update m.l i' v }

/-- A leaf of the class hierarchy, as held by `std::unique_ptr<Matrix> q_block` in the factories
(matrix.cpp:97-106, 119-126). -/
inductive Leaf (α : Type*) where
  | dense (m : Dense α)
  | banded (m : Banded α)
  | pds (m : Pds α)

/-- `Matrix::get_size`, matrix.hpp:96-99. -/
def Leaf.size : Leaf α → ℕ
  | .dense m => m.n
  | .banded m => m.n
  | .pds m => m.n

/-- Virtual dispatch of `get_element`. Used in the model of `matrix.cpp:20-42`. -/
def Leaf.get [Zero α] : Leaf α → ℕ → ℕ → α
  | .dense m => m.get
  | .banded m => m.get
  | .pds m => m.get

/-- Virtual dispatch of `set_element`. Used in the model of `matrix_corner_block.cpp:69-84`. -/
def Leaf.set (m : Leaf α) (i j : ℕ) (v : α) : Leaf α :=
  match m with
  | .dense m => .dense (m.set i j v)
  | .banded m => .banded (m.set i j v)
  | .pds m => .pds (m.set i j v)

/-- The LAPACK routines called by the leaf classes: for a matrix (as a size and its entries) and a right
hand side, the vector left in place of the right hand side. `ge`: dgetrf+dgetrs (matrix_dense.cpp:33-50),
`gb`: dgbtrf+dgbtrs (matrix_banded.cpp:59-79), `pt`: dpttrf+dpttrs (matrix_pds_tridiag.cpp:53-61).
The flag is the `transpose` character (`dpttrs` has none, matrix_pds_tridiag.cpp:58). -/
structure Lapack (α : Type*) where
  ge : ℕ → (ℕ → ℕ → α) → Bool → (ℕ → α) → (ℕ → α)
  gb : ℕ → (ℕ → ℕ → α) → Bool → (ℕ → α) → (ℕ → α)
  pt : ℕ → (ℕ → ℕ → α) → (ℕ → α) → (ℕ → α)

/-- `factorise` followed by `solve_inplace` (`tr = false`) or `solve_transpose_inplace` (`tr = true`) on a leaf
matrix: matrix.cpp:20-42 and 56-72 with the `*_method` overrides. -/
def Leaf.solve [Zero α] (L : Lapack α) (m : Leaf α) (tr : Bool) (b : ℕ → α) : ℕ → α :=
  match m with
  | .dense m => L.ge m.n m.get tr b
  | .banded m => L.gb m.n m.get tr b
  | .pds m => L.pt m.n m.get b

/-! ### Corner block -/

/-- `Matrix_Corner_Block` state (matrix_corner_block.hpp; constructor matrix_corner_block.cpp:9-26).
`gamma j i` is `Abm_1_gamma(j, i)`, `lam j i` is `lambda(j, i)`. -/
structure Corner (α : Type*) where
  n : ℕ
  k : ℕ
  q : Leaf α
  delta : Dense α
  gamma : ℕ → ℕ → α
  lam : ℕ → ℕ → α

/-- `nb = n - k`, matrix_corner_block.cpp:12. -/
def Corner.nb (c : Corner α) : ℕ := c.n - c.k

/-- Constructor, matrix_corner_block.cpp:9-26 (and 28-50, whose only difference is the shape of `lambda`). -/
def Corner.new [Zero α] (n k : ℕ) (q : Leaf α) : Corner α :=
  ⟨n, k, q, Dense.new k, fun _ _ => 0, fun _ _ => 0⟩

/-- Write one entry of a 2-D span. Used in the model of `matrix_corner_block.cpp:69-84`. -/
def update2 (f : ℕ → ℕ → α) (a b : ℕ) (v : α) : ℕ → ℕ → α :=
  fun x y => if x = a ∧ y = b then v else f x y

/-- matrix_corner_block.cpp:52-67. -/
def Corner.get [Zero α] (c : Corner α) (i j : ℕ) : α :=
  if i < c.nb ∧ j < c.nb then c.q.get i j
  else if i ≥ c.nb ∧ j ≥ c.nb then c.delta.get (i - c.nb) (j - c.nb)
  else if j ≥ c.nb then c.gamma (j - c.nb) i
  else c.lam j (i - c.nb)

/-- matrix_corner_block.cpp:69-84. -/
def Corner.set (c : Corner α) (i j : ℕ) (v : α) : Corner α :=
  if i < c.nb ∧ j < c.nb then { c with q := c.q.set i j v }
  else if i ≥ c.nb ∧ j ≥ c.nb then { c with delta := c.delta.set (i - c.nb) (j - c.nb) v }
  else if j ≥ c.nb then { c with gamma := update2 c.gamma (j - c.nb) i v }
  else { c with lam := update2 c.lam j (i - c.nb) v }

/-- The three virtual functions of `Matrix_Corner_Block` that `Matrix_Periodic_Banded` overrides
(matrix_corner_block.hpp: `calculate_delta_to_factorise`, `solve_lambda_section`,
`solve_lambda_section_transpose`). Arguments: `nb k lambda ...`. Used in the model of `matrix_corner_block.cpp:99-112`. -/
structure LamOps (α : Type*) where
  delta : ℕ → ℕ → (ℕ → ℕ → α) → (ℕ → ℕ → α) → (ℕ → ℕ → α) → (ℕ → ℕ → α)
  sec : ℕ → ℕ → (ℕ → ℕ → α) → (ℕ → α) → (ℕ → α) → (ℕ → α)
  secT : ℕ → ℕ → (ℕ → ℕ → α) → (ℕ → α) → (ℕ → α) → (ℕ → α)

section ops
variable [CommRing α]

/-- `calculate_delta_to_factorise`, matrix_corner_block.cpp:86-97: each entry of `delta` is read, the
accumulated `val` subtracted and written back; `beta j l` is `Abm_1_gamma(j,l)` after the multiple solve. -/
def cornerDelta (nb _k : ℕ) (lam beta delta : ℕ → ℕ → α) : ℕ → ℕ → α := fun i j =>
  delta i j - (List.range nb).foldl (fun val l => val + lam l i * beta j l) 0

/-- `solve_lambda_section`, matrix_corner_block.cpp:114-123. -/
def cornerSec (nb _k : ℕ) (lam : ℕ → ℕ → α) (v u : ℕ → α) : ℕ → α := fun i =>
  (List.range nb).foldl (fun vi j => vi - lam j i * u j) (v i)

/-- `solve_lambda_section_transpose`, matrix_corner_block.cpp:125-134. -/
def cornerSecT (_nb k : ℕ) (lam : ℕ → ℕ → α) (u v : ℕ → α) : ℕ → α := fun i =>
  (List.range k).foldl (fun ui j => ui - lam i j * v j) (u i)

/-- The vtable of `Matrix_Corner_Block` (also used, unchanged, by `Matrix_Centre_Block`). Used in the model of `matrix_centre_block.cpp:96-110`. -/
def cornerOps : LamOps α := ⟨cornerDelta, cornerSec, cornerSecT⟩

/-- `solve_gamma_section`, matrix_corner_block.cpp:136-146. -/
def gammaSec (k : ℕ) (beta : ℕ → ℕ → α) (u v : ℕ → α) : ℕ → α := fun i =>
  u i - (List.range k).foldl (fun val j => val + beta j i * v j) 0

/-- `solve_gamma_section_transpose`, matrix_corner_block.cpp:148-158. -/
def gammaSecT (nb : ℕ) (beta : ℕ → ℕ → α) (v u : ℕ → α) : ℕ → α := fun j =>
  v j - (List.range nb).foldl (fun val i => val + beta j i * u i) 0

/-- The state after `factorise`, matrix_corner_block.cpp:99-112: the two inner solvers (plain and
transposed), `beta` (the contents of `Abm_1_gamma`) and `lambda`. -/
structure Factored (α : Type*) where
  nb : ℕ
  k : ℕ
  qsolve : Bool → (ℕ → α) → (ℕ → α)
  dsolve : Bool → (ℕ → α) → (ℕ → α)
  beta : ℕ → ℕ → α
  lam : ℕ → ℕ → α

/-- `factorise`, matrix_corner_block.cpp:99-112. `q_block->solve_multiple_inplace(Abm_1_gamma)` solves one
system per row `j` of the `k × nb` span (matrix.cpp:44-54). -/
def Corner.factorise (L : Lapack α) (ops : LamOps α) (c : Corner α) : Factored α :=
  let beta : ℕ → ℕ → α := fun j => c.q.solve L false (c.gamma j)
  let delta' := ops.delta c.nb c.k c.lam beta c.delta.get
  { nb := c.nb, k := c.k,
    qsolve := c.q.solve L,
    dsolve := L.ge c.k delta',
    beta := beta, lam := c.lam }

/-- View an array as the sub-spans `u` (first `nb` entries) and `v` (the next `k`), and back:
matrix_corner_block.cpp:164-165. -/
def joinUV (nb : ℕ) (u v : ℕ → α) : ℕ → α := fun i => if i < nb then u i else v (i - nb)

/-- `solve_inplace`, matrix_corner_block.cpp:160-196. -/
def Factored.solve (ops : LamOps α) (f : Factored α) (bx : ℕ → α) : ℕ → α :=
  let u := bx
  let v := fun i => bx (f.nb + i)
  let u := f.qsolve false u
  let v := ops.sec f.nb f.k f.lam v u
  let v := f.dsolve false v
  let u := gammaSec f.k f.beta u v
  joinUV f.nb u v

/-- `solve_transpose_inplace`, matrix_corner_block.cpp:198-232. -/
def Factored.solveT (ops : LamOps α) (f : Factored α) (bx : ℕ → α) : ℕ → α :=
  let u := bx
  let v := fun i => bx (f.nb + i)
  let v := gammaSecT f.nb f.beta v u
  let v := f.dsolve true v
  let u := ops.secT f.nb f.k f.lam u v
  let u := f.qsolve true u
  joinUV f.nb u v

/-- `solve_multiple_inplace`, matrix_corner_block.cpp:234-242: flat array `bx` of `rows` systems of length
`n = nb + k`; row `i` starts at `n * i`. (The `assert` of line 236 is discussed with the theorems.) -/
def Factored.solveMultiple (ops : LamOps α) (f : Factored α) (rows : ℕ) (bx : ℕ → α) : ℕ → α :=
  (List.range rows).foldl (fun bx i =>
    let n := f.nb + f.k
    let x := f.solve ops (fun p => bx (n * i + p))
    fun p => if n * i ≤ p ∧ p < n * i + n then x (p - n * i) else bx p) bx

/-! ### Periodic banded -/

/-- The index computation shared by `get_element` and `set_element` for the lower-left block,
matrix_periodic_banded.cpp:32-43 and 56-70: `none` when `d` is outside the band, otherwise the first index
of `lambda`. `n / 2` and `-n / 2` are C divisions (both truncate towards zero). -/
def periodicSlot (n nb k kl ku i j : ℕ) : Option ℕ :=
  let d : ℤ := (j : ℤ) - i
  let d := if d > ((n / 2 : ℕ) : ℤ) then d - n else d
  let d := if d < -((n / 2 : ℕ) : ℤ) then d + n else d
  if d < -(kl : ℤ) ∨ d > (ku : ℤ) then none
  else if d > 0 then some j
  else some (j + k + 1 - nb)

/-- `Matrix_Periodic_Banded` (matrix_periodic_banded.cpp:14-23): a corner block with `k = max(kl, ku)`. -/
structure Periodic (α : Type*) where
  kl : ℕ
  ku : ℕ
  base : Corner α

/-- matrix_periodic_banded.cpp:14-23. -/
def Periodic.new (n kl ku : ℕ) (q : Leaf α) : Periodic α := ⟨kl, ku, Corner.new n (max kl ku) q⟩

/-- matrix_periodic_banded.cpp:25-47. -/
def Periodic.get (m : Periodic α) (i j : ℕ) : α :=
  if i ≥ m.base.nb ∧ j < m.base.nb then
    match periodicSlot m.base.n m.base.nb m.base.k m.kl m.ku i j with
    | none => 0
    | some s => m.base.lam s (i - m.base.nb)
  else m.base.get i j

/-- matrix_periodic_banded.cpp:49-74. -/
def Periodic.set (m : Periodic α) (i j : ℕ) (v : α) : Periodic α :=
  if i ≥ m.base.nb ∧ j < m.base.nb then
    match periodicSlot m.base.n m.base.nb m.base.k m.kl m.ku i j with
    | none => m
    | some s => { m with base := { m.base with lam := update2 m.base.lam s (i - m.base.nb) v } }
  else { m with base := m.base.set i j v }

/-- matrix_periodic_banded.cpp:76-93. `l_full = nb - 1 - k + l` (line 87; nonnegative when `k ≤ nb`,
so the order of the operations does not matter). -/
def periodicDelta (nb k : ℕ) (lam beta delta : ℕ → ℕ → α) : ℕ → ℕ → α := fun i j =>
  let val := (List.range (i + 1)).foldl (fun val l => val + lam l i * beta j l) 0
  let val := (List.range' (i + 1) (k - i)).foldl
    (fun val l => val + lam l i * beta j (nb + l - 1 - k)) val
  delta i j - val

/-- matrix_periodic_banded.cpp:95-108. -/
def periodicSec (nb k : ℕ) (lam : ℕ → ℕ → α) (v u : ℕ → α) : ℕ → α := fun i =>
  let vi := (List.range (i + 1)).foldl (fun vi j => vi - lam j i * u j) (v i)
  (List.range' (i + 1) (k - i)).foldl (fun vi j => vi - lam j i * u (nb + j - 1 - k)) vi

/-- matrix_periodic_banded.cpp:110-124: a scatter into `u`. -/
def periodicSecT (nb k : ℕ) (lam : ℕ → ℕ → α) (u v : ℕ → α) : ℕ → α :=
  (List.range k).foldl (fun u i =>
    let u := (List.range (i + 1)).foldl
      (fun u j => Function.update u j (u j - lam j i * v i)) u
    (List.range' (i + 1) (k - i)).foldl
      (fun u j => Function.update u (nb + j - 1 - k) (u (nb + j - 1 - k) - lam j i * v i)) u) u

/-- The vtable of `Matrix_Periodic_Banded`. (matrix_periodic_banded.hpp:41-43.) -/
def periodicOps : LamOps α := ⟨periodicDelta, periodicSec, periodicSecT⟩

/-! ### Centre block -/

/-- `Matrix_Centre_Block` (matrix_centre_block.cpp:8-19). -/
structure Centre (α : Type*) where
  top : ℕ
  bottom : ℕ
  base : Corner α

/-- matrix_centre_block.cpp:8-19. -/
def Centre.new (n top bottom : ℕ) (q : Leaf α) : Centre α :=
  ⟨top, bottom, Corner.new n (top + bottom) q⟩

/-- `adjust_indexes` on one index, matrix_centre_block.cpp:21-32 (`bottom_block_index = n -
bottom_block_size`, line 16). -/
def Centre.adjust (m : Centre α) (i : ℕ) : ℕ :=
  if i < m.top then i + m.base.q.size
  else if i < m.base.n - m.bottom then i - m.top
  else i

/-- matrix_centre_block.cpp:34-38. -/
def Centre.get (m : Centre α) (i j : ℕ) : α := m.base.get (m.adjust i) (m.adjust j)

/-- matrix_centre_block.cpp:40-44. -/
def Centre.set (m : Centre α) (i j : ℕ) (v : α) : Centre α :=
  { m with base := m.base.set (m.adjust i) (m.adjust j) v }

/-- `memcpy` between two disjoint arrays: `len` elements of `src` from `so` to `dst` at `dof`. `cap` is
the number of elements of the destination; writing past it is undefined behaviour (`none`). Used in the model of `matrix_centre_block.cpp:46-56`. -/
def memcpyTo (dst : ℕ → α) (cap dof : ℕ) (src : ℕ → α) (so len : ℕ) : Option (ℕ → α) :=
  if dof + len ≤ cap then some (fun p => if dof ≤ p ∧ p < dof + len then src (so + (p - dof)) else dst p)
  else none

/-- `memcpy` inside one array of `cap` elements: undefined (`none`) when out of range or when the two
ranges overlap (C11 7.24.2.1). Used in the model of `matrix_centre_block.cpp:46-56`. -/
def memcpySelf (a : ℕ → α) (cap dof so len : ℕ) : Option (ℕ → α) :=
  if dof + len ≤ cap ∧ so + len ≤ cap ∧ (len = 0 ∨ so + len ≤ dof ∨ dof + len ≤ so) then
    some (fun p => if dof ≤ p ∧ p < dof + len then a (so + (p - dof)) else a p)
  else none

/-- `swap_array_to_corner` on `ncols` interleaved columns, matrix_centre_block.cpp:46-56 (`ncols = 1`)
and 58-69 (`ncols = bx.extent(1)`). `cap` is the total size of `bx`; `swap_array` has `q` elements
(matrix_centre_block.cpp:17). -/
def swapToCorner (top q ncols cap : ℕ) (bx : ℕ → α) : Option (ℕ → α) := do
  let swap ← memcpyTo (fun _ => (0 : α)) q 0 bx (top * ncols) (q * ncols)
  let bx ← memcpySelf bx cap (q * ncols) 0 (top * ncols)
  memcpyTo bx cap 0 swap 0 (q * ncols)

/-- `swap_array_to_centre`, matrix_centre_block.cpp:71-81 and 83-94. -/
def swapToCentre (top q ncols cap : ℕ) (bx : ℕ → α) : Option (ℕ → α) := do
  let swap ← memcpyTo (fun _ => (0 : α)) q 0 bx 0 (q * ncols)
  let bx ← memcpySelf bx cap 0 (q * ncols) (top * ncols)
  memcpyTo bx cap (top * ncols) swap 0 (q * ncols)

/-- `Matrix_Centre_Block::solve_inplace` and `solve_transpose_inplace` on a factorised matrix,
matrix_centre_block.cpp:96-110. -/
def centreSolve (top : ℕ) (f : Factored α) (tr : Bool) (bx : ℕ → α) : Option (ℕ → α) := do
  let n := f.nb + f.k
  let bx ← swapToCorner top f.nb 1 n bx
  let bx := if tr then f.solveT cornerOps bx else f.solve cornerOps bx
  swapToCentre top f.nb 1 n bx

/-- `Matrix_Centre_Block::solve_multiple_inplace`, matrix_centre_block.cpp:112-118, on a span of extents
`rows × cols`. -/
def centreSolveMultiple (top : ℕ) (f : Factored α) (rows cols : ℕ) (bx : ℕ → α) :
    Option (ℕ → α) := do
  let bx ← swapToCorner top f.nb cols (rows * cols) bx
  let bx := f.solveMultiple cornerOps rows bx
  swapToCentre top f.nb cols (rows * cols) bx

/-! ### Any matrix, and the factories -/

/-- The objects a `std::unique_ptr<Matrix>` returned by the factories can point to. Used in the model of `matrix.cpp:74-87`. -/
inductive Mat (α : Type*) where
  | leaf (m : Leaf α)
  | corner (m : Corner α)
  | periodic (m : Periodic α)
  | centre (m : Centre α)

/-- Virtual `get_element`. (matrix.hpp:30.) -/
def Mat.get : Mat α → ℕ → ℕ → α
  | .leaf m => m.get
  | .corner m => m.get
  | .periodic m => m.get
  | .centre m => m.get

/-- Virtual `set_element`. (matrix.hpp:38.) -/
def Mat.set (m : Mat α) (i j : ℕ) (v : α) : Mat α :=
  match m with
  | .leaf m => .leaf (m.set i j v)
  | .corner m => .corner (m.set i j v)
  | .periodic m => .periodic (m.set i j v)
  | .centre m => .centre (m.set i j v)

/-- `factorise()` followed by `solve_inplace` / `solve_transpose_inplace`, by virtual dispatch. `none` is
undefined behaviour. (matrix.hpp:47-73.) -/
def Mat.solve (L : Lapack α) (m : Mat α) (tr : Bool) (b : ℕ → α) : Option (ℕ → α) :=
  match m with
  | .leaf m => some (m.solve L tr b)
  | .corner m =>
      let f := m.factorise L cornerOps
      some (if tr then f.solveT cornerOps b else f.solve cornerOps b)
  | .periodic m =>
      let f := m.base.factorise L periodicOps
      some (if tr then f.solveT periodicOps b else f.solve periodicOps b)
  | .centre m => centreSolve m.top (m.base.factorise L cornerOps) tr b

/-- `Matrix::make_new_banded`, matrix.cpp:74-87. -/
def makeBanded (n kl ku : ℕ) (pds : Bool) : Mat α :=
  if kl = ku ∧ kl = 1 ∧ pds = true then .leaf (.pds (Pds.new n))
  else if 2 * kl + 1 + ku ≥ n then .leaf (.dense (Dense.new n))
  else .leaf (.banded (Banded.new n kl ku))

/-- `Matrix::make_new_periodic_banded`, matrix.cpp:89-108 (`n ≥ max(kl,ku)` so that the C `int`
`banded_size` is a natural number). -/
def makePeriodic (n kl ku : ℕ) (pds : Bool) : Mat α :=
  let border := max kl ku
  let banded := n - border
  if pds = true ∧ kl = ku ∧ kl = 1 then .periodic (Periodic.new n kl ku (.pds (Pds.new banded)))
  else if border * n + border * (border + 1) + (2 * kl + 1 + ku) * banded ≥ n * n then
    .leaf (.dense (Dense.new n))
  else .periodic (Periodic.new n kl ku (.banded (Banded.new banded kl ku)))

/-- `Matrix::make_new_block_with_banded_region`, matrix.cpp:110-133. -/
def makeBlock (n kl ku : ℕ) (pds : Bool) (block1 block2 : ℕ) : Mat α :=
  let banded := n - block1 - block2
  let finish (q : Leaf α) : Mat α :=
    if block2 = 0 then .corner (Corner.new n block1 q) else .centre (Centre.new n block1 block2 q)
  if pds = true ∧ kl = ku ∧ kl = 1 then finish (.pds (Pds.new banded))
  else if 2 * kl + 1 + ku ≥ banded then .leaf (.dense (Dense.new n))
  else finish (.banded (Banded.new banded kl ku))

/-- Filling a matrix through `set_element`, in any order: `ps` is the list of positions written. (matrix.hpp:38.) -/
def Mat.fill (m : Mat α) (A : ℕ → ℕ → α) (ps : List (ℕ × ℕ)) : Mat α :=
  ps.foldl (fun m p => m.set p.1 p.2 (A p.1 p.2)) m

end ops

end Verif.MatrixTools
