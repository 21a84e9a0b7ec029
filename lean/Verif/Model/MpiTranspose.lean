import Verif.Model.MpiLayout
import Verif.Model.Transpose

/-!
# `MPITransposeAllToAll` (src/mpi_parallelisation/mpitransposealltoall.hpp)

All ranks of the communicator are modelled at once: the memory of a distributed field is a function
from ranks to (positions to values).  MPI itself is trusted: `MPI_Alltoall` is modelled by its documented effect.
-/

namespace Verif.MpiTranspose
open Verif.Layout Verif.MpiLayout Verif.Transpose

/-- Dimension tags: either an ordinary dimension or `MPIDim<Dim>`
(`src/mpi_parallelisation/mpitools.hpp:12-17`). -/
inductive Ext (τ : Type*)
  | mpi (t : τ)
  | dim (t : τ)
deriving DecidableEq, Repr

variable {τ α : Type*} [DecidableEq τ]

/-- `IMPILayout<IdxRangeData, DistributedDim...>`: tag order of the data and the distributed dimensions
(`src/mpi_parallelisation/impilayout.hpp:14-25`). -/
structure MLayout (τ : Type*) where
  order : List τ
  distributed : List τ

/-- The local index range of rank `r` (`src/mpi_parallelisation/mpitransposealltoall.hpp:71-72,86-89`);
the empty list if the distribution throws. -/
def localRange (L : MLayout τ) (G : IdxRange τ) (P r : ℕ) : IdxRange τ :=
  match distribute L.distributed (reorder L.order G) P r with
  | .ok R => R
  | .error _ => []

/-- The constructor of `MPITransposeAllToAll` (`src/mpi_parallelisation/mpitransposealltoall.hpp:63-96`):
`some message-number` if it throws (0: more ranks than points, 1: not divisible (layout 1),
2: thrown from `distribute_idx_range`), `none` if it succeeds. -/
def constructorThrows (L1 L2 : MLayout τ) (G : IdxRange τ) (P r : ℕ) : Option ℕ :=
  let n1 := distribSize L1.distributed (reorder L1.order G)
  if P > n1 then some 0
  else if n1 % P ≠ 0 then some 1
  else match distribute L1.distributed (reorder L1.order G) P r, distribute L2.distributed (reorder L2.order G) P r with
    | .ok _, .ok _ => none
    | _, _ => some 2

/-- `get_distribution` (`src/mpi_parallelisation/mpitransposealltoall.hpp:343-353`) applied as on lines `90-95`:
number of ranks along each distributed dimension, in the order of the `DistributedDim` pack. -/
def mpiRange (L : MLayout τ) (G : IdxRange τ) (P r : ℕ) : IdxRange (Ext τ) :=
  L.distributed.map fun t => ⟨.mpi t, 0, (select G t).size / (select (localRange L G P r) t).size⟩

/-- `InsertIntoTypeSeq` (`src/mpi_parallelisation/mpitools.hpp:86-102`). Simplification: the
`type_seq_remove`/`type_seq_merge` of lines 90-95 remove and re-add the first element, which is the identity
as tags are distinct. -/
def insertAt {β : Type*} (t : β) : ℕ → List β → List β
  | 0, s => t :: s
  | _ + 1, [] => [t]
  | p + 1, a :: s => a :: insertAt t p s

/-- `InsertMPITags` (`src/mpi_parallelisation/mpitools.hpp:158-175`): insert `MPIDim<D>` just before
`D`, for each distributed dimension in turn. -/
def insertMpiTags : List τ → List (Ext τ) → List (Ext τ)
  | [], s => s
  | d :: D, s => insertMpiTags D (insertAt (.mpi d) (s.idxOf (.dim d)) s)

/-- Rename the tags of a range into extended tags (the ordinary dimensions keep their meaning;
no C++ counterpart: `src/mpi_parallelisation/mpitools.hpp:12-17` uses one universe of types). -/
def lift (R : IdxRange τ) : IdxRange (Ext τ) := R.map fun d => ⟨.dim d.tag, d.front, d.size⟩

/-- `batch_dims` (`src/mpi_parallelisation/mpitransposealltoall.hpp:206-208`). -/
def batchDims (Lin Lout : MLayout τ) : List τ :=
  (Lin.order.filter fun t => t ∉ Lout.distributed).filter fun t => t ∉ Lin.distributed

/-- The dimensions of a field without the MPI split: `scatter_idx_range`, `gather_idx_range`, `batch_idx_range` of
`src/mpi_parallelisation/mpitransposealltoall.hpp:263-265` on rank `r`. -/
def plainDims (Lin Lout : MLayout τ) (G : IdxRange τ) (P r : ℕ) : IdxRange (Ext τ) :=
  lift (reorder Lout.distributed (localRange Lout G P r)) ++
  lift (reorder Lin.distributed (localRange Lin G P r)) ++
  lift (reorder (batchDims Lin Lout) (localRange Lin G P r))

/-- `input_mpi_idx_range` (`src/mpi_parallelisation/mpitransposealltoall.hpp:210-211,268-272`). -/
def inputMpiRange (Lin Lout : MLayout τ) (G : IdxRange τ) (P r : ℕ) : IdxRange (Ext τ) :=
  reorder (insertMpiTags Lout.distributed (Lin.order.map .dim)) (mpiRange Lout G P r ++ plainDims Lin Lout G P r)

/-- `output_mpi_idx_range` (`src/mpi_parallelisation/mpitransposealltoall.hpp:212-213,273-277`). -/
def outputMpiRange (Lin Lout : MLayout τ) (G : IdxRange τ) (P r : ℕ) : IdxRange (Ext τ) :=
  reorder (insertMpiTags Lin.distributed (Lout.order.map .dim)) (mpiRange Lin G P r ++ plainDims Lin Lout G P r)

/-- `input_alltoall_idx_range` (`src/mpi_parallelisation/mpitransposealltoall.hpp:216-217,282`). -/
def inputAlltoallRange (Lin Lout : MLayout τ) (G : IdxRange τ) (P r : ℕ) : IdxRange (Ext τ) :=
  reorder (Lout.distributed.map .mpi ++ Lin.order.map .dim) (inputMpiRange Lin Lout G P r)

/-- `output_alltoall_idx_range` (`src/mpi_parallelisation/mpitransposealltoall.hpp:218-219,283`). -/
def outputAlltoallRange (Lin Lout : MLayout τ) (G : IdxRange τ) (P r : ℕ) : IdxRange (Ext τ) :=
  reorder (Lin.distributed.map .mpi ++ Lin.order.map .dim) (outputMpiRange Lin Lout G P r)

/-- `MPI_Alltoall` (called at `src/mpi_parallelisation/mpitransposealltoall.hpp:333-340`): block `q` of the receive buffer of rank `r` is
block `r` of the send buffer of rank `q`. `sc q`, `rc r` are the per-rank send and receive counts. -/
def alltoall (sc rc : ℕ → ℕ) (send : ℕ → ℕ → α) (r : ℕ) (pos : ℕ) : α :=
  let q := pos / rc r
  send q (r * sc q + pos % rc r)

/-- The send buffer of rank `q`: `create_transpose_mirror_view_and_copy`
(`src/mpi_parallelisation/mpitransposealltoall.hpp:288-289,298-299`, `src/utils/transpose.hpp:107-123`). The memory of
the send field is reinterpreted on `input_mpi_idx_range`; `junk` is the content of the freshly allocated buffer. -/
def sendBuffer (Lin Lout : MLayout τ) (G : IdxRange τ) (P : ℕ) (sched : ℕ → List (Ext τ → ℕ))
    (junk send : ℕ → ℕ → α) (q : ℕ) : ℕ → α :=
  if inputAlltoallRange Lin Lout G P q = inputMpiRange Lin Lout G P q then send q
  else transposeLayout (inputAlltoallRange Lin Lout G P q) (inputMpiRange Lin Lout G P q) (sched q) (junk q) (send q)

/-- `transpose_to` (`src/mpi_parallelisation/mpitransposealltoall.hpp:174-317`): the final memory of
`recv_field` on rank `r`. `schedIn`, `schedOut` are the orders of the two parallel copies on each rank. -/
def transposeTo (Lin Lout : MLayout τ) (G : IdxRange τ) (P : ℕ) (schedIn schedOut : ℕ → List (Ext τ → ℕ))
    (junk send recv : ℕ → ℕ → α) (r : ℕ) : ℕ → α :=
  let sendBuf := sendBuffer Lin Lout G P schedIn junk send
  let recvBuf := alltoall
    (fun q => size (inputAlltoallRange Lin Lout G P q) / P)
    (fun r => size (outputAlltoallRange Lin Lout G P r) / P) sendBuf r
  if outputAlltoallRange Lin Lout G P r = outputMpiRange Lin Lout G P r then recvBuf
  else transposeLayout (outputMpiRange Lin Lout G P r) (outputAlltoallRange Lin Lout G P r) (schedOut r) (recv r) recvBuf

end Verif.MpiTranspose
