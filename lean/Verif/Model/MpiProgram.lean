import Mathlib.Logic.Function.Basic
import Mathlib.Data.Nat.Basic

/-!
# Processes that communicate by collective operations

The message passing programs of the library communicate only by collective operations on one communicator: `MPI_Alltoall`
(`src/mpi_parallelisation/mpitransposealltoall.hpp:333-340`), `MPI_Allreduce`
(`src/geometryXYVxVy/poisson/mpichargedensitycalculator.cpp:32-38`) and the parallel writing of files by the PDI plugin `decl_hdf5`
(`simulations/geometryXYVxVy/landau/pdi_out.yml.hpp:73-99`, `communicator: $MPI_COMM_WORLD`).  Each process is a list of actions on its own memory.
All interleavings of the processes are possible.  MPI is external; the part of its specification that is used: the `k`-th collective call of a process on
the communicator takes part in the `k`-th collective operation; a process can leave the operation when all processes have called it with matching
arguments, and it then has the contributions of all processes.  (Simplification: an operation which does not need the contributions of all processes, such as the
opening of a file, is also synchronising here.)
-/
namespace Verif.MpiProgram

/-- A collective call with the arguments that have to match between the processes: the counts of `MPI_Alltoall`
(`src/mpi_parallelisation/mpitransposealltoall.hpp:333-340`), the count of `MPI_Allreduce`
(`src/geometryXYVxVy/poisson/mpichargedensitycalculator.cpp:32-38`), the number of the file which is written (`pdi_out.yml.hpp:73-99`). -/
inductive Lab
  | alltoall (sendCount recvCount : ℕ)
  | allreduce (count : ℕ)
  | io (file : ℕ)
deriving DecidableEq, Repr

/-- The call `a` of one process matches the call `b` of another one (MPI standard, used at `mpitransposealltoall.hpp:333-340` and
`mpichargedensitycalculator.cpp:32-38`): same operation, and the amount of data sent by the first is the amount expected by the second. -/
def Lab.compat : Lab → Lab → Bool
  | .alltoall s _, .alltoall _ r => s == r
  | .allreduce m, .allreduce n => m == n
  | .io f, .io g => f == g
  | _, _ => false

/-- One action of a process with memory `S` and contributions to collective operations in `M`: a computation in its memory, or a collective call: `give` is
what it contributes, `take` puts the contributions of all the processes in its memory.
(`mpitransposealltoall.hpp:300-317,333-340`, `mpichargedensitycalculator.cpp:28-38`.) -/
inductive Act (S M : Type*)
  | loc (f : S → S)
  | coll (lab : Lab) (give : S → M) (take : (ℕ → M) → S → S)

/-- A state of the parallel program: what each process has still to do, its memory, the number of collective operations it has left, and for each collective
operation the calls made so far. (No C++ counterpart: operational semantics of the calls cited above, `mpitransposealltoall.hpp:333-340`.) -/
structure Conf (S M : Type*) where
  pool : ℕ → List (Act S M)
  mem : ℕ → S
  cnt : ℕ → ℕ
  log : ℕ → ℕ → Option (Lab × M)

variable {S M : Type*}

/-- The start of the program (`simulations/geometryXYVxVy/landau/landau4d_fft.cpp:44-48`: `MPI_Init`). -/
def start (prog : ℕ → List (Act S M)) (init : ℕ → S) : Conf S M := ⟨prog, init, fun _ => 0, fun _ _ => none⟩

/-- The contributions to a collective operation (`default` where there is none; the receive buffer of `mpitransposealltoall.hpp:333-340`). -/
def contributions [Inhabited M] (calls : ℕ → Option (Lab × M)) (q : ℕ) : M :=
  match calls q with
  | some (_, m) => m
  | none => default

/-- One step of one of the `P` processes (semantics of `mpitransposealltoall.hpp:333-340`, `mpichargedensitycalculator.cpp:32-38`). -/
inductive Step [Inhabited M] (P : ℕ) : Conf S M → Conf S M → Prop
  /-- a computation -/
  | comp (c : Conf S M) (r : ℕ) (f : S → S) (rest : List (Act S M)) : r < P → c.pool r = .loc f :: rest →
      Step P c { c with pool := Function.update c.pool r rest, mem := Function.update c.mem r (f (c.mem r)) }
  /-- a process reaches a collective call -/
  | call (c : Conf S M) (r : ℕ) (lab : Lab) (give : S → M) (take : (ℕ → M) → S → S) (rest : List (Act S M)) : r < P →
      c.pool r = .coll lab give take :: rest → c.log (c.cnt r) r = none →
      Step P c { c with log := Function.update c.log (c.cnt r) (Function.update (c.log (c.cnt r)) r (some (lab, give (c.mem r)))) }
  /-- a process leaves a collective call: all processes have made the call, with matching arguments -/
  | leave (c : Conf S M) (r : ℕ) (lab : Lab) (give : S → M) (take : (ℕ → M) → S → S) (rest : List (Act S M)) : r < P →
      c.pool r = .coll lab give take :: rest →
      (∀ q < P, ∃ l m, c.log (c.cnt r) q = some (l, m)) →
      (∀ q < P, ∀ q' < P, ∀ l m l' m', c.log (c.cnt r) q = some (l, m) → c.log (c.cnt r) q' = some (l', m') → l.compat l' = true) →
      Step P c { c with
        pool := Function.update c.pool r rest
        mem := Function.update c.mem r (take (contributions (c.log (c.cnt r))) (c.mem r))
        cnt := Function.update c.cnt r (c.cnt r + 1) }

/-- Runs of `n` steps (any interleaving; `mpitransposealltoall.hpp:333-340`). -/
inductive Run [Inhabited M] (P : ℕ) : ℕ → Conf S M → Conf S M → Prop
  | zero (c : Conf S M) : Run P 0 c c
  | succ {n : ℕ} {a b c : Conf S M} : Run P n a b → Step P b c → Run P (n + 1) a c

/-- All the processes have reached the end of the program (`landau4d_fft.cpp:191`: `MPI_Finalize`). -/
def Finished (P : ℕ) (c : Conf S M) : Prop := ∀ r < P, c.pool r = []

/-- One action of a program which all processes execute, the functions depending on the rank (`landau4d_fft.cpp:85-180`: one program for all the ranks). -/
inductive PAct (S M : Type*)
  | loc (f : ℕ → S → S)
  | coll (lab : ℕ → Lab) (give : ℕ → S → M) (take : ℕ → (ℕ → M) → S → S)

/-- What process `r` executes (`landau4d_fft.cpp:44-48`: `MPI_Comm_rank`). -/
def PAct.at (r : ℕ) : PAct S M → Act S M
  | .loc f => .loc (f r)
  | .coll lab give take => .coll (lab r) (give r) (take r)

/-- The program of all processes (`landau4d_fft.cpp:85-180`). -/
def spmd (prog : List (PAct S M)) (r : ℕ) : List (Act S M) := prog.map (PAct.at r)

end Verif.MpiProgram
