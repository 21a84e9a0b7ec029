import Verif.Model.Quadrature
import Verif.Model.Tridiag
import Verif.Model.Fem
import Verif.Model.Collisions
import Verif.Model.Transpose
import Verif.Model.PolarFem
import Mathlib.Logic.Relation
import Mathlib.Logic.Function.Basic

/-!
# Parallel loops at the level of individual memory accesses

`Kokkos::parallel_for` and `ddc::parallel_for_each` run the iterations of a loop concurrently. Here one iteration is a
program made of single reads, writes and atomic additions on a shared memory, and an execution interleaves the accesses of
all iterations in any order (every backend of Kokkos: serial, OpenMP, GPU). Simplification: the memory is sequentially
consistent; for loops without data races (which is what the theorems establish) weaker memory models give the same results.
Fields that the loop only reads may be given as plain functions. The end of a loop is a barrier: the loops of
one function are launched on the same execution space instance, which runs them one after the other.
-/

namespace Verif.Parallel

/-- The remaining accesses of one iteration of a parallel loop (body of a `KOKKOS_LAMBDA`, e.g. `simpson_quadrature.hpp:44-51`):
`double` loads and stores and `Kokkos::atomic_fetch_add` (`fem_1d_poisson_solver.hpp:460-462`). -/
inductive Prog (L V : Type*) where
  | done : Prog L V
  | read : L → (V → Prog L V) → Prog L V
  | write : L → V → Prog L V → Prog L V
  | atomicAdd : L → V → Prog L V → Prog L V

namespace Prog
variable {L V : Type*}

/-- `p; q` (statements of a loop body, e.g. `simpson_quadrature.hpp:49-50`). -/
def andThen : Prog L V → Prog L V → Prog L V
  | done, q => q
  | read l k, q => read l fun v => andThen (k v) q
  | write l v k, q => write l v (andThen k q)
  | atomicAdd l v k, q => atomicAdd l v (andThen k q)

/-- A serial loop inside a loop body (e.g. `matrix_batch_tridiag.hpp:170-180`). -/
def forEach {β : Type*} (body : β → Prog L V) : List β → Prog L V
  | [] => done
  | a :: s => andThen (body a) (forEach body s)

/-- The effect on the memory of an iteration that runs alone, as with `Kokkos::Serial` (e.g. `simpson_quadrature.hpp:44-51`). -/
def run [DecidableEq L] [Add V] : Prog L V → (L → V) → L → V
  | done, m => m
  | read l k, m => run (k (m l)) m
  | write l v k, m => run k (Function.update m l v)
  | atomicAdd l v k, m => run k (Function.update m l (m l + v))

end Prog

/-- What remains to be executed by each iteration of the loop, and the memory (state of a running `Kokkos::parallel_for`, e.g. `simpson_quadrature.hpp:39-51`). -/
structure State (ι L V : Type*) where
  pool : ι → Prog L V
  mem : L → V

/-- One access of one iteration of a running `Kokkos::parallel_for` (e.g. `simpson_quadrature.hpp:39-51`). -/
inductive Step {ι L V : Type*} [DecidableEq ι] [DecidableEq L] [Add V] : State ι L V → State ι L V → Prop
  | read (s : State ι L V) (i : ι) (l : L) (k : V → Prog L V) (h : s.pool i = .read l k) : Step s ⟨Function.update s.pool i (k (s.mem l)), s.mem⟩
  | write (s : State ι L V) (i : ι) (l : L) (v : V) (k : Prog L V) (h : s.pool i = .write l v k) :
      Step s ⟨Function.update s.pool i k, Function.update s.mem l v⟩
  | atomicAdd (s : State ι L V) (i : ι) (l : L) (v : V) (k : Prog L V) (h : s.pool i = .atomicAdd l v k) :
      Step s ⟨Function.update s.pool i k, Function.update s.mem l (s.mem l + v)⟩

/-- A possible outcome of the parallel loop with bodies `P` started on the memory `m`: some interleaving of all the accesses ends with the memory `m'`
(e.g. `simpson_quadrature.hpp:39-51`). -/
def Outcome {ι L V : Type*} [DecidableEq ι] [DecidableEq L] [Add V] (P : ι → Prog L V) (m m' : L → V) : Prop :=
  Relation.ReflTransGen Step (⟨P, m⟩ : State ι L V) ⟨fun _ => .done, m'⟩

/-! ## Loop bodies of the code -/

open Prog

/-- `trapezoid_quadrature.hpp:38-44`: index `i + 1`. -/
noncomputable def trapBody (x : ℕ → ℝ) (i : ℕ) : Prog ℕ ℝ := .write (i + 1) (0.5 * (Quadrature.dL x (i + 1) + Quadrature.dR x (i + 1))) .done

/-- Loop "centre_left", `simpson_quadrature.hpp:44-51`. -/
noncomputable def centreLeftBody (x : ℕ → ℝ) (i : ℕ) : Prog ℕ ℝ :=
  let c := i * 2 + 1
  .write (c - 1) (Quadrature.simpL x c) (.write c (Quadrature.simpC x c) .done)

/-- Loop "overlap_increment", `simpson_quadrature.hpp:59-65`: `+=` is a load and a store. -/
noncomputable def overlapBody (x : ℕ → ℝ) (i : ℕ) : Prog ℕ ℝ :=
  let c := i * 2 + 1
  .read (c + 1) fun v => .write (c + 1) (v + Quadrature.simpR x c) .done

/-- The locations used by `MatrixBatchTridiag::solve`: `cprim`, `dprim` and `b` (`matrix_batch_tridiag.hpp:148-157`), by batch and row. -/
inductive TriLoc where
  | cprim (batch row : ℕ)
  | dprim (batch row : ℕ)
  | b (batch row : ℕ)
deriving DecidableEq

/-- Body of "Tridiagonal solver", `matrix_batch_tridiag.hpp:166-187`; the three diagonals are only read. -/
def triBody {α : Type*} [Field α] (n : ℕ) (sub diag upp : ℕ → ℕ → α) (k : ℕ) : Prog TriLoc α :=
  .write (.cprim k 0) (upp k 0 / diag k 0) <|
  .read (.b k 0) fun b0 => .write (.dprim k 0) (b0 / diag k 0) <|
  andThen (forEach (fun j =>
      let i := j + 1
      .read (.cprim k (i - 1)) fun c => .write (.cprim k i) (upp k i / (diag k i - sub k i * c)) <|
      .read (.b k i) fun bi => .read (.dprim k (i - 1)) fun d => .read (.cprim k (i - 1)) fun c' =>
      .write (.dprim k i) ((bi - sub k i * d) / (diag k i - sub k i * c')) .done) (List.range (n - 1))) <|
  .read (.dprim k (n - 1)) fun d => .write (.b k (n - 1)) d <|
  forEach (fun i => .read (.dprim k i) fun d => .read (.cprim k i) fun c => .read (.b k (i + 1)) fun b =>
      .write (.b k i) (d - c * b) .done) (List.range (n - 1)).reverse

/-- Body of the loop that accumulates the right-hand side, `fem_1d_poisson_solver.hpp:444-464`, for the batch index `ib` and the quadrature point `p`. Location `(ib, j)` is `rhs(ib, j)`. -/
noncomputable def femBody {B : Type*} (degree nbasis : ℕ) (rho : B → Fem.Pt → ℝ) (ib : B) (p : Fem.Pt) : Prog (B × ℕ) ℝ :=
  forEach (fun j => .atomicAdd (ib, Fem.wrapDown nbasis (p.jmin + j)) (rho ib p * p.vals j * p.w) .done) (List.range (degree + 1))

/-- The locations of the loop of `compute_Vcoll_Tcoll` at each (species, x) position: the five integrals, `Vcoll` and `Tcoll` (`collisions_utils.hpp:211-219, 244-247`). -/
inductive CollLoc (S : Type*) where
  | mean (q : Fin 5) (s : S)
  | vcoll (s : S)
  | tcoll (s : S)
deriving DecidableEq

/-- The integrands, `collisions_utils.hpp:195-206`, at the (species, x) position `s` and velocity index `k` (`D`, `dvD` at ghosted index `uid + 1`). -/
def collIntegrand {S : Type*} (v : ℕ → ℝ) (f D dvD : S → ℕ → ℝ) (q : Fin 5) (s : S) (k : ℕ) : ℝ :=
  let i0 := D s k * f s k
  let i1 := i0 * v k
  let i2 := i1 * v k
  let i3 := dvD s k * f s k
  match q with
  | 0 => i0
  | 1 => i1
  | 2 => i2
  | 3 => i3
  | 4 => i0 + i3 * v k

/-- Body of the loop of `compute_Vcoll_Tcoll`, `collisions_utils.hpp:233-248`: `g q s k` is the integrand number `q`, `w` the quadrature coefficients. -/
noncomputable def collBody {S : Type*} (n : ℕ) (w : ℕ → ℝ) (g : Fin 5 → S → ℕ → ℝ) (s : S) : Prog (CollLoc S) ℝ :=
  andThen (forEach (fun k => forEach (fun q => .read (.mean q s) fun v => .write (.mean q s) (v + w k * g q s k) .done) [0, 1, 2, 3, 4]) (List.range n)) <|
  .read (.mean 0 s) fun a0 => .read (.mean 4 s) fun a4 => .read (.mean 1 s) fun a1 => .read (.mean 3 s) fun a3 =>
  let inv := 1 / (a0 * a4 - a1 * a3)
  .read (.mean 1 s) fun b1 => .read (.mean 4 s) fun b4 => .read (.mean 2 s) fun b2 => .read (.mean 3 s) fun b3 =>
  .write (.vcoll s) (inv * (b1 * b4 - b2 * b3)) <|
  .read (.mean 0 s) fun c0 => .read (.mean 2 s) fun c2 => .read (.mean 1 s) fun c1 => .read (.mean 1 s) fun c1' =>
  .write (.tcoll s) (inv * (c0 * c2 - c1 * c1')) .done

/-- Body of the loop of `transpose_layout`, `src/utils/transpose.hpp:62-64, 79-83`: iteration for the parallel index `p`; `Sum.inl` are the locations of the
source, `Sum.inr` those of the destination. -/
def transposeBody {κ α : Type*} [DecidableEq κ] (Rdst Rsrc : Layout.IdxRange κ) (p : κ → ℕ) : Prog (ℕ ⊕ ℕ) α :=
  forEach (fun idx => .read (.inl (Layout.offset Rsrc idx)) fun v => .write (.inr (Layout.offset Rdst idx)) v .done) (Transpose.visited Rsrc [p])

/-- Body of the loop of `unify_value_at_centre_pt`, `src/advection/spline_polar_foot_finder.hpp:451-455`: batch index `b`, radial index `r0`, poloidal indices `thetas`, first one `t0`. -/
def unifyBody {B IR IT V : Type*} (r0 : IR) (t0 : IT) (thetas : List IT) (b : B) : Prog (B × IR × IT) V :=
  forEach (fun t => .read (b, r0, t0) fun v => .write (b, r0, t) v .done) thetas

/-- The writes of one thread of a team: all the threads of a team execute the body after the `parallel_reduce` (whose result is broadcast to the
team) and store the same values (`polar_spline_fem_poisson_like_assembler.hpp:618-620, 727, 738, 827, 965-967, 1056` and
`polar_spline_fem_poisson_like_solver.hpp:460`). -/
def teamBody {L V : Type*} (w : List (L × V)) : Prog L V := forEach (fun x => .write x.1 x.2 .done) w

/-- The writes of the team with league rank `l` in `compute_singular_tensor_col_idx`, `polar_spline_fem_poisson_like_assembler.hpp:609-621`. -/
def stTeam (z : PolarFem.Sz) (l : ℕ) : List (ℕ × ℕ) :=
  let nOv := z.p * z.nT
  let row := l / nOv
  let col := l % nOv + z.nS
  [(PolarFem.ptr z row + col, col), (PolarFem.ptr z col + row, row)]

/-- The writes of the team with league rank `l` in `compute_tensor_tensor_col_idx`, `polar_spline_fem_poisson_like_assembler.hpp:666-742`. -/
def ttTeam (z : PolarFem.Sz) (l : ℕ) : List (ℕ × ℕ) :=
  let row := z.nS + l
  match PolarSplines.get2dIndex z.c1 z.nT row with
  | none => []
  | some (r, _) => (PolarFem.trialCols z row).mapIdx fun k c => (PolarFem.ptr z row + PolarFem.colOffset z r + k, c)

/-- The writes of the iteration `(row, col)` of `compute_singular_singular_col_idx`, `polar_spline_fem_poisson_like_assembler.hpp:563-567`. -/
def ssIter (z : PolarFem.Sz) (row col : ℕ) : List (ℕ × ℕ) := [(PolarFem.ptr z row + col, col)]

/-- The writes of the team `l` of `compute_singular_singular_elements`, `polar_spline_fem_poisson_like_assembler.hpp:798-828`. As in C74 an element is an `Option`, `none` if an assertion fails (`0` is stored here then). -/
noncomputable def ssValTeam (z : PolarFem.Sz) (d : PolarFem.Dat) (l : ℕ) : List (ℕ × ℝ) :=
  let row := l / z.nS
  let col := l % z.nS
  [(PolarFem.ptr z row + col, (PolarFem.elemSS z d row col).getD 0)]

/-- The writes of the team `l` of `compute_singular_tensor_elements`, `polar_spline_fem_poisson_like_assembler.hpp:892-968`. -/
noncomputable def stValTeam (z : PolarFem.Sz) (d : PolarFem.Dat) (l : ℕ) : List (ℕ × ℝ) :=
  let nOv := z.p * z.nT
  let e := (PolarFem.elemST z d (l / nOv) (z.nS + l % nOv)).getD 0
  let row := l / nOv
  let col := l % nOv + z.nS
  [(PolarFem.ptr z row + col, e), (PolarFem.ptr z col + row, e)]

/-- The writes of the team `l` of `compute_tensor_tensor_elements`, `polar_spline_fem_poisson_like_assembler.hpp:1025-1058`; `cols` is `col_idx_csr`. -/
noncomputable def ttValTeam (z : PolarFem.Sz) (d : PolarFem.Dat) (cols : ℕ → Option ℕ) (l : ℕ) : List (ℕ × ℝ) :=
  let row := z.nS + l
  match PolarSplines.get2dIndex z.c1 z.nT row with
  | none => []
  | some (r, _) =>
    let start := PolarFem.ptr z row + PolarFem.colOffset z r
    (List.range (PolarFem.ptr z (row + 1) - start)).map fun k => (start + k, ((cols (start + k)).bind fun col => PolarFem.elemTT z d row col).getD 0)

/-- Locations of the average over the first ring: components `X`, `Y` of `advection_field_xy` (`bsl_advection_polar.hpp:374-393`). Body of the loop
`bsl_advection_polar.hpp:369-395`: the sums over the first ring are local variables; `r1` is the radial index of the first ring, `r0` that of the O-point, `n` is `ntheta_points`. -/
noncomputable def ringBody {B IR IT : Type*} (r0 r1 : IR) (n : ℝ) (thetas : List IT) (b : B) : Prog (Bool × B × IR × IT) ℝ :=
  let rec sum : List IT → ℝ → ℝ → (ℝ → ℝ → Prog (Bool × B × IR × IT) ℝ) → Prog (Bool × B × IR × IT) ℝ
    | [], sx, sy, k => k sx sy
    | t :: s, sx, sy, k => .read (true, b, r1, t) fun x => .read (false, b, r1, t) fun y => sum s (sx + x) (sy + y) k
  sum thetas 0 0 fun sx sy => forEach (fun t => .write (true, b, r0, t) (sx / n) (.write (false, b, r0, t) (sy / n) .done)) thetas

end Verif.Parallel
