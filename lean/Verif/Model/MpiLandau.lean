import Verif.Model.MpiProgram
import Verif.Model.MpiTranspose
import Verif.Model.Splitting
import Verif.Model.TimeLoops
import Verif.Model.Moments

/-!
# The distributed 2D2V simulation `landau4d_fft`

`simulations/geometryXYVxVy/landau/landau4d_fft.cpp` on `P` MPI processes: the program of every process as a list of computations in its own memory
and of collective calls.  The distribution function is stored in flat arrays, in the layout of the local index range of the process.

Simplifications: `double` is `ℝ`; the operators along lines (advections), the quadrature coefficients and the Poisson solver are parameters; a field on
`(x, y)`, which every process has completely, is a function of two indices; timing, Kokkos regions and host copies are not modelled.
-/
namespace Verif.MpiLandau
open Verif.Layout Verif.MpiLayout Verif.Transpose Verif.MpiTranspose Verif.MpiProgram Verif.TimeLoops

/-- The dimensions (`src/geometryXYVxVy/geometry/geometry_xyvxvy.hpp:183-184`). -/
inductive Tag
  | Sp | X | Y | Vx | Vy
deriving DecidableEq, Repr

/-- `X2DSplit` (`geometry_xyvxvy.hpp:183`). -/
def x2D : MLayout Tag := ⟨[.Sp, .X, .Y, .Vx, .Vy], [.X, .Y]⟩

/-- `V2DSplit` (`geometry_xyvxvy.hpp:184`). -/
def v2D : MLayout Tag := ⟨[.Sp, .Vx, .Vy, .X, .Y], [.Vx, .Vy]⟩

/-- What the simulation is made of. `P`: number of processes; `nkin` kinetic species among `nsp` species; sizes of the four grids; line operators of the
four advections (arguments: species, index of the velocity (space) or electric field (velocity), time step, line, index on the line; `landau4d_fft.cpp:121-124`); charges;
quadrature coefficients (`129-137`); Poisson solver (`139`): potential and the two components of the electric field; `nbstep_diag` (`118`). -/
structure Params where
  P : ℕ
  nkin : ℕ
  nsp : ℕ
  nx : ℕ
  ny : ℕ
  nvx : ℕ
  nvy : ℕ
  opX : ℕ → ℕ → ℝ → (ℕ → ℝ) → ℕ → ℝ
  opY : ℕ → ℕ → ℝ → (ℕ → ℝ) → ℕ → ℝ
  opVx : ℕ → ℝ → ℝ → (ℕ → ℝ) → ℕ → ℝ
  opVy : ℕ → ℝ → ℝ → (ℕ → ℝ) → ℕ → ℝ
  charge : ℕ → ℝ
  w : ℕ → ℕ → ℝ
  solver : (ℕ → ℕ → ℝ) → (ℕ → ℕ → ℝ) × ((ℕ → ℕ → ℝ) × (ℕ → ℕ → ℝ))
  nbstep : ℕ

/-- What is not determined by the program: on each process, for its `t`-th action, the order of the iterations of a parallel loop on an index range and the
content of freshly allocated memory (`src/utils/transpose.hpp:58-78`, `mpitransposealltoall.hpp:286-299`). -/
structure Env where
  loop : ℕ → ℕ → IdxRange Tag → List (Tag → ℕ)
  loopE : ℕ → ℕ → IdxRange (Ext Tag) → List (Ext Tag → ℕ)
  junk : ℕ → ℕ → ℕ → ℝ

/-- The arrays of a process: `allfdistribu_x2D_split` and `allfdistribu_v2D_split` (`landau4d_fft.cpp:106-107`), `allfdistribu_half_t` and
`allfdistribu_v2D_split_output_layout` (`predcorr.cpp:40,27`), `allfdistribu_x2Dsplit` (`mpisplitvlasovsolver.cpp:27-30`). -/
inductive Var
  | fx | fv | half | out | tmp
deriving DecidableEq, Repr

/-- The memory of a process: the arrays, the two buffers of the transposition (`mpitransposealltoall.hpp:286-317`), the charge density (`qnsolver.cpp:31`), the potential and the electric
field (`predcorr.cpp:33-34`), the PDI events so far (`predcorr.cpp:63-67,102-106`), and the number of actions so far. -/
structure Mem where
  arr : Var → ℕ → ℝ
  sendBuf : ℕ → ℝ
  recvBuf : ℕ → ℝ
  rho : ℕ → ℕ → ℝ
  phi : ℕ → ℕ → ℝ
  ex : ℕ → ℕ → ℝ
  ey : ℕ → ℕ → ℝ
  events : List (Event (ℕ → ℝ) (ℕ → ℕ → ℝ))
  tick : ℕ

/-- A contribution to a collective operation: for `MPI_Alltoall` the number of elements for each process and the send buffer
(`mpitransposealltoall.hpp:333-340`); otherwise `0` and the array. -/
abbrev Msg := ℕ × (ℕ → ℝ)

namespace Params
variable (p : Params) (env : Env)

/-- `idxrange_glob_spxyvxvy` (`landau4d_fft.cpp:77-83`). -/
def glob : IdxRange Tag := [⟨.Sp, 0, p.nkin⟩, ⟨.X, 0, p.nx⟩, ⟨.Y, 0, p.ny⟩, ⟨.Vx, 0, p.nvx⟩, ⟨.Vy, 0, p.nvy⟩]

/-- `idxrange_spvxvyxy_v2Dsplit` of process `r` (`landau4d_fft.cpp:88`). -/
def rv (r : ℕ) : IdxRange Tag := localRange v2D p.glob p.P r

/-- `idxrange_spxyvxvy_x2Dsplit` of process `r` (`landau4d_fft.cpp:87`). -/
def rx (r : ℕ) : IdxRange Tag := localRange x2D p.glob p.P r

/-- A parallel loop which writes `g x` at each point `x` of a field (`src/advection/bsl_advection_x.hpp:110-130`,
`src/advection/bsl_advection_vx.hpp:112-136`: the evaluation of the interpolating function at the feet, which reads the coefficients computed from the old values). -/
def forEach (R : IdxRange Tag) (sched : List (Tag → ℕ)) (g : (Tag → ℕ) → ℝ) (a : ℕ → ℝ) : ℕ → ℝ :=
  sched.foldl (fun a x => Function.update a (offset R x) (g x)) a

/-- One more action done (no C++ counterpart; it selects the order of the next loop of `src/utils/transpose.hpp:58-78`). -/
def bump (m : Mem) : Mem := { m with tick := m.tick + 1 }

/-- Write an array (assignment through `get_field`, e.g. `mpisplitvlasovsolver.cpp:43`). -/
def setArr (m : Mem) (v : Var) (a : ℕ → ℝ) : Mem := { m with arr := Function.update m.arr v a }

/-- `BslAdvectionSpatial` along `d` on the local field (`mpisplitvlasovsolver.cpp:43-44,60-61`, `src/advection/bsl_advection_x.hpp:81-132`): the velocity is that of dimension `vd`. -/
def advSpace (op : ℕ → ℕ → ℝ → (ℕ → ℝ) → ℕ → ℝ) (d vd : Tag) (v : Var) (dt : ℝ) : PAct Mem Msg :=
  .loc fun r m => bump (setArr m v (forEach (p.rv r) (env.loop r m.tick (p.rv r))
    (fun x => op (x .Sp) (x vd) dt (fun i => m.arr v (offset (p.rv r) (Function.update x d i))) (x d)) (m.arr v)))

/-- `BslAdvectionVelocity` along `d` on the local field (`mpisplitvlasovsolver.cpp:51-53`, `src/advection/bsl_advection_vx.hpp:82-138`); `e` chooses the component of the electric field
(`mpisplitvlasovsolver.cpp:33-40`). -/
def advVel (op : ℕ → ℝ → ℝ → (ℕ → ℝ) → ℕ → ℝ) (d : Tag) (e : Mem → ℕ → ℕ → ℝ) (v : Var) (dt : ℝ) : PAct Mem Msg :=
  .loc fun r m => bump (setArr m v (forEach (p.rx r) (env.loop r m.tick (p.rx r))
    (fun x => op (x .Sp) (e m (x .X) (x .Y)) dt (fun i => m.arr v (offset (p.rx r) (Function.update x d i))) (x d)) (m.arr v)))

/-- `MPI_Alltoall` (`mpitransposealltoall.hpp:333-340`): block `q` of the receive buffer of process `r`, of size `rc`, is block `r` of the send buffer of process `q`. -/
def deliver (rc r : ℕ) (msgs : ℕ → Msg) (pos : ℕ) : ℝ := (msgs (pos / rc)).2 (r * (msgs (pos / rc)).1 + pos % rc)

/-- `transpose_to` (`mpitransposealltoall.hpp:174-317`) from the array `a` in layout `Lin` to the array `b` in layout `Lout`: packing of the send buffer, `MPI_Alltoall`
(`333-340`), unpacking of the receive buffer. -/
def transpose (Lin Lout : MLayout Tag) (a b : Var) : List (PAct Mem Msg) := [
  .loc fun r m => bump { m with sendBuf :=
    (if inputAlltoallRange Lin Lout p.glob p.P r = inputMpiRange Lin Lout p.glob p.P r then m.arr a
    else transposeLayout (inputAlltoallRange Lin Lout p.glob p.P r) (inputMpiRange Lin Lout p.glob p.P r)
      (env.loopE r m.tick (parallelRange (inputMpiRange Lin Lout p.glob p.P r))) (env.junk r m.tick) (m.arr a)) },
  .coll (fun r => .alltoall (size (inputAlltoallRange Lin Lout p.glob p.P r) / p.P) (size (outputAlltoallRange Lin Lout p.glob p.P r) / p.P))
    (fun r m => (size (inputAlltoallRange Lin Lout p.glob p.P r) / p.P, m.sendBuf))
    (fun r msgs m => { m with recvBuf := deliver (size (outputAlltoallRange Lin Lout p.glob p.P r) / p.P) r msgs }),
  .loc fun r m => bump (setArr m b
    (if outputAlltoallRange Lin Lout p.glob p.P r = outputMpiRange Lin Lout p.glob p.P r then m.recvBuf
    else transposeLayout (outputMpiRange Lin Lout p.glob p.P r) (outputAlltoallRange Lin Lout p.glob p.P r)
      (env.loopE r m.tick (parallelRange (outputAlltoallRange Lin Lout p.glob p.P r))) (m.arr b) m.recvBuf))]

/-- `MpiSplitVlasovSolver::operator()` (`mpisplitvlasovsolver.cpp:19-64`) on the array `v`. -/
noncomputable def vlasov (v : Var) (dt : ℝ) : List (PAct Mem Msg) :=
  [p.advSpace env p.opX .X .Vx v (dt / 2), p.advSpace env p.opY .Y .Vy v (dt / 2)] ++
  p.transpose env v2D x2D v .tmp ++
  [p.advVel env p.opVx .Vx Mem.ex .tmp (dt / 2), p.advVel env p.opVy .Vy Mem.ey .tmp dt, p.advVel env p.opVx .Vx Mem.ex .tmp (dt / 2)] ++
  p.transpose env x2D v2D .tmp v ++
  [p.advSpace env p.opY .Y .Vy v (dt / 2), p.advSpace env p.opX .X .Vx v (dt / 2)]

/-- A multi-index (`IdxSpVxVyXY` of `chargedensitycalculator.cpp:27-33`). -/
def mkIdx (s x y vx vy : ℕ) : Tag → ℕ
  | .Sp => s
  | .X => x
  | .Y => y
  | .Vx => vx
  | .Vy => vy

/-- The charge density on one process (`mpichargedensitycalculator.cpp:28`, `chargedensitycalculator.cpp:12-48`): the local velocity points in row major order, with the local part of
the quadrature coefficients (`landau4d_fft.cpp:134-140`). -/
noncomputable def localRho (r : ℕ) (a : ℕ → ℝ) (x y : ℕ) : ℝ :=
  let dx := select (p.rv r) .Vx
  let dy := select (p.rv r) .Vy
  Moments.chargeDensityXYVxVy p.nsp p.nkin p.charge (dx.size * dy.size)
    (fun k => p.w (dx.front + k / dy.size) (dy.front + k % dy.size))
    (fun s k => a (offset (p.rv r) (mkIdx s x y (dx.front + k / dy.size) (dy.front + k % dy.size))))

/-- `QNSolver::operator()` (`qnsolver.cpp:21-38`) with `MpiChargeDensityCalculator` (`mpichargedensitycalculator.cpp:19-41`) on the array `v`: local density, `MPI_Allreduce` of the
`nx ny` values, Poisson solver. -/
noncomputable def poisson (v : Var) : List (PAct Mem Msg) := [
  .loc fun r m => bump { m with rho := p.localRho r (m.arr v) },
  .coll (fun _ => .allreduce (p.nx * p.ny)) (fun _ m => (0, fun pos => m.rho (pos / p.ny) (pos % p.ny)))
    (fun _ msgs m => { m with rho := fun x y => ∑ q ∈ Finset.range p.P, (msgs q).2 (x * p.ny + y) }),
  .loc fun _ m => bump { m with phi := (p.solver m.rho).1, ex := (p.solver m.rho).2.1, ey := (p.solver m.rho).2.2 }]

/-- A PDI event (`predcorr.cpp:53-68,92-107`): transposition to the output layout, event, and the collective writing of the file when
`iter % nbstep_diag = 0` (`pdi_out.yml.hpp:75-99`). -/
def event (name : EvName) (iter : ℕ) (time : ℝ) : List (PAct Mem Msg) :=
  [.loc fun r m =>
    let o := transposeLayout (reorder [.Sp, .X, .Y, .Vx, .Vy] (p.rv r)) (p.rv r) (env.loop r m.tick (parallelRange (p.rv r))) (m.arr .out) (m.arr .fv)
    bump { setArr m .out o with events := m.events ++ [⟨name, iter, time, o, m.phi⟩] }] ++
  if iter % p.nbstep = 0 then [.coll (fun _ => .io (iter / p.nbstep)) (fun _ m => (0, m.arr .out)) fun _ _ m => m] else []

/-- `PredCorr::operator()` (`predcorr.cpp:42-109`): `n` steps left, `iter` steps done. -/
noncomputable def loop (dt : ℝ) : ℕ → ℕ → List (PAct Mem Msg)
  | 0, iter => p.poisson .fv ++ p.event env .lastIteration iter (iter * dt)
  | n + 1, iter =>
    p.poisson .fv ++ p.event env .iteration iter (iter * dt) ++
    [.loc fun _ m => bump (setArr m .half (m.arr .fv))] ++
    p.vlasov env .half (dt / 2) ++ p.poisson .half ++ p.vlasov env .fv dt ++ loop dt n (iter + 1)

/-- The program of all processes (`landau4d_fft.cpp:171-180`): first transposition, then the time loop. -/
noncomputable def main (dt : ℝ) (steps : ℕ) : List (PAct Mem Msg) := p.transpose env x2D v2D .fx .fv ++ p.loop env dt steps 0

/-! ## The same simulation on one process with the global arrays -/

/-- A batched advection in space (`src/geometryXYVxVy/vlasov/splitvlasovsolver.cpp:24-25`). -/
def advSpaceG (op : ℕ → ℕ → ℝ → (ℕ → ℝ) → ℕ → ℝ) (d vd : Tag) (f : (Tag → ℕ) → ℝ) (dt : ℝ) : (Tag → ℕ) → ℝ :=
  fun x => op (x .Sp) (x vd) dt (fun i => f (Function.update x d i)) (x d)

/-- A batched advection in velocity (`src/geometryXYVxVy/vlasov/splitvlasovsolver.cpp:26-28`). -/
def advVelG (op : ℕ → ℝ → ℝ → (ℕ → ℝ) → ℕ → ℝ) (d : Tag) (f : (Tag → ℕ) → ℝ) (e : ℕ → ℕ → ℝ) (dt : ℝ) : (Tag → ℕ) → ℝ :=
  fun x => op (x .Sp) (e (x .X) (x .Y)) dt (fun i => f (Function.update x d i)) (x d)

/-- `SplitVlasovSolver::operator()` (`src/geometryXYVxVy/vlasov/splitvlasovsolver.cpp:19-33`). -/
noncomputable def vlasovG (f : (Tag → ℕ) → ℝ) (e : (ℕ → ℕ → ℝ) × (ℕ → ℕ → ℝ)) (dt : ℝ) : (Tag → ℕ) → ℝ :=
  Splitting.splitVlasovXYVxVy (advSpaceG p.opX .X .Vx) (advSpaceG p.opY .Y .Vy) (advVelG p.opVx .Vx) (advVelG p.opVy .Vy) f e dt

/-- `QNSolver::operator()` with `ChargeDensityCalculator` (`qnsolver.cpp:21-38`, `chargedensitycalculator.cpp:12-48`). -/
noncomputable def poissonG (f : (Tag → ℕ) → ℝ) : (ℕ → ℕ → ℝ) × ((ℕ → ℕ → ℝ) × (ℕ → ℕ → ℝ)) :=
  p.solver fun x y => Moments.chargeDensityXYVxVy p.nsp p.nkin p.charge (p.nvx * p.nvy) (fun k => p.w (k / p.nvy) (k % p.nvy))
    (fun s k => f (mkIdx s x y (k / p.nvy) (k % p.nvy)))

/-- The serial simulation (`src/geometryXYVxVy/time_integration/predcorr.cpp:21-110` with the serial operators). -/
noncomputable def serial (f : (Tag → ℕ) → ℝ) (dt : ℝ) (steps : ℕ) : ((Tag → ℕ) → ℝ) × List (Event ((Tag → ℕ) → ℝ) (ℕ → ℕ → ℝ)) :=
  predCorrXYVxVy p.vlasovG p.poissonG f dt steps

end Params
end Verif.MpiLandau
