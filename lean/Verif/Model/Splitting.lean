import Mathlib.Data.Real.Basic

/-!
# Operator splitting solvers

`src/geometryXVx/boltzmann/splitvlasovsolver.cpp`, `src/geometryXVx/boltzmann/splitrighthandsidesolver.cpp`,
`src/geometryXYVxVy/vlasov/splitvlasovsolver.cpp`, `src/geometryXYVxVy/vlasov/mpisplitvlasovsolver.cpp`.

A C++ operator that modifies a distribution function in place is modelled by the function which returns
the new content.  Sub-operators are arbitrary functions.  Simplification: `double` is `ℝ`.
-/

namespace Verif.Splitting

variable {F E : Type*}

/-- `SplitVlasovSolver::operator()` of the 1D1V geometry, `src/geometryXVx/boltzmann/splitvlasovsolver.cpp:15-24`. -/
noncomputable def splitVlasovXVx (advecX : F → ℝ → F) (advecVx : F → E → ℝ → F) (f : F) (e : E) (dt : ℝ) : F :=
  let f := advecX f (dt / 2)
  let f := advecVx f e dt
  let f := advecX f (dt / 2)
  f

/-- The loop `for (rhsit : m_rhs) rhsit(allfdistribu, dt / 2.)`,
`src/geometryXVx/boltzmann/splitrighthandsidesolver.cpp:24-26` and again `28-30`: the same order both times. -/
noncomputable def applyRhs : List (F → ℝ → F) → F → ℝ → F
  | [], f, _ => f
  | r :: rs, f, dt => applyRhs rs (r f (dt / 2)) dt

/-- `SplitRightHandSideSolver::operator()`, `src/geometryXVx/boltzmann/splitrighthandsidesolver.cpp:19-33`. -/
noncomputable def splitRhs (boltzmann : F → E → ℝ → F) (rhs : List (F → ℝ → F)) (f : F) (e : E) (dt : ℝ) : F :=
  let f := applyRhs rhs f dt
  let f := boltzmann f e dt
  let f := applyRhs rhs f dt
  f

/-- `SplitVlasovSolver::operator()` of the 2D2V geometry, `src/geometryXYVxVy/vlasov/splitvlasovsolver.cpp:19-33`.
The electric field is the pair of its two components. -/
noncomputable def splitVlasovXYVxVy (advecX advecY : F → ℝ → F) (advecVx advecVy : F → E → ℝ → F)
    (f : F) (e : E × E) (dt : ℝ) : F :=
  let f := advecX f (dt / 2)
  let f := advecY f (dt / 2)
  let f := advecVx f e.1 (dt / 2)
  let f := advecVy f e.2 dt
  let f := advecVx f e.1 (dt / 2)
  let f := advecY f (dt / 2)
  let f := advecX f (dt / 2)
  f

/-! ## The distributed solver

A batched 1D operator works line by line: the new values on one line of the grid depend only on the old values on the same line,
on the other coordinates of the line and on `dt`
(`src/advection/bsl_advection_x.hpp`, `src/advection/bsl_advection_vx.hpp`: the batch dimensions are looped over).
`V` (resp. `P`) is the index type of the velocity (position) range held by a process, with its inclusion `vel`
(`pos`) in the global range: `V = VX × VY` in the serial solver.
-/

variable {Sp X Y VX VY : Type*}

/-- Field stored on positions `X × Y` and a part `V` of the velocity range (`DFieldSpVxVyXY`, layout `V2DSplit`,
`src/geometryXYVxVy/vlasov/mpisplitvlasovsolver.cpp:24`). -/
abbrev FieldV (Sp X Y V : Type*) := Sp → X → Y → V → ℝ

/-- Field stored on a part `P` of the position range and on all velocities (`DFieldSpXYVxVy`, layout `X2DSplit`,
`src/geometryXYVxVy/vlasov/mpisplitvlasovsolver.cpp:25`). -/
abbrev FieldX (Sp P VX VY : Type*) := Sp → P → VX → VY → ℝ

/-- The batched advection along `x` with line operator `op species vx`
(`src/advection/bsl_advection_x.hpp:81-132`: the speed depends on the species and on `vx` only). -/
def advX {V : Type*} (vel : V → VX × VY) (op : Sp → VX → (X → ℝ) → ℝ → X → ℝ) (f : FieldV Sp X Y V) (dt : ℝ) :
    FieldV Sp X Y V :=
  fun s x y v => op s (vel v).1 (fun x' => f s x' y v) dt x

/-- The batched advection along `y` (`src/advection/bsl_advection_x.hpp:81-132` with `GridY`). -/
def advY {V : Type*} (vel : V → VX × VY) (op : Sp → VY → (Y → ℝ) → ℝ → Y → ℝ) (f : FieldV Sp X Y V) (dt : ℝ) :
    FieldV Sp X Y V :=
  fun s x y v => op s (vel v).2 (fun y' => f s x y' v) dt y

/-- The batched advection along `vx` with line operator `op species field`
(`src/advection/bsl_advection_vx.hpp:82-138`: the speed depends on the species and the local electric field). -/
def advVx {P : Type*} (op : Sp → ℝ → (VX → ℝ) → ℝ → VX → ℝ) (f : FieldX Sp P VX VY) (e : P → ℝ) (dt : ℝ) :
    FieldX Sp P VX VY :=
  fun s p vx vy => op s (e p) (fun vx' => f s p vx' vy) dt vx

/-- The batched advection along `vy` (`src/advection/bsl_advection_vx.hpp:82-138` with `GridVy`). -/
def advVy {P : Type*} (op : Sp → ℝ → (VY → ℝ) → ℝ → VY → ℝ) (f : FieldX Sp P VX VY) (e : P → ℝ) (dt : ℝ) :
    FieldX Sp P VX VY :=
  fun s p vx vy => op s (e p) (fun vy' => f s p vx vy') dt vy

/-- A change of storage order without communication (the serial solver works on one array; the velocity operators view it with the velocities contiguous,
`src/geometryXYVxVy/vlasov/splitvlasovsolver.cpp:26-28`). -/
def toX (f : FieldV Sp X Y (VX × VY)) : FieldX Sp (X × Y) VX VY := fun s p vx vy => f s p.1 p.2 (vx, vy)

/-- Inverse of `toX` (`src/geometryXYVxVy/vlasov/splitvlasovsolver.cpp:26-28`). -/
def toV (f : FieldX Sp (X × Y) VX VY) : FieldV Sp X Y (VX × VY) := fun s x y v => f s (x, y) v.1 v.2

/-- The serial solver with batched line operators: `src/geometryXYVxVy/vlasov/splitvlasovsolver.cpp:19-33`. -/
noncomputable def serialStep (opX : Sp → VX → (X → ℝ) → ℝ → X → ℝ) (opY : Sp → VY → (Y → ℝ) → ℝ → Y → ℝ)
    (opVx : Sp → ℝ → (VX → ℝ) → ℝ → VX → ℝ) (opVy : Sp → ℝ → (VY → ℝ) → ℝ → VY → ℝ)
    (f : FieldV Sp X Y (VX × VY)) (e : (X × Y → ℝ) × (X × Y → ℝ)) (dt : ℝ) : FieldV Sp X Y (VX × VY) :=
  splitVlasovXYVxVy (advX id opX) (advY id opY) (fun f e dt => toV (advVx opVx (toX f) e dt))
    (fun f e dt => toV (advVy opVy (toX f) e dt)) f e dt

variable {R : Type*} (ownV : VX × VY → R) (ownX : X × Y → R)

/-- What all the processes hold in the `V2DSplit` layout: process `r` holds the velocities it owns. The ownership function
exists since the local ranges partition the global one (property C01); `src/geometryXYVxVy/vlasov/mpisplitvlasovsolver.cpp:24`. -/
abbrev DistV (Sp X Y : Type*) {VX VY R : Type*} (ownV : VX × VY → R) :=
  ∀ r : R, FieldV Sp X Y {v : VX × VY // ownV v = r}

/-- What all the processes hold in the `X2DSplit` layout; `src/geometryXYVxVy/vlasov/mpisplitvlasovsolver.cpp:25`. -/
abbrev DistX (Sp VX VY : Type*) {X Y R : Type*} (ownX : X × Y → R) :=
  ∀ r : R, FieldX Sp {p : X × Y // ownX p = r} VX VY

/-- `m_transpose` from the `V2DSplit` to the `X2DSplit` layout (`src/geometryXYVxVy/vlasov/mpisplitvlasovsolver.cpp:46-49`),
by its effect (property C02): every local element receives the value held by the process which owns it in the other layout. -/
def transposeVX (f : DistV Sp X Y ownV) : DistX Sp VX VY ownX :=
  fun _ s p vx vy => f (ownV (vx, vy)) s p.1.1 p.1.2 ⟨(vx, vy), rfl⟩

/-- `m_transpose` from the `X2DSplit` to the `V2DSplit` layout (`src/geometryXYVxVy/vlasov/mpisplitvlasovsolver.cpp:55-58`). -/
def transposeXV (f : DistX Sp VX VY ownX) : DistV Sp X Y ownV :=
  fun _ s x y v => f (ownX (x, y)) s ⟨(x, y), rfl⟩ v.1.1 v.1.2

/-- `MpiSplitVlasovSolver::operator()`, `src/geometryXYVxVy/vlasov/mpisplitvlasovsolver.cpp:19-64`, all processes at once.
Process `r` uses its own copy `e r` of the electric field (lines 33-40). -/
noncomputable def mpiStep (opX : Sp → VX → (X → ℝ) → ℝ → X → ℝ) (opY : Sp → VY → (Y → ℝ) → ℝ → Y → ℝ)
    (opVx : Sp → ℝ → (VX → ℝ) → ℝ → VX → ℝ) (opVy : Sp → ℝ → (VY → ℝ) → ℝ → VY → ℝ)
    (f : DistV Sp X Y ownV) (e : R → (X × Y → ℝ) × (X × Y → ℝ)) (dt : ℝ) : DistV Sp X Y ownV :=
  let f : DistV Sp X Y ownV := fun r => advX Subtype.val opX (f r) (dt / 2)
  let f : DistV Sp X Y ownV := fun r => advY Subtype.val opY (f r) (dt / 2)
  let g : DistX Sp VX VY ownX := transposeVX ownV ownX f
  let g : DistX Sp VX VY ownX := fun r => advVx opVx (g r) (fun p => (e r).1 p.1) (dt / 2)
  let g : DistX Sp VX VY ownX := fun r => advVy opVy (g r) (fun p => (e r).2 p.1) dt
  let g : DistX Sp VX VY ownX := fun r => advVx opVx (g r) (fun p => (e r).1 p.1) (dt / 2)
  let f : DistV Sp X Y ownV := transposeXV ownV ownX g
  let f : DistV Sp X Y ownV := fun r => advY Subtype.val opY (f r) (dt / 2)
  let f : DistV Sp X Y ownV := fun r => advX Subtype.val opX (f r) (dt / 2)
  f

end Verif.Splitting
