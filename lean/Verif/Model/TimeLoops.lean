import Verif.Model.Timestepper
import Mathlib.Data.Real.Basic

/-!
# Time loops

`src/geometryXVx/time_integration/predcorr.cpp`, `src/geometryXYVxVy/time_integration/predcorr.cpp`,
`src/geometryXY/time_integration/predcorr_RK2.hpp`, `src/geometryRTheta/time_solver/bsl_predcorr*.hpp`.

The operators (Poisson solver, Vlasov/Boltzmann solver, advection, spline builder and evaluator, foot finder) are arbitrary functions.
The observable effects are the returned density and the sequence of PDI events.
Simplifications: `double` is `ℝ`; `int` counters are natural numbers (a negative number of steps makes no step, as `0`); timing
output is not modelled.
-/

namespace Verif.TimeLoops
open Verif.Timestepper

/-- Name of a PDI event. `src/geometryXVx/time_integration/predcorr.cpp:58,91`. -/
inductive EvName
  | iteration
  | lastIteration
deriving DecidableEq, Repr

/-- A PDI event with its payload: iteration number, time, density (distribution function) and potential.
`src/geometryXVx/time_integration/predcorr.cpp:58-62,91-95`. -/
structure Event (F Φ : Type*) where
  name : EvName
  iter : ℕ
  time : ℝ
  density : F
  phi : Φ

variable {F Φ E : Type*}

/-! ## 1D1V -/

/-- The loop of `src/geometryXVx/time_integration/predcorr.cpp:43-81` and what follows it (`83-97`).
`poisson f` is the pair (potential, electric field); `steps - iter` iterations remain. -/
noncomputable def predCorrXVxLoop (boltz : F → E → ℝ → F) (poisson : F → Φ × E) (timeStart dt : ℝ) :
    ℕ → ℕ → F → List (Event F Φ) → F × List (Event F Φ)
  | 0, iter, f, log =>
    let finalTime := timeStart + iter * dt
    let p := poisson f
    (f, log ++ [⟨.lastIteration, iter, finalTime, f, p.1⟩])
  | n + 1, iter, f, log =>
    let iterTime := timeStart + iter * dt
    let p := poisson f
    let log := log ++ [⟨.iteration, iter, iterTime, f, p.1⟩]
    let half := f
    let half := boltz half p.2 (dt / 2)
    let p := poisson half
    let f := boltz f p.2 dt
    predCorrXVxLoop boltz poisson timeStart dt n (iter + 1) f log

/-- `PredCorr::operator()` (1D1V), `src/geometryXVx/time_integration/predcorr.cpp:19-98`. -/
noncomputable def predCorrXVx (boltz : F → E → ℝ → F) (poisson : F → Φ × E) (f : F) (timeStart dt : ℝ) (steps : ℕ) :
    F × List (Event F Φ) :=
  predCorrXVxLoop boltz poisson timeStart dt steps 0 f []

/-! ## 2D2V -/

/-- The loop of `src/geometryXYVxVy/time_integration/predcorr.cpp:42-84` and `86-109`. The transposition to the output layout (54-61,93-100)
does not change the values at each index (property C04) and is dropped. -/
noncomputable def predCorrXYVxVyLoop (vlasov : F → E → ℝ → F) (poisson : F → Φ × E) (dt : ℝ) :
    ℕ → ℕ → F → List (Event F Φ) → F × List (Event F Φ)
  | 0, iter, f, log =>
    let finalTime := iter * dt
    let p := poisson f
    (f, log ++ [⟨.lastIteration, iter, finalTime, f, p.1⟩])
  | n + 1, iter, f, log =>
    let iterTime := iter * dt
    let p := poisson f
    let log := log ++ [⟨.iteration, iter, iterTime, f, p.1⟩]
    let half := f
    let half := vlasov half p.2 (dt / 2)
    let p := poisson half
    let f := vlasov f p.2 dt
    predCorrXYVxVyLoop vlasov poisson dt n (iter + 1) f log

/-- `PredCorr::operator()` (2D2V), `src/geometryXYVxVy/time_integration/predcorr.cpp:21-110`. -/
noncomputable def predCorrXYVxVy (vlasov : F → E → ℝ → F) (poisson : F → Φ × E) (f : F) (dt : ℝ) (steps : ℕ) :
    F × List (Event F Φ) :=
  predCorrXYVxVyLoop vlasov poisson dt steps 0 f []

/-! ## 2D guiding centre, Cartesian -/

/-- `advect_allfdistribu`, `src/geometryXY/time_integration/predcorr_RK2.hpp:131-161`. A vector field is the pair of its components; the
components are functions on the grid `I`. -/
noncomputable def advectXY {I : Type*} (advX advY : F → (I → ℝ) → ℝ → F) (f : F) (e : (I → ℝ) × (I → ℝ)) (dt : ℝ) : F :=
  let ax := fun i => - e.2 i
  let ay := e.1
  let f := advX f ax (dt / 2)
  let f := advY f ay dt
  let f := advX f ax (dt / 2)
  f

/-- The loop of `src/geometryXY/time_integration/predcorr_RK2.hpp:166-190`; `iter` runs from 1 to `nbiter`. -/
noncomputable def predCorrRK2XYLoop {I : Type*} (advX advY : F → (I → ℝ) → ℝ → F) (poisson : F → Φ × ((I → ℝ) × (I → ℝ)))
    (dt : ℝ) : ℕ → ℕ → F → List (Event F Φ) → F × List (Event F Φ)
  | 0, _, f, log => (f, log)
  | n + 1, iter, f, log =>
    let f := rk2 (advectXY advX advY) (fun f => (poisson f).2) f dt
    let p := poisson f
    let log := log ++ [⟨.iteration, iter, iter * dt, f, p.1⟩]
    predCorrRK2XYLoop advX advY poisson dt n (iter + 1) f log

/-- `PredCorrRK2XY::operator()`, `src/geometryXY/time_integration/predcorr_RK2.hpp:82-191`. -/
noncomputable def predCorrRK2XY {I : Type*} (advX advY : F → (I → ℝ) → ℝ → F) (poisson : F → Φ × ((I → ℝ) × (I → ℝ)))
    (f : F) (dt : ℝ) (nbiter : ℕ) : F × List (Event F Φ) :=
  predCorrRK2XYLoop advX advY poisson dt nbiter 1 f []

/-! ## Guiding centre, polar: the RK2 scheme -/

/-- Loop of `src/geometryRTheta/time_solver/bsl_predcorr.hpp:189-208`. `phiOf f` is the potential on the grid computed from the density (lines 197-198),
`advField f` the advection field (lines 162-182). -/
noncomputable def bslPredCorrLoop {A : Type*} (advect : F → A → ℝ → F) (phiOf : F → Φ) (advField : F → A) (dt : ℝ) :
    ℕ → ℕ → F → List (Event F Φ) → F × List (Event F Φ)
  | 0, _, f, log => (f, log)
  | n + 1, iter, f, log =>
    let f := rk2 advect advField f dt
    let log := log ++ [⟨.iteration, iter + 1, iter * dt, f, phiOf f⟩]
    bslPredCorrLoop advect phiOf advField dt n (iter + 1) f log

/-- `BslPredCorrRTheta::operator()`, `src/geometryRTheta/time_solver/bsl_predcorr.hpp:109-216`. -/
noncomputable def bslPredCorr {A : Type*} (advect : F → A → ℝ → F) (phiOf : F → Φ) (advField : F → A) (f : F) (dt : ℝ)
    (steps : ℕ) : F × List (Event F Φ) :=
  bslPredCorrLoop advect phiOf advField dt steps 0 f [⟨.iteration, 0, 0, f, phiOf f⟩]

/-! ## Guiding centre, polar: the second order predictor-correctors -/

/-- The operators used by the two predictor-correctors, on the grid `I`, coordinates `X`, vectors `V`.
`advect` is `m_advection_solver`, `phiOf`/`advField` the potential on the grid and the advection field computed from a density (STEPS 1 and 2),
`eval a` the interpolation of the vector field `a` given on the grid (`m_builder` then `m_evaluator`), `feet` the foot finder
(starting positions, field, time step), `coord` the grid coordinates and `dist2` the squared distance used by the convergence test.
`src/geometryRTheta/time_solver/bsl_predcorr_second_order_explicit.hpp:88-141`,
`src/geometryRTheta/time_solver/bsl_predcorr_second_order_implicit.hpp:91-142`. -/
structure Ops (F Φ I X V : Type*) where
  advect : F → (I → V) → ℝ → F
  phiOf : F → Φ
  advField : F → I → V
  eval : (I → V) → X → V
  feet : (I → X) → (I → V) → ℝ → I → X
  coord : I → X
  dist2 : X → X → ℝ

variable {I X V : Type*} [AddCommGroup V] [Module ℝ V]

/-- One iteration of the explicit scheme, STEPS 2 to 6:
`src/geometryRTheta/time_solver/bsl_predcorr_second_order_explicit.hpp:247-318`. -/
noncomputable def explicitStep (o : Ops F Φ I X V) (f : F) (dt : ℝ) : F :=
  let advection := o.advField f
  let predicted := o.advect f advection dt
  let feet := o.feet o.coord advection dt
  let advectionPredicted := o.advField predicted
  let evaluated := fun i => o.eval advectionPredicted (feet i)
  let advection := fun i => (1 / 2 : ℝ) • (evaluated i + advectionPredicted i)
  o.advect f advection dt

/-- Loop of `src/geometryRTheta/time_solver/bsl_predcorr_second_order_explicit.hpp:220-319` and end `321-339`. -/
noncomputable def explicitLoop (o : Ops F Φ I X V) (dt : ℝ) (steps : ℕ) :
    ℕ → ℕ → F → List (Event F Φ) → F × List (Event F Φ)
  | 0, _, f, log => (f, log ++ [⟨.lastIteration, steps, steps * dt, f, o.phiOf f⟩])
  | n + 1, iter, f, log =>
    let time := iter * dt
    let log := log ++ [⟨.iteration, iter, time, f, o.phiOf f⟩]
    explicitLoop o dt steps n (iter + 1) (explicitStep o f dt) log

/-- `BslExplicitPredCorrRTheta::operator()`,
`src/geometryRTheta/time_solver/bsl_predcorr_second_order_explicit.hpp:143-340`. -/
noncomputable def explicitSolver (o : Ops F Φ I X V) (f : F) (dt : ℝ) (steps : ℕ) : F × List (Event F Φ) :=
  explicitLoop o dt steps steps 0 f []

/-- The new feet of one pass of the `do ... while`,
`src/geometryRTheta/time_solver/bsl_predcorr_second_order_implicit.hpp:447-481`. -/
def implicitBody (o : Ops F Φ I X V) (a : I → V) (dt : ℝ) (x : I → X) : I → X :=
  o.feet o.coord (fun i => a i + o.eval a (x i)) dt

/-- `square_difference_feet`: maximum over the grid (a list of indices here), starting from `0.0`,
`src/geometryRTheta/time_solver/bsl_predcorr_second_order_implicit.hpp:484-497`. -/
noncomputable def sqDiff (o : Ops F Φ I X V) (grid : List I) (x y : I → X) : ℝ :=
  grid.foldl (fun m i => max m (o.dist2 (x i) (y i))) 0

/-- `implicit_loop` from a given value of `count`, with the bound `maxCount` (`50` in the code),
`src/geometryRTheta/time_solver/bsl_predcorr_second_order_implicit.hpp:441-500`. Returns the feet and the number of passes.
The loop condition is decided with classical logic because of the real numbers. -/
noncomputable def implicitLoop (o : Ops F Φ I X V) (grid : List I) (a : I → V) (dt tau : ℝ) (maxCount : ℕ) :
    ℕ → (I → X) → (I → X) × ℕ
  | count, x =>
    let count' := count + 1
    let xNew := implicitBody o a dt x
    open scoped Classical in
    if _h : sqDiff o grid xNew x > tau * tau ∧ count' < maxCount then
      implicitLoop o grid a dt tau maxCount count' xNew
    else (xNew, count')
termination_by count => maxCount - count
decreasing_by
  have := _h.2
  simp only [count'] at this ⊢
  omega

/-- One iteration of the implicit scheme, STEPS 2 to 6:
`src/geometryRTheta/time_solver/bsl_predcorr_second_order_implicit.hpp:251-382` (`tau = 1e-6`, line 274; `max_count = 50`, line 443). -/
noncomputable def implicitStep (o : Ops F Φ I X V) (grid : List I) (f : F) (dt : ℝ) : F :=
  let advection := o.advField f
  let tau : ℝ := 1e-6
  let feet := (implicitLoop o grid advection (dt / 4) tau 50 0 o.coord).1
  let advectionK := fun i => o.eval advection (feet i)
  let predicted := o.advect f advectionK (dt / 2)
  let advection := o.advField predicted
  let feet := (implicitLoop o grid advection (dt / 2) tau 50 0 o.coord).1
  let advectionK := fun i => o.eval advection (feet i)
  let advectionKTot := fun i => (1 / 2 : ℝ) • (advection i + advectionK i)
  o.advect f advectionKTot dt

/-- Loop and end of the implicit solver, `src/geometryRTheta/time_solver/bsl_predcorr_second_order_implicit.hpp:227-402`.
`host` is the content of the host array `density_host`: it is refreshed from the device array at line 239 in each iteration, and at line 401 after the last event.
`aliased`: on a build whose default execution space is the host, `create_mirror_view_and_copy` (lines 192-193) returns
a view of `density_host` itself, so the host array always has the content of the device array. -/
noncomputable def implicitSolverLoop (aliased : Bool) (o : Ops F Φ I X V) (grid : List I) (dt : ℝ) (steps : ℕ) :
    ℕ → ℕ → F → F → List (Event F Φ) → F × List (Event F Φ)
  | 0, _, f, host, log =>
    let host := if aliased then f else host
    let log := log ++ [⟨.lastIteration, steps, steps * dt, host, o.phiOf f⟩]
    let host := f
    (host, log)
  | n + 1, iter, f, _, log =>
    let host := f
    let log := log ++ [⟨.iteration, iter, iter * dt, host, o.phiOf f⟩]
    implicitSolverLoop aliased o grid dt steps n (iter + 1) (implicitStep o grid f dt) host log

/-- `BslImplicitPredCorrRTheta::operator()`,
`src/geometryRTheta/time_solver/bsl_predcorr_second_order_implicit.hpp:146-403`. -/
noncomputable def implicitSolver (aliased : Bool) (o : Ops F Φ I X V) (grid : List I) (f : F) (dt : ℝ) (steps : ℕ) :
    F × List (Event F Φ) :=
  implicitSolverLoop aliased o grid dt steps steps 0 f f []

end Verif.TimeLoops
