import Verif.Model.TimeLoops
import Mathlib.Analysis.SpecialFunctions.Exp
import Mathlib.Analysis.SpecialFunctions.ExpDeriv
import Mathlib.Analysis.Complex.Exponential
import Mathlib.Analysis.Asymptotics.Lemmas
import Mathlib.Logic.Function.Iterate
import Mathlib.Tactic.Ring
import Mathlib.Tactic.NormNum
import Mathlib.Tactic.Linarith
import Mathlib.Tactic.FieldSimp
import Mathlib.Tactic.Positivity

/-!
# C46, C47: time loops, their output and the fields they use

Specification: `step` is one time step; the expected output of a run is written with `step^[k]`.
-/

namespace Verif.TimeLoops
open Verif.Timestepper

variable {F Φ E : Type*}

/-- Specification: one step of the midpoint predictor-corrector: the field used for the step is the one computed from the state predicted at `dt/2`. -/
noncomputable def midpoint (solve : F → E → ℝ → F) (field : F → E) (dt : ℝ) (f : F) : F :=
  solve f (field (solve f (field f) (dt / 2))) dt

/-- Specification: the output expected from `n` steps with event number `iter0 + k` at time `t0 + (iter0 + k) * dt`. -/
noncomputable def expected (step : F → F) (phi : F → Φ) (t0 dt : ℝ) (iter0 n : ℕ) (f : F) : List (Event F Φ) :=
  (List.range n).map (fun k => ⟨.iteration, iter0 + k, t0 + ((iter0 + k : ℕ) : ℝ) * dt, step^[k] f, phi (step^[k] f)⟩)
    ++ [⟨.lastIteration, iter0 + n, t0 + ((iter0 + n : ℕ) : ℝ) * dt, step^[n] f, phi (step^[n] f)⟩]

theorem expected_succ (step : F → F) (phi : F → Φ) (t0 dt : ℝ) (iter0 n : ℕ) (f : F) :
    expected step phi t0 dt iter0 (n + 1) f
      = ⟨.iteration, iter0, t0 + (iter0 : ℝ) * dt, f, phi f⟩ :: expected step phi t0 dt (iter0 + 1) n (step f) := by
  have h : ∀ k, iter0 + 1 + k = iter0 + (k + 1) := fun k => by omega
  simp only [expected, List.range_succ_eq_map, List.map_cons, List.map_map, List.cons_append, Function.iterate_zero, id,
    Nat.add_zero, Function.comp_def, Nat.succ_eq_add_one, h, Function.iterate_succ]

theorem predCorrXVxLoop_eq (boltz : F → E → ℝ → F) (poisson : F → Φ × E) (t0 dt : ℝ) (n iter : ℕ) (f : F)
    (log : List (Event F Φ)) :
    predCorrXVxLoop boltz poisson t0 dt n iter f log
      = ((midpoint boltz (fun f => (poisson f).2) dt)^[n] f,
          log ++ expected (midpoint boltz (fun f => (poisson f).2) dt) (fun f => (poisson f).1) t0 dt iter n f) := by
  induction n generalizing iter f log with
  | zero => simp [predCorrXVxLoop, expected]
  | succ n ih =>
    rw [predCorrXVxLoop, ih, expected_succ]
    simp [midpoint, Function.iterate_succ]

/-- C46 (1D1V): the run of `n` steps returns the state after `n` predictor-corrector steps, and emits exactly one event for every `k ≤ n`,
carrying the number `k`, the time `time_start + k dt`, the state after `k` steps and its potential. -/
theorem c46_xvx (boltz : F → E → ℝ → F) (poisson : F → Φ × E) (f : F) (t0 dt : ℝ) (n : ℕ) :
    predCorrXVx boltz poisson f t0 dt n
      = ((midpoint boltz (fun f => (poisson f).2) dt)^[n] f,
          expected (midpoint boltz (fun f => (poisson f).2) dt) (fun f => (poisson f).1) t0 dt 0 n f) := by
  rw [predCorrXVx, predCorrXVxLoop_eq]; simp

/-- C46 (1D1V), event by event: event `k` of the run. -/
theorem c46_xvx_event (boltz : F → E → ℝ → F) (poisson : F → Φ × E) (f : F) (t0 dt : ℝ) (n k : ℕ) (hk : k ≤ n) :
    ∃ ev, (predCorrXVx boltz poisson f t0 dt n).2[k]? = some ev ∧ ev.iter = k ∧ ev.time = t0 + k * dt
      ∧ ev.density = (predCorrXVx boltz poisson f t0 dt k).1 ∧ ev.phi = (poisson ev.density).1
      ∧ (ev.name = .lastIteration ↔ k = n) := by
  simp only [c46_xvx, expected, zero_add]
  rcases Nat.lt_or_eq_of_le hk with h | rfl
  · refine ⟨_, by rw [List.getElem?_append_left (by simpa using h)]; simp [h]; rfl, ?_⟩
    simp; omega
  · refine ⟨_, by rw [List.getElem?_append_right (by simp)]; simp; rfl, ?_⟩
    simp

/-- C46 (1D1V): there is no other event. -/
theorem c46_xvx_count (boltz : F → E → ℝ → F) (poisson : F → Φ × E) (f : F) (t0 dt : ℝ) (n : ℕ) :
    (predCorrXVx boltz poisson f t0 dt n).2.length = n + 1 := by
  simp [c46_xvx, expected]

/-- C46 (1D1V) restart: `n + m` steps give the same final state as `n` steps, then `m` steps from the saved state at the saved time. -/
theorem c46_xvx_restart (boltz : F → E → ℝ → F) (poisson : F → Φ × E) (f : F) (t0 dt : ℝ) (n m : ℕ) :
    (predCorrXVx boltz poisson f t0 dt (n + m)).1
      = (predCorrXVx boltz poisson (predCorrXVx boltz poisson f t0 dt n).1 (t0 + n * dt) dt m).1 := by
  simp only [c46_xvx, ← Function.iterate_add_apply, Nat.add_comm]

/-- C46 (1D1V) restart, output: the events of the restarted run are those of the uninterrupted run from number `n` on (the same times, densities and potentials),
numbered from zero again. -/
theorem c46_xvx_restart_events (boltz : F → E → ℝ → F) (poisson : F → Φ × E) (f : F) (t0 dt : ℝ) (n m : ℕ) :
    (predCorrXVx boltz poisson f t0 dt (n + m)).2.drop n
      = ((predCorrXVx boltz poisson (predCorrXVx boltz poisson f t0 dt n).1 (t0 + n * dt) dt m).2).map
          (fun ev => { ev with iter := n + ev.iter }) := by
  have key : ∀ (step : F → F) (phi : F → Φ) (n iter : ℕ) (f : F),
      (expected step phi t0 dt iter (n + m) f).drop n = expected step phi t0 dt (iter + n) m (step^[n] f) := by
    intro step phi n
    induction n with
    | zero => intro iter f; simp
    | succ n ih =>
      intro iter f
      rw [show n + 1 + m = (n + m) + 1 by omega, expected_succ, List.drop_succ_cons, ih]
      simp [Function.iterate_succ, Nat.add_assoc, Nat.add_comm 1 n]
  simp only [c46_xvx, key]
  have : ∀ k : ℕ, t0 + ((n + k : ℕ) : ℝ) * dt = t0 + n * dt + (k : ℝ) * dt := by intro k; push_cast; ring
  simp [expected, this, -Nat.cast_add]

/-- A concrete run: `f' = -E`, `E = f`, two steps from time 10. -/
example : predCorrXVx (F := ℝ) (Φ := ℝ) (E := ℝ) (fun f e t => f - e * t) (fun f => (2 * f, f)) 8 10 1 2
    = (2, [⟨.iteration, 0, 10, 8, 16⟩, ⟨.iteration, 1, 11, 4, 8⟩, ⟨.lastIteration, 2, 12, 2, 4⟩]) := by
  norm_num [predCorrXVx, predCorrXVxLoop]

theorem predCorrXYVxVyLoop_eq (vlasov : F → E → ℝ → F) (poisson : F → Φ × E) (dt : ℝ) (n iter : ℕ) (f : F)
    (log : List (Event F Φ)) :
    predCorrXYVxVyLoop vlasov poisson dt n iter f log
      = ((midpoint vlasov (fun f => (poisson f).2) dt)^[n] f,
          log ++ expected (midpoint vlasov (fun f => (poisson f).2) dt) (fun f => (poisson f).1) 0 dt iter n f) := by
  induction n generalizing iter f log with
  | zero => simp [predCorrXYVxVyLoop, expected]
  | succ n ih =>
    rw [predCorrXYVxVyLoop, ih, expected_succ]
    simp [midpoint, Function.iterate_succ]

/-- C46 (2D2V): same statement, the initial time being `0`. -/
theorem c46_xyvxvy (vlasov : F → E → ℝ → F) (poisson : F → Φ × E) (f : F) (dt : ℝ) (n : ℕ) :
    predCorrXYVxVy vlasov poisson f dt n
      = ((midpoint vlasov (fun f => (poisson f).2) dt)^[n] f,
          expected (midpoint vlasov (fun f => (poisson f).2) dt) (fun f => (poisson f).1) 0 dt 0 n f) := by
  rw [predCorrXYVxVy, predCorrXYVxVyLoop_eq]; simp

/-- C46 (2D2V) restart of the state. -/
theorem c46_xyvxvy_restart (vlasov : F → E → ℝ → F) (poisson : F → Φ × E) (f : F) (dt : ℝ) (n m : ℕ) :
    (predCorrXYVxVy vlasov poisson f dt (n + m)).1
      = (predCorrXYVxVy vlasov poisson (predCorrXYVxVy vlasov poisson f dt n).1 dt m).1 := by
  simp only [c46_xyvxvy, ← Function.iterate_add_apply, Nat.add_comm]

example : predCorrXYVxVy (F := ℝ) (Φ := ℝ) (E := ℝ) (fun f e t => f - e * t) (fun f => (2 * f, f)) 8 1 1
    = (4, [⟨.iteration, 0, 0, 8, 16⟩, ⟨.lastIteration, 1, 1, 4, 8⟩]) := by
  norm_num [predCorrXYVxVy, predCorrXYVxVyLoop]

/-! ## 2D Cartesian guiding centre -/

section XY
variable {I : Type*}

/-- Specification of the advection of one (sub-)step: Strang splitting `x, y, x` with the drift velocity `(-E_y, E_x)`. -/
noncomputable def driftAdvect (advX advY : F → (I → ℝ) → ℝ → F) (f : F) (e : (I → ℝ) × (I → ℝ)) (dt : ℝ) : F :=
  advX (advY (advX f (-e.2) (dt / 2)) e.1 dt) (-e.2) (dt / 2)

theorem predCorrRK2XYLoop_eq (advX advY : F → (I → ℝ) → ℝ → F) (poisson : F → Φ × ((I → ℝ) × (I → ℝ)))
    (dt : ℝ) (n iter : ℕ) (f : F) (log : List (Event F Φ)) :
    predCorrRK2XYLoop advX advY poisson dt n iter f log
      = ((midpoint (driftAdvect advX advY) (fun f => (poisson f).2) dt)^[n] f,
          log ++ (List.range n).map fun k =>
            ⟨.iteration, iter + k, ((iter + k : ℕ) : ℝ) * dt,
              (midpoint (driftAdvect advX advY) (fun f => (poisson f).2) dt)^[k + 1] f,
              (poisson ((midpoint (driftAdvect advX advY) (fun f => (poisson f).2) dt)^[k + 1] f)).1⟩) := by
  have hstep : ∀ f, rk2 (advectXY advX advY) (fun f => (poisson f).2) f dt
      = midpoint (driftAdvect advX advY) (fun f => (poisson f).2) dt f := by
    intro f
    have h2 : (0.5 * dt : ℝ) = dt / 2 := by norm_num; ring
    simp only [rk2, midpoint, advectXY, driftAdvect, h2]
    rfl
  induction n generalizing iter f log with
  | zero => simp [predCorrRK2XYLoop]
  | succ n ih =>
    have h : ∀ k, iter + 1 + k = iter + (k + 1) := fun k => by omega
    rw [predCorrRK2XYLoop, ih, hstep]
    simp [List.range_succ_eq_map, Function.comp_def, h, Function.iterate_succ, -Nat.cast_add, -Nat.cast_succ]

/-- C46 (2D guiding centre): `n` steps emit the events `1, ..., n`; event `k` carries the time `k dt`, the state after `k` steps and its potential
(there is no event for the initial state). -/
theorem c46_xy (advX advY : F → (I → ℝ) → ℝ → F) (poisson : F → Φ × ((I → ℝ) × (I → ℝ))) (f : F) (dt : ℝ) (n : ℕ) :
    predCorrRK2XY advX advY poisson f dt n
      = ((midpoint (driftAdvect advX advY) (fun f => (poisson f).2) dt)^[n] f,
          (List.range n).map fun k =>
            ⟨.iteration, k + 1, ((k + 1 : ℕ) : ℝ) * dt,
              (midpoint (driftAdvect advX advY) (fun f => (poisson f).2) dt)^[k + 1] f,
              (poisson ((midpoint (driftAdvect advX advY) (fun f => (poisson f).2) dt)^[k + 1] f)).1⟩) := by
  rw [predCorrRK2XY, predCorrRK2XYLoop_eq]
  simp only [List.nil_append, Nat.add_comm 1]

/-- C46 (2D guiding centre) restart of the state. -/
theorem c46_xy_restart (advX advY : F → (I → ℝ) → ℝ → F) (poisson : F → Φ × ((I → ℝ) × (I → ℝ))) (f : F) (dt : ℝ) (n m : ℕ) :
    (predCorrRK2XY advX advY poisson f dt (n + m)).1
      = (predCorrRK2XY advX advY poisson (predCorrRK2XY advX advY poisson f dt n).1 dt m).1 := by
  simp only [c46_xy, ← Function.iterate_add_apply, Nat.add_comm]

example : (predCorrRK2XY (I := Unit) (F := ℝ) (Φ := ℝ) (fun f a t => f + a () * t) (fun f a t => f + 10 * a () * t)
    (fun f => (f, (fun _ => 1, fun _ => 3))) 0 2 2).1 = 28 := by
  norm_num [predCorrRK2XY, predCorrRK2XYLoop, rk2, advectXY]

end XY

/-! ## Polar RK2 -/

section Polar
variable {A : Type*}

theorem bslPredCorrLoop_eq (advect : F → A → ℝ → F) (phiOf : F → Φ) (advField : F → A) (dt : ℝ) (n iter : ℕ) (f : F)
    (log : List (Event F Φ)) :
    bslPredCorrLoop advect phiOf advField dt n iter f log
      = ((midpoint advect advField dt)^[n] f,
          log ++ (List.range n).map fun k =>
            ⟨.iteration, iter + k + 1, ((iter + k : ℕ) : ℝ) * dt, (midpoint advect advField dt)^[k + 1] f,
              phiOf ((midpoint advect advField dt)^[k + 1] f)⟩) := by
  have hstep : ∀ f, rk2 advect advField f dt = midpoint advect advField dt f := by
    intro f
    have h2 : (0.5 * dt : ℝ) = dt / 2 := by norm_num; ring
    simp only [rk2, midpoint, h2]
  induction n generalizing iter f log with
  | zero => simp [bslPredCorrLoop]
  | succ n ih =>
    have h : ∀ k, iter + 1 + k = iter + (k + 1) := fun k => by omega
    rw [bslPredCorrLoop, ih, hstep]
    simp [List.range_succ_eq_map, Function.comp_def, h, Function.iterate_succ, -Nat.cast_add, -Nat.cast_succ]

/-- C46 (polar RK2): returned state, and events: event `k` carries the number `k`, the state after `k` steps and its potential,
but FINDING its time is `(k - 1) dt` for `k ≥ 1` (`src/geometryRTheta/time_solver/bsl_predcorr.hpp:204-205`). -/
theorem c46_polar_rk2 (advect : F → A → ℝ → F) (phiOf : F → Φ) (advField : F → A) (f : F) (dt : ℝ) (n : ℕ) :
    bslPredCorr advect phiOf advField f dt n
      = ((midpoint advect advField dt)^[n] f,
          (List.range (n + 1)).map fun k =>
            ⟨.iteration, k, ((k - 1 : ℕ) : ℝ) * dt, (midpoint advect advField dt)^[k] f,
              phiOf ((midpoint advect advField dt)^[k] f)⟩) := by
  rw [bslPredCorr, bslPredCorrLoop_eq]
  simp [List.range_succ_eq_map, Function.comp_def]

/-- FINDING: the time of the events of the polar RK2 solver is not the time of the saved state: for every run with at least one step and every non-zero time step,
the last event does not carry the time `n dt`. -/
theorem c46_polar_rk2_time_wrong (advect : F → A → ℝ → F) (phiOf : F → Φ) (advField : F → A) (f : F) (dt : ℝ) (n : ℕ)
    (hn : 0 < n) (hdt : dt ≠ 0) :
    ∃ ev, (bslPredCorr advect phiOf advField f dt n).2.getLast? = some ev ∧ ev.iter = n
      ∧ ev.density = (bslPredCorr advect phiOf advField f dt n).1 ∧ ev.time ≠ n * dt := by
  rw [c46_polar_rk2]
  refine ⟨_, by rw [List.getLast?_map, List.getLast?_range]; simp; rfl, ?_⟩
  simp
  exact ⟨by omega, hdt⟩

/-- The first event of the run and the second one even carry the same time. -/
theorem c46_polar_rk2_duplicate_time (advect : F → A → ℝ → F) (phiOf : F → Φ) (advField : F → A) (f : F) (dt : ℝ) (n : ℕ)
    (hn : 0 < n) :
    ((bslPredCorr advect phiOf advField f dt n).2[0]?.map (·.time)) = some 0
      ∧ ((bslPredCorr advect phiOf advField f dt n).2[1]?.map (·.time)) = some 0 := by
  rw [c46_polar_rk2]
  have : 1 < n + 1 := by omega
  simp [this]

theorem c46_polar_rk2_restart (advect : F → A → ℝ → F) (phiOf : F → Φ) (advField : F → A) (f : F) (dt : ℝ) (n m : ℕ) :
    (bslPredCorr advect phiOf advField f dt (n + m)).1
      = (bslPredCorr advect phiOf advField (bslPredCorr advect phiOf advField f dt n).1 dt m).1 := by
  simp only [c46_polar_rk2, ← Function.iterate_add_apply, Nat.add_comm]

example : bslPredCorr (F := ℝ) (Φ := ℝ) (A := ℝ) (fun f a t => f - a * t) (fun f => 2 * f) (fun f => f) 8 1 2
    = (2, [⟨.iteration, 0, 0, 8, 16⟩, ⟨.iteration, 1, 0, 4, 8⟩, ⟨.iteration, 2, 1, 2, 4⟩]) := by
  norm_num [bslPredCorr, bslPredCorrLoop, rk2]

end Polar

/-! ## The second order predictor-correctors -/

section SecondOrder
variable {I X V : Type*} [AddCommGroup V] [Module ℝ V]

theorem explicitLoop_eq (o : Ops F Φ I X V) (dt : ℝ) (n iter : ℕ) (f : F) (log : List (Event F Φ)) :
    explicitLoop o dt (iter + n) n iter f log
      = ((fun f => explicitStep o f dt)^[n] f, log ++ expected (fun f => explicitStep o f dt) o.phiOf 0 dt iter n f) := by
  induction n generalizing iter f log with
  | zero => simp [explicitLoop, expected]
  | succ n ih =>
    have h : iter + (n + 1) = iter + 1 + n := by omega
    rw [explicitLoop, h, ih, expected_succ]
    simp [Function.iterate_succ]

/-- C46 (explicit polar scheme): number, time, state and potential of every event. -/
theorem c46_explicit (o : Ops F Φ I X V) (f : F) (dt : ℝ) (n : ℕ) :
    explicitSolver o f dt n
      = ((fun f => explicitStep o f dt)^[n] f, expected (fun f => explicitStep o f dt) o.phiOf 0 dt 0 n f) := by
  have := explicitLoop_eq o dt n 0 f []
  simpa [explicitSolver] using this

theorem c46_explicit_restart (o : Ops F Φ I X V) (f : F) (dt : ℝ) (n m : ℕ) :
    (explicitSolver o f dt (n + m)).1 = (explicitSolver o (explicitSolver o f dt n).1 dt m).1 := by
  simp only [c46_explicit, ← Function.iterate_add_apply, Nat.add_comm]

theorem implicitSolverLoop_aliased (o : Ops F Φ I X V) (grid : List I) (dt : ℝ) (n iter : ℕ) (f host : F)
    (log : List (Event F Φ)) :
    implicitSolverLoop true o grid dt (iter + n) n iter f host log
      = ((fun f => implicitStep o grid f dt)^[n] f,
          log ++ expected (fun f => implicitStep o grid f dt) o.phiOf 0 dt iter n f) := by
  induction n generalizing iter f host log with
  | zero => simp [implicitSolverLoop, expected]
  | succ n ih =>
    have h : iter + (n + 1) = iter + 1 + n := by omega
    rw [implicitSolverLoop, h, ih, expected_succ]
    simp [Function.iterate_succ]

/-- C46 (implicit polar scheme) on a host-only build, where the host array is the device array. -/
theorem c46_implicit_host (o : Ops F Φ I X V) (grid : List I) (f : F) (dt : ℝ) (n : ℕ) :
    implicitSolver true o grid f dt n
      = ((fun f => implicitStep o grid f dt)^[n] f, expected (fun f => implicitStep o grid f dt) o.phiOf 0 dt 0 n f) := by
  have := implicitSolverLoop_aliased o grid dt n 0 f f []
  simpa [implicitSolver] using this

theorem implicitSolverLoop_device (o : Ops F Φ I X V) (grid : List I) (dt : ℝ) (steps n iter : ℕ) (f host : F)
    (log : List (Event F Φ)) :
    (implicitSolverLoop false o grid dt steps n iter f host log).1 = (fun f => implicitStep o grid f dt)^[n] f ∧
    (implicitSolverLoop false o grid dt steps n iter f host log).2
      = log ++ (List.range n).map (fun k => ⟨.iteration, iter + k, ((iter + k : ℕ) : ℝ) * dt,
            (fun f => implicitStep o grid f dt)^[k] f, o.phiOf ((fun f => implicitStep o grid f dt)^[k] f)⟩)
          ++ [⟨.lastIteration, steps, steps * dt,
              if n = 0 then host else (fun f => implicitStep o grid f dt)^[n - 1] f,
              o.phiOf ((fun f => implicitStep o grid f dt)^[n] f)⟩] := by
  induction n generalizing iter f host log with
  | zero => simp [implicitSolverLoop]
  | succ n ih =>
    have h : ∀ k, iter + 1 + k = iter + (k + 1) := fun k => by omega
    rw [implicitSolverLoop]
    refine ⟨by rw [(ih ..).1]; simp [Function.iterate_succ], ?_⟩
    rw [(ih ..).2]
    rcases n with _ | n
    · simp
    · simp [List.range_succ_eq_map, Function.comp_def, h, Function.iterate_succ, -Nat.cast_add, -Nat.cast_succ]

/-- C46 (implicit polar scheme) on a device build, FINDING: the `last_iteration` event carries the density of the step *before* the last one (with the potential of the
last one), because the event is emitted (`src/geometryRTheta/time_solver/bsl_predcorr_second_order_implicit.hpp:392-396`)
before the device density is copied to the host (line 401). The returned density is right. -/
theorem c46_implicit_device_stale (o : Ops F Φ I X V) (grid : List I) (f : F) (dt : ℝ) (n : ℕ) :
    (implicitSolver false o grid f dt (n + 1)).1 = (fun f => implicitStep o grid f dt)^[n + 1] f ∧
    (implicitSolver false o grid f dt (n + 1)).2.getLast? = some ⟨.lastIteration, n + 1, ((n + 1 : ℕ) : ℝ) * dt,
      (implicitSolver false o grid f dt n).1, o.phiOf (implicitSolver false o grid f dt (n + 1)).1⟩ := by
  simp only [implicitSolver]
  refine ⟨(implicitSolverLoop_device o grid dt _ _ 0 f f []).1, ?_⟩
  rw [(implicitSolverLoop_device o grid dt _ (n + 1) 0 f f []).2, (implicitSolverLoop_device o grid dt _ (n + 1) 0 f f []).1,
    (implicitSolverLoop_device o grid dt _ n 0 f f []).1]
  simp

/-- The other events are right on a device build too. -/
theorem c46_implicit_device_events (o : Ops F Φ I X V) (grid : List I) (f : F) (dt : ℝ) (n k : ℕ) (hk : k < n) :
    (implicitSolver false o grid f dt n).2[k]? = some ⟨.iteration, k, (k : ℝ) * dt,
      (fun f => implicitStep o grid f dt)^[k] f, o.phiOf ((fun f => implicitStep o grid f dt)^[k] f)⟩ := by
  simp only [implicitSolver]
  rw [(implicitSolverLoop_device o grid dt _ _ 0 f f []).2]
  simp only [List.nil_append, zero_add]
  rw [List.getElem?_append_left (by simpa using hk)]
  simp [hk]

theorem c46_implicit_restart (b : Bool) (o : Ops F Φ I X V) (grid : List I) (f : F) (dt : ℝ) (n m : ℕ) :
    (implicitSolver b o grid f dt (n + m)).1
      = (implicitSolver b o grid (implicitSolver b o grid f dt n).1 dt m).1 := by
  cases b
  · simp only [implicitSolver, (implicitSolverLoop_device ..).1, ← Function.iterate_add_apply, Nat.add_comm]
  · simp only [c46_implicit_host, ← Function.iterate_add_apply, Nat.add_comm]

/-! ### C47: the fields used by the correctors -/

/-- The step documented in `src/geometryRTheta/time_solver/bsl_predcorr_second_order_explicit.hpp:41-55`:
`ρ^P` from `A^n` over `dt`, `X^P` the feet of `A^n`, and `ρ^{n+1}` from `ρ^n` with the field `(A^P(X^n) + A^n(X^P)) / 2`. -/
noncomputable def documentedExplicit (o : Ops F Φ I X V) (f : F) (dt : ℝ) : F :=
  let An := o.advField f
  let AP := o.advField (o.advect f An dt)
  o.advect f (fun i => (1 / 2 : ℝ) • (AP i + o.eval An (o.feet o.coord An dt i))) dt

/-- What the explicit step computes: the second field is `A^P(X^P)`, not `A^n(X^P)`. -/
theorem c47_explicit_actual (o : Ops F Φ I X V) (f : F) (dt : ℝ) :
    let An := o.advField f
    let AP := o.advField (o.advect f An dt)
    explicitStep o f dt = o.advect f (fun i => (1 / 2 : ℝ) • (AP i + o.eval AP (o.feet o.coord An dt i))) dt := by
  simp only [explicitStep, add_comm]

/-- The step agrees with its documentation when the predicted density generates the same advection field (a stationary field). -/
theorem c47_explicit_stationary (o : Ops F Φ I X V) (f : F) (dt : ℝ)
    (h : o.advField (o.advect f (o.advField f) dt) = o.advField f) :
    explicitStep o f dt = documentedExplicit o f dt := by
  simp only [explicitStep, documentedExplicit, h, add_comm]

/-- A one-point system used as a witness: the density is a number, advecting by `a` over `t` subtracts `a t`, and the field is the density:
the exact evolution is `f' = -f`. -/
noncomputable def decay : Ops ℝ ℝ Unit Unit ℝ where
  advect f a t := f - a () * t
  phiOf f := f
  advField f := fun _ => f
  eval a _ := a ()
  feet x _ _ := x
  coord _ := ()
  dist2 _ _ := 0

theorem decay_actual (f dt : ℝ) : explicitStep decay f dt = f * (1 - dt + dt ^ 2) := by
  simp [explicitStep, decay]; ring

theorem decay_documented (f dt : ℝ) : documentedExplicit decay f dt = f * (1 - dt + dt ^ 2 / 2) := by
  simp [documentedExplicit, decay]; ring

/-- FINDING: the explicit scheme does not do what is documented. -/
theorem c47_explicit_not_documented : ∃ (o : Ops ℝ ℝ Unit Unit ℝ) (f dt : ℝ), explicitStep o f dt ≠ documentedExplicit o f dt :=
  ⟨decay, 1, 1, by rw [decay_actual, decay_documented]; norm_num⟩

open Asymptotics Filter Topology in
theorem exp_neg_expansion : (fun t : ℝ => Real.exp (-t) - (1 - t + t ^ 2 / 2)) =O[𝓝 0] (fun t : ℝ => t ^ 3) := by
  have h := Real.exp_sub_sum_range_isBigO_pow 3
  have ht : Tendsto (fun t : ℝ => -t) (𝓝 0) (𝓝 0) := by simpa using (continuous_neg (G := ℝ)).tendsto 0
  have h2 := h.comp_tendsto ht
  have h3 : (fun t : ℝ => (-t) ^ 3) =O[𝓝 0] (fun t : ℝ => t ^ 3) := by
    refine IsBigO.of_bound 1 (Eventually.of_forall fun t => ?_)
    simp
  refine (h2.trans h3).congr_left fun t => ?_
  simp only [Function.comp, Finset.sum_range_succ, Finset.sum_range_zero, Nat.factorial]
  norm_num
  ring

open Asymptotics Filter Topology in
/-- The documented scheme is second order accurate on the test system (local error `O(dt³)`). -/
theorem c47_documented_second_order :
    (fun dt : ℝ => documentedExplicit decay 1 dt - Real.exp (-dt)) =O[𝓝 0] (fun dt : ℝ => dt ^ 3) := by
  refine exp_neg_expansion.neg_left.congr_left fun t => ?_
  rw [decay_documented]; ring

open Asymptotics Filter Topology in
/-- FINDING: the implemented explicit scheme ("second order") is only first order accurate: on the same test system its local error is not `O(dt³)`. -/
theorem c47_explicit_only_first_order :
    ¬ (fun dt : ℝ => explicitStep decay 1 dt - Real.exp (-dt)) =O[𝓝 0] (fun dt : ℝ => dt ^ 3) := by
  intro h
  have h1 := h.add exp_neg_expansion
  have h2 : (fun t : ℝ => t ^ 2 / 2) =O[𝓝 0] (fun t : ℝ => t ^ 3) := by
    refine h1.congr_left fun t => ?_
    rw [decay_actual]; ring
  obtain ⟨c, hc0, hc⟩ := h2.exists_pos
  rw [IsBigOWith] at hc
  rw [Metric.eventually_nhds_iff] at hc
  obtain ⟨ε, hε, H⟩ := hc
  set t : ℝ := min (ε / 2) (1 / (4 * c)) with ht
  have htpos : 0 < t := by positivity
  have h3 := H (y := t) (by simp only [dist_zero_right, Real.norm_eq_abs, abs_of_pos htpos]; exact lt_of_le_of_lt (min_le_left _ _) (by linarith))
  simp only [norm_div, norm_pow, Real.norm_eq_abs, abs_of_pos htpos] at h3
  norm_num at h3
  have h4 : c * t ≤ 1 / 4 := by
    have : t ≤ 1 / (4 * c) := min_le_right _ _
    calc c * t ≤ c * (1 / (4 * c)) := by gcongr
      _ = 1 / 4 := by field_simp
  have : t ^ 2 / 2 ≤ t ^ 2 / 4 := by
    calc t ^ 2 / 2 ≤ c * t ^ 3 := h3
      _ = (c * t) * t ^ 2 := by ring
      _ ≤ 1 / 4 * t ^ 2 := by gcongr
      _ = t ^ 2 / 4 := by ring
  nlinarith [pow_pos htpos 2]

/-- The implicit feet loop always ends, after at least one and at most `maxCount` passes (`max 1`), and the returned feet come from one pass of the fixed point
iteration started at some feet `y`; either the last two iterates are closer than the tolerance, or the iteration limit is reached. -/
theorem c47_implicit_loop (o : Ops F Φ I X V) (grid : List I) (a : I → V) (dt tau : ℝ) (maxCount count : ℕ) (x : I → X) :
    ∃ k, 0 < k ∧ (implicitLoop o grid a dt tau maxCount count x).1 = (implicitBody o a dt)^[k] x ∧
      (implicitLoop o grid a dt tau maxCount count x).2 = count + k ∧
      (count + k ≤ max maxCount (count + 1)) ∧
      (sqDiff o grid ((implicitBody o a dt)^[k] x) ((implicitBody o a dt)^[k - 1] x) ≤ tau * tau ∨ maxCount ≤ count + k) := by
  induction hm : maxCount - count generalizing count x with
  | zero =>
    rw [implicitLoop]
    have h : ¬ (sqDiff o grid (implicitBody o a dt x) x > tau * tau ∧ count + 1 < maxCount) := by
      rintro ⟨_, h⟩; omega
    simp only [h, dif_neg, not_false_eq_true]
    exact ⟨1, by omega, rfl, rfl, le_max_right _ _, Or.inr (by omega)⟩
  | succ m ih =>
    rw [implicitLoop]
    by_cases h : sqDiff o grid (implicitBody o a dt x) x > tau * tau ∧ count + 1 < maxCount
    · simp only [h, and_self, dif_pos]
      obtain ⟨k, hk, h1, h2, h3, h4⟩ := ih (count + 1) (implicitBody o a dt x) (by omega)
      refine ⟨k + 1, by omega, by rw [h1, Function.iterate_succ_apply], by rw [h2]; omega, ?_, ?_⟩
      · rw [max_def] at h3 ⊢; split_ifs at h3 ⊢ <;> omega
      · rcases h4 with h4 | h4
        · left
          rw [Function.iterate_succ_apply, Nat.add_sub_cancel]
          obtain ⟨j, rfl⟩ : ∃ j, k = j + 1 := ⟨k - 1, by omega⟩
          rw [Nat.add_sub_cancel] at h4
          rwa [Function.iterate_succ_apply (n := j)]
        · right; omega
    · simp only [h, dif_neg, not_false_eq_true]
      refine ⟨1, by omega, rfl, rfl, le_max_right _ _, ?_⟩
      rw [not_and_or, not_lt, not_lt] at h
      rcases h with h | h
      · exact Or.inl h
      · exact Or.inr h

theorem le_foldl_max {J : Type*} (g : J → ℝ) (l : List J) (m : ℝ) :
    m ≤ l.foldl (fun m i => max m (g i)) m ∧ ∀ i ∈ l, g i ≤ l.foldl (fun m i => max m (g i)) m := by
  induction l generalizing m with
  | nil => simp
  | cons a l ih =>
    simp only [List.foldl_cons, List.mem_cons, forall_eq_or_imp]
    have := ih (max m (g a))
    exact ⟨(le_max_left _ _).trans this.1, (le_max_right _ _).trans this.1, this.2⟩

/-- The convergence test bounds the displacement of every foot of the grid. -/
theorem c47_sqDiff_bound (o : Ops F Φ I X V) (grid : List I) (x y : I → X) (i : I) (hi : i ∈ grid) :
    o.dist2 (x i) (y i) ≤ sqDiff o grid x y :=
  (le_foldl_max (fun i => o.dist2 (x i) (y i)) grid 0).2 i hi

/-- In the code (`count` starts at 0, the limit is 50): the returned feet are the `k`-th iterate, `1 ≤ k ≤ 50`, of the map which moves the grid points with the sum of the field at the
grid points and of the field at the previous feet; unless `k = 50`, no foot moved by more than `tau` in the last iteration. -/
theorem c47_implicit_loop_code (o : Ops F Φ I X V) (grid : List I) (a : I → V) (dt tau : ℝ) :
    let step : (I → X) → I → X := fun x => o.feet o.coord (fun i => a i + o.eval a (x i)) dt
    ∃ k, 1 ≤ k ∧ k ≤ 50 ∧ (implicitLoop o grid a dt tau 50 0 o.coord).1 = step^[k] o.coord ∧
      (k = 50 ∨ ∀ i ∈ grid, o.dist2 (step^[k] o.coord i) (step^[k - 1] o.coord i) ≤ tau * tau) := by
  obtain ⟨k, h0, h1, _, h3, h4⟩ := c47_implicit_loop o grid a dt tau 50 0 o.coord
  have : k ≤ 50 := by rw [max_def] at h3; split_ifs at h3 <;> omega
  refine ⟨k, h0, this, h1, ?_⟩
  rcases h4 with h | h
  · exact Or.inr fun i hi => (c47_sqDiff_bound o grid _ _ i hi).trans h
  · exact Or.inl (by omega)

/-- The predictor documented in the comments of the implicit scheme
(`src/geometryRTheta/time_solver/bsl_predcorr_second_order_implicit.hpp:292,305`): advection over `dt/2` with `(A^n(X^n) + A^n(X^P)) / 2`. -/
noncomputable def documentedPredictor (o : Ops F Φ I X V) (grid : List I) (f : F) (dt : ℝ) : F :=
  let An := o.advField f
  let XP := (implicitLoop o grid An (dt / 4) 1e-6 50 0 o.coord).1
  o.advect f (fun i => (1 / 2 : ℝ) • (An i + o.eval An (XP i))) (dt / 2)

/-- The predictor that is implemented (line 308): advection with `A^n(X^P)` only. -/
theorem c47_implicit_actual (o : Ops F Φ I X V) (grid : List I) (f : F) (dt : ℝ) :
    let An := o.advField f
    let XP := (implicitLoop o grid An (dt / 4) 1e-6 50 0 o.coord).1
    let AP := o.advField (o.advect f (fun i => o.eval An (XP i)) (dt / 2))
    let XC := (implicitLoop o grid AP (dt / 2) 1e-6 50 0 o.coord).1
    implicitStep o grid f dt = o.advect f (fun i => (1 / 2 : ℝ) • (AP i + o.eval AP (XC i))) dt := rfl

/-- A one-point system where the field at the feet differs from the field at the grid point: the evaluation at the foot doubles the field. -/
noncomputable def doubling : Ops ℝ ℝ Unit ℝ ℝ where
  advect f a t := f - a () * t
  phiOf f := f
  advField f := fun _ => f
  eval a x := (1 + x) * a ()
  feet _ _ _ := fun _ => 1
  coord _ := 0
  dist2 x y := (x - y) ^ 2

/-- FINDING: the implicit scheme's predictor is not the documented one: the corrector uses the field of a density which was advected with `A^n(X^P)`
and not with `(A^n(X^n) + A^n(X^P)) / 2`. -/
theorem c47_implicit_predictor_not_documented :
    ∃ (o : Ops ℝ ℝ Unit ℝ ℝ) (grid : List Unit) (f dt : ℝ),
      implicitStep o grid f dt ≠
        (let AP := o.advField (documentedPredictor o grid f dt)
         let XC := (implicitLoop o grid AP (dt / 2) 1e-6 50 0 o.coord).1
         o.advect f (fun i => (1 / 2 : ℝ) • (AP i + o.eval AP (XC i))) dt) := by
  refine ⟨doubling, [()], 1, 1, ?_⟩
  have hfeet : ∀ a dt, (implicitLoop doubling [()] a dt 1e-6 50 0 doubling.coord).1 = fun _ => 1 := by
    intro a dt
    obtain ⟨k, hk, _, h, _⟩ := c47_implicit_loop_code doubling [()] a dt 1e-6
    rw [h]
    obtain ⟨j, rfl⟩ : ∃ j, k = j + 1 := ⟨k - 1, by omega⟩
    rw [Function.iterate_succ_apply']
    rfl
  simp only [implicitStep, documentedPredictor, hfeet]
  norm_num [doubling]

end SecondOrder

end Verif.TimeLoops
