import Verif.Model.Drivers

/-!
# Runs that are killed, and what they leave on the disk

`simulations/geometryXVx/vlasovpoisson_xvx_fft.cpp` (and `vlasovpoisson_xvx_fem_uniform.cpp`), `simulations/geometryXVx/pdi_out.yml.hpp`.

The output of a run is a sequence of file writes; each write first creates or replaces the file (`collision_policy: replace_and_warn`), and ends when the file is closed
with all its content. A run can be killed at any time: before, between or inside of the writes. A file whose write was not finished is `torn`.
Simplifications: reading a torn file is a failure (nothing is claimed of a program that would go on with such a file); the operating system does not reorder the writes of
different files; the file `GYSELALIBXX_initstate.h5`, which no run reads, is not modelled.
-/

namespace Verif.Crash
open Verif.TimeLoops Verif.Drivers

variable {F Φ E : Type*}

/-- A file on the disk: closed with its content, or left unfinished. `simulations/geometryXVx/pdi_out.yml.hpp:68-72`. -/
inductive File (F Φ : Type*) where
  | torn
  | complete (content : Saved F Φ)

/-- The files `GYSELALIBXX_<k>.h5`. `simulations/geometryXVx/pdi_out.yml.hpp:68`. -/
abbrev Disk (F Φ : Type*) := ℤ → Option (File F Φ)

/-- What a run does to the disk: the file `k` is created or replaced; the file `k` is closed. `simulations/geometryXVx/pdi_out.yml.hpp:68-72`. -/
inductive Action (F Φ : Type*) where
  | opened (k : ℤ)
  | closed (k : ℤ) (content : Saved F Φ)

/-- The effect of an action. `simulations/geometryXVx/pdi_out.yml.hpp:68-72`. -/
def act (d : Disk F Φ) : Action F Φ → Disk F Φ
  | .opened k => Function.update d k (some .torn)
  | .closed k c => Function.update d k (some (.complete c))

/-- The files written in reaction to the events of the time loop, in order: number and content. No file is written for an event whose iteration number is not a multiple of
the interval; with a zero interval the program fails on the first event. `simulations/geometryXVx/pdi_out.yml.hpp:57-60,68-72`. -/
def writes (iterStart nb : ℤ) (log : List (Event F Φ)) : List (ℤ × Saved F Φ) :=
  if nb = 0 then []
  else log.filterMap fun ev =>
    if (ev.iter : ℤ).tmod nb = 0 then some (iterStart + (ev.iter : ℤ).tdiv nb, ⟨ev.time, ev.density, ev.phi⟩) else none

/-- The actions of these writes. `simulations/geometryXVx/pdi_out.yml.hpp:68-72`. -/
def actions (ws : List (ℤ × Saved F Φ)) : List (Action F Φ) := ws.flatMap fun w => [.opened w.1, .closed w.1 w.2]

/-- The initial state and time of a run: the initial condition for `iter_start == 0`, else the content of the file number `iter_start`, which must be readable.
`simulations/geometryXVx/vlasovpoisson_xvx_fft.cpp:82-94`, `src/geometryXVx/initialisation/restartinitialisation.cpp:10-16`. -/
def startDisk (iterStart : ℤ) (init : F) (d : Disk F Φ) : Option (F × ℝ) :=
  if iterStart = 0 then some (init, 0)
  else match d iterStart with
    | some (.complete s) => some (s.density, s.time)
    | _ => none

/-- The files that the main program of the 1D1V simulations writes when it is not killed; none if it cannot start.
`simulations/geometryXVx/vlasovpoisson_xvx_fft.cpp:78-139`. -/
noncomputable def program (boltz : F → E → ℝ → F) (poisson : F → Φ × E) (init : F) (deltat timeDiag : ℝ) (iterStart nbiter : ℤ) (d : Disk F Φ) :
    List (ℤ × Saved F Φ) :=
  match startDisk iterStart init d, nbstepDiag timeDiag deltat with
  | some (f, timeStart), some nb => writes iterStart nb (predCorrXVx boltz poisson f timeStart deltat nbiter.toNat).2
  | _, _ => []

/-- A run: what the user chooses (`--iter-restart`, `.Algorithm.nbiter`, `.Output.time_diag`), and the number of actions on the disk before it is killed (a number which is not
smaller than the number of its actions means that the run ends by itself). `simulations/geometryXVx/vlasovpoisson_xvx_fft.cpp:78-139`. -/
structure Run where
  iterStart : ℤ
  nbiter : ℤ
  timeDiag : ℝ
  killedAfter : ℕ

/-- The disk after a run that is killed. `simulations/geometryXVx/vlasovpoisson_xvx_fft.cpp:78-139`. -/
noncomputable def killedRun (boltz : F → E → ℝ → F) (poisson : F → Φ × E) (init : F) (deltat : ℝ) (d : Disk F Φ) (r : Run) : Disk F Φ :=
  ((actions (program boltz poisson init deltat r.timeDiag r.iterStart r.nbiter d)).take r.killedAfter).foldl act d

/-- The disk after a history of runs, which starts with an empty disk. `simulations/geometryXVx/vlasovpoisson_xvx_fft.cpp:78-139`. -/
noncomputable def after (boltz : F → E → ℝ → F) (poisson : F → Φ × E) (init : F) (deltat : ℝ) (runs : List Run) : Disk F Φ :=
  runs.foldl (killedRun boltz poisson init deltat) fun _ => none

end Verif.Crash
