import Verif.Model.TimeLoops
import Mathlib.Data.Real.Basic
import Mathlib.Algebra.Order.Floor.Ring
import Mathlib.Data.Real.Archimedean

/-!
# The simulation drivers: number of steps, output files, restart

`simulations/geometryXVx/vlasovpoisson_xvx_fft.cpp` (and `vlasovpoisson_xvx_fem_uniform.cpp`, which has the same structure),
`simulations/geometryXYVxVy/landau/landau4d_fft.cpp`, `simulations/geometryXY/guiding_centre/guiding_centre.cpp`,
`simulations/geometryRTheta/{diocotron/diocotron,vortex_merger/vortex_merger}.cpp`,
`simulations/geometryVparMu/collisions/test_collSpVparMu.cpp`, and the PDI specification trees `pdi_out.yml.hpp` beside them.

A data directory is a function from file numbers to the content of the file, if it exists. A failure of the program (undefined conversion to `int`,
integer division by zero, missing file, exception) is `none`.
Simplifications: `double` is `ℝ`, except in the statements about binary64 quotients; the numerical operators are arbitrary functions (they are modelled elsewhere);
the meshes, the equilibrium and the `initial_state` event (written once, to another file) are not modelled. PDI expressions on integers are C++ integer expressions.
-/

namespace Verif.Drivers
open Verif.TimeLoops

/-- The C++ conversion of a `double` to `int`: truncation towards zero; undefined when the result does not fit.
Used in `simulations/geometryXVx/vlasovpoisson_xvx_fft.cpp:103`. -/
noncomputable def toInt (x : ℝ) : Option ℤ :=
  let t := if 0 ≤ x then ⌊x⌋ else ⌈x⌉
  if -2 ^ 31 ≤ t ∧ t < 2 ^ 31 then some t else none

/-- `int(a / b)` on doubles; a division by zero gives an infinity or a NaN, whose conversion to `int` is undefined.
`simulations/geometryXVx/vlasovpoisson_xvx_fft.cpp:103`. -/
noncomputable def intDiv (a b : ℝ) : Option ℤ := if b = 0 then none else toInt (a / b)

/-- `nbstep_diag`, `simulations/geometryXVx/vlasovpoisson_xvx_fft.cpp:102-103`, `simulations/geometryXVx/vlasovpoisson_xvx_fem_uniform.cpp:103-104`,
`simulations/geometryXYVxVy/landau/landau4d_fft.cpp:117-118`. -/
noncomputable def nbstepDiag (timeDiag deltat : ℝ) : Option ℤ := intDiv timeDiag deltat

/-- The content of an output file: `time_saved`, `fdistribu`, `electrostatic_potential`. `simulations/geometryXVx/pdi_out.yml.hpp:68-72`. -/
structure Saved (F Φ : Type*) where
  time : ℝ
  density : F
  phi : Φ

variable {F Φ E : Type*}

/-- A data directory: the file `GYSELALIBXX_<k>.h5` for each number `k`. `simulations/geometryXVx/pdi_out.yml.hpp:68`. -/
abbrev Dir (F Φ : Type*) := ℤ → Option (Saved F Φ)

/-- The reaction of PDI to one event of the time loop: `iter_saved` is set when `iter` is shared (`iter_start + iter / nbstep_diag`), and the file of that number
is written (or replaced) when `iter % nbstep_diag = 0`. `simulations/geometryXVx/pdi_out.yml.hpp:57-60,68-72`. -/
def onEvent (iterStart nb : ℤ) (d : Dir F Φ) (iter : ℤ) (content : Saved F Φ) : Option (Dir F Φ) :=
  if nb = 0 then none
  else
    let iterSaved := iterStart + iter.tdiv nb
    if iter.tmod nb = 0 then some (Function.update d iterSaved (some content)) else some d

/-- The events of a run, in order. `simulations/geometryXVx/pdi_out.yml.hpp:68-72`. -/
def onEvents (iterStart nb : ℤ) (log : List (Event F Φ)) (d : Dir F Φ) : Option (Dir F Φ) :=
  log.foldlM (fun d ev => onEvent iterStart nb d ev.iter ⟨ev.time, ev.density, ev.phi⟩) d

/-- The initial state and time: the initialisation when `iter_start == 0`, else the content of the file number `iter_start`
(`RestartInitialisation`, `src/geometryXVx/initialisation/restartinitialisation.cpp:8-16`; `simulations/geometryXVx/pdi_out.yml.hpp:73-75`).
`simulations/geometryXVx/vlasovpoisson_xvx_fft.cpp:82-94`. -/
def startState (iterStart : ℤ) (init : F) (d : Dir F Φ) : Option (F × ℝ) :=
  if iterStart = 0 then some (init, 0) else (d iterStart).map fun s => (s.density, s.time)

/-- The main program of the 1D1V simulations. `simulations/geometryXVx/vlasovpoisson_xvx_fft.cpp:78-137`: result, the data directory after the run.
A negative number of iterations makes no step. -/
noncomputable def runXVx (boltz : F → E → ℝ → F) (poisson : F → Φ × E) (init : F) (deltat timeDiag : ℝ) (iterStart nbiter : ℤ) (d : Dir F Φ) :
    Option (Dir F Φ) :=
  match startState iterStart init d, nbstepDiag timeDiag deltat with
  | some (f, timeStart), some nb => onEvents iterStart nb (predCorrXVx boltz poisson f timeStart deltat nbiter.toNat).2 d
  | _, _ => none

/-- The main program of the 2D2V simulation: no restart, files numbered `iter / nbstep_diag`.
`simulations/geometryXYVxVy/landau/landau4d_fft.cpp:100-170`, `simulations/geometryXYVxVy/landau/pdi_out.yml.hpp:71-90`. -/
noncomputable def runXYVxVy (vlasov : F → E → ℝ → F) (poisson : F → Φ × E) (init : F) (deltat timeDiag : ℝ) (nbiter : ℤ) (d : Dir F Φ) :
    Option (Dir F Φ) :=
  match nbstepDiag timeDiag deltat with
  | some nb => onEvents 0 nb (predCorrXYVxVy vlasov poisson init deltat nbiter.toNat).2 d
  | none => none

/-- The reaction of PDI to one event in the guiding-centre simulations: the file is numbered by the iteration itself.
`simulations/geometryXY/guiding_centre/pdi_out.yml.hpp:82-86`, `simulations/geometryRTheta/diocotron/pdi_out.yml.hpp:101-105`,
`simulations/geometryRTheta/vortex_merger/pdi_out.yml.hpp:109-113`. The interval `nb` is an integer read from the input file. -/
def onEventByIter (nb : ℤ) (d : Dir F Φ) (iter : ℤ) (content : Saved F Φ) : Option (Dir F Φ) :=
  if nb = 0 then none
  else if iter.tmod nb = 0 then some (Function.update d iter (some content)) else some d

/-- The events of a run of a guiding-centre simulation, in order. `simulations/geometryRTheta/diocotron/pdi_out.yml.hpp:101-105`. -/
def onEventsByIter (nb : ℤ) (log : List (Event F Φ)) (d : Dir F Φ) : Option (Dir F Φ) :=
  log.foldlM (fun d ev => onEventByIter nb d ev.iter ⟨ev.time, ev.density, ev.phi⟩) d

/-! ## Number of steps -/

/-- Number of steps of the Cartesian guiding-centre simulation. `simulations/geometryXY/guiding_centre/guiding_centre.cpp:69-71`. -/
noncomputable def guidingCentreSteps (finalTime deltat : ℝ) : Option ℤ := intDiv finalTime deltat

/-- Number of steps of the polar simulations, `final_T * int(1 / dt)` converted to `int`.
`simulations/geometryRTheta/diocotron/diocotron.cpp:238`, `simulations/geometryRTheta/vortex_merger/vortex_merger.cpp:188`. -/
noncomputable def polarSteps (finalT dt : ℝ) : Option ℤ := do
  let k ← intDiv 1 dt
  toInt (finalT * k)

/-! ## Collisions -/

/-- `nbstep_diag` of the collision simulation, with its check of the time step (exception) and the case of a zero time step.
`simulations/geometryVparMu/collisions/test_collSpVparMu.cpp:109-124`. -/
noncomputable def collNbstepDiag (timeDiag deltat : ℝ) (nbiter : ℤ) : Option ℤ :=
  if deltat > 1 / 100 then none
  else
    let deltatDiag := if deltat = 0 then timeDiag / nbiter else deltat
    intDiv timeDiag deltatDiag

/-- The time loop of the collision simulation: each iteration saves the host copy, applies the operator and refreshes the host copy.
Result: the files and the final state. `simulations/geometryVparMu/collisions/test_collSpVparMu.cpp:127-150`. -/
noncomputable def collLoop (coll : F → ℝ → F) (deltat : ℝ) (nb : ℤ) : ℕ → ℕ → F → F → Dir F Unit → Option (Dir F Unit × F)
  | 0, _, f, _, d => some (d, f)
  | n + 1, iter, f, host, d => do
    let timeIter := 0 + iter * deltat
    let d ← onEvent 0 nb d iter ⟨timeIter, host, ()⟩
    let f := coll f deltat
    let host := f
    collLoop coll deltat nb n (iter + 1) f host d

/-- The collision simulation from the choice of `nbstep_diag` on. `simulations/geometryVparMu/collisions/test_collSpVparMu.cpp:108-150`.
The loop runs for `iter < nbiter + 1`. -/
noncomputable def runColl (coll : F → ℝ → F) (init : F) (deltat timeDiag : ℝ) (nbiter : ℤ) (d : Dir F Unit) : Option (Dir F Unit × F) :=
  match collNbstepDiag timeDiag deltat nbiter with
  | some nb => collLoop coll deltat nb (nbiter + 1).toNat 0 init init d
  | none => none

end Verif.Drivers
