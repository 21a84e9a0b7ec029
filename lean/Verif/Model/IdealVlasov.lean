import Verif.Model.Advection
import Verif.Model.Splitting
import Verif.Model.TimeLoops

/-!
# The Vlasov solvers with an exact interpolation

The 1D1V and 2D2V Vlasov solvers (`src/geometryXVx/boltzmann/splitvlasovsolver.cpp:15-24`, `src/geometryXYVxVy/vlasov/splitvlasovsolver.cpp:19-33`) on a distribution given at every point of phase space, with
the advection operators of `Verif.Advection` instantiated with the interpolator that makes no error. Simplifications: no interpolation error, no velocity boundary, `double` is `ℝ`.
-/

namespace Verif.IdealVlasov

open Verif.Advection Verif.Splitting Verif.TimeLoops

/-- The interpolator of the advection operators (`src/advection/bsl_advection_x.hpp:120-128`) without error: the function is known at every point. -/
def exact : Interp ℝ (ℝ → ℝ) := ⟨id, fun x c => c x⟩

/-- A distribution function of the species `Sp` on the points of phase space: `src/geometryXVx/boltzmann/splitvlasovsolver.cpp:15-18` (`allfdistribu`). -/
abbrev Dist (Sp Z : Type*) := Sp → Z → ℝ

variable {Sp : Type*}

/-- `m_advec_x`, `src/geometryXVx/boltzmann/splitvlasovsolver.cpp:20,22`, is the operator of `src/advection/bsl_advection_x.hpp:81-132`: one line for each velocity. -/
noncomputable def advecX (me : ℝ) (mass : Sp → ℝ) (f : Dist Sp (ℝ × ℝ)) (dt : ℝ) : Dist Sp (ℝ × ℝ) :=
  fun s z => bslX exact id (fun v => v) me (mass s) (fun v x => f s (x, v)) dt z.2 z.1

/-- `m_advec_vx`, `src/geometryXVx/boltzmann/splitvlasovsolver.cpp:21`, is the operator of `src/advection/bsl_advection_vx.hpp:82-138`: one line for each position. -/
noncomputable def advecVx (me : ℝ) (mass charge : Sp → ℝ) (f : Dist Sp (ℝ × ℝ)) (e : ℝ → ℝ) (dt : ℝ) : Dist Sp (ℝ × ℝ) :=
  fun s z => bslV exact id e (charge s) me (mass s) (fun x v => f s (x, v)) dt z.1 z.2

/-- The 1D1V run, `src/geometryXVx/time_integration/predcorr.cpp:19-98` with `src/geometryXVx/boltzmann/splitvlasovsolver.cpp:15-24`. -/
noncomputable def runXVx {Φ : Type*} (me : ℝ) (mass charge : Sp → ℝ) (poisson : Dist Sp (ℝ × ℝ) → Φ × (ℝ → ℝ)) (f : Dist Sp (ℝ × ℝ)) (timeStart dt : ℝ) (steps : ℕ) :
    Dist Sp (ℝ × ℝ) × List (Event (Dist Sp (ℝ × ℝ)) Φ) :=
  predCorrXVx (splitVlasovXVx (advecX me mass) (advecVx me mass charge)) poisson f timeStart dt steps

/-- Points `(x, y, vx, vy)` of the phase space of the 2D2V solver, `src/geometryXYVxVy/vlasov/splitvlasovsolver.cpp:19-23`. -/
abbrev Z4 := ℝ × ℝ × ℝ × ℝ

/-- `m_advec_x`, `src/geometryXYVxVy/vlasov/splitvlasovsolver.cpp:24,30` (`src/advection/bsl_advection_x.hpp:81-132`): one line for each `(y, vx, vy)`. -/
noncomputable def advecX4 (me : ℝ) (mass : Sp → ℝ) (f : Dist Sp Z4) (dt : ℝ) : Dist Sp Z4 :=
  fun s z => bslX exact id (fun b : ℝ × ℝ × ℝ => b.2.1) me (mass s) (fun b x => f s (x, b)) dt z.2 z.1

/-- `m_advec_y`, `src/geometryXYVxVy/vlasov/splitvlasovsolver.cpp:25,29`: one line for each `(x, vx, vy)`. -/
noncomputable def advecY4 (me : ℝ) (mass : Sp → ℝ) (f : Dist Sp Z4) (dt : ℝ) : Dist Sp Z4 :=
  fun s z => bslX exact id (fun b : ℝ × ℝ × ℝ => b.2.2) me (mass s) (fun b y => f s (b.1, y, b.2)) dt (z.1, z.2.2) z.2.1

/-- `m_advec_vx`, `src/geometryXYVxVy/vlasov/splitvlasovsolver.cpp:26,28` (`src/advection/bsl_advection_vx.hpp:82-138`): one line for each `(x, y, vy)`. -/
noncomputable def advecVx4 (me : ℝ) (mass charge : Sp → ℝ) (f : Dist Sp Z4) (e : ℝ × ℝ → ℝ) (dt : ℝ) : Dist Sp Z4 :=
  fun s z => bslV exact id (fun b : ℝ × ℝ × ℝ => e (b.1, b.2.1)) (charge s) me (mass s) (fun b vx => f s (b.1, b.2.1, vx, b.2.2)) dt (z.1, z.2.1, z.2.2.2) z.2.2.1

/-- `m_advec_vy`, `src/geometryXYVxVy/vlasov/splitvlasovsolver.cpp:27`: one line for each `(x, y, vx)`. -/
noncomputable def advecVy4 (me : ℝ) (mass charge : Sp → ℝ) (f : Dist Sp Z4) (e : ℝ × ℝ → ℝ) (dt : ℝ) : Dist Sp Z4 :=
  fun s z => bslV exact id (fun b : ℝ × ℝ × ℝ => e (b.1, b.2.1)) (charge s) me (mass s) (fun b vy => f s (b.1, b.2.1, b.2.2, vy)) dt (z.1, z.2.1, z.2.2.1) z.2.2.2

/-- The 2D2V run, `src/geometryXYVxVy/time_integration/predcorr.cpp:21-110` with `src/geometryXYVxVy/vlasov/splitvlasovsolver.cpp:19-33`. -/
noncomputable def runXYVxVy {Φ : Type*} (me : ℝ) (mass charge : Sp → ℝ) (poisson : Dist Sp Z4 → Φ × ((ℝ × ℝ → ℝ) × (ℝ × ℝ → ℝ))) (f : Dist Sp Z4) (dt : ℝ) (steps : ℕ) :
    Dist Sp Z4 × List (Event (Dist Sp Z4) Φ) :=
  predCorrXYVxVy (splitVlasovXYVxVy (advecX4 me mass) (advecY4 me mass) (advecVx4 me mass charge) (advecVy4 me mass charge)) poisson f dt steps

end Verif.IdealVlasov
