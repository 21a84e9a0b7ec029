import Verif.Model.Initial
import Verif.Model.TimeLoops

/-!
# The data flow of the polar main programs

`simulations/geometryRTheta/diocotron/diocotron.cpp` and `simulations/geometryRTheta/vortex_merger/vortex_merger.cpp`, from the initialisation to the call of the
predictor-corrector. A grid point is an element of `I`; a memory allocation that was not written holds an arbitrary value (`DFieldMem` does not initialise its memory).
The Poisson solver (spline builder, right-hand side and solver together) is a function from densities to potentials. Simplification: `double` is `ℝ`.
-/

namespace Verif.PolarDrivers
open Verif.Initial

variable {I : Type*}

/-- The observable effects of the main programs before the time loop: the density given to the predictor-corrector and the two fields saved by the event `initialisation`.
`simulations/geometryRTheta/diocotron/diocotron.cpp:293-305`. -/
structure Start (I : Type*) where
  density : I → ℝ
  densityEq : I → ℝ
  phiEq : I → ℝ

/-- `simulations/geometryRTheta/diocotron/diocotron.cpp:228-235,271-305`: `rMin` and `rMax` are the coordinates of the ends of the radial mesh, `coord i` the coordinates of the grid point. -/
noncomputable def diocotronMain (rMin rMax R1 R2 Q : ℝ) (l : ℕ) (eps : ℝ) (coord : I → ℝ × ℝ) (poisson : (I → ℝ) → I → ℝ) : Start I :=
  let exactRho : Diocotron := ⟨rMin, R1, R2, rMax, Q, l, eps⟩
  let rhoHost := fun i => exactRho.initialisation (coord i).1 (coord i).2
  let rhoEqHost := fun i => exactRho.equilibrium (coord i).1 (coord i).2
  let rhoEq := rhoEqHost
  let phiEq := poisson rhoEq
  let phiEqHost := phiEq
  ⟨rhoHost, rhoEqHost, phiEqHost⟩

/-- Parameters of the perturbation, `simulations/geometryRTheta/vortex_merger/vortex_merger.cpp:180-185`. -/
structure Perturb where
  eps : ℝ
  sigma : ℝ
  x1 : ℝ
  y1 : ℝ
  x2 : ℝ
  y2 : ℝ

/-- `simulations/geometryRTheta/vortex_merger/vortex_merger.cpp:230-277`. `rhoEq0` is the equilibrium computed by `set_equilibrium` (property C67), `phys i` the physical coordinates of the grid
point, `garbage` the content of the device allocation `rho_eq_alloc` of line 255, which is never written: line 256 copies to `rho_alloc_host` from `rho_eq_alloc_host`. -/
noncomputable def vortexMain (rhoEq0 : I → ℝ) (p : Perturb) (phys : I → ℝ × ℝ) (poisson : (I → ℝ) → I → ℝ) (garbage : I → ℝ) : Start I :=
  let rhoEqHost := rhoEq0
  let rhoHost := fun i => vortexMergerInit (rhoEqHost i) p.eps p.sigma p.x1 p.y1 p.x2 p.y2 (phys i).1 (phys i).2
  let rhoEq := garbage
  let rhoHost := (fun _ => rhoEqHost) rhoHost
  let phiEq := poisson rhoEq
  let phiEqHost := phiEq
  ⟨rhoHost, rhoEqHost, phiEqHost⟩

/-- The coefficients of the Poisson equation chosen by both programs: `alpha = -1`, `beta = 0`.
`simulations/geometryRTheta/vortex_merger/vortex_merger.cpp:156-163`, `simulations/geometryRTheta/diocotron/diocotron.cpp:175-188`. -/
def poissonCoeffs : ℝ × ℝ := (-1, 0)

/-- Start of the Cartesian guiding-centre program: the density, the equilibrium and the potential of the density.
`simulations/geometryXY/guiding_centre/guiding_centre.cpp:77-79,113-139`. The wave number is `2π` over the length of the domain. -/
noncomputable def guidingCentreMain (eps length : ℝ) (coord : I → ℝ × ℝ) (poisson : (I → ℝ) → I → ℝ) : Start I :=
  let k := 2 * Real.pi / length
  let rho := fun i => (kelvinHelmholtz eps k (coord i).1 (coord i).2).1
  let rhoEq := fun i => (kelvinHelmholtz eps k (coord i).1 (coord i).2).2
  ⟨rho, rhoEq, poisson rho⟩

end Verif.PolarDrivers
