import Verif.Model.Moments
import Verif.Model.Fft
import Verif.Model.Fem

/-!
# Quasi-neutrality solvers

Model of `src/geometryXVx/poisson/qnsolver.cpp`, `src/geometryXYVxVy/poisson/qnsolver.cpp` and of the null solvers
(`src/geometryXVx/poisson/nullqnsolver.cpp`, `src/geometryXYVxVy/poisson/nullqnsolver.cpp`), composed with the charge density calculators
of `Verif.Moments` and the Poisson solvers of `Verif.Fft` and `Verif.Fem`.

The distribution function is a function of the species, the point of the spatial grid and the number of the velocity point.
-/
namespace Verif.QnSolver

open Verif.Moments

variable {R X Phi E : Type}

/-- `QNSolver::operator()` (src/geometryXVx/poisson/qnsolver.cpp 19-35, src/geometryXYVxVy/poisson/qnsolver.cpp 21-38): the assertion on the
index ranges (`none` if it fails), the charge density, then the Poisson solver, whose outputs are the potential and the electric field. -/
def qn [DecidableEq R] (rangePhi rangeF : R) (computeRho : (ℕ → X → ℕ → ℝ) → X → ℝ) (solvePoisson : (X → ℝ) → Phi × E)
    (f : ℕ → X → ℕ → ℝ) : Option (Phi × E) :=
  if rangePhi = rangeF then some (solvePoisson (computeRho f)) else none

/-- `NullQNSolver::operator()` (src/geometryXVx/poisson/nullqnsolver.cpp 5-10, src/geometryXYVxVy/poisson/nullqnsolver.cpp 5-7): the fields
given by the caller are left as they are. -/
def nullQn (phi : Phi) (e : E) (_f : ℕ → X → ℕ → ℝ) : Phi × E := (phi, e)

/-- The 1D1V charge density at every point (`ddc::parallel_for_each` over the spatial points in
src/geometryXVx/poisson/chargedensitycalculator.cpp 9-43). -/
noncomputable def rhoXVx (nkin : ℕ) (charge : ℕ → ℝ) (nv : ℕ) (w : ℕ → ℝ) (f : ℕ → X → ℕ → ℝ) (x : X) : ℝ :=
  chargeDensityXVx nkin charge nv w fun s k => f s x k

/-- The 2D2V charge density at every point (src/geometryXYVxVy/poisson/chargedensitycalculator.cpp 12-48). -/
noncomputable def rhoXYVxVy (nsp nkin : ℕ) (charge : ℕ → ℝ) (nv : ℕ) (w : ℕ → ℝ) (f : ℕ → X → ℕ → ℝ) (x : X) : ℝ :=
  chargeDensityXYVxVy nsp nkin charge nv w fun s k => f s x k

/-- The parallel 2D2V charge density at every point (src/geometryXYVxVy/poisson/mpichargedensitycalculator.cpp 19-41). -/
noncomputable def rhoMpi (P : ℕ) (off len : ℕ → ℕ) (nsp nkin : ℕ) (charge : ℕ → ℝ) (w : ℕ → ℝ) (f : ℕ → X → ℕ → ℝ) (x : X) : ℝ :=
  mpiChargeDensity P off len nsp nkin charge w fun s k => f s x k

/-- The FFT Poisson solver as used by the quasi-neutrality solvers (`m_solve_poisson(phi, E, rho)`, src/geometryXVx/poisson/qnsolver.cpp 32,
src/geometryXYVxVy/poisson/qnsolver.cpp 35). -/
noncomputable def fftSolver {D : ℕ} (N : Fin (D + 1) → ℕ) [∀ i, NeZero (N i)] (h : Fin (D + 1) → ℝ)
    (rho : Fft.Grid N → ℝ) : (Fft.Grid N → ℝ) × (Fin (D + 1) → Fft.Grid N → ℝ) :=
  (Fft.potential N h rho, Fft.electricField N h rho)

/-- The periodic finite element solver (`m_solve_poisson(phi, E, rho)`, src/geometryXVx/poisson/qnsolver.cpp 32): `splineAt rho p` is the spline
of the values `rho` on the grid at the point `p` (fem_1d_poisson_solver.hpp 435-454); potential and field at any point. -/
noncomputable def femPeriodic (solve : ℕ → Fem.Mat → (ℕ → ℝ) → ℕ → ℝ) (splineAt : (X → ℝ) → Fem.Pt → ℝ) (d n : ℕ) (points : List Fem.Pt)
    (m : ℕ → ℝ) (rho : X → ℝ) : (Fem.Pt → ℝ) × (Fem.Pt → ℝ) :=
  let coef := Fem.solvePeriodic solve d n points m (splineAt rho)
  (fun p => Fem.evalSpline d p coef, fun p => Fem.evalField d p coef)

/-- The non-periodic finite element solver (src/geometryXVx/poisson/qnsolver.cpp 32). -/
noncomputable def femNonPeriodic (solve : ℕ → Fem.Mat → (ℕ → ℝ) → ℕ → ℝ) (splineAt : (X → ℝ) → Fem.Pt → ℝ) (d n : ℕ)
    (points : List Fem.Pt) (rho : X → ℝ) : (Fem.Pt → ℝ) × (Fem.Pt → ℝ) :=
  let coef := Fem.solveNonPeriodic solve d n points (splineAt rho)
  (fun p => Fem.evalSpline d p coef, fun p => Fem.evalField d p coef)

end Verif.QnSolver
