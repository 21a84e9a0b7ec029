import Verif.Model.Advection
import Verif.Model.LagrangeEvaluator
import Verif.Model.Splitting
import Verif.Model.TimeLoops
import Verif.Model.QnSolver

/-!
# The periodic Vlasov-Poisson programs

Composition of the models of the operators as in `simulations/geometryXVx/vlasovpoisson_xvx_fft.cpp` and `simulations/geometryXYVxVy/landau/landau4d_fft.cpp`
(the distributed solvers of the latter equal the serial ones: properties C45 and C87).

The points of a periodic grid with `N` points are `ZMod N`; species and velocity points are numbered from 0.
-/

namespace Verif.Simulation
open Verif.Advection Verif.Splitting Verif.TimeLoops

/-- The coordinates of a uniform periodic grid (`ddc::coordinate(ix)`, `src/advection/bsl_advection_x.hpp:120`). -/
def periodicCoord (N : ℕ) (x0 dx : ℝ) (i : ZMod N) : ℝ := x0 + i.val * dx

/-- The uniform periodic Lagrange interpolator on a line: `IdentityInterpolationBuilder` (`src/interpolation/identity_interpolation_builder.hpp:88-121`) and
`LagrangeEvaluator` (`src/interpolation/lagrange_evaluator.hpp:452-621`) as the builder and evaluator of an advection (`src/advection/bsl_advection_x.hpp:123-127`).
Accesses outside the index ranges are given the value 0 (C19 shows that there is none with more than `D` points). -/
noncomputable def lagrangeLine (eps : ℝ) (D N : ℕ) (x0 dx : ℝ) : Interp (ZMod N) (ℕ → ℝ) where
  build v := fun k => (LagrangeEvaluator.buildCoeffs true D N (fun k : ℕ => v (k : ZMod N)) k).getD 0
  eval x c := (LagrangeEvaluator.evalU true eps D N x0 dx (fun _ => 0) (fun _ => 0) c x).getD 0

/-- A spline interpolator (`src/interpolation/spline_interpolation.hpp:94-134`, builders and evaluators of DDC): the coefficients are given by `solve`, the spline is the combination of the
basis functions `phi j` with these coefficients. -/
def splineLine {I : Type*} [Fintype I] (solve : (I → ℝ) → I → ℝ) (phi : I → ℝ → ℝ) : Interp I (I → ℝ) where
  build := solve
  eval x c := ∑ j, c j * phi j x

/-- The data of the species and of the velocity grid (`src/speciesinfo/species_info.hpp`; the quadrature coefficients of `vlasovpoisson_xvx_fft.cpp:112-116`). -/
structure Plasma (nv : ℕ) where
  nkin : ℕ
  charge : ℕ → ℝ
  mass : ℕ → ℝ
  massElec : ℝ
  vel : Fin nv → ℝ
  w : ℕ → ℝ

/-- The values on the velocity grid as a function of the number of the point (`src/geometryXVx/poisson/chargedensitycalculator.cpp:19-25`). -/
def numbered {nv : ℕ} {X : Type*} (f : ℕ → X → Fin nv → ℝ) : ℕ → X → ℕ → ℝ := fun s x k => if h : k < nv then f s x ⟨k, h⟩ else 0

section xvx
variable {X C C' Φ : Type*} {nv : ℕ}

/-- The advection in space: the loop over the species of `BslAdvectionSpatial::operator()`, `src/advection/bsl_advection_x.hpp:105-128`. -/
noncomputable def advX (P : Plasma nv) (fi : Interp X C) (xCoord : X → ℝ) (f : ℕ → X → Fin nv → ℝ) (dt : ℝ) : ℕ → X → Fin nv → ℝ :=
  fun s x v => bslX fi xCoord P.vel P.massElec (P.mass s) (fun v x => f s x v) dt v x

/-- The advection in velocity: the loop over the species of `BslAdvectionVelocity::operator()`, `src/advection/bsl_advection_vx.hpp:106-134`. -/
noncomputable def advV (P : Plasma nv) (gi : Interp (Fin nv) C') (f : ℕ → X → Fin nv → ℝ) (e : X → ℝ) (dt : ℝ) : ℕ → X → Fin nv → ℝ :=
  fun s x v => bslV gi P.vel e (P.charge s) P.massElec (P.mass s) (f s) dt x v

/-- `SplitVlasovSolver vlasov(advection_x, advection_vx)`, `simulations/geometryXVx/vlasovpoisson_xvx_fft.cpp:106-110`. -/
noncomputable def vlasovXVx (P : Plasma nv) (fi : Interp X C) (xCoord : X → ℝ) (gi : Interp (Fin nv) C') (f : ℕ → X → Fin nv → ℝ) (e : X → ℝ) (dt : ℝ) :
    ℕ → X → Fin nv → ℝ :=
  splitVlasovXVx (advX P fi xCoord) (advV P gi) f e dt

/-- `QNSolver poisson(fft_poisson_solver, rhs)`, `simulations/geometryXVx/vlasovpoisson_xvx_fft.cpp:112-118`, for a Poisson solver giving the potential and the electric field. -/
noncomputable def poissonXVx {X Φ : Type} (P : Plasma nv) (solver : (X → ℝ) → Φ × (X → ℝ)) (f : ℕ → X → Fin nv → ℝ) : Φ × (X → ℝ) :=
  solver (QnSolver.rhoXVx P.nkin P.charge nv P.w (numbered f))

/-- `predcorr(allfdistribu, time_start, deltat, nbiter)`, `simulations/geometryXVx/vlasovpoisson_xvx_fft.cpp:120,139`. -/
noncomputable def simXVx {X Φ : Type} (P : Plasma nv) (fi : Interp X C) (xCoord : X → ℝ) (gi : Interp (Fin nv) C') (solver : (X → ℝ) → Φ × (X → ℝ))
    (f : ℕ → X → Fin nv → ℝ) (timeStart dt : ℝ) (nbiter : ℕ) : (ℕ → X → Fin nv → ℝ) × List (Event (ℕ → X → Fin nv → ℝ) Φ) :=
  predCorrXVx (vlasovXVx P fi xCoord gi) (poissonXVx P solver) f timeStart dt nbiter

/-- `FFTPoissonSolver<IdxRangeX>` on the periodic line, `simulations/geometryXVx/vlasovpoisson_xvx_fft.cpp:117`. -/
noncomputable def fft1 (N : ℕ) [NeZero N] (h : ℝ) (rho : ZMod N → ℝ) : (ZMod N → ℝ) × (ZMod N → ℝ) :=
  let r := QnSolver.fftSolver (fun _ : Fin 1 => N) (fun _ => h) fun x => rho (x 0)
  (fun x => r.1 fun _ => x, fun x => r.2 0 fun _ => x)

end xvx

section xyvxvy
variable {nvx nvy : ℕ}

/-- The data of the species and of the velocity grids in 2D2V (`simulations/geometryXYVxVy/landau/landau4d_fft.cpp:62-142`). -/
structure Plasma2 (nvx nvy : ℕ) where
  nsp : ℕ
  nkin : ℕ
  charge : ℕ → ℝ
  mass : ℕ → ℝ
  massElec : ℝ
  velX : Fin nvx → ℝ
  velY : Fin nvy → ℝ
  w : ℕ → ℝ

/-- One line of `BslAdvectionSpatial::operator()`, `src/advection/bsl_advection_x.hpp:105-128`. -/
noncomputable def lineX {X C : Type*} (massElec : ℝ) (mass : ℕ → ℝ) {nv : ℕ} (vel : Fin nv → ℝ) (fi : Interp X C) (xCoord : X → ℝ) (s : ℕ) (v : Fin nv)
    (line : X → ℝ) (dt : ℝ) : X → ℝ :=
  bslX fi xCoord vel massElec (mass s) (fun _ => line) dt v

/-- One line of `BslAdvectionVelocity::operator()`, `src/advection/bsl_advection_vx.hpp:106-134`. -/
noncomputable def lineV {C : Type*} (massElec : ℝ) (mass charge : ℕ → ℝ) {nv : ℕ} (vel : Fin nv → ℝ) (gi : Interp (Fin nv) C) (s : ℕ) (e : ℝ) (line : Fin nv → ℝ) (dt : ℝ) :
    Fin nv → ℝ :=
  bslV gi vel (fun _ : Unit => e) (charge s) massElec (mass s) (fun _ => line) dt ()

/-- The interpolators of the four directions and the coordinates of the points in space, `simulations/geometryXYVxVy/landau/landau4d_fft.cpp:121-124`. -/
structure Interps2 (X Y : Type*) (nvx nvy : ℕ) (CX CY CVX CVY : Type*) where
  x : Interp X CX
  y : Interp Y CY
  vx : Interp (Fin nvx) CVX
  vy : Interp (Fin nvy) CVY
  xCoord : X → ℝ
  yCoord : Y → ℝ

/-- The split Vlasov solver of `simulations/geometryXYVxVy/landau/landau4d_fft.cpp:121-127`. -/
noncomputable def vlasov2 {X Y CX CY CVX CVY : Type*} (P : Plasma2 nvx nvy) (ip : Interps2 X Y nvx nvy CX CY CVX CVY)
    (f : FieldV ℕ X Y (Fin nvx × Fin nvy)) (e : (X × Y → ℝ) × (X × Y → ℝ)) (dt : ℝ) : FieldV ℕ X Y (Fin nvx × Fin nvy) :=
  serialStep (lineX P.massElec P.mass P.velX ip.x ip.xCoord) (lineX P.massElec P.mass P.velY ip.y ip.yCoord)
    (lineV P.massElec P.mass P.charge P.velX ip.vx) (lineV P.massElec P.mass P.charge P.velY ip.vy) f e dt

/-- The values as a function of the number of the velocity point (`src/geometryXYVxVy/poisson/chargedensitycalculator.cpp:21-34`). -/
def numbered2 {X Y : Type*} (f : FieldV ℕ X Y (Fin nvx × Fin nvy)) : ℕ → X × Y → ℕ → ℝ :=
  fun s p k => if h : k < nvx * nvy then f s p.1 p.2 (finProdFinEquiv.symm ⟨k, h⟩) else 0

/-- The quasi-neutrality solver of `simulations/geometryXYVxVy/landau/landau4d_fft.cpp:129-142`. -/
noncomputable def poisson2 {X Y Φ : Type} (P : Plasma2 nvx nvy) (solver : (X × Y → ℝ) → Φ × ((X × Y → ℝ) × (X × Y → ℝ))) (f : FieldV ℕ X Y (Fin nvx × Fin nvy)) :
    Φ × ((X × Y → ℝ) × (X × Y → ℝ)) :=
  solver (QnSolver.rhoXYVxVy P.nsp P.nkin P.charge (nvx * nvy) P.w (numbered2 f))

/-- `predcorr(allfdistribu, deltat, nbiter)`, `simulations/geometryXYVxVy/landau/landau4d_fft.cpp:145,180`. -/
noncomputable def sim2 {X Y Φ : Type} {CX CY CVX CVY : Type*} (P : Plasma2 nvx nvy) (ip : Interps2 X Y nvx nvy CX CY CVX CVY)
    (solver : (X × Y → ℝ) → Φ × ((X × Y → ℝ) × (X × Y → ℝ))) (f : FieldV ℕ X Y (Fin nvx × Fin nvy)) (dt : ℝ) (nbiter : ℕ) :
    FieldV ℕ X Y (Fin nvx × Fin nvy) × List (Event (FieldV ℕ X Y (Fin nvx × Fin nvy)) Φ) :=
  predCorrXYVxVy (vlasov2 P ip) (poisson2 P solver) f dt nbiter

/-- The pair of indices as a multi-index of the Fourier solver. Used in the model of `simulations/geometryXYVxVy/landau/landau4d_fft.cpp:139`. -/
def pt {N : Fin 2 → ℕ} (p : ZMod (N 0) × ZMod (N 1)) : Fft.Grid N := Fin.cases p.1 fun i => Fin.cases p.2 (fun j => j.elim0) i

/-- `FFTPoissonSolver<IdxRangeXY>`, `simulations/geometryXYVxVy/landau/landau4d_fft.cpp:139`. -/
noncomputable def fft2 (N : Fin 2 → ℕ) [∀ i, NeZero (N i)] (h : Fin 2 → ℝ) (rho : ZMod (N 0) × ZMod (N 1) → ℝ) :
    (ZMod (N 0) × ZMod (N 1) → ℝ) × ((ZMod (N 0) × ZMod (N 1) → ℝ) × (ZMod (N 0) × ZMod (N 1) → ℝ)) :=
  let r := QnSolver.fftSolver N h fun x => rho (x 0, x 1)
  (fun p => r.1 (pt p), (fun p => r.2 0 (pt p), fun p => r.2 1 (pt p)))

end xyvxvy

end Verif.Simulation
