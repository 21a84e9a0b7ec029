import Verif.Model.Tridiag
import Verif.Model.Quadrature
import Verif.Model.Timestepper
import Mathlib.Analysis.SpecialFunctions.Pow.Real
import Mathlib.Analysis.SpecialFunctions.Gaussian.GaussianIntegral
import Mathlib.MeasureTheory.Integral.IntervalIntegral.Basic

/-!
# Collision operators of the 1D1V code (src/geometryXVx/rhs)

`double` is `ℝ`.  Fields over species and space are functions of the species at one (fixed, arbitrary) spatial position:
every kernel of these files works at one spatial position at a time.  `Sp` is the type of species, `e` the electron and
`i` the ion.  `Kokkos::pow(x, 1.5)` is the real power.  `Kokkos::erf` is the error function defined by its integral.
-/

namespace Verif.Collisions

open MeasureTheory

variable {Sp : Type*}

/-- `find_ion`, `src/geometryXVx/rhs/collisions_utils.cpp:19-29`: the last species of positive charge;
`none` is the exception thrown by `std::optional::value`. Species are positions in the list of charges. -/
noncomputable def findIon (charge : List ℝ) : Option ℕ :=
  (List.range charge.length).foldl (fun o k => if 0 < charge.getD k 0 then some k else o) none

/-- Result of the constructors of the collision operators. Used in the model of `collisions_inter.cpp:19-24`. -/
inductive Ctor | ok | runtimeError | invalidArgument
  deriving DecidableEq, Repr

/-- Validity checks of `CollisionsInter`, `collisions_inter.cpp:19-24`, and of `CollisionsIntra`,
`collisions_intra.cpp:110-115`. -/
noncomputable def ctorCheck (nspecies : ℕ) (nustar0 : ℝ) : Ctor :=
  if nspecies ≠ 2 then .runtimeError else if nustar0 = 0 then .invalidArgument else .ok

/-- `compute_nustar_profile`, `collisions_utils.cpp:38-52`, at one position. -/
noncomputable def nustarProfile (mass charge : Sp → ℝ) (e : Sp) (Lx nustar0 : ℝ) (s : Sp) : ℝ :=
  let coeff := Real.sqrt (mass e / mass s) * charge s ^ 4 / Lx
  coeff * nustar0

/-- `compute_collfreq`, `collisions_utils.cpp:57-72`. -/
noncomputable def collfreq (nustar density temperature : Sp → ℝ) (s : Sp) : ℝ :=
  nustar s * density s / temperature s ^ (1.5 : ℝ)

/-- `collfreq_ab(ielec(), ix)`, `collisions_utils.cpp:84-104`. -/
noncomputable def collfreqAbElec (mass charge nustar density temperature : Sp → ℝ) (e i : Sp) : ℝ :=
  let chargeRatio := charge i / charge e
  let meOnMi := mass e / mass i
  let collfreqElec := nustar e * density e / temperature e ^ (1.5 : ℝ)
  Real.sqrt 2 * chargeRatio * chargeRatio * collfreqElec * density i / density e * (1 + meOnMi)
    / (1 + meOnMi * temperature i / temperature e) ^ (1.5 : ℝ)

/-- `collfreq_ab(iion, ix)`, `collisions_utils.cpp:84-116`. -/
noncomputable def collfreqAbIon (mass charge nustar density temperature : Sp → ℝ) (e i : Sp) : ℝ :=
  let chargeRatio := charge i / charge e
  let meOnMi := mass e / mass i
  let collfreqIon := nustar i * density i / temperature i ^ (1.5 : ℝ)
  Real.sqrt 2 / (chargeRatio * chargeRatio) * collfreqIon * density e / density i * (1 + 1 / meOnMi)
    / (1 + 1 / meOnMi * temperature e / temperature i) ^ (1.5 : ℝ)

/-- The four outputs of `compute_momentum_energy_exchange`. Used in the model of `collisions_utils.cpp:123-159`. -/
structure Exchange where
  momElec : ℝ
  momIon : ℝ
  enElec : ℝ
  enIon : ℝ

/-- `compute_momentum_energy_exchange`, `collisions_utils.cpp:123-159`. Only `collfreq_ab(ielec(), ix)` is read. -/
noncomputable def exchange (mass : Sp → ℝ) (collfreqAbE : ℝ) (density velocity temperature : Sp → ℝ) (e i : Sp) :
    Exchange :=
  let massRatio := mass e / mass i
  let meOnMemi := mass e / (mass e + mass i)
  let re := -collfreqAbE * density e * (velocity e - Real.sqrt massRatio * velocity i)
  let ri := -Real.sqrt massRatio * re
  let qe := -3 * collfreqAbE * meOnMemi * density e * (temperature e - temperature i) - velocity e * re
  let qi := -qe - (velocity e - Real.sqrt massRatio * velocity i) * re
  { momElec := re, momIon := ri, enElec := qe, enIon := qi }

/-- Result of the loop computing the moments: density, particle flux and momentum flux. Used in the model of `collisions_inter.cpp:60-66`. -/
structure Sums where
  density : ℝ
  particleFlux : ℝ
  momentumFlux : ℝ

/-- The loop `collisions_inter.cpp:60-66` (identically `collisions_intra.cpp:294-300`), starting from zero. -/
noncomputable def momentLoop (n : ℕ) (w v f : ℕ → ℝ) : Sums :=
  (List.range n).foldl (fun s k =>
    let val := w k * f k
    { density := s.density + val
      particleFlux := s.particleFlux + val * v k
      momentumFlux := s.momentumFlux + val * v k * v k }) { density := 0, particleFlux := 0, momentumFlux := 0 }

/-- `density`, `collisions_inter.cpp:63`. -/
noncomputable def density (n : ℕ) (w v f : ℕ → ℝ) : ℝ := (momentLoop n w v f).density

/-- `fluid_velocity`, `collisions_inter.cpp:67`. -/
noncomputable def velocity (n : ℕ) (w v f : ℕ → ℝ) : ℝ :=
  (momentLoop n w v f).particleFlux / (momentLoop n w v f).density

/-- `temperature`, `collisions_inter.cpp:68-69`. -/
noncomputable def temperature (n : ℕ) (w v f : ℕ → ℝ) : ℝ :=
  ((momentLoop n w v f).momentumFlux - (momentLoop n w v f).particleFlux * velocity n w v f)
    / (momentLoop n w v f).density

/-- `fmaxwellian`, `collisions_inter.cpp:108-114`, as a function of the velocity. -/
noncomputable def maxwellian (n u T v : ℝ) : ℝ :=
  let invSqrt2piT := 1 / Real.sqrt (2 * Real.pi * T)
  n * invSqrt2piT * Real.exp (-(v - u) * (v - u) / (2 * T))

/-- `df`, `collisions_inter.cpp:126-132`, as a function of the velocity. -/
noncomputable def interDf (n u T Q R v : ℝ) : ℝ :=
  let termV := v - u
  (2 * Q * (0.5 / T * termV * termV - 0.5) + R * termV) * maxwellian n u T v / (n * T)

/-- Which of the two species a field value belongs to. Used in the model of `collisions_inter.cpp:31-134`. -/
inductive Two | elec | ion
  deriving DecidableEq, Repr

/-- `CollisionsInter::get_derivative`, `collisions_inter.cpp:31-134`, at one spatial position: `f s k` is the
distribution of species `s` at the `k`-th velocity point. -/
noncomputable def interDerivative (mass charge : Two → ℝ) (Lx nustar0 : ℝ) (n : ℕ) (w v : ℕ → ℝ)
    (f : Two → ℕ → ℝ) (s : Two) (k : ℕ) : ℝ :=
  let dens := fun s => density n w v (f s)
  let vel := fun s => velocity n w v (f s)
  let temp := fun s => temperature n w v (f s)
  let nustar := nustarProfile mass charge .elec Lx nustar0
  let ex := exchange mass (collfreqAbElec mass charge nustar dens temp .elec .ion) dens vel temp .elec .ion
  match s with
  | .elec => interDf (dens .elec) (vel .elec) (temp .elec) ex.enElec ex.momElec (v k)
  | .ion => interDf (dens .ion) (vel .ion) (temp .ion) ex.enIon ex.momIon (v k)

/-- `CollisionsInter::operator()`, `collisions_inter.cpp:137-148`: one RK2 step. -/
noncomputable def interStep (mass charge : Two → ℝ) (Lx nustar0 : ℝ) (n : ℕ) (w v : ℕ → ℝ)
    (f : Two → ℕ → ℝ) (dt : ℝ) : Two → ℕ → ℝ :=
  Timestepper.rk2 Timestepper.defaultUpdate (interDerivative mass charge Lx nustar0 n w v) f dt

/-! ## Coefficients of the intra-species operator -/

/-- `Kokkos::erf`: the error function (library function, given by its standard definition). Used in the model of `collisions_utils.hpp:66`. -/
noncomputable def erf (x : ℝ) : ℝ := 2 / Real.sqrt Real.pi * ∫ t in (0:ℝ)..x, Real.exp (-t ^ 2)

/-- `phi_prime`, `collisions_utils.hpp:58,65`. -/
noncomputable def phiPrime (x : ℝ) : ℝ := 2 / Real.sqrt Real.pi * Real.exp (-x * x)

/-- `psi`, `collisions_utils.hpp:66`. -/
noncomputable def psi (x : ℝ) : ℝ :=
  let inv := 1 / x
  (erf x - x * phiPrime x) * 0.5 * inv * inv

/-- `AD`, `collisions_utils.hpp:59-62`. -/
noncomputable def coefAD (T nu : ℝ) : ℝ := 3 * Real.sqrt (2 * Real.pi) / 4 * T * nu

/-- `compute_Dcoll`, `collisions_utils.hpp:39-76`, at velocity `v`. -/
noncomputable def dcoll (T nu v : ℝ) : ℝ :=
  let vT := Real.sqrt (2 * T)
  let vNorm := |v| / vT
  let tol := 1e-15
  if tol < vNorm then coefAD T nu * (erf vNorm - psi vNorm) * (1 / vNorm)
  else Real.sqrt 2 * T * nu

/-- `compute_dvDcoll`, `collisions_utils.hpp:85-128`, at velocity `v`. -/
noncomputable def dvDcoll (T nu v : ℝ) : ℝ :=
  let vT := Real.sqrt (2 * T)
  let vNorm := |v| / vT
  let tol := 1e-15
  if tol < vNorm then
    let sign := v / |v|
    sign * coefAD T nu / Real.sqrt (2 * T) * (1 / vNorm) * (1 / vNorm) * (3 * psi vNorm - erf vNorm)
  else 0

/-- The five integrals of `compute_Vcoll_Tcoll`, `collisions_utils.hpp:200-205` and `234-240`, for one species and
position; `D` and `dvD` are given at the points of the (unghosted) velocity grid, i.e. at ghosted index `uid + 1`. -/
structure Means where
  i0 : ℝ
  i1 : ℝ
  i2 : ℝ
  i3 : ℝ
  i4 : ℝ

/-- Loop `collisions_utils.hpp:234-240`. -/
noncomputable def meansLoop (n : ℕ) (w v f D dvD : ℕ → ℝ) : Means :=
  (List.range n).foldl (fun s k =>
    let g0 := D k * f k
    let g1 := g0 * v k
    let g2 := g1 * v k
    let g3 := dvD k * f k
    let g4 := g0 + g3 * v k
    { i0 := s.i0 + w k * g0, i1 := s.i1 + w k * g1, i2 := s.i2 + w k * g2, i3 := s.i3 + w k * g3,
      i4 := s.i4 + w k * g4 }) { i0 := 0, i1 := 0, i2 := 0, i3 := 0, i4 := 0 }

/-- `Vcoll`, `collisions_utils.hpp:242-245`. -/
noncomputable def vcoll (m : Means) : ℝ :=
  1 / (m.i0 * m.i4 - m.i1 * m.i3) * (m.i1 * m.i4 - m.i2 * m.i3)

/-- `Tcoll`, `collisions_utils.hpp:242-247`. -/
noncomputable def tcoll (m : Means) : ℝ :=
  1 / (m.i0 * m.i4 - m.i1 * m.i3) * (m.i0 * m.i2 - m.i1 * m.i1)

/-- `compute_Nucoll`, `collisions_utils.hpp:258-276`. -/
noncomputable def nucoll (D v Vc Tc : ℝ) : ℝ := -D * (v - Vc) / Tc

/-! ## The intra-species step -/

/-- Ghosted points for a non-uniform grid of `n` points, `collisions_intra.cpp:36-50` (`n + 2` of them). -/
noncomputable def ghosted (v : ℕ → ℝ) (n : ℕ) (k : ℕ) : ℝ :=
  if k = 0 then v 0 - (v 1 - v 0)
  else if k = n + 1 then v (n - 1) + (v (n - 1) - v (n - 2))
  else v (k - 1)

/-- Ghosted staggered points for a non-uniform grid, `collisions_intra.cpp:53-61` (`n + 1` of them). -/
noncomputable def staggered (v : ℕ → ℝ) (n : ℕ) (k : ℕ) : ℝ :=
  if k = 0 then v 0 - (v 1 - v 0) / 2
  else if k = n then v (n - 1) + (v (n - 1) - v (n - 2)) / 2
  else (v (k - 1) + v k) / 2

/-- `DiscreteSpace::init(a, b, npoints)` of a uniform sampling (DDC): equally spaced points from `a` to `b`. Used in the model of `collisions_intra.cpp:77-84`. -/
noncomputable def uniformInit (a b : ℝ) (npoints k : ℕ) : ℝ := a + k * ((b - a) / ((npoints : ℝ) - 1))

/-- Ghosted points for a uniform grid, `collisions_intra.cpp:77-84`. -/
noncomputable def ghostedUniform (v0 vN step : ℝ) (n k : ℕ) : ℝ :=
  let ncells := n - 1
  uniformInit (v0 - step) (vN + step) (ncells + 3) k

/-- Ghosted staggered points for a uniform grid, `collisions_intra.cpp:77-89`. -/
noncomputable def staggeredUniform (v0 vN step : ℝ) (n k : ℕ) : ℝ :=
  let ncells := n - 1
  uniformInit (v0 - step / 2) (vN + step / 2) (ncells + 2) k

/-- The entries written by `compute_matrix_coeff`. Used in the model of `collisions_intra.cpp:141-198`. -/
structure Row where
  a : ℝ
  b : ℝ
  c : ℝ

/-- `compute_matrix_coeff`, `collisions_intra.cpp:141-198`, at velocity index `k`: `vg`, `D`, `Nu` on the ghosted points,
`Ds` on the staggered points. -/
noncomputable def matrixCoeff (vg D Nu Ds : ℕ → ℝ) (dt : ℝ) (k : ℕ) : Row :=
  let dv := vg (k + 2) - vg (k + 1)
  let delta := dv / (vg (k + 1) - vg k)
  let alpha := dt / (dv * dv * (1 + delta))
  let beta := dt / (2 * dv * (1 + delta))
  let coeffa := alpha * (Ds k * delta * delta * delta - D (k + 1) * delta * delta * (delta - 1))
    + beta * Nu k * delta * delta
  let coeffb := -alpha * (-Ds (k + 1) - Ds k * delta * delta * delta
      + D (k + 1) * (delta - 1) * (delta * delta - 1))
    + beta * Nu (k + 1) * (delta * delta - 1)
  let coeffc := alpha * (Ds (k + 1) + D (k + 1) * (delta - 1)) - beta * Nu (k + 2)
  { a := -coeffa, b := 1 + coeffb, c := -coeffc }

/-- `compute_rhs_vector`, `collisions_intra.cpp:222-259`, at velocity index `k` of a grid of `n` points. -/
noncomputable def rhsVector (n : ℕ) (A B C f : ℕ → ℝ) (fthresh : ℝ) (k : ℕ) : ℝ :=
  if k = 0 then (2 - B k) * f k + (-C k) * f (k + 1) - 2 * A k * fthresh
  else if k = n - 1 then (2 - B k) * f k + (-A k) * f (k - 1) - 2 * C k * fthresh
  else -A k * f (k - 1) + (2 - B k) * f k - C k * f (k + 1)

/-- The linear solve of `CollisionsIntra::operator()`, `collisions_intra.cpp:364-397`, for one species and position (one batch
of `MatrixBatchTridiag`), given the coefficients. -/
noncomputable def intraStep (n : ℕ) (vg D Nu Ds : ℕ → ℝ) (fthresh dt : ℝ) (f : ℕ → ℝ) : ℕ → ℝ :=
  let row := matrixCoeff vg D Nu Ds dt
  let A := fun k => (row k).a
  let B := fun k => (row k).b
  let C := fun k => (row k).c
  let R := rhsVector n A B C f fthresh
  Tridiag.solveOne n A B C R

end Verif.Collisions

namespace Verif.Collisions

/-- The coefficients used by `CollisionsIntra::operator()`, `collisions_intra.cpp:286-355`, for one species at one position:
moments, collision frequency, `Dcoll` on the ghosted and staggered points, `Vcoll`, `Tcoll` and `Nucoll`. -/
structure Coeffs where
  D : ℕ → ℝ
  dvD : ℕ → ℝ
  Ds : ℕ → ℝ
  Vc : ℝ
  Tc : ℝ
  Nu : ℕ → ℝ

/-- `collisions_intra.cpp:286-355`: `vg`, `vs` are the ghosted and staggered points, `w`, `v` the quadrature weights and points
of the velocity grid, `nustar` the value of the profile. -/
noncomputable def intraCoeffs (n : ℕ) (w v vg vs : ℕ → ℝ) (nustar : ℝ) (f : ℕ → ℝ) : Coeffs :=
  let dens := density n w v f
  let temp := temperature n w v f
  let nu := collfreq (fun _ : Unit => nustar) (fun _ => dens) (fun _ => temp) ()
  let D := fun k => dcoll temp nu (vg k)
  let dvD := fun k => dvDcoll temp nu (vg k)
  let Ds := fun k => dcoll temp nu (vs k)
  let m := meansLoop n w v f (fun k => D (k + 1)) (fun k => dvD (k + 1))
  let Vc := vcoll m
  let Tc := tcoll m
  { D := D, dvD := dvD, Ds := Ds, Vc := Vc, Tc := Tc, Nu := fun k => nucoll (D k) (vg k) Vc Tc }

/-- `CollisionsIntra::operator()`, `collisions_intra.cpp:263-400`, for one species at one position of a non-uniform
velocity grid; `fthresh` is `m_fthresh`. -/
noncomputable def intraOperator (n : ℕ) (w v : ℕ → ℝ) (nustar fthresh dt : ℝ) (f : ℕ → ℝ) : ℕ → ℝ :=
  let vg := ghosted v n
  let vs := staggered v n
  let c := intraCoeffs n w v vg vs nustar f
  intraStep n vg c.D c.Nu c.Ds fthresh dt f

end Verif.Collisions
