import Verif.Model.Quadrature

/-!
# Charge density (src/geometryXVx/poisson, src/geometryXYVxVy/poisson) and fluid moments (src/geometryXVx/utils)

`double` is `ℝ`.  Everything is at one fixed position of space; the velocity grid (1D or 2D, the 2D one enumerated) is
`0 .. nv-1` with quadrature coefficients `w`.  Species are `0 .. nsp-1`; the distribution is defined on the kinetic species
`0 .. nkin-1`, which come first.
-/

namespace Verif.Moments

/-- Integrand, `src/geometryXVx/poisson/chargedensitycalculator.cpp:19-25`: loop over kinetic species. -/
noncomputable def integrand (nkin : ℕ) (charge : ℕ → ℝ) (f : ℕ → ℕ → ℝ) (k : ℕ) : ℝ :=
  (List.range nkin).foldl (fun sum s => sum + charge s * f s k) 0

/-- `ChargeDensityCalculator::operator()` of the 1D1V code, `chargedensitycalculator.cpp:9-43`. Both `last_kin_species`
(line 27) and `last_species` (line 28) are the last kinetic species. -/
noncomputable def chargeDensityXVx (nkin : ℕ) (charge : ℕ → ℝ) (nv : ℕ) (w : ℕ → ℝ) (f : ℕ → ℕ → ℝ) : ℝ :=
  let rho := Quadrature.apply w nv (integrand nkin charge f)
  let lastKin := nkin - 1
  let last := nkin - 1
  if lastKin ≠ last then rho + charge last else rho

/-- `ChargeDensityCalculator::operator()` of the 2D2V code,
`src/geometryXYVxVy/poisson/chargedensitycalculator.cpp:12-48`; `last_species` (line 36) is the last of all species. -/
noncomputable def chargeDensityXYVxVy (nsp nkin : ℕ) (charge : ℕ → ℝ) (nv : ℕ) (w : ℕ → ℝ) (f : ℕ → ℕ → ℝ) : ℝ :=
  let rho := Quadrature.apply w nv (integrand nkin charge f)
  let lastKin := nkin - 1
  let last := nsp - 1
  if lastKin ≠ last then rho + charge last else rho

/-- `MpiChargeDensityCalculator::operator()`, `mpichargedensitycalculator.cpp:19-41`, on every one of `P` ranks: rank `r` holds the
velocity points `off r .. off r + len r - 1` of the global grid, runs the local calculator and the results are summed. -/
noncomputable def mpiChargeDensity (P : ℕ) (off len : ℕ → ℕ) (nsp nkin : ℕ) (charge : ℕ → ℝ) (w : ℕ → ℝ)
    (f : ℕ → ℕ → ℝ) : ℝ :=
  ∑ r ∈ Finset.range P,
    chargeDensityXYVxVy nsp nkin charge (len r) (fun k => w (off r + k)) (fun s k => f s (off r + k))

/-! ## Fluid moments -/

/-- Density, `src/geometryXVx/utils/fluid_moments.cpp:19-36` (both overloads). -/
noncomputable def fluidDensity (nv : ℕ) (w f : ℕ → ℝ) : ℝ := Quadrature.apply w nv f

/-- Mean velocity, scalar overload, `fluid_moments.cpp:41-61`. -/
noncomputable def fluidVelocity (nv : ℕ) (w v f : ℕ → ℝ) (density : ℝ) : ℝ :=
  Quadrature.apply w nv (fun k => v k * f k) / density

/-- Mean velocity, field overload, `fluid_moments.cpp:65-80`. -/
noncomputable def fluidVelocityField (nv : ℕ) (w v f : ℕ → ℝ) (density : ℝ) : ℝ :=
  Quadrature.apply w nv (fun k => v k * f k / density)

/-- Temperature, scalar overload, `fluid_moments.cpp:85-100`. -/
noncomputable def fluidTemperature (nv : ℕ) (w v f : ℕ → ℝ) (density meanVelocity : ℝ) : ℝ :=
  Quadrature.apply w nv (fun k =>
    let coeff := v k - meanVelocity
    coeff * coeff * f k) / density

/-- Temperature, field overload, `fluid_moments.cpp:104-120`. -/
noncomputable def fluidTemperatureField (nv : ℕ) (w v f : ℕ → ℝ) (density meanVelocity : ℝ) : ℝ :=
  Quadrature.apply w nv (fun k =>
    let coeff := v k - meanVelocity
    coeff * coeff * f k / density)

end Verif.Moments
