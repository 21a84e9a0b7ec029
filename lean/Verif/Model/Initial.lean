import Mathlib.Analysis.SpecialFunctions.Trigonometric.Basic
import Mathlib.Analysis.SpecialFunctions.Sqrt
import Verif.Model.Collisions

/-!
# Initial conditions

`src/geometryXVx/initialisation`, `src/geometryXYVxVy/initialisation`, `src/geometryVparMu/initialisation`,
`src/geometryRTheta/initialisation`, `src/geometryXY/initialisation`. `double` is `ℝ`; the fields are functions of the coordinates of the grid points.
-/

namespace Verif.Initial
open Real

/-- The floor `if (fdistribu_val < 1.e-60) fdistribu_val = 1.e-60`, `src/geometryXVx/initialisation/singlemodeperturbinitialisation.cpp:46-48`,
`src/geometryXYVxVy/initialisation/singlemodeperturbinitialisation.cpp:51-53`, `src/geometryVparMu/initialisation/noperturbinitialisation.cpp:26-28`. -/
noncomputable def floorValue (v : ℝ) : ℝ := if v < 1e-60 then 1e-60 else v

/-- `perturbation_initialisation` (1D), `src/geometryXVx/initialisation/singlemodeperturbinitialisation.cpp:78-96`. -/
noncomputable def perturbation1D (mode : ℤ) (amplitude Lx x : ℝ) : ℝ :=
  let kx := mode * 2 * π / Lx
  amplitude * cos (kx * x)

/-- `SingleModePerturbInitialisation::operator()` (1D1V), `src/geometryXVx/initialisation/singlemodeperturbinitialisation.cpp:19-53`; all the arguments may depend on the
species. -/
noncomputable def singleMode1D (feq : ℝ → ℝ) (mode : ℤ) (amplitude Lx x v : ℝ) : ℝ :=
  floorValue (feq v * (1 + perturbation1D mode amplitude Lx x))

/-- `perturbation_initialisation` (2D), `src/geometryXYVxVy/initialisation/singlemodeperturbinitialisation.cpp:83-107`. -/
noncomputable def perturbation2D (mode : ℤ) (amplitude Lx Ly x y : ℝ) : ℝ :=
  let kx := mode * 2 * π / Lx
  let ky := mode * 2 * π / Ly
  amplitude * (cos (kx * x) + cos (ky * y))

/-- `SingleModePerturbInitialisation::operator()` (2D2V), `src/geometryXYVxVy/initialisation/singlemodeperturbinitialisation.cpp:20-58`. -/
noncomputable def singleMode2D (feq : ℝ → ℝ → ℝ) (mode : ℤ) (amplitude Lx Ly x y vx vy : ℝ) : ℝ :=
  floorValue (feq vx vy * (1 + perturbation2D mode amplitude Lx Ly x y))

/-- `NoPerturbInitialisation::operator()`, `src/geometryVparMu/initialisation/noperturbinitialisation.cpp:14-32`. -/
noncomputable def noPerturb (feq : ℝ → ℝ → ℝ) (vpar mu : ℝ) : ℝ := floorValue (feq vpar mu)

/-! ## Equilibria -/

/-- `BumpontailEquilibrium::compute_twomaxwellian`, `src/geometryXVx/initialisation/bumpontailequilibrium.cpp:65-91`. -/
noncomputable def bumpOnTail (eps T u v : ℝ) : ℝ :=
  let invSqrt2pi := 1 / sqrt (2 * π)
  let normF2 := invSqrt2pi / sqrt T
  let f1 := (1 - eps) * invSqrt2pi * exp (-0.5 * v * v)
  let f2 := eps * normF2 * exp (-(v - u) * (v - u) / (2 * T))
  f1 + f2

/-- `MaxwellianEquilibrium::compute_maxwellian` (2D2V), `src/geometryXYVxVy/initialisation/maxwellianequilibrium.cpp:73-96`. -/
noncomputable def maxwellian2D (n T u vx vy : ℝ) : ℝ :=
  let inv2pi := 1 / (2 * π * T)
  n * inv2pi * exp (-((vx - u) * (vx - u) + (vy - u) * (vy - u)) / (2 * T))

/-- `MaxwellianEquilibrium::compute_maxwellian` (vpar, mu), `src/geometryVparMu/initialisation/maxwellianequilibrium.cpp:74-103`. -/
noncomputable def maxwellianVparMu (mass n T u B vpar mu : ℝ) : ℝ :=
  let massOn2piT := mass / (2 * π * T)
  let coeff := sqrt massOn2piT * massOn2piT
  let energy := (0.5 * (vpar - u) * (vpar - u) + mu * B) / T
  coeff * n * exp (-energy)

/-! ## Diocotron -/

/-- Parameters of `DiocotronDensitySolution`,
`src/geometryRTheta/initialisation/diocotron_initialisation_equilibrium.hpp:25-125`; `m_r_bar`, `m_d` and `m_p = 50` are derived (122-124). -/
structure Diocotron where
  W1 : ℝ
  R1 : ℝ
  R2 : ℝ
  W2 : ℝ
  Q : ℝ
  l : ℕ
  eps : ℝ

/-- The variables `bl` and `cl` of `dispersion_relation`,
`src/geometryRTheta/initialisation/diocotron_initialisation_equilibrium.cpp:8-47`. Simplification: `l` is a natural number (`ipow` is a power, property C27). -/
noncomputable def Diocotron.coeffs (d : Diocotron) : ℝ × ℝ :=
  let omegaQ := -2 * d.Q / d.R1 / d.R1
  let omegaD := (1 : ℝ) / 2
  let frac := omegaQ / omegaD
  let divW1R1 := if d.R1 > 0 then d.W1 / d.R1 else 1
  let divW1R2 := d.W1 / d.R2
  let divW1W2 := d.W1 / d.W2
  let divR1R2 := d.R1 / d.R2
  let divR1W2 := d.R1 / d.W2
  let divR2W2 := d.R2 / d.W2
  let W1R1 := divW1R1 ^ (2 * d.l)
  let W1R2 := divW1R2 ^ (2 * d.l)
  let W1W2 := divW1W2 ^ (2 * d.l)
  let R1R2 := divR1R2 ^ (2 * d.l)
  let R1W2 := divR1W2 ^ (2 * d.l)
  let R2W2 := divR2W2 ^ (2 * d.l)
  let l : ℝ := d.l
  let bl := 1 / (1 - W1W2) * l * (1 - divR1R2 * divR1R2 + frac * (1 + divR1R2 * divR1R2)) * (1 - W1W2)
    + (1 - R1R2) * (R2W2 - W1R1)
  let cl := 1 / (1 - W1W2) * l * l * frac * (1 - divR1R2 * divR1R2 + frac * divR1R2 * divR1R2) * (1 - W1W2)
    - l * frac * (1 - W1R2) * (1 - R2W2)
    + l * (1 - divR1R2 * divR1R2 + frac * divR1R2 * divR1R2) * (1 - R1W2) * (1 - W1R1)
    - (1 - R2W2) * (1 - W1R1) * (1 - R1R2)
  (bl, cl)

/-- `dispersion_relation` (`get_frequency` and `get_slope`),
`src/geometryRTheta/initialisation/diocotron_initialisation_equilibrium.cpp:49-72`. -/
noncomputable def Diocotron.omega (d : Diocotron) : ℝ × ℝ :=
  let bl := d.coeffs.1
  let cl := d.coeffs.2
  let omegaD := (1 : ℝ) / 2
  let delta := bl * bl - 4 * cl
  if delta ≥ 0 then (omegaD * (bl + sqrt delta) / 2, omegaD * 0)
  else (omegaD * bl / 2, omegaD * sqrt (-delta) / 2)

/-- `equilibrium`, `src/geometryRTheta/initialisation/diocotron_initialisation_equilibrium.cpp:88-97`
(`std::pow` with the exponent 50.). -/
noncomputable def Diocotron.equilibrium (d : Diocotron) (r _theta : ℝ) : ℝ :=
  let rBar := (d.R1 + d.R2) / 2
  let dd := (d.R2 - d.R1) / 2
  if d.R1 ≤ r ∧ r ≤ d.R2 then 1 * exp (-((r - rBar) / dd) ^ 50) else 0

/-- `initialisation`, `src/geometryRTheta/initialisation/diocotron_initialisation_equilibrium.cpp:75-86`. -/
noncomputable def Diocotron.initialisation (d : Diocotron) (r theta : ℝ) : ℝ :=
  let rBar := (d.R1 + d.R2) / 2
  let dd := (d.R2 - d.R1) / 2
  if d.R1 ≤ r ∧ r ≤ d.R2 then (1 + d.eps * cos (d.l * theta)) * exp (-((r - rBar) / dd) ^ 50) else 0

/-! ## Vortex merger -/

variable {I : Type*}

/-- `norm_Linf_phi_star`, `src/geometryRTheta/initialisation/vortex_merger_equilibrium.hpp:120-125` over the list of the grid points. -/
noncomputable def normLinf (grid : List I) (phi : I → ℝ) : ℝ :=
  grid.foldl (fun m i => if m > |phi i| then m else |phi i|) 0

/-- State of the iteration: `sigma`, `phi_eq` (`src/geometryRTheta/initialisation/vortex_merger_equilibrium.hpp:88-89`). -/
structure VMState (I : Type*) where
  sigma : I → ℝ
  phi : I → ℝ

/-- One pass of the `do ... while`, `src/geometryRTheta/initialisation/vortex_merger_equilibrium.hpp:106-142`: the new state and `difference_sigma`. -/
noncomputable def vmStep (grid : List I) (poisson : (I → ℝ) → I → ℝ) (f : ℝ → ℝ) (phiMax : ℝ) (s : VMState I) : VMState I × ℝ :=
  let rho := fun i => s.sigma i * f (s.phi i)
  let phiStar := poisson rho
  let norm := normLinf grid phiStar
  let ci := fun _ : I => phiMax / norm
  let diff := grid.foldl (fun m i =>
    let a := |s.sigma i - ci i * s.sigma i|
    if m > a then m else a) 0
  (⟨fun i => ci i * s.sigma i, fun i => ci i * phiStar i⟩, diff)

/-- The loop of `find_equilibrium`, `src/geometryRTheta/initialisation/vortex_merger_equilibrium.hpp:105-144`: final state, `count` and the last `difference_sigma`. -/
noncomputable def vmLoop (grid : List I) (poisson : (I → ℝ) → I → ℝ) (f : ℝ → ℝ) (phiMax tau : ℝ) (countMax : ℕ) :
    ℕ → VMState I → VMState I × ℕ × ℝ
  | count, s =>
    let count' := count + 1
    let r := vmStep grid poisson f phiMax s
    open scoped Classical in
    if _h : r.2 > tau ∧ count' < countMax then vmLoop grid poisson f phiMax tau countMax count' r.1
    else (r.1, count', r.2)
termination_by count => countMax - count
decreasing_by
  have := _h.2
  simp only [count'] at this ⊢
  omega

/-- `find_equilibrium`, `src/geometryRTheta/initialisation/vortex_merger_equilibrium.hpp:87-161`: final state and density. `centre i = some j` when the point `i` lies at the O-point and `j` is the
first of these points (lines 152-160). -/
noncomputable def findEquilibrium (grid : List I) (poisson : (I → ℝ) → I → ℝ) (f : ℝ → ℝ) (phiMax tau : ℝ) (countMax : ℕ)
    (centre : I → Option I) (s : VMState I) : VMState I × (I → ℝ) :=
  let s := (vmLoop grid poisson f phiMax tau countMax 0 s).1
  let rho := fun i => s.sigma i * f (s.phi i)
  (s, fun i => match centre i with
    | some j => rho j
    | none => rho i)

/-- `VortexMergerDensitySolution::set_initialisation`, `src/geometryRTheta/initialisation/vortex_merger_initialisation.hpp:72-102`, at the physical point `(x, y)`. -/
noncomputable def vortexMergerInit (rhoEq eps sigma x1 y1 x2 y2 x y : ℝ) : ℝ :=
  rhoEq + eps * (exp (-((x - x1) * (x - x1) + (y - y1) * (y - y1)) / (2 * sigma * sigma))
    + exp (-((x - x2) * (x - x2) + (y - y2) * (y - y2)) / (2 * sigma * sigma)))

/-! ## Kelvin-Helmholtz -/

/-- `KelvinHelmholtzInstabilityInitialisation::operator()`, `src/geometryXY/initialisation/initialisation_Kelvin_Helmholtz.hpp:47-66`: the pair (density, equilibrium). -/
noncomputable def kelvinHelmholtz (eps k x y : ℝ) : ℝ × ℝ :=
  let eq := sin y
  (eq + eps * cos (k * x), eq)

end Verif.Initial
