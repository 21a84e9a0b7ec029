import Verif.Model.Collisions
import Verif.Model.Quadrature
import Verif.Model.Timestepper
import Mathlib.Analysis.SpecialFunctions.Trigonometric.Deriv
import Mathlib.Analysis.Complex.Trigonometric

/-!
# Sources and sinks of the 1D1V code (src/geometryXVx/rhs): Krook operators, masks, kinetic source

`double` is `ℝ`. Grids are functions of the index together with a number of points.
-/

namespace Verif.Sources

/-! ## Krook operators -/

/-- `KrookSourceConstant::operator()`, `src/geometryXVx/rhs/krook_source_constant.cpp:69-92`: the value written at one index;
`mask` is the value of the mask at the position, `ftarget` the value of the target at the velocity. -/
noncomputable def krookConstant (amplitude mask ftarget dt f : ℝ) : ℝ :=
  ftarget + (f - ftarget) * Real.exp (-amplitude * mask * dt)

/-- The two densities of `get_amplitudes`, `krook_source_adaptive.cpp:102-108`. -/
noncomputable def quadSum (n : ℕ) (w f : ℕ → ℝ) : ℝ :=
  (List.range n).foldl (fun s k => s + w k * f k) 0

/-- State at one spatial position: the values of the ion and of the electron distribution at each velocity point. Used in the model of `krook_source_adaptive.cpp:100-111`. -/
structure Pair where
  ion : ℕ → ℝ
  elec : ℕ → ℝ

/-- `get_amplitudes`, `krook_source_adaptive.cpp:100-111`, at one position: (ion amplitude, electron amplitude). -/
noncomputable def krookAmplitudes (n : ℕ) (w : ℕ → ℝ) (amplitude density : ℝ) (f : Pair) : ℝ × ℝ :=
  (amplitude, amplitude * (quadSum n w f.ion - density) / (quadSum n w f.elec - density))

/-- `get_derivative`, `krook_source_adaptive.cpp:114-140`, at one position. -/
noncomputable def krookDerivative (n : ℕ) (w ftarget : ℕ → ℝ) (amplitude density mask : ℝ) (f start : Pair) : Pair :=
  let a := krookAmplitudes n w amplitude density f
  { ion := fun k => -mask * a.1 * (start.ion k - ftarget k)
    elec := fun k => -mask * a.2 * (start.elec k - ftarget k) }

/-- The update functor of the time stepper on pairs (`y + dt dy` at each index, `itimestepper.hpp:391-406`). -/
noncomputable def pairUpdate (y dy : Pair) (dt : ℝ) : Pair :=
  { ion := fun k => y.ion k + dy.ion k * dt, elec := fun k => y.elec k + dy.elec k * dt }

/-- `KrookSourceAdaptive::operator()`, `krook_source_adaptive.cpp:142-152`: RK2 in which `start` is the field being
updated; `RK2::update` (`rk2.hpp:169-201`) writes into it only after the last derivative, so `start` is the initial state in both
stages. -/
noncomputable def krookAdaptive (n : ℕ) (w ftarget : ℕ → ℝ) (amplitude density mask dt : ℝ) (f : Pair) : Pair :=
  Timestepper.rk2 pairUpdate (fun g => krookDerivative n w ftarget amplitude density mask g f) f dt

/-! ## Masks -/

/-- `MaskType`, `mask_tanh.hpp:10`. -/
inductive MaskType | normal | inverted
  deriving DecidableEq, Repr

/-- Transition coordinates, `mask_tanh.cpp:28-31`. -/
noncomputable def xLeft (xmin L extent : ℝ) : ℝ := xmin + L * extent

/-- `mask_tanh.cpp:31`. -/
noncomputable def xRight (xmin L extent : ℝ) : ℝ := xmin + L - L * extent

/-- The values written at `mask_tanh.cpp:33-52`. -/
noncomputable def maskRaw (ty : MaskType) (xmin L extent stiffness x : ℝ) : ℝ :=
  match ty with
  | .normal => 0.5 * (Real.tanh ((x - xLeft xmin L extent) / stiffness)
      - Real.tanh ((x - xRight xmin L extent) / stiffness))
  | .inverted => 1 - 0.5 * (Real.tanh ((x - xLeft xmin L extent) / stiffness)
      - Real.tanh ((x - xRight xmin L extent) / stiffness))

/-- `coeff_norm`, `mask_tanh.cpp:55-59`: `coef` are the trapezoid coefficients of the grid. -/
noncomputable def maskNorm (coef x : ℕ → ℝ) (n : ℕ) (ty : MaskType) (L extent stiffness : ℝ) : ℝ :=
  Quadrature.apply coef n (fun k => maskRaw ty (x 0) L extent stiffness (x k))

/-- `mask_tanh`, `src/geometryXVx/rhs/mask_tanh.cpp:11-65`; `none` is the exception. `L` is
`ddcHelper::total_interval_length(gridx)`. -/
noncomputable def maskTanh (coef x : ℕ → ℝ) (n : ℕ) (L extent stiffness : ℝ) (ty : MaskType) (normalised : Bool) :
    Option (ℕ → ℝ) :=
  if stiffness ≤ 0 then none
  else if extent < 0 ∨ 0.5 < extent then none
  else if extent = 0 then some (fun _ => 0)
  else
    let mask := fun k => maskRaw ty (x 0) L extent stiffness (x k)
    if normalised then
      let c := maskNorm coef x n ty L extent stiffness
      some (fun k => mask k / c)
    else some mask

/-! ## Kinetic source -/

/-- The velocity shape of `KineticSource`, `kinetic_source.cpp:28-38`. -/
noncomputable def velocityShape (density energy temperature v : ℝ) : ℝ :=
  let coeff := 1 / Real.sqrt (2 * Real.pi * temperature)
  let vsq := v * v
  let densitySource := coeff * (1.5 - vsq / (2 * temperature)) * Real.exp (-vsq / (2 * temperature))
  let energySource := -0.5 * coeff * (1 - vsq / temperature) * Real.exp (-vsq / (2 * temperature))
  density * densitySource + energy * energySource

/-- `KineticSource::operator()`, `kinetic_source.cpp:50-73`, at one index. -/
noncomputable def kineticSource (amplitude extent shape dt f : ℝ) : ℝ :=
  let df := amplitude * extent * shape * dt
  f + df

end Verif.Sources
