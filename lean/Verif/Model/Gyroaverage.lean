import Verif.Model.CircularMapping

/-!
# Gyroaverage operator (src/gyroaverage/gyroaverage_operator.hpp)

The 2D spline builder and evaluator and the change of coordinates are parameters. `double` is `ℝ`.
-/

namespace Verif.Gyroaverage
open Mappings

/-- What the operator uses: builder, evaluator, the mapping to logical coordinates and its inverse, the coordinates of the grid points, the Larmor radius and the number of gyro points
(`gyroaverage_operator.hpp:105-148`), and the first and last poloidal index. `C` are spline coefficients, `I`, `J` the radial and poloidal indices. -/
structure Op (I J C : Type*) where
  build : (I → J → ℝ) → C
  eval : ℝ × ℝ → C → ℝ
  toLogical : ℝ × ℝ → ℝ × ℝ
  toPhysical : ℝ × ℝ → ℝ × ℝ
  coord : I → J → ℝ × ℝ
  rho : I → J → ℝ
  n : ℕ
  front : J
  back : J

variable {B I J C : Type*}

/-- Position of the particle at gyro point `k`, `gyroaverage_operator.hpp:207-216`. -/
noncomputable def Op.particle (o : Op I J C) (i : I) (j : J) (k : ℕ) : ℝ × ℝ :=
  let alpha := Real.pi * 2.0 / (o.n : ℝ) * (k : ℝ)
  let gyrocentre := o.toPhysical (o.coord i j)
  circToCart gyrocentre (o.rho i j, alpha)

/-- The kernel at one grid point, `gyroaverage_operator.hpp:200-226`. (With no gyro point C++ computes `0.0 / 0.0`, the model `0`; the theorems require a gyro point.) -/
noncomputable def Op.kernel (o : Op I J C) (coef : C) (i : I) (j : J) : ℝ :=
  let sum := (List.range o.n).foldl (fun s k =>
    let p := o.toLogical (o.particle i j k)
    s + o.eval p coef) 0.0
  sum / (o.n : ℝ)

open scoped Classical in
/-- `operator()`, `gyroaverage_operator.hpp:160-233`: in each batch the field is interpolated and averaged, then the last poloidal line is overwritten by the first one. -/
noncomputable def Op.apply (o : Op I J C) (A : B → I → J → ℝ) : B → I → J → ℝ := fun b =>
  let coef := o.build (A b)
  let bar := fun i j => o.kernel coef i j
  fun i j => if j = o.back then bar i o.front else bar i j

end Verif.Gyroaverage
