import Verif.Model.SplineInterp

/-!
# Tensor-product spline interpolation in two dimensions

`ddc::SplineBuilder2D` and `ddc::SplineEvaluator2D` are outside the repository. They are used by `src/math_tools/spline_2d_partial_derivative.hpp`, `src/utils/spline_builder_deriv_field_2d.hpp`,
`src/multipatch/spline/multipatch_spline_builder_2d.hpp`, `src/coord_transformations/discrete_poloidal_cs_spline_mapping_builder.hpp` and the simulations in two dimensions
(`src/geometryRTheta/geometry/spline_definitions_r_theta.hpp:43-53`). What the builder solves and what the evaluator returns is stated here.
-/

namespace Verif.SplineInterp

open Verif.BSpline

/-- One direction of a two-dimensional builder (the template arguments of `spline_definitions_r_theta.hpp:43-53`): knots, degree and number of basis functions, and one equation for each basis function:
the derivative of order `order i` (0: the value) is given at the point `pt i`, in the cell `cell i`. -/
structure Direction where
  t : ℤ → ℝ
  d : ℕ
  N : ℕ
  cell : ℕ → ℕ
  order : ℕ → ℕ
  pt : ℕ → ℝ

/-- The left-hand side of equation `i`. Used in the model of `spline_definitions_r_theta.hpp:43-53`. -/
noncomputable def Direction.row (X : Direction) (i : ℕ) (c : ℕ → ℝ) : ℝ := derivAt X.t X.d X.N (X.cell i) (X.order i) (X.pt i) c

/-- `BoundCond::PERIODIC` at both ends, interpolation at the break points (`spline_definitions_r_theta.hpp:33`). -/
def periodicDir (n d : ℕ) (b : ℕ → ℝ) : Direction := ⟨periodicKnots n b, d, n, fun i => i, fun _ => 0, b⟩

/-- `BoundCond::GREVILLE` at both ends (`spline_definitions_r_theta.hpp:32`): values at the interpolation points `x i`, in cell `q i`. -/
def pointsDir (n d : ℕ) (b : ℕ → ℝ) (q : ℕ → ℕ) (x : ℕ → ℝ) : Direction := ⟨clampedKnots n b, d, n + d, q, fun _ => 0, x⟩

/-- `BoundCond::HERMITE` at both ends, interpolation at the break points (`src/utils/spline_builder_deriv_field_2d.hpp:95-107`): first the values at the break points, then the derivatives of the orders `1 … d / 2` at
the first end, then those at the last end. -/
def hermiteDir (n d : ℕ) (b : ℕ → ℝ) : Direction :=
  ⟨clampedKnots n b, d, n + d, fun i => if i < n then i else if i = n then n - 1 else if i ≤ n + d / 2 then 0 else n - 1,
    fun i => if i ≤ n then 0 else if i ≤ n + d / 2 then i - n else i - n - d / 2, fun i => if i ≤ n then b i else if i ≤ n + d / 2 then b 0 else b n⟩

/-- The evaluator: the derivative of orders `k1` and `k2` at `(x1, x2)`, in the cells `q1` and `q2`, of the spline with the coefficients `c`
(called at `src/math_tools/spline_2d_partial_derivative.hpp:71-77` with one order 1 and one order 0). -/
noncomputable def deriv2 (X Y : Direction) (q1 k1 : ℕ) (x1 : ℝ) (q2 k2 : ℕ) (x2 : ℝ) (c : ℕ → ℕ → ℝ) : ℝ :=
  ∑ j ∈ Finset.range (X.d + 1), ∑ l ∈ Finset.range (Y.d + 1), c ((j + q1) % X.N) ((l + q2) % Y.N) *
    ((Polynomial.derivative^[k1] (piece X.t q1 X.d (q1 - X.d + j))).eval x1 * (Polynomial.derivative^[k2] (piece Y.t q2 Y.d (q2 - Y.d + l))).eval x2)

/-- What the builder has to satisfy: the spline has the given values, derivatives at the edges and mixed derivatives at the corners (`src/utils/spline_builder_deriv_field_2d.hpp:160-190`). -/
def Interpolant2 (X Y : Direction) (v : ℕ → ℕ → ℝ) (c : ℕ → ℕ → ℝ) : Prop :=
  ∀ i < X.N, ∀ l < Y.N, deriv2 X Y (X.cell i) (X.order i) (X.pt i) (Y.cell l) (Y.order l) (Y.pt l) c = v i l

/-- How the builder does it: the one-dimensional problem of the first direction for each equation of the second, then the one-dimensional problem of the second direction for each basis function of the first
(`ddc::SplineBuilder2D::operator()`, called at `src/utils/spline_builder_deriv_field_2d.hpp:191-203`). -/
def Sweeps (X Y : Direction) (v : ℕ → ℕ → ℝ) (c : ℕ → ℕ → ℝ) : Prop :=
  ∃ w : ℕ → ℕ → ℝ, (∀ l < Y.N, ∀ i < X.N, X.row i (fun j => w j l) = v i l) ∧ ∀ j < X.N, ∀ l < Y.N, Y.row l (c j) = w j l

end Verif.SplineInterp
