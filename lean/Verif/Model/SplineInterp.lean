import Verif.Model.SplineQuadrature

/-!
# The interpolation problem of `SplineInterpolator` (src/interpolation/spline_interpolation.hpp)

`ddc::SplineBuilder` (`m_builder`, line 81) is outside the repository. What it solves is stated here for the boundary conditions `PERIODIC` and `HERMITE` / `HOMOGENEOUS_HERMITE` (lines 35-36; the first and the last are those of
`simulations/geometryXVx/spline_definitions_xvx.hpp:34-40`), with interpolation at the break points: these are the Greville points which the simulations take (`spline_definitions_xvx.hpp:37-40`) when the degree is odd.
The simulations have the degree 3 (`spline_definitions_xvx.hpp:8-9`).
-/

namespace Verif.SplineInterp

open Verif.BSpline Verif.SplineQuadrature

/-- The derivative of order `k`, at `x` in cell `q`, of the spline with the coefficients `c` (the boundary conditions of `spline_interpolation.hpp:59-60`). -/
noncomputable def derivAt (t : ℤ → ℝ) (d N q k : ℕ) (x : ℝ) (c : ℕ → ℝ) : ℝ :=
  ∑ j ∈ Finset.range (d + 1), c ((j + q) % N) * (Polynomial.derivative^[k] (piece t q d (q - d + j))).eval x

/-- `BoundCond::PERIODIC` (`spline_interpolation.hpp:45-46`, `spline_definitions_xvx.hpp:34`): the spline has the value `v q` at the break point `q`. -/
def PeriodicInterpolant (n d : ℕ) (b : ℕ → ℝ) (v c : ℕ → ℝ) : Prop := ∀ q < n, valueAt (periodicKnots n b) d n q (b q) c = v q

/-- `BoundCond::HERMITE` (`spline_interpolation.hpp:59-60`): the spline has the value `v q` at the break point `q`, and the derivatives of order `k` given by `dl k` and `dr k` at the two ends,
from the order 1 to half the degree. `BoundCond::HOMOGENEOUS_HERMITE` (`spline_definitions_xvx.hpp:35`): these derivatives are zero. -/
structure HermiteInterpolant (n d : ℕ) (b : ℕ → ℝ) (v dl dr c : ℕ → ℝ) : Prop where
  value : ∀ q < n, valueAt (clampedKnots n b) d (n + d) q (b q) c = v q
  last : valueAt (clampedKnots n b) d (n + d) (n - 1) (b n) c = v n
  left : ∀ k, 1 ≤ k → k ≤ d / 2 → derivAt (clampedKnots n b) d (n + d) 0 k (b 0) c = dl k
  right : ∀ k, 1 ≤ k → k ≤ d / 2 → derivAt (clampedKnots n b) d (n + d) (n - 1) k (b n) c = dr k

/-- `BoundCond::GREVILLE` (`simulations/geometryXVx/spline_definitions_xvx.hpp:34`, `src/geometryRTheta/geometry/spline_definitions_r_theta.hpp:32`): the spline has the value `v i` at the interpolation point `x i`, in cell `q i`;
there are as many points as basis functions and no other equations. -/
def PointInterpolant (n d : ℕ) (b : ℕ → ℝ) (q : ℕ → ℕ) (x v c : ℕ → ℝ) : Prop := ∀ i < n + d, valueAt (clampedKnots n b) d (n + d) (q i) (x i) c = v i

/-- `ddc::GrevilleInterpolationPoints` (`spline_definitions_xvx.hpp:37-38`, outside the repository): the point of the basis function `i` is the mean of the knots inside its support. -/
noncomputable def greville (n d : ℕ) (b : ℕ → ℝ) (i : ℕ) : ℝ := (∑ k ∈ Finset.range d, clampedKnots n b ((i : ℤ) - d + 1 + k)) / d

end Verif.SplineInterp
