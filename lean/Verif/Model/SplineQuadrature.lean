import Verif.Model.BSpline

/-!
# Spline quadrature coefficients (src/quadrature/spline_quadrature.hpp, src/quadrature/neumann_spline_quadrature.hpp)

`builder.quadrature_coefficients()` is DDC's (outside the repository): it solves the transposed interpolation system for the integrals of the B-splines, as the comment `spline_quadrature.hpp:25-44` describes.
It is modelled by the relation `QuadratureCoefficients`. The interpolation points are given with their cells.
-/

namespace Verif.SplineQuadrature

open Verif.BSpline

/-- The value at `x`, in cell `q`, of the spline with the coefficients `c`: `N` is the number of basis functions, `n + d` for clamped and `n` for periodic knots
(the rows of the matrix `B` of `spline_quadrature.hpp:42`). -/
noncomputable def valueAt (t : ℤ → ℝ) (d N q : ℕ) (x : ℝ) (c : ℕ → ℝ) : ℝ := ∑ j ∈ Finset.range (d + 1), c ((j + q) % N) * (pt t d q (x, 0)).vals j

/-- The derivative at `x` (the Hermite conditions of the builder, `neumann_spline_quadrature.hpp:55-72`). -/
noncomputable def slopeAt (t : ℤ → ℝ) (d N q : ℕ) (x : ℝ) (c : ℕ → ℝ) : ℝ := ∑ j ∈ Finset.range (d + 1), c ((j + q) % N) * (pt t d q (x, 0)).derivs j

/-- The equations of a builder which uses only the values at the interpolation points (`spline_quadrature.hpp:62-69`). -/
noncomputable def valueRows (t : ℤ → ℝ) (d N : ℕ) (xs : List (ℕ × ℝ)) : List ((ℕ → ℝ) → ℝ) := xs.map fun qx => valueAt t d N qx.1 qx.2

/-- The equations of a builder with one derivative at each end (`neumann_spline_quadrature.hpp:53-72`): derivative at the first end, values, derivative at the last end. -/
noncomputable def hermiteRows (n : ℕ) (b : ℕ → ℝ) (t : ℤ → ℝ) (d N : ℕ) (xs : List (ℕ × ℝ)) : List ((ℕ → ℝ) → ℝ) :=
  slopeAt t d N 0 (b 0) :: (valueRows t d N xs ++ [slopeAt t d N (n - 1) (b n)])

/-- `ddc::integrals`: width of the support of each basis function over `d + 1` (the vector `I_b` of `spline_quadrature.hpp:43`). -/
noncomputable def integralsOf (t : ℤ → ℝ) (d j : ℕ) : ℝ := (t (j + 1) - t (j - d)) / (d + 1)

/-- Number of a unit coefficient, for the entries of the matrix. Used in the model of `spline_quadrature.hpp:42`. -/
def unit (j : ℕ) (i : ℕ) : ℝ := if i = j then 1 else 0

/-- `builder.quadrature_coefficients()`, `spline_quadrature.hpp:78`, `neumann_spline_quadrature.hpp:82`: the solution of the transposed system, one coefficient for each equation. -/
def QuadratureCoefficients (N : ℕ) (rows : List ((ℕ → ℝ) → ℝ)) (m : ℕ → ℝ) (w : List ℝ) : Prop :=
  w.length = rows.length ∧ ∀ j < N, (List.zipWith (fun wi row => wi * row (unit j)) w rows).sum = m j

/-- `spline_quadrature_coefficients_1d`, `spline_quadrature.hpp:76-79`: no equations for derivatives, all the coefficients are kept. -/
def splineCoefficients (w : List ℝ) : List ℝ := w

/-- `neumann_spline_quadrature_coefficients_1d`, `neumann_spline_quadrature.hpp:77-86`: the coefficients of the derivatives (first and last) are ignored. -/
def neumannCoefficients (w : List ℝ) : List ℝ := w.tail.dropLast

/-- `Quadrature::operator()`: the sum of coefficients times values (`quadrature.hpp:80-110`, see property C16). -/
noncomputable def quadrature (w : List ℝ) (xs : List (ℕ × ℝ)) (f : ℝ → ℝ) : ℝ := (List.zipWith (fun wi qx => wi * f qx.2) w xs).sum

end Verif.SplineQuadrature
