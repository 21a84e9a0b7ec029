import Mathlib.Algebra.Polynomial.Derivative
import Mathlib.Data.Real.Basic
import Verif.Model.Fem

/-!
# B-splines of any degree on any knots

The B-splines themselves are in DDC (not in the repository): `eval_basis` and `eval_deriv`, used by `src/pde_solvers/fem_1d_poisson_solver.hpp:315-317, 377-379, 450-451`, evaluate the Cox-de Boor recursion.
This file states that recursion, piece by piece, and the knots of DDC's clamped and periodic non-uniform B-splines, to discharge the hypotheses on the basis in the model `Verif.Fem`.
-/

namespace Verif.BSpline

open Polynomial

/-- The polynomial with which B-spline number `i` of degree `p` on the knots `t` coincides on the cell `[t c, t (c + 1)]`: Cox-de Boor recursion, with `0` for the terms whose knots coincide
(what `eval_basis` computes at `fem_1d_poisson_solver.hpp:450-451`). -/
noncomputable def piece (t : ℤ → ℝ) (c : ℤ) : ℕ → ℤ → ℝ[X]
  | 0, i => if i = c then 1 else 0
  | p + 1, i => C (1 / (t (i + p + 1) - t i)) * (X - C (t i)) * piece t c p i + C (1 / (t (i + p + 2) - t (i + 1))) * (C (t (i + p + 2)) - X) * piece t c p (i + 1)

/-- The knots of clamped B-splines on the break points `b 0 … b n`: the first and the last one are repeated (the "non-uniform BSplines [which] are required to correctly enforce Dirichlet boundary conditions",
`fem_1d_poisson_solver.hpp:106-114`). -/
def clampedKnots (n : ℕ) (b : ℕ → ℝ) (i : ℤ) : ℝ := b (min i.toNat n)

/-- The knots of periodic B-splines on the break points `b 0 … b n`: the break points are continued with the period `b n - b 0` (`fem_1d_poisson_solver.hpp:116-119`, case `InputBSplines`). -/
def periodicKnots (n : ℕ) (b : ℕ → ℝ) (i : ℤ) : ℝ := b (i % n).toNat + (i / n : ℤ) * (b n - b 0)

/-- What `eval_basis` and `eval_deriv` return at the point `x` of cell `q` (`fem_1d_poisson_solver.hpp:315-317, 377-379`): the first of the `d + 1` B-splines of the cell has the number `q` among the coefficients. -/
noncomputable def pt (t : ℤ → ℝ) (d q : ℕ) (xw : ℝ × ℝ) : Fem.Pt where
  w := xw.2
  jmin := q
  vals j := (piece t q d (q - d + j)).eval xw.1
  derivs j := (derivative (piece t q d (q - d + j))).eval xw.1

/-- All the quadrature points of the mesh with `n` cells, `fem_1d_poisson_solver.hpp:549-550`: `rule q` are the points and weights in cell `q`. -/
noncomputable def points (t : ℤ → ℝ) (d n : ℕ) (rule : ℕ → List (ℝ × ℝ)) : List Fem.Pt := (List.range n).flatMap fun q => (rule q).map (pt t d q)

end Verif.BSpline
