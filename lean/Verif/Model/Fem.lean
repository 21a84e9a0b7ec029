import Mathlib.Data.Real.Basic
import Mathlib.Algebra.BigOperators.Group.Finset.Basic

/-!
# 1D finite element Poisson solver (src/pde_solvers/fem_1d_poisson_solver.hpp)

The B-splines come from DDC: what the solver uses of them at a point is the record `Pt`, i.e. the index of the first basis function which is non-zero there and the values and
derivatives of the `degree + 1` basis functions from this one on. The matrix classes are modelled by the matrix they store (properties C20-C22); the linear solver is a parameter.
-/

namespace Verif.Fem

/-- What `eval_basis` and `eval_deriv` of the B-splines return at a point: `jmin` and the `degree + 1` values (`fem_1d_poisson_solver.hpp:315-317, 450-451`), with the quadrature
coefficient of the point, if it is a quadrature point (`:549-550`). -/
structure Pt where
  w : ℝ
  jmin : ℕ
  vals : ℕ → ℝ
  derivs : ℕ → ℝ

/-- A matrix as stored by `Matrix::get_element`, `Matrix::set_element`. Used in the model of `fem_1d_poisson_solver.hpp:318-328`. -/
abbrev Mat := ℕ → ℕ → ℝ

/-- `set_element(r, c, v)`. Used in the model of `fem_1d_poisson_solver.hpp:318-328`. -/
def setElem (M : Mat) (r c : ℕ) (v : ℝ) : Mat := fun r' c' => if r' = r ∧ c' = c then v else M r' c'

/-- The loops over `j` and `k` at one quadrature point, `fem_1d_poisson_solver.hpp:318-328`. -/
def periodicPoint (degree nbasis : ℕ) (M : Mat) (p : Pt) : Mat :=
  (List.range (degree + 1)).foldl (fun M j =>
    (List.range (degree + 1)).foldl (fun M k =>
      let jIdx := (j + p.jmin) % nbasis
      let kIdx := (k + p.jmin) % nbasis
      let ajk := M jIdx kIdx
      setElem M jIdx kIdx (ajk + p.derivs j * p.derivs k * p.w)) M) M

/-- `build_periodic_matrix`, `fem_1d_poisson_solver.hpp:289-348`: size `nbasis + 1`, the last row and column hold the integrals of the basis functions. -/
def periodicMatrix (degree nbasis : ℕ) (points : List Pt) (intVals : ℕ → ℝ) : Mat :=
  let M := points.foldl (periodicPoint degree nbasis) fun _ _ => 0
  (List.range nbasis).foldl (fun M i => setElem (setElem M nbasis i (intVals i)) i nbasis (intVals i)) M

/-- The loops over `j` and `k` at one quadrature point, `fem_1d_poisson_solver.hpp:380-394`; `int` is `ℤ`. -/
def nonPeriodicPoint (degree nbasis : ℕ) (M : Mat) (p : Pt) : Mat :=
  let matrixSize : ℤ := (nbasis : ℤ) - 2
  (List.range (degree + 1)).foldl (fun M j =>
    (List.range (degree + 1)).foldl (fun M k =>
      let jIdx : ℤ := (((j + p.jmin) % nbasis : ℕ) : ℤ) - 1
      let kIdx : ℤ := (((k + p.jmin) % nbasis : ℕ) : ℤ) - 1
      if jIdx ≠ -1 ∧ jIdx ≠ matrixSize ∧ kIdx ≠ -1 ∧ kIdx ≠ matrixSize then
        let ajk := M jIdx.toNat kIdx.toNat
        setElem M jIdx.toNat kIdx.toNat (ajk + p.derivs j * p.derivs k * p.w)
      else M) M) M

/-- `build_non_periodic_matrix`, `fem_1d_poisson_solver.hpp:350-399`: size `nbasis - 2`. -/
def nonPeriodicMatrix (degree nbasis : ℕ) (points : List Pt) : Mat :=
  points.foldl (nonPeriodicPoint degree nbasis) fun _ _ => 0

/-- `while (j_idx > last_basis_element) j_idx -= nbasis_proxy`, `fem_1d_poisson_solver.hpp:457-459`, `last_basis_element = nbasis - 1` (`:426`). The loop does not end if `nbasis = 0`. -/
def wrapDown (nbasis j : ℕ) : ℕ :=
  if h : 0 < nbasis ∧ nbasis - 1 < j then wrapDown nbasis (j - nbasis) else j
termination_by j
decreasing_by omega

/-- The right-hand side of one batch element, `fem_1d_poisson_solver.hpp:428-464`: `rho p` is the value of the spline of the density at the quadrature point (`:452-454`). The atomic additions are in
some order, which does not matter over `ℝ`. -/
def rhs (degree nbasis : ℕ) (points : List Pt) (rho : Pt → ℝ) : ℕ → ℝ :=
  points.foldl (fun b p =>
    (List.range (degree + 1)).foldl (fun b j =>
      let jIdx := wrapDown nbasis (p.jmin + j)
      fun i => if i = jIdx then b i + rho p * p.vals j * p.w else b i) b) fun _ => 0

/-- `solve_matrix_system` with periodic B-splines, `fem_1d_poisson_solver.hpp:466-504`: the slice of size `nbasis + 1` is solved, then the first `degree` coefficients are copied after the `nbasis`
first ones (which overwrites the Lagrange multiplier). `solve n M b` is `solve_inplace`. -/
def solvePeriodic (solve : ℕ → Mat → (ℕ → ℝ) → ℕ → ℝ) (degree nbasis : ℕ) (points : List Pt) (intVals : ℕ → ℝ) (rho : Pt → ℝ) : ℕ → ℝ :=
  let b := rhs degree nbasis points rho
  let sol := solve (nbasis + 1) (periodicMatrix degree nbasis points intVals) b
  let coef := fun i => if i < nbasis + 1 then sol i else b i
  (List.range degree).foldl (fun c i => fun m => if m = nbasis + i then c i else c m) coef

/-- `solve_matrix_system` with non-periodic B-splines, `fem_1d_poisson_solver.hpp:466-488`: the slice of size `nbasis - 2` from the second coefficient on is solved, then first and last are set to zero. -/
def solveNonPeriodic (solve : ℕ → Mat → (ℕ → ℝ) → ℕ → ℝ) (degree nbasis : ℕ) (points : List Pt) (rho : Pt → ℝ) : ℕ → ℝ :=
  let b := rhs degree nbasis points rho
  let sol := solve (nbasis - 2) (nonPeriodicMatrix degree nbasis points) (fun i => b (i + 1))
  let coef := fun i => if 1 ≤ i ∧ i < 1 + (nbasis - 2) then sol (i - 1) else b i
  fun i => if i = nbasis - 1 then 0 else if i = 0 then 0 else coef i

/-- Value of the spline at a point, `m_spline_fem_evaluator(phi, phi_coefs)`, `fem_1d_poisson_solver.hpp:248, 276`. -/
def evalSpline (degree : ℕ) (p : Pt) (coef : ℕ → ℝ) : ℝ := ∑ i ∈ Finset.range (degree + 1), coef (p.jmin + i) * p.vals i

/-- Electric field at a point: `deriv`, then `E = -E`, `fem_1d_poisson_solver.hpp:277-284`. -/
def evalField (degree : ℕ) (p : Pt) (coef : ℕ → ℝ) : ℝ := -∑ i ∈ Finset.range (degree + 1), coef (p.jmin + i) * p.derivs i

end Verif.Fem
