import Verif.Model.Rounding
import Verif.Model.LagrangeEvaluator
import Mathlib.Data.Int.Log

/-!
# Wrapping of periodic coordinates in floating-point arithmetic

`lagrange_evaluator.hpp:452-621`, `polar_spline_evaluator.hpp:499-505`, `ddc_helper.hpp:84-140`: the operations on `double` are rounded. `R x y` says that `y` is a possible
result of an operation whose exact result is `x`. Simplification: unbounded exponents (no overflow, no underflow, no NaN).
-/

namespace Verif.FloatWrap

/-- Rounding to the nearest integer, ties to even: the rounding mode of the IEEE arithmetic used by `lagrange_evaluator.hpp:461-466`. -/
noncomputable def roundHalfEven (t : ℝ) : ℤ :=
  if t - ⌊t⌋ < 1 / 2 then ⌊t⌋ else if 1 / 2 < t - ⌊t⌋ then ⌊t⌋ + 1 else if ⌊t⌋ % 2 = 0 then ⌊t⌋ else ⌊t⌋ + 1

/-- The result of an operation of IEEE binary64 arithmetic of exact result `x` (`lagrange_evaluator.hpp:461-466`): the 53 leading bits of `x`, rounded to nearest, ties to even. -/
noncomputable def rn (x : ℝ) : ℝ :=
  roundHalfEven (x / 2 ^ (Int.log 2 |x| - 52)) * 2 ^ (Int.log 2 |x| - 52)

/-- The rounding relation of binary64 arithmetic (`lagrange_evaluator.hpp:461-466`). -/
def IEEE (x y : ℝ) : Prop := y = rn x

/-- The wrap of a periodic coordinate in `LagrangeEvaluator::eval`, `lagrange_evaluator.hpp:459-467`; the same statements are in `restrict_to_bspline_domain`, `ddc_helper.hpp:131-138`,
and in `PolarSplineEvaluator::eval`, `polar_spline_evaluator.hpp:499-505`. `len` is `length()`, the computed difference of `rmax()` and `rmin()` (`lagrange_basis_uniform.hpp:189-192`); `floor` is exact. -/
def Wrap (R : ℝ → ℝ → Prop) (rmin rmax x y : ℝ) : Prop :=
  if x < rmin ∨ x > rmax then
    ∃ len d q p, R (rmax - rmin) len ∧ R (x - rmin) d ∧ R (d / len) q ∧ R (⌊q⌋ * len) p ∧ R (x - p) y
  else y = x

/-- Conversion of a `double` to `int`: truncation towards zero, `lagrange_evaluator.hpp:595-597`. -/
noncomputable def trunc (q : ℝ) : ℤ := if 0 ≤ q then ⌊q⌋ else ⌈q⌉

/-- `Kokkos::round`: nearest integer, halfway cases away from zero, `lagrange_evaluator.hpp:591-593`. -/
noncomputable def roundAway (q : ℝ) : ℤ := if 0 ≤ q then ⌊q + 1 / 2⌋ else ⌈q - 1 / 2⌉

/-- `getclosest`, uniform branch, `lagrange_evaluator.hpp:589-598`: `c` is a possible value of `knot_offset`. -/
def ClosestU (R : ℝ → ℝ → Prop) (D : ℕ) (x0 dx x : ℝ) (c : ℤ) : Prop :=
  ∃ d q, R (x - x0) d ∧ R (d / dx) q ∧ c = if D % 2 = 0 then roundAway q else trunc q

/-- `find_stencil`, periodic branch, `lagrange_evaluator.hpp:497-511`: first knot of the stencil. The subtractions of indices are exact, `kn c` is the coordinate of knot `c`
as computed by `ddc::coordinate`. -/
noncomputable def stencilStart (D Nl : ℕ) (kn : ℤ → ℝ) (c : ℤ) (x : ℝ) : ℤ :=
  let step : ℤ := -((D / 2 : ℕ) : ℤ) - ((D % 2 : ℕ) : ℤ) * (if kn c > x then 1 else 0)
  c + (Nl : ℤ) * (if 0 - c > step then 1 else 0) + step

/-- `find_stencil`, periodic branch, `lagrange_evaluator.hpp:508-510`: the coordinate handed to `eval_basis`. -/
def Shifted (R : ℝ → ℝ → Prop) (rmin rmax : ℝ) (c s : ℤ) (x x' : ℝ) : Prop :=
  if s > c then ∃ len, R (rmax - rmin) len ∧ R (x + len) x' else x' = x

/-- `while (coord < x_min) coord += length;`, `ddc_helper.hpp:107-108`: `Raise R xmin len c out n` says that the loop started from `c` ends with `out` after `n` iterations. -/
inductive Raise (R : ℝ → ℝ → Prop) (xmin len : ℝ) : ℝ → ℝ → ℕ → Prop
  | done (c : ℝ) (h : ¬ c < xmin) : Raise R xmin len c c 0
  | step (c c' out : ℝ) (n : ℕ) (h : c < xmin) (h' : R (c + len) c') (ht : Raise R xmin len c' out n) : Raise R xmin len c out (n + 1)

/-- `while (coord >= x_max) coord -= length;`, `ddc_helper.hpp:109-110`. -/
inductive Lower (R : ℝ → ℝ → Prop) (xmax len : ℝ) : ℝ → ℝ → ℕ → Prop
  | done (c : ℝ) (h : ¬ c ≥ xmax) : Lower R xmax len c c 0
  | step (c c' out : ℝ) (n : ℕ) (h : c ≥ xmax) (h' : R (c - len) c') (ht : Lower R xmax len c' out n) : Lower R xmax len c out (n + 1)

/-- `restrict_to_idx_range`, `ddc_helper.hpp:84-112`, for a coordinate within ten periods of the domain (the trigonometric reduction of lines 99-105 is not done); `len` is the result of
`total_interval_length`. -/
def Restrict (R : ℝ → ℝ → Prop) (xmin len x out : ℝ) : Prop :=
  ∃ xmax d c0 c1 n m, R (xmin + len) xmax ∧ R (x - xmin) d ∧ R (d + xmin) c0 ∧ Raise R xmin len c0 c1 n ∧ Lower R xmax len c1 out m

end Verif.FloatWrap
