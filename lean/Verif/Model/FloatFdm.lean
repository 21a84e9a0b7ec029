import Verif.Model.Rounding
import Verif.Model.Fdm

/-!
# Finite-difference derivatives in floating-point arithmetic
(src/math_tools/central_fdm_partial_derivatives.hpp, central_fdm_partial_derivatives_with_boundary_values.hpp)

The operations of `Verif.Model.Fdm` with the rounding relation `Rounding.Fl` (same simplifications: no overflow, no underflow, no NaN; every contraction and rounding mode is allowed).
The coordinates `x`, the field `f` and the length of a periodic dimension are the doubles stored by the program. The change of sign is exact.
-/

namespace Verif.FloatFdm

open Verif.Rounding

/-- The sum `c1 * f1 + c2 * f2 + c3 * f3`, evaluated from the left, central_fdm_partial_derivatives.hpp:97-99, 118-120, 190. -/
def SumFl3 (u c1 c2 c3 f1 f2 f3 v : ℝ) : Prop :=
  ∃ p1 p2 p3 s, Fl u (c1 * f1) p1 ∧ Fl u (c2 * f2) p2 ∧ Fl u (c3 * f3) p3 ∧ Fl u (p1 + p2) s ∧ Fl u (s + p3) v

/-- `h1 / (h2 * (h1 + h2))`, central_fdm_partial_derivatives.hpp:86, 107, 187. -/
def RatioFl (u h1 h2 v : ℝ) : Prop := ∃ s p, Fl u (h1 + h2) s ∧ Fl u (h2 * s) p ∧ Fl u (h1 / p) v

/-- `fdm_centred`, central_fdm_partial_derivatives.hpp:178-191, the arguments `h1`, `h2` being doubles. -/
def CentredFl (u f1 f2 f3 h1 h2 v : ℝ) : Prop :=
  ∃ c1 c2 c3 r1 r2, RatioFl u h1 h2 c3 ∧ Fl u (1 / h1) r1 ∧ Fl u (1 / h2) r2 ∧ Fl u (r1 - r2) c2 ∧ Fl u (-c3 - c2) c1 ∧ SumFl3 u c1 c2 c3 f1 f2 f3 v

/-- The coefficients `c2` and `c3` of the front derivative, central_fdm_partial_derivatives.hpp:84-87 and
central_fdm_partial_derivatives_with_boundary_values.hpp:97-100 (`-h1 / (…)`: the sign is exact). -/
def FrontCoefFl (u : ℝ) (x : ℕ → ℝ) (c2 c3 : ℝ) : Prop :=
  ∃ h1 h2 q r1 r2, Fl u (x 1 - x 0) h1 ∧ Fl u (x 2 - x 1) h2 ∧ RatioFl u h1 h2 q ∧ c3 = -q ∧ Fl u (1 / h1) r1 ∧ Fl u (1 / h2) r2 ∧ Fl u (r1 + r2) c2

/-- The coefficients `c2` and `c3` of the back derivative, central_fdm_partial_derivatives.hpp:105-108 and
central_fdm_partial_derivatives_with_boundary_values.hpp:119-122. -/
def BackCoefFl (u : ℝ) (n : ℕ) (x : ℕ → ℝ) (c2 c3 : ℝ) : Prop :=
  ∃ h1 h2 s p, Fl u (x (n - 1) - x (n - 2)) h1 ∧ Fl u (x (n - 2) - x (n - 3)) h2 ∧ RatioFl u h1 h2 c3 ∧ Fl u (h1 + h2) s ∧ Fl u (h1 * h2) p ∧ Fl u (-s / p) c2

/-- Front derivative, central_fdm_partial_derivatives.hpp:82-100. -/
def FrontFl (u : ℝ) (x f : ℕ → ℝ) (v : ℝ) : Prop :=
  ∃ c1 c2 c3, FrontCoefFl u x c2 c3 ∧ Fl u (-c3 - c2) c1 ∧ SumFl3 u c1 c2 c3 (f 0) (f 1) (f 2) v

/-- Back derivative, central_fdm_partial_derivatives.hpp:103-121. -/
def BackFl (u : ℝ) (n : ℕ) (x f : ℕ → ℝ) (v : ℝ) : Prop :=
  ∃ c1 c2 c3, BackCoefFl u n x c2 c3 ∧ Fl u (-c3 - c2) c1 ∧ SumFl3 u c1 c2 c3 (f (n - 1)) (f (n - 2)) (f (n - 3)) v

/-- Interior derivative, central_fdm_partial_derivatives.hpp:166-173. -/
def InteriorFl (u : ℝ) (x f : ℕ → ℝ) (i : ℕ) (v : ℝ) : Prop :=
  ∃ h1 h2, Fl u (x i - x (i - 1)) h1 ∧ Fl u (x (i + 1) - x i) h2 ∧ CentredFl u (f (i - 1)) (f i) (f (i + 1)) h1 h2 v

/-- `v` is a possible value at point `i` of `CentralFDMPartialDerivative::operator()` for a non-periodic dimension, central_fdm_partial_derivatives.hpp:70-175. -/
def DerivFl (u : ℝ) (n : ℕ) (x f : ℕ → ℝ) (i : ℕ) (v : ℝ) : Prop :=
  if i = 0 then FrontFl u x f v else if i = n - 1 then BackFl u n x f v else InteriorFl u x f i v

/-- The size of the closing cell, `x_front - x_back + domain_length`, central_fdm_partial_derivatives.hpp:134-135. -/
def ClosingFl (u : ℝ) (n : ℕ) (len : ℝ) (x : ℕ → ℝ) (h : ℝ) : Prop := ∃ d, Fl u (x 0 - x (n - 1)) d ∧ Fl u (d + len) h

/-- `v` is a possible value at point `i` of `CentralFDMPartialDerivative::operator()` for a periodic dimension, central_fdm_partial_derivatives.hpp:122-174. -/
def DerivPeriodicFl (u : ℝ) (n : ℕ) (len : ℝ) (x f : ℕ → ℝ) (i : ℕ) (v : ℝ) : Prop :=
  if i = 0 then ∃ h2 h3, ClosingFl u n len x h2 ∧ Fl u (x 1 - x 0) h3 ∧ CentredFl u (f (n - 1)) (f 0) (f 1) h2 h3 v
  else if i = n - 1 then ∃ h1 h2, Fl u (x (n - 1) - x (n - 2)) h1 ∧ ClosingFl u n len x h2 ∧ CentredFl u (f (n - 2)) (f (n - 1)) (f 0) h1 h2 v
  else InteriorFl u x f i v

/-- The average of the two one-sided values, central_fdm_partial_derivatives_with_boundary_values.hpp:109-112, 131-134
(`-c2 * b - c3 * b` is evaluated as `(-c2) * b - c3 * b`). -/
def AverageFl (u c2 c3 f1 f2 b v : ℝ) : Prop :=
  ∃ p2 p3 vl q2 q3 vr s, Fl u (c2 * f1) p2 ∧ Fl u (c3 * f2) p3 ∧ Fl u (p2 + p3) vl ∧ Fl u (-c2 * b) q2 ∧ Fl u (c3 * b) q3 ∧ Fl u (q2 - q3) vr ∧ Fl u (vr + vl) s ∧ Fl u (s / 2) v

/-- `v` is a possible value at point `i` of `CentralFDMPartialDerivativeWithBValue::operator()`, central_fdm_partial_derivatives_with_boundary_values.hpp:77-160. -/
def DerivBFl (u : ℝ) (n : ℕ) (x f : ℕ → ℝ) (bl br : ℝ) (i : ℕ) (v : ℝ) : Prop :=
  if i = 0 then ∃ c2 c3, FrontCoefFl u x c2 c3 ∧ AverageFl u c2 c3 (f 1) (f 2) bl v
  else if i = n - 1 then ∃ c2 c3, BackCoefFl u n x c2 c3 ∧ AverageFl u c2 c3 (f (n - 2)) (f (n - 3)) br v
  else InteriorFl u x f i v

end Verif.FloatFdm
