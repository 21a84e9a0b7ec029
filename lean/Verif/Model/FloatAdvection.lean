import Verif.Model.FloatLagrange
import Verif.Model.LagrangeEvaluator
import Mathlib.Data.ZMod.Basic
import Mathlib.Analysis.Real.Sqrt

/-!
# The semi-Lagrangian advection in space in floating-point arithmetic

`src/advection/bsl_advection_x.hpp:106-128` with the uniform periodic Lagrange interpolation, in the arithmetic `Fl u` of `Model/Rounding`. The knots of the basis are the points of the grid; their
coordinates `kn` (`ddc::coordinate`) are computed values, too. One line (one species, one velocity); the lines are independent.
-/

namespace Verif.FloatAdvection

open Verif.Rounding Verif.FloatWrap Verif.FloatLagrange

/-- The displacement `dx` of `bsl_advection_x.hpp:107,116`: `std::sqrt(mass(ielec()) / mass(isp)) * dt * coord_iv`, every operation (the square root, too) being rounded. -/
def DispFl (u massElec mass dt vel : ℝ) (disp : ℝ) : Prop :=
  ∃ q r p, Fl u (massElec / mass) q ∧ Fl u (Real.sqrt q) r ∧ Fl u (r * dt) p ∧ Fl u (p * vel) disp

/-- The coefficients given to the evaluator, `bsl_advection_x.hpp:123` and `identity_interpolation_builder.hpp:88-121` (an access outside of the arrays is given the value 0; there is none with
more than `D` points, C19). -/
noncomputable def coefs (D N : ℕ) (c : ZMod N → ℝ) (k : ℤ) : ℝ := (LagrangeEvaluator.buildCoeffs true D N (fun k : ℕ => c (k : ZMod N)) k.toNat).getD 0

/-- The new values of a line, `bsl_advection_x.hpp:119-127`: the foot `ddc::coordinate(ix) - dx` of each point is rounded and the old values are interpolated there. -/
def AdvLineFl (u eps : ℝ) (D N : ℕ) (w : ℕ → ℝ) (kn : ℤ → ℝ) (dx disp : ℝ) (c c' : ZMod N → ℝ) : Prop :=
  ∀ i : ZMod N, ∃ foot, Fl u (kn i.val - disp) foot ∧ EvalPeriodicU u eps D N w kn dx (coefs D N c) foot (c' i)

/-- A run of `n` time steps of the advection of a line; each step computes its displacement. `bsl_advection_x.hpp:106-128`, called in a time loop. -/
def RunFl (u eps : ℝ) (D N : ℕ) (w : ℕ → ℝ) (kn : ℤ → ℝ) (dx massElec mass dt vel : ℝ) (c : ℕ → ZMod N → ℝ) (n : ℕ) : Prop :=
  ∀ k < n, ∃ disp, DispFl u massElec mass dt vel disp ∧ AdvLineFl u eps D N w kn dx disp (c k) (c (k + 1))

end Verif.FloatAdvection
