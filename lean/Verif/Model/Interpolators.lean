import Verif.Model.LagrangeEvaluator

/-!
# Interpolators: choice of the extrapolation rules

Model of `src/interpolation/extrapolation_rule_choice.hpp`, `src/interpolation/constant_identity_interpolation_extrapolation_rule.hpp`,
`src/interpolation/lagrange_interpolation.hpp` and `src/interpolation/spline_interpolation.hpp`.

A compilation error is `none`.  The Lagrange evaluator is the one of `Verif.LagrangeEvaluator`.  The spline builder and evaluator belong to
DDC: the spline is an arbitrary function of the coefficients and of the coordinate.
-/
namespace Verif.Interpolators

open Verif.LagrangeEvaluator

/-- `enum ExtrapolationRule`, src/interpolation/i_interpolation.hpp 20. -/
inductive Rule
  | periodic
  | nullValue
  | constant
  deriving DecidableEq, Repr

/-- `ddc::BoundCond`, used at src/interpolation/spline_interpolation.hpp 35-36. -/
inductive Bound
  | periodic
  | hermite
  | greville
  deriving DecidableEq, Repr

/-- `enum class Extremity`, used at src/interpolation/extrapolation_rule_choice.hpp 39-51. -/
inductive Extremity
  | front
  | back
  deriving DecidableEq, Repr

/-- An object of class `extrapolation_rule_t` for a Lagrange basis (src/interpolation/extrapolation_rule_choice.hpp 12-31): DDC's periodic
rule, DDC's null rule, or the index of a coefficient. -/
inductive LagrangeRule
  | periodic
  | null
  | coefficient (k : ℕ)

/-- `get_extrapolation` for a Lagrange basis (src/interpolation/extrapolation_rule_choice.hpp 38-62): `nknots` is the size of `full_domain()`. -/
def lagrangeRule (nknots : ℕ) : Rule → Extremity → LagrangeRule
  | .periodic, _ => .periodic
  | .nullValue, _ => .null
  | .constant, .front => .coefficient 0
  | .constant, .back => .coefficient (nknots - 1)

/-- Value of a rule outside of the domain: the null rule of DDC, `interp_coef(m_coeff_idx)`
(src/interpolation/constant_identity_interpolation_extrapolation_rule.hpp 45-51); the periodic rule is never called (0 here; the evaluator tests
the dimension first). -/
def applyLagrange (coef : ℕ → ℝ) : LagrangeRule → ℝ → ℝ
  | .periodic, _ => 0
  | .null, _ => 0
  | .coefficient k, _ => coef k

/-- The static assertions of `LagrangeInterpolator` (src/interpolation/lagrange_interpolation.hpp 42-43). -/
def lagrangeAccepted (isPeriodic : Bool) (minRule maxRule : Rule) : Bool :=
  (isPeriodic == (minRule == .periodic)) && (isPeriodic == (maxRule == .periodic))

/-- Number of knots `full_domain().size()` (src/interpolation/lagrange_basis_uniform.hpp 130-138, lagrange_basis_non_uniform.hpp 142-156) for
`Nl` cells: `Nl + 1` break points and `D` more if periodic. -/
def nKnots (isPeriodic : Bool) (D Nl : ℕ) : ℕ := if isPeriodic then Nl + 1 + D else Nl + 1

/-- The coefficients made by the builder of the interpolator (`m_builder`, src/interpolation/lagrange_interpolation.hpp 78; knots which the
builder does not reach count as 0). -/
def coeffs (isPeriodic : Bool) (D Nl : ℕ) (vals : ℕ → ℝ) (k : ℕ) : ℝ := (buildCoeffs isPeriodic D Nl vals k).getD 0

/-- Build then evaluate with a `LagrangeInterpolator` on a uniform basis (src/interpolation/lagrange_interpolation.hpp 89-114): the rule for
the front is given to the evaluator first, the one for the back second. The outer `none` is a compilation error. -/
noncomputable def lagrangeU (isPeriodic : Bool) (minRule maxRule : Rule) (eps : ℝ) (D Nl : ℕ) (x0 dx : ℝ) (vals : ℕ → ℝ) :
    Option (ℝ → Option ℝ) :=
  if lagrangeAccepted isPeriodic minRule maxRule then
    let c := coeffs isPeriodic D Nl vals
    let minR := lagrangeRule (nKnots isPeriodic D Nl) minRule .front
    let maxR := lagrangeRule (nKnots isPeriodic D Nl) maxRule .back
    some (evalU isPeriodic eps D Nl x0 dx (applyLagrange c minR) (applyLagrange c maxR) c)
  else none

/-- The same on a non-uniform basis (src/interpolation/lagrange_interpolation.hpp 89-114). -/
noncomputable def lagrangeNU (isPeriodic : Bool) (minRule maxRule : Rule) (eps : ℝ) (D Nl : ℕ) (knot : ℕ → ℝ) (vals : ℕ → ℝ) :
    Option (ℝ → Option ℝ) :=
  if lagrangeAccepted isPeriodic minRule maxRule then
    let c := coeffs isPeriodic D Nl vals
    let minR := lagrangeRule (nKnots isPeriodic D Nl) minRule .front
    let maxR := lagrangeRule (nKnots isPeriodic D Nl) maxRule .back
    some (evalNU isPeriodic eps D Nl knot (applyLagrange c minR) (applyLagrange c maxR) c)
  else none

/-! ## Splines -/

/-- An extrapolation rule object for a spline basis (src/interpolation/extrapolation_rule_choice.hpp 12-31). -/
inductive SplineRule
  | periodic
  | null
  | constantAt (x : ℝ)

/-- `get_extrapolation` for a spline basis (src/interpolation/extrapolation_rule_choice.hpp 38-62). -/
def splineRule (rmin rmax : ℝ) : Rule → Extremity → SplineRule
  | .periodic, _ => .periodic
  | .nullValue, _ => .null
  | .constant, .front => .constantAt rmin
  | .constant, .back => .constantAt rmax

/-- The static assertions of `SplineInterpolator` (src/interpolation/spline_interpolation.hpp 45-48). -/
def splineAccepted (isPeriodic : Bool) (minRule maxRule : Rule) (minBound maxBound : Bound) : Bool :=
  (isPeriodic == (minBound == .periodic)) && (isPeriodic == (maxBound == .periodic)) &&
    (isPeriodic == (minRule == .periodic)) && (isPeriodic == (maxRule == .periodic))

/-- The rules of DDC: `NullExtrapolationRule` is 0, `ConstantExtrapolationRule(p)` is the spline `s` at `p` (chosen at
src/interpolation/extrapolation_rule_choice.hpp 15-30); the periodic one is never called. -/
def applySpline (s : ℝ → ℝ) : SplineRule → ℝ → ℝ
  | .periodic, _ => 0
  | .null, _ => 0
  | .constantAt p, _ => s p

/-- `SplineInterpolator` (src/interpolation/spline_interpolation.hpp 94-134) with the evaluator of DDC: `s` is the spline with the coefficients
made by the builder, on `[rmin, rmax]`; periodic dimensions are wrapped. -/
noncomputable def spline (isPeriodic : Bool) (minRule maxRule : Rule) (minBound maxBound : Bound) (rmin rmax : ℝ) (s : ℝ → ℝ) :
    Option (ℝ → ℝ) :=
  if splineAccepted isPeriodic minRule maxRule minBound maxBound then
    let minR := splineRule rmin rmax minRule .front
    let maxR := splineRule rmin rmax maxRule .back
    some fun x =>
      if isPeriodic then
        s (if x < rmin ∨ x > rmax then x - (⌊(x - rmin) / (rmax - rmin)⌋ : ℝ) * (rmax - rmin) else x)
      else if x < rmin then applySpline s minR x
      else if x > rmax then applySpline s maxR x
      else s x
  else none

end Verif.Interpolators
