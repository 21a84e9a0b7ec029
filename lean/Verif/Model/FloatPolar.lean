import Verif.Model.FloatWrap
import Verif.Model.CircularMapping

/-!
# Polar coordinates in floating-point arithmetic

`cartesian_to_circular.hpp:127-136` and `circular_to_cartesian.hpp:143-150` with rounded operations: `R x y` says that `y` is a possible result of an arithmetic operation (or square root) whose exact result is
`x`, `M x y` the same for a function of the mathematical library (`atan2`, `cos`, `sin`). Simplifications: unbounded exponents, no signed zeros, no contraction of `x * x + y * y` into a fused operation.
-/

namespace Verif.FloatPolar

open Verif.Mappings

/-- `M_PI`, the double nearest to `π`; `2 * M_PI` is exact. Used in `cartesian_to_circular.hpp:134`. -/
noncomputable def mPi : ℝ := 884279719003555 / 2 ^ 48

/-- The angle from the result `t` of `atan2`, `cartesian_to_circular.hpp:133-134`: the products with the truth values `0` and `1` and the sum with zero are exact, so one addition is rounded. The same value is
computed in `cartesian_to_cylindrical.hpp:143` and `cartesian_to_czarny.hpp:152-154`. -/
def Angle (R : ℝ → ℝ → Prop) (t theta : ℝ) : Prop := if 0 ≤ t then theta = t else R (t + 2 * mPi) theta

/-- `CartesianToCircular::operator()`, `cartesian_to_circular.hpp:127-136`. -/
def CartToCirc (R M : ℝ → ℝ → Prop) (o p q : ℝ × ℝ) : Prop :=
  ∃ x y xx yy s t, R (p.1 - o.1) x ∧ R (p.2 - o.2) y ∧ R (x * x) xx ∧ R (y * y) yy ∧ R (xx + yy) s ∧ R (Real.sqrt s) q.1 ∧ M (atan2 y x) t ∧ Angle R t q.2

/-- `CircularToCartesian::operator()`, `circular_to_cartesian.hpp:143-150`. -/
def CircToCart (R M : ℝ → ℝ → Prop) (o q p : ℝ × ℝ) : Prop :=
  ∃ c s rc rs, M (Real.cos q.2) c ∧ M (Real.sin q.2) s ∧ R (q.1 * c) rc ∧ R (q.1 * s) rs ∧ R (rc + o.1) p.1 ∧ R (rs + o.2) p.2

end Verif.FloatPolar
