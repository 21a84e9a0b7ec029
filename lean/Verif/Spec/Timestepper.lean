import Mathlib.Analysis.Calculus.Deriv.Basic
import Mathlib.Algebra.Polynomial.Derivative
import Mathlib.Algebra.Module.LinearMap.End
import Mathlib.Algebra.BigOperators.Group.Finset.Basic
import Mathlib.Data.Nat.Factorial.Basic

/-! Specification vocabulary for the time steppers (does not mention the model). -/

namespace Verif.Spec.Timestepper

/-- The Taylor polynomial of degree `p` of the exact flow `exp(dt A)` of `y' = A y`, applied to `y`. -/
noncomputable def taylorFlow {V : Type*} [AddCommGroup V] [Module ℝ V]
    (A : V →ₗ[ℝ] V) (p : ℕ) (dt : ℝ) (y : V) : V :=
  ∑ j ∈ Finset.range (p + 1), (dt ^ j / (Nat.factorial j : ℝ)) • (A ^ j) y

/-- The right-hand side of the autonomous system `t' = 1, y' = g(t)`, whose exact solution after `dt` is
`(t + dt, y + G(t+dt) - G(t))` for any primitive `G` of `g`. -/
def timeOnly (g : ℝ → ℝ) (s : ℝ × ℝ) : ℝ × ℝ := (1, g s.1)

/-- `y` solves the Crank-Nicolson equation started at `y0`. -/
def IsCNSolution {V : Type*} [AddCommGroup V] [Module ℝ V] (f : V → V) (y0 : V) (dt : ℝ) (y : V) : Prop :=
  y = y0 + (dt / 2) • (f y0 + f y)

end Verif.Spec.Timestepper
