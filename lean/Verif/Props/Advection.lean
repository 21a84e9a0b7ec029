import Verif.Model.Advection
import Verif.Props.Timestepper
import Mathlib.Analysis.Calculus.Deriv.Comp
import Mathlib.Analysis.Calculus.Deriv.Add
import Mathlib.Analysis.Calculus.Deriv.Mul
import Mathlib.Tactic.Linarith
import Mathlib.Tactic.NormNum
import Mathlib.Tactic.FieldSimp

/-!
# C54: backward semi-Lagrangian advections

Specification: the operator replaces the function by its interpolant evaluated at the feet of the characteristics. `Interpolates` (the interpolant passes through the data),
`ExactOn` (the interpolant of the samples of `g` is `g`) are the properties of the interpolation which the statements need.
-/

namespace Verif.Advection
open Verif.Timestepper

/-- The interpolant of any data takes the data values at the grid points. -/
def Interpolates {I C : Type*} (ip : Interp I C) (coord : I → ℝ) : Prop := ∀ v i, ip.eval (coord i) (ip.build v) = v i

/-- The interpolant of the samples of `g` is `g` itself. -/
def ExactOn {I C : Type*} (ip : Interp I C) (coord : I → ℝ) (g : ℝ → ℝ) : Prop := ∀ x, ip.eval x (ip.build fun i => g (coord i)) = g x

/-- C54: whatever the time stepper (also Crank-Nicolson with any tolerance and any maximal number of iterations), a constant derivative `k` moves the state by exactly `dt k`. -/
theorem c54_stepper_constant {V : Type*} [AddCommGroup V] [Module ℝ V] (st : Stepper) (en : V → V → ℝ) (nm : V → ℝ) (k y : V) (dt : ℝ) :
    st.update en nm defaultUpdate (fun _ => k) y dt = y + dt • k := by
  cases st with
  | euler => rfl
  | rk2 => rfl
  | rk3 =>
    simp only [Stepper.update, rk3, defaultUpdate]
    rw [show k + (4 : ℝ) • k + k = (6 : ℝ) • k by module, smul_smul]
    congr 2; ring
  | rk4 =>
    simp only [Stepper.update, rk4, defaultUpdate]
    rw [show k + (2 : ℝ) • k + (2 : ℝ) • k + k = (6 : ℝ) • k by module, smul_smul]
    congr 2; ring
  | crankNicolson m eps =>
    simp only [Stepper.update, crankNicolson]
    rw [(cnLoop_body defaultUpdate (fun _ => k) en nm m eps y k dt 0 y).1]
    simp only [cnBody, defaultUpdate]
    rw [show k + k = (2 : ℝ) • k by module, smul_smul]
    congr 2; ring

/-- C54: with a zero time step the state does not move, whatever the derivative. -/
theorem c54_stepper_zero {V : Type*} [AddCommGroup V] [Module ℝ V] (st : Stepper) (en : V → V → ℝ) (nm : V → ℝ) (f : V → V) (y : V) :
    st.update en nm defaultUpdate f y 0 = y := by
  cases st with
  | euler => simp [Stepper.update, euler, defaultUpdate]
  | rk2 => simp [Stepper.update, rk2, defaultUpdate]
  | rk3 => simp [Stepper.update, rk3, defaultUpdate]
  | rk4 => simp [Stepper.update, rk4, defaultUpdate]
  | crankNicolson m eps =>
    simp only [Stepper.update, crankNicolson]
    rw [(cnLoop_body defaultUpdate f en nm m eps y (f y) 0 0 y).1]
    simp [cnBody, defaultUpdate]

section
variable {I A B C C' : Type*} (fi : Interp I C) (ai : Interp I C') (coord : I → ℝ) (proj : B → A) (st : Stepper)

/-- C54: on a line where the interpolated advection field is the constant `c`, the new value at `x_i` is the interpolant of the old line at `x_i - c dt` (the minus sign
included), for every time stepper. -/
theorem c54_constant_field (f : B → I → ℝ) (a : A → I → ℝ) (dt c : ℝ) (b : B) (i : I) (hc : ∀ x, ai.eval x (ai.build (a (proj b))) = c) :
    bsl1D fi ai coord proj st f a dt b i = fi.eval (coord i - c * dt) (fi.build (f b)) := by
  simp only [bsl1D]
  have : (fun x => ai.eval x (ai.build (a (proj b)))) = fun _ => c := funext hc
  rw [this, c54_stepper_constant]
  congr 1
  simp; ring

/-- C54: exact translation. If the line holds the samples of a function which the interpolation reproduces, the new line holds the samples of the translated function. -/
theorem c54_translation (g : ℝ → ℝ) (hg : ExactOn fi coord g) (f : B → I → ℝ) (a : A → I → ℝ) (dt c : ℝ) (b : B)
    (hc : ∀ x, ai.eval x (ai.build (a (proj b))) = c) (hf : ∀ i, f b i = g (coord i)) (i : I) :
    bsl1D fi ai coord proj st f a dt b i = g (coord i - c * dt) := by
  rw [c54_constant_field fi ai coord proj st f a dt c b i hc, show f b = fun i => g (coord i) from funext hf, hg]

/-- C54: the translated function is the solution of the transport equation `d/dt u + c d/dx u = 0` with initial value `g`. -/
theorem c54_transport_equation (g : ℝ → ℝ) (hg : Differentiable ℝ g) (c : ℝ) :
    let u := fun t x : ℝ => g (x - c * t)
    (∀ x, u 0 x = g x) ∧
    ∀ t x, ∃ ut ux, HasDerivAt (fun s => u s x) ut t ∧ HasDerivAt (u t) ux x ∧ ut + c * ux = 0 := by
  refine ⟨fun x => by simp, fun t x => ?_⟩
  have hd := (hg (x - c * t)).hasDerivAt
  refine ⟨deriv g (x - c * t) * (-c), deriv g (x - c * t), ?_, ?_, by ring⟩
  · refine hd.comp t ?_
    have := ((hasDerivAt_id t).const_mul c).const_sub x
    simpa using this
  · have h := hd.comp x ((hasDerivAt_id x).sub_const (c * t))
    rw [mul_one] at h
    exact h

/-- C54: a zero time step changes nothing, whatever the advection field and the stepper, when the interpolant passes through the data. -/
theorem c54_zero_step (hi : Interpolates fi coord) (f : B → I → ℝ) (a : A → I → ℝ) : bsl1D fi ai coord proj st f a 0 = f := by
  funext b i
  simp only [bsl1D, neg_zero]
  rw [c54_stepper_zero, hi]

/-- C54: a zero advection field changes nothing, whatever the time step. -/
theorem c54_zero_field (hi : Interpolates fi coord) (f : B → I → ℝ) (a : A → I → ℝ) (dt : ℝ) (b : B)
    (hc : ∀ x, ai.eval x (ai.build (a (proj b))) = 0) (i : I) : bsl1D fi ai coord proj st f a dt b i = f b i := by
  rw [c54_constant_field fi ai coord proj st f a dt 0 b i hc]
  simp [hi (f b) i]

/-- C54: a displacement by an exact number of cells permutes the values: if the foot of `x_i` is the grid point `x_j`, the new value at `i` is the old one at `j`. -/
theorem c54_grid_shift (hi : Interpolates fi coord) (f : B → I → ℝ) (a : A → I → ℝ) (dt c : ℝ) (b : B)
    (hc : ∀ x, ai.eval x (ai.build (a (proj b))) = c) (i j : I) (hij : coord i = coord j + c * dt) :
    bsl1D fi ai coord proj st f a dt b i = f b j := by
  rw [c54_constant_field fi ai coord proj st f a dt c b i hc, show coord i - c * dt = coord j by linarith, hi]

/-- C54: values which are constant on a line stay so, for any advection field (also one which takes the feet far away), when constants are interpolated exactly. -/
theorem c54_constant_function (k : ℝ) (hk : ExactOn fi coord fun _ => k) (f : B → I → ℝ) (a : A → I → ℝ) (dt : ℝ) (b : B) (hf : ∀ i, f b i = k) (i : I) :
    bsl1D fi ai coord proj st f a dt b i = k := by
  simp only [bsl1D]
  rw [show f b = fun _ => k from funext hf]
  exact hk _

/-- C54: the operator is linear in the advected function when the interpolation is. -/
theorem c54_linear (hl : ∀ (x α β : ℝ) (v w : I → ℝ), fi.eval x (fi.build fun i => α * v i + β * w i) = α * fi.eval x (fi.build v) + β * fi.eval x (fi.build w))
    (α β : ℝ) (f g : B → I → ℝ) (a : A → I → ℝ) (dt : ℝ) (b : B) (i : I) :
    bsl1D fi ai coord proj st (fun b i => α * f b i + β * g b i) a dt b i =
      α * bsl1D fi ai coord proj st f a dt b i + β * bsl1D fi ai coord proj st g a dt b i := by
  simp only [bsl1D]
  exact hl _ _ _ _ _

/-- C54: maximum principle. If the interpolant of data in `[lo, hi]` stays in `[lo, hi]` (piecewise linear interpolation), so does the advected function. -/
theorem c54_maximum_principle (lo hi : ℝ) (hm : ∀ v : I → ℝ, (∀ i, lo ≤ v i ∧ v i ≤ hi) → ∀ x, lo ≤ fi.eval x (fi.build v) ∧ fi.eval x (fi.build v) ≤ hi)
    (f : B → I → ℝ) (a : A → I → ℝ) (dt : ℝ) (b : B) (hf : ∀ i, lo ≤ f b i ∧ f b i ≤ hi) (i : I) :
    lo ≤ bsl1D fi ai coord proj st f a dt b i ∧ bsl1D fi ai coord proj st f a dt b i ≤ hi :=
  hm _ hf _

/-- C54: two steps `dt₁`, `dt₂` with the same constant field give one step `dt₁ + dt₂`, for functions of a translation invariant set which the interpolation reproduces. -/
theorem c54_two_steps (S : Set (ℝ → ℝ)) (hS : ∀ g ∈ S, ExactOn fi coord g) (hT : ∀ g ∈ S, ∀ s : ℝ, (fun x => g (x - s)) ∈ S)
    (g : ℝ → ℝ) (hg : g ∈ S) (f : B → I → ℝ) (a : A → I → ℝ) (dt₁ dt₂ c : ℝ) (b : B)
    (hc : ∀ x, ai.eval x (ai.build (a (proj b))) = c) (hf : ∀ i, f b i = g (coord i)) (i : I) :
    bsl1D fi ai coord proj st (bsl1D fi ai coord proj st f a dt₁) a dt₂ b i = bsl1D fi ai coord proj st f a (dt₁ + dt₂) b i := by
  rw [c54_translation fi ai coord proj st (fun x => g (x - c * dt₁)) (hS _ (hT g hg _)) _ a dt₂ c b hc
      (fun j => c54_translation fi ai coord proj st g (hS g hg) f a dt₁ c b hc hf j),
    c54_translation fi ai coord proj st g (hS g hg) f a (dt₁ + dt₂) c b hc hf]
  congr 1; ring

/-- C54: the lines are independent: the result on a line depends only on this line of the function and on the line of the field it is projected to. -/
theorem c54_lines_independent (f f' : B → I → ℝ) (a a' : A → I → ℝ) (dt : ℝ) (b : B) (hf : f b = f' b) (ha : a (proj b) = a' (proj b)) :
    bsl1D fi ai coord proj st f a dt b = bsl1D fi ai coord proj st f' a' dt b := by
  funext i
  simp only [bsl1D, hf, ha]

/-- C54: a velocity field `α x` reproduced by its interpolation: the feet are the stability polynomial of the stepper at `-α dt` times the point, here for Euler, RK2, RK3 and RK4
(the Taylor polynomials of `exp (-α dt)`). -/
theorem c54_linear_field (f : B → I → ℝ) (a : A → I → ℝ) (dt α : ℝ) (b : B) (i : I) (hc : ∀ x, ai.eval x (ai.build (a (proj b))) = α * x) :
    let z := -(α * dt)
    bsl1D fi ai coord proj .euler f a dt b i = fi.eval ((1 + z) * coord i) (fi.build (f b)) ∧
    bsl1D fi ai coord proj .rk2 f a dt b i = fi.eval ((1 + z + z ^ 2 / 2) * coord i) (fi.build (f b)) ∧
    bsl1D fi ai coord proj .rk3 f a dt b i = fi.eval ((1 + z + z ^ 2 / 2 + z ^ 3 / 6) * coord i) (fi.build (f b)) ∧
    bsl1D fi ai coord proj .rk4 f a dt b i = fi.eval ((1 + z + z ^ 2 / 2 + z ^ 3 / 6 + z ^ 4 / 24) * coord i) (fi.build (f b)) := by
  have h5 : (0.5 : ℝ) = 1 / 2 := by norm_num
  intro z
  simp only [bsl1D, hc, Stepper.update, euler, rk2, rk3, rk4, defaultUpdate, smul_eq_mul, z, h5]
  refine ⟨?_, ?_, ?_, ?_⟩ <;> (congr 1; ring)

end

/-- C54: the spatial advection is the general advection with the constant field `sqrt(m_e / m_s) v` on each line, for every time stepper. -/
theorem c54_spatial {I B C C' : Type*} (fi : Interp I C) (ai : Interp I C') (coord : I → ℝ) (st : Stepper) (vel : B → ℝ) (me ms : ℝ)
    (f : B → I → ℝ) (a : B → I → ℝ) (dt : ℝ) (ha : ∀ b x, ai.eval x (ai.build (a b)) = Real.sqrt (me / ms) * vel b) :
    bslX fi coord vel me ms f dt = bsl1D fi ai coord id st f a dt := by
  funext b i
  rw [c54_constant_field fi ai coord id st f a dt _ b i (ha b)]
  simp only [bslX]
  congr 1; ring

/-- C54: the velocity advection is the general advection with the constant field `q_s sqrt(m_e / m_s) E` on each line, for every time stepper. -/
theorem c54_velocity {I B C C' : Type*} (fi : Interp I C) (ai : Interp I C') (coord : I → ℝ) (st : Stepper) (efield : B → ℝ) (q me ms : ℝ)
    (f : B → I → ℝ) (a : B → I → ℝ) (dt : ℝ) (ha : ∀ b x, ai.eval x (ai.build (a b)) = q * Real.sqrt (me / ms) * efield b) :
    bslV fi coord efield q me ms f dt = bsl1D fi ai coord id st f a dt := by
  funext b i
  rw [c54_constant_field fi ai coord id st f a dt _ b i (ha b)]
  simp only [bslV]
  congr 1; ring

/-- C54: explicit values: for exactly interpolated samples of `g`, the spatial advection gives `g (x - sqrt(m_e/m_s) v dt)` and the velocity one `g (v - q sqrt(m_e/m_s) E dt)`. -/
theorem c54_vlasov_translation {I B C : Type*} (fi : Interp I C) (coord : I → ℝ) (g : B → ℝ → ℝ) (hg : ∀ b, ExactOn fi coord (g b)) (w : B → ℝ) (q me ms dt : ℝ) (b : B) (i : I) :
    bslX fi coord w me ms (fun b i => g b (coord i)) dt b i = g b (coord i - Real.sqrt (me / ms) * w b * dt) ∧
    bslV fi coord w q me ms (fun b i => g b (coord i)) dt b i = g b (coord i - q * Real.sqrt (me / ms) * w b * dt) := by
  refine ⟨?_, ?_⟩
  · simp only [bslX]; rw [hg b]; congr 1; ring
  · simp only [bslV]; rw [hg b]; congr 1; ring

/-- C54: a zero charge, a zero field or a zero time step leave the distribution as the null velocity advection does. -/
theorem c54_null {I B C E : Type*} (fi : Interp I C) (coord : I → ℝ) (hi : Interpolates fi coord) (efield : B → ℝ) (q me ms dt : ℝ) (f : B → I → ℝ) (e : E)
    (h : q = 0 ∨ dt = 0 ∨ ∀ b, efield b = 0) : bslV fi coord efield q me ms f dt = nullAdvection f e dt := by
  funext b i
  simp only [bslV, nullAdvection]
  have : q * Real.sqrt (me / ms) * dt * efield b = 0 := by
    rcases h with h | h | h <;> simp [h]
  rw [this, sub_zero, hi]

/-! ## A concrete interpolation: the straight line through two points `0`, `1` -/

/-- Linear interpolation on the points `0` and `1`. -/
def line01 : Interp Bool (ℝ × ℝ) where
  build v := (v false, v true)
  eval x c := c.1 + (c.2 - c.1) * x

/-- The coordinates `0` and `1`. -/
def coord01 : Bool → ℝ := fun b => if b then 1 else 0

theorem line01_interpolates : Interpolates line01 coord01 := by
  rintro v (_ | _) <;> simp [line01, coord01]

theorem line01_exact (p q : ℝ) : ExactOn line01 coord01 fun x => p + q * x := by
  intro x; simp [line01, coord01]

/-- The hypotheses are met: an affine profile on two points advected with speed `3` for a time `1/2` by Crank-Nicolson. -/
example : bsl1D line01 line01 coord01 id (.crankNicolson 20 1e-12) (fun (_ : Unit) i => 1 + 2 * coord01 i) (fun _ _ => 3) (1 / 2) () true = 0 := by
  rw [c54_translation line01 line01 coord01 id _ (fun x => 1 + 2 * x) (line01_exact 1 2) _ _ _ 3 () (by intro x; simp [line01]) (fun _ => rfl)]
  norm_num [coord01]

/-- The set of affine functions meets the hypotheses of `c54_two_steps`. -/
example : ∃ S : Set (ℝ → ℝ), (∀ g ∈ S, ExactOn line01 coord01 g) ∧ (∀ g ∈ S, ∀ s : ℝ, (fun x => g (x - s)) ∈ S) ∧ (fun x => 1 + 2 * x) ∈ S := by
  refine ⟨{g | ∃ p q : ℝ, g = fun x => p + q * x}, ?_, ?_, ⟨1, 2, rfl⟩⟩
  · rintro g ⟨p, q, rfl⟩; exact line01_exact p q
  · rintro g ⟨p, q, rfl⟩ s; exact ⟨p - q * s, q, by funext x; ring⟩

end Verif.Advection
