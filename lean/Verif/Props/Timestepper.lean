import Verif.Model.Timestepper
import Verif.Spec.Timestepper
import Mathlib.Tactic.Module
import Mathlib.Tactic.NormNum
import Mathlib.Tactic.Linarith
import Mathlib.Algebra.Polynomial.Eval.Degree
import Mathlib.Analysis.Normed.Field.Basic

/-! Properties C05, C06, C07 of the time steppers. -/

namespace Verif.Timestepper
open Verif.Spec.Timestepper

section Linear
variable {V : Type*} [AddCommGroup V] [Module ℝ V]

/-- C05 (linear problems), Euler: one step on `y' = A y` is the degree 1 Taylor polynomial of the flow. -/
theorem c05_euler_linear (A : V →ₗ[ℝ] V) (y : V) (dt : ℝ) :
    euler defaultUpdate A y dt = taylorFlow A 1 dt y := by
  simp [euler, defaultUpdate, taylorFlow, Finset.sum_range_succ]

/-- C05 (linear problems), RK2. -/
theorem c05_rk2_linear (A : V →ₗ[ℝ] V) (y : V) (dt : ℝ) :
    rk2 defaultUpdate A y dt = taylorFlow A 2 dt y := by
  simp [rk2, defaultUpdate, taylorFlow, Finset.sum_range_succ, pow_succ, Nat.factorial]
  module

/-- C05 (linear problems), RK3. -/
theorem c05_rk3_linear (A : V →ₗ[ℝ] V) (y : V) (dt : ℝ) :
    rk3 defaultUpdate A y dt = taylorFlow A 3 dt y := by
  simp [rk3, defaultUpdate, taylorFlow, Finset.sum_range_succ, pow_succ, Nat.factorial]
  module

/-- C05 (linear problems), RK4. -/
theorem c05_rk4_linear (A : V →ₗ[ℝ] V) (y : V) (dt : ℝ) :
    rk4 defaultUpdate A y dt = taylorFlow A 4 dt y := by
  simp [rk4, defaultUpdate, taylorFlow, Finset.sum_range_succ, pow_succ, Nat.factorial]
  module

end Linear

section Quadrature
open Polynomial

/-- C05 (pure quadrature), Euler: exact for a constant derivative. -/
theorem c05_euler_quadrature (G : ℝ[X]) (hG : G.natDegree ≤ 1) (t y dt : ℝ) :
    euler defaultUpdate (timeOnly fun s => G.derivative.eval s) (t, y) dt
      = (t + dt, y + (G.eval (t + dt) - G.eval t)) := by
  have h1 : ∀ s : ℝ, G.eval s = ∑ i ∈ Finset.range 2, G.coeff i * s ^ i := fun s =>
    Polynomial.eval_eq_sum_range' (by omega) s
  have h2 : ∀ s : ℝ, G.derivative.eval s = ∑ i ∈ Finset.range 2, G.derivative.coeff i * s ^ i := fun s =>
    Polynomial.eval_eq_sum_range' (by have := Polynomial.natDegree_derivative_le G; omega) s
  have h3 : G.coeff 2 = 0 := Polynomial.coeff_eq_zero_of_natDegree_lt (by omega)
  simp [euler, defaultUpdate, timeOnly, h1, h2, Finset.sum_range_succ, Polynomial.coeff_derivative, h3]
  ring

/-- C05 (pure quadrature), RK2: exact when the derivative is a polynomial of degree at most 1. -/
theorem c05_rk2_quadrature (G : ℝ[X]) (hG : G.natDegree ≤ 2) (t y dt : ℝ) :
    rk2 defaultUpdate (timeOnly fun s => G.derivative.eval s) (t, y) dt
      = (t + dt, y + (G.eval (t + dt) - G.eval t)) := by
  have h1 : ∀ s : ℝ, G.eval s = ∑ i ∈ Finset.range 3, G.coeff i * s ^ i := fun s =>
    Polynomial.eval_eq_sum_range' (by omega) s
  have h2 : ∀ s : ℝ, G.derivative.eval s = ∑ i ∈ Finset.range 3, G.derivative.coeff i * s ^ i := fun s =>
    Polynomial.eval_eq_sum_range' (by have := Polynomial.natDegree_derivative_le G; omega) s
  have h3 : G.coeff 3 = 0 := Polynomial.coeff_eq_zero_of_natDegree_lt (by omega)
  simp [rk2, defaultUpdate, timeOnly, h1, h2, Finset.sum_range_succ, Polynomial.coeff_derivative, h3]
  ring

/-- C05 (pure quadrature), RK3: exact when the derivative is a polynomial of degree at most 3
(one more than the order requires). -/
theorem c05_rk3_quadrature (G : ℝ[X]) (hG : G.natDegree ≤ 4) (t y dt : ℝ) :
    rk3 defaultUpdate (timeOnly fun s => G.derivative.eval s) (t, y) dt
      = (t + dt, y + (G.eval (t + dt) - G.eval t)) := by
  have h1 : ∀ s : ℝ, G.eval s = ∑ i ∈ Finset.range 5, G.coeff i * s ^ i := fun s =>
    Polynomial.eval_eq_sum_range' (by omega) s
  have h2 : ∀ s : ℝ, G.derivative.eval s = ∑ i ∈ Finset.range 5, G.derivative.coeff i * s ^ i := fun s =>
    Polynomial.eval_eq_sum_range' (by have := Polynomial.natDegree_derivative_le G; omega) s
  have h3 : G.coeff 5 = 0 := Polynomial.coeff_eq_zero_of_natDegree_lt (by omega)
  simp [rk3, defaultUpdate, timeOnly, h1, h2, Finset.sum_range_succ, Polynomial.coeff_derivative, h3]
  constructor <;> ring

/-- C05 (pure quadrature), RK4: exact when the derivative is a polynomial of degree at most 3. -/
theorem c05_rk4_quadrature (G : ℝ[X]) (hG : G.natDegree ≤ 4) (t y dt : ℝ) :
    rk4 defaultUpdate (timeOnly fun s => G.derivative.eval s) (t, y) dt
      = (t + dt, y + (G.eval (t + dt) - G.eval t)) := by
  have h1 : ∀ s : ℝ, G.eval s = ∑ i ∈ Finset.range 5, G.coeff i * s ^ i := fun s =>
    Polynomial.eval_eq_sum_range' (by omega) s
  have h2 : ∀ s : ℝ, G.derivative.eval s = ∑ i ∈ Finset.range 5, G.derivative.coeff i * s ^ i := fun s =>
    Polynomial.eval_eq_sum_range' (by have := Polynomial.natDegree_derivative_le G; omega) s
  have h3 : G.coeff 5 = 0 := Polynomial.coeff_eq_zero_of_natDegree_lt (by omega)
  simp [rk4, defaultUpdate, timeOnly, h1, h2, Finset.sum_range_succ, Polynomial.coeff_derivative, h3]
  constructor <;> ring

/-- A non-trivial instance of the hypotheses: `G = X^4`, derivative `4 t^3`. -/
example : ((X : ℝ[X]) ^ 4).natDegree ≤ 4 ∧ ((X : ℝ[X]) ^ 4).derivative.eval 1 = 4 := by
  constructor
  · simp
  · norm_num [Polynomial.derivative_X_pow]

end Quadrature

section Invariants
variable {V : Type*} [AddCommGroup V] [Module ℝ V]

/-- C06, equilibria: every explicit stepper leaves a state with zero derivative unchanged. -/
theorem c06_equilibrium (f : V → V) (y : V) (dt : ℝ) (hf : f y = 0) :
    euler defaultUpdate f y dt = y ∧ rk2 defaultUpdate f y dt = y ∧
    rk3 defaultUpdate f y dt = y ∧ rk4 defaultUpdate f y dt = y := by
  refine ⟨?_, ?_, ?_, ?_⟩ <;>
    simp [euler, rk2, rk3, rk4, defaultUpdate, hf]

/-- C06, linear invariants: a linear functional that annihilates every derivative is conserved. -/
theorem c06_linear_invariant {W : Type*} [AddCommGroup W] [Module ℝ W] (L : V →ₗ[ℝ] W) (f : V → V)
    (hL : ∀ z, L (f z) = 0) (y : V) (dt : ℝ) :
    L (euler defaultUpdate f y dt) = L y ∧ L (rk2 defaultUpdate f y dt) = L y ∧
    L (rk3 defaultUpdate f y dt) = L y ∧ L (rk4 defaultUpdate f y dt) = L y := by
  refine ⟨?_, ?_, ?_, ?_⟩ <;>
    simp [euler, rk2, rk3, rk4, defaultUpdate, hL]

/-- General principle behind the Crank-Nicolson statements: whatever the loop returns was produced by
the loop body from `yOld`. -/
theorem cnLoop_body {Y K : Type*} [AddCommGroup K] (upd : Y → K → ℝ → Y) (f : Y → K)
    (errNorm : Y → Y → ℝ) (norm : Y → ℝ) (mc : ℕ) (eps : ℝ) (y0 : Y) (k1 : K) (dt : ℝ) (c : ℕ) (y : Y) :
    let r := cnLoop upd f errNorm norm mc eps y0 k1 dt c y
    r.y = cnBody upd f y0 k1 dt r.yOld ∧
    r.notConv = notConverged (errNorm r.yOld r.y) (norm r.yOld) eps ∧
    c < r.counter ∧ (r.counter = c + 1 ∨ r.counter ≤ mc) ∧
    (r.notConv = true → mc ≤ r.counter) := by
  induction c, y using cnLoop.induct upd f errNorm norm mc eps y0 k1 dt with
  | case1 c y c' yo yn nc h ih =>
    rw [cnLoop]
    simp only [c', yo, yn, nc] at h ih
    simp only [h, if_true]
    refine ⟨ih.1, ih.2.1, by have := ih.2.2.1; omega, ?_, ih.2.2.2.2⟩
    right
    simp only [Bool.and_eq_true, decide_eq_true_eq] at h
    rcases ih.2.2.2.1 with h' | h'
    · rw [h']; omega
    · exact h'
  | case2 c y c' yo yn nc h =>
    rw [cnLoop]
    simp only [c', yo, yn, nc] at h
    simp only [h]
    refine ⟨rfl, rfl, by simp, Or.inl rfl, ?_⟩
    intro h2
    simp only [Bool.false_eq_true, if_false] at h2 ⊢
    simp only [h2, Bool.true_and, decide_eq_true_eq, not_lt] at h
    exact h

/-- The iterates of the loop body stay in any set closed under the body. -/
theorem cnLoop_invariant {Y K : Type*} [AddCommGroup K] (upd : Y → K → ℝ → Y) (f : Y → K)
    (errNorm : Y → Y → ℝ) (norm : Y → ℝ) (mc : ℕ) (eps : ℝ) (y0 : Y) (k1 : K) (dt : ℝ)
    (P : Y → Prop) (hP : ∀ z, P z → P (cnBody upd f y0 k1 dt z)) (c : ℕ) (y : Y) (hy : P y) :
    P (cnLoop upd f errNorm norm mc eps y0 k1 dt c y).y := by
  induction c, y using cnLoop.induct upd f errNorm norm mc eps y0 k1 dt with
  | case1 c y c' yo yn nc h ih =>
    rw [cnLoop]
    simp only [c', yo, yn, nc] at h ih
    simp only [h, if_true]
    exact ih (hP _ hy)
  | case2 c y c' yo yn nc h =>
    rw [cnLoop]
    simp only [c', yo, yn, nc] at h
    simp only [h]
    exact hP _ hy

/-- C06 for Crank-Nicolson: equilibria are kept. -/
theorem c06_cn_equilibrium (errNorm : V → V → ℝ) (norm : V → ℝ) (mc : ℕ) (eps : ℝ)
    (f : V → V) (y : V) (dt : ℝ) (hf : f y = 0) :
    (crankNicolson defaultUpdate f errNorm norm mc eps y dt).y = y :=
  cnLoop_invariant _ _ _ _ _ _ _ _ _ (fun z => z = y)
    (by rintro z rfl; simp [cnBody, defaultUpdate, hf]) _ _ rfl

/-- C06 for Crank-Nicolson: linear invariants are kept. -/
theorem c06_cn_linear_invariant {W : Type*} [AddCommGroup W] [Module ℝ W] (L : V →ₗ[ℝ] W)
    (errNorm : V → V → ℝ) (norm : V → ℝ) (mc : ℕ) (eps : ℝ) (f : V → V)
    (hL : ∀ z, L (f z) = 0) (y : V) (dt : ℝ) :
    L (crankNicolson defaultUpdate f errNorm norm mc eps y dt).y = L y :=
  cnLoop_invariant _ _ _ _ _ _ _ _ _ (fun z => L z = L y)
    (by intro z _; simp [cnBody, defaultUpdate, hL]) _ _ rfl

/-- The hypotheses of the invariant theorems are met by a rotation field: `L` is the third coordinate. -/
example : ∃ (L : (ℝ × ℝ × ℝ) →ₗ[ℝ] ℝ) (f : ℝ × ℝ × ℝ → ℝ × ℝ × ℝ),
    (∀ z, L (f z) = 0) ∧ f (1, 0, 1) ≠ 0 ∧ L (0, 0, 1) ≠ 0 :=
  ⟨(LinearMap.snd ℝ ℝ ℝ).comp (LinearMap.snd ℝ ℝ (ℝ × ℝ)), fun z => (-z.2.1, z.1, 0),
    by simp, by simp, by simp⟩

end Invariants

section CN
variable {V : Type*} [AddCommGroup V] [Module ℝ V]

/-- C07, iteration count: at least one pass, and at most `max 1 max_counter`. -/
theorem c07_iteration_count {Y K : Type*} [AddCommGroup K] (upd : Y → K → ℝ → Y) (f : Y → K)
    (errNorm : Y → Y → ℝ) (norm : Y → ℝ) (mc : ℕ) (eps : ℝ) (y : Y) (dt : ℝ) :
    1 ≤ (crankNicolson upd f errNorm norm mc eps y dt).counter ∧
    (crankNicolson upd f errNorm norm mc eps y dt).counter ≤ max 1 mc := by
  have h := cnLoop_body upd f errNorm norm mc eps y (f y) dt 0 y
  simp only [crankNicolson]
  obtain ⟨_, _, h1, h2, _⟩ := h
  constructor
  · omega
  · rcases h2 with h2 | h2
    · rw [h2]; simp
    · exact le_trans h2 (le_max_right _ _)

/-- C07, exit reason: when fewer than `max_counter` iterations were done the relative
change of the last iteration was below the tolerance (or both the change and the previous iterate are zero). -/
theorem c07_converged_meaning {Y K : Type*} [AddCommGroup K] (upd : Y → K → ℝ → Y) (f : Y → K)
    (errNorm : Y → Y → ℝ) (norm : Y → ℝ) (mc : ℕ) (eps : ℝ) (y : Y) (dt : ℝ) :
    let r := crankNicolson upd f errNorm norm mc eps y dt
    r.counter < mc →
    (norm r.yOld ≠ 0 ∧ errNorm r.yOld r.y / norm r.yOld < eps) ∨
    (norm r.yOld = 0 ∧ errNorm r.yOld r.y = 0) := by
  intro r hlt
  have h := cnLoop_body upd f errNorm norm mc eps y (f y) dt 0 y
  obtain ⟨_, h1, _, _, h2⟩ := h
  change r.notConv = true → mc ≤ r.counter at h2
  change r.notConv = notConverged (errNorm r.yOld r.y) (norm r.yOld) eps at h1
  have h3 : r.notConv = false := by
    by_contra hne
    have := h2 (by simpa using hne)
    omega
  rw [h3] at h1
  unfold notConverged at h1
  split_ifs at h1 with h0
  · right; exact ⟨h0, by simpa using h1.symm⟩
  · left; exact ⟨h0, by simpa using h1.symm⟩

/-- C07, meaning of the returned state: with the default update and any initial state, the returned state is the
Crank-Nicolson right-hand side evaluated at the previous iterate; hence if the last iteration did not move,
the returned state solves the Crank-Nicolson equation exactly. -/
theorem c07_fixed_point (f : V → V) (errNorm : V → V → ℝ) (norm : V → ℝ) (mc : ℕ) (eps : ℝ) (y0 : V) (dt : ℝ) :
    let r := crankNicolson defaultUpdate f errNorm norm mc eps y0 dt
    r.y = y0 + (dt / 2) • (f y0 + f r.yOld) ∧
    (r.yOld = r.y → IsCNSolution f y0 dt r.y) := by
  intro r
  have h := (cnLoop_body defaultUpdate f errNorm norm mc eps y0 (f y0) dt 0 y0).1
  change r.y = cnBody defaultUpdate f y0 (f y0) dt r.yOld at h
  have h' : r.y = y0 + (dt / 2) • (f y0 + f r.yOld) := by
    rw [h]; simp only [cnBody, defaultUpdate]; congr 2; ring
  refine ⟨h', fun he => ?_⟩
  unfold IsCNSolution
  rw [he] at h'
  exact h'

/-- C07, with a norm and a Lipschitz derivative: a converged exit bounds the residual of the Crank-Nicolson
equation by `|dt|/2 * Lip * eps * ‖yOld‖`. -/
theorem c07_residual {E : Type*} [NormedAddCommGroup E] [NormedSpace ℝ E] (f : E → E) (Lip : ℝ)
    (hLip : ∀ a b, ‖f a - f b‖ ≤ Lip * ‖a - b‖) (hL0 : 0 ≤ Lip) (mc : ℕ) (eps : ℝ) (heps : 0 ≤ eps) (y0 : E) (dt : ℝ) :
    let r := crankNicolson defaultUpdate f (fun a b => ‖a - b‖) (fun a => ‖a‖) mc eps y0 dt
    r.counter < mc →
    ‖r.y - (y0 + (dt / 2) • (f y0 + f r.y))‖ ≤ |dt| / 2 * Lip * (eps * ‖r.yOld‖) := by
  intro r hlt
  have h1 := (c07_fixed_point f (fun a b => ‖a - b‖) (fun a => ‖a‖) mc eps y0 dt).1
  change r.y = _ at h1
  have h2 := c07_converged_meaning defaultUpdate f (fun a b => ‖a - b‖) (fun a => ‖a‖) mc eps y0 dt hlt
  have h3 : ‖r.yOld - r.y‖ ≤ eps * ‖r.yOld‖ := by
    rcases h2 with ⟨hn, hl⟩ | ⟨hn, hl⟩
    · have hpos : 0 < ‖r.yOld‖ := lt_of_le_of_ne (norm_nonneg _) (Ne.symm hn)
      exact le_of_lt ((div_lt_iff₀ hpos).1 hl)
    · change ‖r.yOld - r.y‖ = 0 at hl
      rw [hl]; exact mul_nonneg heps (norm_nonneg _)
  have h4 : r.y - (y0 + (dt / 2) • (f y0 + f r.y)) = (dt / 2) • (f r.yOld - f r.y) := by
    conv_lhs => rw [sub_eq_add_neg]; lhs; rw [h1]
    module
  rw [h4, norm_smul, Real.norm_eq_abs, abs_div, abs_two]
  have h5 := hLip r.yOld r.y
  have h6 : 0 ≤ |dt| / 2 := by positivity
  calc |dt| / 2 * ‖f r.yOld - f r.y‖ ≤ |dt| / 2 * (Lip * ‖r.yOld - r.y‖) :=
        mul_le_mul_of_nonneg_left h5 h6
    _ ≤ |dt| / 2 * (Lip * (eps * ‖r.yOld‖)) :=
        mul_le_mul_of_nonneg_left (mul_le_mul_of_nonneg_left h3 hL0) h6
    _ = _ := by ring

/-- C07, the iteration limit really bounds: with `max_counter = 1` a non-trivial problem stops unconverged after one pass. -/
example : (crankNicolson (Y := ℝ) defaultUpdate (fun y => y) (fun a b => |a - b|) (fun a => |a|) 1 (1/10) 1 1).counter = 1 := by
  have h := c07_iteration_count (Y := ℝ) defaultUpdate (fun y => y) (fun a b => |a - b|) (fun a => |a|) 1 (1/10) 1 1
  have h1 := h.1
  have h2 := h.2
  simp only [max_self] at h2
  omega

/-- The hypotheses of `c07_converged_meaning`/`c07_residual` are met by a moving problem: `y' = y`, `dt = 1`,
tolerance 2, limit 5 stops after one pass, with a converged flag. -/
example : (crankNicolson (Y := ℝ) defaultUpdate (fun y => y) (fun a b => |a - b|) (fun a => |a|) 5 2 1 1).counter < 5 := by
  rw [crankNicolson, cnLoop]
  norm_num [notConverged, cnBody, defaultUpdate]

end CN

end Verif.Timestepper
