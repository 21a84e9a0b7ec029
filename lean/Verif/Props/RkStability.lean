import Verif.Props.Timestepper
import Mathlib.Analysis.InnerProductSpace.Basic
import Mathlib.Analysis.Complex.Basic
import Mathlib.Analysis.SpecificLimits.Basic
import Mathlib.Tactic.Module
import Mathlib.Tactic.Linarith
import Mathlib.Tactic.LinearCombination
import Mathlib.Tactic.NormNum
import Mathlib.Tactic.Positivity

/-!
# C122: the largest stable time steps of the time steppers

Specification: a linear equation `y' = A y` which conserves the energy, `(A v, v) = 0` for all `v` (oscillations, rotations, transport discretised by centred differences), with frequencies at most `β`, that is `|A v| ≤ β |v|`; and
the decay `y' = - λ y`.
-/

namespace Verif.Timestepper
open Finset Filter Topology Verif.Spec.Timestepper

section Conservative

variable {E : Type*} [NormedAddCommGroup E] [InnerProductSpace ℝ E]

local notation "⟪" x ", " y "⟫" => inner ℝ x y

theorem skew_of (A : E →ₗ[ℝ] E) (hA : ∀ v, ⟪A v, v⟫ = 0) (u v : E) : ⟪A u, v⟫ = -⟪u, A v⟫ := by
  have h := hA (u + v)
  rw [map_add, inner_add_left, inner_add_right, inner_add_right, hA u, hA v, real_inner_comm u (A v)] at h
  linarith

theorem skew_inner (A : E →ₗ[ℝ] E) (hA : ∀ v, ⟪A v, v⟫ = 0) (y : E) :
    ⟪y, A y⟫ = 0 ∧ ⟪y, A (A y)⟫ = -‖A y‖ ^ 2 ∧ ⟪y, A (A (A y))⟫ = 0 ∧ ⟪y, A (A (A (A y)))⟫ = ‖A (A y)‖ ^ 2 := by
  have h1 : ∀ u, ⟪u, A u⟫ = 0 := fun u => by rw [real_inner_comm]; exact hA u
  have h2 : ∀ u, ⟪u, A (A u)⟫ = -‖A u‖ ^ 2 := fun u => by rw [← real_inner_self_eq_norm_sq, skew_of A hA u (A u)]; ring
  have h3 : ∀ u, ⟪u, A (A (A u))⟫ = 0 := fun u => by
    have := skew_of A hA u (A (A u))
    rw [h1 (A u)] at this; linarith
  refine ⟨h1 y, h2 y, h3 y, ?_⟩
  have := skew_of A hA y (A (A (A y)))
  rw [h2 (A y)] at this; linarith

/-- The energy after one step of each explicit time stepper. -/
theorem energy_euler (A : E →ₗ[ℝ] E) (hA : ∀ v, ⟪A v, v⟫ = 0) (y : E) (dt : ℝ) : ‖euler defaultUpdate A y dt‖ ^ 2 = ‖y‖ ^ 2 + dt ^ 2 * ‖A y‖ ^ 2 := by
  obtain ⟨a1, -, -, -⟩ := skew_inner A hA y
  have e : euler defaultUpdate A y dt = y + dt • A y := rfl
  have c1 : ⟪A y, y⟫ = 0 := hA y
  rw [e, ← real_inner_self_eq_norm_sq]
  simp only [inner_add_left, inner_add_right, real_inner_smul_left, real_inner_smul_right, a1, c1, real_inner_self_eq_norm_sq, norm_smul, mul_pow, Real.norm_eq_abs, sq_abs]
  ring

theorem energy_rk2 (A : E →ₗ[ℝ] E) (hA : ∀ v, ⟪A v, v⟫ = 0) (y : E) (dt : ℝ) : ‖rk2 defaultUpdate A y dt‖ ^ 2 = ‖y‖ ^ 2 + dt ^ 4 / 4 * ‖A (A y)‖ ^ 2 := by
  obtain ⟨a1, a2, -, -⟩ := skew_inner A hA y
  obtain ⟨b1, -, -, -⟩ := skew_inner A hA (A y)
  have e : rk2 defaultUpdate A y dt = y + dt • A y + (dt ^ 2 / 2) • A (A y) := by
    simp only [rk2, defaultUpdate, map_add, map_smul]; module
  have c1 : ⟪A y, y⟫ = 0 := hA y
  have c2 : ⟪A (A y), y⟫ = -‖A y‖ ^ 2 := by rw [real_inner_comm]; exact a2
  have c3 : ⟪A (A y), A y⟫ = 0 := hA _
  rw [e, ← real_inner_self_eq_norm_sq]
  simp only [inner_add_left, inner_add_right, real_inner_smul_left, real_inner_smul_right, a1, a2, b1, c1, c2, c3, real_inner_self_eq_norm_sq, norm_smul, mul_pow, Real.norm_eq_abs, sq_abs]
  ring

theorem energy_rk3 (A : E →ₗ[ℝ] E) (hA : ∀ v, ⟪A v, v⟫ = 0) (y : E) (dt : ℝ) :
    ‖rk3 defaultUpdate A y dt‖ ^ 2 = ‖y‖ ^ 2 - dt ^ 4 / 12 * ‖A (A y)‖ ^ 2 + dt ^ 6 / 36 * ‖A (A (A y))‖ ^ 2 := by
  obtain ⟨a1, a2, a3, -⟩ := skew_inner A hA y
  obtain ⟨b1, b2, -, -⟩ := skew_inner A hA (A y)
  obtain ⟨d1, -, -, -⟩ := skew_inner A hA (A (A y))
  have e : rk3 defaultUpdate A y dt = y + dt • A y + (dt ^ 2 / 2) • A (A y) + (dt ^ 3 / 6) • A (A (A y)) := by
    simp only [rk3, defaultUpdate, map_add, map_smul, map_sub]; module
  have c1 : ⟪A y, y⟫ = 0 := hA y
  have c2 : ⟪A (A y), y⟫ = -‖A y‖ ^ 2 := by rw [real_inner_comm]; exact a2
  have c3 : ⟪A (A y), A y⟫ = 0 := hA _
  have c4 : ⟪A (A (A y)), y⟫ = 0 := by rw [real_inner_comm]; exact a3
  have c5 : ⟪A (A (A y)), A y⟫ = -‖A (A y)‖ ^ 2 := by rw [real_inner_comm]; exact b2
  have c6 : ⟪A (A (A y)), A (A y)⟫ = 0 := hA _
  rw [e, ← real_inner_self_eq_norm_sq]
  simp only [inner_add_left, inner_add_right, real_inner_smul_left, real_inner_smul_right, a1, a2, a3, b1, b2, d1, c1, c2, c3, c4, c5, c6, real_inner_self_eq_norm_sq, norm_smul, mul_pow, Real.norm_eq_abs, sq_abs]
  ring

theorem energy_rk4 (A : E →ₗ[ℝ] E) (hA : ∀ v, ⟪A v, v⟫ = 0) (y : E) (dt : ℝ) :
    ‖rk4 defaultUpdate A y dt‖ ^ 2 = ‖y‖ ^ 2 - dt ^ 6 / 72 * ‖A (A (A y))‖ ^ 2 + dt ^ 8 / 576 * ‖A (A (A (A y)))‖ ^ 2 := by
  obtain ⟨a1, a2, a3, a4⟩ := skew_inner A hA y
  obtain ⟨b1, b2, b3, -⟩ := skew_inner A hA (A y)
  obtain ⟨d1, d2, -, -⟩ := skew_inner A hA (A (A y))
  obtain ⟨f1, -, -, -⟩ := skew_inner A hA (A (A (A y)))
  have e : rk4 defaultUpdate A y dt = y + dt • A y + (dt ^ 2 / 2) • A (A y) + (dt ^ 3 / 6) • A (A (A y)) + (dt ^ 4 / 24) • A (A (A (A y))) := by
    simp only [rk4, defaultUpdate, map_add, map_smul]; module
  have c1 : ⟪A y, y⟫ = 0 := hA y
  have c2 : ⟪A (A y), y⟫ = -‖A y‖ ^ 2 := by rw [real_inner_comm]; exact a2
  have c3 : ⟪A (A y), A y⟫ = 0 := hA _
  have c4 : ⟪A (A (A y)), y⟫ = 0 := by rw [real_inner_comm]; exact a3
  have c5 : ⟪A (A (A y)), A y⟫ = -‖A (A y)‖ ^ 2 := by rw [real_inner_comm]; exact b2
  have c6 : ⟪A (A (A y)), A (A y)⟫ = 0 := hA _
  have c7 : ⟪A (A (A (A y))), y⟫ = ‖A (A y)‖ ^ 2 := by rw [real_inner_comm]; exact a4
  have c8 : ⟪A (A (A (A y))), A y⟫ = 0 := by rw [real_inner_comm]; exact b3
  have c9 : ⟪A (A (A (A y))), A (A y)⟫ = -‖A (A (A y))‖ ^ 2 := by rw [real_inner_comm]; exact d2
  have c10 : ⟪A (A (A (A y))), A (A (A y))⟫ = 0 := hA _
  rw [e, ← real_inner_self_eq_norm_sq]
  simp only [inner_add_left, inner_add_right, real_inner_smul_left, real_inner_smul_right, a1, a2, a3, a4, b1, b2, b3, d1, d2, f1, c1, c2, c3, c4, c5, c6, c7, c8, c9, c10, real_inner_self_eq_norm_sq, norm_smul, mul_pow, Real.norm_eq_abs, sq_abs]
  ring

/-- C122: for an equation which conserves the energy, with frequencies at most `β`, `RK3` never increases the energy over any number of steps if `(β dt)^2 ≤ 3`, and `RK4` if `(β dt)^2 ≤ 8`; `Euler` and `RK2` never decrease it,
whatever the time step. -/
theorem c122_conservative (A : E →ₗ[ℝ] E) (hA : ∀ v, ⟪A v, v⟫ = 0) {β : ℝ} (hβ : ∀ v, ‖A v‖ ≤ β * ‖v‖) (dt : ℝ) (n : ℕ) (y : E) :
    ((β * dt) ^ 2 ≤ 3 → ‖(fun v => rk3 defaultUpdate A v dt)^[n] y‖ ≤ ‖y‖) ∧
    ((β * dt) ^ 2 ≤ 8 → ‖(fun v => rk4 defaultUpdate A v dt)^[n] y‖ ≤ ‖y‖) ∧
    ‖y‖ ≤ ‖(fun v => euler defaultUpdate A v dt)^[n] y‖ ∧
    ‖y‖ ≤ ‖(fun v => rk2 defaultUpdate A v dt)^[n] y‖ := by
  have hsq : ∀ v, ‖A v‖ ^ 2 ≤ β ^ 2 * ‖v‖ ^ 2 := fun v => by
    rw [← mul_pow]; exact pow_le_pow_left₀ (norm_nonneg _) (hβ v) 2
  have down : ∀ S : E → E, (∀ v, ‖S v‖ ^ 2 ≤ ‖v‖ ^ 2) → ‖S^[n] y‖ ≤ ‖y‖ := by
    intro S hS
    clear * - hS
    induction n with
    | zero => exact le_rfl
    | succ k ih => rw [Function.iterate_succ_apply']; exact (pow_le_pow_iff_left₀ (norm_nonneg _) (norm_nonneg _) two_ne_zero).1 (hS _) |>.trans ih
  have up : ∀ S : E → E, (∀ v, ‖v‖ ^ 2 ≤ ‖S v‖ ^ 2) → ‖y‖ ≤ ‖S^[n] y‖ := by
    intro S hS
    clear * - hS
    induction n with
    | zero => exact le_rfl
    | succ k ih => rw [Function.iterate_succ_apply']; exact ih.trans ((pow_le_pow_iff_left₀ (norm_nonneg _) (norm_nonneg _) two_ne_zero).1 (hS _))
  refine ⟨fun h => down _ fun v => ?_, fun h => down _ fun v => ?_, up _ fun v => ?_, up _ fun v => ?_⟩
  · rw [energy_rk3 A hA]
    have h1 := mul_le_mul_of_nonneg_left (hsq (A (A v))) (by positivity : (0 : ℝ) ≤ dt ^ 6 / 36)
    have h2 := mul_le_mul_of_nonneg_left h (by positivity : (0 : ℝ) ≤ dt ^ 4 / 36 * ‖A (A v)‖ ^ 2)
    linarith [show dt ^ 6 / 36 * (β ^ 2 * ‖A (A v)‖ ^ 2) = dt ^ 4 / 36 * ‖A (A v)‖ ^ 2 * (β * dt) ^ 2 by ring]
  · rw [energy_rk4 A hA]
    have h1 := mul_le_mul_of_nonneg_left (hsq (A (A (A v)))) (by positivity : (0 : ℝ) ≤ dt ^ 8 / 576)
    have h2 := mul_le_mul_of_nonneg_left h (by positivity : (0 : ℝ) ≤ dt ^ 6 / 576 * ‖A (A (A v))‖ ^ 2)
    linarith [show dt ^ 8 / 576 * (β ^ 2 * ‖A (A (A v))‖ ^ 2) = dt ^ 6 / 576 * ‖A (A (A v))‖ ^ 2 * (β * dt) ^ 2 by ring]
  · rw [energy_euler A hA]; linarith [show 0 ≤ dt ^ 2 * ‖A v‖ ^ 2 by positivity]
  · rw [energy_rk2 A hA]; linarith [show 0 ≤ dt ^ 4 / 4 * ‖A (A v)‖ ^ 2 by positivity]

/-- C122: a Crank-Nicolson step which solves its equation conserves the energy exactly, for every time step; a step which the loop ends by convergence changes it by at most what the tolerance `eps` allows. -/
theorem c122_crank_nicolson (A : E →ₗ[ℝ] E) (hA : ∀ v, ⟪A v, v⟫ = 0) (dt : ℝ) (y : E) :
    (∀ z, IsCNSolution A y dt z → ‖z‖ = ‖y‖) ∧
    ∀ β : ℝ, (∀ v, ‖A v‖ ≤ β * ‖v‖) → 0 ≤ β → ∀ (mc : ℕ) (eps : ℝ), 0 ≤ eps →
      let r := crankNicolson defaultUpdate A (fun a b => ‖a - b‖) (fun a => ‖a‖) mc eps y dt
      r.counter < mc → |‖r.y‖ ^ 2 - ‖y‖ ^ 2| ≤ |dt| / 2 * β * eps * ((‖y‖ + ‖r.yOld‖) * ‖r.yOld‖) := by
  have key : ∀ z w : E, z = y + (dt / 2) • (A y + A w) → ‖z‖ ^ 2 - ‖y‖ ^ 2 = dt / 2 * ⟪A (y + w), z - w⟫ := by
    intro z w hz
    have h1 : z - y = (dt / 2) • A (y + w) := by rw [map_add]; nth_rewrite 1 [hz]; abel
    have h2 : ⟪z - y, y + z⟫ = dt / 2 * ⟪A (y + w), z - w⟫ := by
      rw [h1, real_inner_smul_left, show y + z = (y + w) + (z - w) by abel, inner_add_right, hA, zero_add]
    rw [inner_sub_left, inner_add_right, inner_add_right, real_inner_self_eq_norm_sq, real_inner_self_eq_norm_sq, real_inner_comm y z] at h2
    linarith
  refine ⟨fun z hz => ?_, ?_⟩
  · have h := key z z hz
    rw [sub_self, inner_zero_right, mul_zero] at h
    exact (pow_left_inj₀ (norm_nonneg _) (norm_nonneg _) two_ne_zero).1 (by linarith)
  · intro β hβ hβ0 mc eps heps r hlt
    have h1 := (c07_fixed_point A (fun a b => ‖a - b‖) (fun a => ‖a‖) mc eps y dt).1
    have h2 := c07_converged_meaning defaultUpdate A (fun a b => ‖a - b‖) (fun a => ‖a‖) mc eps y dt hlt
    have h3 : ‖r.yOld - r.y‖ ≤ eps * ‖r.yOld‖ := by
      rcases h2 with ⟨h4, h5⟩ | ⟨h4, h5⟩
      · exact ((div_lt_iff₀ (lt_of_le_of_ne (norm_nonneg _) (Ne.symm h4))).1 h5).le
      · exact h5.le.trans (by positivity)
    rw [key r.y r.yOld h1, abs_mul, abs_div, abs_two]
    have h6 : |⟪A (y + r.yOld), r.y - r.yOld⟫| ≤ β * (‖y‖ + ‖r.yOld‖) * (eps * ‖r.yOld‖) := by
      refine (abs_real_inner_le_norm _ _).trans (mul_le_mul ((hβ _).trans (mul_le_mul_of_nonneg_left (norm_add_le _ _) hβ0)) ?_ (norm_nonneg _) (by positivity))
      rw [norm_sub_rev]; exact h3
    exact (mul_le_mul_of_nonneg_left h6 (by positivity)).trans_eq (by ring)

/-- C122: if the equation dissipates the energy, `(A v, v) ≤ 0`, the Crank-Nicolson equation has at most one solution and this solution does not increase the energy, for every time step `dt ≥ 0`. -/
theorem c122_crank_nicolson_dissipative (A : E →ₗ[ℝ] E) (hA : ∀ v, ⟪A v, v⟫ ≤ 0) {dt : ℝ} (hdt : 0 ≤ dt) (y : E) :
    (∀ z, IsCNSolution A y dt z → ‖z‖ ≤ ‖y‖) ∧ ∀ z z', IsCNSolution A y dt z → IsCNSolution A y dt z' → z = z' := by
  refine ⟨fun z hz => ?_, fun z z' hz hz' => ?_⟩
  · have h1 : z - y = (dt / 2) • A (y + z) := by rw [map_add]; nth_rewrite 1 [hz]; abel
    have h2 : ⟪z - y, y + z⟫ ≤ 0 := by
      rw [h1, real_inner_smul_left]; exact mul_nonpos_of_nonneg_of_nonpos (by linarith) (hA _)
    rw [inner_sub_left, inner_add_right, inner_add_right, real_inner_self_eq_norm_sq, real_inner_self_eq_norm_sq, real_inner_comm y z] at h2
    exact (pow_le_pow_iff_left₀ (norm_nonneg _) (norm_nonneg _) two_ne_zero).1 (by linarith)
  · have h1 : z - z' = (dt / 2) • A (z - z') := by
      rw [map_sub]; nth_rewrite 1 [hz, hz']; module
    have h2 : ‖z - z'‖ ^ 2 ≤ 0 := by
      rw [← real_inner_self_eq_norm_sq]
      nth_rewrite 1 [h1]
      rw [real_inner_smul_left]; exact mul_nonpos_of_nonneg_of_nonpos (by linarith) (hA _)
    exact sub_eq_zero.1 (norm_eq_zero.1 (pow_eq_zero_iff two_ne_zero |>.1 (le_antisymm h2 (sq_nonneg _))))

/-- The hypotheses are met by the decay with a rotation, `y' = (i - 2) y`, for which the equation with `dt = 1` has the solution `i / (4 - i) y`. -/
example : ∃ A : ℂ →ₗ[ℝ] ℂ, (∀ v, inner ℝ (A v) v ≤ 0) ∧ ∀ y, IsCNSolution A y 1 (Complex.I / (4 - Complex.I) * y) := by
  refine ⟨LinearMap.mulLeft ℝ (Complex.I - 2), fun v => ?_, fun y => ?_⟩
  · simp only [Complex.inner, LinearMap.mulLeft_apply, Complex.mul_re, Complex.mul_im, Complex.conj_re, Complex.conj_im, Complex.sub_re, Complex.sub_im, Complex.I_re, Complex.I_im, Complex.re_ofNat, Complex.im_ofNat]
    nlinarith [sq_nonneg v.re, sq_nonneg v.im]
  · have h4 : (4 - Complex.I : ℂ) ≠ 0 := fun h => by simpa using congrArg Complex.re h
    simp only [IsCNSolution, LinearMap.mulLeft_apply, Complex.real_smul]
    push_cast
    field_simp
    ring

/-- C122 (sharpness): for an oscillation of frequency `ω` every step multiplies the energy by the same number: the energy grows without bound with `Euler` and `RK2` for every time step, with `RK3` as soon as `(ω dt)^2 > 3` and with
`RK4` as soon as `(ω dt)^2 > 8`. -/
theorem c122_oscillation (A : E →ₗ[ℝ] E) (hA : ∀ v, ⟪A v, v⟫ = 0) {ω : ℝ} (hω : ∀ v, ‖A v‖ = |ω| * ‖v‖) {dt : ℝ} (hdt : ω * dt ≠ 0) {y : E} (hy : y ≠ 0) :
    Tendsto (fun n => ‖(fun v => euler defaultUpdate A v dt)^[n] y‖ ^ 2) atTop atTop ∧
    Tendsto (fun n => ‖(fun v => rk2 defaultUpdate A v dt)^[n] y‖ ^ 2) atTop atTop ∧
    (3 < (ω * dt) ^ 2 → Tendsto (fun n => ‖(fun v => rk3 defaultUpdate A v dt)^[n] y‖ ^ 2) atTop atTop) ∧
    (8 < (ω * dt) ^ 2 → Tendsto (fun n => ‖(fun v => rk4 defaultUpdate A v dt)^[n] y‖ ^ 2) atTop atTop) := by
  have hsq : ∀ v, ‖A v‖ ^ 2 = ω ^ 2 * ‖v‖ ^ 2 := fun v => by rw [hω, mul_pow, sq_abs]
  have hz : 0 < (ω * dt) ^ 2 := by positivity
  have grow : ∀ (S : E → E) (g : ℝ), 1 < g → (∀ v, ‖S v‖ ^ 2 = g * ‖v‖ ^ 2) → Tendsto (fun n => ‖S^[n] y‖ ^ 2) atTop atTop := by
    intro S g hg hS
    have : ∀ n, ‖S^[n] y‖ ^ 2 = g ^ n * ‖y‖ ^ 2 := by
      intro n
      induction n with
      | zero => simp
      | succ k ih => rw [Function.iterate_succ_apply', hS, ih]; ring
    simp only [this]
    exact (tendsto_pow_atTop_atTop_of_one_lt hg).atTop_mul_const (by have := norm_pos_iff.2 hy; positivity)
  refine ⟨grow _ (1 + (ω * dt) ^ 2) (by linarith) fun v => ?_, grow _ (1 + (ω * dt) ^ 4 / 4) ?_ fun v => ?_,
    fun h => grow _ (1 + (ω * dt) ^ 4 / 36 * ((ω * dt) ^ 2 - 3)) ?_ fun v => ?_, fun h => grow _ (1 + (ω * dt) ^ 6 / 576 * ((ω * dt) ^ 2 - 8)) ?_ fun v => ?_⟩
  · rw [energy_euler A hA, hsq]; ring
  · have : 0 < (ω * dt) ^ 4 / 4 := by positivity
    linarith
  · rw [energy_rk2 A hA, hsq, hsq]; ring
  · have : 0 < (ω * dt) ^ 4 / 36 * ((ω * dt) ^ 2 - 3) := mul_pos (by positivity) (by linarith)
    linarith
  · rw [energy_rk3 A hA, hsq (A (A v)), hsq (A v), hsq v]; ring
  · have : 0 < (ω * dt) ^ 6 / 576 * ((ω * dt) ^ 2 - 8) := mul_pos (by positivity) (by linarith)
    linarith
  · rw [energy_rk4 A hA, hsq (A (A (A v))), hsq (A (A v)), hsq (A v), hsq v]; ring

/-- The hypotheses are met by the rotation of the plane. -/
example (ω : ℝ) : ∃ A : ℂ →ₗ[ℝ] ℂ, (∀ v, inner ℝ (A v) v = 0) ∧ (∀ v, ‖A v‖ = |ω| * ‖v‖) ∧ ∀ v, ‖A v‖ ≤ |ω| * ‖v‖ := by
  have h2 : ∀ v : ℂ, ‖(ω : ℂ) * Complex.I * v‖ = |ω| * ‖v‖ := fun v => by
    rw [norm_mul, norm_mul, Complex.norm_I, mul_one, Complex.norm_real, Real.norm_eq_abs]
  refine ⟨LinearMap.mulLeft ℝ ((ω : ℂ) * Complex.I), fun v => ?_, h2, fun v => (h2 v).le⟩
  simp [Complex.inner, LinearMap.mulLeft_apply]
  ring

end Conservative

section Decay

variable {E : Type*} [NormedAddCommGroup E] [NormedSpace ℝ E]

/-- C122: the decay `y' = - λ y` with `λ dt ≥ 0`: no step of `Euler` or `RK2` increases a non-zero solution exactly when `λ dt ≤ 2`, of `RK3` exactly when `z^3 - 3 z^2 + 6 z ≤ 12` and of `RK4` exactly when
`z^3 - 4 z^2 + 12 z ≤ 24`, where `z = λ dt` (the limits are about 2.51 and 2.78). -/
theorem c122_decay (lam dt : ℝ) (hz : 0 ≤ lam * dt) {y : E} (hy : y ≠ 0) :
    (‖euler defaultUpdate (fun v : E => -(lam • v)) y dt‖ ≤ ‖y‖ ↔ lam * dt ≤ 2) ∧
    (‖rk2 defaultUpdate (fun v : E => -(lam • v)) y dt‖ ≤ ‖y‖ ↔ lam * dt ≤ 2) ∧
    (‖rk3 defaultUpdate (fun v : E => -(lam • v)) y dt‖ ≤ ‖y‖ ↔ (lam * dt) ^ 3 - 3 * (lam * dt) ^ 2 + 6 * (lam * dt) ≤ 12) ∧
    (‖rk4 defaultUpdate (fun v : E => -(lam • v)) y dt‖ ≤ ‖y‖ ↔ (lam * dt) ^ 3 - 4 * (lam * dt) ^ 2 + 12 * (lam * dt) ≤ 24) := by
  obtain ⟨z, hzd⟩ : ∃ z, z = lam * dt := ⟨_, rfl⟩
  rw [← hzd] at hz ⊢
  have hpos := norm_pos_iff.2 hy
  have key : ∀ (s : E) (g : ℝ), s = g • y → (‖s‖ ≤ ‖y‖ ↔ |g| ≤ 1) := by
    intro s g hs
    rw [hs, norm_smul, Real.norm_eq_abs]
    exact mul_le_iff_le_one_left hpos
  have e1 : euler defaultUpdate (fun v : E => -(lam • v)) y dt = (1 - z) • y := by
    simp only [euler, defaultUpdate, hzd]; module
  have e2 : rk2 defaultUpdate (fun v : E => -(lam • v)) y dt = (1 - z + z ^ 2 / 2) • y := by
    simp only [rk2, defaultUpdate, hzd]; module
  have e3 : rk3 defaultUpdate (fun v : E => -(lam • v)) y dt = (1 - z + z ^ 2 / 2 - z ^ 3 / 6) • y := by
    simp only [rk3, defaultUpdate, hzd]; module
  have e4 : rk4 defaultUpdate (fun v : E => -(lam • v)) y dt = (1 - z + z ^ 2 / 2 - z ^ 3 / 6 + z ^ 4 / 24) • y := by
    simp only [rk4, defaultUpdate, hzd]; module
  rw [key _ _ e1, key _ _ e2, key _ _ e3, key _ _ e4]
  simp only [abs_le]
  refine ⟨⟨fun h => by linarith [h.1], fun h => ⟨by linarith, by linarith⟩⟩, ⟨fun h => ?_, fun h => ⟨by nlinarith [sq_nonneg (z - 1)], by nlinarith⟩⟩,
    ⟨fun h => by linarith [h.1], fun h => ⟨by linarith, by nlinarith [mul_nonneg hz (sq_nonneg (z - 3 / 2))]⟩⟩, ⟨fun h => ?_, fun h => ⟨?_, ?_⟩⟩⟩
  · by_contra hc
    nlinarith [h.2]
  · by_contra hc
    have h0 : 0 < z := by
      rcases hz.lt_or_eq with h1 | h1
      · exact h1
      · rw [← h1] at hc; norm_num at hc
    nlinarith [h.2, mul_pos h0 (sub_pos.2 (not_le.1 hc))]
  · nlinarith [sq_nonneg (z ^ 2 - 2 * z), sq_nonneg (z - 2), sq_nonneg z]
  · nlinarith [mul_nonneg hz (sub_nonneg.2 h)]

/-- The limits are not trivial: with `λ dt = 5/2` the third order stepper still decays and the second order one does not; with `λ dt = 14/5` neither the third nor the fourth order one does. -/
example : ((5 / 2 : ℝ) ^ 3 - 3 * (5 / 2) ^ 2 + 6 * (5 / 2) ≤ 12 ∧ ¬ (5 / 2 : ℝ) ≤ 2) ∧ ¬ (14 / 5 : ℝ) ^ 3 - 4 * (14 / 5) ^ 2 + 12 * (14 / 5) ≤ 24 := by norm_num

end Decay

end Verif.Timestepper
