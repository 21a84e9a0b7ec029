import Verif.Model.Initial
import Verif.Props.CollisionsInter
import Mathlib.MeasureTheory.Integral.Prod
import Mathlib.MeasureTheory.Integral.IntegralEqImproper
import Mathlib.Analysis.SpecialFunctions.ImproperIntegrals

/-! C65: the equilibrium distributions have the moments given in the input file. -/

namespace Verif.Initial
open Real MeasureTheory Verif.Collisions

theorem integrable_maxwellian (n u : ℝ) {T : ℝ} (hT : 0 < T) (k : ℕ) :
    Integrable fun v => (v - u) ^ k * maxwellian n u T v := by
  have hb : 0 < 1 / (2 * T) := by positivity
  have h := ((integrable_pow_gauss hb k).comp_sub_right u).const_mul (n / sqrt (2 * π * T))
  refine h.congr (Filter.Eventually.of_forall fun v => ?_)
  simp only [maxwellian_eq]; ring

theorem integrable_maxwellian0 (n u : ℝ) {T : ℝ} (hT : 0 < T) : Integrable fun v => maxwellian n u T v := by
  simpa using integrable_maxwellian n u hT 0

theorem integrable_maxwellian1 (n u : ℝ) {T : ℝ} (hT : 0 < T) : Integrable fun v => v * maxwellian n u T v := by
  have h1 := integrable_maxwellian n u hT 1
  have h0 := (integrable_maxwellian0 n u hT).const_mul u
  refine (h1.add h0).congr (Filter.Eventually.of_forall fun v => ?_)
  simp only [Pi.add_apply]; ring

theorem integrable_maxwellian2 (n u : ℝ) {T : ℝ} (hT : 0 < T) : Integrable fun v => v ^ 2 * maxwellian n u T v := by
  have h2 := integrable_maxwellian n u hT 2
  have h1 := (integrable_maxwellian n u hT 1).const_mul (2 * u)
  have h0 := (integrable_maxwellian0 n u hT).const_mul (u ^ 2)
  refine ((h2.add h1).add h0).congr (Filter.Eventually.of_forall fun v => ?_)
  simp only [Pi.add_apply]; ring

/-- **C65** (1D1V Maxwellian): the density is `n`, the flux `n u` and the energy `n (T + u^2)`; the three integrands are integrable; the distribution is
positive if the density is. -/
theorem c65_maxwellian (n u T : ℝ) (hT : 0 < T) :
    (Integrable (fun v => maxwellian n u T v) ∧ ∫ v, maxwellian n u T v = n) ∧
    (Integrable (fun v => v * maxwellian n u T v) ∧ ∫ v, v * maxwellian n u T v = n * u) ∧
    (Integrable (fun v => v ^ 2 * maxwellian n u T v) ∧ ∫ v, v ^ 2 * maxwellian n u T v = n * (T + u ^ 2)) ∧
    (0 < n → ∀ v, 0 < maxwellian n u T v) := by
  obtain ⟨m0, m1, m2⟩ := c39_maxwellian_moments n u T hT
  have i0 := integrable_maxwellian0 n u hT
  have i1 : Integrable fun v => (v - u) * maxwellian n u T v := by simpa using integrable_maxwellian n u hT 1
  have i2 := integrable_maxwellian n u hT 2
  refine ⟨⟨i0, m0⟩, ⟨integrable_maxwellian1 n u hT, ?_⟩, ⟨integrable_maxwellian2 n u hT, ?_⟩, ?_⟩
  · have : (fun v => v * maxwellian n u T v) = fun v => (v - u) * maxwellian n u T v + u * maxwellian n u T v := by
      funext v; ring
    rw [this, integral_add i1 (i0.const_mul u), integral_const_mul, m0, m1]; ring
  · have : (fun v => v ^ 2 * maxwellian n u T v) =
        fun v => ((v - u) ^ 2 * maxwellian n u T v + 2 * u * ((v - u) * maxwellian n u T v)) + u ^ 2 * maxwellian n u T v := by
      funext v; ring
    have i21 : Integrable fun v => (v - u) ^ 2 * maxwellian n u T v + 2 * u * ((v - u) * maxwellian n u T v) := i2.add (i1.const_mul _)
    rw [this, integral_add i21 (i0.const_mul _), integral_add i2 (i1.const_mul _), integral_const_mul,
      integral_const_mul, m0, m1, m2]; ring
  · intro hn v
    rw [maxwellian_eq]
    have : 0 < sqrt (2 * π * T) := sqrt_pos.2 (by positivity)
    positivity

/-- The bump on tail is the sum of a bulk Maxwellian of temperature 1 and of a beam. -/
theorem c65_bump_eq (eps T u v : ℝ) (hT : 0 < T) :
    bumpOnTail eps T u v = maxwellian (1 - eps) 0 1 v + maxwellian eps u T v := by
  unfold bumpOnTail maxwellian
  simp only
  have h2 : sqrt (2 * π * T) = sqrt (2 * π) * sqrt T := sqrt_mul (by positivity) T
  rw [h2, mul_one, show (-0.5 : ℝ) * v * v = -(v - 0) * (v - 0) / (2 * 1) by norm_num; ring]
  have hp : sqrt (2 * π) ≠ 0 := (sqrt_pos.2 (by positivity)).ne'
  have ht : sqrt T ≠ 0 := (sqrt_pos.2 hT).ne'
  field_simp

/-- **C65** (bump on tail): the total density is 1 whatever the beam, the flux is `eps u` and the energy `(1 - eps) + eps (T + u^2)`; the distribution is positive
for `0 < eps < 1`. -/
theorem c65_bump (eps u T : ℝ) (hT : 0 < T) :
    ∫ v, bumpOnTail eps T u v = 1 ∧ ∫ v, v * bumpOnTail eps T u v = eps * u ∧
    ∫ v, v ^ 2 * bumpOnTail eps T u v = (1 - eps) + eps * (T + u ^ 2) ∧
    (0 < eps → eps < 1 → ∀ v, 0 < bumpOnTail eps T u v) := by
  obtain ⟨⟨a0, b0⟩, ⟨a1, b1⟩, ⟨a2, b2⟩, c⟩ := c65_maxwellian (1 - eps) 0 1 one_pos
  obtain ⟨⟨a0', b0'⟩, ⟨a1', b1'⟩, ⟨a2', b2'⟩, c'⟩ := c65_maxwellian eps u T hT
  simp only [c65_bump_eq _ _ _ _ hT, mul_add]
  refine ⟨?_, ?_, ?_, ?_⟩
  · rw [integral_add a0 a0', b0, b0']; ring
  · rw [integral_add a1 a1', b1, b1']; ring
  · rw [integral_add a2 a2', b2, b2']; ring
  · intro h1 h2 v
    exact add_pos (c (by linarith) v) (c' h1 v)

example : (0 : ℝ) < 0.1 ∧ (0.1 : ℝ) < 1 := by norm_num

theorem maxwellian2D_eq (n T u vx vy : ℝ) (hT : 0 < T) :
    maxwellian2D n T u vx vy = maxwellian n u T vx * maxwellian 1 u T vy := by
  unfold maxwellian2D maxwellian
  simp only
  have e : -((vx - u) * (vx - u) + (vy - u) * (vy - u)) / (2 * T) = -(vx - u) * (vx - u) / (2 * T) + -(vy - u) * (vy - u) / (2 * T) := by ring
  rw [e, exp_add]
  have h : sqrt (2 * π * T) * sqrt (2 * π * T) = 2 * π * T := mul_self_sqrt (by positivity)
  have h0 : sqrt (2 * π * T) ≠ 0 := (sqrt_pos.2 (by positivity)).ne'
  have h1 : 1 / (2 * π * T) = 1 / sqrt (2 * π * T) * (1 / sqrt (2 * π * T)) := by
    rw [div_mul_div_comm, h, one_mul]
  rw [h1]; ring

/-- **C65** (2D2V Maxwellian): density `n`, flux `n u` in both directions, energy `n (T + u^2)` in each direction. -/
theorem c65_maxwellian_2d (n u T : ℝ) (hT : 0 < T) :
    ∫ p : ℝ × ℝ, maxwellian2D n T u p.1 p.2 = n ∧
    ∫ p : ℝ × ℝ, p.1 * maxwellian2D n T u p.1 p.2 = n * u ∧
    ∫ p : ℝ × ℝ, p.2 * maxwellian2D n T u p.1 p.2 = n * u ∧
    ∫ p : ℝ × ℝ, p.1 ^ 2 * maxwellian2D n T u p.1 p.2 = n * (T + u ^ 2) ∧
    ∫ p : ℝ × ℝ, p.2 ^ 2 * maxwellian2D n T u p.1 p.2 = n * (T + u ^ 2) := by
  obtain ⟨⟨_, b0⟩, ⟨_, b1⟩, ⟨_, b2⟩, _⟩ := c65_maxwellian n u T hT
  obtain ⟨⟨_, b0'⟩, ⟨_, b1'⟩, ⟨_, b2'⟩, _⟩ := c65_maxwellian 1 u T hT
  simp only [maxwellian2D_eq _ _ _ _ _ hT]
  have key := fun f g : ℝ → ℝ => integral_prod_mul (μ := (volume : Measure ℝ)) (ν := (volume : Measure ℝ)) f g
  simp only [← Measure.volume_eq_prod] at key
  refine ⟨?_, ?_, ?_, ?_, ?_⟩
  · rw [key (fun x => maxwellian n u T x) (fun y => maxwellian 1 u T y), b0, b0', mul_one]
  · have := key (fun x => x * maxwellian n u T x) (fun y => maxwellian 1 u T y)
    rw [b1, b0', mul_one] at this
    rw [← this]; exact integral_congr_ae (Filter.Eventually.of_forall fun p => by simp only; ring)
  · have := key (fun x => maxwellian n u T x) (fun y => y * maxwellian 1 u T y)
    rw [b0, b1', one_mul] at this
    rw [← this]; exact integral_congr_ae (Filter.Eventually.of_forall fun p => by simp only; ring)
  · have := key (fun x => x ^ 2 * maxwellian n u T x) (fun y => maxwellian 1 u T y)
    rw [b2, b0', mul_one] at this
    rw [← this]; exact integral_congr_ae (Filter.Eventually.of_forall fun p => by simp only; ring)
  · have := key (fun x => maxwellian n u T x) (fun y => y ^ 2 * maxwellian 1 u T y)
    rw [b0, b2', one_mul] at this
    rw [← this]; exact integral_congr_ae (Filter.Eventually.of_forall fun p => by simp only; ring)

theorem maxwellianVparMu_eq (m n T u B v mu : ℝ) (hT : 0 < T) (hm : 0 < m) :
    maxwellianVparMu m n T u B v mu = m * sqrt m / (2 * π * T) * (maxwellian n u T v * exp (-(B / T) * mu)) := by
  unfold maxwellianVparMu maxwellian
  simp only
  have e : -((0.5 * (v - u) * (v - u) + mu * B) / T) = -(v - u) * (v - u) / (2 * T) + -(B / T) * mu := by
    field_simp; norm_num; ring
  rw [e, exp_add, sqrt_div hm.le]
  ring

/-- **C65** (vpar, mu): with the velocity space element `2 pi B dvpar dmu`, the number of particles of the "Maxwellian" of density `n` is `n m^(3/2)`; the mean
velocity is right. -/
theorem c65_vpar_mu (m n T u B : ℝ) (hm : 0 < m) (hT : 0 < T) (hB : 0 < B) :
    ∫ v, ∫ mu in Set.Ioi (0 : ℝ), maxwellianVparMu m n T u B v mu * (2 * π * B) = n * (m * sqrt m) ∧
    ∫ v, ∫ mu in Set.Ioi (0 : ℝ), v * maxwellianVparMu m n T u B v mu * (2 * π * B) = n * (m * sqrt m) * u := by
  obtain ⟨⟨_, b0⟩, ⟨_, b1⟩, _, _⟩ := c65_maxwellian n u T hT
  have hi : ∫ mu in Set.Ioi (0 : ℝ), exp (-(B / T) * mu) = T / B := by
    have := integral_exp_mul_Ioi (a := -(B / T)) (by have : 0 < B / T := by positivity
                                                     linarith) 0
    rw [this]; simp
  have hp := pi_pos
  simp only [maxwellianVparMu_eq _ _ _ _ _ _ _ hT hm]
  constructor
  · have : ∀ v, ∫ mu in Set.Ioi (0 : ℝ), m * sqrt m / (2 * π * T) * (maxwellian n u T v * exp (-(B / T) * mu)) * (2 * π * B)
        = m * sqrt m * maxwellian n u T v := by
      intro v
      have e : (fun mu => m * sqrt m / (2 * π * T) * (maxwellian n u T v * exp (-(B / T) * mu)) * (2 * π * B)) =
          fun mu => (m * sqrt m / (2 * π * T) * maxwellian n u T v * (2 * π * B)) * exp (-(B / T) * mu) := by funext mu; ring
      rw [e, integral_const_mul, hi]; field_simp
    simp only [this]
    rw [integral_const_mul, b0]; ring
  · have : ∀ v, ∫ mu in Set.Ioi (0 : ℝ), v * (m * sqrt m / (2 * π * T) * (maxwellian n u T v * exp (-(B / T) * mu))) * (2 * π * B)
        = m * sqrt m * (v * maxwellian n u T v) := by
      intro v
      have e : (fun mu => v * (m * sqrt m / (2 * π * T) * (maxwellian n u T v * exp (-(B / T) * mu))) * (2 * π * B)) =
          fun mu => (m * sqrt m / (2 * π * T) * (v * maxwellian n u T v) * (2 * π * B)) * exp (-(B / T) * mu) := by funext mu; ring
      rw [e, integral_const_mul, hi]; field_simp
    simp only [this]
    rw [integral_const_mul, b1]; ring

/-- **C65** (vpar, mu): parallel and perpendicular temperatures. The mean of `(vpar - u)^2` over the distribution is `T` and so is the mean of the
perpendicular energy `mu B` (both times the number of particles `n m^(3/2)` of the previous theorem): the shape of the distribution is right, only its norm is not. -/
theorem c65_vpar_mu_temperature (m n T u B : ℝ) (hm : 0 < m) (hT : 0 < T) (hB : 0 < B) :
    ∫ v, ∫ mu in Set.Ioi (0 : ℝ), (v - u) ^ 2 * maxwellianVparMu m n T u B v mu * (2 * π * B) = n * (m * sqrt m) * T ∧
    ∫ v, ∫ mu in Set.Ioi (0 : ℝ), mu * B * maxwellianVparMu m n T u B v mu * (2 * π * B) = n * (m * sqrt m) * T := by
  obtain ⟨m0, _, m2⟩ := c39_maxwellian_moments n u T hT
  have hp := pi_pos
  have hi : ∫ mu in Set.Ioi (0 : ℝ), exp (-(B / T) * mu) = T / B := by
    have := integral_exp_mul_Ioi (a := -(B / T)) (by have : 0 < B / T := by positivity
                                                     linarith) 0
    rw [this]; simp
  have hi1 : ∫ mu in Set.Ioi (0 : ℝ), mu * exp (-(B / T) * mu) = (T / B) ^ 2 := by
    have h := Real.integral_rpow_mul_exp_neg_mul_Ioi (a := 2) (r := B / T) (by norm_num) (by positivity)
    have e : ∀ t : ℝ, t ^ ((2 : ℝ) - 1) * exp (-(B / T * t)) = t * exp (-(B / T) * t) := by
      intro t
      have : (2 : ℝ) - 1 = 1 := by norm_num
      rw [this, rpow_one, neg_mul]
    simp only [e] at h
    rw [h, (by norm_num [Real.Gamma_nat_eq_factorial] : Real.Gamma 2 = 1), mul_one, one_div_div]
    norm_cast
  simp only [maxwellianVparMu_eq _ _ _ _ _ _ _ hT hm]
  constructor
  · have : ∀ v, ∫ mu in Set.Ioi (0 : ℝ), (v - u) ^ 2 * (m * sqrt m / (2 * π * T) * (maxwellian n u T v * exp (-(B / T) * mu))) * (2 * π * B)
        = m * sqrt m * ((v - u) ^ 2 * maxwellian n u T v) := by
      intro v
      have e : (fun mu => (v - u) ^ 2 * (m * sqrt m / (2 * π * T) * (maxwellian n u T v * exp (-(B / T) * mu))) * (2 * π * B)) =
          fun mu => (m * sqrt m / (2 * π * T) * ((v - u) ^ 2 * maxwellian n u T v) * (2 * π * B)) * exp (-(B / T) * mu) := by funext mu; ring
      rw [e, integral_const_mul, hi]; field_simp
    simp only [this]
    rw [integral_const_mul, m2]; ring
  · have : ∀ v, ∫ mu in Set.Ioi (0 : ℝ), mu * B * (m * sqrt m / (2 * π * T) * (maxwellian n u T v * exp (-(B / T) * mu))) * (2 * π * B)
        = m * sqrt m * T * maxwellian n u T v := by
      intro v
      have e : (fun mu => mu * B * (m * sqrt m / (2 * π * T) * (maxwellian n u T v * exp (-(B / T) * mu))) * (2 * π * B)) =
          fun mu => (m * sqrt m / (2 * π * T) * maxwellian n u T v * (2 * π * B) * B) * (mu * exp (-(B / T) * mu)) := by funext mu; ring
      rw [e, integral_const_mul, hi1]; field_simp
    simp only [this]
    rw [integral_const_mul, m0]; ring

/-- **C65** refuted for (vpar, mu): the number of particles is the requested density only for a species of mass 1. -/
theorem c65_vpar_mu_density_iff (m n T u B : ℝ) (hm : 0 < m) (hT : 0 < T) (hB : 0 < B) (hn : n ≠ 0) :
    ∫ v, ∫ mu in Set.Ioi (0 : ℝ), maxwellianVparMu m n T u B v mu * (2 * π * B) = n ↔ m = 1 := by
  rw [(c65_vpar_mu m n T u B hm hT hB).1]
  have hs := sqrt_pos.2 hm
  have hsq := mul_self_sqrt hm.le
  constructor
  · intro h
    have h1 : m * sqrt m = 1 := by
      have : n * (m * sqrt m) = n * 1 := by rw [h, mul_one]
      exact mul_left_cancel₀ hn this
    have h2 : sqrt m = 1 := by
      have h3 : sqrt m ^ 3 = 1 := by
        have : m * sqrt m = sqrt m ^ 3 := by nth_rewrite 1 [← hsq]; ring
        rw [← this, h1]
      nlinarith [sq_nonneg (sqrt m - 1), sq_nonneg (sqrt m + 1)]
    rw [← hsq, h2, one_mul]
  · rintro rfl; simp

/-- The claim fails for the deuterium to electron mass ratio, for instance. -/
example : ¬ (∫ v, ∫ mu in Set.Ioi (0 : ℝ), maxwellianVparMu 3670 1 1 0 1 v mu * (2 * π * 1) = 1) := by
  rw [c65_vpar_mu_density_iff 3670 1 1 0 1 (by norm_num) one_pos one_pos one_ne_zero]
  norm_num

end Verif.Initial
