import Verif.Model.Sources
import Verif.Props.CollisionsInter
import Mathlib.Analysis.SpecialFunctions.Trigonometric.DerivHyp
import Mathlib.Tactic.FieldSimp
import Mathlib.Tactic.LinearCombination
import Mathlib.Tactic.Linarith
import Mathlib.Tactic.Positivity
import Mathlib.Tactic.NormNum
import Mathlib.Tactic.Ring

/-!
# C42: masks, C64: kinetic source
-/

namespace Verif.Sources

open Real MeasureTheory

theorem abs_tanh_lt_one (x : ℝ) : |tanh x| < 1 := by
  rw [tanh_eq_sinh_div_cosh, abs_div, abs_of_pos (cosh_pos x), div_lt_one (cosh_pos x)]
  have := cosh_sq x
  exact abs_lt_of_sq_lt_sq (by linarith) (cosh_pos x).le

theorem tanh_lt_iff {x y : ℝ} : tanh x < tanh y ↔ x < y := by
  rw [tanh_eq_sinh_div_cosh, tanh_eq_sinh_div_cosh, div_lt_div_iff₀ (cosh_pos x) (cosh_pos y)]
  have : sinh (y - x) = sinh y * cosh x - cosh y * sinh x := sinh_sub y x
  rw [← sub_pos, show sinh y * cosh x - sinh x * cosh y = sinh (y - x) by rw [this]; ring, sinh_pos_iff, sub_pos]

theorem tanh_le_iff {x y : ℝ} : tanh x ≤ tanh y ↔ x ≤ y := by
  rw [← not_lt, ← not_lt, tanh_lt_iff]

/-- **C42** An error is raised exactly for a non-positive stiffness or an extent outside `[0, 1/2]`. -/
theorem c42_error_iff (coef x : ℕ → ℝ) (n : ℕ) (L e s : ℝ) (ty : MaskType) (norm : Bool) :
    maskTanh coef x n L e s ty norm = none ↔ s ≤ 0 ∨ e < 0 ∨ 1 / 2 < e := by
  have h05 : (0.5 : ℝ) = 1 / 2 := by norm_num
  unfold maskTanh
  rw [h05]
  split_ifs with h1 h2 h3 h4 <;> simp_all

/-- **C42** The raw masks take values in `[0,1)` (normal) and `(0,1]` (inverted). -/
theorem c42_bounds (xmin L e s x : ℝ) (hL : 0 ≤ L) (he : e ≤ 1 / 2) (hs : 0 < s) :
    0 ≤ maskRaw .normal xmin L e s x ∧ maskRaw .normal xmin L e s x < 1 ∧
      0 < maskRaw .inverted xmin L e s x ∧ maskRaw .inverted xmin L e s x ≤ 1 := by
  have h1 : xLeft xmin L e ≤ xRight xmin L e := by
    unfold xLeft xRight
    nlinarith
  have h2 : tanh ((x - xRight xmin L e) / s) ≤ tanh ((x - xLeft xmin L e) / s) := by
    rw [tanh_le_iff]; gcongr
  have h3 := abs_lt.1 (abs_tanh_lt_one ((x - xRight xmin L e) / s))
  have h4 := abs_lt.1 (abs_tanh_lt_one ((x - xLeft xmin L e) / s))
  have h05 : (0.5 : ℝ) = 1 / 2 := by norm_num
  simp only [maskRaw, h05]
  refine ⟨by linarith, by linarith, by linarith, by linarith⟩

/-- **C42** Without normalisation the inverted mask is one minus the normal one (positive extent). -/
theorem c42_complementary (coef x : ℕ → ℝ) (n : ℕ) (L e s : ℝ) (he : 0 < e) (he' : e ≤ 1 / 2) (hs : 0 < s) :
    ∃ mn mi, maskTanh coef x n L e s .normal false = some mn ∧ maskTanh coef x n L e s .inverted false = some mi ∧
      ∀ k, mn k + mi k = 1 ∧ (0 ≤ L → 0 ≤ mn k ∧ mn k ≤ 1 ∧ 0 ≤ mi k ∧ mi k ≤ 1) := by
  have h05 : (0.5 : ℝ) = 1 / 2 := by norm_num
  refine ⟨fun k => maskRaw .normal (x 0) L e s (x k), fun k => maskRaw .inverted (x 0) L e s (x k), ?_, ?_, fun k => ⟨?_, fun hL => ?_⟩⟩
  · rw [maskTanh, if_neg (not_le.2 hs), h05, if_neg (by push Not; exact ⟨he.le, he'⟩), if_neg he.ne']; rfl
  · rw [maskTanh, if_neg (not_le.2 hs), h05, if_neg (by push Not; exact ⟨he.le, he'⟩), if_neg he.ne']; rfl
  · simp only [maskRaw]; ring
  · obtain ⟨a, b, c, d⟩ := c42_bounds (x 0) L e s (x k) hL he' hs
    exact ⟨a, b.le, c.le, d⟩

/-- **C42** The normal mask is symmetric about the middle of the interval. -/
theorem c42_symmetric (xmin L e s t : ℝ) :
    maskRaw .normal xmin L e s (xmin + L / 2 + t) = maskRaw .normal xmin L e s (xmin + L / 2 - t) := by
  simp only [maskRaw, xLeft, xRight]
  have e1 : (xmin + L / 2 + t - (xmin + L * e)) / s = -((xmin + L / 2 - t - (xmin + L - L * e)) / s) := by ring
  have e2 : (xmin + L / 2 + t - (xmin + L - L * e)) / s = -((xmin + L / 2 - t - (xmin + L * e)) / s) := by ring
  rw [e1, e2, tanh_neg, tanh_neg]; ring

/-- **C42** The normal mask is a single bump: its value at one point is at most its value at another exactly when the second is
not farther from the middle of the interval (so it increases up to the middle and decreases after it). -/
theorem c42_increasing (xmin L e s x y : ℝ) (hL : 0 < L) (he : e < 1 / 2) (hs : 0 < s) :
    maskRaw .normal xmin L e s y ≤ maskRaw .normal xmin L e s x ↔ |x - (xmin + L / 2)| ≤ |y - (xmin + L / 2)| := by
  have key : ∀ z, maskRaw .normal xmin L e s z
      = sinh (L * (1 - 2 * e) / s) / (cosh (2 / s * (z - (xmin + L / 2))) + cosh (L * (1 - 2 * e) / s)) := by
    intro z
    obtain ⟨a, ha⟩ : ∃ a, a = (z - xLeft xmin L e) / s := ⟨_, rfl⟩
    obtain ⟨b, hb⟩ : ∃ b, b = (z - xRight xmin L e) / s := ⟨_, rfl⟩
    have e1 : L * (1 - 2 * e) / s = a - b := by rw [ha, hb]; unfold xLeft xRight; field_simp; ring
    have e2 : 2 / s * (z - (xmin + L / 2)) = a + b := by rw [ha, hb]; unfold xLeft xRight; field_simp; ring
    have hca := cosh_pos a
    have hcb := cosh_pos b
    simp only [maskRaw, ← ha, ← hb]
    rw [e1, e2, cosh_add, cosh_sub, sinh_sub, tanh_eq_sinh_div_cosh, tanh_eq_sinh_div_cosh,
      show cosh a * cosh b + sinh a * sinh b + (cosh a * cosh b - sinh a * sinh b) = 2 * (cosh a * cosh b) by ring]
    field_simp
    norm_num
    ring
  have hS : 0 < sinh (L * (1 - 2 * e) / s) := by
    rw [sinh_pos_iff]
    exact div_pos (mul_pos hL (by linarith)) hs
  have hp : ∀ z, 0 < cosh (2 / s * (z - (xmin + L / 2))) + cosh (L * (1 - 2 * e) / s) :=
    fun z => add_pos (cosh_pos _) (cosh_pos _)
  have h2 : 0 < 2 / s := by positivity
  rw [key, key, div_le_div_iff_of_pos_left hS (hp y) (hp x), add_le_add_iff_right, cosh_le_cosh, abs_mul, abs_mul,
    abs_of_pos h2, mul_le_mul_iff_right₀ h2]

/-- **C42** The normalised mask has unit integral (with the quadrature coefficients used), whenever the integral of the raw mask
is non-zero. -/
theorem c42_normalised (coef x : ℕ → ℝ) (n : ℕ) (L e s : ℝ) (ty : MaskType) (he : 0 < e) (he' : e ≤ 1 / 2)
    (hs : 0 < s) (hn : maskNorm coef x n ty L e s ≠ 0) :
    ∃ m, maskTanh coef x n L e s ty true = some m ∧ ∑ k ∈ Finset.range n, coef k * m k = 1 := by
  have h05 : (0.5 : ℝ) = 1 / 2 := by norm_num
  refine ⟨fun k => maskRaw ty (x 0) L e s (x k) / maskNorm coef x n ty L e s, ?_, ?_⟩
  · rw [maskTanh, if_neg (not_le.2 hs), h05, if_neg (by push Not; exact ⟨he.le, he'⟩), if_neg he.ne', if_pos rfl]
  · have : maskNorm coef x n ty L e s = ∑ k ∈ Finset.range n, coef k * maskRaw ty (x 0) L e s (x k) := rfl
    calc ∑ k ∈ Finset.range n, coef k * (maskRaw ty (x 0) L e s (x k) / maskNorm coef x n ty L e s)
        = (∑ k ∈ Finset.range n, coef k * maskRaw ty (x 0) L e s (x k)) / maskNorm coef x n ty L e s := by
          rw [Finset.sum_div]; exact Finset.sum_congr rfl fun k _ => by ring
      _ = 1 := by rw [← this]; exact div_self hn

/-- **C42** That integral is positive for positive coefficients, a positive length and an extent strictly below one half. -/
theorem c42_norm_positive (coef x : ℕ → ℝ) (n : ℕ) (L e s : ℝ) (hn : 0 < n) (hc : ∀ k < n, 0 < coef k) (hL : 0 < L)
    (he' : e < 1 / 2) (hs : 0 < s) : 0 < maskNorm coef x n .normal L e s := by
  refine Finset.sum_pos (fun k hk => mul_pos (hc k (Finset.mem_range.1 hk)) ?_) ⟨0, Finset.mem_range.2 hn⟩
  have h1 : xLeft (x 0) L e < xRight (x 0) L e := by
    unfold xLeft xRight
    nlinarith
  have h2 : tanh ((x k - xRight (x 0) L e) / s) < tanh ((x k - xLeft (x 0) L e) / s) := by
    rw [tanh_lt_iff]; gcongr
  simp only [maskRaw]
  norm_num
  linarith

/-- **C42** (finding) The accepted extent `1/2` makes the normal mask vanish identically, so that the normalisation divides zero by
zero. -/
theorem c42_half_extent_degenerate (coef x : ℕ → ℝ) (n : ℕ) (L s : ℝ) (hs : 0 < s) :
    (∀ norm, maskTanh coef x n L (1 / 2) s .normal norm ≠ none) ∧
      (∀ k, maskRaw .normal (x 0) L (1 / 2) s (x k) = 0) ∧ maskNorm coef x n .normal L (1 / 2) s = 0 := by
  have h : ∀ y, maskRaw .normal (x 0) L (1 / 2) s y = 0 := by
    intro y
    have : xLeft (x 0) L (1 / 2) = xRight (x 0) L (1 / 2) := by unfold xLeft xRight; ring
    simp only [maskRaw, this, sub_self, mul_zero]
  refine ⟨fun norm => ?_, fun k => h _, ?_⟩
  · rw [Ne, c42_error_iff]; push Not; exact ⟨hs, by norm_num, le_refl _⟩
  · simp only [maskNorm, Quadrature.apply, h, mul_zero, Finset.sum_const_zero]

/-- **C42** (finding) With the accepted extent `0` the mask is zero everywhere, for both types and also when normalisation is
requested: the two types are not complementary and the integral is not one. -/
theorem c42_zero_extent (coef x : ℕ → ℝ) (n : ℕ) (L s : ℝ) (hs : 0 < s) (ty : MaskType) (norm : Bool) :
    maskTanh coef x n L 0 s ty norm = some (fun _ => 0) := by
  simp [maskTanh, not_le.2 hs]; norm_num

/-- A concrete mask meets the hypotheses. -/
example : ∃ m, maskTanh (fun _ => 0.5) (fun k => k) 3 2 0.25 1 .normal true = some m ∧
    ∑ k ∈ Finset.range 3, (0.5 : ℝ) * m k = 1 :=
  c42_normalised _ _ _ _ _ _ _ (by norm_num) (by norm_num) (by norm_num)
    (c42_norm_positive _ _ _ _ _ _ (by norm_num) (fun _ _ => by norm_num) (by norm_num) (by norm_num) (by norm_num)).ne'

/-! ## Kinetic source -/

/-- **C64** The velocity profile injects exactly the requested density, no momentum, and the second moment `energy * temperature`,
independently of one another. -/
theorem c64_shape_moments (d en T : ℝ) (hT : 0 < T) :
    (∫ v, velocityShape d en T v = d) ∧ (∫ v, v * velocityShape d en T v = 0) ∧
      (∫ v, v ^ 2 * velocityShape d en T v = en * T) := by
  obtain ⟨h0, h1, h2, h3, h4⟩ := Collisions.gauss_moments hT
  simp only at h0 h1 h2 h3 h4
  have hb : 0 < 1 / (2 * T) := by positivity
  set Z := sqrt (2 * π * T) with hZdef
  have hZ : Z ≠ 0 := (sqrt_pos.2 (by positivity)).ne'
  set M : ℝ → ℝ := fun x => exp (-(1 / (2 * T)) * x ^ 2) with hM
  have i0 : Integrable fun x => M x := by simpa only [pow_zero, one_mul] using Collisions.integrable_pow_gauss hb 0
  have i1 : Integrable fun x => x * M x := by simpa only [pow_one] using Collisions.integrable_pow_gauss hb 1
  have i2 : Integrable fun x => x ^ 2 * M x := Collisions.integrable_pow_gauss hb 2
  have i3 : Integrable fun x => x ^ 3 * M x := Collisions.integrable_pow_gauss hb 3
  have i4 : Integrable fun x => x ^ 4 * M x := Collisions.integrable_pow_gauss hb 4
  have e0 : ∫ x, M x = Z := h0
  have e1 : ∫ x, x * M x = 0 := h1
  have e2 : ∫ x, x ^ 2 * M x = T * Z := h2
  have e3 : ∫ x, x ^ 3 * M x = 0 := h3
  have e4 : ∫ x, x ^ 4 * M x = 3 * T ^ 2 * Z := h4
  have eq : ∀ v, velocityShape d en T v = ((1.5 * d - 0.5 * en) / Z) * M v + ((en - d) / (2 * T) / Z) * (v ^ 2 * M v) := by
    intro v
    simp only [velocityShape, hM]
    rw [show -(v * v) / (2 * T) = -(1 / (2 * T)) * v ^ 2 by ring, ← hZdef]
    field_simp
    ring
  have two : ∀ (c c' : ℝ) (p q : ℝ → ℝ), Integrable p → Integrable q →
      ∫ v, (c * p v + c' * q v) = c * (∫ v, p v) + c' * ∫ v, q v := by
    intro c c' p q hp hq
    rw [integral_add (hp.const_mul c) (hq.const_mul c'), integral_const_mul, integral_const_mul]
  refine ⟨?_, ?_, ?_⟩
  · simp only [eq]
    rw [two _ _ _ _ i0 i2, e0, e2]; field_simp; ring
  · have : (fun v => v * velocityShape d en T v)
        = fun v => ((1.5 * d - 0.5 * en) / Z) * (v * M v) + ((en - d) / (2 * T) / Z) * (v ^ 3 * M v) := by
      funext v; rw [eq]; ring
    rw [this, two _ _ _ _ i1 i3, e1, e3]; ring
  · have : (fun v => v ^ 2 * velocityShape d en T v)
        = fun v => ((1.5 * d - 0.5 * en) / Z) * (v ^ 2 * M v) + ((en - d) / (2 * T) / Z) * (v ^ 4 * M v) := by
      funext v; rw [eq]; ring
    rw [this, two _ _ _ _ i2 i4, e2, e4]; field_simp; ring

/-- **C64** With equal density and energy parameters the profile is that multiple of the Maxwellian at rest. -/
theorem c64_maxwellian (d T v : ℝ) (hT : 0 < T) : velocityShape d d T v = Collisions.maxwellian d 0 T v := by
  simp only [velocityShape, Collisions.maxwellian]
  rw [show -(v - 0) * (v - 0) / (2 * T) = -(v * v) / (2 * T) by ring]
  have hZ : sqrt (2 * π * T) ≠ 0 := (sqrt_pos.2 (by positivity)).ne'
  field_simp
  ring

/-- **C64** The source is additive in time, and linear in the time step: `n` steps of `dt` are one step of `n dt`. -/
theorem c64_additive (A x shape dt f : ℝ) (n : ℕ) :
    (kineticSource A x shape dt)^[n] f = kineticSource A x shape (n * dt) f := by
  induction n generalizing f with
  | zero => simp [kineticSource]
  | succ n ih =>
      rw [Function.iterate_succ_apply, ih]; simp only [kineticSource]; push_cast; ring

/-- **C64** Over the whole plasma (quadrature over positions with normalised mask) one step injects `amplitude * density * dt`
particles. -/
theorem c64_total_density (coef x : ℕ → ℝ) (n : ℕ) (L e s : ℝ) (he : 0 < e) (he' : e ≤ 1 / 2) (hs : 0 < s)
    (hn : maskNorm coef x n .normal L e s ≠ 0) (A d en T dt : ℝ) (hT : 0 < T) :
    ∃ m, maskTanh coef x n L e s .normal true = some m ∧
      ∑ k ∈ Finset.range n, coef k * (∫ v, A * m k * velocityShape d en T v * dt) = A * d * dt := by
  obtain ⟨m, hm, h1⟩ := c42_normalised coef x n L e s .normal he he' hs hn
  refine ⟨m, hm, ?_⟩
  have hint : ∀ k, ∫ v, A * m k * velocityShape d en T v * dt = A * m k * d * dt := by
    intro k
    rw [integral_mul_const, integral_const_mul, (c64_shape_moments d en T hT).1]
  simp only [hint]
  calc ∑ k ∈ Finset.range n, coef k * (A * m k * d * dt) = (A * d * dt) * ∑ k ∈ Finset.range n, coef k * m k := by
        rw [Finset.mul_sum]; exact Finset.sum_congr rfl fun k _ => by ring
    _ = A * d * dt := by rw [h1, mul_one]

end Verif.Sources
