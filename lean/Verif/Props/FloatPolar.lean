import Verif.Model.FloatPolar
import Verif.Props.FloatWrap
import Verif.Props.CircularMapping
import Mathlib.Analysis.Real.Pi.Bounds
import Mathlib.Analysis.SpecialFunctions.Trigonometric.Bounds
import Mathlib.Tactic.Linarith
import Mathlib.Tactic.Positivity
import Mathlib.Tactic.Ring
import Mathlib.Tactic.NormNum

/-!
# C111: polar coordinates in floating-point arithmetic
-/

namespace Verif.FloatPolar

open Real Verif.Rounding Verif.FloatWrap Verif.Mappings

/-- `2 * M_PI` is below `2π`, by less than `2.5e-16`. -/
theorem twoPi_error : 2 * mPi < 2 * π ∧ 2 * π < 2 * mPi + 25 / 10 ^ 17 := by
  have h1 := pi_gt_d20
  have h2 := pi_lt_d20
  unfold mPi
  constructor <;> norm_num at * <;> linarith

/-- Specification: the distance of the point to the centre. -/
noncomputable def dist2 (o p : ℝ × ℝ) : ℝ := sqrt ((p.1 - o.1) ^ 2 + (p.2 - o.2) ^ 2)

theorem sqrt_scale {a b c : ℝ} (hc : 0 ≤ c) (ha : 0 ≤ a) : (b ≤ c ^ 2 * a → sqrt b ≤ c * sqrt a) ∧ (c ^ 2 * a ≤ b → c * sqrt a ≤ sqrt b) := by
  have e : sqrt (c ^ 2 * a) = c * sqrt a := by rw [sqrt_mul (by positivity), sqrt_sq hc]
  exact ⟨fun h => e ▸ sqrt_le_sqrt h, fun h => e ▸ sqrt_le_sqrt h⟩

theorem Fl.bounds {u x y : ℝ} (h : Fl u x y) (hx : 0 ≤ x) : x * (1 - u) ≤ y ∧ y ≤ x * (1 + u) := by
  obtain ⟨δ, hδ, rfl⟩ := h
  rw [abs_le] at hδ
  constructor <;> exact mul_le_mul_of_nonneg_left (by linarith) hx

/-- The computed radius of the point `(x, y)`. -/
theorem radius_error {u x y xx yy s r : ℝ} (hu0 : 0 ≤ u) (hu : u ≤ 1 / 100) (h1 : Fl u (x * x) xx) (h2 : Fl u (y * y) yy) (h3 : Fl u (xx + yy) s) (h4 : Fl u (sqrt s) r) :
    0 ≤ r ∧ |r - sqrt (x ^ 2 + y ^ 2)| ≤ 2.01 * u * sqrt (x ^ 2 + y ^ 2) := by
  have a1 := Fl.bounds h1 (mul_self_nonneg x)
  have a2 := Fl.bounds h2 (mul_self_nonneg y)
  have hs0 : 0 ≤ xx + yy := by nlinarith [mul_self_nonneg x, mul_self_nonneg y]
  have a3 := Fl.bounds h3 hs0
  have a4 := Fl.bounds h4 (sqrt_nonneg s)
  have hq : 0 ≤ x ^ 2 + y ^ 2 := by positivity
  have l1 : s ≤ (1 + u) ^ 2 * (x ^ 2 + y ^ 2) := by nlinarith
  have l2 : (1 - u) ^ 2 * (x ^ 2 + y ^ 2) ≤ s := by nlinarith
  have b1 := (sqrt_scale (c := 1 + u) (by linarith) hq).1 l1
  have b2 := (sqrt_scale (c := 1 - u) (by linarith) hq).2 l2
  have hr := sqrt_nonneg (x ^ 2 + y ^ 2)
  have hs := sqrt_nonneg s
  have c1 : r ≤ (1 + u) ^ 2 * sqrt (x ^ 2 + y ^ 2) := by nlinarith
  have c2 : (1 - u) ^ 2 * sqrt (x ^ 2 + y ^ 2) ≤ r := by nlinarith
  refine ⟨by nlinarith [sq_nonneg (1 - u)], abs_le.2 ⟨?_, ?_⟩⟩ <;> nlinarith [mul_nonneg hu0 hr, mul_nonneg (mul_nonneg hu0 hu0) hr]

/-- The computed angle is that of `atan2` up to a multiple of the period. -/
theorem angle_error {u v a t theta : ℝ} (hu0 : 0 ≤ u) (hu : u ≤ 1 / 100) (hv0 : 0 ≤ v) (hv : v ≤ 1 / 100) (ha : -π < a ∧ a ≤ π) (h1 : Fl v a t) (h2 : Angle (Fl u) t theta) :
    ∃ k : ℤ, |theta - (a + k * (2 * π))| ≤ π * v + 7 * u + 25 / 10 ^ 17 := by
  have ht : |t - a| ≤ π * v := by
    have := Fl.dist h1
    have : |a| ≤ π := abs_le.2 ⟨ha.1.le, ha.2⟩
    nlinarith
  obtain ⟨p1, p2⟩ := twoPi_error
  have hp3 : 3 < π := pi_gt_three
  have hp4 : π < 3.15 := pi_lt_d2
  unfold Angle at h2
  split_ifs at h2 with h
  · refine ⟨0, ?_⟩
    subst h2
    simp only [Int.cast_zero, zero_mul, add_zero]
    have : (0 : ℝ) ≤ 25 / 10 ^ 17 := by positivity
    linarith
  · refine ⟨1, ?_⟩
    rw [abs_le] at ht
    have hd := Fl.dist h2
    have hb : |t + 2 * mPi| ≤ 7 := by
      rw [abs_le]
      constructor
      · nlinarith
      · linarith
    have hd' : |theta - (t + 2 * mPi)| ≤ 7 * u := by nlinarith
    rw [abs_le] at hd' ⊢
    push_cast
    constructor <;> linarith

/-- One coordinate of the round trip, from the errors of the radius and of the angle. -/
theorem coordinate_error {u v rho r r' w w' e c rc o p out eta x : ℝ} (hu0 : 0 ≤ u) (hu : u ≤ 1 / 100) (hv0 : 0 ≤ v) (hv : v ≤ 1 / 100) (hrho : 0 ≤ rho) (heta : 0 ≤ eta)
    (hx : Fl u (p - o) x) (hpo : |p - o| ≤ rho) (hr'0 : 0 ≤ r') (hr' : r' ≤ (1 + u) * rho) (hr0 : 0 ≤ r) (hr : |r - r'| ≤ 2.01 * u * r')
    (hxw : x = r' * w) (hw' : |w'| ≤ 1) (hww : |w' - w| ≤ eta) (h1 : Fl v w' c) (h2 : Fl u (r * c) rc) (h3 : Fl u (rc + o) out) (he : e = 12 * u + 5 * v + 1.03 * eta) :
    |out - p| ≤ u * |p| + e * rho := by
  have d3 := Fl.dist h3
  have dx := Fl.dist hx
  have d2 := Fl.dist h2
  have d1 := Fl.dist h1
  have r1 : r' ≤ 1.01 * rho := by nlinarith
  have r2 : r ≤ 1.04 * rho := by
    rw [abs_le] at hr
    nlinarith
  have hc : |c| ≤ 1.01 := by
    have : |c| ≤ |c - w'| + |w'| := by
      have := abs_add_le (c - w') w'; simpa using this
    nlinarith [abs_nonneg w']
  -- `rc` against `r w'`
  have k1 : |rc - r * w'| ≤ (1.06 * u + 1.04 * v) * rho := by
    have e1 : |r * c - r * w'| ≤ r * v := by
      rw [← mul_sub, abs_mul, abs_of_nonneg hr0]
      exact mul_le_mul_of_nonneg_left (by nlinarith [abs_nonneg w']) hr0
    have e2 : |r * c| ≤ 1.051 * rho := by
      rw [abs_mul, abs_of_nonneg hr0]; nlinarith [abs_nonneg c]
    have := abs_sub_le rc (r * c) (r * w')
    nlinarith
  have k2 : |r * w' - r' * w'| ≤ 2.04 * u * rho := by
    rw [← sub_mul, abs_mul]
    have := abs_nonneg (r - r')
    have : |r - r'| * |w'| ≤ |r - r'| := by nlinarith [abs_nonneg w']
    nlinarith
  have k3 : |r' * w' - r' * w| ≤ 1.01 * eta * rho := by
    rw [← mul_sub, abs_mul, abs_of_nonneg hr'0]
    nlinarith [abs_nonneg (w' - w)]
  have k4 : |x - (p - o)| ≤ u * rho := by nlinarith
  have k5 : |rc + o - p| ≤ (4.1 * u + 1.04 * v + 1.01 * eta) * rho := by
    rw [hxw, abs_le] at k4
    rw [abs_le] at k1 k2 k3 ⊢
    constructor <;> linarith [k1.1, k1.2, k2.1, k2.2, k3.1, k3.2, k4.1, k4.2]
  have k6 : |rc + o| ≤ |p| + |rc + o - p| := by
    have := abs_add_le p (rc + o - p); simpa using this
  have k7 : |out - p| ≤ |out - (rc + o)| + |rc + o - p| := abs_sub_le _ _ _
  have hX : 0 ≤ |rc + o - p| := abs_nonneg _
  have k8 : |out - p| ≤ u * |p| + 1.01 * |rc + o - p| := by nlinarith
  have : 0 ≤ u * rho := mul_nonneg hu0 hrho
  have : 0 ≤ v * rho := mul_nonneg hv0 hrho
  have : 0 ≤ eta * rho := mul_nonneg heta hrho
  subst he
  linarith

theorem polar_coordinates (x y : ℝ) : x = sqrt (x ^ 2 + y ^ 2) * cos (atan2 y x) ∧ y = sqrt (x ^ 2 + y ^ 2) * sin (atan2 y x) := by
  have e : ‖(⟨x, y⟩ : ℂ)‖ = sqrt (x ^ 2 + y ^ 2) := by
    rw [Complex.norm_def, Complex.normSq_mk, pow_two, pow_two]
  unfold atan2
  rw [← e, Complex.norm_mul_cos_arg, Complex.norm_mul_sin_arg]
  exact ⟨rfl, rfl⟩

/-- **C111.** In floating-point arithmetic, mapping a point to circular coordinates and back returns the point up to a small multiple of the rounding errors times its distance to the centre, plus one rounding of
its coordinates. `u` bounds the relative error of the arithmetic operations and of the square root, `v` that of `atan2`, `cos` and `sin`. -/
theorem c111_round_trip (u v : ℝ) (hu0 : 0 ≤ u) (hu : u ≤ 1 / 100) (hv0 : 0 ≤ v) (hv : v ≤ 1 / 100) (o p q p' : ℝ × ℝ) (h1 : CartToCirc (Fl u) (Fl v) o p q) (h2 : CircToCart (Fl u) (Fl v) o q p') :
    |p'.1 - p.1| ≤ u * |p.1| + (20 * u + 9 * v + 26 / 10 ^ 17) * dist2 o p ∧ |p'.2 - p.2| ≤ u * |p.2| + (20 * u + 9 * v + 26 / 10 ^ 17) * dist2 o p := by
  obtain ⟨x, y, xx, yy, s, t, hx, hy, hxx, hyy, hs, hr, ht, hth⟩ := h1
  obtain ⟨c, sn, rc, rs, hc, hsn, hrc, hrs, ho1, ho2⟩ := h2
  obtain ⟨hr0, hrerr⟩ := radius_error hu0 hu hxx hyy hs hr
  obtain ⟨k, hk⟩ := angle_error (a := atan2 y x) hu0 hu hv0 hv ⟨Complex.neg_pi_lt_arg _, Complex.arg_le_pi _⟩ ht hth
  have hrho : 0 ≤ dist2 o p := sqrt_nonneg _
  have hpx : |p.1 - o.1| ≤ dist2 o p := abs_le_sqrt (by nlinarith [sq_nonneg (p.2 - o.2)])
  have hpy : |p.2 - o.2| ≤ dist2 o p := abs_le_sqrt (by nlinarith [sq_nonneg (p.1 - o.1)])
  have hr' : sqrt (x ^ 2 + y ^ 2) ≤ (1 + u) * dist2 o p := by
    refine (sqrt_scale (by linarith) (by positivity)).1 ?_
    obtain ⟨δ, hδ, rfl⟩ := hx
    obtain ⟨δ', hδ', rfl⟩ := hy
    rw [abs_le] at hδ hδ'
    have a1 : (1 + δ) ^ 2 ≤ (1 + u) ^ 2 := by nlinarith
    have a2 : (1 + δ') ^ 2 ≤ (1 + u) ^ 2 := by nlinarith
    nlinarith [mul_le_mul_of_nonneg_left a1 (sq_nonneg (p.1 - o.1)), mul_le_mul_of_nonneg_left a2 (sq_nonneg (p.2 - o.2))]
  obtain ⟨px, py⟩ := polar_coordinates x y
  have heta : 0 ≤ π * v + 7 * u + 25 / 10 ^ 17 := (abs_nonneg _).trans hk
  have hcos : |cos q.2 - cos (atan2 y x)| ≤ π * v + 7 * u + 25 / 10 ^ 17 := by
    rw [← cos_add_int_mul_two_pi (atan2 y x) k]
    exact (abs_cos_sub_cos_le _ _).trans hk
  have hsin : |sin q.2 - sin (atan2 y x)| ≤ π * v + 7 * u + 25 / 10 ^ 17 := by
    rw [← sin_add_int_mul_two_pi (atan2 y x) k]
    exact (abs_sin_sub_sin_le _ _).trans hk
  have hp4 : π < 3.15 := pi_lt_d2
  have hlast : (12 * u + 5 * v + 1.03 * (π * v + 7 * u + 25 / 10 ^ 17)) * dist2 o p ≤ (20 * u + 9 * v + 26 / 10 ^ 17) * dist2 o p := by
    refine mul_le_mul_of_nonneg_right ?_ hrho
    nlinarith
  constructor
  · exact (coordinate_error hu0 hu hv0 hv hrho heta hx hpx (sqrt_nonneg _) hr' hr0 hrerr px (abs_cos_le_one _) hcos hc hrc ho1 rfl).trans (by linarith)
  · exact (coordinate_error hu0 hu hv0 hv hrho heta hy hpy (sqrt_nonneg _) hr' hr0 hrerr py (abs_sin_le_one _) hsin hsn hrs ho2 rfl).trans (by linarith)

/-- **C111.** The computed radius has a relative error of a few roundings, wherever the centre is. -/
theorem c111_radius (u v : ℝ) (hu0 : 0 ≤ u) (hu : u ≤ 1 / 100) (o p q : ℝ × ℝ) (h : CartToCirc (Fl u) (Fl v) o p q) : 0 ≤ q.1 ∧ |q.1 - dist2 o p| ≤ 4 * u * dist2 o p := by
  obtain ⟨x, y, xx, yy, s, t, hx, hy, hxx, hyy, hs, hr, -, -⟩ := h
  obtain ⟨hr0, hrerr⟩ := radius_error hu0 hu hxx hyy hs hr
  have hrho : 0 ≤ dist2 o p := sqrt_nonneg _
  refine ⟨hr0, ?_⟩
  obtain ⟨δ, hδ, rfl⟩ := hx
  obtain ⟨δ', hδ', rfl⟩ := hy
  rw [abs_le] at hδ hδ'
  have u1 : sqrt (((p.1 - o.1) * (1 + δ)) ^ 2 + ((p.2 - o.2) * (1 + δ')) ^ 2) ≤ (1 + u) * dist2 o p := by
    refine (sqrt_scale (by linarith) (by positivity)).1 ?_
    have a1 : (1 + δ) ^ 2 ≤ (1 + u) ^ 2 := by nlinarith
    have a2 : (1 + δ') ^ 2 ≤ (1 + u) ^ 2 := by nlinarith
    nlinarith [mul_le_mul_of_nonneg_left a1 (sq_nonneg (p.1 - o.1)), mul_le_mul_of_nonneg_left a2 (sq_nonneg (p.2 - o.2))]
  have u2 : (1 - u) * dist2 o p ≤ sqrt (((p.1 - o.1) * (1 + δ)) ^ 2 + ((p.2 - o.2) * (1 + δ')) ^ 2) := by
    refine (sqrt_scale (by linarith) (by positivity)).2 ?_
    have a1 : (1 - u) ^ 2 ≤ (1 + δ) ^ 2 := by nlinarith
    have a2 : (1 - u) ^ 2 ≤ (1 + δ') ^ 2 := by nlinarith
    nlinarith [mul_le_mul_of_nonneg_left a1 (sq_nonneg (p.1 - o.1)), mul_le_mul_of_nonneg_left a2 (sq_nonneg (p.2 - o.2))]
  rw [abs_le] at hrerr ⊢
  have := mul_nonneg hu0 hrho
  constructor <;> nlinarith

/-- One coordinate of the computed Cartesian point. -/
theorem forward_error {u v r w c rc o out : ℝ} (hu0 : 0 ≤ u) (hu : u ≤ 1 / 100) (hv0 : 0 ≤ v) (hv : v ≤ 1 / 100) (hr : 0 ≤ r) (hw : |w| ≤ 1) (h1 : Fl v w c) (h2 : Fl u (r * c) rc) (h3 : Fl u (rc + o) out) :
    |out - (r * w + o)| ≤ (2.1 * u + 1.1 * v) * r + u * |o| := by
  have d1 := Fl.dist h1
  have d2 := Fl.dist h2
  have d3 := Fl.dist h3
  have hc : |c| ≤ 1.01 := by
    have : |c| ≤ |c - w| + |w| := by
      have := abs_add_le (c - w) w; simpa using this
    nlinarith [abs_nonneg w]
  have e1 : |r * c - r * w| ≤ r * v := by
    rw [← mul_sub, abs_mul, abs_of_nonneg hr]
    exact mul_le_mul_of_nonneg_left (by nlinarith [abs_nonneg w]) hr
  have e2 : |r * c| ≤ 1.01 * r := by
    rw [abs_mul, abs_of_nonneg hr]; nlinarith [abs_nonneg c]
  have e3 : |rc - r * w| ≤ (1.01 * u + v) * r := by
    have := abs_sub_le rc (r * c) (r * w)
    nlinarith
  have e4 : |rc + o| ≤ |rc - r * w| + r + |o| := by
    have a := abs_add_le (rc - r * w + r * w) o
    have b := abs_add_le (rc - r * w) (r * w)
    have : |r * w| ≤ r := by rw [abs_mul, abs_of_nonneg hr]; nlinarith
    simp only [sub_add_cancel] at a b
    linarith
  have e5 : |out - (r * w + o)| ≤ |out - (rc + o)| + |rc - r * w| := by
    have := abs_sub_le out (rc + o) (r * w + o)
    rwa [show rc + o - (r * w + o) = rc - r * w by ring] at this
  have hX := abs_nonneg (rc - r * w)
  have e6 : |out - (r * w + o)| ≤ 1.01 * |rc - r * w| + u * r + u * |o| := by nlinarith
  have : 0 ≤ u * r := mul_nonneg hu0 hr
  have : 0 ≤ v * r := mul_nonneg hv0 hr
  nlinarith

/-- **C111.** The other way round: mapping `(r, θ)` to the plane and back returns the radius up to a few roundings of `r` and of the coordinates of the centre (the error near the centre is not relative to `r` unless the centre
is the origin). -/
theorem c111_radius_recovered (u v : ℝ) (hu0 : 0 ≤ u) (hu : u ≤ 1 / 100) (hv0 : 0 ≤ v) (hv : v ≤ 1 / 100) (o q p q' : ℝ × ℝ) (hq : 0 ≤ q.1) (h1 : CircToCart (Fl u) (Fl v) o q p) (h2 : CartToCirc (Fl u) (Fl v) o p q') :
    |q'.1 - q.1| ≤ (9 * u + 3 * v) * q.1 + 2 * u * (|o.1| + |o.2|) := by
  obtain ⟨c, sn, rc, rs, hc, hsn, hrc, hrs, ho1, ho2⟩ := h1
  have f1 := forward_error hu0 hu hv0 hv hq (abs_cos_le_one _) hc hrc ho1
  have f2 := forward_error hu0 hu hv0 hv hq (abs_sin_le_one _) hsn hrs ho2
  have f3 := (c111_radius u v hu0 hu o p q' h2).2
  have tri : |dist2 o p - q.1| ≤ |p.1 - (q.1 * cos q.2 + o.1)| + |p.2 - (q.1 * sin q.2 + o.2)| := by
    have e1 : ‖(⟨p.1 - o.1, p.2 - o.2⟩ : ℂ)‖ = dist2 o p := by
      rw [Complex.norm_def, Complex.normSq_mk, dist2, pow_two, pow_two]
    have e2 : ‖(⟨q.1 * cos q.2, q.1 * sin q.2⟩ : ℂ)‖ = q.1 := by
      rw [Complex.norm_def, Complex.normSq_mk, show q.1 * cos q.2 * (q.1 * cos q.2) + q.1 * sin q.2 * (q.1 * sin q.2) = q.1 ^ 2 by
        linear_combination q.1 ^ 2 * sin_sq_add_cos_sq q.2, sqrt_sq hq]
    have a := abs_norm_sub_norm_le (⟨p.1 - o.1, p.2 - o.2⟩ : ℂ) ⟨q.1 * cos q.2, q.1 * sin q.2⟩
    have b := Complex.norm_le_abs_re_add_abs_im ((⟨p.1 - o.1, p.2 - o.2⟩ : ℂ) - ⟨q.1 * cos q.2, q.1 * sin q.2⟩)
    rw [e1, e2] at a
    simp only [Complex.sub_re, Complex.sub_im] at b
    rw [show p.1 - o.1 - q.1 * cos q.2 = p.1 - (q.1 * cos q.2 + o.1) by ring, show p.2 - o.2 - q.1 * sin q.2 = p.2 - (q.1 * sin q.2 + o.2) by ring] at b
    linarith
  have hs : |dist2 o p - q.1| ≤ (4.2 * u + 2.2 * v) * q.1 + u * (|o.1| + |o.2|) := by linarith
  have hX := abs_nonneg (dist2 o p - q.1)
  have hd : dist2 o p ≤ q.1 + |dist2 o p - q.1| := by linarith [le_abs_self (dist2 o p - q.1)]
  have t1 := abs_sub_le q'.1 (dist2 o p) q.1
  have t2 : |q'.1 - q.1| ≤ 4 * u * q.1 + 1.04 * |dist2 o p - q.1| := by nlinarith
  have : 0 ≤ u * q.1 := mul_nonneg hu0 hq
  have : 0 ≤ v * q.1 := mul_nonneg hv0 hq
  have : 0 ≤ u * (|o.1| + |o.2|) := by positivity
  nlinarith

theorem isDouble_twoPi : IsDouble (2 * mPi) := ⟨884279719003555, -47, by norm_num, by unfold mPi; norm_num⟩

/-- **C111.** In binary64 arithmetic the returned angle is in the closed interval `[0, 2 * M_PI]`, hence in `[0, 2π)`, if `atan2` returns values in `[-M_PI, M_PI]`. -/
theorem c111_angle_range (t theta : ℝ) (h1 : -mPi ≤ t) (h2 : t ≤ mPi) (h : Angle IEEE t theta) : 0 ≤ theta ∧ theta ≤ 2 * mPi ∧ theta < 2 * π := by
  have hm : 0 < mPi := by unfold mPi; positivity
  suffices 0 ≤ theta ∧ theta ≤ 2 * mPi from ⟨this.1, this.2, this.2.trans_lt twoPi_error.1⟩
  unfold Angle at h
  split_ifs at h with h0
  · subst h; exact ⟨h0, by linarith⟩
  · have hn := (c102_ieee_nearest _ _ h).2 _ isDouble_twoPi
    have hr := Fl.bounds (c102_ieee_relative _ _ h) (by linarith)
    constructor
    · refine le_trans (mul_nonneg (by linarith) (by norm_num)) hr.1
    · rw [abs_le'] at hn
      rw [show |t + 2 * mPi - 2 * mPi| = -t by rw [add_sub_cancel_right, abs_of_neg (by linarith)]] at hn
      linarith [hn.2]

/-- A negative angle of less than half a unit of the last place of `2 * M_PI` is lost. -/
theorem angle_lost (t : ℝ) (h1 : -2⁻¹ ^ 51 < t) (h2 : t < 0) : Angle IEEE t (2 * mPi) ∧ ∀ theta, Angle IEEE t theta → theta = 2 * mPi := by
  have h51 : (2 : ℝ)⁻¹ ^ 51 = 1 / 2 ^ 51 := by norm_num
  have key : rn (t + 2 * mPi) = 2 * mPi := by
    rw [rn_eq_of_scale _ 2 7074237752028440 (by unfold mPi; norm_num; rw [le_abs]; left; norm_num at *; linarith) (by unfold mPi; rw [abs_lt]; norm_num at *; constructor <;> linarith)
      (roundHalfEven_of _ _ (by unfold mPi; rw [abs_lt]; norm_num at *; constructor <;> linarith))]
    unfold mPi; norm_num
  unfold Angle IEEE
  rw [if_neg (by linarith), key]
  exact ⟨rfl, fun _ h => by rwa [if_neg (by linarith)] at h⟩

/-- **C111, negative result.** The upper end is attained: for the point `(1, -2⁻⁶⁰)`, just below the half-line of angle zero, the returned angle is exactly `2 * M_PI`, the last point of the period, which the mapping in
exact arithmetic never returns; for every `atan2` of relative error at most one half. -/
theorem c111_angle_is_period : (∃ q, CartToCirc IEEE (Fl (1 / 2)) (0, 0) (1, -2⁻¹ ^ 60) q) ∧ ∀ q, CartToCirc IEEE (Fl (1 / 2)) (0, 0) (1, -2⁻¹ ^ 60) q → q.2 = 2 * mPi := by
  have key : ∀ x y t, IEEE ((1 : ℝ) - 0) x → IEEE (-2⁻¹ ^ 60 - 0 : ℝ) y → Fl (1 / 2) (atan2 y x) t → -2⁻¹ ^ 51 < t ∧ t < 0 := by
    intro x y t hx hy ht
    have hx1 : x = 1 := by rw [hx, sub_zero, rn_one]
    subst hx1
    obtain ⟨δ, hδ, hy'⟩ := c102_ieee_relative _ _ hy
    obtain ⟨δ', hδ', rfl⟩ := ht
    rw [abs_le] at hδ hδ'
    have hy0 : y < 0 := by rw [hy']; norm_num at *; linarith
    have hyl : -2⁻¹ ^ 59 < y := by rw [hy']; norm_num at *; linarith
    set a := atan2 y 1 with ha
    have ha0 : a < 0 := by rw [ha, atan2, Complex.arg_neg_iff]; exact hy0
    have hap : -(π / 2) ≤ a := by
      have := Complex.abs_arg_le_pi_div_two_iff (z := ⟨1, y⟩)
      have := this.2 (by norm_num)
      exact (abs_le.1 this).1
    have hsin : y = sqrt (1 ^ 2 + y ^ 2) * sin a := (polar_coordinates 1 y).2
    have hq : 1 ≤ sqrt (1 ^ 2 + y ^ 2) := by rw [one_le_sqrt]; nlinarith [sq_nonneg y]
    have hsa : sin (-a) ≤ -y := by
      rw [sin_neg]
      have hs : sin a ≤ 0 := sin_nonpos_of_nonpos_of_neg_pi_le ha0.le (by linarith [pi_pos])
      nlinarith
    have hle := mul_le_sin (x := -a) (by linarith) (by linarith)
    have hp4 : π < 3.15 := pi_lt_d2
    have hpa : -a ≤ π / 2 * (-y) := by
      have : -a = π / 2 * (2 / π * -a) := by field_simp
      rw [this]
      exact mul_le_mul_of_nonneg_left (hle.trans hsa) (by positivity)
    have hal : -a < 2⁻¹ ^ 58 := by nlinarith
    constructor
    · norm_num at *; nlinarith
    · nlinarith
  constructor
  · obtain ⟨h1, h2⟩ := key _ _ (atan2 (rn (-2⁻¹ ^ 60 - 0)) (rn (1 - 0))) rfl rfl ⟨0, by norm_num, by ring⟩
    exact ⟨(rn (sqrt (rn (rn (rn (1 - 0) * rn (1 - 0)) + rn (rn (-2⁻¹ ^ 60 - 0) * rn (-2⁻¹ ^ 60 - 0))))), 2 * mPi), _, _, _, _, _, _, rfl, rfl, rfl, rfl, rfl, rfl, ⟨0, by norm_num, by ring⟩, (angle_lost _ h1 h2).1⟩
  · rintro q ⟨x, y, xx, yy, s, t, hx, hy, -, -, -, -, ht, hth⟩
    obtain ⟨h1, h2⟩ := key x y t hx hy ht
    exact (angle_lost t h1 h2).2 _ hth

/-- The hypotheses of the round trip are met: exact operations are a special case, e.g. for the centre `(1, 2)` and the point `(4, 6)`; the bound then is only the error of `M_PI`. -/
example : ∃ q p', CartToCirc (Fl (2⁻¹ ^ 53)) (Fl (2⁻¹ ^ 51)) (1, 2) (4, 6) q ∧ CircToCart (Fl (2⁻¹ ^ 53)) (Fl (2⁻¹ ^ 51)) (1, 2) q p' ∧ |p'.1 - 4| ≤ 2⁻¹ ^ 53 * 4 + (20 * 2⁻¹ ^ 53 + 9 * 2⁻¹ ^ 51 + 26 / 10 ^ 17) * 5 := by
  have ex : ∀ u x : ℝ, 0 ≤ u → Fl u x x := fun u x hu => ⟨0, by simpa using hu, by ring⟩
  have hu : (0 : ℝ) ≤ 2⁻¹ ^ 53 := by positivity
  have hv : (0 : ℝ) ≤ 2⁻¹ ^ 51 := by positivity
  obtain ⟨q, h1⟩ : ∃ q, CartToCirc (Fl (2⁻¹ ^ 53)) (Fl (2⁻¹ ^ 51)) (1, 2) (4, 6) q := by
    refine ⟨(sqrt ((4 - 1) * (4 - 1) + (6 - 2) * (6 - 2)), if 0 ≤ atan2 (6 - 2) (4 - 1) then atan2 (6 - 2) (4 - 1) else atan2 (6 - 2) (4 - 1) + 2 * mPi),
      _, _, _, _, _, _, ex _ _ hu, ex _ _ hu, ex _ _ hu, ex _ _ hu, ex _ _ hu, ex _ _ hu, ex _ _ hv, ?_⟩
    unfold Angle
    dsimp only
    split_ifs
    · rfl
    · exact ex _ _ hu
  obtain ⟨p', h2⟩ : ∃ p', CircToCart (Fl (2⁻¹ ^ 53)) (Fl (2⁻¹ ^ 51)) (1, 2) q p' :=
    ⟨(q.1 * cos q.2 + 1, q.1 * sin q.2 + 2), _, _, _, _, ex _ _ hv, ex _ _ hv, ex _ _ hu, ex _ _ hu, ex _ _ hu, ex _ _ hu⟩
  refine ⟨_, p', h1, h2, ?_⟩
  have := (c111_round_trip _ _ hu (by norm_num) hv (by norm_num) _ _ _ _ h1 h2).1
  have e : dist2 (1, 2) (4, 6) = 5 := by
    unfold dist2
    rw [show ((4 : ℝ) - 1) ^ 2 + (6 - 2) ^ 2 = 5 ^ 2 by norm_num, sqrt_sq (by norm_num)]
  rw [e, abs_of_pos (by norm_num : (0 : ℝ) < 4)] at this
  exact this

end Verif.FloatPolar
