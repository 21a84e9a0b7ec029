import Verif.Props.CircularMapping

/-!
# C32, C31 (Czarny part): the Czarny mapping, its inverse and its Jacobian
-/

namespace Verif.Mappings

open Real

namespace Czarny

variable {c : Czarny}

/-- Standing assumptions on the parameters: `0 < ε < 2`, `e > 0` (the constructor stores them unchecked; the documentation
uses `0 < ε < 1`). -/
structure Valid (c : Czarny) : Prop where
  eps_pos : 0 < c.eps
  eps_lt : c.eps < 2
  e_pos : 0 < c.e

/-- The points where the mapping is regular: `0 < ε² + 2 ε r cos θ + 1 < 4`. -/
structure Regular (c : Czarny) (p : ℝ × ℝ) : Prop where
  pos : 0 < c.eps * (c.eps + 2 * p.1 * cos p.2) + 1
  lt : c.eps * (c.eps + 2 * p.1 * cos p.2) + 1 < 4

/-- Every point of the unit disk is regular when `0 < ε < 1`. -/
theorem regular_of_unit {p : ℝ × ℝ} (he : 0 < c.eps) (he1 : c.eps < 1) (h0 : 0 ≤ p.1) (h1 : p.1 ≤ 1) :
    Regular c p := by
  have hc := cos_le_one p.2
  have hc' := neg_one_le_cos p.2
  have a1 : p.1 * cos p.2 ≤ 1 := by nlinarith
  have a2 : -1 ≤ p.1 * cos p.2 := by nlinarith
  constructor
  · nlinarith [mul_le_mul_of_nonneg_left a2 he.le, mul_pos he he, sq_nonneg (1 - c.eps), sq_pos_of_pos (sub_pos.2 he1)]
  · nlinarith [mul_le_mul_of_nonneg_left a1 he.le]

theorem root_pos {p : ℝ × ℝ} (h : Regular c p) : 0 < c.root p := sqrt_pos.2 h.pos

theorem root_lt {p : ℝ × ℝ} (h : Regular c p) : c.root p < 2 := by
  unfold root
  rw [sqrt_lt' (by norm_num)]
  linarith [h.lt]

theorem root_sq {p : ℝ × ℝ} (h : Regular c p) : c.root p ^ 2 = c.eps * (c.eps + 2 * p.1 * cos p.2) + 1 :=
  sq_sqrt h.pos.le

theorem root_comm (p : ℝ × ℝ) : sqrt (1 + c.eps * (c.eps + 2 * p.1 * cos p.2)) = c.root p := by
  unfold root; rw [add_comm]

theorem arg_pos (hv : Valid c) : 0 < 1 - c.eps * c.eps * 0.25 := by
  nlinarith [hv.eps_pos, hv.eps_lt]

theorem xi_pos (hv : Valid c) : 0 < c.xi := sqrt_pos.2 (one_div_pos.2 (arg_pos hv))

theorem xi_inv (hv : Valid c) : sqrt (1 - 0.25 * c.eps * c.eps) = 1 / c.xi := by
  unfold xi
  have : 1 - 0.25 * c.eps * c.eps = 1 - c.eps * c.eps * 0.25 := by ring
  rw [this, sqrt_div zero_le_one, sqrt_one, one_div_one_div]

theorem xi_sq (hv : Valid c) : c.xi ^ 2 = 1 / (1 - c.eps * c.eps * 0.25) :=
  sq_sqrt (one_div_pos.2 (arg_pos hv)).le

/-- `y` in terms of `ξ`. -/
theorem toCart_y (hv : Valid c) (p : ℝ × ℝ) :
    (c.toCart p).2 = c.e * c.xi * p.1 * sin p.2 / (2 - c.root p) + c.o.2 := by
  have hx := (xi_pos hv).ne'
  unfold toCart
  dsimp only
  rw [xi_inv hv]
  by_cases h : 2 - c.root p = 0
  · rw [h]; simp
  · field_simp

/-- **C32** The O-point is the image of `r = 0`, whatever the angle. -/
theorem c32_o_point (θ : ℝ) : c.toCart (0, θ) = c.oPoint := by
  unfold toCart oPoint root
  simp

theorem ofCart_eq (p : ℝ × ℝ) : c.ofCart p =
    (sqrt ((p.2 - c.o.2) * (p.2 - c.o.2) * (1 + c.eps * (p.1 - c.o.1)) * (1 + c.eps * (p.1 - c.o.1))
        / (c.e * c.e * (1 / (1 - c.eps * c.eps * 0.25)))
        + (c.eps * (p.1 - c.o.1) * (p.1 - c.o.1) - 2 * (p.1 - c.o.1) - c.eps)
          * (c.eps * (p.1 - c.o.1) * (p.1 - c.o.1) - 2 * (p.1 - c.o.1) - c.eps) * 0.25),
      wrap (atan2 (2 * (p.2 - c.o.2) * (1 + c.eps * (p.1 - c.o.1)))
        (c.e * c.xi * (c.eps * (p.1 - c.o.1) * (p.1 - c.o.1) - 2 * (p.1 - c.o.1) - c.eps)))) := rfl

/-- **C32** Mapping to Cartesian coordinates and back is the identity for `r > 0`, `θ ∈ [0, 2π)` at every regular point. -/
theorem c32_czarny_cart_czarny (hv : Valid c) {r θ : ℝ} (hr : 0 < r) (h0 : 0 ≤ θ) (h1 : θ < 2 * π)
    (hreg : Regular c (r, θ)) : c.ofCart (c.toCart (r, θ)) = (r, θ) := by
  have he := hv.eps_pos.ne'
  have hep := hv.e_pos
  have hxi := xi_pos hv
  have hlt := root_lt hreg
  have hsq := root_sq hreg
  have hxsq := xi_sq hv
  have h2 : 2 - c.root (r, θ) ≠ 0 := by linarith
  rw [ofCart_eq, toCart_y hv]
  have hX : (c.toCart (r, θ)).1 - c.o.1 = (1 - c.root (r, θ)) / c.eps := by unfold toCart; simp
  rw [hX, add_sub_cancel_right]
  have e1 : 1 + c.eps * ((1 - c.root (r, θ)) / c.eps) = 2 - c.root (r, θ) := by field_simp; ring
  have e2 : c.eps * ((1 - c.root (r, θ)) / c.eps) * ((1 - c.root (r, θ)) / c.eps)
      - 2 * ((1 - c.root (r, θ)) / c.eps) - c.eps = 2 * (r * cos θ) := by
    field_simp
    dsimp only at hsq
    linear_combination hsq
  rw [e1, e2, ← hxsq]
  dsimp only
  have e3 : c.e * c.xi * r * sin θ / (2 - c.root (r, θ)) * (c.e * c.xi * r * sin θ / (2 - c.root (r, θ)))
      * (2 - c.root (r, θ)) * (2 - c.root (r, θ)) / (c.e * c.e * c.xi ^ 2)
      + 2 * (r * cos θ) * (2 * (r * cos θ)) * 0.25 = r * r := by
    have : c.e * c.xi * r * sin θ / (2 - c.root (r, θ)) * (c.e * c.xi * r * sin θ / (2 - c.root (r, θ)))
      * (2 - c.root (r, θ)) * (2 - c.root (r, θ)) / (c.e * c.e * c.xi ^ 2) = r ^ 2 * sin θ ^ 2 := by
      have := hxi.ne'
      have := hep.ne'
      field_simp
    rw [this]
    linear_combination (r * r) * sin_sq_add_cos_sq θ
  rw [e3, sqrt_mul_self hr.le]
  have e4 : 2 * (c.e * c.xi * r * sin θ / (2 - c.root (r, θ))) * (2 - c.root (r, θ))
      = (2 * c.e * c.xi * r) * sin θ := by field_simp
  have e5 : c.e * c.xi * (2 * (r * cos θ)) = (2 * c.e * c.xi * r) * cos θ := by ring
  rw [e4, e5, wrap_atan2 (by positivity) h0 h1]

/-- **C32** The usual domain: `0 < ε < 1`, `e > 0`, `0 < r ≤ 1`. -/
theorem c32_unit_disk (he : 0 < c.eps) (he1 : c.eps < 1) (hep : 0 < c.e) {r θ : ℝ} (hr : 0 < r) (hr1 : r ≤ 1)
    (h0 : 0 ≤ θ) (h1 : θ < 2 * π) : c.ofCart (c.toCart (r, θ)) = (r, θ) :=
  c32_czarny_cart_czarny ⟨he, by linarith, hep⟩ hr h0 h1 (regular_of_unit he he1 hr.le hr1)

/-- **C32** Mapping to Czarny coordinates and back is the identity for every point between the two vertical lines
`x = ± 1/ε` (relative to the origin) – in particular for every point of the image of the unit disk. -/
theorem c32_cart_czarny_cart (hv : Valid c) {p : ℝ × ℝ} (h1 : -1 < c.eps * (p.1 - c.o.1))
    (h2 : c.eps * (p.1 - c.o.1) ≤ 1) : c.toCart (c.ofCart p) = p := by
  have he := hv.eps_pos.ne'
  have hep := hv.e_pos
  have hxi := xi_pos hv
  have hxsq := xi_sq hv
  generalize hx : p.1 - c.o.1 = x at h1 h2
  generalize hy : p.2 - c.o.2 = y
  set ex := 1 + c.eps * x with hex
  set ex2 := c.eps * x * x - 2 * x - c.eps with hex2
  have hexp : 0 < ex := by rw [hex]; linarith
  -- polar form of the inverse
  set X := c.e * c.xi * ex2 with hX
  set Y := 2 * y * ex with hY
  have hK : 0 < 2 * c.e * c.xi := by positivity
  have hr : (c.ofCart p).1 = sqrt (X * X + Y * Y) / (2 * c.e * c.xi) := by
    rw [ofCart_eq, hx, hy]
    dsimp only
    rw [← hex, ← hex2, ← hxsq, eq_div_iff hK.ne']
    conv_lhs => rw [← sqrt_sq hK.le, ← sqrt_mul' _ (sq_nonneg _)]
    congr 1
    rw [hX, hY]
    have := hxi.ne'
    have := hep.ne'
    field_simp
    ring
  have ht : (c.ofCart p).2 = wrap (atan2 Y X) := by rw [ofCart_eq, hx, hy]
  have hrc : (c.ofCart p).1 * cos (c.ofCart p).2 = ex2 / 2 := by
    rw [hr, ht, div_mul_eq_mul_div, r_cos, hX]
    have := hxi.ne'
    have := hep.ne'
    field_simp
  have hrs : (c.ofCart p).1 * sin (c.ofCart p).2 = y * ex / (c.e * c.xi) := by
    rw [hr, ht, div_mul_eq_mul_div, r_sin, hY]
    have := hxi.ne'
    have := hep.ne'
    field_simp
  have hroot : c.root (c.ofCart p) = 1 - c.eps * x := by
    unfold root
    have : c.eps * (c.eps + 2 * (c.ofCart p).1 * cos (c.ofCart p).2) + 1 = (1 - c.eps * x) ^ 2 := by
      rw [mul_assoc 2, hrc, hex2]; ring
    rw [this, sqrt_sq (by linarith)]
  apply Prod.ext
  · have : (c.toCart (c.ofCart p)).1 = (1 - c.root (c.ofCart p)) / c.eps + c.o.1 := rfl
    rw [this, hroot]
    have e : (1 - (1 - c.eps * x)) / c.eps = x := by field_simp; ring
    rw [e]; linarith
  · rw [toCart_y hv, hroot, mul_assoc (c.e * c.xi), hrs]
    have e : 2 - (1 - c.eps * x) = ex := by rw [hex]; ring
    rw [e]
    have := hxi.ne'
    have := hep.ne'
    have := hexp.ne'
    have e2 : c.e * c.xi * (y * ex / (c.e * c.xi)) / ex = y := by field_simp
    rw [e2]; linarith

/-- **C32** The computed radius is non-negative and the computed angle is in `[0, 2π)`. -/
theorem c32_range (p : ℝ × ℝ) : 0 ≤ (c.ofCart p).1 ∧ 0 ≤ (c.ofCart p).2 ∧ (c.ofCart p).2 < 2 * π := by
  rw [ofCart_eq]; exact ⟨sqrt_nonneg _, wrap_mem _ _⟩

/-- Non-vacuity: the parameters used throughout the documentation. -/
example : (⟨0.3, 1.4, (0, 0)⟩ : Czarny).ofCart ((⟨0.3, 1.4, (0, 0)⟩ : Czarny).toCart (1, 5)) = (1, 5) :=
  c32_unit_disk (by norm_num) (by norm_num) (by norm_num) (by norm_num) (by norm_num) (by norm_num)
    (by linarith [pi_gt_three])

/-! ### Jacobian -/

theorem root_deriv_r {p : ℝ × ℝ} (h : Regular c p) :
    HasDerivAt (fun t => c.root (t, p.2)) (c.eps * cos p.2 / c.root p) p.1 := by
  have h1 : HasDerivAt (fun t : ℝ => c.eps * (c.eps + 2 * t * cos p.2) + 1) (c.eps * (2 * cos p.2)) p.1 := by
    have := ((((hasDerivAt_id p.1).const_mul 2).mul_const (cos p.2)).const_add c.eps).const_mul c.eps
    simpa using this.add_const 1
  have h2 := h1.sqrt h.pos.ne'
  refine h2.congr_deriv ?_
  have : sqrt (c.eps * (c.eps + 2 * p.1 * cos p.2) + 1) = c.root p := rfl
  rw [this]
  have := (root_pos h).ne'
  field_simp

theorem root_deriv_theta {p : ℝ × ℝ} (h : Regular c p) :
    HasDerivAt (fun t => c.root (p.1, t)) (-(c.eps * p.1 * sin p.2) / c.root p) p.2 := by
  have h1 : HasDerivAt (fun t : ℝ => c.eps * (c.eps + 2 * p.1 * cos t) + 1) (c.eps * (2 * p.1 * -sin p.2)) p.2 := by
    have := (((hasDerivAt_cos p.2).const_mul (2 * p.1)).const_add c.eps).const_mul c.eps
    simpa using this.add_const 1
  have h2 := h1.sqrt h.pos.ne'
  refine h2.congr_deriv ?_
  have : sqrt (c.eps * (c.eps + 2 * p.1 * cos p.2) + 1) = c.root p := rfl
  rw [this]
  have := (root_pos h).ne'
  field_simp

/-- **C31** The Jacobian matrix of the Czarny mapping is the matrix of its partial derivatives at every regular point. -/
theorem c31_czarny_jacobian (hv : Valid c) {p : ℝ × ℝ} (h : Regular c p) : IsJacobian c.toCart (c.jacMat p) p := by
  have he := hv.eps_pos.ne'
  have hr := (root_pos h).ne'
  have h2 : 2 - c.root p ≠ 0 := by linarith [root_lt h]
  have d1 := root_deriv_r h
  have d2 := root_deriv_theta h
  refine ⟨?_, ?_, ?_, ?_⟩
  · have := ((d1.const_sub 1).div_const c.eps).add_const c.o.1
    refine this.congr_deriv ?_
    simp only [jacMat, Matrix.cons_val_zero]
    field_simp
  · have := ((d2.const_sub 1).div_const c.eps).add_const c.o.1
    refine this.congr_deriv ?_
    simp only [jacMat, Matrix.cons_val_zero, Matrix.cons_val_one]
    field_simp
  · simp only [toCart_y hv]
    have n1 : HasDerivAt (fun t : ℝ => c.e * c.xi * t * sin p.2) (c.e * c.xi * sin p.2) p.1 := by
      simpa using ((hasDerivAt_id p.1).const_mul (c.e * c.xi)).mul_const (sin p.2)
    have := (n1.div (d1.const_sub 2) h2).add_const c.o.2
    refine this.congr_deriv ?_
    simp only [jacMat, Matrix.cons_val_zero, Matrix.cons_val_one]
    field_simp
    ring
  · simp only [toCart_y hv]
    have n1 : HasDerivAt (fun t : ℝ => c.e * c.xi * p.1 * sin t) (c.e * c.xi * p.1 * cos p.2) p.2 :=
      (hasDerivAt_sin p.2).const_mul (c.e * c.xi * p.1)
    have := (n1.div (d2.const_sub 2) h2).add_const c.o.2
    refine this.congr_deriv ?_
    simp only [jacMat, Matrix.cons_val_one, Matrix.cons_val_fin_one, Matrix.cons_val_zero]
    field_simp
    ring

/-- **C31** `jacobian` is the determinant of the Jacobian matrix. -/
theorem c31_czarny_det {p : ℝ × ℝ} (h : Regular c p) : c.jac p = (Matrix.of (c.jacMat p)).det := by
  have hr := (root_pos h).ne'
  have h2 : 2 - c.root p ≠ 0 := by linarith [root_lt h]
  rw [Matrix.det_fin_two]
  simp only [jac, jacMat, Matrix.of_apply, Matrix.cons_val_zero, Matrix.cons_val_one, root_comm]
  field_simp
  linear_combination (p.1 * c.root p * c.e * c.xi * (2 - c.root p)) * sin_sq_add_cos_sq p.2

/-- **C31** Away from the O-point `inv_jacobian_matrix` is the inverse of the Jacobian matrix. -/
theorem c31_czarny_inverse (hv : Valid c) {p : ℝ × ℝ} (h : Regular c p) (hr0 : p.1 ≠ 0) :
    Matrix.of (c.invJacMat p) * Matrix.of (c.jacMat p) = 1 ∧
    Matrix.of (c.jacMat p) * Matrix.of (c.invJacMat p) = 1 := by
  have hr := (root_pos h).ne'
  have h2 : 2 - c.root p ≠ 0 := by linarith [root_lt h]
  have hx := (xi_pos hv).ne'
  have hep := hv.e_pos.ne'
  have hsc := sin_sq_add_cos_sq p.2
  have h1 : Matrix.of (c.invJacMat p) * Matrix.of (c.jacMat p) = 1 := by
    ext i j
    fin_cases i <;> fin_cases j <;>
      simp [Matrix.mul_apply, Fin.sum_univ_two, invJacMat, jacMat, root_comm] <;> field_simp
    · linear_combination (c.root p * (2 - c.root p)) * hsc
    · ring
    · ring
    · linear_combination (c.root p * (2 - c.root p)) * hsc
  exact ⟨h1, mul_eq_one_comm.1 h1⟩

end Czarny

end Verif.Mappings
