import Verif.Model.CircularMapping
import Mathlib.Analysis.SpecialFunctions.Trigonometric.Deriv
import Mathlib.Analysis.SpecialFunctions.Sqrt
import Mathlib.Analysis.Real.Pi.Bounds
import Mathlib.Analysis.SpecialFunctions.Complex.LogDeriv
import Mathlib.LinearAlgebra.Matrix.Determinant.Basic
import Mathlib.Tactic.FieldSimp
import Mathlib.Tactic.FinCases
import Mathlib.Tactic.Linarith
import Mathlib.Tactic.LinearCombination
import Mathlib.Tactic.Positivity
import Mathlib.Tactic.Ring

/-!
# C30, C31 (circular part): the circular mapping, its inverse and its Jacobian
-/

namespace Verif.Mappings

open Real

/-- `atan2` brought to `[0, 2π)` the way both inverse mappings do it. -/
noncomputable def wrap (t : ℝ) : ℝ := if t < 0 then 2 * π + t else t

theorem wrap_mem (x y : ℝ) : 0 ≤ wrap (atan2 y x) ∧ wrap (atan2 y x) < 2 * π := by
  have h1 := Complex.neg_pi_lt_arg ⟨x, y⟩
  have h2 := Complex.arg_le_pi ⟨x, y⟩
  have := pi_pos
  unfold wrap atan2
  split_ifs with h
  · constructor <;> linarith
  · constructor <;> linarith

theorem cos_wrap (t : ℝ) : cos (wrap t) = cos t := by
  unfold wrap; split_ifs
  · rw [add_comm, cos_add_two_pi]
  · rfl

theorem sin_wrap (t : ℝ) : sin (wrap t) = sin t := by
  unfold wrap; split_ifs
  · rw [add_comm, sin_add_two_pi]
  · rfl

theorem norm_eq (x y : ℝ) : ‖(⟨x, y⟩ : ℂ)‖ = sqrt (x * x + y * y) := by
  rw [Complex.norm_eq_sqrt_sq_add_sq]; simp [pow_two]

theorem r_cos (x y : ℝ) : sqrt (x * x + y * y) * cos (wrap (atan2 y x)) = x := by
  rw [cos_wrap, ← norm_eq]; exact Complex.norm_mul_cos_arg ⟨x, y⟩

theorem r_sin (x y : ℝ) : sqrt (x * x + y * y) * sin (wrap (atan2 y x)) = y := by
  rw [sin_wrap, ← norm_eq]; exact Complex.norm_mul_sin_arg ⟨x, y⟩

/-- The wrapped angle of `(r cos θ, r sin θ)` is `θ` for `θ ∈ [0, 2π)`. -/
theorem wrap_atan2 {r θ : ℝ} (hr : 0 < r) (h0 : 0 ≤ θ) (h1 : θ < 2 * π) :
    wrap (atan2 (r * sin θ) (r * cos θ)) = θ := by
  have hz : ∀ φ : ℝ, (⟨r * cos φ, r * sin φ⟩ : ℂ) = r * (Complex.cos φ + Complex.sin φ * Complex.I) := by
    intro φ
    apply Complex.ext <;> simp [← Complex.ofReal_cos, ← Complex.ofReal_sin]
  have hpi := pi_pos
  unfold atan2
  by_cases h : θ ≤ π
  · rw [hz, Complex.arg_mul_cos_add_sin_mul_I hr ⟨by linarith, h⟩]
    unfold wrap; rw [if_neg (by linarith)]
  · have h := not_le.1 h
    have hc : cos θ = cos (θ - 2 * π) := (cos_sub_two_pi θ).symm
    have hs : sin θ = sin (θ - 2 * π) := (sin_sub_two_pi θ).symm
    rw [hc, hs, hz, Complex.arg_mul_cos_add_sin_mul_I hr ⟨by linarith, by linarith⟩]
    unfold wrap; rw [if_pos (by linarith)]; ring

theorem cartToCirc_eq (o p : ℝ × ℝ) :
    cartToCirc o p = (sqrt ((p.1 - o.1) * (p.1 - o.1) + (p.2 - o.2) * (p.2 - o.2)),
      wrap (atan2 (p.2 - o.2) (p.1 - o.1))) := by
  unfold cartToCirc wrap
  dsimp only
  congr 1
  rcases lt_or_ge (atan2 (p.2 - o.2) (p.1 - o.1)) 0 with h | h
  · simp [h, not_le.2 h]; ring
  · simp [h, not_lt.2 h]

/-- **C30** Mapping to circular coordinates and back is the identity, for every point of the plane. -/
theorem c30_cart_circ_cart (o p : ℝ × ℝ) : circToCart o (cartToCirc o p) = p := by
  rw [cartToCirc_eq]
  unfold circToCart
  rw [Prod.ext_iff]
  dsimp only
  rw [r_cos, r_sin]
  constructor <;> ring

/-- **C30** Mapping to Cartesian coordinates and back is the identity for `r > 0` and `θ ∈ [0, 2π)`. -/
theorem c30_circ_cart_circ (o : ℝ × ℝ) {r θ : ℝ} (hr : 0 < r) (h0 : 0 ≤ θ) (h1 : θ < 2 * π) :
    cartToCirc o (circToCart o (r, θ)) = (r, θ) := by
  rw [cartToCirc_eq]
  unfold circToCart
  simp only [add_sub_cancel_right]
  rw [wrap_atan2 hr h0 h1]
  have : r * cos θ * (r * cos θ) + r * sin θ * (r * sin θ) = r * r := by
    linear_combination (r * r) * (sin_sq_add_cos_sq θ)
  rw [this, sqrt_mul_self hr.le]

/-- **C30** The computed radius is non-negative and the computed angle is in `[0, 2π)`. -/
theorem c30_range (o p : ℝ × ℝ) :
    0 ≤ (cartToCirc o p).1 ∧ 0 ≤ (cartToCirc o p).2 ∧ (cartToCirc o p).2 < 2 * π := by
  rw [cartToCirc_eq]
  exact ⟨sqrt_nonneg _, wrap_mem _ _⟩

/-- At the O-point the angle is lost (the mapping is singular there): the inverse mapping returns `(0, 0)`. -/
theorem c30_o_point (o : ℝ × ℝ) (θ : ℝ) : cartToCirc o (circToCart o (0, θ)) = (0, 0) := by
  rw [cartToCirc_eq]
  unfold circToCart wrap atan2
  have : (⟨0, 0⟩ : ℂ) = 0 := rfl
  simp [this]

/-- Non-vacuity of `c30_circ_cart_circ`. -/
example : cartToCirc (1, 2) (circToCart (1, 2) (3, 4)) = (3, 4) :=
  c30_circ_cart_circ _ (by norm_num) (by norm_num) (by linarith [pi_gt_three])

/-! ### Jacobians -/

/-- Specification: `M` is the matrix of partial derivatives of `F` at `p`. -/
def IsJacobian (F : ℝ × ℝ → ℝ × ℝ) (M : Fin 2 → Fin 2 → ℝ) (p : ℝ × ℝ) : Prop :=
  HasDerivAt (fun t => (F (t, p.2)).1) (M 0 0) p.1 ∧ HasDerivAt (fun t => (F (p.1, t)).1) (M 0 1) p.2 ∧
  HasDerivAt (fun t => (F (t, p.2)).2) (M 1 0) p.1 ∧ HasDerivAt (fun t => (F (p.1, t)).2) (M 1 1) p.2

/-- **C31** The Jacobian matrix of the circular mapping is the matrix of its partial derivatives (everywhere). -/
theorem c31_circ_jacobian (o p : ℝ × ℝ) : IsJacobian (circToCart o) (circJacMat p) p := by
  unfold IsJacobian circToCart circJacMat
  refine ⟨?_, ?_, ?_, ?_⟩
  · simpa using ((hasDerivAt_id p.1).mul_const (cos p.2)).add_const o.1
  · simpa using ((hasDerivAt_cos p.2).const_mul p.1).add_const o.1
  · simpa using ((hasDerivAt_id p.1).mul_const (sin p.2)).add_const o.2
  · simpa using ((hasDerivAt_sin p.2).const_mul p.1).add_const o.2

/-- **C31** `jacobian` is the determinant of the Jacobian matrix. -/
theorem c31_circ_det (p : ℝ × ℝ) : circJac p = (Matrix.of (circJacMat p)).det := by
  rw [Matrix.det_fin_two]
  simp [circJac, circJacMat]
  linear_combination (-p.1) * (sin_sq_add_cos_sq p.2)

/-- **C31** `jacobian_component` and `inv_jacobian_component` return the entries of the matrices. -/
theorem c31_circ_components (p : ℝ × ℝ) (i j : Fin 2) :
    circJacComp i j p = circJacMat p i j ∧ circInvJacComp i j p = circInvJacMat p i j := by
  fin_cases i <;> fin_cases j <;> simp [circJacComp, circJacMat, circInvJacComp, circInvJacMat]

/-- **C31** Away from the O-point `inv_jacobian_matrix` is the inverse of the Jacobian matrix. -/
theorem c31_circ_inverse {p : ℝ × ℝ} (hr : p.1 ≠ 0) :
    Matrix.of (circInvJacMat p) * Matrix.of (circJacMat p) = 1 ∧
    Matrix.of (circJacMat p) * Matrix.of (circInvJacMat p) = 1 := by
  have h := sin_sq_add_cos_sq p.2
  have h1 : Matrix.of (circInvJacMat p) * Matrix.of (circJacMat p) = 1 := by
    ext i j
    fin_cases i <;> fin_cases j <;>
      simp [Matrix.mul_apply, Fin.sum_univ_two, circInvJacMat, circJacMat] <;> field_simp <;> nlinarith [h]
  exact ⟨h1, mul_eq_one_comm.1 h1⟩

/-- **C31** The Jacobian matrix of the inverse mapping at the image of a point is the inverse Jacobian matrix at that point. -/
theorem c31_cart_to_circ_matrix (o : ℝ × ℝ) {p : ℝ × ℝ} (hr : 0 < p.1) :
    cartToCircJacMat o (circToCart o p) = circInvJacMat p := by
  unfold cartToCircJacMat circToCart circInvJacMat
  simp only [add_sub_cancel_right]
  have e : p.1 * cos p.2 * (p.1 * cos p.2) + p.1 * sin p.2 * (p.1 * sin p.2) = p.1 * p.1 := by
    linear_combination (p.1 * p.1) * (sin_sq_add_cos_sq p.2)
  rw [e, sqrt_mul_self hr.le]
  have hr' := hr.ne'
  ext i j
  fin_cases i <;> fin_cases j <;> simp <;> field_simp

/-- **C31** `CartesianToCircular::jacobian` is the determinant of its Jacobian matrix (away from the O-point). -/
theorem c31_cart_to_circ_det {o p : ℝ × ℝ} (h : p ≠ o) :
    cartToCircJac o p = (Matrix.of (cartToCircJacMat o p)).det := by
  have hpos : 0 < (p.1 - o.1) * (p.1 - o.1) + (p.2 - o.2) * (p.2 - o.2) := by
    by_contra hc
    apply h
    have h1 : (p.1 - o.1) = 0 := by nlinarith [mul_self_nonneg (p.1 - o.1), mul_self_nonneg (p.2 - o.2)]
    have h2 : (p.2 - o.2) = 0 := by nlinarith [mul_self_nonneg (p.1 - o.1), mul_self_nonneg (p.2 - o.2)]
    exact Prod.ext (by linarith) (by linarith)
  rw [Matrix.det_fin_two]
  simp only [cartToCircJac, cartToCircJacMat, Matrix.of_apply, Matrix.cons_val_zero, Matrix.cons_val_one]
  generalize hX : p.1 - o.1 = x at *
  generalize hY : p.2 - o.2 = y at *
  have hs : 0 < sqrt (x * x + y * y) := sqrt_pos.2 hpos
  have hp' := hpos.ne'
  have hs' := hs.ne'
  have e : x / sqrt (x * x + y * y) * (x / (x * x + y * y)) - y / sqrt (x * x + y * y) * (-y / (x * x + y * y))
      = (x * x + y * y) / (sqrt (x * x + y * y) * (x * x + y * y)) := by
    rw [div_mul_div_comm, div_mul_div_comm, ← sub_div]; ring
  rw [e, mul_comm (sqrt _), div_mul_eq_div_div, div_self hp']

/-- Off the half-line `[0, ∞)` the wrapped angle is `π + arg (-z)`. -/
theorem wrap_eq {x y : ℝ} (h : y ≠ 0 ∨ x < 0) : wrap (atan2 y x) = π + Complex.arg ⟨-x, -y⟩ := by
  have hneg : (⟨-x, -y⟩ : ℂ) = -⟨x, y⟩ := rfl
  rw [hneg]
  unfold wrap atan2
  rcases lt_trichotomy y 0 with hy | hy | hy
  · rw [if_pos (Complex.arg_neg_iff.2 hy), Complex.arg_neg_eq_arg_add_pi_of_im_neg hy]; ring
  · subst hy
    have hx : x < 0 := by simpa using h
    have h1 : Complex.arg ⟨x, 0⟩ = π := by rw [Complex.arg_eq_pi_iff]; exact ⟨hx, rfl⟩
    have h2 : Complex.arg (-⟨x, 0⟩) = 0 := by
      rw [Complex.arg_eq_zero_iff]; simp; exact hx.le
    rw [h1, h2, if_neg (by linarith [pi_pos])]; ring
  · rw [if_neg (not_lt.2 (Complex.arg_nonneg_iff.2 hy.le)), Complex.arg_neg_eq_arg_sub_pi_of_im_pos hy]; ring

/-- Derivative of `arg` along a curve in the slit plane. -/
theorem hasDerivAt_arg {f : ℝ → ℂ} {f' : ℂ} {t : ℝ} (hf : HasDerivAt f f' t) (hs : f t ∈ Complex.slitPlane) :
    HasDerivAt (fun u => Complex.arg (f u)) (f' / f t).im t := by
  have h := hf.clog_real hs
  have h2 := Complex.imCLM.hasFDerivAt.comp_hasDerivAt t h
  simpa [Function.comp_def, Complex.log_im] using h2

/-- **C31** The Jacobian matrix of `CartesianToCircular` is the matrix of the partial derivatives of the mapping, everywhere
except on the half-line `θ = 0` where the computed angle jumps from `2π` to `0`. -/
theorem c31_cart_to_circ_jacobian {o p : ℝ × ℝ} (h : p.2 - o.2 ≠ 0 ∨ p.1 - o.1 < 0) :
    IsJacobian (cartToCirc o) (cartToCircJacMat o p) p := by
  have hpos : 0 < (p.1 - o.1) * (p.1 - o.1) + (p.2 - o.2) * (p.2 - o.2) := by
    rcases h with h | h
    · have := mul_self_pos.2 h; nlinarith [mul_self_nonneg (p.1 - o.1)]
    · have := mul_self_pos.2 h.ne; nlinarith [mul_self_nonneg (p.2 - o.2)]
  have hs : sqrt ((p.1 - o.1) * (p.1 - o.1) + (p.2 - o.2) * (p.2 - o.2)) ≠ 0 := (sqrt_pos.2 hpos).ne'
  have hslit : (⟨-(p.1 - o.1), -(p.2 - o.2)⟩ : ℂ) ∈ Complex.slitPlane := by
    rw [Complex.mem_slitPlane_iff]
    rcases h with h | h
    · right; exact neg_ne_zero.2 h
    · left; exact neg_pos.2 h
  have hd1 : HasDerivAt (fun t : ℝ => t - o.1) 1 p.1 := (hasDerivAt_id p.1).sub_const o.1
  have hd2 : HasDerivAt (fun t : ℝ => t - o.2) 1 p.2 := (hasDerivAt_id p.2).sub_const o.2
  have hc1 : HasDerivAt (fun t : ℝ => (⟨-(t - o.1), -(p.2 - o.2)⟩ : ℂ)) (-1) p.1 := by
    have e : (fun t : ℝ => (⟨-(t - o.1), -(p.2 - o.2)⟩ : ℂ))
        = fun t : ℝ => ((-(t - o.1) : ℝ) : ℂ) + ((-(p.2 - o.2) : ℝ) : ℂ) * Complex.I := by
      funext t; apply Complex.ext <;> simp
    rw [e]
    have := (hd1.neg.ofReal_comp).add_const (((-(p.2 - o.2) : ℝ) : ℂ) * Complex.I)
    simpa using this
  have hc2 : HasDerivAt (fun t : ℝ => (⟨-(p.1 - o.1), -(t - o.2)⟩ : ℂ)) (-Complex.I) p.2 := by
    have e : (fun t : ℝ => (⟨-(p.1 - o.1), -(t - o.2)⟩ : ℂ))
        = fun t : ℝ => ((-(p.1 - o.1) : ℝ) : ℂ) + ((-(t - o.2) : ℝ) : ℂ) * Complex.I := by
      funext t; apply Complex.ext <;> simp
    rw [e]
    have := ((hd2.neg.ofReal_comp).mul_const Complex.I).const_add (((-(p.1 - o.1) : ℝ) : ℂ))
    simpa using this
  unfold IsJacobian
  simp only [cartToCirc_eq, cartToCircJacMat, Matrix.cons_val_zero, Matrix.cons_val_one]
  refine ⟨?_, ?_, ?_, ?_⟩
  · have := ((hd1.fun_mul hd1).add_const ((p.2 - o.2) * (p.2 - o.2))).sqrt hpos.ne'
    convert this using 1
    simp only [mul_one, one_mul]
    rw [div_eq_div_iff hs (by positivity)]; ring
  · have := ((hd2.fun_mul hd2).const_add ((p.1 - o.1) * (p.1 - o.1))).sqrt hpos.ne'
    convert this using 1
    simp only [mul_one, one_mul]
    rw [div_eq_div_iff hs (by positivity)]; ring
  · have hev : (fun t => wrap (atan2 (p.2 - o.2) (t - o.1))) =ᶠ[nhds p.1]
        fun t => π + Complex.arg ⟨-(t - o.1), -(p.2 - o.2)⟩ := by
      rcases h with h | h
      · exact Filter.Eventually.of_forall fun t => wrap_eq (Or.inl h)
      · have : ∀ᶠ t in nhds p.1, t - o.1 < 0 := by
          have hcont : ContinuousAt (fun t : ℝ => t - o.1) p.1 := hd1.continuousAt
          exact hcont.eventually_lt_const h
        exact this.mono fun t ht => wrap_eq (Or.inr ht)
    have := (hasDerivAt_arg hc1 hslit).const_add π
    refine (this.congr_of_eventuallyEq hev).congr_deriv ?_
    simp only [Complex.div_im, Complex.normSq_apply, Complex.neg_re, Complex.neg_im, Complex.one_re, Complex.one_im,
      Complex.I_re, Complex.I_im, neg_mul_neg]
    ring
  · have hev : (fun t => wrap (atan2 (t - o.2) (p.1 - o.1))) =ᶠ[nhds p.2]
        fun t => π + Complex.arg ⟨-(p.1 - o.1), -(t - o.2)⟩ := by
      rcases h with h | h
      · have : ∀ᶠ t in nhds p.2, t - o.2 ≠ 0 := by
          have hcont : ContinuousAt (fun t : ℝ => t - o.2) p.2 := hd2.continuousAt
          exact hcont.eventually_ne h
        exact this.mono fun t ht => wrap_eq (Or.inl ht)
      · exact Filter.Eventually.of_forall fun t => wrap_eq (Or.inr h)
    have := (hasDerivAt_arg hc2 hslit).const_add π
    refine (this.congr_of_eventuallyEq hev).congr_deriv ?_
    simp only [Complex.div_im, Complex.normSq_apply, Complex.neg_re, Complex.neg_im, Complex.one_re, Complex.one_im,
      Complex.I_re, Complex.I_im, neg_mul_neg]
    ring

end Verif.Mappings
