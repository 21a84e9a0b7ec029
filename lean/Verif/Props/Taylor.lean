import Mathlib.Analysis.Calculus.FDeriv.Symmetric
import Mathlib.Analysis.Calculus.MeanValue
import Mathlib.Analysis.Calculus.ContDiff.Basic
import Mathlib.Analysis.Calculus.ContDiff.Operations
import Mathlib.Analysis.Calculus.FDeriv.Bilinear
import Mathlib.Topology.MetricSpace.Thickening
import Mathlib.Tactic.Module

/-!
# Taylor expansions with uniform remainder on a compact set

Mathematical background of property C93 (order of the time steppers): no code is modelled here. For a function of class `C^n`, `n ≤ 4`, the Taylor polynomial of
degree `n - 1` at `y` has a remainder bounded by `K ‖x‖^n`, with the same `K` for all `y` in a compact set.
-/

namespace Verif.Taylor

variable {E F : Type*} [NormedAddCommGroup E] [NormedSpace ℝ E] [NormedAddCommGroup F] [NormedSpace ℝ F]

/-- The derivative, as a map to the normed space of continuous linear maps. -/
noncomputable abbrev D (f : E → F) : E → E →L[ℝ] F := fderiv ℝ f

/-- If `g 0 = 0` and the derivative is bounded by `K ‖x‖^n` on a ball, `g` is bounded by `K ‖x‖^(n+1)` there. -/
theorem bound_of_deriv {g : E → F} {g' : E → E →L[ℝ] F} {r K : ℝ} {n : ℕ} (hK : 0 ≤ K)
    (hg : ∀ x, ‖x‖ ≤ r → HasFDerivAt g (g' x) x) (h0 : g 0 = 0) (hb : ∀ x, ‖x‖ ≤ r → ‖g' x‖ ≤ K * ‖x‖ ^ n) :
    ∀ x, ‖x‖ ≤ r → ‖g x‖ ≤ K * ‖x‖ ^ (n + 1) := by
  intro x hx
  have hball : ∀ y ∈ Metric.closedBall (0 : E) ‖x‖, ‖y‖ ≤ ‖x‖ := fun y hy => by simpa using hy
  have := (convex_closedBall (0 : E) ‖x‖).norm_image_sub_le_of_norm_hasFDerivWithin_le (f := g) (f' := g') (C := K * ‖x‖ ^ n) (x := 0) (y := x)
    (fun y hy => (hg y ((hball y hy).trans hx)).hasFDerivWithinAt)
    (fun y hy => (hb y ((hball y hy).trans hx)).trans (mul_le_mul_of_nonneg_left (pow_le_pow_left₀ (norm_nonneg y) (hball y hy) n) hK))
    (by simp) (by simp)
  rw [h0, sub_zero, sub_zero] at this
  rw [pow_succ, ← mul_assoc]
  exact this

theorem hasFDerivAt_shift {f : E → F} {y : E} (hf : Differentiable ℝ f) (x : E) : HasFDerivAt (fun x => f (y + x)) (D f (y + x)) x := by
  have h1 : HasFDerivAt (fun x : E => y + x) (ContinuousLinearMap.id ℝ E) x := (hasFDerivAt_id x).const_add y
  have := (hf (y + x)).hasFDerivAt.comp x h1
  rw [ContinuousLinearMap.comp_id] at this
  exact this

/-- Order one. -/
theorem taylor1 {f : E → F} (hf : ContDiff ℝ 1 f) {y : E} {r K : ℝ} (hK : 0 ≤ K) (hb : ∀ x, ‖x‖ ≤ r → ‖D f (y + x)‖ ≤ K) :
    ∀ x, ‖x‖ ≤ r → ‖f (y + x) - f y‖ ≤ K * ‖x‖ ^ 1 := by
  refine bound_of_deriv (g := fun x => f (y + x) - f y) (g' := fun x => D f (y + x)) (n := 0) hK ?_ (by simp) ?_
  · intro x _
    exact (hasFDerivAt_shift (hf.differentiable (by norm_num)) x).sub_const _
  · intro x hx
    simpa using hb x hx

/-- Order two. -/
theorem taylor2 {f : E → F} (hf : ContDiff ℝ 2 f) {y : E} {r K : ℝ} (hK : 0 ≤ K) (hb : ∀ x, ‖x‖ ≤ r → ‖D (D f) (y + x)‖ ≤ K) :
    ∀ x, ‖x‖ ≤ r → ‖f (y + x) - (f y + D f y x)‖ ≤ K * ‖x‖ ^ 2 := by
  have hf' : ContDiff ℝ 1 (D f) := hf.fderiv_right (by norm_num)
  refine bound_of_deriv (g := fun x => f (y + x) - (f y + D f y x)) (g' := fun x => D f (y + x) - D f y) (n := 1) hK ?_ (by simp) ?_
  · intro x _
    exact (hasFDerivAt_shift (hf.differentiable (by norm_num)) x).sub ((D f y).hasFDerivAt.const_add _)
  · exact taylor1 hf' hK hb

/-- The second derivative is symmetric. -/
theorem symm2 {f : E → F} (hf : ContDiff ℝ 2 f) (y v w : E) : D (D f) y v w = D (D f) y w v :=
  (hf.contDiffAt.isSymmSndFDerivAt (by simp)) v w

/-- Derivative of `x ↦ B x x`. -/
theorem hasFDerivAt_quad (B : E →L[ℝ] E →L[ℝ] F) (x : E) : HasFDerivAt (fun x => B x x) (B x + B.flip x) x := by
  have h := B.hasFDerivAt (x := x) |>.clm_apply (hasFDerivAt_id x)
  refine h.congr_fderiv ?_
  ext v
  simp

/-- Order three. -/
theorem taylor3 {f : E → F} (hf : ContDiff ℝ 3 f) {y : E} {r K : ℝ} (hK : 0 ≤ K) (hb : ∀ x, ‖x‖ ≤ r → ‖D (D (D f)) (y + x)‖ ≤ K) :
    ∀ x, ‖x‖ ≤ r → ‖f (y + x) - (f y + D f y x + (1 / 2 : ℝ) • D (D f) y x x)‖ ≤ K * ‖x‖ ^ 3 := by
  have hf' : ContDiff ℝ 2 (D f) := hf.fderiv_right (by norm_num)
  refine bound_of_deriv (g := fun x => f (y + x) - (f y + D f y x + (1 / 2 : ℝ) • D (D f) y x x))
    (g' := fun x => D f (y + x) - (D f y + D (D f) y x)) (n := 2) hK ?_ (by simp) ?_
  · intro x _
    have h := (hasFDerivAt_shift (y := y) (hf.differentiable (by norm_num)) x).sub
      (((D f y).hasFDerivAt (x := x) |>.const_add (f y)).add ((hasFDerivAt_quad (D (D f) y) x).const_smul (1 / 2 : ℝ)))
    refine h.congr_fderiv ?_
    ext v
    simp only [sub_apply, add_apply, smul_apply, ContinuousLinearMap.flip_apply]
    rw [symm2 (hf.of_le (by norm_num)) y v x]
    module
  · exact taylor2 hf' hK hb

/-- The third derivative is symmetric in its first two arguments and in its last two. -/
theorem symm3 {f : E → F} (hf : ContDiff ℝ 3 f) (y u v w : E) :
    D (D (D f)) y u v w = D (D (D f)) y v u w ∧
    D (D (D f)) y u v w = D (D (D f)) y u w v := by
  have hf' : ContDiff ℝ 2 (D f) := hf.fderiv_right (by norm_num)
  have hf'' : ContDiff ℝ 1 (D (D f)) := hf'.fderiv_right (by norm_num)
  refine ⟨by rw [symm2 hf' y u v], ?_⟩
  have key : ∀ v w : E, HasFDerivAt (fun x => D (D f) x v w)
      (((D (D (D f)) y).flip v).flip w) y := by
    intro v w
    have h1 := ((hf''.differentiable (by norm_num)) y).hasFDerivAt
    have h2 := h1.clm_apply (hasFDerivAt_const v y)
    have h3 := h2.clm_apply (hasFDerivAt_const w y)
    refine h3.congr_fderiv ?_
    ext t
    simp
  have h1 := key v w
  have h2 := key w v
  have e : (fun x => D (D f) x v w) = fun x => D (D f) x w v := by
    funext x
    exact symm2 (hf.of_le (by norm_num)) x v w
  rw [e] at h1
  have := congrArg (fun T => T u) (h1.unique h2)
  simpa using this

/-- Derivative of `x ↦ C x x x`. -/
theorem hasFDerivAt_cubic (C : E →L[ℝ] E →L[ℝ] E →L[ℝ] F) (x : E) :
    HasFDerivAt (fun x => C x x x) (C x x + (C x).flip x + ((C.flip x).flip x)) x := by
  have h1 := hasFDerivAt_quad C x
  have h := h1.clm_apply (hasFDerivAt_id x)
  refine h.congr_fderiv ?_
  ext v
  simp
  abel

/-- Order four. -/
theorem taylor4 {f : E → F} (hf : ContDiff ℝ 4 f) {y : E} {r K : ℝ} (hK : 0 ≤ K) (hb : ∀ x, ‖x‖ ≤ r → ‖D (D (D (D f))) (y + x)‖ ≤ K) :
    ∀ x, ‖x‖ ≤ r → ‖f (y + x) - (f y + D f y x + (1 / 2 : ℝ) • D (D f) y x x + (1 / 6 : ℝ) • D (D (D f)) y x x x)‖ ≤ K * ‖x‖ ^ 4 := by
  have hf' : ContDiff ℝ 3 (D f) := hf.fderiv_right (by norm_num)
  refine bound_of_deriv (g := fun x => f (y + x) - (f y + D f y x + (1 / 2 : ℝ) • D (D f) y x x + (1 / 6 : ℝ) • D (D (D f)) y x x x))
    (g' := fun x => D f (y + x) - (D f y + D (D f) y x + (1 / 2 : ℝ) • D (D (D f)) y x x)) (n := 3) hK ?_ (by simp) ?_
  · intro x _
    have h := (hasFDerivAt_shift (y := y) (hf.differentiable (by norm_num)) x).sub
      ((((D f y).hasFDerivAt (x := x) |>.const_add (f y)).add ((hasFDerivAt_quad (D (D f) y) x).const_smul (1 / 2 : ℝ))).add
        ((hasFDerivAt_cubic (D (D (D f)) y) x).const_smul (1 / 6 : ℝ)))
    refine h.congr_fderiv ?_
    ext v
    simp only [sub_apply, add_apply, smul_apply, ContinuousLinearMap.flip_apply]
    have s := fun a b c => symm3 (hf.of_le (m := 3) (by norm_num)) y a b c
    rw [symm2 (hf.of_le (by norm_num)) y v x, (s v x x).1, (s x v x).2]
    module
  · exact taylor3 hf' hK hb

/-- A continuous map is bounded on a neighbourhood of uniform size of a compact set. -/

theorem bounded_near {G : Type*} [NormedAddCommGroup G] {g : E → G} (hg : Continuous g) {S : Set E} (hS : IsCompact S) :
    ∃ r K : ℝ, 0 < r ∧ 0 ≤ K ∧ ∀ y ∈ S, ∀ x, ‖x‖ ≤ r → ‖g (y + x)‖ ≤ K := by
  obtain ⟨M, hM⟩ := hS.exists_bound_of_continuousOn hg.continuousOn
  have hopen : IsOpen {x | ‖g x‖ < |M| + 1} := isOpen_lt hg.norm continuous_const
  obtain ⟨δ, hδ, hsub⟩ := hS.exists_cthickening_subset_open hopen (fun y hy => by
    show ‖g y‖ < |M| + 1
    linarith [hM y hy, le_abs_self M])
  refine ⟨δ, |M| + 1, hδ, by positivity, fun y hy x hx => ?_⟩
  have : y + x ∈ Metric.cthickening δ S := Metric.mem_cthickening_of_dist_le _ y δ S hy (by simpa [dist_eq_norm] using hx)
  exact (hsub this).le

end Verif.Taylor
