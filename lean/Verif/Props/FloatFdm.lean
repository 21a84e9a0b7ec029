import Verif.Model.FloatFdm
import Verif.Props.FloatQuad
import Verif.Props.AccuracyQuad
import Mathlib.Tactic.Linarith
import Mathlib.Tactic.Positivity
import Mathlib.Tactic.FieldSimp
import Mathlib.Tactic.Ring
import Mathlib.Tactic.LinearCombination

/-!
# C113: finite-difference derivatives in floating-point arithmetic

Specification: the derivative `Fdm.deriv`, `Fdm.derivPeriodic`, `Fdm.derivB` in real arithmetic (C17, C95) and the derivative of a smooth function. `gam u k = (1 - u)⁻ᵏ - 1` is about `k u`.
-/

namespace Verif.FloatFdm

open Verif.Rounding Verif.FloatLagrange Verif.FloatQuad

variable {u : ℝ}

/-! ## Coefficients -/

/-- `1 / h1 + 1 / h2`: the scale of the coefficients. -/
noncomputable def scale (h1 h2 : ℝ) : ℝ := 1 / h1 + 1 / h2

theorem scale_pos {h1 h2 : ℝ} (k1 : 0 < h1) (k2 : 0 < h2) : 0 < scale h1 h2 := by unfold scale; positivity

theorem ratio_abs {h1 h2 : ℝ} (k1 : 0 < h1) (k2 : 0 < h2) : |h1 / (h2 * (h1 + h2))| ≤ scale h1 h2 := by
  rw [abs_of_pos (by positivity)]
  have e : scale h1 h2 - h1 / (h2 * (h1 + h2)) = 1 / h1 + 1 / (h1 + h2) := by unfold scale; field_simp; ring
  have : 0 < 1 / h1 + 1 / (h1 + h2) := by positivity
  linarith

theorem ratio_err (hu0 : 0 ≤ u) (hu : u < 1) {H1 H2 f1 f2 v : ℝ} (k1 : 0 < H1) (k2 : 0 < H2) (g1 : Fac u 1 f1) (g2 : Fac u 1 f2)
    (h : RatioFl u (H1 * f1) (H2 * f2) v) : |v - H1 / (H2 * (H1 + H2))| ≤ gam u 6 * scale H1 H2 := by
  obtain ⟨s, p, hs, hp, hv⟩ := h
  obtain ⟨e, ge, ee⟩ := sum_fac hu k1 k2 g1 g2
  rw [ee] at hs
  obtain ⟨e1, ge1, rfl⟩ := fl_fac_of hu0 hu ge hs
  rw [show H2 * f2 * ((H1 + H2) * e1) = H2 * (H1 + H2) * (f2 * e1) by ring] at hp
  obtain ⟨e2, ge2, rfl⟩ := fl_fac_of hu0 hu (fac_mul hu g2 ge1) hp
  have n2 : e2 ≠ 0 := (fac_pos hu ge2).ne'
  rw [show H1 * f1 / (H2 * (H1 + H2) * e2) = H1 / (H2 * (H1 + H2)) * (f1 * e2⁻¹) by field_simp] at hv
  obtain ⟨e3, ge3, rfl⟩ := fl_fac_of hu0 hu (fac_mul hu g1 (fac_inv hu ge2)) hv
  have := fac_err hu0 hu ge3
  rw [show H1 / (H2 * (H1 + H2)) * e3 - H1 / (H2 * (H1 + H2)) = (e3 - 1) * (H1 / (H2 * (H1 + H2))) by ring, abs_mul]
  exact mul_le_mul (by simpa using this) (ratio_abs k1 k2) (abs_nonneg _) (gam_nonneg hu0 hu 6)

theorem inv_err (hu0 : 0 ≤ u) (hu : u < 1) {H f v : ℝ} (k : 0 < H) (g : Fac u 1 f) (h : Fl u (1 / (H * f)) v) : |v - 1 / H| ≤ gam u 2 * (1 / H) := by
  have n := (fac_pos hu g).ne'
  rw [show 1 / (H * f) = 1 / H * f⁻¹ by field_simp] at h
  obtain ⟨e, ge, rfl⟩ := fl_fac_of hu0 hu (fac_inv hu g) h
  rw [show 1 / H * e - 1 / H = (e - 1) * (1 / H) by ring, abs_mul, abs_of_pos (by positivity : 0 < 1 / H)]
  exact mul_le_mul_of_nonneg_right (by simpa using fac_err hu0 hu ge) (by positivity)

theorem inv_sum_err (hu0 : 0 ≤ u) (hu : u < 1) {H1 H2 f1 f2 r1 r2 v : ℝ} (k1 : 0 < H1) (k2 : 0 < H2) (g1 : Fac u 1 f1) (g2 : Fac u 1 f2)
    (h1 : Fl u (1 / (H1 * f1)) r1) (h2 : Fl u (1 / (H2 * f2)) r2) (h : Fl u (r1 + r2) v) : |v - (1 / H1 + 1 / H2)| ≤ gam u 3 * scale H1 H2 := by
  have e := err_add (inv_err hu0 hu k1 g1 h1) (inv_err hu0 hu k2 g2 h2)
  have hA : |1 / H1 + 1 / H2| ≤ scale H1 H2 := by rw [abs_of_pos (by positivity)]; exact le_rfl
  exact err_fl hu0 hu hA e h

theorem inv_sub_err (hu0 : 0 ≤ u) (hu : u < 1) {H1 H2 f1 f2 r1 r2 v : ℝ} (k1 : 0 < H1) (k2 : 0 < H2) (g1 : Fac u 1 f1) (g2 : Fac u 1 f2)
    (h1 : Fl u (1 / (H1 * f1)) r1) (h2 : Fl u (1 / (H2 * f2)) r2) (h : Fl u (r1 - r2) v) : |v - (1 / H1 - 1 / H2)| ≤ gam u 3 * scale H1 H2 := by
  have b : |-r2 - -(1 / H2)| ≤ gam u 2 * (1 / H2) := by
    rw [show -r2 - -(1 / H2) = -(r2 - 1 / H2) by ring, abs_neg]; exact inv_err hu0 hu k2 g2 h2
  have e := err_add (inv_err hu0 hu k1 g1 h1) b
  rw [← sub_eq_add_neg, ← sub_eq_add_neg] at e
  have p1 : 0 < 1 / H1 := by positivity
  have p2 : 0 < 1 / H2 := by positivity
  have hA : |1 / H1 - 1 / H2| ≤ scale H1 H2 := by unfold scale; rw [abs_le]; constructor <;> linarith
  exact err_fl hu0 hu hA e h

theorem inv_quot_err (hu0 : 0 ≤ u) (hu : u < 1) {H1 H2 f1 f2 s p v : ℝ} (k1 : 0 < H1) (k2 : 0 < H2) (g1 : Fac u 1 f1) (g2 : Fac u 1 f2)
    (hs : Fl u (H1 * f1 + H2 * f2) s) (hp : Fl u (H1 * f1 * (H2 * f2)) p) (h : Fl u (-s / p) v) : |v - -(H1 + H2) / (H1 * H2)| ≤ gam u 6 * scale H1 H2 := by
  obtain ⟨e, ge, ee⟩ := sum_fac hu k1 k2 g1 g2
  rw [ee] at hs
  obtain ⟨e1, ge1, rfl⟩ := fl_fac_of hu0 hu ge hs
  rw [show H1 * f1 * (H2 * f2) = H1 * H2 * (f1 * f2) by ring] at hp
  obtain ⟨e2, ge2, rfl⟩ := fl_fac_of hu0 hu (fac_mul hu g1 g2) hp
  have n2 : e2 ≠ 0 := (fac_pos hu ge2).ne'
  rw [show -((H1 + H2) * e1) / (H1 * H2 * e2) = -(H1 + H2) / (H1 * H2) * (e1 * e2⁻¹) by field_simp] at h
  obtain ⟨e3, ge3, rfl⟩ := fl_fac_of hu0 hu (fac_mul hu ge1 (fac_inv hu ge2)) h
  have hq : |-(H1 + H2) / (H1 * H2)| = scale H1 H2 := by
    rw [neg_div, abs_neg, abs_of_pos (by positivity)]; unfold scale; field_simp; ring
  rw [show -(H1 + H2) / (H1 * H2) * e3 - -(H1 + H2) / (H1 * H2) = (e3 - 1) * (-(H1 + H2) / (H1 * H2)) by ring, abs_mul, hq]
  exact mul_le_mul_of_nonneg_right (by simpa using fac_err hu0 hu ge3) (scale_pos k1 k2).le

/-! ## Sums -/

theorem prod_err (hu0 : 0 ≤ u) (hu : u < 1) {k : ℕ} {c C A f p : ℝ} (hC : |C| ≤ A) (hc : |c - C| ≤ gam u k * A) (h : Fl u (c * f) p) : |p - C * f| ≤ gam u (k + 1) * (A * |f|) := by
  refine err_fl hu0 hu ?_ ?_ h
  · rw [abs_mul]; exact mul_le_mul_of_nonneg_right hC (abs_nonneg _)
  · rw [← sub_mul, abs_mul, ← mul_assoc]; exact mul_le_mul_of_nonneg_right hc (abs_nonneg _)

/-- The sum of the three terms, with `c1 = -c3 - c2`. -/
theorem combine (hu0 : 0 ≤ u) (hu : u < 1) {c1 c2 c3 C2 C3 A f1 f2 f3 v : ℝ} (b2 : |C2| ≤ A) (b3 : |C3| ≤ A) (e2 : |c2 - C2| ≤ gam u 6 * A)
    (e3 : |c3 - C3| ≤ gam u 6 * A) (h1 : Fl u (-c3 - c2) c1) (h : SumFl3 u c1 c2 c3 f1 f2 f3 v) :
    |v - ((-C3 - C2) * f1 + C2 * f2 + C3 * f3)| ≤ gam u 10 * (A * (2 * |f1| + |f2| + |f3|)) := by
  have hA : 0 ≤ A := (abs_nonneg _).trans b2
  have b1 : |-C3 - C2| ≤ 2 * A := by rw [abs_le] at *; constructor <;> linarith [b2.1, b2.2, b3.1, b3.2]
  have e1 : |c1 - (-C3 - C2)| ≤ gam u 7 * (2 * A) := by
    refine err_fl hu0 hu b1 ?_ h1
    rw [abs_le] at *
    constructor <;> linarith [e2.1, e2.2, e3.1, e3.2]
  obtain ⟨p1, p2, p3, s, q1, q2, q3, qs, qv⟩ := h
  have t1 := prod_err hu0 hu b1 e1 q1
  have t2 := err_mono hu0 hu (l := 8) (by norm_num) (by positivity) (prod_err hu0 hu b2 e2 q2)
  have t3 := err_mono hu0 hu (l := 9) (by norm_num) (by positivity) (prod_err hu0 hu b3 e3 q3)
  have m1 : |(-C3 - C2) * f1| ≤ 2 * A * |f1| := by rw [abs_mul]; exact mul_le_mul_of_nonneg_right b1 (abs_nonneg _)
  have m2 : |C2 * f2| ≤ A * |f2| := by rw [abs_mul]; exact mul_le_mul_of_nonneg_right b2 (abs_nonneg _)
  have m3 : |C3 * f3| ≤ A * |f3| := by rw [abs_mul]; exact mul_le_mul_of_nonneg_right b3 (abs_nonneg _)
  have t12 := err_fl hu0 hu ((abs_add_le _ _).trans (add_le_add m1 m2)) (err_add t1 t2) qs
  have t123 := err_fl hu0 hu ((abs_add_le _ _).trans (add_le_add ((abs_add_le _ _).trans (add_le_add m1 m2)) m3)) (err_add t12 t3) qv
  refine t123.trans (le_of_eq ?_)
  norm_num
  left
  ring

theorem centred_fl_err (hu0 : 0 ≤ u) (hu : u < 1) {H1 H2 h1 h2 f1 f2 f3 v : ℝ} (k1 : 0 < H1) (k2 : 0 < H2) (g1 : Fl u H1 h1) (g2 : Fl u H2 h2)
    (h : CentredFl u f1 f2 f3 h1 h2 v) : |v - Fdm.centred f1 f2 f3 H1 H2| ≤ gam u 10 * (scale H1 H2 * (2 * |f1| + |f2| + |f3|)) := by
  obtain ⟨a1, ga1, rfl⟩ := fl_fac hu0 hu g1
  obtain ⟨a2, ga2, rfl⟩ := fl_fac hu0 hu g2
  obtain ⟨c1, c2, c3, r1, r2, q3, s1, s2, q2, q1, qs⟩ := h
  have hA := (scale_pos k1 k2).le
  have p1 : 0 < 1 / H1 := by positivity
  have p2 : 0 < 1 / H2 := by positivity
  have b2 : |1 / H1 - 1 / H2| ≤ scale H1 H2 := by unfold scale; rw [abs_le]; constructor <;> linarith
  exact combine hu0 hu b2 (ratio_abs k1 k2) (err_mono hu0 hu (by norm_num) hA (inv_sub_err hu0 hu k1 k2 ga1 ga2 s1 s2 q2)) (ratio_err hu0 hu k1 k2 ga1 ga2 q3) q1 qs

theorem frontCoef_err (hu0 : 0 ≤ u) (hu : u < 1) {x : ℕ → ℝ} {c2 c3 : ℝ} (k1 : x 0 < x 1) (k2 : x 1 < x 2) (h : FrontCoefFl u x c2 c3) :
    |c2 - (1 / (x 1 - x 0) + 1 / (x 2 - x 1))| ≤ gam u 6 * scale (x 1 - x 0) (x 2 - x 1) ∧
    |c3 - -(x 1 - x 0) / ((x 2 - x 1) * (x 1 - x 0 + (x 2 - x 1)))| ≤ gam u 6 * scale (x 1 - x 0) (x 2 - x 1) := by
  obtain ⟨h1, h2, q, r1, r2, g1, g2, hq, rfl, s1, s2, q2⟩ := h
  obtain ⟨a1, ga1, rfl⟩ := fl_fac hu0 hu g1
  obtain ⟨a2, ga2, rfl⟩ := fl_fac hu0 hu g2
  have k1 := sub_pos.2 k1
  have k2 := sub_pos.2 k2
  refine ⟨err_mono hu0 hu (by norm_num) (scale_pos k1 k2).le (inv_sum_err hu0 hu k1 k2 ga1 ga2 s1 s2 q2), ?_⟩
  rw [neg_div, show ∀ a b : ℝ, -a - -b = -(a - b) by intros; ring, abs_neg]
  exact ratio_err hu0 hu k1 k2 ga1 ga2 hq

theorem backCoef_err (hu0 : 0 ≤ u) (hu : u < 1) {n : ℕ} {x : ℕ → ℝ} {c2 c3 : ℝ} (k1 : x (n - 2) < x (n - 1)) (k2 : x (n - 3) < x (n - 2)) (h : BackCoefFl u n x c2 c3) :
    |c2 - -(x (n - 1) - x (n - 2) + (x (n - 2) - x (n - 3))) / ((x (n - 1) - x (n - 2)) * (x (n - 2) - x (n - 3)))| ≤ gam u 6 * scale (x (n - 1) - x (n - 2)) (x (n - 2) - x (n - 3)) ∧
    |c3 - (x (n - 1) - x (n - 2)) / ((x (n - 2) - x (n - 3)) * (x (n - 1) - x (n - 2) + (x (n - 2) - x (n - 3))))| ≤ gam u 6 * scale (x (n - 1) - x (n - 2)) (x (n - 2) - x (n - 3)) := by
  obtain ⟨h1, h2, s, p, g1, g2, hq, hs, hp, q2⟩ := h
  obtain ⟨a1, ga1, rfl⟩ := fl_fac hu0 hu g1
  obtain ⟨a2, ga2, rfl⟩ := fl_fac hu0 hu g2
  have k1 := sub_pos.2 k1
  have k2 := sub_pos.2 k2
  exact ⟨inv_quot_err hu0 hu k1 k2 ga1 ga2 hs hp q2, ratio_err hu0 hu k1 k2 ga1 ga2 hq⟩

theorem quot_scale {H1 H2 : ℝ} (k1 : 0 < H1) (k2 : 0 < H2) : |-(H1 + H2) / (H1 * H2)| ≤ scale H1 H2 := by
  rw [neg_div, abs_neg, abs_of_pos (by positivity)]; unfold scale; apply le_of_eq; field_simp; ring

/-- The average with the boundary value. -/
theorem average_err (hu0 : 0 ≤ u) (hu : u < 1) {c2 c3 C2 C3 A f1 f2 b v : ℝ} (b2 : |C2| ≤ A) (b3 : |C3| ≤ A) (e2 : |c2 - C2| ≤ gam u 6 * A)
    (e3 : |c3 - C3| ≤ gam u 6 * A) (h : AverageFl u c2 c3 f1 f2 b v) :
    |v - ((-C2 * b - C3 * b) + (C2 * f1 + C3 * f2)) / 2| ≤ gam u 10 * (A * (2 * |b| + |f1| + |f2|) / 2) := by
  obtain ⟨p2, p3, vl, q2, q3, vr, s, h1, h2, h3, h4, h5, h6, h7, h8⟩ := h
  have hA : 0 ≤ A := (abs_nonneg _).trans b2
  have m : ∀ {C f : ℝ}, |C| ≤ A → |C * f| ≤ A * |f| := fun hC => by rw [abs_mul]; exact mul_le_mul_of_nonneg_right hC (abs_nonneg _)
  have b2' : |-C2| ≤ A := by rwa [abs_neg]
  have e2' : |-c2 - -C2| ≤ gam u 6 * A := by rw [show -c2 - -C2 = -(c2 - C2) by ring, abs_neg]; exact e2
  have t2 := prod_err hu0 hu b2 e2 h1
  have t3 := prod_err hu0 hu b3 e3 h2
  have t4 := prod_err hu0 hu b2' e2' h4
  have t5 : |-q3 - -(C3 * b)| ≤ gam u 7 * (A * |b|) := by rw [show -q3 - -(C3 * b) = -(q3 - C3 * b) by ring, abs_neg]; exact prod_err hu0 hu b3 e3 h5
  have mr : |-C2 * b + -(C3 * b)| ≤ A * |b| + A * |b| := (abs_add_le _ _).trans (add_le_add (m b2') (by rw [abs_neg]; exact m b3))
  have ml : |C2 * f1 + C3 * f2| ≤ A * |f1| + A * |f2| := (abs_add_le _ _).trans (add_le_add (m b2) (m b3))
  have tl := err_fl hu0 hu ml (err_add t2 t3) h3
  rw [sub_eq_add_neg] at h6
  have tr := err_fl hu0 hu mr (err_add t4 t5) h6
  have ts := err_fl hu0 hu ((abs_add_le _ _).trans (add_le_add mr ml)) (err_add tr tl) h7
  have hm := (abs_add_le _ _).trans (add_le_add mr ml)
  have th := err_fl hu0 hu (x := (-C2 * b + -(C3 * b) + (C2 * f1 + C3 * f2)) / 2) (S := (A * |b| + A * |b| + (A * |f1| + A * |f2|)) / 2) (k := 9) (y := s / 2)
    (by rw [abs_div, abs_two]; linarith) (by rw [← sub_div, abs_div, abs_two]; linarith) h8
  rw [sub_eq_add_neg (-C2 * b)]
  refine th.trans (le_of_eq ?_)
  ring

/-! ## The derivative -/

/-- The magnitude of the terms of the derivative at point `i`: the inverse cell sizes of the cells used times the values used. -/
noncomputable def size (n : ℕ) (x f : ℕ → ℝ) (i : ℕ) : ℝ :=
  if i = 0 then scale (x 1 - x 0) (x 2 - x 1) * (2 * |f 0| + |f 1| + |f 2|)
  else if i = n - 1 then scale (x (n - 1) - x (n - 2)) (x (n - 2) - x (n - 3)) * (2 * |f (n - 1)| + |f (n - 2)| + |f (n - 3)|)
  else scale (x i - x (i - 1)) (x (i + 1) - x i) * (2 * |f (i - 1)| + |f i| + |f (i + 1)|)

/-- C113: every value computed for a non-periodic dimension differs from the real-number formula by about `10 u` times the magnitude of its terms. -/
theorem c113_rounding (hu0 : 0 ≤ u) (hu : u < 1) {n : ℕ} (hn : 3 ≤ n) {x f : ℕ → ℝ} (hx : ∀ i, i + 1 < n → x i < x (i + 1)) {i : ℕ} (hi : i < n) {v : ℝ}
    (h : DerivFl u n x f i v) : |v - Fdm.deriv n x f i| ≤ gam u 10 * size n x f i := by
  unfold DerivFl at h
  unfold Fdm.deriv size
  by_cases h0 : i = 0
  · simp only [h0, if_true] at h ⊢
    obtain ⟨c1, c2, c3, hc, h1, hs⟩ := h
    have k1 : x 0 < x 1 := hx 0 (by omega)
    have k2 : x 1 < x 2 := hx 1 (by omega)
    obtain ⟨e2, e3⟩ := frontCoef_err hu0 hu k1 k2 hc
    have p1 := sub_pos.2 k1
    have p2 := sub_pos.2 k2
    exact combine hu0 hu (by rw [abs_of_pos (by positivity)]; exact le_rfl) (by rw [neg_div, abs_neg]; exact ratio_abs p1 p2) e2 e3 h1 hs
  · by_cases h1 : i = n - 1
    · rw [if_neg h0, if_pos h1] at h ⊢
      rw [if_neg h0, if_pos h1]
      obtain ⟨c1, c2, c3, hc, q1, hs⟩ := h
      have k1 : x (n - 2) < x (n - 1) := by have := hx (n - 2) (by omega); rwa [show n - 2 + 1 = n - 1 by omega] at this
      have k2 : x (n - 3) < x (n - 2) := by have := hx (n - 3) (by omega); rwa [show n - 3 + 1 = n - 2 by omega] at this
      obtain ⟨e2, e3⟩ := backCoef_err hu0 hu k1 k2 hc
      exact combine hu0 hu (quot_scale (sub_pos.2 k1) (sub_pos.2 k2)) (ratio_abs (sub_pos.2 k1) (sub_pos.2 k2)) e2 e3 q1 hs
    · rw [if_neg h0, if_neg h1] at h ⊢
      rw [if_neg h0, if_neg h1]
      obtain ⟨d1, d2, g1, g2, hc⟩ := h
      have k1 : x (i - 1) < x i := by have := hx (i - 1) (by omega); rwa [show i - 1 + 1 = i by omega] at this
      exact centred_fl_err hu0 hu (sub_pos.2 k1) (sub_pos.2 (hx i (by omega))) g1 g2 hc

/-- C113: the same for the derivative with boundary values, whose terms at the two ends are halved. -/
theorem c113_boundary (hu0 : 0 ≤ u) (hu : u < 1) {n : ℕ} (hn : 3 ≤ n) {x f : ℕ → ℝ} (hx : ∀ i, i + 1 < n → x i < x (i + 1)) (bl br : ℝ) {i : ℕ} (hi : i < n) {v : ℝ}
    (h : DerivBFl u n x f bl br i v) :
    |v - Fdm.derivB n x f bl br i| ≤ gam u 10 *
      (if i = 0 then scale (x 1 - x 0) (x 2 - x 1) * (2 * |bl| + |f 1| + |f 2|) / 2
      else if i = n - 1 then scale (x (n - 1) - x (n - 2)) (x (n - 2) - x (n - 3)) * (2 * |br| + |f (n - 2)| + |f (n - 3)|) / 2
      else size n x f i) := by
  unfold DerivBFl at h
  unfold Fdm.derivB
  by_cases h0 : i = 0
  · simp only [h0, if_true] at h ⊢
    obtain ⟨c2, c3, hc, hs⟩ := h
    have k1 : x 0 < x 1 := hx 0 (by omega)
    have k2 : x 1 < x 2 := hx 1 (by omega)
    obtain ⟨e2, e3⟩ := frontCoef_err hu0 hu k1 k2 hc
    have p1 := sub_pos.2 k1
    have p2 := sub_pos.2 k2
    exact average_err hu0 hu (by rw [abs_of_pos (by positivity)]; exact le_rfl) (by rw [neg_div, abs_neg]; exact ratio_abs p1 p2) e2 e3 hs
  · by_cases h1 : i = n - 1
    · rw [if_neg h0, if_pos h1] at h ⊢
      rw [if_neg h0, if_pos h1]
      obtain ⟨c2, c3, hc, hs⟩ := h
      have k1 : x (n - 2) < x (n - 1) := by have := hx (n - 2) (by omega); rwa [show n - 2 + 1 = n - 1 by omega] at this
      have k2 : x (n - 3) < x (n - 2) := by have := hx (n - 3) (by omega); rwa [show n - 3 + 1 = n - 2 by omega] at this
      obtain ⟨e2, e3⟩ := backCoef_err hu0 hu k1 k2 hc
      have := average_err hu0 hu (quot_scale (sub_pos.2 k1) (sub_pos.2 k2)) (ratio_abs (sub_pos.2 k1) (sub_pos.2 k2)) e2 e3 hs
      rw [add_comm (-_ * br - _)] at this
      exact this
    · rw [if_neg h0, if_neg h1] at h ⊢
      rw [if_neg h0, if_neg h1]
      have := c113_rounding hu0 hu hn hx hi (v := v) (f := f) (by unfold DerivFl; rw [if_neg h0, if_neg h1]; exact h)
      unfold Fdm.deriv at this
      rwa [if_neg h0, if_neg h1] at this

/-! ## Periodic dimension -/

theorem fl_weaken {u κ x y : ℝ} (h : u ≤ κ) (hf : Fl u x y) : Fl κ x y := by
  obtain ⟨δ, hδ, e⟩ := hf; exact ⟨δ, hδ.trans h, e⟩

theorem centred_weaken {u κ f1 f2 f3 h1 h2 v : ℝ} (h : u ≤ κ) (hf : CentredFl u f1 f2 f3 h1 h2 v) : CentredFl κ f1 f2 f3 h1 h2 v := by
  obtain ⟨c1, c2, c3, r1, r2, ⟨s, p, a1, a2, a3⟩, a4, a5, a6, a7, p1, p2, p3, t, a8, a9, a10, a11, a12⟩ := hf
  have w : ∀ {x y}, Fl u x y → Fl κ x y := fl_weaken h
  exact ⟨c1, c2, c3, r1, r2, ⟨s, p, w a1, w a2, w a3⟩, w a4, w a5, w a6, w a7, p1, p2, p3, t, w a8, w a9, w a10, w a11, w a12⟩

/-- The size of the closing cell is obtained by cancellation: its relative error grows with the number `m` of closing cells in the domain. -/
theorem closing_err (hu0 : 0 ≤ u) {m : ℝ} (hm : 0 ≤ m) (hmu : (m + 2) * u ≤ 1) {n : ℕ} {len : ℝ} {x : ℕ → ℝ} {h : ℝ} (hle : x 0 ≤ x (n - 1)) (hpos : x (n - 1) < x 0 + len)
    (hq : x (n - 1) - x 0 ≤ m * (x 0 - x (n - 1) + len)) (hc : ClosingFl u n len x h) : Fl ((m + 2) * u) (x 0 - x (n - 1) + len) h := by
  obtain ⟨d, ⟨δ, hδ, rfl⟩, ⟨ε, hε, rfl⟩⟩ := hc
  obtain ⟨H, hH⟩ : ∃ H, H = x 0 - x (n - 1) + len := ⟨_, rfl⟩
  have H0 : 0 < H := by rw [hH]; linarith
  rw [← hH] at hq ⊢
  obtain ⟨D, hD⟩ : ∃ D, D = x (n - 1) - x 0 := ⟨_, rfl⟩
  rw [← hD] at hq
  have D0 : 0 ≤ D := by rw [hD]; linarith
  have e : (x 0 - x (n - 1)) * (1 + δ) + len = H - D * δ := by rw [hH, hD]; ring
  rw [e]
  refine ⟨-(D * δ / H) + ε - D * δ / H * ε, ?_, by field_simp; ring⟩
  have b : |D * δ / H| ≤ m * u := by
    rw [abs_div, abs_mul, abs_of_nonneg D0, abs_of_pos H0, div_le_iff₀ H0]
    calc D * |δ| ≤ (m * H) * u := mul_le_mul hq hδ (abs_nonneg _) (by positivity)
      _ = m * u * H := by ring
  have b2 : |D * δ / H * ε| ≤ u := by
    rw [abs_mul]
    calc |D * δ / H| * |ε| ≤ 1 * u := mul_le_mul (b.trans (by nlinarith)) hε (abs_nonneg _) (by norm_num)
      _ = u := one_mul _
  rw [abs_le] at *
  constructor <;> nlinarith [b.1, b.2, b2.1, b2.2, hε.1, hε.2]

/-- C113: in a periodic dimension the same bound holds at the inner points, and at the two ends with `(m + 2) u` instead of `u` if the domain is at most `m` times longer than the closing cell. -/
theorem c113_periodic (hu0 : 0 ≤ u) {m : ℝ} (hm : 0 ≤ m) (hmu : (m + 2) * u < 1) {n : ℕ} (hn : 2 ≤ n) {x f : ℕ → ℝ} (hx : ∀ i, i + 1 < n → x i < x (i + 1)) {len : ℝ}
    (hlen : x (n - 1) < x 0 + len) (hq : x (n - 1) - x 0 ≤ m * (x 0 + len - x (n - 1))) {i : ℕ} (hi : i < n) {v : ℝ} (h : DerivPeriodicFl u n len x f i v) :
    |v - Fdm.derivPeriodic n len x f i| ≤
      if i = 0 then gam ((m + 2) * u) 10 * (scale (x 0 + len - x (n - 1)) (x 1 - x 0) * (2 * |f (n - 1)| + |f 0| + |f 1|))
      else if i = n - 1 then gam ((m + 2) * u) 10 * (scale (x (n - 1) - x (n - 2)) (x 0 + len - x (n - 1)) * (2 * |f (n - 2)| + |f (n - 1)| + |f 0|))
      else gam u 10 * (scale (x i - x (i - 1)) (x (i + 1) - x i) * (2 * |f (i - 1)| + |f i| + |f (i + 1)|)) := by
  have hκ : u ≤ (m + 2) * u := by nlinarith
  have hκ0 : 0 ≤ (m + 2) * u := by positivity
  have hle : x 0 ≤ x (n - 1) := AccuracyQuad.monotone_upto x (n - 1) (fun i hi => hx i (by omega)) 0 _ (by omega) le_rfl
  have eH : x 0 + len - x (n - 1) = x 0 - x (n - 1) + len := by ring
  rw [eH] at hq ⊢
  have H0 : 0 < x 0 - x (n - 1) + len := by linarith
  unfold DerivPeriodicFl at h
  unfold Fdm.derivPeriodic
  by_cases h0 : i = 0
  · simp only [h0, if_true] at h ⊢
    obtain ⟨h2, h3, hc, g3, hv⟩ := h
    have k : x 0 < x 1 := hx 0 (by omega)
    exact centred_fl_err hκ0 hmu H0 (sub_pos.2 k) (closing_err hu0 hm hmu.le hle hlen hq hc) (fl_weaken hκ g3) (centred_weaken hκ hv)
  · by_cases h1 : i = n - 1
    · simp only [if_neg h0, if_pos h1] at h ⊢
      obtain ⟨d1, d2, g1, hc, hv⟩ := h
      have k1 : x (n - 2) < x (n - 1) := by have := hx (n - 2) (by omega); rwa [show n - 2 + 1 = n - 1 by omega] at this
      exact centred_fl_err hκ0 hmu (sub_pos.2 k1) H0 (fl_weaken hκ g1) (closing_err hu0 hm hmu.le hle hlen hq hc) (centred_weaken hκ hv)
    · simp only [if_neg h0, if_neg h1] at h ⊢
      obtain ⟨d1, d2, g1, g2, hc⟩ := h
      have k1 : x (i - 1) < x i := by have := hx (i - 1) (by omega); rwa [show i - 1 + 1 = i by omega] at this
      exact centred_fl_err hu0 (lt_of_le_of_lt hκ hmu) (sub_pos.2 k1) (sub_pos.2 (hx i (by omega))) g1 g2 hc

/-! ## Accuracy -/

theorem scale_le {h1 h2 k : ℝ} (hk : 0 < k) (k1 : k ≤ h1) (k2 : k ≤ h2) : scale h1 h2 ≤ 2 / k := by
  unfold scale
  have := one_div_le_one_div_of_le hk k1
  have := one_div_le_one_div_of_le hk k2
  have e : 2 / k = 1 / k + 1 / k := by ring
  linarith

theorem size_le {n : ℕ} (hn : 3 ≤ n) {x f : ℕ → ℝ} {k F : ℝ} (hk : 0 < k) (hx : ∀ i, i + 1 < n → k ≤ x (i + 1) - x i) (hF : ∀ i < n, |f i| ≤ F) {i : ℕ} (hi : i < n) :
    size n x f i ≤ 8 * F / k := by
  have hF0 : 0 ≤ F := (abs_nonneg _).trans (hF 0 (by omega))
  have main : ∀ {h1 h2 a b c : ℝ}, k ≤ h1 → k ≤ h2 → |a| ≤ F → |b| ≤ F → |c| ≤ F → scale h1 h2 * (2 * |a| + |b| + |c|) ≤ 8 * F / k := by
    intro h1 h2 a b c k1 k2 ha hb hc
    calc scale h1 h2 * (2 * |a| + |b| + |c|) ≤ (2 / k) * (4 * F) := mul_le_mul (scale_le hk k1 k2) (by linarith) (by positivity) (by positivity)
      _ = 8 * F / k := by ring
  unfold size
  by_cases h0 : i = 0
  · simp only [h0, if_true]
    exact main (hx 0 (by omega)) (hx 1 (by omega)) (hF _ (by omega)) (hF _ (by omega)) (hF _ (by omega))
  · by_cases h1 : i = n - 1
    · rw [if_neg h0, if_pos h1]
      have k1 := hx (n - 2) (by omega); rw [show n - 2 + 1 = n - 1 by omega] at k1
      have k2 := hx (n - 3) (by omega); rw [show n - 3 + 1 = n - 2 by omega] at k2
      exact main k1 k2 (hF _ (by omega)) (hF _ (by omega)) (hF _ (by omega))
    · rw [if_neg h0, if_neg h1]
      have k1 := hx (i - 1) (by omega); rw [show i - 1 + 1 = i by omega] at k1
      exact main k1 (hx i (by omega)) (hF _ (by omega)) (hF _ (by omega)) (hF _ (by omega))

theorem three_le {C2 C3 A f1 f2 f3 : ℝ} (b2 : |C2| ≤ A) (b3 : |C3| ≤ A) : |(-C3 - C2) * f1 + C2 * f2 + C3 * f3| ≤ A * (2 * |f1| + |f2| + |f3|) := by
  have b1 : |-C3 - C2| ≤ 2 * A := by rw [abs_le] at *; constructor <;> linarith [b2.1, b2.2, b3.1, b3.2]
  have m : ∀ {C f B : ℝ}, |C| ≤ B → |C * f| ≤ B * |f| := fun hC => by rw [abs_mul]; exact mul_le_mul_of_nonneg_right hC (abs_nonneg _)
  refine ((abs_add_le _ _).trans (add_le_add ((abs_add_le _ _).trans (add_le_add (m b1) (m b2))) (m b3))).trans (le_of_eq (by ring))

theorem deriv_le_size {n : ℕ} (hn : 3 ≤ n) {x f : ℕ → ℝ} (hx : ∀ i, i + 1 < n → x i < x (i + 1)) {i : ℕ} (hi : i < n) : |Fdm.deriv n x f i| ≤ size n x f i := by
  unfold Fdm.deriv size
  by_cases h0 : i = 0
  · simp only [h0, if_true]
    have p1 : 0 < x 1 - x 0 := sub_pos.2 (hx 0 (by omega))
    have p2 : 0 < x 2 - x 1 := sub_pos.2 (hx 1 (by omega))
    exact three_le (by rw [abs_of_pos (by positivity)]; exact le_rfl) (by rw [neg_div, abs_neg]; exact ratio_abs p1 p2)
  · by_cases h1 : i = n - 1
    · rw [if_neg h0, if_pos h1, if_neg h0, if_pos h1]
      have k1 : x (n - 2) < x (n - 1) := by have := hx (n - 2) (by omega); rwa [show n - 2 + 1 = n - 1 by omega] at this
      have k2 : x (n - 3) < x (n - 2) := by have := hx (n - 3) (by omega); rwa [show n - 3 + 1 = n - 2 by omega] at this
      exact three_le (quot_scale (sub_pos.2 k1) (sub_pos.2 k2)) (ratio_abs (sub_pos.2 k1) (sub_pos.2 k2))
    · rw [if_neg h0, if_neg h1, if_neg h0, if_neg h1]
      have k1 : 0 < x i - x (i - 1) := by have := hx (i - 1) (by omega); rw [show i - 1 + 1 = i by omega] at this; linarith
      have k2 : 0 < x (i + 1) - x i := sub_pos.2 (hx i (by omega))
      have p1 : 0 < 1 / (x i - x (i - 1)) := by positivity
      have p2 : 0 < 1 / (x (i + 1) - x i) := by positivity
      refine three_le ?_ (ratio_abs k1 k2)
      unfold scale; rw [abs_le]; constructor <;> linarith

theorem deriv_sub (n : ℕ) (x f g : ℕ → ℝ) (i : ℕ) : Fdm.deriv n x (fun j => f j - g j) i = Fdm.deriv n x f i - Fdm.deriv n x g i := by
  unfold Fdm.deriv Fdm.front Fdm.back Fdm.interior Fdm.centred
  split_ifs <;> ring

/-- C113: the error of the computed derivative of a smooth function whose values are known up to `η`: the truncation error of C95, which decreases like `h²`, plus a contribution of the
roundings and of the data which grows like `1 / k` when the cells, of sizes between `k` and `h`, are refined. -/
theorem c113_accuracy (hu0 : 0 ≤ u) (hu : u < 1) {n : ℕ} (hn : 3 ≤ n) {x : ℕ → ℝ} {k h : ℝ} (hk : 0 < k) (hx : ∀ i, i + 1 < n → k ≤ x (i + 1) - x i) (hh : ∀ i, i + 1 < n → x (i + 1) - x i ≤ h)
    (f : ℝ → ℝ) (hf : ContDiff ℝ 3 f) (M F η : ℝ) (hM : ∀ t ∈ Set.Icc (x 0) (x (n - 1)), |iteratedDeriv 3 f t| ≤ M) (data : ℕ → ℝ) (hdata : ∀ i < n, |data i - f (x i)| ≤ η)
    (hF : ∀ i < n, |data i| ≤ F) {i : ℕ} (hi : i < n) {v : ℝ} (hv : DerivFl u n x data i v) :
    |v - deriv f (x i)| ≤ (if i = 0 ∨ i = n - 1 then M / 3 else M / 6) * h ^ 2 + 8 * (gam u 10 * F + η) / k := by
  have hx' : ∀ i, i + 1 < n → x i < x (i + 1) := fun i hi => by linarith [hx i hi]
  have r := (c113_rounding hu0 hu hn hx' hi hv).trans (mul_le_mul_of_nonneg_left (size_le hn hk hx hF hi) (gam_nonneg hu0 hu 10))
  have d := (deriv_le_size hn (f := fun j => data j - f (x j)) hx' hi).trans (size_le hn hk hx hdata hi)
  rw [deriv_sub] at d
  have t := AccuracyQuad.c95_fdm hn hx' h hh f hf M hM hi
  have e : v - deriv f (x i) = (v - Fdm.deriv n x data i) + (Fdm.deriv n x data i - Fdm.deriv n x (fun j => f (x j)) i) + (Fdm.deriv n x (fun j => f (x j)) i - deriv f (x i)) := by ring
  rw [e]
  refine ((abs_add_le _ _).trans (add_le_add ((abs_add_le _ _).trans (add_le_add r d)) t)).trans (le_of_eq ?_)
  ring

/-- C113: the same for a periodic function: at the two ends the rounding error has `(m + 2) u` in place of `u`. -/
theorem c113_periodic_accuracy (hu0 : 0 ≤ u) {m : ℝ} (hm : 0 ≤ m) (hmu : (m + 2) * u < 1) {n : ℕ} (hn : 2 ≤ n) {x : ℕ → ℝ} {k h len : ℝ} (hk : 0 < k) (hx : ∀ i, i + 1 < n → k ≤ x (i + 1) - x i)
    (hkc : k ≤ x 0 + len - x (n - 1)) (hh : ∀ i, i + 1 < n → x (i + 1) - x i ≤ h) (hhc : x 0 + len - x (n - 1) ≤ h) (hq : x (n - 1) - x 0 ≤ m * (x 0 + len - x (n - 1)))
    (f : ℝ → ℝ) (hf : ContDiff ℝ 3 f) (hp : ∀ t, f (t + len) = f t) (M F : ℝ) (hM : ∀ t, |iteratedDeriv 3 f t| ≤ M) (hF : ∀ i < n, |f (x i)| ≤ F) {i : ℕ} (hi : i < n) {v : ℝ}
    (hv : DerivPeriodicFl u n len x (fun j => f (x j)) i v) :
    |v - deriv f (x i)| ≤ M / 6 * h ^ 2 + 8 * (gam (if i = 0 ∨ i = n - 1 then (m + 2) * u else u) 10 * F) / k := by
  have hx' : ∀ i, i + 1 < n → x i < x (i + 1) := fun i hi => by linarith [hx i hi]
  have hF0 : 0 ≤ F := (abs_nonneg _).trans (hF 0 (by omega))
  have hκ : u ≤ (m + 2) * u := by nlinarith
  have r := c113_periodic hu0 hm hmu hn hx' (by linarith) hq hi hv
  have t := AccuracyQuad.c95_fdm_periodic hn hx' len h (by linarith) hh hhc f hf hp M hM hi
  have main : ∀ {h1 h2 a b c : ℝ}, k ≤ h1 → k ≤ h2 → |a| ≤ F → |b| ≤ F → |c| ≤ F → scale h1 h2 * (2 * |a| + |b| + |c|) ≤ 8 * F / k := by
    intro h1 h2 a b c k1 k2 ha hb hc
    calc scale h1 h2 * (2 * |a| + |b| + |c|) ≤ (2 / k) * (4 * F) := mul_le_mul (scale_le hk k1 k2) (by linarith) (by positivity) (by positivity)
      _ = 8 * F / k := by ring
  have key : |v - Fdm.derivPeriodic n len x (fun j => f (x j)) i| ≤ gam (if i = 0 ∨ i = n - 1 then (m + 2) * u else u) 10 * (8 * F / k) := by
    refine r.trans ?_
    have hg := gam_nonneg (u := (m + 2) * u) (by positivity) hmu 10
    have hg' := gam_nonneg hu0 (lt_of_le_of_lt hκ hmu) 10
    by_cases h0 : i = 0
    · rw [if_pos h0, if_pos (Or.inl h0)]
      exact mul_le_mul_of_nonneg_left (main hkc (hx 0 (by omega)) (hF _ (by omega)) (hF _ (by omega)) (hF _ (by omega))) hg
    · by_cases h1 : i = n - 1
      · rw [if_neg h0, if_pos h1, if_pos (Or.inr h1)]
        have k1 := hx (n - 2) (by omega); rw [show n - 2 + 1 = n - 1 by omega] at k1
        exact mul_le_mul_of_nonneg_left (main k1 hkc (hF _ (by omega)) (hF _ (by omega)) (hF _ (by omega))) hg
      · rw [if_neg h0, if_neg h1, if_neg (by tauto)]
        have k1 := hx (i - 1) (by omega); rw [show i - 1 + 1 = i by omega] at k1
        exact mul_le_mul_of_nonneg_left (main k1 (hx i (by omega)) (hF _ (by omega)) (hF _ (by omega)) (hF _ (by omega))) hg'
  have e : v - deriv f (x i) = (v - Fdm.derivPeriodic n len x (fun j => f (x j)) i) + (Fdm.derivPeriodic n len x (fun j => f (x j)) i - deriv f (x i)) := by ring
  rw [e]
  refine ((abs_add_le _ _).trans (add_le_add key t)).trans (le_of_eq ?_)
  ring

/-! ## Runs -/

/-- C113: the real-number values are possible results for every precision, and the only ones without rounding. -/
theorem c113_exact_run (hu0 : 0 ≤ u) (n : ℕ) (len bl br : ℝ) (x f : ℕ → ℝ) (i : ℕ) :
    DerivFl u n x f i (Fdm.deriv n x f i) ∧ DerivPeriodicFl u n len x f i (Fdm.derivPeriodic n len x f i) ∧ DerivBFl u n x f bl br i (Fdm.derivB n x f bl br i) ∧
    (∀ v, DerivFl 0 n x f i v → v = Fdm.deriv n x f i) ∧ (∀ v, DerivPeriodicFl 0 n len x f i v → v = Fdm.derivPeriodic n len x f i) ∧
    (∀ v, DerivBFl 0 n x f bl br i v → v = Fdm.derivB n x f bl br i) := by
  have w : ∀ y, Fl u y y := fl_self hu0
  have z : ∀ {a b : ℝ}, Fl 0 a b → b = a := by
    rintro a b ⟨δ, hδ, rfl⟩
    rw [abs_nonpos_iff.1 hδ]; ring
  have cen : ∀ f1 f2 f3 h1 h2 : ℝ, CentredFl u f1 f2 f3 h1 h2 (Fdm.centred f1 f2 f3 h1 h2) := fun f1 f2 f3 h1 h2 =>
    ⟨_, _, _, _, _, ⟨_, _, w _, w _, w _⟩, w _, w _, w _, w _, _, _, _, _, w _, w _, w _, w _, w _⟩
  have cen0 : ∀ {f1 f2 f3 h1 h2 v : ℝ}, CentredFl 0 f1 f2 f3 h1 h2 v → v = Fdm.centred f1 f2 f3 h1 h2 := by
    rintro f1 f2 f3 h1 h2 v ⟨c1, c2, c3, r1, r2, ⟨s, p, a1, a2, a3⟩, a4, a5, a6, a7, p1, p2, p3, t, a8, a9, a10, a11, a12⟩
    rw [z a12, z a11, z a10, z a9, z a8, z a7, z a6, z a5, z a4, z a3, z a2, z a1]; rfl
  have fro : FrontCoefFl u x (1 / (x 1 - x 0) + 1 / (x 2 - x 1)) (-(x 1 - x 0) / ((x 2 - x 1) * (x 1 - x 0 + (x 2 - x 1)))) :=
    ⟨_, _, _, _, _, w _, w _, ⟨_, _, w _, w _, w _⟩, neg_div _ _, w _, w _, w _⟩
  have fro0 : ∀ {c2 c3}, FrontCoefFl 0 x c2 c3 → c2 = 1 / (x 1 - x 0) + 1 / (x 2 - x 1) ∧ c3 = -(x 1 - x 0) / ((x 2 - x 1) * (x 1 - x 0 + (x 2 - x 1))) := by
    rintro c2 c3 ⟨h1, h2, q, r1, r2, a1, a2, ⟨s, p, b1, b2, b3⟩, a3, a4, a5, a6⟩
    rw [a3, z b3, z b2, z b1, z a6, z a5, z a4, z a1, z a2]
    exact ⟨rfl, (neg_div _ _).symm⟩
  have bac : BackCoefFl u n x (-(x (n - 1) - x (n - 2) + (x (n - 2) - x (n - 3))) / ((x (n - 1) - x (n - 2)) * (x (n - 2) - x (n - 3))))
      ((x (n - 1) - x (n - 2)) / ((x (n - 2) - x (n - 3)) * (x (n - 1) - x (n - 2) + (x (n - 2) - x (n - 3))))) :=
    ⟨_, _, _, _, w _, w _, ⟨_, _, w _, w _, w _⟩, w _, w _, w _⟩
  have bac0 : ∀ {c2 c3}, BackCoefFl 0 n x c2 c3 → c2 = -(x (n - 1) - x (n - 2) + (x (n - 2) - x (n - 3))) / ((x (n - 1) - x (n - 2)) * (x (n - 2) - x (n - 3))) ∧
      c3 = (x (n - 1) - x (n - 2)) / ((x (n - 2) - x (n - 3)) * (x (n - 1) - x (n - 2) + (x (n - 2) - x (n - 3)))) := by
    rintro c2 c3 ⟨h1, h2, s, p, a1, a2, ⟨s', p', b1, b2, b3⟩, a3, a4, a5⟩
    rw [z b3, z b2, z b1, z a5, z a4, z a3, z a1, z a2]
    exact ⟨rfl, rfl⟩
  have sum3 : ∀ c1 c2 c3 f1 f2 f3 : ℝ, SumFl3 u c1 c2 c3 f1 f2 f3 (c1 * f1 + c2 * f2 + c3 * f3) := fun c1 c2 c3 f1 f2 f3 =>
    ⟨_, _, _, _, w _, w _, w _, w _, w _⟩
  have sum30 : ∀ {c1 c2 c3 f1 f2 f3 v : ℝ}, SumFl3 0 c1 c2 c3 f1 f2 f3 v → v = c1 * f1 + c2 * f2 + c3 * f3 := by
    rintro c1 c2 c3 f1 f2 f3 v ⟨p1, p2, p3, s, a1, a2, a3, a4, a5⟩
    rw [z a5, z a4, z a3, z a2, z a1]
  have avg : ∀ c2 c3 f1 f2 b : ℝ, AverageFl u c2 c3 f1 f2 b (((-c2 * b - c3 * b) + (c2 * f1 + c3 * f2)) / 2) := fun c2 c3 f1 f2 b =>
    ⟨_, _, _, _, _, _, _, w _, w _, w _, w _, w _, w _, w _, w _⟩
  have avg0 : ∀ {c2 c3 f1 f2 b v : ℝ}, AverageFl 0 c2 c3 f1 f2 b v → v = ((-c2 * b - c3 * b) + (c2 * f1 + c3 * f2)) / 2 := by
    rintro c2 c3 f1 f2 b v ⟨p2, p3, vl, q2, q3, vr, s, a1, a2, a3, a4, a5, a6, a7, a8⟩
    rw [z a8, z a7, z a6, z a5, z a4, z a3, z a2, z a1]
  have int : InteriorFl u x f i (Fdm.interior x f i) := ⟨_, _, w _, w _, cen _ _ _ _ _⟩
  have int0 : ∀ {v}, InteriorFl 0 x f i v → v = Fdm.interior x f i := by
    rintro v ⟨h1, h2, a1, a2, a3⟩
    rw [cen0 a3, z a1, z a2]; rfl
  refine ⟨?_, ?_, ?_, ?_, ?_, ?_⟩
  · unfold DerivFl Fdm.deriv
    split_ifs
    · exact ⟨_, _, _, fro, w _, sum3 _ _ _ _ _ _⟩
    · exact ⟨_, _, _, bac, w _, sum3 _ _ _ _ _ _⟩
    · exact int
  · unfold DerivPeriodicFl Fdm.derivPeriodic
    beta_reduce
    split_ifs
    · exact ⟨_, _, ⟨_, w _, w _⟩, w _, cen _ _ _ _ _⟩
    · exact ⟨_, _, w _, ⟨_, w _, w _⟩, cen _ _ _ _ _⟩
    · exact int
  · unfold DerivBFl Fdm.derivB
    split_ifs
    · exact ⟨_, _, fro, avg _ _ _ _ _⟩
    · refine ⟨_, _, bac, ?_⟩
      have := avg (-(x (n - 1) - x (n - 2) + (x (n - 2) - x (n - 3))) / ((x (n - 1) - x (n - 2)) * (x (n - 2) - x (n - 3))))
        ((x (n - 1) - x (n - 2)) / ((x (n - 2) - x (n - 3)) * (x (n - 1) - x (n - 2) + (x (n - 2) - x (n - 3))))) (f (n - 2)) (f (n - 3)) br
      rw [add_comm (-_ * br - _)] at this
      exact this
    · exact int
  · intro v h
    unfold DerivFl at h
    unfold Fdm.deriv
    split_ifs at h ⊢
    · obtain ⟨c1, c2, c3, hc, h1, hs⟩ := h
      rw [sum30 hs, z h1, (fro0 hc).1, (fro0 hc).2]; rfl
    · obtain ⟨c1, c2, c3, hc, h1, hs⟩ := h
      rw [sum30 hs, z h1, (bac0 hc).1, (bac0 hc).2]; rfl
    · exact int0 h
  · intro v h
    unfold DerivPeriodicFl at h
    unfold Fdm.derivPeriodic
    beta_reduce
    split_ifs at h ⊢
    · obtain ⟨h2, h3, ⟨d, a1, a2⟩, a3, hc⟩ := h
      rw [cen0 hc, z a3, z a2, z a1]
    · obtain ⟨h2, h3, a3, ⟨d, a1, a2⟩, hc⟩ := h
      rw [cen0 hc, z a3, z a2, z a1]
    · exact int0 h
  · intro v h
    unfold DerivBFl at h
    unfold Fdm.derivB
    split_ifs at h ⊢
    · obtain ⟨c2, c3, hc, hs⟩ := h
      rw [avg0 hs, (fro0 hc).1, (fro0 hc).2]
    · obtain ⟨c2, c3, hc, hs⟩ := h
      rw [avg0 hs, (bac0 hc).1, (bac0 hc).2, add_comm]
    · exact int0 h

/-- C113: the growth of the rounding error is real: for the constant `1` on a uniform grid of spacing `h` a run returns `u / (2 h)` instead of `0`. -/
theorem c113_growth (hu0 : 0 ≤ u) (n : ℕ) (hn : 3 ≤ n) (h : ℝ) (hh : 0 < h) : DerivFl u n (fun j => j * h) (fun _ => 1) 1 (-(u / (2 * h))) ∧ Fdm.deriv n (fun j => (j : ℝ) * h) (fun _ => 1) 1 = 0 := by
  have w : ∀ {y z}, z = y → Fl u y z := fun e => e ▸ fl_self hu0 _
  have n1 : h ≠ 0 := hh.ne'
  have n1' : (1 : ℕ) ≠ n - 1 := by omega
  constructor
  · unfold DerivFl
    rw [if_neg (by norm_num), if_neg n1']
    refine ⟨h, h, w (by norm_num), w (by push_cast; ring), -(1 / (2 * h)), 0, 1 / (2 * h), 1 / h, 1 / h, ⟨2 * h, 2 * h ^ 2, w (by ring), w (by ring), w (by field_simp)⟩,
      w rfl, w rfl, w (by ring), w (by ring), -(1 / (2 * h)) * (1 + u), 0, 1 / (2 * h), -(1 / (2 * h)) * (1 + u), ⟨u, by rw [abs_of_nonneg hu0], by ring⟩, w (by ring), w (by ring), w (by ring), w (by field_simp; ring)⟩
  · unfold Fdm.deriv Fdm.interior Fdm.centred
    rw [if_neg (by norm_num), if_neg n1']
    ring

/-- Non-vacuity: the exponential on the grid `0, 1, 2, 3, 4` in double precision, with data known up to `2⁻⁵⁰`. -/
example (i : ℕ) (hi : i < 5) : ∃ v, DerivFl (2 ^ (-53 : ℤ)) 5 (fun j => j) (fun j => Real.exp j + 2 ^ (-50 : ℤ)) i v ∧
    |v - Real.exp i| ≤ (if i = 0 ∨ i = 5 - 1 then Real.exp 4 / 3 else Real.exp 4 / 6) * 1 ^ 2 + 8 * (gam (2 ^ (-53 : ℤ)) 10 * (Real.exp 4 + 1) + 2 ^ (-50 : ℤ)) / 1 := by
  refine ⟨_, (c113_exact_run (by positivity) 5 0 0 0 _ _ i).1, ?_⟩
  have := c113_accuracy (u := 2 ^ (-53 : ℤ)) (by positivity) (by norm_num) (n := 5) (by norm_num) (x := fun j => (j : ℝ)) (k := 1) (h := 1) one_pos (fun i _ => by push_cast; linarith)
    (fun i _ => by push_cast; linarith) Real.exp Real.contDiff_exp (Real.exp 4) (Real.exp 4 + 1) (2 ^ (-50 : ℤ))
    (fun t ht => by rw [iteratedDeriv_eq_iterate, Real.iter_deriv_exp, abs_of_pos (Real.exp_pos _)]; exact Real.exp_le_exp.2 (by simpa using ht.2))
    (fun j => Real.exp j + 2 ^ (-50 : ℤ)) (fun j _ => by rw [add_sub_cancel_left, abs_of_pos (by positivity)])
    (fun j hj => by
      rw [abs_of_pos (by positivity)]
      have : Real.exp j ≤ Real.exp 4 := Real.exp_le_exp.2 (by exact_mod_cast (by omega : j ≤ 4))
      have : (2 : ℝ) ^ (-50 : ℤ) ≤ 1 := by norm_num
      linarith) hi (c113_exact_run (by positivity) 5 0 0 0 _ _ i).1
  simpa using this

/-- Non-vacuity: the sine on four points of its period. -/
example (i : ℕ) (hi : i < 4) : ∃ v, DerivPeriodicFl (2 ^ (-53 : ℤ)) 4 (4 * (Real.pi / 2)) (fun j => j * (Real.pi / 2)) (fun j => Real.sin (j * (Real.pi / 2))) i v ∧
    |v - deriv Real.sin (i * (Real.pi / 2))| ≤ 1 / 6 * (Real.pi / 2) ^ 2 + 8 * (gam (if i = 0 ∨ i = 4 - 1 then (3 + 2) * 2 ^ (-53 : ℤ) else 2 ^ (-53 : ℤ)) 10 * 1) / (Real.pi / 2) := by
  have hpi := Real.pi_pos
  refine ⟨_, (c113_exact_run (by positivity) 4 (4 * (Real.pi / 2)) 0 0 _ _ i).2.1, ?_⟩
  exact c113_periodic_accuracy (u := 2 ^ (-53 : ℤ)) (by positivity) (m := 3) (by norm_num) (by norm_num) (n := 4) (by norm_num) (x := fun j => (j : ℝ) * (Real.pi / 2)) (k := Real.pi / 2)
    (h := Real.pi / 2) (by positivity) (fun i _ => by push_cast; linarith) (by norm_num; linarith) (fun i _ => by push_cast; linarith) (by norm_num; linarith) (by norm_num; linarith)
    Real.sin Real.contDiff_sin (fun t => by rw [show t + 4 * (Real.pi / 2) = t + 2 * Real.pi by ring, Real.sin_add_two_pi]) 1 1
    (fun t => by
      have : iteratedDeriv 3 Real.sin = fun t => -Real.cos t := by
        simp [iteratedDeriv_succ, iteratedDeriv_zero, Real.deriv_sin]
      rw [this, abs_neg]; exact Real.abs_cos_le_one t)
    (fun i _ => Real.abs_sin_le_one _) hi (c113_exact_run (by positivity) 4 (4 * (Real.pi / 2)) 0 0 _ _ i).2.1

/-- Non-vacuity of `c113_boundary`: three points, every run. -/
example (v : ℝ) (h : DerivBFl (2 ^ (-53 : ℤ)) 3 (fun j => j) (fun j => j ^ 2) 0 4 0 v) : |v| ≤ gam (2 ^ (-53 : ℤ)) 10 * 5 := by
  have := c113_boundary (u := 2 ^ (-53 : ℤ)) (by positivity) (by norm_num) (n := 3) le_rfl (x := fun j => (j : ℝ)) (f := fun j => (j : ℝ) ^ 2) (fun i _ => by push_cast; linarith) 0 4 (i := 0) (by norm_num) h
  norm_num [Fdm.derivB, scale] at this ⊢
  linarith

end Verif.FloatFdm
