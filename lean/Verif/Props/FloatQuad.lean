import Verif.Model.FloatQuad
import Verif.Props.FloatLagrange
import Verif.Props.Rounding
import Verif.Props.Quadrature
import Verif.Props.AccuracyQuad
import Mathlib.Tactic.Linarith
import Mathlib.Tactic.Positivity
import Mathlib.Tactic.FieldSimp
import Mathlib.Tactic.Ring
import Mathlib.Tactic.LinearCombination

/-!
# C107: integrals whose coefficients are computed in floating-point arithmetic

Specification: the coefficients `Quadrature.trapezoid` and `Quadrature.fillSimpson` in real arithmetic (C13, C14, C95), and the integral of a smooth function. `gam u k = (1 - u)⁻ᵏ - 1` is about `k u`.
-/

namespace Verif.FloatQuad

open Verif.Rounding Verif.Quadrature Verif.FloatLagrange Finset

variable {u : ℝ}

theorem gam_succ (hu0 : 0 ≤ u) (hu : u < 1) (k : ℕ) : (1 + gam u k) * (1 + u) - 1 ≤ gam u (k + 1) := by
  have hp : 0 < (1 - u) ^ k := pow_pos (by linarith) k
  have h1 : 0 < 1 - u := by linarith
  unfold gam
  rw [pow_succ, mul_inv]
  have h2 : 1 + u ≤ (1 - u)⁻¹ := by
    rw [← one_div, le_div_iff₀ h1]; nlinarith
  have := mul_le_mul_of_nonneg_left h2 (inv_pos.2 hp).le
  linarith

/-- One more rounding. -/
theorem err_fl (hu0 : 0 ≤ u) (hu : u < 1) {k : ℕ} {x y z S : ℝ} (hx : |x| ≤ S) (hy : |y - x| ≤ gam u k * S) (hz : Fl u y z) : |z - x| ≤ gam u (k + 1) * S := by
  have hS : 0 ≤ S := (abs_nonneg _).trans hx
  have hg := gam_nonneg hu0 hu k
  refine (err_step hu0 (p := 1 + gam u k) (by linarith) hx (by simpa using hy) (fl_err hz)).trans ?_
  exact mul_le_mul_of_nonneg_right (gam_succ hu0 hu k) hS

theorem err_mono (hu0 : 0 ≤ u) (hu : u < 1) {k l : ℕ} (h : k ≤ l) {x y S : ℝ} (hS : 0 ≤ S) (hy : |y - x| ≤ gam u k * S) : |y - x| ≤ gam u l * S :=
  hy.trans (mul_le_mul_of_nonneg_right (gam_mono hu0 hu h) hS)

theorem err_add {g x y x' y' S T : ℝ} (h1 : |x' - x| ≤ g * S) (h2 : |y' - y| ≤ g * T) : |x' + y' - (x + y)| ≤ g * (S + T) := by
  rw [show x' + y' - (x + y) = (x' - x) + (y' - y) by ring, mul_add]
  exact (abs_add_le _ _).trans (add_le_add h1 h2)

/-! ## Reductions with inexact terms -/

variable {ι : Type*}

theorem sum_err (hu0 : 0 ≤ u) (hu : u < 1) {F S : ι → ℝ} {k : ℕ} {val : ι → ℝ → Prop} {t : Norms.Tree ι} {v : ℝ} (h : SumFl u val t v)
    (hval : ∀ i ∈ t.indices, ∀ a, val i a → |a - F i| ≤ gam u k * S i) (hF : ∀ i ∈ t.indices, |F i| ≤ S i) :
    |v - (t.indices.map F).sum| ≤ gam u (k + height t) * (t.indices.map S).sum ∧ |(t.indices.map F).sum| ≤ (t.indices.map S).sum := by
  induction h with
  | idle => simp [Norms.Tree.indices]
  | leaf i a h => simpa [Norms.Tree.indices, height] using ⟨hval i (by simp [Norms.Tree.indices]) a h, hF i (by simp [Norms.Tree.indices])⟩
  | node l r a b v hl hr h ihl ihr =>
    simp only [Norms.Tree.indices, List.mem_append] at hval hF
    obtain ⟨l1, l2⟩ := ihl (fun i hi => hval i (Or.inl hi)) (fun i hi => hF i (Or.inl hi))
    obtain ⟨r1, r2⟩ := ihr (fun i hi => hval i (Or.inr hi)) (fun i hi => hF i (Or.inr hi))
    simp only [Norms.Tree.indices, List.map_append, List.sum_append, height]
    have nn : |(l.indices.map F).sum + (r.indices.map F).sum| ≤ (l.indices.map S).sum + (r.indices.map S).sum := (abs_add_le _ _).trans (add_le_add l2 r2)
    refine ⟨?_, nn⟩
    have l3 := err_mono hu0 hu (l := k + max (height l) (height r)) (by omega) ((abs_nonneg _).trans l2) l1
    have r3 := err_mono hu0 hu (l := k + max (height l) (height r)) (by omega) ((abs_nonneg _).trans r2) r1
    exact err_fl hu0 hu (k := k + max (height l) (height r)) nn (err_add l3 r3) h

/-- A quadrature whose coefficients `q'` carry an error `gam u k` relative to magnitudes `W`. -/
theorem quad_err (hu0 : 0 ≤ u) (hu : u < 1) {q q' W f : ι → ℝ} {k : ℕ} {t : Norms.Tree ι} {v : ℝ} (h : QuadFl u q' f t v)
    (hq' : ∀ i ∈ t.indices, |q' i - q i| ≤ gam u k * W i) (hq : ∀ i ∈ t.indices, |q i| ≤ W i) :
    |v - (t.indices.map fun i => q i * f i).sum| ≤ gam u (k + height t + 2) * (t.indices.map fun i => W i * |f i|).sum := by
  obtain ⟨s, hs, hv⟩ := h
  have hF : ∀ i ∈ t.indices, |q i * f i| ≤ W i * |f i| := fun i hi => by
    rw [abs_mul]; exact mul_le_mul_of_nonneg_right (hq i hi) (abs_nonneg _)
  obtain ⟨h1, h2⟩ := sum_err hu0 hu (F := fun i => q i * f i) (S := fun i => W i * |f i|) (k := k + 1) hs (fun i hi a ha => by
    refine err_fl hu0 hu (hF i hi) ?_ ha
    rw [show q' i * f i - q i * f i = (q' i - q i) * f i by ring, abs_mul, ← mul_assoc]
    exact mul_le_mul_of_nonneg_right (hq' i hi) (abs_nonneg _)) hF
  rw [zero_add] at hv
  have := err_fl hu0 hu h2 h1 hv
  rwa [show k + height t + 2 = k + 1 + height t + 1 by ring]

/-! ## Elementary expressions -/

theorem sum_fac (hu : u < 1) {k : ℕ} {l r f g : ℝ} (hl : 0 < l) (hr : 0 < r) (hf : Fac u k f) (hg : Fac u k g) : ∃ e, Fac u k e ∧ l * f + r * g = (l + r) * e := by
  have hs : 0 < l + r := by linarith
  have hp : 0 < (1 - u) ^ k := pow_pos (by linarith) k
  refine ⟨(l * f + r * g) / (l + r), ⟨?_, ?_⟩, by field_simp⟩
  · rw [le_div_iff₀ hs]; nlinarith [mul_le_mul_of_nonneg_left hf.1 hl.le, mul_le_mul_of_nonneg_left hg.1 hr.le]
  · rw [div_mul_eq_mul_div, div_le_one hs]; nlinarith [mul_le_mul_of_nonneg_left hf.2 hl.le, mul_le_mul_of_nonneg_left hg.2 hr.le]

theorem fl_fac_of (hu0 : 0 ≤ u) (hu : u < 1) {k : ℕ} {x f y : ℝ} (hf : Fac u k f) (h : Fl u (x * f) y) : ∃ g, Fac u (k + 1) g ∧ y = x * g := by
  obtain ⟨g, hg, e⟩ := fl_fac hu0 hu h
  exact ⟨f * g, fac_mul hu hf hg, by rw [e]; ring⟩

theorem halfSum_fac (hu0 : 0 ≤ u) (hu : u < 1) {l r v : ℝ} (hl : 0 < l) (hr : 0 < r) (h : HalfSumFl u l r v) : ∃ f, Fac u 3 f ∧ v = 0.5 * (l + r) * f := by
  obtain ⟨l', r', s, h1, h2, h3, h4⟩ := h
  obtain ⟨f1, g1, e1⟩ := fl_fac hu0 hu h1
  obtain ⟨f2, g2, e2⟩ := fl_fac hu0 hu h2
  obtain ⟨f3, g3, e3⟩ := sum_fac hu hl hr g1 g2
  rw [e1, e2, e3] at h3
  obtain ⟨f4, g4, e4⟩ := fl_fac_of hu0 hu g3 h3
  rw [e4, ← mul_assoc] at h4
  obtain ⟨f5, g5, e5⟩ := fl_fac_of hu0 hu g4 h4
  exact ⟨f5, g5, e5⟩

theorem half_fac (hu0 : 0 ≤ u) (hu : u < 1) {d v : ℝ} (h : HalfFl u d v) : ∃ f, Fac u 3 f ∧ v = 0.5 * d * f := by
  obtain ⟨d', h1, h2⟩ := h
  obtain ⟨f1, g1, e1⟩ := fl_fac hu0 hu h1
  rw [e1, ← mul_assoc] at h2
  obtain ⟨f2, g2, e2⟩ := fl_fac_of hu0 hu g1 h2
  exact ⟨f2, fac_mono hu0 hu (by norm_num) g2, e2⟩

/-- The magnitude `(l + r) (2 l + r) / (6 l)` of the terms of `(l + r) (2 l - r) / (6 l)`. -/
noncomputable def mag (l r : ℝ) : ℝ := (l + r) * (2 * l + r) / (6 * l)

theorem simpL_err (hu0 : 0 ≤ u) (hu : u < 1) {l r v : ℝ} (hl : 0 < l) (hr : 0 < r) (h : SimpLFl u l r v) :
    |v - (l + r) * (2 * l - r) / (6 * l)| ≤ gam u 9 * mag l r := by
  obtain ⟨l', r', s, p, d, m, e, h1, h2, h3, h4, h5, h6, h7, h8⟩ := h
  obtain ⟨f1, g1, e1⟩ := fl_fac hu0 hu h1
  obtain ⟨f2, g2, e2⟩ := fl_fac hu0 hu h2
  obtain ⟨f3, g3, e3⟩ := sum_fac hu hl hr g1 g2
  rw [e1, e2, e3] at h3
  obtain ⟨f4, g4, e4⟩ := fl_fac_of hu0 hu g3 h3
  rw [e1, ← mul_assoc] at h4
  obtain ⟨f5, g5, e5⟩ := fl_fac_of hu0 hu g1 h4
  obtain ⟨f6, g6, e6⟩ := fl_fac hu0 hu h5
  obtain ⟨f7, g7, e7⟩ := fl_fac hu0 hu h6
  rw [e1, ← mul_assoc] at h7
  obtain ⟨f8, g8, e8⟩ := fl_fac_of hu0 hu g1 h7
  obtain ⟨f9, g9, e9⟩ := fl_fac hu0 hu h8
  have p8 := fac_pos hu g8
  obtain ⟨c, hc, gc⟩ : ∃ c, c = f4 * f6 * f7 * f8⁻¹ * f9 ∧ Fac u (2 + 1 + 1 + 2 + 1) c :=
    ⟨_, rfl, fac_mul hu (fac_mul hu (fac_mul hu (fac_mul hu g4 g6) g7) (fac_inv hu g8)) g9⟩
  have ev : v - (l + r) * (2 * l - r) / (6 * l) = (l + r) * (2 * l) / (6 * l) * (c * f5 - 1) - (l + r) * r / (6 * l) * (c * f2 - 1) := by
    rw [e9, e7, e6, e5, e4, e8, e2, hc]
    field_simp
    ring
  have b1 := fac_err hu0 hu (fac_mul hu gc g5)
  have b2 := (fac_err hu0 hu (fac_mul hu gc g2)).trans (gam_mono hu0 hu (by norm_num : _ ≤ 9))
  have q1 : 0 ≤ (l + r) * (2 * l) / (6 * l) := by positivity
  have q2 : 0 ≤ (l + r) * r / (6 * l) := by positivity
  rw [ev]
  calc |(l + r) * (2 * l) / (6 * l) * (c * f5 - 1) - (l + r) * r / (6 * l) * (c * f2 - 1)|
      ≤ |(l + r) * (2 * l) / (6 * l) * (c * f5 - 1)| + |(l + r) * r / (6 * l) * (c * f2 - 1)| := abs_sub _ _
    _ ≤ (l + r) * (2 * l) / (6 * l) * gam u 9 + (l + r) * r / (6 * l) * gam u 9 := by
        rw [abs_mul, abs_mul, abs_of_nonneg q1, abs_of_nonneg q2]
        gcongr
    _ = gam u 9 * mag l r := by unfold mag; field_simp

/-- The right weight is the left weight of the mirrored pair of cells. -/
theorem simpR_mirror {l r v : ℝ} (h : SimpRFl u l r v) : SimpLFl u r l v := by
  obtain ⟨l', r', s, p, d, m, e, h1, h2, h3, h4⟩ := h
  exact ⟨r', l', s, p, d, m, e, h2, h1, by rwa [add_comm], h4⟩

theorem simpC_err (hu0 : 0 ≤ u) (hu : u < 1) {l r v : ℝ} (hl : 0 < l) (hr : 0 < r) (h : SimpCFl u l r v) :
    ∃ f, Fac u 13 f ∧ v = (l + r) * (l + r) * (l + r) / (6 * l * r) * f := by
  obtain ⟨l', r', s, p, q, e, e', h1, h2, h3, h4, h5, h6, h7, h8⟩ := h
  obtain ⟨f1, g1, e1⟩ := fl_fac hu0 hu h1
  obtain ⟨f2, g2, e2⟩ := fl_fac hu0 hu h2
  obtain ⟨f3, g3, e3⟩ := sum_fac hu hl hr g1 g2
  rw [e1, e2, e3] at h3
  obtain ⟨f4, g4, e4⟩ := fl_fac_of hu0 hu g3 h3
  obtain ⟨f5, g5, e5⟩ := fl_fac hu0 hu h4
  obtain ⟨f6, g6, e6⟩ := fl_fac hu0 hu h5
  rw [e1, ← mul_assoc] at h6
  obtain ⟨f7, g7, e7⟩ := fl_fac_of hu0 hu g1 h6
  obtain ⟨f8, g8, e8⟩ := fl_fac hu0 hu h7
  obtain ⟨f9, g9, e9⟩ := fl_fac hu0 hu h8
  have p7 := fac_pos hu g7
  have p8 := fac_pos hu g8
  have p2 := fac_pos hu g2
  refine ⟨f4 * f4 * f5 * f4 * f6 * (f7 * f2 * f8)⁻¹ * f9, ?_, ?_⟩
  · exact fac_mono hu0 hu (by norm_num) (fac_mul hu (fac_mul hu (fac_mul hu (fac_mul hu (fac_mul hu (fac_mul hu g4 g4) g5) g4) g6) (fac_inv hu (fac_mul hu (fac_mul hu g7 g2) g8))) g9)
  · rw [e9, e6, e5, e4, e8, e7, e2]
    field_simp

/-! ## Trapezoid -/

theorem trapezoid_value (periodic : Bool) (x : ℕ → ℝ) (n : ℕ) (hn : if periodic then 1 ≤ n else 2 ≤ n) (mem : ℕ → ℝ) (i : ℕ) (hi : i < n) :
    trapezoid periodic x n mem i = if periodic then (if i = 0 then 0.5 * (dR x (n - 1) + dR x 0) else 0.5 * (dL x i + dR x i)) else
      (if i = n - 1 then 0.5 * dL x (n - 1) else if i = 0 then 0.5 * dR x 0 else 0.5 * (dL x i + dR x i)) := by
  cases periodic
  · simp only [Bool.false_eq_true, if_false] at hn ⊢
    simp only [trapezoid, Bool.false_eq_true, if_false, write, trapMiddle]
    by_cases h1 : i = n - 1
    · rw [if_pos h1, if_pos h1]
    · rw [if_neg h1, if_neg h1]
      by_cases h2 : i = 0
      · rw [if_pos h2, if_pos h2]
      · rw [if_neg h2, if_neg h2, if_pos (by omega)]
  · simp only [if_true] at hn ⊢
    simp only [trapezoid, if_true, write, trapMiddle]
    by_cases h2 : i = 0
    · rw [if_pos h2, if_pos h2]
    · rw [if_neg h2, if_neg h2, if_pos (by omega)]

/-- C107. Every trapezoid coefficient computed in floating point is the exact one times a product of three rounding factors: it is positive, and its relative error is at most `gam u 3`. -/
theorem c107_trapezoid_coefficients (hu0 : 0 ≤ u) (hu : u < 1) (periodic : Bool) (x : ℕ → ℝ) (n : ℕ) (hn : if periodic then 1 ≤ n else 2 ≤ n) (mem a : ℕ → ℝ)
    (hx : ∀ i < (if periodic then n else n - 1), x i < x (i + 1)) (h : TrapFl u periodic x n a) (i : ℕ) (hi : i < n) :
    0 < a i ∧ |a i - trapezoid periodic x n mem i| ≤ gam u 3 * trapezoid periodic x n mem i := by
  have key : 0 < trapezoid periodic x n mem i ∧ ∃ f, Fac u 3 f ∧ a i = trapezoid periodic x n mem i * f := by
    rw [trapezoid_value periodic x n hn mem i hi]
    obtain ⟨hm, hb⟩ := h
    cases periodic
    · simp only [Bool.false_eq_true, if_false] at hn hx hm hb ⊢
      have hl := hx (n - 2) (by omega)
      rw [show n - 2 + 1 = n - 1 by omega] at hl
      have h0 := hx 0 (by omega)
      by_cases h1 : i = n - 1
      · rw [if_pos h1, h1]
        exact ⟨by simp only [dL]; rw [show n - 1 - 1 = n - 2 by omega]; linarith, half_fac hu0 hu hb.2⟩
      · rw [if_neg h1]
        by_cases h2 : i = 0
        · rw [if_pos h2, h2]
          exact ⟨by simp only [dR]; linarith, half_fac hu0 hu hb.1⟩
        · rw [if_neg h2]
          have a1 := hx (i - 1) (by omega)
          have a2 := hx i (by omega)
          rw [show i - 1 + 1 = i by omega] at a1
          have d1 : 0 < dL x i := by simp only [dL]; linarith
          have d2 : 0 < dR x i := by simp only [dR]; linarith
          exact ⟨by linarith, halfSum_fac hu0 hu d1 d2 (hm i (by omega) (by omega))⟩
    · simp only [if_true] at hn hx hm hb ⊢
      by_cases h2 : i = 0
      · rw [if_pos h2, h2]
        have a1 := hx (n - 1) (by omega)
        have a2 := hx 0 (by omega)
        have d1 : 0 < dR x (n - 1) := by simp only [dR]; linarith
        have d2 : 0 < dR x 0 := by simp only [dR]; linarith
        exact ⟨by linarith, halfSum_fac hu0 hu d1 d2 hb⟩
      · rw [if_neg h2]
        have a1 := hx (i - 1) (by omega)
        have a2 := hx i (by omega)
        rw [show i - 1 + 1 = i by omega] at a1
        have d1 : 0 < dL x i := by simp only [dL]; linarith
        have d2 : 0 < dR x i := by simp only [dR]; linarith
        exact ⟨by linarith, halfSum_fac hu0 hu d1 d2 (hm i (by omega) (by omega))⟩
  obtain ⟨hp, f, hf, e⟩ := key
  refine ⟨by rw [e]; exact mul_pos hp (fac_pos hu hf), ?_⟩
  rw [e, show trapezoid periodic x n mem i * f - trapezoid periodic x n mem i = (f - 1) * trapezoid periodic x n mem i by ring, abs_mul, abs_of_pos hp]
  exact mul_le_mul_of_nonneg_right (fac_err hu0 hu hf) hp.le

theorem map_sum_range (t : Norms.Tree ℕ) (n : ℕ) (ht : t.indices.Perm (List.range n)) (g : ℕ → ℝ) : (t.indices.map g).sum = ∑ i ∈ range n, g i := by
  rw [(ht.map g).sum_eq, Finset.sum_range, ← List.sum_ofFn, List.ofFn_eq_map, ← List.map_coe_finRange_eq_range, List.map_map]
  rfl

/-- C107. The integral of a smooth function computed entirely in floating point with the trapezoid rule (the coefficients, the products and the sum, the latter along any reduction tree): the error is the truncation error of the
rule plus a rounding error of at most `gam u (height + 5)`, about `(height + 5) u`, times the length of the interval and the largest value. -/
theorem c107_trapezoid_integral (hu0 : 0 ≤ u) (hu : u < 1) (periodic : Bool) (x : ℕ → ℝ) (n : ℕ) (hn : if periodic then 1 ≤ n else 2 ≤ n) (a : ℕ → ℝ)
    (cells : ℕ) (hc : cells = if periodic then n else n - 1) (h : ℝ) (hx : ∀ i < cells, x i < x (i + 1)) (hh : ∀ i < cells, x (i + 1) - x i ≤ h)
    (ha : TrapFl u periodic x n a) (f : ℝ → ℝ) (hf : ContDiff ℝ 2 f) (hp : periodic = true → f (x n) = f (x 0)) (M F : ℝ)
    (hM : ∀ t ∈ Set.Icc (x 0) (x cells), |iteratedDeriv 2 f t| ≤ M) (hF : ∀ i < n, |f (x i)| ≤ F)
    (t : Norms.Tree ℕ) (ht : t.indices.Perm (List.range n)) (v : ℝ) (hv : QuadFl u a (fun i => f (x i)) t v) :
    |v - ∫ s in (x 0)..(x cells), f s| ≤ M / 12 * (x cells - x 0) * h ^ 2 + gam u (height t + 5) * ((x cells - x 0) * F) := by
  have hmem : ∀ i ∈ t.indices, i < n := fun i hi => List.mem_range.1 (ht.mem_iff.1 hi)
  have hpos := c13_positive_and_total periodic x n hn (fun _ => 0)
  have hco := c107_trapezoid_coefficients hu0 hu periodic x n hn (fun _ => 0) a (by rwa [← hc]) ha
  have hinc : ∀ i j, i < j → j ≤ (if periodic then n else n - 1) → x i < x j := by
    rw [← hc]
    intro i j hij hj
    induction j, hij using Nat.le_induction with
    | base => exact hx i (by omega)
    | succ j hij ih => exact (ih (by omega)).trans (hx j (by omega))
  have hq0 := hpos.1 hinc
  have h1 := quad_err hu0 hu (q := trapezoid periodic x n fun _ => 0) (W := trapezoid periodic x n fun _ => 0) (k := 3) hv (fun i hi => (hco i (hmem i hi)).2)
    (fun i hi => (abs_of_pos (hq0 i (hmem i hi))).le)
  have h2 := AccuracyQuad.c95_trapezoid periodic x n hn (fun _ => 0) cells hc h hx hh f hf hp M hM
  rw [map_sum_range t n ht, map_sum_range t n ht] at h1
  have h3 : ∑ i ∈ range n, trapezoid periodic x n (fun _ => 0) i * |f (x i)| ≤ (x cells - x 0) * F := by
    have htot := hpos.2
    unfold apply at htot
    rw [hc, ← htot, sum_mul]
    refine sum_le_sum fun i hi => ?_
    rw [mul_one]
    exact mul_le_mul_of_nonneg_left (hF i (mem_range.1 hi)) (hq0 i (mem_range.1 hi)).le
  unfold apply at h2
  have h4 := mul_le_mul_of_nonneg_left h3 (gam_nonneg hu0 hu (3 + height t + 2))
  rw [show 3 + height t + 2 = height t + 5 by ring] at h1 h4
  have := abs_add_le (v - ∑ i ∈ range n, trapezoid periodic x n (fun _ => 0) i * f (x i)) (∑ i ∈ range n, trapezoid periodic x n (fun _ => 0) i * f (x i) - ∫ s in (x 0)..(x cells), f s)
  rw [sub_add_sub_cancel] at this
  linarith

/-! ## Simpson -/

theorem centreLeftFl_apply {x : ℕ → ℝ} {m : ℕ} {a b : ℕ → ℝ} (h : CentreLeftFl u x m a b) (j : ℕ) :
    (j < 2 * m → if j % 2 = 0 then SimpLFl u (dL x (j + 1)) (dR x (j + 1)) (b j) else SimpCFl u (dL x j) (dR x j) (b j)) ∧ (2 * m ≤ j → b j = a j) := by
  induction m generalizing b with
  | zero => exact ⟨fun h' => by omega, fun _ => by rw [show b = a from h]⟩
  | succ m ih =>
    obtain ⟨a', l, c, h1, hl, hc, rfl⟩ := h
    obtain ⟨i1, i2⟩ := ih h1
    simp only [write]
    by_cases e1 : j = 2 * m + 1
    · rw [if_pos e1]
      refine ⟨fun _ => ?_, fun h' => by omega⟩
      rw [if_neg (by omega), e1]; exact hc
    · rw [if_neg e1]
      by_cases e2 : j = 2 * m
      · rw [if_pos e2]
        refine ⟨fun _ => ?_, fun h' => by omega⟩
        rw [if_pos (by omega), e2]; exact hl
      · rw [if_neg e2]
        exact ⟨fun h' => i1 (by omega), fun h' => i2 (by omega)⟩

theorem overlapFl_apply {x : ℕ → ℝ} {m : ℕ} {a b : ℕ → ℝ} (h : OverlapFl u x m a b) (j : ℕ) :
    (j % 2 = 0 ∧ 0 < j ∧ j ≤ 2 * m → ∃ r, SimpRFl u (dL x (j - 1)) (dR x (j - 1)) r ∧ Fl u (a j + r) (b j)) ∧ (¬(j % 2 = 0 ∧ 0 < j ∧ j ≤ 2 * m) → b j = a j) := by
  induction m generalizing b with
  | zero => exact ⟨fun h' => by omega, fun _ => by rw [show b = a from h]⟩
  | succ m ih =>
    obtain ⟨a', r, v, h1, hr, hv, rfl⟩ := h
    obtain ⟨i1, i2⟩ := ih h1
    simp only [write]
    by_cases e1 : j = 2 * m + 2
    · rw [if_pos e1]
      refine ⟨fun _ => ⟨r, ?_, ?_⟩, fun h' => by omega⟩
      · rw [e1]; exact hr
      · have := i2 (by omega)
        rw [e1] at this ⊢
        rwa [← this]
    · rw [if_neg e1]
      exact ⟨fun h' => i1 (by omega), fun h' => i2 (by omega)⟩

/-- The form of the coefficient `i` computed in floating point: the weight of a centre, of one side of a pair of cells, or the rounded sum of the weights of two neighbouring pairs (whose common point is the first of the grid when the grid is periodic). -/
def CoefFl (u : ℝ) (periodic : Bool) (x : ℕ → ℝ) (n i : ℕ) (v : ℝ) : Prop :=
  if i % 2 = 1 then SimpCFl u (dL x i) (dR x i) v
  else if i = 0 ∧ ¬periodic then SimpLFl u (dL x 1) (dR x 1) v
  else if i = n - 1 ∧ ¬periodic then SimpRFl u (dL x (n - 2)) (dR x (n - 2)) v
  else ∃ l r, SimpLFl u (dL x (i + 1)) (dR x (i + 1)) l ∧ SimpRFl u (dL x (if i = 0 then n - 1 else i - 1)) (dR x (if i = 0 then n - 1 else i - 1)) r ∧ Fl u (l + r) v

theorem fillSimpsonFl_coef {periodic : Bool} {x : ℕ → ℝ} {n : ℕ} {mem a : ℕ → ℝ} (h : FillSimpsonFl u periodic x n mem (.ok a)) (i : ℕ) (hi : i < n) : CoefFl u periodic x n i (a i) := by
  cases periodic
  · simp only [FillSimpsonFl, Bool.false_eq_true, if_false] at h
    by_cases h1 : n % 2 = 0
    · rw [if_pos h1] at h; cases h
    rw [if_neg h1] at h
    by_cases h2 : n / 2 < 1
    · rw [if_pos h2] at h; cases h
    rw [if_neg h2] at h
    obtain ⟨a1, b, r, hc, ho, hr, e⟩ := h
    obtain rfl : a = write b (n - 1) r := by injection e
    have oc := overlapFl_apply ho i
    have cc := centreLeftFl_apply hc i
    simp only [CoefFl, write, Bool.false_eq_true, not_false_eq_true, and_true]
    by_cases p : i % 2 = 1
    · rw [if_pos p, if_neg (by omega), oc.2 (by omega)]
      have := cc.1 (by omega)
      rwa [if_neg (by omega)] at this
    rw [if_neg p]
    by_cases z : i = 0
    · rw [if_pos z, if_neg (by omega), oc.2 (by omega)]
      have := cc.1 (by omega)
      rw [if_pos (by omega)] at this
      subst z
      exact this
    rw [if_neg z]
    by_cases l : i = n - 1
    · rw [if_pos l, if_pos l]
      rwa [show n - 1 - 1 = n - 2 by omega] at hr
    rw [if_neg l, if_neg l, if_neg z]
    obtain ⟨r', hr', hv⟩ := oc.1 (by omega)
    have := cc.1 (by omega)
    rw [if_pos (by omega)] at this
    exact ⟨a1 i, r', this, hr', hv⟩
  · simp only [FillSimpsonFl, if_true] at h
    by_cases h1 : n % 2 ≠ 0
    · rw [if_pos h1] at h; cases h
    rw [if_neg h1] at h
    by_cases h2 : n / 2 < 2
    · rw [if_pos h2] at h; cases h
    rw [if_neg h2] at h
    obtain ⟨a1, b, r, l, c, r', v, w, hc, ho, hr, hl, hv, hcc, hr', hw, e⟩ := h
    obtain rfl : a = write (write (write b (n - 2) v) (n - 1) c) 0 w := by injection e
    have oc := overlapFl_apply ho i
    have cc := centreLeftFl_apply hc i
    simp only [CoefFl, write, not_true_eq_false, and_false, if_false]
    by_cases p : i % 2 = 1
    · rw [if_pos p, if_neg (by omega)]
      by_cases q : i = n - 1
      · rw [if_pos q, q]; exact hcc
      · rw [if_neg q, if_neg (by omega), oc.2 (by omega)]
        have := cc.1 (by omega)
        rwa [if_neg (by omega)] at this
    rw [if_neg p]
    by_cases z : i = 0
    · rw [if_pos z, if_pos z]
      have := cc.1 (by omega)
      rw [if_pos (by omega), z] at this
      refine ⟨a1 0, r', by rw [z]; exact this, hr', ?_⟩
      have := oc.2 (by omega)
      rw [z] at this
      rwa [← this]
    rw [if_neg z, if_neg z, if_neg (by omega)]
    by_cases q : i = n - 2
    · rw [if_pos q]
      refine ⟨l, r, ?_, ?_, ?_⟩
      · rw [q, show n - 2 + 1 = n - 1 by omega]; exact hl
      · rw [q, show n - 2 - 1 = n - 1 - 2 by omega]; exact hr
      · rwa [add_comm]
    · rw [if_neg q]
      obtain ⟨r'', hr'', hv''⟩ := oc.1 (by omega)
      have := cc.1 (by omega)
      rw [if_pos (by omega)] at this
      exact ⟨a1 i, r'', this, hr'', hv''⟩

theorem simpLFl_exact (hu0 : 0 ≤ u) (l r : ℝ) : SimpLFl u l r ((l + r) * (2 * l - r) / (6 * l)) :=
  ⟨_, _, _, _, _, _, _, fl_exact hu0 _, fl_exact hu0 _, fl_exact hu0 _, fl_exact hu0 _, fl_exact hu0 _, fl_exact hu0 _, fl_exact hu0 _, fl_exact hu0 _⟩

theorem simpRFl_exact (hu0 : 0 ≤ u) (l r : ℝ) : SimpRFl u l r ((l + r) * (2 * r - l) / (6 * r)) :=
  ⟨_, _, _, _, _, _, _, fl_exact hu0 _, fl_exact hu0 _, fl_exact hu0 _, fl_exact hu0 _, fl_exact hu0 _, fl_exact hu0 _, fl_exact hu0 _, fl_exact hu0 _⟩

theorem simpCFl_exact (hu0 : 0 ≤ u) (l r : ℝ) : SimpCFl u l r ((l + r) * (l + r) * (l + r) / (6 * l * r)) :=
  ⟨_, _, _, _, _, _, _, fl_exact hu0 _, fl_exact hu0 _, fl_exact hu0 _, fl_exact hu0 _, fl_exact hu0 _, fl_exact hu0 _, fl_exact hu0 _, fl_exact hu0 _⟩

theorem centreLeftFl_exact (hu0 : 0 ≤ u) (x : ℕ → ℝ) (m : ℕ) (a : ℕ → ℝ) : CentreLeftFl u x m a (centreLeft x m a) := by
  induction m with
  | zero => rfl
  | succ m ih => exact ⟨_, _, _, ih, simpLFl_exact hu0 _ _, simpCFl_exact hu0 _ _, rfl⟩

theorem overlapFl_exact (hu0 : 0 ≤ u) (x : ℕ → ℝ) (m : ℕ) (a : ℕ → ℝ) : OverlapFl u x m a (overlap x m a) := by
  induction m with
  | zero => rfl
  | succ m ih => exact ⟨_, _, _, ih, simpRFl_exact hu0 _ _, fl_exact hu0 _, rfl⟩

/-- C107. The run in real arithmetic (C14) is one of the runs, with the same outcome: the error and the out-of-bounds cases do not depend on rounding. -/
theorem c107_simpson_exact_run (hu0 : 0 ≤ u) (periodic : Bool) (x : ℕ → ℝ) (n : ℕ) (mem : ℕ → ℝ) : FillSimpsonFl u periodic x n mem (fillSimpson periodic x n mem) ∧
    (∀ o, FillSimpsonFl u periodic x n mem o → ((o = .throws ↔ fillSimpson periodic x n mem = .throws) ∧ (o = .undefinedBehaviour ↔ fillSimpson periodic x n mem = .undefinedBehaviour))) := by
  cases periodic
  · simp only [FillSimpsonFl, fillSimpson, Bool.false_eq_true, if_false]
    by_cases h1 : n % 2 = 0
    · simp only [if_pos h1]
      exact ⟨trivial, fun o e => by subst e; simp⟩
    simp only [if_neg h1]
    by_cases h2 : n / 2 < 1
    · simp only [if_pos h2]
      exact ⟨trivial, fun o e => by subst e; simp⟩
    simp only [if_neg h2]
    refine ⟨⟨_, _, _, centreLeftFl_exact hu0 _ _ _, overlapFl_exact hu0 _ _ _, simpRFl_exact hu0 _ _, ?_⟩, ?_⟩
    · rw [show n - 1 - 1 + 1 = n - 1 by omega]; rfl
    · rintro o ⟨a, b, r, -, -, -, rfl⟩; simp
  · simp only [FillSimpsonFl, fillSimpson, if_true]
    by_cases h1 : n % 2 ≠ 0
    · simp only [if_pos h1]
      exact ⟨trivial, fun o e => by subst e; simp⟩
    simp only [if_neg h1]
    by_cases h2 : n / 2 < 2
    · simp only [if_pos h2]
      exact ⟨trivial, fun o e => by subst e; simp⟩
    simp only [if_neg h2]
    refine ⟨⟨_, _, _, _, _, _, _, _, centreLeftFl_exact hu0 _ _ _, overlapFl_exact hu0 _ _ _, simpRFl_exact hu0 _ _, simpLFl_exact hu0 _ _, fl_exact hu0 _, simpCFl_exact hu0 _ _, simpRFl_exact hu0 _ _, fl_exact hu0 _, ?_⟩, ?_⟩
    · congr 1
      funext j
      simp only [write, simpL, simpC, simpR]
      rw [show n - 1 - 2 + 1 = n - 2 by omega, show n - 1 - 1 = n - 2 by omega]
      simp only [if_neg (by omega : ¬ (0 = n - 1)), if_neg (by omega : ¬ (0 = n - 2))]
      by_cases j0 : j = 0
      · rw [if_pos j0, if_pos j0]
      · rw [if_neg j0, if_neg j0]
        by_cases j1 : j = n - 1
        · rw [if_pos j1, if_pos j1]
        · rw [if_neg j1, if_neg j1]
          by_cases j2 : j = n - 2
          · rw [if_pos j2, if_pos j2, if_pos trivial]
          · rw [if_neg j2, if_neg j2, if_neg j2]
    · rintro o ⟨a, b, r, l, c, r', v, w, -, -, -, -, -, -, -, -, rfl⟩; simp

/-- The magnitude of the coefficient `i`: for an odd `i` the coefficient itself, for an even `i` the sum over the neighbouring pairs of cells of `mag`. -/
noncomputable def weight (periodic : Bool) (x : ℕ → ℝ) (n i : ℕ) : ℝ :=
  if i % 2 = 1 then (dL x i + dR x i) ^ 3 / (6 * dL x i * dR x i)
  else (if i = n - 1 ∧ ¬periodic then 0 else mag (dL x (i + 1)) (dR x (i + 1))) +
    (if i = 0 then (if periodic then mag (dR x (n - 1)) (dL x (n - 1)) else 0) else mag (dR x (i - 1)) (dL x (i - 1)))

theorem mag_pos {l r : ℝ} (hl : 0 < l) (hr : 0 < r) : 0 < mag l r := by unfold mag; positivity

theorem mag_bound {l r : ℝ} (hl : 0 < l) (hr : 0 < r) : |(l + r) * (2 * l - r) / (6 * l)| ≤ mag l r := by
  unfold mag
  rw [abs_div, abs_mul, abs_of_pos (by linarith : 0 < l + r), abs_of_pos (by linarith : 0 < 6 * l)]
  gcongr
  rw [abs_le]; constructor <;> linarith

/-- The form of a coefficient determines it up to rounding. -/
theorem coef_err (hu0 : 0 ≤ u) (hu : u < 1) {periodic : Bool} {x : ℕ → ℝ} {n : ℕ} (hn : SimpsonSize periodic n) (hx : ∀ i, i < 2 * (n / 2) → x i < x (i + 1)) {i : ℕ} (hi : i < n) {v q : ℝ}
    (hv : CoefFl u periodic x n i v) (hq : CoefFl 0 periodic x n i q) : |v - q| ≤ gam u 13 * weight periodic x n i ∧ |q| ≤ weight periodic x n i := by
  have e0 : ∀ {x y : ℝ}, Fl 0 x y → y = x := by
    rintro x y ⟨δ, hδ, rfl⟩
    have : δ = 0 := abs_eq_zero.1 (le_antisymm hδ (abs_nonneg _))
    rw [this]; ring
  have hd : ∀ c, c % 2 = 1 → c < 2 * (n / 2) → 0 < dL x c ∧ 0 < dR x c := by
    intro c hc hc'
    have a1 := hx (c - 1) (by omega)
    have a2 := hx c (by omega)
    rw [show c - 1 + 1 = c by omega] at a1
    exact ⟨by simp only [dL]; linarith, by simp only [dR]; linarith⟩
  have hL0 : ∀ {l r v}, SimpLFl 0 l r v → v = (l + r) * (2 * l - r) / (6 * l) := by
    rintro l r v ⟨l', r', s, p, d, m, e, h1, h2, h3, h4, h5, h6, h7, h8⟩
    rw [e0 h8, e0 h7, e0 h6, e0 h5, e0 h4, e0 h3, e0 h2, e0 h1]
  have hC0 : ∀ {l r v}, SimpCFl 0 l r v → v = (l + r) * (l + r) * (l + r) / (6 * l * r) := by
    rintro l r v ⟨l', r', s, p, d, m, e, h1, h2, h3, h4, h5, h6, h7, h8⟩
    rw [e0 h8, e0 h7, e0 h6, e0 h5, e0 h4, e0 h3, e0 h2, e0 h1]
  have hsz : n % 2 = (if periodic then 0 else 1) ∧ 3 ≤ n := by
    unfold SimpsonSize at hn; cases periodic <;> simp at hn ⊢ <;> omega
  unfold CoefFl at hv hq
  unfold weight
  by_cases p : i % 2 = 1
  · rw [if_pos p] at hv hq ⊢
    obtain ⟨d1, d2⟩ := hd i p (by omega)
    obtain ⟨f, hf, e⟩ := simpC_err hu0 hu d1 d2 hv
    have eq : q = (dL x i + dR x i) ^ 3 / (6 * dL x i * dR x i) := by rw [hC0 hq]; ring
    have ev : v = q * f := by rw [e, eq]; ring
    have q0 : 0 < q := by rw [eq]; positivity
    rw [← eq, ev]
    refine ⟨?_, (abs_of_pos q0).le⟩
    rw [show q * f - q = (f - 1) * q by ring, abs_mul, abs_of_pos q0]
    exact mul_le_mul_of_nonneg_right (fac_err hu0 hu hf) q0.le
  rw [if_neg p] at hv hq ⊢
  by_cases z : i = 0 ∧ ¬periodic
  · rw [if_pos z] at hv hq
    have per : periodic = false := by simpa using z.2
    subst per
    simp only [Bool.false_eq_true, if_false, not_false_eq_true, and_true] at *
    rw [if_neg (by omega), if_pos z, add_zero, z]
    obtain ⟨d1, d2⟩ := hd 1 (by omega) (by omega)
    rw [hL0 hq]
    exact ⟨err_mono hu0 hu (by norm_num) (mag_pos d1 d2).le (simpL_err hu0 hu d1 d2 hv), mag_bound d1 d2⟩
  rw [if_neg z] at hv hq
  by_cases l : i = n - 1 ∧ ¬periodic
  · rw [if_pos l] at hv hq
    rw [if_pos l, if_neg (by omega), zero_add, show i - 1 = n - 2 by omega]
    have per : periodic = false := by simpa using l.2
    subst per
    simp only [Bool.false_eq_true, if_false] at hsz
    obtain ⟨d1, d2⟩ := hd (n - 2) (by omega) (by omega)
    rw [hL0 (simpR_mirror hq)]
    exact ⟨err_mono hu0 hu (by norm_num) (mag_pos d2 d1).le (simpL_err hu0 hu d2 d1 (simpR_mirror hv)), mag_bound d2 d1⟩
  rw [if_neg l] at hv hq ⊢
  obtain ⟨vl, vr, hvl, hvr, hvv⟩ := hv
  obtain ⟨ql, qr, hql, hqr, hqq⟩ := hq
  obtain ⟨c, hc⟩ : ∃ c, c = if i = 0 then n - 1 else i - 1 := ⟨_, rfl⟩
  rw [← hc] at hvr hqr
  have hcc : c % 2 = 1 ∧ c < 2 * (n / 2) := by
    cases periodic
    · simp only [Bool.false_eq_true, if_false, not_false_eq_true, and_true] at *
      rw [if_neg z] at hc; omega
    · simp only [if_true] at hsz
      by_cases i0 : i = 0
      · rw [if_pos i0] at hc; omega
      · rw [if_neg i0] at hc; omega
  have hii : i + 1 < 2 * (n / 2) := by
    cases periodic
    · simp only [Bool.false_eq_true, if_false, not_false_eq_true, and_true] at *; omega
    · simp only [if_true] at hsz; omega
  have hw : (if i = 0 then (if periodic then mag (dR x (n - 1)) (dL x (n - 1)) else 0) else mag (dR x (i - 1)) (dL x (i - 1))) = mag (dR x c) (dL x c) := by
    by_cases i0 : i = 0
    · rw [if_pos i0] at hc ⊢
      have per : periodic = true := by
        by_contra hne
        exact z ⟨i0, hne⟩
      rw [if_pos per, hc]
    · rw [if_neg i0] at hc ⊢; rw [hc]
  rw [hw]
  obtain ⟨d1, d2⟩ := hd (i + 1) (by omega) hii
  obtain ⟨d3, d4⟩ := hd c hcc.1 hcc.2
  have b1 := mag_bound d1 d2
  have b2 := mag_bound d4 d3
  rw [← hL0 hql] at b1
  rw [← hL0 (simpR_mirror hqr)] at b2
  have s1 := simpL_err hu0 hu d1 d2 hvl
  have s2 := simpL_err hu0 hu d4 d3 (simpR_mirror hvr)
  rw [← hL0 hql] at s1
  rw [← hL0 (simpR_mirror hqr)] at s2
  rw [e0 hqq]
  have nn : |ql + qr| ≤ mag (dL x (i + 1)) (dR x (i + 1)) + mag (dR x c) (dL x c) := (abs_add_le _ _).trans (add_le_add b1 b2)
  exact ⟨err_mono hu0 hu (by norm_num) ((abs_nonneg _).trans nn) (err_fl hu0 hu nn (err_add s1 s2) hvv), nn⟩

/-- C107. Every Simpson coefficient computed in floating point on an increasing grid is within `gam u 13` of the exact one, relatively to `weight`. -/
theorem c107_simpson_coefficients (hu0 : 0 ≤ u) (hu : u < 1) (periodic : Bool) (x : ℕ → ℝ) (n : ℕ) (hn : SimpsonSize periodic n) (hx : ∀ i, i < 2 * (n / 2) → x i < x (i + 1)) (mem : ℕ → ℝ)
    (o : Outcome (ℕ → ℝ)) (h : FillSimpsonFl u periodic x n mem o) :
    ∃ a q, o = .ok a ∧ fillSimpson periodic x n mem = .ok q ∧ ∀ i < n, |a i - q i| ≤ gam u 13 * weight periodic x n i ∧ |q i| ≤ weight periodic x n i := by
  obtain ⟨q, hq, -⟩ := fillSimpson_ok periodic x n hn mem
  have ho := (c107_simpson_exact_run hu0 periodic x n mem).2 o h
  have h0 := (c107_simpson_exact_run (u := 0) le_rfl periodic x n mem).1
  rw [hq] at ho h0
  match o with
  | .throws => exact absurd (ho.1.1 rfl) (by simp)
  | .undefinedBehaviour => exact absurd (ho.2.1 rfl) (by simp)
  | .ok a => exact ⟨a, q, rfl, hq, fun i hi => coef_err hu0 hu hn hx hi (fillSimpsonFl_coef h i hi) (fillSimpsonFl_coef h0 i hi)⟩

theorem mag_equal {d : ℝ} (hd : 0 < d) : mag d d = d := by unfold mag; field_simp; ring

/-- On a grid of equal cells of width `d`, no magnitude exceeds `2 d`. -/
theorem weight_uniform {periodic : Bool} {x : ℕ → ℝ} {n : ℕ} (hn : SimpsonSize periodic n) {d : ℝ} (hd : 0 < d) (hx : ∀ i, i < 2 * (n / 2) → x (i + 1) - x i = d) {i : ℕ} (hi : i < n) :
    0 ≤ weight periodic x n i ∧ weight periodic x n i ≤ 2 * d := by
  have hsz : n % 2 = (if periodic then 0 else 1) ∧ 3 ≤ n := by
    unfold SimpsonSize at hn; cases periodic <;> simp at hn ⊢ <;> omega
  have hdd : ∀ c, 0 < c → c < 2 * (n / 2) → dL x c = d ∧ dR x c = d := by
    intro c hc hc'
    have a1 := hx (c - 1) (by omega)
    rw [show c - 1 + 1 = c by omega] at a1
    exact ⟨a1, hx c hc'⟩
  unfold weight
  by_cases p : i % 2 = 1
  · rw [if_pos p, (hdd i (by omega) (by omega)).1, (hdd i (by omega) (by omega)).2]
    have : (d + d) ^ 3 / (6 * d * d) = 4 / 3 * d := by field_simp; ring
    rw [this]; constructor <;> linarith
  rw [if_neg p]
  have h1 : ∃ α, (0 ≤ α ∧ α ≤ d) ∧ (if i = n - 1 ∧ ¬periodic then 0 else mag (dL x (i + 1)) (dR x (i + 1))) = α := by
    by_cases l : i = n - 1 ∧ ¬periodic
    · exact ⟨0, ⟨le_rfl, hd.le⟩, by rw [if_pos l]⟩
    · have : i + 1 < 2 * (n / 2) := by
        cases periodic
        · simp only [Bool.false_eq_true, if_false, not_false_eq_true, and_true] at *; omega
        · simp only [if_true] at hsz; omega
      rw [if_neg l, (hdd (i + 1) (by omega) this).1, (hdd (i + 1) (by omega) this).2, mag_equal hd]
      exact ⟨d, ⟨hd.le, le_rfl⟩, rfl⟩
  have h2 : ∃ α, (0 ≤ α ∧ α ≤ d) ∧ (if i = 0 then (if periodic then mag (dR x (n - 1)) (dL x (n - 1)) else 0) else mag (dR x (i - 1)) (dL x (i - 1))) = α := by
    by_cases z : i = 0
    · rw [if_pos z]
      cases periodic
      · exact ⟨0, ⟨le_rfl, hd.le⟩, by simp⟩
      · simp only [if_true] at hsz ⊢
        rw [(hdd (n - 1) (by omega) (by omega)).1, (hdd (n - 1) (by omega) (by omega)).2, mag_equal hd]
        exact ⟨d, ⟨hd.le, le_rfl⟩, rfl⟩
    · rw [if_neg z, (hdd (i - 1) (by omega) (by omega)).1, (hdd (i - 1) (by omega) (by omega)).2, mag_equal hd]
      exact ⟨d, ⟨hd.le, le_rfl⟩, rfl⟩
  obtain ⟨α, ⟨a1, a2⟩, e1⟩ := h1
  obtain ⟨β, ⟨b1, b2⟩, e2⟩ := h2
  rw [e1, e2]
  constructor <;> linarith

/-- C107. The integral of a smooth function computed entirely in floating point with the Simpson rule on `n` equally spaced points: truncation error plus at most `gam u (height + 15)` times `2 n d` times the largest value. -/
theorem c107_simpson_integral (hu0 : 0 ≤ u) (hu : u < 1) (periodic : Bool) (x : ℕ → ℝ) (n : ℕ) (hn : SimpsonSize periodic n) (d : ℝ) (hd : 0 < d) (hx : ∀ i, i < 2 * (n / 2) → x (i + 1) - x i = d) (mem : ℕ → ℝ)
    (o : Outcome (ℕ → ℝ)) (h : FillSimpsonFl u periodic x n mem o)
    (f : ℝ → ℝ) (hf : ContDiff ℝ 4 f) (hp : periodic = true → f (x n) = f (x 0)) (M F : ℝ)
    (hM : ∀ t ∈ Set.Icc (x 0) (x (2 * (n / 2))), |iteratedDeriv 4 f t| ≤ M) (hF : ∀ i < n, |f (x i)| ≤ F) (t : Norms.Tree ℕ) (ht : t.indices.Perm (List.range n)) :
    ∃ a, o = .ok a ∧ ∀ v, QuadFl u a (fun i => f (x i)) t v →
      |v - ∫ s in (x 0)..(x (2 * (n / 2))), f s| ≤ M / 180 * (x (2 * (n / 2)) - x 0) * d ^ 4 + gam u (height t + 15) * (2 * n * d * F) := by
  have hx' : ∀ i, i < 2 * (n / 2) → x i < x (i + 1) := fun i hi => by linarith [hx i hi]
  obtain ⟨a, q, ho, hq, he⟩ := c107_simpson_coefficients hu0 hu periodic x n hn hx' mem o h
  refine ⟨a, ho, fun v hv => ?_⟩
  have hmem : ∀ i ∈ t.indices, i < n := fun i hi => List.mem_range.1 (ht.mem_iff.1 hi)
  have h1 := quad_err hu0 hu (q := q) (W := weight periodic x n) (k := 13) hv (fun i hi => (he i (hmem i hi)).1) (fun i hi => (he i (hmem i hi)).2)
  obtain ⟨q', hq', h2⟩ := AccuracyQuad.c95_simpson_uniform periodic x n hn mem hx' (fun i hi => by rw [hx (2 * i) (by omega), ← hx (2 * i + 1) (by omega)]) d
    (fun i hi => by have e1 := hx (2 * i) (by omega); have e2 := hx (2 * i + 1) (by omega); linarith) f hf hp M hM
  rw [hq] at hq'
  obtain rfl : q = q' := by injection hq'
  rw [map_sum_range t n ht, map_sum_range t n ht] at h1
  have h3 : ∑ i ∈ range n, weight periodic x n i * |f (x i)| ≤ 2 * n * d * F := by
    calc ∑ i ∈ range n, weight periodic x n i * |f (x i)| ≤ ∑ i ∈ range n, 2 * d * F := by
          refine sum_le_sum fun i hi => ?_
          obtain ⟨w0, w1⟩ := weight_uniform hn hd hx (mem_range.1 hi)
          exact mul_le_mul w1 (hF i (mem_range.1 hi)) (abs_nonneg _) (by linarith)
      _ = 2 * n * d * F := by rw [sum_const, card_range, nsmul_eq_mul]; ring
  unfold apply at h2
  have h4 := mul_le_mul_of_nonneg_left h3 (gam_nonneg hu0 hu (13 + height t + 2))
  rw [show 13 + height t + 2 = height t + 15 by ring] at h1 h4
  have := abs_add_le (v - ∑ i ∈ range n, q i * f (x i)) (∑ i ∈ range n, q i * f (x i) - ∫ s in (x 0)..(x (2 * (n / 2))), f s)
  rw [sub_add_sub_cancel] at this
  linarith

/-! ## Non-vacuity -/

/-- A grid of three points, five points with different widths, and a periodic one: runs exist. -/
theorem trapFl_exists (hu0 : 0 ≤ u) (periodic : Bool) (x : ℕ → ℝ) (n : ℕ) (hn : if periodic then 1 ≤ n else 2 ≤ n) (mem : ℕ → ℝ) : TrapFl u periodic x n (trapezoid periodic x n mem) := by
  have hs : ∀ l r : ℝ, HalfSumFl u l r (0.5 * (l + r)) := fun l r => ⟨l, r, l + r, fl_exact hu0 _, fl_exact hu0 _, fl_exact hu0 _, fl_exact hu0 _⟩
  have hh : ∀ d : ℝ, HalfFl u d (0.5 * d) := fun d => ⟨d, fl_exact hu0 _, fl_exact hu0 _⟩
  refine ⟨fun i h1 h2 => ?_, ?_⟩
  · rw [trapezoid_value periodic x n hn mem i (by cases periodic <;> simp at h2 <;> omega)]
    cases periodic
    · simp only [Bool.false_eq_true, if_false] at h2 ⊢
      rw [if_neg (by omega), if_neg (by omega)]; exact hs _ _
    · simp only [if_true] at h2 ⊢
      rw [if_neg (by omega)]; exact hs _ _
  · cases periodic
    · simp only [Bool.false_eq_true, if_false] at hn ⊢
      have e0 := trapezoid_value false x n (by simpa using hn) mem 0 (by omega)
      have e1 := trapezoid_value false x n (by simpa using hn) mem (n - 1) (by omega)
      simp only [Bool.false_eq_true, if_false, if_true] at e0 e1
      rw [if_neg (by omega)] at e0
      rw [e0, e1]; exact ⟨hh _, hh _⟩
    · simp only [if_true] at hn ⊢
      have e0 := trapezoid_value true x n (by simpa using hn) mem 0 (by omega)
      simp only [if_true] at e0
      rw [e0]; exact hs _ _

/-- A coefficient with rounding errors that is not the exact one: `0.5 * (1 + 1)` with the last product rounded up. -/
example : HalfSumFl 0.1 1 1 1.1 := ⟨1, 1, 2, fl_exact (by norm_num) _, fl_exact (by norm_num) _, ⟨0, by norm_num, by norm_num⟩, ⟨0.1, by rw [abs_of_pos (by norm_num)], by norm_num⟩⟩

example : ∃ v, QuadFl (0.01 : ℝ) (trapezoid false (fun i => (i : ℝ) ^ 2) 3 fun _ => 0) (fun i => ((i : ℝ) ^ 2) ^ 2) (comb [2, 1, 0]) v ∧
    TrapFl 0.01 false (fun i => (i : ℝ) ^ 2) 3 (trapezoid false (fun i => (i : ℝ) ^ 2) 3 fun _ => 0) ∧ (comb [2, 1, 0]).indices.Perm (List.range 3) ∧
    ∃ a, FillSimpsonFl 0.01 false (fun i => (i : ℝ) ^ 2) 5 (fun _ => 0) (.ok a) :=
  ⟨_, (c97_quadrature_exact _ _ _).2 0.01 (by norm_num), trapFl_exists (by norm_num) _ _ _ (by norm_num) _, by rw [comb_indices]; decide, by
    obtain ⟨q, hq, -⟩ := fillSimpson_ok false (fun i => (i : ℝ) ^ 2) 5 (by simp [SimpsonSize]) (fun _ => 0)
    refine ⟨q, ?_⟩
    rw [← hq]
    exact (c107_simpson_exact_run (by norm_num) _ _ _ _).1⟩

end Verif.FloatQuad
