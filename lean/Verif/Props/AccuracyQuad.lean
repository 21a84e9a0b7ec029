import Verif.Props.InterpError
import Verif.Props.Quadrature
import Verif.Props.Fdm

/-! Property C95, first part: order of accuracy of the trapezoid and Simpson rules and of the finite differences on smooth functions. -/

namespace Verif.AccuracyQuad

open Finset Polynomial Verif.InterpError Verif.Quadrature

/-! ### Quadratic and affine interpolants -/

/-- The affine function through `(u, p)` and `(v, q)`. -/
noncomputable def line (u v p q : ℝ) : ℝ[X] := C p + C ((q - p) / (v - u)) * (X - C u)

/-- The parabola through `(u, p)`, `(v, q)` and `(w, r)` (Newton form). -/
noncomputable def parabola (u v w p q r : ℝ) : ℝ[X] :=
  line u v p q + C (((r - p) / (w - u) - (q - p) / (v - u)) / (w - v)) * ((X - C u) * (X - C v))

theorem line_eval (u v p q t : ℝ) : (line u v p q).eval t = p + (q - p) / (v - u) * (t - u) := by simp [line]

theorem parabola_eval (u v w p q r t : ℝ) : (parabola u v w p q r).eval t =
    p + (q - p) / (v - u) * (t - u) + ((r - p) / (w - u) - (q - p) / (v - u)) / (w - v) * ((t - u) * (t - v)) := by
  simp [parabola, line]

theorem line_high (u v p q : ℝ) : derivative^[2] (line u v p q) = 0 := by
  refine iterate_derivative_eq_zero (lt_of_le_of_lt (b := 1) ?_ (by norm_num))
  unfold line; compute_degree

theorem parabola_high (u v w p q r : ℝ) : derivative^[3] (parabola u v w p q r) = 0 := by
  refine iterate_derivative_eq_zero (lt_of_le_of_lt (b := 2) ?_ (by norm_num))
  unfold parabola line; compute_degree

theorem parabola_deriv (u v w p q r t : ℝ) : (derivative (parabola u v w p q r)).eval t =
    (q - p) / (v - u) + ((r - p) / (w - u) - (q - p) / (v - u)) / (w - v) * ((t - u) + (t - v)) := by
  simp only [parabola, line, derivative_add, derivative_mul, derivative_C, derivative_X_sub_C, eval_add, eval_mul, eval_C, eval_sub, eval_X, zero_mul, zero_add, mul_one, one_mul]
  ring

theorem sub_contDiff (f : ℝ → ℝ) (m : ℕ) (hf : ContDiff ℝ m f) (P : ℝ[X]) : ContDiff ℝ m (fun y => f y - P.eval y) :=
  hf.sub (contDiff_poly P m)

theorem abs_le_of_formula {c M a b p : ℝ} (h : |a| ≤ M) (hc : 0 < c) (e : b = a / c * p) : |b| ≤ M / c * |p| := by
  rw [e, abs_mul, abs_div, abs_of_pos hc]
  gcongr

/-- Error of affine interpolation. -/
theorem line_error (f : ℝ → ℝ) (hf : ContDiff ℝ 2 f) (u v M : ℝ) (huv : u < v) (hM : ∀ t ∈ Set.Icc u v, |iteratedDeriv 2 f t| ≤ M)
    (t : ℝ) (ht : t ∈ Set.Icc u v) : |f t - (line u v (f u) (f v)).eval t| ≤ M / 2 * ((t - u) * (v - t)) := by
  have hd : v - u ≠ 0 := by linarith
  obtain ⟨ξ, hξ, e⟩ := zeros_formula (fun y => f y - (line u v (f u) (f v)).eval y) 2 (sub_contDiff f 2 hf _) u v {u, v}
    (by rw [Finset.card_pair huv.ne]) (fun z hz => by
      rcases Finset.mem_insert.1 hz with rfl | h
      · exact ⟨le_rfl, huv.le⟩
      · rw [Finset.mem_singleton.1 h]; exact ⟨huv.le, le_rfl⟩)
    (fun z hz => by
      rcases Finset.mem_insert.1 hz with rfl | h
      · rw [line_eval]; ring
      · rw [Finset.mem_singleton.1 h, line_eval]; field_simp; ring) t ht
  rw [iteratedDeriv_sub_poly f 2 hf, line_high, eval_zero, sub_zero, Finset.prod_pair huv.ne] at e
  refine (abs_le_of_formula (hM ξ hξ) (by norm_num [Nat.factorial]) e).trans (le_of_eq ?_)
  rw [abs_mul, abs_of_nonneg (by linarith [ht.1]), abs_of_nonpos (by linarith [ht.2])]
  norm_num [Nat.factorial]

/-- Error of parabolic interpolation. -/
theorem parabola_error (f : ℝ → ℝ) (hf : ContDiff ℝ 3 f) (u v w M : ℝ) (huv : u < v) (hvw : v < w)
    (hM : ∀ t ∈ Set.Icc u w, |iteratedDeriv 3 f t| ≤ M)
    (t : ℝ) (ht : t ∈ Set.Icc u w) : |f t - (parabola u v w (f u) (f v) (f w)).eval t| ≤ M / 6 * |(t - u) * ((t - v) * (t - w))| := by
  have huw := huv.trans hvw
  have hd : v - u ≠ 0 := by linarith
  have hd2 : w - v ≠ 0 := by linarith
  have hd3 : w - u ≠ 0 := by linarith
  have n1 : u ∉ ({v, w} : Finset ℝ) := by simp only [Finset.mem_insert, Finset.mem_singleton, not_or]; exact ⟨huv.ne, huw.ne⟩
  obtain ⟨ξ, hξ, e⟩ := zeros_formula (fun y => f y - (parabola u v w (f u) (f v) (f w)).eval y) 3 (sub_contDiff f 3 hf _) u w {u, v, w}
    (by rw [Finset.card_insert_of_notMem n1, Finset.card_pair hvw.ne]) (fun z hz => by
      simp only [Finset.mem_insert, Finset.mem_singleton] at hz
      rcases hz with rfl | rfl | rfl
      exacts [⟨le_rfl, huw.le⟩, ⟨huv.le, hvw.le⟩, ⟨huw.le, le_rfl⟩])
    (fun z hz => by
      simp only [Finset.mem_insert, Finset.mem_singleton] at hz
      rcases hz with rfl | rfl | rfl <;> rw [parabola_eval]
      · ring
      · field_simp; ring
      · field_simp; ring) t ht
  rw [iteratedDeriv_sub_poly f 3 hf, parabola_high, eval_zero, sub_zero, Finset.prod_insert n1, Finset.prod_pair hvw.ne] at e
  refine (abs_le_of_formula (hM ξ hξ) (by norm_num [Nat.factorial]) e).trans (le_of_eq ?_)
  norm_num [Nat.factorial]

theorem parabola_deriv_error (f : ℝ → ℝ) (hf : ContDiff ℝ 3 f) (u v w M : ℝ) (huv : u < v) (hvw : v < w)
    (hM : ∀ t ∈ Set.Icc u w, |iteratedDeriv 3 f t| ≤ M) :
    |deriv f u - (derivative (parabola u v w (f u) (f v) (f w))).eval u| ≤ M / 6 * ((v - u) * (w - u)) ∧
    |deriv f v - (derivative (parabola u v w (f u) (f v) (f w))).eval v| ≤ M / 6 * ((v - u) * (w - v)) ∧
    |deriv f w - (derivative (parabola u v w (f u) (f v) (f w))).eval w| ≤ M / 6 * ((w - u) * (w - v)) := by
  have huw := huv.trans hvw
  have hd : v - u ≠ 0 := by linarith
  have hd2 : w - v ≠ 0 := by linarith
  have hd3 : w - u ≠ 0 := by linarith
  have n1 : u ∉ ({v, w} : Finset ℝ) := by simp only [Finset.mem_insert, Finset.mem_singleton, not_or]; exact ⟨huv.ne, huw.ne⟩
  have key : ∀ z ∈ ({u, v, w} : Finset ℝ), |deriv f z - (derivative (parabola u v w (f u) (f v) (f w))).eval z| ≤
      M / 6 * |∏ y ∈ ({u, v, w} : Finset ℝ).erase z, (z - y)| := by
    intro z hz
    obtain ⟨ξ, hξ, e⟩ := zeros_deriv_formula (fun y => f y - (parabola u v w (f u) (f v) (f w)).eval y) 3 (sub_contDiff f 3 hf _) u w {u, v, w}
      (by rw [Finset.card_insert_of_notMem n1, Finset.card_pair hvw.ne]) (fun z hz => by
        simp only [Finset.mem_insert, Finset.mem_singleton] at hz
        rcases hz with rfl | rfl | rfl
        exacts [⟨le_rfl, huw.le⟩, ⟨huv.le, hvw.le⟩, ⟨huw.le, le_rfl⟩])
      (fun z hz => by
        simp only [Finset.mem_insert, Finset.mem_singleton] at hz
        rcases hz with rfl | rfl | rfl <;> rw [parabola_eval]
        · ring
        · field_simp; ring
        · field_simp; ring) z hz
    rw [iteratedDeriv_sub_poly f 3 hf, parabola_high, eval_zero, sub_zero] at e
    have hdf : Differentiable ℝ f := hf.differentiable (by norm_num)
    rw [((hdf z).hasDerivAt.fun_sub (Polynomial.hasDerivAt _ z)).deriv] at e
    refine (abs_le_of_formula (hM ξ hξ) (by norm_num [Nat.factorial]) e).trans (le_of_eq ?_)
    norm_num [Nat.factorial]
  refine ⟨(key u (by simp)).trans (le_of_eq ?_), (key v (by simp)).trans (le_of_eq ?_), (key w (by simp)).trans (le_of_eq ?_)⟩
  · rw [Finset.erase_insert n1, Finset.prod_pair hvw.ne, abs_mul, abs_of_neg (by linarith), abs_of_neg (by linarith)]; ring
  · have : ({u, v, w} : Finset ℝ).erase v = {u, w} := by
      ext z; simp only [Finset.mem_erase, Finset.mem_insert, Finset.mem_singleton]
      constructor
      · rintro ⟨h, h1 | h1 | h1⟩ <;> simp_all
      · rintro (rfl | rfl)
        exacts [⟨huv.ne, Or.inl rfl⟩, ⟨hvw.ne', Or.inr (Or.inr rfl)⟩]
    rw [this, Finset.prod_pair huw.ne, abs_mul, abs_of_pos (by linarith), abs_of_neg (by linarith)]; ring
  · have : ({u, v, w} : Finset ℝ).erase w = {u, v} := by
      ext z; simp only [Finset.mem_erase, Finset.mem_insert, Finset.mem_singleton]
      constructor
      · rintro ⟨h, h1 | h1 | h1⟩ <;> simp_all
      · rintro (rfl | rfl)
        exacts [⟨huw.ne, Or.inl rfl⟩, ⟨hvw.ne, Or.inr (Or.inl rfl)⟩]
    rw [this, Finset.prod_pair huv.ne, abs_mul, abs_of_pos (by linarith), abs_of_pos (by linarith)]

/-! ### Integrals -/

theorem integral_error (f g B : ℝ → ℝ) (hf : Continuous f) (hg : Continuous g) (hB : Continuous B) (u v : ℝ) (huv : u ≤ v)
    (h : ∀ t ∈ Set.Icc u v, |f t - g t| ≤ B t) : |(∫ t in u..v, g t) - ∫ t in u..v, f t| ≤ ∫ t in u..v, B t := by
  rw [← intervalIntegral.integral_sub (hg.intervalIntegrable _ _) (hf.intervalIntegrable _ _)]
  rw [← Real.norm_eq_abs]
  refine intervalIntegral.norm_integral_le_of_norm_le (μ := MeasureTheory.volume) huv (Filter.Eventually.of_forall fun t ht => ?_) (hB.intervalIntegrable _ _)
  rw [Real.norm_eq_abs, abs_sub_comm]
  exact h t ⟨ht.1.le, ht.2⟩

/-- One cell of the trapezoid rule. -/
theorem cell_trapezoid (f : ℝ → ℝ) (hf : ContDiff ℝ 2 f) (u v M : ℝ) (huv : u < v) (hM : ∀ t ∈ Set.Icc u v, |iteratedDeriv 2 f t| ≤ M) :
    |(v - u) * (f u + f v) / 2 - ∫ t in u..v, f t| ≤ M / 12 * (v - u) ^ 3 := by
  have hd : v - u ≠ 0 := by linarith
  have h := integral_error f (fun t => (line u v (f u) (f v)).eval t) (fun t => M / 2 * ((t - u) * (v - t))) hf.continuous
    (contDiff_poly _ 0).continuous (by fun_prop) u v huv.le (fun t ht => line_error f hf u v M huv hM t ht)
  have e1 : ∫ t in u..v, (line u v (f u) (f v)).eval t = (v - u) * (f u + f v) / 2 := by
    have : (fun t => (line u v (f u) (f v)).eval t) = fun t => (f v - f u) / (v - u) * t + (f u - (f v - f u) / (v - u) * u) := by
      funext t; rw [line_eval]; ring
    rw [this, integral_affine]; field_simp; ring
  have e2 : ∫ t in u..v, M / 2 * ((t - u) * (v - t)) = M / 12 * (v - u) ^ 3 := by
    have : (fun t : ℝ => M / 2 * ((t - u) * (v - t))) = fun t => -(M / 2) * t ^ 2 + M / 2 * (u + v) * t + -(M / 2 * u * v) := by funext t; ring
    rw [this, integral_quadratic]; ring
  rwa [e1, e2] at h

theorem sum_cells_le (n : ℕ) (x : ℕ → ℝ) (e : ℕ → ℝ) (C h : ℝ) (hC : 0 ≤ C) (p : ℕ)
    (he : ∀ i < n, |e i| ≤ C * (x (i + 1) - x i) ^ (p + 1)) (h0 : ∀ i < n, 0 ≤ x (i + 1) - x i) (hh : ∀ i < n, x (i + 1) - x i ≤ h) :
    |∑ i ∈ range n, e i| ≤ C * (x n - x 0) * h ^ p := by
  refine (abs_sum_le_sum_abs _ _).trans ?_
  have : ∀ i ∈ range n, |e i| ≤ C * h ^ p * (x (i + 1) - x i) := by
    intro i hi
    have hi' := mem_range.1 hi
    refine (he i hi').trans ?_
    have := pow_le_pow_left₀ (h0 i hi') (hh i hi') p
    have h1 := h0 i hi'
    rw [pow_succ]
    calc C * ((x (i + 1) - x i) ^ p * (x (i + 1) - x i)) ≤ C * (h ^ p * (x (i + 1) - x i)) := by gcongr
      _ = _ := by ring
  refine (sum_le_sum this).trans (le_of_eq ?_)
  rw [← mul_sum, sum_range_sub]; ring

theorem monotone_upto (x : ℕ → ℝ) (n : ℕ) (h : ∀ i < n, x i < x (i + 1)) : ∀ i j, i ≤ j → j ≤ n → x i ≤ x j := by
  intro i j hij hj
  induction j, hij using Nat.le_induction with
  | base => exact le_rfl
  | succ j hij ih => exact (ih (by omega)).trans (h j (by omega)).le

/-- **C95 (trapezoid rule)** On any increasing grid with cells not longer than `h`, periodic or not, the rule applied to the samples of a `C²` function is within
`max|f''| · length · h² / 12` of the integral. (Periodic grid: `n` points, `x n` closes the period and `f` takes the same value at both ends.) -/
theorem c95_trapezoid (periodic : Bool) (x : ℕ → ℝ) (n : ℕ) (hn : if periodic then 1 ≤ n else 2 ≤ n) (mem : ℕ → ℝ)
    (cells : ℕ) (hc : cells = if periodic then n else n - 1) (h : ℝ) (hx : ∀ i < cells, x i < x (i + 1)) (hh : ∀ i < cells, x (i + 1) - x i ≤ h)
    (f : ℝ → ℝ) (hf : ContDiff ℝ 2 f) (hp : periodic = true → f (x n) = f (x 0)) (M : ℝ)
    (hM : ∀ t ∈ Set.Icc (x 0) (x cells), |iteratedDeriv 2 f t| ≤ M) :
    |apply (trapezoid periodic x n mem) n (fun i => f (x i)) - ∫ t in (x 0)..(x cells), f t| ≤ M / 12 * (x cells - x 0) * h ^ 2 := by
  have hmono := monotone_upto x cells hx
  have hM0 : 0 ≤ M := (abs_nonneg _).trans (hM (x 0) ⟨le_rfl, hmono 0 cells (by omega) le_rfl⟩)
  have hsum : apply (trapezoid periodic x n mem) n (fun i => f (x i)) = ∑ i ∈ range cells, (x (i + 1) - x i) * (f (x i) + f (x (i + 1))) / 2 := by
    cases periodic
    · simp only [Bool.false_eq_true, if_false] at hn hc
      obtain ⟨m, rfl⟩ : ∃ m, n = m + 2 := ⟨n - 2, by omega⟩
      rw [trapezoid_nonperiodic_sum, hc]; rfl
    · simp only [if_true] at hn hc
      obtain ⟨m, rfl⟩ : ∃ m, n = m + 1 := ⟨n - 1, by omega⟩
      rw [trapezoid_periodic_sum x m mem _ (hp rfl), hc]
  rw [hsum, ← integral_sum_cells x cells f hf.continuous, ← sum_sub_distrib]
  refine sum_cells_le cells x _ (M / 12) h (by positivity) 2 (fun i hi => ?_) (fun i hi => by linarith [hx i hi]) hh
  exact cell_trapezoid f hf _ _ M (hx i hi) fun t ht => hM t ⟨(hmono 0 i (by omega) (by omega)).trans ht.1, ht.2.trans (hmono _ _ (by omega) le_rfl)⟩

example : ∃ x : ℕ → ℝ, (∀ i < 2, x i < x (i + 1)) ∧ (∀ i < 2, x (i + 1) - x i ≤ 2) ∧
    (∀ t ∈ Set.Icc (x 0) (x 2), |iteratedDeriv 2 (fun t : ℝ => t ^ 2) t| ≤ 2) :=
  ⟨fun i => i ^ 2 / 2, by intro i hi; interval_cases i <;> norm_num, by intro i hi; interval_cases i <;> norm_num, fun t _ => by
    have := iteratedDeriv_poly (X ^ 2) 2
    simp only [eval_pow, eval_X] at this
    rw [this]; norm_num⟩

/-! ### Simpson -/

theorem pair_of_parabola (x f : ℕ → ℝ) (i : ℕ) (h1 : x (2 * i) < x (2 * i + 1)) (h2 : x (2 * i + 1) < x (2 * i + 2)) :
    pairSum x f i = ∫ t in (x (2 * i))..(x (2 * i + 2)), (parabola (x (2 * i)) (x (2 * i + 1)) (x (2 * i + 2)) (f (2 * i)) (f (2 * i + 1)) (f (2 * i + 2))).eval t := by
  obtain ⟨α, hα⟩ : ∃ α, α = ((f (2 * i + 2) - f (2 * i)) / (x (2 * i + 2) - x (2 * i)) - (f (2 * i + 1) - f (2 * i)) / (x (2 * i + 1) - x (2 * i))) / (x (2 * i + 2) - x (2 * i + 1)) := ⟨_, rfl⟩
  obtain ⟨δ, hδ⟩ : ∃ δ, δ = (f (2 * i + 1) - f (2 * i)) / (x (2 * i + 1) - x (2 * i)) := ⟨_, rfl⟩
  have hev : ∀ t, (parabola (x (2 * i)) (x (2 * i + 1)) (x (2 * i + 2)) (f (2 * i)) (f (2 * i + 1)) (f (2 * i + 2))).eval t =
      α * t ^ 2 + (δ - α * (x (2 * i) + x (2 * i + 1))) * t + (f (2 * i) - δ * x (2 * i) + α * x (2 * i) * x (2 * i + 1)) := by
    intro t; rw [parabola_eval, ← hδ]; rw [hδ, ← hα, ← hδ]; ring
  have d1 : x (2 * i + 1) - x (2 * i) ≠ 0 := by linarith
  have d2 : x (2 * i + 2) - x (2 * i + 1) ≠ 0 := by linarith
  have d3 : x (2 * i + 2) - x (2 * i) ≠ 0 := by linarith
  rw [pair_exact x f i h1 h2 _ _ _ ?_ ?_ ?_]
  · exact intervalIntegral.integral_congr fun t _ => (hev t).symm
  · rw [← hev, parabola_eval]; ring
  · rw [← hev, parabola_eval]; field_simp; ring
  · rw [← hev, parabola_eval]; field_simp; ring

/-- One pair of cells of any lengths. -/
theorem pair_error (x : ℕ → ℝ) (f : ℝ → ℝ) (hf : ContDiff ℝ 3 f) (i : ℕ) (h1 : x (2 * i) < x (2 * i + 1)) (h2 : x (2 * i + 1) < x (2 * i + 2))
    (M : ℝ) (hM : ∀ t ∈ Set.Icc (x (2 * i)) (x (2 * i + 2)), |iteratedDeriv 3 f t| ≤ M) :
    |pairSum x (fun j => f (x j)) i - ∫ t in (x (2 * i))..(x (2 * i + 2)), f t| ≤ M / 24 * (x (2 * i + 2) - x (2 * i)) ^ 4 := by
  rw [pair_of_parabola x _ i h1 h2]
  generalize x (2 * i) = u at *
  generalize x (2 * i + 1) = v at *
  generalize x (2 * i + 2) = w at *
  have hM0 : 0 ≤ M := (abs_nonneg _).trans (hM u ⟨le_rfl, by linarith⟩)
  refine (integral_error f _ (fun _ => M / 24 * (w - u) ^ 3) hf.continuous (contDiff_poly _ 0).continuous (by fun_prop) u w (by linarith) (fun t ht => ?_)).trans (le_of_eq ?_)
  · refine (parabola_error f hf u v w M h1 h2 hM t ht).trans ?_
    have a1 : |(t - u) * ((t - v) * (t - w))| = (t - u) * (w - t) * |t - v| := by
      rw [abs_mul, abs_mul, abs_of_nonneg (by linarith [ht.1] : 0 ≤ t - u), abs_of_nonpos (by linarith [ht.2] : t - w ≤ 0)]; ring
    have a2 : |t - v| ≤ w - u := by rw [abs_le]; constructor <;> linarith [ht.1, ht.2]
    have a3 : (t - u) * (w - t) ≤ (w - u) ^ 2 / 4 := by nlinarith [sq_nonneg ((t - u) - (w - t))]
    have a4 : 0 ≤ (t - u) * (w - t) := mul_nonneg (by linarith [ht.1]) (by linarith [ht.2])
    rw [a1]
    calc M / 6 * ((t - u) * (w - t) * |t - v|) ≤ M / 6 * ((w - u) ^ 2 / 4 * (w - u)) := by gcongr
      _ = _ := by ring
  · rw [intervalIntegral.integral_const, smul_eq_mul]; ring

/-- One pair of equal cells. -/
theorem pair_error_equal (x : ℕ → ℝ) (f : ℝ → ℝ) (hf : ContDiff ℝ 4 f) (i : ℕ) (h1 : x (2 * i) < x (2 * i + 1))
    (heq : x (2 * i + 1) - x (2 * i) = x (2 * i + 2) - x (2 * i + 1))
    (M : ℝ) (hM : ∀ t ∈ Set.Icc (x (2 * i)) (x (2 * i + 2)), |iteratedDeriv 4 f t| ≤ M) :
    |pairSum x (fun j => f (x j)) i - ∫ t in (x (2 * i))..(x (2 * i + 2)), f t| ≤ M / 2880 * (x (2 * i + 2) - x (2 * i)) ^ 5 := by
  have h2 : x (2 * i + 1) < x (2 * i + 2) := by linarith
  rw [pair_of_parabola x _ i h1 h2]
  generalize x (2 * i) = u at *
  generalize x (2 * i + 1) = v at *
  generalize x (2 * i + 2) = w at *
  have hM0 : 0 ≤ M := (abs_nonneg _).trans (hM u ⟨le_rfl, by linarith⟩)
  have d1 : v - u ≠ 0 := by linarith
  have d2 : w - v ≠ 0 := by linarith
  have d3 : w - u ≠ 0 := by linarith
  obtain ⟨P, hP⟩ : ∃ P, P = parabola u v w (f u) (f v) (f w) := ⟨_, rfl⟩
  rw [← hP]
  have Pu : P.eval u = f u := by rw [hP, parabola_eval]; ring
  have Pv : P.eval v = f v := by rw [hP, parabola_eval]; field_simp; ring
  have Pw : P.eval w = f w := by rw [hP, parabola_eval]; field_simp; ring
  obtain ⟨κ, hκ⟩ : ∃ κ, κ = (deriv f v - (derivative P).eval v) / ((v - u) * (v - w)) := ⟨_, rfl⟩
  obtain ⟨Q, hQ⟩ : ∃ Q : ℝ[X], Q = P + C κ * ((X - C u) * (X - C v) * (X - C w)) := ⟨_, rfl⟩
  have Qe : ∀ t, Q.eval t = P.eval t + κ * ((t - u) * (t - v) * (t - w)) := fun t => by rw [hQ]; simp
  have hvw : v - w ≠ 0 := by linarith
  have Qd : (derivative Q).eval v = deriv f v := by
    rw [hQ]
    simp only [derivative_add, derivative_mul, derivative_C, derivative_X_sub_C, eval_add, eval_mul, eval_C, eval_sub, eval_X, zero_mul, zero_add, mul_one, one_mul, sub_self, mul_zero, add_zero]
    rw [hκ]; field_simp; ring
  have Qhigh : derivative^[4] Q = 0 := by
    refine iterate_derivative_eq_zero (lt_of_le_of_lt (b := 3) ?_ (by norm_num))
    rw [hQ, hP]; unfold parabola line; compute_degree
  have hQi : ∫ t in u..w, P.eval t = ∫ t in u..w, Q.eval t := by
    simp only [Qe]
    rw [intervalIntegral.integral_add ((contDiff_poly P 0).continuous.intervalIntegrable _ _) (Continuous.intervalIntegrable (by fun_prop) _ _)]
    have hv : v = (u + w) / 2 := by linarith
    have : (fun t : ℝ => κ * ((t - u) * (t - v) * (t - w))) =
        fun t => κ * t ^ 3 + -κ * (u + v + w) * t ^ 2 + κ * (u * v + u * w + v * w) * t + -κ * u * v * w := by funext t; ring
    rw [this, integral_cubic, hv]; ring
  rw [hQi]
  refine (integral_error f _ (fun t => M / 24 * ((t - u) * (t - v) ^ 2 * (w - t))) hf.continuous (contDiff_poly _ 0).continuous (by fun_prop) u w (by linarith) (fun t ht => ?_)).trans (le_of_eq ?_)
  · have hdf : Differentiable ℝ f := hf.differentiable (by norm_num)
    obtain ⟨ξ, hξ, e⟩ := hermite_formula (fun y => f y - Q.eval y) (sub_contDiff f 4 hf Q) u v w h1 h2 (by rw [Qe, Pu]; ring) (by rw [Qe, Pv]; ring) (by rw [Qe, Pw]; ring)
      (by rw [((hdf v).hasDerivAt.fun_sub (Polynomial.hasDerivAt Q v)).deriv, Qd, sub_self]) t ht
    have e' := iteratedDeriv_sub_poly f 4 hf Q ξ
    rw [e', Qhigh, eval_zero, sub_zero] at e
    refine (abs_le_of_formula (hM ξ hξ) (by norm_num) e).trans (le_of_eq ?_)
    rw [abs_mul, abs_mul, abs_of_nonneg (by linarith [ht.1] : 0 ≤ t - u), abs_of_nonneg (sq_nonneg _), abs_of_nonpos (by linarith [ht.2] : t - w ≤ 0)]; ring
  · have hv : v = (u + w) / 2 := by linarith
    have : ∀ t : ℝ, HasDerivAt (fun t : ℝ => M / 24 * ((w - u) ^ 2 / 4 * (t - v) ^ 3 / 3 - (t - v) ^ 5 / 5)) (M / 24 * ((t - u) * (t - v) ^ 2 * (w - t))) t := by
      intro t
      have hb := (hasDerivAt_id t).sub_const v
      have := (((hb.pow 3).const_mul ((w - u) ^ 2 / 4)).div_const 3 |>.sub ((hb.pow 5).div_const 5)).const_mul (M / 24)
      refine this.congr_deriv ?_
      simp only [id]
      rw [hv]; push_cast; ring
    rw [intervalIntegral.integral_eq_sub_of_hasDerivAt (fun t _ => this t) (Continuous.intervalIntegrable (by fun_prop) _ _), hv]
    ring

/-- **C95 (Simpson rule, any grid)** For every accepted number of points and every increasing grid with pairs of cells not longer than `2h`, the rule applied to the samples of a `C³` function
is within `max|f'''| · length · (2h)³ / 24` of the integral. -/
theorem c95_simpson (periodic : Bool) (x : ℕ → ℝ) (n : ℕ) (hn : SimpsonSize periodic n) (mem : ℕ → ℝ)
    (hx : ∀ i, i < 2 * (n / 2) → x i < x (i + 1)) (h : ℝ) (hh : ∀ i < n / 2, x (2 * i + 2) - x (2 * i) ≤ 2 * h)
    (f : ℝ → ℝ) (hf : ContDiff ℝ 3 f) (hp : periodic = true → f (x n) = f (x 0)) (M : ℝ)
    (hM : ∀ t ∈ Set.Icc (x 0) (x (2 * (n / 2))), |iteratedDeriv 3 f t| ≤ M) :
    ∃ coef, fillSimpson periodic x n mem = .ok coef ∧
      |apply coef n (fun i => f (x i)) - ∫ t in (x 0)..(x (2 * (n / 2))), f t| ≤ M / 3 * (x (2 * (n / 2)) - x 0) * h ^ 3 := by
  obtain ⟨a, h1, h2⟩ := fillSimpson_ok periodic x n hn mem
  refine ⟨a, h1, ?_⟩
  have hmono := monotone_upto x _ hx
  have hM0 : 0 ≤ M := (abs_nonneg _).trans (hM (x 0) ⟨le_rfl, hmono 0 _ (by omega) le_rfl⟩)
  have hint := integral_sum_cells (fun i => x (2 * i)) (n / 2) f hf.continuous
  simp only [mul_zero] at hint
  rw [h2 _ hp, ← hint, ← sum_sub_distrib]
  refine (sum_cells_le (n / 2) (fun i => x (2 * i)) _ (M / 24) (2 * h) (by positivity) 3 (fun i hi => ?_)
    (fun i hi => by have := hmono (2 * i) (2 * (i + 1)) (by omega) (by omega); linarith) (fun i hi => hh i hi)).trans (le_of_eq ?_)
  · exact pair_error x f hf i (hx _ (by omega)) (hx _ (by omega)) M fun t ht =>
      hM t ⟨(hmono 0 (2 * i) (by omega) (by omega)).trans ht.1, ht.2.trans (hmono _ _ (by omega) le_rfl)⟩
  · simp only [mul_zero]; ring

/-- **C95 (Simpson rule, pairs of equal cells)** When the two cells of each pair have the same length, at most `h`, the error for a `C⁴` function is at most
`max|f''''| · length · h⁴ / 180`. -/
theorem c95_simpson_uniform (periodic : Bool) (x : ℕ → ℝ) (n : ℕ) (hn : SimpsonSize periodic n) (mem : ℕ → ℝ)
    (hx : ∀ i, i < 2 * (n / 2) → x i < x (i + 1)) (heq : ∀ i, i < n / 2 → x (2 * i + 1) - x (2 * i) = x (2 * i + 2) - x (2 * i + 1))
    (h : ℝ) (hh : ∀ i < n / 2, x (2 * i + 2) - x (2 * i) ≤ 2 * h)
    (f : ℝ → ℝ) (hf : ContDiff ℝ 4 f) (hp : periodic = true → f (x n) = f (x 0)) (M : ℝ)
    (hM : ∀ t ∈ Set.Icc (x 0) (x (2 * (n / 2))), |iteratedDeriv 4 f t| ≤ M) :
    ∃ coef, fillSimpson periodic x n mem = .ok coef ∧
      |apply coef n (fun i => f (x i)) - ∫ t in (x 0)..(x (2 * (n / 2))), f t| ≤ M / 180 * (x (2 * (n / 2)) - x 0) * h ^ 4 := by
  obtain ⟨a, h1, h2⟩ := fillSimpson_ok periodic x n hn mem
  refine ⟨a, h1, ?_⟩
  have hmono := monotone_upto x _ hx
  have hM0 : 0 ≤ M := (abs_nonneg _).trans (hM (x 0) ⟨le_rfl, hmono 0 _ (by omega) le_rfl⟩)
  have hint := integral_sum_cells (fun i => x (2 * i)) (n / 2) f hf.continuous
  simp only [mul_zero] at hint
  rw [h2 _ hp, ← hint, ← sum_sub_distrib]
  refine (sum_cells_le (n / 2) (fun i => x (2 * i)) _ (M / 2880) (2 * h) (by positivity) 4 (fun i hi => ?_)
    (fun i hi => by have := hmono (2 * i) (2 * (i + 1)) (by omega) (by omega); linarith) (fun i hi => hh i hi)).trans (le_of_eq ?_)
  · exact pair_error_equal x f hf i (hx _ (by omega)) (heq i hi) M fun t ht =>
      hM t ⟨(hmono 0 (2 * i) (by omega) (by omega)).trans ht.1, ht.2.trans (hmono _ _ (by omega) le_rfl)⟩
  · simp only [mul_zero]; ring

example : SimpsonSize false 5 ∧ (∀ i, i < 2 * (5 / 2) → ((i : ℕ) : ℝ) < ((i + 1 : ℕ) : ℝ)) ∧
    (∀ i, i < 5 / 2 → ((2 * i + 1 : ℕ) : ℝ) - ((2 * i : ℕ) : ℝ) = ((2 * i + 2 : ℕ) : ℝ) - ((2 * i + 1 : ℕ) : ℝ)) := by
  refine ⟨by simp [SimpsonSize], fun i _ => by exact_mod_cast Nat.lt_succ_self i, fun i _ => by push_cast; ring⟩

/-! ### Finite differences -/

/-- **C95 (finite differences)** On any increasing grid of at least three points with cells not longer than `h`, the derivative of the samples of a `C³` function is second order accurate at every
point: within `max|f'''| h² / 6` at the interior points and `max|f'''| h² / 3` at the two ends. -/
theorem c95_fdm {n : ℕ} (hn : 3 ≤ n) {x : ℕ → ℝ} (hx : ∀ i, i + 1 < n → x i < x (i + 1)) (h : ℝ) (hh : ∀ i, i + 1 < n → x (i + 1) - x i ≤ h)
    (f : ℝ → ℝ) (hf : ContDiff ℝ 3 f) (M : ℝ) (hM : ∀ t ∈ Set.Icc (x 0) (x (n - 1)), |iteratedDeriv 3 f t| ≤ M) {i : ℕ} (hi : i < n) :
    |Fdm.deriv n x (fun j => f (x j)) i - deriv f (x i)| ≤ (if i = 0 ∨ i = n - 1 then M / 3 else M / 6) * h ^ 2 := by
  have hmono := monotone_upto x (n - 1) (fun i hi => hx i (by omega))
  have hM0 : 0 ≤ M := (abs_nonneg _).trans (hM (x 0) ⟨le_rfl, hmono 0 _ (by omega) le_rfl⟩)
  have hcell : ∀ j, j + 2 < n → 0 ≤ x (j + 1) - x j ∧ x (j + 1) - x j ≤ h ∧ 0 ≤ x (j + 2) - x (j + 1) ∧ x (j + 2) - x (j + 1) ≤ h :=
    fun j hj => ⟨by linarith [hx j (by omega)], hh j (by omega), by linarith [hx (j + 1) (by omega)], hh (j + 1) (by omega)⟩
  have herr : ∀ j, j + 2 < n → _ := fun j hj => parabola_deriv_error f hf (x j) (x (j + 1)) (x (j + 2)) M (hx j (by omega)) (hx (j + 1) (by omega))
    (fun t ht => hM t ⟨(hmono 0 j (by omega) (by omega)).trans ht.1, ht.2.trans (hmono _ _ (by omega) le_rfl)⟩)
  unfold Fdm.deriv
  by_cases h0 : i = 0
  · rw [if_pos h0, if_pos (Or.inl h0), h0]
    obtain ⟨e, -, -⟩ := herr 0 (by omega)
    obtain ⟨c1, c2, c3, c4⟩ := hcell 0 (by omega)
    simp only [zero_add] at e c1 c2 c3 c4
    have k1 : x 1 - x 0 ≠ 0 := by have := hx 0 (by omega); simp only [zero_add] at this; linarith
    have k2 : x 2 - x 1 ≠ 0 := by have := hx 1 (by omega); norm_num at this; linarith
    have k3 : x 2 - x 0 ≠ 0 := by
      have := hx 0 (by omega); have := hx 1 (by omega); norm_num at *; intro h; linarith
    have hval : Fdm.front x (fun j => f (x j)) = (derivative (parabola (x 0) (x 1) (x 2) (f (x 0)) (f (x 1)) (f (x 2)))).eval (x 0) := by
      rw [parabola_deriv]
      simp only [Fdm.front]
      rw [show x 1 - x 0 + (x 2 - x 1) = x 2 - x 0 by ring]
      field_simp; ring
    rw [hval, abs_sub_comm]
    refine e.trans ?_
    have : (x 1 - x 0) * (x 2 - x 0) ≤ h * (2 * h) := by
      apply mul_le_mul c2 (by linarith) (by linarith) (by linarith)
    calc M / 6 * ((x 1 - x 0) * (x 2 - x 0)) ≤ M / 6 * (h * (2 * h)) := by gcongr
      _ = _ := by ring
  · rw [if_neg h0]
    by_cases h1 : i = n - 1
    · rw [if_pos h1, if_pos (Or.inr h1), h1]
      obtain ⟨m, rfl⟩ : ∃ m, n = m + 3 := ⟨n - 3, by omega⟩
      obtain ⟨-, -, e⟩ := herr m (by omega)
      obtain ⟨c1, c2, c3, c4⟩ := hcell m (by omega)
      have k1 : x (m + 1) - x m ≠ 0 := by have := hx m (by omega); linarith
      have k2 : x (m + 2) - x (m + 1) ≠ 0 := by have := hx (m + 1) (by omega); linarith
      have k3 : x (m + 2) - x m ≠ 0 := by
        have := hx m (by omega); have := hx (m + 1) (by omega); intro h; linarith
      have hval : Fdm.back (m + 3) x (fun j => f (x j)) = (derivative (parabola (x m) (x (m + 1)) (x (m + 2)) (f (x m)) (f (x (m + 1))) (f (x (m + 2))))).eval (x (m + 2)) := by
        rw [parabola_deriv]
        simp only [Fdm.back, show m + 3 - 1 = m + 2 by omega, show m + 3 - 2 = m + 1 by omega, show m + 3 - 3 = m by omega]
        rw [show x (m + 2) - x (m + 1) + (x (m + 1) - x m) = x (m + 2) - x m by ring]
        field_simp; ring
      rw [hval, abs_sub_comm]
      refine e.trans ?_
      have : (x (m + 2) - x m) * (x (m + 2) - x (m + 1)) ≤ (2 * h) * h := by
        apply mul_le_mul (by linarith) c4 (by linarith) (by linarith)
      calc M / 6 * ((x (m + 2) - x m) * (x (m + 2) - x (m + 1))) ≤ M / 6 * ((2 * h) * h) := by gcongr
        _ = _ := by ring
    · rw [if_neg h1, if_neg (by rintro (h | h); exacts [h0 h, h1 h])]
      obtain ⟨m, rfl⟩ : ∃ m, i = m + 1 := ⟨i - 1, by omega⟩
      obtain ⟨-, e, -⟩ := herr m (by omega)
      obtain ⟨c1, c2, c3, c4⟩ := hcell m (by omega)
      have k1 : x (m + 1) - x m ≠ 0 := by have := hx m (by omega); linarith
      have k2 : x (m + 2) - x (m + 1) ≠ 0 := by have := hx (m + 1) (by omega); linarith
      have k3 : x (m + 2) - x m ≠ 0 := by
        have := hx m (by omega); have := hx (m + 1) (by omega); intro h; linarith
      have hval : Fdm.interior x (fun j => f (x j)) (m + 1) = (derivative (parabola (x m) (x (m + 1)) (x (m + 2)) (f (x m)) (f (x (m + 1))) (f (x (m + 2))))).eval (x (m + 1)) := by
        rw [parabola_deriv]
        simp only [Fdm.interior, Fdm.centred, show m + 1 - 1 = m by omega, show m + 1 + 1 = m + 2 by omega]
        rw [show x (m + 1) - x m + (x (m + 2) - x (m + 1)) = x (m + 2) - x m by ring]
        field_simp; ring
      rw [hval, abs_sub_comm]
      refine e.trans ?_
      have : (x (m + 1) - x m) * (x (m + 2) - x (m + 1)) ≤ h * h := mul_le_mul c2 c4 c3 (by linarith)
      calc M / 6 * ((x (m + 1) - x m) * (x (m + 2) - x (m + 1))) ≤ M / 6 * (h * h) := by gcongr
        _ = _ := by ring

theorem centred_error (f : ℝ → ℝ) (hf : ContDiff ℝ 3 f) (u v w h M : ℝ) (huv : u < v) (hvw : v < w) (h1 : v - u ≤ h) (h2 : w - v ≤ h) (hM : ∀ t, |iteratedDeriv 3 f t| ≤ M) :
    |Fdm.centred (f u) (f v) (f w) (v - u) (w - v) - deriv f v| ≤ M / 6 * h ^ 2 := by
  have hM0 : 0 ≤ M := (abs_nonneg _).trans (hM 0)
  obtain ⟨-, e, -⟩ := parabola_deriv_error f hf u v w M huv hvw fun t _ => hM t
  have k1 : v - u ≠ 0 := by linarith
  have k2 : w - v ≠ 0 := by linarith
  have k3 : w - u ≠ 0 := by linarith
  have hval : Fdm.centred (f u) (f v) (f w) (v - u) (w - v) = (derivative (parabola u v w (f u) (f v) (f w))).eval v := by
    rw [parabola_deriv]
    simp only [Fdm.centred]
    rw [show v - u + (w - v) = w - u by ring]
    field_simp; ring
  rw [hval, abs_sub_comm]
  refine e.trans ?_
  have : (v - u) * (w - v) ≤ h * h := mul_le_mul h1 h2 (by linarith) (by linarith)
  calc M / 6 * ((v - u) * (w - v)) ≤ M / 6 * (h * h) := by gcongr
    _ = _ := by ring

/-- **C95 (finite differences, periodic dimension)** On any increasing grid of `n ≥ 2` points of a period of length `len`, whose cells (the closing one included) are not longer than `h`, the
derivative of the samples of a periodic `C³` function is within `max|f'''| h² / 6` at every point. -/
theorem c95_fdm_periodic {n : ℕ} (hn : 2 ≤ n) {x : ℕ → ℝ} (hx : ∀ i, i + 1 < n → x i < x (i + 1)) (len h : ℝ) (hlen : x (n - 1) < x 0 + len)
    (hh : ∀ i, i + 1 < n → x (i + 1) - x i ≤ h) (hclose : x 0 + len - x (n - 1) ≤ h)
    (f : ℝ → ℝ) (hf : ContDiff ℝ 3 f) (hp : ∀ t, f (t + len) = f t) (M : ℝ) (hM : ∀ t, |iteratedDeriv 3 f t| ≤ M) {i : ℕ} (hi : i < n) :
    |Fdm.derivPeriodic n len x (fun j => f (x j)) i - deriv f (x i)| ≤ M / 6 * h ^ 2 := by
  unfold Fdm.derivPeriodic
  have hback : f (x (n - 1) - len) = f (x (n - 1)) := by rw [← hp, sub_add_cancel]
  have hclosing : f (x 0) = f (x 0 + len) := (hp _).symm
  by_cases h0 : i = 0
  · simp only [h0, if_true]
    have c := centred_error f hf (x (n - 1) - len) (x 0) (x 1) h M (by linarith) (by have := hx 0 (by omega); simpa using this) (by linarith)
      (by have := hh 0 (by omega); simpa using this) hM
    rw [hback, show x 0 - (x (n - 1) - len) = x 0 - x (n - 1) + len by ring] at c
    exact c
  · by_cases h1 : i = n - 1
    · simp only [h1, if_true]
      rw [if_neg (by omega)]
      have e : n - 2 + 1 = n - 1 := by omega
      have c := centred_error f hf (x (n - 2)) (x (n - 1)) (x 0 + len) h M (by have := hx (n - 2) (by omega); rwa [e] at this) hlen
        (by have := hh (n - 2) (by omega); rwa [e] at this) hclose hM
      rw [← hclosing, show x 0 + len - x (n - 1) = x 0 - x (n - 1) + len by ring] at c
      exact c
    · simp only [h0, h1, if_false]
      obtain ⟨m, rfl⟩ : ∃ m, i = m + 1 := ⟨i - 1, by omega⟩
      exact centred_error f hf (x m) (x (m + 1)) (x (m + 2)) h M (hx m (by omega)) (hx (m + 1) (by omega)) (hh m (by omega)) (hh (m + 1) (by omega)) hM

example : ∃ x : ℕ → ℝ, (∀ i, i + 1 < 3 → x i < x (i + 1)) ∧ x (3 - 1) < x 0 + 4 ∧ (∀ i, i + 1 < 3 → x (i + 1) - x i ≤ 2) ∧ x 0 + 4 - x (3 - 1) ≤ 2 :=
  ⟨fun i => i, by intro i hi; push_cast; linarith, by norm_num, by intro i hi; push_cast; linarith, by norm_num⟩

end Verif.AccuracyQuad
