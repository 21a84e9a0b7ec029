import Mathlib.Analysis.Calculus.Deriv.MeanValue
import Mathlib.Analysis.SpecialFunctions.Trigonometric.Deriv
import Mathlib.Analysis.SpecialFunctions.Trigonometric.Inverse
import Mathlib.Analysis.SpecialFunctions.Complex.CircleAddChar
import Mathlib.Analysis.Fourier.ZMod
import Mathlib.LinearAlgebra.Lagrange
import Mathlib.Tactic.FieldSimp
import Mathlib.Tactic.LinearCombination
import Mathlib.Tactic.Positivity
import Mathlib.Tactic.ComputeDegree

/-! # C99, first part: the Fourier symbol of centred Lagrange interpolation on a uniform grid is at most one in modulus, for every degree

The interpolation polynomial of `exp(iθx)` at nodes symmetric with respect to 0 is `c + iσ` with `c`, `σ` truncated hypergeometric series in `sin²(θ/2)`. As functions of `φ = θ/2` they solve
the equations of the exact cosine and sine, up to one term of known sign, so that `c² + σ²` decreases from its value 1 at `φ = 0`. -/

namespace Verif.Strang

open Finset Real

/-! ## Odd degree `2d+1`: nodes `±1/2, ±3/2, ..., ±(d+1/2)` -/

/-- Coefficients of the series of `cos(2sφ) / cos φ` in powers of `sin² φ`. -/
noncomputable def ca (s : ℝ) : ℕ → ℝ
  | 0 => 1
  | k + 1 => ca s k * (((k : ℝ) + 1 / 2) ^ 2 - s ^ 2) / (((k : ℝ) + 1 / 2) * (k + 1))

noncomputable def oddC (d : ℕ) (s φ : ℝ) : ℝ := ∑ k ∈ range (d + 1), ca s k * (cos φ * sin φ ^ (2 * k))

noncomputable def oddS (d : ℕ) (s φ : ℝ) : ℝ := ∑ k ∈ range (d + 1), 2 * s * (ca s k / (2 * k + 1)) * sin φ ^ (2 * k + 1)

noncomputable def oddR (d : ℕ) (s φ : ℝ) : ℝ := ((2 * d + 1) ^ 2 - 4 * s ^ 2) * (ca s d / (2 * d + 1)) * sin φ ^ (2 * d + 1)

theorem oddS_deriv (d : ℕ) (s φ : ℝ) : HasDerivAt (oddS d s) (2 * s * oddC d s φ) φ := by
  unfold oddS oddC
  rw [mul_sum]
  refine HasDerivAt.fun_sum fun k _ => ?_
  have h := ((hasDerivAt_sin φ).pow (2 * k + 1)).const_mul (2 * s * (ca s k / (2 * k + 1)))
  refine h.congr_deriv ?_
  have : (2 * (k : ℝ) + 1) ≠ 0 := by positivity
  simp only [Nat.add_sub_cancel]
  push_cast
  field_simp

theorem oddC_deriv (d : ℕ) (s φ : ℝ) : HasDerivAt (oddC d s) (-2 * s * oddS d s φ - oddR d s φ) φ := by
  induction d with
  | zero =>
    have h : oddC 0 s = cos := by funext φ; simp [oddC, ca]
    rw [h]
    refine (hasDerivAt_cos φ).congr_deriv ?_
    simp [oddS, oddR, ca]
    ring
  | succ d ih =>
    have h : oddC (d + 1) s = fun φ => oddC d s φ + ca s (d + 1) * (cos φ * sin φ ^ (2 * (d + 1))) := by
      funext φ; rw [oddC, sum_range_succ]; rfl
    have hS : oddS (d + 1) s φ = oddS d s φ + 2 * s * (ca s (d + 1) / (2 * (d + 1 : ℕ) + 1)) * sin φ ^ (2 * (d + 1) + 1) := by
      rw [oddS, sum_range_succ]; rfl
    rw [h]
    have h2 := ((hasDerivAt_cos φ).mul ((hasDerivAt_sin φ).pow (2 * (d + 1)))).const_mul (ca s (d + 1))
    refine (ih.add h2).congr_deriv ?_
    rw [hS]
    unfold oddR
    have hd : (2 * (d : ℝ) + 1) ≠ 0 := by positivity
    have hd2 : (2 * (d : ℝ) + 3) ≠ 0 := by positivity
    have hrec : ca s (d + 1) * (2 * d + 2) * (2 * d + 1) = ca s d * ((2 * d + 1) ^ 2 - 4 * s ^ 2) := by
      rw [ca]; field_simp; ring
    have hcos : cos φ ^ 2 = 1 - sin φ ^ 2 := by linarith [sin_sq_add_cos_sq φ]
    have e1 : 2 * (d + 1) - 1 = 2 * d + 1 := by omega
    simp only [e1, Pi.pow_apply]
    push_cast
    rw [show 2 * ((d : ℝ) + 1) + 1 = 2 * d + 3 by ring]
    have p2 : sin φ ^ (2 * (d + 1)) = sin φ ^ (2 * d + 1) * sin φ := by ring
    have p3 : sin φ ^ (2 * (d + 1) + 1) = sin φ ^ (2 * d + 1) * sin φ ^ 2 := by ring
    rw [p2, p3]
    generalize sin φ ^ (2 * d + 1) = Z at *
    generalize ca s (d + 1) = A at *
    have hrec' : ((2 * (d : ℝ) + 1) ^ 2 - 4 * s ^ 2) * (ca s d / (2 * d + 1)) = A * (2 * d + 2) := by
      field_simp; linarith
    rw [hrec']
    have hA : s * (A / (2 * (d : ℝ) + 3)) * s = A / (2 * (d : ℝ) + 3) * s ^ 2 := by ring
    have hB : ((2 * (d : ℝ) + 3) ^ 2 - 4 * s ^ 2) * (A / (2 * d + 3)) = A * (2 * d + 3) - 4 * (A / (2 * (d : ℝ) + 3) * s ^ 2) := by
      field_simp
    rw [hB]
    linear_combination (A * Z * (2 * d + 2)) * hcos

theorem ca_nonneg (s : ℝ) (hs : s ^ 2 ≤ 1 / 4) : ∀ k, 0 ≤ ca s k
  | 0 => by simp [ca]
  | k + 1 => by
    rw [ca]
    have := ca_nonneg s hs k
    have h2 : 0 ≤ ((k : ℝ) + 1 / 2) ^ 2 - s ^ 2 := by nlinarith [(Nat.cast_nonneg k : (0 : ℝ) ≤ k)]
    positivity

/-- A function with nonpositive derivative on an interval is at most its first value. -/
theorem le_of_deriv {f f' : ℝ → ℝ} {b : ℝ} (hf : ∀ x, HasDerivAt f (f' x) x) (h : ∀ x ∈ Set.Ioo 0 b, f' x ≤ 0) (hb : 0 ≤ b) : f b ≤ f 0 := by
  have : AntitoneOn f (Set.Icc 0 b) := by
    refine antitoneOn_of_deriv_nonpos (convex_Icc 0 b) (fun x _ => (hf x).continuousAt.continuousWithinAt) (fun x _ => (hf x).differentiableAt.differentiableWithinAt) fun x hx => ?_
    rw [interior_Icc] at hx
    rw [(hf x).deriv]
    exact h x hx
  exact this ⟨le_rfl, hb⟩ ⟨hb, le_rfl⟩ hb

theorem odd_bound_aux (d : ℕ) (s φ : ℝ) (hs : s ^ 2 ≤ 1 / 4) (h0 : 0 ≤ φ) (h1 : φ ≤ π / 2) : oddC d s φ ^ 2 + oddS d s φ ^ 2 ≤ 1 := by
  have hd : ∀ x, HasDerivAt (fun x => oddC d s x ^ 2 + oddS d s x ^ 2) (-2 * oddC d s x * oddR d s x) x := by
    intro x
    refine (((oddC_deriv d s x).pow 2).add ((oddS_deriv d s x).pow 2)).congr_deriv ?_
    simp only [Nat.cast_ofNat, Nat.add_one_sub_one, pow_one]
    ring
  have h := le_of_deriv hd (fun x hx => ?_) h0
  · refine h.trans (le_of_eq ?_)
    simp [oddC, oddS, sum_range_succ', ca]
  · have hc : 0 ≤ cos x := cos_nonneg_of_mem_Icc ⟨by linarith [hx.1, pi_pos], by linarith [hx.2]⟩
    have hsn : 0 ≤ sin x := sin_nonneg_of_mem_Icc ⟨hx.1.le, by linarith [hx.2, pi_pos]⟩
    have hC : 0 ≤ oddC d s x := sum_nonneg fun k _ => mul_nonneg (ca_nonneg s hs k) (mul_nonneg hc (pow_nonneg hsn _))
    have hR : 0 ≤ oddR d s x := by
      unfold oddR
      refine mul_nonneg (mul_nonneg ?_ (div_nonneg (ca_nonneg s hs d) (by positivity))) (pow_nonneg hsn _)
      nlinarith [(Nat.cast_nonneg d : (0 : ℝ) ≤ d)]
    nlinarith [mul_nonneg hC hR]

/-- The angle in `[0, π/2]` with the same absolute sine and cosine. -/
theorem fold_angle (φ : ℝ) : ∃ ψ, 0 ≤ ψ ∧ ψ ≤ π / 2 ∧ sin ψ = |sin φ| ∧ cos ψ = |cos φ| := by
  have h1 : |sin φ| ≤ 1 := abs_sin_le_one φ
  have h0 : 0 ≤ |sin φ| := abs_nonneg _
  refine ⟨arcsin |sin φ|, arcsin_nonneg.2 h0, arcsin_le_pi_div_two _, sin_arcsin (by linarith) h1, ?_⟩
  rw [cos_arcsin, sq_abs, ← sqrt_sq_eq_abs]
  congr 1
  linarith [sin_sq_add_cos_sq φ]

/-- **Strang's theorem**, odd degrees: in the middle cell the symbol is at most one. -/
theorem odd_bound (d : ℕ) (s φ : ℝ) (hs : s ^ 2 ≤ 1 / 4) : oddC d s φ ^ 2 + oddS d s φ ^ 2 ≤ 1 := by
  obtain ⟨ψ, h0, h1, hsin, hcos⟩ := fold_angle φ
  refine le_trans (le_of_eq ?_) (odd_bound_aux d s ψ hs h0 h1)
  have eC : ∀ x, oddC d s x = cos x * ∑ k ∈ range (d + 1), ca s k * (sin x ^ 2) ^ k := by
    intro x; rw [oddC, mul_sum]; exact sum_congr rfl fun k _ => by rw [pow_mul]; ring
  have eS : ∀ x, oddS d s x = sin x * ∑ k ∈ range (d + 1), 2 * s * (ca s k / (2 * k + 1)) * (sin x ^ 2) ^ k := by
    intro x; rw [oddS, mul_sum]; exact sum_congr rfl fun k _ => by rw [pow_succ, pow_mul]; ring
  rw [eC, eS, eC, eS, hsin, hcos, mul_pow, mul_pow, mul_pow, mul_pow, sq_abs, sq_abs]

/-- At the nodes there is no defect. -/
theorem odd_node (d m : ℕ) (hm : m ≤ d) : ∀ φ, oddR d ((m : ℝ) + 1 / 2) φ = 0 ∧ oddR d (-((m : ℝ) + 1 / 2)) φ = 0 := by
  have hz : ∀ s : ℝ, s ^ 2 = ((m : ℝ) + 1 / 2) ^ 2 → ∀ k, m < k → ca s k = 0 := by
    intro s hs k hk
    induction k with
    | zero => omega
    | succ k ih =>
      rw [ca]
      rcases Nat.lt_or_ge m k with h | h
      · rw [ih h]; simp
      · have : k = m := by omega
        rw [this, hs, sub_self, mul_zero, zero_div]
  have key : ∀ s : ℝ, s ^ 2 = ((m : ℝ) + 1 / 2) ^ 2 → ∀ φ, oddR d s φ = 0 := by
    intro s hs φ
    unfold oddR
    rcases Nat.lt_or_ge m d with h | h
    · rw [hz s hs d h]; simp
    · have : d = m := by omega
      rw [this, hs]; ring
  exact fun φ => ⟨key _ rfl φ, key _ (by ring) φ⟩

/-- Without defect the two functions are the cosine and the sine. -/
theorem harmonic {c σ : ℝ → ℝ} {w : ℝ} (hc : ∀ x, HasDerivAt c (-w * σ x) x) (hσ : ∀ x, HasDerivAt σ (w * c x) x) (hc0 : c 0 = 1) (hσ0 : σ 0 = 0) (x : ℝ) : c x = cos (w * x) ∧ σ x = sin (w * x) := by
  have hd : ∀ x, HasDerivAt (fun x => (c x - cos (w * x)) ^ 2 + (σ x - sin (w * x)) ^ 2) 0 x := by
    intro x
    have h1 : HasDerivAt (fun x => cos (w * x)) (-sin (w * x) * w) x := by
      have := (hasDerivAt_cos (w * x)).comp x ((hasDerivAt_id x).const_mul w)
      simpa [Function.comp_def] using this
    have h2 : HasDerivAt (fun x => sin (w * x)) (cos (w * x) * w) x := by
      have := (hasDerivAt_sin (w * x)).comp x ((hasDerivAt_id x).const_mul w)
      simpa [Function.comp_def] using this
    refine ((((hc x).sub h1).pow 2).add (((hσ x).sub h2).pow 2)).congr_deriv ?_
    simp only [Nat.cast_ofNat, Nat.add_one_sub_one, pow_one, Pi.sub_apply]
    ring
  have h := is_const_of_deriv_eq_zero (fun x => (hd x).differentiableAt) (fun x => (hd x).deriv) x 0
  simp only [hc0, hσ0, mul_zero, cos_zero, sin_zero, sub_self] at h
  have a : (c x - cos (w * x)) ^ 2 = 0 := by nlinarith [sq_nonneg (c x - cos (w * x)), sq_nonneg (σ x - sin (w * x))]
  have b : (σ x - sin (w * x)) ^ 2 = 0 := by nlinarith [sq_nonneg (c x - cos (w * x)), sq_nonneg (σ x - sin (w * x))]
  exact ⟨by linarith [pow_eq_zero_iff (two_ne_zero) |>.1 a], by linarith [pow_eq_zero_iff (two_ne_zero) |>.1 b]⟩

theorem odd_at_node (d j : ℕ) (hj : j ≤ 2 * d + 1) (φ : ℝ) :
    oddC d (j - (d + 1 / 2)) φ = cos (2 * (j - (d + 1 / 2)) * φ) ∧ oddS d (j - (d + 1 / 2)) φ = sin (2 * (j - (d + 1 / 2)) * φ) := by
  have hR : ∀ φ, oddR d ((j : ℝ) - (d + 1 / 2)) φ = 0 := by
    intro φ
    rcases Nat.lt_or_ge d j with h | h
    · obtain ⟨m, rfl⟩ : ∃ m, j = d + 1 + m := ⟨j - (d + 1), by omega⟩
      have := (odd_node d m (by omega) φ).1
      rwa [show ((d + 1 + m : ℕ) : ℝ) - (d + 1 / 2) = m + 1 / 2 by push_cast; ring]
    · obtain ⟨m, rfl⟩ : ∃ m, d = j + m := ⟨d - j, by omega⟩
      have := (odd_node (j + m) m (by omega) φ).2
      rwa [show (j : ℝ) - (((j + m : ℕ) : ℝ) + 1 / 2) = -(m + 1 / 2) by push_cast; ring]
  refine harmonic (fun x => (oddC_deriv d _ x).congr_deriv ?_) (fun x => oddS_deriv d _ x) ?_ ?_ φ
  · rw [hR]; ring
  · simp [oddC, sum_range_succ', ca]
  · simp [oddS]

/-! ## Even degree `2d`: nodes `0, ±1, ..., ±d` -/

/-- Coefficients of the series of `sin(2sφ) / (s sin 2φ)` in powers of `sin² φ`. -/
noncomputable def cb (s : ℝ) : ℕ → ℝ
  | 0 => 1
  | k + 1 => cb s k * (((k : ℝ) + 1) ^ 2 - s ^ 2) / (((k : ℝ) + 3 / 2) * (k + 1))

noncomputable def evenC (d : ℕ) (s φ : ℝ) : ℝ := 1 - ∑ k ∈ range d, 2 * s ^ 2 * cb s k / (k + 1) * sin φ ^ (2 * k + 2)

noncomputable def evenS (d : ℕ) (s φ : ℝ) : ℝ := ∑ k ∈ range d, 2 * s * cb s k * (cos φ * sin φ ^ (2 * k + 1))

noncomputable def evenR (d : ℕ) (s φ : ℝ) : ℝ := 2 * s * (2 * d + 1) * cb s d * sin φ ^ (2 * d)

theorem evenC_deriv (d : ℕ) (s φ : ℝ) : HasDerivAt (evenC d s) (-2 * s * evenS d s φ) φ := by
  unfold evenC evenS
  have : HasDerivAt (fun φ => ∑ k ∈ range d, 2 * s ^ 2 * cb s k / (k + 1) * sin φ ^ (2 * k + 2)) (∑ k ∈ range d, 2 * s * (2 * s * cb s k * (cos φ * sin φ ^ (2 * k + 1)))) φ := by
    refine HasDerivAt.fun_sum fun k _ => ?_
    have h := ((hasDerivAt_sin φ).pow (2 * k + 2)).const_mul (2 * s ^ 2 * cb s k / (k + 1))
    refine h.congr_deriv ?_
    have : ((k : ℝ) + 1) ≠ 0 := by positivity
    rw [show 2 * k + 2 - 1 = 2 * k + 1 by omega]
    push_cast
    field_simp
  refine (this.const_sub 1).congr_deriv ?_
  rw [← mul_sum]
  ring

theorem evenS_deriv (d : ℕ) (s φ : ℝ) : HasDerivAt (evenS d s) (2 * s * evenC d s φ - evenR d s φ) φ := by
  induction d with
  | zero =>
    have h : evenS 0 s = fun _ => 0 := by funext φ; simp [evenS]
    rw [h]
    refine (hasDerivAt_const φ (0 : ℝ)).congr_deriv ?_
    simp [evenC, evenR, cb]
  | succ d ih =>
    have h : evenS (d + 1) s = fun φ => evenS d s φ + 2 * s * cb s d * (cos φ * sin φ ^ (2 * d + 1)) := by
      funext φ; rw [evenS, sum_range_succ]; rfl
    have hC : evenC (d + 1) s φ = evenC d s φ - 2 * s ^ 2 * cb s d / (d + 1) * sin φ ^ (2 * d + 2) := by
      rw [evenC, sum_range_succ, evenC]; ring
    rw [h]
    have h2 := ((hasDerivAt_cos φ).mul ((hasDerivAt_sin φ).pow (2 * d + 1))).const_mul (2 * s * cb s d)
    refine (ih.add h2).congr_deriv ?_
    rw [hC]
    unfold evenR
    have hcos : cos φ ^ 2 = 1 - sin φ ^ 2 := by linarith [sin_sq_add_cos_sq φ]
    have hd1 : ((d : ℝ) + 1) ≠ 0 := by positivity
    have hrec : (2 * ((d : ℝ) + 1) + 1) * cb s (d + 1) = cb s d * (2 * (d + 1) - 2 * s ^ 2 / (d + 1)) := by
      rw [cb]; field_simp; ring
    have hrec' : 2 * s * (2 * (((d + 1 : ℕ) : ℝ)) + 1) * cb s (d + 1) = 2 * s * (cb s d * (2 * (d + 1) - 2 * s ^ 2 / (d + 1))) := by
      rw [← hrec]; push_cast; ring
    rw [hrec']
    have p1 : sin φ ^ (2 * d + 1) = sin φ ^ (2 * d) * sin φ := by ring
    have p2 : sin φ ^ (2 * d + 2) = sin φ ^ (2 * d) * sin φ ^ 2 := by ring
    have p3 : sin φ ^ (2 * (d + 1)) = sin φ ^ (2 * d) * sin φ ^ 2 := by ring
    have e1 : 2 * d + 1 - 1 = 2 * d := by omega
    simp only [e1, Pi.pow_apply]
    rw [p1, p2, p3]
    push_cast
    have hdiv : 2 * s ^ 2 * cb s d / ((d : ℝ) + 1) = cb s d * (2 * s ^ 2 / (d + 1)) := by ring
    rw [hdiv]
    linear_combination (2 * s * cb s d * (2 * d + 1) * sin φ ^ (2 * d)) * hcos

theorem cb_nonneg (s : ℝ) (hs : s ^ 2 ≤ 1) : ∀ k, 0 ≤ cb s k
  | 0 => by simp [cb]
  | k + 1 => by
    rw [cb]
    have := cb_nonneg s hs k
    have h2 : 0 ≤ ((k : ℝ) + 1) ^ 2 - s ^ 2 := by nlinarith [(Nat.cast_nonneg k : (0 : ℝ) ≤ k)]
    positivity

theorem even_bound_aux (d : ℕ) (s φ : ℝ) (hs : s ^ 2 ≤ 1) (h0 : 0 ≤ φ) (h1 : φ ≤ π / 2) : evenC d s φ ^ 2 + evenS d s φ ^ 2 ≤ 1 := by
  have hd : ∀ x, HasDerivAt (fun x => evenC d s x ^ 2 + evenS d s x ^ 2) (-2 * evenS d s x * evenR d s x) x := by
    intro x
    refine (((evenC_deriv d s x).pow 2).add ((evenS_deriv d s x).pow 2)).congr_deriv ?_
    simp only [Nat.cast_ofNat, Nat.add_one_sub_one, pow_one]
    ring
  have h := le_of_deriv hd (fun x hx => ?_) h0
  · refine h.trans (le_of_eq ?_)
    simp [evenC, evenS]
  · have hc : 0 ≤ cos x := cos_nonneg_of_mem_Icc ⟨by linarith [hx.1, pi_pos], by linarith [hx.2]⟩
    have hsn : 0 ≤ sin x := sin_nonneg_of_mem_Icc ⟨hx.1.le, by linarith [hx.2, pi_pos]⟩
    have eS : evenS d s x = s * ∑ k ∈ range d, 2 * cb s k * (cos x * sin x ^ (2 * k + 1)) := by
      rw [evenS, mul_sum]; exact sum_congr rfl fun k _ => by ring
    have hS : 0 ≤ ∑ k ∈ range d, 2 * cb s k * (cos x * sin x ^ (2 * k + 1)) :=
      sum_nonneg fun k _ => mul_nonneg (mul_nonneg two_pos.le (cb_nonneg s hs k)) (mul_nonneg hc (pow_nonneg hsn _))
    have hR : 0 ≤ 2 * (2 * (d : ℝ) + 1) * cb s d * sin x ^ (2 * d) := mul_nonneg (mul_nonneg (by positivity) (cb_nonneg s hs d)) (pow_nonneg hsn _)
    rw [eS, show evenR d s x = s * (2 * (2 * (d : ℝ) + 1) * cb s d * sin x ^ (2 * d)) by unfold evenR; ring]
    have := mul_nonneg (sq_nonneg s) (mul_nonneg hS hR)
    nlinarith

/-- **Strang's theorem**, even degrees: within one cell of the central node the symbol is at most one. -/
theorem even_bound (d : ℕ) (s φ : ℝ) (hs : s ^ 2 ≤ 1) : evenC d s φ ^ 2 + evenS d s φ ^ 2 ≤ 1 := by
  obtain ⟨ψ, h0, h1, hsin, hcos⟩ := fold_angle φ
  refine le_trans (le_of_eq ?_) (even_bound_aux d s ψ hs h0 h1)
  have eC : ∀ x, evenC d s x = 1 - ∑ k ∈ range d, 2 * s ^ 2 * cb s k / (k + 1) * (sin x ^ 2) ^ (k + 1) := by
    intro x; rw [evenC]; congr 1; exact sum_congr rfl fun k _ => by rw [← pow_mul]; ring_nf
  have eS : ∀ x, evenS d s x = cos x * sin x * ∑ k ∈ range d, 2 * s * cb s k * (sin x ^ 2) ^ k := by
    intro x; rw [evenS, mul_sum]; exact sum_congr rfl fun k _ => by rw [pow_succ, pow_mul]; ring
  rw [eC, eS, eC, eS, hsin, hcos]
  simp only [mul_pow, sq_abs]

theorem even_at_node (d j : ℕ) (hj : j ≤ 2 * d) (φ : ℝ) : evenC d (j - d) φ = cos (2 * (j - d) * φ) ∧ evenS d (j - d) φ = sin (2 * (j - d) * φ) := by
  have hz : ∀ (m : ℕ) (s : ℝ), s ^ 2 = ((m : ℝ) + 1) ^ 2 → ∀ k, m < k → cb s k = 0 := by
    intro m s hs k hk
    induction k with
    | zero => omega
    | succ k ih =>
      rw [cb]
      rcases Nat.lt_or_ge m k with h | h
      · rw [ih h]; simp
      · have : k = m := by omega
        rw [this, hs, sub_self, mul_zero, zero_div]
  have hR : ∀ φ, evenR d ((j : ℝ) - d) φ = 0 := by
    intro φ
    unfold evenR
    rcases lt_trichotomy j d with h | h | h
    · obtain ⟨m, hm⟩ : ∃ m, d = j + 1 + m := ⟨d - (j + 1), by omega⟩
      rw [hz m _ (by rw [hm]; push_cast; ring) d (by omega)]; ring
    · rw [h, sub_self]; ring
    · obtain ⟨m, hm⟩ : ∃ m, j = d + 1 + m := ⟨j - (d + 1), by omega⟩
      rw [hz m _ (by rw [hm]; push_cast; ring) d (by omega)]; ring
  refine harmonic (fun x => (evenC_deriv d _ x).congr_deriv (by ring)) (fun x => (evenS_deriv d _ x).congr_deriv ?_) ?_ ?_ φ
  · rw [hR]; ring
  · simp [evenC]
  · simp [evenS]

/-! ## The two functions are polynomials in the position, so they are the interpolation polynomials -/

/-- `f` is a polynomial of degree at most `n`. -/
def PolyDeg (n : ℕ) (f : ℝ → ℝ) : Prop := ∃ p : Polynomial ℝ, p.natDegree ≤ n ∧ ∀ x, p.eval x = f x

theorem PolyDeg.mono {n m : ℕ} {f : ℝ → ℝ} (h : PolyDeg n f) (hnm : n ≤ m) : PolyDeg m f := by
  obtain ⟨p, hp, he⟩ := h
  exact ⟨p, hp.trans hnm, he⟩

theorem PolyDeg.const (c : ℝ) : PolyDeg 0 fun _ => c := ⟨Polynomial.C c, by simp, by simp⟩

theorem PolyDeg.shift (c : ℝ) : PolyDeg 1 fun y => y - c := ⟨Polynomial.X - Polynomial.C c, by simp, by simp⟩

theorem PolyDeg.add {n : ℕ} {f g : ℝ → ℝ} (hf : PolyDeg n f) (hg : PolyDeg n g) : PolyDeg n fun x => f x + g x := by
  obtain ⟨p, hp, ep⟩ := hf
  obtain ⟨q, hq, eq⟩ := hg
  exact ⟨p + q, Polynomial.natDegree_add_le_of_degree_le hp hq, fun x => by rw [Polynomial.eval_add, ep, eq]⟩

theorem PolyDeg.mul {n m : ℕ} {f g : ℝ → ℝ} (hf : PolyDeg n f) (hg : PolyDeg m g) : PolyDeg (n + m) fun x => f x * g x := by
  obtain ⟨p, hp, ep⟩ := hf
  obtain ⟨q, hq, eq⟩ := hg
  exact ⟨p * q, Polynomial.natDegree_mul_le_of_le hp hq, fun x => by rw [Polynomial.eval_mul, ep, eq]⟩

theorem PolyDeg.sum {n : ℕ} {f : ℕ → ℝ → ℝ} {s : Finset ℕ} (h : ∀ k ∈ s, PolyDeg n (f k)) : PolyDeg n fun x => ∑ k ∈ s, f k x := by
  classical
  induction s using Finset.induction_on with
  | empty => simpa using (PolyDeg.const 0).mono (Nat.zero_le n)
  | insert a s ha ih =>
    simp only [sum_insert ha]
    exact (h a (mem_insert_self a s)).add (ih fun k hk => h k (mem_insert_of_mem hk))

theorem PolyDeg.smul {n : ℕ} {f : ℝ → ℝ} (c : ℝ) (hf : PolyDeg n f) : PolyDeg n fun x => c * f x := by
  simpa using (PolyDeg.const c).mul hf

theorem PolyDeg.congr {n : ℕ} {f g : ℝ → ℝ} (h : PolyDeg n f) (e : ∀ x, f x = g x) : PolyDeg n g := (funext e : f = g) ▸ h

/-- A polynomial of degree at most `D` is the combination of the Lagrange basis on `0, 1, ..., D` with its values at the nodes. -/
theorem PolyDeg.interpolate {D : ℕ} {f : ℝ → ℝ} (h : PolyDeg D f) (y : ℝ) :
    f y = ∑ j ∈ range (D + 1), f j * (Lagrange.basis (range (D + 1)) (fun i : ℕ => (i : ℝ)) j).eval y := by
  obtain ⟨p, hp, e⟩ := h
  have hinj : Set.InjOn (fun i : ℕ => (i : ℝ)) (range (D + 1)) := fun a _ b _ hab => Nat.cast_injective (R := ℝ) hab
  have hdeg : p.degree < #(range (D + 1)) := by
    rw [card_range]
    exact lt_of_le_of_lt Polynomial.degree_le_natDegree (by exact_mod_cast Nat.lt_succ_of_le hp)
  have := congrArg (Polynomial.eval y) (Lagrange.eq_interpolate hinj hdeg)
  rw [e, Lagrange.interpolate_apply, Polynomial.eval_finsetSum] at this
  rw [this]
  exact sum_congr rfl fun j _ => by rw [Polynomial.eval_mul, Polynomial.eval_C, e]

theorem sq_shift (c : ℝ) : PolyDeg 2 fun y => (y - c) ^ 2 := ((PolyDeg.shift c).mul (PolyDeg.shift c)).congr fun y => by ring

theorem ca_poly (c : ℝ) (k : ℕ) : PolyDeg (2 * k) fun y => ca (y - c) k := by
  induction k with
  | zero => exact PolyDeg.const 1
  | succ k ih =>
    have h2 : PolyDeg 2 fun y => ((k : ℝ) + 1 / 2) ^ 2 + (-1) * (y - c) ^ 2 := ((PolyDeg.const _).mono (by norm_num)).add ((sq_shift c).smul (-1))
    refine (((ih.mul h2).smul (1 / (((k : ℝ) + 1 / 2) * (k + 1)))).mono (by omega)).congr fun y => ?_
    rw [ca]; ring

theorem cb_poly (c : ℝ) (k : ℕ) : PolyDeg (2 * k) fun y => cb (y - c) k := by
  induction k with
  | zero => exact PolyDeg.const 1
  | succ k ih =>
    have h2 : PolyDeg 2 fun y => ((k : ℝ) + 1) ^ 2 + (-1) * (y - c) ^ 2 := ((PolyDeg.const _).mono (by norm_num)).add ((sq_shift c).smul (-1))
    refine (((ih.mul h2).smul (1 / (((k : ℝ) + 3 / 2) * (k + 1)))).mono (by omega)).congr fun y => ?_
    rw [cb]; ring

theorem oddC_poly (d : ℕ) (c φ : ℝ) : PolyDeg (2 * d + 1) fun y => oddC d (y - c) φ := by
  unfold oddC
  refine PolyDeg.sum fun k hk => ?_
  have := mem_range.1 hk
  exact (((ca_poly c k).smul (cos φ * sin φ ^ (2 * k))).mono (by omega)).congr fun y => by ring

theorem oddS_poly (d : ℕ) (c φ : ℝ) : PolyDeg (2 * d + 1) fun y => oddS d (y - c) φ := by
  unfold oddS
  refine PolyDeg.sum fun k hk => ?_
  have := mem_range.1 hk
  exact ((((PolyDeg.shift c).mul (ca_poly c k)).smul (2 / (2 * k + 1) * sin φ ^ (2 * k + 1))).mono (by omega)).congr fun y => by ring

theorem evenC_poly (d : ℕ) (c φ : ℝ) : PolyDeg (2 * d) fun y => evenC d (y - c) φ := by
  have h : PolyDeg (2 * d) fun y => ∑ k ∈ range d, 2 * (y - c) ^ 2 * cb (y - c) k / (k + 1) * sin φ ^ (2 * k + 2) := by
    refine PolyDeg.sum fun k hk => ?_
    have := mem_range.1 hk
    exact ((((sq_shift c).mul (cb_poly c k)).smul (2 / (k + 1) * sin φ ^ (2 * k + 2))).mono (by omega)).congr fun y => by ring
  exact (((PolyDeg.const 1).mono (Nat.zero_le _)).add (h.smul (-1))).congr fun y => by unfold evenC; ring

theorem evenS_poly (d : ℕ) (c φ : ℝ) : PolyDeg (2 * d) fun y => evenS d (y - c) φ := by
  unfold evenS
  refine PolyDeg.sum fun k hk => ?_
  have := mem_range.1 hk
  exact ((((PolyDeg.shift c).mul (cb_poly c k)).smul (2 * (cos φ * sin φ ^ (2 * k + 1)))).mono (by omega)).congr fun y => by ring

/-- The weights of the interpolation at the position `y` from the nodes `0, ..., D`. -/
noncomputable def weight (D : ℕ) (y : ℝ) (j : ℕ) : ℝ := (Lagrange.basis (range (D + 1)) (fun i : ℕ => (i : ℝ)) j).eval y

/-- The positions where the stencil of the code is used: the middle cell for odd degrees, half a cell on each side of the middle node for even degrees (even positions up to a whole cell
away are covered). -/
def Central (D : ℕ) (y : ℝ) : Prop := if D % 2 = 1 then |2 * y - D| ≤ 1 else |2 * y - D| ≤ 2

/-- **Strang's theorem** in trigonometric form. -/
theorem symbol_trig (D : ℕ) (y : ℝ) (hy : Central D y) (φ : ℝ) :
    (∑ j ∈ range (D + 1), weight D y j * cos ((2 * j - D) * φ)) ^ 2 + (∑ j ∈ range (D + 1), weight D y j * sin ((2 * j - D) * φ)) ^ 2 ≤ 1 := by
  unfold Central at hy
  rcases Nat.mod_two_eq_zero_or_one D with h | h
  · obtain ⟨d, rfl⟩ : ∃ d, D = 2 * d := ⟨D / 2, by omega⟩
    rw [if_neg (by omega)] at hy
    have hc : ∑ j ∈ range (2 * d + 1), weight (2 * d) y j * cos ((2 * j - (2 * d : ℕ)) * φ) = evenC d (y - d) φ := by
      rw [(evenC_poly d d φ).interpolate y]
      refine sum_congr rfl fun j hj => ?_
      rw [(even_at_node d j (by have := mem_range.1 hj; omega) φ).1, mul_comm, weight]
      congr 2
      push_cast; ring
    have hs : ∑ j ∈ range (2 * d + 1), weight (2 * d) y j * sin ((2 * j - (2 * d : ℕ)) * φ) = evenS d (y - d) φ := by
      rw [(evenS_poly d d φ).interpolate y]
      refine sum_congr rfl fun j hj => ?_
      rw [(even_at_node d j (by have := mem_range.1 hj; omega) φ).2, mul_comm, weight]
      congr 2
      push_cast; ring
    rw [hc, hs]
    refine even_bound d _ φ ?_
    rw [abs_le] at hy
    push_cast at hy
    nlinarith [hy.1, hy.2]
  · obtain ⟨d, rfl⟩ : ∃ d, D = 2 * d + 1 := ⟨D / 2, by omega⟩
    rw [if_pos h] at hy
    have hc : ∑ j ∈ range (2 * d + 1 + 1), weight (2 * d + 1) y j * cos ((2 * j - (2 * d + 1 : ℕ)) * φ) = oddC d (y - (d + 1 / 2)) φ := by
      rw [(oddC_poly d (d + 1 / 2) φ).interpolate y]
      refine sum_congr rfl fun j hj => ?_
      rw [(odd_at_node d j (by have := mem_range.1 hj; omega) φ).1, mul_comm, weight]
      congr 2
      push_cast; ring
    have hs : ∑ j ∈ range (2 * d + 1 + 1), weight (2 * d + 1) y j * sin ((2 * j - (2 * d + 1 : ℕ)) * φ) = oddS d (y - (d + 1 / 2)) φ := by
      rw [(oddS_poly d (d + 1 / 2) φ).interpolate y]
      refine sum_congr rfl fun j hj => ?_
      rw [(odd_at_node d j (by have := mem_range.1 hj; omega) φ).2, mul_comm, weight]
      congr 2
      push_cast; ring
    rw [hc, hs]
    refine odd_bound d _ φ ?_
    rw [abs_le] at hy
    push_cast at hy
    nlinarith [hy.1, hy.2]

/-- **Strang's theorem**: the Fourier symbol has modulus at most one. -/
theorem symbol (D : ℕ) (y : ℝ) (hy : Central D y) (θ : ℝ) : ‖∑ j ∈ range (D + 1), (weight D y j : ℂ) * Complex.exp (θ * Complex.I) ^ j‖ ≤ 1 := by
  have hform : ∑ j ∈ range (D + 1), (weight D y j : ℂ) * Complex.exp (θ * Complex.I) ^ j =
      Complex.exp ((D * θ / 2 : ℝ) * Complex.I) *
        ((∑ j ∈ range (D + 1), weight D y j * cos ((2 * j - D) * (θ / 2)) : ℝ) + (∑ j ∈ range (D + 1), weight D y j * sin ((2 * j - D) * (θ / 2)) : ℝ) * Complex.I) := by
    push_cast
    rw [sum_mul, ← sum_add_distrib, mul_sum]
    refine sum_congr rfl fun j _ => ?_
    rw [← Complex.exp_nat_mul]
    have e : (j : ℂ) * (θ * Complex.I) = (D * θ / 2) * Complex.I + ((2 * j - D) * (θ / 2)) * Complex.I := by ring
    rw [e, Complex.exp_add, Complex.exp_mul_I ((2 * (j : ℂ) - D) * (θ / 2))]
    ring
  rw [hform, norm_mul, Complex.norm_exp_ofReal_mul_I, one_mul, ← sq_le_one_iff₀ (norm_nonneg _), ← Complex.normSq_eq_norm_sq, Complex.normSq_add_mul_I]
  exact symbol_trig D y hy (θ / 2)

/-! ## The mean square on a periodic grid -/

open ZMod

/-- Parseval's identity. -/
theorem parseval {N : ℕ} [NeZero N] (v : ZMod N → ℂ) : ∑ k, ‖ZMod.dft v k‖ ^ 2 = N * ∑ j, ‖v j‖ ^ 2 := by
  have key : ∑ k, ZMod.dft v k * (starRingEnd ℂ) (ZMod.dft v k) = N * ∑ j, v j * (starRingEnd ℂ) (v j) := by
    have h1 : ∀ k, (starRingEnd ℂ) (ZMod.dft v k) = ∑ j, stdAddChar (j * k) * (starRingEnd ℂ) (v j) := by
      intro k
      rw [ZMod.dft_apply, map_sum]
      refine sum_congr rfl fun j _ => ?_
      rw [smul_eq_mul, map_mul]
      congr 1
      rw [← AddChar.map_neg_eq_conj, neg_neg]
    simp only [h1, mul_sum]
    rw [sum_comm]
    refine sum_congr rfl fun j _ => ?_
    have h2 := congrFun (ZMod.dft_dft v) (-j)
    rw [neg_neg, ZMod.dft_apply] at h2
    rw [← mul_assoc, show (N : ℂ) * v j = (N : ℂ) • v j from rfl, ← h2, sum_mul]
    refine sum_congr rfl fun k _ => ?_
    rw [smul_eq_mul, show -(k * -j) = j * k by ring]
    ring
  have hn : ∀ z : ℂ, z * (starRingEnd ℂ) z = ((‖z‖ ^ 2 : ℝ) : ℂ) := fun z => by rw [Complex.mul_conj, Complex.normSq_eq_norm_sq]
  simp only [hn] at key
  exact_mod_cast key

/-- A convolution whose symbol is at most one does not increase the mean square. -/
theorem convolution_stable {N : ℕ} [NeZero N] (D : ℕ) (w : ℕ → ℝ) (hw : ∀ θ : ℝ, ‖∑ j ∈ range (D + 1), (w j : ℂ) * Complex.exp (θ * Complex.I) ^ j‖ ≤ 1) (v : ZMod N → ℝ) :
    ∑ i, (∑ j ∈ range (D + 1), w j * v (i + j)) ^ 2 ≤ ∑ i, v i ^ 2 := by
  obtain ⟨u, hu⟩ : ∃ u : ZMod N → ℂ, u = fun i => (v i : ℂ) := ⟨_, rfl⟩
  obtain ⟨T, hT⟩ : ∃ T : ZMod N → ℂ, T = fun i => ∑ j ∈ range (D + 1), (w j : ℂ) * u (i + j) := ⟨_, rfl⟩
  have hmul : ∀ k, ZMod.dft T k = (∑ j ∈ range (D + 1), (w j : ℂ) * (stdAddChar k : ℂ) ^ j) * ZMod.dft u k := by
    intro k
    rw [ZMod.dft_apply, hT]
    simp only [smul_eq_mul, mul_sum, sum_mul]
    rw [sum_comm]
    refine sum_congr rfl fun j _ => ?_
    rw [ZMod.dft_apply, mul_sum, ← Equiv.sum_comp (Equiv.addRight (j : ZMod N)) fun i => (w j : ℂ) * stdAddChar k ^ j * (stdAddChar (-(i * k)) • u i)]
    refine sum_congr rfl fun i _ => ?_
    simp only [Equiv.coe_addRight, smul_eq_mul]
    rw [show -((i + (j : ZMod N)) * k) = -(i * k) + -(j • k) by rw [nsmul_eq_mul]; ring, AddChar.map_add_eq_mul, AddChar.map_neg_eq_inv (stdAddChar) (j • k), AddChar.map_nsmul_eq_pow]
    have hne : (stdAddChar k : ℂ) ^ j ≠ 0 := pow_ne_zero _ (by rw [stdAddChar_apply]; exact Circle.coe_ne_zero _)
    field_simp
  have hle : ∀ k, ‖ZMod.dft T k‖ ^ 2 ≤ ‖ZMod.dft u k‖ ^ 2 := by
    intro k
    rw [hmul, norm_mul]
    have h1 : ‖∑ j ∈ range (D + 1), (w j : ℂ) * (stdAddChar k : ℂ) ^ j‖ ≤ 1 := by
      have := hw (2 * π * k.val / N)
      have e : (stdAddChar k : ℂ) = Complex.exp (((2 * π * k.val / N : ℝ) : ℂ) * Complex.I) := by
        have := stdAddChar_coe (N := N) (k.val : ℤ)
        rw [Int.cast_natCast, ZMod.natCast_zmod_val] at this
        rw [this]
        congr 1
        push_cast
        ring
      rw [e]
      exact this
    have h0 := norm_nonneg (∑ j ∈ range (D + 1), (w j : ℂ) * (stdAddChar k : ℂ) ^ j)
    have h2 := norm_nonneg (ZMod.dft u k)
    rw [mul_pow]
    exact mul_le_of_le_one_left (by positivity) (pow_le_one₀ h0 h1)
  have hsum := sum_le_sum fun k (_ : k ∈ univ) => hle k
  rw [parseval, parseval] at hsum
  have hN : (0 : ℝ) < N := by exact_mod_cast Nat.pos_of_ne_zero (NeZero.ne N)
  have hfin := le_of_mul_le_mul_left hsum hN
  refine le_trans (le_of_eq ?_) (hfin.trans (le_of_eq ?_))
  · refine sum_congr rfl fun i _ => ?_
    have : T i = ((∑ j ∈ range (D + 1), w j * v (i + j) : ℝ) : ℂ) := by rw [hT, hu]; push_cast; rfl
    rw [this, Complex.norm_real, Real.norm_eq_abs, sq_abs]
  · refine sum_congr rfl fun i _ => ?_
    rw [hu]
    simp only [Complex.norm_real, Real.norm_eq_abs, sq_abs]

/-- Centred Lagrange interpolation of any degree does not increase the mean square of a periodic line. -/
theorem lagrange_stable {N : ℕ} [NeZero N] (D : ℕ) (y : ℝ) (hy : Central D y) (v : ZMod N → ℝ) : ∑ i, (∑ j ∈ range (D + 1), weight D y j * v (i + j)) ^ 2 ≤ ∑ i, v i ^ 2 :=
  convolution_stable D (weight D y) (symbol D y hy) v

end Verif.Strang
