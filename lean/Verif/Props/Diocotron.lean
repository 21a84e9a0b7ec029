import Verif.Model.Initial
import Mathlib.Data.Complex.Basic
import Mathlib.Tactic.Linarith
import Mathlib.Tactic.FieldSimp
import Mathlib.Tactic.Ring
import Mathlib.Tactic.LinearCombination
import Mathlib.Tactic.NormNum
import Mathlib.Tactic.Positivity

/-! C66: diocotron initial condition and dispersion relation. -/

namespace Verif.Initial
open Real

/-! Independent specification: the coefficients of the dispersion relation `X^2 - b X + c = 0` as given in the documentation
(diocotron_initialisation_equilibrium.hpp:196-232). -/

/-- `omega_q / omega_D`. -/
noncomputable def docFrac (d : Diocotron) : ℝ := (-(2 * d.Q) / d.R1 ^ 2) / (1 / 2)

/-- Documented `b_l`. -/
noncomputable def docB (d : Diocotron) : ℝ :=
  1 / (1 - (d.W1 / d.W2) ^ (2 * d.l)) *
    (d.l * (1 - (d.W1 / d.W2) ^ (2 * d.l)) * ((1 - (d.R1 / d.R2) ^ 2) + docFrac d * (1 + (d.R1 / d.R2) ^ 2))
      + (1 - (d.R1 / d.R2) ^ (2 * d.l)) * ((d.R2 / d.W2) ^ (2 * d.l) - (d.W1 / d.R1) ^ (2 * d.l)))

/-- Documented `c_l`. -/
noncomputable def docC (d : Diocotron) : ℝ :=
  1 / (1 - (d.W1 / d.W2) ^ (2 * d.l)) *
    ((d.l : ℝ) ^ 2 * docFrac d * (1 - (d.R1 / d.R2) ^ 2 + docFrac d * (d.R1 / d.R2) ^ 2) * (1 - (d.W1 / d.W2) ^ (2 * d.l))
      - d.l * docFrac d * (1 - (d.W1 / d.R2) ^ (2 * d.l)) * (1 - (d.R2 / d.W2) ^ (2 * d.l))
      + d.l * (1 - (d.R1 / d.R2) ^ 2 + docFrac d * (d.R1 / d.R2) ^ 2) * (1 - (d.W1 / d.R1) ^ (2 * d.l)) * (1 - (d.R1 / d.W2) ^ (2 * d.l))
      - (1 - (d.R2 / d.W2) ^ (2 * d.l)) * (1 - (d.W1 / d.R1) ^ (2 * d.l)) * (1 - (d.R1 / d.R2) ^ (2 * d.l)))

/-- The domain of the constructor (its assertions), with walls and an annulus that do not degenerate. -/
structure Diocotron.Valid (d : Diocotron) : Prop where
  w1 : 0 ≤ d.W1
  w1r1 : d.W1 ≤ d.R1
  r1 : 0 < d.R1
  r1r2 : d.R1 < d.R2
  r2w2 : d.R2 ≤ d.W2
  l : d.l ≠ 0

theorem Diocotron.Valid.wall {d : Diocotron} (h : d.Valid) : (d.W1 / d.W2) ^ (2 * d.l) < 1 := by
  have hW2 : 0 < d.W2 := by linarith [h.r1, h.r1r2, h.r2w2]
  refine pow_lt_one₀ (div_nonneg h.w1 hW2.le) ?_ (by have := h.l; omega)
  rw [div_lt_one hW2]; linarith [h.w1r1, h.r1r2, h.r2w2]

/-- **C66**: the returned frequency and slope are the real and imaginary part of a root of `X^2 - b X + c` (times `omega_D = 1/2`), `(b, c)` being the coefficients computed by
the code; it is the root with the largest imaginary part, and with the largest real part among roots of equal imaginary part. -/
theorem c66_root (d : Diocotron) :
    let X : ℂ := ⟨2 * d.omega.1, 2 * d.omega.2⟩
    X ^ 2 - d.coeffs.1 * X + d.coeffs.2 = 0 ∧ 0 ≤ d.omega.2 ∧
    ∀ Y : ℂ, Y ^ 2 - d.coeffs.1 * Y + d.coeffs.2 = 0 → Y.im ≤ X.im ∧ (Y.im = X.im → Y.re ≤ X.re) := by
  intro X
  set b := d.coeffs.1 with hb
  set c := d.coeffs.2 with hc
  by_cases hd : b * b - 4 * c ≥ 0
  · set s := sqrt (b * b - 4 * c) with hs
    have hss : s * s = b * b - 4 * c := mul_self_sqrt hd
    have hX : X = ((b + s) / 2 : ℝ) := by
      apply Complex.ext
      · simp only [X, Diocotron.omega, ← hb, ← hc, if_pos hd, ← hs, Complex.ofReal_re]; ring
      · simp only [X, Diocotron.omega, ← hb, ← hc, if_pos hd, Complex.ofReal_im]; ring
    have h0 : d.omega.2 = 0 := by simp only [Diocotron.omega, ← hb, ← hc, if_pos hd]; ring
    have fac : ∀ Y : ℂ, Y ^ 2 - b * Y + c = (Y - ((b + s) / 2 : ℝ)) * (Y - ((b - s) / 2 : ℝ)) := by
      intro Y
      have : (c : ℂ) = (b * b - s * s) / 4 := by
        have : c = (b * b - s * s) / 4 := by linarith
        rw [this]; push_cast; ring
      rw [this]; push_cast; ring
    refine ⟨?_, h0.ge, ?_⟩
    · rw [fac, hX]; simp
    · intro Y hY
      rw [fac, mul_eq_zero, sub_eq_zero, sub_eq_zero] at hY
      have hs0 : 0 ≤ s := sqrt_nonneg _
      rcases hY with rfl | rfl
      · rw [hX]; exact ⟨le_refl _, fun _ => le_refl _⟩
      · rw [hX]; simp only [Complex.ofReal_im, Complex.ofReal_re]
        exact ⟨le_refl _, fun _ => by linarith⟩
  · have hneg : 0 < -(b * b - 4 * c) := by linarith [not_le.1 hd]
    set s := sqrt (-(b * b - 4 * c)) with hs
    have hss : s * s = -(b * b - 4 * c) := mul_self_sqrt hneg.le
    have hs0 : 0 < s := sqrt_pos.2 hneg
    have hX : X = ((b / 2 : ℝ) : ℂ) + ((s / 2 : ℝ) : ℂ) * Complex.I := by
      apply Complex.ext
      · simp only [X, Diocotron.omega, ← hb, ← hc, if_neg hd, ← hs]; simp; ring
      · simp only [X, Diocotron.omega, ← hb, ← hc, if_neg hd, ← hs]; simp; ring
    have h0 : d.omega.2 = s / 4 := by simp only [Diocotron.omega, ← hb, ← hc, if_neg hd, ← hs]; ring
    have fac : ∀ Y : ℂ, Y ^ 2 - b * Y + c =
        (Y - (((b / 2 : ℝ) : ℂ) + ((s / 2 : ℝ) : ℂ) * Complex.I)) * (Y - (((b / 2 : ℝ) : ℂ) - ((s / 2 : ℝ) : ℂ) * Complex.I)) := by
      intro Y
      have : (c : ℂ) = (b * b + s * s) / 4 := by
        have : c = (b * b + s * s) / 4 := by linarith
        rw [this]; push_cast; ring
      rw [this]; push_cast
      linear_combination ((s : ℂ) ^ 2 / 4) * Complex.I_sq
    refine ⟨?_, by rw [h0]; linarith, ?_⟩
    · rw [fac, hX]; simp
    · intro Y hY
      rw [fac, mul_eq_zero, sub_eq_zero, sub_eq_zero] at hY
      rcases hY with rfl | rfl
      · rw [hX]; exact ⟨le_refl _, fun _ => le_refl _⟩
      · rw [hX]
        simp only [Complex.sub_im, Complex.add_im, Complex.ofReal_im, Complex.mul_im, Complex.ofReal_re, Complex.I_im, Complex.I_re]
        exact ⟨by linarith, fun h => by linarith⟩

/-- **C66**: without inner wall (`W1 = 0`) the coefficients are the documented ones. -/
theorem c66_no_inner_wall (d : Diocotron) (h : d.Valid) (h0 : d.W1 = 0) : d.coeffs = (docB d, docC d) := by
  have hl : 2 * d.l ≠ 0 := by have := h.l; omega
  have hf : -2 * d.Q / d.R1 / d.R1 / (1 / 2) = docFrac d := by unfold docFrac; ring
  unfold Diocotron.coeffs docB docC
  simp only [h.r1, if_true, h0, zero_div, zero_pow hl, sub_zero, hf, gt_iff_lt]
  refine Prod.ext ?_ ?_ <;> simp only <;> ring

/-- **C66**, the exact discrepancy: compared with the documentation, the code does not divide the last terms of both coefficients by `1 - (W1/W2)^(2l)` (operator precedence). -/
theorem c66_discrepancy (d : Diocotron) (h : d.Valid) :
    let w := (d.W1 / d.W2) ^ (2 * d.l)
    docB d - d.coeffs.1 = w / (1 - w) * ((1 - (d.R1 / d.R2) ^ (2 * d.l)) * ((d.R2 / d.W2) ^ (2 * d.l) - (d.W1 / d.R1) ^ (2 * d.l))) ∧
    docC d - d.coeffs.2 = w / (1 - w) *
      (- d.l * docFrac d * (1 - (d.W1 / d.R2) ^ (2 * d.l)) * (1 - (d.R2 / d.W2) ^ (2 * d.l))
      + d.l * (1 - (d.R1 / d.R2) ^ 2 + docFrac d * (d.R1 / d.R2) ^ 2) * (1 - (d.W1 / d.R1) ^ (2 * d.l)) * (1 - (d.R1 / d.W2) ^ (2 * d.l))
      - (1 - (d.R2 / d.W2) ^ (2 * d.l)) * (1 - (d.W1 / d.R1) ^ (2 * d.l)) * (1 - (d.R1 / d.R2) ^ (2 * d.l))) := by
  intro w
  have hw : 1 - w ≠ 0 := by have := h.wall; simp only [w]; linarith
  have hf : -2 * d.Q / d.R1 / d.R1 / (1 / 2) = docFrac d := by unfold docFrac; ring
  unfold Diocotron.coeffs docB docC
  simp only [h.r1, if_true, hf, gt_iff_lt]
  have e : (d.W1 / d.W2) ^ (2 * d.l) = w := rfl
  rw [e]
  generalize (d.R1 / d.R2) ^ (2 * d.l) = a1
  generalize (d.R2 / d.W2) ^ (2 * d.l) = a2
  generalize (d.W1 / d.R1) ^ (2 * d.l) = a3
  generalize (d.W1 / d.R2) ^ (2 * d.l) = a4
  generalize (d.R1 / d.W2) ^ (2 * d.l) = a5
  generalize docFrac d = fr
  generalize d.R1 / d.R2 = r
  refine ⟨?_, ?_⟩ <;> field_simp <;> ring

/-- **C66** refuted with an inner wall: `W1 = 1/2, R1 = 1, R2 = 2, W2 = 2, l = 1`. -/
theorem c66_inner_wall_wrong : ∃ d : Diocotron, d.Valid ∧ d.coeffs.1 ≠ docB d ∧ d.coeffs.2 ≠ docC d := by
  refine ⟨⟨1 / 2, 1, 2, 3, 0, 1, 0⟩, ⟨by norm_num, by norm_num, by norm_num, by norm_num, by norm_num, by norm_num⟩, ?_, ?_⟩
  · unfold Diocotron.coeffs docB docFrac; norm_num
  · unfold Diocotron.coeffs docC docFrac; norm_num

example : (Diocotron.mk 0 1 2 3 0 9 0.0001).Valid := ⟨by norm_num, by norm_num, by norm_num, by norm_num, by norm_num, by norm_num⟩

/-- **C66**: the initial density lies between `1 - |eps|` and `1 + |eps|` times the equilibrium, the equilibrium is between 0 and 1, both vanish outside the annulus
`[R1, R2]`, and the initial density has the `l`-fold symmetry. -/
theorem c66_density (d : Diocotron) (r theta : ℝ) :
    0 ≤ d.equilibrium r theta ∧ d.equilibrium r theta ≤ 1 ∧
    |d.initialisation r theta - d.equilibrium r theta| ≤ |d.eps| * d.equilibrium r theta ∧
    ((r < d.R1 ∨ d.R2 < r) → d.initialisation r theta = 0 ∧ d.equilibrium r theta = 0) ∧
    (d.l ≠ 0 → ∀ k : ℤ, d.initialisation r (theta + k * (2 * π / d.l)) = d.initialisation r theta) := by
  unfold Diocotron.equilibrium Diocotron.initialisation
  refine ⟨?_, ?_, ?_, ?_, ?_⟩
  · split_ifs
    · rw [one_mul]; exact (exp_pos _).le
    · exact le_refl _
  · split_ifs
    · rw [one_mul, exp_le_one_iff]
      exact neg_nonpos.2 (Even.pow_nonneg (by decide) _)
    · exact zero_le_one
  · split_ifs
    · rw [one_mul, show ∀ e : ℝ, (1 + d.eps * cos (d.l * theta)) * e - e = d.eps * cos (d.l * theta) * e by intro e; ring, abs_mul, abs_mul]
      generalize -((r - (d.R1 + d.R2) / 2) / ((d.R2 - d.R1) / 2)) ^ 50 = z
      rw [abs_of_pos (exp_pos _)]
      have := mul_le_of_le_one_right (abs_nonneg d.eps) (abs_cos_le_one (d.l * theta))
      exact mul_le_mul_of_nonneg_right this (exp_pos _).le
    · simp
  · intro h
    have : ¬ (d.R1 ≤ r ∧ r ≤ d.R2) := by rintro ⟨h1, h2⟩; rcases h with h | h <;> linarith
    simp [this]
  · intro hl k
    have hl' : (d.l : ℝ) ≠ 0 := by exact_mod_cast hl
    have : (d.l : ℝ) * (theta + k * (2 * π / d.l)) = d.l * theta + k * (2 * π) := by field_simp
    simp only [this, cos_add_int_mul_two_pi]

end Verif.Initial
