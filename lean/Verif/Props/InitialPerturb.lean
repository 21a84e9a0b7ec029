import Verif.Model.Initial
import Mathlib.Algebra.Field.GeomSum
import Mathlib.Algebra.Field.Periodic
import Mathlib.Analysis.SpecialFunctions.Complex.Log
import Mathlib.Tactic.Linarith
import Mathlib.Tactic.FieldSimp
import Mathlib.Tactic.Ring

/-! C60: perturbed initial distributions. -/

namespace Verif.Initial
open Real

/-- **C60**: whatever the equilibrium, the mode and the amplitude, the initial distribution is at least `1e-60`, and it equals the perturbed
equilibrium wherever that is at least `1e-60`. -/
theorem c60_floor (feq : ℝ → ℝ) (mode : ℤ) (a Lx x v : ℝ) :
    (10 : ℝ) ^ (-60 : ℤ) ≤ singleMode1D feq mode a Lx x v ∧
    ((10 : ℝ) ^ (-60 : ℤ) ≤ feq v * (1 + a * cos (2 * π * mode * x / Lx)) →
      singleMode1D feq mode a Lx x v = feq v * (1 + a * cos (2 * π * mode * x / Lx))) ∧
    (feq v * (1 + a * cos (2 * π * mode * x / Lx)) < (10 : ℝ) ^ (-60 : ℤ) → singleMode1D feq mode a Lx x v = (10 : ℝ) ^ (-60 : ℤ)) := by
  have e : (10 : ℝ) ^ (-60 : ℤ) = 1e-60 := by norm_num
  have h : singleMode1D feq mode a Lx x v = floorValue (feq v * (1 + a * cos (2 * π * mode * x / Lx))) := by
    unfold singleMode1D perturbation1D
    simp only
    rw [show (mode : ℝ) * 2 * π / Lx * x = 2 * π * mode * x / Lx by ring]
  rw [h, e]
  unfold floorValue
  refine ⟨?_, ?_, ?_⟩
  · split_ifs with h1
    · exact le_refl _
    · exact not_lt.1 h1
  · intro h1; rw [if_neg (not_lt.2 h1)]
  · intro h1; rw [if_pos h1]

/-- **C60** (2D2V). -/
theorem c60_floor_2d (feq : ℝ → ℝ → ℝ) (mode : ℤ) (a Lx Ly x y vx vy : ℝ) :
    (10 : ℝ) ^ (-60 : ℤ) ≤ singleMode2D feq mode a Lx Ly x y vx vy ∧
    ((10 : ℝ) ^ (-60 : ℤ) ≤ feq vx vy * (1 + a * (cos (2 * π * mode * x / Lx) + cos (2 * π * mode * y / Ly))) →
      singleMode2D feq mode a Lx Ly x y vx vy =
        feq vx vy * (1 + a * (cos (2 * π * mode * x / Lx) + cos (2 * π * mode * y / Ly)))) := by
  have e : (10 : ℝ) ^ (-60 : ℤ) = 1e-60 := by norm_num
  have h : singleMode2D feq mode a Lx Ly x y vx vy =
      floorValue (feq vx vy * (1 + a * (cos (2 * π * mode * x / Lx) + cos (2 * π * mode * y / Ly)))) := by
    unfold singleMode2D perturbation2D
    simp only
    rw [show (mode : ℝ) * 2 * π / Lx * x = 2 * π * mode * x / Lx by ring, show (mode : ℝ) * 2 * π / Ly * y = 2 * π * mode * y / Ly by ring]
  rw [h, e]
  unfold floorValue
  refine ⟨?_, ?_⟩
  · split_ifs with h1
    · exact le_refl _
    · exact not_lt.1 h1
  · intro h1; rw [if_neg (not_lt.2 h1)]

/-- **C60** (vpar, mu): without perturbation the distribution is the larger of the equilibrium and the floor. -/
theorem c60_floor_no_perturb (feq : ℝ → ℝ → ℝ) (vpar mu : ℝ) :
    noPerturb feq vpar mu = max (feq vpar mu) ((10 : ℝ) ^ (-60 : ℤ)) := by
  have e : (10 : ℝ) ^ (-60 : ℤ) = 1e-60 := by norm_num
  rw [e]
  unfold noPerturb floorValue
  split_ifs with h
  · exact (max_eq_right h.le).symm
  · exact (max_eq_left (not_lt.1 h)).symm

/-- **C60**: the floor acts only if the amplitude is large or the equilibrium tiny: with `|a| < 1` and `feq v * (1 - |a|) ≥ 1e-60` the distribution is the
perturbed equilibrium, and lies between `(1 - |a|) feq` and `(1 + |a|) feq`. -/
theorem c60_small_amplitude (feq : ℝ → ℝ) (mode : ℤ) (a Lx x v : ℝ) (hf : 0 ≤ feq v)
    (h : (10 : ℝ) ^ (-60 : ℤ) ≤ feq v * (1 - |a|)) :
    singleMode1D feq mode a Lx x v = feq v * (1 + a * cos (2 * π * mode * x / Lx)) ∧
    feq v * (1 - |a|) ≤ singleMode1D feq mode a Lx x v ∧ singleMode1D feq mode a Lx x v ≤ feq v * (1 + |a|) := by
  have hc : |a * cos (2 * π * mode * x / Lx)| ≤ |a| := by
    rw [abs_mul]; exact mul_le_of_le_one_right (abs_nonneg _) (abs_cos_le_one _)
  obtain ⟨h1, h2⟩ := abs_le.1 hc
  have l1 : feq v * (1 - |a|) ≤ feq v * (1 + a * cos (2 * π * mode * x / Lx)) := mul_le_mul_of_nonneg_left (by linarith) hf
  have l2 : feq v * (1 + a * cos (2 * π * mode * x / Lx)) ≤ feq v * (1 + |a|) := mul_le_mul_of_nonneg_left (by linarith) hf
  have e := (c60_floor feq mode a Lx x v).2.1 (h.trans l1)
  exact ⟨e, by rw [e]; exact l1, by rw [e]; exact l2⟩

example : (10 : ℝ) ^ (-60 : ℤ) ≤ (1 : ℝ) * (1 - |(0.01 : ℝ)|) := by
  rw [abs_of_pos (by norm_num)]; norm_num

/-- **C60**: the initial distribution is periodic of period `Lx`. -/
theorem c60_periodic (feq : ℝ → ℝ) (mode : ℤ) (a Lx v : ℝ) (hL : Lx ≠ 0) (x : ℝ) (n : ℤ) :
    singleMode1D feq mode a Lx (x + n * Lx) v = singleMode1D feq mode a Lx x v := by
  unfold singleMode1D perturbation1D
  simp only
  have : (mode : ℝ) * 2 * π / Lx * (x + n * Lx) = (mode : ℝ) * 2 * π / Lx * x + ((mode * n : ℤ) : ℝ) * (2 * π) := by
    push_cast; field_simp
  rw [this, cos_add_int_mul_two_pi]

theorem sum_cos_uniform (N : ℕ) (hN : 0 < N) (m : ℤ) (t0 : ℝ) (hm : ¬ (N : ℤ) ∣ m) :
    ∑ j ∈ Finset.range N, cos (t0 + 2 * π * m * j / N) = 0 := by
  have hN0 : (N : ℂ) ≠ 0 := by exact_mod_cast hN.ne'
  set w : ℂ := Complex.exp (2 * π * Complex.I * (m / N)) with hw
  have hwN : w ^ N = 1 := by
    rw [hw, ← Complex.exp_nat_mul, Complex.exp_eq_one_iff]
    exact ⟨m, by field_simp⟩
  have hw1 : w ≠ 1 := by
    intro h
    rw [hw, Complex.exp_eq_one_iff] at h
    obtain ⟨k, hk⟩ := h
    apply hm
    refine ⟨k, ?_⟩
    have h2 : (2 * π * Complex.I : ℂ) ≠ 0 := Complex.two_pi_I_ne_zero
    have h3 : (m : ℂ) / N = k := by
      have : (2 * π * Complex.I : ℂ) * (m / N) = 2 * π * Complex.I * k := by rw [hk]; ring
      exact mul_left_cancel₀ h2 this
    have h4 : (m : ℂ) = N * k := by field_simp at h3; rw [h3]; try ring
    exact_mod_cast h4
  have hg : ∑ j ∈ Finset.range N, w ^ j = 0 := by
    rw [geom_sum_eq hw1, hwN]; simp
  have hs : ∑ j ∈ Finset.range N, Complex.exp (((t0 + 2 * π * m * j / N : ℝ) : ℂ) * Complex.I) = 0 := by
    have : ∀ j ∈ Finset.range N, Complex.exp (((t0 + 2 * π * m * j / N : ℝ) : ℂ) * Complex.I) = Complex.exp (t0 * Complex.I) * w ^ j := by
      intro j _
      rw [hw, ← Complex.exp_nat_mul, ← Complex.exp_add]
      congr 1
      push_cast
      ring
    rw [Finset.sum_congr rfl this, ← Finset.mul_sum, hg, mul_zero]
  have hre := congrArg Complex.re hs
  rw [Complex.re_sum] at hre
  simpa only [Complex.exp_ofReal_mul_I_re, Complex.zero_re] using hre

/-- **C60**: on a uniform periodic grid of `N` points that resolves the mode (`N` does not divide it), a small perturbation does not change the total number of
particles: the sum over the grid is `N` times the equilibrium. -/
theorem c60_mass (feq : ℝ → ℝ) (mode : ℤ) (a Lx x0 v : ℝ) (N : ℕ) (hN : 0 < N) (hL : Lx ≠ 0) (hm : ¬ (N : ℤ) ∣ mode) (hf : 0 ≤ feq v)
    (h : (10 : ℝ) ^ (-60 : ℤ) ≤ feq v * (1 - |a|)) :
    ∑ j ∈ Finset.range N, singleMode1D feq mode a Lx (x0 + j * (Lx / N)) v = N * feq v := by
  have hN0 : (N : ℝ) ≠ 0 := by exact_mod_cast hN.ne'
  have : ∀ j ∈ Finset.range N, singleMode1D feq mode a Lx (x0 + j * (Lx / N)) v =
      feq v + feq v * a * cos (2 * π * mode * x0 / Lx + 2 * π * mode * j / N) := by
    intro j _
    rw [(c60_small_amplitude feq mode a Lx _ v hf h).1]
    rw [show 2 * π * mode * (x0 + j * (Lx / N)) / Lx = 2 * π * mode * x0 / Lx + 2 * π * mode * j / N by field_simp]
    ring
  rw [Finset.sum_congr rfl this, Finset.sum_add_distrib, ← Finset.mul_sum, sum_cos_uniform N hN mode _ hm]
  simp

/-- If `N` divides the mode the perturbation is not resolved: it is constant on the grid. The hypothesis of `c60_mass` is needed. -/
theorem c60_mass_unresolved (mode : ℤ) (a Lx x0 : ℝ) (N : ℕ) (hN : 0 < N) (hL : Lx ≠ 0) (hm : (N : ℤ) ∣ mode) (j : ℕ) :
    perturbation1D mode a Lx (x0 + j * (Lx / N)) = perturbation1D mode a Lx x0 := by
  have hN0 : (N : ℝ) ≠ 0 := by exact_mod_cast hN.ne'
  obtain ⟨k, rfl⟩ := hm
  unfold perturbation1D
  simp only
  have : (((N : ℤ) * k : ℤ) : ℝ) * 2 * π / Lx * (x0 + j * (Lx / N)) =
      (((N : ℤ) * k : ℤ) : ℝ) * 2 * π / Lx * x0 + ((k * j : ℤ) : ℝ) * (2 * π) := by
    push_cast; field_simp
  rw [this, cos_add_int_mul_two_pi]

/-- **C60** (2D2V): the perturbation is bounded by twice the amplitude (and the bound is reached at the origin), so that the positivity of
the perturbed equilibrium is only guaranteed for `|a| < 1/2`. -/
theorem c60_2d_bound (mode : ℤ) (a Lx Ly x y : ℝ) :
    |perturbation2D mode a Lx Ly x y| ≤ 2 * |a| ∧ perturbation2D mode a Lx Ly 0 0 = 2 * a := by
  unfold perturbation2D
  refine ⟨?_, by simp; ring⟩
  rw [abs_mul]
  have := abs_add_le (cos ((mode : ℝ) * 2 * π / Lx * x)) (cos ((mode : ℝ) * 2 * π / Ly * y))
  have h1 := abs_cos_le_one ((mode : ℝ) * 2 * π / Lx * x)
  have h2 := abs_cos_le_one ((mode : ℝ) * 2 * π / Ly * y)
  nlinarith [abs_nonneg a]

/-- **C60** (Kelvin-Helmholtz): the density differs from the equilibrium `sin y` by at most the amplitude, and, for `k = 2 pi m / L` resolved by the uniform
grid of `N` points in `x`, the perturbation has no mean along `x`. -/
theorem c60_kelvin_helmholtz (eps k x y : ℝ) :
    (kelvinHelmholtz eps k x y).2 = sin y ∧ |(kelvinHelmholtz eps k x y).1 - sin y| ≤ |eps| ∧
    ∀ (L x0 : ℝ) (m : ℤ) (N : ℕ), L ≠ 0 → 0 < N → ¬ (N : ℤ) ∣ m →
      ∑ j ∈ Finset.range N, (kelvinHelmholtz eps (2 * π * m / L) (x0 + j * (L / N)) y).1 = N * sin y := by
  refine ⟨rfl, ?_, ?_⟩
  · simp only [kelvinHelmholtz, add_sub_cancel_left, abs_mul]
    exact mul_le_of_le_one_right (abs_nonneg _) (abs_cos_le_one _)
  · intro L x0 m N hL hN hm
    have hN0 : (N : ℝ) ≠ 0 := by exact_mod_cast hN.ne'
    have : ∀ j ∈ Finset.range N, (kelvinHelmholtz eps (2 * π * m / L) (x0 + j * (L / N)) y).1 =
        sin y + eps * cos (2 * π * m * x0 / L + 2 * π * m * j / N) := by
      intro j _
      simp only [kelvinHelmholtz]
      rw [show 2 * π * m / L * (x0 + j * (L / N)) = 2 * π * m * x0 / L + 2 * π * m * j / N by field_simp]
    rw [Finset.sum_congr rfl this, Finset.sum_add_distrib, ← Finset.mul_sum, sum_cos_uniform N hN m _ hm]
    simp

end Verif.Initial
