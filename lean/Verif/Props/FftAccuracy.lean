import Verif.Props.FftEnergy
import Mathlib.Analysis.Calculus.SmoothSeries
import Mathlib.Topology.Algebra.InfiniteSum.Real
import Mathlib.Analysis.Normed.Group.InfiniteSum
import Mathlib.Analysis.Complex.Norm
import Mathlib.Analysis.PSeries
import Mathlib.Tactic.Linarith
import Mathlib.Tactic.Positivity

/-!
# C120: accuracy of the Fourier Poisson solver for smooth densities

Specification: the density is the real part of a series of plane waves `exp (2 pi i sum_j m_j (y_j - a_j) / len_j)` with arbitrary integer wave numbers and absolutely summable coefficients (every function with enough
derivatives on the periodic domain is one). The waves with `2 |m_j| < N_j` for all `j` are those the grid resolves.
-/

namespace Verif.Fft
open Complex

noncomputable section

variable {D : ℕ}

/-- The wave with the integer wave numbers `m` on the periodic domain which starts at `a` and has the lengths `len`. -/
def planeWave (a len : Fin (D + 1) → ℝ) (m : Fin (D + 1) → ℤ) (y : Fin (D + 1) → ℝ) : ℂ := exp (I * ((∑ i, 2 * Real.pi * m i / len i * (y i - a i) : ℝ) : ℂ))

/-- The density (or another field) with the coefficients `c s` of the waves `m s`. -/
def series {ι : Type*} (a len : Fin (D + 1) → ℝ) (m : ι → Fin (D + 1) → ℤ) (c : ι → ℂ) (y : Fin (D + 1) → ℝ) : ℝ := ∑' s, (c s * planeWave a len (m s) y).re

/-! ## Waves -/

theorem planeWave_norm (a len : Fin (D + 1) → ℝ) (m : Fin (D + 1) → ℤ) (y : Fin (D + 1) → ℝ) : ‖planeWave a len m y‖ = 1 := by
  rw [planeWave, mul_comm, Complex.norm_exp_ofReal_mul_I]

theorem planeWave_deriv (a len : Fin (D + 1) → ℝ) (m : Fin (D + 1) → ℤ) (y : Fin (D + 1) → ℝ) (i : Fin (D + 1)) :
    HasDerivAt (fun s : ℝ => planeWave a len m (Function.update y i s)) (I * ((2 * Real.pi * m i / len i : ℝ) : ℂ) * planeWave a len m y) (y i) := by
  unfold planeWave
  have hs : ∀ j, HasDerivAt (fun s : ℝ => 2 * Real.pi * m j / len j * (Function.update y i s j - a j)) (if j = i then 2 * Real.pi * m j / len j else 0) (y i) := by
    intro j
    by_cases hj : j = i
    · subst hj
      simp only [Function.update_self, if_true]
      have := ((hasDerivAt_id (y j)).sub_const (a j)).const_mul (2 * Real.pi * m j / len j)
      simpa using this
    · simp only [Function.update_of_ne hj, if_neg hj]
      exact hasDerivAt_const _ _
  have hsum := HasDerivAt.fun_sum (u := Finset.univ) fun j _ => hs j
  rw [Finset.sum_ite_eq' Finset.univ i, if_pos (Finset.mem_univ _)] at hsum
  have h1 := ((hsum.ofReal_comp).const_mul I).cexp
  rw [Function.update_eq_self] at h1
  convert h1 using 1
  ring

theorem term_le (c : ℂ) (a len : Fin (D + 1) → ℝ) (m : Fin (D + 1) → ℤ) (y : Fin (D + 1) → ℝ) : |(c * planeWave a len m y).re| ≤ ‖c‖ := by
  refine (Complex.abs_re_le_norm _).trans ?_
  rw [norm_mul, planeWave_norm, mul_one]

theorem series_hasSum {ι : Type*} (a len : Fin (D + 1) → ℝ) (m : ι → Fin (D + 1) → ℤ) {c : ι → ℂ} (hc : Summable fun s => ‖c s‖) (y : Fin (D + 1) → ℝ) :
    HasSum (fun s => (c s * planeWave a len (m s) y).re) (series a len m c y) :=
  (Summable.of_norm_bounded hc fun s => by rw [Real.norm_eq_abs]; exact term_le _ _ _ _ _).hasSum

theorem series_deriv {ι : Type*} (a len : Fin (D + 1) → ℝ) (m : ι → Fin (D + 1) → ℤ) {c : ι → ℂ} (i : Fin (D + 1)) (hc : Summable fun s => ‖c s‖)
    (hd : Summable fun s => ‖c s * (I * ((2 * Real.pi * m s i / len i : ℝ) : ℂ))‖) (y : Fin (D + 1) → ℝ) :
    HasDerivAt (fun t : ℝ => series a len m c (Function.update y i t)) (series a len m (fun s => c s * (I * ((2 * Real.pi * m s i / len i : ℝ) : ℂ))) y) (y i) := by
  have hg : ∀ s (t : ℝ), HasDerivAt (fun t : ℝ => (c s * planeWave a len (m s) (Function.update y i t)).re)
      (c s * (I * ((2 * Real.pi * m s i / len i : ℝ) : ℂ)) * planeWave a len (m s) (Function.update y i t)).re t := fun s t => by
    have h1 := planeWave_deriv a len (m s) (Function.update y i t) i
    simp only [Function.update_idem, Function.update_self] at h1
    have h2 := Complex.reCLM.hasFDerivAt.comp_hasDerivAt t (h1.const_mul (c s))
    have e : (c s * (I * ((2 * Real.pi * m s i / len i : ℝ) : ℂ)) * planeWave a len (m s) (Function.update y i t)).re =
        Complex.reCLM (c s * (I * ((2 * Real.pi * m s i / len i : ℝ) : ℂ) * planeWave a len (m s) (Function.update y i t))) := by rw [Complex.reCLM_apply, mul_assoc]
    rw [e]
    exact h2
  have := hasDerivAt_tsum hd hg (fun s t => by rw [Real.norm_eq_abs]; exact term_le _ _ _ _ _) (y₀ := y i) (series_hasSum a len m hc (Function.update y i (y i))).summable (y i)
  rw [Function.update_eq_self] at this
  exact this

/-! ## Sampling -/

variable (N : Fin (D + 1) → ℕ) [∀ i, NeZero (N i)] (h : Fin (D + 1) → ℝ)

/-- The index of a wave on the grid. -/
def onGrid (m : Fin (D + 1) → ℤ) : Grid N := fun i => (m i : ZMod (N i))

theorem planeWave_point (hh : ∀ i, 0 < h i) (a : Fin (D + 1) → ℝ) (m : Fin (D + 1) → ℤ) (x : Grid N) : planeWave a (fun i => N i * h i) m (point N h a x) = mode N (onGrid N m) x := by
  unfold planeWave mode point onGrid
  push_cast
  rw [Finset.mul_sum, Complex.exp_sum]
  refine Finset.prod_congr rfl fun i _ => ?_
  have h1 : (((m i * ((x i).val : ℤ) : ℤ)) : ZMod (N i)) = (m i : ZMod (N i)) * x i := by
    push_cast
    rw [ZMod.natCast_zmod_val]
  rw [← h1, ZMod.stdAddChar_coe]
  congr 1
  have hN : (N i : ℂ) ≠ 0 := Nat.cast_ne_zero.2 (NeZero.ne _)
  have hh' : (h i : ℂ) ≠ 0 := ofReal_ne_zero.2 (hh i).ne'
  push_cast
  field_simp
  ring

theorem freq_bounds (n : ℕ) [NeZero n] (k : ZMod n) : -(n : ℤ) ≤ 2 * freq n k ∧ 2 * freq n k < n := by
  rw [freq_eq]
  have := ZMod.val_lt k
  split_ifs <;> omega

theorem freq_alias (n : ℕ) [NeZero n] (m : ℤ) : ∃ t : ℤ, freq n (m : ZMod n) - m = n * t := by
  have h1 := freq_cast n (m : ZMod n)
  exact (ZMod.intCast_eq_intCast_iff_dvd_sub m (freq n (m : ZMod n)) n).1 h1.symm

theorem freq_small (n : ℕ) [NeZero n] (m : ℤ) (hm : 2 * |m| < n) : freq n (m : ZMod n) = m := by
  obtain ⟨t, ht⟩ := freq_alias n m
  obtain ⟨h1, h2⟩ := freq_bounds n (m : ZMod n)
  have h3 := abs_le.1 (le_refl |m|)
  have hn : 0 < (n : ℤ) := by have := NeZero.pos n; omega
  have t1 : t < 1 := by nlinarith
  have t2 : -1 < t := by nlinarith
  obtain rfl : t = 0 := by omega
  omega

/-! ## One wave -/

open scoped Classical in
/-- The weights of the complex to real transform. -/
def weight (k : Grid N) : ℝ := if inHalfMesh N k then (if selfConj N k then 1 else 2) else 0

theorem weight_neg (k : Grid N) : weight N k + weight N (-k) = 2 := by
  classical
  unfold weight
  by_cases hs : selfConj N k
  · have hs' := (selfConj_neg N k).2 hs
    rw [if_pos (half_of_self N k hs), if_pos hs, if_pos (half_of_self N _ hs'), if_pos hs']; norm_num
  · have hs' : ¬selfConj N (-k) := fun h' => hs ((selfConj_neg N k).1 h')
    have := half_neg N k hs
    by_cases hm : inHalfMesh N k
    · rw [if_pos hm, if_neg hs, if_neg (by rw [this]; exact not_not.2 hm)]; norm_num
    · rw [if_neg hm, if_pos (this.2 hm), if_neg hs']; norm_num

theorem weight_nonneg (k : Grid N) : 0 ≤ weight N k := by
  classical
  unfold weight
  split_ifs <;> norm_num

/-- A Fourier multiplier, as both results of the solver are. -/
def multiplier (w : Grid N → ℂ) (rho : Grid N → ℝ) (x : Grid N) : ℝ := ifft N (fun k => w k * fft N rho k) x

theorem multiplier_eq (w : Grid N → ℂ) (rho : Grid N → ℝ) (x : Grid N) : multiplier N w rho x = (∑ k, weight N k * (w k * fft N rho k * mode N k x).re) / ∏ i, (N i : ℝ) := by
  classical
  unfold multiplier ifft weight
  congr 1
  exact Finset.sum_congr rfl fun k _ => by split_ifs <;> simp

theorem multiplier_kernel (w : Grid N → ℂ) (rho : Grid N → ℝ) (x : Grid N) :
    multiplier N w rho x = ∑ z, rho z * ((∑ k, weight N k * (w k * mode N (-k) z * mode N k x).re) / ∏ i, (N i : ℝ)) := by
  rw [multiplier_eq]
  have : ∀ k, weight N k * (w k * fft N rho k * mode N k x).re = ∑ z, rho z * (weight N k * (w k * mode N (-k) z * mode N k x).re) := fun k => by
    rw [fft, Finset.mul_sum, Finset.sum_mul, Complex.re_sum, Finset.mul_sum]
    refine Finset.sum_congr rfl fun z _ => ?_
    rw [show w k * ((rho z : ℂ) * mode N (-k) z) * mode N k x = (rho z : ℂ) * (w k * mode N (-k) z * mode N k x) by ring, Complex.re_ofReal_mul]
    ring
  simp only [this]
  rw [Finset.sum_comm, Finset.sum_div]
  exact Finset.sum_congr rfl fun z _ => by rw [← Finset.mul_sum, mul_div_assoc]

theorem multiplier_hasSum {ι : Type*} (w : Grid N → ℂ) (r : ι → Grid N → ℝ) (rho : Grid N → ℝ) (hr : ∀ z, HasSum (fun s => r s z) (rho z)) (x : Grid N) : HasSum (fun s => multiplier N w (r s) x) (multiplier N w rho x) := by
  simp only [multiplier_kernel]
  exact hasSum_sum fun z _ => (hr z).mul_right _

theorem multiplier_mode (w : Grid N → ℂ) (c : ℂ) (k0 x : Grid N) :
    multiplier N w (fun z => (c * mode N k0 z).re) x = (weight N k0 * (w k0 * c * mode N k0 x).re + weight N (-k0) * (w (-k0) * (starRingEnd ℂ) c * mode N (-k0) x).re) / 2 := by
  have h1 : ∀ k, fft N (fun z => (c * mode N k0 z).re) k = (∏ i, (N i : ℝ) : ℝ) * ((if k = k0 then c / 2 else 0) + if k = -k0 then (starRingEnd ℂ) c / 2 else 0) := fun k => by
    have e1 := fft_mode N k0 k
    have e2 := fft_mode N (-k0) k
    have : fft N (fun z => (c * mode N k0 z).re) k = c / 2 * (∑ z, mode N k0 z * mode N (-k) z) + (starRingEnd ℂ) c / 2 * ∑ z, mode N (-k0) z * mode N (-k) z := by
      rw [Finset.mul_sum, Finset.mul_sum, ← Finset.sum_add_distrib]
      refine Finset.sum_congr rfl fun z _ => ?_
      rw [re_eq_half, map_mul, mode_neg N k0]; ring
    rw [this, e1, e2]
    push_cast
    split_ifs <;> ring
  have hP := (prod_pos N).ne'
  rw [multiplier_eq]
  have h2 : ∀ k, weight N k * (w k * fft N (fun z => (c * mode N k0 z).re) k * mode N k x).re =
      (∏ i, (N i : ℝ)) * ((if k = k0 then weight N k * (w k * c * mode N k x).re / 2 else 0) + if k = -k0 then weight N k * (w k * (starRingEnd ℂ) c * mode N k x).re / 2 else 0) := fun k => by
    rw [h1, show w k * (((∏ i, (N i : ℝ) : ℝ) : ℂ) * ((if k = k0 then c / 2 else 0) + if k = -k0 then (starRingEnd ℂ) c / 2 else 0)) * mode N k x =
      ((∏ i, (N i : ℝ) : ℝ) : ℂ) * (((1 / 2 : ℝ) : ℂ) * ((if k = k0 then w k * c * mode N k x else 0) + if k = -k0 then w k * (starRingEnd ℂ) c * mode N k x else 0)) by
        push_cast; split_ifs <;> ring, Complex.re_ofReal_mul, Complex.re_ofReal_mul, Complex.add_re]
    split_ifs <;> try simp only [Complex.zero_re]
    all_goals ring
  simp only [h2]
  rw [← Finset.mul_sum, Finset.sum_add_distrib, Finset.sum_ite_eq', Finset.sum_ite_eq', if_pos (Finset.mem_univ _), if_pos (Finset.mem_univ _), mul_div_cancel_left₀ _ hP]
  ring

/-- A wave for which the multiplier is real in the sense of real functions. -/
theorem multiplier_good (w : Grid N → ℂ) (c : ℂ) (k0 x : Grid N) (hw : w (-k0) = (starRingEnd ℂ) (w k0)) : multiplier N w (fun z => (c * mode N k0 z).re) x = (w k0 * c * mode N k0 x).re := by
  rw [multiplier_mode, hw, mode_neg, ← map_mul, ← map_mul, Complex.conj_re, ← add_mul, weight_neg]
  ring

theorem mode_norm (k x : Grid N) : ‖mode N k x‖ = 1 := by
  have h1 := mode_mul_neg N k x
  rw [mode_neg, Complex.mul_conj] at h1
  have h2 : Complex.normSq (mode N k x) = 1 := by exact_mod_cast h1
  rw [Complex.normSq_eq_norm_sq] at h2
  nlinarith [norm_nonneg (mode N k x)]

theorem multiplier_bound (w : Grid N → ℂ) (c : ℂ) (k0 x : Grid N) {W : ℝ} (hw : ∀ k, ‖w k‖ ≤ W) : |multiplier N w (fun z => (c * mode N k0 z).re) x| ≤ W * ‖c‖ := by
  have h1 : ∀ k (d : ℂ), ‖d‖ = ‖c‖ → |(w k * d * mode N k x).re| ≤ W * ‖c‖ := fun k d hd => by
    refine (Complex.abs_re_le_norm _).trans ?_
    rw [norm_mul, norm_mul, mode_norm, mul_one, hd]
    exact mul_le_mul_of_nonneg_right (hw k) (norm_nonneg _)
  have a1 := h1 k0 c rfl
  have a2 := h1 (-k0) ((starRingEnd ℂ) c) (RCLike.norm_conj c)
  have w0 := weight_nonneg N k0
  have w1 := weight_nonneg N (-k0)
  have w2 := weight_neg N k0
  rw [multiplier_mode, abs_div, abs_two, div_le_iff₀ two_pos]
  refine (abs_add_le _ _).trans ?_
  rw [abs_mul, abs_mul, abs_of_nonneg w0, abs_of_nonneg w1]
  calc _ ≤ weight N k0 * (W * ‖c‖) + weight N (-k0) * (W * ‖c‖) := add_le_add (mul_le_mul_of_nonneg_left a1 w0) (mul_le_mul_of_nonneg_left a2 w1)
    _ = W * ‖c‖ * 2 := by rw [← add_mul, w2]; ring

theorem potential_multiplier (rho : Grid N → ℝ) (x : Grid N) : potential N h rho x = multiplier N (fun k => (gain N h k : ℂ)) rho x := by
  unfold potential multiplier
  congr 1
  funext k
  exact solve_gain N h rho k

theorem field_multiplier (rho : Grid N → ℝ) (i : Fin (D + 1)) (x : Grid N) : electricField N h rho i x = multiplier N (fun k => -I * (wave N h i (k i) : ℂ) * (gain N h k : ℂ)) rho x := by
  unfold electricField multiplier
  congr 1
  funext k
  rw [negDiff, solve_gain]; ring

/-! ## Sizes -/

theorem sizes {S κ B : ℝ} (hB : 0 < B) (h1 : κ ^ 2 ≤ S) (h2 : 1 / B ^ 2 ≤ S) : 0 ≤ 1 / S ∧ 1 / S ≤ B ^ 2 ∧ κ ^ 2 * (1 / S) ≤ 1 ∧ |κ| * (1 / S) ≤ B := by
  have hB2 : 0 < 1 / B ^ 2 := by positivity
  have hS : 0 < S := lt_of_lt_of_le hB2 h2
  have e1 : 1 / S ≤ B ^ 2 := by
    rw [div_le_iff₀ hS]
    rw [div_le_iff₀ (by positivity)] at h2
    linarith
  have e2 : κ ^ 2 * (1 / S) ≤ 1 := by rw [mul_one_div, div_le_one hS]; exact h1
  refine ⟨by positivity, e1, e2, abs_le_of_sq_le_sq' (a := |κ| * (1 / S)) ?_ hB.le |>.2⟩
  calc (|κ| * (1 / S)) ^ 2 = κ ^ 2 * (1 / S) * (1 / S) := by rw [mul_pow, sq_abs]; ring
    _ ≤ 1 * B ^ 2 := mul_le_mul e2 e1 (by positivity) zero_le_one
    _ = B ^ 2 := one_mul _

/-- The exact inverse of minus the Laplace operator on a wave. -/
def invLap (len : Fin (D + 1) → ℝ) (m : Fin (D + 1) → ℤ) : ℝ := if m = 0 then 0 else 1 / ∑ i, (2 * Real.pi * m i / len i) ^ 2

theorem invLap_sizes {len : Fin (D + 1) → ℝ} {L : ℝ} (hlen : ∀ i, 0 < len i) (hL : ∀ i, len i ≤ L) (m : Fin (D + 1) → ℤ) (i : Fin (D + 1)) :
    0 ≤ invLap len m ∧ invLap len m ≤ (L / (2 * Real.pi)) ^ 2 ∧ (2 * Real.pi * m i / len i) ^ 2 * invLap len m ≤ 1 ∧ |2 * Real.pi * m i / len i| * invLap len m ≤ L / (2 * Real.pi) := by
  have hLpos : 0 < L := (hlen i).trans_le (hL i)
  have hB : 0 < L / (2 * Real.pi) := by have := Real.pi_pos; positivity
  unfold invLap
  split_ifs with hm
  · simp only [mul_zero]
    exact ⟨le_rfl, by positivity, zero_le_one, hB.le⟩
  · refine sizes hB (Finset.single_le_sum (f := fun j => (2 * Real.pi * m j / len j) ^ 2) (fun j _ => sq_nonneg _) (Finset.mem_univ i)) ?_
    obtain ⟨j, hj⟩ := Function.ne_iff.1 hm
    refine le_trans ?_ (Finset.single_le_sum (f := fun j => (2 * Real.pi * m j / len j) ^ 2) (fun j _ => sq_nonneg _) (Finset.mem_univ j))
    have hj1 : (1 : ℝ) ≤ (m j : ℝ) ^ 2 := by
      have h1 : (1 : ℤ) ≤ (m j) ^ 2 := (one_le_sq_iff_one_le_abs _).2 (Int.one_le_abs hj)
      exact_mod_cast h1
    rw [div_pow, one_div_div, div_pow, mul_pow]
    have hp := Real.pi_pos
    have hl := hlen j
    rw [div_le_div_iff₀ (by positivity) (by positivity)]
    have h3 : len j ^ 2 ≤ L ^ 2 := pow_le_pow_left₀ hl.le (hL j) 2
    nlinarith [mul_le_mul hj1 h3 (by positivity) (by positivity), sq_nonneg (2 * Real.pi), mul_le_mul_of_nonneg_left (mul_le_mul hj1 h3 (by positivity) (by positivity)) (sq_nonneg (2 * Real.pi))]

theorem gain_neg (k : Grid N) : gain N h (-k) = gain N h k := by simp only [gain, neg_eq_zero, laplace_neg]

theorem gain_sizes (hh : ∀ i, 0 < h i) {L : ℝ} (hL : ∀ i, N i * h i ≤ L) (k : Grid N) (i : Fin (D + 1)) :
    0 ≤ gain N h k ∧ gain N h k ≤ (L / (2 * Real.pi)) ^ 2 ∧ |wave N h i (k i)| * gain N h k ≤ L / (2 * Real.pi) := by
  have hLpos : 0 < L := (mul_pos (Nat.cast_pos.2 (NeZero.pos (N i))) (hh i)).trans_le (hL i)
  have hB : 0 < L / (2 * Real.pi) := by have := Real.pi_pos; positivity
  unfold gain
  split_ifs with hk
  · simp only [mul_zero]
    exact ⟨le_rfl, by positivity, hB.le⟩
  · have := sizes (S := laplace N h k) (κ := wave N h i (k i)) hB
      (by rw [sq]; exact Finset.single_le_sum (f := fun i => wave N h i (k i) * wave N h i (k i)) (fun i _ => mul_self_nonneg _) (Finset.mem_univ i))
      (by rw [div_pow, one_div_div, ← div_pow]; exact laplace_ge N h hh L hL k hk)
    exact ⟨this.1, this.2.1, this.2.2.2⟩

/-- A wave which the grid resolves has its own wave number there. -/
theorem resolved (m : Fin (D + 1) → ℤ) (hm : ∀ i, 2 * |m i| < N i) : (∀ i, wave N h i (onGrid N m i) = 2 * Real.pi * m i / (N i * h i)) ∧ (∀ i, wave N h i ((-onGrid N m) i) = -wave N h i (onGrid N m i)) ∧
    gain N h (onGrid N m) = invLap (fun i => N i * h i) m := by
  have h1 : ∀ i, freq (N i) (onGrid N m i) = m i := fun i => freq_small (N i) (m i) (hm i)
  have h2 : ∀ i, freq (N i) ((-onGrid N m) i) = -m i := fun i => by
    have := freq_small (N i) (-m i) (by rw [abs_neg]; exact hm i)
    rw [← this]
    simp [onGrid]
  have h3 : ∀ i, wave N h i (onGrid N m i) = 2 * Real.pi * m i / (N i * h i) := fun i => by rw [wave, h1]; ring
  have hz : onGrid N m = 0 ↔ m = 0 := by
    constructor
    · intro h0
      funext i
      have := h1 i
      rw [h0, Pi.zero_apply, (freq_eq_zero (N i) 0).2 rfl] at this
      simpa using this.symm
    · rintro rfl
      funext i
      simp [onGrid]
  refine ⟨h3, fun i => by rw [wave, h2, wave, h1]; push_cast; ring, ?_⟩
  unfold gain invLap
  by_cases h0 : m = 0
  · rw [if_pos h0, if_pos (hz.2 h0)]
  · rw [if_neg h0, if_neg (fun h' => h0 (hz.1 h')), laplace]
    congr 1
    exact Finset.sum_congr rfl fun i _ => by rw [h3]; ring

theorem planeWave_period {a len : Fin (D + 1) → ℝ} (hlen : ∀ i, 0 < len i) (m : Fin (D + 1) → ℤ) (y : Fin (D + 1) → ℝ) (i : Fin (D + 1)) :
    planeWave a len m (Function.update y i (y i + len i)) = planeWave a len m y := by
  have h1 : ∑ j, 2 * Real.pi * m j / len j * (Function.update y i (y i + len i) j - a j) = ∑ j, 2 * Real.pi * m j / len j * (y j - a j) + 2 * Real.pi * m i := by
    have h2 : ∀ j, 2 * Real.pi * m j / len j * (Function.update y i (y i + len i) j - a j) = 2 * Real.pi * m j / len j * (y j - a j) + if j = i then 2 * Real.pi * m j else 0 := fun j => by
      by_cases hj : j = i
      · subst hj
        rw [Function.update_self, if_pos rfl]
        field_simp [(hlen j).ne']
        ring
      · rw [Function.update_of_ne hj, if_neg hj, add_zero]
    simp only [h2, Finset.sum_add_distrib]
    rw [Finset.sum_ite_eq' Finset.univ i, if_pos (Finset.mem_univ _)]
  rw [planeWave, h1, planeWave]
  push_cast
  rw [mul_add, Complex.exp_add, show I * (2 * (Real.pi : ℂ) * (m i : ℂ)) = (m i : ℂ) * (2 * (Real.pi : ℂ) * I) by ring, Complex.exp_int_mul_two_pi_mul_I, mul_one]

theorem planeWave_zero (a len : Fin (D + 1) → ℝ) (y : Fin (D + 1) → ℝ) : planeWave a len 0 y = 1 := by simp [planeWave]

open scoped Classical in
/-- C120: let the density be a series of waves with absolutely summable coefficients on the periodic domain. There is an exact potential `Φ`: periodic, with partial derivatives `Q i` and second derivatives `R i`,
and `- sum_i R i` the density minus its mean. The computed potential differs from it, and the computed field from `- Q i`, by at most `(L / 2 pi)^2` and `L / pi` times the sum of the coefficients of the waves which the grid does
not resolve: all resolved waves are treated exactly, on grids with odd or even numbers of points. -/
theorem c120_accuracy (hh : ∀ i, 0 < h i) {L : ℝ} (hL : ∀ i, N i * h i ≤ L) (a : Fin (D + 1) → ℝ) {ι : Type*} (m : ι → Fin (D + 1) → ℤ) (c : ι → ℂ) (hc : Summable fun s => ‖c s‖) :
    ∃ (Φ : (Fin (D + 1) → ℝ) → ℝ) (Q R : Fin (D + 1) → (Fin (D + 1) → ℝ) → ℝ),
      (∀ y i, HasDerivAt (fun t => Φ (Function.update y i t)) (Q i y) (y i)) ∧
      (∀ y i, HasDerivAt (fun t => Q i (Function.update y i t)) (R i y) (y i)) ∧
      (∀ y, -∑ i, R i y = series a (fun i => N i * h i) m c y - ∑' s, if m s = 0 then (c s).re else 0) ∧
      (∀ y i, Φ (Function.update y i (y i + N i * h i)) = Φ y) ∧
      (∀ x, |potential N h (fun z => series a (fun i => N i * h i) m c (point N h a z)) x - Φ (point N h a x)| ≤ (L / (2 * Real.pi)) ^ 2 * ∑' s, if ∀ i, 2 * |m s i| < N i then 0 else ‖c s‖) ∧
      ∀ i x, |electricField N h (fun z => series a (fun i => N i * h i) m c (point N h a z)) i x - -Q i (point N h a x)| ≤ L / Real.pi * ∑' s, if ∀ i, 2 * |m s i| < N i then 0 else ‖c s‖ := by
  obtain ⟨len, hlen⟩ : ∃ len : Fin (D + 1) → ℝ, len = fun i => N i * h i := ⟨_, rfl⟩
  have hpos : ∀ i, 0 < len i := fun i => by rw [hlen]; exact mul_pos (Nat.cast_pos.2 (NeZero.pos (N i))) (hh i)
  have hLen : ∀ i, len i ≤ L := fun i => by rw [hlen]; exact hL i
  have hLpos : 0 < L := (hpos 0).trans_le (hLen 0)
  obtain ⟨B, hBdef⟩ : ∃ B, B = L / (2 * Real.pi) := ⟨_, rfl⟩
  have hB : 0 < B := by rw [hBdef]; have := Real.pi_pos; positivity
  have sz := fun s i => invLap_sizes hpos hLen (m s) i
  simp only [← hBdef] at sz
  obtain ⟨g, hg⟩ : ∃ g : ι → ℝ, g = fun s => invLap len (m s) := ⟨_, rfl⟩
  obtain ⟨κ, hκ⟩ : ∃ κ : ι → Fin (D + 1) → ℝ, κ = fun s i => 2 * Real.pi * m s i / len i := ⟨_, rfl⟩
  have sg : ∀ s i, 0 ≤ g s ∧ g s ≤ B ^ 2 ∧ κ s i ^ 2 * g s ≤ 1 ∧ |κ s i| * g s ≤ B := fun s i => by rw [hg, hκ]; exact sz s i
  have n0 : ∀ s, ‖c s * (g s : ℂ)‖ = ‖c s‖ * g s := fun s => by rw [norm_mul, Complex.norm_real, Real.norm_eq_abs, abs_of_nonneg (sg s 0).1]
  have n1 : ∀ s i, ‖c s * (g s : ℂ) * (I * (κ s i : ℂ))‖ = ‖c s‖ * (|κ s i| * g s) := fun s i => by rw [norm_mul, n0, norm_mul, Complex.norm_I, one_mul, Complex.norm_real, Real.norm_eq_abs]; ring
  have n2 : ∀ s i, ‖c s * (g s : ℂ) * (I * (κ s i : ℂ)) * (I * (κ s i : ℂ))‖ = ‖c s‖ * (κ s i ^ 2 * g s) := fun s i => by
    rw [norm_mul, n1, norm_mul, Complex.norm_I, one_mul, Complex.norm_real, Real.norm_eq_abs, ← sq_abs]; ring
  have s0 : Summable fun s => ‖c s * (g s : ℂ)‖ := Summable.of_nonneg_of_le (fun s => norm_nonneg _) (fun s => by rw [n0]; exact mul_le_mul_of_nonneg_left (sg s 0).2.1 (norm_nonneg _)) (hc.mul_right (B ^ 2))
  have s1 : ∀ i, Summable fun s => ‖c s * (g s : ℂ) * (I * (κ s i : ℂ))‖ := fun i => Summable.of_nonneg_of_le (fun s => norm_nonneg _) (fun s => by rw [n1]; exact mul_le_mul_of_nonneg_left (sg s i).2.2.2 (norm_nonneg _)) (hc.mul_right B)
  have s2 : ∀ i, Summable fun s => ‖c s * (g s : ℂ) * (I * (κ s i : ℂ)) * (I * (κ s i : ℂ))‖ := fun i => Summable.of_nonneg_of_le (fun s => norm_nonneg _) (fun s => by rw [n2]; exact mul_le_mul_of_nonneg_left (sg s i).2.2.1 (norm_nonneg _)) (hc.mul_right 1)
  have hrest : Summable fun s => if ∀ i, 2 * |m s i| < N i then 0 else ‖c s‖ := Summable.of_nonneg_of_le (fun s => by split_ifs <;> simp) (fun s => by split_ifs <;> simp) hc
  have hsamp : ∀ z : Grid N, HasSum (fun s => (c s * mode N (onGrid N (m s)) z).re) (series a len m c (point N h a z)) := fun z => by
    have := series_hasSum a len m hc (point N h a z)
    simpa only [hlen, planeWave_point N h hh] using this
  have hpt : ∀ s x, planeWave a len (m s) (point N h a x) = mode N (onGrid N (m s)) x := fun s x => by rw [hlen]; exact planeWave_point N h hh a (m s) x
  refine ⟨series a len m fun s => c s * (g s : ℂ), fun i => series a len m fun s => c s * (g s : ℂ) * (I * (κ s i : ℂ)), fun i => series a len m fun s => c s * (g s : ℂ) * (I * (κ s i : ℂ)) * (I * (κ s i : ℂ)),
    fun y i => ?_, fun y i => ?_, fun y => ?_, fun y i => ?_, fun x => ?_, fun i x => ?_⟩
  · have := series_deriv a len m (c := fun s => c s * (g s : ℂ)) i s0 (by simpa only [hκ] using s1 i) y
    simpa only [hκ] using this
  · have := series_deriv a len m (c := fun s => c s * (g s : ℂ) * (I * (κ s i : ℂ))) i (s1 i) (by simpa only [hκ] using s2 i) y
    simpa only [hκ] using this
  · rw [← hlen]
    have l := (hasSum_sum (s := Finset.univ) fun i _ => series_hasSum a len m (s2 i) y).neg
    have hm0 : Summable fun s => if m s = 0 then (c s).re else 0 := Summable.of_norm_bounded hc fun s => by
      split_ifs
      · rw [Real.norm_eq_abs]; exact Complex.abs_re_le_norm _
      · simp
    have r := (series_hasSum a len m hc y).sub hm0.hasSum
    refine l.unique ?_
    convert r using 1
    funext s
    have e1 : ∀ i, (c s * (g s : ℂ) * (I * (κ s i : ℂ)) * (I * (κ s i : ℂ)) * planeWave a len (m s) y).re = -(κ s i ^ 2 * g s * (c s * planeWave a len (m s) y).re) := fun i => by
      rw [← Complex.re_ofReal_mul, ← Complex.neg_re]
      congr 1
      push_cast
      linear_combination (c s * (g s : ℂ) * (κ s i : ℂ) ^ 2 * planeWave a len (m s) y) * Complex.I_sq
    have e2 : ∑ i, κ s i ^ 2 * g s = if m s = 0 then 0 else 1 := by
      rw [← Finset.sum_mul, hg, hκ]
      simp only [invLap]
      by_cases h0 : m s = 0
      · rw [if_pos h0, if_pos h0, mul_zero]
      · rw [if_neg h0, if_neg h0]
        refine mul_one_div_cancel (ne_of_gt ?_)
        obtain ⟨j, hj⟩ := Function.ne_iff.1 h0
        refine Finset.sum_pos' (fun _ _ => sq_nonneg _) ⟨j, Finset.mem_univ j, ?_⟩
        have : (m s j : ℝ) ≠ 0 := Int.cast_ne_zero.2 hj
        have := hpos j
        have := Real.pi_pos
        positivity
    simp only [e1, Finset.sum_neg_distrib, neg_neg]
    rw [← Finset.sum_mul, e2]
    split_ifs with h0
    · rw [h0, planeWave_zero, mul_one]; ring
    · ring
  · rw [show (N i : ℝ) * h i = len i by rw [hlen]]
    simp only [series, planeWave_period hpos]
  · rw [← hlen, ← hBdef]
    have l := multiplier_hasSum N (fun k => (gain N h k : ℂ)) _ _ hsamp x
    rw [← potential_multiplier] at l
    have r := series_hasSum a len m s0 (point N h a x)
    have := (l.sub r).norm_le_of_bounded (hrest.hasSum.mul_left (B ^ 2)) fun s => ?_
    · rwa [Real.norm_eq_abs] at this
    rw [Real.norm_eq_abs, hpt, multiplier_good N _ _ _ _ (by rw [gain_neg, Complex.conj_ofReal]), show (gain N h (onGrid N (m s)) : ℂ) * c s * mode N (onGrid N (m s)) x = (gain N h (onGrid N (m s)) : ℂ) * (c s * mode N (onGrid N (m s)) x) by ring,
      show c s * (g s : ℂ) * mode N (onGrid N (m s)) x = (g s : ℂ) * (c s * mode N (onGrid N (m s)) x) by ring, Complex.re_ofReal_mul, Complex.re_ofReal_mul, ← sub_mul, abs_mul]
    split_ifs with hres
    · rw [(resolved N h (m s) hres).2.2, ← hlen, hg, sub_self, abs_zero, zero_mul, mul_zero]
    · have g1 := gain_sizes N h hh hL (onGrid N (m s)) 0
      rw [← hBdef] at g1
      have g2 := sg s 0
      refine mul_le_mul (abs_le.2 ⟨by linarith [g1.1, g2.2.1], by linarith [g1.2.1, g2.1]⟩) ?_ (abs_nonneg _) (by positivity)
      refine (Complex.abs_re_le_norm _).trans ?_
      rw [norm_mul, mode_norm, mul_one]
  · rw [← hlen, show L / Real.pi = 2 * B by rw [hBdef]; field_simp]
    have l := multiplier_hasSum N (fun k => -I * (wave N h i (k i) : ℂ) * (gain N h k : ℂ)) _ _ hsamp x
    rw [← field_multiplier] at l
    have r := (series_hasSum a len m (s1 i) (point N h a x)).neg
    have := (l.sub r).norm_le_of_bounded (hrest.hasSum.mul_left (2 * B)) fun s => ?_
    · rwa [Real.norm_eq_abs] at this
    rw [Real.norm_eq_abs, hpt]
    split_ifs with hres
    · obtain ⟨e1, e2, e3⟩ := resolved N h (m s) hres
      rw [multiplier_good N _ _ _ _ (by rw [gain_neg, e2]; simp), e1, e3, ← hlen, mul_zero]
      have : -I * ((2 * Real.pi * m s i / (N i * h i) : ℝ) : ℂ) * (invLap len (m s) : ℂ) * c s * mode N (onGrid N (m s)) x = -(c s * (g s : ℂ) * (I * (κ s i : ℂ)) * mode N (onGrid N (m s)) x) := by
        rw [hg, hκ, hlen]; ring
      rw [this, Complex.neg_re, sub_self, abs_zero]
    · have b1 := multiplier_bound N (fun k => -I * (wave N h i (k i) : ℂ) * (gain N h k : ℂ)) (c s) (onGrid N (m s)) x (W := B) fun k => by
        have := gain_sizes N h hh hL k i
        rw [← hBdef] at this
        rw [norm_mul, norm_mul, norm_neg, Complex.norm_I, one_mul, Complex.norm_real, Complex.norm_real, Real.norm_eq_abs, Real.norm_eq_abs, abs_of_nonneg this.1]
        exact this.2.2
      have b2 : |(c s * (g s : ℂ) * (I * (κ s i : ℂ)) * mode N (onGrid N (m s)) x).re| ≤ B * ‖c s‖ := by
        refine (Complex.abs_re_le_norm _).trans ?_
        rw [norm_mul, n1, mode_norm, mul_one, mul_comm]
        exact mul_le_mul_of_nonneg_right (sg s i).2.2.2 (norm_nonneg _)
      rw [sub_neg_eq_add]
      refine (abs_add_le _ _).trans ?_
      linarith

open scoped Classical in
/-- C120 (order): if the coefficients times the power `p` of the wave numbers are summable (the density has `p` derivatives with summable coefficients), and there are at least `n` points in every dimension, then
what the grid does not resolve is at most `(2 / n)^p` times this sum: the order of the solver is that of the smoothness of the density. -/
theorem c120_order {n : ℕ} (hn : 0 < n) (hN : ∀ i, n ≤ N i) {ι : Type*} (m : ι → Fin (D + 1) → ℤ) (c : ι → ℂ) (hc : Summable fun s => ‖c s‖) (p : ℕ) (hp : Summable fun s => ‖c s‖ * (∑ i, |(m s i : ℝ)|) ^ p) :
    ∑' s, (if ∀ i, 2 * |m s i| < N i then 0 else ‖c s‖) ≤ (2 / n) ^ p * ∑' s, ‖c s‖ * (∑ i, |(m s i : ℝ)|) ^ p := by
  have hrest : Summable fun s => if ∀ i, 2 * |m s i| < N i then 0 else ‖c s‖ := Summable.of_nonneg_of_le (fun s => by split_ifs <;> simp) (fun s => by split_ifs <;> simp) hc
  have hn' : (0 : ℝ) < n := Nat.cast_pos.2 hn
  refine hasSum_le (fun s => ?_) hrest.hasSum (hp.hasSum.mul_left ((2 / (n : ℝ)) ^ p))
  split_ifs with hs
  · positivity
  · obtain ⟨i, hi⟩ := not_forall.1 hs
    have h1 : (N i : ℝ) ≤ 2 * |(m s i : ℝ)| := by
      have : (N i : ℤ) ≤ 2 * |m s i| := not_lt.1 hi
      exact_mod_cast this
    have h2 : (n : ℝ) ≤ N i := Nat.cast_le.2 (hN i)
    have h3 : |(m s i : ℝ)| ≤ ∑ j, |(m s j : ℝ)| := Finset.single_le_sum (f := fun j => |(m s j : ℝ)|) (fun j _ => abs_nonneg _) (Finset.mem_univ i)
    have h4 : 1 ≤ (2 / (n : ℝ)) * ∑ j, |(m s j : ℝ)| := by
      rw [div_mul_eq_mul_div, le_div_iff₀ hn']; linarith
    have h5 := one_le_pow₀ h4 (n := p)
    rw [mul_pow] at h5
    calc ‖c s‖ = ‖c s‖ * 1 := (mul_one _).symm
      _ ≤ ‖c s‖ * ((2 / (n : ℝ)) ^ p * (∑ j, |(m s j : ℝ)|) ^ p) := mul_le_mul_of_nonneg_left h5 (norm_nonneg _)
      _ = _ := by ring

/-! ## Non-vacuity -/

/-- A density in two dimensions with infinitely many waves, on a grid of 6 times 5 points: the sums of the theorems exist for every `p ≤ 2`, and the density is not one that the grid resolves. -/
example : ∃ (m : ℕ → Fin 2 → ℤ) (c : ℕ → ℂ), (Summable fun s => ‖c s‖) ∧ (Summable fun s => ‖c s‖ * (∑ i, |(m s i : ℝ)|) ^ 2) ∧ ¬∀ s, c s ≠ 0 → ∀ i, 2 * |m s i| < ((![6, 5] : Fin 2 → ℕ) i : ℤ) := by
  refine ⟨fun s => ![s, s], fun s => ((1 / ((s : ℝ) ^ 4) : ℝ) : ℂ), ?_, ?_, fun h' => ?_⟩
  · simp only [Complex.norm_real]
    exact (Real.summable_one_div_nat_pow.2 (by norm_num : 1 < 4)).norm
  · refine Summable.of_nonneg_of_le (fun s => by positivity) (fun s => ?_) ((Real.summable_one_div_nat_pow.2 (by norm_num : 1 < 2)).mul_left 4)
    rw [Complex.norm_real, Real.norm_eq_abs, abs_of_nonneg (by positivity), Fin.sum_univ_two]
    simp only [Matrix.cons_val_zero, Matrix.cons_val_one, Int.cast_natCast, Nat.abs_cast]
    rcases Nat.eq_zero_or_pos s with rfl | hs
    · norm_num
    · have : (0 : ℝ) < s := Nat.cast_pos.2 hs
      rw [← sub_nonneg]
      have e : 4 * (1 / (s : ℝ) ^ 2) - 1 / (s : ℝ) ^ 4 * ((s : ℝ) + s) ^ 2 = 0 := by field_simp; ring
      rw [e]
  · have := h' 3 (by norm_num) 0
    simp at this

end

end Verif.Fft
