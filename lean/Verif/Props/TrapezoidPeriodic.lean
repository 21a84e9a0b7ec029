import Verif.Props.Quadrature
import Mathlib.Analysis.SpecialFunctions.Complex.Circle
import Mathlib.Analysis.SpecialFunctions.Trigonometric.Deriv
import Mathlib.Topology.Algebra.InfiniteSum.Real
import Mathlib.Analysis.PSeries
import Mathlib.Tactic.Linarith
import Mathlib.Tactic.Positivity

/-!
# C123: the trapezoid rule on a uniform periodic grid

Specification: the integrand is a Fourier series with absolutely summable coefficients on the periodic domain which starts at `a` and has the length `L`.
-/

namespace Verif.Quadrature
open Finset Complex

/-- The real function with the Fourier coefficients `c` on the periodic domain which starts at `a` and has the length `L`. -/
noncomputable def fourier (a L : ℝ) (c : ℤ → ℂ) (y : ℝ) : ℝ := ∑' m : ℤ, (c m * exp (((2 * Real.pi * m / L * (y - a) : ℝ) : ℂ) * I)).re

theorem hasSum_of_eq {f g : ℤ → ℝ} {s : ℝ} (h : HasSum f s) (e : ∀ m, g m = f m) : HasSum g s := by rw [show g = f from funext e]; exact h

theorem term_le (z : ℂ) (t : ℝ) : |(z * exp ((t : ℂ) * I)).re| ≤ ‖z‖ := by
  refine (Complex.abs_re_le_norm _).trans ?_
  rw [norm_mul, Complex.norm_exp_ofReal_mul_I, mul_one]

theorem fourier_hasSum (a L : ℝ) {c : ℤ → ℂ} (hc : Summable fun m => ‖c m‖) (y : ℝ) :
    HasSum (fun m : ℤ => (c m * exp (((2 * Real.pi * m / L * (y - a) : ℝ) : ℂ) * I)).re) (fourier a L c y) :=
  (Summable.of_norm_bounded hc fun m => by rw [Real.norm_eq_abs]; exact term_le _ _).hasSum

theorem term_re (z : ℂ) (t : ℝ) : (z * exp ((t : ℂ) * I)).re = z.re * Real.cos t - z.im * Real.sin t := by
  rw [mul_re, Complex.exp_ofReal_mul_I_re, Complex.exp_ofReal_mul_I_im]

/-- The integral of one wave over the period. -/
theorem wave_integral (a : ℝ) {L : ℝ} (hL : 0 < L) (z : ℂ) (m : ℤ) :
    ∫ y in a..(a + L), (z * exp (((2 * Real.pi * m / L * (y - a) : ℝ) : ℂ) * I)).re = if m = 0 then L * z.re else 0 := by
  simp only [term_re]
  split_ifs with hm
  · subst hm
    simp
  · obtain ⟨κ, hκ⟩ : ∃ κ, κ = 2 * Real.pi * m / L := ⟨_, rfl⟩
    have hκ0 : κ ≠ 0 := by
      rw [hκ]; have := Real.pi_pos; have : (m : ℝ) ≠ 0 := Int.cast_ne_zero.2 hm; positivity
    rw [← hκ]
    have hd : ∀ y : ℝ, HasDerivAt (fun y => (z.re * Real.sin (κ * (y - a)) + z.im * Real.cos (κ * (y - a))) / κ) (z.re * Real.cos (κ * (y - a)) - z.im * Real.sin (κ * (y - a))) y := by
      intro y
      have h1 : HasDerivAt (fun y => κ * (y - a)) κ y := by simpa using ((hasDerivAt_id y).sub_const a).const_mul κ
      have h2 := (((h1.sin.const_mul z.re).fun_add (h1.cos.const_mul z.im)).div_const κ)
      refine h2.congr_deriv ?_
      rw [div_eq_iff hκ0]
      ring
    rw [intervalIntegral.integral_eq_sub_of_hasDerivAt (fun y _ => hd y) ((by fun_prop : Continuous fun y : ℝ => z.re * Real.cos (κ * (y - a)) - z.im * Real.sin (κ * (y - a))).intervalIntegrable _ _)]
    have e : κ * (a + L - a) = m * (2 * Real.pi) := by rw [hκ]; field_simp; ring
    have e1 : Real.sin (m * (2 * Real.pi)) = 0 := by
      have := Real.sin_int_mul_pi (2 * m); rw [← this]; congr 1; push_cast; ring
    have e2 : Real.cos (m * (2 * Real.pi)) = 1 := Real.cos_int_mul_two_pi m
    rw [e, e1, e2]
    simp

/-- The integral of the series over the period is the length times the mean. -/
theorem fourier_integral (a : ℝ) {L : ℝ} (hL : 0 < L) {c : ℤ → ℂ} (hc : Summable fun m => ‖c m‖) : ∫ y in a..(a + L), fourier a L c y = L * (c 0).re := by
  obtain ⟨F, hF⟩ : ∃ F : ℤ → C(ℝ, ℝ), ∀ m y, F m y = (c m * exp (((2 * Real.pi * m / L * (y - a) : ℝ) : ℂ) * I)).re :=
    ⟨fun m => ⟨fun y => (c m * exp (((2 * Real.pi * m / L * (y - a) : ℝ) : ℂ) * I)).re, by simp only [term_re]; fun_prop⟩, fun _ _ => rfl⟩
  have hsum : Summable fun m => ‖(F m).restrict (⟨Set.uIcc a (a + L), isCompact_uIcc⟩ : TopologicalSpace.Compacts ℝ)‖ := by
    refine Summable.of_nonneg_of_le (fun _ => norm_nonneg _) (fun m => ?_) hc
    rw [ContinuousMap.norm_le _ (norm_nonneg _)]
    intro y
    rw [ContinuousMap.restrict_apply, hF, Real.norm_eq_abs]
    exact term_le _ _
  have h := intervalIntegral.hasSum_intervalIntegral_of_summable_norm hsum
  simp only [hF] at h
  have h2 : HasSum (fun m : ℤ => ∫ y in a..(a + L), (c m * exp (((2 * Real.pi * m / L * (y - a) : ℝ) : ℂ) * I)).re) (L * (c 0).re) := by
    simp only [wave_integral a hL]
    convert hasSum_ite_eq (0 : ℤ) (L * (c 0).re) using 2 with m
    split_ifs with hm
    · rw [hm]
    · rfl
  exact h.unique h2

/-- The sum of one wave over the points of the grid. -/
theorem wave_sum {n : ℕ} (hn : 1 ≤ n) (a : ℝ) {L : ℝ} (hL : 0 < L) (z : ℂ) (m : ℤ) :
    ∑ i ∈ range n, (z * exp (((2 * Real.pi * m / L * ((a + i * (L / n)) - a) : ℝ) : ℂ) * I)).re = if (n : ℤ) ∣ m then n * z.re else 0 := by
  have hn' : (n : ℝ) ≠ 0 := by positivity
  have hnc : (n : ℂ) ≠ 0 := Nat.cast_ne_zero.2 (by omega)
  have hpi : (2 * Real.pi * I : ℂ) ≠ 0 := Complex.two_pi_I_ne_zero
  obtain ⟨ζ, hζ⟩ : ∃ ζ, ζ = exp (2 * Real.pi * I * m / n) := ⟨_, rfl⟩
  have hpow : ∀ i : ℕ, exp (((2 * Real.pi * m / L * ((a + i * (L / n)) - a) : ℝ) : ℂ) * I) = ζ ^ i := by
    intro i
    rw [hζ, ← Complex.exp_nat_mul]
    congr 1
    have : 2 * Real.pi * m / L * ((a + i * (L / n)) - a) = 2 * Real.pi * m * i / n := by field_simp; ring
    rw [this]; push_cast; field_simp
  have hz1 : ζ = 1 ↔ (n : ℤ) ∣ m := by
    rw [hζ, Complex.exp_eq_one_iff]
    constructor
    · rintro ⟨t, ht⟩
      have : (m : ℂ) = n * t := by
        have h1 : 2 * Real.pi * I * m = (2 * Real.pi * I) * (n * t) := by
          rw [div_eq_iff hnc] at ht; rw [ht]; ring
        exact mul_left_cancel₀ hpi h1
      exact ⟨t, by exact_mod_cast this⟩
    · rintro ⟨t, rfl⟩
      refine ⟨t, ?_⟩
      push_cast
      field_simp
  have hzn : ζ ^ n = 1 := by
    rw [hζ, ← Complex.exp_nat_mul, Complex.exp_eq_one_iff]
    exact ⟨m, by field_simp⟩
  simp only [hpow]
  rw [← Complex.re_sum, ← Finset.mul_sum]
  split_ifs with hd
  · simp [hz1.2 hd, mul_comm]
  · have h1 : (1 - ζ) * ∑ i ∈ range n, ζ ^ i = 0 := by rw [mul_neg_geom_sum, hzn, sub_self]
    rcases mul_eq_zero.1 h1 with h2 | h2
    · exact absurd (hz1.1 (sub_eq_zero.1 h2).symm) hd
    · rw [h2, mul_zero, Complex.zero_re]

theorem fourier_period (a : ℝ) {L : ℝ} (hL : 0 < L) (c : ℤ → ℂ) (y : ℝ) : fourier a L c (y + L) = fourier a L c y := by
  unfold fourier
  refine tsum_congr fun m => ?_
  rw [term_re, term_re]
  have e : 2 * Real.pi * m / L * (y + L - a) = 2 * Real.pi * m / L * (y - a) + m * (2 * Real.pi) := by field_simp; ring
  rw [e, Real.cos_add_int_mul_two_pi, Real.sin_add_int_mul_two_pi]

/-- The mean of the series over the grid. -/
theorem grid_mean {n : ℕ} (hn : 1 ≤ n) (a : ℝ) {L : ℝ} (hL : 0 < L) {c : ℤ → ℂ} (hc : Summable fun m => ‖c m‖) :
    (∑ i ∈ range n, fourier a L c (a + i * (L / n))) / n - (c 0).re = ∑' m : ℤ, if (n : ℤ) ∣ m ∧ m ≠ 0 then (c m).re else 0 := by
  have hn' : (n : ℝ) ≠ 0 := by positivity
  have h2 : HasSum (fun m : ℤ => if (n : ℤ) ∣ m then (n : ℝ) * (c m).re else 0) (∑ i ∈ range n, fourier a L c (a + i * (L / n))) := by
    have := hasSum_sum (s := range n) fun i _ => fourier_hasSum a L hc (a + i * (L / n))
    simp only [wave_sum hn a hL] at this
    exact this
  have h3 : HasSum (fun m : ℤ => if (n : ℤ) ∣ m then (c m).re else 0) ((∑ i ∈ range n, fourier a L c (a + i * (L / n))) / n) := by
    refine hasSum_of_eq (h2.div_const (n : ℝ)) fun m => ?_
    split_ifs
    · field_simp
    · simp
  have h4 : HasSum (fun m : ℤ => if (n : ℤ) ∣ m ∧ m ≠ 0 then (c m).re else 0) ((∑ i ∈ range n, fourier a L c (a + i * (L / n))) / n - (c 0).re) := by
    refine hasSum_of_eq (h3.sub (hasSum_ite_eq (0 : ℤ) (c 0).re)) fun m => ?_
    by_cases hm : m = 0
    · simp [hm]
    · simp [hm]
  exact h4.tsum_eq.symm

/-- C123 (aliasing): on a uniform periodic grid of `n` points the trapezoid rule adds up, apart from the mean, the coefficients of the waves whose number is a multiple of `n`, and no others. -/
theorem c123_aliasing {n : ℕ} (hn : 1 ≤ n) (a : ℝ) {L : ℝ} (hL : 0 < L) {c : ℤ → ℂ} (hc : Summable fun m => ‖c m‖) (mem : ℕ → ℝ) :
    apply (trapezoid true (fun i => a + i * (L / n)) n mem) n (fun i => fourier a L c (a + i * (L / n))) - ∫ y in a..(a + L), fourier a L c y =
      L * ∑' m : ℤ, if (n : ℤ) ∣ m ∧ m ≠ 0 then (c m).re else 0 := by
  have hn' : (n : ℝ) ≠ 0 := by positivity
  obtain ⟨f, hf⟩ : ∃ f : ℕ → ℝ, f = fun i : ℕ => fourier a L c (a + i * (L / n)) := ⟨_, rfl⟩
  have hfn : f n = f 0 := by
    rw [hf]
    simp only
    rw [show a + (n : ℝ) * (L / n) = (a + ((0 : ℕ) : ℝ) * (L / n)) + L by push_cast; field_simp; ring, fourier_period a hL]
  have h1 : apply (trapezoid true (fun i => a + i * (L / n)) n mem) n f = L / n * ∑ i ∈ range n, f i := by
    obtain ⟨k, rfl⟩ : ∃ k, n = k + 1 := ⟨n - 1, by omega⟩
    rw [trapezoid_periodic_sum _ _ _ _ hfn]
    have e : ∀ i ∈ range (k + 1), ((a + ((i + 1 : ℕ) : ℝ) * (L / (k + 1 : ℕ))) - (a + (i : ℝ) * (L / (k + 1 : ℕ)))) * (f i + f (i + 1)) / 2 = L / (k + 1 : ℕ) / 2 * (f i + f (i + 1)) := by
      intro i _; push_cast; ring
    rw [sum_congr rfl e, ← Finset.mul_sum, sum_add_distrib]
    have e2 : ∑ i ∈ range (k + 1), f (i + 1) = ∑ i ∈ range (k + 1), f i := by
      rw [sum_range_succ, sum_range_succ' (fun i => f i) k, hfn]
    rw [e2]; ring
  rw [← grid_mean hn a hL hc, fourier_integral a hL hc, ← hf, h1, hf]
  field_simp

/-- C123 (exactness): the rule integrates exactly every sum of waves with fewer oscillations than there are points. -/
theorem c123_exact {n : ℕ} (hn : 1 ≤ n) (a : ℝ) {L : ℝ} (hL : 0 < L) {c : ℤ → ℂ} (hc : ∀ m : ℤ, n ≤ |m| → c m = 0) (mem : ℕ → ℝ) :
    apply (trapezoid true (fun i => a + i * (L / n)) n mem) n (fun i => fourier a L c (a + i * (L / n))) = ∫ y in a..(a + L), fourier a L c y := by
  have hs : Summable fun m => ‖c m‖ := by
    refine summable_of_ne_finset_zero (s := Finset.Ioo (-(n : ℤ)) n) fun m hm => ?_
    rw [hc m, norm_zero]
    by_contra h
    exact hm (Finset.mem_Ioo.2 (abs_lt.1 (not_le.1 h)))
  have h := c123_aliasing hn a hL hs mem
  have h0 : ∀ m : ℤ, (if (n : ℤ) ∣ m ∧ m ≠ 0 then (c m).re else 0) = 0 := by
    intro m
    split_ifs with hm
    · rw [hc m (Int.le_of_dvd (abs_pos.2 hm.2) ((dvd_abs _ _).2 hm.1)), Complex.zero_re]
    · rfl
  simp only [h0, tsum_zero, mul_zero] at h
  linarith

/-- C123 (order): if the coefficients times the power `p` of the wave number are summable (the integrand has `p` derivatives with summable coefficients), the error is at most `L n^(-p)` times their sum: on periodic domains the rule is of
every order which the smoothness of the integrand allows. -/
theorem c123_order {n : ℕ} (hn : 1 ≤ n) (a : ℝ) {L : ℝ} (hL : 0 < L) {c : ℤ → ℂ} (hc : Summable fun m => ‖c m‖) (p : ℕ) (hp : Summable fun m : ℤ => ‖c m‖ * |(m : ℝ)| ^ p) (mem : ℕ → ℝ) :
    |apply (trapezoid true (fun i => a + i * (L / n)) n mem) n (fun i => fourier a L c (a + i * (L / n))) - ∫ y in a..(a + L), fourier a L c y| ≤ L / n ^ p * ∑' m : ℤ, ‖c m‖ * |(m : ℝ)| ^ p := by
  have hn' : (0 : ℝ) < n := Nat.cast_pos.2 hn
  have hle : ∀ m : ℤ, ‖(if (n : ℤ) ∣ m ∧ m ≠ 0 then (c m).re else 0 : ℝ)‖ ≤ 1 / (n : ℝ) ^ p * (‖c m‖ * |(m : ℝ)| ^ p) := by
    intro m
    split_ifs with hm
    · have h1 : (n : ℝ) ≤ |(m : ℝ)| := by
        have := Int.le_of_dvd (abs_pos.2 hm.2) ((dvd_abs _ _).2 hm.1)
        exact_mod_cast this
      have h2 := pow_le_pow_left₀ hn'.le h1 p
      refine (Complex.abs_re_le_norm _).trans ?_
      rw [one_div_mul_eq_div, le_div_iff₀ (by positivity)]
      exact mul_le_mul_of_nonneg_left h2 (norm_nonneg _)
    · rw [norm_zero]; positivity
  rw [c123_aliasing hn a hL hc, abs_mul, abs_of_pos hL]
  have h3 := tsum_of_norm_bounded (hp.hasSum.mul_left (1 / (n : ℝ) ^ p)) hle
  rw [Real.norm_eq_abs] at h3
  exact (mul_le_mul_of_nonneg_left h3 hL.le).trans_eq (by ring)

/-- C123 (the limit is sharp): the wave with `n` oscillations is not integrated exactly on `n` points: the rule gives `L` instead of 0. -/
theorem c123_sharp {n : ℕ} (hn : 1 ≤ n) (a : ℝ) {L : ℝ} (hL : 0 < L) (mem : ℕ → ℝ) :
    ∃ c : ℤ → ℂ, (∀ m : ℤ, m ≠ n → c m = 0) ∧ ∫ y in a..(a + L), fourier a L c y = 0 ∧
      apply (trapezoid true (fun i => a + i * (L / n)) n mem) n (fun i => fourier a L c (a + i * (L / n))) = L := by
  have hn0 : (0 : ℤ) ≠ n := by omega
  have hs : Summable fun m : ℤ => ‖(if m = (n : ℤ) then 1 else 0 : ℂ)‖ := summable_of_ne_finset_zero (s := {(n : ℤ)}) fun m hm => by simp [Finset.mem_singleton.not.1 hm]
  have h := c123_aliasing hn a hL hs mem
  have h0 := fourier_integral a hL hs
  simp only [if_neg hn0, Complex.zero_re, mul_zero] at h0
  refine ⟨fun m => if m = (n : ℤ) then 1 else 0, fun m hm => if_neg hm, h0, ?_⟩
  rw [h0, sub_zero] at h
  rw [h, tsum_eq_single (n : ℤ)]
  · simp; omega
  · intro m hm
    simp [hm]

/-- C123 (Simpson's rule): on a uniform periodic grid the error of the composite Simpson rule is `(4 e(n) - e(n/2)) / 3`, where `e(k)` is that of the trapezoid rule with `k` points. -/
theorem c123_simpson_aliasing {k : ℕ} (hk : 2 ≤ k) (a : ℝ) {L : ℝ} (hL : 0 < L) {c : ℤ → ℂ} (hc : Summable fun m => ‖c m‖) (mem : ℕ → ℝ) :
    ∃ coef, fillSimpson true (fun i => a + i * (L / (2 * k : ℕ))) (2 * k) mem = .ok coef ∧
      apply coef (2 * k) (fun i => fourier a L c (a + i * (L / (2 * k : ℕ)))) - ∫ y in a..(a + L), fourier a L c y =
        L * (4 / 3 * (∑' m : ℤ, if ((2 * k : ℕ) : ℤ) ∣ m ∧ m ≠ 0 then (c m).re else 0) - 1 / 3 * ∑' m : ℤ, if (k : ℤ) ∣ m ∧ m ≠ 0 then (c m).re else 0) := by
  have hk' : (k : ℝ) ≠ 0 := by positivity
  obtain ⟨h, hh⟩ : ∃ h, h = L / (2 * k : ℕ) := ⟨_, rfl⟩
  have hh0 : h ≠ 0 := by rw [hh]; push_cast; positivity
  obtain ⟨f, hf⟩ : ∃ f : ℕ → ℝ, f = fun i : ℕ => fourier a L c (a + i * h) := ⟨_, rfl⟩
  have hLh : L = 2 * k * h := by rw [hh]; push_cast; field_simp
  have hfn : f (2 * k) = f 0 := by
    rw [hf]
    simp only
    rw [show a + ((2 * k : ℕ) : ℝ) * h = (a + ((0 : ℕ) : ℝ) * h) + L by rw [hLh]; push_cast; ring, fourier_period a hL]
  obtain ⟨coef, h1, h2⟩ := fillSimpson_ok true (fun i => a + i * h) (2 * k) (by simp only [SimpsonSize, if_true]; omega) mem
  have hp : ∀ i, pairSum (fun i => a + i * h) f i = h / 3 * (f (2 * i) + 4 * f (2 * i + 1) + f (2 * i + 2)) := by
    intro i
    unfold pairSum simpL simpC simpR dL dR
    simp only [Nat.add_sub_cancel]
    have e1 : a + ((2 * i + 1 : ℕ) : ℝ) * h - (a + ((2 * i : ℕ) : ℝ) * h) = h := by push_cast; ring
    have e2 : a + ((2 * i + 1 + 1 : ℕ) : ℝ) * h - (a + ((2 * i + 1 : ℕ) : ℝ) * h) = h := by push_cast; ring
    rw [e1, e2]
    field_simp
    ring
  have h3 := h2 f fun _ => hfn
  rw [show 2 * k / 2 = k by omega] at h3
  simp only [hp] at h3
  have hall : ∀ n : ℕ, ∑ i ∈ range (2 * n), f i = ∑ i ∈ range n, (f (2 * i) + f (2 * i + 1)) := by
    intro n
    induction n with
    | zero => simp
    | succ n ih => rw [show 2 * (n + 1) = 2 * n + 1 + 1 by ring, sum_range_succ, sum_range_succ, sum_range_succ _ n, ih]; ring
  have hshift : ∑ i ∈ range k, f (2 * i + 2) = ∑ i ∈ range k, f (2 * i) := by
    have ha := sum_range_succ (fun i => f (2 * i)) k
    have hb := sum_range_succ' (fun i => f (2 * i)) k
    simp only [mul_zero, show ∀ i, 2 * (i + 1) = 2 * i + 2 from fun i => by ring] at ha hb
    rw [hfn] at ha
    linarith
  have hS : apply coef (2 * k) f = h / 3 * (4 * ∑ i ∈ range (2 * k), f i - 2 * ∑ i ∈ range k, f (2 * i)) := by
    rw [h3, hall, ← Finset.mul_sum]
    simp only [sum_add_distrib, ← Finset.mul_sum]
    rw [hshift]; ring
  have g1 := grid_mean (n := 2 * k) (by omega) a hL hc
  have g2 := grid_mean (n := k) (by omega) a hL hc
  have e2 : ∑ i ∈ range k, fourier a L c (a + i * (L / k)) = ∑ i ∈ range k, f (2 * i) := by
    refine sum_congr rfl fun i _ => ?_
    rw [hf]
    simp only
    congr 1
    rw [hh]; push_cast; field_simp
  rw [e2] at g2
  rw [← hh] at g1 ⊢
  refine ⟨coef, h1, ?_⟩
  rw [← g1, ← g2, fourier_integral a hL hc, ← hf, hS, hh]
  push_cast
  field_simp
  ring

/-- C123 (Simpson's rule loses half of the waves): it integrates exactly the sums of waves with fewer than `n / 2` oscillations; the wave with `n / 2` oscillations, which the trapezoid rule integrates exactly on the same grid, it does
not: the result is `- L / 3` instead of 0. -/
theorem c123_simpson {k : ℕ} (hk : 2 ≤ k) (a : ℝ) {L : ℝ} (hL : 0 < L) (mem : ℕ → ℝ) :
    ∃ coef, fillSimpson true (fun i => a + i * (L / (2 * k : ℕ))) (2 * k) mem = .ok coef ∧
      (∀ c : ℤ → ℂ, (∀ m : ℤ, k ≤ |m| → c m = 0) → apply coef (2 * k) (fun i => fourier a L c (a + i * (L / (2 * k : ℕ)))) = ∫ y in a..(a + L), fourier a L c y) ∧
      ∃ c : ℤ → ℂ, (∀ m : ℤ, m ≠ k → c m = 0) ∧ ∫ y in a..(a + L), fourier a L c y = 0 ∧
        apply coef (2 * k) (fun i => fourier a L c (a + i * (L / (2 * k : ℕ)))) = -(L / 3) ∧
        apply (trapezoid true (fun i => a + i * (L / (2 * k : ℕ))) (2 * k) mem) (2 * k) (fun i => fourier a L c (a + i * (L / (2 * k : ℕ)))) = 0 := by
  obtain ⟨coef, hcoef, -⟩ := c123_simpson_aliasing hk a hL (c := fun _ => 0) (by simpa using summable_zero) mem
  have key : ∀ c : ℤ → ℂ, (Summable fun m => ‖c m‖) → apply coef (2 * k) (fun i => fourier a L c (a + i * (L / (2 * k : ℕ)))) - ∫ y in a..(a + L), fourier a L c y =
        L * (4 / 3 * (∑' m : ℤ, if ((2 * k : ℕ) : ℤ) ∣ m ∧ m ≠ 0 then (c m).re else 0) - 1 / 3 * ∑' m : ℤ, if (k : ℤ) ∣ m ∧ m ≠ 0 then (c m).re else 0) := by
    intro c hc
    obtain ⟨co, h1, h2⟩ := c123_simpson_aliasing hk a hL hc mem
    rw [hcoef] at h1
    injection h1 with h1
    rw [h1]; exact h2
  refine ⟨coef, hcoef, fun c hc => ?_, ?_⟩
  · have hs : Summable fun m => ‖c m‖ := by
      refine summable_of_ne_finset_zero (s := Finset.Ioo (-(k : ℤ)) k) fun m hm => ?_
      rw [hc m, norm_zero]
      by_contra h
      exact hm (Finset.mem_Ioo.2 (abs_lt.1 (not_le.1 h)))
    have h := key c hs
    have z1 : ∀ m : ℤ, (if ((2 * k : ℕ) : ℤ) ∣ m ∧ m ≠ 0 then (c m).re else 0) = 0 := by
      intro m
      split_ifs with hm
      · have := Int.le_of_dvd (abs_pos.2 hm.2) ((dvd_abs _ _).2 hm.1)
        rw [hc m (by push_cast at this; omega), Complex.zero_re]
      · rfl
    have z2 : ∀ m : ℤ, (if (k : ℤ) ∣ m ∧ m ≠ 0 then (c m).re else 0) = 0 := by
      intro m
      split_ifs with hm
      · rw [hc m (Int.le_of_dvd (abs_pos.2 hm.2) ((dvd_abs _ _).2 hm.1)), Complex.zero_re]
      · rfl
    simp only [z1, z2, tsum_zero, mul_zero, sub_zero] at h
    linarith
  · have hs : Summable fun m : ℤ => ‖(if m = (k : ℤ) then 1 else 0 : ℂ)‖ := summable_of_ne_finset_zero (s := {(k : ℤ)}) fun m hm => by simp [Finset.mem_singleton.not.1 hm]
    have h := key _ hs
    have h0 := fourier_integral a hL hs
    simp only [if_neg (show (0 : ℤ) ≠ k by omega), Complex.zero_re, mul_zero] at h0
    have z1 : ∀ m : ℤ, (if ((2 * k : ℕ) : ℤ) ∣ m ∧ m ≠ 0 then (if m = (k : ℤ) then 1 else 0 : ℂ).re else 0) = 0 := by
      intro m
      split_ifs with hm hm2
      · have := Int.le_of_dvd (abs_pos.2 hm.2) ((dvd_abs _ _).2 hm.1)
        rw [hm2, Nat.abs_cast] at this
        push_cast at this; omega
      · rfl
      · rfl
    have z2 : (∑' m : ℤ, if (k : ℤ) ∣ m ∧ m ≠ 0 then (if m = (k : ℤ) then 1 else 0 : ℂ).re else 0) = 1 := by
      rw [tsum_eq_single (k : ℤ)]
      · simp; omega
      · intro m hm
        simp [hm]
    rw [h0, z2] at h
    simp only [z1, tsum_zero] at h
    refine ⟨fun m => if m = (k : ℤ) then 1 else 0, fun m hm => if_neg hm, h0, by linarith, ?_⟩
    rw [c123_exact (by omega) a hL (fun m hm => if_neg ?_) mem, h0]
    rintro rfl
    rw [Nat.abs_cast] at hm
    push_cast at hm; omega

/-- The hypotheses are met by a function with infinitely many waves. -/
example : ∃ c : ℤ → ℂ, (Summable fun m => ‖c m‖) ∧ (Summable fun m : ℤ => ‖c m‖ * |(m : ℝ)| ^ 2) ∧ ∀ m ≠ 0, c m ≠ 0 := by
  have h4 : Summable fun m : ℤ => 1 / (m : ℝ) ^ 4 := Real.summable_one_div_int_pow.2 (by norm_num)
  have h2 : Summable fun m : ℤ => 1 / (m : ℝ) ^ 2 := Real.summable_one_div_int_pow.2 (by norm_num)
  refine ⟨fun m => ((1 / (m : ℝ) ^ 4 : ℝ) : ℂ), ?_, ?_, fun m hm => ?_⟩
  · simp only [Complex.norm_real]; exact h4.norm
  · refine h2.congr fun m => ?_
    rw [Complex.norm_real, Real.norm_eq_abs, abs_of_nonneg (by positivity), sq_abs]
    by_cases hm : (m : ℝ) = 0
    · simp [hm]
    · field_simp
  · have : (m : ℝ) ≠ 0 := Int.cast_ne_zero.2 hm
    exact Complex.ofReal_ne_zero.2 (by positivity)

end Verif.Quadrature
