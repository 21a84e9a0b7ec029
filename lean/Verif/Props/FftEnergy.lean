import Verif.Props.Fft

/-!
# C53: energy and stability of the Fourier Poisson solver

Specification: sums over the grid points of products of the density, the potential and the field, which are what the diagnostics of the simulations compute (electrostatic energy).
-/

namespace Verif.Fft
open Complex

variable {D : ℕ} (N : Fin (D + 1) → ℕ) [∀ i, NeZero (N i)] (h : Fin (D + 1) → ℝ)

/-- The complex to real transform of conjugate-symmetric data is the full inverse transform. -/
theorem ifft_full (F : Grid N → ℂ) (hF : ∀ k, F (-k) = (starRingEnd ℂ) (F k)) (x : Grid N) : (ifft N F x : ℂ) = (∑ k, F k * mode N k x) / ∏ i, (N i : ℂ) := by
  rw [ifft_eq N F (fun k _ => hF k)]
  refine Complex.conj_eq_iff_re.1 ?_
  rw [map_div₀, conj_sum N F hF]
  congr 1
  simp

theorem fft_ifft (F : Grid N → ℂ) (hF : ∀ k, F (-k) = (starRingEnd ℂ) (F k)) (k : Grid N) : fft N (ifft N F) k = F k := by
  simp only [fft, ifft_full N F hF]
  have h1 : ∀ x, (∑ l, F l * mode N l x) / (∏ i, (N i : ℂ)) * mode N (-k) x = ∑ l, F l / (∏ i, (N i : ℂ)) * (mode N l x * mode N (-k) x) := by
    intro x
    rw [Finset.sum_div, Finset.sum_mul]
    exact Finset.sum_congr rfl fun l _ => by ring
  simp only [h1]
  rw [Finset.sum_comm]
  simp only [← Finset.mul_sum, fft_mode]
  simp only [mul_ite, mul_zero]
  rw [Finset.sum_ite_eq, if_pos (Finset.mem_univ _), div_mul_cancel₀ _ (prod_ne_zero N)]

/-- Parseval's identity for a density and the transform of conjugate-symmetric data. -/
theorem parseval (rho : Grid N → ℝ) (F : Grid N → ℂ) (hF : ∀ k, F (-k) = (starRingEnd ℂ) (F k)) :
    ((∑ x, rho x * ifft N F x : ℝ) : ℂ) = (∑ k, (starRingEnd ℂ) (fft N rho k) * F k) / ∏ i, (N i : ℂ) := by
  push_cast
  simp only [ifft_full N F hF, ← fft_neg]
  simp only [fft, neg_neg]
  have h1 : ∀ x, (rho x : ℂ) * ((∑ k, F k * mode N k x) / ∏ i, (N i : ℂ)) = ∑ k, (rho x : ℂ) * mode N k x * F k / ∏ i, (N i : ℂ) := by
    intro x
    rw [Finset.sum_div, Finset.mul_sum]
    exact Finset.sum_congr rfl fun k _ => by ring
  simp only [h1]
  rw [Finset.sum_comm, Finset.sum_div]
  refine Finset.sum_congr rfl fun k _ => ?_
  rw [← Finset.sum_div, ← Finset.sum_mul]

theorem prod_pos : (0 : ℝ) < ∏ i, (N i : ℝ) := Finset.prod_pos fun i _ => Nat.cast_pos.2 (NeZero.pos _)

/-- Real form of Parseval's identity when the Fourier data are those of the density times real numbers. -/
theorem parseval_real (rho : Grid N → ℝ) (F : Grid N → ℂ) (hF : ∀ k, F (-k) = (starRingEnd ℂ) (F k)) (m : Grid N → ℝ) (hm : ∀ k, F k = (m k : ℂ) * fft N rho k) :
    ∑ x, rho x * ifft N F x = (∑ k, m k * normSq (fft N rho k)) / ∏ i, (N i : ℝ) := by
  have h1 := parseval N rho F hF
  have h2 : ∀ k, (starRingEnd ℂ) (fft N rho k) * F k = ((m k * normSq (fft N rho k) : ℝ) : ℂ) := by
    intro k
    rw [hm k]
    push_cast
    rw [normSq_eq_conj_mul_self]
    ring
  simp only [h2] at h1
  have h3 : ((∑ x, rho x * ifft N F x : ℝ) : ℂ) = (((∑ k, m k * normSq (fft N rho k)) / ∏ i, (N i : ℝ) : ℝ) : ℂ) := by
    rw [h1]; push_cast; rfl
  exact Complex.ofReal_injective h3

/-- The sum of the squares of a real transform. -/
theorem parseval_sq (F : Grid N → ℂ) (hF : ∀ k, F (-k) = (starRingEnd ℂ) (F k)) : ∑ x, ifft N F x ^ 2 = (∑ k, normSq (F k)) / ∏ i, (N i : ℝ) := by
  have h1 := parseval_real N (ifft N F) F hF (fun _ => 1) (fun k => by rw [fft_ifft N F hF]; push_cast; ring)
  rw [show ∑ x, ifft N F x ^ 2 = ∑ x, ifft N F x * ifft N F x from Finset.sum_congr rfl fun x _ => by ring, h1]
  congr 1
  exact Finset.sum_congr rfl fun k _ => by rw [fft_ifft N F hF, one_mul]

/-- The Fourier data of the solver: the density times the inverse of the Laplace operator, zero for the mean value. -/
noncomputable def gain (k : Grid N) : ℝ := if k = 0 then 0 else 1 / laplace N h k

theorem solve_gain (rho : Grid N → ℝ) (k : Grid N) : solveFourier N h rho k = (gain N h k : ℂ) * fft N rho k := by
  unfold solveFourier gain
  by_cases hk : k = 0
  · simp [hk]
  · simp only [ne_eq, hk, not_false_eq_true, if_true, if_false]
    push_cast; ring

/-- The sum of the squares of the deviation of the density from its mean value. -/
theorem deviation_sq (rho : Grid N → ℝ) :
    ∑ x, (rho x - (∑ z, rho z) / ∏ i, (N i : ℝ)) ^ 2 = (∑ k, if k = 0 then 0 else normSq (fft N rho k)) / ∏ i, (N i : ℝ) := by
  have hF : ∀ k, (if -k = 0 then (0 : ℂ) else fft N rho (-k)) = (starRingEnd ℂ) (if k = 0 then (0 : ℂ) else fft N rho k) := by
    intro k
    simp only [neg_eq_zero]
    split_ifs
    · simp
    · exact fft_neg N rho k
  have h1 := parseval_sq N (fun k => if k = 0 then (0 : ℂ) else fft N rho k) hF
  have h2 : ∀ x, ifft N (fun k => if k = 0 then (0 : ℂ) else fft N rho k) x = rho x - (∑ z, rho z) / ∏ i, (N i : ℝ) := by
    intro x
    have h3 := ifft_full N (fun k => if k = 0 then (0 : ℂ) else fft N rho k) hF x
    have h4 : ∑ k, (if k = 0 then (0 : ℂ) else fft N rho k) * mode N k x = (∑ k, fft N rho k * mode N k x) - fft N rho 0 := by
      rw [eq_sub_iff_add_eq, show fft N rho 0 = ∑ k, if k = 0 then fft N rho k * mode N k x else 0 by
        rw [Finset.sum_ite_eq', if_pos (Finset.mem_univ _), mode_zero, mul_one], ← Finset.sum_add_distrib]
      exact Finset.sum_congr rfl fun k _ => by split_ifs <;> ring
    rw [h4, fft_inverse, fft_zero, sub_div, mul_div_cancel_left₀ _ (prod_ne_zero N)] at h3
    apply Complex.ofReal_injective
    rw [h3]; push_cast; rfl
  simp only [h2] at h1
  rw [h1]
  congr 1
  exact Finset.sum_congr rfl fun k _ => by split_ifs <;> simp

/-- C53: the solver is symmetric: the energy of a density in the potential of another one is the energy of the second in the potential of the first. -/
theorem c53_symmetric (rho sigma : Grid N → ℝ) : ∑ x, sigma x * potential N h rho x = ∑ x, rho x * potential N h sigma x := by
  have h1 := parseval N sigma (solveFourier N h rho) (solve_neg N h rho)
  have h2 := parseval N rho (solveFourier N h sigma) (solve_neg N h sigma)
  apply Complex.ofReal_injective
  rw [show (fun x => sigma x * potential N h rho x) = fun x => sigma x * ifft N (solveFourier N h rho) x from rfl,
    show (fun x => rho x * potential N h sigma x) = fun x => rho x * ifft N (solveFourier N h sigma) x from rfl, h1, ← Complex.conj_ofReal, h2, map_div₀, map_sum]
  congr 1
  · refine Finset.sum_congr rfl fun k _ => ?_
    rw [solve_gain, solve_gain, map_mul, map_mul, conj_conj, conj_ofReal]
    ring
  · simp

/-- C53: the electrostatic energy `sum rho phi` is not negative; it vanishes only for a uniform density. -/
theorem c53_energy_pos (hh : ∀ i, 0 < h i) (rho : Grid N → ℝ) :
    0 ≤ ∑ x, rho x * potential N h rho x ∧ (∑ x, rho x * potential N h rho x = 0 ↔ ∃ a, ∀ x, rho x = a) := by
  have h1 := parseval_real N rho (solveFourier N h rho) (solve_neg N h rho) (gain N h) (solve_gain N h rho)
  have hg : ∀ k, 0 ≤ gain N h k := by
    intro k
    unfold gain
    split_ifs with hk
    · exact le_rfl
    · exact (one_div_pos.2 (c53_laplace_pos N h hh k hk)).le
  have hS := prod_pos N
  have h2 : ∀ k, 0 ≤ gain N h k * normSq (fft N rho k) := fun k => mul_nonneg (hg k) (normSq_nonneg _)
  have e : ∑ x, rho x * potential N h rho x = (∑ k, gain N h k * normSq (fft N rho k)) / ∏ i, (N i : ℝ) := h1
  refine ⟨by rw [e]; exact div_nonneg (Finset.sum_nonneg fun k _ => h2 k) hS.le, fun h0 => ?_, fun ⟨a, ha⟩ => ?_⟩
  · rw [e, div_eq_zero_iff, or_iff_left hS.ne', Finset.sum_eq_zero_iff_of_nonneg fun k _ => h2 k] at h0
    have h3 := deviation_sq N rho
    have h4 : (∑ k, if k = 0 then 0 else normSq (fft N rho k)) = 0 := by
      refine Finset.sum_eq_zero fun k hk => ?_
      split_ifs with hk0
      · rfl
      · refine (mul_eq_zero.1 (h0 k hk)).resolve_left ?_
        unfold gain
        rw [if_neg hk0]
        exact (one_div_pos.2 (c53_laplace_pos N h hh k hk0)).ne'
    rw [h4, zero_div, Finset.sum_eq_zero_iff_of_nonneg fun x _ => sq_nonneg _] at h3
    exact ⟨_, fun x => sub_eq_zero.1 ((pow_eq_zero_iff two_ne_zero).1 (h3 x (Finset.mem_univ x)))⟩
  · simp only [ha, ← Finset.mul_sum, c53_zero_mean, mul_zero]

theorem electric_neg (hodd : ∀ i, Odd (N i)) (rho : Grid N → ℝ) (i : Fin (D + 1)) (k : Grid N) :
    negDiff N h i (solveFourier N h rho) (-k) = (starRingEnd ℂ) (negDiff N h i (solveFourier N h rho) k) := by
  have : wave N h i (-k i) = -wave N h i (k i) := by
    simp only [wave]
    rw [freq_neg (N i) (k i) (by intro h'; have hi := hodd i; rw [← h'] at hi; exact (Nat.not_odd_iff_even.2 (even_two_mul _)) hi)]
    push_cast; ring
  simp only [negDiff, Pi.neg_apply, this, solve_neg, map_mul, map_neg, conj_I, conj_ofReal]
  push_cast; ring

theorem electric_sq (hodd : ∀ i, Odd (N i)) (rho : Grid N → ℝ) :
    ∑ x, ∑ i, electricField N h rho i x ^ 2 = (∑ k, laplace N h k * (gain N h k ^ 2 * normSq (fft N rho k))) / ∏ i, (N i : ℝ) := by
  rw [Finset.sum_comm]
  have h1 : ∀ i, ∑ x, electricField N h rho i x ^ 2 = (∑ k, wave N h i (k i) * wave N h i (k i) * (gain N h k ^ 2 * normSq (fft N rho k))) / ∏ i, (N i : ℝ) := by
    intro i
    have := parseval_sq N _ (electric_neg N h hodd rho i)
    rw [show ∑ x, electricField N h rho i x ^ 2 = ∑ x, ifft N (negDiff N h i (solveFourier N h rho)) x ^ 2 from rfl, this]
    congr 1
    refine Finset.sum_congr rfl fun k _ => ?_
    rw [negDiff, solve_gain]
    simp only [map_mul, normSq_neg, normSq_I, normSq_ofReal]
    ring
  simp only [h1]
  rw [← Finset.sum_div, Finset.sum_comm]
  congr 1
  exact Finset.sum_congr rfl fun k _ => by rw [laplace, Finset.sum_mul]

/-- C53: with odd numbers of points the energy of the electric field is the energy of the density in its potential: `sum |E|^2 = sum rho phi`. -/
theorem c53_energy (hh : ∀ i, 0 < h i) (hodd : ∀ i, Odd (N i)) (rho : Grid N → ℝ) :
    ∑ x, ∑ i, electricField N h rho i x ^ 2 = ∑ x, rho x * potential N h rho x := by
  have h1 := parseval_real N rho (solveFourier N h rho) (solve_neg N h rho) (gain N h) (solve_gain N h rho)
  rw [show ∑ x, rho x * potential N h rho x = ∑ x, rho x * ifft N (solveFourier N h rho) x from rfl, h1, electric_sq N h hodd]
  congr 1
  refine Finset.sum_congr rfl fun k _ => ?_
  unfold gain
  split_ifs with hk
  · ring
  · have := c53_laplace_pos N h hh k hk
    field_simp

/-- The smallest non-zero wave number. -/
theorem laplace_ge (hh : ∀ i, 0 < h i) (L : ℝ) (hL : ∀ i, N i * h i ≤ L) (k : Grid N) (hk : k ≠ 0) : (2 * Real.pi / L) ^ 2 ≤ laplace N h k := by
  obtain ⟨i, hi⟩ := Function.ne_iff.1 hk
  refine le_trans ?_ (Finset.single_le_sum (f := fun i => wave N h i (k i) * wave N h i (k i)) (fun i _ => mul_self_nonneg _) (Finset.mem_univ i))
  have hN : (0 : ℝ) < N i := Nat.cast_pos.2 (NeZero.pos _)
  have hNh : 0 < N i * h i := mul_pos hN (hh i)
  have hf : freq (N i) (k i) ≠ 0 := fun h0 => hi ((freq_eq_zero _ _).1 h0)
  have hf1 : (1 : ℝ) ≤ (freq (N i) (k i) : ℝ) ^ 2 := by
    have h1 : (1 : ℤ) ≤ freq (N i) (k i) ^ 2 := by have := sq_nonneg (freq (N i) (k i)); have h5 : freq (N i) (k i) ^ 2 ≠ 0 := pow_ne_zero 2 hf; omega
    exact_mod_cast h1
  have h2 : 2 * Real.pi / L ≤ 2 * Real.pi / (N i * h i) := by
    have := Real.pi_pos
    exact div_le_div_of_nonneg_left (by positivity) hNh (hL i)
  have hL0 : 0 < L := lt_of_lt_of_le hNh (hL i)
  have h3 : (2 * Real.pi / L) ^ 2 ≤ (2 * Real.pi / (N i * h i)) ^ 2 := by
    have : 0 ≤ 2 * Real.pi / L := by have := Real.pi_pos; positivity
    gcongr
  calc (2 * Real.pi / L) ^ 2 ≤ 1 * (2 * Real.pi / (N i * h i)) ^ 2 := by rw [one_mul]; exact h3
    _ ≤ (freq (N i) (k i) : ℝ) ^ 2 * (2 * Real.pi / (N i * h i)) ^ 2 := by gcongr
    _ = wave N h i (k i) * wave N h i (k i) := by unfold wave; ring

/-- C53: stability, for a domain of length at most `L` in every direction: the sums of squares over the grid satisfy
`sum phi^2 ≤ (L / 2 pi)^4 sum (rho - mean)^2`, and with odd numbers of points `sum |E|^2 ≤ (L / 2 pi)^2 sum (rho - mean)^2`; the bounds do not depend on the numbers of points. -/
theorem c53_stable (hh : ∀ i, 0 < h i) (L : ℝ) (hL : ∀ i, N i * h i ≤ L) (rho : Grid N → ℝ) :
    (∑ x, potential N h rho x ^ 2 ≤ (L / (2 * Real.pi)) ^ 4 * ∑ x, (rho x - (∑ z, rho z) / ∏ i, (N i : ℝ)) ^ 2) ∧
    ((∀ i, Odd (N i)) → ∑ x, ∑ i, electricField N h rho i x ^ 2 ≤ (L / (2 * Real.pi)) ^ 2 * ∑ x, (rho x - (∑ z, rho z) / ∏ i, (N i : ℝ)) ^ 2) := by
  have hS := prod_pos N
  have hpi := Real.pi_pos
  have hL0 : 0 < L := lt_of_lt_of_le (mul_pos (Nat.cast_pos.2 (NeZero.pos _)) (hh 0)) (hL 0)
  have hgain : ∀ k, k ≠ 0 → 0 ≤ gain N h k ∧ gain N h k ≤ (L / (2 * Real.pi)) ^ 2 := by
    intro k hk
    have h1 := laplace_ge N h hh L hL k hk
    have h2 : 0 < (2 * Real.pi / L) ^ 2 := by positivity
    unfold gain
    rw [if_neg hk]
    refine ⟨(one_div_pos.2 (lt_of_lt_of_le h2 h1)).le, ?_⟩
    calc 1 / laplace N h k ≤ 1 / (2 * Real.pi / L) ^ 2 := one_div_le_one_div_of_le h2 h1
      _ = (L / (2 * Real.pi)) ^ 2 := by field_simp
  rw [deviation_sq]
  refine ⟨?_, fun hodd => ?_⟩
  · rw [show ∑ x, potential N h rho x ^ 2 = ∑ x, ifft N (solveFourier N h rho) x ^ 2 from rfl, parseval_sq N _ (solve_neg N h rho), ← mul_div_assoc, Finset.mul_sum]
    refine div_le_div_of_nonneg_right (Finset.sum_le_sum fun k _ => ?_) hS.le
    rw [solve_gain, map_mul, normSq_ofReal]
    split_ifs with hk
    · simp [gain, hk]
    · obtain ⟨h1, h2⟩ := hgain k hk
      refine mul_le_mul_of_nonneg_right ?_ (normSq_nonneg _)
      calc gain N h k * gain N h k ≤ (L / (2 * Real.pi)) ^ 2 * (L / (2 * Real.pi)) ^ 2 := by gcongr
        _ = (L / (2 * Real.pi)) ^ 4 := by ring
  · rw [electric_sq N h hodd, ← mul_div_assoc, Finset.mul_sum]
    refine div_le_div_of_nonneg_right (Finset.sum_le_sum fun k _ => ?_) hS.le
    split_ifs with hk
    · simp [gain, hk]
    · obtain ⟨_, h2⟩ := hgain k hk
      have h3 := c53_laplace_pos N h hh k hk
      rw [← mul_assoc]
      refine mul_le_mul_of_nonneg_right ?_ (normSq_nonneg _)
      refine le_trans (le_of_eq ?_) h2
      unfold gain
      rw [if_neg hk]
      field_simp

/-- The hypotheses are met by the grid of 3 x 5 points of a square of length 1. -/
example : (∀ i, (0 : ℝ) < (![1 / 3, 1 / 5] : Fin 2 → ℝ) i) ∧ (∀ i, Odd ((![3, 5] : Fin 2 → ℕ) i)) ∧ ∀ i, ((![3, 5] : Fin 2 → ℕ) i : ℝ) * (![1 / 3, 1 / 5] : Fin 2 → ℝ) i ≤ 1 := by
  refine ⟨fun i => ?_, fun i => ?_, fun i => ?_⟩ <;> fin_cases i <;> simp
  · exact ⟨1, rfl⟩
  · exact ⟨2, rfl⟩

end Verif.Fft
