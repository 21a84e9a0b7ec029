import Verif.Props.GaussLegendre
import Verif.Props.AccuracyQuad
import Mathlib.Analysis.Calculus.Taylor
import Mathlib.Analysis.Complex.Exponential

/-! Property C95, third part: order of accuracy of the composite Gauss-Legendre rules on smooth functions. -/

namespace Verif.AccuracyGauss

open Finset Polynomial Verif.InterpError Verif.AccuracyQuad Verif.GaussLegendre

/-- Taylor polynomial of `s ↦ f (c + r s)` at zero, of degree at most `m - 1`. -/
noncomputable def local_ (f : ℝ → ℝ) (c r : ℝ) (m : ℕ) : ℝ[X] := ∑ k ∈ range m, C (iteratedDeriv k f c * r ^ k / k.factorial) * X ^ k

theorem local_eval (f : ℝ → ℝ) (c r : ℝ) (m : ℕ) (s : ℝ) : (local_ f c r m).eval s = ∑ k ∈ range m, iteratedDeriv k f c * (r * s) ^ k / k.factorial := by
  unfold local_
  simp only [eval_finsetSum, eval_mul, eval_C, eval_pow, eval_X]
  exact sum_congr rfl fun k _ => by rw [mul_pow]; ring

theorem local_natDegree (f : ℝ → ℝ) (c r : ℝ) (m : ℕ) : (local_ f c r (m + 1)).natDegree ≤ m := by
  unfold local_
  refine natDegree_sum_le_of_forall_le _ _ fun k hk => ?_
  have := mem_range.1 hk
  exact (natDegree_C_mul_X_pow_le _ _).trans (by omega)

theorem local_coeff (f : ℝ → ℝ) (c r : ℝ) (m k : ℕ) (hk : k < m) : (local_ f c r m).coeff k = iteratedDeriv k f c * r ^ k / k.factorial := by
  unfold local_
  rw [finsetSum_coeff, sum_eq_single k]
  · simp
  · intro b _ hb; simp [coeff_X_pow, hb.symm]
  · intro h; exact absurd (mem_range.2 hk) h

theorem taylor_error (f : ℝ → ℝ) (m : ℕ) (hf : ContDiff ℝ (m + 1 : ℕ) f) (c r M : ℝ) (hM : ∀ t ∈ Set.Icc (c - r) (c + r), |iteratedDeriv (m + 1) f t| ≤ M) (hr : 0 ≤ r)
    (s : ℝ) (hs : s ∈ Set.Icc (-1 : ℝ) 1) : |f (c + r * s) - (local_ f c r (m + 1)).eval s| ≤ M * r ^ (m + 1) / (m + 1).factorial := by
  have hfac : (0 : ℝ) < (m + 1).factorial := by exact_mod_cast (m + 1).factorial_pos
  have hM0 : 0 ≤ M := (abs_nonneg _).trans (hM c ⟨by linarith, by linarith⟩)
  have hrs : |r * s| ≤ r := by
    rw [abs_mul, abs_of_nonneg hr]
    have : |s| ≤ 1 := abs_le.2 ⟨by linarith [hs.1], hs.2⟩
    nlinarith
  rw [local_eval]
  by_cases h0 : r * s = 0
  · rw [h0, add_zero, sum_eq_single 0]
    · simp only [iteratedDeriv_zero, pow_zero, mul_one, Nat.factorial_zero, Nat.cast_one, div_one, sub_self, abs_zero]
      positivity
    · intro k _ hk; rw [zero_pow hk]; simp
    · intro h; exact absurd (mem_range.2 (by omega)) h
  · have hne : c ≠ c + r * s := by intro h; apply h0; linarith
    obtain ⟨ξ, hξ, e⟩ := taylor_mean_remainder_lagrange_iteratedDeriv (f := f) (n := m) hne (by exact_mod_cast hf.contDiffOn)
    rw [taylor_within_apply] at e
    have hsum : ∑ k ∈ range (m + 1), ((k.factorial : ℝ)⁻¹ * (c + r * s - c) ^ k) • iteratedDerivWithin k f (Set.uIcc c (c + r * s)) c =
        ∑ k ∈ range (m + 1), iteratedDeriv k f c * (r * s) ^ k / k.factorial := by
      refine sum_congr rfl fun k hk => ?_
      have hk' := mem_range.1 hk
      rw [iteratedDerivWithin_eq_iteratedDeriv (uniqueDiffOn_uIcc hne) (hf.contDiffAt.of_le (by exact_mod_cast hk'.le)) Set.left_mem_uIcc, smul_eq_mul, add_sub_cancel_left]
      field_simp
    rw [hsum, add_sub_cancel_left] at e
    rw [e, abs_div, abs_mul, abs_of_pos hfac, abs_pow]
    have hξ' : ξ ∈ Set.Icc (c - r) (c + r) := by
      have h1 := abs_le.1 hrs
      rw [Set.uIoo, Set.mem_Ioo] at hξ
      rcases le_total 0 (r * s) with hp | hp
      · rw [inf_eq_left.2 (by linarith), sup_eq_right.2 (by linarith)] at hξ
        exact ⟨by linarith [hξ.1], by linarith [hξ.2]⟩
      · rw [inf_eq_right.2 (by linarith), sup_eq_left.2 (by linarith)] at hξ
        exact ⟨by linarith [hξ.1], by linarith [hξ.2]⟩
    have := hM ξ hξ'
    gcongr

theorem refRule_sub (pos w : List ℝ) (g g' : ℝ → ℝ) : refRule pos w g - refRule pos w g' = refRule pos w (fun t => g t - g' t) := by
  unfold refRule
  rw [← sum_sub_distrib]
  exact sum_congr rfl fun j _ => by ring

theorem refRule_bound (pos w : List ℝ) (hpw : pos.length = w.length) (hw : ∀ x ∈ w, 0 < x) (hp : ∀ p ∈ pos, -1 < p ∧ p < 1) (g : ℝ → ℝ) (B : ℝ)
    (hg : ∀ s ∈ Set.Icc (-1 : ℝ) 1, |g s| ≤ B) : |refRule pos w g| ≤ refRule pos w (fun _ => 1) * B := by
  unfold refRule
  refine (abs_sum_le_sum_abs _ _).trans ?_
  rw [sum_mul]
  refine sum_le_sum fun j hj => ?_
  have hj' := mem_range.1 hj
  have e1 : w.getD j 0 = w[j] := by simp [List.getD, hj']
  have e2 : pos.getD j 0 = pos[j]'(by omega) := by simp [List.getD, show j < pos.length by omega]
  have h1 := hw _ (List.getElem_mem hj')
  have h2 := hp _ (List.getElem_mem (show j < pos.length by omega))
  rw [abs_mul, e1, e2, abs_of_pos h1, mul_one]
  exact mul_le_mul_of_nonneg_left (hg _ ⟨h2.1.le, h2.2.le⟩) h1.le

/-- One cell. -/
theorem cell_error (pos w : List ℝ) (hpw : pos.length = w.length) (hw : ∀ x ∈ w, 0 < x) (hp : ∀ p ∈ pos, -1 < p ∧ p < 1) (m : ℕ) (ε : ℝ) (hε : 0 ≤ ε) (h : ExactUpTo pos w m ε)
    (f : ℝ → ℝ) (hf : ContDiff ℝ (m + 1 : ℕ) f) (a b M B : ℝ) (hab : a ≤ b) (hM : ∀ t ∈ Set.Icc a b, |iteratedDeriv (m + 1) f t| ≤ M)
    (hB : ∀ k ≤ m, ∀ t ∈ Set.Icc a b, |iteratedDeriv k f t| ≤ B) :
    |(b - a) / 2 * refRule pos w (fun t => f ((a + b) / 2 + (b - a) / 2 * t)) - ∫ t in a..b, f t| ≤
      (b - a) * ((2 + ε / 2) * M * ((b - a) / 2) ^ (m + 1) / (m + 1).factorial + ε / 2 * B * Real.exp ((b - a) / 2)) := by
  obtain ⟨c, hc⟩ : ∃ c, c = (a + b) / 2 := ⟨_, rfl⟩
  obtain ⟨r, hr⟩ : ∃ r, r = (b - a) / 2 := ⟨_, rfl⟩
  have hr0 : 0 ≤ r := by rw [hr]; linarith
  have ea : a = c - r := by rw [hc, hr]; ring
  have eb : b = c + r := by rw [hc, hr]; ring
  have hcI : c ∈ Set.Icc a b := ⟨by linarith, by linarith⟩
  have hM0 : 0 ≤ M := (abs_nonneg _).trans (hM c hcI)
  have hB0 : 0 ≤ B := (abs_nonneg _).trans (hB 0 (by omega) c hcI)
  obtain ⟨q, hq⟩ : ∃ q, q = local_ f c r (m + 1) := ⟨_, rfl⟩
  obtain ⟨E, hE⟩ : ∃ E, E = M * r ^ (m + 1) / (m + 1).factorial := ⟨_, rfl⟩
  have hE0 : 0 ≤ E := by rw [hE]; positivity
  have ht : ∀ s ∈ Set.Icc (-1 : ℝ) 1, |f (c + r * s) - q.eval s| ≤ E := by
    intro s hs
    rw [hq, hE]
    exact taylor_error f m hf c r M (by rw [← ea, ← eb]; exact hM) hr0 s hs
  have hint : ∫ t in a..b, f t = r * ∫ s in (-1 : ℝ)..1, f (c + r * s) := by
    have h := intervalIntegral.smul_integral_comp_add_mul (a := (-1 : ℝ)) (b := 1) f r c
    rw [smul_eq_mul] at h
    rw [h, ea, eb]; congr 1 <;> ring
  have hq1 : |refRule pos w (fun t => q.eval t) - ∫ t in (-1 : ℝ)..1, q.eval t| ≤ ε * (B * Real.exp r) := by
    refine (refRule_poly pos w m ε h q (by rw [hq]; exact local_natDegree f c r m)).trans ?_
    refine mul_le_mul_of_nonneg_left ?_ hε
    have : ∀ k ∈ range (m + 1), |q.coeff k| ≤ B * (r ^ k / k.factorial) := by
      intro k hk
      have hk' := mem_range.1 hk
      have hfac : (0 : ℝ) < k.factorial := by exact_mod_cast k.factorial_pos
      rw [hq, local_coeff f c r _ k hk', abs_div, abs_mul, abs_of_pos hfac, abs_of_nonneg (pow_nonneg hr0 k), mul_div_assoc]
      exact mul_le_mul_of_nonneg_right (hB k (by omega) c hcI) (by positivity)
    refine (sum_le_sum this).trans ?_
    rw [← mul_sum]
    exact mul_le_mul_of_nonneg_left (Real.sum_le_exp_of_nonneg hr0 _) hB0
  have hsum1 : refRule pos w (fun _ => 1) ≤ 2 + ε := by
    have := h 0 (by omega)
    simp only [pow_zero, intervalIntegral.integral_const, smul_eq_mul, mul_one] at this
    have := (abs_le.1 this).2
    linarith
  have hq2 : |refRule pos w (fun t => f (c + r * t)) - refRule pos w (fun t => q.eval t)| ≤ (2 + ε) * E := by
    rw [refRule_sub]
    exact (refRule_bound pos w hpw hw hp _ E ht).trans (mul_le_mul_of_nonneg_right hsum1 hE0)
  have hq3 : |(∫ t in (-1 : ℝ)..1, q.eval t) - ∫ s in (-1 : ℝ)..1, f (c + r * s)| ≤ 2 * E := by
    have := integral_error (fun s => f (c + r * s)) (fun s => q.eval s) (fun _ => E) (hf.continuous.comp (by fun_prop)) (contDiff_poly q 0).continuous (by fun_prop) (-1) 1 (by norm_num) ht
    refine this.trans (le_of_eq ?_)
    rw [intervalIntegral.integral_const, smul_eq_mul]; norm_num
  rw [← hc, ← hr, hint, ← mul_sub, abs_mul, abs_of_nonneg hr0, show b - a = 2 * r by rw [hr]; ring]
  have tri : |refRule pos w (fun t => f (c + r * t)) - ∫ s in (-1 : ℝ)..1, f (c + r * s)| ≤ (2 + ε) * E + ε * (B * Real.exp r) + 2 * E := by
    calc _ = |(refRule pos w (fun t => f (c + r * t)) - refRule pos w (fun t => q.eval t)) + (refRule pos w (fun t => q.eval t) - ∫ t in (-1 : ℝ)..1, q.eval t) +
        ((∫ t in (-1 : ℝ)..1, q.eval t) - ∫ s in (-1 : ℝ)..1, f (c + r * s))| := by congr 1; ring
      _ ≤ _ := (abs_add_le _ _).trans (add_le_add ((abs_add_le _ _).trans (add_le_add hq2 hq1)) hq3)
  refine (mul_le_mul_of_nonneg_left tri hr0).trans (le_of_eq ?_)
  rw [hE]; ring

/-- **C95 (Gauss-Legendre)** The composite rule with `n = 1..10` points per cell on any increasing list of mesh edges with cells not longer than `h`, for a `C^(2n)` function: the error is
`length · (2 max|f^(2n)| (h/2)^(2n) / (2n)! )`, of order `2n`, up to the `10^-24` of the tables. -/
theorem c95_gauss_legendre (n : ℕ) (h1 : 1 ≤ n) (h10 : n ≤ 10) (edges : List ℝ) (hne : edges ≠ []) (h : ℝ) (hc : ∀ c ∈ cells edges, c.1 ≤ c.2 ∧ c.2 - c.1 ≤ h)
    (f : ℝ → ℝ) (hf : ContDiff ℝ (2 * n : ℕ) f) (M B : ℝ) (hM : ∀ c ∈ cells edges, ∀ t ∈ Set.Icc c.1 c.2, |iteratedDeriv (2 * n) f t| ≤ M)
    (hB : ∀ k < 2 * n, ∀ c ∈ cells edges, ∀ t ∈ Set.Icc c.1 c.2, |iteratedDeriv k f t| ≤ B) :
    |integrate (positions n) (weights n) edges f - ∫ t in (edges.head hne)..(edges.getLast hne), f t| ≤
      (edges.getLast hne - edges.head hne) * ((2 + 1 / 10 ^ 24 / 2) * M * (h / 2) ^ (2 * n) / (2 * n).factorial + 1 / 10 ^ 24 / 2 * B * Real.exp (h / 2)) := by
  obtain ⟨hw1, hp1, hex, hw, hp, -⟩ := c15_tables n h1 h10
  obtain ⟨m, hm⟩ : ∃ m, 2 * n = m + 1 := ⟨2 * n - 1, by omega⟩
  rw [hm] at hf hM hB ⊢
  rw [show 2 * n - 1 = m by omega] at hex
  rw [integrate_eq _ _ (by omega) (by omega), ← integral_cells edges hne f hf.continuous]
  have hlen : ((cells edges).map fun c => c.2 - c.1).sum = edges.getLast hne - edges.head hne := by
    have := integral_cells edges hne (fun _ => 1) continuous_const
    simpa using this
  rw [← hlen]
  generalize cells edges = L at hc hM hB
  clear hlen
  induction L with
  | nil => simp
  | cons c L ih =>
    simp only [List.map_cons, List.sum_cons]
    have ih' := ih (fun c hc' => hc c (List.mem_cons_of_mem _ hc')) (fun c hc' => hM c (List.mem_cons_of_mem _ hc')) (fun k hk c hc' => hB k hk c (List.mem_cons_of_mem _ hc'))
    obtain ⟨k1, k2⟩ := hc c List.mem_cons_self
    have e := cell_error (positions n) (weights n) (by omega) hw hp m (1 / 10 ^ 24) (by positivity) hex f hf c.1 c.2 M B k1 (hM c List.mem_cons_self)
      (fun k hk => hB k (by omega) c List.mem_cons_self)
    have hM0 : 0 ≤ M := (abs_nonneg _).trans (hM c List.mem_cons_self c.1 ⟨le_rfl, k1⟩)
    have hB0 : 0 ≤ B := (abs_nonneg _).trans (hB 0 (by omega) c List.mem_cons_self c.1 ⟨le_rfl, k1⟩)
    have e' : (c.2 - c.1) * ((2 + 1 / 10 ^ 24 / 2) * M * ((c.2 - c.1) / 2) ^ (m + 1) / (m + 1).factorial + 1 / 10 ^ 24 / 2 * B * Real.exp ((c.2 - c.1) / 2)) ≤
        (c.2 - c.1) * ((2 + 1 / 10 ^ 24 / 2) * M * (h / 2) ^ (m + 1) / (m + 1).factorial + 1 / 10 ^ 24 / 2 * B * Real.exp (h / 2)) := by
      have d0 : 0 ≤ c.2 - c.1 := by linarith
      gcongr
    rw [add_mul, add_sub_add_comm]
    exact (abs_add_le _ _).trans (add_le_add (e.trans e') ih')

example : ([0, 1, 3] : List ℝ) ≠ [] ∧ ∀ c ∈ cells [(0 : ℝ), 1, 3], c.1 ≤ c.2 ∧ c.2 - c.1 ≤ 2 := by
  refine ⟨by simp, ?_⟩
  simp only [cells, List.mem_cons, List.not_mem_nil, or_false]
  rintro c (rfl | rfl) <;> norm_num

end Verif.AccuracyGauss
