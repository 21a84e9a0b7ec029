import Verif.Model.EdgeRounding
import Verif.Props.EdgeTransform
import Verif.Props.FloatWrap
import Mathlib.Tactic.IntervalCases

/-! Property C10 in binary64 arithmetic: when the index of a matching point is right, and how wrong it can be. -/

namespace Verif.EdgeTransform

open Verif.FloatWrap Verif.Rounding

theorem rn_of_isDouble {x : ℝ} (h : IsDouble x) : rn x = x := by
  have := (c102_ieee_nearest x (rn x) rfl).2 x h
  rw [sub_self, abs_zero] at this
  linarith [abs_nonpos_iff.1 this]

theorem isDouble_nat {k : ℕ} (hk : k < 2 ^ 53) : IsDouble (k : ℝ) :=
  ⟨k, 0, by rw [abs_of_nonneg (by positivity)]; exact_mod_cast hk, by simp⟩

theorem trunc_of_le_lt {x : ℝ} {k : ℕ} (h1 : (k : ℝ) ≤ x) (h2 : x < k + 1) : (trunc x).toNat = k := by
  have h0 : (0 : ℝ) ≤ x := le_trans (by positivity) h1
  unfold trunc
  have hf : ⌊x⌋ = (k : ℤ) := Int.floor_eq_iff.2 ⟨by exact_mod_cast h1, by exact_mod_cast h2⟩
  rw [if_pos h0, hf]
  simp

/-- When the quotient of the numbers of cells is a `double`, nothing is rounded. -/
theorem ieeeTruncDiv_exact {v nc nt k : ℕ} (hnc : 0 < nc) (hnt : 0 < nt) (hk : v * nt = nc * k) (hk53 : k < 2 ^ 53) (hd : IsDouble ((nc : ℝ) / nt)) : ieeeTruncDiv v nc nt = k := by
  have hncr : (0 : ℝ) < nc := by exact_mod_cast hnc
  have hntr : (0 : ℝ) < nt := by exact_mod_cast hnt
  have hkr : (v : ℝ) * nt = nc * k := by exact_mod_cast hk
  unfold ieeeTruncDiv
  rw [rn_of_isDouble hd]
  have : (v : ℝ) / ((nc : ℝ) / nt) = k := by field_simp; linarith
  rw [this, rn_of_isDouble (isDouble_nat hk53)]
  exact trunc_of_le_lt le_rfl (by linarith)

/-- In every case the computed index is the right one or the one before. -/
theorem ieeeTruncDiv_near {v nc nt k : ℕ} (hnc : 0 < nc) (hnt : 0 < nt) (hk : v * nt = nc * k) (hk51 : k < 2 ^ 51) : ieeeTruncDiv v nc nt = k ∨ ieeeTruncDiv v nc nt = k - 1 := by
  have hncr : (0 : ℝ) < nc := by exact_mod_cast hnc
  have hntr : (0 : ℝ) < nt := by exact_mod_cast hnt
  have hkr : (v : ℝ) * nt = nc * k := by exact_mod_cast hk
  have hk51r : (k : ℝ) < 2 ^ 51 := by exact_mod_cast hk51
  rcases Nat.eq_zero_or_pos k with hk0 | hkp
  · subst hk0
    have hv : v = 0 := by
      rcases Nat.mul_eq_zero.1 (by simpa using hk) with h | h
      · exact h
      · omega
    left
    unfold ieeeTruncDiv
    rw [hv]; simp only [Nat.cast_zero, zero_div]
    rw [rn_of_isDouble (by simpa using isDouble_nat (k := 0) (by norm_num))]
    exact trunc_of_le_lt (by simp) (by simp)
  obtain ⟨δ, hδ, hf⟩ := c102_ieee_relative ((nc : ℝ) / nt) (rn (nc / nt)) rfl
  obtain ⟨ε, hε, hq⟩ := c102_ieee_relative ((v : ℝ) / rn (nc / nt)) (rn (v / rn (nc / nt))) rfl
  have hδ' := abs_le.1 hδ
  have hε' := abs_le.1 hε
  obtain ⟨u, hu⟩ : ∃ u : ℝ, u = 2⁻¹ ^ 53 := ⟨_, rfl⟩
  rw [← hu] at hδ' hε'
  have hu0 : 0 < u := by rw [hu]; positivity
  have hu1 : u ≤ 1 / 4 := by rw [hu]; norm_num
  have h1δ : 0 < 1 + δ := by linarith
  have hval : rn ((v : ℝ) / rn (nc / nt)) = k * (1 + ε) / (1 + δ) := by
    rw [hq, hf]
    have : (v : ℝ) / ((nc : ℝ) / nt * (1 + δ)) = k / (1 + δ) := by
      rw [div_eq_div_iff (by positivity) (by positivity)]
      have : (v : ℝ) = nc * k / nt := by rw [← hkr]; field_simp
      rw [this]; field_simp
    rw [this]; field_simp
  have hku : (k : ℝ) * u < 1 / 4 := by
    calc (k : ℝ) * u < 2 ^ 51 * u := mul_lt_mul_of_pos_right hk51r hu0
      _ = 1 / 4 := by rw [hu]; norm_num
  have hlo : (k : ℝ) - 1 ≤ rn ((v : ℝ) / rn (nc / nt)) := by
    rw [hval, le_div_iff₀ h1δ]
    have hk1 : (1 : ℝ) ≤ k := by exact_mod_cast hkp
    have e1 : (k : ℝ) * ε ≥ -(k * u) := by nlinarith
    have e2 : ((k : ℝ) - 1) * δ ≤ (k - 1) * u := mul_le_mul_of_nonneg_left hδ'.2 (by linarith)
    nlinarith
  have hhi : rn ((v : ℝ) / rn (nc / nt)) < k + 1 := by
    rw [hval, div_lt_iff₀ h1δ]
    have e1 : (k : ℝ) * ε ≤ k * u := mul_le_mul_of_nonneg_left hε'.2 (by positivity)
    have e2 : ((k : ℝ) + 1) * δ ≥ -((k + 1) * u) := by nlinarith
    nlinarith
  unfold ieeeTruncDiv
  by_cases hc : (k : ℝ) ≤ rn ((v : ℝ) / rn (nc / nt))
  · left; exact trunc_of_le_lt hc hhi
  · right
    push Not at hc
    refine trunc_of_le_lt ?_ ?_
    · rw [Nat.cast_sub hkp]; simpa using hlo
    · rw [Nat.cast_sub hkp]; simpa using hc

/-- **C10, binary64.** When the quotient of the numbers of cells is a `double`, in particular when the number of target cells divides the number of current cells (conforming grids, coarser target) or when
the target grid is finer by a power of two, the search returns in binary64 arithmetic what it returns in exact arithmetic, hence the right index (`c10_uniform_exact`). -/
theorem c10_binary64_right (agree tp : Bool) (nc nt v : ℕ) (hnc : 0 < nc) (hnt : 0 < nt) (hnt53 : nt < 2 ^ 53) (hv : v ≤ nc) (hd : IsDouble ((nc : ℝ) / nt) ∨ (nc < 2 ^ 53 ∧ nt ∣ nc) ∨ ∃ e, nt = nc * 2 ^ e) :
    searchUniform ieeeTruncDiv agree tp nc nt v = searchUniform exactTruncDiv agree tp nc nt v := by
  have hncr : (0 : ℝ) < nc := by exact_mod_cast hnc
  have hntr : (0 : ℝ) < nt := by exact_mod_cast hnt
  have hd' : IsDouble ((nc : ℝ) / nt) := by
    rcases hd with h | ⟨h53, q, hq⟩ | ⟨e, he⟩
    · exact h
    · have hq0 : (nc : ℝ) / nt = q := by rw [hq]; push_cast; field_simp
      rw [hq0]
      refine isDouble_nat (lt_of_le_of_lt ?_ h53)
      rw [hq]; exact Nat.le_mul_of_pos_left _ hnt
    · refine ⟨1, -(e : ℤ), by norm_num, ?_⟩
      rw [he]; push_cast; rw [zpow_neg, zpow_natCast]; field_simp
  unfold searchUniform
  by_cases h : v % (nc / Nat.gcd nc nt) = 0
  · obtain ⟨k, hk⟩ := (matchable_iff nc nt v hnc).1 h
    have hkn : k ≤ nt := by
      have : nc * k ≤ nc * nt := by rw [← hk]; exact Nat.mul_le_mul_right _ hv
      exact Nat.le_of_mul_le_mul_left this hnc
    rw [ieeeTruncDiv_exact hnc hnt hk (lt_of_le_of_lt hkn hnt53) hd', exactTruncDiv_eq, hk, Nat.mul_div_cancel_left k hnc]
  · simp only [h, if_false]

/-- **C10, binary64.** For all numbers of cells: the search fails in binary64 arithmetic exactly when it fails in exact arithmetic; otherwise, let `k` be the step of the matching point along the target edge,
counted in the direction of the current edge. The returned step is `k` or `k - 1`. -/
theorem c10_binary64_error (agree tp : Bool) (nc nt v : ℕ) (hnc : 0 < nc) (hnt : 0 < nt) (hnt51 : nt < 2 ^ 51) (hv : v ≤ nc) :
    (searchUniform ieeeTruncDiv agree tp nc nt v = none ∧ searchUniform exactTruncDiv agree tp nc nt v = none) ∨
    ∃ k k', k * nc = v * nt ∧ (k' = k ∨ k' = k - 1) ∧
      searchUniform exactTruncDiv agree tp nc nt v = some (if tp = true ∧ (if agree then k else nt - k) = nt then 0 else if agree then k else nt - k) ∧
      searchUniform ieeeTruncDiv agree tp nc nt v = some (if tp = true ∧ (if agree then k' else nt - k') = nt then 0 else if agree then k' else nt - k') := by
  unfold searchUniform
  by_cases h : v % (nc / Nat.gcd nc nt) = 0
  · right
    obtain ⟨k, hk⟩ := (matchable_iff nc nt v hnc).1 h
    have hkn : k ≤ nt := by
      have : nc * k ≤ nc * nt := by rw [← hk]; exact Nat.mul_le_mul_right _ hv
      exact Nat.le_of_mul_le_mul_left this hnc
    refine ⟨k, ieeeTruncDiv v nc nt, by rw [hk]; ring, ieeeTruncDiv_near hnc hnt hk (lt_of_le_of_lt hkn hnt51), ?_, ?_⟩
    · simp only [h, if_true, exactTruncDiv_eq, hk, Nat.mul_div_cancel_left k hnc, Bool.and_eq_true, decide_eq_true_eq]
    · simp only [h, if_true, Bool.and_eq_true, decide_eq_true_eq]
  · left; simp only [h, if_false, and_self]

theorem rn_1_93 : rn ((1 : ℝ) / 93) = 6198502712940038 * 2⁻¹ ^ 59 := by
  rw [rn_eq_of_scale _ (-7) 6198502712940038 (by norm_num [abs_of_pos]) (by norm_num [abs_of_pos]) (roundHalfEven_of _ _ (by rw [abs_lt]; norm_num))]
  norm_num

theorem rn_93 : rn ((1 : ℝ) / (6198502712940038 * 2⁻¹ ^ 59)) = 6544293208522751 * 2⁻¹ ^ 46 := by
  rw [rn_eq_of_scale _ 6 6544293208522751 (by norm_num [abs_of_pos]) (by norm_num [abs_of_pos]) (roundHalfEven_of _ _ (by rw [abs_lt]; norm_num))]
  norm_num

/-- **C10, negative result.** The error of one index does happen: with 1 cell facing 93 cells the last point is matched with the last but one. -/
theorem c10_binary64_wrong : searchUniform ieeeTruncDiv true false 1 93 1 = some 92 ∧ searchUniform exactTruncDiv true false 1 93 1 = some 93 ∧ searchUniform ieeeTruncDiv false false 1 93 1 = some 1 ∧ searchUniform exactTruncDiv false false 1 93 1 = some 0 := by
  have h : ieeeTruncDiv 1 1 93 = 92 := by
    unfold ieeeTruncDiv
    push_cast
    rw [rn_1_93, rn_93]
    exact trunc_of_le_lt (by norm_num) (by norm_num)
  simp [searchUniform, exactTruncDiv_eq, h]

/-- The hypotheses of the theorems are met by grids with 4 and 6 cells (error theorem), 12 and 4 cells and 3 and 24 cells (exact result). -/
example : (0 < 4 ∧ 6 < 2 ^ 51 ∧ (2 : ℕ) ≤ 4) ∧ (4 ∣ 12) ∧ (24 = 3 * 2 ^ 3) ∧ searchUniform ieeeTruncDiv true false 12 4 6 = some 2 ∧ searchUniform ieeeTruncDiv false false 3 24 1 = some 16 := by
  refine ⟨by norm_num, by norm_num, by norm_num, ?_, ?_⟩
  · rw [c10_binary64_right true false 12 4 6 (by norm_num) (by norm_num) (by norm_num) (by norm_num) (Or.inr (Or.inl ⟨by norm_num, by norm_num⟩))]
    simp [searchUniform, exactTruncDiv_eq]
  · rw [c10_binary64_right false false 3 24 1 (by norm_num) (by norm_num) (by norm_num) (by norm_num) (Or.inr (Or.inr ⟨3, by norm_num⟩))]
    simp [searchUniform, exactTruncDiv_eq]

end Verif.EdgeTransform
