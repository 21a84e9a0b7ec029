import Verif.Model.Onion
import Mathlib.Order.Monotone.Basic
import Mathlib.Tactic.NormNum
import Mathlib.Tactic.Ring

/-! Property C08: the onion patch locator. -/

namespace Verif.Onion

/-- Loop invariant: if the searched radius is between the outer radii of patches `lo..hi`, the loop finds the patch
whose half-open interval contains the radius. -/
theorem search_spec (radii : ℕ → ℝ) (n : ℕ) (r : ℝ) (lo hi : ℤ)
    (h0 : 0 ≤ lo) (hn : hi < n) (hle : lo ≤ hi + 1) (h1 : radii lo.toNat ≤ r) (h2 : r < radii (hi + 1).toNat) :
    ∃ i : ℕ, search radii r lo hi = some (i : ℤ) ∧ i < n ∧ radii i ≤ r ∧ r < radii (i + 1) := by
  induction lo, hi using search.induct radii r with
  | case1 lo hi h mid rMin rMax hm =>
    have e : search radii r lo hi = some mid := by
      rw [search]; simp only [h, dite_true]; exact if_pos hm
    refine ⟨mid.toNat, ?_, ?_, ?_, ?_⟩
    · rw [e]; congr 1; simp only [mid]; omega
    · simp only [mid]; omega
    · exact hm.1
    · have : (mid + 1).toNat = mid.toNat + 1 := by simp only [mid]; omega
      rw [← this]; exact hm.2
  | case2 lo hi h mid rMin rMax hm hlt ih =>
    have e : search radii r lo hi = search radii r lo (mid - 1) := by
      rw [search]; simp only [h, dite_true]; rw [if_neg hm, if_pos hlt]
    rw [e]
    apply ih h0 (by simp only [mid]; omega)
    · have : lo ≠ mid := by
        intro heq
        rw [heq] at h1
        exact absurd h1 (not_le.2 hlt)
      simp only [mid] at this ⊢; omega
    · exact h1
    · have : (mid - 1 + 1) = mid := by ring
      rw [this]; exact hlt
  | case3 lo hi h mid rMin rMax hm hlt ih =>
    have e : search radii r lo hi = search radii r (mid + 1) hi := by
      rw [search]; simp only [h, dite_true]; rw [if_neg hm, if_neg hlt]
    rw [e]
    have h3 : radii (mid + 1).toNat ≤ r := by
      by_contra hc
      exact hm ⟨not_lt.1 hlt, not_le.1 hc⟩
    apply ih (by simp only [mid]; omega) hn
    · have : mid ≠ hi + 1 := by simp only [mid]; omega
      simp only [mid]; omega
    · exact h3
    · exact h2
  | case4 lo hi h =>
    exfalso
    have : lo = hi + 1 := by omega
    rw [this] at h1
    exact absurd h2 (not_lt.2 h1)

theorem search_last (radii : ℕ → ℝ) (n : ℕ) (hr : ∀ i j, i < j → j ≤ n → radii i < radii j) (r : ℝ) (hrn : r = radii n) (lo hi : ℤ)
    (h0 : 0 ≤ lo) (hn : hi < n) : search radii r lo hi = none := by
  have key : ∀ m : ℤ, 0 ≤ m → m < n → ¬ r < radii (m + 1).toNat ∧ ¬ r < radii m.toNat := by
    intro m hm0 hmn
    have e1 : radii (m + 1).toNat ≤ radii n := by
      rcases Nat.lt_or_ge (m + 1).toNat n with h | h
      · exact le_of_lt (hr _ _ h le_rfl)
      · rw [show (m + 1).toNat = n by omega]
    have e2 : radii m.toNat < radii n := hr _ _ (by omega) le_rfl
    rw [hrn]
    exact ⟨not_lt.2 e1, not_lt.2 (le_of_lt e2)⟩
  induction lo, hi using search.induct radii r with
  | case1 lo hi h mid rMin rMax hm =>
    exact absurd hm.2 (key mid (by simp only [mid]; omega) (by simp only [mid]; omega)).1
  | case2 lo hi h mid rMin rMax hm hlt ih =>
    exact absurd hlt (key mid (by simp only [mid]; omega) (by simp only [mid]; omega)).2
  | case3 lo hi h mid rMin rMax hm hlt ih =>
    rw [search]; simp only [h, dite_true]; rw [if_neg hm, if_neg hlt]
    exact ih (by simp only [mid]; omega) hn
  | case4 lo hi h => rw [search]; simp only [h, dite_false]

/-- C08: for every number of patches `n ≥ 1`, every increasing table of radii and every radius, the locator never aborts, it returns
`-1` exactly beyond the last radius, `-2` exactly below the first one, and otherwise the index `i` of a patch, exactly
when the radius is in `[radii i, radii (i+1))`, the upper end being included for the last patch. -/
theorem c08_locate (radii : ℕ → ℝ) (n : ℕ) (hn : 1 ≤ n) (hr : ∀ i j, i < j → j ≤ n → radii i < radii j) (r : ℝ) :
    (locate radii n r = some (-1) ↔ radii n < r) ∧
    (locate radii n r = some (-2) ↔ r < radii 0) ∧
    (∀ i : ℕ, locate radii n r = some (i : ℤ) ↔
      i < n ∧ radii i ≤ r ∧ (r < radii (i + 1) ∨ (i + 1 = n ∧ r = radii n))) ∧
    locate radii n r ≠ none := by
  have e0 : ((n : ℤ) - 1 + 1).toNat = n := by omega
  have h0n : radii 0 < radii n := hr 0 n (by omega) le_rfl
  have hmono : ∀ i j, i ≤ j → j ≤ n → radii i ≤ radii j := by
    intro i j hij hj
    rcases Nat.eq_or_lt_of_le hij with h | h
    · rw [h]
    · exact le_of_lt (hr i j h hj)
  have hun : ∀ i j : ℕ, i < n → radii i ≤ r → (r < radii (i + 1) ∨ (i + 1 = n ∧ r = radii n)) →
      j < n → radii j ≤ r → (r < radii (j + 1) ∨ (j + 1 = n ∧ r = radii n)) → i ≤ j := by
    intro i j hi hi1 _ hj _ hj2
    by_contra hc
    rcases hj2 with h | ⟨h, _⟩
    · have := hmono (j + 1) i (by omega) (by omega)
      linarith
    · omega
  unfold locate
  simp only [e0, Int.toNat_zero]
  by_cases c1 : r > radii n
  · simp only [c1, if_true]
    refine ⟨by simp, by simp; linarith, ?_, by simp⟩
    intro i
    constructor
    · intro h; simp at h
    · rintro ⟨hi, _, h | ⟨_, h⟩⟩
      · have := hmono (i + 1) n (by omega) le_rfl
        linarith
      · linarith
  · rw [if_neg c1]
    by_cases c2 : r < radii 0
    · simp only [c2, if_true]
      refine ⟨by simp; linarith, by simp, ?_, by simp⟩
      intro i
      constructor
      · intro h; simp at h
      · rintro ⟨hi, h, _⟩
        have := hmono 0 i (by omega) (by omega)
        linarith
    · rw [if_neg c2]
      by_cases c3 : r = radii n
      · rw [search_last radii n hr r c3 0 _ le_rfl (by omega)]
        simp only [c3, ne_eq, not_true_eq_false, if_false]
        refine ⟨?_, ?_, ?_, by simp⟩
        · simp; omega
        · simp; constructor
          · intro h; omega
          · intro h; linarith
        · intro i
          constructor
          · intro h
            simp only [Option.some.injEq] at h
            have hi : i + 1 = n := by omega
            exact ⟨by omega, hmono i n (by omega) le_rfl, Or.inr ⟨hi, trivial⟩⟩
          · rintro ⟨hi, _, h | ⟨h, _⟩⟩
            · have := hmono (i + 1) n (by omega) le_rfl
              linarith
            · congr 1; omega
      · have hlt : r < radii n := lt_of_le_of_ne (not_lt.1 c1) c3
        obtain ⟨k, hk, hk1, hk2, hk3⟩ := search_spec radii n r 0 ((n : ℤ) - 1) le_rfl (by omega) (by omega)
          (by simpa using not_lt.1 c2) (by rw [e0]; exact hlt)
        rw [hk]
        simp only [Option.some.injEq]
        refine ⟨?_, ?_, ?_, by simp⟩
        · constructor
          · intro h; omega
          · intro h; exact absurd h c1
        · constructor
          · intro h; omega
          · intro h; exact absurd h c2
        · intro i
          constructor
          · intro h
            have : k = i := by omega
            subst this
            exact ⟨hk1, hk2, Or.inl hk3⟩
          · rintro ⟨a, b, c⟩
            have h1 := hun i k a b c hk1 hk2 (Or.inl hk3)
            have h2 := hun k i hk1 hk2 (Or.inl hk3) a b c
            congr 1
            omega

/-- C08, constructor: it throws exactly when two consecutive patches are further apart than the tolerance; when it does not, and when every patch
is wider than the tolerance, the table of radii is strictly increasing, so `c08_locate` applies. -/
theorem c08_constructor (n : ℕ) (rMin rMax : ℕ → ℝ) :
    (setAndCheckRadii n rMin rMax = none ↔ ∃ i, i + 1 < n ∧ 1e-14 < |rMin (i + 1) - rMax i|) ∧
    (∀ radii, setAndCheckRadii n rMin rMax = some radii → (∀ i < n, rMin i + 1e-14 < rMax i) →
      radii 0 = rMin 0 ∧ (∀ i < n, radii (i + 1) = rMax i) ∧ ∀ i j, i < j → j ≤ n → radii i < radii j) := by
  unfold setAndCheckRadii
  constructor
  · by_cases h : ∃ i, i + 1 < n ∧ |rMin (i + 1) - rMax i| > 1e-14
    · rw [if_pos h]; simp only [true_iff]; exact h
    · rw [if_neg h]; simp only [reduceCtorEq, false_iff]; exact h
  · intro radii hs hw
    by_cases h : ∃ i, i + 1 < n ∧ |rMin (i + 1) - rMax i| > 1e-14
    · rw [if_pos h] at hs; simp at hs
    · rw [if_neg h] at hs
      simp only [Option.some.injEq] at hs
      subst hs
      refine ⟨by simp, by intro i _; simp, ?_⟩
      have step : ∀ i, i < n → (if i = 0 then rMin 0 else rMax (i - 1)) < rMax i := by
        intro i hi
        have hwi := hw i hi
        split_ifs with h0
        · subst h0; have : (0 : ℝ) < 1e-14 := by norm_num
          linarith
        · have hc : ¬ |rMin (i - 1 + 1) - rMax (i - 1)| > 1e-14 := fun hh => h ⟨i - 1, by omega, hh⟩
          rw [show i - 1 + 1 = i by omega] at hc
          have := (abs_le.1 (not_lt.1 hc)).1
          linarith
      intro i j hij hj
      obtain ⟨k, rfl⟩ : ∃ k, j = i + k + 1 := ⟨j - i - 1, by omega⟩
      clear hij
      induction k with
      | zero =>
        have := step i (by omega)
        simpa using this
      | succ k ih =>
        have h1 := ih (by omega)
        have h2 := step (i + k + 1) (by omega)
        simp only [Nat.add_eq_zero_iff, one_ne_zero, and_false, if_false, Nat.add_sub_cancel] at h1 h2 ⊢
        calc _ < _ := h1
          _ < _ := by simpa [Nat.add_assoc] using h2

/-- Non-vacuity: three patches with radii 1 < 2 < 4 < 8. -/
example : ∃ radii : ℕ → ℝ, (∀ i j, i < j → j ≤ 3 → radii i < radii j) ∧ radii 0 ≤ 2 ∧ (2 : ℝ) ≤ radii 3 :=
  ⟨fun i => 2 ^ i, fun i j hij _ => pow_lt_pow_right₀ (by norm_num) hij, by norm_num, by norm_num⟩

end Verif.Onion
