import Verif.Props.SplineQuadratureAccuracy

/-!
# C115, C116: the spline through given values at the break points is unique, for odd degrees on any mesh

The argument of Schoenberg: integrations by parts show that the derivative of order `(d + 1) / 2` of a spline which vanishes at all break points (and is periodic, or has vanishing derivatives up to the order
`(d - 1) / 2` at the ends) is zero.
-/

namespace Verif.BSpline

open Polynomial Finset Verif.SplineQuadrature

/-! ## Piecewise polynomials -/

/-- Integration by parts of polynomials. -/
theorem poly_parts (u v : ℝ[X]) (a c : ℝ) : ∫ x in a..c, u.eval x * (derivative v).eval x = (u * v).eval c - (u * v).eval a - ∫ x in a..c, (derivative u).eval x * v.eval x := by
  rw [intervalIntegral.integral_mul_deriv_eq_deriv_mul (fun x _ => u.hasDerivAt x) (fun x _ => v.hasDerivAt x) ((derivative u).continuous.intervalIntegrable _ _) ((derivative v).continuous.intervalIntegrable _ _)]
  simp only [eval_mul]

/-- A polynomial is zero if the integral of its square over an interval is. -/
theorem square_integral_zero {a c : ℝ} (hac : a < c) (R : ℝ[X]) (h : ∫ x in a..c, R.eval x * R.eval x = 0) : R = 0 := by
  refine eq_zero_of_infinite_isRoot R (Set.Infinite.mono (s := Set.Icc a c) (fun x hx => ?_) (Set.Icc_infinite hac))
  by_contra hne
  have hne : R.eval x ≠ 0 := hne
  have := intervalIntegral.integral_pos (f := fun x => R.eval x * R.eval x) hac (R.continuous.mul R.continuous).continuousOn (fun y _ => mul_self_nonneg _) ⟨x, hx, mul_self_pos.2 hne⟩
  exact this.ne' h

/-- A polynomial is zero if all its derivatives vanish at a point. -/
theorem zero_of_derivs (T : ℝ[X]) (x : ℝ) (h : ∀ k, (derivative^[k] T).eval x = 0) : T = 0 := by
  have h1 : taylor x T = 0 := by
    ext k
    have := h k
    rw [derivs_eq] at this
    have hk : (k.factorial : ℝ) ≠ 0 := by exact_mod_cast k.factorial_ne_zero
    simpa [hk] using this
  exact taylor_injective x (by rw [h1, map_zero])

/-- Derivatives of order more than `k` of a polynomial whose derivative of order `k` is zero. -/
theorem derivs_above {T : ℝ[X]} {m : ℕ} (h : derivative^[m] T = 0) (k : ℕ) (hk : m ≤ k) : derivative^[k] T = 0 := by
  obtain ⟨j, rfl⟩ : ∃ j, k = j + m := ⟨k - m, by omega⟩
  rw [Function.iterate_add_apply, h, iterate_derivative_zero]

section
variable {n e : ℕ} {b : ℕ → ℝ} {P : ℕ → ℝ[X]}

/-- Sums over the cells of differences which fit together. -/
theorem telescope (hn : 1 ≤ n) (G : ℕ → ℝ → ℝ) (hG : ∀ q, q + 1 < n → G q (b (q + 1)) = G (q + 1) (b (q + 1))) : ∑ q ∈ range n, (G q (b (q + 1)) - G q (b q)) = G (n - 1) (b n) - G 0 (b 0) := by
  obtain ⟨m, rfl⟩ : ∃ m, n = m + 1 := ⟨n - 1, by omega⟩
  rw [Nat.add_sub_cancel]
  clear hn
  induction m with
  | zero => simp
  | succ m ih =>
    rw [sum_range_succ, ih fun q hq => hG q (by omega), hG m (by omega)]
    ring

/-- The core: the derivative of order `e + 1` of a piecewise polynomial of degree `2 e + 1` with `2 e` continuous derivatives is zero if it has the same value at all break points. -/
theorem energy_zero (hn : 1 ≤ n) (hb : ∀ i < n, b i < b (i + 1)) (hdeg : ∀ q < n, (P q).natDegree ≤ 2 * e + 1)
    (hcont : ∀ q, q + 1 < n → ∀ k ≤ 2 * e, (derivative^[k] (P q)).eval (b (q + 1)) = (derivative^[k] (P (q + 1))).eval (b (q + 1)))
    (hval : ∀ q < n, (P q).eval (b q) = 0 ∧ (P q).eval (b (q + 1)) = 0)
    (hends : ∀ j < e, (derivative^[e + 1 + j] (P (n - 1)) * derivative^[e - j] (P (n - 1))).eval (b n) = (derivative^[e + 1 + j] (P 0) * derivative^[e - j] (P 0)).eval (b 0)) :
    ∀ q < n, derivative^[e + 1] (P q) = 0 := by
  have step : ∀ j < e, ∑ q ∈ range n, ∫ x in (b q)..(b (q + 1)), (derivative^[e + 1 + j] (P q)).eval x * (derivative^[e + 1 - j] (P q)).eval x =
      -∑ q ∈ range n, ∫ x in (b q)..(b (q + 1)), (derivative^[e + 1 + (j + 1)] (P q)).eval x * (derivative^[e + 1 - (j + 1)] (P q)).eval x := by
    intro j hj
    have h1 : ∀ q ∈ range n, ∫ x in (b q)..(b (q + 1)), (derivative^[e + 1 + j] (P q)).eval x * (derivative^[e + 1 - j] (P q)).eval x =
        ((derivative^[e + 1 + j] (P q) * derivative^[e - j] (P q)).eval (b (q + 1)) - (derivative^[e + 1 + j] (P q) * derivative^[e - j] (P q)).eval (b q)) -
          ∫ x in (b q)..(b (q + 1)), (derivative^[e + 1 + (j + 1)] (P q)).eval x * (derivative^[e + 1 - (j + 1)] (P q)).eval x := by
      intro q _
      have e1 : derivative^[e + 1 - j] (P q) = derivative (derivative^[e - j] (P q)) := by rw [← Function.iterate_succ_apply' (f := derivative), show (e - j).succ = e + 1 - j by omega]
      have e2 : derivative^[e + 1 + (j + 1)] (P q) = derivative (derivative^[e + 1 + j] (P q)) := by rw [← Function.iterate_succ_apply' (f := derivative)]; rfl
      rw [e1, e2, show e + 1 - (j + 1) = e - j by omega]
      exact poly_parts _ _ _ _
    rw [sum_congr rfl h1, sum_sub_distrib, telescope hn (fun q x => (derivative^[e + 1 + j] (P q) * derivative^[e - j] (P q)).eval x) fun q hq => by
      simp only [eval_mul]
      rw [hcont q hq _ (by omega), hcont q hq _ (by omega)], hends j hj, sub_self, zero_sub]
  have last : ∑ q ∈ range n, ∫ x in (b q)..(b (q + 1)), (derivative^[e + 1 + e] (P q)).eval x * (derivative^[e + 1 - e] (P q)).eval x = 0 := by
    refine sum_eq_zero fun q hq => ?_
    have hq := mem_range.1 hq
    rw [show e + 1 - e = 1 by omega, Function.iterate_one, poly_parts]
    have hz : derivative (derivative^[e + 1 + e] (P q)) = 0 := by
      rw [← Function.iterate_succ_apply' (f := derivative)]
      exact iterate_derivative_eq_zero (lt_of_le_of_lt (hdeg q hq) (by omega))
    rw [hz]
    simp [(hval q hq).1, (hval q hq).2]
  have all : ∀ j ≤ e, ∑ q ∈ range n, ∫ x in (b q)..(b (q + 1)), (derivative^[e + 1 + (e - j)] (P q)).eval x * (derivative^[e + 1 - (e - j)] (P q)).eval x = 0 := by
    intro j hj
    induction j with
    | zero => exact last
    | succ j ih => rw [step (e - (j + 1)) (by omega), show e - (j + 1) + 1 = e - j by omega, ih (by omega), neg_zero]
  have h0 := all e le_rfl
  rw [Nat.sub_self, Nat.add_zero, Nat.sub_zero] at h0
  have hnn : ∀ q ∈ range n, 0 ≤ ∫ x in (b q)..(b (q + 1)), (derivative^[e + 1] (P q)).eval x * (derivative^[e + 1] (P q)).eval x := fun q hq =>
    intervalIntegral.integral_nonneg (hb q (mem_range.1 hq)).le fun x _ => mul_self_nonneg _
  intro q hq
  exact square_integral_zero (hb q hq) _ ((sum_eq_zero_iff_of_nonneg hnn).1 h0 q (mem_range.2 hq))

/-- Then the pieces are the same polynomial. -/
theorem same_piece (hdz : ∀ q < n, derivative^[e + 1] (P q) = 0)
    (hcont : ∀ q, q + 1 < n → ∀ k ≤ 2 * e, (derivative^[k] (P q)).eval (b (q + 1)) = (derivative^[k] (P (q + 1))).eval (b (q + 1))) : ∀ q < n, P q = P 0 := by
  intro q hq
  induction q with
  | zero => rfl
  | succ q ih =>
    rw [← ih (by omega)]
    refine sub_eq_zero.1 (zero_of_derivs _ (b (q + 1)) fun k => ?_)
    rw [iterate_derivative_sub, eval_sub, sub_eq_zero]
    by_cases hk : k ≤ e
    · exact (hcont q hq k (by omega)).symm
    · rw [derivs_above (hdz (q + 1) hq) k (by omega), derivs_above (hdz q (by omega)) k (by omega)]

/-- A spline of odd degree which vanishes at all break points and whose derivatives up to the order `e` vanish at both ends is zero. -/
theorem hermite_zero (hn : 1 ≤ n) (hb : ∀ i < n, b i < b (i + 1)) (hdeg : ∀ q < n, (P q).natDegree ≤ 2 * e + 1)
    (hcont : ∀ q, q + 1 < n → ∀ k ≤ 2 * e, (derivative^[k] (P q)).eval (b (q + 1)) = (derivative^[k] (P (q + 1))).eval (b (q + 1)))
    (hval : ∀ q < n, (P q).eval (b q) = 0 ∧ (P q).eval (b (q + 1)) = 0)
    (hleft : ∀ k, 1 ≤ k → k ≤ e → (derivative^[k] (P 0)).eval (b 0) = 0) (hright : ∀ k, 1 ≤ k → k ≤ e → (derivative^[k] (P (n - 1))).eval (b n) = 0) : ∀ q < n, P q = 0 := by
  have hdz := energy_zero hn hb hdeg hcont hval fun j hj => by
    rw [eval_mul, eval_mul, hleft (e - j) (by omega) (by omega), hright (e - j) (by omega) (by omega), mul_zero, mul_zero]
  intro q hq
  rw [same_piece hdz hcont q hq]
  refine zero_of_derivs _ (b 0) fun k => ?_
  by_cases h0 : k = 0
  · rw [h0]; exact (hval 0 (by omega)).1
  · by_cases hk : k ≤ e
    · exact hleft k (by omega) hk
    · rw [derivs_above (hdz 0 (by omega)) k (by omega), eval_zero]

/-- A periodic spline of odd degree which vanishes at all break points is zero. -/
theorem periodic_zero (hn : 1 ≤ n) (hb : ∀ i < n, b i < b (i + 1)) (hdeg : ∀ q < n, (P q).natDegree ≤ 2 * e + 1)
    (hcont : ∀ q, q + 1 < n → ∀ k ≤ 2 * e, (derivative^[k] (P q)).eval (b (q + 1)) = (derivative^[k] (P (q + 1))).eval (b (q + 1)))
    (hval : ∀ q < n, (P q).eval (b q) = 0 ∧ (P q).eval (b (q + 1)) = 0)
    (hper : ∀ k ≤ 2 * e, (derivative^[k] (P (n - 1))).eval (b n) = (derivative^[k] (P 0)).eval (b 0)) : ∀ q < n, P q = 0 := by
  have hdz := energy_zero hn hb hdeg hcont hval fun j hj => by
    rw [eval_mul, eval_mul, hper _ (by omega), hper _ (by omega)]
  have hsame := same_piece hdz hcont
  have hlt : b 0 < b n := by
    have : ∀ m, m < n → b 0 < b (m + 1) := by
      intro m hm
      induction m with
      | zero => exact hb 0 hm
      | succ m ih => exact (ih (by omega)).trans (hb _ hm)
    have := this (n - 1) (by omega)
    rwa [show n - 1 + 1 = n by omega] at this
  have hconst : ∀ j ≤ e, derivative^[e + 1 - j] (P 0) = 0 := by
    intro j hj
    induction j with
    | zero => exact hdz 0 (by omega)
    | succ j ih =>
      have h1 : derivative (derivative^[e - j] (P 0)) = 0 := by
        rw [← Function.iterate_succ_apply' (f := derivative), show (e - j).succ = e + 1 - j by omega]
        exact ih (by omega)
      have h2 := hper (e - (j + 1)) (by omega)
      rw [hsame (n - 1) (by omega)] at h2
      obtain ⟨Q, hQ⟩ : ∃ Q, Q = derivative^[e - (j + 1)] (P 0) := ⟨_, rfl⟩
      rw [show e + 1 - (j + 1) = e - j by omega]
      have hQ' : derivative^[e - j] (P 0) = derivative Q := by rw [hQ, ← Function.iterate_succ_apply' (f := derivative), show (e - (j + 1)).succ = e - j by omega]
      rw [hQ'] at h1 ⊢
      rw [← hQ] at h2
      obtain ⟨s, hs⟩ : ∃ s, derivative Q = C s := ⟨_, eq_C_of_derivative_eq_zero h1⟩
      have h3 : Q - C s * X = C ((Q - C s * X).coeff 0) := eq_C_of_derivative_eq_zero (by simp [hs])
      have h4 := congrArg (eval (b n)) h3
      have h5 := congrArg (eval (b 0)) h3
      simp only [eval_sub, eval_mul, eval_C, eval_X] at h4 h5
      have h6 : s * (b n - b 0) = 0 := by linarith
      rcases mul_eq_zero.1 h6 with h7 | h7
      · rw [hs, h7, C_0]
      · linarith
  intro q hq
  rw [hsame q hq]
  refine zero_of_derivs _ (b 0) fun k => ?_
  by_cases h0 : k = 0
  · rw [h0]; exact (hval 0 (by omega)).1
  · have := hconst e le_rfl
    rw [derivs_above this k (by omega), eval_zero]

end

/-! ## Splines -/

/-- The coefficients of the derivative. -/
noncomputable def diffs (t : ℤ → ℝ) (p : ℕ) (a : ℤ → ℝ) (i : ℤ) : ℝ := (p + 1) * (a i - a (i - 1)) / (t (i + p + 1) - t i)

theorem deriv_spl {t : ℤ → ℝ} {c : ℤ} (ht : Monotone t) (hc : t c < t (c + 1)) (p : ℕ) (a : ℤ → ℝ) : derivative (spl t c (p + 1) a) = spl t c p (diffs t p a) := by
  have := deriv_sum ht hc p a
  simp only [spl, diffs]
  push_cast at this ⊢
  exact this

theorem spl_smooth {t : ℤ → ℝ} {c : ℤ} (ht : Monotone t) (h1 : t c < t (c + 1)) (h2 : t (c + 1) < t (c + 2)) (k p : ℕ) (a : ℤ → ℝ) (hk : k < p) :
    (derivative^[k] (spl t c p a)).eval (t (c + 1)) = (derivative^[k] (spl t (c + 1) p a)).eval (t (c + 1)) := by
  induction k generalizing p a with
  | zero =>
    obtain ⟨p, rfl⟩ : ∃ r, p = r + 1 := ⟨p - 1, by omega⟩
    exact spl_continuous h1 h2 p a
  | succ k ih =>
    obtain ⟨p, rfl⟩ : ∃ r, p = r + 1 := ⟨p - 1, by omega⟩
    rw [Function.iterate_succ_apply, Function.iterate_succ_apply, deriv_spl ht h1, deriv_spl ht (by rwa [show c + 1 + 1 = c + 2 by ring])]
    exact ih p _ (by omega)

theorem spl_shift {t : ℤ → ℝ} {s : ℤ} {L : ℝ} (ht : Monotone t) (h : ∀ i, t (i + s) = t i + L) {c : ℤ} (hc : t c < t (c + 1)) (k p : ℕ) (a : ℤ → ℝ) (ha : ∀ i, a (i + s) = a i) (x : ℝ) :
    (derivative^[k] (spl t (c + s) p a)).eval (x + L) = (derivative^[k] (spl t c p a)).eval x := by
  induction k generalizing p a with
  | zero =>
    simp only [Function.iterate_zero, id_eq, spl, eval_finsetSum, eval_mul, eval_C]
    refine sum_congr rfl fun j _ => ?_
    rw [show c + s - (p : ℤ) + j = c - p + j + s by ring, ha, piece_shift h]
  | succ k ih =>
    cases p with
    | zero =>
      have hz : ∀ c', derivative (spl t c' 0 a) = 0 := fun c' => by
        rw [← Function.iterate_one derivative]
        exact iterate_derivative_eq_zero (lt_of_le_of_lt (spl_degree 0 a) (by omega))
      rw [Function.iterate_succ_apply, Function.iterate_succ_apply, hz, hz, iterate_derivative_zero, eval_zero, eval_zero]
    | succ p =>
      have hc' : t (c + s) < t (c + s + 1) := by rw [show c + s + 1 = c + 1 + s by ring, h, h]; linarith
      rw [Function.iterate_succ_apply, Function.iterate_succ_apply, deriv_spl ht hc', deriv_spl ht hc]
      refine ih p _ fun i => ?_
      simp only [diffs]
      rw [ha, show i + s - 1 = i - 1 + s by ring, ha, show i + s + (p : ℤ) + 1 = i + p + 1 + s by ring, h, h]
      ring_nf

end Verif.BSpline
