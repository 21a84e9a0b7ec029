import Verif.Props.SplineQuadrature
import Mathlib.Analysis.Calculus.MeanValue
import Mathlib.Analysis.Complex.ExponentialBounds
import Mathlib.Algebra.Polynomial.Taylor

/-!
# C114, C115: splines of degree `p` approximate smooth functions to the order `p + 1`, on any knots

`dual` are the coefficients of a good approximation: those which the spline would have if the function coincided with its Taylor polynomial at the knot `t i`.
-/

namespace Verif.BSpline

open Polynomial Finset Verif.SplineQuadrature

/-! ## Taylor polynomials -/

/-- A derivative of size `|y - x| ^ r` gives a function of size `|y - x| ^ (r + 1)`. -/
theorem grow {lo hi x M : ℝ} (hM : 0 ≤ M) {f f' : ℝ → ℝ} (hx : x ∈ Set.Icc lo hi) (hf : ∀ y ∈ Set.Icc lo hi, HasDerivWithinAt f (f' y) (Set.Icc lo hi) y) (h0 : f x = 0) (r : ℕ)
    (hb : ∀ y ∈ Set.Icc lo hi, |f' y| ≤ M * |y - x| ^ r) : ∀ y ∈ Set.Icc lo hi, |f y| ≤ M * |y - x| ^ (r + 1) := by
  intro y hy
  have hsub : Set.uIcc x y ⊆ Set.Icc lo hi := Set.uIcc_subset_Icc hx hy
  have := (convex_uIcc x y).norm_image_sub_le_of_norm_hasDerivWithin_le (f := f) (f' := f') (C := M * |y - x| ^ r) (x := x) (y := y)
    (fun z hz => (hf z (hsub hz)).mono hsub)
    (fun z hz => by
      rw [Real.norm_eq_abs]
      refine (hb z (hsub hz)).trans (mul_le_mul_of_nonneg_left (pow_le_pow_left₀ (abs_nonneg _) ?_ r) hM)
      exact Set.abs_sub_left_of_mem_uIcc hz) Set.left_mem_uIcc Set.right_mem_uIcc
  rw [h0, sub_zero, Real.norm_eq_abs, Real.norm_eq_abs] at this
  refine this.trans (le_of_eq ?_)
  ring

/-- The Taylor polynomial of degree `p` at `x`, from the derivatives `G 0, …, G p`. -/
noncomputable def taylorAt (G : ℕ → ℝ → ℝ) (p : ℕ) (x : ℝ) : ℝ[X] := taylor (-x) (∑ k ∈ range (p + 1), C (G k x / k.factorial) * X ^ k)

theorem taylorAt_degree (G : ℕ → ℝ → ℝ) (p : ℕ) (x : ℝ) : (taylorAt G p x).natDegree ≤ p := by
  rw [taylorAt, natDegree_taylor]
  exact natDegree_sum_le_of_forall_le _ _ fun k hk => (natDegree_C_mul_X_pow_le _ _).trans (by have := mem_range.1 hk; omega)

theorem derivs_eq (T : ℝ[X]) (k : ℕ) (x : ℝ) : (derivative^[k] T).eval x = k.factorial * (taylor x T).coeff k := by
  rw [taylor_coeff, ← factorial_smul_hasseDeriv]
  simp

theorem taylorAt_derivs (G : ℕ → ℝ → ℝ) (p : ℕ) (x : ℝ) (k : ℕ) (hk : k ≤ p) : (derivative^[k] (taylorAt G p x)).eval x = G k x := by
  rw [derivs_eq, taylorAt, taylor_taylor, add_neg_cancel, taylor_zero]
  simp only [finsetSum_coeff, coeff_C_mul, coeff_X_pow, mul_ite, mul_one, mul_zero]
  rw [sum_ite_eq, if_pos (mem_range.2 (by omega)), mul_div_cancel₀ _ (by positivity)]

/-- Taylor's formula for the derivatives. -/
theorem taylor_bound {lo hi x M : ℝ} {p : ℕ} {G : ℕ → ℝ → ℝ} (hG : ∀ k ≤ p, ∀ y ∈ Set.Icc lo hi, HasDerivWithinAt (G k) (G (k + 1) y) (Set.Icc lo hi) y) (hM : ∀ y ∈ Set.Icc lo hi, |G (p + 1) y| ≤ M)
    (hx : x ∈ Set.Icc lo hi) (r : ℕ) (hr : r ≤ p + 1) : ∀ y ∈ Set.Icc lo hi, |G (p + 1 - r) y - (derivative^[p + 1 - r] (taylorAt G p x)).eval y| ≤ M * |y - x| ^ r := by
  have hM0 : 0 ≤ M := (abs_nonneg _).trans (hM x hx)
  induction r with
  | zero =>
    intro y hy
    rw [Nat.sub_zero, iterate_derivative_eq_zero (by have := taylorAt_degree G p x; omega), eval_zero, sub_zero, pow_zero, mul_one]
    exact hM y hy
  | succ r ih =>
    obtain ⟨k, hk⟩ : ∃ k, k = p + 1 - (r + 1) := ⟨_, rfl⟩
    rw [show p + 1 - r = k + 1 by omega] at ih
    rw [← hk]
    refine grow hM0 (f' := fun y => G (k + 1) y - (derivative^[k + 1] (taylorAt G p x)).eval y) hx (fun y hy => ?_) ?_ r (ih (by omega))
    · have h2 := ((derivative^[k] (taylorAt G p x)).hasDerivAt y).hasDerivWithinAt (s := Set.Icc lo hi)
      rw [← Function.iterate_succ_apply' derivative] at h2
      exact (hG k (by omega) y hy).sub h2
    · rw [taylorAt_derivs G p x k (by omega), sub_self]

/-! ## The coefficients of a polynomial -/

variable {t : ℤ → ℝ} {c : ℤ}

theorem piece_translate (ξ : ℝ) (p : ℕ) (i : ℤ) (y : ℝ) : (piece (fun m => t m - ξ) c p i).eval (y - ξ) = (piece t c p i).eval y := by
  induction p generalizing i with
  | zero => simp only [piece]; split_ifs <;> simp
  | succ p ih =>
    rw [piece, piece]
    simp only [eval_add, eval_mul, eval_C, eval_sub, eval_X, ih, sub_sub_sub_cancel_right]

/-- The coefficients of a polynomial, given by its derivatives `g 0, …, g p` at `ξ`. -/
noncomputable def coefAt (t : ℤ → ℝ) (p : ℕ) (ξ : ℝ) (g : ℕ → ℝ) (i : ℤ) : ℝ := ∑ k ∈ range (p + 1), g k / k.factorial / p.choose k * sym (fun m => t m - ξ) p k i

theorem coefAt_spl (ht : Monotone t) (hc : t c < t (c + 1)) (p : ℕ) (T : ℝ[X]) (hT : T.natDegree ≤ p) (ξ : ℝ) (y : ℝ) :
    (spl t c p (coefAt t p ξ fun k => (derivative^[k] T).eval ξ)).eval y = T.eval y := by
  have ht' : Monotone fun m => t m - ξ := fun i j h => sub_le_sub_right (ht h) ξ
  have hc' : (fun m => t m - ξ) c < (fun m => t m - ξ) (c + 1) := sub_lt_sub_right hc ξ
  have hp : ∀ k, ∑ j ∈ range (p + 1), sym (fun m => t m - ξ) p k (c - p + j) * (piece t c p (c - p + j)).eval y = p.choose k * (y - ξ) ^ k := by
    intro k
    have := congrArg (eval (y - ξ)) (power_spline ht' hc' p k)
    simp only [eval_finsetSum, eval_mul, eval_C, eval_natCast, eval_pow, eval_X, piece_translate] at this
    exact this
  simp only [spl, coefAt, eval_finsetSum, eval_mul, eval_C, sum_mul]
  rw [sum_comm]
  have hT2 : (taylor ξ T).natDegree < p + 1 := by rw [natDegree_taylor]; omega
  have e : T.eval y = ∑ k ∈ range (p + 1), (taylor ξ T).coeff k * (y - ξ) ^ k := by
    have h1 : T.eval y = (taylor ξ T).eval (y - ξ) := by rw [taylor_eval, sub_add_cancel]
    rw [h1, eval_eq_sum_range' hT2]
  rw [e]
  refine sum_congr rfl fun k hk => ?_
  have hk := mem_range.1 hk
  have hch : (p.choose k : ℝ) ≠ 0 := by exact_mod_cast (Nat.choose_pos (by omega)).ne'
  have hf : (k.factorial : ℝ) ≠ 0 := by positivity
  rw [derivs_eq, mul_div_cancel_left₀ _ hf]
  simp only [mul_assoc]
  rw [← mul_sum, hp k]
  field_simp

/-- The coefficients of a polynomial do not depend on the point where its derivatives are taken. -/
theorem coefAt_unique (ht : Monotone t) (hc : t c < t (c + 1)) (p : ℕ) (T : ℝ[X]) (hT : T.natDegree ≤ p) (ξ η : ℝ) (j : ℕ) (hj : j < p + 1) :
    coefAt t p ξ (fun k => (derivative^[k] T).eval ξ) (c - p + j) = coefAt t p η (fun k => (derivative^[k] T).eval η) (c - p + j) := by
  have := independent ht hc p (fun i => coefAt t p ξ (fun k => (derivative^[k] T).eval ξ) i - coefAt t p η (fun k => (derivative^[k] T).eval η) i) (by
    refine Polynomial.funext fun y => ?_
    have h1 := coefAt_spl ht hc p T hT ξ y
    have h2 := coefAt_spl ht hc p T hT η y
    simp only [spl, eval_finsetSum, eval_mul, eval_C] at h1 h2
    simp only [eval_finsetSum, eval_mul, eval_C, eval_zero, sub_mul, sum_sub_distrib]
    rw [h1, h2, sub_self]) j hj
  exact sub_eq_zero.1 this

theorem sym_bound {s : ℤ → ℝ} {W : ℝ} (hW : 0 ≤ W) (p k : ℕ) (i : ℤ) (h : ∀ m : ℕ, m < p → |s (i + m + 1)| ≤ W) : |sym s p k i| ≤ p.choose k * W ^ k := by
  induction p generalizing k with
  | zero =>
    cases k with
    | zero => simp [sym]
    | succ k => simp [sym]
  | succ p ih =>
    have ih' := fun k => ih k fun m hm => h m (by omega)
    cases k with
    | zero => have := ih' 0; simpa [sym] using this
    | succ k =>
      rw [sym, Nat.choose_succ_succ]
      push_cast
      refine (abs_add_le _ _).trans ?_
      rw [abs_mul]
      have h1 := ih' (k + 1)
      have h2 := mul_le_mul (h p (by omega)) (ih' k) (abs_nonneg _) hW
      calc _ ≤ (p.choose (k + 1) : ℝ) * W ^ (k + 1) + W * (p.choose k * W ^ k) := add_le_add h1 h2
        _ = _ := by ring

/-! ## Approximation -/

/-- The coefficients of the approximation of the function with the derivatives `G 0, …, G p`. -/
noncomputable def dual (t : ℤ → ℝ) (p : ℕ) (G : ℕ → ℝ → ℝ) (i : ℤ) : ℝ := coefAt t p (t i) (fun k => G k (t i)) i

theorem sum_inv_factorial (n : ℕ) : ∑ k ∈ range n, 1 / (k.factorial : ℝ) ≤ 3 := by
  have h := Real.sum_le_exp_of_nonneg (x := 1) zero_le_one n
  simp only [one_pow] at h
  have := Real.exp_one_lt_d9
  linarith

/-- **Approximation by splines.** On every cell the spline with the coefficients `dual` is within `3 max |g^(p+1)| ((p + 1) h)^(p+1)` of the function: `h` is the largest cell. -/
theorem approximation (ht : Monotone t) (hc : t c < t (c + 1)) {p : ℕ} {lo hi M h : ℝ} (hlo : lo ≤ t (c - p)) (hhi : t (c + 1) ≤ hi) (hh : ∀ k, t (k + 1) - t k ≤ h) {G : ℕ → ℝ → ℝ}
    (hG : ∀ k ≤ p, ∀ y ∈ Set.Icc lo hi, HasDerivWithinAt (G k) (G (k + 1) y) (Set.Icc lo hi) y) (hM : ∀ y ∈ Set.Icc lo hi, |G (p + 1) y| ≤ M) (x : ℝ) (hx1 : t c ≤ x) (hx2 : x ≤ t (c + 1)) :
    |(spl t c p (dual t p G)).eval x - G 0 x| ≤ 3 * M * ((p + 1) * h) ^ (p + 1) := by
  have htc : ∀ {i j : ℤ}, i ≤ j → t i ≤ t j := fun h => ht h
  have hxI : x ∈ Set.Icc lo hi := by
    have a1 : t (c - p) ≤ t c := ht (by omega)
    exact ⟨by linarith, by linarith⟩
  have hM0 : 0 ≤ M := (abs_nonneg _).trans (hM x hxI)
  have hh0 : 0 ≤ h := by have := hh c; linarith
  obtain ⟨W, hW⟩ : ∃ W, W = (p + 1) * h := ⟨_, rfl⟩
  have hW0 : 0 ≤ W := by rw [hW]; positivity
  rw [← hW]
  obtain ⟨T, hT⟩ : ∃ T, T = taylorAt G p x := ⟨_, rfl⟩
  have hTd : T.natDegree ≤ p := hT ▸ taylorAt_degree G p x
  have key : ∀ j ∈ range (p + 1), |dual t p G (c - p + j) - coefAt t p x (fun k => (derivative^[k] T).eval x) (c - p + j)| ≤ 3 * M * W ^ (p + 1) := by
    intro j hj
    have hj := mem_range.1 hj
    rw [← coefAt_unique ht hc p T hTd (t (c - p + j)) x j hj]
    obtain ⟨i, hi'⟩ : ∃ i, i = c - p + j := ⟨_, rfl⟩
    rw [← hi']
    have hti : t i ∈ Set.Icc lo hi := by
      have a1 : t (c - p) ≤ t i := ht (by omega)
      have a2 : t i ≤ t (c + 1) := ht (by omega)
      exact ⟨by linarith, by linarith⟩
    have hdist : |t i - x| ≤ W := by
      have a1 : t i ≤ t c := ht (by omega)
      have a2 : t (c + 1) ≤ t (i + (p + 1 : ℕ)) := ht (by push_cast; omega)
      have a3 := knots_width hh (p + 1) i
      push_cast at a3 a2
      rw [abs_le, hW]
      exact ⟨by linarith, by linarith [mul_nonneg (by positivity : (0 : ℝ) ≤ p + 1) hh0]⟩
    have hsym : ∀ k, |sym (fun m => t m - t i) p k i| ≤ p.choose k * W ^ k := by
      intro k
      refine sym_bound hW0 p k i fun m hm => ?_
      have a1 : t i ≤ t (i + m + 1) := ht (by omega)
      have a2 := knots_width hh (m + 1) i
      push_cast at a2
      rw [show i + ((m : ℤ) + 1) = i + m + 1 by ring] at a2
      rw [abs_of_nonneg (by linarith), hW]
      have : ((m : ℝ) + 1) ≤ p + 1 := by exact_mod_cast (by omega : m + 1 ≤ p + 1)
      exact a2.trans (mul_le_mul_of_nonneg_right this hh0)
    simp only [dual, coefAt]
    rw [← sum_sub_distrib]
    refine (abs_sum_le_sum_abs _ _).trans ?_
    calc _ ≤ ∑ k ∈ range (p + 1), M * W ^ (p + 1) * (1 / (k.factorial : ℝ)) := by
          refine sum_le_sum fun k hk => ?_
          have hk := mem_range.1 hk
          have hch : (0 : ℝ) < p.choose k := by exact_mod_cast Nat.choose_pos (by omega)
          have hf : (0 : ℝ) < k.factorial := by positivity
          have hT1 := taylor_bound hG hM hxI (p + 1 - k) (by omega) (t i) hti
          rw [show p + 1 - (p + 1 - k) = k by omega, ← hT] at hT1
          have hT2 : |G k (t i) - (derivative^[k] T).eval (t i)| ≤ M * W ^ (p + 1 - k) := hT1.trans (mul_le_mul_of_nonneg_left (pow_le_pow_left₀ (abs_nonneg _) hdist _) hM0)
          rw [← sub_mul, ← sub_div, ← sub_div, abs_mul, abs_div, abs_div, abs_of_pos hf, abs_of_pos hch]
          calc _ ≤ M * W ^ (p + 1 - k) / k.factorial / p.choose k * (p.choose k * W ^ k) := by
                refine mul_le_mul ?_ (hsym k) (abs_nonneg _) (by positivity)
                exact div_le_div_of_nonneg_right (div_le_div_of_nonneg_right hT2 hf.le) hch.le
            _ = M * (W ^ (p + 1 - k) * W ^ k) * (1 / (k.factorial : ℝ)) := by field_simp
            _ = _ := by rw [← pow_add, show p + 1 - k + k = p + 1 by omega]
      _ = M * W ^ (p + 1) * ∑ k ∈ range (p + 1), 1 / (k.factorial : ℝ) := by rw [mul_sum]
      _ ≤ M * W ^ (p + 1) * 3 := mul_le_mul_of_nonneg_left (sum_inv_factorial _) (by positivity)
      _ = _ := by ring
  have hTx : G 0 x = (spl t c p (coefAt t p x fun k => (derivative^[k] T).eval x)).eval x := by
    rw [coefAt_spl ht hc p T hTd x x]
    have := taylorAt_derivs G p x 0 (by omega)
    rw [Function.iterate_zero, id, ← hT] at this
    exact this.symm
  have hu := congrArg (eval x) (unity ht hc p)
  simp only [eval_finsetSum, eval_one] at hu
  rw [hTx]
  simp only [spl, eval_finsetSum, eval_mul, eval_C]
  rw [← sum_sub_distrib]
  refine (abs_sum_le_sum_abs _ _).trans ?_
  calc _ ≤ ∑ j ∈ range (p + 1), 3 * M * W ^ (p + 1) * (piece t c p (c - p + j)).eval x := by
        refine sum_le_sum fun j hj => ?_
        have hnn := piece_nonneg (c := c) ht p (c - p + j) x hx1 hx2
        rw [← sub_mul, abs_mul, abs_of_nonneg hnn]
        exact mul_le_mul_of_nonneg_right (key j hj) hnn
    _ = _ := by rw [← mul_sum, hu, mul_one]

theorem sym_congr {s u : ℤ → ℝ} (p k : ℕ) (i j : ℤ) (h : ∀ m : ℕ, s (i + m + 1) = u (j + m + 1)) : sym s p k i = sym u p k j := by
  induction p generalizing k with
  | zero => simp [sym]
  | succ p ih =>
    cases k with
    | zero => rw [sym, sym, ih]
    | succ k => rw [sym, sym, ih, ih, h p]

/-- A periodic function has periodic coefficients. -/
theorem dual_periodic {n : ℕ} {L : ℝ} (ts : ∀ i, t (i + n) = t i + L) (p : ℕ) {G : ℕ → ℝ → ℝ} (hG : ∀ k < p, ∀ x, HasDerivAt (G k) (G (k + 1) x) x) (hper : ∀ x, G 0 (x + L) = G 0 x) (i : ℤ) :
    dual t p G (i + n) = dual t p G i := by
  have hGper : ∀ k ≤ p, ∀ x, G k (x + L) = G k x := by
    intro k
    induction k with
    | zero => exact fun _ => hper
    | succ k ih =>
      intro hk x
      have e1 : HasDerivAt (G k) (G (k + 1) (x + L)) x := by
        have := (hG k (by omega) (x + L)).comp x ((hasDerivAt_id x).add_const L)
        rw [mul_one] at this
        exact this.congr_of_eventuallyEq (Filter.Eventually.of_forall fun x => (ih (by omega) x).symm)
      exact e1.unique (hG k (by omega) x)
  simp only [dual, coefAt]
  refine sum_congr rfl fun k hk => ?_
  have hk := mem_range.1 hk
  rw [ts, hGper k (by omega)]
  refine congrArg _ (sym_congr p k _ _ fun m => ?_)
  rw [show i + n + m + 1 = i + m + 1 + n by ring, ts, add_sub_add_right_eq_sub]

end Verif.BSpline
