import Verif.Props.InterpError
import Verif.Props.LagrangeEvaluator
import Mathlib.Analysis.Calculus.MeanValue
import Mathlib.Analysis.SpecialFunctions.Trigonometric.Deriv
import Mathlib.Analysis.SpecialFunctions.Trigonometric.Basic
import Mathlib.Algebra.Ring.Periodic

/-! Property C95, second part: order of accuracy of the Lagrange bases (values and derivatives) and of the Lagrange evaluator on smooth functions. -/

namespace Verif.AccuracyLagrange

open Finset Polynomial Verif.InterpError Verif.Lagrange Verif.LagrangeEvaluator

/-- The interpolation polynomial. -/
noncomputable def interp (D : ℕ) (xs : ℕ → ℝ) (f : ℝ → ℝ) : ℝ[X] :=
  ∑ j ∈ range (D + 1), C (f (xs j)) * _root_.Lagrange.basis (range (D + 1)) xs j

theorem interp_node (D : ℕ) (xs : ℕ → ℝ) (hxs : Distinct D xs) (f : ℝ → ℝ) (i : ℕ) (hi : i ≤ D) : (interp D xs f).eval (xs i) = f (xs i) := by
  unfold interp
  simp only [eval_finsetSum, eval_mul, eval_C]
  rw [sum_kronecker D i hi (fun j => f (xs j)) (fun j => (_root_.Lagrange.basis (range (D + 1)) xs j).eval (xs i))
    fun j hj => basis_eval_node D xs hxs i j hi hj]

theorem interp_high (D : ℕ) (xs : ℕ → ℝ) (hxs : Distinct D xs) (f : ℝ → ℝ) : derivative^[D + 1] (interp D xs f) = 0 := by
  refine iterate_derivative_eq_zero (Nat.lt_succ_of_le ?_)
  unfold interp
  refine natDegree_sum_le_of_forall_le _ _ fun j hj => ?_
  refine (natDegree_C_mul_le _ _).trans ?_
  have := _root_.Lagrange.degree_basis hxs hj
  rw [card_range, Nat.add_sub_cancel] at this
  exact natDegree_le_of_degree_le this.le

theorem interp_deriv_eval (D : ℕ) (xs : ℕ → ℝ) (f : ℝ → ℝ) (k : ℕ) (x : ℝ) : (derivative^[k] (interp D xs f)).eval x =
    ∑ j ∈ range (D + 1), f (xs j) * (derivative^[k] (_root_.Lagrange.basis (range (D + 1)) xs j)).eval x := by
  unfold interp
  rw [iterate_derivative_sum, eval_finsetSum]
  exact sum_congr rfl fun j _ => by rw [iterate_derivative_C_mul, eval_mul, eval_C]

theorem nodes_card (D : ℕ) (xs : ℕ → ℝ) (hxs : Distinct D xs) : ((range (D + 1)).image xs).card = D + 1 := by
  rw [card_image_of_injOn hxs, card_range]

/-- Error of the interpolation polynomial. -/
theorem interp_error (D : ℕ) (xs : ℕ → ℝ) (hxs : Distinct D xs) (f : ℝ → ℝ) (hf : ContDiff ℝ (D + 1 : ℕ) f) (a b M : ℝ)
    (hn : ∀ i ≤ D, xs i ∈ Set.Icc a b) (hM : ∀ t ∈ Set.Icc a b, |iteratedDeriv (D + 1) f t| ≤ M) (x : ℝ) (hx : x ∈ Set.Icc a b) :
    |(interp D xs f).eval x - f x| ≤ M / (D + 1).factorial * ∏ j ∈ range (D + 1), |x - xs j| := by
  obtain ⟨ξ, hξ, e⟩ := zeros_formula (fun y => f y - (interp D xs f).eval y) (D + 1) (hf.sub (contDiff_poly _ _)) a b ((range (D + 1)).image xs)
    (nodes_card D xs hxs) (fun z hz => by
      obtain ⟨i, hi, rfl⟩ := mem_image.1 hz
      exact hn i (by have := mem_range.1 hi; omega))
    (fun z hz => by
      obtain ⟨i, hi, rfl⟩ := mem_image.1 hz
      rw [interp_node D xs hxs f i (by have := mem_range.1 hi; omega), sub_self]) x hx
  rw [iteratedDeriv_sub_poly f _ hf, interp_high D xs hxs, eval_zero, sub_zero, prod_image hxs] at e
  have hfac : (0 : ℝ) < (D + 1).factorial := by exact_mod_cast (D + 1).factorial_pos
  rw [abs_sub_comm, e, abs_mul, abs_div, abs_of_pos hfac, Finset.abs_prod]
  gcongr
  exact hM ξ hξ

/-- Error of the derivatives of the interpolation polynomial. -/
theorem interp_deriv_error (D : ℕ) (xs : ℕ → ℝ) (hxs : Distinct D xs) (f : ℝ → ℝ) (hf : ContDiff ℝ (D + 1 : ℕ) f) (a b M : ℝ)
    (hn : ∀ i ≤ D, xs i ∈ Set.Icc a b) (hM : ∀ t ∈ Set.Icc a b, |iteratedDeriv (D + 1) f t| ≤ M) (k : ℕ) (hk : k ≤ D + 1) (x : ℝ) (hx : x ∈ Set.Icc a b) :
    |(derivative^[k] (interp D xs f)).eval x - iteratedDeriv k f x| ≤ M / (D + 1 - k).factorial * (b - a) ^ (D + 1 - k) := by
  obtain ⟨m, hm⟩ : ∃ m, D + 1 = m + k := ⟨D + 1 - k, by omega⟩
  have hfk : ContDiff ℝ k f := hf.of_le (by exact_mod_cast hk)
  have hg : ContDiff ℝ (D + 1 : ℕ) (fun y => f y - (interp D xs f).eval y) := hf.sub (contDiff_poly _ _)
  obtain ⟨t, ht, h1, h2⟩ := rolle_iter k (fun y => f y - (interp D xs f).eval y) (hg.of_le (by exact_mod_cast hk)) a b m ((range (D + 1)).image xs)
    (by rw [nodes_card D xs hxs, hm]) (fun z hz => by
      obtain ⟨i, hi, rfl⟩ := mem_image.1 hz
      exact hn i (by have := mem_range.1 hi; omega))
    (fun z hz => by
      obtain ⟨i, hi, rfl⟩ := mem_image.1 hz
      rw [interp_node D xs hxs f i (by have := mem_range.1 hi; omega), sub_self])
  have hgk : ContDiff ℝ m (iteratedDeriv k (fun y => f y - (interp D xs f).eval y)) := by
    rw [hm] at hg
    exact hg.iterate_deriv' m k |> fun h => by rw [iteratedDeriv_eq_iterate]; exact h
  obtain ⟨ξ, hξ, e⟩ := zeros_formula _ m hgk a b t ht h1 h2 x hx
  have hcomp : iteratedDeriv m (iteratedDeriv k (fun y => f y - (interp D xs f).eval y)) ξ = iteratedDeriv (D + 1) f ξ := by
    have : iteratedDeriv m (iteratedDeriv k (fun y => f y - (interp D xs f).eval y)) = iteratedDeriv (D + 1) (fun y => f y - (interp D xs f).eval y) := by
      rw [iteratedDeriv_eq_iterate, iteratedDeriv_eq_iterate, iteratedDeriv_eq_iterate, hm, Function.iterate_add_apply]
    rw [this, iteratedDeriv_sub_poly f _ hf, interp_high D xs hxs, eval_zero, sub_zero]
  rw [hcomp, iteratedDeriv_sub_poly f k hfk] at e
  have hfac : (0 : ℝ) < m.factorial := by exact_mod_cast m.factorial_pos
  rw [show D + 1 - k = m by omega, abs_sub_comm, e, abs_mul, abs_div, abs_of_pos hfac, Finset.abs_prod]
  have hprod : ∏ z ∈ t, |x - z| ≤ (b - a) ^ m := by
    rw [← ht, ← prod_const]
    refine prod_le_prod (fun _ _ => abs_nonneg _) fun z hz => ?_
    have := h1 z hz
    rw [abs_le]; constructor <;> linarith [hx.1, hx.2, this.1, this.2]
  have hM0 : 0 ≤ M := (abs_nonneg _).trans (hM ξ hξ)
  have := hM ξ hξ
  gcongr

/-- The displacement of the point to a node of the stencil within the tolerance. -/
theorem snap_error (g : ℝ → ℝ) (hg : Differentiable ℝ g) (a b M : ℝ) (hM : ∀ t ∈ Set.Icc a b, |deriv g t| ≤ M) (x y : ℝ) (hx : x ∈ Set.Icc a b) (hy : y ∈ Set.Icc a b) :
    |g y - g x| ≤ M * |x - y| := by
  have := Convex.norm_image_sub_le_of_norm_deriv_le (f := g) (s := Set.Icc a b) (C := M) (fun t _ => hg t) (fun t ht => hM t ht) (convex_Icc a b) hx hy
  rw [Real.norm_eq_abs, Real.norm_eq_abs] at this
  rwa [abs_sub_comm x y]

theorem factorial_split (k r : ℕ) : (k + 1).factorial * (r + 1).factorial ≤ (k + 1 + r).factorial := by
  induction r with
  | zero => simp
  | succ r ih =>
    rw [← add_assoc (k + 1) r 1, Nat.factorial_succ (k + 1 + r), Nat.factorial_succ (r + 1)]
    calc (k + 1).factorial * ((r + 1 + 1) * (r + 1).factorial) = (r + 1 + 1) * ((k + 1).factorial * (r + 1).factorial) := by ring
      _ ≤ (k + 1 + r + 1) * (k + 1 + r).factorial := Nat.mul_le_mul (by omega) ih

/-- On a stencil with cells not longer than `h` the nodal polynomial is at most `D!/4 h^(D+1)`. -/
theorem nodal_bound (D : ℕ) (hD : 0 < D) (xs : ℕ → ℝ) (h : ℝ) (hinc : ∀ i < D, xs i < xs (i + 1)) (hh : ∀ i < D, xs (i + 1) - xs i ≤ h) (x : ℝ)
    (h0 : xs 0 ≤ x) (h1 : x ≤ xs D) : ∏ j ∈ range (D + 1), |x - xs j| ≤ D.factorial / 4 * h ^ (D + 1) := by
  -- the cell of the point
  have hcell : ∀ m ≤ D, 0 < m → x ≤ xs m → ∃ k < m, xs k ≤ x ∧ x ≤ xs (k + 1) := by
    intro m
    induction m with
    | zero => intro _ h _; omega
    | succ m ih =>
      intro hm _ hxm
      by_cases hle : xs m ≤ x
      · exact ⟨m, by omega, hle, hxm⟩
      · rcases Nat.eq_zero_or_pos m with rfl | hm0
        · exact absurd h0 hle
        · obtain ⟨k, hk, a, b⟩ := ih (by omega) hm0 (by linarith)
          exact ⟨k, by omega, a, b⟩
  obtain ⟨k, hk, hk0, hk1⟩ := hcell D le_rfl hD h1
  have hh0 : 0 ≤ h := by linarith [hh 0 hD, hinc 0 hD]
  have hdist : ∀ n i, i + n ≤ D → xs i ≤ xs (i + n) ∧ xs (i + n) - xs i ≤ n * h := by
    intro n
    induction n with
    | zero => intro i _; simp
    | succ n ih =>
      intro i hi
      obtain ⟨a, b⟩ := ih i (by omega)
      have c := hinc (i + n) (by omega)
      have d := hh (i + n) (by omega)
      rw [← add_assoc]
      push_cast
      constructor <;> linarith
  obtain ⟨r, hr⟩ : ∃ r, D = k + 1 + r := ⟨D - (k + 1), by omega⟩
  rw [show D + 1 = k + (2 + r) by omega, prod_range_add, prod_range_add]
  have e1 : ∏ j ∈ range k, |x - xs j| ≤ ((k + 1).factorial : ℝ) * h ^ k := by
    have : ((k + 1).factorial : ℝ) * h ^ k = ∏ j ∈ range k, (((k - j : ℕ) : ℝ) + 1) * h := by
      rw [prod_mul_distrib, prod_const, card_range, Nat.factorial_succ, ← prod_range_reflect]
      congr 1
      have : ∀ j ∈ range k, (((k - (k - 1 - j) : ℕ) : ℝ) + 1) = ((j + 1 : ℕ) : ℝ) + 1 := by
        intro j hj; have := mem_range.1 hj; rw [show k - (k - 1 - j) = j + 1 by omega]
      rw [prod_congr rfl this, ← prod_range_add_one_eq_factorial]
      push_cast
      have := prod_range_succ' (fun i : ℕ => (i : ℝ) + 1) k
      rw [prod_range_succ] at this
      push_cast at this
      linarith
    rw [this]
    refine prod_le_prod (fun _ _ => abs_nonneg _) fun j hj => ?_
    have hj' := mem_range.1 hj
    obtain ⟨a, b⟩ := hdist (k - j) j (by omega)
    rw [show j + (k - j) = k by omega] at a b
    have c := hh k hk
    rw [abs_of_nonneg (by linarith)]
    linarith
  have e2 : ∏ j ∈ range 2, |x - xs (k + j)| ≤ h ^ 2 / 4 := by
    rw [prod_range_succ, prod_range_one, add_zero, abs_of_nonneg (by linarith), abs_of_nonpos (by linarith)]
    have c := hh k hk
    nlinarith [sq_nonneg ((x - xs k) - (xs (k + 1) - x)), mul_self_nonneg (xs (k + 1) - xs k)]
  have e3 : ∏ j ∈ range r, |x - xs (k + (2 + j))| ≤ ((r + 1).factorial : ℝ) * h ^ r := by
    have : ((r + 1).factorial : ℝ) * h ^ r = ∏ j ∈ range r, ((j : ℝ) + 2) * h := by
      rw [prod_mul_distrib, prod_const, card_range, ← prod_range_add_one_eq_factorial, prod_range_succ']
      push_cast
      rw [mul_one]
      congr 1
      exact prod_congr rfl fun j _ => by ring
    rw [this]
    refine prod_le_prod (fun _ _ => abs_nonneg _) fun j hj => ?_
    have hj' := mem_range.1 hj
    obtain ⟨a, b⟩ := hdist (1 + j) (k + 1) (by omega)
    rw [show k + 1 + (1 + j) = k + (2 + j) by omega] at a b
    have c := hh k hk
    push_cast at b
    rw [abs_of_nonpos (by linarith)]
    linarith
  have hfac : ((k + 1).factorial : ℝ) * ((r + 1).factorial : ℝ) ≤ D.factorial := by
    have := factorial_split k r
    rw [← hr] at this
    exact_mod_cast this
  have hn3 : 0 ≤ ∏ j ∈ range r, |x - xs (k + (2 + j))| := prod_nonneg fun _ _ => abs_nonneg _
  have hn2 : 0 ≤ ∏ j ∈ range 2, |x - xs (k + j)| := prod_nonneg fun _ _ => abs_nonneg _
  calc _ ≤ ((k + 1).factorial : ℝ) * h ^ k * (h ^ 2 / 4 * (((r + 1).factorial : ℝ) * h ^ r)) := by gcongr
    _ = ((k + 1).factorial : ℝ) * ((r + 1).factorial : ℝ) / 4 * h ^ (k + (2 + r)) := by rw [pow_add, pow_add]; ring
    _ ≤ _ := by gcongr

/-! ### The bases -/

/-- The value computed from basis values taken at `y`, which is the point or a node within `tol` of it. -/
theorem stencil_error (D : ℕ) (xs : ℕ → ℝ) (hxs : Distinct D xs) (f : ℝ → ℝ) (hf : ContDiff ℝ (D + 1 : ℕ) f) (a b M M1 tol : ℝ) (htol : 0 ≤ tol)
    (hn : ∀ i ≤ D, xs i ∈ Set.Icc a b) (hM : ∀ t ∈ Set.Icc a b, |iteratedDeriv (D + 1) f t| ≤ M) (hM1 : ∀ t ∈ Set.Icc a b, |deriv f t| ≤ M1)
    (x : ℝ) (hx : x ∈ Set.Icc a b) (y : ℝ) (hy : y = x ∨ ∃ i ≤ D, y = xs i ∧ |x - y| ≤ tol) (vals : ℕ → ℝ)
    (hv : ∀ j ≤ D, vals j = (_root_.Lagrange.basis (range (D + 1)) xs j).eval y) :
    |∑ j ∈ range (D + 1), f (xs j) * vals j - f x| ≤ max (M / (D + 1).factorial * ∏ j ∈ range (D + 1), |x - xs j|) (M1 * tol) := by
  have hs : ∑ j ∈ range (D + 1), f (xs j) * vals j = (interp D xs f).eval y := by
    have := interp_deriv_eval D xs f 0 y
    simp only [Function.iterate_zero, id] at this
    rw [this]
    exact sum_congr rfl fun j hj => by rw [hv j (by have := mem_range.1 hj; omega)]
  rw [hs]
  rcases hy with rfl | ⟨i, hi, rfl, hd⟩
  · exact (interp_error D xs hxs f hf a b M hn hM _ hx).trans (le_max_left _ _)
  · rw [interp_node D xs hxs f i hi]
    refine (snap_error f (hf.differentiable (by simp)) a b M1 hM1 x (xs i) hx (hn i hi)).trans (le_trans ?_ (le_max_right _ _))
    have : 0 ≤ M1 := (abs_nonneg _).trans (hM1 x hx)
    gcongr

/-- The same for derivatives. -/
theorem stencil_deriv_error (D : ℕ) (xs : ℕ → ℝ) (hxs : Distinct D xs) (f : ℝ → ℝ) (hf : ContDiff ℝ (D + 1 : ℕ) f) (a b M M1 tol : ℝ) (htol : 0 ≤ tol) (n : ℕ) (hnD : n ≤ D)
    (hn : ∀ i ≤ D, xs i ∈ Set.Icc a b) (hM : ∀ t ∈ Set.Icc a b, |iteratedDeriv (D + 1) f t| ≤ M) (hM1 : ∀ t ∈ Set.Icc a b, |iteratedDeriv (n + 1) f t| ≤ M1)
    (x : ℝ) (hx : x ∈ Set.Icc a b) (y : ℝ) (hy : y = x ∨ ∃ i ≤ D, y = xs i ∧ |x - y| ≤ tol) (d : ℕ → ℝ)
    (hv : ∀ j ≤ D, d j = (derivative^[n] (_root_.Lagrange.basis (range (D + 1)) xs j)).eval y) :
    |∑ j ∈ range (D + 1), f (xs j) * d j - iteratedDeriv n f x| ≤ M / (D + 1 - n).factorial * (b - a) ^ (D + 1 - n) + M1 * tol := by
  have hs : ∑ j ∈ range (D + 1), f (xs j) * d j = (derivative^[n] (interp D xs f)).eval y := by
    rw [interp_deriv_eval]
    exact sum_congr rfl fun j hj => by rw [hv j (by have := mem_range.1 hj; omega)]
  have hM1' : 0 ≤ M1 := (abs_nonneg _).trans (hM1 x hx)
  have hy' : y ∈ Set.Icc a b := by
    rcases hy with rfl | ⟨i, hi, rfl, -⟩
    exacts [hx, hn i hi]
  have hd : |x - y| ≤ tol := by
    rcases hy with rfl | ⟨i, hi, rfl, hd⟩
    · simpa using htol
    · exact hd
  have e1 := interp_deriv_error D xs hxs f hf a b M hn hM n (by omega) y hy'
  have e2 : |iteratedDeriv n f y - iteratedDeriv n f x| ≤ M1 * tol := by
    refine (snap_error (iteratedDeriv n f) (hf.differentiable_iteratedDeriv n (by exact_mod_cast Nat.lt_succ_of_le hnD)) a b M1 (fun t ht => ?_) x y hx hy').trans (by gcongr)
    rw [← iteratedDeriv_succ]; exact hM1 t ht
  rw [hs]
  calc |(derivative^[n] (interp D xs f)).eval y - iteratedDeriv n f x| = |((derivative^[n] (interp D xs f)).eval y - iteratedDeriv n f y) + (iteratedDeriv n f y - iteratedDeriv n f x)| := by congr 1; ring
    _ ≤ _ := (abs_add_le _ _).trans (add_le_add e1 e2)

/-- **C95 (Lagrange basis, derivatives, non-uniform grid)** The combination of the samples of a `C^(D+1)` function with the `n`-th derivatives of the basis is within
`max|f^(D+1)| (b-a)^(D+1-n) / (D+1-n)!` of the `n`-th derivative of the function (plus the displacement of the point to a node within the tolerance). `n = 0` is the value. -/
theorem c95_lagrange_derivs_non_uniform (eps : ℝ) (heps : 0 < eps) (D : ℕ) (xs : ℕ → ℝ) (hxs : Distinct D xs) (f : ℝ → ℝ) (hf : ContDiff ℝ (D + 1 : ℕ) f) (a b M : ℝ)
    (hn : ∀ i ≤ D, xs i ∈ Set.Icc a b) (hM : ∀ t ∈ Set.Icc a b, |iteratedDeriv (D + 1) f t| ≤ M) (x : ℝ) (hx : x ∈ Set.Icc a b) (N n : ℕ) (hN : N ≤ D) (hnN : n ≤ N)
    (M1 : ℝ) (hM1 : ∀ t ∈ Set.Icc a b, |iteratedDeriv (n + 1) f t| ≤ M1) :
    ∃ (d : ℕ → ℝ) (F : ℕ), (∀ j ≤ D, ∀ fuel ≥ F, evalBasisAndNDerivsNU fuel eps D xs x N j n = some (d j)) ∧
      |∑ j ∈ range (D + 1), f (xs j) * d j - iteratedDeriv n f x| ≤ M / (D + 1 - n).factorial * (b - a) ^ (D + 1 - n) + M1 * eps := by
  obtain ⟨y, hy, h⟩ := c18_derivs_non_uniform eps heps D xs hxs x N hN
  have hF : ∀ j, ∃ F, j ≤ D → ∀ fuel ≥ F, evalBasisAndNDerivsNU fuel eps D xs x N j n = some ((derivative^[n] (_root_.Lagrange.basis (range (D + 1)) xs j)).eval y) := by
    intro j
    by_cases hj : j ≤ D
    · obtain ⟨F, hF⟩ := h j hj n hnN; exact ⟨F, fun _ => hF⟩
    · exact ⟨0, fun h => absurd h hj⟩
  choose F hF using hF
  refine ⟨fun j => (derivative^[n] (_root_.Lagrange.basis (range (D + 1)) xs j)).eval y, (range (D + 1)).sup F, fun j hj fuel hfuel => hF j hj fuel ?_, ?_⟩
  · exact (le_sup (f := F) (mem_range.2 (Nat.lt_succ_of_le hj))).trans hfuel
  · refine stencil_deriv_error D xs hxs f hf a b M M1 eps heps.le n (by omega) hn hM hM1 x hx y ?_ _ fun j _ => rfl
    rcases hy with h | ⟨i, hi, h, hd⟩
    exacts [Or.inl h, Or.inr ⟨i, hi, h, by rw [h]; exact hd.le⟩]

/-- **C95 (Lagrange basis, derivatives, uniform grid)** The same on a uniform stencil: `O(dx^(D+1-n))`. -/
theorem c95_lagrange_derivs_uniform (eps : ℝ) (heps : 0 ≤ eps) (heps1 : eps < 1 / 2) (D : ℕ) (x0 dx : ℝ) (hdx : 0 < dx) (f : ℝ → ℝ) (hf : ContDiff ℝ (D + 1 : ℕ) f) (M : ℝ)
    (hM : ∀ t ∈ Set.Icc x0 (uniformNodes x0 dx D), |iteratedDeriv (D + 1) f t| ≤ M) (x : ℝ) (hx0 : x0 ≤ x) (hxD : x ≤ uniformNodes x0 dx D) (N n : ℕ) (hN : N ≤ D) (hnN : n ≤ N)
    (M1 : ℝ) (hM1 : ∀ t ∈ Set.Icc x0 (uniformNodes x0 dx D), |iteratedDeriv (n + 1) f t| ≤ M1) :
    ∃ (d : ℕ → ℝ) (F : ℕ), (∀ j ≤ D, ∀ fuel ≥ F, evalBasisAndNDerivsU fuel eps D x0 dx x N j n = some (d j)) ∧
      |∑ j ∈ range (D + 1), f (uniformNodes x0 dx j) * d j - iteratedDeriv n f x| ≤
        M * (D : ℝ) ^ (D + 1 - n) / (D + 1 - n).factorial * dx ^ (D + 1 - n) + M1 * (eps * dx) := by
  obtain ⟨y, hy, h⟩ := c18_derivs_uniform eps heps heps1 D x0 dx x hdx hx0 hxD N hN
  have hxs := uniform_distinct D x0 dx hdx
  have hF : ∀ j, ∃ F, j ≤ D → ∀ fuel ≥ F, evalBasisAndNDerivsU fuel eps D x0 dx x N j n = some ((derivative^[n] (_root_.Lagrange.basis (range (D + 1)) (uniformNodes x0 dx) j)).eval y) := by
    intro j
    by_cases hj : j ≤ D
    · obtain ⟨F, hF⟩ := h j hj n hnN; exact ⟨F, fun _ => hF⟩
    · exact ⟨0, fun h => absurd h hj⟩
  choose F hF using hF
  refine ⟨fun j => (derivative^[n] (_root_.Lagrange.basis (range (D + 1)) (uniformNodes x0 dx) j)).eval y, (range (D + 1)).sup F, fun j hj fuel hfuel => hF j hj fuel ?_, ?_⟩
  · exact (le_sup (f := F) (mem_range.2 (Nat.lt_succ_of_le hj))).trans hfuel
  · have hnode : ∀ i ≤ D, uniformNodes x0 dx i ∈ Set.Icc x0 (uniformNodes x0 dx D) := by
      intro i hi
      have : (i : ℝ) ≤ D := by exact_mod_cast hi
      simp only [uniformNodes]
      exact ⟨by nlinarith [Nat.cast_nonneg (α := ℝ) i], by nlinarith⟩
    refine (stencil_deriv_error D _ hxs f hf x0 (uniformNodes x0 dx D) M M1 (eps * dx) (by positivity) n (by omega) hnode hM hM1 x ⟨hx0, hxD⟩ y ?_ _ fun j _ => rfl).trans (le_of_eq ?_)
    · rcases hy with h | ⟨i, hi, h, hd⟩
      exacts [Or.inl h, Or.inr ⟨i, hi, h, by rw [h]; exact hd⟩]
    · rw [show uniformNodes x0 dx D - x0 = D * dx by simp [uniformNodes], mul_pow]; ring

/-! ### The evaluator -/

/-- Error of one stencil of the evaluator. -/
theorem knots_error {D top : ℕ} (hD : 0 < D) {tol : ℝ} (htol : 0 ≤ tol) {knot : ℕ → ℝ} {basis : ℤ → ℝ → ℕ → ℝ} (hk : Increasing top knot) (hok : BasisOK D top tol knot basis)
    (h : ℝ) (hh : ∀ i < top, knot (i + 1) - knot i ≤ h) (f : ℝ → ℝ) (hf : ContDiff ℝ (D + 1 : ℕ) f) (M M1 : ℝ)
    (hM : ∀ t ∈ Set.Icc (knot 0) (knot top), |iteratedDeriv (D + 1) f t| ≤ M) (hM1 : ∀ t ∈ Set.Icc (knot 0) (knot top), |deriv f t| ≤ M1)
    (s : ℕ) (hs : s + D ≤ top) (x : ℝ) (hx0 : knot s ≤ x) (hx1 : x ≤ knot (s + D)) :
    |∑ i ∈ range (D + 1), f (knot (s + i)) * basis s x i - f x| ≤ max (M / (4 * (D + 1)) * h ^ (D + 1)) (M1 * tol) := by
  obtain ⟨y, hy, hv⟩ := hok s x hs hx0 hx1
  have hx : x ∈ Set.Icc (knot 0) (knot top) := ⟨(hk.le (by omega) (by omega)).trans hx0, hx1.trans (hk.le hs le_rfl)⟩
  have hM0 : 0 ≤ M := (abs_nonneg _).trans (hM x hx)
  refine (stencil_error D (fun i => knot (s + i)) (distinct_of_increasing hk s hs) f hf (knot 0) (knot top) M M1 tol htol
    (fun i hi => ⟨hk.le (by omega) (by omega), hk.le (by omega) le_rfl⟩) hM hM1 x hx y hy (basis s x) hv).trans (max_le_max ?_ le_rfl)
  have := nodal_bound D hD (fun i => knot (s + i)) h (fun i hi => hk _ _ (by omega) (by omega)) (fun i hi => hh (s + i) (by omega)) x hx0 hx1
  calc M / (D + 1).factorial * ∏ j ∈ range (D + 1), |x - knot (s + j)| ≤ M / (D + 1).factorial * (D.factorial / 4 * h ^ (D + 1)) := by gcongr
    _ = _ := by
      rw [Nat.factorial_succ]
      have : (D.factorial : ℝ) ≠ 0 := by exact_mod_cast D.factorial_ne_zero
      have h2 : (D : ℝ) + 1 ≠ 0 := by positivity
      push_cast
      field_simp

theorem eval_error_non_periodic (D Nl : ℕ) (hD : 0 < D) (hDN : D ≤ Nl) (tol : ℝ) (htol : 0 ≤ tol) (knot : ℕ → ℝ) (hk : Increasing Nl knot) (closest : ℝ → Option ℕ)
    (hcl : ∀ x, knot 0 ≤ x → x ≤ knot Nl → ∃ c, closest x = some c ∧ Bracket D Nl knot x c)
    (basis : ℤ → ℝ → ℕ → ℝ) (hok : BasisOK D Nl tol knot basis) (lower upper : ℝ → ℝ)
    (h : ℝ) (hh : ∀ i < Nl, knot (i + 1) - knot i ≤ h) (f : ℝ → ℝ) (hf : ContDiff ℝ (D + 1 : ℕ) f) (M M1 : ℝ)
    (hM : ∀ t ∈ Set.Icc (knot 0) (knot Nl), |iteratedDeriv (D + 1) f t| ≤ M) (hM1 : ∀ t ∈ Set.Icc (knot 0) (knot Nl), |deriv f t| ≤ M1) (x : ℝ) (h0 : knot 0 ≤ x) (h1 : x ≤ knot Nl) :
    ∃ v, eval false D Nl knot closest basis lower upper (fun k => f (knot k)) x = some v ∧ |v - f x| ≤ max (M / (4 * (D + 1)) * h ^ (D + 1)) (M1 * tol) := by
  obtain ⟨c, hc, hb⟩ := hcl x h0 h1
  obtain ⟨s, hs, hsD, hx0, hx1, _⟩ := c19_stencil_non_periodic D Nl hD hDN knot hk x (knot Nl - knot 0) h0 h1 c hb
  refine ⟨∑ i ∈ range (D + 1), f (knot (s + i)) * basis s x i, ?_, knots_error hD htol hk hok h hh f hf M M1 hM hM1 s hsD x hx0 hx1⟩
  unfold LagrangeEvaluator.eval
  simp only [Bool.false_eq_true, if_false]
  rw [if_neg (not_lt.2 h0), if_neg (not_lt.2 h1)]
  unfold evalNoBc
  rw [hc, Option.map_some]
  simp only [hs]
  rw [stencil_sum D (fun k => f (knot k)) (basis s x) s]

theorem eval_error_periodic (D Nl : ℕ) (hD : 0 < D) (hDN : D < Nl) (tol : ℝ) (htol : 0 ≤ tol) (knot : ℕ → ℝ) (hk : Increasing (Nl + D) knot) (hp : PeriodicKnots D Nl knot)
    (closest : ℝ → Option ℕ) (hcl : ∀ x, knot 0 ≤ x → x ≤ knot Nl → ∃ c, closest x = some c ∧ Bracket D Nl knot x c)
    (basis : ℤ → ℝ → ℕ → ℝ) (hok : BasisOK D (Nl + D) tol knot basis) (lower upper : ℝ → ℝ)
    (hper : InterpolatesPeriodic Nl knot (fun coef x => eval true D Nl knot closest basis lower upper coef x) (builtCoeffs true D Nl))
    (h : ℝ) (hh : ∀ i < Nl, knot (i + 1) - knot i ≤ h) (f : ℝ → ℝ) (hf : ContDiff ℝ (D + 1 : ℕ) f) (hfp : ∀ t, f (t + (knot Nl - knot 0)) = f t) (M M1 : ℝ)
    (hM : ∀ t, |iteratedDeriv (D + 1) f t| ≤ M) (hM1 : ∀ t, |deriv f t| ≤ M1) (x : ℝ) :
    ∃ v, eval true D Nl knot closest basis lower upper (builtCoeffs true D Nl fun k => f (knot k)) x = some v ∧ |v - f x| ≤ max (M / (4 * (D + 1)) * h ^ (D + 1)) (M1 * tol) := by
  have hLpos : 0 < knot Nl - knot 0 := sub_pos.2 (hk 0 Nl (by omega) (by omega))
  -- all the cells of the extended grid
  have hh' : ∀ i < Nl + D, knot (i + 1) - knot i ≤ h := by
    intro i hi
    by_cases hlt : i < Nl
    · exact hh i hlt
    · obtain ⟨j, rfl⟩ : ∃ j, i = Nl + j := ⟨i - Nl, by omega⟩
      rw [add_assoc, hp (j + 1) (by omega), hp j (by omega)]
      have := hh j (by omega)
      linarith
  have hcoef : ∀ k ≤ Nl + D, builtCoeffs true D Nl (fun k => f (knot k)) k = f (knot k) := by
    intro k hkt
    rw [builtCoeffs, (c19_builder D Nl _).2 hDN k hkt, Option.getD_some]
    by_cases hlt : k < Nl
    · rw [Nat.mod_eq_of_lt hlt]
    · obtain ⟨j, rfl⟩ : ∃ j, k = Nl + j := ⟨k - Nl, by omega⟩
      rw [Nat.add_mod_left, Nat.mod_eq_of_lt (by omega), hp j (by omega)]
      have := hfp (knot j)
      rw [← this]
      congr 1; ring
  -- a point of the period
  have hin : ∀ x, knot 0 ≤ x → x ≤ knot Nl →
      ∃ v, eval true D Nl knot closest basis lower upper (builtCoeffs true D Nl fun k => f (knot k)) x = some v ∧ |v - f x| ≤ max (M / (4 * (D + 1)) * h ^ (D + 1)) (M1 * tol) := by
    intro x h0 h1
    obtain ⟨c, hc, hb⟩ := hcl x h0 h1
    obtain ⟨s, x', hs, hsD, hx0, hx1, hx'⟩ := c19_stencil_periodic D Nl hD hDN.le knot hk hp x h0 h1 c hb
    refine ⟨∑ i ∈ range (D + 1), f (knot (s + i)) * basis s x' i, ?_, ?_⟩
    · unfold LagrangeEvaluator.eval
      simp only [if_true]
      rw [if_neg (by rw [not_or]; exact ⟨not_lt.2 h0, not_lt.2 h1⟩)]
      unfold evalNoBc
      rw [hc, Option.map_some]
      simp only [hs]
      rw [stencil_sum D _ (basis s x') s]
      congr 1
      exact sum_congr rfl fun i hi => by rw [hcoef (s + i) (by have := mem_range.1 hi; omega)]
    · have hfx : f x' = f x := by
        rcases hx' with ⟨h, -⟩ | ⟨h, -⟩
        · rw [h]
        · rw [h, hfp]
      rw [← hfx]
      exact knots_error hD htol hk hok h hh' f hf M M1 (fun t _ => hM t) (fun t _ => hM1 t) s hsD x' hx0 hx1
  -- any point
  obtain ⟨m, hm⟩ : ∃ m : ℤ, m = ⌊(x - knot 0) / (knot Nl - knot 0)⌋ := ⟨_, rfl⟩
  have b1 := Int.floor_le ((x - knot 0) / (knot Nl - knot 0))
  have b2 := Int.lt_floor_add_one ((x - knot 0) / (knot Nl - knot 0))
  rw [← hm, le_div_iff₀ hLpos] at b1
  rw [← hm, div_lt_iff₀ hLpos] at b2
  obtain ⟨v, hv, he⟩ := hin (x - m * (knot Nl - knot 0)) (by linarith) (by linarith)
  have hfper : Function.Periodic f (knot Nl - knot 0) := hfp
  refine ⟨v, ?_, ?_⟩
  · have := (hper fun k => f (knot k)).2.1 (x - m * (knot Nl - knot 0)) m
    simp only [sub_add_cancel] at this
    rw [this, hv]
  · rw [hfper.sub_int_mul_eq m] at he
    exact he

/-- **C95 (Lagrange evaluator, uniform grid)** Interpolation of degree `D` of the samples of a `C^(D+1)` function is within `max|f^(D+1)| dx^(D+1) / (4 (D+1))` at every point of the grid
(when the point is closer to a node than the tolerance `eps dx`: within `max|f'| eps dx`). -/
theorem c95_evaluator_uniform (eps : ℝ) (heps : 0 ≤ eps) (heps1 : eps < 1 / 2) (D Nl : ℕ) (hD : 0 < D) (hDN : D ≤ Nl) (x0 dx : ℝ) (hdx : 0 < dx) (lower upper : ℝ → ℝ)
    (f : ℝ → ℝ) (hf : ContDiff ℝ (D + 1 : ℕ) f) (M M1 : ℝ)
    (hM : ∀ t ∈ Set.Icc x0 (x0 + Nl * dx), |iteratedDeriv (D + 1) f t| ≤ M) (hM1 : ∀ t ∈ Set.Icc x0 (x0 + Nl * dx), |deriv f t| ≤ M1) (x : ℝ) (hx : x ∈ Set.Icc x0 (x0 + Nl * dx)) :
    ∃ v, evalU false eps D Nl x0 dx lower upper (builtCoeffs false D Nl fun k => f (x0 + k * dx)) x = some v ∧ |v - f x| ≤ max (M / (4 * (D + 1)) * dx ^ (D + 1)) (M1 * (eps * dx)) := by
  have e0 : uniformNodes x0 dx 0 = x0 := by simp [uniformNodes]
  have eN : uniformNodes x0 dx Nl = x0 + Nl * dx := rfl
  obtain ⟨v, hv, he⟩ := eval_error_non_periodic D Nl hD hDN (eps * dx) (by positivity) (uniformNodes x0 dx) (increasing_uniform Nl x0 dx hdx)
    (fun y => some (getclosestU D x0 dx y)) (fun x h0 h1 => ⟨_, rfl, c19_closest_uniform D Nl x0 dx x hdx h0 h1⟩) _
    (basisOK_uniform false (Nl * dx) eps heps heps1 D Nl x0 dx hdx) lower upper dx (fun i _ => by simp only [uniformNodes]; push_cast; linarith) f hf M M1
    (by rw [e0, eN]; exact hM) (by rw [e0, eN]; exact hM1) x (by rw [e0]; exact hx.1) (by rw [eN]; exact hx.2)
  refine ⟨v, ?_, he⟩
  rw [← hv]
  refine (c19_uniform_non_periodic eps heps heps1 D Nl hD hDN x0 dx hdx lower upper).2.2.2.2 _ _ (fun k hk => ?_) x
  rw [builtCoeffs, (c19_builder D Nl _).1 k hk]; rfl

/-- **C95 (Lagrange evaluator, non-uniform grid)** The same with `h` the longest cell. -/
theorem c95_evaluator_non_uniform (eps : ℝ) (heps : 0 < eps) (D Nl : ℕ) (hD : 0 < D) (hDN : D ≤ Nl) (knot : ℕ → ℝ) (hsp : Spaced Nl eps knot) (lower upper : ℝ → ℝ)
    (h : ℝ) (hh : ∀ i < Nl, knot (i + 1) - knot i ≤ h) (f : ℝ → ℝ) (hf : ContDiff ℝ (D + 1 : ℕ) f) (M M1 : ℝ)
    (hM : ∀ t ∈ Set.Icc (knot 0) (knot Nl), |iteratedDeriv (D + 1) f t| ≤ M) (hM1 : ∀ t ∈ Set.Icc (knot 0) (knot Nl), |deriv f t| ≤ M1) (x : ℝ) (hx : x ∈ Set.Icc (knot 0) (knot Nl)) :
    ∃ v, evalNU false eps D Nl knot lower upper (builtCoeffs false D Nl fun k => f (knot k)) x = some v ∧ |v - f x| ≤ max (M / (4 * (D + 1)) * h ^ (D + 1)) (M1 * eps) := by
  have hk : Increasing Nl knot := fun i j h h' => by have := hsp i j h h'; linarith
  obtain ⟨v, hv, he⟩ := eval_error_non_periodic D Nl hD hDN eps heps.le knot hk _ (fun x h0 h1 => c19_closest_non_uniform D Nl (by omega) knot hk x h0 h1) _
    (basisOK_non_uniform eps heps D Nl knot hk) lower upper h hh f hf M M1 hM hM1 x hx.1 hx.2
  refine ⟨v, ?_, he⟩
  rw [← hv]
  refine (c19_non_uniform_non_periodic eps heps D Nl hD hDN knot hsp lower upper).2.2.2.2 _ _ (fun k hk => ?_) x
  rw [builtCoeffs, (c19_builder D Nl _).1 k hk]; rfl

/-- **C95 (Lagrange evaluator, periodic uniform grid)** For a periodic function of period `Nl dx`, at every point of the line. -/
theorem c95_evaluator_uniform_periodic (eps : ℝ) (heps : 0 ≤ eps) (heps1 : eps < 1 / 2) (D Nl : ℕ) (hD : 0 < D) (hDN : D < Nl) (x0 dx : ℝ) (hdx : 0 < dx) (lower upper : ℝ → ℝ)
    (f : ℝ → ℝ) (hf : ContDiff ℝ (D + 1 : ℕ) f) (hfp : ∀ t, f (t + Nl * dx) = f t) (M M1 : ℝ) (hM : ∀ t, |iteratedDeriv (D + 1) f t| ≤ M) (hM1 : ∀ t, |deriv f t| ≤ M1) (x : ℝ) :
    ∃ v, evalU true eps D Nl x0 dx lower upper (builtCoeffs true D Nl fun k => f (x0 + k * dx)) x = some v ∧ |v - f x| ≤ max (M / (4 * (D + 1)) * dx ^ (D + 1)) (M1 * (eps * dx)) := by
  have eL : uniformNodes x0 dx Nl - uniformNodes x0 dx 0 = Nl * dx := by simp [uniformNodes]
  exact eval_error_periodic D Nl hD hDN (eps * dx) (by positivity) (uniformNodes x0 dx) (increasing_uniform _ x0 dx hdx)
    (fun i _ => by simp only [uniformNodes]; push_cast; ring) (fun y => some (getclosestU D x0 dx y)) (fun x h0 h1 => ⟨_, rfl, c19_closest_uniform D Nl x0 dx x hdx h0 h1⟩) _
    (basisOK_uniform true (Nl * dx) eps heps heps1 D _ x0 dx hdx) lower upper (c19_uniform_periodic eps heps heps1 D Nl hD hDN x0 dx hdx lower upper) dx
    (fun i _ => by simp only [uniformNodes]; push_cast; linarith) f hf (by rw [eL]; exact hfp) M M1 hM hM1 x

/-- **C95 (Lagrange evaluator, periodic non-uniform grid)** `coord 0 … coord Nl` are the break points (the last one closes the period), `h` is the longest cell. -/
theorem c95_evaluator_non_uniform_periodic (eps : ℝ) (heps : 0 < eps) (D Nl : ℕ) (hD : 0 < D) (hDN : D < Nl) (coord : ℕ → ℝ) (hsp : Spaced Nl eps coord) (lower upper : ℝ → ℝ)
    (h : ℝ) (hh : ∀ i < Nl, coord (i + 1) - coord i ≤ h) (f : ℝ → ℝ) (hf : ContDiff ℝ (D + 1 : ℕ) f) (hfp : ∀ t, f (t + (coord Nl - coord 0)) = f t) (M M1 : ℝ)
    (hM : ∀ t, |iteratedDeriv (D + 1) f t| ≤ M) (hM1 : ∀ t, |deriv f t| ≤ M1) (x : ℝ) :
    ∃ v, evalNU true eps D Nl (knotsNU (Nl + 1) coord) lower upper (builtCoeffs true D Nl fun k => f (coord k)) x = some v ∧ |v - f x| ≤ max (M / (4 * (D + 1)) * h ^ (D + 1)) (M1 * eps) := by
  have hlow : ∀ k ≤ Nl, knotsNU (Nl + 1) coord k = coord k := fun k hk => by rw [knotsNU, if_pos (by omega)]
  have hhigh : ∀ i, knotsNU (Nl + 1) coord (Nl + i) = coord Nl + (coord i - coord 0) := by
    intro i
    unfold knotsNU
    split_ifs with h
    · obtain rfl : i = 0 := by omega
      simp
    · simp only [Nat.add_sub_cancel]
      rw [show Nl + i - (Nl + 1) + 1 = i by omega]
  have hk : Increasing (Nl + D) (knotsNU (Nl + 1) coord) := by
    have hstep : ∀ i, i + 1 ≤ Nl + D → knotsNU (Nl + 1) coord i < knotsNU (Nl + 1) coord (i + 1) := by
      intro i hi
      by_cases h : i + 1 ≤ Nl
      · rw [hlow _ h, hlow _ (by omega)]; have := hsp i (i + 1) (by omega) h; linarith
      · obtain ⟨m, rfl⟩ : ∃ m, i = Nl + m := ⟨i - Nl, by omega⟩
        rw [Nat.add_assoc, hhigh, hhigh]
        have := hsp m (m + 1) (by omega) (by omega)
        linarith
    intro i j hij hj
    induction j with
    | zero => omega
    | succ j ih =>
      have h1 := hstep j hj
      rcases Nat.eq_or_lt_of_le (show i ≤ j by omega) with h | h
      · rw [h]; exact h1
      · exact (ih h (by omega)).trans h1
  have key := eval_error_periodic D Nl hD hDN eps heps.le (knotsNU (Nl + 1) coord) hk (fun i hi => by rw [hhigh, hlow Nl le_rfl, hlow i (by omega), hlow 0 (by omega)]) _
    (fun x h0 h1 => c19_closest_non_uniform D Nl (by omega) _ (fun i j h h' => hk i j h (by omega)) x h0 h1) _ (basisOK_non_uniform eps heps D _ _ hk) lower upper
    (c19_non_uniform_periodic eps heps D Nl hD hDN coord hsp lower upper) h (fun i hi => by rw [hlow _ (by omega), hlow _ (by omega)]; exact hh i hi) f hf
    (by rw [hlow _ le_rfl, hlow 0 (by omega)]; exact hfp) M M1 hM hM1 x
  have hb : (fun k => builtCoeffs true D Nl (fun k => f (knotsNU (Nl + 1) coord k)) k) = builtCoeffs true D Nl fun k => f (coord k) := by
    funext k
    simp only [builtCoeffs, buildCoeffs, if_true]
    split_ifs with h1 h2 h3
    · rw [hlow k (by omega)]
    · rw [hlow (k - Nl) (by omega)]
    · rfl
    · rfl
  rw [← hb]
  exact key

example : Spaced 5 (1 / 2) (fun k => (k : ℝ) ^ 2) ∧ ∀ i < 5, ((i + 1 : ℕ) : ℝ) ^ 2 - (i : ℝ) ^ 2 ≤ 9 := by
  refine ⟨fun i j hij _ => ?_, fun i hi => ?_⟩
  · have : (i : ℝ) + 1 ≤ j := by exact_mod_cast hij
    have hi : (0 : ℝ) ≤ i := Nat.cast_nonneg i
    simp only
    nlinarith
  · have : (i : ℝ) ≤ 4 := by exact_mod_cast (show i ≤ 4 by omega)
    push_cast; nlinarith

example : ContDiff ℝ (3 + 1 : ℕ) Real.sin ∧ (∀ t, Real.sin (t + (10 : ℕ) * (Real.pi / 5)) = Real.sin t) ∧ (∀ t, |deriv Real.sin t| ≤ 1) := by
  refine ⟨Real.contDiff_sin, fun t => ?_, fun t => ?_⟩
  · rw [show ((10 : ℕ) : ℝ) * (Real.pi / 5) = 2 * Real.pi by push_cast; ring, Real.sin_add_two_pi]
  · rw [Real.deriv_sin]; exact Real.abs_cos_le_one t

end Verif.AccuracyLagrange
