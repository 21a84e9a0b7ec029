import Verif.Props.FemBSpline
import Mathlib.Analysis.Calculus.MeanValue
import Mathlib.Analysis.Calculus.Deriv.MeanValue
import Mathlib.Analysis.Calculus.Deriv.Polynomial

/-!
# C114: convergence of the 1D finite element Poisson solver
-/

namespace Verif.BSpline

open Polynomial Finset

/-- Every polynomial has an antiderivative. -/
theorem antiderivative (P : ℝ[X]) : ∃ Q : ℝ[X], derivative Q = P ∧ Q.natDegree ≤ P.natDegree + 1 := by
  refine ⟨∑ i ∈ range (P.natDegree + 1), C (P.coeff i / (i + 1)) * X ^ (i + 1), ?_, ?_⟩
  · conv_rhs => rw [P.as_sum_range_C_mul_X_pow]
    rw [derivative_sum]
    refine sum_congr rfl fun i _ => ?_
    rw [derivative_C_mul_X_pow, Nat.add_sub_cancel]
    push_cast
    rw [div_mul_cancel₀ _ (by positivity)]
  · refine natDegree_sum_le_of_forall_le _ _ fun i hi => ?_
    exact (natDegree_C_mul_X_pow_le _ _).trans (by have := mem_range.1 hi; omega)

/-- A function whose derivative is a polynomial on an interval is a polynomial there. -/
theorem polynomial_of_deriv {lo hi a e : ℝ} (hlo : lo ≤ a) (hhi : e ≤ hi) (f f' : ℝ → ℝ) (hf : ∀ x ∈ Set.Icc lo hi, HasDerivWithinAt f (f' x) (Set.Icc lo hi) x) (P : ℝ[X])
    (hP : ∀ x ∈ Set.Icc a e, f' x = P.eval x) : ∃ Q : ℝ[X], derivative Q = P ∧ Q.natDegree ≤ P.natDegree + 1 ∧ ∀ x ∈ Set.Icc a e, f x = Q.eval x := by
  obtain ⟨Q, hQ, hd⟩ := antiderivative P
  refine ⟨Q + C (f a - Q.eval a), by rw [derivative_add, derivative_C, add_zero, hQ], ?_, ?_⟩
  · exact (natDegree_add_C).le.trans hd
  · have hsub : Set.Icc a e ⊆ Set.Icc lo hi := Set.Icc_subset_Icc hlo hhi
    have hder : ∀ x ∈ Set.Icc a e, HasDerivWithinAt (fun x => f x - Q.eval x) 0 (Set.Icc a e) x := by
      intro x hx
      have h1 := (hf x (hsub hx)).mono hsub
      have h2 := (Q.hasDerivAt x).hasDerivWithinAt (s := Set.Icc a e)
      have := h1.sub h2
      rwa [hP x hx, hQ, sub_self] at this
    intro x hx
    have := constant_of_has_deriv_right_zero (f := fun x => f x - Q.eval x) (a := a) (b := e) (fun x hx => (hder x hx).continuousWithinAt)
      (fun x hx => (hder x ⟨hx.1, hx.2.le⟩).mono_of_mem_nhdsWithin (Icc_mem_nhdsGE_of_mem hx)) x hx
    simp only [eval_add, eval_C] at this ⊢
    linarith

section competitor

variable {t : ℤ → ℝ} {c : ℤ}

theorem knots_width {h : ℝ} (hh : ∀ k, t (k + 1) - t k ≤ h) (m : ℕ) (i : ℤ) : t (i + m) - t i ≤ m * h := by
  induction m with
  | zero => simp
  | succ m ih =>
    have := hh (i + m)
    push_cast
    rw [show i + ((m : ℤ) + 1) = i + m + 1 by ring]
    linarith

theorem inner_ge (ht : Monotone t) (p : ℕ) (i : ℤ) : p * t (i + 1) ≤ inner t p i := by
  have := card_nsmul_le_sum (range p) (fun k : ℕ => t (i + 1 + k)) (t (i + 1)) fun k _ => ht (by omega)
  rwa [card_range, nsmul_eq_mul] at this

theorem inner_le (ht : Monotone t) (p : ℕ) (i : ℤ) : inner t p i ≤ p * t (i + p) := by
  have := sum_le_card_nsmul (range p) (fun k : ℕ => t (i + 1 + k)) (t (i + p)) fun k hk => ht (by have := mem_range.1 hk; omega)
  rwa [card_range, nsmul_eq_mul] at this

/-- The spline with the values at the Greville points as coefficients has a slope which is close to the slope of the function. -/
theorem quasi_slope (ht : Monotone t) (hc : t c < t (c + 1)) (p : ℕ) {lo hi M h : ℝ} (hlo : lo ≤ t (c - p)) (hhi : t (c + p + 1) ≤ hi) (hh : ∀ k, t (k + 1) - t k ≤ h)
    (φ φ' φ'' : ℝ → ℝ) (h1 : ∀ x ∈ Set.Icc lo hi, HasDerivWithinAt φ (φ' x) (Set.Icc lo hi) x) (h2 : ∀ x ∈ Set.Icc lo hi, HasDerivWithinAt φ' (φ'' x) (Set.Icc lo hi) x)
    (hM : ∀ x ∈ Set.Icc lo hi, |φ'' x| ≤ M) (x : ℝ) (hx1 : t c ≤ x) (hx2 : x ≤ t (c + 1)) (a : ℤ → ℝ) (ha : ∀ i, c - (p + 1) ≤ i → i ≤ c → a i = φ (inner t (p + 1) i / (p + 1))) :
    |(derivative (spl t c (p + 1) a)).eval x - φ' x| ≤ M * ((p + 1) * h) := by
  have hp : (0 : ℝ) < p + 1 := by positivity
  have htc : ∀ {i j : ℤ}, i ≤ j → t i ≤ t j := fun h => ht h
  have hxI : x ∈ Set.Icc lo hi := by
    have a1 : t (c - p) ≤ t c := ht (by omega)
    have a2 : t (c + 1) ≤ t (c + p + 1) := ht (by omega)
    exact ⟨by linarith, by linarith⟩
  have hM0 : 0 ≤ M := (abs_nonneg _).trans (hM x hxI)
  have key : ∀ j ∈ range (p + 1), |(p + 1) * (a (c - p + j) - a (c - p + j - 1)) / (t (c - p + j + p + 1) - t (c - p + j)) - φ' x| ≤ M * ((p + 1) * h) := by
    intro j hj
    have hj := mem_range.1 hj
    obtain ⟨i, hi'⟩ : ∃ i, i = c - p + j := ⟨_, rfl⟩
    rw [← hi']
    have hden := den_pos ht hc p i (by omega) (by omega)
    have hw := knots_width hh (p + 1) i
    push_cast at hw
    rw [show i + ((p : ℤ) + 1) = i + p + 1 by ring] at hw
    rw [ha i (by omega) (by omega), ha (i - 1) (by omega) (by omega)]
    obtain ⟨u, hu⟩ : ∃ u, u = inner t (p + 1) (i - 1) / (p + 1) := ⟨_, rfl⟩
    obtain ⟨v, hv⟩ : ∃ v, v = inner t (p + 1) i / (p + 1) := ⟨_, rfl⟩
    rw [← hu, ← hv]
    have hu1 : t i ≤ u := by
      have := inner_ge ht (p + 1) (i - 1)
      rw [show i - 1 + 1 = i by ring] at this
      push_cast at this
      rw [hu, le_div_iff₀ hp]
      linarith
    have hv1 : v ≤ t (i + p + 1) := by
      have := inner_le ht (p + 1) i
      push_cast at this
      rw [show i + ((p : ℤ) + 1) = i + p + 1 by ring] at this
      rw [hv, div_le_iff₀ hp]
      linarith
    have hvu : v - u = (t (i + p + 1) - t i) / (p + 1) := by
      rw [hu, hv, inner_succ, inner_pred]
      field_simp
      ring
    have huv : u < v := by
      have : 0 < v - u := by rw [hvu]; positivity
      linarith
    have hti : lo ≤ t i := hlo.trans (htc (by omega))
    have hti' : t (i + p + 1) ≤ hi := (htc (by omega)).trans hhi
    obtain ⟨η, hη, hηs⟩ := exists_hasDerivAt_eq_slope φ φ' huv
      (fun y hy => ((h1 y ⟨by linarith [hy.1], by linarith [hy.2]⟩).continuousWithinAt).mono (Set.Icc_subset_Icc (by linarith) (by linarith)))
      (fun y hy => (h1 y ⟨by linarith [hy.1], by linarith [hy.2]⟩).hasDerivAt (Icc_mem_nhds (by linarith [hy.1]) (by linarith [hy.2])))
    have hq : (p + 1) * (φ v - φ u) / (t (i + p + 1) - t i) = φ' η := by
      rw [hηs, hvu]
      field_simp
    rw [hq]
    have hηI : η ∈ Set.Icc lo hi := ⟨by linarith [hη.1], by linarith [hη.2]⟩
    have hlip := (convex_Icc lo hi).norm_image_sub_le_of_norm_hasDerivWithin_le h2 (fun y hy => by rw [Real.norm_eq_abs]; exact hM y hy) hxI hηI
    rw [Real.norm_eq_abs, Real.norm_eq_abs] at hlip
    refine hlip.trans (mul_le_mul_of_nonneg_left ?_ hM0)
    have b1 : t i ≤ t c := htc (by omega)
    have b2 : t (c + 1) ≤ t (i + p + 1) := htc (by omega)
    rw [abs_le]
    exact ⟨by linarith [hη.1], by linarith [hη.2]⟩
  have hs := congrArg (eval x) (deriv_sum ht hc p a)
  have hu := congrArg (eval x) (unity ht hc p)
  simp only [eval_finsetSum, eval_mul, eval_C, eval_one] at hs hu
  have he : (derivative (spl t c (p + 1) a)).eval x - φ' x =
      ∑ j ∈ range (p + 1), ((p + 1) * (a (c - p + j) - a (c - p + j - 1)) / (t (c - p + j + p + 1) - t (c - p + j)) - φ' x) * (piece t c p (c - p + j)).eval x := by
    simp only [sub_mul, sum_sub_distrib]
    rw [← mul_sum, hu, mul_one, ← hs, spl]
    push_cast
    rfl
  rw [he]
  refine (abs_sum_le_sum_abs _ _).trans ?_
  calc _ ≤ ∑ j ∈ range (p + 1), M * ((p + 1) * h) * (piece t c p (c - p + j)).eval x := by
        refine sum_le_sum fun j hj => ?_
        have hnn := piece_nonneg (c := c) ht p (c - p + j) x hx1 hx2
        rw [abs_mul, abs_of_nonneg hnn]
        exact mul_le_mul_of_nonneg_right (key j hj) hnn
    _ = _ := by rw [← mul_sum, hu, mul_one]

end competitor

/-- The coordinate of a point, read off the B-splines there. -/
noncomputable def xOf (t : ℤ → ℝ) (d : ℕ) (p : Fem.Pt) : ℝ := (∑ j ∈ range (d + 1), inner t d ((p.jmin : ℤ) - d + j) * p.vals j) / d

theorem xOf_pt {t : ℤ → ℝ} (ht : Monotone t) {d : ℕ} (hd : 1 ≤ d) (q : ℕ) (hq : t q < t ((q : ℤ) + 1)) (xw : ℝ × ℝ) : xOf t d (pt t d q xw) = xw.1 := by
  have := congrArg (eval xw.1) (linear_precision ht hq d)
  simp only [eval_finsetSum, eval_mul, eval_C, eval_natCast, eval_X] at this
  simp only [xOf, pt]
  rw [this, mul_div_cancel_left₀ _ (by positivity)]

/-- The integral over a cell of `φ' ψ' - ρ ψ`, by parts. -/
theorem weak_cell {n d : ℕ} {b : ℕ → ℝ} {rule : ℕ → List (ℝ × ℝ)} (hd : 1 ≤ d) (R : Rule n d (2 * d) b rule) {q : ℕ} (hq : q < n) (G P Ψ : ℝ[X]) (hG : derivative G = -P) (hGd : G.natDegree ≤ d + 1) (hΨ : Ψ.natDegree ≤ d) :
    ((rule q).map fun xw => xw.2 * (G.eval xw.1 * (derivative Ψ).eval xw.1)).sum - ((rule q).map fun xw => xw.2 * (P.eval xw.1 * Ψ.eval xw.1)).sum =
      G.eval (b (q + 1)) * Ψ.eval (b (q + 1)) - G.eval (b q) * Ψ.eval (b q) := by
  have h := R.exact q hq (G * Ψ) ((natDegree_mul_le_of_le hGd hΨ).trans (by omega))
  rw [eval_mul, eval_mul, derivative_mul, hG] at h
  rw [← h]
  induction rule q with
  | nil => simp
  | cons a l ih =>
    simp only [List.map_cons, List.sum_cons, eval_add, eval_mul, eval_neg] at ih ⊢
    linear_combination ih

theorem weights_sum {n d k : ℕ} {b : ℕ → ℝ} {rule : ℕ → List (ℝ × ℝ)} (R : Rule n d k b rule) {q : ℕ} (hq : q < n) : ((rule q).map fun xw => xw.2).sum = b (q + 1) - b q := by
  have := R.exact q hq X (by rw [natDegree_X]; omega)
  simpa using this

theorem square_bound {n d k : ℕ} {b : ℕ → ℝ} {rule : ℕ → List (ℝ × ℝ)} (R : Rule n d k b rule) (e : ℕ → ℝ × ℝ → ℝ) (B : ℝ) (he : ∀ q < n, ∀ xw ∈ rule q, |e q xw| ≤ B) :
    ∑ q ∈ range n, ((rule q).map fun xw => xw.2 * e q xw ^ 2).sum ≤ (b n - b 0) * B ^ 2 := by
  have h : ∀ q ∈ range n, ((rule q).map fun xw => xw.2 * e q xw ^ 2).sum ≤ (b (q + 1) - b q) * B ^ 2 := by
    intro q hq
    have hq := mem_range.1 hq
    rw [← weights_sum R hq, ← List.sum_map_mul_right]
    refine List.sum_le_sum fun xw hx => ?_
    refine mul_le_mul_of_nonneg_left ?_ (R.weight q hq xw hx).le
    rw [← sq_abs]
    exact pow_le_pow_left₀ (abs_nonneg _) (he q hq xw hx) 2
  refine (sum_le_sum h).trans ?_
  rw [← sum_mul, sum_range_sub]

theorem clamped_step {n : ℕ} {b : ℕ → ℝ} {h : ℝ} (hn : 1 ≤ n) (hb : ∀ i < n, b i < b (i + 1)) (hh : ∀ q < n, b (q + 1) - b q ≤ h) (k : ℤ) : clampedKnots n b (k + 1) - clampedKnots n b k ≤ h := by
  have h0 : 0 ≤ h := by have := hb 0 (by omega); have := hh 0 (by omega); linarith
  simp only [clampedKnots]
  by_cases hk : 0 ≤ k ∧ k < n
  · rw [show min (k + 1).toNat n = k.toNat + 1 by omega, show min k.toNat n = k.toNat by omega]
    exact hh _ (by omega)
  · rw [show min (k + 1).toNat n = min k.toNat n by omega, sub_self]
    exact h0

/-- The problem which is solved: the density `ρ` is a spline of degree `d` (a polynomial of degree at most `d` in every cell) and `φ`, with the slope `φ'`, is the exact solution of `-φ'' = ρ` which
vanishes at both ends. -/
structure Dirichlet (n d : ℕ) (b : ℕ → ℝ) (ρ φ φ' : ℝ → ℝ) : Prop where
  density : ∀ q < n, ∃ P : ℝ[X], P.natDegree ≤ d ∧ ∀ x ∈ Set.Icc (b q) (b (q + 1)), ρ x = P.eval x
  slope : ∀ x ∈ Set.Icc (b 0) (b n), HasDerivWithinAt φ (φ' x) (Set.Icc (b 0) (b n)) x
  poisson : ∀ x ∈ Set.Icc (b 0) (b n), HasDerivWithinAt φ' (-ρ x) (Set.Icc (b 0) (b n)) x
  left : φ (b 0) = 0
  right : φ (b n) = 0

/-- `solve` returns a solution of the linear system which the solver assembles (properties C19-C25 are about the solvers used; `c114_dirichlet_solvable`: there is one). -/
def SolvesDirichlet (n d : ℕ) (b : ℕ → ℝ) (rule : ℕ → List (ℝ × ℝ)) (rho : Fem.Pt → ℝ) (solve : ℕ → Fem.Mat → (ℕ → ℝ) → ℕ → ℝ) : Prop :=
  let ps := points (clampedKnots n b) d n rule
  Fem.Solves (n + d - 2) (Fem.nonPeriodicMatrix d (n + d) ps) (fun i => Fem.rhs d (n + d) ps rho (i + 1)) (solve (n + d - 2) (Fem.nonPeriodicMatrix d (n + d) ps) fun i => Fem.rhs d (n + d) ps rho (i + 1))

/-- The coefficients of the potential which the solver returns. -/
noncomputable def dirichletCoef (n d : ℕ) (b : ℕ → ℝ) (rule : ℕ → List (ℝ × ℝ)) (rho : Fem.Pt → ℝ) (solve : ℕ → Fem.Mat → (ℕ → ℝ) → ℕ → ℝ) : ℕ → ℝ :=
  Fem.solveNonPeriodic solve d (n + d) (points (clampedKnots n b) d n rule) rho

/-- The error of the computed field is at most that of every spline of the space. -/
theorem dirichlet_uniform {d n : ℕ} {b : ℕ → ℝ} (hd : 1 ≤ d) (hn : 1 ≤ n) (hb : ∀ i < n, b i < b (i + 1)) {rule : ℕ → List (ℝ × ℝ)} (R : Rule n d (2 * d) b rule)
    {ρ φ φ' : ℝ → ℝ} (D : Dirichlet n d b ρ φ φ')
    {rho : Fem.Pt → ℝ} (hrho : ∀ q < n, ∀ xw ∈ rule q, rho (pt (clampedKnots n b) d q xw) = ρ xw.1)
    {solve : ℕ → Fem.Mat → (ℕ → ℝ) → ℕ → ℝ} (hsolve : SolvesDirichlet n d b rule rho solve) (c : ℕ → ℝ) (c0 : c 0 = 0) (cn : c (n + d - 1) = 0) {B : ℝ}
    (hB : ∀ q < n, ∀ x ∈ Set.Icc (b q) (b (q + 1)), |(derivative (spl (clampedKnots n b) q d (along d c))).eval x - φ' x| ≤ B) :
    ∑ q ∈ range n, ((rule q).map fun xw => xw.2 * (-φ' xw.1 - Fem.evalField d (pt (clampedKnots n b) d q xw) (dirichletCoef n d b rule rho solve)) ^ 2).sum ≤ (b n - b 0) * B ^ 2 := by
  obtain ⟨hP', h1, h2, hφ0, hφn⟩ := D
  choose! P hP using hP'
  simp only [SolvesDirichlet] at hsolve
  simp only [dirichletCoef]
  have S := c114_dirichlet_space hd hn hb R
  have hcell : ∀ q < n, clampedKnots n b q < clampedKnots n b ((q : ℤ) + 1) := by
    intro q hq
    rw [clamped_cell q (by omega), show (q : ℤ) + 1 = ((q + 1 : ℕ) : ℤ) by push_cast; ring, clamped_cell (q + 1) (by omega)]
    exact hb q hq
  have tm := clamped_mono hb
  have tb : ∀ q ≤ n, clampedKnots n b ((q : ℕ) : ℤ) = b q := fun q hq => clamped_cell q hq
  have tlow : ∀ i : ℤ, i ≤ 0 → clampedKnots n b i = b 0 := by
    intro i hi
    rw [clampedKnots, show min i.toNat n = 0 by omega]
  have thigh : ∀ i : ℤ, (n : ℤ) ≤ i → clampedKnots n b i = b n := by
    intro i hi
    rw [clampedKnots, show min i.toNat n = n by omega]
  obtain ⟨t, ht⟩ : ∃ t, t = clampedKnots n b := ⟨_, rfl⟩
  rw [← ht] at S hcell tm tb tlow thigh hrho hsolve hB ⊢
  have bm : ∀ i j, i ≤ j → j ≤ n → b i ≤ b j := by
    intro i j hij hj
    rw [← tb i (by omega), ← tb j hj]
    exact tm (by omega)
  have hxs : ∀ q < n, ∀ xw ∈ rule q, xOf t d (pt t d q xw) = xw.1 := fun q hq xw _ => xOf_pt tm hd q (hcell q hq) xw
  -- the slope of the exact potential in each cell
  have hG : ∀ q < n, ∃ G : ℝ[X], derivative G = -P q ∧ G.natDegree ≤ d + 1 ∧ ∀ x ∈ Set.Icc (b q) (b (q + 1)), φ' x = G.eval x := by
    intro q hq
    obtain ⟨G, g1, g2, g3⟩ := polynomial_of_deriv (bm 0 q (by omega) (by omega)) (bm (q + 1) n (by omega) (by omega)) φ' (fun x => -ρ x) h2 (-P q) (fun x hx => by rw [(hP q hq).2 x hx, eval_neg])
    exact ⟨G, g1, by rw [natDegree_neg] at g2; have := (hP q hq).1; omega, g3⟩
  -- the weak form holds exactly
  have hweak : ∀ c : ℕ → ℝ, c 0 = 0 → c (n + d - 1) = 0 →
      Fem.integral (points t d n rule) (fun p => φ' (xOf t d p) * Fem.slope d (n + d) c p) = Fem.integral (points t d n rule) fun p => rho p * Fem.value d (n + d) c p := by
    intro c c0 cn
    rw [← sub_eq_zero, integral_points, integral_points, ← sum_sub_distrib]
    obtain ⟨p, hp⟩ : ∃ p, d = p + 1 := ⟨d - 1, by omega⟩
    obtain ⟨v, hv⟩ : ∃ v : ℕ → ℝ, v = fun q => φ' (b q) * if q < n then (spl t q d (along d c)).eval (b q) else 0 := ⟨_, rfl⟩
    have hterm : ∀ q ∈ range n, ((rule q).map fun xw => xw.2 * (φ' (xOf t d (pt t d q xw)) * Fem.slope d (n + d) c (pt t d q xw))).sum -
        ((rule q).map fun xw => xw.2 * (rho (pt t d q xw) * Fem.value d (n + d) c (pt t d q xw))).sum = v (q + 1) - v q := by
      intro q hq
      have hq := mem_range.1 hq
      obtain ⟨G, g1, g2, g3⟩ := hG q hq
      have hw := weak_cell hd R hq G (P q) (spl t q d (along d c)) g1 g2 (spl_degree d _)
      have e1 : ((rule q).map fun xw => xw.2 * (φ' (xOf t d (pt t d q xw)) * Fem.slope d (n + d) c (pt t d q xw))) =
          (rule q).map fun xw => xw.2 * (G.eval xw.1 * (derivative (spl t q d (along d c))).eval xw.1) := by
        refine List.map_congr_left fun xw hx => ?_
        rw [hxs q hq xw hx, g3 _ (R.inside q hq xw hx), slope_pt t d (n + d) q xw c (along d c) (along_eq d (n + d) q c (by omega))]
      have e2 : ((rule q).map fun xw => xw.2 * (rho (pt t d q xw) * Fem.value d (n + d) c (pt t d q xw))) =
          (rule q).map fun xw => xw.2 * ((P q).eval xw.1 * (spl t q d (along d c)).eval xw.1) := by
        refine List.map_congr_left fun xw hx => ?_
        rw [hrho q hq xw hx, (hP q hq).2 _ (R.inside q hq xw hx), value_pt t d (n + d) q xw c (along d c) (along_eq d (n + d) q c (by omega))]
      rw [e1, e2, hw, ← g3 _ ⟨(hb q hq).le, le_rfl⟩, ← g3 _ ⟨le_rfl, (hb q hq).le⟩, hv]
      simp only []
      rw [if_pos hq]
      refine congrArg (fun z => φ' (b (q + 1)) * z - _) ?_
      by_cases hq1 : q + 1 < n
      · rw [if_pos hq1]
        have := spl_continuous (hcell q hq) (by have := hcell (q + 1) hq1; push_cast at this; rwa [show (q : ℤ) + 1 + 1 = q + 2 by ring] at this) p (along d c)
        rw [← hp, show (q : ℤ) + 1 = ((q + 1 : ℕ) : ℤ) by push_cast; ring, tb (q + 1) (by omega)] at this
        exact this
      · rw [if_neg hq1, ← tb (q + 1) (by omega)]
        have := spl_right (c := (q : ℤ)) tm (hcell q hq) (fun i hi => by rw [thigh i (by omega), thigh _ (by omega)]) d (along d c)
        push_cast
        rw [this, along, show ((q : ℤ) + d).toNat = n + d - 1 by omega, cn]
    rw [sum_congr rfl hterm, sum_range_sub, hv]
    simp only [lt_irrefl, if_false, mul_zero, zero_sub, neg_eq_zero]
    rw [if_pos (by omega), ← tb 0 (by omega)]
    have := spl_left (c := 0) tm (by have := hcell 0 (by omega); simpa using this) (fun i hi => by rw [tlow i hi, tlow 0 le_rfl]) d (along d c)
    simp only [Nat.cast_zero]
    rw [this, along, show ((0 : ℤ) - d + d).toNat = 0 by omega, c0, mul_zero]
  have hbest := Fem.c52_dirichlet_best S rho solve hsolve (fun p => φ' (xOf t d p)) 0 (fun c c0 cn => by rw [hweak c c0 cn]; simp) c c0 cn
  rw [integral_points, integral_points] at hbest
  have hlhs : ∑ q ∈ range n, ((rule q).map fun xw => xw.2 * (-φ' xw.1 - Fem.evalField d (pt t d q xw) (Fem.solveNonPeriodic solve d (n + d) (points t d n rule) rho)) ^ 2).sum =
      ∑ q ∈ range n, ((rule q).map fun xw => xw.2 * (φ' (xOf t d (pt t d q xw)) - -Fem.evalField d (pt t d q xw) (Fem.solveNonPeriodic solve d (n + d) (points t d n rule) rho)) ^ 2).sum := by
    refine sum_congr rfl fun q hq => congrArg List.sum (List.map_congr_left fun xw hx => ?_)
    rw [hxs q (mem_range.1 hq) xw hx]
    ring
  rw [hlhs]
  refine hbest.trans ?_
  rw [zero_pow (by norm_num), add_zero]
  refine square_bound R (fun q xw => φ' (xOf t d (pt t d q xw)) - Fem.slope d (n + d) c (pt t d q xw)) _ fun q hq xw hx => ?_
  rw [hxs q hq xw hx, slope_pt t d (n + d) q xw c (along d c) (along_eq d (n + d) q c (by omega)), abs_sub_comm]
  exact hB q hq _ (R.inside q hq xw hx)

/-- C114 (convergence, Dirichlet): the error of the computed field, in the root of the mean of the square over the quadrature points, is at most `d h max |ρ|`, where `h` is the largest cell: for every
degree and every break points. The quadrature has to be exact up to the degree `2 d` (the solver's has `d + 1` Gauss points, `fem_1d_poisson_solver.hpp:180`, and is exact up to `2 d + 1`). -/
theorem c114_dirichlet_converges {d n : ℕ} {b : ℕ → ℝ} (hd : 1 ≤ d) (hn : 1 ≤ n) (hb : ∀ i < n, b i < b (i + 1)) {rule : ℕ → List (ℝ × ℝ)} (R : Rule n d (2 * d) b rule)
    {ρ φ φ' : ℝ → ℝ} (D : Dirichlet n d b ρ φ φ') {M h : ℝ} (hM : ∀ x ∈ Set.Icc (b 0) (b n), |ρ x| ≤ M) (hh : ∀ q < n, b (q + 1) - b q ≤ h)
    {rho : Fem.Pt → ℝ} (hrho : ∀ q < n, ∀ xw ∈ rule q, rho (pt (clampedKnots n b) d q xw) = ρ xw.1)
    {solve : ℕ → Fem.Mat → (ℕ → ℝ) → ℕ → ℝ} (hsolve : SolvesDirichlet n d b rule rho solve) :
    ∑ q ∈ range n, ((rule q).map fun xw => xw.2 * (-φ' xw.1 - Fem.evalField d (pt (clampedKnots n b) d q xw) (dirichletCoef n d b rule rho solve)) ^ 2).sum ≤ (b n - b 0) * (d * h * M) ^ 2 := by
  have hD := D
  obtain ⟨-, h1, h2, hφ0, hφn⟩ := D
  have hcell : ∀ q < n, clampedKnots n b q < clampedKnots n b ((q : ℤ) + 1) := by
    intro q hq
    rw [clamped_cell q (by omega), show (q : ℤ) + 1 = ((q + 1 : ℕ) : ℤ) by push_cast; ring, clamped_cell (q + 1) (by omega)]
    exact hb q hq
  have tm := clamped_mono hb
  have tb : ∀ q ≤ n, clampedKnots n b ((q : ℕ) : ℤ) = b q := fun q hq => clamped_cell q hq
  have tlow : ∀ i : ℤ, i ≤ 0 → clampedKnots n b i = b 0 := by
    intro i hi
    rw [clampedKnots, show min i.toNat n = 0 by omega]
  have thigh : ∀ i : ℤ, (n : ℤ) ≤ i → clampedKnots n b i = b n := by
    intro i hi
    rw [clampedKnots, show min i.toNat n = n by omega]
  have hstep := clamped_step hn hb hh
  have main := dirichlet_uniform hd hn hb R hD hrho hsolve
  obtain ⟨t, ht⟩ : ∃ t, t = clampedKnots n b := ⟨_, rfl⟩
  rw [← ht] at hcell tm tb tlow thigh hstep main ⊢
  -- the competitor
  obtain ⟨c, hc⟩ : ∃ c : ℕ → ℝ, c = fun i : ℕ => φ (inner t d ((i : ℤ) - d) / d) := ⟨_, rfl⟩
  have hd0 : (d : ℝ) ≠ 0 := by positivity
  have c0 : c 0 = 0 := by
    simp only [hc]
    rw [inner, sum_congr rfl fun k hk => tlow _ (by have := mem_range.1 hk; push_cast; omega), sum_const, card_range, nsmul_eq_mul, mul_div_cancel_left₀ _ hd0, hφ0]
  have cn : c (n + d - 1) = 0 := by
    simp only [hc]
    rw [inner, sum_congr rfl fun k hk => thigh _ (by have := mem_range.1 hk; omega), sum_const, card_range, nsmul_eq_mul, mul_div_cancel_left₀ _ hd0, hφn]
  refine main c c0 cn fun q hq x hin => ?_
  obtain ⟨p, hp⟩ : ∃ p, d = p + 1 := ⟨d - 1, by omega⟩
  have := quasi_slope (c := (q : ℤ)) tm (hcell q hq) p (lo := b 0) (hi := b n) (by rw [← tlow (min 0 (q - p)) (by omega)]; exact tm (by omega)) (by rw [← thigh (max n (q + p + 1)) (by omega)]; exact tm (by omega))
    hstep φ φ' (fun x => -ρ x) h1 h2 (fun x hx => by rw [abs_neg]; exact hM x hx) x (by rw [tb q (by omega)]; exact hin.1)
    (by rw [show (q : ℤ) + 1 = ((q + 1 : ℕ) : ℤ) by push_cast; ring, tb (q + 1) (by omega)]; exact hin.2) (along d c) (by
      intro i hi1 hi2
      rw [along, hc]
      simp only []
      rw [show (((i + d).toNat : ℕ) : ℤ) - d = i by rw [hp]; push_cast; omega, hp]
      push_cast
      rfl)
  rw [← hp] at this
  have hdp : (d : ℝ) = p + 1 := by rw [hp]; push_cast; rfl
  refine this.trans (le_of_eq ?_)
  rw [hdp]
  ring

/-- From the mean square to the mean of the absolute value. -/
theorem mean_bound {n d k : ℕ} {b : ℕ → ℝ} (hn : 1 ≤ n) (hb : ∀ i < n, b i < b (i + 1)) {rule : ℕ → List (ℝ × ℝ)} (R : Rule n d k b rule) (e : ℕ → ℝ × ℝ → ℝ) {B : ℝ} (hB : 0 ≤ B)
    (he : ∑ q ∈ range n, ((rule q).map fun xw => xw.2 * e q xw ^ 2).sum ≤ (b n - b 0) * B ^ 2) (Q : ℕ) (hQ : Q ≤ n) :
    |∑ q ∈ range Q, ((rule q).map fun xw => xw.2 * e q xw).sum| ≤ (b n - b 0) * B := by
  have hL : 0 < b n - b 0 := by
    rw [← sum_range_sub]
    exact sum_pos (fun i hi => sub_pos.2 (hb i (mem_range.1 hi))) ⟨0, mem_range.2 hn⟩
  have key : ∀ ε > 0, |∑ q ∈ range Q, ((rule q).map fun xw => xw.2 * e q xw).sum| ≤ (b n - b 0) * (B + ε) := by
    intro ε hε
    obtain ⟨l, hl⟩ : ∃ l, l = B + ε := ⟨_, rfl⟩
    have hl0 : 0 < l := by linarith
    have hcell : ∀ q ∈ range Q, |((rule q).map fun xw => xw.2 * e q xw).sum| ≤ l / 2 * (b (q + 1) - b q) + 1 / (2 * l) * ((rule q).map fun xw => xw.2 * e q xw ^ 2).sum := by
      intro q hq
      have hqn : q < n := by have := mem_range.1 hq; omega
      rw [← weights_sum R hqn]
      have hw := R.weight q hqn
      generalize rule q = rq at hw ⊢
      induction rq with
      | nil => simp
      | cons a L ih =>
        have iha := ih fun xw hx => hw xw (List.mem_cons_of_mem _ hx)
        have ha := hw a List.mem_cons_self
        simp only [List.map_cons, List.sum_cons]
        refine (abs_add_le _ _).trans ?_
        have h1 : |a.2 * e q a| ≤ l / 2 * a.2 + 1 / (2 * l) * (a.2 * e q a ^ 2) := by
          rw [abs_mul, abs_of_pos ha]
          have h2 : |e q a| ≤ l / 2 + 1 / (2 * l) * e q a ^ 2 := by
            rw [← sq_abs (e q a)]
            have h3 : l / 2 + 1 / (2 * l) * |e q a| ^ 2 - |e q a| = (l - |e q a|) ^ 2 / (2 * l) := by field_simp; ring
            have h4 : 0 ≤ (l - |e q a|) ^ 2 / (2 * l) := by positivity
            linarith
          calc a.2 * |e q a| ≤ a.2 * (l / 2 + 1 / (2 * l) * e q a ^ 2) := mul_le_mul_of_nonneg_left h2 ha.le
            _ = _ := by ring
        linarith
    have h5 : ∑ q ∈ range Q, (b (q + 1) - b q) ≤ b n - b 0 := by
      rw [← sum_range_sub]
      exact sum_le_sum_of_subset_of_nonneg (range_mono hQ) fun i hi _ => (sub_pos.2 (hb i (mem_range.1 hi))).le
    have h6 : ∑ q ∈ range Q, ((rule q).map fun xw => xw.2 * e q xw ^ 2).sum ≤ (b n - b 0) * B ^ 2 := by
      refine le_trans (sum_le_sum_of_subset_of_nonneg (range_mono hQ) fun q hq _ => ?_) he
      refine List.sum_nonneg fun x hx => ?_
      obtain ⟨xw, hxw, rfl⟩ := List.mem_map.1 hx
      exact mul_nonneg (R.weight q (mem_range.1 hq) xw hxw).le (sq_nonneg _)
    have h7 : B ^ 2 ≤ l ^ 2 := pow_le_pow_left₀ hB (by linarith) 2
    have h8 : 0 ≤ 1 / (2 * l) := by positivity
    calc _ ≤ ∑ q ∈ range Q, |((rule q).map fun xw => xw.2 * e q xw).sum| := abs_sum_le_sum_abs _ _
      _ ≤ ∑ q ∈ range Q, (l / 2 * (b (q + 1) - b q) + 1 / (2 * l) * ((rule q).map fun xw => xw.2 * e q xw ^ 2).sum) := sum_le_sum hcell
      _ = l / 2 * ∑ q ∈ range Q, (b (q + 1) - b q) + 1 / (2 * l) * ∑ q ∈ range Q, ((rule q).map fun xw => xw.2 * e q xw ^ 2).sum := by rw [sum_add_distrib, mul_sum, mul_sum]
      _ ≤ l / 2 * (b n - b 0) + 1 / (2 * l) * ((b n - b 0) * l ^ 2) :=
        add_le_add (mul_le_mul_of_nonneg_left h5 (by positivity)) (mul_le_mul_of_nonneg_left (h6.trans (mul_le_mul_of_nonneg_left h7 hL.le)) h8)
      _ = (b n - b 0) * (B + ε) := by rw [← hl]; field_simp; ring
  refine le_of_forall_pos_le_add fun δ hδ => ?_
  have := key (δ / (b n - b 0)) (by positivity)
  rwa [mul_add, mul_div_cancel₀ _ hL.ne'] at this

/-- A bound of the error of the field bounds the error of the potential. -/
theorem dirichlet_potential_of {d n : ℕ} {b : ℕ → ℝ} (hd : 1 ≤ d) (hn : 1 ≤ n) (hb : ∀ i < n, b i < b (i + 1)) {rule : ℕ → List (ℝ × ℝ)} (R : Rule n d (2 * d) b rule)
    {ρ φ φ' : ℝ → ℝ} (D : Dirichlet n d b ρ φ φ')
    {rho : Fem.Pt → ℝ} {solve : ℕ → Fem.Mat → (ℕ → ℝ) → ℕ → ℝ} (hsolve : SolvesDirichlet n d b rule rho solve) {B : ℝ} (hB : 0 ≤ B)
    (hconv : ∑ q ∈ range n, ((rule q).map fun xw => xw.2 * (-φ' xw.1 - Fem.evalField d (pt (clampedKnots n b) d q xw) (dirichletCoef n d b rule rho solve)) ^ 2).sum ≤ (b n - b 0) * B ^ 2)
    (q : ℕ) (hq : q < n) (w : ℝ) :
    |φ (b q) - Fem.evalSpline d (pt (clampedKnots n b) d q (b q, w)) (dirichletCoef n d b rule rho solve)| ≤ (b n - b 0) * B := by
  have S := c114_dirichlet_space hd hn hb R
  have hz := (Fem.c52_dirichlet S rho solve hsolve).1
  have tm := clamped_mono hb
  have tb : ∀ q ≤ n, clampedKnots n b ((q : ℕ) : ℤ) = b q := fun q hq => clamped_cell q hq
  have tlow : ∀ i : ℤ, i ≤ 0 → clampedKnots n b i = b 0 := by
    intro i hi
    rw [clampedKnots, show min i.toNat n = 0 by omega]
  have hcell : ∀ q < n, clampedKnots n b q < clampedKnots n b ((q : ℤ) + 1) := by
    intro q hq
    rw [clamped_cell q (by omega), show (q : ℤ) + 1 = ((q + 1 : ℕ) : ℤ) by push_cast; ring, clamped_cell (q + 1) (by omega)]
    exact hb q hq
  have bm : ∀ i j, i ≤ j → j ≤ n → b i ≤ b j := by
    intro i j hij hj
    rw [← tb i (by omega), ← tb j hj]
    exact tm (by omega)
  obtain ⟨coef, hcoef⟩ : ∃ coef, coef = dirichletCoef n d b rule rho solve := ⟨_, rfl⟩
  rw [show Fem.solveNonPeriodic solve d (n + d) (points (clampedKnots n b) d n rule) rho = coef from hcoef.symm] at hz
  rw [← hcoef] at hconv ⊢
  obtain ⟨t, ht⟩ : ∃ t, t = clampedKnots n b := ⟨_, rfl⟩
  rw [← ht] at hconv tm tb tlow hcell ⊢
  obtain ⟨p, hp⟩ : ∃ p, d = p + 1 := ⟨d - 1, by omega⟩
  have hval : ∀ q < n, ∀ xw : ℝ × ℝ, Fem.evalSpline d (pt t d q xw) coef = (spl t q d (along d coef)).eval xw.1 := by
    intro q hq xw
    rw [← value_pt t d (n + d) q xw coef (along d coef) (along_eq d (n + d) q coef (by omega)), Fem.evalSpline, Fem.value]
    refine sum_congr rfl fun i hi => ?_
    have hi := mem_range.1 hi
    simp only [pt]
    rw [Nat.mod_eq_of_lt (by omega), add_comm]
  have hfld : ∀ q < n, ∀ xw : ℝ × ℝ, Fem.evalField d (pt t d q xw) coef = -(derivative (spl t q d (along d coef))).eval xw.1 := by
    intro q hq xw
    rw [← slope_pt t d (n + d) q xw coef (along d coef) (along_eq d (n + d) q coef (by omega)), Fem.evalField, Fem.slope]
    refine congrArg Neg.neg (sum_congr rfl fun i hi => ?_)
    have hi := mem_range.1 hi
    simp only [pt]
    rw [Nat.mod_eq_of_lt (by omega), add_comm]
  -- the potential at the break points, from the field
  have hexact : ∀ q < n, ∃ F : ℝ[X], F.natDegree ≤ 2 * d + 1 ∧ (∀ x ∈ Set.Icc (b q) (b (q + 1)), φ' x = (derivative F).eval x) ∧ ∀ x ∈ Set.Icc (b q) (b (q + 1)), φ x = F.eval x := by
    intro q hq
    obtain ⟨P, p1, p2⟩ := D.density q hq
    obtain ⟨G, g1, g2, g3⟩ := polynomial_of_deriv (bm 0 q (by omega) (by omega)) (bm (q + 1) n (by omega) (by omega)) φ' (fun x => -ρ x) D.poisson (-P) (fun x hx => by rw [p2 x hx, eval_neg])
    obtain ⟨F, f1, f2, f3⟩ := polynomial_of_deriv (bm 0 q (by omega) (by omega)) (bm (q + 1) n (by omega) (by omega)) φ φ' D.slope G g3
    rw [natDegree_neg] at g2
    exact ⟨F, by omega, by rw [f1]; exact g3, f3⟩
  have hsum : ∀ Q < n, φ (b Q) - (spl t Q d (along d coef)).eval (b Q) = ∑ q ∈ range Q, ((rule q).map fun xw => xw.2 * -(-φ' xw.1 - Fem.evalField d (pt t d q xw) coef)).sum := by
    intro Q
    induction Q with
    | zero =>
      intro hQ
      have := spl_left (c := 0) tm (by have := hcell 0 (by omega); simpa using this) (fun i hi => by rw [tlow i hi, tlow 0 le_rfl]) d (along d coef)
      rw [tlow 0 le_rfl] at this
      simp only [Nat.cast_zero, range_zero, sum_empty]
      rw [this, D.left, along, show ((0 : ℤ) - d + d).toNat = 0 by omega, hz, sub_zero]
    | succ Q ih =>
      intro hQ
      rw [sum_range_succ, ← ih (by omega)]
      obtain ⟨F, f1, f2, f3⟩ := hexact Q (by omega)
      have e1 := R.exact Q (by omega) (F - spl t Q d (along d coef)) ((natDegree_sub_le_of_le f1 ((spl_degree d _).trans (show d ≤ 2 * d + 1 by omega))).trans (max_self _).le)
      rw [eval_sub, eval_sub, ← f3 _ ⟨(hb Q (by omega)).le, le_rfl⟩, ← f3 _ ⟨le_rfl, (hb Q (by omega)).le⟩] at e1
      have e2 : ((rule Q).map fun xw => xw.2 * -(-φ' xw.1 - Fem.evalField d (pt t d Q xw) coef)) = (rule Q).map fun xw => xw.2 * (derivative (F - spl t Q d (along d coef))).eval xw.1 := by
        refine List.map_congr_left fun xw hx => ?_
        rw [hfld Q (by omega), f2 _ (R.inside Q (by omega) xw hx), derivative_sub, eval_sub]
        ring
      have e3 := spl_continuous (hcell Q (by omega)) (by have := hcell (Q + 1) hQ; push_cast at this; rwa [show (Q : ℤ) + 1 + 1 = Q + 2 by ring] at this) p (along d coef)
      rw [← hp, show (Q : ℤ) + 1 = ((Q + 1 : ℕ) : ℤ) by push_cast; ring, tb (Q + 1) (by omega)] at e3
      rw [e2, e1, ← e3]
      ring
  rw [hval q hq, hsum q hq]
  refine mean_bound hn hb R (fun q xw => -(-φ' xw.1 - Fem.evalField d (pt t d q xw) coef)) hB ?_ q (by omega)
  refine le_trans (le_of_eq ?_) hconv
  refine sum_congr rfl fun q _ => congrArg List.sum (List.map_congr_left fun xw _ => ?_)
  rw [neg_sq]

/-- C114 (convergence of the potential, Dirichlet): at every break point the error of the computed potential is at most the length of the domain times `d h max |ρ|`. -/
theorem c114_dirichlet_potential {d n : ℕ} {b : ℕ → ℝ} (hd : 1 ≤ d) (hn : 1 ≤ n) (hb : ∀ i < n, b i < b (i + 1)) {rule : ℕ → List (ℝ × ℝ)} (R : Rule n d (2 * d) b rule)
    {ρ φ φ' : ℝ → ℝ} (D : Dirichlet n d b ρ φ φ') {M h : ℝ} (hM : ∀ x ∈ Set.Icc (b 0) (b n), |ρ x| ≤ M) (hh : ∀ q < n, b (q + 1) - b q ≤ h)
    {rho : Fem.Pt → ℝ} (hrho : ∀ q < n, ∀ xw ∈ rule q, rho (pt (clampedKnots n b) d q xw) = ρ xw.1)
    {solve : ℕ → Fem.Mat → (ℕ → ℝ) → ℕ → ℝ} (hsolve : SolvesDirichlet n d b rule rho solve) (q : ℕ) (hq : q < n) (w : ℝ) :
    |φ (b q) - Fem.evalSpline d (pt (clampedKnots n b) d q (b q, w)) (dirichletCoef n d b rule rho solve)| ≤ (b n - b 0) * (d * h * M) := by
  have hh0 : 0 ≤ h := by have := hb 0 (by omega); have := hh 0 (by omega); linarith
  have hM0 : 0 ≤ M := by
    refine (abs_nonneg _).trans (hM (b 0) ⟨le_rfl, ?_⟩)
    have := clamped_mono hb (show (0 : ℤ) ≤ n by omega)
    rwa [clamped_cell n le_rfl, show (0 : ℤ) = ((0 : ℕ) : ℤ) from rfl, clamped_cell 0 (by omega)] at this
  exact dirichlet_potential_of hd hn hb R D hsolve (by positivity) (c114_dirichlet_converges hd hn hb R D hM hh hrho hsolve) q hq w

/-! ## Periodic -/

/-- The periodic problem: the density `ρ` is a spline of degree `d` and `φ`, with the slope `φ'`, is a periodic solution of `-φ'' = ρ - m` for some constant `m` (which then is the mean of `ρ`). -/
structure Periodic (n d : ℕ) (b : ℕ → ℝ) (ρ φ φ' : ℝ → ℝ) (m : ℝ) : Prop where
  density : ∀ q < n, ∃ P : ℝ[X], P.natDegree ≤ d ∧ ∀ x ∈ Set.Icc (b q) (b (q + 1)), ρ x = P.eval x
  slope : ∀ x, HasDerivAt φ (φ' x) x
  poisson : ∀ x, HasDerivAt φ' (-(ρ x - m)) x
  period : ∀ x, φ (x + (b n - b 0)) = φ x

/-- `solve` returns a solution of the linear system which the solver assembles (`c114_periodic_solvable`: there is one). -/
def SolvesPeriodic (n d : ℕ) (b : ℕ → ℝ) (rule : ℕ → List (ℝ × ℝ)) (rho : Fem.Pt → ℝ) (solve : ℕ → Fem.Mat → (ℕ → ℝ) → ℕ → ℝ) : Prop :=
  let ps := points (periodicKnots n b) d n rule
  Fem.Solves (n + 1) (Fem.periodicMatrix d n ps (integrals n d b)) (Fem.rhs d n ps rho) (solve (n + 1) (Fem.periodicMatrix d n ps (integrals n d b)) (Fem.rhs d n ps rho))

/-- The coefficients of the potential which the solver returns. -/
noncomputable def periodicCoef (n d : ℕ) (b : ℕ → ℝ) (rule : ℕ → List (ℝ × ℝ)) (rho : Fem.Pt → ℝ) (solve : ℕ → Fem.Mat → (ℕ → ℝ) → ℕ → ℝ) : ℕ → ℝ :=
  Fem.solvePeriodic solve d n (points (periodicKnots n b) d n rule) (integrals n d b) rho

theorem periodic_step {n : ℕ} {b : ℕ → ℝ} {h : ℝ} (hn : 1 ≤ n) (hh : ∀ q < n, b (q + 1) - b q ≤ h) (k : ℤ) : periodicKnots n b (k + 1) - periodicKnots n b k ≤ h := by
  have hk : ∀ (k : ℤ) (j : ℤ), periodicKnots n b (j + k * n) = periodicKnots n b j + k * (b n - b 0) := by
    intro k j
    rw [periodicKnots, periodicKnots, Int.add_mul_emod_self_right, Int.add_mul_ediv_right _ _ (by omega)]
    push_cast
    ring
  have h0 : 0 ≤ k % n := Int.emod_nonneg _ (by omega)
  have h1 : k % n < n := Int.emod_lt_of_pos _ (by omega)
  have h2 := Int.emod_add_mul_ediv k n
  obtain ⟨q, hq⟩ : ∃ q : ℕ, (q : ℤ) = k % n := ⟨(k % n).toNat, by omega⟩
  have e1 := hk (k / n) (q : ℤ)
  have e2 := hk (k / n) ((q + 1 : ℕ) : ℤ)
  rw [periodic_cell' hn q (by omega)] at e1
  rw [periodic_cell' hn (q + 1) (by omega)] at e2
  rw [show (q : ℤ) + k / n * n = k by rw [hq]; linarith] at e1
  rw [show ((q + 1 : ℕ) : ℤ) + k / n * n = k + 1 by push_cast; rw [hq]; linarith] at e2
  rw [e1, e2]
  have := hh q (by omega)
  linarith

/-- The error of the computed field is at most that of every periodic spline. -/
theorem periodic_uniform {d n : ℕ} {b : ℕ → ℝ} (hd : 1 ≤ d) (hn : 1 ≤ n) (hb : ∀ i < n, b i < b (i + 1)) {rule : ℕ → List (ℝ × ℝ)} (R : Rule n d (2 * d) b rule)
    {ρ φ φ' : ℝ → ℝ} {m : ℝ} (D : Periodic n d b ρ φ φ' m)
    {rho : Fem.Pt → ℝ} (hrho : ∀ q < n, ∀ xw ∈ rule q, rho (pt (periodicKnots n b) d q xw) = ρ xw.1)
    {solve : ℕ → Fem.Mat → (ℕ → ℝ) → ℕ → ℝ} (hsolve : SolvesPeriodic n d b rule rho solve) (c : ℕ → ℝ) {B : ℝ}
    (hB : ∀ q < n, ∀ x ∈ Set.Icc (b q) (b (q + 1)), |(derivative (spl (periodicKnots n b) q d (around d n c))).eval x - φ' x| ≤ B) :
    ∑ q ∈ range n, ((rule q).map fun xw => xw.2 * (-φ' xw.1 - Fem.evalField d (pt (periodicKnots n b) d q xw) (periodicCoef n d b rule rho solve)) ^ 2).sum ≤ (b n - b 0) * B ^ 2 := by
  obtain ⟨hP', h1, h2, hper⟩ := D
  choose! P hP using hP'
  simp only [SolvesPeriodic] at hsolve
  simp only [periodicCoef]
  have S := c114_periodic_space hd (k := 2 * d) (by omega) hn hb R
  have tm := periodic_mono hn hb
  have tl := periodic_lt hn hb
  have ts := periodic_shift (b := b) hn
  have tb : ∀ q ≤ n, periodicKnots n b ((q : ℕ) : ℤ) = b q := fun q hq => periodic_cell' hn q hq
  obtain ⟨t, ht⟩ : ∃ t, t = periodicKnots n b := ⟨_, rfl⟩
  rw [← ht] at S tm tl ts tb hrho hsolve hB ⊢
  have hxs : ∀ q < n, ∀ xw ∈ rule q, xOf t d (pt t d q xw) = xw.1 := fun q hq xw _ => xOf_pt tm hd q (tl q) xw
  have hper' : φ' (b n) = φ' (b 0) := by
    have e1 : HasDerivAt φ (φ' (b 0 + (b n - b 0))) (b 0) := by
      have := (h1 (b 0 + (b n - b 0))).comp (b 0) ((hasDerivAt_id (b 0)).add_const (b n - b 0))
      rw [mul_one] at this
      exact this.congr_of_eventuallyEq (Filter.Eventually.of_forall fun x => (hper x).symm)
    have := e1.unique (h1 (b 0))
    rwa [show b 0 + (b n - b 0) = b n by ring] at this
  have hG : ∀ q < n, ∃ G : ℝ[X], derivative G = -(P q - C m) ∧ G.natDegree ≤ d + 1 ∧ ∀ x ∈ Set.Icc (b q) (b (q + 1)), φ' x = G.eval x := by
    intro q hq
    obtain ⟨G, g1, g2, g3⟩ := polynomial_of_deriv (lo := b q) (hi := b (q + 1)) le_rfl le_rfl φ' (fun x => -(ρ x - m)) (fun x _ => (h2 x).hasDerivWithinAt) (-(P q - C m))
      (fun x hx => by rw [(hP q hq).2 x hx, eval_neg, eval_sub, eval_C])
    exact ⟨G, g1, by rw [natDegree_neg, natDegree_sub_C] at g2; have := (hP q hq).1; omega, g3⟩
  have hweak : ∀ c : ℕ → ℝ, Fem.integral (points t d n rule) (fun p => φ' (xOf t d p) * Fem.slope d n c p) = Fem.integral (points t d n rule) fun p => (rho p - m) * Fem.value d n c p := by
    intro c
    rw [← sub_eq_zero, integral_points, integral_points, ← sum_sub_distrib]
    obtain ⟨p, hp⟩ : ∃ p, d = p + 1 := ⟨d - 1, by omega⟩
    obtain ⟨v, hv⟩ : ∃ v : ℕ → ℝ, v = fun q => φ' (b q) * (spl t q d (around d n c)).eval (b q) := ⟨_, rfl⟩
    have hterm : ∀ q ∈ range n, ((rule q).map fun xw => xw.2 * (φ' (xOf t d (pt t d q xw)) * Fem.slope d n c (pt t d q xw))).sum -
        ((rule q).map fun xw => xw.2 * ((rho (pt t d q xw) - m) * Fem.value d n c (pt t d q xw))).sum = v (q + 1) - v q := by
      intro q hq
      have hq := mem_range.1 hq
      obtain ⟨G, g1, g2, g3⟩ := hG q hq
      have hw := weak_cell hd R hq G (P q - C m) (spl t q d (around d n c)) g1 g2 (spl_degree d _)
      have e1 : ((rule q).map fun xw => xw.2 * (φ' (xOf t d (pt t d q xw)) * Fem.slope d n c (pt t d q xw))) =
          (rule q).map fun xw => xw.2 * (G.eval xw.1 * (derivative (spl t q d (around d n c))).eval xw.1) := by
        refine List.map_congr_left fun xw hx => ?_
        rw [hxs q hq xw hx, g3 _ (R.inside q hq xw hx), slope_pt t d n q xw c (around d n c) (around_eq d q c hn)]
      have e2 : ((rule q).map fun xw => xw.2 * ((rho (pt t d q xw) - m) * Fem.value d n c (pt t d q xw))) =
          (rule q).map fun xw => xw.2 * ((P q - C m).eval xw.1 * (spl t q d (around d n c)).eval xw.1) := by
        refine List.map_congr_left fun xw hx => ?_
        rw [hrho q hq xw hx, (hP q hq).2 _ (R.inside q hq xw hx), value_pt t d n q xw c (around d n c) (around_eq d q c hn), eval_sub, eval_C]
      rw [e1, e2, hw, ← g3 _ ⟨(hb q hq).le, le_rfl⟩, ← g3 _ ⟨le_rfl, (hb q hq).le⟩, hv]
      simp only []
      have := spl_continuous (tl q) (by have := tl (q + 1); rwa [show (q : ℤ) + 1 + 1 = q + 2 by ring] at this) p (around d n c)
      rw [← hp, show (q : ℤ) + 1 = ((q + 1 : ℕ) : ℤ) by push_cast; ring, tb (q + 1) (by omega)] at this
      rw [this]
    rw [sum_congr rfl hterm, sum_range_sub, hv]
    simp only []
    have hend : (spl t (n : ℤ) d (around d n c)).eval (b n) = (spl t 0 d (around d n c)).eval (b 0) := by
      simp only [spl, eval_finsetSum, eval_mul, eval_C]
      refine sum_congr rfl fun j _ => ?_
      have h2 := piece_shift ts 0 d ((0 : ℤ) - d + j) (b 0)
      rw [zero_add, show b 0 + (b n - b 0) = b n by ring, show (0 : ℤ) - (d : ℤ) + j + n = (n : ℤ) - d + j by ring] at h2
      rw [h2, around, around, show (n : ℤ) - d + j + d = (0 : ℤ) - d + j + d + n by ring, Int.add_emod_right]
    simp only [Nat.cast_zero]
    rw [hend, hper', sub_self]
  have hmean : Fem.integral (points t d n rule) rho / (Fem.integral (points t d n rule) fun _ => 1) = m := by
    have h := hweak fun _ => 1
    have hW := Fem.weight_sum_pos S.weight S.nonempty
    rw [Fem.integral_congr _ _ (fun _ => 0) fun p hp => by rw [Fem.slope_one d n p (S.unity' p hp) 1, mul_zero],
      Fem.integral_congr _ (fun p => (rho p - m) * Fem.value d n (fun _ => 1) p) (fun p => rho p + -m * 1) fun p hp => by rw [Fem.value_one d n p (S.unity p hp) 1]; ring,
      Fem.integral_add, Fem.integral_smul] at h
    have h0 : Fem.integral (points t d n rule) (fun _ => 0) = 0 := by simp [Fem.integral]
    rw [h0] at h
    rw [div_eq_iff hW.ne']
    linarith
  have hbest := Fem.c52_periodic_best S rho solve hsolve (fun p => φ' (xOf t d p)) 0 (fun c => by rw [hmean, hweak c]; simp) c
  rw [integral_points, integral_points] at hbest
  have hlhs : ∑ q ∈ range n, ((rule q).map fun xw => xw.2 * (-φ' xw.1 - Fem.evalField d (pt t d q xw) (Fem.solvePeriodic solve d n (points t d n rule) (integrals n d b) rho)) ^ 2).sum =
      ∑ q ∈ range n, ((rule q).map fun xw => xw.2 * (φ' (xOf t d (pt t d q xw)) - -Fem.evalField d (pt t d q xw) (Fem.solvePeriodic solve d n (points t d n rule) (integrals n d b) rho)) ^ 2).sum := by
    refine sum_congr rfl fun q hq => congrArg List.sum (List.map_congr_left fun xw hx => ?_)
    rw [hxs q (mem_range.1 hq) xw hx]
    ring
  rw [hlhs]
  refine hbest.trans ?_
  rw [zero_pow (by norm_num), add_zero]
  refine square_bound R (fun q xw => φ' (xOf t d (pt t d q xw)) - Fem.slope d n c (pt t d q xw)) _ fun q hq xw hx => ?_
  rw [hxs q hq xw hx, slope_pt t d n q xw c (around d n c) (around_eq d q c hn), abs_sub_comm]
  exact hB q hq _ (R.inside q hq xw hx)

/-- C114 (convergence, periodic): the solver finds the periodic potential of the density minus its mean; the error of the field, in the root of the mean of the square over the quadrature points, is
at most `d h max |ρ - mean|`, for every degree and every break points. -/
theorem c114_periodic_converges {d n : ℕ} {b : ℕ → ℝ} (hd : 1 ≤ d) (hn : 1 ≤ n) (hb : ∀ i < n, b i < b (i + 1)) {rule : ℕ → List (ℝ × ℝ)} (R : Rule n d (2 * d) b rule)
    {ρ φ φ' : ℝ → ℝ} {m : ℝ} (D : Periodic n d b ρ φ φ' m) {M h : ℝ} (hM : ∀ x, |ρ x - m| ≤ M) (hh : ∀ q < n, b (q + 1) - b q ≤ h)
    {rho : Fem.Pt → ℝ} (hrho : ∀ q < n, ∀ xw ∈ rule q, rho (pt (periodicKnots n b) d q xw) = ρ xw.1)
    {solve : ℕ → Fem.Mat → (ℕ → ℝ) → ℕ → ℝ} (hsolve : SolvesPeriodic n d b rule rho solve) :
    ∑ q ∈ range n, ((rule q).map fun xw => xw.2 * (-φ' xw.1 - Fem.evalField d (pt (periodicKnots n b) d q xw) (periodicCoef n d b rule rho solve)) ^ 2).sum ≤ (b n - b 0) * (d * h * M) ^ 2 := by
  have hD := D
  obtain ⟨-, h1, h2, hper⟩ := D
  have tm := periodic_mono hn hb
  have tl := periodic_lt hn hb
  have ts := periodic_shift (b := b) hn
  have tb : ∀ q ≤ n, periodicKnots n b ((q : ℕ) : ℤ) = b q := fun q hq => periodic_cell' hn q hq
  have hstep := periodic_step hn hh
  have main := periodic_uniform hd hn hb R hD hrho hsolve
  obtain ⟨t, ht⟩ : ∃ t, t = periodicKnots n b := ⟨_, rfl⟩
  rw [← ht] at tm tl ts tb hstep main ⊢
  obtain ⟨c, hc⟩ : ∃ c : ℕ → ℝ, c = fun i : ℕ => φ (inner t d ((i : ℤ) - d) / d) := ⟨_, rfl⟩
  have hd0 : (d : ℝ) ≠ 0 := by positivity
  have hinner : ∀ i : ℤ, inner t d (i + n) = inner t d i + d * (b n - b 0) := by
    intro i
    simp only [inner]
    rw [sum_congr rfl fun k _ => by rw [show i + n + 1 + (k : ℤ) = i + 1 + k + n by ring, ts], sum_add_distrib, sum_const, card_range, nsmul_eq_mul]
  have hφi : ∀ i : ℤ, ∀ k : ℕ, φ (inner t d (i + k * n) / d) = φ (inner t d i / d) := by
    intro i k
    induction k with
    | zero => simp
    | succ k ih =>
      rw [← ih, show i + ((k + 1 : ℕ) : ℤ) * n = i + k * n + n by push_cast; ring, hinner, add_div, mul_div_cancel_left₀ _ hd0, hper]
  refine main c fun q hq x hin => ?_
  obtain ⟨p, hp⟩ : ∃ p, d = p + 1 := ⟨d - 1, by omega⟩
  have := quasi_slope (c := (q : ℤ)) tm (tl q) p (lo := t (q - p)) (hi := t (q + p + 1)) le_rfl le_rfl
    hstep φ φ' (fun x => -(ρ x - m)) (fun x _ => (h1 x).hasDerivWithinAt) (fun x _ => (h2 x).hasDerivWithinAt) (fun x _ => by rw [abs_neg]; exact hM x) x (by rw [tb q (by omega)]; exact hin.1)
    (by rw [show (q : ℤ) + 1 = ((q + 1 : ℕ) : ℤ) by push_cast; ring, tb (q + 1) (by omega)]; exact hin.2) (around d n c) (by
      intro i hi1 hi2
      have hnn : 0 ≤ i + d := by rw [hp]; push_cast; omega
      obtain ⟨k, hk⟩ : ∃ k : ℕ, (k : ℤ) = i + d := ⟨(i + d).toNat, by omega⟩
      have h3 := hφi (((k % n : ℕ) : ℤ) - d) (k / n)
      rw [around, hc]
      simp only []
      rw [← hk, ← Int.natCast_mod, Int.toNat_natCast, ← h3]
      have h4 : ((k % n : ℕ) : ℤ) + ((k / n : ℕ) : ℤ) * n = k := by
        have := Nat.mod_add_div k n
        rw [mul_comm] at this
        exact_mod_cast this
      rw [show ((k % n : ℕ) : ℤ) - (d : ℤ) + ((k / n : ℕ) : ℤ) * n = i by linarith, hp]
      push_cast
      rfl)
  rw [← hp] at this
  have hdp : (d : ℝ) = p + 1 := by rw [hp]; push_cast; rfl
  refine this.trans (le_of_eq ?_)
  rw [hdp]
  ring

end Verif.BSpline
