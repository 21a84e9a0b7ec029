import Verif.Props.SplineApprox

/-!
# C114, C115: order of convergence with smooth data

Specification. `G 0, …, G d` are the first derivative of the exact potential and its derivatives: `G k` has the derivative `G (k + 1)`.
-/

namespace Verif.BSpline

open Polynomial Finset Verif.SplineQuadrature

/-! ## Primitives -/

/-- The coefficients of a primitive of the spline with the coefficients `l` (degree `p`). -/
noncomputable def prim (t : ℤ → ℝ) (p : ℕ) (l : ℤ → ℝ) (k : ℕ) : ℝ := ∑ j ∈ range k, l ((j : ℤ) - p) * ((t ((j : ℤ) + 1) - t ((j : ℤ) - p)) / (p + 1))

theorem prim_sub (t : ℤ → ℝ) (p : ℕ) (l : ℤ → ℝ) (m : ℝ) (k : ℕ) : prim t p l k - m * prim t p (fun _ => 1) k = prim t p (fun i => l i - m) k := by
  simp only [prim, mul_sum, ← sum_sub_distrib]
  exact sum_congr rfl fun j _ => by ring

/-- The derivative of the primitive. -/
theorem prim_deriv {t : ℤ → ℝ} (ht : Monotone t) (p q : ℕ) (hc : t q < t ((q : ℤ) + 1)) (l : ℤ → ℝ) : derivative (spl t q (p + 1) (along (p + 1) (prim t p l))) = spl t q p l := by
  have h := deriv_sum ht hc p (along (p + 1) (prim t p l))
  rw [spl, spl]
  push_cast
  rw [h]
  refine sum_congr rfl fun j hj => ?_
  have hj := mem_range.1 hj
  refine congrArg (fun z => C z * _) ?_
  have hden := den_pos ht hc p ((q : ℤ) - p + j) (by omega) (by omega)
  have hstep : along (p + 1) (prim t p l) ((q : ℤ) - p + j) - along (p + 1) (prim t p l) ((q : ℤ) - p + j - 1) =
      l ((q : ℤ) - p + j) * ((t ((q : ℤ) - p + j + p + 1) - t ((q : ℤ) - p + j)) / (p + 1)) := by
    simp only [along]
    rw [show ((q : ℤ) - p + j + (p + 1 : ℕ)).toNat = q + j + 1 by omega, show ((q : ℤ) - p + j - 1 + (p + 1 : ℕ)).toNat = q + j by omega, prim, prim, sum_range_succ, add_sub_cancel_left,
      show ((q + j : ℕ) : ℤ) - p = (q : ℤ) - p + j by push_cast; ring, show ((q + j : ℕ) : ℤ) + 1 = (q : ℤ) - p + j + p + 1 by push_cast; ring]
  rw [hstep]
  have : (p : ℝ) + 1 ≠ 0 := by positivity
  field_simp

/-- If the slope of a function is close to that of a spline in all cells, its growth is close to that of the spline. -/
theorem growth {n p : ℕ} {b : ℕ → ℝ} {t : ℤ → ℝ} (hb : ∀ i < n, b i < b (i + 1)) (tb : ∀ q ≤ n, t ((q : ℕ) : ℤ) = b q) (a : ℤ → ℝ) {φ φ' : ℝ → ℝ}
    (hφ : ∀ x ∈ Set.Icc (b 0) (b n), HasDerivWithinAt φ (φ' x) (Set.Icc (b 0) (b n)) x) {E : ℝ}
    (hE : ∀ q < n, ∀ x ∈ Set.Icc (b q) (b (q + 1)), |(derivative (spl t q (p + 1) a)).eval x - φ' x| ≤ E) (Q : ℕ) (hQ : Q < n) :
    |((spl t Q (p + 1) a).eval (b (Q + 1)) - φ (b (Q + 1))) - ((spl t 0 (p + 1) a).eval (b 0) - φ (b 0))| ≤ E * (b (Q + 1) - b 0) := by
  have bm : ∀ i j, i ≤ j → j ≤ n → b i ≤ b j := by
    intro i j hij
    induction j, hij using Nat.le_induction with
    | base => intro _; exact le_rfl
    | succ j _ ih => intro hj; exact (ih (by omega)).trans (hb j (by omega)).le
  have hcell : ∀ q < n, |((spl t q (p + 1) a).eval (b (q + 1)) - φ (b (q + 1))) - ((spl t q (p + 1) a).eval (b q) - φ (b q))| ≤ E * (b (q + 1) - b q) := by
    intro q hq
    have hsub : Set.Icc (b q) (b (q + 1)) ⊆ Set.Icc (b 0) (b n) := Set.Icc_subset_Icc (bm 0 q (by omega) (by omega)) (bm (q + 1) n (by omega) le_rfl)
    have hle := (hb q hq).le
    have := (convex_Icc (b q) (b (q + 1))).norm_image_sub_le_of_norm_hasDerivWithin_le (f := fun x => (spl t q (p + 1) a).eval x - φ x) (f' := fun x => (derivative (spl t q (p + 1) a)).eval x - φ' x) (C := E)
      (fun x hx => ((spl t q (p + 1) a).hasDerivAt x).hasDerivWithinAt.sub ((hφ x (hsub hx)).mono hsub)) (fun x hx => by rw [Real.norm_eq_abs]; exact hE q hq x hx)
      (Set.left_mem_Icc.2 hle) (Set.right_mem_Icc.2 hle)
    rwa [Real.norm_eq_abs, Real.norm_eq_abs, abs_of_nonneg (sub_nonneg.2 hle)] at this
  induction Q with
  | zero => exact hcell 0 hQ
  | succ Q ih =>
    have h1 := ih (by omega)
    have h2 := hcell (Q + 1) hQ
    have hcont := spl_continuous (t := t) (c := (Q : ℤ)) (by have := hb Q (by omega); rw [show (Q : ℤ) + 1 = ((Q + 1 : ℕ) : ℤ) by push_cast; ring, tb Q (by omega), tb (Q + 1) (by omega)]; exact this)
      (by have := hb (Q + 1) hQ; rw [show (Q : ℤ) + 1 = ((Q + 1 : ℕ) : ℤ) by push_cast; ring, show (Q : ℤ) + 2 = ((Q + 1 + 1 : ℕ) : ℤ) by push_cast; ring, tb (Q + 1) (by omega), tb (Q + 1 + 1) (by omega)]; exact this) p a
    rw [show (Q : ℤ) + 1 = ((Q + 1 : ℕ) : ℤ) by push_cast; ring, tb (Q + 1) (by omega)] at hcont
    rw [hcont] at h1
    rw [abs_le] at h1 h2 ⊢
    exact ⟨by linarith [h1.1, h2.1], by linarith [h1.2, h2.2]⟩

/-! ## Dirichlet -/

/-- C114 (order of convergence, Dirichlet): if the potential has `d + 1` derivatives and the last is bounded by `M`, the error of the computed field, in the root of the mean of the square over the
quadrature points, is at most `6 (d h) ^ d M`, where `h` is the largest cell: for every degree `d` and every break points. -/
theorem c114_dirichlet_order {d n : ℕ} {b : ℕ → ℝ} (hd : 1 ≤ d) (hn : 1 ≤ n) (hb : ∀ i < n, b i < b (i + 1)) {rule : ℕ → List (ℝ × ℝ)} (R : Rule n d (2 * d) b rule)
    {ρ φ φ' : ℝ → ℝ} (D : Dirichlet n d b ρ φ φ') {G : ℕ → ℝ → ℝ} (hG0 : G 0 = φ')
    (hG : ∀ k < d, ∀ x ∈ Set.Icc (b 0) (b n), HasDerivWithinAt (G k) (G (k + 1) x) (Set.Icc (b 0) (b n)) x) {M h : ℝ} (hM : ∀ x ∈ Set.Icc (b 0) (b n), |G d x| ≤ M)
    (hh : ∀ q < n, b (q + 1) - b q ≤ h)
    {rho : Fem.Pt → ℝ} (hrho : ∀ q < n, ∀ xw ∈ rule q, rho (pt (clampedKnots n b) d q xw) = ρ xw.1)
    {solve : ℕ → Fem.Mat → (ℕ → ℝ) → ℕ → ℝ} (hsolve : SolvesDirichlet n d b rule rho solve) :
    ∑ q ∈ range n, ((rule q).map fun xw => xw.2 * (-φ' xw.1 - Fem.evalField d (pt (clampedKnots n b) d q xw) (dirichletCoef n d b rule rho solve)) ^ 2).sum ≤ (b n - b 0) * (6 * (d * h) ^ d * M) ^ 2 := by
  obtain ⟨p, hp⟩ : ∃ p, d = p + 1 := ⟨d - 1, by omega⟩
  have hD := D
  obtain ⟨-, h1, -, hφ0, hφn⟩ := D
  have main := dirichlet_uniform hd hn hb R hD hrho hsolve
  have tm := clamped_mono hb
  have tb : ∀ q ≤ n, clampedKnots n b ((q : ℕ) : ℤ) = b q := fun q hq => clamped_cell q hq
  have tlow : ∀ i : ℤ, i ≤ 0 → clampedKnots n b i = b 0 := by
    intro i hi
    rw [clampedKnots, show min i.toNat n = 0 by omega]
  have thigh : ∀ i : ℤ, (n : ℤ) ≤ i → clampedKnots n b i = b n := by
    intro i hi
    rw [clampedKnots, show min i.toNat n = n by omega]
  have hstep := clamped_step hn hb hh
  obtain ⟨t, ht⟩ : ∃ t, t = clampedKnots n b := ⟨_, rfl⟩
  rw [← ht] at tm tb tlow thigh hstep main ⊢
  have hcell : ∀ q < n, t q < t ((q : ℤ) + 1) := by
    intro q hq
    rw [tb q (by omega), show (q : ℤ) + 1 = ((q + 1 : ℕ) : ℤ) by push_cast; ring, tb (q + 1) (by omega)]
    exact hb q hq
  obtain ⟨E, hE⟩ : ∃ E, E = 3 * M * ((p + 1) * h) ^ (p + 1) := ⟨_, rfl⟩
  have happ : ∀ q < n, ∀ x ∈ Set.Icc (b q) (b (q + 1)), |(spl t q p (dual t p G)).eval x - φ' x| ≤ E := by
    intro q hq x hx
    rw [← hG0, hE]
    exact approximation (c := (q : ℤ)) tm (hcell q hq) (lo := b 0) (hi := b n) (by rw [← tlow (min 0 (q - p)) (by omega)]; exact tm (by omega))
      (by rw [← thigh (max n (q + 1)) (by omega)]; exact tm (by omega)) hstep (fun k hk => hG k (by omega)) (fun y hy => hp ▸ hM y hy) x (by rw [tb q (by omega)]; exact hx.1)
      (by rw [show (q : ℤ) + 1 = ((q + 1 : ℕ) : ℤ) by push_cast; ring, tb (q + 1) (by omega)]; exact hx.2)
  -- the growth of the primitives from one wall to the other
  have hgrow : ∀ (l : ℤ → ℝ) (φ φ' : ℝ → ℝ) (E : ℝ), (∀ x ∈ Set.Icc (b 0) (b n), HasDerivWithinAt φ (φ' x) (Set.Icc (b 0) (b n)) x) →
      (∀ q < n, ∀ x ∈ Set.Icc (b q) (b (q + 1)), |(spl t q p l).eval x - φ' x| ≤ E) → |prim t p l (n + p) - (φ (b n) - φ (b 0))| ≤ E * (b n - b 0) := by
    intro l φ φ' E hφ hl
    have := growth hb tb (along (p + 1) (prim t p l)) hφ (fun q hq x hx => by rw [prim_deriv tm p q (hcell q hq)]; exact hl q hq x hx) (n - 1) (by omega)
    have e0 := spl_left (c := 0) tm (by have := hcell 0 (by omega); simpa using this) (fun i hi => by rw [tlow i hi, tlow 0 le_rfl]) (p + 1) (along (p + 1) (prim t p l))
    have e1 := spl_right (c := ((n - 1 : ℕ) : ℤ)) tm (hcell (n - 1) (by omega)) (fun i hi => by rw [thigh i (by omega), thigh _ (by omega)]) (p + 1) (along (p + 1) (prim t p l))
    rw [show ((n - 1 : ℕ) : ℤ) + 1 = ((n : ℕ) : ℤ) by omega, tb n le_rfl] at e1
    rw [show (0 : ℤ) = ((0 : ℕ) : ℤ) from rfl, tb 0 (by omega)] at e0
    rw [show n - 1 + 1 = n by omega, e1] at this
    simp only [Nat.cast_zero] at e0 this
    rw [e0] at this
    simp only [along] at this
    rw [show (((n - 1 : ℕ) : ℤ) + (p + 1 : ℕ)).toNat = n + p by omega, show ((0 : ℤ) - (p + 1 : ℕ) + (p + 1 : ℕ)).toNat = 0 by omega] at this
    have z : prim t p l 0 = 0 := by simp [prim]
    rw [z] at this
    refine le_trans (le_of_eq ?_) this
    congr 1
    ring
  have hL : 0 < b n - b 0 := by
    rw [← sum_range_sub]
    exact sum_pos (fun i hi => sub_pos.2 (hb i (mem_range.1 hi))) ⟨0, mem_range.2 hn⟩
  have hone : prim t p (fun _ => 1) (n + p) = b n - b 0 := by
    have := hgrow (fun _ => 1) id (fun _ => 1) 0 (fun x _ => hasDerivWithinAt_id x _) (fun q hq x _ => by
      have := congrArg (eval x) (unity tm (hcell q hq) p)
      simp only [eval_finsetSum, eval_one] at this
      simp only [spl, C_1, one_mul, eval_finsetSum]
      rw [this, sub_self, abs_zero])
    rw [zero_mul] at this
    exact sub_eq_zero.1 (abs_eq_zero.1 (le_antisymm this (abs_nonneg _)))
  have hdual := hgrow (dual t p G) φ φ' E h1 happ
  rw [hφ0, hφn, sub_zero, sub_zero] at hdual
  obtain ⟨m, hm⟩ : ∃ m, m = prim t p (dual t p G) (n + p) / (b n - b 0) := ⟨_, rfl⟩
  have hmE : |m| ≤ E := by
    rw [hm, abs_div, abs_of_pos hL, div_le_iff₀ hL]
    exact hdual
  have := main (prim t p fun i => dual t p G i - m) (by simp [prim]) (by
    rw [show n + d - 1 = n + p by omega, ← prim_sub, hone, hm, div_mul_cancel₀ _ hL.ne', sub_self]) (B := 6 * (d * h) ^ d * M) (by
    intro q hq x hx
    rw [hp, prim_deriv tm p q (hcell q hq)]
    have hu := congrArg (eval x) (unity tm (hcell q hq) p)
    simp only [eval_finsetSum, eval_one] at hu
    have e : (spl t q p fun i => dual t p G i - m).eval x = (spl t q p (dual t p G)).eval x - m := by
      simp only [spl, eval_finsetSum, eval_mul, eval_C, sub_mul, sum_sub_distrib]
      rw [← mul_sum, hu, mul_one]
    have h3 := happ q hq x hx
    rw [e]
    have e6 : 6 * (((p + 1 : ℕ) : ℝ) * h) ^ (p + 1) * M = 2 * E := by rw [hE]; push_cast; ring
    rw [e6, abs_le]
    rw [abs_le] at h3 hmE
    exact ⟨by linarith [h3.1, hmE.2], by linarith [h3.2, hmE.1]⟩)
  exact this

/-- C114 (order of convergence of the potential, Dirichlet). -/
theorem c114_dirichlet_potential_order {d n : ℕ} {b : ℕ → ℝ} (hd : 1 ≤ d) (hn : 1 ≤ n) (hb : ∀ i < n, b i < b (i + 1)) {rule : ℕ → List (ℝ × ℝ)} (R : Rule n d (2 * d) b rule)
    {ρ φ φ' : ℝ → ℝ} (D : Dirichlet n d b ρ φ φ') {G : ℕ → ℝ → ℝ} (hG0 : G 0 = φ')
    (hG : ∀ k < d, ∀ x ∈ Set.Icc (b 0) (b n), HasDerivWithinAt (G k) (G (k + 1) x) (Set.Icc (b 0) (b n)) x) {M h : ℝ} (hM : ∀ x ∈ Set.Icc (b 0) (b n), |G d x| ≤ M)
    (hh : ∀ q < n, b (q + 1) - b q ≤ h)
    {rho : Fem.Pt → ℝ} (hrho : ∀ q < n, ∀ xw ∈ rule q, rho (pt (clampedKnots n b) d q xw) = ρ xw.1)
    {solve : ℕ → Fem.Mat → (ℕ → ℝ) → ℕ → ℝ} (hsolve : SolvesDirichlet n d b rule rho solve) (q : ℕ) (hq : q < n) (w : ℝ) :
    |φ (b q) - Fem.evalSpline d (pt (clampedKnots n b) d q (b q, w)) (dirichletCoef n d b rule rho solve)| ≤ (b n - b 0) * (6 * (d * h) ^ d * M) := by
  have hh0 : 0 ≤ h := by have := hb 0 (by omega); have := hh 0 (by omega); linarith
  have hM0 : 0 ≤ M := by
    refine (abs_nonneg _).trans (hM (b 0) ⟨le_rfl, ?_⟩)
    have := clamped_mono hb (show (0 : ℤ) ≤ n by omega)
    rwa [clamped_cell n le_rfl, show (0 : ℤ) = ((0 : ℕ) : ℤ) from rfl, clamped_cell 0 (by omega)] at this
  exact dirichlet_potential_of hd hn hb R D hsolve (by positivity) (c114_dirichlet_order hd hn hb R D hG0 hG hM hh hrho hsolve) q hq w

/-! ## Periodic -/

/-- C114 (order of convergence, periodic). -/
theorem c114_periodic_order {d n : ℕ} {b : ℕ → ℝ} (hd : 1 ≤ d) (hn : 1 ≤ n) (hb : ∀ i < n, b i < b (i + 1)) {rule : ℕ → List (ℝ × ℝ)} (R : Rule n d (2 * d) b rule)
    {ρ φ φ' : ℝ → ℝ} {m : ℝ} (D : Periodic n d b ρ φ φ' m) {G : ℕ → ℝ → ℝ} (hG0 : G 0 = φ') (hG : ∀ k < d, ∀ x, HasDerivAt (G k) (G (k + 1) x) x) {M h : ℝ} (hM : ∀ x, |G d x| ≤ M)
    (hh : ∀ q < n, b (q + 1) - b q ≤ h)
    {rho : Fem.Pt → ℝ} (hrho : ∀ q < n, ∀ xw ∈ rule q, rho (pt (periodicKnots n b) d q xw) = ρ xw.1)
    {solve : ℕ → Fem.Mat → (ℕ → ℝ) → ℕ → ℝ} (hsolve : SolvesPeriodic n d b rule rho solve) :
    ∑ q ∈ range n, ((rule q).map fun xw => xw.2 * (-φ' xw.1 - Fem.evalField d (pt (periodicKnots n b) d q xw) (periodicCoef n d b rule rho solve)) ^ 2).sum ≤ (b n - b 0) * (6 * (d * h) ^ d * M) ^ 2 := by
  obtain ⟨p, hp⟩ : ∃ p, d = p + 1 := ⟨d - 1, by omega⟩
  have hD := D
  obtain ⟨-, h1, -, hper⟩ := D
  have main := periodic_uniform hd hn hb R hD hrho hsolve
  have tm := periodic_mono hn hb
  have tl := periodic_lt hn hb
  have ts := periodic_shift (b := b) hn
  have tb : ∀ q ≤ n, periodicKnots n b ((q : ℕ) : ℤ) = b q := fun q hq => periodic_cell' hn q hq
  have hstep := periodic_step hn hh
  obtain ⟨t, ht⟩ : ∃ t, t = periodicKnots n b := ⟨_, rfl⟩
  rw [← ht] at tm tl ts tb hstep main ⊢
  obtain ⟨L, hLd⟩ : ∃ L, L = b n - b 0 := ⟨_, rfl⟩
  rw [← hLd] at ts hper main ⊢
  have hL : 0 < L := by
    rw [hLd, ← sum_range_sub]
    exact sum_pos (fun i hi => sub_pos.2 (hb i (mem_range.1 hi))) ⟨0, mem_range.2 hn⟩
  obtain ⟨E, hE⟩ : ∃ E, E = 3 * M * ((p + 1) * h) ^ (p + 1) := ⟨_, rfl⟩
  have happ : ∀ q < n, ∀ x ∈ Set.Icc (b q) (b (q + 1)), |(spl t q p (dual t p G)).eval x - φ' x| ≤ E := by
    intro q hq x hx
    rw [← hG0, hE]
    exact approximation (c := (q : ℤ)) tm (tl q) (lo := t (q - p)) (hi := t (q + 1)) le_rfl le_rfl hstep (fun k hk y _ => (hG k (by omega) y).hasDerivWithinAt) (fun y _ => hp ▸ hM y) x
      (by rw [tb q (by omega)]; exact hx.1) (by rw [show (q : ℤ) + 1 = ((q + 1 : ℕ) : ℤ) by push_cast; ring, tb (q + 1) (by omega)]; exact hx.2)
  have hφ'per : ∀ x, G 0 (x + L) = G 0 x := by
    intro x
    rw [hG0]
    have e1 : HasDerivAt φ (φ' (x + L)) x := by
      have := (h1 (x + L)).comp x ((hasDerivAt_id x).add_const L)
      rw [mul_one] at this
      exact this.congr_of_eventuallyEq (Filter.Eventually.of_forall fun x => (hper x).symm)
    exact e1.unique (h1 x)
  have hdualper := dual_periodic ts p (fun k hk => hG k (by omega)) hφ'per
  -- primitives of periodic splines
  have hprimper : ∀ l : ℤ → ℝ, (∀ i, l (i + n) = l i) → ∀ k, prim t p l (k + n) = prim t p l k + prim t p l n := by
    intro l hl k
    refine window _ n (fun k => ?_) k
    rw [show ((k + n : ℕ) : ℤ) - p = (k : ℤ) - p + n by push_cast; ring, show ((k + n : ℕ) : ℤ) + 1 = (k : ℤ) + 1 + n by push_cast; ring, hl, ts, ts, add_sub_add_right_eq_sub]
  have hgrow : ∀ (l : ℤ → ℝ) (φ φ' : ℝ → ℝ) (E : ℝ), (∀ i, l (i + n) = l i) → (∀ x, HasDerivAt φ (φ' x) x) →
      (∀ q < n, ∀ x ∈ Set.Icc (b q) (b (q + 1)), |(spl t q p l).eval x - φ' x| ≤ E) → |prim t p l n - (φ (b n) - φ (b 0))| ≤ E * L := by
    intro l φ φ' E hl hφ hlE
    have := growth hb tb (along (p + 1) (prim t p l)) (fun x _ => (hφ x).hasDerivWithinAt) (fun q hq x hx => by rw [prim_deriv tm p q (tl q)]; exact hlE q hq x hx) (n - 1) (by omega)
    have hn1 : ((n - 1 : ℕ) : ℤ) + 1 = ((n : ℕ) : ℤ) := by omega
    have hcont := spl_continuous (c := ((n - 1 : ℕ) : ℤ)) (tl _) (by have := tl (((n - 1 : ℕ) : ℤ) + 1); rwa [show ((n - 1 : ℕ) : ℤ) + 1 + 1 = ((n - 1 : ℕ) : ℤ) + 2 by ring] at this) p (along (p + 1) (prim t p l))
    rw [hn1, tb n le_rfl] at hcont
    rw [show n - 1 + 1 = n by omega, hcont] at this
    have hend : (spl t (n : ℤ) (p + 1) (along (p + 1) (prim t p l))).eval (b n) = (spl t 0 (p + 1) (along (p + 1) (prim t p l))).eval (b 0) + prim t p l n := by
      have hu := congrArg (eval (b 0)) (unity tm (c := 0) (by have := tl 0; simpa using this) (p + 1))
      simp only [eval_finsetSum, eval_one] at hu
      have hz : prim t p l n = ∑ j ∈ range (p + 1 + 1), prim t p l n * (piece t 0 (p + 1) (0 - ((p + 1 : ℕ) : ℤ) + j)).eval (b 0) := by rw [← mul_sum, hu, mul_one]
      rw [hz]
      simp only [spl, eval_finsetSum, eval_mul, eval_C]
      rw [← sum_add_distrib]
      refine sum_congr rfl fun j _ => ?_
      have h2 := piece_shift ts 0 (p + 1) ((0 : ℤ) - (p + 1 : ℕ) + j) (b 0)
      rw [zero_add, show b 0 + L = b n by rw [hLd]; ring, show (0 : ℤ) - ((p + 1 : ℕ) : ℤ) + j + n = (n : ℤ) - (p + 1 : ℕ) + j by ring] at h2
      rw [h2, ← add_mul]
      simp only [along]
      rw [show ((n : ℤ) - (p + 1 : ℕ) + j + (p + 1 : ℕ)).toNat = j + n by omega, show ((0 : ℤ) - (p + 1 : ℕ) + j + (p + 1 : ℕ)).toNat = j by omega, hprimper l hl]
    rw [hend] at this
    rw [hLd]
    refine le_trans (le_of_eq ?_) this
    congr 1
    ring
  have hone : prim t p (fun _ => 1) n = L := by
    have := hgrow (fun _ => 1) id (fun _ => 1) 0 (fun _ => rfl) (fun x => hasDerivAt_id x) (fun q hq x _ => by
      have := congrArg (eval x) (unity tm (tl q) p)
      simp only [eval_finsetSum, eval_one] at this
      simp only [spl, C_1, one_mul, eval_finsetSum]
      rw [this, sub_self, abs_zero])
    rw [zero_mul] at this
    have := sub_eq_zero.1 (abs_eq_zero.1 (le_antisymm this (abs_nonneg _)))
    rw [this, hLd]
    rfl
  have hdual := hgrow (dual t p G) φ φ' E hdualper h1 happ
  rw [show b n = b 0 + L by rw [hLd]; ring, hper, sub_self, sub_zero] at hdual
  obtain ⟨μ, hμ⟩ : ∃ μ, μ = prim t p (dual t p G) n / L := ⟨_, rfl⟩
  have hmE : |μ| ≤ E := by
    rw [hμ, abs_div, abs_of_pos hL, div_le_iff₀ hL]
    exact hdual
  obtain ⟨l, hl⟩ : ∃ l : ℤ → ℝ, l = fun i => dual t p G i - μ := ⟨_, rfl⟩
  have hlper : ∀ i, l (i + n) = l i := fun i => by simp only [hl]; rw [hdualper]
  have hzero : prim t p l n = 0 := by rw [hl, ← prim_sub, hone, hμ, div_mul_cancel₀ _ hL.ne', sub_self]
  have hmod : ∀ k : ℕ, prim t p l (k % n) = prim t p l k := by
    intro k
    have : ∀ j r : ℕ, prim t p l (r + j * n) = prim t p l r := by
      intro j r
      induction j with
      | zero => simp
      | succ j ih => rw [Nat.succ_mul, ← add_assoc, hprimper l hlper, ih, hzero, add_zero]
    have h2 := this (k / n) (k % n)
    rw [mul_comm, Nat.mod_add_div] at h2
    exact h2.symm
  have := main (prim t p l) (B := 6 * (d * h) ^ d * M) (by
    intro q hq x hx
    have hspl : spl t q d (around d n (prim t p l)) = spl t q (p + 1) (along (p + 1) (prim t p l)) := by
      rw [← hp]
      simp only [spl]
      refine sum_congr rfl fun j _ => ?_
      simp only [around, along]
      obtain ⟨k, hk⟩ : ∃ k : ℕ, (k : ℤ) = (q : ℤ) - d + j + d := ⟨q + j, by push_cast; ring⟩
      rw [← hk, ← Int.natCast_mod, Int.toNat_natCast, Int.toNat_natCast, hmod]
    rw [hspl, prim_deriv tm p q (tl q)]
    have hu := congrArg (eval x) (unity tm (tl q) p)
    simp only [eval_finsetSum, eval_one] at hu
    have e : (spl t q p l).eval x = (spl t q p (dual t p G)).eval x - μ := by
      simp only [hl, spl, eval_finsetSum, eval_mul, eval_C, sub_mul, sum_sub_distrib]
      rw [← mul_sum, hu, mul_one]
    have h3 := happ q hq x hx
    rw [e]
    have e6 : 6 * ((d : ℝ) * h) ^ d * M = 2 * E := by rw [hE, hp]; push_cast; ring
    rw [e6, abs_le]
    rw [abs_le] at h3 hmE
    exact ⟨by linarith [h3.1, hmE.2], by linarith [h3.2, hmE.1]⟩)
  exact this

/-- Instance of the hypotheses, degree 2: the density `x` on `[0, 1]`. -/
example : Dirichlet 1 2 (fun q => (q : ℝ)) (fun x => x) (fun x => (x - x ^ 3) / 6) (fun x => (1 - 3 * x ^ 2) / 6) ∧
    ∃ G : ℕ → ℝ → ℝ, (G 0 = fun x => (1 - 3 * x ^ 2) / 6) ∧ (∀ k < 2, ∀ x, HasDerivAt (G k) (G (k + 1) x) x) ∧ ∀ x, |G 2 x| ≤ 1 := by
  have d0 : ∀ x : ℝ, HasDerivAt (fun x : ℝ => (x - x ^ 3) / 6) ((1 - 3 * x ^ 2) / 6) x := fun x => by
    have := ((hasDerivAt_id x).sub (hasDerivAt_pow 3 x)).div_const 6
    simpa using this
  have d1 : ∀ x : ℝ, HasDerivAt (fun x : ℝ => (1 - 3 * x ^ 2) / 6) (-x) x := fun x => by
    have := (((hasDerivAt_pow 2 x).const_mul 3).const_sub 1).div_const 6
    refine this.congr_deriv ?_
    push_cast
    ring
  refine ⟨⟨fun q _ => ⟨X, by rw [natDegree_X]; norm_num, fun x _ => by rw [eval_X]⟩, fun x _ => (d0 x).hasDerivWithinAt, fun x _ => (d1 x).hasDerivWithinAt, by norm_num, by norm_num⟩,
    fun k x => if k = 0 then (1 - 3 * x ^ 2) / 6 else if k = 1 then -x else -1, rfl, fun k hk x => ?_, fun x => by norm_num⟩
  have : k = 0 ∨ k = 1 := by omega
  rcases this with rfl | rfl
  · simpa using d1 x
  · simpa using hasDerivAt_neg x

end Verif.BSpline
