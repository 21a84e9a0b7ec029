import Verif.Props.FemOrder
import Mathlib.Analysis.Calculus.MeanValue
import Mathlib.Analysis.Calculus.LocalExtr.Rolle

/-!
# C114: the effect of an error of the density on the field of the 1D FEM Poisson solver

The solver replaces the given density by its spline (`fem_1d_poisson_solver.hpp:419`, evaluated in lines 452-454). Here `ρ'` is the density which is meant and `ε` the error of the spline.
-/

namespace Verif.BSpline

open Polynomial Finset

/-- A function with bounded slope which vanishes at both ends of an interval and whose slope is `g`, where the slope of `g` is at most `ε`: `g` is at most `ε` times the length. -/
theorem slope_bound {a c ε : ℝ} (hac : a < c) {u g r : ℝ → ℝ} (hu : ∀ x ∈ Set.Icc a c, HasDerivWithinAt u (g x) (Set.Icc a c) x) (hg : ∀ x ∈ Set.Icc a c, HasDerivWithinAt g (r x) (Set.Icc a c) x)
    (hr : ∀ x ∈ Set.Icc a c, |r x| ≤ ε) (huu : u a = u c) : ∀ x ∈ Set.Icc a c, |g x| ≤ ε * (c - a) := by
  intro x hx
  obtain ⟨z, hz, hgz⟩ := exists_hasDerivAt_eq_zero hac (f := u) (f' := g) (fun y hy => (hu y hy).continuousWithinAt) huu fun y hy =>
    (hu y (Set.Ioo_subset_Icc_self hy)).hasDerivAt (Icc_mem_nhds hy.1 hy.2)
  have h := Convex.norm_image_sub_le_of_norm_hasDerivWithin_le (s := Set.Icc a c) (f := g) (f' := r) (C := ε) hg hr (convex_Icc a c) (Set.Ioo_subset_Icc_self hz) hx
  rw [hgz, sub_zero, Real.norm_eq_abs, Real.norm_eq_abs] at h
  have hε : 0 ≤ ε := (abs_nonneg _).trans (hr x hx)
  refine h.trans (mul_le_mul_of_nonneg_left ?_ hε)
  rw [abs_le]
  have := hz.1
  have := hz.2
  constructor <;> linarith [hx.1, hx.2]

/-- Triangle inequality for sums of squares with weights, for a perturbation which is bounded. -/
theorem square_sum_add {n : ℕ} {d : ℕ} {b : ℕ → ℝ} {rule : ℕ → List (ℝ × ℝ)} (R : Rule n d (2 * d) b rule) (e δ : ℕ → ℝ → ℝ) {L B E : ℝ} (hL : 0 ≤ L) (hB : 0 ≤ B) (hE : 0 ≤ E)
    (hw : ∑ q ∈ range n, ((rule q).map fun xw => xw.2).sum = L)
    (he : ∑ q ∈ range n, ((rule q).map fun xw => xw.2 * e q xw.1 ^ 2).sum ≤ L * B ^ 2) (hδ : ∀ q < n, ∀ xw ∈ rule q, |δ q xw.1| ≤ E) :
    ∑ q ∈ range n, ((rule q).map fun xw => xw.2 * (δ q xw.1 + e q xw.1) ^ 2).sum ≤ L * (E + B) ^ 2 := by
  have key : ∀ η : ℝ, 0 < η → ∑ q ∈ range n, ((rule q).map fun xw => xw.2 * (δ q xw.1 + e q xw.1) ^ 2).sum ≤ L * (E + (B + η)) ^ 2 := by
    intro η hη
    obtain ⟨B', hB'⟩ : ∃ B', B' = B + η := ⟨_, rfl⟩
    have hpos : 0 < B' := by rw [hB']; linarith
    have hcell : ∀ q ∈ range n, ((rule q).map fun xw => xw.2 * (δ q xw.1 + e q xw.1) ^ 2).sum ≤
        (E ^ 2 + E * B') * ((rule q).map fun xw => xw.2).sum + (1 + E / B') * ((rule q).map fun xw => xw.2 * e q xw.1 ^ 2).sum := by
      intro q hq
      rw [← List.sum_map_mul_left, ← List.sum_map_mul_left, ← List.sum_map_add]
      refine List.sum_le_sum fun xw hxw => ?_
      have h0 := R.weight q (mem_range.1 hq) xw hxw
      have h1 := hδ q (mem_range.1 hq) xw hxw
      obtain ⟨h2, h3⟩ := abs_le.1 h1
      have h4 : δ q xw.1 * e q xw.1 ≤ E * |e q xw.1| := (le_abs_self _).trans (by rw [abs_mul]; exact mul_le_mul_of_nonneg_right h1 (abs_nonneg _))
      have h5 : 2 * |e q xw.1| ≤ e q xw.1 ^ 2 / B' + B' := by
        have := sq_nonneg (|e q xw.1| - B')
        rw [sub_sq, sq_abs] at this
        rw [div_add' _ _ _ hpos.ne', le_div_iff₀ hpos]
        linarith
      have h6 : δ q xw.1 ^ 2 ≤ E ^ 2 := by rw [← sq_abs]; exact pow_le_pow_left₀ (abs_nonneg _) h1 2
      have h7 : (δ q xw.1 + e q xw.1) ^ 2 ≤ E ^ 2 + E * B' + (1 + E / B') * e q xw.1 ^ 2 := by
        have h8 := mul_le_mul_of_nonneg_left h5 hE
        have h9 : E * (e q xw.1 ^ 2 / B' + B') = E / B' * e q xw.1 ^ 2 + E * B' := by ring
        nlinarith
      have := mul_le_mul_of_nonneg_left h7 h0.le
      linarith
    have hsum := sum_le_sum hcell
    rw [sum_add_distrib, ← mul_sum, ← mul_sum, hw] at hsum
    have hEB : 0 ≤ E / B' := div_nonneg hE hpos.le
    have h1 := mul_le_mul_of_nonneg_left he (by linarith : 0 ≤ 1 + E / B')
    have h2 : L * B ^ 2 ≤ L * B' ^ 2 := mul_le_mul_of_nonneg_left (pow_le_pow_left₀ hB (by rw [hB']; linarith) 2) hL
    have h3 := mul_le_mul_of_nonneg_left h2 (by linarith : 0 ≤ 1 + E / B')
    have h4 : (1 + E / B') * (L * B' ^ 2) = L * B' ^ 2 + E * B' * L := by field_simp
    rw [← hB']
    linarith
  have hlim : Filter.Tendsto (fun η : ℝ => L * (E + (B + η)) ^ 2) (nhdsWithin 0 (Set.Ioi 0)) (nhds (L * (E + B) ^ 2)) := by
    have h : Continuous fun η : ℝ => L * (E + (B + η)) ^ 2 := by fun_prop
    have := h.tendsto 0
    simp only [add_zero] at this
    exact this.mono_left nhdsWithin_le_nhds
  exact ge_of_tendsto hlim (Filter.eventually_of_mem self_mem_nhdsWithin fun η hη => key η hη)

/-- The weights of the quadrature add up to the length of the domain. -/
theorem weight_sum {n d k : ℕ} {b : ℕ → ℝ} {rule : ℕ → List (ℝ × ℝ)} (R : Rule n d k b rule) : ∑ q ∈ range n, ((rule q).map fun xw => xw.2).sum = b n - b 0 := by
  rw [← sum_range_sub]
  refine sum_congr rfl fun q hq => ?_
  have := R.exact q (mem_range.1 hq) X (by simp)
  simpa using this

/-- C114 (error of the density, Dirichlet): the density given to the solver differs by at most `ε` from the density `ρ'`, whose potential is `ψ`: the field which the solver computes differs from that of
`ψ` by at most `ε` times the length of the domain more than the discretisation error of `c114_dirichlet_converges`. -/
theorem c114_dirichlet_density {d n : ℕ} {b : ℕ → ℝ} (hd : 1 ≤ d) (hn : 1 ≤ n) (hb : ∀ i < n, b i < b (i + 1)) {rule : ℕ → List (ℝ × ℝ)} (R : Rule n d (2 * d) b rule)
    {ρ φ φ' : ℝ → ℝ} (D : Dirichlet n d b ρ φ φ') {M h : ℝ} (hM : ∀ x ∈ Set.Icc (b 0) (b n), |ρ x| ≤ M) (hh : ∀ q < n, b (q + 1) - b q ≤ h)
    {rho : Fem.Pt → ℝ} (hrho : ∀ q < n, ∀ xw ∈ rule q, rho (pt (clampedKnots n b) d q xw) = ρ xw.1)
    {solve : ℕ → Fem.Mat → (ℕ → ℝ) → ℕ → ℝ} (hsolve : SolvesDirichlet n d b rule rho solve)
    {ρ' ψ ψ' : ℝ → ℝ} (hψ : ∀ x ∈ Set.Icc (b 0) (b n), HasDerivWithinAt ψ (ψ' x) (Set.Icc (b 0) (b n)) x)
    (hψ' : ∀ x ∈ Set.Icc (b 0) (b n), HasDerivWithinAt ψ' (-ρ' x) (Set.Icc (b 0) (b n)) x) (h0 : ψ (b 0) = 0) (h1 : ψ (b n) = 0)
    {ε : ℝ} (hε : ∀ x ∈ Set.Icc (b 0) (b n), |ρ x - ρ' x| ≤ ε) :
    ∑ q ∈ range n, ((rule q).map fun xw => xw.2 * (-ψ' xw.1 - Fem.evalField d (pt (clampedKnots n b) d q xw) (dirichletCoef n d b rule rho solve)) ^ 2).sum ≤
      (b n - b 0) * (ε * (b n - b 0) + d * h * M) ^ 2 := by
  have tm := clamped_mono hb
  have bm : ∀ i j, i ≤ j → j ≤ n → b i ≤ b j := by
    intro i j hij hj
    have := tm (show ((i : ℕ) : ℤ) ≤ j by omega)
    rwa [clamped_cell i (by omega), clamped_cell j hj] at this
  have hlt : b 0 < b n := (hb 0 (by omega)).trans_le (bm 1 n hn le_rfl)
  have hmem : (b 0) ∈ Set.Icc (b 0) (b n) := ⟨le_rfl, hlt.le⟩
  have hh0 : 0 ≤ h := by have := hb 0 (by omega); have := hh 0 (by omega); linarith
  have hM0 : 0 ≤ M := (abs_nonneg _).trans (hM _ hmem)
  have hε0 : 0 ≤ ε := (abs_nonneg _).trans (hε _ hmem)
  have main := c114_dirichlet_converges hd hn hb R D hM hh hrho hsolve
  have hδ := slope_bound hlt (u := fun x => φ x - ψ x) (g := fun x => φ' x - ψ' x) (r := fun x => -ρ x - -ρ' x) (ε := ε)
    (fun x hx => (D.slope x hx).sub (hψ x hx)) (fun x hx => (D.poisson x hx).sub (hψ' x hx))
    (fun x hx => by rw [show -ρ x - -ρ' x = -(ρ x - ρ' x) by ring, abs_neg]; exact hε x hx) (by rw [D.left, D.right, h0, h1])
  have := square_sum_add R (fun q x => -φ' x - Fem.evalField d (pt (clampedKnots n b) d q (x, 0)) (dirichletCoef n d b rule rho solve)) (fun _ x => φ' x - ψ' x)
    (L := b n - b 0) (B := d * h * M) (E := ε * (b n - b 0)) (by linarith) (by positivity) (mul_nonneg hε0 (by linarith)) (weight_sum R) main
    fun q hq xw hxw => hδ xw.1 ⟨(bm 0 q (by omega) hq.le).trans (R.inside q hq xw hxw).1, (R.inside q hq xw hxw).2.trans (bm (q + 1) n hq le_rfl)⟩
  refine le_trans (le_of_eq ?_) this
  refine sum_congr rfl fun q _ => congrArg List.sum (List.map_congr_left fun xw _ => ?_)
  have e : Fem.evalField d (pt (clampedKnots n b) d q xw) (dirichletCoef n d b rule rho solve) = Fem.evalField d (pt (clampedKnots n b) d q (xw.1, 0)) (dirichletCoef n d b rule rho solve) := rfl
  rw [e]
  ring

/-- C114 (error of the density, potential at the break points). -/
theorem c114_dirichlet_potential_density {d n : ℕ} {b : ℕ → ℝ} (hd : 1 ≤ d) (hn : 1 ≤ n) (hb : ∀ i < n, b i < b (i + 1)) {rule : ℕ → List (ℝ × ℝ)} (R : Rule n d (2 * d) b rule)
    {ρ φ φ' : ℝ → ℝ} (D : Dirichlet n d b ρ φ φ') {M h : ℝ} (hM : ∀ x ∈ Set.Icc (b 0) (b n), |ρ x| ≤ M) (hh : ∀ q < n, b (q + 1) - b q ≤ h)
    {rho : Fem.Pt → ℝ} (hrho : ∀ q < n, ∀ xw ∈ rule q, rho (pt (clampedKnots n b) d q xw) = ρ xw.1)
    {solve : ℕ → Fem.Mat → (ℕ → ℝ) → ℕ → ℝ} (hsolve : SolvesDirichlet n d b rule rho solve)
    {ρ' ψ ψ' : ℝ → ℝ} (hψ : ∀ x ∈ Set.Icc (b 0) (b n), HasDerivWithinAt ψ (ψ' x) (Set.Icc (b 0) (b n)) x)
    (hψ' : ∀ x ∈ Set.Icc (b 0) (b n), HasDerivWithinAt ψ' (-ρ' x) (Set.Icc (b 0) (b n)) x) (h0 : ψ (b 0) = 0) (h1 : ψ (b n) = 0)
    {ε : ℝ} (hε : ∀ x ∈ Set.Icc (b 0) (b n), |ρ x - ρ' x| ≤ ε) (q : ℕ) (hq : q < n) (w : ℝ) :
    |ψ (b q) - Fem.evalSpline d (pt (clampedKnots n b) d q (b q, w)) (dirichletCoef n d b rule rho solve)| ≤ (b n - b 0) * (ε * (b n - b 0) + d * h * M) := by
  have tm := clamped_mono hb
  have bm : ∀ i j, i ≤ j → j ≤ n → b i ≤ b j := by
    intro i j hij hj
    have := tm (show ((i : ℕ) : ℤ) ≤ j by omega)
    rwa [clamped_cell i (by omega), clamped_cell j hj] at this
  have hlt : b 0 < b n := (hb 0 (by omega)).trans_le (bm 1 n hn le_rfl)
  have hmem : (b 0) ∈ Set.Icc (b 0) (b n) := ⟨le_rfl, hlt.le⟩
  have hε0 : 0 ≤ ε := (abs_nonneg _).trans (hε _ hmem)
  have main := c114_dirichlet_potential hd hn hb R D hM hh hrho hsolve q hq w
  have hδ := slope_bound hlt (u := fun x => φ x - ψ x) (g := fun x => φ' x - ψ' x) (r := fun x => -ρ x - -ρ' x) (ε := ε)
    (fun x hx => (D.slope x hx).sub (hψ x hx)) (fun x hx => (D.poisson x hx).sub (hψ' x hx))
    (fun x hx => by rw [show -ρ x - -ρ' x = -(ρ x - ρ' x) by ring, abs_neg]; exact hε x hx) (by rw [D.left, D.right, h0, h1])
  have hq' : b q ∈ Set.Icc (b 0) (b n) := ⟨bm 0 q (by omega) hq.le, bm q n hq.le le_rfl⟩
  have hu := Convex.norm_image_sub_le_of_norm_hasDerivWithin_le (s := Set.Icc (b 0) (b n)) (f := fun x => φ x - ψ x) (f' := fun x => φ' x - ψ' x) (C := ε * (b n - b 0))
    (fun x hx => (D.slope x hx).sub (hψ x hx)) hδ (convex_Icc _ _) hmem hq'
  simp only [D.left, h0, sub_zero, Real.norm_eq_abs] at hu
  have h2 : |b q - b 0| ≤ b n - b 0 := by rw [abs_of_nonneg (by linarith [hq'.1])]; linarith [hq'.2]
  have h3 : |φ (b q) - ψ (b q)| ≤ ε * (b n - b 0) * (b n - b 0) := hu.trans (mul_le_mul_of_nonneg_left h2 (mul_nonneg hε0 (by linarith)))
  rw [abs_sub_comm] at h3
  have h4 := abs_sub_le (ψ (b q)) (φ (b q)) (Fem.evalSpline d (pt (clampedKnots n b) d q (b q, w)) (dirichletCoef n d b rule rho solve))
  nlinarith

/-- C114 (error of the density, periodic): as above; the mean which is taken away from the density adds at most another `ε` to its error. -/
theorem c114_periodic_density {d n : ℕ} {b : ℕ → ℝ} (hd : 1 ≤ d) (hn : 1 ≤ n) (hb : ∀ i < n, b i < b (i + 1)) {rule : ℕ → List (ℝ × ℝ)} (R : Rule n d (2 * d) b rule)
    {ρ φ φ' : ℝ → ℝ} {m : ℝ} (D : Periodic n d b ρ φ φ' m) {M h : ℝ} (hM : ∀ x, |ρ x - m| ≤ M) (hh : ∀ q < n, b (q + 1) - b q ≤ h)
    {rho : Fem.Pt → ℝ} (hrho : ∀ q < n, ∀ xw ∈ rule q, rho (pt (periodicKnots n b) d q xw) = ρ xw.1)
    {solve : ℕ → Fem.Mat → (ℕ → ℝ) → ℕ → ℝ} (hsolve : SolvesPeriodic n d b rule rho solve)
    {ρ' ψ ψ' : ℝ → ℝ} {m' : ℝ} (hψ : ∀ x, HasDerivAt ψ (ψ' x) x) (hψ' : ∀ x, HasDerivAt ψ' (-(ρ' x - m')) x) (hper : ∀ x, ψ (x + (b n - b 0)) = ψ x)
    {ε : ℝ} (hε : ∀ x, |ρ x - ρ' x| ≤ ε) :
    ∑ q ∈ range n, ((rule q).map fun xw => xw.2 * (-ψ' xw.1 - Fem.evalField d (pt (periodicKnots n b) d q xw) (periodicCoef n d b rule rho solve)) ^ 2).sum ≤
      (b n - b 0) * (2 * ε * (b n - b 0) + d * h * M) ^ 2 := by
  have bm : ∀ i j, i ≤ j → j ≤ n → b i ≤ b j := by
    intro i j hij
    induction j, hij using Nat.le_induction with
    | base => intro _; exact le_rfl
    | succ j _ ih => intro hj; exact (ih (by omega)).trans (hb j (by omega)).le
  have hlt : b 0 < b n := (hb 0 (by omega)).trans_le (bm 1 n hn le_rfl)
  have hh0 : 0 ≤ h := by have := hb 0 (by omega); have := hh 0 (by omega); linarith
  have hM0 : 0 ≤ M := (abs_nonneg _).trans (hM 0)
  have hε0 : 0 ≤ ε := (abs_nonneg _).trans (hε 0)
  have main := c114_periodic_converges hd hn hb R D hM hh hrho hsolve
  have hperiod : ∀ (f f' : ℝ → ℝ), (∀ x, HasDerivAt f (f' x) x) → (∀ x, f (x + (b n - b 0)) = f x) → f' (b n) = f' (b 0) := by
    intro f f' hf hp
    have h1 := (hf (b 0 + (b n - b 0))).comp_add_const (b 0) (b n - b 0)
    rw [funext hp, add_sub_cancel] at h1
    exact h1.unique (hf (b 0))
  have hg : ∀ x, HasDerivAt (fun x => φ' x - ψ' x) (-(ρ x - m) - -(ρ' x - m')) x := fun x => (D.poisson x).sub (hψ' x)
  obtain ⟨z, -, hz⟩ := exists_hasDerivAt_eq_zero hlt (f := fun x => φ' x - ψ' x) (f' := fun x => -(ρ x - m) - -(ρ' x - m')) (fun y _ => (hg y).continuousAt.continuousWithinAt)
    (by simp only [hperiod φ φ' D.slope D.period, hperiod ψ ψ' hψ hper]) fun y _ => hg y
  have hm : |m - m'| ≤ ε := by rw [show m - m' = ρ z - ρ' z by linarith]; exact hε z
  have hδ := slope_bound hlt (u := fun x => φ x - ψ x) (g := fun x => φ' x - ψ' x) (r := fun x => -(ρ x - m) - -(ρ' x - m')) (ε := 2 * ε)
    (fun x _ => ((D.slope x).sub (hψ x)).hasDerivWithinAt) (fun x _ => (hg x).hasDerivWithinAt)
    (fun x _ => by
      have h1 := abs_add_le (m - m') (-(ρ x - ρ' x))
      rw [abs_neg] at h1
      rw [show -(ρ x - m) - -(ρ' x - m') = m - m' + -(ρ x - ρ' x) by ring]
      linarith [hε x])
    (by
      have e1 := D.period (b 0)
      have e2 := hper (b 0)
      rw [add_sub_cancel] at e1 e2
      rw [e1, e2])
  have := square_sum_add R (fun q x => -φ' x - Fem.evalField d (pt (periodicKnots n b) d q (x, 0)) (periodicCoef n d b rule rho solve)) (fun _ x => φ' x - ψ' x)
    (L := b n - b 0) (B := d * h * M) (E := 2 * ε * (b n - b 0)) (by linarith) (by positivity) (mul_nonneg (by linarith) (by linarith)) (weight_sum R) main
    fun q hq xw hxw => hδ xw.1 ⟨(bm 0 q (by omega) hq.le).trans (R.inside q hq xw hxw).1, (R.inside q hq xw hxw).2.trans (bm (q + 1) n hq le_rfl)⟩
  refine le_trans (le_of_eq ?_) this
  refine sum_congr rfl fun q _ => congrArg List.sum (List.map_congr_left fun xw _ => ?_)
  have e : Fem.evalField d (pt (periodicKnots n b) d q xw) (periodicCoef n d b rule rho solve) = Fem.evalField d (pt (periodicKnots n b) d q (xw.1, 0)) (periodicCoef n d b rule rho solve) := rfl
  rw [e]
  ring

/-- Instance: one cell, degree 1; the density `1` is given to the solver, the density `2 x` is meant. -/
example : Dirichlet 1 1 (fun q => (q : ℝ)) (fun _ => 1) (fun x => (x - x ^ 2) / 2) (fun x => (1 - 2 * x) / 2) ∧
    (∀ x ∈ Set.Icc (0 : ℝ) 1, HasDerivWithinAt (fun x => (x - x ^ 3) / 3) ((1 - 3 * x ^ 2) / 3) (Set.Icc 0 1) x) ∧
    (∀ x ∈ Set.Icc (0 : ℝ) 1, HasDerivWithinAt (fun x => (1 - 3 * x ^ 2) / 3) (-(2 * x)) (Set.Icc 0 1) x) ∧ ((0 : ℝ) - 0 ^ 3) / 3 = 0 ∧ ((1 : ℝ) - 1 ^ 3) / 3 = 0 ∧
    ∀ x ∈ Set.Icc (0 : ℝ) 1, |1 - 2 * x| ≤ 1 := by
  refine ⟨⟨fun q _ => ⟨1, by simp, fun x _ => by simp⟩, fun x _ => ?_, fun x _ => ?_, by norm_num, by norm_num⟩, fun x _ => ?_, fun x _ => ?_, by norm_num, by norm_num, fun x hx => ?_⟩
  · have := (((hasDerivAt_id x).sub ((hasDerivAt_id x).pow 2)).div_const 2).hasDerivWithinAt (s := Set.Icc ((fun q : ℕ => (q : ℝ)) 0) ((fun q : ℕ => (q : ℝ)) 1))
    refine this.congr_deriv ?_
    simp
  · have := (((hasDerivAt_const x (1 : ℝ)).sub ((hasDerivAt_id x).const_mul 2)).div_const 2).hasDerivWithinAt (s := Set.Icc ((fun q : ℕ => (q : ℝ)) 0) ((fun q : ℕ => (q : ℝ)) 1))
    refine this.congr_deriv ?_
    norm_num
  · have := (((hasDerivAt_id x).sub ((hasDerivAt_id x).pow 3)).div_const 3).hasDerivWithinAt (s := Set.Icc (0 : ℝ) 1)
    refine this.congr_deriv ?_
    simp
  · have := (((hasDerivAt_const x (1 : ℝ)).sub (((hasDerivAt_id x).pow 2).const_mul 3)).div_const 3).hasDerivWithinAt (s := Set.Icc (0 : ℝ) 1)
    refine this.congr_deriv ?_
    simp
    ring
  · rw [abs_le]
    constructor <;> linarith [hx.1, hx.2]

end Verif.BSpline
