import Verif.Props.FemConvergence
import Mathlib.LinearAlgebra.Matrix.NonsingularInverse
import Mathlib.Topology.Algebra.Order.Floor
import Mathlib.MeasureTheory.Integral.IntervalIntegral.FundThmCalculus
import Mathlib.MeasureTheory.Integral.IntervalIntegral.Periodic

/-!
# C114: solvability, values at the walls, and cases which meet the hypotheses
-/

namespace Verif.BSpline

open Polynomial Finset

/-- A square system whose homogeneous version has only the zero solution has a solution. -/
theorem solvable (k : ℕ) (M : Fem.Mat) (h : ∀ x, Fem.Solves k M (fun _ => 0) x → ∀ i < k, x i = 0) (b : ℕ → ℝ) : ∃ x, Fem.Solves k M b x := by
  have key : ∀ (v : Fin k → ℝ) (i : ℕ) (hi : i < k), ∑ j ∈ range k, M i j * (fun m => if hm : m < k then v ⟨m, hm⟩ else 0) j = ((Matrix.of fun i j : Fin k => M i j).mulVec v) ⟨i, hi⟩ := by
    intro v i hi
    rw [Matrix.mulVec, dotProduct, ← Fin.sum_univ_eq_sum_range (fun j => M i j * (fun m => if hm : m < k then v ⟨m, hm⟩ else 0) j) k]
    refine sum_congr rfl fun j _ => ?_
    simp
  have hinj : Function.Injective (Matrix.of fun i j : Fin k => M i j).mulVec := by
    rw [← Matrix.coe_mulVecLin, injective_iff_map_eq_zero]
    intro v hv
    have := h (fun m => if hm : m < k then v ⟨m, hm⟩ else 0) fun i hi => by
      rw [key v i hi]
      exact congrFun hv ⟨i, hi⟩
    funext i
    simpa using this i i.2
  obtain ⟨v, hv⟩ := (Matrix.mulVec_surjective_iff_isUnit.2 (Matrix.mulVec_injective_iff_isUnit.1 hinj)) fun i => b i
  refine ⟨fun m => if hm : m < k then v ⟨m, hm⟩ else 0, fun i hi => ?_⟩
  rw [key v i hi, hv]

/-- C114: the non-periodic system has a solution for every density, for B-splines of every degree on every break points. -/
theorem c114_dirichlet_solvable {d n k : ℕ} {b : ℕ → ℝ} (hd : 1 ≤ d) (hn : 1 ≤ n) (hb : ∀ i < n, b i < b (i + 1)) {rule : ℕ → List (ℝ × ℝ)} (R : Rule n d k b rule) (rho : Fem.Pt → ℝ) :
    ∃ solve, SolvesDirichlet n d b rule rho solve := by
  have S := c114_dirichlet_space hd hn hb R
  obtain ⟨x, hx⟩ := solvable (n + d - 2) (Fem.nonPeriodicMatrix d (n + d) (points (clampedKnots n b) d n rule)) (by
    intro x hx i hi
    by_contra hne
    have hpos := Fem.c52_dirichlet_positive S x ⟨i, hi, hne⟩
    have : Fem.bil (n + d - 2) (Fem.nonPeriodicMatrix d (n + d) (points (clampedKnots n b) d n rule)) x x = 0 := by
      unfold Fem.bil
      refine sum_eq_zero fun r hr => ?_
      have := hx r (mem_range.1 hr)
      simp only [mul_assoc]
      rw [← mul_sum, this, mul_zero]
    linarith) fun i => Fem.rhs d (n + d) (points (clampedKnots n b) d n rule) rho (i + 1)
  exact ⟨fun _ _ _ => x, hx⟩

/-- C114: the periodic system has a solution for every density. -/
theorem c114_periodic_solvable {d n k : ℕ} {b : ℕ → ℝ} (hd : 1 ≤ d) (hk : d ≤ k) (hn : 1 ≤ n) (hb : ∀ i < n, b i < b (i + 1)) {rule : ℕ → List (ℝ × ℝ)} (R : Rule n d k b rule) (rho : Fem.Pt → ℝ) :
    ∃ solve, SolvesPeriodic n d b rule rho solve := by
  have S := c114_periodic_space hd hk hn hb R
  obtain ⟨x, hx⟩ := solvable (n + 1) (Fem.periodicMatrix d n (points (periodicKnots n b) d n rule) (integrals n d b)) (fun x hx => Fem.c52_periodic_nonsingular S x hx) (Fem.rhs d n (points (periodicKnots n b) d n rule) rho)
  exact ⟨fun _ _ _ => x, hx⟩

/-- C114: the computed potential vanishes at both walls. -/
theorem c114_dirichlet_walls {d n : ℕ} {b : ℕ → ℝ} (hd : 1 ≤ d) (hn : 1 ≤ n) (hb : ∀ i < n, b i < b (i + 1)) (rule : ℕ → List (ℝ × ℝ)) (rho : Fem.Pt → ℝ) (solve : ℕ → Fem.Mat → (ℕ → ℝ) → ℕ → ℝ) (w : ℝ) :
    Fem.evalSpline d (pt (clampedKnots n b) d 0 (b 0, w)) (dirichletCoef n d b rule rho solve) = 0 ∧
      Fem.evalSpline d (pt (clampedKnots n b) d (n - 1) (b n, w)) (dirichletCoef n d b rule rho solve) = 0 := by
  have hc0 : dirichletCoef n d b rule rho solve 0 = 0 := by simp [dirichletCoef, Fem.solveNonPeriodic]
  have hc1 : dirichletCoef n d b rule rho solve (n + d - 1) = 0 := by simp [dirichletCoef, Fem.solveNonPeriodic]
  generalize dirichletCoef n d b rule rho solve = coef at hc0 hc1
  have hcell : ∀ q < n, clampedKnots n b q < clampedKnots n b ((q : ℤ) + 1) := by
    intro q hq
    rw [clamped_cell q (by omega), show (q : ℤ) + 1 = ((q + 1 : ℕ) : ℤ) by push_cast; ring, clamped_cell (q + 1) (by omega)]
    exact hb q hq
  have hval : ∀ q < n, ∀ xw : ℝ × ℝ, Fem.evalSpline d (pt (clampedKnots n b) d q xw) coef = (spl (clampedKnots n b) q d (along d coef)).eval xw.1 := by
    intro q hq xw
    rw [← value_pt (clampedKnots n b) d (n + d) q xw coef (along d coef) (along_eq d (n + d) q coef (by omega)), Fem.evalSpline, Fem.value]
    refine sum_congr rfl fun i hi => ?_
    have hi := mem_range.1 hi
    simp only [pt]
    rw [Nat.mod_eq_of_lt (by omega), add_comm]
  have tlow : ∀ i : ℤ, i ≤ 0 → clampedKnots n b i = b 0 := by
    intro i hi
    rw [clampedKnots, show min i.toNat n = 0 by omega]
  have thigh : ∀ i : ℤ, (n : ℤ) ≤ i → clampedKnots n b i = b n := by
    intro i hi
    rw [clampedKnots, show min i.toNat n = n by omega]
  constructor
  · rw [hval 0 (by omega)]
    have := spl_left (c := 0) (clamped_mono hb) (by have := hcell 0 (by omega); simpa using this) (fun i hi => by rw [tlow i hi, tlow 0 le_rfl]) d (along d coef)
    rw [tlow 0 le_rfl] at this
    simp only [Nat.cast_zero]
    rw [this, along, show ((0 : ℤ) - d + d).toNat = 0 by omega, hc0]
  · rw [hval (n - 1) (by omega)]
    have := spl_right (c := ((n - 1 : ℕ) : ℤ)) (clamped_mono hb) (hcell (n - 1) (by omega)) (fun i hi => by rw [thigh i (by omega), thigh _ (by omega)]) d (along d coef)
    rw [thigh _ (by omega)] at this
    simp only []
    rw [this, along, show (((n - 1 : ℕ) : ℤ) + d).toNat = n + d - 1 by omega, hc1]

/-- Why clamped B-splines are needed (`fem_1d_poisson_solver.hpp:106-114`): with uniform knots which are not repeated at the wall, a first coefficient of zero does not make the potential vanish there. -/
theorem c114_unclamped_wall : ∃ coef : ℕ → ℝ, coef 0 = 0 ∧ Fem.evalSpline 2 (pt (fun i => (i : ℝ)) 2 0 (0, 1)) coef ≠ 0 := by
  refine ⟨fun i => if i = 1 then 1 else 0, by simp, ?_⟩
  simp only [Fem.evalSpline, pt]
  rw [sum_range_succ, sum_range_succ, sum_range_one]
  simp [piece]

/-! ## A quadrature, and problems -/

theorem exact_of_monomials (a e : ℝ) (k : ℕ) (l : List (ℝ × ℝ)) (h : ∀ i ≤ k + 1, (l.map fun xw : ℝ × ℝ => xw.2 * ((i : ℝ) * xw.1 ^ (i - 1))).sum = e ^ i - a ^ i) (F : ℝ[X]) (hF : F.natDegree ≤ k + 1) :
    (l.map fun xw => xw.2 * (derivative F).eval xw.1).sum = F.eval e - F.eval a := by
  have hFs := F.as_sum_range_C_mul_X_pow' (Nat.lt_succ_of_le hF)
  have h1 : ∀ x : ℝ, F.eval x = ∑ i ∈ range (k + 2), F.coeff i * x ^ i := by
    intro x
    conv_lhs => rw [hFs]
    simp [eval_finsetSum]
  have h2 : ∀ x : ℝ, (derivative F).eval x = ∑ i ∈ range (k + 2), F.coeff i * (i * x ^ (i - 1)) := by
    intro x
    conv_lhs => rw [hFs]
    rw [derivative_sum, eval_finsetSum]
    refine sum_congr rfl fun i _ => ?_
    rw [derivative_C_mul_X_pow, eval_mul, eval_C, eval_pow, eval_X, mul_assoc]
  have h3 : ∀ l' : List (ℝ × ℝ), (l'.map fun xw => xw.2 * (derivative F).eval xw.1).sum = ∑ i ∈ range (k + 2), F.coeff i * (l'.map fun xw : ℝ × ℝ => xw.2 * ((i : ℝ) * xw.1 ^ (i - 1))).sum := by
    intro l'
    induction l' with
    | nil => simp
    | cons a l' ih =>
      simp only [List.map_cons, List.sum_cons, mul_add, sum_add_distrib]
      rw [ih, h2, mul_sum]
      rw [sum_congr rfl fun i _ => show a.2 * (F.coeff i * (i * a.1 ^ (i - 1))) = F.coeff i * (a.2 * (i * a.1 ^ (i - 1))) by ring]
  rw [h3, h1, h1, ← sum_sub_distrib]
  refine sum_congr rfl fun i hi => ?_
  rw [h i (by have := mem_range.1 hi; omega)]
  ring

/-- Boole's rule on `[a, e]`. -/
noncomputable def boole (a e : ℝ) : List (ℝ × ℝ) :=
  [(a, 7 * (e - a) / 90), ((3 * a + e) / 4, 32 * (e - a) / 90), ((a + e) / 2, 12 * (e - a) / 90), ((a + 3 * e) / 4, 32 * (e - a) / 90), (e, 7 * (e - a) / 90)]

/-- There is a quadrature as required, for splines of degree 2. -/
theorem boole_rule {n : ℕ} {b : ℕ → ℝ} (hb : ∀ i < n, b i < b (i + 1)) : Rule n 2 4 b fun q => boole (b q) (b (q + 1)) where
  distinct q hq := by
    have := hb q hq
    simp only [boole, List.map_cons, List.map_nil, List.nodup_cons, List.mem_cons, List.not_mem_nil, or_false, not_or, List.nodup_nil, not_false_eq_true, and_true]
    refine ⟨⟨?_, ?_, ?_, ?_⟩, ⟨?_, ?_, ?_⟩, ⟨?_, ?_⟩, ?_⟩ <;> intro h <;> linarith
  enough q _ := by simp [boole]
  weight q hq xw hx := by
    have := hb q hq
    simp only [boole, List.mem_cons, List.not_mem_nil, or_false] at hx
    rcases hx with rfl | rfl | rfl | rfl | rfl <;> simp only [] <;> linarith
  inside q hq xw hx := by
    have := hb q hq
    simp only [boole, List.mem_cons, List.not_mem_nil, or_false] at hx
    rcases hx with rfl | rfl | rfl | rfl | rfl <;> simp only [] <;> constructor <;> linarith
  exact q hq := exact_of_monomials _ _ _ _ fun i hi => by
    have h5 : i ≤ 5 := hi
    simp only [boole, List.map_cons, List.map_nil, List.sum_cons, List.sum_nil]
    interval_cases i <;> norm_num <;> ring

/-- A case which meets all the hypotheses of `c114_dirichlet_converges` and `c114_dirichlet_potential`: quadratic splines on the break points `0, 1, 4, 9`, uniform density. -/
example : (∀ i : ℕ, i < 3 → ((i : ℝ)) ^ 2 < ((i + 1 : ℕ) : ℝ) ^ 2) ∧ Rule 3 2 (2 * 2) (fun q => (q : ℝ) ^ 2) (fun q => boole ((q : ℝ) ^ 2) (((q + 1 : ℕ) : ℝ) ^ 2)) ∧
    Dirichlet 3 2 (fun q => (q : ℝ) ^ 2) (fun _ => 1) (fun x => x * (9 - x) / 2) (fun x => 9 / 2 - x) ∧
    ∃ solve, SolvesDirichlet 3 2 (fun q => (q : ℝ) ^ 2) (fun q => boole ((q : ℝ) ^ 2) (((q + 1 : ℕ) : ℝ) ^ 2)) (fun _ => 1) solve := by
  have hb : ∀ i : ℕ, i < 3 → ((i : ℝ)) ^ 2 < ((i + 1 : ℕ) : ℝ) ^ 2 := by
    intro i _
    push_cast
    have : (0 : ℝ) ≤ i := by positivity
    nlinarith
  have R := boole_rule (n := 3) (b := fun q => (q : ℝ) ^ 2) hb
  refine ⟨hb, R, ⟨fun q _ => ⟨1, by simp, fun x _ => by simp⟩, fun x _ => ?_, fun x _ => ?_, by norm_num, by norm_num⟩, c114_dirichlet_solvable (by norm_num) (by norm_num) hb R _⟩
  · have h := (((hasDerivAt_id x).mul ((hasDerivAt_id x).const_sub 9)).div_const 2).hasDerivWithinAt (s := Set.Icc (((0 : ℕ) : ℝ) ^ 2) (((3 : ℕ) : ℝ) ^ 2))
    refine (h.congr_deriv ?_)
    simp only [id]
    ring
  · exact ((hasDerivAt_id x).const_sub (9 / 2)).hasDerivWithinAt

/-- A continuous periodic function with mean zero has a periodic antiderivative. -/
theorem periodic_antiderivative (g : ℝ → ℝ) (L : ℝ) (hg : Continuous g) (hp : ∀ x, g (x + L) = g x) (h0 : ∫ x in (0 : ℝ)..L, g x = 0) :
    ∃ G : ℝ → ℝ, (∀ x, HasDerivAt G (g x) x) ∧ ∀ x, G (x + L) = G x := by
  refine ⟨fun x => ∫ y in (0 : ℝ)..x, g y, fun x => ?_, fun x => ?_⟩
  · exact intervalIntegral.integral_hasDerivAt_right (hg.intervalIntegrable _ _) (hg.stronglyMeasurableAtFilter _ _) hg.continuousAt
  · have h1 := Function.Periodic.intervalIntegral_add_eq (f := g) (T := L) hp x 0
    rw [zero_add, h0] at h1
    beta_reduce
    rw [← intervalIntegral.integral_add_adjacent_intervals (hg.intervalIntegrable 0 x) (hg.intervalIntegrable x (x + L)), h1, add_zero]

/-- C114: the periodic problem has a solution for every continuous periodic density. -/
theorem c114_periodic_problem {n d : ℕ} {b : ℕ → ℝ} (hL : 0 < b n - b 0) (ρ : ℝ → ℝ) (hc : Continuous ρ) (hp : ∀ x, ρ (x + (b n - b 0)) = ρ x)
    (hs : ∀ q < n, ∃ P : ℝ[X], P.natDegree ≤ d ∧ ∀ x ∈ Set.Icc (b q) (b (q + 1)), ρ x = P.eval x) : ∃ φ φ' : ℝ → ℝ, ∃ m : ℝ, Periodic n d b ρ φ φ' m := by
  have hmean : ∀ g : ℝ → ℝ, Continuous g → ∫ x in (0 : ℝ)..(b n - b 0), (g x - (∫ y in (0 : ℝ)..(b n - b 0), g y) / (b n - b 0)) = 0 := by
    intro g hg
    rw [intervalIntegral.integral_sub (hg.intervalIntegrable _ _) (intervalIntegrable_const), intervalIntegral.integral_const, sub_zero, smul_eq_mul, mul_div_cancel₀ _ hL.ne', sub_self]
  obtain ⟨G, hG1, hG2⟩ := periodic_antiderivative (fun x => ρ x - (∫ y in (0 : ℝ)..(b n - b 0), ρ y) / (b n - b 0)) (b n - b 0) (hc.sub continuous_const) (fun x => by rw [hp]) (hmean ρ hc)
  have hGc : Continuous fun x => -G x := (continuous_iff_continuousAt.2 fun x => (hG1 x).continuousAt).neg
  obtain ⟨φ, hφ1, hφ2⟩ := periodic_antiderivative (fun x => -G x - (∫ y in (0 : ℝ)..(b n - b 0), -G y) / (b n - b 0)) (b n - b 0) (hGc.sub continuous_const) (fun x => by rw [hG2]) (hmean _ hGc)
  exact ⟨φ, fun x => -G x - (∫ y in (0 : ℝ)..(b n - b 0), -G y) / (b n - b 0), (∫ y in (0 : ℝ)..(b n - b 0), ρ y) / (b n - b 0),
    hs, hφ1, fun x => (hG1 x).neg.sub_const _, hφ2⟩

/-- A case which meets all the hypotheses of `c114_periodic_converges`: quadratic splines, the density `f (1 - f)` of the fractional part `f` of the coordinate. -/
example : ∃ (φ φ' : ℝ → ℝ) (m : ℝ) (solve : _), Periodic 1 2 (fun q => (q : ℝ)) (fun x => Int.fract x * (1 - Int.fract x)) φ φ' m ∧
    Rule 1 2 (2 * 2) (fun q => (q : ℝ)) (fun q => boole (q : ℝ) ((q + 1 : ℕ) : ℝ)) ∧
    SolvesPeriodic 1 2 (fun q => (q : ℝ)) (fun q => boole (q : ℝ) ((q + 1 : ℕ) : ℝ)) (fun p => xOf (periodicKnots 1 fun q => (q : ℝ)) 2 p * (1 - xOf (periodicKnots 1 fun q => (q : ℝ)) 2 p)) solve := by
  have hb : ∀ i < 1, ((i : ℕ) : ℝ) < ((i + 1 : ℕ) : ℝ) := fun i _ => by push_cast; linarith
  have R := boole_rule (n := 1) (b := fun q => (q : ℝ)) hb
  obtain ⟨solve, hs⟩ := c114_periodic_solvable (k := 4) (by norm_num) (by norm_num) (by norm_num) hb R (fun p => xOf (periodicKnots 1 fun q => (q : ℝ)) 2 p * (1 - xOf (periodicKnots 1 fun q => (q : ℝ)) 2 p))
  have hcont : Continuous fun x : ℝ => Int.fract x * (1 - Int.fract x) := by
    have := ContinuousOn.comp_fract (s := fun x : ℝ => x) (f := fun (_ : ℝ) y => y * (1 - y)) (by fun_prop) continuous_id (fun _ => by norm_num)
    exact this
  obtain ⟨φ, φ', m, h⟩ := c114_periodic_problem (n := 1) (d := 2) (b := fun q => (q : ℝ)) (by norm_num) (fun x => Int.fract x * (1 - Int.fract x)) hcont (by intro x; simp) (by
    intro q hq
    obtain rfl : q = 0 := by omega
    refine ⟨X * (1 - X), ?_, fun x hx => ?_⟩
    · refine (natDegree_mul_le_of_le natDegree_X_le (natDegree_sub_le_of_le natDegree_one.le natDegree_X_le)).trans (by norm_num)
    · simp only [eval_mul, eval_X, eval_sub, eval_one]
      rcases eq_or_lt_of_le hx.2 with h1 | h1
      · simp at h1
        subst h1
        simp
      · rw [Int.fract_eq_self.2 ⟨by simpa using hx.1, by simpa using h1⟩])
  exact ⟨φ, φ', m, solve, h, R, hs⟩

end Verif.BSpline
