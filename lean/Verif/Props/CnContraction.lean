import Verif.Props.Timestepper
import Mathlib.Topology.MetricSpace.Contracting
import Mathlib.Analysis.SpecificLimits.Basic
import Mathlib.Tactic.Positivity

/-!
# C07: the fixed point iteration of Crank-Nicolson converges for small steps
-/

namespace Verif.Timestepper
open Verif.Spec.Timestepper

variable {E : Type*} [NormedAddCommGroup E] [NormedSpace ℝ E]

/-- The result of the loop, in terms of the iterates of the body. -/
theorem cnLoop_iterates {Y K : Type*} [AddCommGroup K] (upd : Y → K → ℝ → Y) (f : Y → K) (errNorm : Y → Y → ℝ) (norm : Y → ℝ) (mc : ℕ) (eps : ℝ) (y0 : Y) (k1 : K) (dt : ℝ) (c : ℕ) (y : Y) :
    ∃ k, (cnLoop upd f errNorm norm mc eps y0 k1 dt c y).counter = c + (k + 1) ∧ (cnLoop upd f errNorm norm mc eps y0 k1 dt c y).y = (cnBody upd f y0 k1 dt)^[k + 1] y ∧
      ∀ l < k, notConverged (errNorm ((cnBody upd f y0 k1 dt)^[l] y) ((cnBody upd f y0 k1 dt)^[l + 1] y)) (norm ((cnBody upd f y0 k1 dt)^[l] y)) eps = true := by
  induction c, y using cnLoop.induct upd f errNorm norm mc eps y0 k1 dt with
  | case1 c y c' yo yn nc h ih =>
    rw [cnLoop]
    simp only [c', yo, yn, nc] at h ih
    simp only [h, if_true]
    obtain ⟨k, h1, h2, h3⟩ := ih
    refine ⟨k + 1, by rw [h1]; omega, by rw [h2, ← Function.iterate_succ_apply], fun l hl => ?_⟩
    rcases l with _ | l
    · simp only [Bool.and_eq_true] at h
      exact h.1
    · simpa only [Function.iterate_succ_apply] using h3 l (by omega)
  | case2 c y c' yo yn nc h =>
    rw [cnLoop]
    simp only [c', yo, yn, nc] at h
    simp only [h]
    exact ⟨0, rfl, rfl, fun l hl => absurd hl (by omega)⟩

/-- `CrankNicolson::update` on a normed space. -/
noncomputable abbrev cnNorm (f : E → E) (mc : ℕ) (eps : ℝ) (y : E) (dt : ℝ) : CNResult E := crankNicolson defaultUpdate f (fun a b => ‖a - b‖) (fun a => ‖a‖) mc eps y dt

theorem body_eq (f : E → E) (y0 : E) (dt : ℝ) (z : E) : cnBody defaultUpdate f y0 (f y0) dt z = y0 + (dt / 2) • (f y0 + f z) := by
  simp only [cnBody, defaultUpdate]
  congr 2
  ring

theorem body_lipschitz (f : E → E) (Lip : ℝ) (hLip : ∀ a b, ‖f a - f b‖ ≤ Lip * ‖a - b‖) (y0 : E) (dt : ℝ) (a b : E) :
    ‖cnBody defaultUpdate f y0 (f y0) dt a - cnBody defaultUpdate f y0 (f y0) dt b‖ ≤ |dt| / 2 * Lip * ‖a - b‖ := by
  have e : cnBody defaultUpdate f y0 (f y0) dt a - cnBody defaultUpdate f y0 (f y0) dt b = (dt / 2) • (f a - f b) := by
    rw [body_eq, body_eq]; module
  rw [e, norm_smul, Real.norm_eq_abs, abs_div, abs_two, mul_assoc]
  exact mul_le_mul_of_nonneg_left (hLip a b) (by positivity)

theorem iterate_near {G : E → E} {q : ℝ} (hq : 0 ≤ q) (hG : ∀ a b, ‖G a - G b‖ ≤ q * ‖a - b‖) (k : ℕ) (a b : E) : ‖G^[k] a - G^[k] b‖ ≤ q ^ k * ‖a - b‖ := by
  induction k with
  | zero => simp
  | succ k ih =>
    rw [Function.iterate_succ_apply', Function.iterate_succ_apply', pow_succ]
    calc _ ≤ q * ‖G^[k] a - G^[k] b‖ := hG _ _
      _ ≤ q * (q ^ k * ‖a - b‖) := mul_le_mul_of_nonneg_left ih hq
      _ = _ := by ring

/-- C07, convergence: let the derivative be Lipschitz and `q = |dt| / 2 * Lip < 1`. The Crank-Nicolson equation has exactly one solution. Every pass through the loop reduces the distance to it by the factor `q`; and after an exit
by convergence this distance is at most `q / (1 - q) * eps * ‖yOld‖`. -/
theorem c07_contraction [CompleteSpace E] (f : E → E) (Lip : ℝ) (hLip : ∀ a b, ‖f a - f b‖ ≤ Lip * ‖a - b‖) (hL0 : 0 ≤ Lip) (y0 : E) (dt : ℝ) (hq : |dt| / 2 * Lip < 1) :
    ∃ s, IsCNSolution f y0 dt s ∧ (∀ z, IsCNSolution f y0 dt z → z = s) ∧ ∀ (mc : ℕ) (eps : ℝ),
      ‖(cnNorm f mc eps y0 dt).y - s‖ ≤ (|dt| / 2 * Lip) ^ (cnNorm f mc eps y0 dt).counter * ‖y0 - s‖ ∧
      (0 ≤ eps → (cnNorm f mc eps y0 dt).counter < mc → ‖(cnNorm f mc eps y0 dt).y - s‖ ≤ |dt| / 2 * Lip / (1 - |dt| / 2 * Lip) * (eps * ‖(cnNorm f mc eps y0 dt).yOld‖)) := by
  obtain ⟨q, hqd⟩ : ∃ q, q = |dt| / 2 * Lip := ⟨_, rfl⟩
  have hq0 : 0 ≤ q := by rw [hqd]; positivity
  obtain ⟨G, hG⟩ : ∃ G : E → E, G = cnBody defaultUpdate f y0 (f y0) dt := ⟨_, rfl⟩
  have hlip : ∀ a b, ‖G a - G b‖ ≤ q * ‖a - b‖ := by
    intro a b
    rw [hG, hqd]
    exact body_lipschitz f Lip hLip y0 dt a b
  have hsol : ∀ z, IsCNSolution f y0 dt z ↔ z = G z := fun z => by rw [hG, body_eq]; rfl
  rw [← hqd] at hq ⊢
  have hc : ContractingWith ⟨q, hq0⟩ G := by
    refine ⟨by exact_mod_cast hq, LipschitzWith.of_dist_le_mul fun a b => ?_⟩
    rw [dist_eq_norm, dist_eq_norm]
    exact hlip a b
  have hfix : G (ContractingWith.fixedPoint G hc) = ContractingWith.fixedPoint G hc := hc.fixedPoint_isFixedPt
  generalize ContractingWith.fixedPoint G hc = s at hfix
  have huniq : ∀ z, z = G z → z = s := by
    intro z hz
    have := hlip z s
    rw [← hz, hfix] at this
    have h0 : ‖z - s‖ = 0 := le_antisymm (by nlinarith [norm_nonneg (z - s)]) (norm_nonneg _)
    exact sub_eq_zero.1 (norm_eq_zero.1 h0)
  refine ⟨s, (hsol s).2 hfix.symm, fun z hz => huniq z ((hsol z).1 hz), fun mc eps => ⟨?_, fun heps hlt => ?_⟩⟩
  · obtain ⟨k, h1, h2, _⟩ := cnLoop_iterates defaultUpdate f (fun a b => ‖a - b‖) (fun a => ‖a‖) mc eps y0 (f y0) dt 0 y0
    rw [← hG] at h2
    have h3 := iterate_near hq0 hlip (k + 1) y0 s
    rw [Function.iterate_fixed hfix] at h3
    change (cnNorm f mc eps y0 dt).counter = _ at h1
    change (cnNorm f mc eps y0 dt).y = _ at h2
    rw [h1, h2, zero_add]
    exact h3
  · have h1 := (c07_fixed_point f (fun a b => ‖a - b‖) (fun a => ‖a‖) mc eps y0 dt).1
    have h2 := c07_converged_meaning defaultUpdate f (fun a b => ‖a - b‖) (fun a => ‖a‖) mc eps y0 dt hlt
    change (cnNorm f mc eps y0 dt).y = _ at h1
    change (‖(cnNorm f mc eps y0 dt).yOld‖ ≠ 0 ∧ ‖(cnNorm f mc eps y0 dt).yOld - (cnNorm f mc eps y0 dt).y‖ / ‖(cnNorm f mc eps y0 dt).yOld‖ < eps) ∨
      (‖(cnNorm f mc eps y0 dt).yOld‖ = 0 ∧ ‖(cnNorm f mc eps y0 dt).yOld - (cnNorm f mc eps y0 dt).y‖ = 0) at h2
    rw [← body_eq, ← hG] at h1
    generalize (cnNorm f mc eps y0 dt).y = r at *
    generalize (cnNorm f mc eps y0 dt).yOld = p at *
    have h3 : ‖p - r‖ ≤ eps * ‖p‖ := by
      rcases h2 with ⟨hn, hl⟩ | ⟨hn, hl⟩
      · have hpos : 0 < ‖p‖ := lt_of_le_of_ne (norm_nonneg _) (Ne.symm hn)
        exact le_of_lt ((div_lt_iff₀ hpos).1 hl)
      · rw [hl]; exact mul_nonneg heps (norm_nonneg _)
    have h4 := hlip p s
    rw [← h1, hfix] at h4
    have h5 : ‖p - s‖ ≤ ‖p - r‖ + ‖r - s‖ := norm_sub_le_norm_sub_add_norm_sub p r s
    have h6 : (1 - q) * ‖r - s‖ ≤ q * (eps * ‖p‖) := by nlinarith
    rw [div_mul_eq_mul_div, le_div_iff₀ (by linarith), mul_comm]
    exact h6

/-- C07, the loop is left by convergence: under the same condition, for every positive tolerance, if the solution is not zero, there is a number of passes that is never exceeded, whatever the limit `max_counter`. -/
theorem c07_converges (f : E → E) (Lip : ℝ) (hLip : ∀ a b, ‖f a - f b‖ ≤ Lip * ‖a - b‖) (hL0 : 0 ≤ Lip) (y0 : E) (dt : ℝ) (hq : |dt| / 2 * Lip < 1) (s : E) (hs : IsCNSolution f y0 dt s)
    (hs0 : s ≠ 0) (eps : ℝ) (heps : 0 < eps) : ∃ N, ∀ mc, (cnNorm f mc eps y0 dt).counter ≤ N := by
  obtain ⟨q, hqd⟩ : ∃ q, q = |dt| / 2 * Lip := ⟨_, rfl⟩
  have hq0 : 0 ≤ q := by rw [hqd]; positivity
  obtain ⟨G, hG⟩ : ∃ G : E → E, G = cnBody defaultUpdate f y0 (f y0) dt := ⟨_, rfl⟩
  have hlip : ∀ a b, ‖G a - G b‖ ≤ q * ‖a - b‖ := by
    intro a b
    rw [hG, hqd]
    exact body_lipschitz f Lip hLip y0 dt a b
  have hfix : G s = s := by rw [hG, body_eq]; exact hs.symm
  rw [← hqd] at hq
  have hspos : 0 < ‖s‖ := norm_pos_iff.2 hs0
  obtain ⟨D, hD⟩ : ∃ D, D = ‖y0 - s‖ + ‖y0 - G y0‖ + 1 := ⟨_, rfl⟩
  have hDpos : 0 < D := by rw [hD]; positivity
  obtain ⟨η, hη⟩ : ∃ η, η = min (‖s‖ / 2) (eps * ‖s‖ / 4) / D := ⟨_, rfl⟩
  have hηpos : 0 < η := by rw [hη]; positivity
  obtain ⟨k, hk⟩ := exists_pow_lt_of_lt_one hηpos hq
  have hkD : q ^ k * D < min (‖s‖ / 2) (eps * ‖s‖ / 4) := by
    rw [hη, lt_div_iff₀ hDpos] at hk
    exact hk
  have h1 : ‖G^[k] y0 - s‖ ≤ q ^ k * D := by
    have := iterate_near hq0 hlip k y0 s
    rw [Function.iterate_fixed hfix] at this
    refine this.trans (mul_le_mul_of_nonneg_left ?_ (pow_nonneg hq0 _))
    rw [hD]; linarith [norm_nonneg (y0 - G y0)]
  have h2 : ‖G^[k] y0 - G^[k + 1] y0‖ ≤ q ^ k * D := by
    have := iterate_near hq0 hlip k y0 (G y0)
    rw [← Function.iterate_succ_apply] at this
    refine this.trans (mul_le_mul_of_nonneg_left ?_ (pow_nonneg hq0 _))
    rw [hD]; linarith [norm_nonneg (y0 - s)]
  have h3 : ‖s‖ / 2 < ‖G^[k] y0‖ := by
    have h4 : ‖s‖ ≤ ‖G^[k] y0‖ + ‖G^[k] y0 - s‖ := by
      have := norm_sub_norm_le s (G^[k] y0)
      rw [norm_sub_rev] at this
      linarith
    have := min_le_left (‖s‖ / 2) (eps * ‖s‖ / 4)
    linarith
  have htest : notConverged ‖G^[k] y0 - G^[k + 1] y0‖ ‖G^[k] y0‖ eps = false := by
    unfold notConverged
    have hpos : 0 < ‖G^[k] y0‖ := by linarith
    rw [if_neg hpos.ne', decide_eq_false_iff_not, not_le, div_lt_iff₀ hpos]
    have := min_le_right (‖s‖ / 2) (eps * ‖s‖ / 4)
    nlinarith
  refine ⟨k + 1, fun mc => ?_⟩
  obtain ⟨l, e1, _, e3⟩ := cnLoop_iterates defaultUpdate f (fun a b => ‖a - b‖) (fun a => ‖a‖) mc eps y0 (f y0) dt 0 y0
  change (cnNorm f mc eps y0 dt).counter = _ at e1
  rw [e1]
  by_contra hcon
  have := e3 k (by omega)
  rw [← hG] at this
  rw [htest] at this
  exact Bool.noConfusion this

/-- C07, the limit of the previous theorems: with a time step twice the inverse of the Lipschitz constant (`q = 1`: `y' = - 2 y`, `dt = 1`) the loop uses all the passes it is allowed, whatever their number and every tolerance up to 2,
and returns `± 1`, although the equation has the solution 0. -/
theorem c07_large_step (mc : ℕ) (eps : ℝ) (heps : eps ≤ 2) :
    IsCNSolution (fun y : ℝ => -2 * y) 1 1 0 ∧ (cnNorm (fun y : ℝ => -2 * y) mc eps 1 1).counter = max 1 mc ∧ |(cnNorm (fun y : ℝ => -2 * y) mc eps 1 1).y| = 1 := by
  obtain ⟨f, hf⟩ : ∃ f : ℝ → ℝ, f = fun y => -2 * y := ⟨_, rfl⟩
  rw [← hf]
  have hbody : ∀ z, cnBody defaultUpdate f 1 (f 1) 1 z = -z := by
    intro z
    rw [body_eq, hf, smul_eq_mul]
    ring
  have hy : |(cnNorm f mc eps 1 1).y| = 1 :=
    cnLoop_invariant defaultUpdate f (fun a b => ‖a - b‖) (fun a => ‖a‖) mc eps 1 (f 1) 1 (fun z => |z| = 1) (fun z hz => by rw [hbody, abs_neg]; exact hz) 0 1 (by norm_num)
  refine ⟨?_, ?_, hy⟩
  · unfold IsCNSolution
    rw [hf, smul_eq_mul]
    norm_num
  · have hcount := c07_iteration_count (Y := ℝ) defaultUpdate f (fun a b => ‖a - b‖) (fun a => ‖a‖) mc eps 1 1
    change 1 ≤ (cnNorm f mc eps 1 1).counter ∧ (cnNorm f mc eps 1 1).counter ≤ _ at hcount
    by_contra hne
    have hlt : (cnNorm f mc eps 1 1).counter < mc := by omega
    have h1 := (c07_fixed_point f (fun a b => ‖a - b‖) (fun a => ‖a‖) mc eps 1 1).1
    have h2 := c07_converged_meaning defaultUpdate f (fun a b => ‖a - b‖) (fun a => ‖a‖) mc eps 1 1 hlt
    change (cnNorm f mc eps 1 1).y = _ at h1
    change (‖(cnNorm f mc eps 1 1).yOld‖ ≠ 0 ∧ ‖(cnNorm f mc eps 1 1).yOld - (cnNorm f mc eps 1 1).y‖ / ‖(cnNorm f mc eps 1 1).yOld‖ < eps) ∨
      (‖(cnNorm f mc eps 1 1).yOld‖ = 0 ∧ ‖(cnNorm f mc eps 1 1).yOld - (cnNorm f mc eps 1 1).y‖ = 0) at h2
    rw [← body_eq, hbody] at h1
    rw [h1, abs_neg] at hy
    simp only [Real.norm_eq_abs] at h2
    rw [h1, hy] at h2
    rcases h2 with ⟨_, h⟩ | ⟨h, _⟩
    · rw [sub_neg_eq_add, ← two_mul, abs_mul, hy, abs_two] at h
      linarith
    · norm_num at h

/-- The hypotheses hold for `y' = y`, `dt = 1` from `y = 1`: the solution is `3`. -/
example : ∃ N, ∀ mc, (cnNorm (fun y : ℝ => y) mc (1 / 100) 1 1).counter ≤ N :=
  c07_converges (fun y : ℝ => y) 1 (fun a b => by rw [one_mul]) zero_le_one 1 1 (by norm_num) 3 (by unfold IsCNSolution; norm_num) (by norm_num) (1 / 100) (by norm_num)

example : ∃ s, IsCNSolution (fun y : ℝ => y) 1 1 s := by
  obtain ⟨s, hs, _⟩ := c07_contraction (fun y : ℝ => y) 1 (fun a b => by rw [one_mul]) zero_le_one 1 1 (by norm_num)
  exact ⟨s, hs⟩

end Verif.Timestepper
