import Verif.Props.RkOrder
import Verif.Props.Timestepper
import Mathlib.Analysis.SpecialFunctions.ExpDeriv

/-!
# C93 (second part): order of convergence of `CrankNicolson`
-/

open Filter Asymptotics Topology

namespace Verif.RkOrder

open Verif.Timestepper Verif.Taylor

variable {E : Type*} [NormedAddCommGroup E] [NormedSpace ℝ E]

/-- `CrankNicolson` with the norm of the space for `norm_inf`. -/
noncomputable def cn (f : E → E) (mc : ℕ) (eps : ℝ) (u : E) (h : ℝ) : CNResult E :=
  crankNicolson defaultUpdate f (fun a b => ‖a - b‖) norm mc eps u h

/-- `k` passes through the loop body. -/
noncomputable def passes (f : E → E) (k : ℕ) (u : E) (h : ℝ) : E := (cnBody defaultUpdate f u (f u) h)^[k] u

theorem passes_succ (f : E → E) (k : ℕ) (u : E) (h : ℝ) : passes f (k + 1) u h = u + (h * (1 / 2)) • (f u + f (passes f k u h)) := by
  unfold passes
  rw [Function.iterate_succ_apply']
  have e5 : (0.5 : ℝ) * h = h * (1 / 2) := by norm_num; ring
  simp only [cnBody, defaultUpdate, e5]

theorem passes_one (f : E → E) (u : E) (h : ℝ) : passes f 1 u h = euler defaultUpdate f u h := by
  rw [passes_succ]
  simp only [passes, Function.iterate_zero, id, euler, defaultUpdate]
  module

/-- The loop returns the result of `counter` passes. -/
theorem cnLoop_iterate (f : E → E) (mc : ℕ) (eps : ℝ) (y0 : E) (k1 : E) (dt : ℝ) (c : ℕ) (u : E) :
    let r := cnLoop defaultUpdate f (fun a b => ‖a - b‖) norm mc eps y0 k1 dt c u
    c + 1 ≤ r.counter ∧ r.y = (cnBody defaultUpdate f y0 k1 dt)^[r.counter - c] u := by
  induction c, u using cnLoop.induct defaultUpdate f (fun a b => ‖a - b‖) norm mc eps y0 k1 dt with
  | case1 c y c' yo yn nc h ih =>
    rw [cnLoop]
    simp only [c', yo, yn, nc] at h ih
    simp only [h, if_true]
    obtain ⟨h1, h2⟩ := ih
    refine ⟨by omega, ?_⟩
    rw [h2, ← Function.iterate_succ_apply]
    congr 1
    omega
  | case2 c y c' yo yn nc h =>
    rw [cnLoop]
    simp only [c', yo, yn, nc] at h
    simp only [h]
    simp

theorem cn_passes (f : E → E) (mc : ℕ) (eps : ℝ) (u : E) (h : ℝ) :
    1 ≤ (cn f mc eps u h).counter ∧ (cn f mc eps u h).y = passes f (cn f mc eps u h).counter u h := by
  have := cnLoop_iterate f mc eps u (f u) h 0 u
  simpa [cn, crankNicolson, passes] using this

section ball

variable {f : E → E} {c : E} {r L M h : ℝ} (hL : 0 ≤ L) (hM : 0 ≤ M) (h0 : 0 ≤ h) (h3 : h * (3 * M) ≤ r / 2)
  (hlip : ∀ u, ‖u - c‖ ≤ r → ∀ v, ‖v - c‖ ≤ r → ‖f u - f v‖ ≤ L * ‖u - v‖) (hb : ∀ u, ‖u - c‖ ≤ r → ‖f u‖ ≤ M)
include hM h0 h3 hb

/-- All iterates stay in the ball and are at a distance of at most `h M` from the start. -/
theorem passes_near {u : E} (hu : ‖u - c‖ ≤ r / 2) (k : ℕ) : ‖passes f k u h - u‖ ≤ h * M ∧ ‖passes f k u h - c‖ ≤ r := by
  have hhM : 0 ≤ h * M := mul_nonneg h0 hM
  have hr : 0 ≤ r := by linarith [norm_nonneg (u - c)]
  have fin : ∀ w : E, ‖w - u‖ ≤ h * M → ‖w - c‖ ≤ r := fun w hw => by
    have := norm_sub_le_norm_sub_add_norm_sub w u c
    linarith
  induction k with
  | zero =>
    have : ‖passes f 0 u h - u‖ ≤ h * M := by simpa [passes] using hhM
    exact ⟨this, fin _ this⟩
  | succ k ih =>
    have : ‖passes f (k + 1) u h - u‖ ≤ h * M := by
      rw [passes_succ]
      have e : u + (h * (1 / 2)) • (f u + f (passes f k u h)) - u = (h * (1 / 2)) • (f u + f (passes f k u h)) := by abel
      rw [e, norm_smul, Real.norm_of_nonneg (by positivity)]
      have h1 := hb u (by linarith)
      have h2 := hb _ ih.2
      have h4 := (norm_add_le (f u) (f (passes f k u h)))
      have : ‖f u + f (passes f k u h)‖ ≤ 2 * M := by linarith
      have := mul_le_mul_of_nonneg_left this (by positivity : 0 ≤ h * (1 / 2))
      linarith
    exact ⟨this, fin _ this⟩

include hL hlip

/-- From the first pass on the iterates differ by `O(h²)`. -/
theorem passes_first {u : E} (hu : ‖u - c‖ ≤ r / 2) (k : ℕ) : ‖passes f (k + 1) u h - passes f 1 u h‖ ≤ L * M / 2 * h ^ 2 := by
  have hr : 0 ≤ r := by linarith [norm_nonneg (u - c)]
  have hk := passes_near hM h0 h3 hb hu k
  rw [passes_succ, passes_succ f 0]
  have e : u + (h * (1 / 2)) • (f u + f (passes f k u h)) - (u + (h * (1 / 2)) • (f u + f (passes f 0 u h))) = (h * (1 / 2)) • (f (passes f k u h) - f u) := by
    have : passes f 0 u h = u := rfl
    rw [this]; module
  rw [e, norm_smul, Real.norm_of_nonneg (by positivity)]
  have h1 := (hlip _ hk.2 u (by linarith)).trans (mul_le_mul_of_nonneg_left hk.1 hL)
  have := mul_le_mul_of_nonneg_left h1 (by positivity : 0 ≤ h * (1 / 2))
  calc _ ≤ h * (1 / 2) * (L * (h * M)) := this
    _ = L * M / 2 * h ^ 2 := by ring

/-- From the second pass on the iterates differ by `O(h³)`. -/
theorem passes_second {u : E} (hu : ‖u - c‖ ≤ r / 2) (k : ℕ) : ‖passes f (k + 2) u h - passes f 2 u h‖ ≤ L ^ 2 * M / 4 * h ^ 3 := by
  have hk := passes_near hM h0 h3 hb hu (k + 1)
  have h1 := passes_near hM h0 h3 hb hu 1
  have hf := passes_first hL hM h0 h3 hlip hb hu k
  rw [passes_succ, passes_succ f 1]
  have e : u + (h * (1 / 2)) • (f u + f (passes f (k + 1) u h)) - (u + (h * (1 / 2)) • (f u + f (passes f 1 u h))) = (h * (1 / 2)) • (f (passes f (k + 1) u h) - f (passes f 1 u h)) := by
    module
  rw [e, norm_smul, Real.norm_of_nonneg (by positivity)]
  have h2 := (hlip _ hk.2 _ h1.2).trans (mul_le_mul_of_nonneg_left hf hL)
  have := mul_le_mul_of_nonneg_left h2 (by positivity : 0 ≤ h * (1 / 2))
  calc _ ≤ h * (1 / 2) * (L * (L * M / 2 * h ^ 2)) := this
    _ = L ^ 2 * M / 4 * h ^ 3 := by ring

end ball

/-- Two passes are a stable step. -/
theorem two_passes_lip (f : E → E) : StepLip f (passes f 2) := by
  intro c r L M h hL h0 h1 hM hlip hb u hu v hv
  have hr : 0 ≤ r := by linarith [norm_nonneg (u - c)]
  have hM0 : 0 ≤ M := (norm_nonneg _).trans (hb u (by linarith))
  have k1 := hlip u (by linarith) v (by linarith)
  obtain ⟨d, hd⟩ : ∃ d, d = ‖u - v‖ := ⟨_, rfl⟩
  have hd0 : 0 ≤ d := hd ▸ norm_nonneg _
  rw [← hd] at k1 ⊢
  have nu := (passes_near (f := f) hM0 h0 hM hb hu 1).2
  have nv := (passes_near (f := f) hM0 h0 hM hb hv 1).2
  have e1 : ‖passes f 1 u h - passes f 1 v h‖ ≤ (1 + L) * d := by
    rw [passes_one, passes_one]
    have e : euler defaultUpdate f u h - euler defaultUpdate f v h = (u - v) + h • (f u - f v) := by simp only [euler, defaultUpdate]; module
    rw [e]
    refine (norm_add_le _ _).trans ?_
    rw [norm_smul, Real.norm_of_nonneg h0, ← hd]
    have : h * ‖f u - f v‖ ≤ 1 * (L * d) := mul_le_mul h1 k1 (norm_nonneg _) (by norm_num)
    linarith
  have k2 := (hlip _ nu _ nv).trans (mul_le_mul_of_nonneg_left e1 hL)
  have e : passes f 2 u h - passes f 2 v h = (u - v) + (h * (1 / 2)) • ((f u - f v) + (f (passes f 1 u h) - f (passes f 1 v h))) := by
    rw [passes_succ f 1, passes_succ f 1]; module
  rw [e]
  refine (norm_add_le _ _).trans ?_
  rw [norm_smul, Real.norm_of_nonneg (by positivity), ← hd]
  have hs : ‖(f u - f v) + (f (passes f 1 u h) - f (passes f 1 v h))‖ ≤ L * d + L * ((1 + L) * d) := (norm_add_le _ _).trans (add_le_add k1 k2)
  have hfin : 1 / 2 * (L * d + L * ((1 + L) * d)) ≤ lam L * d := by
    have h3 : 0 ≤ L * d ∧ 0 ≤ L * L * d ∧ 0 ≤ L * L * L * d ∧ 0 ≤ L * L * L * L * d := ⟨by positivity, by positivity, by positivity, by positivity⟩
    unfold lam
    nlinarith [h3.1, h3.2.1, h3.2.2.1, h3.2.2.2]
  have := mul_le_mul_of_nonneg_left ((mul_le_mul_of_nonneg_left hs (by norm_num : (0 : ℝ) ≤ 1 / 2)).trans hfin) h0
  linarith

/-- Two passes have a local error of `O(h³)`. -/
theorem two_passes_O {f : E → E} {y : ℝ → E} {T : ℝ} (hy : Solves f y T) (hf : ContDiff ℝ 2 f) :
    O (lf T) Prod.fst 3 fun p => passes f 2 (y p.2) p.1 - y (p.1 + p.2) := by
  have hT := tay2 hf fun t h0 h1 => (hy t h0 h1).continuousAt
  have h := exact3 (A := fun s => D f (y s)) (B := fun _ => 0) (C := fun _ => 0) hy hf.continuous hT le_rfl
  have hz : ∀ n, O (lf T) Prod.fst n fun _ : ℝ × ℝ => (0 : E) := fun n => isBigO_zero _ _
  have k2 := hT.comp (by norm_num) (by norm_num) (a := fun p => f (y p.2)) (b := fun _ => 0) (c := fun _ => 0) hT.f0 (hz 0) (hz 0)
    (D := fun p => p.1 • f (y p.2)) (by
      refine IsBigO.congr_left (hz 2) fun p => ?_
      module)
  have k2' := (k2.hsmul 1).csmul (1 / 2)
  refine IsBigO.congr_left (k2'.sub h) fun p => ?_
  rw [passes_succ, passes_one]
  simp only [euler, defaultUpdate, incr, map_zero, zero_apply]
  module

/-- **C93** `CrankNicolson`, whatever the tolerance and the maximum number of iterations: every step which goes at least twice through the loop has a local error `O(h³)`; a computation all of whose steps do so
is of order two. Without this condition the method is of order one. -/
theorem c93_crank_nicolson {f : E → E} {y : ℝ → E} {T : ℝ} (hf : ContDiff ℝ 2 f) (hy : Solves f y T) :
    (∃ K h0 : ℝ, 0 < h0 ∧ ∀ (mc : ℕ) (eps h : ℝ), 0 ≤ h → h ≤ h0 → ∀ n : ℕ, n * h ≤ T → ∀ u : ℕ → E, u 0 = y 0 →
      (∀ m < n, u (m + 1) = (cn f mc eps (u m) h).y) → (∀ m < n, 2 ≤ (cn f mc eps (u m) h).counter) → ‖u n - y (n * h)‖ ≤ K * h ^ 2) ∧
    (∃ K h0 : ℝ, 0 < h0 ∧ ∀ (mc : ℕ) (eps h : ℝ), 0 ≤ h → h ≤ h0 → ∀ n : ℕ, n * h ≤ T → ∀ u : ℕ → E, u 0 = y 0 →
      (∀ m < n, u (m + 1) = (cn f mc eps (u m) h).y) → ‖u n - y (n * h)‖ ≤ K * h ^ 1) := by
  constructor
  · obtain ⟨K, h0, hh0, hc⟩ := converges (Φ := passes f 2) (R := fun h u u' => ∃ k, u' = passes f (k + 2) u h) (Q := fun L M => L ^ 2 * M / 4) (p := 2)
      (by norm_num) hy (hf.of_le (by norm_num)) (two_passes_lip f)
      (by
        rintro c r L M h hL hM h0 _ h3 hlip hb u u' hu ⟨k, rfl⟩
        exact passes_second hL hM h0 h3 hlip hb hu k)
      (fun L M _ hM => by positivity) (two_passes_O hy hf)
    refine ⟨K, h0, hh0, fun mc eps h hh hle n hn u hu0 hu hcount => hc h hh hle n hn u hu0 fun m hm => ?_⟩
    refine ⟨(cn f mc eps (u m) h).counter - 2, ?_⟩
    rw [hu m hm, Nat.sub_add_cancel (hcount m hm)]
    exact (cn_passes f mc eps (u m) h).2
  · obtain ⟨K, h0, hh0, hc⟩ := converges (Φ := euler defaultUpdate f) (R := fun h u u' => ∃ k, u' = passes f (k + 1) u h) (Q := fun L M => L * M / 2) (p := 1)
      le_rfl hy (hf.of_le (by norm_num)) (euler_lip f)
      (by
        rintro c r L M h hL hM h0 _ h3 hlip hb u u' hu ⟨k, rfl⟩
        rw [← passes_one]
        exact passes_first hL hM h0 h3 hlip hb hu k)
      (fun L M _ hM => by positivity) (euler_O hy (hf.of_le (by norm_num)))
    refine ⟨K, h0, hh0, fun mc eps h hh hle n hn u hu0 hu => hc h hh hle n hn u hu0 fun m hm => ?_⟩
    have := cn_passes f mc eps (u m) h
    refine ⟨(cn f mc eps (u m) h).counter - 1, ?_⟩
    rw [hu m hm, Nat.sub_add_cancel this.1]
    exact this.2

/-- **C93** The stopping test compares the first iterate with the starting point: for small steps, `h ‖f(u)‖ < ε ‖u‖`, the loop is left after one pass and the step *is* the explicit Euler step. -/
theorem c93_cn_small_steps_are_euler (f : E → E) (mc : ℕ) (eps : ℝ) (u : E) (hu : u ≠ 0) (h : ℝ) (h0 : 0 ≤ h) (hs : h * ‖f u‖ < eps * ‖u‖) :
    (cn f mc eps u h).counter = 1 ∧ (cn f mc eps u h).y = euler defaultUpdate f u h := by
  have hb : cnBody defaultUpdate f u (f u) h u = u + h • f u := by
    simp only [cnBody, defaultUpdate]
    have e5 : (0.5 : ℝ) = 1 / 2 := by norm_num
    rw [e5]; module
  have hnu : 0 < ‖u‖ := norm_pos_iff.2 hu
  have hnc : notConverged ‖u - (u + h • f u)‖ ‖u‖ eps = false := by
    unfold notConverged
    rw [if_neg hnu.ne']
    have : ‖u - (u + h • f u)‖ = h * ‖f u‖ := by
      rw [sub_add_cancel_left, norm_neg, norm_smul, Real.norm_of_nonneg h0]
    rw [this, decide_eq_false_iff_not, not_le, div_lt_iff₀ hnu]
    exact hs
  unfold cn crankNicolson
  rw [cnLoop]
  simp only [hb, hnc, Bool.false_and, Bool.false_eq_true, if_false]
  exact ⟨trivial, rfl⟩

/-- **C93** Hence, for every tolerance `ε > 0` and every maximum number of iterations, `CrankNicolson` is not of order two: for `y' = y` the error of one step is not `O(h³)`. -/
theorem c93_cn_not_second_order (mc : ℕ) (eps : ℝ) (heps : 0 < eps) (T : ℝ) (hT : 0 < T) :
    Solves (fun x : ℝ => x) Real.exp T ∧ ¬ LocalOrder (fun u h => (cn (fun x : ℝ => x) mc eps u h).y) Real.exp T 2 := by
  refine ⟨fun t _ _ => Real.hasDerivAt_exp t, ?_⟩
  rintro ⟨K, h0, hh0, hb⟩
  obtain ⟨h, hh⟩ : ∃ h, h = min (min h0 T) (min (eps / 2) (1 / (2 * (|K| + 1)))) := ⟨_, rfl⟩
  have hpos : 0 < h := by rw [hh]; positivity
  have l1 : h ≤ h0 := hh ▸ (min_le_left _ _).trans (min_le_left _ _)
  have l2 : h ≤ T := hh ▸ (min_le_left _ _).trans (min_le_right _ _)
  have l3 : h ≤ eps / 2 := hh ▸ (min_le_right _ _).trans (min_le_left _ _)
  have l4 : h ≤ 1 / (2 * (|K| + 1)) := hh ▸ (min_le_right _ _).trans (min_le_right _ _)
  have b := hb h 0 hpos.le l1 le_rfl (by linarith)
  have e := (c93_cn_small_steps_are_euler (fun x : ℝ => x) mc eps (Real.exp 0) (Real.exp_pos 0).ne' h hpos.le (by simp; linarith)).2
  simp only [zero_add] at b
  rw [e] at b
  simp only [euler, defaultUpdate, Real.exp_zero, smul_eq_mul, mul_one] at b
  have hexp := Real.quadratic_le_exp_of_nonneg hpos.le
  rw [Real.norm_eq_abs] at b
  have b' : h ^ 2 / 2 ≤ K * h ^ (2 + 1) := by
    refine le_trans ?_ b
    have := neg_abs_le (1 + h - Real.exp h)
    linarith
  have hK : K * h ≤ |K| * h := mul_le_mul_of_nonneg_right (le_abs_self K) hpos.le
  rw [le_div_iff₀ (by positivity)] at l4
  have h2 : 0 < h ^ 2 := by positivity
  have : 1 / 2 ≤ K * h := by
    have e3 : K * h ^ (2 + 1) = K * h * h ^ 2 := by ring
    rw [e3] at b'
    by_contra hc
    push Not at hc
    have := mul_lt_mul_of_pos_right hc h2
    linarith
  linarith

/-- Instance: with two passes forced by a zero tolerance the counter condition holds. -/
example : 2 ≤ (cn (fun x : ℝ => x) 2 0 1 1).counter := by
  unfold cn crankNicolson
  rw [cnLoop]
  have hn : notConverged ‖(1 : ℝ) - cnBody defaultUpdate (fun x : ℝ => x) 1 1 1 1‖ ‖(1 : ℝ)‖ 0 = true := by
    simp only [notConverged, cnBody, defaultUpdate]
    norm_num
  simp only [hn]
  have := (cnLoop_iterate (fun x : ℝ => x) 2 0 1 1 1 1 (cnBody defaultUpdate (fun x : ℝ => x) 1 1 1 1)).1
  simpa using this

end Verif.RkOrder
