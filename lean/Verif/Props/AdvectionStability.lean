import Verif.Props.AccuracyAdvection
import Verif.Props.Strang

/-! Property C99: the semi-Lagrangian advection in space with uniform periodic Lagrange interpolation of any degree does not increase the mean square of any line, whatever the displacement,
and converges with the order of the interpolation. -/

namespace Verif.AdvectionStability

open Finset Verif.Simulation Verif.AccuracyLagrange Verif.AccuracyAdvection Verif.LagrangeEvaluator Verif.Lagrange Verif.Strang

section
variable (eps : ℝ) (heps : 0 ≤ eps) (heps1 : eps < 1 / 2) (D N : ℕ) (hD : 0 < D) (hDN : D < N) (x0 dx : ℝ) (hdx : 0 < dx)

include heps heps1 hD in
/-- The point handed to the basis, snapped to a node or not, stays in the middle of the stencil. -/
theorem stencil_weights (τ : ℝ) (m : ℤ) (hm : m = if D % 2 = 1 then ⌊τ⌋ else ⌊τ + 1 / 2⌋) :
    ∃ y, Central D y ∧ ∀ j ≤ D, evalBasisU eps D 0 1 (τ - m + (D / 2 : ℕ)) j = weight D y j := by
  have hnodes : uniformNodes 0 1 = fun i : ℕ => (i : ℝ) := by funext i; simp [uniformNodes]
  rcases Nat.mod_two_eq_zero_or_one D with h | h
  · obtain ⟨d, rfl⟩ : ∃ d, D = 2 * d := ⟨D / 2, by omega⟩
    rw [if_neg (by omega)] at hm
    have e2 : 2 * d / 2 = d := by omega
    rw [e2]
    have h0 : -(1 / 2) ≤ τ - m := by have := Int.floor_le (τ + 1 / 2); rw [hm]; linarith
    have h1 : τ - m ≤ 1 / 2 := by have := Int.lt_floor_add_one (τ + 1 / 2); rw [hm]; linarith
    have hd1 : (1 : ℝ) ≤ d := by exact_mod_cast (by omega : 1 ≤ d)
    obtain ⟨y, hy, hv⟩ := c17_values_uniform eps heps heps1 (2 * d) 0 1 (τ - m + d) 0 false one_pos (τ - m + d) (by simp) (by linarith)
      (by simp only [uniformNodes]; push_cast; linarith)
    refine ⟨y, ?_, fun j hj => ?_⟩
    · unfold Central
      rw [if_neg (by omega)]
      push_cast
      rcases hy with rfl | ⟨i, hi, rfl, hdist⟩
      · rw [abs_le]; constructor <;> linarith
      · simp only [uniformNodes, zero_add, mul_one] at hdist ⊢
        rw [abs_le] at hdist ⊢
        constructor <;> linarith [hdist.1, hdist.2]
    · rw [weight, ← hnodes, ← hv j hj]
      simp [evalBasisUniform]
  · obtain ⟨d, rfl⟩ : ∃ d, D = 2 * d + 1 := ⟨D / 2, by omega⟩
    rw [if_pos h] at hm
    have e2 : (2 * d + 1) / 2 = d := by omega
    rw [e2]
    have h0 : 0 ≤ τ - m := by have := Int.floor_le τ; rw [hm]; linarith
    have h1 : τ - m ≤ 1 := by have := Int.lt_floor_add_one τ; rw [hm]; linarith
    have hd1 : (0 : ℝ) ≤ d := Nat.cast_nonneg d
    obtain ⟨y, hy, hv⟩ := c17_values_uniform eps heps heps1 (2 * d + 1) 0 1 (τ - m + d) 0 false one_pos (τ - m + d) (by simp) (by linarith)
      (by simp only [uniformNodes]; push_cast; linarith)
    refine ⟨y, ?_, fun j hj => ?_⟩
    · unfold Central
      rw [if_pos h]
      push_cast
      rcases hy with rfl | ⟨i, hi, rfl, hdist⟩
      · rw [abs_le]; constructor <;> linarith
      · simp only [uniformNodes, zero_add, mul_one] at hdist ⊢
        rw [abs_le] at hdist ⊢
        have a : (d : ℝ) < i + 1 := by linarith [hdist.1, hdist.2]
        have b : (i : ℝ) < d + 2 := by linarith [hdist.1, hdist.2]
        have a' : d ≤ i := by
          have : d < i + 1 := by exact_mod_cast a
          omega
        have b' : i ≤ d + 1 := by
          have : i < d + 2 := by exact_mod_cast b
          omega
        have a'' : (d : ℝ) ≤ i := by exact_mod_cast a'
        have b'' : (i : ℝ) ≤ d + 1 := by exact_mod_cast b'
        constructor <;> linarith
    · rw [weight, ← hnodes, ← hv j hj]
      simp [evalBasisUniform]

include heps heps1 hD hDN hdx in
/-- The displaced line is made of the same weights everywhere. -/
theorem lagrange_form (δ : ℝ) : ∃ (y : ℝ) (c : ZMod N), Central D y ∧ ∀ (v : ZMod N → ℝ) (i : ZMod N),
    (lagrangeLine eps D N x0 dx).eval (periodicCoord N x0 dx i - δ) ((lagrangeLine eps D N x0 dx).build v) = ∑ j ∈ range (D + 1), weight D y j * v (i + c + j) := by
  have : NeZero N := ⟨by omega⟩
  obtain ⟨m, hm⟩ : ∃ m, m = centre D x0 dx (periodicCoord N x0 dx 0 - δ) := ⟨_, rfl⟩
  obtain ⟨τ, hτ⟩ : ∃ τ, τ = (periodicCoord N x0 dx 0 - δ - x0) / dx := ⟨_, rfl⟩
  obtain ⟨y, hy, hw⟩ := stencil_weights eps heps heps1 D hD τ m (by rw [hm, hτ]; unfold centre; rcases Nat.mod_two_eq_zero_or_one D with h | h <;> simp [h])
  refine ⟨y, ((m - (D / 2 : ℕ) : ℤ) : ZMod N), hy, fun v i => ?_⟩
  have hs := lagrange_shift eps D N hD hDN x0 dx hdx (fun j => v (j + i)) i 0 δ
  rw [zero_add] at hs
  simp only [sub_add_cancel] at hs
  rw [hs, lagrange_closed eps D N hD hDN x0 dx hdx, ← hm, ← hτ]
  refine sum_congr rfl fun j hj => ?_
  rw [hw j (by have := mem_range.1 hj; omega), mul_comm]
  congr 2
  push_cast
  ring

include heps heps1 hD hDN hdx in
/-- **C99 (stability)** With Lagrange interpolation of any degree below the number of points, the mean square of every line of the distribution function does not increase, for every time step,
every mass and every velocity. -/
theorem c99_stable [NeZero N] {nv : ℕ} (P : Plasma nv) (f : ℕ → ZMod N → Fin nv → ℝ) (dt : ℝ) (s : ℕ) (v : Fin nv) :
    ∑ x, advX P (lagrangeLine eps D N x0 dx) (periodicCoord N x0 dx) f dt s x v ^ 2 ≤ ∑ x, f s x v ^ 2 := by
  obtain ⟨y, c, hy, hform⟩ := lagrange_form eps heps heps1 D N hD hDN x0 dx hdx (displacement P dt s v)
  have hadv : ∀ x, advX P (lagrangeLine eps D N x0 dx) (periodicCoord N x0 dx) f dt s x v = ∑ j ∈ range (D + 1), weight D y j * f s (x + c + j) v :=
    fun x => hform (fun x => f s x v) x
  simp only [hadv]
  refine le_trans (le_of_eq ?_) (lagrange_stable D y hy fun x => f s x v)
  exact Equiv.sum_comp (Equiv.addRight c) fun x => (∑ j ∈ range (D + 1), weight D y j * f s (x + j) v) ^ 2

include heps heps1 hD hDN hdx in
/-- **C99 (stability, 2D2V)** The same for each line in `x` or in `y` of the advections of the 2D2V program. -/
theorem c99_stable_line [NeZero N] (massElec : ℝ) (mass : ℕ → ℝ) {nv : ℕ} (vel : Fin nv → ℝ) (s : ℕ) (v : Fin nv) (line : ZMod N → ℝ) (dt : ℝ) :
    ∑ x, lineX massElec mass vel (lagrangeLine eps D N x0 dx) (periodicCoord N x0 dx) s v line dt x ^ 2 ≤ ∑ x, line x ^ 2 := by
  obtain ⟨y, c, hy, hform⟩ := lagrange_form eps heps heps1 D N hD hDN x0 dx hdx (Real.sqrt (massElec / mass s) * dt * vel v)
  have hadv : ∀ x, lineX massElec mass vel (lagrangeLine eps D N x0 dx) (periodicCoord N x0 dx) s v line dt x = ∑ j ∈ range (D + 1), weight D y j * line (x + c + j) :=
    fun x => hform line x
  simp only [hadv]
  refine le_trans (le_of_eq ?_) (lagrange_stable D y hy line)
  exact Equiv.sum_comp (Equiv.addRight c) fun x => (∑ j ∈ range (D + 1), weight D y j * line (x + j)) ^ 2

include heps heps1 hD hDN hdx in
/-- **C99 (convergence)** After `n` steps on the samples of a smooth periodic function, the root mean square distance to the translated function is at most `n` times the
error of one interpolation, which is of order `D + 1` in the grid spacing; for every time step and every degree. -/
theorem c99_convergence [NeZero N] {nv : ℕ} (P : Plasma nv) (g : ℝ → ℝ) (hg : ContDiff ℝ (D + 1 : ℕ) g) (hgp : ∀ t, g (t + N * dx) = g t) (M M1 : ℝ)
    (hM : ∀ t, |iteratedDeriv (D + 1) g t| ≤ M) (hM1 : ∀ t, |deriv g t| ≤ M1) (dt : ℝ) (f : ℕ → ZMod N → Fin nv → ℝ) (s : ℕ) (v : Fin nv)
    (hf : ∀ x, f s x v = g (periodicCoord N x0 dx x)) (n : ℕ) :
    Real.sqrt (dx * ∑ x, ((fun f => advX P (lagrangeLine eps D N x0 dx) (periodicCoord N x0 dx) f dt)^[n] f s x v
        - g (periodicCoord N x0 dx x - n * (Real.sqrt (P.massElec / P.mass s) * dt * P.vel v))) ^ 2) ≤
      n * (Real.sqrt (N * dx) * max (M / (4 * (D + 1)) * dx ^ (D + 1)) (M1 * (eps * dx))) := by
  obtain ⟨δ, hδ⟩ : ∃ δ, δ = Real.sqrt (P.massElec / P.mass s) * dt * P.vel v := ⟨_, rfl⟩
  have hM0 : 0 ≤ max (M / (4 * (D + 1)) * dx ^ (D + 1)) (M1 * (eps * dx)) :=
    le_max_of_le_left (mul_nonneg (div_nonneg ((abs_nonneg _).trans (hM 0)) (by positivity)) (by positivity))
  obtain ⟨B, hB⟩ : ∃ B, B = max (M / (4 * (D + 1)) * dx ^ (D + 1)) (M1 * (eps * dx)) := ⟨_, rfl⟩
  rw [← hδ, ← hB]
  rw [← hB] at hM0
  obtain ⟨y, c, hy, hform⟩ := lagrange_form eps heps heps1 D N hD hDN x0 dx hdx δ
  have key : Real.sqrt (∑ x, (steps eps N x0 dx P D dt n f s x v - g (periodicCoord N x0 dx x - n * δ)) ^ 2) ≤ n * (Real.sqrt N * B) := by
    induction n with
    | zero => simp [steps, hf]
    | succ n ih =>
      obtain ⟨u, hu⟩ : ∃ u : ZMod N → ℝ, u = fun x => steps eps N x0 dx P D dt n f s x v := ⟨_, rfl⟩
      obtain ⟨w, hw⟩ : ∃ w : ZMod N → ℝ, w = fun x => g (periodicCoord N x0 dx x - n * δ) := ⟨_, rfl⟩
      obtain ⟨T, hT⟩ : ∃ T : (ZMod N → ℝ) → ZMod N → ℝ, T = fun v i => ∑ j ∈ range (D + 1), weight D y j * v (i + j) := ⟨_, rfl⟩
      have hloc : ∀ x, |T w (x + c) - g (periodicCoord N x0 dx x - ((n + 1 : ℕ) : ℝ) * δ)| ≤ B := by
        intro x
        have := line_error eps heps heps1 N x0 dx hdx D hD hDN (fun t => g (t - n * δ)) (shift_contDiff hg _)
          (fun t => by rw [← hgp (t - n * δ)]; congr 1; ring) M M1 (fun t => by rw [shift_iteratedDeriv]; exact hM _) (fun t => by rw [shift_deriv]; exact hM1 _)
          (periodicCoord N x0 dx x - δ)
        rw [hform, show oneStepError D eps dx M M1 = B from hB.symm] at this
        rw [hT, hw, show periodicCoord N x0 dx x - ((n + 1 : ℕ) : ℝ) * δ = periodicCoord N x0 dx x - δ - n * δ by push_cast; ring]
        exact this
      have hstep : ∀ x, steps eps N x0 dx P D dt (n + 1) f s x v = T u (x + c) := by
        intro x
        rw [steps_succ, show displacement P dt s v = δ from hδ.symm, hform, hT, hu]
      have hlin : ∀ i, T (fun i => u i - w i) i = T u i - T w i := by
        intro i
        rw [hT]
        simp only [mul_sub, sum_sub_distrib]
      have hsplit : ∀ x, steps eps N x0 dx P D dt (n + 1) f s x v - g (periodicCoord N x0 dx x - ((n + 1 : ℕ) : ℝ) * δ) =
          T (fun i => u i - w i) (x + c) + (T w (x + c) - g (periodicCoord N x0 dx x - ((n + 1 : ℕ) : ℝ) * δ)) := by
        intro x
        rw [hstep, hlin]; ring
      simp only [hsplit]
      refine (minkowski _ _).trans ?_
      have h1 : Real.sqrt (∑ x, T (fun i => u i - w i) (x + c) ^ 2) ≤ n * (Real.sqrt N * B) := by
        refine le_trans (Real.sqrt_le_sqrt ?_) ih
        have := lagrange_stable D y hy fun i => u i - w i
        have e : ∑ x, T (fun i => u i - w i) (x + c) ^ 2 = ∑ x, T (fun i => u i - w i) x ^ 2 := Equiv.sum_comp (Equiv.addRight c) fun x => T (fun i => u i - w i) x ^ 2
        rw [e, hT]
        refine this.trans (le_of_eq ?_)
        rw [hu, hw]
      have h2 : Real.sqrt (∑ x, (T w (x + c) - g (periodicCoord N x0 dx x - ((n + 1 : ℕ) : ℝ) * δ)) ^ 2) ≤ Real.sqrt N * B := by
        rw [Real.sqrt_le_left (by positivity), mul_pow, Real.sq_sqrt (Nat.cast_nonneg _)]
        have : ∑ x : ZMod N, (T w (x + c) - g (periodicCoord N x0 dx x - ((n + 1 : ℕ) : ℝ) * δ)) ^ 2 ≤ ∑ _x : ZMod N, B ^ 2 :=
          sum_le_sum fun x _ => sq_le_sq' (abs_le.1 (hloc x)).1 (abs_le.1 (hloc x)).2
        refine this.trans (le_of_eq ?_)
        rw [sum_const, card_univ, ZMod.card, nsmul_eq_mul]
      have e : ((n + 1 : ℕ) : ℝ) * (Real.sqrt N * B) = n * (Real.sqrt N * B) + Real.sqrt N * B := by push_cast; ring
      rw [e]
      exact add_le_add h1 h2
  rw [Real.sqrt_mul hdx.le]
  calc Real.sqrt dx * Real.sqrt (∑ x, (steps eps N x0 dx P D dt n f s x v - g (periodicCoord N x0 dx x - n * δ)) ^ 2)
      ≤ Real.sqrt dx * (n * (Real.sqrt N * B)) := mul_le_mul_of_nonneg_left key (Real.sqrt_nonneg _)
    _ = n * (Real.sqrt (N * dx) * B) := by rw [Real.sqrt_mul (Nat.cast_nonneg _)]; ring

include heps heps1 hDN hdx in
/-- **C99 (bounds, degree one)** With linear interpolation the new values of a line stay between the bounds of the old ones, for every time step, mass and velocity; in particular a non-negative distribution stays non-negative. -/
theorem c99_linear_bounds (hD1 : D = 1) {nv : ℕ} (P : Plasma nv) (f : ℕ → ZMod N → Fin nv → ℝ) (dt : ℝ) (s : ℕ) (v : Fin nv) (lo hi : ℝ) (h : ∀ x, lo ≤ f s x v ∧ f s x v ≤ hi) (x : ZMod N) :
    lo ≤ advX P (lagrangeLine eps D N x0 dx) (periodicCoord N x0 dx) f dt s x v ∧ advX P (lagrangeLine eps D N x0 dx) (periodicCoord N x0 dx) f dt s x v ≤ hi := by
  subst hD1
  obtain ⟨y, c, hy, hform⟩ := lagrange_form eps heps heps1 1 N one_pos hDN x0 dx hdx (displacement P dt s v)
  have hadv : advX P (lagrangeLine eps 1 N x0 dx) (periodicCoord N x0 dx) f dt s x v = ∑ j ∈ range (1 + 1), weight 1 y j * f s (x + c + j) v := hform (fun x => f s x v) x
  have e0 : (range (1 + 1)).erase 0 = {1} := by decide
  have e1 : (range (1 + 1)).erase 1 = {0} := by decide
  have w0 : weight 1 y 0 = 1 - y := by
    unfold weight
    rw [_root_.Lagrange.basis, e0]
    simp [Lagrange.basisDivisor]
  have w1 : weight 1 y 1 = y := by
    unfold weight
    rw [_root_.Lagrange.basis, e1]
    simp [Lagrange.basisDivisor]
  unfold Central at hy
  norm_num at hy
  obtain ⟨h1, h2⟩ := abs_le.1 hy
  rw [hadv, sum_range_succ, sum_range_one, w0, w1]
  obtain ⟨a0, b0⟩ := h (x + c + (0 : ℕ))
  obtain ⟨a1, b1⟩ := h (x + c + (1 : ℕ))
  have y0 : 0 ≤ y := by linarith
  have y1 : 0 ≤ 1 - y := by linarith
  have q1 := mul_le_mul_of_nonneg_left a0 y1
  have q2 := mul_le_mul_of_nonneg_left a1 y0
  have q3 := mul_le_mul_of_nonneg_left b0 y1
  have q4 := mul_le_mul_of_nonneg_left b1 y0
  constructor <;> linarith

end

/-- Degree 5 on eight points, any initial line: the sum of squares does not grow over any number of steps of 0.1. -/
example (f : ℕ → ZMod 8 → Fin 2 → ℝ) (n : ℕ) : ∑ x, (fun f => advX plasma2 (lagrangeLine (1 / 100) 5 8 0 1) (periodicCoord 8 0 1) f 0.1)^[n] f 1 x 1 ^ 2 ≤ ∑ x, f 1 x 1 ^ 2 := by
  induction n with
  | zero => exact le_rfl
  | succ n ih =>
    rw [Function.iterate_succ', Function.comp]
    exact (c99_stable (1 / 100) (by norm_num) (by norm_num) 5 8 (by norm_num) (by norm_num) 0 1 one_pos plasma2 _ 0.1 1 1).trans ih

/-- The position 2.3 is in the middle cell of the stencil of degree 5 and within half a cell of the middle node of the stencil of degree 4. -/
example : Central 5 2.3 ∧ Central 4 2.3 ∧ ¬ Central 5 1.9 := by
  refine ⟨?_, ?_, ?_⟩ <;> norm_num [Central, abs_le]

/-- Outside the middle cell the weights may amplify: degree 1, position 2, extrapolates the alternating line to three times its size. -/
example : ∑ j ∈ range (1 + 1), weight 1 2 j * (-1 : ℝ) ^ j = -3 := by
  simp only [sum_range_succ, range_zero, sum_empty, weight]
  have e0 : (range (1 + 1)).erase 0 = {1} := by decide
  have e1 : (range (1 + 1)).erase 1 = {0} := by decide
  rw [_root_.Lagrange.basis, _root_.Lagrange.basis, e0, e1]
  simp [Lagrange.basisDivisor]
  norm_num

/-- A sine wave of period 8 on eight points: ten steps with the degree 5. -/
example : Real.sqrt (1 * ∑ x : ZMod 8, ((fun f => advX plasma2 (lagrangeLine 0 5 8 0 1) (periodicCoord 8 0 1) f 0.1)^[10] (fun _ x _ => Real.sin (Real.pi / 4 * periodicCoord 8 0 1 x)) 1 x 1
      - (fun t => Real.sin (Real.pi / 4 * t)) (periodicCoord 8 0 1 x - (10 : ℕ) * (Real.sqrt (plasma2.massElec / plasma2.mass 1) * 0.1 * plasma2.vel 1))) ^ 2) ≤
    (10 : ℕ) * (Real.sqrt ((8 : ℕ) * 1) * max ((Real.pi / 4) ^ 6 / (4 * ((5 : ℕ) + 1)) * 1 ^ (5 + 1)) (Real.pi / 4 * (0 * 1))) := by
  have hd : ∀ t, HasDerivAt (fun t : ℝ => Real.sin (Real.pi / 4 * t)) (Real.pi / 4 * Real.cos (Real.pi / 4 * t)) t := fun t => by
    have := (Real.hasDerivAt_sin (Real.pi / 4 * t)).comp t ((hasDerivAt_id t).const_mul (Real.pi / 4))
    simpa [Function.comp_def, mul_comm] using this
  refine c99_convergence 0 le_rfl (by norm_num) 5 8 (by norm_num) (by norm_num) 0 1 one_pos plasma2 (fun t => Real.sin (Real.pi / 4 * t)) (by fun_prop) (fun t => ?_)
    ((Real.pi / 4) ^ 6) (Real.pi / 4) (fun t => ?_) (fun t => ?_) 0.1 _ 1 1 (fun x => rfl) 10
  · rw [show Real.pi / 4 * (t + (8 : ℕ) * 1) = Real.pi / 4 * t + 2 * Real.pi by push_cast; ring, Real.sin_add_two_pi]
  · rw [iteratedDeriv_comp_const_mul (by fun_prop)]
    simp only [abs_mul, abs_pow]
    rw [abs_of_nonneg (by positivity : 0 ≤ Real.pi / 4)]
    refine mul_le_of_le_one_right (by positivity) ?_
    rw [show (5 + 1 : ℕ) = 2 * 3 from rfl, Real.iteratedDeriv_even_sin 3]
    simpa using Real.abs_sin_le_one _
  · rw [(hd t).deriv, abs_mul, abs_of_nonneg (by positivity : 0 ≤ Real.pi / 4)]
    exact mul_le_of_le_one_right (by positivity) (Real.abs_cos_le_one _)

end Verif.AdvectionStability
