import Verif.Props.AccuracyLagrange
import Verif.Props.SimulationXVx
import Mathlib.Algebra.Order.BigOperators.Ring.Finset
import Mathlib.Analysis.Real.Sqrt

/-! Property C95, third part: the semi-Lagrangian advection in space with uniform periodic Lagrange interpolation converges to the translated function: in the maximum norm for the degree 1,
in the mean-square norm for the degree 3, for any number of steps and any time step (no restriction linking the time step and the grid). -/

namespace Verif.AccuracyAdvection

open Finset Verif.Simulation Verif.AccuracyLagrange Verif.LagrangeEvaluator Verif.Lagrange

/-- The error of one interpolation (the bound of `c95_evaluator_uniform_periodic`). -/
noncomputable def oneStepError (D : ℕ) (eps dx M M1 : ℝ) : ℝ := max (M / (4 * (D + 1)) * dx ^ (D + 1)) (M1 * (eps * dx))

section
variable (eps : ℝ) (heps : 0 ≤ eps) (heps1 : eps < 1 / 2) (N : ℕ) (x0 dx : ℝ) (hdx : 0 < dx)

theorem periodic_nat {g : ℝ → ℝ} {L : ℝ} (hg : ∀ t, g (t + L) = g t) (k : ℕ) (t : ℝ) : g (t + k * L) = g t := by
  induction k with
  | zero => simp
  | succ k ih => rw [← ih, ← hg (t + k * L)]; congr 1; push_cast; ring

/-- The samples of a periodic function at the point numbered by a natural number. -/
theorem sample_cast [NeZero N] {g : ℝ → ℝ} (hg : ∀ t, g (t + N * dx) = g t) (k : ℕ) : g (periodicCoord N x0 dx (k : ZMod N)) = g (x0 + k * dx) := by
  unfold periodicCoord
  rw [ZMod.val_natCast]
  rw [← periodic_nat hg (k / N) (x0 + (k % N : ℕ) * dx)]
  congr 1
  have : ((k % N : ℕ) : ℝ) + N * ((k / N : ℕ) : ℝ) = k := by exact_mod_cast Nat.mod_add_div k N
  rw [← this]; ring

include heps heps1 hdx in
/-- One interpolation of the samples of a smooth periodic function. -/
theorem line_error (D : ℕ) (hD : 0 < D) (hDN : D < N) (g : ℝ → ℝ) (hg : ContDiff ℝ (D + 1 : ℕ) g) (hgp : ∀ t, g (t + N * dx) = g t)
    (M M1 : ℝ) (hM : ∀ t, |iteratedDeriv (D + 1) g t| ≤ M) (hM1 : ∀ t, |deriv g t| ≤ M1) (x : ℝ) :
    |(lagrangeLine eps D N x0 dx).eval x ((lagrangeLine eps D N x0 dx).build fun i => g (periodicCoord N x0 dx i)) - g x| ≤ oneStepError D eps dx M M1 := by
  have : NeZero N := ⟨by omega⟩
  obtain ⟨v, hv, he⟩ := c95_evaluator_uniform_periodic eps heps heps1 D N hD hDN x0 dx hdx (fun _ => 0) (fun _ => 0) g hg hgp M M1 hM hM1 x
  have e : (lagrangeLine eps D N x0 dx).build (fun i => g (periodicCoord N x0 dx i)) = builtCoeffs true D N fun k => g (x0 + k * dx) := by
    funext k
    simp only [lagrangeLine, builtCoeffs, sample_cast N x0 dx hgp]
  rw [e]
  simp only [lagrangeLine, hv, Option.getD_some]
  exact he

variable {nv : ℕ} (P : Plasma nv)

/-- The displacement of one step at a velocity, `src/advection/bsl_advection_x.hpp:112-120`. -/
noncomputable def displacement (P : Plasma nv) (dt : ℝ) (s : ℕ) (v : Fin nv) : ℝ := Real.sqrt (P.massElec / P.mass s) * dt * P.vel v

theorem shift_contDiff {g : ℝ → ℝ} {n : ℕ} (hg : ContDiff ℝ n g) (a : ℝ) : ContDiff ℝ n fun t => g (t - a) := hg.comp (contDiff_id.sub contDiff_const)

theorem shift_iteratedDeriv (g : ℝ → ℝ) (n : ℕ) (a t : ℝ) : iteratedDeriv n (fun t => g (t - a)) t = iteratedDeriv n g (t - a) := by
  rw [iteratedDeriv_comp_sub_const]

theorem shift_deriv (g : ℝ → ℝ) (a t : ℝ) : deriv (fun t => g (t - a)) t = deriv g (t - a) := deriv_comp_sub_const _ _ _

/-- `n` applications of the spatial advection. -/
noncomputable def steps (D : ℕ) (dt : ℝ) (n : ℕ) (f : ℕ → ZMod N → Fin nv → ℝ) : ℕ → ZMod N → Fin nv → ℝ :=
  (fun f => advX P (lagrangeLine eps D N x0 dx) (periodicCoord N x0 dx) f dt)^[n] f

theorem steps_succ (D : ℕ) (dt : ℝ) (n : ℕ) (f : ℕ → ZMod N → Fin nv → ℝ) (s : ℕ) (x : ZMod N) (v : Fin nv) :
    steps eps N x0 dx P D dt (n + 1) f s x v = (lagrangeLine eps D N x0 dx).eval (periodicCoord N x0 dx x - displacement P dt s v)
      ((lagrangeLine eps D N x0 dx).build fun i => steps eps N x0 dx P D dt n f s i v) := by
  unfold steps
  rw [Function.iterate_succ', Function.comp]
  rfl

include heps heps1 hdx in
/-- **C95 (advection, degree 1)** After `n` steps on the samples of a smooth periodic function, every value is within `n` times the interpolation error of the translated function,
for every time step. -/
theorem c95_advection_linear (hN : 1 < N) (g : ℝ → ℝ) (hg : ContDiff ℝ 2 g) (hgp : ∀ t, g (t + N * dx) = g t) (M M1 : ℝ) (hM : ∀ t, |iteratedDeriv 2 g t| ≤ M)
    (hM1 : ∀ t, |deriv g t| ≤ M1) (dt : ℝ) (f : ℕ → ZMod N → Fin nv → ℝ) (s : ℕ) (v : Fin nv) (hf : ∀ x, f s x v = g (periodicCoord N x0 dx x)) (n : ℕ) (x : ZMod N) :
    |steps eps N x0 dx P 1 dt n f s x v - g (periodicCoord N x0 dx x - n * (Real.sqrt (P.massElec / P.mass s) * dt * P.vel v))| ≤ n * max (M / 8 * dx ^ 2) (M1 * (eps * dx)) := by
  obtain ⟨δ, hδ⟩ : ∃ δ, δ = Real.sqrt (P.massElec / P.mass s) * dt * P.vel v := ⟨_, rfl⟩
  rw [← hδ]
  induction n generalizing x with
  | zero => simp [steps, hf]
  | succ n ih =>
    obtain ⟨y, c, hy0, hy1, hform⟩ := degree_one_form eps heps heps1 N hN x0 dx hdx δ
    have hloc := line_error eps heps heps1 N x0 dx hdx 1 one_pos hN (fun t => g (t - n * δ)) (shift_contDiff hg _)
      (fun t => by rw [← hgp (t - n * δ)]; congr 1; ring) M M1 (fun t => by rw [shift_iteratedDeriv]; exact hM _) (fun t => by rw [shift_deriv]; exact hM1 _)
      (periodicCoord N x0 dx x - δ)
    rw [steps_succ, show displacement P dt s v = δ from hδ.symm, hform]
    rw [hform] at hloc
    have e8 : oneStepError 1 eps dx M M1 = max (M / 8 * dx ^ 2) (M1 * (eps * dx)) := by unfold oneStepError; norm_num
    rw [e8] at hloc
    have a := abs_le.1 (ih (x + c)); have b := abs_le.1 (ih (x + c + 1)); have l := abs_le.1 hloc
    rw [show periodicCoord N x0 dx x - ((n + 1 : ℕ) : ℝ) * δ = periodicCoord N x0 dx x - δ - n * δ by push_cast; ring]
    have e : ((n + 1 : ℕ) : ℝ) * max (M / 8 * dx ^ 2) (M1 * (eps * dx)) = n * max (M / 8 * dx ^ 2) (M1 * (eps * dx)) + max (M / 8 * dx ^ 2) (M1 * (eps * dx)) := by
      push_cast; ring
    rw [e]
    generalize (n : ℝ) * max (M / 8 * dx ^ 2) (M1 * (eps * dx)) = A at *
    generalize max (M / 8 * dx ^ 2) (M1 * (eps * dx)) = B at *
    rw [abs_le]
    constructor <;> nlinarith [a.1, a.2, b.1, b.2, l.1, l.2]

end

/-! ## Degree 3: the mean-square norm does not grow -/

/-- The four cubic Lagrange weights between the two middle points, `t` in `[0, 1]` being the position. -/
noncomputable def cubicWeight (t : ℝ) : ℕ → ℝ
  | 0 => -t * (1 - t) * (2 - t) / 6
  | 1 => (1 + t) * (1 - t) * (2 - t) / 2
  | 2 => t * (1 + t) * (2 - t) / 2
  | _ => -t * (1 - t) * (1 + t) / 6

/-- The sum of squares after a cubic interpolation is the sum of squares before minus two sums of squares of differences with nonnegative coefficients. -/
theorem cubic_squares (N : ℕ) [NeZero N] (t : ℝ) (v : ZMod N → ℝ) :
    ∑ i, (cubicWeight t 0 * v i + cubicWeight t 1 * v (i + 1) + cubicWeight t 2 * v (i + 2) + cubicWeight t 3 * v (i + 3)) ^ 2 =
      ∑ i, v i ^ 2 - t * (1 - t) * (1 + t) * (2 - t) / 12 * ∑ i, (v i - 2 * v (i + 1) + v (i + 2)) ^ 2
        - t ^ 2 * (1 - t) ^ 2 * (1 + t) * (2 - t) / 36 * ∑ i, (v i - 3 * v (i + 1) + 3 * v (i + 2) - v (i + 3)) ^ 2 := by
  have sh : ∀ (a : ZMod N) (φ : ZMod N → ℝ), ∑ i, φ (i + a) = ∑ i, φ i := fun a φ => Equiv.sum_comp (Equiv.addRight a) φ
  have s1 : ∑ i, v (i + 1) ^ 2 = ∑ i, v i ^ 2 := sh 1 fun i => v i ^ 2
  have s2 : ∑ i, v (i + 2) ^ 2 = ∑ i, v i ^ 2 := sh 2 fun i => v i ^ 2
  have s3 : ∑ i, v (i + 3) ^ 2 = ∑ i, v i ^ 2 := sh 3 fun i => v i ^ 2
  have p1 : ∑ i, v (i + 1) * v (i + 2) = ∑ i, v i * v (i + 1) := by
    rw [← sh 1 fun i => v i * v (i + 1)]; exact sum_congr rfl fun i _ => by rw [add_assoc, one_add_one_eq_two]
  have p2 : ∑ i, v (i + 2) * v (i + 3) = ∑ i, v i * v (i + 1) := by
    rw [← sh 2 fun i => v i * v (i + 1)]; exact sum_congr rfl fun i _ => by rw [add_assoc, show (2 : ZMod N) + 1 = 3 by norm_num]
  have q1 : ∑ i, v (i + 1) * v (i + 3) = ∑ i, v i * v (i + 2) := by
    rw [← sh 1 fun i => v i * v (i + 2)]; exact sum_congr rfl fun i _ => by rw [add_assoc, show (1 : ZMod N) + 2 = 3 by norm_num]
  have lin : ∀ a b c d : ℝ, ∑ i, (a * v i + b * v (i + 1) + c * v (i + 2) + d * v (i + 3)) ^ 2 =
      (a ^ 2 + b ^ 2 + c ^ 2 + d ^ 2) * ∑ i, v i ^ 2 + 2 * (a * b + b * c + c * d) * ∑ i, v i * v (i + 1) + 2 * (a * c + b * d) * ∑ i, v i * v (i + 2)
        + 2 * (a * d) * ∑ i, v i * v (i + 3) := by
    intro a b c d
    have : ∑ i, (a * v i + b * v (i + 1) + c * v (i + 2) + d * v (i + 3)) ^ 2 =
        a ^ 2 * ∑ i, v i ^ 2 + b ^ 2 * ∑ i, v (i + 1) ^ 2 + c ^ 2 * ∑ i, v (i + 2) ^ 2 + d ^ 2 * ∑ i, v (i + 3) ^ 2 + 2 * (a * b) * ∑ i, v i * v (i + 1)
          + 2 * (b * c) * ∑ i, v (i + 1) * v (i + 2) + 2 * (c * d) * ∑ i, v (i + 2) * v (i + 3) + 2 * (a * c) * ∑ i, v i * v (i + 2)
          + 2 * (b * d) * ∑ i, v (i + 1) * v (i + 3) + 2 * (a * d) * ∑ i, v i * v (i + 3) := by
      simp only [mul_sum, ← sum_add_distrib]
      exact sum_congr rfl fun i _ => by ring
    rw [this, s1, s2, s3, p1, p2, q1]; ring
  have d2 : ∑ i, (v i - 2 * v (i + 1) + v (i + 2)) ^ 2 = 6 * ∑ i, v i ^ 2 - 8 * ∑ i, v i * v (i + 1) + 2 * ∑ i, v i * v (i + 2) := by
    have := lin 1 (-2) 1 0
    refine Eq.trans (sum_congr rfl fun i _ => by ring) (this.trans (by ring))
  have d3 : ∑ i, (v i - 3 * v (i + 1) + 3 * v (i + 2) - v (i + 3)) ^ 2 =
      20 * ∑ i, v i ^ 2 - 30 * ∑ i, v i * v (i + 1) + 12 * ∑ i, v i * v (i + 2) - 2 * ∑ i, v i * v (i + 3) := by
    have := lin 1 (-3) 3 (-1)
    refine Eq.trans (sum_congr rfl fun i _ => by ring) (this.trans (by ring))
  rw [lin, d2, d3]
  simp only [cubicWeight]
  ring

theorem cubic_stable (N : ℕ) [NeZero N] (t : ℝ) (h0 : 0 ≤ t) (h1 : t ≤ 1) (v : ZMod N → ℝ) :
    ∑ i, (cubicWeight t 0 * v i + cubicWeight t 1 * v (i + 1) + cubicWeight t 2 * v (i + 2) + cubicWeight t 3 * v (i + 3)) ^ 2 ≤ ∑ i, v i ^ 2 := by
  rw [cubic_squares]
  have a : 0 ≤ t * (1 - t) * (1 + t) * (2 - t) / 12 * ∑ i, (v i - 2 * v (i + 1) + v (i + 2)) ^ 2 := by
    have : 0 ≤ 1 - t := by linarith
    have : 0 ≤ 2 - t := by linarith
    have : 0 ≤ ∑ i, (v i - 2 * v (i + 1) + v (i + 2)) ^ 2 := sum_nonneg fun i _ => sq_nonneg _
    positivity
  have b : 0 ≤ t ^ 2 * (1 - t) ^ 2 * (1 + t) * (2 - t) / 36 * ∑ i, (v i - 3 * v (i + 1) + 3 * v (i + 2) - v (i + 3)) ^ 2 := by
    have : 0 ≤ 2 - t := by linarith
    have : 0 ≤ ∑ i, (v i - 3 * v (i + 1) + 3 * v (i + 2) - v (i + 3)) ^ 2 := sum_nonneg fun i _ => sq_nonneg _
    positivity
  linarith

section
variable (eps : ℝ) (heps : 0 ≤ eps) (heps1 : eps < 1 / 2) (N : ℕ) (x0 dx : ℝ) (hdx : 0 < dx)

/-- The cubic Lagrange basis on the nodes 0, 1, 2, 3 is the cubic weights. -/
theorem basis_cubic (y : ℝ) (j : ℕ) (hj : j ≤ 3) : (_root_.Lagrange.basis (Finset.range (3 + 1)) (uniformNodes 0 1) j).eval (y + 1) = cubicWeight y j := by
  have hr : Finset.range (3 + 1) = {0, 1, 2, 3} := rfl
  rw [hr]
  have hj' : j = 0 ∨ j = 1 ∨ j = 2 ∨ j = 3 := by omega
  have e0 : ({0, 1, 2, 3} : Finset ℕ).erase 0 = {1, 2, 3} := by decide
  have e1 : ({0, 1, 2, 3} : Finset ℕ).erase 1 = {0, 2, 3} := by decide
  have e2 : ({0, 1, 2, 3} : Finset ℕ).erase 2 = {0, 1, 3} := by decide
  have e3 : ({0, 1, 2, 3} : Finset ℕ).erase 3 = {0, 1, 2} := by decide
  rcases hj' with rfl | rfl | rfl | rfl
  · rw [_root_.Lagrange.basis, e0]
    simp [prod_insert, Lagrange.basisDivisor, uniformNodes, cubicWeight, Polynomial.eval_prod]; ring
  · rw [_root_.Lagrange.basis, e1]
    simp [prod_insert, Lagrange.basisDivisor, uniformNodes, cubicWeight, Polynomial.eval_prod]; ring
  · rw [_root_.Lagrange.basis, e2]
    simp [prod_insert, Lagrange.basisDivisor, uniformNodes, cubicWeight, Polynomial.eval_prod]; ring
  · rw [_root_.Lagrange.basis, e3]
    simp [prod_insert, Lagrange.basisDivisor, uniformNodes, cubicWeight, Polynomial.eval_prod]; ring

include heps heps1 hdx in
/-- With cubic interpolation, the displaced line is made of the same four weights everywhere. -/
theorem cubic_form (hN : 3 < N) (δ : ℝ) : ∃ (y : ℝ) (c : ZMod N), 0 ≤ y ∧ y ≤ 1 ∧ ∀ (v : ZMod N → ℝ) (i : ZMod N),
    (lagrangeLine eps 3 N x0 dx).eval (periodicCoord N x0 dx i - δ) ((lagrangeLine eps 3 N x0 dx).build v) =
      cubicWeight y 0 * v (i + c) + cubicWeight y 1 * v (i + c + 1) + cubicWeight y 2 * v (i + c + 2) + cubicWeight y 3 * v (i + c + 3) := by
  have : NeZero N := ⟨by omega⟩
  obtain ⟨m, hm⟩ : ∃ m, m = centre 3 x0 dx (periodicCoord N x0 dx 0 - δ) := ⟨_, rfl⟩
  obtain ⟨τ, hτ⟩ : ∃ τ, τ = (periodicCoord N x0 dx 0 - δ - x0) / dx := ⟨_, rfl⟩
  have hcen : m = ⌊τ⌋ := by rw [hm, hτ]; simp [centre]
  have h0 : 0 ≤ τ - m := by have := Int.floor_le τ; rw [hcen]; linarith
  have h1 : τ - m ≤ 1 := by have := Int.lt_floor_add_one τ; rw [hcen]; linarith
  obtain ⟨y, hy, hv⟩ := c17_values_uniform eps heps heps1 3 0 1 (τ - m + 1) 0 false one_pos (τ - m + 1) (by simp) (by linarith) (by simp only [uniformNodes]; norm_num; linarith)
  have hb : ∀ j ≤ 3, evalBasisU eps 3 0 1 (τ - m + 1) j = cubicWeight (y - 1) j := by
    intro j hj
    rw [← basis_cubic (y - 1) j hj, sub_add_cancel, ← hv j hj]
    simp [evalBasisUniform]
  have hy' : 1 ≤ y ∧ y ≤ 2 := by
    rcases hy with rfl | ⟨i, hi, rfl, hd⟩
    · constructor <;> linarith
    · simp only [uniformNodes, zero_add, mul_one] at hd ⊢
      rw [abs_le] at hd
      have hlo : (1 : ℝ) - 1 / 2 < i := by linarith [hd.1, hd.2]
      have hhi : (i : ℝ) < 2 + 1 / 2 := by linarith [hd.1, hd.2]
      have h1i : 1 ≤ i := by
        by_contra h
        have : i = 0 := by omega
        subst this; norm_num at hlo
      have h2i : i ≤ 2 := by
        by_contra h
        have : i = 3 := by omega
        subst this; norm_num at hhi
      exact ⟨by exact_mod_cast h1i, by exact_mod_cast h2i⟩
  refine ⟨y - 1, ((m - 1 : ℤ) : ZMod N), by linarith [hy'.1], by linarith [hy'.2], fun v i => ?_⟩
  have hs := lagrange_shift eps 3 N (by norm_num) hN x0 dx hdx (fun j => v (j + i)) i 0 δ
  rw [zero_add] at hs
  simp only [sub_add_cancel] at hs
  rw [hs, lagrange_closed eps 3 N (by norm_num) hN x0 dx hdx, ← hm, ← hτ]
  simp only [sum_range_succ, range_zero, sum_empty, zero_add, Nat.reduceDiv, Nat.cast_zero, add_zero, Nat.cast_one, hb 0 (by norm_num), hb 1 (by norm_num), hb 2 (by norm_num), hb 3 (by norm_num)]
  push_cast
  rw [show (m : ZMod N) - 1 + i = i + (m - 1) by ring, show (m : ZMod N) - 1 + 1 + i = i + (m - 1) + 1 by ring, show (m : ZMod N) - 1 + 2 + i = i + (m - 1) + 2 by ring,
    show (m : ZMod N) - 1 + 3 + i = i + (m - 1) + 3 by ring]
  ring

include heps heps1 hdx in
/-- **C95 (stability of the cubic advection)** The mean square of every line of the distribution function does not increase, for every displacement. -/
theorem c95_advection_cubic_stable [NeZero N] (hN : 3 < N) {nv : ℕ} (P : Plasma nv) (f : ℕ → ZMod N → Fin nv → ℝ) (dt : ℝ) (s : ℕ) (v : Fin nv) :
    ∑ x, advX P (lagrangeLine eps 3 N x0 dx) (periodicCoord N x0 dx) f dt s x v ^ 2 ≤ ∑ x, f s x v ^ 2 := by
  obtain ⟨y, c, hy0, hy1, hform⟩ := cubic_form eps heps heps1 N x0 dx hdx hN (displacement P dt s v)
  have hadv : ∀ x, advX P (lagrangeLine eps 3 N x0 dx) (periodicCoord N x0 dx) f dt s x v =
      cubicWeight y 0 * f s (x + c) v + cubicWeight y 1 * f s (x + c + 1) v + cubicWeight y 2 * f s (x + c + 2) v + cubicWeight y 3 * f s (x + c + 3) v :=
    fun x => hform (fun x => f s x v) x
  simp only [hadv]
  refine le_trans (le_of_eq ?_) (cubic_stable N y hy0 hy1 fun x => f s x v)
  exact Equiv.sum_comp (Equiv.addRight c) fun x => (cubicWeight y 0 * f s x v + cubicWeight y 1 * f s (x + 1) v + cubicWeight y 2 * f s (x + 2) v + cubicWeight y 3 * f s (x + 3) v) ^ 2

/-- The triangle inequality for the mean-square norm. -/
theorem minkowski {ι : Type*} [Fintype ι] (a b : ι → ℝ) : Real.sqrt (∑ i, (a i + b i) ^ 2) ≤ Real.sqrt (∑ i, a i ^ 2) + Real.sqrt (∑ i, b i ^ 2) := by
  rw [Real.sqrt_le_left (by positivity), add_sq, Real.sq_sqrt (sum_nonneg fun i _ => sq_nonneg _), Real.sq_sqrt (sum_nonneg fun i _ => sq_nonneg _)]
  have hcs : ∑ i, a i * b i ≤ Real.sqrt (∑ i, a i ^ 2) * Real.sqrt (∑ i, b i ^ 2) := by
    rw [← Real.sqrt_mul (sum_nonneg fun i _ => sq_nonneg _)]
    exact Real.le_sqrt_of_sq_le (sum_mul_sq_le_sq_mul_sq univ a b)
  have e : ∑ i, (a i + b i) ^ 2 = ∑ i, a i ^ 2 + 2 * ∑ i, a i * b i + ∑ i, b i ^ 2 := by
    simp only [mul_sum, ← sum_add_distrib]
    exact sum_congr rfl fun i _ => by ring
  rw [e]; linarith

include heps heps1 hdx in
/-- **C95 (advection, degree 3)** After `n` steps on the samples of a smooth periodic function, the root mean square distance to the translated function is at most `n` times the
error of one interpolation, which is of order 4 in the grid spacing; for every time step. -/
theorem c95_advection_cubic [NeZero N] (hN : 3 < N) {nv : ℕ} (P : Plasma nv) (g : ℝ → ℝ) (hg : ContDiff ℝ 4 g) (hgp : ∀ t, g (t + N * dx) = g t) (M M1 : ℝ)
    (hM : ∀ t, |iteratedDeriv 4 g t| ≤ M) (hM1 : ∀ t, |deriv g t| ≤ M1) (dt : ℝ) (f : ℕ → ZMod N → Fin nv → ℝ) (s : ℕ) (v : Fin nv)
    (hf : ∀ x, f s x v = g (periodicCoord N x0 dx x)) (n : ℕ) :
    Real.sqrt (dx * ∑ x, (steps eps N x0 dx P 3 dt n f s x v - g (periodicCoord N x0 dx x - n * (Real.sqrt (P.massElec / P.mass s) * dt * P.vel v))) ^ 2) ≤
      n * (Real.sqrt (N * dx) * max (M / 16 * dx ^ 4) (M1 * (eps * dx))) := by
  obtain ⟨δ, hδ⟩ : ∃ δ, δ = Real.sqrt (P.massElec / P.mass s) * dt * P.vel v := ⟨_, rfl⟩
  have hM0 : 0 ≤ max (M / 16 * dx ^ 4) (M1 * (eps * dx)) :=
    le_max_of_le_left (mul_nonneg (div_nonneg ((abs_nonneg _).trans (hM 0)) (by norm_num)) (by positivity))
  obtain ⟨B, hB⟩ : ∃ B, B = max (M / 16 * dx ^ 4) (M1 * (eps * dx)) := ⟨_, rfl⟩
  rw [← hδ, ← hB]
  rw [← hB] at hM0
  have key : Real.sqrt (∑ x, (steps eps N x0 dx P 3 dt n f s x v - g (periodicCoord N x0 dx x - n * δ)) ^ 2) ≤ n * (Real.sqrt N * B) := by
    induction n with
    | zero => simp [steps, hf]
    | succ n ih =>
      obtain ⟨y, c, hy0, hy1, hform⟩ := cubic_form eps heps heps1 N x0 dx hdx hN δ
      obtain ⟨u, hu⟩ : ∃ u : ZMod N → ℝ, u = fun x => steps eps N x0 dx P 3 dt n f s x v := ⟨_, rfl⟩
      obtain ⟨w, hw⟩ : ∃ w : ZMod N → ℝ, w = fun x => g (periodicCoord N x0 dx x - n * δ) := ⟨_, rfl⟩
      obtain ⟨T, hT⟩ : ∃ T : (ZMod N → ℝ) → ZMod N → ℝ, T = fun v i => cubicWeight y 0 * v i + cubicWeight y 1 * v (i + 1) + cubicWeight y 2 * v (i + 2) + cubicWeight y 3 * v (i + 3) :=
        ⟨_, rfl⟩
      have hloc : ∀ x, |T w (x + c) - g (periodicCoord N x0 dx x - ((n + 1 : ℕ) : ℝ) * δ)| ≤ B := by
        intro x
        have := line_error eps heps heps1 N x0 dx hdx 3 (by norm_num) hN (fun t => g (t - n * δ)) (shift_contDiff hg _)
          (fun t => by rw [← hgp (t - n * δ)]; congr 1; ring) M M1 (fun t => by rw [shift_iteratedDeriv]; exact hM _) (fun t => by rw [shift_deriv]; exact hM1 _)
          (periodicCoord N x0 dx x - δ)
        rw [hform] at this
        have e16 : oneStepError 3 eps dx M M1 = B := by unfold oneStepError; rw [hB]; norm_num
        rw [e16] at this
        rw [hT, hw, show periodicCoord N x0 dx x - ((n + 1 : ℕ) : ℝ) * δ = periodicCoord N x0 dx x - δ - n * δ by push_cast; ring]
        exact this
      have hstep : ∀ x, steps eps N x0 dx P 3 dt (n + 1) f s x v = T u (x + c) := by
        intro x
        rw [steps_succ, show displacement P dt s v = δ from hδ.symm, hform, hT, hu]
      have hsplit : ∀ x, steps eps N x0 dx P 3 dt (n + 1) f s x v - g (periodicCoord N x0 dx x - ((n + 1 : ℕ) : ℝ) * δ) =
          T (fun i => u i - w i) (x + c) + (T w (x + c) - g (periodicCoord N x0 dx x - ((n + 1 : ℕ) : ℝ) * δ)) := by
        intro x
        rw [hstep, hT]; ring
      simp only [hsplit]
      refine (minkowski _ _).trans ?_
      have h1 : Real.sqrt (∑ x, T (fun i => u i - w i) (x + c) ^ 2) ≤ n * (Real.sqrt N * B) := by
        refine le_trans (Real.sqrt_le_sqrt ?_) ih
        have := cubic_stable N y hy0 hy1 fun i => u i - w i
        have e : ∑ x, T (fun i => u i - w i) (x + c) ^ 2 = ∑ x, T (fun i => u i - w i) x ^ 2 := Equiv.sum_comp (Equiv.addRight c) fun x => T (fun i => u i - w i) x ^ 2
        rw [e, hT]
        refine this.trans (le_of_eq ?_)
        rw [hu, hw]
      have h2 : Real.sqrt (∑ x, (T w (x + c) - g (periodicCoord N x0 dx x - ((n + 1 : ℕ) : ℝ) * δ)) ^ 2) ≤ Real.sqrt N * B := by
        rw [Real.sqrt_le_left (by positivity), mul_pow, Real.sq_sqrt (Nat.cast_nonneg _)]
        have : ∑ x : ZMod N, (T w (x + c) - g (periodicCoord N x0 dx x - ((n + 1 : ℕ) : ℝ) * δ)) ^ 2 ≤ ∑ _x : ZMod N, B ^ 2 :=
          sum_le_sum fun x _ => sq_le_sq' (abs_le.1 (hloc x)).1 (abs_le.1 (hloc x)).2
        refine this.trans (le_of_eq ?_)
        rw [sum_const, card_univ, ZMod.card, nsmul_eq_mul]
      have e : ((n + 1 : ℕ) : ℝ) * (Real.sqrt N * B) = n * (Real.sqrt N * B) + Real.sqrt N * B := by push_cast; ring
      rw [e]
      exact add_le_add h1 h2
  rw [Real.sqrt_mul hdx.le]
  calc Real.sqrt dx * Real.sqrt (∑ x, (steps eps N x0 dx P 3 dt n f s x v - g (periodicCoord N x0 dx x - n * δ)) ^ 2)
      ≤ Real.sqrt dx * (n * (Real.sqrt N * B)) := mul_le_mul_of_nonneg_left key (Real.sqrt_nonneg _)
    _ = n * (Real.sqrt (N * dx) * B) := by rw [Real.sqrt_mul (Nat.cast_nonneg _)]; ring

end

/-- A sine wave of period 8 on eight points, electrons with velocities -1 and 1: ten steps of the cubic advection. -/
example : Real.sqrt (1 * ∑ x : ZMod 8, (steps 0 8 0 1 plasma2 3 0.1 10 (fun _ x _ => Real.sin (Real.pi / 4 * periodicCoord 8 0 1 x)) 1 x 1
      - (fun t => Real.sin (Real.pi / 4 * t)) (periodicCoord 8 0 1 x - (10 : ℕ) * (Real.sqrt (plasma2.massElec / plasma2.mass 1) * 0.1 * plasma2.vel 1))) ^ 2) ≤
    (10 : ℕ) * (Real.sqrt ((8 : ℕ) * 1) * max ((Real.pi / 4) ^ 4 / 16 * 1 ^ 4) (Real.pi / 4 * (0 * 1))) := by
  have hd : ∀ t, HasDerivAt (fun t : ℝ => Real.sin (Real.pi / 4 * t)) (Real.pi / 4 * Real.cos (Real.pi / 4 * t)) t := fun t => by
    have := (Real.hasDerivAt_sin (Real.pi / 4 * t)).comp t ((hasDerivAt_id t).const_mul (Real.pi / 4))
    simpa [Function.comp_def, mul_comm] using this
  refine c95_advection_cubic 0 le_rfl (by norm_num) 8 0 1 one_pos (by norm_num) plasma2 (fun t => Real.sin (Real.pi / 4 * t)) (by fun_prop) (fun t => ?_)
    ((Real.pi / 4) ^ 4) (Real.pi / 4) (fun t => ?_) (fun t => ?_) 0.1 _ 1 1 (fun x => rfl) 10
  · rw [show Real.pi / 4 * (t + (8 : ℕ) * 1) = Real.pi / 4 * t + 2 * Real.pi by push_cast; ring, Real.sin_add_two_pi]
  · rw [iteratedDeriv_comp_const_mul (by fun_prop)]
    simp only [abs_mul, abs_pow]
    rw [abs_of_nonneg (by positivity : 0 ≤ Real.pi / 4)]
    refine mul_le_of_le_one_right (by positivity) ?_
    rw [show (4 : ℕ) = 2 * 2 from rfl, Real.iteratedDeriv_even_sin 2]
    simpa using Real.abs_sin_le_one _
  · rw [(hd t).deriv, abs_mul, abs_of_nonneg (by positivity : 0 ≤ Real.pi / 4)]
    exact mul_le_of_le_one_right (by positivity) (Real.abs_cos_le_one _)

end Verif.AccuracyAdvection
