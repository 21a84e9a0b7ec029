import Verif.Props.InterfaceDerivs
import Mathlib.Algebra.BigOperators.Intervals

/-!
# C72, uniform cells on each patch
-/

namespace Verif.InterfaceDerivs

open Finset

variable {p1 p2 : Patch}

/-- The points are equally spaced with the given distance. -/
def Patch.Uniform (p : Patch) (δ : ℝ) : Prop := 0 < δ ∧ ∀ i, p.front ≤ i → i ≤ p.back → p.x i = p.x p.front + (i - p.front) * δ

theorem Patch.Uniform.increasing {p : Patch} {δ : ℝ} (h : p.Uniform δ) : p.Increasing := by
  intro i j hi hij hj
  rw [h.2 i hi (by omega), h.2 j (by omega) hj]
  have : (i : ℝ) < j := by exact_mod_cast hij
  have := mul_lt_mul_of_pos_right (sub_lt_sub_right this (p.front : ℝ)) h.1
  linarith

theorem Patch.Uniform.h_eq {p : Patch} {δ : ℝ} (h : p.Uniform δ) (k : ℕ) (hk : k + 1 < p.size) : p.h k = δ := by
  have m1 := Finset.mem_Icc.1 (pos_mem p k (by omega))
  have m2 := Finset.mem_Icc.1 (pos_mem p (k + 1) hk)
  unfold Patch.h
  rw [h.2 _ m1.1 m1.2, h.2 _ m2.1 m2.2]
  have e : ((p.pos (k + 1) : ℤ) : ℝ) - p.pos k = p.step := by
    unfold Patch.pos
    push_cast
    ring
  have : p.x p.front + ((p.pos (k + 1) : ℤ) - (p.front : ℝ)) * δ - (p.x p.front + ((p.pos k : ℤ) - (p.front : ℝ)) * δ) = p.step * δ := by
    rw [← e]; ring
  rw [this, abs_mul, abs_of_pos h.1]
  have : |((p.step : ℤ) : ℝ)| = 1 := by unfold Patch.step; split <;> simp
  rw [this, one_mul]

theorem Patch.Uniform.dist_eq {p : Patch} {δ : ℝ} (h : p.Uniform δ) (k : ℕ) (hk : k < p.size) : p.dist (p.pos k) = k * δ := by
  induction k with
  | zero => simp [dist_itf]
  | succ k ih =>
    rw [dist_succ p h.increasing k hk, ih (by omega), h.h_eq k hk]
    push_cast
    ring

/-! ## The sequence `u_n` -/

theorem un_zero : un 0 = 0 := by simp [un]

theorem un_one : un 1 = 2 * Real.sqrt 3 := by simp [un]; ring

theorem un_rec (n : ℕ) : un (n + 2) = 4 * un (n + 1) - un n := by
  have h : Real.sqrt 3 ^ 2 = 3 := Real.sq_sqrt (by norm_num)
  have h1 : (2 + Real.sqrt 3) ^ 2 = 4 * (2 + Real.sqrt 3) - 1 := by linear_combination h
  have h2 : (2 - Real.sqrt 3) ^ 2 = 4 * (2 - Real.sqrt 3) - 1 := by linear_combination h
  unfold un
  rw [pow_add _ n 2, pow_add _ n 2, h1, h2]
  ring

theorem un_mono (n : ℕ) : 0 ≤ un n ∧ 2 * un n ≤ un (n + 1) ∧ 0 < un (n + 1) := by
  induction n with
  | zero => rw [un_zero, un_one]; have := Real.sqrt_pos.2 (show (0 : ℝ) < 3 by norm_num); refine ⟨le_refl _, by linarith, by linarith⟩
  | succ n ih =>
    have := un_rec n
    refine ⟨ih.2.2.le, ?_, ?_⟩ <;> rw [this] <;> linarith [ih.1, ih.2.1, ih.2.2]

/-! ## Elimination of the inner derivatives -/

/-- Weight of the point at distance `j + 1` (without the factor). -/
noncomputable def V (N j : ℕ) : ℝ := if j + 1 < N then (-1) ^ (j + 1) * (un (N - j) - un (N - j - 2)) else (-1) ^ N * un 1

theorem uniform_chain (h : ℝ) (N : ℕ) : ∀ (F d : ℕ → ℝ), (∀ k, k + 1 < N + 1 → d (k + 2) + 4 * d (k + 1) + d k = 3 / h * (F (k + 2) - F k)) →
    un (N + 1) * d 1 + un N * d 0 = (-1) ^ N * un 1 * d (N + 1) + 3 / h * (-un N * F 0 + un (N + 1) * F 1 + ∑ j ∈ range (N + 1), V (N + 1) j * F (j + 1)) := by
  induction N with
  | zero =>
    intro F d _
    simp [V, un_zero]
  | succ N ih =>
    intro F d hd
    have i := ih (fun k => F (k + 1)) (fun k => d (k + 1)) (fun k hk => hd (k + 1) (by omega))
    have h0 := hd 0 (by omega)
    simp only [zero_add] at h0 i
    rw [Finset.sum_range_succ']
    have hV : ∀ j ∈ range (N + 1), V (N + 1 + 1) (j + 1) * F (j + 1 + 1) = -(V (N + 1) j * F (j + 1 + 1)) := by
      intro j _
      unfold V
      have e1 : N + 1 + 1 - (j + 1) = N + 1 - j := by omega
      rw [e1]
      by_cases hj : j + 1 < N + 1
      · rw [if_pos hj, if_pos (by omega)]; ring
      · rw [if_neg hj, if_neg (by omega)]; ring
    have hV0 : V (N + 1 + 1) 0 = -(un (N + 2) - un N) := by
      unfold V
      rw [if_pos (by omega)]
      have : N + 1 + 1 - 0 - 2 = N := by omega
      simp [this]
    rw [Finset.sum_congr rfl hV, Finset.sum_neg_distrib, hV0]
    have hr := un_rec N
    have e1 : (-1 : ℝ) ^ (N + 1) = -(-1) ^ N := by ring
    rw [e1]
    have e2 : N + 1 + 1 = N + 2 := rfl
    simp only [e2, zero_add] at i ⊢
    linear_combination (un (N + 1)) * h0 - i + d 1 * hr

/-! ## Sums over a patch -/

theorem sum_positions (p : Patch) (g : ℤ → ℝ) (hp : 0 < p.size) : ∑ j ∈ Finset.Icc p.front p.back, g j = ∑ k ∈ range p.size, g (p.pos k) := by
  symm
  refine Finset.sum_bij (fun k _ => p.pos k) (fun k hk => pos_mem p k (by simpa using hk)) (fun a _ b _ e => pos_inj p a b e) ?_ (fun _ _ => rfl)
  intro j hj
  rw [Finset.mem_Icc] at hj
  refine ⟨(j - p.itf).natAbs, ?_, ?_⟩
  · rw [Finset.mem_range]; unfold Patch.itf Patch.back at *; split <;> omega
  · unfold Patch.pos Patch.step Patch.itf Patch.back at *; split <;> omega

theorem sum_inner2 (p2 : Patch) (g : ℤ → ℝ) : ∑ j ∈ inner2 p2, g j = ∑ k ∈ range (p2.size - 1), g (p2.pos (k + 1)) := by
  symm
  refine Finset.sum_bij (fun k _ => p2.pos (k + 1)) (fun k hk => pos_inner2 k (by have := Finset.mem_range.1 hk; omega))
    (fun a _ b _ e => by have := pos_inj p2 _ _ e; omega) ?_ (fun _ _ => rfl)
  intro j hj
  refine ⟨(j - p2.itf).natAbs - 1, ?_, ?_⟩
  · rw [Finset.mem_range]; unfold inner2 Patch.itf Patch.back at *; split at hj <;> simp_all <;> omega
  · unfold inner2 Patch.pos Patch.step Patch.itf Patch.back at *; split at hj <;> simp_all <;> omega

theorem pos_natAbs (p : Patch) (k : ℕ) : (p.pos k - p.itf).natAbs = k := by
  unfold Patch.pos Patch.step; split <;> omega

theorem parity (n : ℕ) : (-1 : ℝ) ^ (n % 2) = (-1) ^ n := by
  conv_rhs => rw [← Nat.div_add_mod n 2, pow_add, pow_mul]
  norm_num

/-- The weighted sum of the values. -/
theorem fc_uniform (L R : ℝ) (N1 N2 : ℕ) (h1 : p1.size = N1 + 2) (h2 : p2.size = N2 + 2) (f1 f2 : ℤ → ℝ) :
    functionCoeffs p1 p2 (uniformRow p1 p2 L R) f1 f2 = (uniformRow p1 p2 L R).w1 p1.itf * f1 (p1.pos 0) -
      3 * beta L R / L / (un (N1 + 1) * un (N2 + 1) + un (N1 + 1) * un N2 * alpha L R + un N1 * un (N2 + 1) * beta L R) * un (N2 + 1) *
        (∑ j ∈ range (N1 + 1), V (N1 + 1) j * f1 (p1.pos (j + 1))) +
      3 * alpha L R / R / (un (N1 + 1) * un (N2 + 1) + un (N1 + 1) * un N2 * alpha L R + un N1 * un (N2 + 1) * beta L R) * un (N1 + 1) *
        (∑ j ∈ range (N2 + 1), V (N2 + 1) j * f2 (p2.pos (j + 1))) := by
  rw [fc_eq, sum_inner2, sum_positions p1 _ (by omega), h1, h2, Finset.sum_range_succ']
  have e1 : N1 + 2 - 1 = N1 + 1 := rfl
  have e2 : N2 + 2 - 1 = N2 + 1 := rfl
  have ha : -0.5 * L / (L + R) = alpha L R := by unfold alpha; rw [add_comm]
  have hb : -0.5 * R / (L + R) = beta L R := by unfold beta; rw [add_comm]
  have s1 : ∀ j ∈ range (N1 + 1), f1 (p1.pos (j + 1)) * (uniformRow p1 p2 L R).w1 (p1.pos (j + 1)) =
      -(3 * beta L R / L / (un (N1 + 1) * un (N2 + 1) + un (N1 + 1) * un N2 * alpha L R + un N1 * un (N2 + 1) * beta L R) * un (N2 + 1) *
        (V (N1 + 1) j * f1 (p1.pos (j + 1)))) := by
    intro j hj
    have hj' := Finset.mem_range.1 hj
    simp only [uniformRow, h1, h2, pos_natAbs, e1, e2, ha, hb, Nat.add_eq_zero_iff, one_ne_zero, and_false, if_false, Nat.add_sub_cancel, parity, V]
    by_cases hlt : j + 1 < N1 + 1
    · rw [if_pos hlt, if_pos hlt]
      have a1 : N1 + 1 - (j + 1) + 1 = N1 + 1 - j := by omega
      have a2 : N1 + 1 - (j + 1) - 1 = N1 + 1 - j - 2 := by omega
      rw [a1, a2]
      ring
    · rw [if_neg hlt, if_neg hlt, un_one]; ring
  have s2 : ∀ j ∈ range (N2 + 1), f2 (p2.pos (j + 1)) * (uniformRow p1 p2 L R).w2 (p2.pos (j + 1)) =
      3 * alpha L R / R / (un (N1 + 1) * un (N2 + 1) + un (N1 + 1) * un N2 * alpha L R + un N1 * un (N2 + 1) * beta L R) * un (N1 + 1) *
        (V (N2 + 1) j * f2 (p2.pos (j + 1))) := by
    intro j hj
    have hj' := Finset.mem_range.1 hj
    simp only [uniformRow, h1, h2, pos_natAbs, e1, e2, ha, hb, Nat.add_eq_zero_iff, one_ne_zero, and_false, if_false, Nat.add_sub_cancel, parity, V]
    by_cases hlt : j + 1 < N2 + 1
    · rw [if_pos hlt, if_pos hlt]
      have a1 : N2 + 1 - (j + 1) + 1 = N2 + 1 - j := by omega
      have a2 : N2 + 1 - (j + 1) - 1 = N2 + 1 - j - 2 := by omega
      rw [a1, a2]
      ring
    · rw [if_neg hlt, if_neg hlt, un_one]; ring
  rw [e2, Finset.sum_congr rfl s1, Finset.sum_congr rfl s2, Finset.sum_neg_distrib, ← Finset.mul_sum, ← Finset.mul_sum, pos_zero]
  ring

theorem denominator_pos (L R : ℝ) (hL : 0 < L) (hR : 0 < R) (N1 N2 : ℕ) :
    0 < un (N1 + 1) * un (N2 + 1) + un (N1 + 1) * un N2 * alpha L R + un N1 * un (N2 + 1) * beta L R := by
  have a := alpha_bounds L R hL hR
  have b := beta_bounds L R hL hR
  have u1 := un_mono N1
  have u2 := un_mono N2
  have q1 : 0 ≤ un (N1 + 1) * un N2 * (alpha L R + 1 / 2) := mul_nonneg (mul_nonneg u1.2.2.le u2.1) (by linarith)
  have q2 : 0 ≤ un N1 * un (N2 + 1) * (beta L R + 1 / 2) := mul_nonneg (mul_nonneg u1.1 u2.2.2.le) (by linarith)
  have q3 : un (N1 + 1) * un N2 ≤ un (N1 + 1) * (un (N2 + 1) / 2) := mul_le_mul_of_nonneg_left (by linarith [u2.2.1]) u1.2.2.le
  have q4 : un N1 * un (N2 + 1) ≤ un (N1 + 1) / 2 * un (N2 + 1) := mul_le_mul_of_nonneg_right (by linarith [u1.2.1]) u2.2.2.le
  have q5 : 0 < un (N1 + 1) * un (N2 + 1) := mul_pos u1.2.2 u2.2.2
  nlinarith

/-- The coefficients of the uniform case, for values and derivatives satisfying the relations of cubic splines with cells of lengths `δ1`, `δ2`, when they are
computed with other lengths `L`, `R`. -/
theorem uniform_value (δ1 δ2 L R : ℝ) (hL : 0 < L) (hR : 0 < R) (N1 N2 : ℕ) (h1 : p1.size = N1 + 2) (h2 : p2.size = N2 + 2) (hδ1 : δ1 ≠ 0) (hδ2 : δ2 ≠ 0)
    (f1 f2 : ℤ → ℝ) (d1 d2 : ℕ → ℝ) (hd : d1 0 = d2 0) (hf : f1 (p1.pos 0) = f2 (p2.pos 0))
    (r2 : ∀ k, k + 1 < N2 + 1 → d2 (k + 2) + 4 * d2 (k + 1) + d2 k = 3 / δ2 * (f2 (p2.pos (k + 2)) - f2 (p2.pos k)))
    (r1 : ∀ k, k + 1 < N1 + 1 → d1 (k + 2) + 4 * d1 (k + 1) + d1 k = 3 / (-δ1) * (f1 (p1.pos (k + 2)) - f1 (p1.pos k))) :
    (functionCoeffs p1 p2 (uniformRow p1 p2 L R) f1 f2 + (uniformRow p1 p2 L R).cd2 * d2 (N2 + 1) + (uniformRow p1 p2 L R).cd1 * d1 (N1 + 1)) *
      (un (N1 + 1) * un (N2 + 1) + un (N1 + 1) * un N2 * alpha L R + un N1 * un (N2 + 1) * beta L R) =
    un (N1 + 1) * un (N2 + 1) * (3 * alpha L R / R - 3 * beta L R / L) * f2 (p2.pos 0) - 3 * alpha L R / R * un (N1 + 1) * un (N2 + 1) * f2 (p2.pos 1) +
      3 * beta L R / L * un (N1 + 1) * un (N2 + 1) * f1 (p1.pos 1) +
      alpha L R * un (N1 + 1) * (δ2 / R * (un (N2 + 1) * d2 1 + un N2 * d2 0) + (1 - δ2 / R) * ((-1) ^ N2 * un 1 * d2 (N2 + 1))) +
      beta L R * un (N2 + 1) * (δ1 / L * (un (N1 + 1) * d1 1 + un N1 * d2 0) + (1 - δ1 / L) * ((-1) ^ N1 * un 1 * d1 (N1 + 1))) := by
  have hD := (denominator_pos L R hL hR N1 N2).ne'
  rw [fc_uniform L R N1 N2 h1 h2]
  have e1 : N1 + 2 - 1 = N1 + 1 := rfl
  have e2 : N2 + 2 - 1 = N2 + 1 := rfl
  have ha : -0.5 * L / (L + R) = alpha L R := by unfold alpha; rw [add_comm]
  have hb : -0.5 * R / (L + R) = beta L R := by unfold beta; rw [add_comm]
  have c2 := uniform_chain δ2 N2 (fun k => f2 (p2.pos k)) d2 r2
  have c1 := uniform_chain (-δ1) N1 (fun k => f1 (p1.pos k)) d1 r1
  generalize ∑ j ∈ range (N1 + 1), V (N1 + 1) j * f1 (p1.pos (j + 1)) = S1 at *
  generalize ∑ j ∈ range (N2 + 1), V (N2 + 1) j * f2 (p2.pos (j + 1)) = S2 at *
  rw [hd, hf] at *
  have hS2 : S2 = δ2 / 3 * (un (N2 + 1) * d2 1 + un N2 * d2 0 - (-1) ^ N2 * un 1 * d2 (N2 + 1)) + un N2 * f2 (p2.pos 0) - un (N2 + 1) * f2 (p2.pos 1) := by
    field_simp at c2 ⊢
    linear_combination -c2
  have hS1 : S1 = -δ1 / 3 * (un (N1 + 1) * d1 1 + un N1 * d2 0 - (-1) ^ N1 * un 1 * d1 (N1 + 1)) + un N1 * f2 (p2.pos 0) - un (N1 + 1) * f1 (p1.pos 1) := by
    field_simp at c1 ⊢
    linear_combination c1
  rw [hS1, hS2]
  simp only [uniformRow, h1, h2, sub_self, Int.natAbs_zero, if_true, e1, e2, ha, hb, Nat.add_sub_cancel, parity, ← un_one]
  generalize hDD : un (N1 + 1) * un (N2 + 1) + un (N1 + 1) * un N2 * alpha L R + un N1 * un (N2 + 1) * beta L R = D at *
  field_simp
  ring

theorem gammas_eq (L R : ℝ) (hL : 0 < L) (hR : 0 < R) :
    gammas L R = (3 * beta L R / L, 3 * alpha L R / R - 3 * beta L R / L, -(3 * alpha L R / R)) := by
  have half : (0.5 : ℝ) = 1 / 2 := by norm_num
  have hL' := hL.ne'
  have hR' := hR.ne'
  have hs : L + R ≠ 0 := (add_pos hL hR).ne'
  have hs' : R + L ≠ 0 := (add_pos hR hL).ne'
  unfold gammas alpha beta
  simp only [half, Prod.mk.injEq]
  refine ⟨?_, ?_, ?_⟩ <;> field_simp <;> ring

theorem gammas_same (δ : ℝ) (h : 0 < δ) : gammas δ δ = (-(3 / (4 * δ)), 0, 3 / (4 * δ)) ∧ alpha δ δ = -(1 / 4) ∧ beta δ δ = -(1 / 4) := by
  have half : (0.5 : ℝ) = 1 / 2 := by norm_num
  have h' := h.ne'
  have hs : δ + δ ≠ 0 := (add_pos h h).ne'
  unfold gammas alpha beta
  simp only [half, Prod.mk.injEq]
  refine ⟨⟨?_, ?_, ?_⟩, ?_, ?_⟩ <;> field_simp <;> ring

/-- Relations of splines on uniform patches. -/
theorem uniform_rels {δ1 δ2 : ℝ} (hu1 : p1.Uniform δ1) (hu2 : p2.Uniform δ2) (N1 N2 : ℕ) (h1 : p1.size = N1 + 2) (h2 : p2.size = N2 + 2) (s : ℝ → ℝ)
    (hs : GlobalSpline p1 p2 false false s) :
    (∀ k, k + 1 < N2 + 1 → deriv s (p2.dist (p2.pos (k + 2))) + 4 * deriv s (p2.dist (p2.pos (k + 1))) + deriv s (p2.dist (p2.pos k)) =
      3 / δ2 * (s (p2.dist (p2.pos (k + 2))) - s (p2.dist (p2.pos k)))) ∧
    (∀ k, k + 1 < N1 + 1 → deriv s (-p1.dist (p1.pos (k + 2))) + 4 * deriv s (-p1.dist (p1.pos (k + 1))) + deriv s (-p1.dist (p1.pos k)) =
      3 / (-δ1) * (s (-p1.dist (p1.pos (k + 2))) - s (-p1.dist (p1.pos k)))) := by
  have hr := spline_right hs hu1.increasing hu2.increasing (by simp [Patch.plain, Patch.cells, h1]) (by simp [Patch.plain, Patch.cells, h2])
  have hl := spline_left hs hu1.increasing
  have q1 : p1.plain false = N1 + 1 := by simp [Patch.plain, Patch.cells, h1]
  have q2 : p2.plain false = N2 + 1 := by simp [Patch.plain, Patch.cells, h2]
  have hδ1 := hu1.1.ne'
  have hδ2 := hu2.1.ne'
  constructor
  · intro k hk
    have := hr.nodes k (by omega)
    rw [hu2.h_eq k (by omega), hu2.h_eq (k + 1) (by omega)] at this
    obtain ⟨g, a, b⟩ := gammas_same δ2 hu2.1
    rw [g, a, b] at this
    field_simp at this ⊢
    linear_combination this
  · intro k hk
    have := hl k (by omega)
    rw [hu1.h_eq k (by omega), hu1.h_eq (k + 1) (by omega)] at this
    obtain ⟨g, a, b⟩ := gammas_same δ1 hu1.1
    rw [g, a, b] at this
    field_simp at this ⊢
    linear_combination this

/-- **C72** Uniform patches: the closed formulas with the length of patch 1 on the left and the one of patch 2 on the right are exact, for any numbers of cells. -/
theorem c72_uniform_formula {δ1 δ2 : ℝ} (hu1 : p1.Uniform δ1) (hu2 : p2.Uniform δ2) (h1 : 2 ≤ p1.size) (h2 : 2 ≤ p2.size) :
    Exact p1 p2 false false (uniformRow p1 p2 δ1 δ2) (p1.cells false) (p2.cells false) := by
  obtain ⟨N1, hN1⟩ : ∃ n, p1.size = n + 2 := ⟨p1.size - 2, by omega⟩
  obtain ⟨N2, hN2⟩ : ∃ n, p2.size = n + 2 := ⟨p2.size - 2, by omega⟩
  intro s hs
  obtain ⟨r2, r1⟩ := uniform_rels hu1 hu2 N1 N2 hN1 hN2 s hs
  have hr := spline_right hs hu1.increasing hu2.increasing (by simp [Patch.plain, Patch.cells, hN1]) (by simp [Patch.plain, Patch.cells, hN2])
  have hv := uniform_value δ1 δ2 δ1 δ2 hu1.1 hu2.1 N1 N2 hN1 hN2 hu1.1.ne' hu2.1.ne' (fun j => s (-p1.dist j)) (fun j => s (p2.dist j))
    (fun k => deriv s (-p1.dist (p1.pos k))) (fun k => deriv s (p2.dist (p2.pos k))) hr.hd hr.hf r2 r1
  have hi := hr.itf
  rw [hu1.h_eq 0 (by omega), hu2.h_eq 0 (by omega), gammas_eq δ1 δ2 hu1.1 hu2.1, hr.hf] at hi
  have hD := (denominator_pos δ1 δ2 hu1.1 hu2.1 N1 N2).ne'
  rw [div_self hu1.1.ne', div_self hu2.1.ne'] at hv
  have c1 : p1.cells false = N1 + 1 := by simp [Patch.cells, hN1]
  have c2 : p2.cells false = N2 + 1 := by simp [Patch.cells, hN2]
  rw [c1, c2, brk_pos _ false _ (Or.inl rfl), brk_pos _ false _ (Or.inl rfl)]
  rw [← mul_left_inj' hD, hv]
  have e0 : deriv s 0 = deriv s (p2.dist (p2.pos 0)) := by rw [dist_itf]
  rw [e0]
  simp only [] at hi
  linear_combination (un (N1 + 1) * un (N2 + 1)) * hi

/-- **C72** The uniform case of the class: exact when both patches have the same cell length, for any numbers of cells. -/
theorem c72_uniform {δ : ℝ} (hu1 : p1.Uniform δ) (hu2 : p2.Uniform δ) (h1 : 2 ≤ p1.size) (h2 : 2 ≤ p2.size) :
    Exact p1 p2 false false (uniform p1 p2) (p1.cells false) (p2.cells false) := by
  have hl := cellLengths_itf1 p1 p2
  rw [pos_zero, hu1.h_eq 0 (by omega), hu2.h_eq 0 (by omega)] at hl
  unfold uniform
  rw [hl]
  exact c72_uniform_formula hu1 hu2 h1 h2

theorem id_spline (e1 e2 : Bool) : GlobalSpline p1 p2 e1 e2 (fun z => z) :=
  ⟨contDiff_id, fun _ _ => ⟨0, 1, 0, 0, fun z _ _ => by ring⟩, fun _ _ => ⟨0, 1, 0, 0, fun z _ _ => by ring⟩⟩

/-- **C72, finding** The uniform case reads the lengths at the interface index of patch 1, where the first one is the length of *patch 2*. With as many cells on both
patches and different cell lengths the coefficients are always wrong. -/
theorem c72_uniform_wrong {δ1 δ2 : ℝ} (hu1 : p1.Uniform δ1) (hu2 : p2.Uniform δ2) (h1 : 2 ≤ p1.size) (h12 : p1.size = p2.size) (hne : δ1 ≠ δ2) :
    ¬Exact p1 p2 false false (uniform p1 p2) (p1.cells false) (p2.cells false) := by
  obtain ⟨N, hN1⟩ : ∃ n, p1.size = n + 2 := ⟨p1.size - 2, by omega⟩
  have hN2 : p2.size = N + 2 := by omega
  intro hx
  have hs := id_spline (p1 := p1) (p2 := p2) false false
  have he := hx _ hs
  have hd : ∀ z : ℝ, deriv (fun z : ℝ => z) z = 1 := fun z => by simp
  obtain ⟨r2, r1⟩ := uniform_rels hu1 hu2 N N hN1 hN2 _ hs
  simp only [hd] at he r1 r2
  have hl := cellLengths_itf1 p1 p2
  rw [pos_zero, hu1.h_eq 0 (by omega), hu2.h_eq 0 (by omega)] at hl
  unfold uniform at he
  rw [hl] at he
  simp only [] at he
  have hv := uniform_value δ1 δ2 δ2 δ1 hu2.1 hu1.1 N N hN1 hN2 hu1.1.ne' hu2.1.ne' (fun j => -p1.dist j) (fun j => p2.dist j) (fun _ => 1) (fun _ => 1) rfl
    (by simp [dist_itf]) r2 r1
  rw [← he] at hv
  simp only [dist_itf, hu1.dist_eq 1 (by omega), hu2.dist_eq 1 (by omega), mul_zero, zero_sub, Nat.cast_one, one_mul, mul_one] at hv
  have u := un_mono N
  have a0 := hu1.1
  have b0 := hu2.1
  have a0' := a0.ne'
  have b0' := b0.ne'
  have hsum : δ1 + δ2 ≠ 0 := (add_pos a0 b0).ne'
  have half : (0.5 : ℝ) = 1 / 2 := by norm_num
  have hpm : (-1 : ℝ) ^ N * un 1 ≤ un 1 ∧ -un 1 ≤ (-1 : ℝ) ^ N * un 1 := by
    have := (un_mono 0).2.2
    rcases neg_one_pow_eq_or ℝ N with h | h <;> rw [h] <;> constructor <;> linarith
  have u1 : un 1 ≤ un (N + 1) := by
    have : ∀ n, un 1 ≤ un (n + 1) := by
      intro n
      induction n with
      | zero => exact le_refl _
      | succ n ih => have := (un_mono (n + 1)); linarith [this.1, this.2.1, (un_mono n).2.2]
    exact this N
  -- factor out
  have key : un (N + 1) * (δ1 - δ2) * (2 * un (N + 1) - un N + (-1) ^ N * un 1) = 0 := by
    simp only [alpha, beta, half] at hv
    field_simp at hv
    have h2 : ((δ1 + δ2) * (δ1 - δ2)) * (un (N + 1) * (δ1 - δ2) * (2 * un (N + 1) - un N + (-1) ^ N * un 1)) = 0 := by
      linear_combination -hv
    exact (mul_eq_zero.1 h2).resolve_left (mul_ne_zero hsum (sub_ne_zero.2 hne))
  have hq : 0 < 2 * un (N + 1) - un N + (-1) ^ N * un 1 := by linarith [u.1, u.2.1, u.2.2, hpm.2]
  rcases mul_eq_zero.1 key with k | k
  · rcases mul_eq_zero.1 k with k | k
    · linarith [u.2.2]
    · exact hne (by linarith)
  · linarith

/-! ### Non-vacuity -/

noncomputable def exU (e : Ext) (n : ℕ) (δ : ℝ) : Patch := ⟨e, 3, n, fun i => 7 + i * δ⟩

theorem exU_uniform (e : Ext) (n : ℕ) (δ : ℝ) (h : 0 < δ) : (exU e n δ).Uniform δ :=
  ⟨h, fun i _ _ => by simp only [exU]; push_cast; ring⟩

example : Exact (exU .back 4 2) (exU .front 6 2) false false (uniform (exU .back 4 2) (exU .front 6 2)) 3 5 :=
  c72_uniform (exU_uniform _ _ _ (by norm_num)) (exU_uniform _ _ _ (by norm_num)) (by simp [exU]) (by simp [exU])

example : ¬Exact (exU .back 4 2) (exU .front 4 1) false false (uniform (exU .back 4 2) (exU .front 4 1)) 3 3 :=
  c72_uniform_wrong (exU_uniform _ _ 2 (by norm_num)) (exU_uniform _ _ 1 (by norm_num)) (by simp [exU]) (by simp [exU]) (by norm_num)

end Verif.InterfaceDerivs
