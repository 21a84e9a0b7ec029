import Verif.Model.BSpline
import Verif.Props.Fem
import Mathlib.Algebra.Polynomial.Roots
import Mathlib.Algebra.Polynomial.Degree.Lemmas
import Mathlib.Tactic.Linarith
import Mathlib.Tactic.Positivity
import Mathlib.Tactic.FieldSimp
import Mathlib.Tactic.Ring
import Mathlib.Tactic.LinearCombination

/-!
# B-splines: support, partition of unity, linear precision, derivatives, independence, continuity
-/

namespace Verif.BSpline

open Polynomial Finset

variable {t : ℤ → ℝ} {c : ℤ}

theorem piece_support (p : ℕ) (i : ℤ) (h : i < c - p ∨ c < i) : piece t c p i = 0 := by
  induction p generalizing i with
  | zero => rw [piece, if_neg (by push_cast at h; omega)]
  | succ p ih =>
    push_cast at h
    rw [piece, ih i (by omega), ih (i + 1) (by omega)]
    ring

theorem piece_succ (p : ℕ) (i : ℤ) :
    piece t c (p + 1) i = C (1 / (t (i + p + 1) - t i)) * (X - C (t i)) * piece t c p i + C (1 / (t (i + p + 2) - t (i + 1))) * (C (t (i + p + 2)) - X) * piece t c p (i + 1) := by
  rw [piece]

/-- The denominators of the terms which occur are positive. -/
theorem den_pos (ht : Monotone t) (hc : t c < t (c + 1)) (p : ℕ) (i : ℤ) (h1 : c - p ≤ i) (h2 : i ≤ c) : 0 < t (i + p + 1) - t i := by
  have a := ht h2
  have b : t (c + 1) ≤ t (i + p + 1) := ht (by omega)
  linarith

theorem den_mul (ht : Monotone t) (hc : t c < t (c + 1)) (p : ℕ) (i : ℤ) : C (1 / (t (i + p + 1) - t i)) * (C (t (i + p + 1)) - C (t i)) * piece t c p i = piece t c p i := by
  by_cases h : i < c - p ∨ c < i
  · rw [piece_support p i h, mul_zero]
  · have := den_pos ht hc p i (by omega) (by omega)
    rw [← C_sub, ← C_mul, one_div_mul_cancel this.ne', C_1, one_mul]

/-- Sums over the `p + 2` B-splines of degree `p + 1` in terms of those of degree `p`. -/
theorem sum_step (p : ℕ) (a : ℤ → ℝ[X]) :
    ∑ j ∈ range (p + 2), a (c - (p + 1) + j) * piece t c (p + 1) (c - (p + 1) + j) =
      ∑ j ∈ range (p + 1), (a (c - p + j) * (X - C (t (c - p + j))) + a (c - p + j - 1) * (C (t (c - p + j + p + 1)) - X)) *
        (C (1 / (t (c - p + j + p + 1) - t (c - p + j))) * piece t c p (c - p + j)) := by
  have e1 : ∑ j ∈ range (p + 2), a (c - (p + 1) + j) * (C (1 / (t (c - (p + 1) + j + p + 1) - t (c - (p + 1) + j))) * (X - C (t (c - (p + 1) + j))) * piece t c p (c - (p + 1) + j)) =
      ∑ j ∈ range (p + 1), a (c - p + j) * (C (1 / (t (c - p + j + p + 1) - t (c - p + j))) * (X - C (t (c - p + j))) * piece t c p (c - p + j)) := by
    rw [sum_range_succ', piece_support (t := t) p (c - (p + 1) + ((0 : ℕ) : ℤ)) (by push_cast; omega)]
    simp only [mul_zero, add_zero]
    refine sum_congr rfl fun j _ => ?_
    rw [show c - ((p : ℤ) + 1) + ((j + 1 : ℕ) : ℤ) = c - p + j by push_cast; ring]
  have e2 : ∑ j ∈ range (p + 2), a (c - (p + 1) + j) * (C (1 / (t (c - (p + 1) + j + p + 2) - t (c - (p + 1) + j + 1))) * (C (t (c - (p + 1) + j + p + 2)) - X) * piece t c p (c - (p + 1) + j + 1)) =
      ∑ j ∈ range (p + 1), a (c - p + j - 1) * (C (1 / (t (c - p + j + p + 1) - t (c - p + j))) * (C (t (c - p + j + p + 1)) - X) * piece t c p (c - p + j)) := by
    rw [sum_range_succ, piece_support (t := t) p (c - (p + 1) + ((p + 1 : ℕ) : ℤ) + 1) (by push_cast; omega)]
    simp only [mul_zero, add_zero]
    refine sum_congr rfl fun j _ => ?_
    rw [show c - ((p : ℤ) + 1) + (j : ℤ) + 1 = c - p + j by ring, show c - ((p : ℤ) + 1) + (j : ℤ) + p + 2 = c - p + j + p + 1 by ring, show c - ((p : ℤ) + 1) + (j : ℤ) = c - p + j - 1 by ring]
  simp only [piece, mul_add, sum_add_distrib]
  rw [e1, e2, ← sum_add_distrib]
  refine sum_congr rfl fun j _ => by ring

/-- Partition of unity. -/
theorem unity (ht : Monotone t) (hc : t c < t (c + 1)) (p : ℕ) : ∑ j ∈ range (p + 1), piece t c p (c - p + j) = 1 := by
  induction p with
  | zero => simp [piece]
  | succ p ih =>
    have h := sum_step (t := t) (c := c) p (fun _ => 1)
    simp only [one_mul] at h
    push_cast at h ⊢
    rw [h, ← ih]
    refine sum_congr rfl fun j _ => ?_
    have := den_mul ht hc p (c - p + j)
    linear_combination this

theorem den_mul' (ht : Monotone t) (hc : t c < t (c + 1)) (p : ℕ) (i lo hi : ℤ) (h1 : i ≤ c → lo ≤ c) (h2 : c - p ≤ i → c + 1 ≤ hi) :
    C (1 / (t hi - t lo)) * (C (t hi) - C (t lo)) * piece t c p i = piece t c p i := by
  by_cases h : i < c - p ∨ c < i
  · rw [piece_support p i h, mul_zero]
  · have a := ht (h1 (by omega))
    have b := ht (h2 (by omega))
    rw [← C_sub, ← C_mul, one_div_mul_cancel (by linarith), C_1, one_mul]

/-- The derivative of a B-spline. -/
theorem deriv_piece (ht : Monotone t) (hc : t c < t (c + 1)) (p : ℕ) (i : ℤ) :
    derivative (piece t c (p + 1) i) = (p + 1 : ℝ[X]) * (C (1 / (t (i + p + 1) - t i)) * piece t c p i - C (1 / (t (i + p + 2) - t (i + 1))) * piece t c p (i + 1)) := by
  induction p generalizing i with
  | zero =>
    simp only [piece]
    split_ifs <;> simp [sub_eq_add_neg]
  | succ p ih =>
    have h2 : i + ((p + 1 : ℕ) : ℤ) + 2 = i + 1 + p + 2 := by push_cast; ring
    have h1 : i + ((p + 1 : ℕ) : ℤ) + 1 = i + p + 2 := by push_cast; ring
    have h3 : i + 1 + (p : ℤ) + 1 = i + p + 2 := by ring
    rw [piece]
    simp only [derivative_add, derivative_mul, derivative_C, derivative_sub, derivative_X, zero_mul, zero_add, sub_zero, mul_one, zero_sub]
    rw [ih i, ih (i + 1), h1, h2]
    have d1 := den_mul' ht hc p (i + 1) i (i + p + 2) (by omega) (by omega)
    have d2 := den_mul' ht hc p (i + 1) (i + 1) (i + 1 + p + 2) (by omega) (by omega)
    have s1 := piece_succ (t := t) (c := c) p i
    have s2 := piece_succ (t := t) (c := c) p (i + 1)
    rw [h3] at s2
    rw [h3]
    rw [s1, s2]
    push_cast
    linear_combination (p + 1 : ℝ[X]) * C (1 / (t (i + p + 2) - t (i + 1))) * (d2 - d1)

/-- The derivative of a spline is the spline of the divided differences of its coefficients. -/
theorem deriv_sum (ht : Monotone t) (hc : t c < t (c + 1)) (p : ℕ) (a : ℤ → ℝ) :
    derivative (∑ j ∈ range (p + 2), C (a (c - (p + 1) + j)) * piece t c (p + 1) (c - (p + 1) + j)) =
      ∑ j ∈ range (p + 1), C ((p + 1) * (a (c - p + j) - a (c - p + j - 1)) / (t (c - p + j + p + 1) - t (c - p + j))) * piece t c p (c - p + j) := by
  rw [derivative_sum]
  have e : ∀ j ∈ range (p + 2), derivative (C (a (c - (p + 1) + j)) * piece t c (p + 1) (c - (p + 1) + j)) =
      (p + 1 : ℝ[X]) * (C (a (c - (p + 1) + j)) * (C (1 / (t (c - (p + 1) + j + p + 1) - t (c - (p + 1) + j))) * piece t c p (c - (p + 1) + j))
        - C (a (c - (p + 1) + j)) * (C (1 / (t (c - (p + 1) + j + p + 2) - t (c - (p + 1) + j + 1))) * piece t c p (c - (p + 1) + j + 1))) := by
    intro j _
    rw [derivative_C_mul, deriv_piece ht hc]
    ring
  rw [sum_congr rfl e, ← mul_sum, sum_sub_distrib]
  rw [sum_range_succ', piece_support (t := t) p (c - (p + 1) + ((0 : ℕ) : ℤ)) (by push_cast; omega), sum_range_succ (fun j : ℕ => C (a (c - (p + 1) + j)) * (C (1 / (t (c - (p + 1) + j + p + 2) - t (c - (p + 1) + j + 1))) * piece t c p (c - (p + 1) + j + 1))),
    piece_support (t := t) p (c - (p + 1) + ((p + 1 : ℕ) : ℤ) + 1) (by push_cast; omega)]
  simp only [mul_zero, add_zero]
  rw [← sum_sub_distrib, mul_sum]
  refine sum_congr rfl fun j _ => ?_
  rw [show c - ((p : ℤ) + 1) + ((j + 1 : ℕ) : ℤ) = c - p + j by push_cast; ring, show c - ((p : ℤ) + 1) + (j : ℤ) + 1 = c - p + j by ring,
    show c - ((p : ℤ) + 1) + (j : ℤ) + p + 2 = c - p + j + p + 1 by ring, show c - ((p : ℤ) + 1) + (j : ℤ) = c - p + j - 1 by ring]
  have hC : ∀ δ u v : ℝ, C (((p : ℝ) + 1) * (u - v) / δ) = ((p : ℝ[X]) + 1) * (C u - C v) * C (1 / δ) := by
    intro δ u v
    rw [div_eq_mul_one_div, C_mul, C_mul, C_sub, C_add, C_1, C_eq_natCast]
  rw [hC]
  ring

/-- The B-splines of a cell are linearly independent. -/
theorem independent (ht : Monotone t) (hc : t c < t (c + 1)) (p : ℕ) (a : ℤ → ℝ) (h : ∑ j ∈ range (p + 1), C (a (c - p + j)) * piece t c p (c - p + j) = 0) :
    ∀ j < p + 1, a (c - p + j) = 0 := by
  induction p generalizing a with
  | zero =>
    intro j hj
    obtain rfl : j = 0 := by omega
    simp [piece] at h
    simpa using h
  | succ p ih =>
    push_cast at h ⊢
    have hd := deriv_sum ht hc p a
    rw [h, derivative_zero] at hd
    have h0 := ih (fun i => (p + 1) * (a i - a (i - 1)) / (t (i + p + 1) - t i)) hd.symm
    have heq : ∀ j < p + 1, a (c - p + j) = a (c - p + j - 1) := by
      intro j hj
      have k := den_pos ht hc p (c - p + j) (by omega) (by omega)
      have := h0 j hj
      rw [div_eq_zero_iff] at this
      rcases this with h | h
      · have hp : (p : ℝ) + 1 ≠ 0 := by positivity
        rcases mul_eq_zero.1 h with h | h
        · exact absurd h hp
        · linarith
      · exact absurd h k.ne'
    have hall : ∀ j < p + 2, a (c - (p + 1) + j) = a (c - (p + 1)) := by
      intro j
      induction j with
      | zero => intro _; simp
      | succ j ihj =>
        intro hj
        rw [← ihj (by omega)]
        have := heq j (by omega)
        rw [show c - (p : ℤ) + j = c - (p + 1) + ((j + 1 : ℕ) : ℤ) by push_cast; ring, show c - ((p : ℤ) + 1) + ((j + 1 : ℕ) : ℤ) - 1 = c - (p + 1) + j by push_cast; ring] at this
        exact this
    have hu := unity ht hc (p + 1)
    push_cast at hu
    have : ∑ j ∈ range (p + 1 + 1), C (a (c - (p + 1) + j)) * piece t c (p + 1) (c - (p + 1) + j) = C (a (c - (p + 1))) := by
      rw [sum_congr rfl fun j hj => by rw [hall j (mem_range.1 hj)], ← mul_sum, hu, mul_one]
    rw [this] at h
    intro j hj
    rw [hall j hj]
    simpa using h

theorem piece_degree (p : ℕ) (i : ℤ) : (piece t c p i).natDegree ≤ p := by
  induction p generalizing i with
  | zero => rw [piece]; split_ifs <;> simp
  | succ p ih =>
    rw [piece]
    refine natDegree_add_le_of_degree_le ?_ ?_
    · refine (natDegree_mul_le_of_le (natDegree_mul_le_of_le (natDegree_C _).le (natDegree_X_sub_C_le _)) (ih i)).trans (by omega)
    · refine (natDegree_mul_le_of_le (natDegree_mul_le_of_le (natDegree_C _).le (natDegree_sub_le_of_le (natDegree_C _).le natDegree_X_le)) (ih (i + 1))).trans (by omega)

/-- B-splines are not negative on their cells. -/
theorem piece_nonneg (ht : Monotone t) (p : ℕ) (i : ℤ) (x : ℝ) (h1 : t c ≤ x) (h2 : x ≤ t (c + 1)) : 0 ≤ (piece t c p i).eval x := by
  induction p generalizing i with
  | zero => rw [piece]; split_ifs <;> simp
  | succ p ih =>
    rw [piece]
    simp only [eval_add, eval_mul, eval_C, eval_sub, eval_X]
    have hd1 : 0 ≤ 1 / (t (i + p + 1) - t i) := by
      have := ht (show i ≤ i + p + 1 by omega); exact one_div_nonneg.2 (by linarith)
    have hd2 : 0 ≤ 1 / (t (i + p + 2) - t (i + 1)) := by
      have := ht (show i + 1 ≤ i + p + 2 by omega); exact one_div_nonneg.2 (by linarith)
    refine add_nonneg ?_ ?_
    · by_cases h : i ≤ c
      · have := ht h
        exact mul_nonneg (mul_nonneg hd1 (by linarith)) (ih i)
      · rw [piece_support p i (by omega)]; simp
    · by_cases h : c ≤ i + 1 + p
      · have := ht (show c + 1 ≤ i + p + 2 by omega)
        exact mul_nonneg (mul_nonneg hd2 (by linarith)) (ih (i + 1))
      · rw [piece_support p (i + 1) (by omega)]; simp

/-- B-splines of degree one and more are continuous at simple knots. -/
theorem piece_continuous (h1 : t c < t (c + 1)) (h2 : t (c + 1) < t (c + 2)) (p : ℕ) (i : ℤ) :
    (piece t c (p + 1) i).eval (t (c + 1)) = (piece t (c + 1) (p + 1) i).eval (t (c + 1)) := by
  induction p generalizing i with
  | zero =>
    simp only [piece, eval_add, eval_mul, eval_C, eval_sub, eval_X, Nat.cast_zero, add_zero]
    by_cases a : i = c
    · subst a
      have e1 : t (i + 1) - t i ≠ 0 := by linarith
      have e2 : t (i + 2) - t (i + 1) ≠ 0 := by linarith
      simp [e1, e2]
    · by_cases b : i + 1 = c
      · obtain rfl : i = c - 1 := by omega
        rw [if_neg (by omega), if_pos (by omega), if_neg (by omega), if_neg (by omega), show c - 1 + 2 = c + 1 by ring]
        simp
      · by_cases d : i = c + 1
        · subst d
          rw [if_neg (by omega), if_neg (by omega), if_pos rfl, if_neg (by omega)]
          simp
        · have e : ¬(i + 1 = c + 1) := by omega
          simp [a, b, d]
  | succ p ih =>
    rw [piece_succ (c := c) (p + 1) i, piece_succ (c := c + 1) (p + 1) i]
    simp only [eval_add, eval_mul]
    rw [ih i, ih (i + 1)]

/-! ## Linear precision -/

/-- The sum of the inner knots of a B-spline (its degree times its Greville point). -/
noncomputable def inner (t : ℤ → ℝ) (p : ℕ) (i : ℤ) : ℝ := ∑ k ∈ range p, t (i + 1 + k)

theorem inner_succ (p : ℕ) (i : ℤ) : inner t (p + 1) i = inner t p i + t (i + p + 1) := by
  rw [inner, sum_range_succ, ← inner, show i + 1 + (p : ℤ) = i + p + 1 by ring]

theorem inner_pred (p : ℕ) (i : ℤ) : inner t (p + 1) (i - 1) = t i + inner t p i := by
  rw [inner, sum_range_succ', inner, add_comm]
  refine congrArg₂ _ ?_ (sum_congr rfl fun k _ => ?_)
  · rw [show i - 1 + 1 + ((0 : ℕ) : ℤ) = i by push_cast; ring]
  · rw [show i - 1 + 1 + ((k + 1 : ℕ) : ℤ) = i + 1 + k by push_cast; ring]

/-- With the Greville points as coefficients the spline is the identity. -/
theorem linear_precision (ht : Monotone t) (hc : t c < t (c + 1)) (p : ℕ) : ∑ j ∈ range (p + 1), C (inner t p (c - p + j)) * piece t c p (c - p + j) = (p : ℝ[X]) * X := by
  induction p with
  | zero => simp [piece, inner]
  | succ p ih =>
    have h := sum_step (t := t) (c := c) p (fun i => C (inner t (p + 1) i))
    push_cast at h ⊢
    rw [h]
    have e : ∀ j ∈ range (p + 1), (C (inner t (p + 1) (c - p + j)) * (X - C (t (c - p + j))) + C (inner t (p + 1) (c - p + j - 1)) * (C (t (c - p + j + p + 1)) - X)) *
        (C (1 / (t (c - p + j + p + 1) - t (c - p + j))) * piece t c p (c - p + j)) = C (inner t p (c - p + j)) * piece t c p (c - p + j) + X * piece t c p (c - p + j) := by
      intro j _
      rw [inner_succ, inner_pred, C_add, C_add]
      linear_combination (C (inner t p (c - p + j)) + X) * den_mul ht hc p (c - p + j)
    rw [sum_congr rfl e, sum_add_distrib, ih, ← mul_sum, unity ht hc]
    ring

/-! ## Values at clamped ends -/

theorem left_end (ht : Monotone t) (hc : t c < t (c + 1)) (h : ∀ i ≤ c, t i = t c) (p : ℕ) (i : ℤ) : (piece t c p i).eval (t c) = if i = c - p then 1 else 0 := by
  induction p generalizing i with
  | zero => rw [piece]; push_cast; rw [sub_zero]; split_ifs <;> simp
  | succ p ih =>
    rw [piece_succ]
    simp only [eval_add, eval_mul, eval_C, eval_sub, eval_X, ih]
    have e1 : 1 / (t (i + p + 1) - t i) * (t c - t i) * (if i = c - p then (1 : ℝ) else 0) = 0 := by
      by_cases hi : i = c - p
      · rw [h i (by omega)]; ring
      · rw [if_neg hi]; ring
    rw [e1, zero_add]
    by_cases hi : i = c - ((p + 1 : ℕ) : ℤ)
    · rw [if_pos hi, if_pos (by push_cast at hi; omega), h (i + 1) (by push_cast at hi; omega), show i + (p : ℤ) + 2 = c + 1 by push_cast at hi; omega, mul_one, one_div_mul_cancel (by linarith)]
    · rw [if_neg hi, if_neg (by push_cast at hi; omega), mul_zero]

theorem right_end (ht : Monotone t) (hc : t c < t (c + 1)) (h : ∀ i, c + 1 ≤ i → t i = t (c + 1)) (p : ℕ) (i : ℤ) : (piece t c p i).eval (t (c + 1)) = if i = c then 1 else 0 := by
  induction p generalizing i with
  | zero => rw [piece]; split_ifs <;> simp
  | succ p ih =>
    rw [piece_succ]
    simp only [eval_add, eval_mul, eval_C, eval_sub, eval_X, ih]
    have e1 : 1 / (t (i + p + 2) - t (i + 1)) * (t (i + p + 2) - t (c + 1)) * (if i + 1 = c then (1 : ℝ) else 0) = 0 := by
      by_cases hi : i + 1 = c
      · rw [h (i + p + 2) (by omega)]; ring
      · rw [if_neg hi]; ring
    rw [e1, add_zero]
    by_cases hi : i = c
    · subst hi
      rw [if_pos rfl, h (i + p + 1) (by omega), mul_one, one_div_mul_cancel (by linarith)]
    · rw [if_neg hi, mul_zero]

/-! ## Splines on a cell -/

/-- The spline with coefficients `a` on the cell `[t c, t (c + 1)]`. -/
noncomputable def spl (t : ℤ → ℝ) (c : ℤ) (p : ℕ) (a : ℤ → ℝ) : ℝ[X] := ∑ j ∈ range (p + 1), C (a (c - p + j)) * piece t c p (c - p + j)

theorem spl_degree (p : ℕ) (a : ℤ → ℝ) : (spl t c p a).natDegree ≤ p :=
  natDegree_sum_le_of_forall_le _ _ fun j _ => (natDegree_mul_le_of_le (natDegree_C _).le (piece_degree p _)).trans (by omega)

/-- A spline does not jump at a simple knot. -/
theorem spl_continuous (h1 : t c < t (c + 1)) (h2 : t (c + 1) < t (c + 2)) (p : ℕ) (a : ℤ → ℝ) :
    (spl t c (p + 1) a).eval (t (c + 1)) = (spl t (c + 1) (p + 1) a).eval (t (c + 1)) := by
  simp only [spl, eval_finsetSum, eval_mul, eval_C]
  have key : ∀ (f : ℤ → ℝ), (f (c + 1) = 0) → (f (c - (p + 1)) = 0) → ∑ j ∈ range (p + 2), f (c - (p + 1) + j) = ∑ j ∈ range (p + 2), f (c + 1 - (p + 1) + j) := by
    intro f hf hg
    rw [sum_range_succ' (fun j : ℕ => f (c - (p + 1) + j)), sum_range_succ (fun j : ℕ => f (c + 1 - (p + 1) + j))]
    rw [show c - ((p : ℤ) + 1) + ((0 : ℕ) : ℤ) = c - (p + 1) by push_cast; ring, show c + 1 - ((p : ℤ) + 1) + ((p + 1 : ℕ) : ℤ) = c + 1 by push_cast; ring, hf, hg]
    refine congrArg (· + (0 : ℝ)) (sum_congr rfl fun j _ => ?_)
    rw [show c - ((p : ℤ) + 1) + ((j + 1 : ℕ) : ℤ) = c + 1 - (p + 1) + j by push_cast; ring]
  have h := key (fun i => a i * (piece t c (p + 1) i).eval (t (c + 1))) (by rw [piece_support _ _ (by omega)]; simp)
    (by rw [piece_continuous h1 h2, piece_support (c := c + 1) _ _ (by push_cast; omega)]; simp)
  push_cast at h ⊢
  rw [h]
  refine sum_congr rfl fun j _ => ?_
  rw [piece_continuous h1 h2]

theorem spl_left (ht : Monotone t) (hc : t c < t (c + 1)) (h : ∀ i ≤ c, t i = t c) (p : ℕ) (a : ℤ → ℝ) : (spl t c p a).eval (t c) = a (c - p) := by
  simp only [spl, eval_finsetSum, eval_mul, eval_C, left_end ht hc h]
  rw [sum_range_succ']
  simp only [Nat.cast_zero, add_zero, if_true, mul_one]
  rw [sum_eq_zero fun j _ => by rw [if_neg (by push_cast; omega), mul_zero], zero_add]

theorem spl_right (ht : Monotone t) (hc : t c < t (c + 1)) (h : ∀ i, c + 1 ≤ i → t i = t (c + 1)) (p : ℕ) (a : ℤ → ℝ) : (spl t c p a).eval (t (c + 1)) = a c := by
  simp only [spl, eval_finsetSum, eval_mul, eval_C, right_end ht hc h]
  rw [sum_range_succ, if_pos (by ring), show c - (p : ℤ) + p = c by ring, mul_one, sum_eq_zero fun j hj => by rw [if_neg (by have := mem_range.1 hj; omega), mul_zero], zero_add]

/-- A spline whose slope vanishes at as many points of a cell as its degree has equal coefficients there. -/
theorem flat (ht : Monotone t) (hc : t c < t (c + 1)) (p : ℕ) (a : ℤ → ℝ) (xs : List ℝ) (hn : xs.Nodup) (hl : p + 1 ≤ xs.length)
    (h : ∀ x ∈ xs, (derivative (spl t c (p + 1) a)).eval x = 0) : ∀ j < p + 1, a (c - p + j) = a (c - p + j - 1) := by
  have h0 : derivative (spl t c (p + 1) a) = 0 := by
    refine eq_zero_of_natDegree_lt_card_of_eval_eq_zero' _ xs.toFinset (fun x hx => h x (List.mem_toFinset.1 hx)) ?_
    rw [List.toFinset_card_of_nodup hn]
    have := natDegree_derivative_le (spl t c (p + 1) a)
    have := spl_degree (t := t) (c := c) (p + 1) a
    omega
  have hd := deriv_sum ht hc p a
  rw [spl] at h0
  push_cast at h0
  rw [h0] at hd
  have h1 := independent ht hc p (fun i => (p + 1) * (a i - a (i - 1)) / (t (i + p + 1) - t i)) hd.symm
  intro j hj
  have k := den_pos ht hc p (c - p + j) (by omega) (by omega)
  have := h1 j hj
  rw [div_eq_zero_iff] at this
  rcases this with h | h
  · have hp : (p : ℝ) + 1 ≠ 0 := by positivity
    rcases mul_eq_zero.1 h with h | h
    · exact absurd h hp
    · linarith
  · exact absurd h k.ne'

end Verif.BSpline
