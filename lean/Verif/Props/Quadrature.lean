import Verif.Model.Quadrature
import Mathlib.Analysis.SpecialFunctions.Integrals.Basic
import Mathlib.Tactic.Ring
import Mathlib.Tactic.FieldSimp
import Mathlib.Tactic.Linarith
import Mathlib.Tactic.NormNum
import Mathlib.Tactic.Positivity

/-! Properties C13 and C14: trapezoid and Simpson quadrature coefficients. Integrals are Mathlib's interval integrals. -/

namespace Verif.Quadrature

open Finset

/-! ### Integrals of low-degree polynomials -/

theorem integral_quadratic (a b c u v : ℝ) :
    ∫ t in u..v, (a * t ^ 2 + b * t + c) = a * (v ^ 3 - u ^ 3) / 3 + b * (v ^ 2 - u ^ 2) / 2 + c * (v - u) := by
  rw [intervalIntegral.integral_add, intervalIntegral.integral_add, intervalIntegral.integral_const_mul,
    intervalIntegral.integral_const_mul, integral_pow, integral_id, intervalIntegral.integral_const]
  · simp; ring
  all_goals exact Continuous.intervalIntegrable (by fun_prop) _ _

theorem integral_cubic (d a b c u v : ℝ) :
    ∫ t in u..v, (d * t ^ 3 + a * t ^ 2 + b * t + c) =
      d * (v ^ 4 - u ^ 4) / 4 + a * (v ^ 3 - u ^ 3) / 3 + b * (v ^ 2 - u ^ 2) / 2 + c * (v - u) := by
  rw [intervalIntegral.integral_add, intervalIntegral.integral_add, intervalIntegral.integral_add,
    intervalIntegral.integral_const_mul, intervalIntegral.integral_const_mul,
    intervalIntegral.integral_const_mul, integral_pow, integral_pow, integral_id, intervalIntegral.integral_const]
  · simp; ring
  all_goals exact Continuous.intervalIntegrable (by fun_prop) _ _

theorem integral_affine (a b u v : ℝ) : ∫ t in u..v, (a * t + b) = a * (v ^ 2 - u ^ 2) / 2 + b * (v - u) := by
  have := integral_quadratic 0 a b u v
  simpa using this

/-! ### C13 -/

theorem trapezoid_nonperiodic_sum (x : ℕ → ℝ) (m : ℕ) (mem f : ℕ → ℝ) :
    apply (trapezoid false x (m + 2) mem) (m + 2) f =
      ∑ i ∈ range (m + 1), (x (i + 1) - x i) * (f i + f (i + 1)) / 2 := by
  have hlast : trapezoid false x (m + 2) mem (m + 1) = (x (m + 1) - x m) / 2 := by
    simp [trapezoid, write, dL]; ring
  have h0 : trapezoid false x (m + 2) mem 0 = (x 1 - x 0) / 2 := by
    simp [trapezoid, write, dR]; ring
  have hmid : ∀ i, i < m → trapezoid false x (m + 2) mem (i + 1) = (x (i + 1) - x i) / 2 + (x (i + 2) - x (i + 1)) / 2 := by
    intro i hi
    have h1 : i + 1 ≠ m + 1 := by omega
    have h2 : 1 ≤ i + 1 ∧ i + 1 < m + 2 - 1 := by omega
    unfold trapezoid
    simp only [Bool.false_eq_true, if_false]
    unfold write trapMiddle dL dR
    rw [if_neg (by omega), if_neg (by omega), if_pos h2, Nat.add_sub_cancel]; ring
  unfold apply
  rw [sum_range_succ, sum_range_succ', hlast, h0]
  have : ∀ i ∈ range m, trapezoid false x (m + 2) mem (i + 1) * f (i + 1) =
      (x (i + 1) - x i) / 2 * f (i + 1) + (x (i + 2) - x (i + 1)) / 2 * f (i + 1) := by
    intro i hi
    rw [hmid i (mem_range.1 hi)]; ring
  rw [sum_congr rfl this, sum_add_distrib]
  have e : ∀ i ∈ range (m + 1), (x (i + 1) - x i) * (f i + f (i + 1)) / 2 =
      (x (i + 1) - x i) / 2 * f i + (x (i + 1) - x i) / 2 * f (i + 1) := by
    intro i _; ring
  rw [sum_congr rfl e, sum_add_distrib, sum_range_succ' (fun i => (x (i + 1) - x i) / 2 * f i),
    sum_range_succ (fun i => (x (i + 1) - x i) / 2 * f (i + 1))]
  simp only [zero_add]
  ring

theorem trapezoid_periodic_sum (x : ℕ → ℝ) (m : ℕ) (mem f : ℕ → ℝ) (hf : f (m + 1) = f 0) :
    apply (trapezoid true x (m + 1) mem) (m + 1) f =
      ∑ i ∈ range (m + 1), (x (i + 1) - x i) * (f i + f (i + 1)) / 2 := by
  have h0 : trapezoid true x (m + 1) mem 0 = (x (m + 1) - x m) / 2 + (x 1 - x 0) / 2 := by
    simp [trapezoid, write, dR]; ring
  have hmid : ∀ i, i < m → trapezoid true x (m + 1) mem (i + 1) = (x (i + 1) - x i) / 2 + (x (i + 2) - x (i + 1)) / 2 := by
    intro i hi
    unfold trapezoid
    simp only [if_true]
    unfold write trapMiddle dL dR
    rw [if_neg (by omega), if_pos (by omega), Nat.add_sub_cancel]; ring
  unfold apply
  rw [sum_range_succ', h0]
  have : ∀ i ∈ range m, trapezoid true x (m + 1) mem (i + 1) * f (i + 1) =
      (x (i + 1) - x i) / 2 * f (i + 1) + (x (i + 2) - x (i + 1)) / 2 * f (i + 1) := by
    intro i hi
    rw [hmid i (mem_range.1 hi)]; ring
  rw [sum_congr rfl this, sum_add_distrib]
  have e : ∀ i ∈ range (m + 1), (x (i + 1) - x i) * (f i + f (i + 1)) / 2 =
      (x (i + 1) - x i) / 2 * f i + (x (i + 1) - x i) / 2 * f (i + 1) := by
    intro i _; ring
  rw [sum_congr rfl e, sum_add_distrib, sum_range_succ' (fun i => (x (i + 1) - x i) / 2 * f i),
    sum_range_succ (fun i => (x (i + 1) - x i) / 2 * f (i + 1))]
  simp only [zero_add, hf]
  ring

theorem integral_sum_cells (x : ℕ → ℝ) (n : ℕ) (g : ℝ → ℝ) (hg : Continuous g) :
    ∑ i ∈ range n, ∫ t in (x i)..(x (i + 1)), g t = ∫ t in (x 0)..(x n), g t :=
  intervalIntegral.sum_integral_adjacent_intervals (fun _ _ => hg.intervalIntegrable _ _)

/-- C13: on a non-periodic grid of `n ≥ 2` points (whatever their positions and whatever the initial content of the memory), the
trapezoid rule integrates every affine function exactly. -/
theorem c13_affine_exact (x : ℕ → ℝ) (n : ℕ) (hn : 2 ≤ n) (mem : ℕ → ℝ) (a b : ℝ) :
    apply (trapezoid false x n mem) n (fun i => a * x i + b) = ∫ t in (x 0)..(x (n - 1)), (a * t + b) := by
  obtain ⟨m, rfl⟩ : ∃ m, n = m + 2 := ⟨n - 2, by omega⟩
  rw [trapezoid_nonperiodic_sum, show m + 2 - 1 = m + 1 by omega, ← integral_sum_cells x (m + 1) _ (by fun_prop)]
  apply sum_congr rfl
  intro i _
  rw [integral_affine]; ring

/-- C13: the rule is the integral of the piecewise affine interpolant, for arbitrary values, with or without periodicity. In
the periodic case the grid has `n ≥ 1` points and `x n` closes the period. -/
theorem c13_is_piecewise_affine (periodic : Bool) (x : ℕ → ℝ) (n : ℕ) (hn : if periodic then 1 ≤ n else 2 ≤ n) (mem f : ℕ → ℝ)
    (hf : periodic = true → f n = f 0) (cells : ℕ) (hc : cells = if periodic then n else n - 1)
    (α β : ℕ → ℝ) (h1 : ∀ i < cells, α i * x i + β i = f i) (h2 : ∀ i < cells, α i * x (i + 1) + β i = f (i + 1)) :
    apply (trapezoid periodic x n mem) n f = ∑ i ∈ range cells, ∫ t in (x i)..(x (i + 1)), (α i * t + β i) := by
  cases periodic
  · simp only [Bool.false_eq_true, if_false] at hn hc
    obtain ⟨m, rfl⟩ : ∃ m, n = m + 2 := ⟨n - 2, by omega⟩
    rw [trapezoid_nonperiodic_sum]
    subst hc
    apply sum_congr (by rfl)
    intro i hi
    have hi' := mem_range.1 hi
    rw [integral_affine, ← h1 i hi', ← h2 i hi']; ring
  · simp only [if_true] at hn hc
    obtain ⟨m, rfl⟩ : ∃ m, n = m + 1 := ⟨n - 1, by omega⟩
    rw [trapezoid_periodic_sum x m mem f (hf rfl)]
    subst hc
    apply sum_congr rfl
    intro i hi
    have hi' := mem_range.1 hi
    rw [integral_affine, ← h1 i hi', ← h2 i hi']; ring

/-- C13: on an increasing grid all the coefficients are positive and they add up to the length of the interval (of
the period). -/
theorem c13_positive_and_total (periodic : Bool) (x : ℕ → ℝ) (n : ℕ) (hn : if periodic then 1 ≤ n else 2 ≤ n) (mem : ℕ → ℝ) :
    ((∀ i j, i < j → j ≤ (if periodic then n else n - 1) → x i < x j) → ∀ i < n, 0 < trapezoid periodic x n mem i) ∧
    apply (trapezoid periodic x n mem) n (fun _ => 1) = x (if periodic then n else n - 1) - x 0 := by
  constructor
  · intro hx i hi
    cases periodic
    · simp only [Bool.false_eq_true, if_false] at hn hx
      have h01 := hx 0 1 (by omega) (by omega)
      have hl := hx (n - 2) (n - 1) (by omega) (by omega)
      have e2 : n - 1 - 1 = n - 2 := by omega
      simp only [trapezoid, write, trapMiddle, dL, dR, Bool.false_eq_true, if_false]
      by_cases h1 : i = n - 1
      · rw [if_pos h1, e2]; linarith
      · rw [if_neg h1]
        by_cases h2 : i = 0
        · rw [if_pos h2]; simp only [zero_add]; linarith
        · rw [if_neg h2, if_pos (by omega)]
          have a1 := hx (i - 1) i (by omega) (by omega)
          have a2 := hx i (i + 1) (by omega) (by omega)
          linarith
    · simp only [if_true] at hn hx
      have h01 := hx 0 1 (by omega) (by omega)
      have hl := hx (n - 1) n (by omega) (by omega)
      have e2 : n - 1 + 1 = n := by omega
      simp only [trapezoid, write, trapMiddle, dL, dR, if_true]
      by_cases h2 : i = 0
      · rw [if_pos h2, e2]; simp only [zero_add]; linarith
      · rw [if_neg h2, if_pos (by omega)]
        have a1 := hx (i - 1) i (by omega) (by omega)
        have a2 := hx i (i + 1) (by omega) (by omega)
        linarith
  · cases periodic
    · simp only [Bool.false_eq_true, if_false] at hn ⊢
      have := c13_affine_exact x n hn mem 0 1
      simp only [zero_mul, zero_add] at this
      rw [this]; simp
    · simp only [if_true] at hn ⊢
      obtain ⟨m, rfl⟩ : ∃ m, n = m + 1 := ⟨n - 1, by omega⟩
      rw [trapezoid_periodic_sum x m mem _ rfl, ← sum_range_sub x (m + 1)]
      apply sum_congr rfl
      intro i _; ring

example : apply (trapezoid false (fun i => (i : ℝ) ^ 2) 4 (fun _ => 17)) 4 (fun i => 3 * ((i : ℝ) ^ 2) + 1) =
    ∫ t in (((0 : ℕ) : ℝ) ^ 2)..(((4 - 1 : ℕ) : ℝ) ^ 2), (3 * t + 1) :=
  c13_affine_exact (fun i => (i : ℝ) ^ 2) 4 (by norm_num) _ 3 1

/-! ### C14 -/

theorem centreLeft_apply (x : ℕ → ℝ) (m : ℕ) (a : ℕ → ℝ) (j : ℕ) :
    centreLeft x m a j = if j < 2 * m then (if j % 2 = 0 then simpL x (j + 1) else simpC x j) else a j := by
  induction m with
  | zero => simp [centreLeft]
  | succ m ih =>
    simp only [centreLeft, write]
    by_cases h1 : j = 2 * m + 1
    · rw [if_pos h1, if_pos (by omega), if_neg (by omega), h1]
    · rw [if_neg h1]
      by_cases h2 : j = 2 * m
      · rw [if_pos h2, if_pos (by omega), if_pos (by omega), h2]
      · rw [if_neg h2, ih]
        by_cases h3 : j < 2 * m
        · rw [if_pos h3, if_pos (by omega : j < 2 * (m + 1))]
        · rw [if_neg h3, if_neg (by omega)]

theorem overlap_apply (x : ℕ → ℝ) (m : ℕ) (a : ℕ → ℝ) (j : ℕ) :
    overlap x m a j = if j % 2 = 0 ∧ 0 < j ∧ j ≤ 2 * m then a j + simpR x (j - 1) else a j := by
  induction m with
  | zero => 
    simp only [overlap]
    rw [if_neg (by omega)]
  | succ m ih =>
    simp only [overlap, write]
    by_cases h1 : j = 2 * m + 2
    · rw [if_pos h1, if_pos (by omega), ← h1, ih, if_neg (by omega), h1]; rfl
    · rw [if_neg h1, ih]
      by_cases h3 : j % 2 = 0 ∧ 0 < j ∧ j ≤ 2 * m
      · rw [if_pos h3, if_pos (by omega)]
      · rw [if_neg h3, if_neg (by omega)]

theorem sum_range_two_mul (g : ℕ → ℝ) (m : ℕ) : ∑ j ∈ range (2 * m), g j = ∑ i ∈ range m, (g (2 * i) + g (2 * i + 1)) := by
  induction m with
  | zero => simp
  | succ m ih => rw [show 2 * (m + 1) = 2 * m + 1 + 1 by ring, sum_range_succ, sum_range_succ, ih, sum_range_succ]; ring

/-- The contribution of one pair of cells. -/
noncomputable def pairSum (x f : ℕ → ℝ) (i : ℕ) : ℝ :=
  simpL x (2 * i + 1) * f (2 * i) + simpC x (2 * i + 1) * f (2 * i + 1) + simpR x (2 * i + 1) * f (2 * i + 2)

theorem fillSimpson_nonperiodic (x : ℕ → ℝ) (m : ℕ) (mem : ℕ → ℝ) :
    ∃ a, fillSimpson false x (2 * (m + 1) + 1) mem = .ok a ∧
      (∀ f, apply a (2 * (m + 1) + 1) f = ∑ i ∈ range (m + 1), pairSum x f i) := by
  have hd : (2 * (m + 1) + 1) / 2 = m + 1 := by omega
  unfold fillSimpson
  simp only [Bool.false_eq_true, if_false]
  rw [if_neg (by omega), hd, if_neg (by omega)]
  refine ⟨_, rfl, ?_⟩
  intro f
  have e1 : 2 * (m + 1) + 1 - 1 - 1 = 2 * m + 1 := by omega
  rw [e1, show m + 1 - 1 = m by omega]
  unfold apply
  rw [sum_range_succ, sum_range_two_mul]
  have last : write (overlap x m (centreLeft x (m + 1) mem)) (2 * m + 1 + 1) (simpR x (2 * m + 1)) (2 * (m + 1)) = simpR x (2 * m + 1) := by
    unfold write; rw [if_pos (by ring)]
  rw [last]
  have even : ∀ i, i < m + 1 → write (overlap x m (centreLeft x (m + 1) mem)) (2 * m + 1 + 1) (simpR x (2 * m + 1)) (2 * i) =
      simpL x (2 * i + 1) + if 0 < i then simpR x (2 * i - 1) else 0 := by
    intro i hi
    unfold write
    rw [if_neg (by omega), overlap_apply, centreLeft_apply, if_pos (by omega : 2 * i < 2 * (m + 1)), if_pos (by omega : 2 * i % 2 = 0)]
    by_cases h : 0 < i
    · rw [if_pos (by omega), if_pos h]
    · rw [if_neg (by omega), if_neg h]; ring
  have odd : ∀ i, i < m + 1 → write (overlap x m (centreLeft x (m + 1) mem)) (2 * m + 1 + 1) (simpR x (2 * m + 1)) (2 * i + 1) =
      simpC x (2 * i + 1) := by
    intro i hi
    unfold write
    rw [if_neg (by omega), overlap_apply, if_neg (by omega), centreLeft_apply, if_pos (by omega), if_neg (by omega)]
  have e : ∀ i ∈ range (m + 1),
      write (overlap x m (centreLeft x (m + 1) mem)) (2 * m + 1 + 1) (simpR x (2 * m + 1)) (2 * i) * f (2 * i) +
      write (overlap x m (centreLeft x (m + 1) mem)) (2 * m + 1 + 1) (simpR x (2 * m + 1)) (2 * i + 1) * f (2 * i + 1) =
      (simpL x (2 * i + 1) * f (2 * i) + simpC x (2 * i + 1) * f (2 * i + 1)) + (if 0 < i then simpR x (2 * i - 1) else 0) * f (2 * i) := by
    intro i hi
    rw [even i (mem_range.1 hi), odd i (mem_range.1 hi)]; ring
  rw [sum_congr rfl e, sum_add_distrib]
  unfold pairSum
  rw [sum_add_distrib (f := fun i => simpL x (2 * i + 1) * f (2 * i) + simpC x (2 * i + 1) * f (2 * i + 1)) (g := fun i => simpR x (2 * i + 1) * f (2 * i + 2))]
  rw [sum_range_succ' (fun i => (if 0 < i then simpR x (2 * i - 1) else 0) * f (2 * i))]
  rw [sum_range_succ (fun i => simpR x (2 * i + 1) * f (2 * i + 2))]
  have e3 : ∀ i ∈ range m, (if 0 < i + 1 then simpR x (2 * (i + 1) - 1) else 0) * f (2 * (i + 1)) = simpR x (2 * i + 1) * f (2 * i + 2) := by
    intro i _
    rw [if_pos (by omega), show 2 * (i + 1) - 1 = 2 * i + 1 by omega, show 2 * (i + 1) = 2 * i + 2 by ring]
  rw [sum_congr rfl e3]
  simp only [lt_irrefl, if_false, zero_mul, add_zero]
  rw [show 2 * (m + 1) = 2 * m + 2 by ring]
  ring

theorem fillSimpson_periodic (x : ℕ → ℝ) (m : ℕ) (mem : ℕ → ℝ) :
    ∃ a, fillSimpson true x (2 * (m + 2)) mem = .ok a ∧
      (∀ f : ℕ → ℝ, f (2 * (m + 2)) = f 0 → apply a (2 * (m + 2)) f = ∑ i ∈ range (m + 2), pairSum x f i) := by
  have hd : (2 * (m + 2)) / 2 = m + 2 := by omega
  unfold fillSimpson
  simp only [if_true]
  rw [if_neg (by omega), hd, if_neg (by omega)]
  refine ⟨_, rfl, ?_⟩
  intro f hf
  have e1 : 2 * (m + 2) - 1 - 2 = 2 * m + 1 := by omega
  have e2 : 2 * (m + 2) - 1 = 2 * m + 3 := by omega
  have e3 : 2 * m + 3 - 1 = 2 * m + 2 := by omega
  rw [e1, e2, show m + 2 - 1 = m + 1 by omega, show m + 2 - 2 = m by omega, e3, show 2 * m + 1 + 1 = 2 * m + 2 by ring]
  set a0 := overlap x m (centreLeft x (m + 1) mem) with ha0
  have A0 : ∀ j, a0 j = if j < 2 * (m + 1) then (if j % 2 = 0 then (simpL x (j + 1) + if 0 < j then simpR x (j - 1) else 0) else simpC x j) else a0 j := by
    intro j
    by_cases hj : j < 2 * (m + 1)
    · rw [if_pos hj, ha0, overlap_apply, centreLeft_apply, if_pos hj]
      by_cases hp : j % 2 = 0
      · rw [if_pos hp]
        by_cases h0 : 0 < j
        · rw [if_pos h0, if_pos (by omega), if_pos hp]
        · rw [if_neg h0, if_neg (by omega), if_pos hp]; ring
      · rw [if_neg hp, if_neg (by omega), if_neg hp]
    · rw [if_neg hj]
  clear_value a0
  set a1 := write a0 (2 * m + 2) (simpR x (2 * m + 1)) with ha1
  set a2 := write a1 (2 * m + 2) (a1 (2 * m + 2) + simpL x (2 * m + 3)) with ha2
  set a3 := write a2 (2 * m + 3) (simpC x (2 * m + 3)) with ha3
  set a4 := write a3 0 (a3 0 + simpR x (2 * m + 3)) with ha4
  have low : ∀ j, j < 2 * (m + 1) → a3 j = a0 j := by
    intro j hj
    simp only [ha3, ha2, ha1, write]
    rw [if_neg (by omega), if_neg (by omega), if_neg (by omega)]
  have even : ∀ i, i < m + 2 → a4 (2 * i) = simpL x (2 * i + 1) + if 0 < i then simpR x (2 * i - 1) else simpR x (2 * m + 3) := by
    intro i hi
    rw [ha4]; unfold write
    by_cases h0 : i = 0
    · subst h0
      rw [if_pos (by omega), low 0 (by omega), A0 0, if_pos (by omega), if_pos (by omega)]
      simp
    · rw [if_neg (by omega), if_pos (by omega)]
      by_cases h1 : i < m + 1
      · rw [low _ (by omega), A0, if_pos (by omega), if_pos (by omega), if_pos (by omega)]
      · have : i = m + 1 := by omega
        subst this
        simp only [ha3, ha2, ha1, write]
        rw [if_neg (by omega), if_pos (by ring)]
        simp only [if_true]
        rw [show 2 * (m + 1) + 1 = 2 * m + 3 by ring, show 2 * (m + 1) - 1 = 2 * m + 1 by omega]; ring
  have odd : ∀ i, i < m + 2 → a4 (2 * i + 1) = simpC x (2 * i + 1) := by
    intro i hi
    rw [ha4]; unfold write
    rw [if_neg (by omega)]
    by_cases h1 : i < m + 1
    · rw [low _ (by omega), A0, if_pos (by omega), if_neg (by omega)]
    · have : i = m + 1 := by omega
      subst this
      rw [ha3]; unfold write
      rw [if_pos (by ring), show 2 * (m + 1) + 1 = 2 * m + 3 by ring]
  unfold apply
  rw [sum_range_two_mul]
  have e : ∀ i ∈ range (m + 2), a4 (2 * i) * f (2 * i) + a4 (2 * i + 1) * f (2 * i + 1) =
      (simpL x (2 * i + 1) * f (2 * i) + simpC x (2 * i + 1) * f (2 * i + 1)) +
        (if 0 < i then simpR x (2 * i - 1) else simpR x (2 * m + 3)) * f (2 * i) := by
    intro i hi
    rw [even i (mem_range.1 hi), odd i (mem_range.1 hi)]; ring
  rw [sum_congr rfl e, sum_add_distrib]
  unfold pairSum
  rw [sum_add_distrib (f := fun i => simpL x (2 * i + 1) * f (2 * i) + simpC x (2 * i + 1) * f (2 * i + 1)) (g := fun i => simpR x (2 * i + 1) * f (2 * i + 2))]
  rw [sum_range_succ' (fun i => (if 0 < i then simpR x (2 * i - 1) else simpR x (2 * m + 3)) * f (2 * i))]
  rw [sum_range_succ (fun i => simpR x (2 * i + 1) * f (2 * i + 2))]
  have e3 : ∀ i ∈ range (m + 1), (if 0 < i + 1 then simpR x (2 * (i + 1) - 1) else simpR x (2 * m + 3)) * f (2 * (i + 1)) =
      simpR x (2 * i + 1) * f (2 * i + 2) := by
    intro i _
    rw [if_pos (by omega), show 2 * (i + 1) - 1 = 2 * i + 1 by omega, show 2 * (i + 1) = 2 * i + 2 by ring]
  rw [sum_congr rfl e3]
  simp only [lt_irrefl, if_false, mul_zero]
  rw [show 2 * (m + 1) + 1 = 2 * m + 3 by ring, show 2 * (m + 1) + 2 = 2 * (m + 2) by ring, hf]

/-- A pair of cells: the Simpson weights integrate exactly the parabola through the three points. -/
theorem pair_exact (x f : ℕ → ℝ) (i : ℕ) (h1 : x (2 * i) < x (2 * i + 1)) (h2 : x (2 * i + 1) < x (2 * i + 2)) (a b c : ℝ)
    (e0 : f (2 * i) = a * x (2 * i) ^ 2 + b * x (2 * i) + c)
    (e1 : f (2 * i + 1) = a * x (2 * i + 1) ^ 2 + b * x (2 * i + 1) + c)
    (e2 : f (2 * i + 2) = a * x (2 * i + 2) ^ 2 + b * x (2 * i + 2) + c) :
    pairSum x f i = ∫ t in (x (2 * i))..(x (2 * i + 2)), (a * t ^ 2 + b * t + c) := by
  have d1 : x (2 * i + 1) - x (2 * i) ≠ 0 := by linarith
  have d2 : x (2 * i + 2) - x (2 * i + 1) ≠ 0 := by linarith
  unfold pairSum simpL simpC simpR dL dR
  rw [integral_quadratic, e0, e1, e2]
  simp only [Nat.add_sub_cancel, show 2 * i + 1 + 1 = 2 * i + 2 by ring]
  field_simp
  ring

/-- The number of points accepted by the Simpson rule. -/
def SimpsonSize (periodic : Bool) (n : ℕ) : Prop := if periodic then n % 2 = 0 ∧ 4 ≤ n else n % 2 = 1 ∧ 3 ≤ n

theorem fillSimpson_ok (periodic : Bool) (x : ℕ → ℝ) (n : ℕ) (hn : SimpsonSize periodic n) (mem : ℕ → ℝ) :
    ∃ a, fillSimpson periodic x n mem = .ok a ∧
      ∀ f : ℕ → ℝ, (periodic = true → f n = f 0) → apply a n f = ∑ i ∈ range (n / 2), pairSum x f i := by
  unfold SimpsonSize at hn
  cases periodic
  · simp only [Bool.false_eq_true, if_false] at hn
    obtain ⟨m, rfl⟩ : ∃ m, n = 2 * (m + 1) + 1 := ⟨n / 2 - 1, by omega⟩
    obtain ⟨a, h1, h2⟩ := fillSimpson_nonperiodic x m mem
    refine ⟨a, h1, fun f _ => ?_⟩
    rw [h2 f, show (2 * (m + 1) + 1) / 2 = m + 1 by omega]
  · simp only [if_true] at hn
    obtain ⟨m, rfl⟩ : ∃ m, n = 2 * (m + 2) := ⟨n / 2 - 2, by omega⟩
    obtain ⟨a, h1, h2⟩ := fillSimpson_periodic x m mem
    refine ⟨a, h1, fun f hf => ?_⟩
    rw [h2 f (hf rfl), show (2 * (m + 2)) / 2 = m + 2 by omega]

/-- C14: for every accepted number of points and every increasing grid, the Simpson rule is the integral of the piecewise
parabola through the values, pair of cells by pair of cells (for a periodic grid the last point of the last pair is the first
point of the grid). -/
theorem c14_piecewise_parabola (periodic : Bool) (x : ℕ → ℝ) (n : ℕ) (hn : SimpsonSize periodic n)
    (hx : ∀ i, i < 2 * (n / 2) → x i < x (i + 1)) (mem f : ℕ → ℝ) (hf : periodic = true → f n = f 0)
    (α β γ : ℕ → ℝ)
    (hpar : ∀ i < n / 2, ∀ j, 2 * i ≤ j → j ≤ 2 * i + 2 → f j = α i * x j ^ 2 + β i * x j + γ i) :
    ∃ coef, fillSimpson periodic x n mem = .ok coef ∧
      apply coef n f = ∑ i ∈ range (n / 2), ∫ t in (x (2 * i))..(x (2 * i + 2)), (α i * t ^ 2 + β i * t + γ i) := by
  obtain ⟨a, h1, h2⟩ := fillSimpson_ok periodic x n hn mem
  refine ⟨a, h1, ?_⟩
  rw [h2 f hf]
  apply sum_congr rfl
  intro i hi
  have hi' := mem_range.1 hi
  exact pair_exact x f i (hx _ (by omega)) (hx _ (by omega)) _ _ _ (hpar i hi' _ (by omega) (by omega))
    (hpar i hi' _ (by omega) (by omega)) (hpar i hi' _ (by omega) (by omega))

/-- C14: on a non-periodic increasing grid with an odd number of points, quadratic polynomials are integrated exactly. -/
theorem c14_quadratic_exact (x : ℕ → ℝ) (n : ℕ) (hodd : n % 2 = 1) (hn : 3 ≤ n)
    (hx : ∀ i, i + 1 < n → x i < x (i + 1)) (mem : ℕ → ℝ) (a b c : ℝ) :
    ∃ coef, fillSimpson false x n mem = .ok coef ∧
      apply coef n (fun i => a * x i ^ 2 + b * x i + c) = ∫ t in (x 0)..(x (n - 1)), (a * t ^ 2 + b * t + c) := by
  obtain ⟨coef, h1, h2⟩ := c14_piecewise_parabola false x n (by simp [SimpsonSize, hodd, hn]) (fun i hi => hx i (by omega))
    mem (fun i => a * x i ^ 2 + b * x i + c) (by simp) (fun _ => a) (fun _ => b) (fun _ => c) (fun _ _ _ _ _ => rfl)
  refine ⟨coef, h1, ?_⟩
  rw [h2]
  have := integral_sum_cells (fun i => x (2 * i)) (n / 2) (fun t => a * t ^ 2 + b * t + c) (by fun_prop)
  simp only [mul_zero] at this
  rw [show 2 * (n / 2) = n - 1 by omega] at this
  rw [← this]
  rfl

/-- C14: when moreover the two cells of each pair have the same length, cubic polynomials are integrated exactly. -/
theorem c14_cubic_exact (x : ℕ → ℝ) (n : ℕ) (hodd : n % 2 = 1) (hn : 3 ≤ n)
    (hx : ∀ i, i + 1 < n → x i < x (i + 1))
    (heq : ∀ i, i < n / 2 → x (2 * i + 1) - x (2 * i) = x (2 * i + 2) - x (2 * i + 1)) (mem : ℕ → ℝ) (d a b c : ℝ) :
    ∃ coef, fillSimpson false x n mem = .ok coef ∧
      apply coef n (fun i => d * x i ^ 3 + a * x i ^ 2 + b * x i + c) =
        ∫ t in (x 0)..(x (n - 1)), (d * t ^ 3 + a * t ^ 2 + b * t + c) := by
  obtain ⟨coef, h1, h2⟩ := fillSimpson_ok false x n (by simp [SimpsonSize, hodd, hn]) mem
  refine ⟨coef, h1, ?_⟩
  rw [h2 _ (by simp)]
  have := integral_sum_cells (fun i => x (2 * i)) (n / 2) (fun t => d * t ^ 3 + a * t ^ 2 + b * t + c) (by fun_prop)
  simp only [mul_zero] at this
  rw [show 2 * (n / 2) = n - 1 by omega] at this
  rw [← this]
  apply sum_congr rfl
  intro i hi
  have hi' := mem_range.1 hi
  have k1 := hx (2 * i) (by omega)
  have k2 := heq i hi'
  have hm : x (2 * i + 2) = 2 * x (2 * i + 1) - x (2 * i) := by linarith
  have d1 : x (2 * i + 1) - x (2 * i) ≠ 0 := by linarith
  unfold pairSum simpL simpC simpR dL dR
  rw [integral_cubic]
  simp only [Nat.add_sub_cancel, show 2 * i + 1 + 1 = 2 * i + 2 by ring, show 2 * (i + 1) = 2 * i + 2 by ring]
  rw [hm]
  have d2 : 2 * x (2 * i + 1) - x (2 * i) - x (2 * i + 1) ≠ 0 := by intro h; apply d1; linarith
  have d3 : 2 * x (2 * i + 1) - x (2 * i) - x (2 * i + 1) = x (2 * i + 1) - x (2 * i) := by ring
  rw [d3]
  field_simp
  ring

/-- C14: the wrong parities are rejected by an exception. -/
theorem c14_rejects (periodic : Bool) (x : ℕ → ℝ) (n : ℕ) (mem : ℕ → ℝ) :
    (fillSimpson periodic x n mem = .throws) ↔ (if periodic then n % 2 = 1 else n % 2 = 0) := by
  unfold fillSimpson
  cases periodic
  · simp only [Bool.false_eq_true, if_false]
    by_cases h : n % 2 = 0
    · simp [h]
    · rw [if_neg h]
      by_cases h2 : n / 2 < 1
      · rw [if_pos h2]; simp [h]
      · rw [if_neg h2]; simp [h]
  · simp only [if_true]
    by_cases h : n % 2 = 0
    · rw [if_neg (by simpa using h)]
      by_cases h2 : n / 2 < 2
      · rw [if_pos h2]; simp [h]
      · rw [if_neg h2]; simp [h]
    · rw [if_pos h]; simp; omega

/-- C14 (finding): a one-point non-periodic grid, a two-point periodic grid and (through `simpson_trapezoid`) a two-point
non-periodic grid pass the parity check but the loop bound wraps around: undefined behaviour instead of an exception. -/
theorem c14_small_sizes_counterexample (x mem : ℕ → ℝ) :
    fillSimpson false x 1 mem = .undefinedBehaviour ∧ fillSimpson true x 2 mem = .undefinedBehaviour ∧
    simpsonTrapezoid x 2 .front mem = .undefinedBehaviour ∧ simpsonTrapezoid x 2 .back mem = .undefinedBehaviour := by
  refine ⟨?_, ?_, ?_, ?_⟩ <;> simp [fillSimpson, simpsonTrapezoid]

/-- C14: with an even number of points `simpson_trapezoid` integrates affine functions exactly, the trapezoid cell being the first or the
last one. -/
theorem c14_simpson_trapezoid_affine (x : ℕ → ℝ) (n : ℕ) (heven : n % 2 = 0) (hn : 4 ≤ n)
    (hx : ∀ i, i + 1 < n → x i < x (i + 1)) (ext : Extremity) (mem : ℕ → ℝ) (a b : ℝ) :
    ∃ coef, simpsonTrapezoid x n ext mem = .ok coef ∧
      apply coef n (fun i => a * x i + b) = ∫ t in (x 0)..(x (n - 1)), (a * t + b) := by
  have hthrow : fillSimpson false x n mem = .throws := (c14_rejects false x n mem).2 (by simpa using heven)
  unfold simpsonTrapezoid
  rw [hthrow]
  simp only
  have cont : ∀ u v : ℝ, IntervalIntegrable (fun t => a * t + b) MeasureTheory.volume u v := fun u v =>
    Continuous.intervalIntegrable (by fun_prop) _ _
  cases ext with
  | front =>
    simp only
    obtain ⟨coef, h1, h2⟩ := c14_quadratic_exact (fun i => x (i + 1)) (n - 1) (by omega) (by omega)
      (fun i hi => hx (i + 1) (by omega)) (fun i => mem (i + 1)) 0 a b
    rw [h1]
    refine ⟨_, rfl, ?_⟩
    simp only [zero_mul, zero_add] at h2
    rw [show n - 1 - 1 + 1 = n - 1 by omega] at h2
    have hint := intervalIntegral.integral_add_adjacent_intervals (cont (x 0) (x 1)) (cont (x 1) (x (n - 1)))
    rw [← hint, ← h2]
    unfold apply
    obtain ⟨k, rfl⟩ : ∃ k, n = k + 2 := ⟨n - 2, by omega⟩
    rw [show k + 2 - 1 = k + 1 by omega, sum_range_succ', sum_range_succ', sum_range_succ' (n := k)]
    have e : ∀ i ∈ range k, write (write (fun i => if i = 0 then mem 0 else coef (i - 1)) 0 (0.5 * dR x 0)) 1
        (write (fun i => if i = 0 then mem 0 else coef (i - 1)) 0 (0.5 * dR x 0) 1 + 0.5 * dR x 0) (i + 1 + 1) * (a * x (i + 1 + 1) + b) =
        coef (i + 1) * (a * x (i + 1 + 1) + b) := by
      intro i _
      simp [write]
    rw [sum_congr rfl e, integral_affine]
    simp only [write, dR]
    simp
    ring
  | back =>
    simp only
    obtain ⟨coef, h1, h2⟩ := c14_quadratic_exact x (n - 1) (by omega) (by omega)
      (fun i hi => hx i (by omega)) mem 0 a b
    rw [h1]
    refine ⟨_, rfl, ?_⟩
    simp only [zero_mul, zero_add] at h2
    have hint := intervalIntegral.integral_add_adjacent_intervals (cont (x 0) (x (n - 2))) (cont (x (n - 2)) (x (n - 1)))
    rw [show n - 1 - 1 = n - 2 by omega] at h2
    rw [← hint, ← h2]
    unfold apply
    obtain ⟨k, rfl⟩ : ∃ k, n = k + 2 := ⟨n - 2, by omega⟩
    rw [show k + 2 - 1 = k + 1 by omega, show k + 2 - 2 = k by omega, sum_range_succ, sum_range_succ, sum_range_succ (n := k)]
    have e : ∀ i ∈ range k, write (write coef (k + 1) (0.5 * dL x (k + 1))) k
        (write coef (k + 1) (0.5 * dL x (k + 1)) k + 0.5 * dL x (k + 1)) i * (a * x i + b) =
        coef i * (a * x i + b) := by
      intro i hi
      have := mem_range.1 hi
      unfold write
      rw [if_neg (by omega), if_neg (by omega)]
    rw [sum_congr rfl e, integral_affine]
    simp only [write, dL]
    simp
    ring

/-- C14: `simpson_trapezoid` for arbitrary values. With an odd number of points it is the Simpson rule; with an even number `n ≥ 4` it is the area of the trapezoid over the first (or last) cell plus the
Simpson rule on the other points, whose value is given by `c14_piecewise_parabola`. -/
theorem c14_simpson_trapezoid_parts (x : ℕ → ℝ) (n : ℕ) (mem : ℕ → ℝ) :
    (n % 2 = 1 → ∀ ext, simpsonTrapezoid x n ext mem = fillSimpson false x n mem) ∧
    (n % 2 = 0 → 4 ≤ n → (∀ i, i + 1 < n → x i < x (i + 1)) →
      (∃ coef tail, simpsonTrapezoid x n .front mem = .ok coef ∧ fillSimpson false (fun i => x (i + 1)) (n - 1) (fun i => mem (i + 1)) = .ok tail ∧
        ∀ f, apply coef n f = (x 1 - x 0) / 2 * (f 0 + f 1) + apply tail (n - 1) fun i => f (i + 1)) ∧
      (∃ coef head, simpsonTrapezoid x n .back mem = .ok coef ∧ fillSimpson false x (n - 1) mem = .ok head ∧
        ∀ f, apply coef n f = apply head (n - 1) f + (x (n - 1) - x (n - 2)) / 2 * (f (n - 2) + f (n - 1)))) := by
  refine ⟨fun hodd ext => ?_, fun heven hn hx => ⟨?_, ?_⟩⟩
  · unfold simpsonTrapezoid
    have hno : fillSimpson false x n mem ≠ .throws := by
      rw [Ne, c14_rejects]; simp; omega
    cases h : fillSimpson false x n mem <;> simp_all
  all_goals
    have hthrow : fillSimpson false x n mem = .throws := (c14_rejects false x n mem).2 (by simpa using heven)
    obtain ⟨k, rfl⟩ : ∃ k, n = k + 2 := ⟨n - 2, by omega⟩
  · obtain ⟨tail, h1, -⟩ := c14_quadratic_exact (fun i => x (i + 1)) (k + 2 - 1) (by omega) (by omega)
      (fun i hi => hx (i + 1) (by omega)) (fun i => mem (i + 1)) 0 0 0
    unfold simpsonTrapezoid
    rw [hthrow]
    simp only
    rw [h1]
    refine ⟨_, tail, rfl, rfl, fun f => ?_⟩
    unfold apply
    rw [show k + 2 - 1 = k + 1 by omega, sum_range_succ', sum_range_succ', sum_range_succ' (n := k)]
    have e : ∀ i ∈ range k, write (write (fun i => if i = 0 then mem 0 else tail (i - 1)) 0 (0.5 * dR x 0)) 1
        (write (fun i => if i = 0 then mem 0 else tail (i - 1)) 0 (0.5 * dR x 0) 1 + 0.5 * dR x 0) (i + 1 + 1) * f (i + 1 + 1) =
        tail (i + 1) * f (i + 1 + 1) := by
      intro i _
      simp [write]
    rw [sum_congr rfl e]
    simp only [write, dR]
    simp
    ring
  · obtain ⟨head, h1, -⟩ := c14_quadratic_exact x (k + 2 - 1) (by omega) (by omega)
      (fun i hi => hx i (by omega)) mem 0 0 0
    unfold simpsonTrapezoid
    rw [hthrow]
    simp only
    rw [h1]
    refine ⟨_, head, rfl, rfl, fun f => ?_⟩
    unfold apply
    rw [show k + 2 - 1 = k + 1 by omega, show k + 2 - 2 = k by omega, sum_range_succ, sum_range_succ, sum_range_succ (n := k)]
    have e : ∀ i ∈ range k, write (write head (k + 1) (0.5 * dL x (k + 1))) k
        (write head (k + 1) (0.5 * dL x (k + 1)) k + 0.5 * dL x (k + 1)) i * f i = head i * f i := by
      intro i hi
      have := mem_range.1 hi
      unfold write
      rw [if_neg (by omega), if_neg (by omega)]
    rw [sum_congr rfl e]
    simp only [write, dL]
    simp
    ring

/-- The hypotheses of the second part hold for four points with unequal distances. -/
example : ∃ coef tail, simpsonTrapezoid (fun i => (i : ℝ) ^ 2) 4 .front (fun _ => 7) = .ok coef ∧
    fillSimpson false (fun i => ((i + 1 : ℕ) : ℝ) ^ 2) 3 (fun _ => 7) = .ok tail ∧
    ∀ f, apply coef 4 f = (((1 : ℕ) : ℝ) ^ 2 - ((0 : ℕ) : ℝ) ^ 2) / 2 * (f 0 + f 1) + apply tail 3 fun i => f (i + 1) :=
  ((c14_simpson_trapezoid_parts (fun i => (i : ℝ) ^ 2) 4 (fun _ => 7)).2 (by norm_num) (by norm_num) (by
    intro i _; have : (0 : ℝ) ≤ i := by positivity
    push_cast; nlinarith)).1

example : ∃ coef, fillSimpson false (fun i => (i : ℝ) ^ 2) 5 (fun _ => 7) = .ok coef ∧
    apply coef 5 (fun i => 1 * ((i : ℝ) ^ 2) ^ 2 + 2 * (i : ℝ) ^ 2 + 3) =
      ∫ t in (((0 : ℕ) : ℝ) ^ 2)..(((5 - 1 : ℕ) : ℝ) ^ 2), (1 * t ^ 2 + 2 * t + 3) := by
  apply c14_quadratic_exact (fun i => (i : ℝ) ^ 2) 5 (by norm_num) (by norm_num)
  intro i _
  push_cast
  nlinarith [(Nat.cast_nonneg i : (0 : ℝ) ≤ i)]

end Verif.Quadrature
