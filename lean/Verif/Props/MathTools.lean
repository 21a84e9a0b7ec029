import Verif.Model.MathTools
import Mathlib.Algebra.BigOperators.Fin
import Mathlib.Algebra.BigOperators.Intervals
import Mathlib.Algebra.Order.Archimedean.Real.Basic
import Mathlib.Data.Nat.Factorial.Basic
import Mathlib.LinearAlgebra.Matrix.Determinant.Basic
import Mathlib.LinearAlgebra.Matrix.NonsingularInverse
import Mathlib.Tactic.FieldSimp
import Mathlib.Tactic.FinCases
import Mathlib.Tactic.IntervalCases
import Mathlib.Tactic.Linarith
import Mathlib.Tactic.NormNum
import Mathlib.Tactic.Positivity
import Mathlib.Tactic.Ring

/-!
# C27: integer and small-matrix helpers
-/

namespace Verif.MathTools

/-- `sum` over a C array is the mathematical sum. -/
theorem c27_sum {α : Type*} [AddCommMonoid α] (a : ℕ → α) (n : ℕ) :
    sumArr a n = ∑ i ∈ Finset.range n, a i := by
  unfold sumArr
  induction n with
  | zero => simp
  | succ n ih => rw [List.range_succ, List.foldl_append, ih, Finset.sum_range_succ]; rfl

/-- `sum` over a sub-range is the sum over the half-open interval. -/
theorem c27_sum_range {α : Type*} [AddCommMonoid α] (a : ℕ → α) (s e : ℕ) :
    sumRange a s e = ∑ i ∈ Finset.Ico s e, a i := by
  unfold sumRange
  rcases le_total e s with h | h
  · rw [Nat.sub_eq_zero_of_le h, Finset.Ico_eq_empty_of_le h]; simp
  · obtain ⟨d, rfl⟩ := Nat.exists_eq_add_of_le h
    rw [Nat.add_sub_cancel_left]
    clear h
    induction d with
    | zero => simp
    | succ d ih =>
        rw [List.range'_concat, List.foldl_append, ih, ← Nat.add_assoc,
          Finset.sum_Ico_succ_top (by omega)]
        simp

theorem foldl_pow {α : Type*} [Monoid α] (a : α) (n : ℕ) :
    (List.range n).foldl (fun r _ => r * a) 1 = a ^ n := by
  induction n with
  | zero => simp
  | succ n ih => rw [List.range_succ, List.foldl_append, ih, pow_succ]; rfl

/-- **C27** `ipow` with an unsigned exponent is the power. -/
theorem c27_ipow_nat {α : Type*} [Monoid α] (a : α) (n : ℕ) : ipowNat a n = a ^ n := foldl_pow a n

/-- **C27** `ipow` with a signed exponent is the integer power (the inverse of the power for negative exponents). -/
theorem c27_ipow_int {α : Type*} [Field α] (a : α) (i : ℤ) : ipowInt a i = a ^ i := by
  unfold ipowInt
  rw [foldl_pow, foldl_pow]
  split_ifs with h h'
  · rw [← zpow_natCast, Int.toNat_of_nonneg h.le]
  · rw [← zpow_natCast, Int.toNat_of_nonneg (by omega), zpow_neg, one_div, inv_inv]
  · have : i = 0 := by omega
    rw [this, zpow_zero]

/-- **C27** `factorial` is the factorial modulo `2^64`, for every argument except the largest one. -/
theorem c27_factorial_mod {f : ℕ} (hf : f + 1 < word) : factorial f = f.factorial % word := by
  unfold factorial
  rw [Nat.mod_eq_of_lt hf]
  clear hf
  rcases Nat.lt_or_ge f 2 with h | h
  · interval_cases f <;> decide
  · obtain ⟨d, rfl⟩ := Nat.exists_eq_add_of_le h
    have e : 2 + d + 1 - 2 = d + 1 := by omega
    rw [e]
    clear e h
    induction d with
    | zero => decide
    | succ d ih =>
        rw [List.range'_concat, List.foldl_append, ih]
        simp only [List.foldl_cons, List.foldl_nil, Nat.one_mul]
        have e : 2 + (d + 1) = (2 + d) + 1 := by omega
        rw [e, Nat.factorial_succ, Nat.mod_mul_mod, Nat.mul_comm]

/-- **C27** `factorial` is exact up to `20!` … -/
theorem c27_factorial {f : ℕ} (hf : f ≤ 20) : factorial f = f.factorial := by
  rw [c27_factorial_mod (by unfold word; omega)]
  apply Nat.mod_eq_of_lt
  calc f.factorial ≤ (20).factorial := Nat.factorial_le hf
    _ < word := by decide

/-- … and that bound is sharp: `factorial(21)` overflows. -/
theorem c27_factorial_overflow : factorial 21 ≠ (21).factorial := by
  rw [c27_factorial_mod (by unfold word; omega)]
  decide

/-- The properties of IEEE rounding to double that `modulo` needs: integers up to `2^53` are represented exactly, rounding is
monotone, and the relative error is at most `2^-53`. -/
structure Rounding (rnd : ℝ → ℝ) : Prop where
  exact_int : ∀ n : ℤ, |n| ≤ 2 ^ 53 → rnd n = n
  mono : ∀ x y, x ≤ y → rnd x ≤ rnd y
  rel : ∀ x, |rnd x - x| ≤ |x| / 2 ^ 53

/-- **C27** For 32-bit arguments `modulo(x, y)` with `y > 0` is the representative of `x` in `[0, y)`, in spite of the division
being rounded. -/
theorem c27_modulo {rnd : ℝ → ℝ} (hr : Rounding rnd) {x y : ℤ} (hy : 0 < y)
    (hx : |x| ≤ 2 ^ 31) : modulo rnd x y = x % y := by
  have hyR : (0 : ℝ) < y := by exact_mod_cast hy
  have hdm := Int.emod_add_mul_ediv x y
  have hlo := Int.emod_nonneg x hy.ne'
  have hhi := Int.emod_lt_of_pos x hy
  have hq : |x / y| ≤ 2 ^ 31 := by
    rw [abs_le] at hx ⊢
    constructor
    · apply Int.le_ediv_of_mul_le hy
      nlinarith
    · have := Int.ediv_le_ediv hy hx.2
      have h2 : (2 : ℤ) ^ 31 / y ≤ 2 ^ 31 := Int.ediv_le_self _ (by norm_num)
      omega
  set q := x / y with hqd
  have hxq : (x : ℝ) / y = q + (x % y : ℤ) / y := by
    field_simp
    rw [← hdm]
    push_cast
    have : ((x : ℤ) % y + y * q) % y = x % y := by rw [hdm]
    rw [this]
    ring
  have hfrac : ((x % y : ℤ) : ℝ) / y ≤ 1 - 1 / y := by
    rw [le_sub_iff_add_le, ← add_div, div_le_one hyR]
    have : x % y + 1 ≤ y := by omega
    exact_mod_cast this
  have hfrac0 : 0 ≤ ((x % y : ℤ) : ℝ) / y := div_nonneg (by exact_mod_cast hlo) hyR.le
  have h1 : (q : ℝ) ≤ rnd ((x : ℝ) / y) := by
    rw [← hr.exact_int q (hq.trans (by norm_num))]
    apply hr.mono
    rw [hxq]; linarith
  have hxabs : |(x : ℝ)| ≤ 2 ^ 31 := by exact_mod_cast hx
  have h2 : rnd ((x : ℝ) / y) < q + 1 := by
    have hrel := (abs_le.1 (hr.rel ((x : ℝ) / y))).2
    have hb : |(x : ℝ) / y| / 2 ^ 53 < 1 / y := by
      rw [abs_div, abs_of_pos hyR, div_div, div_lt_div_iff₀ (by positivity) hyR]
      have : |(x : ℝ)| * y ≤ 2 ^ 31 * y := mul_le_mul_of_nonneg_right hxabs hyR.le
      nlinarith
    linarith
  have hfl : ⌊rnd ((x : ℝ) / y)⌋ = q := by
    rw [Int.floor_eq_iff]; exact ⟨h1, h2⟩
  unfold modulo
  rw [hfl]
  omega

/-- The specification of `Rounding` is satisfiable (exact arithmetic), and then the theorem applies for instance to
`modulo(-3, 7) = 4`. -/
example : Rounding id := ⟨fun _ _ => rfl, fun _ _ h => h, fun x => by simp; positivity⟩

example : modulo id (-3) 7 = 4 := by
  rw [c27_modulo (rnd := id) ⟨fun _ _ => rfl, fun _ _ h => h, fun x => by simp; positivity⟩
    (by norm_num) (by norm_num)]
  rfl

/-- **C27** `neg_1_pow` is the power of `-1` for non-negative exponents … -/
theorem c27_neg_1_pow {p : ℤ} (hp : 0 ≤ p) : neg1pow p = (-1) ^ p.toNat := by
  obtain ⟨n, rfl⟩ := Int.eq_ofNat_of_zero_le hp
  unfold neg1pow
  have h : ((n : ℤ)).tmod 2 = ((n % 2 : ℕ) : ℤ) := by simp [Int.tmod_eq_emod_of_nonneg]
  rw [h]
  simp only [Int.toNat_natCast]
  rcases Nat.even_or_odd n with h | h
  · rw [h.neg_one_pow, Nat.even_iff.1 h]; rfl
  · rw [h.neg_one_pow, Nat.odd_iff.1 h]; rfl

/-- … but returns `3` for every negative odd exponent (the remainder of C++ is negative). No call in the library uses a
negative exponent. -/
theorem c27_neg_1_pow_negative_odd {p : ℤ} (hp : p < 0) (ho : p % 2 = 1) : neg1pow p = 3 := by
  unfold neg1pow
  have : p.tmod 2 = -1 := by
    rw [Int.tmod_eq_emod]
    rw [ho]
    rw [if_neg]
    · rfl
    · omega
  rw [this]; norm_num

section matrices

variable {α : Type*} [Field α]

/-- **C27** The 2x2 `determinant` is the determinant. -/
theorem c27_det2 (a : Fin 2 → Fin 2 → α) : det2 a = (Matrix.of a).det := by
  rw [Matrix.det_fin_two]; simp [det2]; ring

/-- **C27** The 3x3 `determinant` is the determinant. -/
theorem c27_det3 (a : Fin 3 → Fin 3 → α) : det3 a = (Matrix.of a).det := by
  rw [Matrix.det_fin_three]; simp [det3]; ring

/-- **C27** When the determinant is not zero the 2x2 `inverse` is the inverse matrix. -/
theorem c27_inv2 (a : Fin 2 → Fin 2 → α) (h : (Matrix.of a).det ≠ 0) :
    Matrix.of (inv2 a) * Matrix.of a = 1 ∧ Matrix.of a * Matrix.of (inv2 a) = 1 := by
  have hd : det2 a ≠ 0 := by rw [c27_det2]; exact h
  have h1 : Matrix.of (inv2 a) * Matrix.of a = 1 := by
    ext i j
    fin_cases i <;> fin_cases j <;>
      simp [Matrix.mul_apply, Fin.sum_univ_two, inv2] <;> field_simp <;> simp [det2] <;> ring
  exact ⟨h1, mul_eq_one_comm.1 h1⟩

/-- **C27** When the determinant is not zero the 3x3 `inverse` is the inverse matrix. -/
theorem c27_inv3 (a : Fin 3 → Fin 3 → α) (h : (Matrix.of a).det ≠ 0) :
    Matrix.of (inv3 a) * Matrix.of a = 1 ∧ Matrix.of a * Matrix.of (inv3 a) = 1 := by
  have hd : det3 a ≠ 0 := by rw [c27_det3]; exact h
  have h1 : Matrix.of (inv3 a) * Matrix.of a = 1 := by
    ext i j
    fin_cases i <;> fin_cases j <;>
      simp [Matrix.mul_apply, Fin.sum_univ_three, inv3] <;> field_simp <;> simp [det3] <;> ring
  exact ⟨h1, mul_eq_one_comm.1 h1⟩

/-- Non-vacuity: an invertible matrix. -/
example : (Matrix.of (![![1, 2, 0], ![0, 1, 3], ![1, 0, 1]] : Fin 3 → Fin 3 → ℚ)).det ≠ 0 := by
  rw [Matrix.det_fin_three]; simp; norm_num

end matrices

end Verif.MathTools
