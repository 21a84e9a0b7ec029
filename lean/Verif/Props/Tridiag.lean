import Verif.Model.Tridiag
import Verif.Spec.LinearSystem
import Mathlib.Algebra.BigOperators.Intervals
import Mathlib.Algebra.BigOperators.Ring.Finset
import Mathlib.LinearAlgebra.Matrix.NonsingularInverse
import Mathlib.LinearAlgebra.Matrix.SchurComplement
import Mathlib.LinearAlgebra.Matrix.ToLinearEquiv
import Mathlib.Algebra.Order.Archimedean.Real.Basic
import Mathlib.Data.Real.Basic
import Mathlib.Tactic.FieldSimp
import Mathlib.Tactic.Ring
import Mathlib.Tactic.Linarith
import Mathlib.Tactic.LinearCombination
import Mathlib.Tactic.NormNum
import Mathlib.Tactic.Positivity
import Mathlib.Tactic.IntervalCases

/-!
# C23: the tridiagonal batch solver solves every system of the batch
-/

namespace Verif.Tridiag

open Verif.LinearSystem Finset

/-- Specification: entry `(i, j)` of the tridiagonal matrix with the given diagonals, indexed by row: the entry
left of the diagonal of row `i` is `sub i`, the entry right of it `upp i`. -/
def entry {α : Type*} [Zero α] (sub diag upp : ℕ → α) (i j : ℕ) : α :=
  if j = i then diag i else if j + 1 = i then sub i else if j = i + 1 then upp i else 0

section field
variable {α : Type*} [Field α]

/-- The pivot of row `i` in the forward loop. -/
def pivot (sub diag upp : ℕ → α) : ℕ → α
  | 0 => diag 0
  | i + 1 => diag (i + 1) - sub (i + 1) * cprim sub diag upp i

theorem cprim_mul {sub diag upp : ℕ → α} {i : ℕ} (h : pivot sub diag upp i ≠ 0) :
    cprim sub diag upp i * pivot sub diag upp i = upp i := by
  cases i with
  | zero => exact div_mul_cancel₀ _ h
  | succ i => exact div_mul_cancel₀ _ h

theorem backward_eq (n : ℕ) (hn : 0 < n) (c d b : ℕ → α) :
    let x := backward n c d b
    x (n - 1) = d (n - 1) ∧ (∀ i, i + 1 < n → x i = d i - c i * x (i + 1)) ∧ ∀ i, n ≤ i → x i = b i := by
  intro x
  -- after processing `n-2, ..., m`
  have key : ∀ m ≤ n - 1, ∀ y : ℕ → α,
      let z := (List.range m).reverse.foldl (fun b i => Function.update b i (d i - c i * b (i + 1))) y
      (∀ i < m, z i = d i - c i * z (i + 1)) ∧ ∀ i, m ≤ i → z i = y i := by
    intro m
    induction m with
    | zero => intro _ y; exact ⟨fun i hi => absurd hi (Nat.not_lt_zero i), fun i _ => rfl⟩
    | succ m ih =>
        intro hm y
        rw [List.range_succ, List.reverse_append, List.reverse_singleton, List.singleton_append,
          List.foldl_cons]
        obtain ⟨h1, h2⟩ := ih (by omega) (Function.update y m (d m - c m * y (m + 1)))
        refine ⟨fun i hi => ?_, fun i hi => ?_⟩
        · rcases Nat.lt_succ_iff_lt_or_eq.1 hi with h | h
          · exact h1 i h
          · subst h
            rw [h2 i le_rfl, h2 (i + 1) (by omega), Function.update_self,
              Function.update_of_ne (by omega)]
        · rw [h2 i (by omega), Function.update_of_ne (by omega)]
  obtain ⟨h1, h2⟩ := key (n - 1) le_rfl (Function.update b (n - 1) (d (n - 1)))
  refine ⟨?_, fun i hi => h1 i (by omega), fun i hi => ?_⟩
  · exact (h2 (n - 1) le_rfl).trans (Function.update_self _ _ _)
  · exact (h2 i (by omega)).trans (Function.update_of_ne (by omega) _ _)

/-- Sum of a tridiagonal row. -/
theorem row_sum (n : ℕ) (sub diag upp x : ℕ → α) {i : ℕ} (hi : i < n) :
    ∑ j ∈ range n, entry sub diag upp i j * x j =
      (if 0 < i then sub i * x (i - 1) else 0) + diag i * x i +
        (if i + 1 < n then upp i * x (i + 1) else 0) := by
  have e : ∀ j ∈ range n, entry sub diag upp i j * x j
      = (if j = i then diag i * x i else 0) + (if j = i - 1 then (if 0 < i then sub i * x (i - 1) else 0) else 0)
        + (if j = i + 1 then upp i * x (i + 1) else 0) := by
    intro j _
    unfold entry
    by_cases h1 : j = i
    · subst h1
      have h2 : ¬ j = j + 1 := by omega
      by_cases h3 : 0 < j
      · have h4 : ¬ j = j - 1 := by omega
        simp [h2, h4]
      · simp [h2, h3]
    · by_cases h2 : j + 1 = i
      · subst h2
        have h5 : ¬ j = j + 1 + 1 := by omega
        simp [h5]
      · by_cases h3 : j = i + 1
        · subst h3
          have h4 : ¬ (i + 1 + 1 = i) := by omega
          have h5 : ¬ i + 1 = i - 1 := by omega
          simp [h4, h5]
        · by_cases h4 : 0 < i
          · have h5 : ¬ j = i - 1 := by omega
            simp [h1, h2, h3, h5]
          · simp [h1, h2, h3, h4]
  rw [sum_congr rfl e, sum_add_distrib, sum_add_distrib, sum_ite_eq', sum_ite_eq', sum_ite_eq']
  simp only [mem_range, hi, if_true]
  rw [if_pos (by omega : i - 1 < n)]
  ring

/-- Thomas' algorithm solves the system when no pivot vanishes. -/
theorem solveOne_solves (n : ℕ) (sub diag upp b : ℕ → α)
    (hp : ∀ i < n, pivot sub diag upp i ≠ 0) :
    Solves n (entry sub diag upp) (solveOne n sub diag upp b) b := by
  intro i hi
  rw [row_sum n sub diag upp _ hi]
  obtain ⟨h1, h2, -⟩ := backward_eq n (by omega) (cprim sub diag upp) (dprim sub diag upp b) b
  set x := solveOne n sub diag upp b with hx
  have h1' : x (n - 1) = dprim sub diag upp b (n - 1) := h1
  have h2' : ∀ i, i + 1 < n → x i = dprim sub diag upp b i - cprim sub diag upp i * x (i + 1) := h2
  -- pivot_i * x_i + upp_i * x_{i+1} = pivot_i * dprim_i
  have hpx : pivot sub diag upp i * x i + (if i + 1 < n then upp i * x (i + 1) else 0)
      = pivot sub diag upp i * dprim sub diag upp b i := by
    by_cases h : i + 1 < n
    · rw [if_pos h, h2' i h, ← cprim_mul (hp i hi)]; ring
    · have : i = n - 1 := by omega
      rw [if_neg h, this, h1', add_zero]
  cases i with
  | zero =>
      have hd : pivot sub diag upp 0 * dprim sub diag upp b 0 = b 0 := mul_div_cancel₀ _ (hp 0 hi)
      rw [hd] at hpx
      simpa [pivot] using hpx
  | succ i =>
      have hd : pivot sub diag upp (i + 1) * dprim sub diag upp b (i + 1)
          = b (i + 1) - sub (i + 1) * dprim sub diag upp b i := mul_div_cancel₀ _ (hp (i + 1) hi)
      rw [hd] at hpx
      have hxi := h2' i (by omega)
      simp only [Nat.succ_pos, if_true, Nat.add_sub_cancel]
      have hpv : pivot sub diag upp (i + 1) = diag (i + 1) - sub (i + 1) * cprim sub diag upp i := rfl
      rw [hpv] at hpx
      linear_combination hpx + sub (i + 1) * hxi

theorem batch_solve_eq (m : Batch α) (b : ℕ → ℕ → α) (k : ℕ) :
    m.solve b k = if k < m.batch then solveOne m.n (m.sub k) (m.diag k) (m.upp k) (b k) else b k := by
  have key : ∀ r, ((List.range r).foldl
      (fun b k => Function.update b k (solveOne m.n (m.sub k) (m.diag k) (m.upp k) (b k))) b) k
      = if k < r then solveOne m.n (m.sub k) (m.diag k) (m.upp k) (b k) else b k := by
    intro r
    induction r generalizing k with
    | zero => simp
    | succ r ih =>
        rw [List.range_succ, List.foldl_append]
        simp only [List.foldl_cons, List.foldl_nil]
        by_cases h : k = r
        · subst h
          rw [Function.update_self, ih]
          simp
        · rw [Function.update_of_ne h, ih]
          have : k < r + 1 ↔ k < r := by omega
          simp only [this]
  exact key m.batch

/-- **C23 (solve)** For every batch, `solve` replaces the right hand side by the solution of the tridiagonal system
of that batch, provided no pivot of the forward sweep vanishes. -/
theorem c23_solve (m : Batch α) (b : ℕ → ℕ → α) {k : ℕ} (hk : k < m.batch)
    (hp : ∀ i < m.n, pivot (m.sub k) (m.diag k) (m.upp k) i ≠ 0) :
    Solves m.n (entry (m.sub k) (m.diag k) (m.upp k)) (m.solve b k) (b k) := by
  rw [batch_solve_eq, if_pos hk]
  exact solveOne_solves _ _ _ _ _ hp

end field

section ordered
variable {α : Type*} [Field α] [LinearOrder α] [IsStrictOrderedRing α]

/-- **C23 (strict dominance)** If every row is strictly diagonally dominant (counting only the entries inside the
matrix) then no pivot vanishes, so the system is solved. -/
theorem c23_strictly_dominant {n : ℕ} {sub diag upp : ℕ → α}
    (hdom : ∀ i < n, (if 0 < i then |sub i| else 0) + (if i + 1 < n then |upp i| else 0) < |diag i|)
    (b : ℕ → α) : Solves n (entry sub diag upp) (solveOne n sub diag upp b) b := by
  refine solveOne_solves n sub diag upp b ?_
  have key : ∀ i, i < n → pivot sub diag upp i ≠ 0 ∧ (i + 1 < n → |cprim sub diag upp i| < 1) := by
    intro i
    induction i with
    | zero =>
        intro hi
        have h := hdom 0 hi
        simp only [lt_irrefl, if_false, zero_add] at h
        have hne : diag 0 ≠ 0 := by
          intro h0
          rw [h0, abs_zero] at h
          split_ifs at h
          · exact absurd h (not_lt.2 (abs_nonneg _))
          · exact absurd h (lt_irrefl _)
        refine ⟨hne, fun h1 => ?_⟩
        rw [if_pos h1] at h
        change |upp 0 / diag 0| < 1
        rw [abs_div, div_lt_one (abs_pos.2 hne)]
        exact h
    | succ i ih =>
        intro hi
        obtain ⟨-, hc⟩ := ih (by omega)
        have hc := hc hi
        have h := hdom (i + 1) hi
        rw [if_pos (Nat.succ_pos i)] at h
        have hpv : |diag (i + 1)| - |sub (i + 1)| ≤ |pivot sub diag upp (i + 1)| := by
          change _ ≤ |diag (i + 1) - sub (i + 1) * cprim sub diag upp i|
          have h1 := abs_sub_abs_le_abs_sub (diag (i + 1)) (sub (i + 1) * cprim sub diag upp i)
          have h2 : |sub (i + 1) * cprim sub diag upp i| ≤ |sub (i + 1)| := by
            rw [abs_mul]
            exact mul_le_of_le_one_right (abs_nonneg _) hc.le
          linarith
        have hpos : 0 < |pivot sub diag upp (i + 1)| := by
          have : (0 : α) ≤ if i + 1 + 1 < n then |upp (i + 1)| else 0 := by
            split_ifs
            · exact abs_nonneg _
            · exact le_rfl
          linarith
        refine ⟨abs_pos.1 hpos, fun h1 => ?_⟩
        rw [if_pos h1] at h
        change |upp (i + 1) / pivot sub diag upp (i + 1)| < 1
        rw [abs_div, div_lt_one hpos]
        linarith
  exact fun i hi => (key i hi).1

end ordered

/-- A singular leading block with nothing to its right makes the matrix singular. -/
theorem det_zero_of_leading {n i : ℕ} {A : ℕ → ℕ → ℝ} (hi : i ≤ n) (x : ℕ → ℝ)
    (hx : ∃ j < i, x j ≠ 0) (hker : ∀ r < i, ∑ j ∈ range i, A r j * x j = 0)
    (hright : ∀ r < i, ∀ j, i ≤ j → j < n → A r j = 0) : (mat n A).det = 0 := by
  obtain ⟨k, rfl⟩ : ∃ k, n = i + k := ⟨n - i, by omega⟩
  have hiso : (mat (i + k) A).submatrix finSumFinEquiv finSumFinEquiv
      = Matrix.fromBlocks (mat i A) 0
        (Matrix.of fun (r : Fin k) (j : Fin i) => A (i + r) j)
        (mat k (fun r j => A (i + r) (i + j))) := by
    ext r j
    rcases r with r | r <;> rcases j with j | j
    · simp [mat]
    · simp only [mat, Matrix.submatrix_apply, finSumFinEquiv_apply_left, finSumFinEquiv_apply_right,
        Matrix.fromBlocks_apply₁₂, Matrix.zero_apply, Fin.val_castAdd, Fin.val_natAdd]
      exact hright r r.2 (i + j) (by omega) (by omega)
    · simp [mat]
    · simp [mat]
  rw [← Matrix.det_submatrix_equiv_self finSumFinEquiv, hiso, Matrix.det_fromBlocks_zero₁₂]
  have : (mat i A).det = 0 := by
    rw [← Matrix.exists_mulVec_eq_zero_iff]
    refine ⟨fun j => x j, ?_, ?_⟩
    · obtain ⟨j, hj, hne⟩ := hx
      intro h0
      exact hne (congrFun h0 ⟨j, hj⟩)
    · funext r
      have := hker r r.2
      rw [Finset.sum_range] at this
      simpa [Matrix.mulVec, dotProduct, mat] using this
  rw [this, zero_mul]

/-- **C23 (accepted as dominant)** For every batch accepted by `check_stability` through its diagonal dominance test (`≤`),
every non-singular system of the batch is solved: the weak test is enough. -/
theorem c23_weakly_dominant (m : Batch ℝ) (hcheck : m.isDiagDom = true) (b : ℕ → ℕ → ℝ) {k : ℕ}
    (hk : k < m.batch) (hdet : (mat m.n (entry (m.sub k) (m.diag k) (m.upp k))).det ≠ 0) :
    Solves m.n (entry (m.sub k) (m.diag k) (m.upp k)) (m.solve b k) (b k) := by
  refine c23_solve m b hk ?_
  have hdom : ∀ i < m.n, |m.sub k i| + |m.upp k i| ≤ |m.diag k i| := by
    intro i hi
    unfold Batch.isDiagDom at hcheck
    rw [List.all_eq_true] at hcheck
    have h1 := hcheck k (List.mem_range.2 hk)
    rw [List.all_eq_true] at h1
    exact of_decide_eq_true (h1 i (List.mem_range.2 hi))
  set sub := m.sub k with hsub
  set diag := m.diag k with hdiag
  set upp := m.upp k with hupp
  set n := m.n with hn
  -- vanishing first pivot => singular
  have key : ∀ i, i < n → (∀ j < i, pivot sub diag upp j ≠ 0 ∧ |cprim sub diag upp j| ≤ 1) →
      pivot sub diag upp i ≠ 0 := by
    intro i hi hprev hp0
    apply hdet
    -- kernel vector of the leading block
    let x : ℕ → ℝ := fun j => ∏ t ∈ Ico j i, (- cprim sub diag upp t)
    have hxi : x i = 1 := by simp [x]
    have hxs : ∀ j < i, x j = - cprim sub diag upp j * x (j + 1) := by
      intro j hj
      simp only [x]
      rw [Finset.prod_eq_prod_Ico_succ_bot hj]
    have hupp0 : upp i = 0 := by
      have hd : |diag i| ≤ |sub i| := by
        cases i with
        | zero =>
            have : diag 0 = 0 := hp0
            rw [this, abs_zero]; exact abs_nonneg _
        | succ i =>
            have h1 : diag (i + 1) = sub (i + 1) * cprim sub diag upp i := sub_eq_zero.1 hp0
            rw [h1, abs_mul]
            exact mul_le_of_le_one_right (abs_nonneg _) (hprev i (Nat.lt_succ_self i)).2
      have h2 := hdom i hi
      have h3 : |upp i| ≤ 0 := by linarith
      exact abs_eq_zero.1 (le_antisymm h3 (abs_nonneg _))
    refine det_zero_of_leading (i := i + 1) hi x ⟨i, by omega, by rw [hxi]; exact one_ne_zero⟩ ?_ ?_
    · intro r hr
      rw [row_sum (i + 1) sub diag upp x hr]
      -- pivot r * x r + upp r * x (r+1) = 0
      have hpr : pivot sub diag upp r * x r + (if r + 1 < i + 1 then upp r * x (r + 1) else 0) = 0 := by
        by_cases h : r < i
        · rw [if_pos (by omega), hxs r h, ← cprim_mul (hprev r h).1]; ring
        · have : r = i := by omega
          subst this
          rw [if_neg (by omega), hp0]; ring
      cases r with
      | zero => simpa [pivot] using hpr
      | succ r =>
          have h1 := hxs r (by omega)
          simp only [Nat.succ_pos, if_true, Nat.add_sub_cancel]
          have hpv : pivot sub diag upp (r + 1) = diag (r + 1) - sub (r + 1) * cprim sub diag upp r := rfl
          rw [hpv] at hpr
          linear_combination hpr + sub (r + 1) * h1
    · intro r hr j hj _
      unfold entry
      rw [if_neg (by omega), if_neg (by omega)]
      split_ifs with h
      · have : r = i := by omega
        rw [this]; exact hupp0
      · rfl
  have all : ∀ i, i < n → pivot sub diag upp i ≠ 0 ∧ |cprim sub diag upp i| ≤ 1 := by
    intro i
    induction i using Nat.strong_induction_on with
    | _ i ih =>
        intro hi
        have hp := key i hi (fun j hj => ih j hj (by omega))
        refine ⟨hp, ?_⟩
        have hle : |upp i| ≤ |pivot sub diag upp i| := by
          cases i with
          | zero =>
              have := hdom 0 hi
              have h0 := abs_nonneg (sub 0)
              change |upp 0| ≤ |diag 0|
              linarith
          | succ i =>
              have hc := (ih i (Nat.lt_succ_self i) (by omega)).2
              have h1 := abs_sub_abs_le_abs_sub (diag (i + 1)) (sub (i + 1) * cprim sub diag upp i)
              have h2 : |sub (i + 1) * cprim sub diag upp i| ≤ |sub (i + 1)| := by
                rw [abs_mul]; exact mul_le_of_le_one_right (abs_nonneg _) hc
              have h3 := hdom (i + 1) hi
              change _ ≤ |diag (i + 1) - sub (i + 1) * cprim sub diag upp i|
              linarith
        have hcp : |cprim sub diag upp i| * |pivot sub diag upp i| = |upp i| := by
          rw [← abs_mul, cprim_mul hp]
        have hpos := abs_pos.2 hp
        by_contra hgt
        have hgt := not_le.1 hgt
        nlinarith
  exact fun i hi => (all i hi).1

/-- **C23 (finding)** The "symmetric" test compares the two neighbours of the diagonal *in the same row*. It accepts
`[[0, 1], [2, 0]]`, which is non-singular but not symmetric, and whose first pivot vanishes (division by zero). -/
theorem c23_symmetric_check_accepts_unsymmetric : ∃ m : Batch ℝ, m.batch = 1 ∧ m.n = 2 ∧
    m.checkStability (1e-16) = true ∧
    entry (m.sub 0) (m.diag 0) (m.upp 0) 0 1 ≠ entry (m.sub 0) (m.diag 0) (m.upp 0) 1 0 ∧
    (mat 2 (entry (m.sub 0) (m.diag 0) (m.upp 0))).det ≠ 0 ∧ pivot (m.sub 0) (m.diag 0) (m.upp 0) 0 = 0 := by
  refine ⟨⟨1, 2, fun _ i => i + 1, fun _ _ => 0, fun _ i => i + 1⟩, rfl, rfl, ?_, ?_, ?_, rfl⟩
  · have h : (0 : ℝ) < 1e-16 := by norm_num
    simp [Batch.checkStability, Batch.isSymmetric, List.range_succ]
    right; norm_num
  · simp [entry]
  · rw [Matrix.det_fin_two]
    simp [mat, entry]

/-- **C23 (finding)** ... and it rejects the symmetric positive definite matrix `[[2,1,0],[1,2,2],[0,2,3]]` (whose unused
entries `sub(0)`, `upp(2)` are zero), although the solver handles it: all pivots are positive. -/
theorem c23_symmetric_check_rejects_symmetric : ∃ m : Batch ℝ, m.batch = 1 ∧ m.n = 3 ∧
    (∀ i j, i < 3 → j < 3 → entry (m.sub 0) (m.diag 0) (m.upp 0) i j
      = entry (m.sub 0) (m.diag 0) (m.upp 0) j i) ∧
    (∀ i < 3, 0 < pivot (m.sub 0) (m.diag 0) (m.upp 0) i) ∧ m.checkStability (1e-16) = false := by
  refine ⟨⟨1, 3, fun _ i => i, fun _ i => if i = 2 then 3 else 2,
    fun _ i => if i = 2 then 0 else i + 1⟩, rfl, rfl, ?_, ?_, ?_⟩
  · intro i j hi hj
    interval_cases i <;> interval_cases j <;> simp [entry] <;> norm_num
  · intro i hi
    interval_cases i
    · norm_num [pivot]
    · norm_num [pivot, cprim]
    · norm_num [pivot, cprim]
  · simp [Batch.checkStability, Batch.isSymmetric, Batch.isDiagDom, List.range_succ]
    norm_num

/-- A concrete batch meeting the hypotheses of `c23_strictly_dominant` and `c23_weakly_dominant`. -/
example : ∀ i < 5, (if 0 < i then |(-1 : ℚ)| else 0) + (if i + 1 < 5 then |(-1 : ℚ)| else 0) < |(3 : ℚ)| := by
  intro i hi
  interval_cases i <;> norm_num

example : (Batch.mk 1 2 (fun _ _ => (1 : ℝ)) (fun _ _ => 2) (fun _ _ => 1)).isDiagDom = true ∧
    (mat 2 (entry (fun _ => (1 : ℝ)) (fun _ => 2) (fun _ => 1))).det ≠ 0 := by
  constructor
  · simp [Batch.isDiagDom]; norm_num
  · rw [Matrix.det_fin_two]; simp [mat, entry]; norm_num

end Verif.Tridiag
