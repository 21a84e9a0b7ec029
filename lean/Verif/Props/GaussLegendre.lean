import Verif.Model.GaussLegendre
import Mathlib.Analysis.SpecialFunctions.Integrals.Basic
import Mathlib.Algebra.Polynomial.Eval.Degree
import Mathlib.Algebra.Polynomial.Eval.SMul
import Mathlib.Algebra.Polynomial.BigOperators
import Mathlib.Analysis.Polynomial.Basic
import Mathlib.Tactic.Ring
import Mathlib.Tactic.FieldSimp
import Mathlib.Tactic.Linarith
import Mathlib.Tactic.NormNum
import Mathlib.Tactic.Positivity
import Mathlib.Tactic.IntervalCases
import Mathlib.Data.List.GetD
import Mathlib.Topology.Algebra.Polynomial

/-! Property C15: the composite Gauss-Legendre rule. -/

namespace Verif.GaussLegendre

open Finset Polynomial

/-! ### The composite rule is the sum of the rules on the cells -/

/-- The reference rule on `[-1, 1]`. -/
noncomputable def refRule (pos w : List ℝ) (g : ℝ → ℝ) : ℝ := ∑ j ∈ range w.length, w.getD j 0 * g (pos.getD j 0)

/-- Consecutive pairs of edges. -/
def cells : List ℝ → List (ℝ × ℝ)
  | x0 :: x1 :: rest => (x0, x1) :: cells (x1 :: rest)
  | _ => []

theorem integrate_eq (pos w : List ℝ) (hpw : pos.length = w.length) (hw : 0 < w.length) (edges : List ℝ) (f : ℝ → ℝ) :
    integrate pos w edges f =
      ((cells edges).map (fun c => (c.2 - c.1) / 2 * refRule pos w (fun t => f ((c.1 + c.2) / 2 + (c.2 - c.1) / 2 * t)))).sum := by
  match edges with
  | [] => simp [integrate, cells]
  | [x] => simp [integrate, cells]
  | x0 :: x1 :: rest =>
    have ih := integrate_eq pos w hpw hw (x1 :: rest) f
    simp only [cells, List.map_cons, List.sum_cons]
    rw [← ih]
    unfold integrate
    simp only [List.length_cons, Nat.add_sub_cancel]
    rw [show (rest.length + 1) * w.length = w.length + rest.length * w.length by ring, sum_range_add]
    congr 1
    · unfold refRule
      rw [mul_sum]
      apply sum_congr rfl
      intro j hj
      have hj' := mem_range.1 hj
      have e1 : coefficient w (x0 :: x1 :: rest) j = (x1 - x0) / 2 * w.getD j 0 := by
        unfold coefficient
        rw [Nat.div_eq_of_lt hj', Nat.mod_eq_of_lt hj']
        simp only [cellLengths, List.getD_cons_zero]; ring
      have e2 : (sampling pos (x0 :: x1 :: rest)).getD j 0 = (x0 + x1) / 2 + (x1 - x0) / 2 * pos.getD j 0 := by
        unfold sampling
        rw [List.getD_append _ _ _ _ (by simp [cellPoints]; omega)]
        simp only [cellPoints, List.getD_eq_getElem?_getD, List.getElem?_map]
        rw [List.getElem?_eq_getElem (by omega)]
        simp; ring
      rw [e1, e2]; ring
    · apply sum_congr rfl
      intro j _
      have e1 : coefficient w (x0 :: x1 :: rest) (w.length + j) = coefficient w (x1 :: rest) j := by
        unfold coefficient
        rw [Nat.add_div_left _ hw, Nat.add_mod_left]
        simp [cellLengths]
      have e2 : (sampling pos (x0 :: x1 :: rest)).getD (w.length + j) 0 = (sampling pos (x1 :: rest)).getD j 0 := by
        rw [sampling]
        rw [List.getD_append_right _ _ _ _ (by simp [cellPoints]; omega)]
        simp [cellPoints, hpw]
      rw [e1, e2]

/-! ### Transport of exactness -/

/-- How well a reference rule integrates the monomials up to degree `m`. -/
def ExactUpTo (pos w : List ℝ) (m : ℕ) (ε : ℝ) : Prop :=
  ∀ k ≤ m, |refRule pos w (fun t => t ^ k) - ∫ t in (-1 : ℝ)..1, t ^ k| ≤ ε

theorem refRule_poly (pos w : List ℝ) (m : ℕ) (ε : ℝ) (h : ExactUpTo pos w m ε) (q : ℝ[X]) (hq : q.natDegree ≤ m) :
    |refRule pos w (fun t => q.eval t) - ∫ t in (-1 : ℝ)..1, q.eval t| ≤ ε * ∑ k ∈ range (m + 1), |q.coeff k| := by
  have ev : ∀ t : ℝ, q.eval t = ∑ k ∈ range (m + 1), q.coeff k * t ^ k := fun t =>
    eval_eq_sum_range' (Nat.lt_succ_of_le hq) t
  simp only [ev]
  rw [intervalIntegral.integral_finsetSum (fun k _ => Continuous.intervalIntegrable (by fun_prop) _ _)]
  unfold refRule
  simp only [mul_sum]
  rw [sum_comm, ← sum_sub_distrib]
  refine (abs_sum_le_sum_abs _ _).trans ?_
  apply sum_le_sum
  intro k hk
  have hk' : k ≤ m := Nat.lt_succ_iff.1 (mem_range.1 hk)
  have e : ∑ j ∈ range w.length, w.getD j 0 * (q.coeff k * pos.getD j 0 ^ k) =
      q.coeff k * refRule pos w (fun t => t ^ k) := by
    unfold refRule; rw [mul_sum]; apply sum_congr rfl; intro j _; ring
  rw [e, intervalIntegral.integral_const_mul, ← mul_sub, abs_mul, mul_comm]
  exact mul_le_mul_of_nonneg_right (h k hk') (abs_nonneg _)

/-- The polynomial seen from the reference cell. -/
noncomputable def localPoly (P : ℝ[X]) (c : ℝ × ℝ) : ℝ[X] := P.comp (C ((c.1 + c.2) / 2) + C ((c.2 - c.1) / 2) * X)

theorem integral_cells (edges : List ℝ) (hne : edges ≠ []) (g : ℝ → ℝ) (hg : Continuous g) :
    ((cells edges).map (fun c => ∫ t in c.1..c.2, g t)).sum = ∫ t in (edges.head hne)..(edges.getLast hne), g t := by
  match edges with
  | [x] => simp [cells]
  | x0 :: x1 :: rest =>
    have ih := integral_cells (x1 :: rest) (by simp) g hg
    simp only [cells, List.map_cons, List.sum_cons]
    rw [ih]
    simp only [List.head_cons, List.getLast_cons_cons]
    exact intervalIntegral.integral_add_adjacent_intervals (hg.intervalIntegrable _ _) (hg.intervalIntegrable _ _)

theorem integral_cell (a b : ℝ) (P : ℝ[X]) :
    ∫ t in a..b, P.eval t = (b - a) / 2 * ∫ s in (-1 : ℝ)..1, (localPoly P (a, b)).eval s := by
  have h := intervalIntegral.smul_integral_comp_add_mul (a := (-1 : ℝ)) (b := 1) (fun t => P.eval t) ((b - a) / 2) ((a + b) / 2)
  rw [smul_eq_mul] at h
  have e1 : (a + b) / 2 + (b - a) / 2 * (-1) = a := by ring
  have e2 : (a + b) / 2 + (b - a) / 2 * 1 = b := by ring
  rw [e1, e2] at h
  rw [← h]
  simp [localPoly]

/-- C15: if the reference rule integrates the monomials of degree at most `m` up to `ε`, the composite rule on any mesh edges
integrates any polynomial of degree at most `m` over the whole interval up to the sum of the errors `ε · (half length) · Σ|coefficients|`
of the cells. -/
theorem c15_composite (pos w : List ℝ) (hpw : pos.length = w.length) (hw : 0 < w.length) (m : ℕ) (ε : ℝ)
    (h : ExactUpTo pos w m ε) (edges : List ℝ) (hne : edges ≠ []) (P : ℝ[X]) (hP : P.natDegree ≤ m) :
    |integrate pos w edges (fun t => P.eval t) - ∫ t in (edges.head hne)..(edges.getLast hne), P.eval t| ≤
      ε * ((cells edges).map (fun c => |c.2 - c.1| / 2 * ∑ k ∈ range (m + 1), |(localPoly P c).coeff k|)).sum := by
  rw [integrate_eq pos w hpw hw, ← integral_cells edges hne _ P.continuous]
  have key : ∀ c : ℝ × ℝ, |(c.2 - c.1) / 2 * refRule pos w (fun t => P.eval ((c.1 + c.2) / 2 + (c.2 - c.1) / 2 * t)) - ∫ t in c.1..c.2, P.eval t| ≤
      ε * (|c.2 - c.1| / 2 * ∑ k ∈ range (m + 1), |(localPoly P c).coeff k|) := by
    rintro ⟨a, b⟩
    rw [integral_cell]
    have e : (fun t => P.eval ((a + b) / 2 + (b - a) / 2 * t)) = fun t => (localPoly P (a, b)).eval t := by
      funext t; simp [localPoly]
    simp only
    rw [e, ← mul_sub, abs_mul, abs_div, abs_of_pos (by norm_num : (0 : ℝ) < 2)]
    have hdeg : (localPoly P (a, b)).natDegree ≤ m := by
      unfold localPoly
      refine (natDegree_comp_le).trans ?_
      have : (C ((a + b) / 2) + C ((b - a) / 2) * X : ℝ[X]).natDegree ≤ 1 := by
        rw [add_comm]
        exact natDegree_linear_le
      calc P.natDegree * _ ≤ P.natDegree * 1 := Nat.mul_le_mul_left _ this
        _ ≤ m := by omega
    have := refRule_poly pos w m ε h _ hdeg
    calc |b - a| / 2 * _ ≤ |b - a| / 2 * (ε * ∑ k ∈ range (m + 1), |(localPoly P (a, b)).coeff k|) :=
          mul_le_mul_of_nonneg_left this (by positivity)
      _ = _ := by ring
  generalize cells edges = L
  induction L with
  | nil => simp
  | cons c L ih =>
    simp only [List.map_cons, List.sum_cons]
    rw [mul_add, add_sub_add_comm]
    exact (abs_add_le _ _).trans (add_le_add (key c) ih)

/-- C15: an exact reference rule gives an exact composite rule. -/
theorem c15_composite_exact (pos w : List ℝ) (hpw : pos.length = w.length) (hw : 0 < w.length) (m : ℕ)
    (h : ∀ k ≤ m, refRule pos w (fun t => t ^ k) = ∫ t in (-1 : ℝ)..1, t ^ k)
    (edges : List ℝ) (hne : edges ≠ []) (P : ℝ[X]) (hP : P.natDegree ≤ m) :
    integrate pos w edges (fun t => P.eval t) = ∫ t in (edges.head hne)..(edges.getLast hne), P.eval t := by
  have := c15_composite pos w hpw hw m 0 (fun k hk => by rw [h k hk]; simp) edges hne P hP
  rw [zero_mul] at this
  exact sub_eq_zero.1 (abs_nonpos_iff.1 this)

/-! ### The tables -/

/-- Moment of a table times `10^(25 (k+1)) * (k+1)` minus the exact value, as an integer. -/
def momentDefect (t : List ℤ × List ℤ) (k : ℕ) : ℤ :=
  (k + 1) * ((t.1.zip t.2).map (fun p => p.1 * p.2 ^ k)).sum - (if k % 2 = 0 then 2 else 0) * 10 ^ (25 * (k + 1))

/-- Everything that is checked about the tables, in integer arithmetic. -/
def tableOk (n : ℕ) : Bool :=
  (table n).1.length == n && (table n).2.length == n &&
  (List.range (2 * n)).all (fun k => decide (|momentDefect (table n) k| ≤ (k + 1) * 10 ^ (25 * (k + 1) - 24))) &&
  (table n).1.all (fun z => decide (0 < z)) &&
  (table n).2.all (fun z => decide (-10 ^ 25 < z ∧ z < 10 ^ 25)) &&
  decide ((table n).2.Pairwise (· < ·))

theorem tables_ok : ∀ n, 1 ≤ n → n ≤ 10 → tableOk n = true := by
  intro n h1 h2
  interval_cases n <;> decide +kernel

theorem refRule_table (a b : List ℤ) (hab : b.length = a.length) (k : ℕ) :
    refRule (b.map (fun z : ℤ => (z : ℝ) / 10 ^ 25)) (a.map (fun z : ℤ => (z : ℝ) / 10 ^ 25)) (fun t => t ^ k) =
      (((a.zip b).map (fun p => p.1 * p.2 ^ k)).sum : ℤ) / (10 : ℝ) ^ (25 * (k + 1)) := by
  unfold refRule
  rw [List.length_map]
  induction a generalizing b with
  | nil => simp
  | cons x a ih =>
    match b, hab with
    | y :: b, hab =>
      simp only [List.length_cons] at hab ⊢
      rw [sum_range_succ']
      simp only [List.map_cons, List.getD_cons_succ, List.getD_cons_zero, List.zip_cons_cons, List.sum_cons]
      rw [ih b (by omega)]
      push_cast
      rw [add_div]
      rw [add_comm]
      congr 1
      rw [div_pow, div_mul_div_comm, ← pow_mul, ← pow_add]
      congr 2
      ring

theorem integral_monomial (k : ℕ) : ∫ t in (-1 : ℝ)..1, t ^ k = (if k % 2 = 0 then 2 else 0) / ((k : ℝ) + 1) := by
  rw [integral_pow]
  rcases Nat.even_or_odd k with h | h
  · rw [if_pos (Nat.even_iff.1 h)]
    rw [Odd.neg_one_pow h.add_one]
    norm_num
  · rw [if_neg (by rw [Nat.odd_iff.1 h]; norm_num)]
    rw [Even.neg_one_pow h.add_one]
    norm_num

/-- C15: the tabulated rules with `n = 1..10` points integrate the monomials up to the advertised degree `2n - 1` with an error below
`10^-24`; the weights are positive, the positions increasing and strictly inside `(-1, 1)`. -/
theorem c15_tables (n : ℕ) (h1 : 1 ≤ n) (h10 : n ≤ 10) :
    (weights n).length = n ∧ (positions n).length = n ∧ ExactUpTo (positions n) (weights n) (2 * n - 1) (1 / 10 ^ 24) ∧
    (∀ x ∈ weights n, 0 < x) ∧ (∀ p ∈ positions n, -1 < p ∧ p < 1) ∧ (positions n).Pairwise (· < ·) := by
  have h := tables_ok n h1 h10
  unfold tableOk at h
  simp only [Bool.and_eq_true, beq_iff_eq, List.all_eq_true, decide_eq_true_eq, List.mem_range] at h
  obtain ⟨⟨⟨⟨⟨hl1, hl2⟩, hm⟩, hw⟩, hp⟩, hs⟩ := h
  refine ⟨by simp [weights, hl1], by simp [positions, hl2], ?_, ?_, ?_, ?_⟩
  · intro k hk
    have hk2 := hm k (by omega)
    unfold weights positions
    rw [refRule_table _ _ (by omega), integral_monomial]
    set S : ℤ := (((table n).1.zip (table n).2).map (fun p => p.1 * p.2 ^ k)).sum with hS
    have hpos : (0 : ℝ) < 10 ^ (25 * (k + 1)) := by positivity
    have hk1 : (0 : ℝ) < (k : ℝ) + 1 := by positivity
    have hd : (momentDefect (table n) k : ℝ) = ((k : ℝ) + 1) * S - (if k % 2 = 0 then 2 else 0) * 10 ^ (25 * (k + 1)) := by
      unfold momentDefect
      rw [← hS]
      split_ifs <;> push_cast <;> ring
    have hdi : |(momentDefect (table n) k : ℝ)| ≤ ((k : ℝ) + 1) * 10 ^ (25 * (k + 1) - 24) := by
      have : ((|momentDefect (table n) k| : ℤ) : ℝ) ≤ (((k + 1) * 10 ^ (25 * (k + 1) - 24) : ℤ) : ℝ) := by exact_mod_cast hk2
      push_cast at this
      exact this
    have e : (S : ℝ) / 10 ^ (25 * (k + 1)) - (if k % 2 = 0 then 2 else 0) / ((k : ℝ) + 1) =
        (momentDefect (table n) k : ℝ) / (((k : ℝ) + 1) * 10 ^ (25 * (k + 1))) := by
      rw [hd]; field_simp
    rw [e, abs_div, abs_of_pos (mul_pos hk1 hpos), div_le_iff₀ (mul_pos hk1 hpos)]
    refine hdi.trans (le_of_eq ?_)
    have : (10 : ℝ) ^ (25 * (k + 1)) = 10 ^ (25 * (k + 1) - 24) * 10 ^ 24 := by
      rw [← pow_add]; congr 1
    rw [this]; field_simp
  · intro x hx
    simp only [weights, List.mem_map] at hx
    obtain ⟨z, hz, rfl⟩ := hx
    have : (0 : ℝ) < z := by exact_mod_cast hw z hz
    positivity
  · intro p hpp
    simp only [positions, List.mem_map] at hpp
    obtain ⟨z, hz, rfl⟩ := hpp
    obtain ⟨a, b⟩ := hp z hz
    have a' : (-10 ^ 25 : ℝ) < z := by exact_mod_cast a
    have b' : (z : ℝ) < 10 ^ 25 := by exact_mod_cast b
    constructor
    · rw [lt_div_iff₀ (by positivity)]; linarith
    · rw [div_lt_one (by positivity)]; exact b'
  · unfold positions
    rw [List.pairwise_map]
    refine hs.imp ?_
    intro a b hab
    have : (a : ℝ) < b := by exact_mod_cast hab
    gcongr

/-- C15: on increasing mesh edges, the quadrature points of a rule with increasing reference positions in `(-1, 1)` are
strictly increasing and strictly inside the interval. -/
theorem c15_points_increasing (pos : List ℝ) (hp : ∀ p ∈ pos, -1 < p ∧ p < 1) (hs : pos.Pairwise (· < ·))
    (edges : List ℝ) (he : edges.Pairwise (· < ·)) :
    (sampling pos edges).Pairwise (· < ·) ∧
    (∀ hne : edges ≠ [], ∀ x ∈ sampling pos edges, edges.head hne < x ∧ x < edges.getLast hne) := by
  match edges with
  | [] => simp [sampling]
  | [x] => simp [sampling]
  | x0 :: x1 :: rest =>
    have he' := (List.pairwise_cons.1 he).2
    have h01 : x0 < x1 := (List.pairwise_cons.1 he).1 x1 (by simp)
    obtain ⟨i1, i2⟩ := c15_points_increasing pos hp hs (x1 :: rest) he'
    have i2' := i2 (by simp)
    simp only [List.head_cons] at i2'
    have hcell : ∀ x ∈ cellPoints pos x0 x1, x0 < x ∧ x < x1 := by
      intro x hx
      simp only [cellPoints, List.mem_map] at hx
      obtain ⟨p, hpp, rfl⟩ := hx
      obtain ⟨a, b⟩ := hp p hpp
      constructor <;> nlinarith
    have hlast : x1 ≤ (x1 :: rest).getLast (by simp) := by
      cases rest with
      | nil => simp
      | cons y r =>
        have := (List.pairwise_cons.1 he').1 _ (List.getLast_mem (l := y :: r) (by simp))
        rw [List.getLast_cons_cons]
        exact this.le
    constructor
    · unfold sampling
      rw [List.pairwise_append]
      refine ⟨?_, i1, ?_⟩
      · simp only [cellPoints]
        rw [List.pairwise_map]
        refine hs.imp ?_
        intro a b hab
        nlinarith
      · intro a ha b hb
        exact (hcell a ha).2.trans (i2' b hb).1
    · intro _ x hx
      unfold sampling at hx
      rw [List.getLast_cons_cons]
      simp only [List.head_cons]
      rcases List.mem_append.1 hx with hx | hx
      · exact ⟨(hcell x hx).1, lt_of_lt_of_le (hcell x hx).2 hlast⟩
      · exact ⟨h01.trans (i2' x hx).1, (i2' x hx).2⟩

/-- Instance: the two-point table on the mesh 0, 1, 3 and a cubic. -/
example : |integrate (positions 2) (weights 2) [0, 1, 3] (fun t => (X ^ 3 : ℝ[X]).eval t) - ∫ t in (0 : ℝ)..3, (X ^ 3 : ℝ[X]).eval t| ≤
    1 / 10 ^ 24 * ((cells [0, 1, 3]).map (fun c => |c.2 - c.1| / 2 * ∑ k ∈ range (3 + 1), |(localPoly (X ^ 3) c).coeff k|)).sum :=
  have h := c15_tables 2 (by norm_num) (by norm_num)
  c15_composite (positions 2) (weights 2) (by rw [h.1, h.2.1]) (by rw [h.1]; norm_num) 3 _ h.2.2.1 [0, 1, 3] (by simp) (X ^ 3)
    (by rw [natDegree_X_pow])

end Verif.GaussLegendre
