import Verif.Model.GaussLegendre
import Mathlib.Topology.Order.IntermediateValue
import Mathlib.Topology.Algebra.Ring.Real
import Mathlib.Tactic.Positivity
import Mathlib.Tactic.Ring
import Mathlib.Tactic.FieldSimp
import Mathlib.Tactic.Linarith
import Mathlib.Tactic.IntervalCases

/-!
# C15 (nodes): the tabulated positions are the correctly rounded roots of the Legendre polynomials
-/

namespace Verif.GaussLegendre

/-- Specification: Legendre polynomials by Bonnet's recursion. -/
noncomputable def legendre : ℕ → ℝ → ℝ
  | 0, _ => 1
  | 1, x => x
  | n + 2, x => ((2 * (n : ℝ) + 3) * x * legendre (n + 1) x - ((n : ℝ) + 1) * legendre n x) / ((n : ℝ) + 2)

/-- `n! B^n P_n(a / B)` in integers. -/
def legendreZ (a B : ℤ) : ℕ → ℤ × ℤ
  | 0 => (1, a)
  | n + 1 =>
    let p := legendreZ a B n
    (p.2, (2 * (n : ℤ) + 3) * a * p.2 - ((n : ℤ) + 1) ^ 2 * B ^ 2 * p.1)

theorem legendreZ_eq (a B : ℤ) (hB : 0 < B) (n : ℕ) :
    ((legendreZ a B n).1 : ℝ) = n.factorial * (B : ℝ) ^ n * legendre n ((a : ℝ) / B) ∧
    ((legendreZ a B n).2 : ℝ) = (n + 1).factorial * (B : ℝ) ^ (n + 1) * legendre (n + 1) ((a : ℝ) / B) := by
  have hb : (B : ℝ) ≠ 0 := by exact_mod_cast hB.ne'
  induction n with
  | zero => simp [legendreZ, legendre]; field_simp
  | succ n ih =>
    refine ⟨ih.2, ?_⟩
    have h1 := ih.1
    have h2 := ih.2
    have e : (legendreZ a B (n + 1)).2 =
      (2 * (n : ℤ) + 3) * a * (legendreZ a B n).2 - ((n : ℤ) + 1) ^ 2 * B ^ 2 * (legendreZ a B n).1 := rfl
    rw [e]
    push_cast
    rw [h1, h2]
    have hn2 : (n : ℝ) + 2 ≠ 0 := by positivity
    have e2 : legendre (n + 1 + 1) ((a : ℝ) / B) = ((2 * (n : ℝ) + 3) * ((a : ℝ) / B) * legendre (n + 1) ((a : ℝ) / B)
      - ((n : ℝ) + 1) * legendre n ((a : ℝ) / B)) / ((n : ℝ) + 2) := rfl
    rw [e2]
    rw [Nat.factorial_succ (n + 1), Nat.factorial_succ n]
    push_cast
    field_simp
    ring

theorem legendre_continuous (n : ℕ) : Continuous (legendre n) ∧ Continuous (legendre (n + 1)) := by
  induction n with
  | zero => exact ⟨continuous_const, continuous_id⟩
  | succ n ih =>
    refine ⟨ih.2, ?_⟩
    have : legendre (n + 1 + 1) = fun x => ((2 * (n : ℝ) + 3) * x * legendre (n + 1) x - ((n : ℝ) + 1) * legendre n x) / ((n : ℝ) + 2) := rfl
    rw [this]
    exact (((continuous_const.mul continuous_id).mul ih.2).sub (continuous_const.mul ih.1)).div_const _

/-- Sign change of `P_n` half a unit of the last place on either side of the tabulated value. -/
def nodeOk (n : ℕ) (z : ℤ) : Bool :=
  decide ((legendreZ (2 * z - 1) (2 * 10 ^ 25) n).1 * (legendreZ (2 * z + 1) (2 * 10 ^ 25) n).1 ≤ 0)

theorem nodes_ok (n : ℕ) (h1 : 1 ≤ n) (h10 : n ≤ 10) : ((table n).2.all (nodeOk n)) = true := by
  interval_cases n <;> decide +kernel

/-- C15: every tabulated position is within half a unit of its 25th decimal of a root of the Legendre polynomial of
degree `n`: the table holds the correctly rounded Gauss-Legendre nodes. -/
theorem c15_nodes_are_legendre_roots (n : ℕ) (h1 : 1 ≤ n) (h10 : n ≤ 10) :
    ∀ p ∈ positions n, ∃ ξ : ℝ, legendre n ξ = 0 ∧ |p - ξ| ≤ 0.5 / 10 ^ 25 := by
  intro p hp
  unfold positions at hp
  rw [List.mem_map] at hp
  obtain ⟨z, hz, rfl⟩ := hp
  have h := List.all_eq_true.1 (nodes_ok n h1 h10) z hz
  unfold nodeOk at h
  rw [decide_eq_true_eq] at h
  have hB : (0 : ℤ) < 2 * 10 ^ 25 := by norm_num
  have ha := (legendreZ_eq (2 * z - 1) (2 * 10 ^ 25) hB n).1
  have hb := (legendreZ_eq (2 * z + 1) (2 * 10 ^ 25) hB n).1
  have h' : ((legendreZ (2 * z - 1) (2 * 10 ^ 25) n).1 : ℝ) * ((legendreZ (2 * z + 1) (2 * 10 ^ 25) n).1 : ℝ) ≤ 0 := by
    exact_mod_cast h
  rw [ha, hb] at h'
  set u : ℝ := ((2 * z - 1 : ℤ) : ℝ) / ((2 * 10 ^ 25 : ℤ) : ℝ) with hu
  set v : ℝ := ((2 * z + 1 : ℤ) : ℝ) / ((2 * 10 ^ 25 : ℤ) : ℝ) with hv
  set c : ℝ := (n.factorial : ℝ) * ((2 * 10 ^ 25 : ℤ) : ℝ) ^ n with hc
  have hcpos : 0 < c := by
    rw [hc]; have : (0 : ℝ) < n.factorial := by exact_mod_cast n.factorial_pos
    push_cast; positivity
  have hprod : legendre n u * legendre n v ≤ 0 := by
    have e : c * legendre n u * (c * legendre n v) = (c * c) * (legendre n u * legendre n v) := by ring
    rw [e] at h'
    by_contra hcon
    push Not at hcon
    have := mul_pos (mul_pos hcpos hcpos) hcon
    linarith
  have huv : u ≤ v := by
    rw [hu, hv]; push_cast; apply div_le_div_of_nonneg_right <;> [linarith; positivity]
  have hcont := (legendre_continuous n).1
  have hroot : ∃ ξ ∈ Set.Icc u v, legendre n ξ = 0 := by
    rcases mul_nonpos_iff.1 hprod with ⟨h1, h2⟩ | ⟨h1, h2⟩
    · exact intermediate_value_Icc' huv hcont.continuousOn ⟨h2, h1⟩
    · exact intermediate_value_Icc huv hcont.continuousOn ⟨h1, h2⟩
  obtain ⟨ξ, ⟨hl, hr⟩, h0⟩ := hroot
  refine ⟨ξ, h0, ?_⟩
  have hu' : u = (z : ℝ) / 10 ^ 25 - 0.5 / 10 ^ 25 := by rw [hu]; push_cast; field_simp; ring
  have hv' : v = (z : ℝ) / 10 ^ 25 + 0.5 / 10 ^ 25 := by rw [hv]; push_cast; field_simp; ring
  rw [abs_le]
  constructor <;> linarith

/-- Instance: the three-point table has three positions. -/
example : (positions 3).length = 3 ∧ legendre 3 0 = 0 := by
  constructor
  · simp [positions, table]
  · simp [legendre]

end Verif.GaussLegendre
