import Mathlib.Algebra.Polynomial.Derivative
import Mathlib.Algebra.Polynomial.Roots
import Mathlib.Topology.Algebra.Polynomial
import Mathlib.Order.Interval.Set.Infinite
import Mathlib.Analysis.Calculus.Deriv.Polynomial
import Mathlib.Analysis.Calculus.Deriv.MeanValue
import Mathlib.Analysis.Real.Sqrt
import Mathlib.Tactic.Linarith
import Mathlib.Tactic.LinearCombination
import Mathlib.Tactic.IntervalCases

/-!
# The zeros of smooth piecewise polynomials

`P q` is the polynomial of cell `q`, between `b q` and `b (q + 1)`. A position is a cell and a coordinate in it.
-/

namespace Verif.SplineInterp

open Polynomial

/-- The first position is before the second one. -/
def Bef (z w : ℕ × ℝ) : Prop := z.1 < w.1 ∨ (z.1 = w.1 ∧ z.2 < w.2)

theorem Bef.trans {x y z : ℕ × ℝ} (h1 : Bef x y) (h2 : Bef y z) : Bef x z := by
  rcases h1 with h1 | ⟨h1, h1'⟩ <;> rcases h2 with h2 | ⟨h2, h2'⟩
  · exact Or.inl (h1.trans h2)
  · exact Or.inl (h2 ▸ h1)
  · exact Or.inl (h1 ▸ h2)
  · exact Or.inr ⟨h1.trans h2, h1'.trans h2'⟩

/-- The position is in one of the `m` cells. -/
def In (m : ℕ) (b : ℕ → ℝ) (z : ℕ × ℝ) : Prop := z.1 < m ∧ b z.1 ≤ z.2 ∧ z.2 ≤ b (z.1 + 1)

/-- The value at a position. -/
noncomputable def at_ (P : ℕ → ℝ[X]) (z : ℕ × ℝ) : ℝ := (P z.1).eval z.2

section
variable {m : ℕ} {b : ℕ → ℝ} {P : ℕ → ℝ[X]}

theorem cell_rise (p : ℝ[X]) {x y : ℝ} (hxy : x < y) (h : p.eval x < p.eval y) : ∃ ξ, x < ξ ∧ ξ < y ∧ 0 < (derivative p).eval ξ := by
  obtain ⟨ξ, hξ, h1⟩ := exists_hasDerivAt_eq_slope (fun x => p.eval x) (fun x => (derivative p).eval x) hxy p.continuous.continuousOn fun x _ => p.hasDerivAt x
  refine ⟨ξ, hξ.1, hξ.2, ?_⟩
  rw [h1]
  exact div_pos (by linarith) (by linarith)

/-- If the value grows from one position to a later one, the derivative is positive somewhere between them. -/
theorem rise (hb : ∀ q < m, b q < b (q + 1)) (hcont : ∀ q, q + 1 < m → (P q).eval (b (q + 1)) = (P (q + 1)).eval (b (q + 1))) (k : ℕ) : ∀ z w : ℕ × ℝ, w.1 = z.1 + k → In m b z → In m b w → Bef z w → at_ P z < at_ P w →
    ∃ ξ, In m b ξ ∧ Bef z ξ ∧ Bef ξ w ∧ 0 < at_ (fun q => derivative (P q)) ξ := by
  induction k with
  | zero =>
    rintro ⟨q, x⟩ ⟨q', y⟩ hk hz hw hzw h
    simp only at hk hz hw hzw
    obtain rfl : q' = q := hk
    rcases hzw with h' | ⟨-, h'⟩
    · exact absurd h' (lt_irrefl _)
    obtain ⟨ξ, h1, h2, h3⟩ := cell_rise (P q') h' h
    exact ⟨(q', ξ), ⟨hz.1, by linarith [hz.2.1], by linarith [hw.2.2]⟩, Or.inr ⟨rfl, h1⟩, Or.inr ⟨rfl, h2⟩, h3⟩
  | succ k ih =>
    rintro ⟨q, x⟩ ⟨q', y⟩ hk hz hw hzw h
    simp only at hk hz hw hzw
    subst hk
    have hq : q + 1 < m := by have := hw.1; simp only at this; omega
    by_cases h1 : (P q).eval x < (P q).eval (b (q + 1))
    · have hx : x < b (q + 1) := lt_of_le_of_ne hz.2.2 fun e => by rw [e] at h1; exact lt_irrefl _ h1
      obtain ⟨ξ, h2, h3, h4⟩ := cell_rise (P q) hx h1
      exact ⟨(q, ξ), ⟨hz.1, by have := hz.2.1; simp only at this ⊢; linarith, h3.le⟩, Or.inr ⟨rfl, h2⟩, Or.inl (by simp only; omega), h4⟩
    · rw [not_lt, hcont q hq] at h1
      have hlt : at_ P (q + 1, b (q + 1)) < at_ P (q + (k + 1), y) := lt_of_le_of_lt h1 h
      have hbef : Bef (q + 1, b (q + 1)) (q + (k + 1), y) := by
        rcases Nat.eq_zero_or_pos k with rfl | hk
        · refine Or.inr ⟨rfl, lt_of_le_of_ne hw.2.1 fun e => ?_⟩
          simp only [zero_add] at e hlt
          rw [e] at hlt
          exact lt_irrefl _ hlt
        · exact Or.inl (by simp only; omega)
      obtain ⟨ξ, g1, g2, g3, g4⟩ := ih (q + 1, b (q + 1)) (q + (k + 1), y) (by simp only; omega) ⟨hq, le_rfl, (hb _ hq).le⟩ hw hbef hlt
      exact ⟨ξ, g1, Bef.trans (Or.inl (by simp)) g2, g3, g4⟩

/-- The same for a change with a given sign. -/
theorem change (hb : ∀ q < m, b q < b (q + 1)) (hcont : ∀ q, q + 1 < m → (P q).eval (b (q + 1)) = (P (q + 1)).eval (b (q + 1))) (s : ℝ) (z w : ℕ × ℝ) (hz : In m b z) (hw : In m b w) (hzw : Bef z w)
    (h : 0 < s * (at_ P w - at_ P z)) : ∃ ξ, In m b ξ ∧ Bef z ξ ∧ Bef ξ w ∧ 0 < s * at_ (fun q => derivative (P q)) ξ := by
  have hk : w.1 = z.1 + (w.1 - z.1) := by
    rcases hzw with h | ⟨h, -⟩ <;> omega
  obtain ⟨ξ, g1, g2, g3, g4⟩ := rise (P := fun q => C s * P q) hb (fun q hq => by simp only [eval_mul, hcont q hq, eval_C]) _ z w hk hz hw hzw (by
    simp only [at_, eval_mul, eval_C] at h ⊢; linarith)
  refine ⟨ξ, g1, g2, g3, ?_⟩
  simpa [at_, derivative_mul] using g4

/-- A sequence of `L + 1` positions at which the values alternate weakly: no two neighbours are both zero. -/
structure Alt (m : ℕ) (b : ℕ → ℝ) (P : ℕ → ℝ[X]) (y : ℕ → ℕ × ℝ) (L : ℕ) (s : ℝ) : Prop where
  inside : ∀ j ≤ L, In m b (y j)
  sorted : ∀ j < L, Bef (y j) (y (j + 1))
  sign : ∀ j ≤ L, 0 ≤ s * (-1) ^ j * at_ P (y j)
  moves : ∀ j < L, at_ P (y j) ≠ 0 ∨ at_ P (y (j + 1)) ≠ 0
  ne : s ≠ 0

/-- The derivative alternates strictly between the positions. -/
theorem Alt.derivative {y : ℕ → ℕ × ℝ} {L : ℕ} {s : ℝ} (hb : ∀ q < m, b q < b (q + 1)) (hcont : ∀ q, q + 1 < m → (P q).eval (b (q + 1)) = (P (q + 1)).eval (b (q + 1)))
    (h : Alt m b P y (L + 1) s) : ∃ w, Alt m b (fun q => derivative (P q)) w L (-s) ∧ ∀ j ≤ L, at_ (fun q => Polynomial.derivative (P q)) (w j) ≠ 0 ∧ Bef (y j) (w j) ∧ Bef (w j) (y (j + 1)) := by
  have key : ∀ j, ∃ w, j ≤ L → In m b w ∧ Bef (y j) w ∧ Bef w (y (j + 1)) ∧ 0 < (-s) * (-1) ^ j * at_ (fun q => Polynomial.derivative (P q)) w := fun j => by
    by_cases hj : j ≤ L
    · obtain ⟨ξ, g⟩ := change hb hcont ((-s) * (-1) ^ j) (y j) (y (j + 1)) (h.inside j (by omega)) (h.inside _ (by omega)) (h.sorted j (by omega)) (by
        have h1 := h.sign j (by omega)
        have h2 := h.sign (j + 1) (by omega)
        rw [pow_succ] at h2
        have hs : s * (-1) ^ j ≠ 0 := mul_ne_zero h.ne (pow_ne_zero _ (by norm_num))
        rcases h.moves j (by omega) with h3 | h3
        · have := lt_of_le_of_ne h1 (mul_ne_zero hs h3).symm
          nlinarith
        · have h4 : s * ((-1) ^ j * -1) * at_ P (y (j + 1)) ≠ 0 := by
            rw [show s * ((-1) ^ j * -1) * at_ P (y (j + 1)) = -(s * (-1) ^ j * at_ P (y (j + 1))) by ring]
            exact neg_ne_zero.2 (mul_ne_zero hs h3)
          have := lt_of_le_of_ne h2 h4.symm
          nlinarith)
      exact ⟨ξ, fun _ => g⟩
    · exact ⟨y 0, fun h => absurd h hj⟩
  choose w hw using key
  have hne : ∀ j ≤ L, at_ (fun q => Polynomial.derivative (P q)) (w j) ≠ 0 := fun j hj e => by
    have := (hw j hj).2.2.2
    rw [e, mul_zero] at this
    exact lt_irrefl _ this
  exact ⟨w, ⟨fun j hj => (hw j hj).1, fun j hj => (hw j (by omega)).2.2.1.trans (hw (j + 1) (by omega)).2.1, fun j hj => (hw j hj).2.2.2.le, fun j hj => Or.inl (hne j (by omega)), neg_ne_zero.2 h.ne⟩,
    fun j hj => ⟨hne j hj, (hw j hj).2.1, (hw j hj).2.2.1⟩⟩

/-- A zero before the first position. -/
theorem Alt.prepend {y : ℕ → ℕ × ℝ} {L : ℕ} {s : ℝ} (h : Alt m b P y L s) (a : ℕ × ℝ) (ha : In m b a) (ha0 : at_ P a = 0) (hbef : Bef a (y 0)) (h0 : at_ P (y 0) ≠ 0) :
    Alt m b P (fun j => if j = 0 then a else y (j - 1)) (L + 1) (-s) := by
  refine ⟨fun j hj => ?_, fun j hj => ?_, fun j hj => ?_, fun j hj => ?_, neg_ne_zero.2 h.ne⟩
  · by_cases hj0 : j = 0
    · simp only [hj0, if_true]; exact ha
    · simp only [hj0, if_false]; exact h.inside _ (by omega)
  · by_cases hj0 : j = 0
    · subst hj0; simpa using hbef
    · simp only [hj0, if_false, Nat.add_one_ne_zero, Nat.add_sub_cancel]
      have := h.sorted (j - 1) (by omega)
      rwa [show j - 1 + 1 = j by omega] at this
  · by_cases hj0 : j = 0
    · simp [hj0, ha0]
    · simp only [hj0, if_false]
      have := h.sign (j - 1) (by omega)
      obtain ⟨i, rfl⟩ : ∃ i, j = i + 1 := ⟨j - 1, by omega⟩
      rw [Nat.add_sub_cancel] at this ⊢
      rw [pow_succ]
      linarith
  · by_cases hj0 : j = 0
    · subst hj0; right; simpa using h0
    · simp only [hj0, if_false, Nat.add_one_ne_zero, Nat.add_sub_cancel]
      have := h.moves (j - 1) (by omega)
      rwa [show j - 1 + 1 = j by omega] at this

/-- A zero after the last position. -/
theorem Alt.append {y : ℕ → ℕ × ℝ} {L : ℕ} {s : ℝ} (h : Alt m b P y L s) (a : ℕ × ℝ) (ha : In m b a) (ha0 : at_ P a = 0) (hbef : Bef (y L) a) (h0 : at_ P (y L) ≠ 0) :
    Alt m b P (fun j => if j ≤ L then y j else a) (L + 1) s := by
  refine ⟨fun j hj => ?_, fun j hj => ?_, fun j hj => ?_, fun j hj => ?_, h.ne⟩
  · by_cases hj0 : j ≤ L
    · simp only [hj0, if_true]; exact h.inside _ hj0
    · simp only [hj0, if_false]; exact ha
  · by_cases hj0 : j + 1 ≤ L
    · simp only [hj0, show j ≤ L by omega, if_true]; exact h.sorted j (by omega)
    · obtain rfl : j = L := by omega
      simpa using hbef
  · by_cases hj0 : j ≤ L
    · simp only [hj0, if_true]; exact h.sign _ hj0
    · simp [hj0, ha0]
  · by_cases hj0 : j + 1 ≤ L
    · simp only [hj0, show j ≤ L by omega, if_true]; exact h.moves j (by omega)
    · obtain rfl : j = L := by omega
      left; simpa using h0

/-- A smooth piecewise polynomial of degree `p` on `m` cells which has zeros of order `α`, `β` at the ends changes its sign at most `m + p - α - β - 1` times. -/
theorem sign_changes (hb : ∀ q < m, b q < b (q + 1)) (p : ℕ) : ∀ (P : ℕ → ℝ[X]) (α β : ℕ), (∀ q < m, (P q).natDegree ≤ p) →
    (∀ q, q + 1 < m → ∀ k < p, (Polynomial.derivative^[k] (P q)).eval (b (q + 1)) = (Polynomial.derivative^[k] (P (q + 1))).eval (b (q + 1))) → α ≤ p → β ≤ p →
    (∀ k < α, (Polynomial.derivative^[k] (P 0)).eval (b 0) = 0) → (∀ k < β, (Polynomial.derivative^[k] (P (m - 1))).eval (b m) = 0) →
    ∀ y L s, Alt m b P y L s → (∀ j ≤ L, at_ P (y j) ≠ 0) → L + 1 + α + β ≤ m + p := by
  induction p with
  | zero =>
    intro P α β hdeg _ hα hβ _ _ y L s h hne
    obtain rfl : α = 0 := by omega
    obtain rfl : β = 0 := by omega
    have hconst : ∀ q < m, ∀ x x', (P q).eval x = (P q).eval x' := fun q hq x x' => by
      rw [eq_C_of_natDegree_le_zero (hdeg q hq), eval_C, eval_C]
    have hcells : ∀ j < L, (y j).1 < (y (j + 1)).1 := fun j hj => by
      rcases h.sorted j hj with h1 | ⟨h1, -⟩
      · exact h1
      · exfalso
        have e : at_ P (y j) = at_ P (y (j + 1)) := by rw [at_, at_, ← h1]; exact hconst _ (h.inside j (by omega)).1 _ _
        have s1 := h.sign j (by omega)
        have s2 := h.sign (j + 1) (by omega)
        rw [← e, pow_succ] at s2
        have : s * (-1) ^ j * at_ P (y j) = 0 := le_antisymm (by linarith) s1
        exact mul_ne_zero (mul_ne_zero h.ne (pow_ne_zero _ (by norm_num))) (hne j (by omega)) this
    have hgrow : ∀ j ≤ L, j ≤ (y j).1 := fun j => by
      induction j with
      | zero => intro _; omega
      | succ j ih => intro hj; have := hcells j (by omega); have := ih (by omega); omega
    have := hgrow L le_rfl
    have := (h.inside L le_rfl).1
    omega
  | succ p ih =>
    intro P α β hdeg hsm hα hβ hl hr y L s h hne
    have hm : 1 ≤ m := by have := (h.inside 0 (by omega)).1; omega
    have hcont : ∀ q, q + 1 < m → (P q).eval (b (q + 1)) = (P (q + 1)).eval (b (q + 1)) := fun q hq => hsm q hq 0 (by omega)
    have ih' := ih (fun q => Polynomial.derivative (P q)) (α - 1) (β - 1) (fun q hq => (natDegree_derivative_le _).trans (by have := hdeg q hq; omega))
      (fun q hq k hk => by rw [← Function.iterate_succ_apply, ← Function.iterate_succ_apply]; exact hsm q hq (k + 1) (by omega)) (by omega) (by omega)
      (fun k hk => by rw [← Function.iterate_succ_apply]; exact hl (k + 1) (by omega)) (fun k hk => by rw [← Function.iterate_succ_apply]; exact hr (k + 1) (by omega))
    have use : ∀ y' L' s', Alt m b P y' (L' + 1) s' → L' + 1 + (α - 1) + (β - 1) ≤ m + p := fun y' L' s' h' => by
      obtain ⟨w, hw, hw'⟩ := h'.derivative hb hcont
      exact ih' w L' _ hw fun j hj => (hw' j hj).1
    have hfirst : 1 ≤ α → at_ P (0, b 0) = 0 ∧ Bef (0, b 0) (y 0) := fun h1 => by
      have e := hl 0 (by omega)
      refine ⟨e, ?_⟩
      rcases Nat.eq_zero_or_pos (y 0).1 with h2 | h2
      · refine Or.inr ⟨h2.symm, lt_of_le_of_ne ?_ fun e2 => hne 0 (by omega) ?_⟩
        · have := (h.inside 0 (by omega)).2.1; rwa [h2] at this
        · simp only at e2
          rw [at_, h2, ← e2]; exact e
      · exact Or.inl h2
    have hlast : 1 ≤ β → at_ P (m - 1, b m) = 0 ∧ Bef (y L) (m - 1, b m) := fun h1 => by
      have e := hr 0 (by omega)
      refine ⟨e, ?_⟩
      have h3 := (h.inside L le_rfl).1
      rcases Nat.lt_or_ge (y L).1 (m - 1) with h2 | h2
      · exact Or.inl h2
      · have h4 : (y L).1 = m - 1 := by omega
        refine Or.inr ⟨h4, lt_of_le_of_ne ?_ fun e2 => hne L le_rfl ?_⟩
        · have := (h.inside L le_rfl).2.2; rwa [h4, show m - 1 + 1 = m by omega] at this
        · simp only at e2
          rw [at_, h4, e2]; exact e
    have inA : In m b (0, b 0) := ⟨by simp only; omega, le_rfl, (hb 0 (by omega)).le⟩
    have inB : In m b (m - 1, b m) := ⟨by simp only; omega, by have := hb (m - 1) (by omega); rw [show m - 1 + 1 = m by omega] at this; exact this.le, by simp only [show m - 1 + 1 = m by omega, le_refl]⟩
    by_cases hα1 : 1 ≤ α <;> by_cases hβ1 : 1 ≤ β
    · obtain ⟨a1, a2⟩ := hfirst hα1
      obtain ⟨b1, b2⟩ := hlast hβ1
      have h1 := h.prepend _ inA a1 a2 (hne 0 (by omega))
      have h2 := h1.append _ inB b1 (by simpa using b2) (by simpa using hne L le_rfl)
      have := use _ _ _ h2
      omega
    · obtain ⟨a1, a2⟩ := hfirst hα1
      have := use _ _ _ (h.prepend _ inA a1 a2 (hne 0 (by omega)))
      omega
    · obtain ⟨b1, b2⟩ := hlast hβ1
      have := use _ _ _ (h.append _ inB b1 b2 (hne L le_rfl))
      omega
    · rcases Nat.eq_zero_or_pos L with rfl | hL
      · omega
      · obtain ⟨K, rfl⟩ : ∃ K, L = K + 1 := ⟨L - 1, by omega⟩
        have := use _ _ _ h
        omega

/-- A polynomial which is not zero is not zero somewhere in an interval. -/
theorem nonzero_between {p : ℝ[X]} (hp : p ≠ 0) {x y : ℝ} (hxy : x < y) : ∃ u, x < u ∧ u < y ∧ p.eval u ≠ 0 := by
  by_contra hcon
  push Not at hcon
  exact hp (Polynomial.eq_zero_of_infinite_isRoot p ((Set.Ioo_infinite hxy).mono fun u hu => hcon u hu.1 hu.2))

/-- Between two positions there is one where the value is not zero, when no cell is identically zero. -/
theorem nonzero_position (hb : ∀ q < m, b q < b (q + 1)) (hP : ∀ q < m, P q ≠ 0) (z w : ℕ × ℝ) (hz : In m b z) (hw : In m b w) (hzw : Bef z w)
    (hne : z.1 < w.1 → b w.1 < w.2 ∨ z.2 < b (z.1 + 1) ∨ z.1 + 1 < w.1) : ∃ u, In m b u ∧ Bef z u ∧ Bef u w ∧ at_ P u ≠ 0 := by
  rcases hzw with h | ⟨h, h'⟩
  · rcases hne h with h1 | h1 | h1
    · obtain ⟨u, g1, g2, g3⟩ := nonzero_between (hP _ hw.1) h1
      exact ⟨(w.1, u), ⟨hw.1, g1.le, g2.le.trans hw.2.2⟩, Or.inl h, Or.inr ⟨rfl, g2⟩, g3⟩
    · obtain ⟨u, g1, g2, g3⟩ := nonzero_between (hP _ hz.1) h1
      exact ⟨(z.1, u), ⟨hz.1, hz.2.1.trans g1.le, g2.le⟩, Or.inr ⟨rfl, g1⟩, Or.inl h, g3⟩
    · have hq : z.1 + 1 < m := h1.trans hw.1
      obtain ⟨u, g1, g2, g3⟩ := nonzero_between (hP _ hq) (hb _ hq)
      exact ⟨(z.1 + 1, u), ⟨hq, g1.le, g2.le⟩, Or.inl (by simp), Or.inl h1, g3⟩
  · obtain ⟨u, g1, g2, g3⟩ := nonzero_between (hP _ hz.1) h'
    exact ⟨(z.1, u), ⟨hz.1, hz.2.1.trans g1.le, g2.le.trans (by rw [h]; exact hw.2.2)⟩, Or.inr ⟨rfl, g1⟩, Or.inr ⟨h, g2⟩, g3⟩

/-- The coordinates of the positions grow. -/
def Right (z w : ℕ × ℝ) : Prop := z.1 ≤ w.1 ∧ z.2 < w.2

theorem Right.bef {z w : ℕ × ℝ} (h : Right z w) : Bef z w := by
  rcases h.1.lt_or_eq with h1 | h1
  · exact Or.inl h1
  · exact Or.inr ⟨h1, h.2⟩

theorem Right.apart {z w : ℕ × ℝ} (h : Right z w) (hlt : z.1 < w.1) : b w.1 < w.2 ∨ z.2 < b (z.1 + 1) ∨ z.1 + 1 < w.1 := by
  by_contra hcon
  push Not at hcon
  obtain ⟨h1, h2, h3⟩ := hcon
  have : w.1 = z.1 + 1 := by omega
  rw [this] at h1
  linarith [h.2]

/-- A smooth piecewise polynomial of degree `p + 1` which is not zero on any cell, with zeros of order `α`, `β` at the ends, has at most `m + p + 1 - α - β` zeros, including the ends. -/
theorem zeros (hb : ∀ q < m, b q < b (q + 1)) (p : ℕ) (α β : ℕ) (hdeg : ∀ q < m, (P q).natDegree ≤ p + 1)
    (hsm : ∀ q, q + 1 < m → ∀ k < p + 1, (Polynomial.derivative^[k] (P q)).eval (b (q + 1)) = (Polynomial.derivative^[k] (P (q + 1))).eval (b (q + 1))) (hα : α ≤ p + 1) (hβ : β ≤ p + 1)
    (hl : ∀ k < α, (Polynomial.derivative^[k] (P 0)).eval (b 0) = 0) (hr : ∀ k < β, (Polynomial.derivative^[k] (P (m - 1))).eval (b m) = 0) (hP : ∀ q < m, P q ≠ 0)
    (z : ℕ → ℕ × ℝ) (G : ℕ) (hG : 1 ≤ G) (hz : ∀ j ≤ G, In m b (z j)) (hs : ∀ j < G, Right (z j) (z (j + 1))) (h0 : ∀ j ≤ G, at_ P (z j) = 0) : G + 1 + (α - 1) + (β - 1) ≤ m + p := by
  have hcont : ∀ q, q + 1 < m → (P q).eval (b (q + 1)) = (P (q + 1)).eval (b (q + 1)) := fun q hq => hsm q hq 0 (by omega)
  -- in every gap the derivative has both signs
  have gap : ∀ j, ∃ u, j < G → In m b u ∧ Bef (z j) u ∧ Bef u (z (j + 1)) ∧ at_ P u ≠ 0 := fun j => by
    by_cases hj : j < G
    · obtain ⟨u, g⟩ := nonzero_position hb hP _ _ (hz j hj.le) (hz (j + 1) hj) (hs j hj).bef (Right.apart (hs j hj))
      exact ⟨u, fun _ => g⟩
    · exact ⟨z 0, fun h => absurd h hj⟩
  choose u hu using gap
  have signs : ∀ j < G, ∀ s : ℝ, s ≠ 0 → ∃ ξ, In m b ξ ∧ Bef (z j) ξ ∧ Bef ξ (z (j + 1)) ∧ 0 < s * at_ (fun q => Polynomial.derivative (P q)) ξ := fun j hj s hs0 => by
    obtain ⟨i1, i2, i3, i4⟩ := hu j hj
    rcases lt_or_gt_of_ne (mul_ne_zero hs0 i4) with h1 | h1
    · obtain ⟨ξ, g1, g2, g3, g4⟩ := change hb hcont s (u j) (z (j + 1)) i1 (hz _ hj) i3 (by rw [h0 (j + 1) hj]; linarith)
      exact ⟨ξ, g1, i2.trans g2, g3, g4⟩
    · obtain ⟨ξ, g1, g2, g3, g4⟩ := change hb hcont s (z j) (u j) (hz _ hj.le) i1 i2 (by rw [h0 j hj.le]; linarith)
      exact ⟨ξ, g1, g2, g3.trans i3, g4⟩
  -- the first gap gives two positions
  obtain ⟨i1, i2, i3, i4⟩ := hu 0 (by omega)
  obtain ⟨s, hs_def⟩ : ∃ s, s = at_ P (u 0) := ⟨_, rfl⟩
  have hs0 : s ≠ 0 := hs_def ▸ i4
  obtain ⟨w0, a1, a2, a3, a4⟩ := change hb hcont s (z 0) (u 0) (hz 0 (by omega)) i1 i2 (by rw [h0 0 (by omega), ← hs_def, sub_zero]; exact mul_self_pos.2 hs0)
  obtain ⟨w1, b1, b2, b3, b4⟩ := change hb hcont (-s) (u 0) (z 1) i1 (hz 1 hG) i3 (by rw [h0 1 hG, ← hs_def]; have := mul_self_pos.2 hs0; linarith)
  have rest : ∀ j, ∃ ξ, (j < G → In m b ξ ∧ Bef (z j) ξ ∧ Bef ξ (z (j + 1)) ∧ 0 < s * (-1) ^ (j + 1) * at_ (fun q => Polynomial.derivative (P q)) ξ) ∧ (j = 0 → Bef w0 ξ) := fun j => by
    rcases Nat.eq_zero_or_pos j with rfl | hj0
    · exact ⟨w1, fun _ => ⟨b1, i2.trans b2, b3, by rw [zero_add, pow_one]; linarith⟩, fun _ => a3.trans b2⟩
    · by_cases hj : j < G
      · obtain ⟨ξ, g⟩ := signs j hj (s * (-1) ^ (j + 1)) (mul_ne_zero hs0 (pow_ne_zero _ (by norm_num)))
        exact ⟨ξ, fun _ => g, fun h => absurd h (by omega)⟩
      · exact ⟨w0, fun h => absurd h hj, fun h => absurd h (by omega)⟩
  choose w hw using rest
  have hne : ∀ (j : ℕ) (x : ℝ), 0 < s * (-1) ^ j * x → x ≠ 0 := fun j x h e => by rw [e, mul_zero] at h; exact lt_irrefl _ h
  have halt : Alt m b (fun q => Polynomial.derivative (P q)) (fun j => if j = 0 then w0 else w (j - 1)) G s := by
    refine ⟨fun j hj => ?_, fun j hj => ?_, fun j hj => ?_, fun j hj => ?_, hs0⟩
    · by_cases hj0 : j = 0
      · simp only [hj0, if_true]; exact a1
      · simp only [hj0, if_false]; exact ((hw _).1 (by omega)).1
    · by_cases hj0 : j = 0
      · subst hj0; simpa using (hw 0).2 rfl
      · simp only [hj0, if_false, Nat.add_one_ne_zero, Nat.add_sub_cancel]
        have g1 := ((hw (j - 1)).1 (by omega)).2.2.1
        rw [show j - 1 + 1 = j by omega] at g1
        exact g1.trans ((hw j).1 hj).2.1
    · by_cases hj0 : j = 0
      · simp only [hj0, if_true, pow_zero, mul_one]; exact a4.le
      · simp only [hj0, if_false]
        have := ((hw (j - 1)).1 (by omega)).2.2.2
        rw [show j - 1 + 1 = j by omega] at this
        exact this.le
    · right
      simp only [Nat.add_one_ne_zero, if_false, Nat.add_sub_cancel]
      exact hne _ _ ((hw j).1 hj).2.2.2
  refine sign_changes hb p (fun q => Polynomial.derivative (P q)) (α - 1) (β - 1) (fun q hq => (natDegree_derivative_le _).trans (by have := hdeg q hq; omega))
    (fun q hq k hk => by rw [← Function.iterate_succ_apply, ← Function.iterate_succ_apply]; exact hsm q hq (k + 1) (by omega)) (by omega) (by omega)
    (fun k hk => by rw [← Function.iterate_succ_apply]; exact hl (k + 1) (by omega)) (fun k hk => by rw [← Function.iterate_succ_apply]; exact hr (k + 1) (by omega)) _ G s halt fun j hj => ?_
  by_cases hj0 : j = 0
  · simp only [hj0, if_true]
    exact hne 0 _ (by rw [pow_zero, mul_one]; exact a4)
  · simp only [hj0, if_false]
    exact hne _ _ ((hw (j - 1)).1 (by omega)).2.2.2

end

end Verif.SplineInterp
