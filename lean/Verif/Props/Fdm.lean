import Verif.Model.Fdm
import Mathlib.Algebra.Order.Field.Basic
import Mathlib.Data.Rat.Defs
import Mathlib.Algebra.Order.Ring.Rat
import Mathlib.Tactic.FieldSimp
import Mathlib.Tactic.Linarith
import Mathlib.Tactic.LinearCombination
import Mathlib.Tactic.NormNum
import Mathlib.Tactic.Ring

/-!
# C28: central finite differences are exact on quadratics

The derivative of `a x² + b x + c` at `p` is `2 a p + b`; all grids are arbitrary increasing sequences.
-/

namespace Verif.Fdm

section
variable {α : Type*} [Field α]

/-- The three-point formula with unequal spacings is exact on quadratics. -/
theorem centred_quadratic {h1 h2 : α} (h1n : h1 ≠ 0) (h2n : h2 ≠ 0) (hs : h1 + h2 ≠ 0) (a b c p : α) :
    centred (a * (p - h1) ^ 2 + b * (p - h1) + c) (a * p ^ 2 + b * p + c)
      (a * (p + h2) ^ 2 + b * (p + h2) + c) h1 h2 = 2 * a * p + b := by
  unfold centred
  field_simp
  ring

theorem centred_linear (f1 f2 f3 g1 g2 g3 h1 h2 s t : α) :
    centred (s * f1 + t * g1) (s * f2 + t * g2) (s * f3 + t * g3) h1 h2
      = s * centred f1 f2 f3 h1 h2 + t * centred g1 g2 g3 h1 h2 := by
  unfold centred; ring

end

variable {α : Type*} [Field α] [LinearOrder α] [IsStrictOrderedRing α]

/-- Specification: the values of the quadratic `a x² + b x + c` on the grid. -/
def quad (a b c : α) (x : ℕ → α) (i : ℕ) : α := a * x i ^ 2 + b * x i + c

/-- **C28** On any increasing grid of at least three points, the derivative of a quadratic is exact at every point, the two
ends included. -/
theorem c28_exact_on_quadratics {n : ℕ} (hn : 3 ≤ n) {x : ℕ → α} (hx : ∀ i, i + 1 < n → x i < x (i + 1))
    (a b c : α) {i : ℕ} (hi : i < n) : deriv n x (quad a b c x) i = 2 * a * x i + b := by
  unfold deriv
  split_ifs with h0 h1
  · subst h0
    have e1 := sub_pos.2 (hx 0 (by omega))
    have e2 := sub_pos.2 (hx 1 (by omega))
    norm_num at e2
    unfold front quad
    have e3 : (x 1 - x 0) + (x 2 - x 1) ≠ 0 := by linarith
    have e1' : x 1 - x 0 ≠ 0 := by linarith
    have e2' : x 2 - x 1 ≠ 0 := by linarith
    have hx1 : x 1 = x 0 + (x 1 - x 0) := by ring
    have hx2 : x 2 = x 0 + (x 1 - x 0) + (x 2 - x 1) := by ring
    generalize x 1 - x 0 = u at *
    generalize x 2 - x 1 = v at *
    rw [hx2, hx1]
    dsimp only
    field_simp
    ring
  · subst h1
    obtain ⟨m, rfl⟩ : ∃ m, n = m + 3 := ⟨n - 3, by omega⟩
    have e1 := sub_pos.2 (hx m (by omega))
    have e2 := sub_pos.2 (hx (m + 1) (by omega))
    unfold back quad
    have a1 : m + 3 - 1 = m + 2 := by omega
    have a2 : m + 3 - 2 = m + 1 := by omega
    have a3 : m + 3 - 3 = m := by omega
    rw [a1, a2, a3]
    have e2'' : 0 < x (m + 2) - x (m + 1) := e2
    have e3 : (x (m + 2) - x (m + 1)) + (x (m + 1) - x m) ≠ 0 := by linarith
    have e1' : x (m + 1) - x m ≠ 0 := by linarith
    have e2' : x (m + 2) - x (m + 1) ≠ 0 := by linarith
    have hx1 : x (m + 1) = x m + (x (m + 1) - x m) := by ring
    have hx2 : x (m + 2) = x m + (x (m + 1) - x m) + (x (m + 2) - x (m + 1)) := by ring
    clear e1 e2 e2'' hx
    generalize x (m + 1) - x m = u at *
    generalize x (m + 2) - x (m + 1) = v at *
    rw [hx2, hx1]
    dsimp only
    field_simp
    ring
  · obtain ⟨j, rfl⟩ : ∃ j, i = j + 1 := ⟨i - 1, by omega⟩
    have e1 := sub_pos.2 (hx j (by omega))
    have e2 := sub_pos.2 (hx (j + 1) (by omega))
    unfold interior quad
    rw [Nat.add_sub_cancel]
    have := centred_quadratic (α := α) e1.ne' e2.ne' (by linarith) a b c (x (j + 1))
    rw [show x (j + 1) - (x (j + 1) - x j) = x j by ring,
      show x (j + 1) + (x (j + 1 + 1) - x (j + 1)) = x (j + 1 + 1) by ring] at this
    exact this

/-- **C28** Without any assumption on `f`, the discrete derivative is linear in the field. -/
theorem c28_linear (n : ℕ) (x f g : ℕ → α) (s t : α) (i : ℕ) :
    deriv n x (fun k => s * f k + t * g k) i = s * deriv n x f i + t * deriv n x g i := by
  unfold deriv front back interior
  split_ifs
  · ring
  · ring
  · exact centred_linear _ _ _ _ _ _ _ _ _ _

/-- Specification: the field and the grid extended periodically to all integers: point `k` of the infinite grid. -/
def extPoint (n : ℕ) (len : α) (x : ℕ → α) (k : ℤ) : α := x (k % n).toNat + (k / n : ℤ) * len

/-- Specification: periodic extension of the field. -/
def extField (n : ℕ) (f : ℕ → α) (k : ℤ) : α := f (k % n).toNat

/-- **C28** On a periodic grid the derivative at *every* point is the same centred formula applied to the periodic extensions
of the grid and of the field: the two ends are not special. -/
theorem c28_periodic {n : ℕ} (hn : 2 ≤ n) (len : α) (x f : ℕ → α) {i : ℕ} (hi : i < n) :
    derivPeriodic n len x f i = centred (extField n f (i - 1)) (extField n f i) (extField n f (i + 1))
      (extPoint n len x i - extPoint n len x (i - 1)) (extPoint n len x (i + 1) - extPoint n len x i) := by
  have key : ∀ k : ℕ, k < n → ((k : ℤ) % n).toNat = k ∧ (k : ℤ) / n = 0 := by
    intro k hk
    have hk' : (k : ℤ) < n := by exact_mod_cast hk
    rw [Int.emod_eq_of_lt (by omega) hk', Int.ediv_eq_zero_of_lt (by omega) hk']
    exact ⟨by simp, rfl⟩
  have hm1 : ((-1 : ℤ) % n).toNat = n - 1 ∧ (-1 : ℤ) / n = -1 := by
    have h1 : (-1 : ℤ) = (n - 1 : ℤ) + n * (-1) := by ring
    have h3 : (-1 : ℤ) / n = -1 := by
      rw [h1, Int.add_mul_ediv_left _ _ (by omega), Int.ediv_eq_zero_of_lt (by omega) (by omega)]
      ring
    have h2 : (-1 : ℤ) % n = n - 1 := by
      rw [Int.emod_def, h3]; ring
    rw [h2]
    exact ⟨by omega, h3⟩
  have hnn : ((n : ℤ) % n).toNat = 0 ∧ (n : ℤ) / n = 1 := by
    rw [Int.emod_self, Int.ediv_self (by omega)]; exact ⟨rfl, rfl⟩
  unfold derivPeriodic extField extPoint
  dsimp only
  rw [(key i hi).1, (key i hi).2]
  split_ifs with h0 h1
  · subst h0
    have e : ((0 : ℕ) : ℤ) - 1 = -1 := by norm_num
    have e' : ((0 : ℕ) : ℤ) + 1 = (1 : ℕ) := by norm_num
    rw [e, e', hm1.1, hm1.2, (key 1 (by omega)).1, (key 1 (by omega)).2]
    congr 1
    · push_cast; ring
    · push_cast; ring
  · have e : (i : ℤ) - 1 = ((n - 2 : ℕ) : ℤ) := by omega
    have e' : (i : ℤ) + 1 = (n : ℤ) := by omega
    rw [e, e', hnn.1, hnn.2, (key (n - 2) (by omega)).1, (key (n - 2) (by omega)).2, h1]
    congr 1
    · push_cast; ring
    · push_cast; ring
  · have e : (i : ℤ) - 1 = ((i - 1 : ℕ) : ℤ) := by omega
    have e' : (i : ℤ) + 1 = ((i + 1 : ℕ) : ℤ) := by omega
    rw [e, e', (key _ (by omega : i + 1 < n)).1, (key _ (by omega : i + 1 < n)).2,
      (key _ (by omega : i - 1 < n)).1, (key _ (by omega : i - 1 < n)).2]
    unfold interior
    congr 1
    · push_cast; ring
    · push_cast; ring

/-- **C28** Consequently the periodic derivative commutes with cyclic shifts on a uniform periodic grid. -/
theorem c28_periodic_shift {n : ℕ} (hn : 2 ≤ n) (x0 h : α) (f : ℕ → α) {i : ℕ} (hi : i < n) :
    derivPeriodic n (n * h) (fun k => x0 + k * h) (fun k => f ((k + 1) % n)) i
      = derivPeriodic n (n * h) (fun k => x0 + k * h) f ((i + 1) % n) := by
  have hmod : (i + 1) % n < n := Nat.mod_lt _ (by omega)
  rw [c28_periodic hn _ _ _ hi, c28_periodic hn _ _ _ hmod]
  have hpt : ∀ k : ℤ, extPoint n ((n : α) * h) (fun k => x0 + k * h) k = x0 + (k : α) * h := by
    intro k
    unfold extPoint
    have h1 : ((k % n).toNat : ℤ) = k % n := Int.toNat_of_nonneg (Int.emod_nonneg _ (by omega))
    have h2 : (((k % n).toNat : ℕ) : α) = ((k % n : ℤ) : α) := by
      exact_mod_cast congrArg (Int.cast : ℤ → α) h1
    have h3 : (k : α) = ((k % n : ℤ) : α) + (n : α) * ((k / n : ℤ) : α) := by
      have := Int.emod_add_mul_ediv k n
      calc (k : α) = ((k % n + n * (k / n) : ℤ) : α) := by rw [this]
        _ = _ := by push_cast; ring
    dsimp only
    rw [h2, h3]; ring
  have hf : ∀ d : ℤ, extField n (fun k => f ((k + 1) % n)) ((i : ℤ) + d)
      = extField n f ((((i + 1) % n : ℕ) : ℤ) + d) := by
    intro d
    unfold extField
    dsimp only
    congr 1
    have h1 : ((((i : ℤ) + d) % n).toNat : ℤ) = ((i : ℤ) + d) % n :=
      Int.toNat_of_nonneg (Int.emod_nonneg _ (by omega))
    zify
    have h2 : (((((i : ℤ) + 1) % n + d) % n).toNat : ℤ) = (((i : ℤ) + 1) % n + d) % n :=
      Int.toNat_of_nonneg (Int.emod_nonneg _ (by omega))
    rw [h1, h2, Int.emod_add_emod, Int.emod_add_emod]
    congr 1
    ring
  simp only [hpt]
  have a1 := hf (-1)
  have a2 := hf 0
  have a3 := hf 1
  rw [add_zero, add_zero] at a2
  rw [← sub_eq_add_neg, ← sub_eq_add_neg] at a1
  rw [a1, a2, a3]
  congr 1
  · push_cast; ring
  · push_cast; ring

/-- **C28 (variant with boundary values)** The value at the front is the average of the decentred second-order formula to
the right and the decentred formula to the left on the mirrored ghost points carrying the constant boundary value;
the field value at the boundary itself cancels out. -/
theorem c28_boundary_front (n : ℕ) (x f : ℕ → α) (bl br : α) :
    derivB n x f bl br 0 =
      (front x f + -(front x (fun k => if k = 0 then f 0 else bl))) / 2 := by
  unfold derivB front
  simp
  ring

/-- Same at the back end. -/
theorem c28_boundary_back {n : ℕ} (hn : 3 ≤ n) (x f : ℕ → α) (bl br : α) :
    derivB n x f bl br (n - 1) =
      (back n x f + -(back n x (fun k => if k = n - 1 then f (n - 1) else br))) / 2 := by
  unfold derivB back
  have h1 : n - 1 ≠ 0 := by omega
  have h2 : n - 2 ≠ n - 1 := by omega
  have h3 : n - 3 ≠ n - 1 := by omega
  simp [h1, h2, h3]
  ring

/-- The variant with boundary values is the plain operator at interior points. -/
theorem c28_boundary_interior (n : ℕ) (x f : ℕ → α) (bl br : α) {i : ℕ} (h0 : i ≠ 0) (h1 : i ≠ n - 1) :
    derivB n x f bl br i = deriv n x f i := by
  unfold derivB deriv; rw [if_neg h0, if_neg h1, if_neg h0, if_neg h1]

/-- **C28** The variant annihilates constants that agree with the boundary values. -/
theorem c28_boundary_constant {n : ℕ} (c : α) (x : ℕ → α) (i : ℕ) :
    derivB n x (fun _ => c) c c i = 0 := by
  unfold derivB interior centred
  split_ifs <;> ring

/-- Non-vacuity: a non-uniform grid, and a quadratic with non-constant derivative on it. -/
example : (∀ i, i + 1 < 4 → (fun k : ℕ => ((k : ℚ)) ^ 2) i < (fun k : ℕ => ((k : ℚ)) ^ 2) (i + 1)) ∧
    deriv 4 (fun k : ℕ => (k : ℚ) ^ 2) (quad 1 0 0 (fun k : ℕ => (k : ℚ) ^ 2)) 3 = 18 := by
  have h : ∀ i, i + 1 < 4 → (fun k : ℕ => ((k : ℚ)) ^ 2) i < (fun k : ℕ => ((k : ℚ)) ^ 2) (i + 1) := by
    intro i _
    have : (0 : ℚ) ≤ i := by exact_mod_cast Nat.zero_le i
    push_cast
    nlinarith
  refine ⟨h, ?_⟩
  rw [c28_exact_on_quadratics (by omega) h _ _ _ (by omega)]
  norm_num

end Verif.Fdm
