import Verif.Model.Gyroaverage
import Mathlib.RingTheory.RootsOfUnity.Complex
import Mathlib.RingTheory.RootsOfUnity.PrimitiveRoots
import Mathlib.Algebra.BigOperators.Field
import Mathlib.Algebra.Order.BigOperators.Group.Finset
import Mathlib.Tactic.Ring
import Mathlib.Tactic.Linarith
import Mathlib.Tactic.NormNum
import Mathlib.Tactic.FieldSimp
import Mathlib.Tactic.LinearCombination

/-!
# C58: the gyroaverage
-/

namespace Verif.Gyroaverage
open Mappings Finset

variable {B I J C : Type*}

/-- The interpolant of the field `A`, as a function of the physical position. -/
def Op.field (o : Op I J C) (A : I → J → ℝ) (x : ℝ × ℝ) : ℝ := o.eval (o.toLogical x) (o.build A)

/-- The gyrocentre of a grid point in physical space. -/
def Op.centre (o : Op I J C) (i : I) (j : J) : ℝ × ℝ := o.toPhysical (o.coord i j)

theorem foldl_add (f : ℕ → ℝ) (n : ℕ) (a : ℝ) : (List.range n).foldl (fun s i => s + f i) a = a + ∑ i ∈ range n, f i := by
  induction n with
  | zero => simp
  | succ n ih => rw [List.range_succ, List.foldl_append, ih, Finset.sum_range_succ]; simp [add_assoc]

theorem kernel_eq (o : Op I J C) (A : I → J → ℝ) (i : I) (j : J) :
    o.kernel (o.build A) i j = (∑ k ∈ range o.n, o.field A ((o.centre i j).1 + o.rho i j * Real.cos (2 * Real.pi * k / o.n), (o.centre i j).2 + o.rho i j * Real.sin (2 * Real.pi * k / o.n))) / o.n := by
  unfold Op.kernel
  dsimp only
  have e0 : (0.0 : ℝ) = 0 := by norm_num
  have e2 : (2.0 : ℝ) = 2 := by norm_num
  rw [foldl_add, e0, zero_add]
  congr 1
  refine Finset.sum_congr rfl fun k _ => ?_
  unfold Op.field Op.particle circToCart Op.centre
  dsimp only
  rw [e2, show Real.pi * 2 / (o.n : ℝ) * (k : ℝ) = 2 * Real.pi * k / o.n by ring, add_comm (o.toPhysical _).1, add_comm (o.toPhysical _).2]

/-- **C58** At every grid point except on the last poloidal line the result is the mean of the interpolant over equally spaced points of the Larmor circle around the grid point. -/
theorem c58_value (o : Op I J C) (A : B → I → J → ℝ) (b : B) (i : I) (j : J) (hj : j ≠ o.back) :
    o.apply A b i j = (∑ k ∈ range o.n, o.field (A b) ((o.centre i j).1 + o.rho i j * Real.cos (2 * Real.pi * k / o.n), (o.centre i j).2 + o.rho i j * Real.sin (2 * Real.pi * k / o.n))) / o.n := by
  unfold Op.apply
  dsimp only
  rw [if_neg hj, kernel_eq]

/-- **C58** On the last poloidal line the result is that of the first poloidal line. -/
theorem c58_last_line (o : Op I J C) (A : B → I → J → ℝ) (b : B) (i : I) :
    o.apply A b i o.back = (∑ k ∈ range o.n, o.field (A b) ((o.centre i o.front).1 + o.rho i o.front * Real.cos (2 * Real.pi * k / o.n),
      (o.centre i o.front).2 + o.rho i o.front * Real.sin (2 * Real.pi * k / o.n))) / o.n := by
  unfold Op.apply
  dsimp only
  rw [if_pos rfl, kernel_eq]

/-- The mean over the Larmor circle of any grid point: of `j`, or of the first line if `j` is the last line. -/
theorem apply_eq (o : Op I J C) (A : B → I → J → ℝ) (b : B) (i : I) (j : J) : ∃ j' : J, (j ≠ o.back → j' = j) ∧ ∀ A : B → I → J → ℝ,
    o.apply A b i j = (∑ k ∈ range o.n, o.field (A b) ((o.centre i j').1 + o.rho i j' * Real.cos (2 * Real.pi * k / o.n), (o.centre i j').2 + o.rho i j' * Real.sin (2 * Real.pi * k / o.n))) / o.n := by
  by_cases h : j = o.back
  · exact ⟨o.front, fun hn => absurd h hn, fun A => by rw [h, c58_last_line]⟩
  · exact ⟨j, fun _ => rfl, fun A => c58_value o A b i j h⟩

/-- **C58** The operator is linear if the interpolation is. -/
theorem c58_linear (o : Op I J C) (hlin : ∀ (f g : I → J → ℝ) (c : ℝ) (x : ℝ × ℝ), o.eval x (o.build fun i j => c * f i j + g i j) = c * o.eval x (o.build f) + o.eval x (o.build g))
    (A A' : B → I → J → ℝ) (c : ℝ) (b : B) (i : I) (j : J) :
    o.apply (fun b i j => c * A b i j + A' b i j) b i j = c * o.apply A b i j + o.apply A' b i j := by
  obtain ⟨j', -, h⟩ := apply_eq o A b i j
  rw [h, h A, h A']
  unfold Op.field
  simp only [hlin, Finset.sum_add_distrib, ← Finset.mul_sum]
  ring

/-- **C58** Constants are preserved, if the interpolation reproduces them and there is a gyro point. -/
theorem c58_constant (o : Op I J C) (hn : 0 < o.n) (c : ℝ) (hconst : ∀ x, o.eval x (o.build fun _ _ => c) = c) (b : B) (i : I) (j : J) :
    o.apply (fun _ _ _ => c) b i j = c := by
  obtain ⟨j', -, h⟩ := apply_eq o (fun _ _ _ => c) b i j
  have hn' : (o.n : ℝ) ≠ 0 := Nat.cast_ne_zero.mpr hn.ne'
  rw [h]
  unfold Op.field
  simp only [hconst, Finset.sum_const, Finset.card_range, nsmul_eq_mul]
  field_simp

/-- **C58** The result stays within the bounds of the interpolant on the circle. -/
theorem c58_bounds (o : Op I J C) (hn : 0 < o.n) (A : B → I → J → ℝ) (b : B) (lo hi : ℝ) (hb : ∀ x, lo ≤ o.field (A b) x ∧ o.field (A b) x ≤ hi) (i : I) (j : J) :
    lo ≤ o.apply A b i j ∧ o.apply A b i j ≤ hi := by
  obtain ⟨j', -, h⟩ := apply_eq o A b i j
  have hn' : (0 : ℝ) < o.n := Nat.cast_pos.mpr hn
  rw [h]
  constructor
  · rw [le_div_iff₀ hn']
    have := Finset.card_nsmul_le_sum (range o.n) (fun k => o.field (A b) ((o.centre i j').1 + o.rho i j' * Real.cos (2 * Real.pi * k / o.n), (o.centre i j').2 + o.rho i j' * Real.sin (2 * Real.pi * k / o.n))) lo fun k _ => (hb _).1
    rw [Finset.card_range, nsmul_eq_mul] at this
    linarith
  · rw [div_le_iff₀ hn']
    have := Finset.sum_le_card_nsmul (range o.n) (fun k => o.field (A b) ((o.centre i j').1 + o.rho i j' * Real.cos (2 * Real.pi * k / o.n), (o.centre i j').2 + o.rho i j' * Real.sin (2 * Real.pi * k / o.n))) hi fun k _ => (hb _).2
    rw [Finset.card_range, nsmul_eq_mul] at this
    linarith

/-- The interpolation is exact at the grid points and the change of coordinates is inverted. -/
structure Op.Consistent (o : Op I J C) : Prop where
  inverse : ∀ i j, o.toLogical (o.toPhysical (o.coord i j)) = o.coord i j
  interpolates : ∀ A i j, o.eval (o.coord i j) (o.build A) = A i j

/-- **C58** With a vanishing Larmor radius the result is the field itself, except on the last poloidal line, where it is the field on the first line. -/
theorem c58_zero_radius (o : Op I J C) (ho : o.Consistent) (hn : 0 < o.n) (hrho : ∀ i j, o.rho i j = 0) (A : B → I → J → ℝ) (b : B) (i : I) :
    (∀ j, j ≠ o.back → o.apply A b i j = A b i j) ∧ o.apply A b i o.back = A b i o.front := by
  have hn' : (o.n : ℝ) ≠ 0 := Nat.cast_ne_zero.mpr hn.ne'
  have key : ∀ j, o.field (A b) (o.centre i j) = A b i j := fun j => by
    unfold Op.field Op.centre; rw [ho.inverse, ho.interpolates]
  refine ⟨fun j hj => ?_, ?_⟩
  · rw [c58_value o A b i j hj]
    simp only [hrho, zero_mul, add_zero, Prod.mk.eta, key, Finset.sum_const, Finset.card_range, nsmul_eq_mul]
    field_simp
  · rw [c58_last_line]
    simp only [hrho, zero_mul, add_zero, Prod.mk.eta, key, Finset.sum_const, Finset.card_range, nsmul_eq_mul]
    field_simp

/-- **C58** (defect) The grid of periodic interpolation points does not hold its end point, so first and last line are different positions: whenever the field differs on them, the gyroaverage with vanishing Larmor radius
is not the field. -/
theorem c58_last_line_wrong (o : Op I J C) (ho : o.Consistent) (hn : 0 < o.n) (hrho : ∀ i j, o.rho i j = 0) (A : B → I → J → ℝ) (b : B) (i : I) (h : A b i o.front ≠ A b i o.back) :
    o.apply A b i o.back ≠ A b i o.back := by
  rw [(c58_zero_radius o ho hn hrho A b i).2]; exact h

/-- Instance: eight gyro points on a grid of one radial and four poloidal points, nearest neighbour interpolation, polar coordinates. The gyroaverage with vanishing radius of the field `0, 1, 2, 3` is `0` at the last point. -/
example : ∃ o : Op (Fin 1) (Fin 4) (Fin 1 → Fin 4 → ℝ), o.Consistent ∧ 0 < o.n ∧ (∀ i j, o.rho i j = 0) ∧ o.front ≠ o.back ∧
    o.apply (fun (_ : Unit) _ j => (j : ℝ)) () 0 o.back = 0 := by
  classical
  let o : Op (Fin 1) (Fin 4) (Fin 1 → Fin 4 → ℝ) :=
    { build := id, eval := fun x A => ∑ j : Fin 4, if x.2 = j then A 0 j else 0, toLogical := id, toPhysical := id, coord := fun _ j => (1, j), rho := fun _ _ => 0, n := 8, front := 0, back := 3 }
  have ho : o.Consistent := by
    refine ⟨fun _ _ => rfl, fun A i j => ?_⟩
    simp only [o, id]
    rw [Finset.sum_eq_single j]
    · rw [if_pos rfl, Subsingleton.elim i 0]
    · intro j' _ hne
      rw [if_neg]
      intro h
      exact hne (Fin.ext (by exact_mod_cast h.symm))
    · simp
  refine ⟨o, ho, by norm_num [o], fun _ _ => rfl, by decide, ?_⟩
  rw [(c58_zero_radius o ho (by norm_num [o]) (fun _ _ => rfl) _ () 0).2]
  simp [o]

/-! ### Exactness of the mean over the circle -/

theorem harmonic_sum (n m : ℕ) (hn : 0 < n) (hm : ¬n ∣ m) :
    ∑ k ∈ range n, Real.cos (m * (2 * Real.pi * k / n)) = 0 ∧ ∑ k ∈ range n, Real.sin (m * (2 * Real.pi * k / n)) = 0 := by
  have hp := Complex.isPrimitiveRoot_exp n hn.ne'
  set z := Complex.exp (2 * Real.pi * Complex.I / n) with hz
  have hz1 : z ^ m ≠ 1 := fun h => hm ((hp.pow_eq_one_iff_dvd m).mp h)
  have hzn : (z ^ m) ^ n = 1 := by rw [← pow_mul, mul_comm, pow_mul, hp.pow_eq_one, one_pow]
  have hg : ∑ k ∈ range n, (z ^ m) ^ k = 0 := by
    have := geom_sum_mul (z ^ m) n
    rw [hzn, sub_self] at this
    exact (mul_eq_zero.mp this).resolve_right (sub_ne_zero.mpr hz1)
  have ht : ∀ k : ℕ, (z ^ m) ^ k = Complex.exp (((m * (2 * Real.pi * k / n) : ℝ) : ℂ) * Complex.I) := by
    intro k
    rw [hz, ← Complex.exp_nat_mul, ← Complex.exp_nat_mul]
    congr 1
    push_cast
    ring
  simp only [ht] at hg
  constructor
  · have := congrArg Complex.re hg
    simpa only [Complex.re_sum, Complex.exp_ofReal_mul_I_re, Complex.zero_re] using this
  · have := congrArg Complex.im hg
    simpa only [Complex.im_sum, Complex.exp_ofReal_mul_I_im, Complex.zero_im] using this

/-- **C58** An affine function of the physical position is preserved with two gyro points or more, where the interpolation reproduces it. -/
theorem c58_affine (o : Op I J C) (hn : 2 ≤ o.n) (A : B → I → J → ℝ) (b : B) (c gx gy : ℝ) (hA : ∀ x, o.field (A b) x = c + gx * x.1 + gy * x.2) (i : I) (j : J) (hj : j ≠ o.back) :
    o.apply A b i j = c + gx * (o.centre i j).1 + gy * (o.centre i j).2 := by
  have hn' : (o.n : ℝ) ≠ 0 := Nat.cast_ne_zero.mpr (by omega)
  obtain ⟨h1, h2⟩ := harmonic_sum o.n 1 (by omega) (fun h => by have := Nat.le_of_dvd one_pos h; omega)
  simp only [Nat.cast_one, one_mul] at h1 h2
  rw [c58_value o A b i j hj]
  simp only [hA]
  have : ∀ k : ℕ, c + gx * ((o.centre i j).1 + o.rho i j * Real.cos (2 * Real.pi * k / o.n)) + gy * ((o.centre i j).2 + o.rho i j * Real.sin (2 * Real.pi * k / o.n))
      = (c + gx * (o.centre i j).1 + gy * (o.centre i j).2) + (gx * o.rho i j * Real.cos (2 * Real.pi * k / o.n) + gy * o.rho i j * Real.sin (2 * Real.pi * k / o.n)) := fun k => by ring
  simp only [this, Finset.sum_add_distrib, ← Finset.mul_sum, h1, h2, Finset.sum_const, Finset.card_range, nsmul_eq_mul]
  field_simp
  ring

/-- **C58** Quadratic functions: with three gyro points or more the mean is exact, i.e. the value at the centre plus `rho ^ 2 / 4` times the Laplacian `2 qxx + 2 qyy`. -/
theorem c58_quadratic (o : Op I J C) (hn : 3 ≤ o.n) (A : B → I → J → ℝ) (b : B) (c gx gy qxx qxy qyy : ℝ)
    (hA : ∀ x, o.field (A b) x = c + gx * x.1 + gy * x.2 + qxx * x.1 ^ 2 + qxy * x.1 * x.2 + qyy * x.2 ^ 2) (i : I) (j : J) (hj : j ≠ o.back) :
    o.apply A b i j = o.field (A b) (o.centre i j) + o.rho i j ^ 2 / 4 * (2 * qxx + 2 * qyy) := by
  have hn' : (o.n : ℝ) ≠ 0 := Nat.cast_ne_zero.mpr (by omega)
  obtain ⟨h1, h2⟩ := harmonic_sum o.n 1 (by omega) (fun h => by have := Nat.le_of_dvd one_pos h; omega)
  obtain ⟨h3, h4⟩ := harmonic_sum o.n 2 (by omega) (fun h => by have := Nat.le_of_dvd two_pos h; omega)
  simp only [Nat.cast_one, one_mul, Nat.cast_ofNat] at h1 h2 h3 h4
  rw [c58_value o A b i j hj]
  simp only [hA]
  set X := (o.centre i j).1
  set Y := (o.centre i j).2
  set ρ := o.rho i j
  have : ∀ k : ℕ, c + gx * (X + ρ * Real.cos (2 * Real.pi * k / o.n)) + gy * (Y + ρ * Real.sin (2 * Real.pi * k / o.n)) + qxx * (X + ρ * Real.cos (2 * Real.pi * k / o.n)) ^ 2
        + qxy * (X + ρ * Real.cos (2 * Real.pi * k / o.n)) * (Y + ρ * Real.sin (2 * Real.pi * k / o.n)) + qyy * (Y + ρ * Real.sin (2 * Real.pi * k / o.n)) ^ 2
      = (c + gx * X + gy * Y + qxx * X ^ 2 + qxy * X * Y + qyy * Y ^ 2 + ρ ^ 2 / 4 * (2 * qxx + 2 * qyy))
        + ((gx * ρ + 2 * qxx * X * ρ + qxy * Y * ρ) * Real.cos (2 * Real.pi * k / o.n) + ((gy * ρ + 2 * qyy * Y * ρ + qxy * X * ρ) * Real.sin (2 * Real.pi * k / o.n)
        + (((qxx - qyy) * ρ ^ 2 / 2) * Real.cos (2 * (2 * Real.pi * k / o.n)) + (qxy * ρ ^ 2 / 2) * Real.sin (2 * (2 * Real.pi * k / o.n))))) := by
    intro k
    rw [Real.cos_two_mul, Real.sin_two_mul]
    have := Real.sin_sq_add_cos_sq (2 * Real.pi * k / o.n)
    linear_combination (qyy * ρ ^ 2) * this
  simp only [this, Finset.sum_add_distrib, ← Finset.mul_sum, h1, h2, h3, h4, Finset.sum_const, Finset.card_range, nsmul_eq_mul]
  field_simp
  ring

/-- **C58** The batches are independent. -/
theorem c58_batches (o : Op I J C) (A A' : B → I → J → ℝ) (b : B) (h : A b = A' b) : o.apply A b = o.apply A' b := by
  unfold Op.apply; rw [h]

end Verif.Gyroaverage
