import Verif.Model.Rounding
import Verif.Model.Quadrature

/-!
# Quadrature coefficients computed in floating-point arithmetic

The relation `Rounding.Fl` of `Model/Rounding.lean` for every operation of `trapezoid_quadrature_coefficients_1d` and `fill_simpson_quadrature_coefficients_1d`. The two distances are rounded as well: DDC computes
them as a difference of two coordinates on a non-uniform grid, and returns the stored step on a uniform grid (rounding error zero). Products with `0.5`, `2.` and `6.` are rounded too.
-/

namespace Verif.FloatQuad

open Verif.Rounding Verif.Quadrature

/-! ## Trapezoid -/

/-- `0.5 * (distance_at_left(idx) + distance_at_right(idx))` in floating point, `trapezoid_quadrature.hpp:43` and 52-53; `l`, `r` are the exact distances. -/
def HalfSumFl (u l r v : ℝ) : Prop := ∃ l' r' s, Fl u l l' ∧ Fl u r r' ∧ Fl u (l' + r') s ∧ Fl u (0.5 * s) v

/-- `0.5 * distance` in floating point, `trapezoid_quadrature.hpp:60-61`. -/
def HalfFl (u d v : ℝ) : Prop := ∃ d', Fl u d d' ∧ Fl u (0.5 * d') v

/-- A floating-point run of `trapezoid_quadrature_coefficients_1d`, `trapezoid_quadrature.hpp:24-66`, on `n` points with result `a` (at least two points if the dimension is not periodic). -/
def TrapFl (u : ℝ) (periodic : Bool) (x : ℕ → ℝ) (n : ℕ) (a : ℕ → ℝ) : Prop :=
  (∀ i, 1 ≤ i → i < (if periodic then n else n - 1) → HalfSumFl u (dL x i) (dR x i) (a i)) ∧
  if periodic then HalfSumFl u (dR x (n - 1)) (dR x 0) (a 0)
  else HalfFl u (dR x 0) (a 0) ∧ HalfFl u (dL x (n - 1)) (a (n - 1))

/-! ## Simpson -/

/-- `dx_sum * (2. * dx_l - dx_r) / (6. * dx_l)` in floating point, `simpson_quadrature.hpp:46-49`, 85-88; `l`, `r` are the exact distances. -/
def SimpLFl (u l r v : ℝ) : Prop :=
  ∃ l' r' s p d m e, Fl u l l' ∧ Fl u r r' ∧ Fl u (l' + r') s ∧ Fl u (2 * l') p ∧ Fl u (p - r') d ∧ Fl u (s * d) m ∧ Fl u (6 * l') e ∧ Fl u (m / e) v

/-- `dx_sum * dx_sum * dx_sum / (6. * dx_l * dx_r)` in floating point, `simpson_quadrature.hpp:46-50`, 85-89. -/
def SimpCFl (u l r v : ℝ) : Prop :=
  ∃ l' r' s p q e e', Fl u l l' ∧ Fl u r r' ∧ Fl u (l' + r') s ∧ Fl u (s * s) p ∧ Fl u (p * s) q ∧ Fl u (6 * l') e ∧ Fl u (e * r') e' ∧ Fl u (q / e') v

/-- `dx_sum * (2. * dx_r - dx_l) / (6. * dx_r)` in floating point, `simpson_quadrature.hpp:61-64`, 73-76, 85-90. -/
def SimpRFl (u l r v : ℝ) : Prop :=
  ∃ l' r' s p d m e, Fl u l l' ∧ Fl u r r' ∧ Fl u (l' + r') s ∧ Fl u (2 * r') p ∧ Fl u (p - l') d ∧ Fl u (s * d) m ∧ Fl u (6 * r') e ∧ Fl u (m / e) v

/-- Loop "centre_left" (`simpson_quadrature.hpp:39-51`) with `m` iterations, from the array `a` to the array `b`. -/
def CentreLeftFl (u : ℝ) (x : ℕ → ℝ) : ℕ → (ℕ → ℝ) → (ℕ → ℝ) → Prop
  | 0, a, b => b = a
  | m + 1, a, b => ∃ a' l c, CentreLeftFl u x m a a' ∧ SimpLFl u (dL x (2 * m + 1)) (dR x (2 * m + 1)) l ∧ SimpCFl u (dL x (2 * m + 1)) (dR x (2 * m + 1)) c ∧
      b = write (write a' (2 * m) l) (2 * m + 1) c

/-- Loop "overlap_increment" (`simpson_quadrature.hpp:54-65`) with `m` iterations, from the array `a` to the array `b`. -/
def OverlapFl (u : ℝ) (x : ℕ → ℝ) : ℕ → (ℕ → ℝ) → (ℕ → ℝ) → Prop
  | 0, a, b => b = a
  | m + 1, a, b => ∃ a' r v, OverlapFl u x m a a' ∧ SimpRFl u (dL x (2 * m + 1)) (dR x (2 * m + 1)) r ∧ Fl u (a' (2 * m + 2) + r) v ∧ b = write a' (2 * m + 2) v

/-- A floating-point run of `fill_simpson_quadrature_coefficients_1d`, `simpson_quadrature.hpp:22-93`. -/
def FillSimpsonFl (u : ℝ) (periodic : Bool) (x : ℕ → ℝ) (n : ℕ) (mem : ℕ → ℝ) (o : Outcome (ℕ → ℝ)) : Prop :=
  if periodic then
    if n % 2 ≠ 0 then o = .throws
    else if n / 2 < 2 then o = .undefinedBehaviour
    else ∃ a b r l c r' v w, CentreLeftFl u x (n / 2 - 1) mem a ∧ OverlapFl u x (n / 2 - 2) a b ∧
      SimpRFl u (dL x (n - 1 - 2)) (dR x (n - 1 - 2)) r ∧
      SimpLFl u (dL x (n - 1)) (dR x (n - 1)) l ∧ Fl u (r + l) v ∧
      SimpCFl u (dL x (n - 1)) (dR x (n - 1)) c ∧
      SimpRFl u (dL x (n - 1)) (dR x (n - 1)) r' ∧ Fl u (b 0 + r') w ∧
      o = .ok (write (write (write b (n - 2) v) (n - 1) c) 0 w)
  else
    if n % 2 = 0 then o = .throws
    else if n / 2 < 1 then o = .undefinedBehaviour
    else ∃ a b r, CentreLeftFl u x (n / 2) mem a ∧ OverlapFl u x (n / 2 - 1) a b ∧ SimpRFl u (dL x (n - 1 - 1)) (dR x (n - 1 - 1)) r ∧ o = .ok (write b (n - 1) r)

end Verif.FloatQuad
