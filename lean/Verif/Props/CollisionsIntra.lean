import Verif.Model.Collisions
import Verif.Props.Tridiag
import Mathlib.Algebra.BigOperators.Intervals
import Mathlib.Tactic.FieldSimp
import Mathlib.Tactic.LinearCombination
import Mathlib.Tactic.Linarith
import Mathlib.Tactic.Positivity
import Mathlib.Tactic.NormNum
import Mathlib.Tactic.Ring

/-!
# C43: the intra-species collision step is a Crank-Nicolson step of the discretised Fokker-Planck operator

The operator is `∂_v (D ∂_v f - Nu f)`.  The specification below says what the finite difference value of it is at a grid
point: derivatives at the centre point are those of the parabola through three values, the diffusive flux being taken at
the two half points and at the centre.
-/

namespace Verif.Collisions

open Verif.LinearSystem

/-- A polynomial `c0 + c1 t + c2 t²`. Its derivative at `0` is `c1`. -/
structure Parabola where
  c0 : ℝ
  c1 : ℝ
  c2 : ℝ

/-- Value of the polynomial. -/
def Parabola.eval (p : Parabola) (t : ℝ) : ℝ := p.c0 + p.c1 * t + p.c2 * t ^ 2

/-- `p` takes the values `a`, `b`, `c` at `-hm`, `0`, `hp`. -/
def Parabola.Through (p : Parabola) (hm hp a b c : ℝ) : Prop :=
  p.eval (-hm) = a ∧ p.eval 0 = b ∧ p.eval hp = c

/-- Specification: `r` is the finite difference value of `∂_v (D ∂_v f - Nu f)` at a point with left and right spacings
`hm`, `hp`; `fm f0 fp` and `num nu0 nup` are the values of `f` and `Nu` at the three points, `D0` the value of `D` at the centre
and `Dm`, `Dp` its values at the two half points. -/
def IsRate (hm hp fm f0 fp num nu0 nup Dm D0 Dp r : ℝ) : Prop :=
  ∃ pf pF pN : Parabola,
    pf.Through hm hp fm f0 fp ∧
    pF.Through (hm / 2) (hp / 2) (Dm * ((f0 - fm) / hm)) (D0 * pf.c1) (Dp * ((fp - f0) / hp)) ∧
    pN.Through hm hp (num * fm) (nu0 * f0) (nup * fp) ∧
    r = pF.c1 - pN.c1

/-- Derivative at the centre of the parabola through three values. -/
noncomputable def slope3 (hm hp a b c : ℝ) : ℝ := (hm ^ 2 * (c - b) + hp ^ 2 * (b - a)) / (hm * hp * (hm + hp))

theorem slope3_unique {p : Parabola} {hm hp a b c : ℝ} (h1 : 0 < hm) (h2 : 0 < hp) (h : p.Through hm hp a b c) :
    p.c1 = slope3 hm hp a b c := by
  obtain ⟨ha, hb, hc⟩ := h
  simp only [Parabola.eval] at ha hb hc
  rw [slope3, eq_div_iff (by positivity), ← ha, ← hb, ← hc]
  ring

theorem parabola_exists {hm hp : ℝ} (a b c : ℝ) (h1 : 0 < hm) (h2 : 0 < hp) :
    ∃ p : Parabola, p.Through hm hp a b c := by
  refine ⟨⟨b, slope3 hm hp a b c, (hm * (c - b) + hp * (a - b)) / (hm * hp * (hm + hp))⟩, ?_, ?_, ?_⟩ <;>
    simp only [Parabola.eval, slope3]
  · field_simp; ring
  · ring
  · field_simp; ring

/-- The finite difference value exists and is unique. -/
theorem isRate_unique {hm hp fm f0 fp num nu0 nup Dm D0 Dp r r' : ℝ} (h1 : 0 < hm) (h2 : 0 < hp)
    (h : IsRate hm hp fm f0 fp num nu0 nup Dm D0 Dp r) (h' : IsRate hm hp fm f0 fp num nu0 nup Dm D0 Dp r') :
    r = r' := by
  obtain ⟨p1, p2, p3, a1, a2, a3, rfl⟩ := h
  obtain ⟨q1, q2, q3, b1, b2, b3, rfl⟩ := h'
  have e1 := (slope3_unique h1 h2 a1).trans (slope3_unique h1 h2 b1).symm
  rw [slope3_unique (half_pos h1) (half_pos h2) a2, slope3_unique h1 h2 a3, slope3_unique (half_pos h1) (half_pos h2) b2,
    slope3_unique h1 h2 b3, e1]

theorem isRate_exists {hm hp : ℝ} (fm f0 fp num nu0 nup Dm D0 Dp : ℝ) (h1 : 0 < hm) (h2 : 0 < hp) :
    ∃ r, IsRate hm hp fm f0 fp num nu0 nup Dm D0 Dp r := by
  obtain ⟨p1, a1⟩ := parabola_exists fm f0 fp h1 h2
  obtain ⟨p2, a2⟩ := parabola_exists (Dm * ((f0 - fm) / hm)) (D0 * p1.c1) (Dp * ((fp - f0) / hp)) (half_pos h1)
    (half_pos h2)
  obtain ⟨p3, a3⟩ := parabola_exists (num * fm) (nu0 * f0) (nup * fp) h1 h2
  exact ⟨_, p1, p2, p3, a1, a2, a3, rfl⟩

/-- **C43** The row of the matrix applied to any values is the identity minus `dt / 2` times the finite difference operator,
on every grid (uniform or not). -/
theorem c43_row (vg D Nu Ds : ℕ → ℝ) (dt : ℝ) (k : ℕ) (fm f0 fp r : ℝ) (h1 : vg k < vg (k + 1))
    (h2 : vg (k + 1) < vg (k + 2))
    (hr : IsRate (vg (k + 1) - vg k) (vg (k + 2) - vg (k + 1)) fm f0 fp (Nu k) (Nu (k + 1)) (Nu (k + 2))
      (Ds k) (D (k + 1)) (Ds (k + 1)) r) :
    let row := matrixCoeff vg D Nu Ds dt k
    row.a * fm + row.b * f0 + row.c * fp = f0 - dt / 2 * r := by
  obtain ⟨p1, p2, p3, a1, a2, a3, rfl⟩ := hr
  have hm : 0 < vg (k + 1) - vg k := sub_pos.2 h1
  have hp : 0 < vg (k + 2) - vg (k + 1) := sub_pos.2 h2
  rw [slope3_unique (half_pos hm) (half_pos hp) a2, slope3_unique hm hp a3, slope3_unique hm hp a1]
  simp only [matrixCoeff, slope3]
  set m := vg (k + 1) - vg k
  set p := vg (k + 2) - vg (k + 1)
  have hs : 1 + p / m ≠ 0 := by positivity
  have hs' : m + p ≠ 0 := by positivity
  have e : 1 + p / m = (m + p) / m := by field_simp
  rw [e]
  field_simp
  ring

/-- The neighbour value used at the two ends of the grid is the ghost value. -/
noncomputable def withGhosts (n : ℕ) (ghost : ℝ) (f : ℕ → ℝ) (k : ℕ) : ℝ :=
  if k = 0 then ghost else if k = n + 1 then ghost else f (k - 1)

/-- Specification of the rate at point `k` of the grid (points `k`, `k+1`, `k+2` of the ghosted grid), with ghost values of `f`
at both ends. -/
def RateAt (n : ℕ) (vg D Nu Ds : ℕ → ℝ) (ghost : ℝ) (f : ℕ → ℝ) (k : ℕ) (r : ℝ) : Prop :=
  IsRate (vg (k + 1) - vg k) (vg (k + 2) - vg (k + 1)) (withGhosts n ghost f k) (withGhosts n ghost f (k + 1))
    (withGhosts n ghost f (k + 2)) (Nu k) (Nu (k + 1)) (Nu (k + 2)) (Ds k) (D (k + 1)) (Ds (k + 1)) r

/-- **C43** The new distribution is the Crank-Nicolson update: at every point the change is `dt` times the average of the
finite difference operator applied to the old and to the new distribution, ghost values being `fthresh`. (`pivot ≠ 0`: the
elimination does not divide by zero; see `c43_pivots` for a sufficient condition.) -/
theorem c43_crank_nicolson (n : ℕ) (hn : 2 ≤ n) (vg D Nu Ds : ℕ → ℝ) (fthresh dt : ℝ) (f : ℕ → ℝ)
    (hv : ∀ k ≤ n, vg k < vg (k + 1))
    (hp : ∀ k < n, Tridiag.pivot (fun k => (matrixCoeff vg D Nu Ds dt k).a) (fun k => (matrixCoeff vg D Nu Ds dt k).b)
      (fun k => (matrixCoeff vg D Nu Ds dt k).c) k ≠ 0) :
    let f1 := intraStep n vg D Nu Ds fthresh dt f
    ∀ k < n, ∀ r0 r1, RateAt n vg D Nu Ds fthresh f k r0 → RateAt n vg D Nu Ds fthresh f1 k r1 →
      f1 k - f k = dt / 2 * (r0 + r1) := by
  intro f1 k hk r0 r1 hr0 hr1
  have hs := Tridiag.solveOne_solves n (fun k => (matrixCoeff vg D Nu Ds dt k).a)
    (fun k => (matrixCoeff vg D Nu Ds dt k).b) (fun k => (matrixCoeff vg D Nu Ds dt k).c)
    (rhsVector n (fun k => (matrixCoeff vg D Nu Ds dt k).a)
    (fun k => (matrixCoeff vg D Nu Ds dt k).b) (fun k => (matrixCoeff vg D Nu Ds dt k).c) f fthresh) hp k hk
  rw [Tridiag.row_sum _ _ _ _ _ hk] at hs
  have hf1 : Tridiag.solveOne n (fun k => (matrixCoeff vg D Nu Ds dt k).a)
    (fun k => (matrixCoeff vg D Nu Ds dt k).b) (fun k => (matrixCoeff vg D Nu Ds dt k).c)
    (rhsVector n (fun k => (matrixCoeff vg D Nu Ds dt k).a)
    (fun k => (matrixCoeff vg D Nu Ds dt k).b) (fun k => (matrixCoeff vg D Nu Ds dt k).c) f fthresh) = f1 := rfl
  rw [hf1] at hs
  have e0 := c43_row vg D Nu Ds dt k _ _ _ r0 (hv k (by omega)) (hv (k + 1) (by omega)) hr0
  have e1 := c43_row vg D Nu Ds dt k _ _ _ r1 (hv k (by omega)) (hv (k + 1) (by omega)) hr1
  simp only at e0 e1 hs
  have w1 : ∀ g : ℕ → ℝ, withGhosts n fthresh g (k + 1) = g k := by
    intro g; simp [withGhosts, show k ≠ n by omega]
  rw [w1] at e0 e1
  by_cases h0 : k = 0
  · subst h0
    have w0 : ∀ g : ℕ → ℝ, withGhosts n fthresh g 0 = fthresh := fun g => by simp [withGhosts]
    have w2 : ∀ g : ℕ → ℝ, withGhosts n fthresh g (0 + 2) = g 1 := fun g => by
      simp [withGhosts, show ¬ (2 = n + 1) by omega]
    rw [w0, w2] at e0 e1
    simp only [lt_irrefl, if_false, rhsVector, if_true, show 0 + 1 < n by omega, zero_add] at hs e0 e1
    linarith
  · by_cases hl : k = n - 1
    · have w0 : ∀ g : ℕ → ℝ, withGhosts n fthresh g k = g (k - 1) := fun g => by
        simp [withGhosts, h0, show k ≠ n + 1 by omega]
      have w2 : ∀ g : ℕ → ℝ, withGhosts n fthresh g (k + 2) = fthresh := fun g => by
        simp [withGhosts, show k + 1 = n by omega]
      rw [w0, w2] at e0 e1
      have l1 : ¬ (k + 1 < n) := by omega
      have l2 : 0 < k := by omega
      have hR : rhsVector n (fun k => (matrixCoeff vg D Nu Ds dt k).a)
          (fun k => (matrixCoeff vg D Nu Ds dt k).b) (fun k => (matrixCoeff vg D Nu Ds dt k).c) f fthresh k
          = (2 - (matrixCoeff vg D Nu Ds dt k).b) * f k + (-(matrixCoeff vg D Nu Ds dt k).a) * f (k - 1)
            - 2 * (matrixCoeff vg D Nu Ds dt k).c * fthresh := by
        rw [rhsVector, if_neg h0, if_pos hl]
      rw [hR, if_pos l2, if_neg l1] at hs
      linarith
    · have w0 : ∀ g : ℕ → ℝ, withGhosts n fthresh g k = g (k - 1) := fun g => by
        simp [withGhosts, h0, show k ≠ n + 1 by omega]
      have w2 : ∀ g : ℕ → ℝ, withGhosts n fthresh g (k + 2) = g (k + 1) := fun g => by
        simp [withGhosts, show k + 1 ≠ n by omega]
      rw [w0, w2] at e0 e1
      have l1 : k + 1 < n := by omega
      have l2 : 0 < k := by omega
      have hR : rhsVector n (fun k => (matrixCoeff vg D Nu Ds dt k).a)
          (fun k => (matrixCoeff vg D Nu Ds dt k).b) (fun k => (matrixCoeff vg D Nu Ds dt k).c) f fthresh k
          = -(matrixCoeff vg D Nu Ds dt k).a * f (k - 1) + (2 - (matrixCoeff vg D Nu Ds dt k).b) * f k
            - (matrixCoeff vg D Nu Ds dt k).c * f (k + 1) := by
        rw [rhsVector, if_neg h0, if_neg hl]
      rw [hR, if_pos l2, if_pos l1] at hs
      linarith

/-- **C43** The matrix is strictly diagonally dominant, hence the step well defined, whenever the diffusion dominates the
convection on the grid (cell Péclet condition), the spacing is uniform and `D` is non-negative. -/
theorem c43_pivots (n : ℕ) (vg D Nu Ds : ℕ → ℝ) (h dt : ℝ) (hh : 0 < h) (hdt : 0 ≤ dt)
    (hv : ∀ k ≤ n, vg (k + 1) - vg k = h)
    (hpe1 : ∀ k < n, h * |Nu k| ≤ 2 * Ds k) (hpe2 : ∀ k < n, h * |Nu (k + 2)| ≤ 2 * Ds (k + 1))
    (hnu : ∀ k < n, dt * |Nu (k + 2) - Nu k| < 4 * h) (f : ℕ → ℝ) :
    let row := matrixCoeff vg D Nu Ds dt
    Solves n (Tridiag.entry (fun k => (row k).a) (fun k => (row k).b) (fun k => (row k).c))
      (Tridiag.solveOne n (fun k => (row k).a) (fun k => (row k).b) (fun k => (row k).c) f) f := by
  intro row
  refine Tridiag.c23_strictly_dominant ?_ f
  intro k hk
  have e1 : vg (k + 2) - vg (k + 1) = h := hv (k + 1) (by omega)
  have e2 : vg (k + 1) - vg k = h := hv k (by omega)
  have ha : (row k).a = -(dt / (2 * h ^ 2)) * (Ds k + h * Nu k / 2) := by
    simp only [row, matrixCoeff, e1, e2, div_self hh.ne']; field_simp; ring
  have hb : (row k).b = 1 + dt / (2 * h ^ 2) * (Ds (k + 1) + Ds k) := by
    simp only [row, matrixCoeff, e1, e2, div_self hh.ne']; field_simp; ring
  have hc : (row k).c = -(dt / (2 * h ^ 2)) * (Ds (k + 1) - h * Nu (k + 2) / 2) := by
    simp only [row, matrixCoeff, e1, e2, div_self hh.ne']; field_simp; ring
  have q1 := hpe1 k hk
  have q2 := hpe2 k hk
  have b1 := abs_le.1 (le_refl |Nu k|)
  have b2 := abs_le.1 (le_refl |Nu (k + 2)|)
  have m1 : h * Nu k ≤ 2 * Ds k := le_trans (mul_le_mul_of_nonneg_left b1.2 hh.le) q1
  have m2 : -(2 * Ds k) ≤ h * Nu k := by nlinarith [mul_le_mul_of_nonneg_left b1.1 hh.le]
  have m3 : h * Nu (k + 2) ≤ 2 * Ds (k + 1) := le_trans (mul_le_mul_of_nonneg_left b2.2 hh.le) q2
  have m4 : -(2 * Ds (k + 1)) ≤ h * Nu (k + 2) := by nlinarith [mul_le_mul_of_nonneg_left b2.1 hh.le]
  have hc0 : 0 ≤ dt / (2 * h ^ 2) := by positivity
  have ds1 : 0 ≤ Ds k := by nlinarith [mul_nonneg hh.le (abs_nonneg (Nu k))]
  have ds2 : 0 ≤ Ds (k + 1) := by nlinarith [mul_nonneg hh.le (abs_nonneg (Nu (k + 2)))]
  have hA : |(row k).a| = dt / (2 * h ^ 2) * (Ds k + h * Nu k / 2) := by
    rw [ha, neg_mul, abs_neg, abs_of_nonneg (mul_nonneg hc0 (by linarith))]
  have hC : |(row k).c| = dt / (2 * h ^ 2) * (Ds (k + 1) - h * Nu (k + 2) / 2) := by
    rw [hc, neg_mul, abs_neg, abs_of_nonneg (mul_nonneg hc0 (by linarith))]
  have hB : |(row k).b| = 1 + dt / (2 * h ^ 2) * (Ds (k + 1) + Ds k) := by
    rw [hb, abs_of_nonneg]
    have := mul_nonneg hc0 (add_nonneg ds2 ds1)
    linarith
  have hsum : |(row k).a| + |(row k).c| < |(row k).b| := by
    rw [hA, hB, hC]
    have hd := hnu k hk
    have hd' : dt * (Nu k - Nu (k + 2)) < 4 * h := by
      refine lt_of_le_of_lt (mul_le_mul_of_nonneg_left ?_ hdt) hd
      have := (abs_le.1 (le_refl |Nu (k + 2) - Nu k|)).1
      linarith
    have : dt / (2 * h ^ 2) * (h * (Nu k - Nu (k + 2)) / 2) < 1 := by
      rw [div_mul_div_comm, div_lt_one (by positivity)]
      nlinarith
    nlinarith
  have l1 : (if 0 < k then |(row k).a| else 0) ≤ |(row k).a| := by split_ifs <;> simp [abs_nonneg]
  have l2 : (if k + 1 < n then |(row k).c| else 0) ≤ |(row k).c| := by split_ifs <;> simp [abs_nonneg]
  exact lt_of_le_of_lt (add_le_add l1 l2) hsum

/-- The hypotheses of `c43_pivots` are met by a non-trivial case: unit spacing, unit diffusion, small convection. -/
example (n : ℕ) : let Nu := fun k : ℕ => if Even k then (0.1 : ℝ) else -0.1
    (∀ k < n, (1:ℝ) * |Nu k| ≤ 2 * 1) ∧ (∀ k < n, (0.1:ℝ) * |Nu (k + 2) - Nu k| < 4 * 1) := by
  intro Nu
  have h : ∀ k, |Nu k| = 0.1 := by
    intro k; simp only [Nu]; split_ifs <;> norm_num [abs_of_pos, abs_of_neg]
  refine ⟨fun k _ => by rw [h]; norm_num, fun k _ => ?_⟩
  have := abs_sub (Nu (k + 2)) (Nu k)
  rw [h, h] at this
  linarith

/-- A discrete minimum principle: a tridiagonal system with non-positive off-diagonal entries, positive row sums and a non-negative right-hand side has a non-negative solution. -/
theorem tridiag_nonneg {n : ℕ} {A B C x R : ℕ → ℝ} (hA : ∀ k < n, A k ≤ 0) (hC : ∀ k < n, C k ≤ 0) (hs : ∀ k < n, 0 < A k + B k + C k) (hR : ∀ k < n, 0 ≤ R k)
    (hx : ∀ k < n, (if 0 < k then A k * x (k - 1) else 0) + B k * x k + (if k + 1 < n then C k * x (k + 1) else 0) = R k) : ∀ k < n, 0 ≤ x k := by
  intro k hk
  obtain ⟨m, hm, hmin⟩ := Finset.exists_min_image (Finset.range n) x ⟨k, by simpa using hk⟩
  have hmn : m < n := by simpa using hm
  refine le_trans ?_ (hmin k (by simpa using hk))
  by_contra hneg
  push Not at hneg
  have e := hx m hmn
  have h1 : (if 0 < m then A m * x (m - 1) else 0) ≤ A m * x m := by
    split_ifs with h
    · exact mul_le_mul_of_nonpos_left (hmin (m - 1) (by simp; omega)) (hA m hmn)
    · exact mul_nonneg_of_nonpos_of_nonpos (hA m hmn) hneg.le
  have h2 : (if m + 1 < n then C m * x (m + 1) else 0) ≤ C m * x m := by
    split_ifs with h
    · exact mul_le_mul_of_nonpos_left (hmin (m + 1) (by simp; omega)) (hC m hmn)
    · exact mul_nonneg_of_nonpos_of_nonpos (hC m hmn) hneg.le
  have h3 : (A m + B m + C m) * x m < 0 := mul_neg_of_pos_of_neg (hs m hmn) hneg
  have := hR m hmn
  linarith

/-- **C43** Positivity: under the same conditions and if the time step is small enough for the explicit half step (`dt (D_{k-1/2} + D_{k+1/2}) ≤ 2 h²`), a non-negative distribution stays non-negative. -/
theorem c43_positive (n : ℕ) (hn : 2 ≤ n) (vg D Nu Ds : ℕ → ℝ) (h dt fthresh : ℝ) (hh : 0 < h) (hdt : 0 ≤ dt)
    (hv : ∀ k ≤ n, vg (k + 1) - vg k = h)
    (hpe1 : ∀ k < n, h * |Nu k| ≤ 2 * Ds k) (hpe2 : ∀ k < n, h * |Nu (k + 2)| ≤ 2 * Ds (k + 1))
    (hnu : ∀ k < n, dt * |Nu (k + 2) - Nu k| < 4 * h) (hcfl : ∀ k < n, dt * (Ds k + Ds (k + 1)) ≤ 2 * h ^ 2)
    (ht : 0 ≤ fthresh) (f : ℕ → ℝ) (hf : ∀ k < n, 0 ≤ f k) : ∀ k < n, 0 ≤ intraStep n vg D Nu Ds fthresh dt f k := by
  have hc0 : 0 ≤ dt / (2 * h ^ 2) := by positivity
  have facts : ∀ k < n, (matrixCoeff vg D Nu Ds dt k).a ≤ 0 ∧ (matrixCoeff vg D Nu Ds dt k).c ≤ 0 ∧ (matrixCoeff vg D Nu Ds dt k).b ≤ 2 ∧
      0 < (matrixCoeff vg D Nu Ds dt k).a + (matrixCoeff vg D Nu Ds dt k).b + (matrixCoeff vg D Nu Ds dt k).c := by
    intro k hk
    have e1 : vg (k + 2) - vg (k + 1) = h := hv (k + 1) (by omega)
    have e2 : vg (k + 1) - vg k = h := hv k (by omega)
    have ha : (matrixCoeff vg D Nu Ds dt k).a = -(dt / (2 * h ^ 2)) * (Ds k + h * Nu k / 2) := by
      simp only [matrixCoeff, e1, e2, div_self hh.ne']; field_simp; ring
    have hb : (matrixCoeff vg D Nu Ds dt k).b = 1 + dt / (2 * h ^ 2) * (Ds (k + 1) + Ds k) := by
      simp only [matrixCoeff, e1, e2, div_self hh.ne']; field_simp; ring
    have hc : (matrixCoeff vg D Nu Ds dt k).c = -(dt / (2 * h ^ 2)) * (Ds (k + 1) - h * Nu (k + 2) / 2) := by
      simp only [matrixCoeff, e1, e2, div_self hh.ne']; field_simp; ring
    have q1 := hpe1 k hk
    have q2 := hpe2 k hk
    have m2 : -(2 * Ds k) ≤ h * Nu k := by
      have := mul_le_mul_of_nonneg_left (neg_abs_le (Nu k)) hh.le
      linarith
    have m3 : h * Nu (k + 2) ≤ 2 * Ds (k + 1) := le_trans (mul_le_mul_of_nonneg_left (le_abs_self _) hh.le) q2
    have hd' : dt * (Nu k - Nu (k + 2)) < 4 * h := by
      refine lt_of_le_of_lt (mul_le_mul_of_nonneg_left ?_ hdt) (hnu k hk)
      have := neg_abs_le (Nu (k + 2) - Nu k)
      linarith
    refine ⟨?_, ?_, ?_, ?_⟩
    · rw [ha, neg_mul]; exact neg_nonpos.2 (mul_nonneg hc0 (by linarith))
    · rw [hc, neg_mul]; exact neg_nonpos.2 (mul_nonneg hc0 (by linarith))
    · rw [hb]
      have : dt / (2 * h ^ 2) * (Ds (k + 1) + Ds k) ≤ 1 := by
        rw [div_mul_eq_mul_div, div_le_one (by positivity)]
        have := hcfl k hk
        linarith
      linarith
    · rw [ha, hb, hc]
      have : dt / (2 * h ^ 2) * (h * (Nu k - Nu (k + 2)) / 2) < 1 := by
        rw [div_mul_div_comm, div_lt_one (by positivity)]
        have := mul_lt_mul_of_pos_right hd' hh
        linarith
      linarith
  have hs := c43_pivots n vg D Nu Ds h dt hh hdt hv hpe1 hpe2 hnu
    (rhsVector n (fun k => (matrixCoeff vg D Nu Ds dt k).a) (fun k => (matrixCoeff vg D Nu Ds dt k).b) (fun k => (matrixCoeff vg D Nu Ds dt k).c) f fthresh)
  refine tridiag_nonneg (A := fun k => (matrixCoeff vg D Nu Ds dt k).a) (B := fun k => (matrixCoeff vg D Nu Ds dt k).b) (C := fun k => (matrixCoeff vg D Nu Ds dt k).c)
    (R := rhsVector n (fun k => (matrixCoeff vg D Nu Ds dt k).a) (fun k => (matrixCoeff vg D Nu Ds dt k).b) (fun k => (matrixCoeff vg D Nu Ds dt k).c) f fthresh)
    (fun k hk => (facts k hk).1) (fun k hk => (facts k hk).2.1) (fun k hk => (facts k hk).2.2.2) (fun k hk => ?_) (fun k hk => ?_)
  · obtain ⟨ha, hc, hb, -⟩ := facts k hk
    unfold rhsVector
    split_ifs with h0 hl
    · have p1 := mul_nonneg (sub_nonneg.2 hb) (hf k hk)
      have p2 := mul_nonneg (neg_nonneg.2 hc) (hf (k + 1) (by omega))
      have p3 := mul_nonneg (neg_nonneg.2 ha) ht
      linarith
    · have p1 := mul_nonneg (sub_nonneg.2 hb) (hf k hk)
      have p2 := mul_nonneg (neg_nonneg.2 ha) (hf (k - 1) (by omega))
      have p3 := mul_nonneg (neg_nonneg.2 hc) ht
      linarith
    · have p1 := mul_nonneg (sub_nonneg.2 hb) (hf k hk)
      have p2 := mul_nonneg (neg_nonneg.2 ha) (hf (k - 1) (by omega))
      have p3 := mul_nonneg (neg_nonneg.2 hc) (hf (k + 1) (by omega))
      linarith
  · have := hs k hk
    rw [Tridiag.row_sum _ _ _ _ _ hk] at this
    exact this

/-- **C43** The condition on the time step is needed: with a larger one a non-negative distribution gets a negative value (two points, `D = 1`, no convection, `dt = 10`). -/
theorem c43_negative : intraStep 2 (fun k => k) (fun _ => 1) (fun _ => 0) (fun _ => 1) 0 10 (fun k => if k = 0 then 1 else 0) 0 < 0 := by
  have hrow : ∀ k, matrixCoeff (fun k => (k : ℝ)) (fun _ => 1) (fun _ => 0) (fun _ => 1) 10 k = ⟨-5, 11, -5⟩ := by
    intro k
    simp only [matrixCoeff]
    push_cast
    have e1 : (k : ℝ) + 2 - (k + 1) = 1 := by ring
    have e2 : (k : ℝ) + 1 - k = 1 := by ring
    rw [e1, e2]
    norm_num
  have hs := c43_pivots 2 (fun k => (k : ℝ)) (fun _ => 1) (fun _ => 0) (fun _ => 1) 1 10 one_pos (by norm_num) (by intro k _; push_cast; ring) (by norm_num) (by norm_num) (by norm_num)
    (rhsVector 2 (fun k => (matrixCoeff (fun k => (k : ℝ)) (fun _ => 1) (fun _ => 0) (fun _ => 1) 10 k).a) (fun k => (matrixCoeff (fun k => (k : ℝ)) (fun _ => 1) (fun _ => 0) (fun _ => 1) 10 k).b)
      (fun k => (matrixCoeff (fun k => (k : ℝ)) (fun _ => 1) (fun _ => 0) (fun _ => 1) 10 k).c) (fun k => if k = 0 then 1 else 0) 0)
  unfold intraStep
  simp only [hrow] at hs ⊢
  have h0 := hs 0 (by norm_num)
  have h1 := hs 1 (by norm_num)
  rw [Tridiag.row_sum _ _ _ _ _ (by norm_num)] at h0 h1
  simp [rhsVector] at h0 h1
  linarith

/-- The hypotheses of `c43_positive` are met: ten points, constant diffusion, a linear friction. -/
example (f : ℕ → ℝ) (hf : ∀ k < 10, 0 ≤ f k) : ∀ k < 10, 0 ≤ intraStep 10 (fun k => k / 10) (fun _ => 1) (fun k => -(k : ℝ) / 10) (fun _ => 1) 1e-30 0.01 f k :=
  c43_positive 10 (by norm_num) _ _ _ _ (1 / 10) 0.01 1e-30 (by norm_num) (by norm_num) (by intro k _; push_cast; ring)
    (by intro k hk; have : (k : ℝ) < 10 := by exact_mod_cast hk
        rw [abs_of_nonpos (by have := Nat.cast_nonneg (α := ℝ) k; linarith)]; linarith)
    (by intro k hk; have : (k : ℝ) < 10 := by exact_mod_cast hk
        push_cast
        rw [abs_of_nonpos (by have := Nat.cast_nonneg (α := ℝ) k; linarith)]; linarith)
    (by intro k hk; push_cast; rw [show -((k : ℝ) + 2) / 10 - -(k : ℝ) / 10 = -(1 / 5) by ring]; norm_num)
    (by norm_num) (by norm_num) f hf

/-- **C43** Mass balance on a uniform grid: the total of the finite difference operator telescopes, so the mass changes only
through the fluxes at the two ends of the (ghosted) grid. -/
theorem c43_mass_balance (n : ℕ) (hn : 1 ≤ n) (vg D Nu Ds : ℕ → ℝ) (ghost h : ℝ) (hh : 0 < h)
    (hv : ∀ k ≤ n, vg (k + 1) - vg k = h) (f r : ℕ → ℝ) (hr : ∀ k < n, RateAt n vg D Nu Ds ghost f k (r k)) :
    let F := withGhosts n ghost f
    ∑ k ∈ Finset.range n, h * r k
      = (Ds n * ((F (n + 1) - F n) / h) - (Nu (n + 1) * F (n + 1) + Nu n * F n) / 2)
        - (Ds 0 * ((F 1 - F 0) / h) - (Nu 1 * F 1 + Nu 0 * F 0) / 2) := by
  intro F
  have hk : ∀ k < n, h * r k = (fun j => Ds j * ((F (j + 1) - F j) / h) - (Nu (j + 1) * F (j + 1) + Nu j * F j) / 2) (k + 1)
      - (fun j => Ds j * ((F (j + 1) - F j) / h) - (Nu (j + 1) * F (j + 1) + Nu j * F j) / 2) k := by
    intro k hk
    obtain ⟨p1, p2, p3, a1, a2, a3, e⟩ := hr k hk
    have e1 : vg (k + 2) - vg (k + 1) = h := hv (k + 1) (by omega)
    have e2 : vg (k + 1) - vg k = h := hv k (by omega)
    rw [e1, e2] at a1 a2 a3
    rw [e, slope3_unique (half_pos hh) (half_pos hh) a2, slope3_unique hh hh a3, slope3_unique hh hh a1]
    simp only [slope3, F]
    field_simp
    ring
  rw [Finset.sum_congr rfl (fun k hk' => hk k (Finset.mem_range.1 hk'))]
  exact Finset.sum_range_sub (fun j => Ds j * ((F (j + 1) - F j) / h) - (Nu (j + 1) * F (j + 1) + Nu j * F j) / 2) n

/-- **C43** The staggered points are the midpoints of the ghosted ones (non-uniform grids). -/
theorem c43_staggered_midpoints (v : ℕ → ℝ) (n k : ℕ) (hn : 2 ≤ n) (hk : k ≤ n) :
    staggered v n k = (ghosted v n k + ghosted v n (k + 1)) / 2 := by
  unfold staggered ghosted
  by_cases h0 : k = 0
  · subst h0
    rw [if_pos rfl, if_pos rfl, if_neg (by omega), if_neg (by omega)]; simp; ring
  · by_cases hl : k = n
    · subst hl
      rw [if_neg h0, if_pos rfl, if_neg h0, if_neg (by omega), if_neg (by omega), if_pos rfl]; ring
    · rw [if_neg h0, if_neg hl, if_neg h0, if_neg (by omega), if_neg (by omega), if_neg (by omega)]; rfl

/-- **C43** The ghosted grid contains the original points shifted by one and is increasing when the grid is. -/
theorem c43_ghosted (v : ℕ → ℝ) (n : ℕ) (hn : 2 ≤ n) (hv : ∀ k, k + 1 < n → v k < v (k + 1)) :
    (∀ k < n, ghosted v n (k + 1) = v k) ∧ ∀ k ≤ n, ghosted v n k < ghosted v n (k + 1) := by
  have h1 : ∀ k < n, ghosted v n (k + 1) = v k := by
    intro k hk
    rw [ghosted, if_neg (by omega), if_neg (by omega), Nat.add_sub_cancel]
  refine ⟨h1, fun k hk => ?_⟩
  by_cases h0 : k = 0
  · subst h0
    rw [h1 0 (by omega), ghosted, if_pos rfl]
    have := hv 0 (by omega)
    simp only [zero_add] at this
    linarith
  · by_cases hl : k = n
    · subst hl
      have e : ghosted v k k = v (k - 1) := by
        rw [ghosted, if_neg h0, if_neg (by omega)]
      rw [e, ghosted, if_neg (by omega), if_pos rfl]
      have := hv (k - 2) (by omega)
      rw [show k - 2 + 1 = k - 1 by omega] at this
      linarith
    · obtain ⟨j, rfl⟩ : ∃ j, k = j + 1 := ⟨k - 1, by omega⟩
      rw [h1 j (by omega), h1 (j + 1) (by omega)]
      exact hv j (by omega)

/-- **C43** On a uniform grid the two constructions agree: same ghosted points and same staggered points. -/
theorem c43_uniform_agrees (v0 step : ℝ) (n k : ℕ) (hn : 2 ≤ n) (hk : k ≤ n + 1) :
    let v := fun j : ℕ => v0 + j * step
    ghostedUniform v0 (v (n - 1)) step n k = ghosted v n k ∧
      (k ≤ n → staggeredUniform v0 (v (n - 1)) step n k = staggered v n k) := by
  intro v
  obtain ⟨m, rfl⟩ : ∃ m, n = m + 2 := ⟨n - 2, by omega⟩
  have hm : ((m : ℝ) + 3) ≠ 0 := by positivity
  have hm2 : ((m : ℝ) + 2) ≠ 0 := by positivity
  constructor
  · have e : ghostedUniform v0 (v (m + 2 - 1)) step (m + 2) k = v0 + (k - 1) * step := by
      simp only [ghostedUniform, uniformInit, v]
      rw [show m + 2 - 1 = m + 1 by omega]
      push_cast
      have : ((m : ℝ) + 1 + 3 - 1) = m + 3 := by ring
      rw [this]
      field_simp
      ring
    rw [e, ghosted]
    split_ifs with h1 h2
    · subst h1; simp only [v]; push_cast; ring
    · subst h2; simp only [v]; rw [show m + 2 - 1 = m + 1 by omega, show m + 2 - 2 = m by omega]; push_cast; ring
    · obtain ⟨j, rfl⟩ : ∃ j, k = j + 1 := ⟨k - 1, by omega⟩
      simp only [v, Nat.add_sub_cancel]; push_cast; ring
  · intro hk'
    have e : staggeredUniform v0 (v (m + 2 - 1)) step (m + 2) k = v0 + (k - 1 / 2) * step := by
      simp only [staggeredUniform, uniformInit, v]
      rw [show m + 2 - 1 = m + 1 by omega]
      push_cast
      have : ((m : ℝ) + 1 + 2 - 1) = m + 2 := by ring
      rw [this]
      field_simp
      ring
    rw [e, staggered]
    split_ifs with h1 h2
    · subst h1; simp only [v]; push_cast; ring
    · subst h2; simp only [v]; rw [show m + 2 - 1 = m + 1 by omega, show m + 2 - 2 = m by omega]; push_cast; ring
    · obtain ⟨j, rfl⟩ : ∃ j, k = j + 1 := ⟨k - 1, by omega⟩
      simp only [v, Nat.add_sub_cancel]; push_cast; ring

/-- **C43** End to end for `CollisionsIntra::operator()` on any increasing velocity grid: with the coefficients computed from the
initial distribution, the result is the Crank-Nicolson update. -/
theorem c43_operator (n : ℕ) (hn : 2 ≤ n) (w v : ℕ → ℝ) (nustar fthresh dt : ℝ) (f : ℕ → ℝ)
    (hv : ∀ k, k + 1 < n → v k < v (k + 1)) :
    let vg := ghosted v n
    let c := intraCoeffs n w v vg (staggered v n) nustar f
    (∀ k < n, Tridiag.pivot (fun k => (matrixCoeff vg c.D c.Nu c.Ds dt k).a)
      (fun k => (matrixCoeff vg c.D c.Nu c.Ds dt k).b) (fun k => (matrixCoeff vg c.D c.Nu c.Ds dt k).c) k ≠ 0) →
    let f1 := intraOperator n w v nustar fthresh dt f
    ∀ k < n, ∀ r0 r1, RateAt n vg c.D c.Nu c.Ds fthresh f k r0 → RateAt n vg c.D c.Nu c.Ds fthresh f1 k r1 →
      f1 k - f k = dt / 2 * (r0 + r1) := by
  intro vg c hp
  exact c43_crank_nicolson n hn vg c.D c.Nu c.Ds fthresh dt f (c43_ghosted v n hn hv).2 hp

/-- The rates quantified over in `c43_crank_nicolson` and `c43_operator` exist. -/
theorem c43_rates_exist (n : ℕ) (vg D Nu Ds : ℕ → ℝ) (ghost : ℝ) (f : ℕ → ℝ) (hv : ∀ k ≤ n, vg k < vg (k + 1)) {k : ℕ}
    (hk : k < n) : ∃! r, RateAt n vg D Nu Ds ghost f k r := by
  have h1 := sub_pos.2 (hv k (by omega))
  have h2 := sub_pos.2 (hv (k + 1) (by omega))
  obtain ⟨r, hr⟩ := isRate_exists (withGhosts n ghost f k) (withGhosts n ghost f (k + 1)) (withGhosts n ghost f (k + 2))
    (Nu k) (Nu (k + 1)) (Nu (k + 2)) (Ds k) (D (k + 1)) (Ds (k + 1)) h1 h2
  exact ⟨r, hr, fun r' hr' => isRate_unique h1 h2 hr' hr⟩

end Verif.Collisions
