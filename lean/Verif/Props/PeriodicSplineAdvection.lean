import Verif.Props.SplineInterpAccuracy
import Verif.Props.Advection
import Mathlib.Analysis.InnerProductSpace.PiL2

/-!
# C117: the semi-Lagrangian advection with periodic cubic splines is stable, conserves the mass and converges

Specification. The root mean square of the values `v` on a line of `n` points is `rms n v`. The mesh of the line has `n` equal cells.
-/

namespace Verif.PeriodicSplineAdvection

open Verif.BSpline Verif.SplineQuadrature Verif.SplineInterp Verif.Advection Polynomial Finset

/-- Root mean square of the values at the points `0 … n - 1`. -/
noncomputable def rms (n : ℕ) (v : ℕ → ℝ) : ℝ := Real.sqrt ((∑ i ∈ range n, v i ^ 2) / n)

/-- The break points of `n` equal cells of width `h`. -/
noncomputable def uniform (x0 h : ℝ) (q : ℕ) : ℝ := x0 + q * h

/-- The interpolator is the `SplineInterpolator` with periodic cubic splines on these break points: the spline has the values `v`, and it is evaluated with the periodic rules. -/
def IsPeriodicCubic {C : Type*} (n : ℕ) (b : ℕ → ℝ) (fi : Interp ℕ C) : Prop :=
  ∀ v : ℕ → ℝ, ∃ c s F, PeriodicInterpolant n 3 b v c ∧ IsSpline n b (periodicKnots n b) 3 n c s ∧
    Interpolators.spline true .periodic .periodic .periodic .periodic (b 0) (b n) s = some F ∧ ∀ x, fi.eval x (fi.build v) = F x

/-! ## Sums over one period -/

theorem shift_one {n : ℕ} {g : ℤ → ℝ} (hg : ∀ i, g (i + n) = g i) : ∑ i ∈ range n, g (i + 1) = ∑ i ∈ range n, g i := by
  have h1 := sum_range_succ (fun i : ℕ => g i) n
  have h2 := sum_range_succ' (fun i : ℕ => g i) n
  have h3 := hg 0
  simp only [Nat.cast_succ, Nat.cast_zero, zero_add] at h1 h2 h3
  linarith

theorem shift_sum {n : ℕ} {g : ℤ → ℝ} (hg : ∀ i, g (i + n) = g i) (k : ℤ) : ∑ i ∈ range n, g (i + k) = ∑ i ∈ range n, g i := by
  induction k using Int.induction_on with
  | zero => simp
  | succ k ih =>
    rw [← ih, ← shift_one (g := fun i => g (i + k)) (fun i => by beta_reduce; rw [← hg (i + k)]; congr 1; ring)]
    refine sum_congr rfl fun i _ => ?_
    congr 1; ring
  | pred k ih =>
    rw [← ih, ← shift_one (g := fun i => g (i + (-(k : ℤ) - 1))) (fun i => by beta_reduce; rw [← hg (i + (-(k : ℤ) - 1))]; congr 1; ring)]
    refine sum_congr rfl fun i _ => ?_
    congr 1; ring

/-! ## Uniform cubic B-splines -/

/-- The spline at the relative position `a` of cell `m`, with the coefficients `c`. -/
noncomputable def cubic (c : ℤ → ℝ) (a : ℝ) (m : ℤ) : ℝ :=
  c m * ((1 - a) ^ 3 / 6) + c (m + 1) * ((3 * a ^ 3 - 6 * a ^ 2 + 4) / 6) + c (m + 2) * ((-3 * a ^ 3 + 3 * a ^ 2 + 3 * a + 1) / 6) + c (m + 3) * (a ^ 3 / 6)

theorem cubic_period {n : ℕ} {c : ℤ → ℝ} (hc : ∀ i, c (i + n) = c i) (a : ℝ) (m : ℤ) : cubic c a (m + n) = cubic c a m := by
  simp only [cubic, ← hc m, ← hc (m + 1), ← hc (m + 2), ← hc (m + 3)]
  rw [show m + n + 1 = m + 1 + n by ring, show m + n + 2 = m + 2 + n by ring, show m + n + 3 = m + 3 + n by ring]

theorem cubic_end (c : ℤ → ℝ) (m : ℤ) : cubic c 1 m = cubic c 0 (m + 1) := by
  simp only [cubic]
  rw [show m + 1 + 1 = m + 2 by ring, show m + 1 + 2 = m + 3 by ring]
  ring

/-- The sum over a period does not depend on the position: every B-spline has the same total weight. -/
theorem cubic_mass {n : ℕ} {c : ℤ → ℝ} (hc : ∀ i, c (i + n) = c i) (a : ℝ) : ∑ i ∈ range n, cubic c a i = ∑ i ∈ range n, c i := by
  simp only [cubic, sum_add_distrib, ← sum_mul]
  rw [shift_sum hc 1, shift_sum hc 2, shift_sum hc 3]
  ring

/-- The balance of the energy: what a displacement by the fraction `a` of a cell takes from the sum of squares. -/
theorem cubic_energy {n : ℕ} {c : ℤ → ℝ} (hc : ∀ i, c (i + n) = c i) (a : ℝ) : ∑ i ∈ range n, cubic c 0 i ^ 2 =
    ∑ i ∈ range n, cubic c a i ^ 2 + (a * (1 - a)) ^ 2 / 12 * ∑ i ∈ range n, (c (i + 2) - 2 * c (i + 1) + c i) ^ 2 +
      (a * (1 - a)) ^ 3 / 36 * ∑ i ∈ range n, (c (i + 3) - 3 * c (i + 2) + 3 * c (i + 1) - c i) ^ 2 := by
  obtain ⟨T, hT⟩ : ∃ T : ℤ → ℝ, T = fun i => (-1 / 6 * a + 1 / 2 * a ^ 2 - 25 / 36 * a ^ 3 + 5 / 12 * a ^ 4 - 1 / 12 * a ^ 5) * (c i * c i) +
      (-1 / 6 * a - 1 / 2 * a ^ 2 - 4 / 9 * a ^ 3 + a ^ 4 - 1 / 3 * a ^ 5) * (c (i + 1) * c (i + 1)) + (-1 / 36 * a ^ 3 + 1 / 12 * a ^ 4 - 1 / 12 * a ^ 5) * (c (i + 2) * c (i + 2)) +
      (-2 / 3 * a + 13 / 9 * a ^ 3 - 4 / 3 * a ^ 4 + 1 / 3 * a ^ 5) * (c i * c (i + 1)) + (1 / 9 * a ^ 3 - 2 / 3 * a ^ 4 + 1 / 3 * a ^ 5) * (c (i + 1) * c (i + 2)) +
      (-7 / 18 * a ^ 3 + 1 / 2 * a ^ 4 - 1 / 6 * a ^ 5) * (c i * c (i + 2)) := ⟨_, rfl⟩
  have hTp : ∀ i, T (i + n) = T i := fun i => by
    simp only [hT, ← hc i, ← hc (i + 1), ← hc (i + 2)]
    rw [show i + n + 1 = i + 1 + n by ring, show i + n + 2 = i + 2 + n by ring]
  have hsum := shift_one hTp
  rw [mul_sum, mul_sum, ← sum_add_distrib, ← sum_add_distrib, ← sub_eq_zero, ← sum_sub_distrib]
  refine Eq.trans ?_ (sub_eq_zero.2 hsum)
  rw [← sum_sub_distrib]
  refine sum_congr rfl fun i _ => ?_
  simp only [hT, cubic]
  rw [show (i : ℤ) + 1 + 1 = i + 2 by ring, show (i : ℤ) + 1 + 2 = i + 3 by ring]
  ring

/-- The cubic B-splines of a cell, on uniform knots. -/
theorem uniform_pieces {t : ℤ → ℝ} {x0 h : ℝ} (hh : 0 < h) (ht : ∀ i : ℤ, t i = x0 + i * h) (q : ℤ) (a : ℝ) :
    (piece t q 3 (q - 3)).eval (x0 + (q + a) * h) = (1 - a) ^ 3 / 6 ∧ (piece t q 3 (q - 2)).eval (x0 + (q + a) * h) = (3 * a ^ 3 - 6 * a ^ 2 + 4) / 6 ∧
      (piece t q 3 (q - 1)).eval (x0 + (q + a) * h) = (-3 * a ^ 3 + 3 * a ^ 2 + 3 * a + 1) / 6 ∧ (piece t q 3 q).eval (x0 + (q + a) * h) = a ^ 3 / 6 := by
  obtain ⟨U, hU⟩ : ∃ U : ℕ → ℤ → ℝ, U = fun p i => (piece t q p (q + i)).eval (x0 + (q + a) * h) := ⟨_, rfl⟩
  have h0 : ∀ i, U 0 i = if i = 0 then 1 else 0 := fun i => by
    simp only [hU, piece]
    by_cases hi : i = 0
    · simp [hi]
    · rw [if_neg (by omega), if_neg hi]; simp
  have hs : ∀ p i, U (p + 1) i = (a - i) / (p + 1) * U p i + (i + p + 2 - a) / (p + 1) * U p (i + 1) := fun p i => by
    simp only [hU, piece, ht]
    rw [show q + (i + 1) = q + i + 1 by ring]
    simp only [eval_add, eval_mul, eval_C, eval_sub, eval_X]
    push_cast
    have hp : (p : ℝ) + 1 ≠ 0 := by positivity
    have e1 : x0 + ((q : ℝ) + i + p + 1) * h - (x0 + (q + i) * h) = (p + 1) * h := by ring
    have e2 : x0 + ((q : ℝ) + i + p + 2) * h - (x0 + (q + i + 1) * h) = (p + 1) * h := by ring
    rw [e1, e2]
    have := hh.ne'
    field_simp
    ring
  have k : ∀ i, (piece t q 3 (q + i)).eval (x0 + (q + a) * h) = U 3 i := fun i => by rw [hU]
  rw [show q - 3 = q + (-3) by ring, show q - 2 = q + (-2) by ring, show q - 1 = q + (-1) by ring, k, k, k, show piece t q 3 q = piece t q 3 (q + 0) by rw [add_zero], k]
  refine ⟨?_, ?_, ?_, ?_⟩ <;> (simp [hs, h0]; ring)

/-- The coefficients of a periodic spline, continued periodically. -/
def wrapped (n : ℕ) (c : ℕ → ℝ) (i : ℤ) : ℝ := c (i % n).toNat

theorem wrapped_period (n : ℕ) (c : ℕ → ℝ) (i : ℤ) : wrapped n c (i + n) = wrapped n c i := by simp [wrapped]

theorem wrapped_nat (n : ℕ) (c : ℕ → ℝ) (i : ℕ) : wrapped n c i = c (i % n) := by
  rw [wrapped, ← Int.natCast_mod, Int.toNat_natCast]

theorem uniform_knots {n : ℕ} (hn : 1 ≤ n) (x0 h : ℝ) (i : ℤ) : periodicKnots n (uniform x0 h) i = x0 + i * h := by
  have hm := Int.emod_add_mul_ediv i n
  have hp := Int.emod_nonneg i (show (n : ℤ) ≠ 0 by omega)
  obtain ⟨r, hr⟩ := Int.eq_ofNat_of_zero_le hp
  rw [periodicKnots, hr, Int.toNat_natCast]
  rw [hr] at hm
  have hm' : (i : ℝ) = r + n * ((i / n : ℤ) : ℝ) := by exact_mod_cast hm.symm
  simp only [uniform, Nat.cast_zero]
  rw [hm']
  ring

theorem cell_value {n : ℕ} {x0 h : ℝ} (hn : 1 ≤ n) (hh : 0 < h) (c : ℕ → ℝ) (q : ℕ) (a : ℝ) :
    valueAt (periodicKnots n (uniform x0 h)) 3 n q (x0 + (q + a) * h) c = cubic (wrapped n c) a q := by
  obtain ⟨p0, p1, p2, p3⟩ := uniform_pieces hh (uniform_knots hn x0 h) q a
  simp only [Int.cast_natCast] at p0 p1 p2 p3
  simp only [valueAt, pt, sum_range_succ, sum_range_zero, zero_add, cubic, wrapped_nat]
  push_cast
  rw [add_zero, show (q : ℤ) - 3 + 1 = q - 2 by ring, show (q : ℤ) - 3 + 2 = q - 1 by ring, show (q : ℤ) - 3 + 3 = q by ring, p0, p1, p2, p3]
  rw [show (q : ℤ) + 1 = ((1 + q : ℕ) : ℤ) by push_cast; ring, show (q : ℤ) + 2 = ((2 + q : ℕ) : ℤ) by push_cast; ring, show (q : ℤ) + 3 = ((3 + q : ℕ) : ℤ) by push_cast; ring]
  simp only [wrapped_nat]

theorem uniform_lt {x0 h : ℝ} (hh : 0 < h) (i : ℕ) : uniform x0 h i < uniform x0 h (i + 1) := by
  simp only [uniform]; push_cast; linarith

/-- The interpolator at any coordinate: position `a` in cell `m` of the periodic continuation. -/
theorem eval_formula {n : ℕ} {x0 h : ℝ} {c : ℕ → ℝ} {s F : ℝ → ℝ} (hn : 1 ≤ n) (hh : 0 < h) (hs : IsSpline n (uniform x0 h) (periodicKnots n (uniform x0 h)) 3 n c s)
    (hF : Interpolators.spline true .periodic .periodic .periodic .periodic (uniform x0 h 0) (uniform x0 h n) s = some F) (m : ℤ) (a : ℝ) (h0 : 0 ≤ a) (h1 : a < 1) :
    F (x0 + (m + a) * h) = cubic (wrapped n c) a m := by
  have hn' : (0 : ℝ) < n := by exact_mod_cast hn
  have inside : ∀ q : ℕ, q < n → ∀ a : ℝ, 0 ≤ a → a ≤ 1 → s (x0 + (q + a) * h) = cubic (wrapped n c) a q := fun q hq a h0 h1 => by
    rw [hs q hq _ ⟨by simp only [uniform]; nlinarith, by simp only [uniform]; push_cast; nlinarith⟩, cell_value hn hh]
  have hFe : F = fun x => s (if x < uniform x0 h 0 ∨ x > uniform x0 h n then x - (⌊(x - uniform x0 h 0) / (uniform x0 h n - uniform x0 h 0)⌋ : ℝ) * (uniform x0 h n - uniform x0 h 0) else x) := by
    simp only [Interpolators.spline, Interpolators.splineAccepted] at hF
    simp at hF
    exact hF.symm
  rw [hFe]
  beta_reduce
  have u0 : uniform x0 h 0 = x0 := by simp [uniform]
  have un : uniform x0 h n = x0 + n * h := rfl
  rw [u0, un, show x0 + n * h - x0 = n * h by ring, show x0 + (m + a) * h - x0 = (m + a) * h by ring]
  have hm := Int.emod_add_mul_ediv m n
  have hp := Int.emod_nonneg m (show (n : ℤ) ≠ 0 by omega)
  have hlt := Int.emod_lt_of_pos m (show (0 : ℤ) < n by omega)
  obtain ⟨r, hr⟩ := Int.eq_ofNat_of_zero_le hp
  rw [hr] at hm hlt
  have hm' : (m : ℝ) = r + n * ((m / n : ℤ) : ℝ) := by exact_mod_cast hm.symm
  have hrn : r < n := by exact_mod_cast hlt
  have hrn' : (r : ℝ) + 1 ≤ n := by exact_mod_cast hrn
  have hperiod : cubic (wrapped n c) a m = cubic (wrapped n c) a r := by
    simp only [cubic, wrapped]
    rw [show ∀ k : ℤ, (m + k) % (n : ℤ) = (r + k) % n from fun k => by rw [← hm, show (r : ℤ) + n * (m / n) + k = r + k + n * (m / n) by ring, Int.add_mul_emod_self_left], 
      show ∀ k : ℤ, (m + k) % (n : ℤ) = (r + k) % n from fun k => by rw [← hm, show (r : ℤ) + n * (m / n) + k = r + k + n * (m / n) by ring, Int.add_mul_emod_self_left]]
    have := show ∀ k : ℤ, (m + k) % (n : ℤ) = (r + k) % n from fun k => by rw [← hm, show (r : ℤ) + n * (m / n) + k = r + k + n * (m / n) by ring, Int.add_mul_emod_self_left]
    have h0 := this 0
    rw [add_zero, add_zero] at h0
    rw [h0, this 3]
  split_ifs with hout
  · have hfl : ⌊(m + a) * h / (n * h)⌋ = m / n := by
      rw [mul_div_mul_right _ _ hh.ne', Int.floor_eq_iff, le_div_iff₀ hn', div_lt_iff₀ hn', hm']
      have : (0 : ℝ) ≤ r := by positivity
      constructor <;> nlinarith
    rw [hfl, hperiod, ← inside r hrn a h0 h1.le]
    congr 1
    rw [hm']
    ring
  · rw [not_or, not_lt, not_lt] at hout
    have hm0 : 0 ≤ m := by
      by_contra hneg
      have : (m : ℝ) ≤ -1 := by exact_mod_cast (by omega : m ≤ -1)
      nlinarith [hout.1]
    obtain ⟨k, rfl⟩ := Int.eq_ofNat_of_zero_le hm0
    have hkn : (k : ℝ) + a ≤ n := by
      have := hout.2
      have h2 : ((k : ℝ) + a) * h ≤ n * h := by push_cast at this; linarith
      exact le_of_mul_le_mul_right h2 hh
    have hkn' : k ≤ n := by
      have : (k : ℝ) ≤ n := by linarith
      exact_mod_cast this
    rcases hkn'.lt_or_eq with hk | hk
    · exact_mod_cast inside k hk a h0 h1.le
    · have ha : a = 0 := by rw [hk] at hkn; linarith
      obtain ⟨l, rfl⟩ : ∃ l, n = l + 1 := ⟨n - 1, by omega⟩
      have := inside l (by omega) 1 (by norm_num) le_rfl
      rw [cubic_end] at this
      rw [ha, hk, ← Nat.cast_succ, ← Nat.cast_succ] at *
      rw [← this]
      congr 1
      push_cast
      ring

/-! ## One displacement -/

section step
variable {C : Type*} {n : ℕ} {x0 h : ℝ} {fi : Interp ℕ C}

/-- What the interpolator returns at the feet `x i - δ`: the same spline at the same relative position of shifted cells. -/
theorem step_formula (hn : 1 ≤ n) (hh : 0 < h) (hfi : IsPeriodicCubic n (uniform x0 h) fi) (v : ℕ → ℝ) : ∃ c : ℕ → ℝ, PeriodicInterpolant n 3 (uniform x0 h) v c ∧ (∀ i < n, cubic (wrapped n c) 0 i = v i) ∧
    ∀ δ : ℝ, ∃ (a : ℝ) (k : ℤ), 0 ≤ a ∧ a < 1 ∧ δ = -((k : ℝ) + a) * h ∧ ∀ i : ℕ, fi.eval (uniform x0 h i - δ) (fi.build v) = cubic (wrapped n c) a (i + k) := by
  obtain ⟨c, s, F, hc, hs, hF, he⟩ := hfi v
  refine ⟨c, hc, fun i hi => ?_, fun δ => ⟨Int.fract (-δ / h), ⌊-δ / h⌋, Int.fract_nonneg _, Int.fract_lt_one _, ?_, fun i => ?_⟩⟩
  · rw [← hc i hi, ← cell_value hn hh c i 0, add_zero]; rfl
  · rw [Int.floor_add_fract]; field_simp
  · rw [he, ← eval_formula hn hh hs hF _ _ (Int.fract_nonneg _) (Int.fract_lt_one _)]
    congr 1
    push_cast
    rw [add_assoc, Int.floor_add_fract, uniform]
    field_simp
    ring

/-- The mass: the sum over the line of the interpolated values at displaced points. -/
theorem step_mass (hn : 1 ≤ n) (hh : 0 < h) (hfi : IsPeriodicCubic n (uniform x0 h) fi) (v : ℕ → ℝ) (δ : ℝ) : ∑ i ∈ range n, fi.eval (uniform x0 h i - δ) (fi.build v) = ∑ i ∈ range n, v i := by
  obtain ⟨c, -, hv, hstep⟩ := step_formula hn hh hfi v
  obtain ⟨a, k, -, -, -, hk⟩ := hstep δ
  have hp := wrapped_period n c
  rw [sum_congr rfl fun i _ => hk i, shift_sum (g := cubic (wrapped n c) a) (cubic_period hp a) k, cubic_mass hp, ← cubic_mass hp 0]
  exact sum_congr rfl fun i hi => hv i (mem_range.1 hi)

/-- The energy: the sum of squares does not grow. -/
theorem step_energy (hn : 1 ≤ n) (hh : 0 < h) (hfi : IsPeriodicCubic n (uniform x0 h) fi) (v : ℕ → ℝ) (δ : ℝ) : ∑ i ∈ range n, fi.eval (uniform x0 h i - δ) (fi.build v) ^ 2 ≤ ∑ i ∈ range n, v i ^ 2 := by
  obtain ⟨c, -, hv, hstep⟩ := step_formula hn hh hfi v
  obtain ⟨a, k, h0, h1, -, hk⟩ := hstep δ
  have hp := wrapped_period n c
  have e1 : ∑ i ∈ range n, fi.eval (uniform x0 h i - δ) (fi.build v) ^ 2 = ∑ i ∈ range n, cubic (wrapped n c) a i ^ 2 := by
    rw [← shift_sum (g := fun i => cubic (wrapped n c) a i ^ 2) (fun i => by beta_reduce; rw [cubic_period hp a]) k]
    exact sum_congr rfl fun i _ => by rw [hk i]
  have e2 : ∑ i ∈ range n, v i ^ 2 = ∑ i ∈ range n, cubic (wrapped n c) 0 i ^ 2 := sum_congr rfl fun i hi => by rw [hv i (mem_range.1 hi)]
  rw [e1, e2, cubic_energy hp a]
  have hu : 0 ≤ a * (1 - a) := mul_nonneg h0 (by linarith)
  have p1 : 0 ≤ (a * (1 - a)) ^ 2 / 12 * ∑ i ∈ range n, (wrapped n c (i + 2) - 2 * wrapped n c (i + 1) + wrapped n c i) ^ 2 := mul_nonneg (by positivity) (sum_nonneg fun _ _ => sq_nonneg _)
  have p2 : 0 ≤ (a * (1 - a)) ^ 3 / 36 * ∑ i ∈ range n, (wrapped n c (i + 3) - 3 * wrapped n c (i + 2) + 3 * wrapped n c (i + 1) - wrapped n c i) ^ 2 :=
    mul_nonneg (by positivity) (sum_nonneg fun _ _ => sq_nonneg _)
  linarith

theorem rms_step (hn : 1 ≤ n) (hh : 0 < h) (hfi : IsPeriodicCubic n (uniform x0 h) fi) (v : ℕ → ℝ) (δ : ℝ) : rms n (fun i => fi.eval (uniform x0 h i - δ) (fi.build v)) ≤ rms n v :=
  Real.sqrt_le_sqrt (div_le_div_of_nonneg_right (step_energy hn hh hfi v δ) (Nat.cast_nonneg _))

theorem interpolant_linear {b : ℕ → ℝ} {v w c e : ℕ → ℝ} (hc : PeriodicInterpolant n 3 b v c) (he : PeriodicInterpolant n 3 b w e) : PeriodicInterpolant n 3 b (fun i => v i - w i) (fun j => c j - e j) := fun q hq => by
  beta_reduce
  rw [← hc q hq, ← he q hq]
  simp only [valueAt, ← sum_sub_distrib]
  exact sum_congr rfl fun j _ => by ring

/-- The interpolation is linear. -/
theorem step_linear (hn : 1 ≤ n) (hh : 0 < h) (hfi : IsPeriodicCubic n (uniform x0 h) fi) (v w : ℕ → ℝ) (δ : ℝ) (i : ℕ) :
    fi.eval (uniform x0 h i - δ) (fi.build v) - fi.eval (uniform x0 h i - δ) (fi.build w) = fi.eval (uniform x0 h i - δ) (fi.build fun i => v i - w i) := by
  obtain ⟨c, hc, -, h1⟩ := step_formula hn hh hfi v
  obtain ⟨e, he, -, h2⟩ := step_formula hn hh hfi w
  obtain ⟨g, hg, -, h3⟩ := step_formula hn hh hfi fun i => v i - w i
  obtain ⟨a, k, a0, a1, hd, hk⟩ := h1 δ
  obtain ⟨a', k', a0', a1', hd', hk'⟩ := h2 δ
  obtain ⟨a'', k'', a0'', a1'', hd'', hk''⟩ := h3 δ
  have same : ∀ (x y : ℝ) (k l : ℤ), 0 ≤ x → x < 1 → 0 ≤ y → y < 1 → -((k : ℝ) + x) * h = -((l : ℝ) + y) * h → l = k ∧ y = x := by
    intro x y k l x0 x1 y0 y1 hxy
    have h4 := mul_right_cancel₀ hh.ne' hxy
    have h5 : k = l := by
      have e1 : ⌊(k : ℝ) + x⌋ = k := by rw [Int.floor_eq_iff]; constructor <;> linarith
      have e2 : ⌊(l : ℝ) + y⌋ = l := by rw [Int.floor_eq_iff]; constructor <;> linarith
      rw [← e1, ← e2]; congr 1; linarith
    subst h5
    exact ⟨rfl, by linarith⟩
  obtain ⟨rfl, rfl⟩ := same a a' k k' a0 a1 a0' a1' (by rw [← hd, ← hd'])
  obtain ⟨rfl, rfl⟩ := same a' a'' k' k'' a0 a1 a0'' a1'' (by rw [← hd, ← hd''])
  obtain ⟨u, -, hu⟩ := c116_periodic_unique (e := 1) (b := uniform x0 h) hn (fun i _ => uniform_lt hh i) fun i => v i - w i
  have hw : ∀ m, wrapped n g m = wrapped n c m - wrapped n e m := fun m => by
    have hlt : (m % n).toNat < n := by
      have h1 := Int.emod_nonneg m (show (n : ℤ) ≠ 0 by omega)
      have h2 := Int.emod_lt_of_pos m (show (0 : ℤ) < n by omega)
      omega
    simp only [wrapped]
    rw [hu g hg _ hlt, ← hu _ (interpolant_linear hc he) _ hlt]
  rw [hk, hk', hk'']
  simp only [cubic, hw]
  ring

/-! ## The convergence -/

theorem rms_triangle (n : ℕ) (v w : ℕ → ℝ) : rms n (fun i => v i + w i) ≤ rms n v + rms n w := by
  have key : ∀ u : ℕ → ℝ, rms n u = ‖(WithLp.toLp 2 (fun i : Fin n => u i) : EuclideanSpace ℝ (Fin n))‖ / Real.sqrt n := fun u => by
    rw [rms, Real.sqrt_div (sum_nonneg fun _ _ => sq_nonneg _), EuclideanSpace.norm_eq, Finset.sum_range]
    simp
  rw [key, key, key, ← add_div]
  refine div_le_div_of_nonneg_right ?_ (Real.sqrt_nonneg _)
  exact norm_add_le (WithLp.toLp 2 (fun i : Fin n => v i) : EuclideanSpace ℝ (Fin n)) (WithLp.toLp 2 fun i : Fin n => w i)

theorem rms_bound {n : ℕ} (hn : 1 ≤ n) {v : ℕ → ℝ} {E : ℝ} (h : ∀ i < n, |v i| ≤ E) : rms n v ≤ E := by
  have hE : 0 ≤ E := (abs_nonneg _).trans (h 0 (by omega))
  rw [rms, Real.sqrt_le_left hE, div_le_iff₀ (by exact_mod_cast hn)]
  calc ∑ i ∈ range n, v i ^ 2 ≤ ∑ i ∈ range n, E ^ 2 := sum_le_sum fun i hi => sq_le_sq' (by linarith [(abs_le.1 (h i (mem_range.1 hi))).1]) (abs_le.1 (h i (mem_range.1 hi))).2
    _ = E ^ 2 * n := by rw [sum_const, card_range, nsmul_eq_mul, mul_comm]

/-- The convergence of any sequence of displacements `δ 0, δ 1, …`. -/
theorem steps_converge (hn : 1 ≤ n) (hh : 0 < h) (hfi : IsPeriodicCubic n (uniform x0 h) fi) {G : ℕ → ℝ → ℝ} {M : ℝ}
    (hG : ∀ k < 4, ∀ x, HasDerivAt (G k) (G (k + 1) x) x) (hper : ∀ x, G 0 (x + n * h) = G 0 x) (hM : ∀ x, |G 4 x| ≤ M) (δ : ℕ → ℝ) (v : ℕ → ℕ → ℝ)
    (hv0 : ∀ i, v 0 i = G 0 (uniform x0 h i)) (hv : ∀ k i, v (k + 1) i = fi.eval (uniform x0 h i - δ k) (fi.build (v k))) (k : ℕ) :
    rms n (fun i => v k i - G 0 (uniform x0 h i - ∑ l ∈ range k, δ l)) ≤ k * (7 * M * h ^ 4) := by
  induction k with
  | zero => simp [rms, hv0]
  | succ k ih =>
    obtain ⟨u, hu⟩ : ∃ u : ℕ → ℝ, u = fun i => G 0 (uniform x0 h i - ∑ l ∈ range k, δ l) := ⟨_, rfl⟩
    obtain ⟨c, s, F, hc, hs, hF, he⟩ := hfi u
    have hacc : ∀ i, |fi.eval (uniform x0 h i - δ k) (fi.build u) - G 0 (uniform x0 h i - ∑ l ∈ range (k + 1), δ l)| ≤ 7 * M * h ^ 4 := fun i => by
      have := c116_periodic_interpolator (G := fun j x => G j (x - ∑ l ∈ range k, δ l)) (M := M) (H := h) hn (fun i _ => uniform_lt hh i) (by rw [hu] at hc; exact hc) hs hF
        (fun j hj x => (hG j hj _).comp_sub_const x _) (fun x => by
          simp only [uniform, Nat.cast_zero]
          rw [← hper (x - _)]; congr 1; ring) (fun x => hM _) (fun q _ => by simp only [uniform]; push_cast; linarith) (uniform x0 h i - δ k)
      rw [← he, abs_sub_comm] at this
      rw [sum_range_succ, show uniform x0 h i - (∑ l ∈ range k, δ l + δ k) = uniform x0 h i - δ k - ∑ l ∈ range k, δ l by ring]
      exact this
    have hsplit : (fun i => v (k + 1) i - G 0 (uniform x0 h i - ∑ l ∈ range (k + 1), δ l)) =
        fun i => fi.eval (uniform x0 h i - δ k) (fi.build fun i => v k i - u i) + (fi.eval (uniform x0 h i - δ k) (fi.build u) - G 0 (uniform x0 h i - ∑ l ∈ range (k + 1), δ l)) := by
      funext i
      rw [← step_linear hn hh hfi, hv]
      ring
    rw [hsplit]
    refine (rms_triangle _ _ _).trans ?_
    have h1 := rms_step hn hh hfi (fun i => v k i - u i) (δ k)
    have h2 := rms_bound hn (v := fun i => fi.eval (uniform x0 h i - δ k) (fi.build u) - G 0 (uniform x0 h i - ∑ l ∈ range (k + 1), δ l)) fun i _ => hacc i
    have h3 : rms n (fun i => v k i - u i) ≤ k * (7 * M * h ^ 4) := by rw [hu]; exact ih
    push_cast
    linarith

end step

/-! ## The operators -/

section operators
variable {A B C C' : Type*} {n : ℕ} {x0 h : ℝ} {fi : Interp ℕ C}

/-- C117 (mass): the general advection operator with a constant field on the line keeps the sum of the values of the line, for every time stepper, time step and field, and for all values. -/
theorem c117_mass (ai : Interp ℕ C') (proj : B → A) (st : Stepper) (hn : 1 ≤ n) (hh : 0 < h) (hfi : IsPeriodicCubic n (uniform x0 h) fi) (f : B → ℕ → ℝ) (a : A → ℕ → ℝ) (dt c : ℝ) (b : B)
    (hc : ∀ x, ai.eval x (ai.build (a (proj b))) = c) : ∑ i ∈ range n, bsl1D fi ai (uniform x0 h) proj st f a dt b i = ∑ i ∈ range n, f b i := by
  rw [← step_mass hn hh hfi (f b) (c * dt)]
  exact sum_congr rfl fun i _ => c54_constant_field fi ai _ proj st f a dt c b i hc

/-- C117 (stability): the root mean square of the line does not grow, whatever the time step. -/
theorem c117_stable (ai : Interp ℕ C') (proj : B → A) (st : Stepper) (hn : 1 ≤ n) (hh : 0 < h) (hfi : IsPeriodicCubic n (uniform x0 h) fi) (f : B → ℕ → ℝ) (a : A → ℕ → ℝ) (dt c : ℝ) (b : B)
    (hc : ∀ x, ai.eval x (ai.build (a (proj b))) = c) : rms n (bsl1D fi ai (uniform x0 h) proj st f a dt b) ≤ rms n (f b) := by
  rw [show bsl1D fi ai (uniform x0 h) proj st f a dt b = fun i => fi.eval (uniform x0 h i - c * dt) (fi.build (f b)) from funext fun i => c54_constant_field fi ai _ proj st f a dt c b i hc]
  exact rms_step hn hh hfi _ _

/-- C117 (convergence): after `k` steps of any lengths, the values differ from the exact solution `g (x - c t)` of the transport equation by at most `7 k M h ^ 4` in the root mean square, where `M` bounds the fourth derivative
of `g`. -/
theorem c117_converges (ai : Interp ℕ C') (proj : B → A) (st : Stepper) (hn : 1 ≤ n) (hh : 0 < h) (hfi : IsPeriodicCubic n (uniform x0 h) fi) {G : ℕ → ℝ → ℝ} {M : ℝ}
    (hG : ∀ k < 4, ∀ x, HasDerivAt (G k) (G (k + 1) x) x) (hper : ∀ x, G 0 (x + n * h) = G 0 x) (hM : ∀ x, |G 4 x| ≤ M) (f : ℕ → B → ℕ → ℝ) (a : A → ℕ → ℝ) (dt : ℕ → ℝ) (c : ℝ) (b : B)
    (hc : ∀ x, ai.eval x (ai.build (a (proj b))) = c) (hf0 : ∀ i, f 0 b i = G 0 (uniform x0 h i)) (hf : ∀ k, f (k + 1) = bsl1D fi ai (uniform x0 h) proj st (f k) a (dt k)) (k : ℕ) :
    rms n (fun i => f k b i - G 0 (uniform x0 h i - c * ∑ l ∈ range k, dt l)) ≤ k * (7 * M * h ^ 4) := by
  rw [mul_sum]
  exact steps_converge hn hh hfi hG hper hM (fun l => c * dt l) (fun k => f k b) hf0 (fun k i => by
    beta_reduce
    rw [hf, c54_constant_field fi ai _ proj st (f k) a (dt k) c b i hc]) k

/-- C117 (the advection in space of the simulations): mass, stability and convergence for every line (velocity) of every species. -/
theorem c117_spatial (hn : 1 ≤ n) (hh : 0 < h) (hfi : IsPeriodicCubic n (uniform x0 h) fi) (vel : B → ℝ) (me ms : ℝ) (dt : ℕ → ℝ) (f : ℕ → B → ℕ → ℝ)
    (hf : ∀ k, f (k + 1) = bslX fi (uniform x0 h) vel me ms (f k) (dt k)) (b : B) (k : ℕ) :
    ∑ i ∈ range n, f k b i = ∑ i ∈ range n, f 0 b i ∧ rms n (f k b) ≤ rms n (f 0 b) ∧
    ∀ (G : ℕ → ℝ → ℝ) (M : ℝ), (∀ j < 4, ∀ x, HasDerivAt (G j) (G (j + 1) x) x) → (∀ x, G 0 (x + n * h) = G 0 x) → (∀ x, |G 4 x| ≤ M) → (∀ i, f 0 b i = G 0 (uniform x0 h i)) →
      rms n (fun i => f k b i - G 0 (uniform x0 h i - Real.sqrt (me / ms) * vel b * ∑ l ∈ range k, dt l)) ≤ k * (7 * M * h ^ 4) := by
  have hstep : ∀ k, f (k + 1) b = fun i => fi.eval (uniform x0 h i - Real.sqrt (me / ms) * vel b * dt k) (fi.build (f k b)) := fun k => by
    funext i
    rw [hf]
    simp only [bslX]
    congr 1; ring
  refine ⟨?_, ?_, fun G M hG hper hM h0 => ?_⟩
  · induction k with
    | zero => rfl
    | succ k ih => rw [hstep, step_mass hn hh hfi, ih]
  · induction k with
    | zero => exact le_rfl
    | succ k ih => rw [hstep]; exact (rms_step hn hh hfi _ _).trans ih
  · rw [mul_sum]
    exact steps_converge hn hh hfi hG hper hM (fun l => Real.sqrt (me / ms) * vel b * dt l) (fun k => f k b) h0 (fun k i => by rw [hstep]) k

/-- C117 (the limit): the values can become negative. With four cells, a single 1 among zeros and a displacement by half a cell, a value `-3/32` appears. -/
theorem c117_not_positive (hh : 0 < h) (hfi : IsPeriodicCubic 4 (uniform x0 h) fi) : fi.eval (uniform x0 h 2 - h / 2) (fi.build fun i => if i = 0 then 1 else 0) = -3 / 32 := by
  obtain ⟨c', s, F, hc', hs, hF, he⟩ := hfi fun i => if i = 0 then 1 else 0
  have hv' : ∀ i : ℕ, i < 4 → cubic (wrapped 4 c') 0 i = (fun i : ℕ => if i = 0 then (1 : ℝ) else 0) i := fun i hi => by
    rw [← hc' i hi, ← cell_value (by norm_num) hh c' i 0, add_zero]; rfl
  have hval := eval_formula (by norm_num) hh hs hF 1 (1 / 2) (by norm_num) (by norm_num)
  rw [he, show uniform x0 h 2 - h / 2 = x0 + (((1 : ℤ) : ℝ) + 1 / 2) * h by simp only [uniform]; push_cast; ring, hval]
  have v0 := hv' 0 (by norm_num)
  have v1 := hv' 1 (by norm_num)
  have v2 := hv' 2 (by norm_num)
  have v3 := hv' 3 (by norm_num)
  simp [cubic, wrapped] at v0 v1 v2 v3 ⊢
  linarith

end operators

/-! ## Instances -/

/-- There is such an interpolator on every uniform mesh. -/
theorem interpolator_exists {n : ℕ} {x0 h : ℝ} (hn : 1 ≤ n) (hh : 0 < h) : ∃ fi : Interp ℕ (ℝ → ℝ), IsPeriodicCubic n (uniform x0 h) fi := by
  have := fun v => (c116_periodic_exists (b := uniform x0 h) hn (fun i _ => uniform_lt hh i) v).1
  choose c s F hF using this
  exact ⟨⟨F, fun x F => F x⟩, fun v => ⟨c v, s v, F v, (hF v).1, (hF v).2.1, (hF v).2.2, fun _ => rfl⟩⟩

/-- Instance: `sin` on 32 cells of `[0, 2 π]`, 100 steps of length `1/10` at every velocity: the root mean square of the error is at most `700 (2 π / 32) ^ 4`. -/
example (vel : ℕ → ℝ) : ∃ f : ℕ → ℕ → ℕ → ℝ, ∀ b, rms 32 (fun i => f 100 b i - Real.sin (uniform 0 (2 * Real.pi / 32) i - vel b * 10)) ≤ 100 * (7 * 1 * (2 * Real.pi / 32) ^ 4) := by
  have hpi := Real.pi_pos
  obtain ⟨fi, hfi⟩ := interpolator_exists (n := 32) (x0 := 0) (h := 2 * Real.pi / 32) (by norm_num) (by positivity)
  obtain ⟨f, hf⟩ : ∃ f : ℕ → ℕ → ℕ → ℝ, f = fun k => Nat.rec (fun _ i => Real.sin (uniform 0 (2 * Real.pi / 32) i)) (fun _ g => bslX fi (uniform 0 (2 * Real.pi / 32)) vel 1 1 g (1 / 10)) k := ⟨_, rfl⟩
  refine ⟨f, fun b => ?_⟩
  have h := (c117_spatial (by norm_num) (by positivity) hfi vel 1 1 (fun _ => 1 / 10) f (fun k => by rw [hf]) b 100).2.2 (fun k x => Real.sin (x + k * (Real.pi / 2))) 1 (fun k _ x => ?_) (fun x => ?_)
    (fun x => Real.abs_sin_le_one _) (fun i => by rw [hf]; simp)
  · simp only [div_one, Real.sqrt_one, one_mul, sum_const, card_range, nsmul_eq_mul, Nat.cast_zero, zero_mul, add_zero] at h
    norm_num at h ⊢
    exact h
  · have h := (Real.hasDerivAt_sin (x + k * (Real.pi / 2))).comp x ((hasDerivAt_id x).add_const (k * (Real.pi / 2)))
    rw [mul_one] at h
    refine h.congr_deriv ?_
    beta_reduce
    rw [show x + ((k + 1 : ℕ) : ℝ) * (Real.pi / 2) = x + k * (Real.pi / 2) + Real.pi / 2 by push_cast; ring, Real.sin_add_pi_div_two]
  · beta_reduce
    simp only [Nat.cast_zero, zero_mul, add_zero]
    rw [show x + ((32 : ℕ) : ℝ) * (2 * Real.pi / 32) = x + 2 * Real.pi by push_cast; ring, Real.sin_add_two_pi]

end Verif.PeriodicSplineAdvection
