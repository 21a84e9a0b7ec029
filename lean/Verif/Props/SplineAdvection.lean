import Verif.Props.AccuracyAdvection
import Mathlib.Analysis.Calculus.Taylor
import Mathlib.LinearAlgebra.FiniteDimensional.Lemmas

/-! Property C100: the semi-Lagrangian advection in space with uniform periodic cubic splines (the degree used by every program of `simulations/`) does not increase the mean square of any line,
whatever the displacement, and converges with order 4. -/

namespace Verif.SplineAdvection

open Finset Verif.Simulation Verif.AccuracyAdvection

/-- The four pieces of the cubic B-spline on a uniform grid: the values at the position `t` of a cell of the functions centred at the point before the cell, at its two ends and after it. -/
noncomputable def piece (t : ℝ) : ℕ → ℝ
  | 0 => (1 - t) ^ 3 / 6
  | 1 => (4 - 6 * t ^ 2 + 3 * t ^ 3) / 6
  | 2 => (1 + 3 * t + 3 * t ^ 2 - 3 * t ^ 3) / 6
  | _ => t ^ 3 / 6

/-- What DDC provides on a uniform periodic grid with cubic splines (`BSDegreeX = 3`, `simulations/geometryXVx/spline_definitions_xvx.hpp:8`, interpolation points at the break points): in the cell
after the point number `m` the spline is made of the four pieces with the coefficients of the neighbouring points, the coordinate being wrapped into the period, and the builder returns
coefficients of a spline with the given values at the points. -/
structure CubicPeriodicSpline (N : ℕ) [NeZero N] (x0 dx : ℝ) (phi : ZMod N → ℝ → ℝ) (solve : (ZMod N → ℝ) → ZMod N → ℝ) : Prop where
  pieces : ∀ (c : ZMod N → ℝ) (m : ℤ) (t : ℝ), 0 ≤ t → t ≤ 1 → ∑ j, c j * phi j (x0 + (m + t) * dx) =
    piece t 0 * c ((m : ZMod N) - 1) + piece t 1 * c m + piece t 2 * c (m + 1) + piece t 3 * c (m + 2)
  solves : ∀ v i, ∑ j, solve v j * phi j (periodicCoord N x0 dx i) = v i

/-- The sum of squares of the values of a spline at displaced points is the sum of squares of the values at the points minus two sums of squares of differences of the coefficients. -/
theorem spline_squares (N : ℕ) [NeZero N] (t : ℝ) (c : ZMod N → ℝ) :
    ∑ i, (piece t 0 * c (i - 1) + piece t 1 * c i + piece t 2 * c (i + 1) + piece t 3 * c (i + 2)) ^ 2 =
      ∑ i, ((c (i - 1) + 4 * c i + c (i + 1)) / 6) ^ 2 - t ^ 2 * (1 - t) ^ 2 / 12 * ∑ i, (c (i - 1) - 2 * c i + c (i + 1)) ^ 2
        - t ^ 3 * (1 - t) ^ 3 / 36 * ∑ i, (c (i - 1) - 3 * c i + 3 * c (i + 1) - c (i + 2)) ^ 2 := by
  have sh : ∀ (a : ZMod N) (φ : ZMod N → ℝ), ∑ i, φ (i + a) = ∑ i, φ i := fun a φ => Equiv.sum_comp (Equiv.addRight a) φ
  have s0 : ∑ i, c (i - 1) ^ 2 = ∑ i, c i ^ 2 := by simpa [sub_eq_add_neg] using sh (-1) fun i => c i ^ 2
  have s2 : ∑ i, c (i + 1) ^ 2 = ∑ i, c i ^ 2 := sh 1 fun i => c i ^ 2
  have s3 : ∑ i, c (i + 2) ^ 2 = ∑ i, c i ^ 2 := sh 2 fun i => c i ^ 2
  have p1 : ∑ i, c (i - 1) * c i = ∑ i, c i * c (i + 1) := by
    rw [← sh (-1) fun i => c i * c (i + 1)]; exact sum_congr rfl fun i _ => by rw [← sub_eq_add_neg, sub_add_cancel]
  have p3 : ∑ i, c (i + 1) * c (i + 2) = ∑ i, c i * c (i + 1) := by
    rw [← sh 1 fun i => c i * c (i + 1)]; exact sum_congr rfl fun i _ => by rw [add_assoc i 1 1, one_add_one_eq_two]
  have q1 : ∑ i, c (i - 1) * c (i + 1) = ∑ i, c i * c (i + 2) := by
    rw [← sh (-1) fun i => c i * c (i + 2)]
    exact sum_congr rfl fun i _ => by rw [← sub_eq_add_neg, show i - 1 + 2 = i + 1 by ring]
  have lin : ∀ a b d e : ℝ, ∑ i, (a * c (i - 1) + b * c i + d * c (i + 1) + e * c (i + 2)) ^ 2 =
      (a ^ 2 + b ^ 2 + d ^ 2 + e ^ 2) * ∑ i, c i ^ 2 + 2 * (a * b + b * d + d * e) * ∑ i, c i * c (i + 1) + 2 * (a * d + b * e) * ∑ i, c i * c (i + 2)
        + 2 * (a * e) * ∑ i, c (i - 1) * c (i + 2) := by
    intro a b d e
    have : ∑ i, (a * c (i - 1) + b * c i + d * c (i + 1) + e * c (i + 2)) ^ 2 =
        a ^ 2 * ∑ i, c (i - 1) ^ 2 + b ^ 2 * ∑ i, c i ^ 2 + d ^ 2 * ∑ i, c (i + 1) ^ 2 + e ^ 2 * ∑ i, c (i + 2) ^ 2 + 2 * (a * b) * ∑ i, c (i - 1) * c i
          + 2 * (b * d) * ∑ i, c i * c (i + 1) + 2 * (d * e) * ∑ i, c (i + 1) * c (i + 2) + 2 * (a * d) * ∑ i, c (i - 1) * c (i + 1)
          + 2 * (b * e) * ∑ i, c i * c (i + 2) + 2 * (a * e) * ∑ i, c (i - 1) * c (i + 2) := by
      simp only [mul_sum, ← sum_add_distrib]
      exact sum_congr rfl fun i _ => by ring
    rw [this, s0, s2, s3, p1, p3, q1]; ring
  have d1 : ∑ i, ((c (i - 1) + 4 * c i + c (i + 1)) / 6) ^ 2 = (18 * ∑ i, c i ^ 2 + 16 * ∑ i, c i * c (i + 1) + 2 * ∑ i, c i * c (i + 2)) / 36 := by
    refine Eq.trans (sum_congr rfl fun i _ => by ring) ((lin (1 / 6) (4 / 6) (1 / 6) 0).trans (by ring))
  have d2 : ∑ i, (c (i - 1) - 2 * c i + c (i + 1)) ^ 2 = 6 * ∑ i, c i ^ 2 - 8 * ∑ i, c i * c (i + 1) + 2 * ∑ i, c i * c (i + 2) := by
    refine Eq.trans (sum_congr rfl fun i _ => by ring) ((lin 1 (-2) 1 0).trans (by ring))
  have d3 : ∑ i, (c (i - 1) - 3 * c i + 3 * c (i + 1) - c (i + 2)) ^ 2 =
      20 * ∑ i, c i ^ 2 - 30 * ∑ i, c i * c (i + 1) + 12 * ∑ i, c i * c (i + 2) - 2 * ∑ i, c (i - 1) * c (i + 2) := by
    refine Eq.trans (sum_congr rfl fun i _ => by ring) ((lin 1 (-3) 3 (-1)).trans (by ring))
  rw [lin, d1, d2, d3]
  simp only [piece]
  ring

theorem piece_stable (N : ℕ) [NeZero N] (t : ℝ) (h0 : 0 ≤ t) (h1 : t ≤ 1) (c : ZMod N → ℝ) :
    ∑ i, (piece t 0 * c (i - 1) + piece t 1 * c i + piece t 2 * c (i + 1) + piece t 3 * c (i + 2)) ^ 2 ≤ ∑ i, ((c (i - 1) + 4 * c i + c (i + 1)) / 6) ^ 2 := by
  rw [spline_squares]
  have h2 : 0 ≤ 1 - t := by linarith
  have a : 0 ≤ t ^ 2 * (1 - t) ^ 2 / 12 * ∑ i, (c (i - 1) - 2 * c i + c (i + 1)) ^ 2 := by
    have : 0 ≤ ∑ i, (c (i - 1) - 2 * c i + c (i + 1)) ^ 2 := sum_nonneg fun i _ => sq_nonneg _
    positivity
  have b : 0 ≤ t ^ 3 * (1 - t) ^ 3 / 36 * ∑ i, (c (i - 1) - 3 * c i + 3 * c (i + 1) - c (i + 2)) ^ 2 := by
    have : 0 ≤ ∑ i, (c (i - 1) - 3 * c i + 3 * c (i + 1) - c (i + 2)) ^ 2 := sum_nonneg fun i _ => sq_nonneg _
    positivity
  linarith

section
variable {N : ℕ} [NeZero N] {x0 dx : ℝ} (hdx : 0 < dx) {phi : ZMod N → ℝ → ℝ} {solve : (ZMod N → ℝ) → ZMod N → ℝ} (h : CubicPeriodicSpline N x0 dx phi solve)

include h in
/-- The values at the points. -/
theorem at_points (c : ZMod N → ℝ) (i : ZMod N) : ∑ j, c j * phi j (periodicCoord N x0 dx i) = (c (i - 1) + 4 * c i + c (i + 1)) / 6 := by
  have := h.pieces c i.val 0 le_rfl zero_le_one
  simp only [Int.cast_natCast, add_zero, ZMod.natCast_zmod_val] at this
  rw [periodicCoord, this]
  simp only [piece]
  ring

include h in
theorem built (v : ZMod N → ℝ) (i : ZMod N) : (solve v (i - 1) + 4 * solve v i + solve v (i + 1)) / 6 = v i := by
  rw [← at_points h, h.solves]

include hdx h in
/-- The displaced line is made of the same weights everywhere. -/
theorem spline_form (δ : ℝ) : ∃ (t : ℝ) (q : ZMod N), 0 ≤ t ∧ t ≤ 1 ∧ ∀ (c : ZMod N → ℝ) (i : ZMod N),
    ∑ j, c j * phi j (periodicCoord N x0 dx i - δ) = piece t 0 * c (i + q - 1) + piece t 1 * c (i + q) + piece t 2 * c (i + q + 1) + piece t 3 * c (i + q + 2) := by
  obtain ⟨τ, hτ⟩ : ∃ τ, τ = -δ / dx := ⟨_, rfl⟩
  have e : δ = -(τ * dx) := by rw [hτ]; field_simp
  refine ⟨τ - ⌊τ⌋, (⌊τ⌋ : ZMod N), by linarith [Int.floor_le τ], by linarith [Int.lt_floor_add_one τ], fun c i => ?_⟩
  have := h.pieces c (i.val + ⌊τ⌋) (τ - ⌊τ⌋) (by linarith [Int.floor_le τ]) (by linarith [Int.lt_floor_add_one τ])
  push_cast at this
  rw [ZMod.natCast_zmod_val, show x0 + ((i.val : ℝ) + (⌊τ⌋ : ℝ) + (τ - ⌊τ⌋)) * dx = periodicCoord N x0 dx i - δ by rw [periodicCoord, e]; ring] at this
  exact this

include hdx h in
/-- **C100 (stability)** With uniform periodic cubic splines the mean square of every line of the distribution function does not increase, for every time step, every mass and every velocity. -/
theorem c100_stable {nv : ℕ} (P : Plasma nv) (f : ℕ → ZMod N → Fin nv → ℝ) (dt : ℝ) (s : ℕ) (v : Fin nv) :
    ∑ x, advX P (splineLine solve phi) (periodicCoord N x0 dx) f dt s x v ^ 2 ≤ ∑ x, f s x v ^ 2 := by
  obtain ⟨t, q, h0, h1, hform⟩ := spline_form hdx h (displacement P dt s v)
  obtain ⟨c, hc⟩ : ∃ c, c = solve fun x => f s x v := ⟨_, rfl⟩
  have hadv : ∀ x, advX P (splineLine solve phi) (periodicCoord N x0 dx) f dt s x v =
      piece t 0 * c (x + q - 1) + piece t 1 * c (x + q) + piece t 2 * c (x + q + 1) + piece t 3 * c (x + q + 2) := fun x => by rw [hc]; exact hform _ x
  simp only [hadv]
  have e := Equiv.sum_comp (Equiv.addRight q) fun x => (piece t 0 * c (x - 1) + piece t 1 * c x + piece t 2 * c (x + 1) + piece t 3 * c (x + 2)) ^ 2
  simp only [Equiv.coe_addRight] at e
  rw [e]
  refine (piece_stable N t h0 h1 c).trans (le_of_eq (sum_congr rfl fun i _ => ?_))
  rw [hc, built h]

/-! ## The error of one interpolation -/

theorem taylor4 (g : ℝ → ℝ) (hg : ContDiff ℝ 4 g) (M : ℝ) (hM : ∀ t, |iteratedDeriv 4 g t| ≤ M) (x : ℝ) :
    ∃ a1 a2 a3 : ℝ, ∀ k : ℝ, |g (x + k) - (g x + a1 * k + a2 * k ^ 2 + a3 * k ^ 3)| ≤ M / 24 * k ^ 4 := by
  refine ⟨iteratedDeriv 1 g x, iteratedDeriv 2 g x / 2, iteratedDeriv 3 g x / 6, fun k => ?_⟩
  rcases eq_or_ne k 0 with rfl | hk
  · simp
  · have hx : x ≠ x + k := fun e => hk (by linarith)
    obtain ⟨ξ, -, hξ⟩ := taylor_mean_remainder_lagrange_iteratedDeriv (n := 3) hx (hg.contDiffOn.of_le (by norm_num))
    have hu : UniqueDiffOn ℝ (Set.uIcc x (x + k)) := uniqueDiffOn_uIcc hx
    have hd : ∀ r ≤ 3, iteratedDerivWithin r g (Set.uIcc x (x + k)) x = iteratedDeriv r g x := fun r hr =>
      iteratedDerivWithin_eq_iteratedDeriv hu (hg.contDiffAt.of_le (by exact_mod_cast (by omega : r ≤ 4))) Set.left_mem_uIcc
    simp only [taylor_within_apply, sum_range_succ, range_zero, sum_empty, smul_eq_mul, hd 0 (by norm_num), hd 1 (by norm_num), hd 2 (by norm_num), hd 3 (by norm_num),
      iteratedDeriv_zero, add_sub_cancel_left] at hξ
    have e : g (x + k) - (g x + iteratedDeriv 1 g x * k + iteratedDeriv 2 g x / 2 * k ^ 2 + iteratedDeriv 3 g x / 6 * k ^ 3) = iteratedDeriv 4 g ξ * k ^ 4 / 24 := by
      have h24 : (Nat.factorial (3 + 1) : ℝ) = 24 := by norm_num [Nat.factorial]
      rw [h24] at hξ
      rw [← hξ]
      norm_num [Nat.factorial]
      ring
    rw [e, abs_div, abs_mul, abs_of_nonneg (by positivity : (0 : ℝ) ≤ k ^ 4), abs_of_pos (by norm_num : (0 : ℝ) < 24)]
    have := mul_le_mul_of_nonneg_right (hM ξ) (by positivity : 0 ≤ k ^ 4)
    linarith

omit [NeZero N] in
theorem periodic_int {g : ℝ → ℝ} {L : ℝ} (hg : ∀ t, g (t + L) = g t) (k : ℤ) (t : ℝ) : g (t + k * L) = g t := by
  obtain ⟨n, rfl | rfl⟩ := k.eq_nat_or_neg
  · simpa using periodic_nat hg n t
  · have := periodic_nat hg n (t + ((-n : ℤ) : ℝ) * L)
    rw [← this]; congr 1; push_cast; ring

/-- The samples of a periodic function at the point numbered by an integer. -/
theorem sample_int {g : ℝ → ℝ} (hg : ∀ t, g (t + N * dx) = g t) (z : ℤ) : g (periodicCoord N x0 dx (z : ZMod N)) = g (x0 + z * dx) := by
  unfold periodicCoord
  have e : (((z : ZMod N).val : ℤ) : ℝ) = (z : ℝ) - N * ((z / N : ℤ) : ℝ) := by
    have h1 : (((z : ZMod N).val : ℤ)) = z - N * (z / N) := by
      rw [ZMod.val_intCast]; have := Int.emod_add_mul_ediv z N; linarith
    rw [h1]; push_cast; ring
  rw [Int.cast_natCast] at e
  rw [e, ← periodic_int hg (z / N) (x0 + (z - N * ((z / N : ℤ) : ℝ)) * dx)]
  congr 1
  ring

/-- Values which are small in the mean of three neighbours come from small coefficients: the matrix of the builder is diagonally dominant. -/
theorem coefficients_small (e : ZMod N → ℝ) (r : ℝ) (hr : ∀ i, |(e (i - 1) + 4 * e i + e (i + 1)) / 6| ≤ r) (i : ZMod N) : |e i| ≤ 3 * r := by
  obtain ⟨j, -, hj⟩ := exists_max_image (univ : Finset (ZMod N)) (fun i => |e i|) ⟨0, mem_univ _⟩
  have hjj : |e j| ≤ 3 * r := by
    have h1 := abs_le.1 (hr j)
    have h2 := abs_le.1 (hj (j - 1) (mem_univ _))
    have h3 := abs_le.1 (hj (j + 1) (mem_univ _))
    rcases abs_cases (e j) with ⟨ha, _⟩ | ⟨ha, _⟩ <;> rw [ha] at h2 h3 ⊢ <;> linarith [h1.1, h1.2, h2.1, h2.2, h3.1, h3.2]
  exact (hj i (mem_univ _)).trans hjj

set_option maxHeartbeats 1600000 in
include hdx h in
/-- **C100 (interpolation)** The spline built from the samples of a smooth periodic function is within `6 M dx⁴` of the function everywhere. -/
theorem c100_interpolation (g : ℝ → ℝ) (hg : ContDiff ℝ 4 g) (hgp : ∀ t, g (t + N * dx) = g t) (M : ℝ) (hM : ∀ t, |iteratedDeriv 4 g t| ≤ M) (x : ℝ) :
    |(splineLine solve phi).eval x ((splineLine solve phi).build fun i => g (periodicCoord N x0 dx i)) - g x| ≤ 6 * M * dx ^ 4 := by
  obtain ⟨v, hv⟩ : ∃ v : ZMod N → ℝ, v = fun i => g (periodicCoord N x0 dx i) := ⟨_, rfl⟩
  obtain ⟨c, hc⟩ : ∃ c, c = solve v := ⟨_, rfl⟩
  have hM0 : 0 ≤ M * dx ^ 4 := mul_nonneg ((abs_nonneg _).trans (hM 0)) (by positivity)
  -- samples around an integer
  have hvz : ∀ z : ℤ, v (z : ZMod N) = g (x0 + z * dx) := fun z => by rw [hv]; exact sample_int hgp z
  -- coefficients of the local approximation
  obtain ⟨a, ha⟩ : ∃ a : ZMod N → ℝ, a = fun j => v j - (v (j + 1) - 2 * v j + v (j - 1)) / 6 := ⟨_, rfl⟩
  have hres : ∀ i, |((c (i - 1) - a (i - 1)) + 4 * (c i - a i) + (c (i + 1) - a (i + 1))) / 6| ≤ 5 / 108 * (M * dx ^ 4) := by
    intro i
    have hb : (c (i - 1) + 4 * c i + c (i + 1)) / 6 = v i := by rw [hc]; exact built h v i
    have e : ((c (i - 1) - a (i - 1)) + 4 * (c i - a i) + (c (i + 1) - a (i + 1))) / 6 = (v (i - 2) - 4 * v (i - 1) + 6 * v i - 4 * v (i + 1) + v (i + 2)) / 36 := by
      have : ((c (i - 1) - a (i - 1)) + 4 * (c i - a i) + (c (i + 1) - a (i + 1))) / 6 = v i - (a (i - 1) + 4 * a i + a (i + 1)) / 6 := by rw [← hb]; ring
      rw [this, ha]
      simp only [sub_add_cancel, add_sub_cancel_right]
      rw [show i - 1 - 1 = i - 2 by ring, show i + 1 + 1 = i + 2 by ring]
      ring
    rw [e]
    obtain ⟨z, rfl⟩ : ∃ z : ℤ, i = (z : ZMod N) := ⟨i.val, by simp⟩
    have s : ∀ k : ℤ, v ((z : ZMod N) + (k : ZMod N)) = g (x0 + z * dx + k * dx) := fun k => by
      rw [← Int.cast_add, hvz]; congr 1; push_cast; ring
    have sm2 := s (-2); have sm1 := s (-1); have s0 := s 0; have s1 := s 1; have s2 := s 2
    push_cast at sm2 sm1 s0 s1 s2
    rw [← sub_eq_add_neg] at sm2 sm1
    rw [add_zero] at s0
    rw [sm2, sm1, s0, s1, s2]
    obtain ⟨a1, a2, a3, ht⟩ := taylor4 g hg M hM (x0 + z * dx)
    have t1 := abs_le.1 (ht (-2 * dx)); have t2 := abs_le.1 (ht (-1 * dx)); have t3 := abs_le.1 (ht (1 * dx)); have t4 := abs_le.1 (ht (2 * dx))
    rw [zero_mul, add_zero, abs_le]
    ring_nf at t1 t2 t3 t4 ⊢
    constructor <;> linarith [t1.1, t1.2, t2.1, t2.2, t3.1, t3.2, t4.1, t4.2]
  have herr : ∀ i, |c i - a i| ≤ 5 / 36 * (M * dx ^ 4) := fun i => (coefficients_small (fun i => c i - a i) _ hres i).trans (le_of_eq (by ring))
  -- the point
  obtain ⟨τ, hτ⟩ : ∃ τ, τ = (x - x0) / dx := ⟨_, rfl⟩
  obtain ⟨z, hz⟩ : ∃ z, z = ⌊τ⌋ := ⟨_, rfl⟩
  obtain ⟨t, ht⟩ : ∃ t, t = τ - z := ⟨_, rfl⟩
  have h0 : 0 ≤ t := by rw [ht, hz]; linarith [Int.floor_le τ]
  have h1 : t ≤ 1 := by rw [ht, hz]; linarith [Int.lt_floor_add_one τ]
  have hx : x = x0 + (z + t) * dx := by rw [ht, hτ]; field_simp; ring
  have heval : (splineLine solve phi).eval x ((splineLine solve phi).build fun i => g (periodicCoord N x0 dx i)) =
      piece t 0 * c ((z : ZMod N) - 1) + piece t 1 * c z + piece t 2 * c (z + 1) + piece t 3 * c (z + 2) := by
    rw [← h.pieces c z t h0 h1, ← hx, hc, hv]; rfl
  rw [heval]
  have h2 : 0 ≤ 1 - t := by linarith
  have w0 : 0 ≤ piece t 0 := by simp only [piece]; positivity
  have w1 : 0 ≤ piece t 1 := by simp only [piece]; nlinarith [mul_nonneg (sq_nonneg t) h2, sq_nonneg t, mul_nonneg h0 h2]
  have w2 : 0 ≤ piece t 2 := by simp only [piece]; nlinarith [mul_nonneg (sq_nonneg t) h2, sq_nonneg t, mul_nonneg h0 h2]
  have w3 : 0 ≤ piece t 3 := by simp only [piece]; positivity
  have wsum : piece t 0 + piece t 1 + piece t 2 + piece t 3 = 1 := by simp only [piece]; ring
  -- difference of the coefficients
  have hA : |(piece t 0 * c ((z : ZMod N) - 1) + piece t 1 * c z + piece t 2 * c (z + 1) + piece t 3 * c (z + 2))
      - (piece t 0 * a ((z : ZMod N) - 1) + piece t 1 * a z + piece t 2 * a (z + 1) + piece t 3 * a (z + 2))| ≤ 5 / 36 * (M * dx ^ 4) := by
    have e0 := abs_le.1 (herr ((z : ZMod N) - 1)); have e1 := abs_le.1 (herr (z : ZMod N)); have e2 := abs_le.1 (herr ((z : ZMod N) + 1)); have e3 := abs_le.1 (herr ((z : ZMod N) + 2))
    generalize 5 / 36 * (M * dx ^ 4) = R at *
    rw [abs_le]
    constructor
    · linear_combination mul_le_mul_of_nonneg_left e0.1 w0 + mul_le_mul_of_nonneg_left e1.1 w1 + mul_le_mul_of_nonneg_left e2.1 w2 + mul_le_mul_of_nonneg_left e3.1 w3 + R * wsum
    · linear_combination mul_le_mul_of_nonneg_left e0.2 w0 + mul_le_mul_of_nonneg_left e1.2 w1 + mul_le_mul_of_nonneg_left e2.2 w2 + mul_le_mul_of_nonneg_left e3.2 w3 + R * wsum
  -- the local approximation
  have hB : |(piece t 0 * a ((z : ZMod N) - 1) + piece t 1 * a z + piece t 2 * a (z + 1) + piece t 3 * a (z + 2)) - g x| ≤ 45 / 8 * (M * dx ^ 4) := by
    obtain ⟨a1, a2, a3, htay⟩ := taylor4 g hg M hM x
    obtain ⟨R, hR⟩ : ∃ R : ℤ → ℝ, R = fun k : ℤ => v ((z : ZMod N) + (k : ZMod N)) - (g x + a1 * (((k : ℝ) - t) * dx) + a2 * (((k : ℝ) - t) * dx) ^ 2 + a3 * (((k : ℝ) - t) * dx) ^ 3) := ⟨_, rfl⟩
    have hRb : ∀ k : ℤ, -2 ≤ k → k ≤ 3 → |R k| ≤ 27 / 8 * (M * dx ^ 4) := by
      intro k hk1 hk2
      have := htay ((k - t) * dx)
      have e : v ((z : ZMod N) + (k : ZMod N)) = g (x + (k - t) * dx) := by
        rw [← Int.cast_add, hvz, hx]; congr 1; push_cast; ring
      rw [← e] at this
      rw [hR]
      refine this.trans ?_
      have k1 : (-2 : ℝ) ≤ k := by exact_mod_cast hk1
      have k2 : (k : ℝ) ≤ 3 := by exact_mod_cast hk2
      have hsq : ((k : ℝ) - t) ^ 2 ≤ 9 := by nlinarith
      have hq : ((k : ℝ) - t) ^ 4 ≤ 81 := by nlinarith [sq_nonneg ((k : ℝ) - t)]
      rw [mul_pow]
      have := mul_le_mul_of_nonneg_left hq hM0
      nlinarith
    have hval : ∀ k : ℤ, v ((z : ZMod N) + (k : ZMod N)) = R k + (g x + a1 * (((k : ℝ) - t) * dx) + a2 * (((k : ℝ) - t) * dx) ^ 2 + a3 * (((k : ℝ) - t) * dx) ^ 3) := fun k => by rw [hR]; ring
    have vm2 := hval (-2); have vm1 := hval (-1); have v0 := hval 0; have v1 := hval 1; have v2 := hval 2; have v3 := hval 3
    push_cast at vm2 vm1 v0 v1 v2 v3
    rw [← sub_eq_add_neg] at vm2 vm1
    rw [add_zero] at v0
    have em1 : a ((z : ZMod N) - 1) = (8 * v ((z : ZMod N) - 1) - v z - v ((z : ZMod N) - 2)) / 6 := by
      rw [ha]; simp only [sub_add_cancel]; rw [show (z : ZMod N) - 1 - 1 = z - 2 by ring]; ring
    have e0 : a (z : ZMod N) = (8 * v (z : ZMod N) - v (z + 1) - v ((z : ZMod N) - 1)) / 6 := by rw [ha]; ring
    have e1 : a ((z : ZMod N) + 1) = (8 * v ((z : ZMod N) + 1) - v (z + 2) - v z) / 6 := by
      rw [ha]; simp only [add_sub_cancel_right]; rw [show (z : ZMod N) + 1 + 1 = z + 2 by ring]; ring
    have e2 : a ((z : ZMod N) + 2) = (8 * v ((z : ZMod N) + 2) - v (z + 3) - v (z + 1)) / 6 := by
      rw [ha]; simp only; rw [show (z : ZMod N) + 2 + 1 = z + 3 by ring, show (z : ZMod N) + 2 - 1 = z + 1 by ring]; ring
    have hexact : (piece t 0 * a ((z : ZMod N) - 1) + piece t 1 * a z + piece t 2 * a (z + 1) + piece t 3 * a (z + 2)) - g x =
        piece t 0 * ((8 * R (-1) - R 0 - R (-2)) / 6) + piece t 1 * ((8 * R 0 - R 1 - R (-1)) / 6) + piece t 2 * ((8 * R 1 - R 2 - R 0) / 6) + piece t 3 * ((8 * R 2 - R 3 - R 1) / 6) := by
      rw [em1, e0, e1, e2, vm2, vm1, v0, v1, v2, v3]
      simp only [piece]
      ring
    rw [hexact]
    have rm2 := abs_le.1 (hRb (-2) (by norm_num) (by norm_num)); have rm1 := abs_le.1 (hRb (-1) (by norm_num) (by norm_num)); have r0 := abs_le.1 (hRb 0 (by norm_num) (by norm_num))
    have r1 := abs_le.1 (hRb 1 (by norm_num) (by norm_num)); have r2 := abs_le.1 (hRb 2 (by norm_num) (by norm_num)); have r3 := abs_le.1 (hRb 3 (by norm_num) (by norm_num))
    rw [show 45 / 8 * (M * dx ^ 4) = 5 / 3 * (27 / 8 * (M * dx ^ 4)) by ring]
    generalize 27 / 8 * (M * dx ^ 4) = S at *
    have b0 : |(8 * R (-1) - R 0 - R (-2)) / 6| ≤ 5 / 3 * S := by rw [abs_le]; constructor <;> linarith [rm2.1, rm2.2, rm1.1, rm1.2, r0.1, r0.2]
    have b1 : |(8 * R 0 - R 1 - R (-1)) / 6| ≤ 5 / 3 * S := by rw [abs_le]; constructor <;> linarith [rm1.1, rm1.2, r0.1, r0.2, r1.1, r1.2]
    have b2 : |(8 * R 1 - R 2 - R 0) / 6| ≤ 5 / 3 * S := by rw [abs_le]; constructor <;> linarith [r2.1, r2.2, r0.1, r0.2, r1.1, r1.2]
    have b3 : |(8 * R 2 - R 3 - R 1) / 6| ≤ 5 / 3 * S := by rw [abs_le]; constructor <;> linarith [r2.1, r2.2, r3.1, r3.2, r1.1, r1.2]
    generalize (8 * R (-1) - R 0 - R (-2)) / 6 = B0 at *
    generalize (8 * R 0 - R 1 - R (-1)) / 6 = B1 at *
    generalize (8 * R 1 - R 2 - R 0) / 6 = B2 at *
    generalize (8 * R 2 - R 3 - R 1) / 6 = B3 at *
    generalize 5 / 3 * S = Q at *
    rw [abs_le] at b0 b1 b2 b3 ⊢
    constructor
    · linear_combination mul_le_mul_of_nonneg_left b0.1 w0 + mul_le_mul_of_nonneg_left b1.1 w1 + mul_le_mul_of_nonneg_left b2.1 w2 + mul_le_mul_of_nonneg_left b3.1 w3 + Q * wsum
    · linear_combination mul_le_mul_of_nonneg_left b0.2 w0 + mul_le_mul_of_nonneg_left b1.2 w1 + mul_le_mul_of_nonneg_left b2.2 w2 + mul_le_mul_of_nonneg_left b3.2 w3 + Q * wsum
  rw [abs_le] at hA hB ⊢
  rw [show 6 * M * dx ^ 4 = 6 * (M * dx ^ 4) by ring]
  constructor <;> linarith [hA.1, hA.2, hB.1, hB.2]

/-! ## Convergence -/

omit [NeZero N] in
/-- A linear scheme which does not increase the mean square accumulates at most the errors of its steps. -/
theorem accumulate {N : ℕ} [NeZero N] (T : (ZMod N → ℝ) → ZMod N → ℝ) (hlin : ∀ u w i, T (fun j => u j - w j) i = T u i - T w i) (hstable : ∀ v, ∑ i, T v i ^ 2 ≤ ∑ i, v i ^ 2)
    (u w : ℕ → ZMod N → ℝ) (hu : ∀ n, u (n + 1) = T (u n)) (B : ℝ) (hB : 0 ≤ B) (hw : ∀ n i, |T (w n) i - w (n + 1) i| ≤ B) (h0 : u 0 = w 0) (n : ℕ) :
    Real.sqrt (∑ i, (u n i - w n i) ^ 2) ≤ n * (Real.sqrt N * B) := by
  induction n with
  | zero => simp [h0]
  | succ n ih =>
    have hsplit : ∀ i, u (n + 1) i - w (n + 1) i = T (fun j => u n j - w n j) i + (T (w n) i - w (n + 1) i) := fun i => by rw [hlin, hu]; ring
    simp only [hsplit]
    refine (minkowski _ _).trans ?_
    have h1 : Real.sqrt (∑ i, T (fun j => u n j - w n j) i ^ 2) ≤ n * (Real.sqrt N * B) := (Real.sqrt_le_sqrt (hstable _)).trans ih
    have h2 : Real.sqrt (∑ i, (T (w n) i - w (n + 1) i) ^ 2) ≤ Real.sqrt N * B := by
      rw [Real.sqrt_le_left (by positivity), mul_pow, Real.sq_sqrt (Nat.cast_nonneg _)]
      have : ∑ i : ZMod N, (T (w n) i - w (n + 1) i) ^ 2 ≤ ∑ _i : ZMod N, B ^ 2 := sum_le_sum fun i _ => sq_le_sq' (abs_le.1 (hw n i)).1 (abs_le.1 (hw n i)).2
      refine this.trans (le_of_eq ?_)
      rw [sum_const, card_univ, ZMod.card, nsmul_eq_mul]
    push_cast
    linarith

include h in
/-- The coefficients are the only ones. -/
theorem coefficients_unique (c c' : ZMod N → ℝ) (e : ∀ i, (c (i - 1) + 4 * c i + c (i + 1)) / 6 = (c' (i - 1) + 4 * c' i + c' (i + 1)) / 6) : c = c' := by
  have _ := h
  funext i
  have := coefficients_small (fun i => c i - c' i) 0 (fun i => by rw [show (c (i - 1) - c' (i - 1) + 4 * (c i - c' i) + (c (i + 1) - c' (i + 1))) / 6 = 0 by linarith [e i]]; simp) i
  rw [mul_zero] at this
  linarith [abs_eq_zero.1 (le_antisymm this (abs_nonneg _))]

include hdx h in
/-- **C100 (convergence)** After `n` steps on the samples of a smooth periodic function, the root mean square distance to the translated function is at most `6 n M dx⁴` times the square root of
the length of the domain, for every time step. -/
theorem c100_convergence {nv : ℕ} (P : Plasma nv) (g : ℝ → ℝ) (hg : ContDiff ℝ 4 g) (hgp : ∀ t, g (t + N * dx) = g t) (M : ℝ)
    (hM : ∀ t, |iteratedDeriv 4 g t| ≤ M) (dt : ℝ) (f : ℕ → ZMod N → Fin nv → ℝ) (s : ℕ) (v : Fin nv) (hf : ∀ x, f s x v = g (periodicCoord N x0 dx x)) (n : ℕ) :
    Real.sqrt (dx * ∑ x, ((fun f => advX P (splineLine solve phi) (periodicCoord N x0 dx) f dt)^[n] f s x v
        - g (periodicCoord N x0 dx x - n * (Real.sqrt (P.massElec / P.mass s) * dt * P.vel v))) ^ 2) ≤ n * (Real.sqrt (N * dx) * (6 * M * dx ^ 4)) := by
  obtain ⟨δ, hδ⟩ : ∃ δ, δ = Real.sqrt (P.massElec / P.mass s) * dt * P.vel v := ⟨_, rfl⟩
  obtain ⟨T, hT⟩ : ∃ T : (ZMod N → ℝ) → ZMod N → ℝ, T = fun v i => ∑ j, solve v j * phi j (periodicCoord N x0 dx i - δ) := ⟨_, rfl⟩
  have hB : 0 ≤ 6 * M * dx ^ 4 := by
    have := (abs_nonneg _).trans (hM 0)
    positivity
  rw [← hδ]
  have hsub : ∀ u w : ZMod N → ℝ, solve (fun j => u j - w j) = fun j => solve u j - solve w j := fun u w => by
    refine coefficients_unique h _ _ fun i => ?_
    rw [built h, show (solve u (i - 1) - solve w (i - 1) + 4 * (solve u i - solve w i) + (solve u (i + 1) - solve w (i + 1))) / 6 =
      (solve u (i - 1) + 4 * solve u i + solve u (i + 1)) / 6 - (solve w (i - 1) + 4 * solve w i + solve w (i + 1)) / 6 by ring, built h, built h]
  have hlin : ∀ u w i, T (fun j => u j - w j) i = T u i - T w i := fun u w i => by
    rw [hT]; simp only [hsub, sub_mul, sum_sub_distrib]
  have hstable : ∀ w, ∑ i, T w i ^ 2 ≤ ∑ i, w i ^ 2 := fun w => by
    have := c100_stable hdx h P (fun _ x _ => w x) dt s v
    rw [hT, hδ]
    exact this
  have key := accumulate T hlin hstable (fun n x => (fun f => advX P (splineLine solve phi) (periodicCoord N x0 dx) f dt)^[n] f s x v)
    (fun n x => g (periodicCoord N x0 dx x - n * δ)) (fun n => by
      funext x
      simp only [Function.iterate_succ', Function.comp]
      rw [hT, hδ]
      rfl) (6 * M * dx ^ 4) hB (fun n i => by
      have := c100_interpolation hdx h (fun t => g (t - n * δ)) (shift_contDiff hg _) (fun t => by rw [← hgp (t - n * δ)]; congr 1; ring) M
        (fun t => by rw [shift_iteratedDeriv]; exact hM _) (periodicCoord N x0 dx i - δ)
      rw [hT, show periodicCoord N x0 dx i - ((n + 1 : ℕ) : ℝ) * δ = periodicCoord N x0 dx i - δ - n * δ by push_cast; ring]
      exact this) (by funext x; simp [hf]) n
  rw [Real.sqrt_mul hdx.le]
  refine (mul_le_mul_of_nonneg_left key (Real.sqrt_nonneg _)).trans (le_of_eq ?_)
  rw [Real.sqrt_mul (Nat.cast_nonneg _)]
  ring

end

/-! ## Such splines exist on every uniform periodic grid -/

/-- The cubic B-splines of a uniform periodic grid. -/
noncomputable def cubicPhi (N : ℕ) (x0 dx : ℝ) (j : ZMod N) (x : ℝ) : ℝ :=
  let τ := (x - x0) / dx
  ∑ k ∈ range 4, if (⌊τ⌋ : ZMod N) - 1 + k = j then piece (τ - ⌊τ⌋) k else 0

theorem exists_spline (N : ℕ) [NeZero N] (x0 dx : ℝ) (hdx : 0 < dx) : ∃ solve, CubicPeriodicSpline N x0 dx (cubicPhi N x0 dx) solve := by
  have hp : ∀ (c : ZMod N → ℝ) (m : ℤ) (t : ℝ), 0 ≤ t → t ≤ 1 → ∑ j, c j * cubicPhi N x0 dx j (x0 + (m + t) * dx) =
      piece t 0 * c ((m : ZMod N) - 1) + piece t 1 * c m + piece t 2 * c (m + 1) + piece t 3 * c (m + 2) := by
    intro c m t h0 h1
    have hτ : (x0 + (m + t) * dx - x0) / dx = m + t := by field_simp; ring
    have hsum : ∀ (z : ℤ) (w : ℕ → ℝ), ∑ j, c j * (∑ k ∈ range 4, if (z : ZMod N) - 1 + (k : ℕ) = j then w k else 0) =
        w 0 * c ((z : ZMod N) - 1) + w 1 * c z + w 2 * c (z + 1) + w 3 * c (z + 2) := by
      intro z w
      simp only [mul_sum, mul_ite, mul_zero]
      rw [sum_comm]
      simp only [sum_ite_eq, mem_univ, if_true, sum_range_succ, range_zero, sum_empty, zero_add, Nat.cast_zero, add_zero, Nat.cast_one, Nat.cast_ofNat]
      rw [sub_add_cancel, show (z : ZMod N) - 1 + 2 = z + 1 by ring, show (z : ZMod N) - 1 + 3 = z + 2 by ring]
      ring
    simp only [cubicPhi, hτ]
    rcases h1.lt_or_eq with h1 | rfl
    · have hf : ⌊(m : ℝ) + t⌋ = m := by rw [Int.floor_eq_iff]; constructor <;> linarith
      rw [hf, hsum, show (m : ℝ) + t - m = t by ring]
    · have hf : ⌊(m : ℝ) + 1⌋ = m + 1 := by rw [Int.floor_eq_iff]; push_cast; constructor <;> linarith
      rw [hf, hsum]
      push_cast
      rw [show (m : ℝ) + 1 - (m + 1) = 0 by ring, show (m : ZMod N) + 1 + 1 = m + 2 by ring, add_sub_cancel_right]
      simp only [piece]
      ring
  have hsolve : ∀ v : ZMod N → ℝ, ∃ c : ZMod N → ℝ, ∀ i, (c (i - 1) + 4 * c i + c (i + 1)) / 6 = v i := by
    let L : (ZMod N → ℝ) →ₗ[ℝ] (ZMod N → ℝ) :=
      { toFun := fun c i => (c (i - 1) + 4 * c i + c (i + 1)) / 6
        map_add' := fun a b => by funext i; simp only [Pi.add_apply]; ring
        map_smul' := fun a b => by funext i; simp only [Pi.smul_apply, smul_eq_mul, RingHom.id_apply]; ring }
    have hinj : Function.Injective L := by
      rw [← LinearMap.ker_eq_bot, LinearMap.ker_eq_bot']
      intro c hc
      funext i
      have := coefficients_small c 0 (fun i => by rw [show (c (i - 1) + 4 * c i + c (i + 1)) / 6 = 0 from congrFun hc i]; simp) i
      rw [mul_zero] at this
      exact abs_eq_zero.1 (le_antisymm this (abs_nonneg _))
    intro v
    obtain ⟨c, hc⟩ := LinearMap.injective_iff_surjective.1 hinj v
    exact ⟨c, fun i => congrFun hc i⟩
  choose solve hs using hsolve
  refine ⟨solve, hp, fun v i => ?_⟩
  have := hp (solve v) i.val 0 le_rfl zero_le_one
  simp only [Int.cast_natCast, add_zero, ZMod.natCast_zmod_val] at this
  rw [periodicCoord, this, ← hs v i]
  simp only [piece]
  ring

/-- Eight points, electrons with velocities -1 and 1: some cubic spline interpolator exists, it never increases the sum of squares, and ten steps on a sine wave are close to the translation. -/
example : ∃ solve, CubicPeriodicSpline 8 0 1 (cubicPhi 8 0 1) solve ∧
    (∀ f : ℕ → ZMod 8 → Fin 2 → ℝ, ∑ x, advX plasma2 (splineLine solve (cubicPhi 8 0 1)) (periodicCoord 8 0 1) f 0.1 1 x 1 ^ 2 ≤ ∑ x, f 1 x 1 ^ 2) ∧
    Real.sqrt (1 * ∑ x : ZMod 8, ((fun f => advX plasma2 (splineLine solve (cubicPhi 8 0 1)) (periodicCoord 8 0 1) f 0.1)^[10]
        (fun _ x _ => Real.sin (Real.pi / 4 * periodicCoord 8 0 1 x)) 1 x 1
      - (fun t => Real.sin (Real.pi / 4 * t)) (periodicCoord 8 0 1 x - (10 : ℕ) * (Real.sqrt (plasma2.massElec / plasma2.mass 1) * 0.1 * plasma2.vel 1))) ^ 2) ≤
    (10 : ℕ) * (Real.sqrt ((8 : ℕ) * 1) * (6 * (Real.pi / 4) ^ 4 * 1 ^ 4)) := by
  obtain ⟨solve, h⟩ := exists_spline 8 0 1 one_pos
  refine ⟨solve, h, fun f => c100_stable one_pos h plasma2 f 0.1 1 1, ?_⟩
  refine c100_convergence one_pos h plasma2 (fun t => Real.sin (Real.pi / 4 * t)) (by fun_prop) (fun t => ?_) ((Real.pi / 4) ^ 4) (fun t => ?_) 0.1 _ 1 1 (fun x => rfl) 10
  · rw [show Real.pi / 4 * (t + (8 : ℕ) * 1) = Real.pi / 4 * t + 2 * Real.pi by push_cast; ring, Real.sin_add_two_pi]
  · rw [iteratedDeriv_comp_const_mul (by fun_prop)]
    simp only [abs_mul, abs_pow]
    rw [abs_of_nonneg (by positivity : 0 ≤ Real.pi / 4)]
    refine mul_le_of_le_one_right (by positivity) ?_
    rw [show (4 : ℕ) = 2 * 2 from rfl, Real.iteratedDeriv_even_sin 2]
    simpa using Real.abs_sin_le_one _

end Verif.SplineAdvection
