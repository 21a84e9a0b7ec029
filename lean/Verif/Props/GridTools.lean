import Verif.Model.GridTools
import Mathlib.Analysis.SpecialFunctions.Trigonometric.Angle
import Mathlib.Data.List.Sort
import Mathlib.Tactic.Ring
import Mathlib.Tactic.Linarith
import Mathlib.Tactic.NormNum
import Mathlib.Tactic.FieldSimp
import Mathlib.Tactic.Positivity

/-!
# C49, C50, C51: periodic restriction, break points, interpolation points
-/

namespace Verif.GridTools
open Real

/-! ## C49 -/

theorem raise_spec (xmin len coord : ℝ) (hl : 0 < len) :
    xmin ≤ raise xmin len coord ∧ (∃ k : ℤ, raise xmin len coord = coord + k * len) ∧
      (coord < xmin → raise xmin len coord < xmin + len) ∧ (xmin ≤ coord → raise xmin len coord = coord) := by
  induction coord using raise.induct (xmin := xmin) (len := len) with
  | case1 coord h ih =>
    rw [raise, dif_pos h]
    obtain ⟨h1, ⟨k, hk⟩, h3, h4⟩ := ih
    refine ⟨h1, ⟨k + 1, by rw [hk]; push_cast; ring⟩, fun _ => ?_, fun hc => absurd h.2 (not_lt.2 hc)⟩
    by_cases hc : coord + len < xmin
    · exact h3 hc
    · rw [h4 (not_lt.1 hc)]; linarith [h.2]
  | case2 coord h =>
    rw [raise, dif_neg h]
    have : xmin ≤ coord := by by_contra hc; exact h ⟨hl, not_le.1 hc⟩
    exact ⟨this, ⟨0, by simp⟩, fun hc => absurd this (not_le.2 hc), fun _ => rfl⟩

theorem lower_spec (xmax len coord : ℝ) (hl : 0 < len) (hc : xmax - len ≤ coord) :
    lower xmax len coord < xmax ∧ xmax - len ≤ lower xmax len coord ∧
      (∃ k : ℤ, lower xmax len coord = coord + k * len) ∧ (coord < xmax → lower xmax len coord = coord) := by
  induction coord using lower.induct (xmax := xmax) (len := len) with
  | case1 coord h ih =>
    rw [lower, dif_pos h]
    obtain ⟨h1, h2, ⟨k, hk⟩, h4⟩ := ih (by linarith [h.2])
    exact ⟨h1, h2, ⟨k - 1, by rw [hk]; push_cast; ring⟩, fun hlt => absurd h.2 (not_le.2 hlt)⟩
  | case2 coord h =>
    rw [lower, dif_neg h]
    have : coord < xmax := by by_contra hc; exact h ⟨hl, not_lt.1 hc⟩
    exact ⟨this, hc, ⟨0, by simp⟩, fun _ => rfl⟩

/-- The inverse trigonometric reduction of an angle gives the same angle up to a multiple of `2π`. -/
theorem copysign_arccos (θ : ℝ) : ∃ k : ℤ, copysign (arccos (cos θ)) (sin θ) = θ + k * (2 * π) := by
  set ψ := copysign (arccos (cos θ)) (sin θ) with hψ
  have h0 : 0 ≤ arccos (cos θ) := arccos_nonneg _
  have hcos : cos ψ = cos θ := by
    rw [hψ, copysign, abs_of_nonneg h0]
    split_ifs
    · rw [cos_neg, cos_arccos (neg_one_le_cos _) (cos_le_one _)]
    · rw [cos_arccos (neg_one_le_cos _) (cos_le_one _)]
  have hs : sin (arccos (cos θ)) = |sin θ| := by
    rw [sin_arccos, ← sin_sq, sqrt_sq_eq_abs]
  have hsin : sin ψ = sin θ := by
    rw [hψ, copysign, abs_of_nonneg h0]
    split_ifs with h
    · rw [sin_neg, hs, abs_of_neg h, neg_neg]
    · rw [hs, abs_of_nonneg (not_lt.1 h)]
  have hang : (ψ : Real.Angle) = (θ : Real.Angle) := Real.Angle.cos_sin_inj hcos hsin
  obtain ⟨k, hk⟩ := Real.Angle.angle_eq_iff_two_pi_dvd_sub.1 hang
  exact ⟨k, by linarith⟩

/-- C49: for every coordinate and every domain of positive length, `restrict_to_idx_range` ends with a coordinate inside the domain `[xmin, xmin + len)`
which differs from the input by an integer number of periods. -/
theorem c49_restrict (xmin len coord : ℝ) (hl : 0 < len) :
    xmin ≤ restrictToIdxRange xmin len coord ∧ restrictToIdxRange xmin len coord < xmin + len ∧
      ∃ k : ℤ, restrictToIdxRange xmin len coord = coord + k * len := by
  rw [restrictToIdxRange]
  set c := (if |coord - xmin| > 10 * len then _ else coord - xmin : ℝ) with hc
  have key : ∃ k : ℤ, c = (coord - xmin) + k * len := by
    rw [hc]
    split_ifs with h
    · obtain ⟨k, hk⟩ := copysign_arccos ((coord - xmin) * (2 * π / len))
      have hpi := pi_pos
      dsimp only
      rw [hk]
      split_ifs
      · refine ⟨k + 1, ?_⟩
        push_cast; field_simp; ring
      · refine ⟨k, ?_⟩
        field_simp
    · exact ⟨0, by simp⟩
  obtain ⟨k, hk⟩ := key
  obtain ⟨h1, ⟨k1, hk1⟩, _, _⟩ := raise_spec xmin len (c + xmin) hl
  obtain ⟨g1, g2, ⟨k2, hk2⟩, _⟩ := lower_spec (xmin + len) len (raise xmin len (c + xmin)) hl (by linarith)
  refine ⟨by linarith, g1, k + k1 + k2, ?_⟩
  rw [hk2, hk1, hk]; push_cast; ring

/-- The result is determined by these two facts: it is the representative of the input in the domain. -/
theorem c49_unique (xmin len x y : ℝ) (hl : 0 < len) (hx : xmin ≤ x ∧ x < xmin + len) (hy : xmin ≤ y ∧ y < xmin + len)
    (h : ∃ k : ℤ, x = y + k * len) : x = y := by
  obtain ⟨k, hk⟩ := h
  have h1 : (k : ℝ) * len < 1 * len := by linarith [hx.2, hy.1]
  have h2 : (-1) * len < (k : ℝ) * len := by linarith [hx.1, hy.2]
  have h3 : (k : ℝ) < 1 := lt_of_mul_lt_mul_right h1 hl.le
  have h4 : (-1 : ℝ) < k := lt_of_mul_lt_mul_right h2 hl.le
  have : k = 0 := by
    have a : k < 1 := by exact_mod_cast h3
    have b : -1 < k := by exact_mod_cast h4
    omega
  simp [hk, this]

/-- A coordinate of the domain is not changed. -/
theorem c49_inside (xmin len coord : ℝ) (hl : 0 < len) (h : xmin ≤ coord ∧ coord < xmin + len) :
    restrictToIdxRange xmin len coord = coord := by
  obtain ⟨h1, h2, h3⟩ := c49_restrict xmin len coord hl
  exact c49_unique xmin len _ _ hl ⟨h1, h2⟩ h h3

/-- Two coordinates a whole number of periods apart have the same image. -/
theorem c49_periodic (xmin len coord : ℝ) (hl : 0 < len) (k : ℤ) :
    restrictToIdxRange xmin len (coord + k * len) = restrictToIdxRange xmin len coord := by
  obtain ⟨h1, h2, k1, h3⟩ := c49_restrict xmin len coord hl
  obtain ⟨g1, g2, k2, g3⟩ := c49_restrict xmin len (coord + k * len) hl
  refine c49_unique xmin len _ _ hl ⟨g1, g2⟩ ⟨h1, h2⟩ ⟨k + k2 - k1, ?_⟩
  rw [g3, h3]; push_cast; ring

/-- Concrete cases: a far coordinate (through the trigonometric branch) and a near one. -/
example : restrictToIdxRange 1 2 101.5 = 1.5 := by
  obtain ⟨h1, h2, k, h3⟩ := c49_restrict 1 2 101.5 (by norm_num)
  exact c49_unique 1 2 _ _ (by norm_num) ⟨h1, h2⟩ (by norm_num) ⟨k + 50, by rw [h3]; push_cast; norm_num; ring⟩

/-- C49: `restrict_to_bspline_domain` on a periodic basis gives a coordinate of the closed domain, a whole number of periods from the input; the coordinates of the closed
domain, including both ends, are not changed. -/
theorem c49_bspline (rmin rmax coord : ℝ) (h : rmin < rmax) :
    rmin ≤ restrictToBsplineDomain true rmin rmax coord ∧ restrictToBsplineDomain true rmin rmax coord ≤ rmax ∧
      (∃ k : ℤ, restrictToBsplineDomain true rmin rmax coord = coord + k * (rmax - rmin)) ∧
      (rmin ≤ coord → coord ≤ rmax → restrictToBsplineDomain true rmin rmax coord = coord) := by
  have hL : 0 < rmax - rmin := by linarith
  rw [restrictToBsplineDomain, if_pos rfl]
  split_ifs with hc
  · have e : (coord - rmin) / (rmax - rmin) * (rmax - rmin) = coord - rmin := by field_simp
    have h1 := mul_le_mul_of_nonneg_right (Int.floor_le ((coord - rmin) / (rmax - rmin))) hL.le
    have h2 := mul_lt_mul_of_pos_right (Int.lt_floor_add_one ((coord - rmin) / (rmax - rmin))) hL
    rw [e] at h1 h2
    refine ⟨by linarith, by linarith, ⟨-⌊(coord - rmin) / (rmax - rmin)⌋, by push_cast; ring⟩, ?_⟩
    intro a b
    rcases hc with hc | hc
    · exact absurd a (not_le.2 hc)
    · exact absurd b (not_le.2 hc)
  · rw [not_or, not_lt, not_lt] at hc
    exact ⟨hc.1, hc.2, ⟨0, by simp⟩, fun _ _ => rfl⟩

/-- Non-periodic bases: nothing changes. -/
theorem c49_bspline_non_periodic (rmin rmax coord : ℝ) : restrictToBsplineDomain false rmin rmax coord = coord := by
  simp [restrictToBsplineDomain]

example : restrictToBsplineDomain true 0 1 (7 / 2) = 1 / 2 := by
  norm_num [restrictToBsplineDomain]

/-- The length used for the restriction: for a uniform periodic grid `x0 + i h` of `n ≥ 1` points it is `n |h|`. -/
theorem c49_length_uniform (x0 h : ℝ) (n : ℕ) (hn : 1 ≤ n) :
    totalLengthPeriodicUniform (fun i => x0 + i * h) h n = n * |h| := by
  rw [totalLengthPeriodicUniform, Nat.cast_sub hn]
  have : x0 + ((n : ℝ) - (1 : ℕ)) * h - (x0 + (0 : ℕ) * h) + h = n * h := by push_cast; ring
  rw [this, abs_mul, abs_of_nonneg (Nat.cast_nonneg n)]

/-- The three length functions agree with the distance between the first point and the end of the range. -/
theorem c49_length (coord : ℕ → ℝ) (hm : StrictMono coord) (n : ℕ) (hn : 1 ≤ n) :
    totalLengthNonPeriodic coord n = coord (n - 1) - coord 0 ∧
    totalLengthPeriodicNonUniform coord n = coord n - coord 0 ∧
    (∀ h, coord n = coord (n - 1) + h → totalLengthPeriodicUniform coord h n = coord n - coord 0) := by
  have h1 : coord 0 ≤ coord (n - 1) := hm.monotone (Nat.zero_le _)
  have h2 : coord 0 ≤ coord n := hm.monotone (Nat.zero_le _)
  refine ⟨abs_of_nonneg (by linarith), abs_of_nonneg (by linarith), fun h hh => ?_⟩
  rw [totalLengthPeriodicUniform, show coord (n - 1) - coord 0 + h = coord n - coord 0 by rw [hh]; ring]
  exact abs_of_nonneg (by linarith)

theorem foldl_max_spec {J : Type*} (g : J → ℝ) (l : List J) (m : ℝ) :
    (m ≤ l.foldl (fun m i => max m (g i)) m) ∧ (∀ i ∈ l, g i ≤ l.foldl (fun m i => max m (g i)) m) ∧
    (l.foldl (fun m i => max m (g i)) m = m ∨ ∃ i ∈ l, l.foldl (fun m i => max m (g i)) m = g i) := by
  induction l generalizing m with
  | nil => simp
  | cons a l ih =>
    obtain ⟨h1, h2, h3⟩ := ih (max m (g a))
    simp only [List.foldl_cons, List.mem_cons, forall_eq_or_imp, exists_eq_or_imp]
    refine ⟨(le_max_left _ _).trans h1, ⟨(le_max_right _ _).trans h1, h2⟩, ?_⟩
    rcases h3 with h3 | ⟨i, hi, h3⟩
    · rcases max_choice m (g a) with h | h
      · left; rw [h3, h]
      · right; left; rw [h3, h]
    · right; right; exact ⟨i, hi, h3⟩

/-- `maximum_distance_between_adjacent_points` bounds every cell and is the size of one of them (for an increasing grid of at least two points). -/
theorem c49_max_distance (coord : ℕ → ℝ) (hm : StrictMono coord) (n : ℕ) (hn : 2 ≤ n) :
    (∀ i, i + 1 < n → coord (i + 1) - coord i ≤ maxDistance coord n) ∧
    (∃ i, i + 1 < n ∧ maxDistance coord n = coord (i + 1) - coord i) := by
  obtain ⟨h1, h2, h3⟩ := foldl_max_spec (fun i => coord i - coord (i - 1)) ((List.range (n - 1)).map (· + 1)) 0
  have hb : ∀ i, i + 1 < n → coord (i + 1) - coord i ≤ maxDistance coord n := by
    intro i hi
    exact h2 (i + 1) (by simp; omega)
  refine ⟨hb, ?_⟩
  rcases h3 with h3 | ⟨i, hi, h3⟩
  · have := hb 0 (by omega)
    rw [maxDistance, h3] at this
    have h4 := hm (show (0 : ℕ) < 1 by omega)
    simp only [zero_add] at this
    linarith
  · simp only [List.mem_map, List.mem_range] at hi
    obtain ⟨j, hj, rfl⟩ := hi
    exact ⟨j, by omega, by rw [maxDistance, h3]; simp⟩

/-! ## C50 -/

/-- C50: `build_uniform_break_points` returns `n + 1` points from `min` to `max`, equally spaced. -/
theorem c50_uniform (min max : ℝ) (n : ℕ) (hn : 0 < n) :
    (uniformBreakPoints min max n).length = n + 1 ∧
    ∀ i ≤ n, (uniformBreakPoints min max n)[i]? = some (min + i * ((max - min) / n)) := by
  have hn' : (n : ℝ) ≠ 0 := by positivity
  refine ⟨by simp [uniformBreakPoints], fun i hi => ?_⟩
  have : i < n + 1 := by omega
  simp only [uniformBreakPoints, List.getElem?_map, List.getElem?_range this, Option.map_some, Option.some.injEq]
  split_ifs with h1 h2
  · subst h1; field_simp; ring
  · subst h2; simp
  · rfl

/-- C50: the ends are exactly the requested ones (no arithmetic is done on them) and the points are strictly increasing. -/
theorem c50_uniform_increasing (min max : ℝ) (n : ℕ) (hn : 0 < n) (h : min < max) :
    (uniformBreakPoints min max n)[0]? = some min ∧ (uniformBreakPoints min max n)[n]? = some max ∧
    (uniformBreakPoints min max n).Pairwise (· < ·) := by
  obtain ⟨hlen, hp⟩ := c50_uniform min max n hn
  refine ⟨?_, ?_, ?_⟩
  · simpa using hp 0 (by omega)
  · have : n < n + 1 := by omega
    simp [uniformBreakPoints, List.getElem?_range this]
  · rw [List.pairwise_iff_getElem]
    intro i j hi hj hij
    have h1 := hp i (by omega)
    have h2 := hp j (by omega)
    rw [List.getElem?_eq_getElem hi, Option.some.injEq] at h1
    rw [List.getElem?_eq_getElem hj, Option.some.injEq] at h2
    rw [h1, h2]
    have hd : 0 < (max - min) / n := div_pos (by linarith) (by positivity)
    have hij' : (i : ℝ) < j := by exact_mod_cast hij
    have := mul_lt_mul_of_pos_right hij' hd
    linarith

example : uniformBreakPoints 0 4 2 = [0, 2, 4] := by norm_num [uniformBreakPoints, List.range_succ]

/-- C50: for a non-uniformity in `[0, 1)` and any draws in `[0, 1]`, the random break points are strictly increasing from `min` to `max`. -/
theorem c50_random (min max nu : ℝ) (n : ℕ) (draw : ℕ → ℝ) (hn : 0 < n) (h : min < max) (h0 : 0 ≤ nu) (h1 : nu < 1)
    (hd : ∀ i, 0 ≤ draw i ∧ draw i ≤ 1) :
    (randomBreakPoints min max n nu draw).length = n + 1 ∧
    (randomBreakPoints min max n nu draw)[0]? = some min ∧ (randomBreakPoints min max n nu draw)[n]? = some max ∧
    (randomBreakPoints min max n nu draw).Pairwise (· < ·) := by
  have hn' : (0 : ℝ) < n := by positivity
  have hdel : 0 < (max - min) / n := div_pos (by linarith) hn'
  have hlast : n * ((max - min) / n) = max - min := by field_simp
  have hlt0 : (0 : ℕ) < n + 1 := by omega
  have hltn : n < n + 1 := by omega
  refine ⟨by simp [randomBreakPoints], ?_, ?_, ?_⟩
  · simp only [randomBreakPoints, List.getElem?_map, List.getElem?_range hlt0, Option.map_some]
    rw [if_neg (by omega), if_pos trivial]
  · simp [randomBreakPoints, List.getElem?_range hltn]
  · -- every point is `min + (i + e_i) delta` with `|e_i| < 1/2` and exact ends
    rw [List.pairwise_iff_getElem]
    intro i j hi hj hij
    simp only [randomBreakPoints, List.length_map, List.length_range] at hi hj
    have key : ∀ k (hk : k < (randomBreakPoints min max n nu draw).length), ∃ e : ℝ, |e| < 1 / 2 ∧
        (randomBreakPoints min max n nu draw)[k] = min + (k + e) * ((max - min) / n) := by
      intro k hk
      simp only [randomBreakPoints, List.getElem_map, List.getElem_range]
      split_ifs with a b
      · exact ⟨0, by norm_num, by rw [a]; linarith⟩
      · exact ⟨0, by norm_num, by rw [b]; simp⟩
      · refine ⟨(draw k - 0.5) * nu, ?_, rfl⟩
        have h5 : (0.5 : ℝ) = 1 / 2 := by norm_num
        rw [h5, abs_mul, abs_of_nonneg h0]
        have h6 : |draw k - 1 / 2| ≤ 1 / 2 := by
          rw [abs_le]; constructor <;> linarith [(hd k).1, (hd k).2]
        rcases eq_or_lt_of_le (abs_nonneg (draw k - 1 / 2)) with h7 | h7
        · rw [← h7]; norm_num
        · calc |draw k - 1 / 2| * nu < |draw k - 1 / 2| * 1 := by
                apply mul_lt_mul_of_pos_left h1 h7
            _ ≤ 1 / 2 := by linarith
    obtain ⟨e1, he1, h1⟩ := key i (by simp [randomBreakPoints]; omega)
    obtain ⟨e2, he2, h2⟩ := key j (by simp [randomBreakPoints]; omega)
    rw [h1, h2]
    have hij' : (i : ℝ) + 1 ≤ j := by exact_mod_cast hij
    rw [abs_lt] at he1 he2
    have : (i : ℝ) + e1 < j + e2 := by linarith [he1.2, he2.1]
    have := mul_lt_mul_of_pos_right this hdel
    linarith

example : randomBreakPoints 0 4 2 (1 / 2) (fun _ => 1) = [0, 5 / 2, 4] := by
  norm_num [randomBreakPoints, List.range_succ]

/-- FINDING: with the default `non_uniformity = 1.` the points need not be distinct: two successive extreme draws
(`RAND_MAX` and then `0`) give a cell of size zero. -/
theorem c50_random_default_not_increasing :
    ∃ (draw : ℕ → ℝ), (∀ i, 0 ≤ draw i ∧ draw i ≤ 1) ∧ ¬ (randomBreakPoints 0 3 3 1 draw).Pairwise (· < ·) := by
  refine ⟨fun i => if i = 1 then 1 else 0, fun i => by dsimp only; split_ifs <;> norm_num, ?_⟩
  norm_num [randomBreakPoints, List.range_succ]

/-- With the default they are still non-decreasing. -/
theorem c50_random_default (min max : ℝ) (n : ℕ) (draw : ℕ → ℝ) (hn : 0 < n) (h : min < max)
    (hd : ∀ i, 0 ≤ draw i ∧ draw i ≤ 1) : (randomBreakPoints min max n 1 draw).Pairwise (· ≤ ·) := by
  have hn' : (0 : ℝ) < n := by positivity
  have hdel : 0 < (max - min) / n := div_pos (by linarith) hn'
  have hlast : n * ((max - min) / n) = max - min := by field_simp
  rw [List.pairwise_iff_getElem]
  intro i j hi hj hij
  simp only [randomBreakPoints, List.length_map, List.length_range] at hi hj
  have key : ∀ k (hk : k < (randomBreakPoints min max n 1 draw).length), ∃ e : ℝ, |e| ≤ 1 / 2 ∧
      (randomBreakPoints min max n 1 draw)[k] = min + (k + e) * ((max - min) / n) := by
    intro k hk
    simp only [randomBreakPoints, List.getElem_map, List.getElem_range]
    split_ifs with a b
    · exact ⟨0, by norm_num, by rw [a]; linarith⟩
    · exact ⟨0, by norm_num, by rw [b]; simp⟩
    · refine ⟨(draw k - 0.5) * 1, ?_, rfl⟩
      have h5 : (0.5 : ℝ) = 1 / 2 := by norm_num
      rw [h5, mul_one, abs_le]; constructor <;> linarith [(hd k).1, (hd k).2]
  obtain ⟨e1, he1, h1⟩ := key i (by simp [randomBreakPoints]; omega)
  obtain ⟨e2, he2, h2⟩ := key j (by simp [randomBreakPoints]; omega)
  rw [h1, h2]
  have hij' : (i : ℝ) + 1 ≤ j := by exact_mod_cast hij
  rw [abs_le] at he1 he2
  have : (i : ℝ) + e1 ≤ j + e2 := by linarith [he1.2, he2.1]
  have := mul_le_mul_of_nonneg_right this hdel.le
  linarith

/-! ## C51 -/

open scoped Classical in
/-- Specification: the number of supplied points in the closed cell `[b k, b (k+1)]`. -/
noncomputable def cellCount (b : ℕ → ℝ) (pts : List ℝ) (k : ℕ) : ℕ := (pts.filter fun p => b k ≤ p ∧ p ≤ b (k + 1)).length

theorem cellCount_append (b : ℕ → ℝ) (l r : List ℝ) (k : ℕ) : cellCount b (l ++ r) k = cellCount b l k + cellCount b r k := by
  simp [cellCount]

theorem cellCount_zero (b : ℕ → ℝ) (l : List ℝ) (k : ℕ) (h : ∀ p ∈ l, p < b k ∨ b (k + 1) < p) : cellCount b l k = 0 := by
  simp only [cellCount, List.length_eq_zero_iff, List.filter_eq_nil_iff]
  intro p hp hc
  simp only [decide_eq_true_eq] at hc
  rcases h p hp with h | h <;> linarith [hc.1, hc.2]

theorem cellCount_single (b : ℕ → ℝ) (p : ℝ) (k : ℕ) (h1 : b k ≤ p) (h2 : p ≤ b (k + 1)) : cellCount b [p] k = 1 := by
  simp [cellCount, h1, h2]

theorem cellLoop_sound (degree : ℕ) (b : ℕ → ℝ) (ps dn : List ℝ) (count e : ℕ)
    (hs : ps.Pairwise (· < ·)) (hge : ∀ p ∈ ps, b e ≤ p)
    (hinv : count ≤ cellCount b dn e ∨ (count ≤ 1 ∧ ∀ p ∈ ps, b (e + 1) < p))
    (ht : cellLoop degree b ps count (e + 1) = true) :
    ∃ k, degree + 1 < cellCount b (dn ++ ps) k := by
  induction ps generalizing dn count e with
  | nil =>
    simp only [cellLoop, checkThrows, decide_eq_true_eq] at ht
    rcases hinv with h | h
    · exact ⟨e, by simpa using lt_of_lt_of_le ht h⟩
    · omega
  | cons p ps ih =>
    rw [List.pairwise_cons] at hs
    have hassoc : dn ++ p :: ps = (dn ++ [p]) ++ ps := by simp
    rw [hassoc]
    rw [cellLoop] at ht
    by_cases h1 : p = b (e + 1)
    · rw [if_pos h1] at ht
      have hcnt : count ≤ cellCount b dn e := by
        rcases hinv with h | h
        · exact h
        · exact absurd (h.2 p (by simp)) (by rw [h1]; exact lt_irrefl _)
      have hcell : count + 1 ≤ cellCount b (dn ++ [p]) e := by
        rw [cellCount_append, cellCount_single b p e (hge p (by simp)) h1.le]; omega
      split_ifs at ht with h2
      · simp only [checkThrows, decide_eq_true_eq] at h2
        refine ⟨e, ?_⟩
        rw [cellCount_append]; omega
      · refine ih (dn ++ [p]) 1 (e + 1) hs.2 (fun q hq => by have := hs.1 q hq; linarith) ?_ ht
        by_cases h3 : p ≤ b (e + 1 + 1)
        · left; rw [cellCount_append, cellCount_single b p (e + 1) (by linarith) h3]; omega
        · right; exact ⟨le_refl _, fun q hq => by have := hs.1 q hq; linarith [not_le.1 h3]⟩
    · rw [if_neg h1] at ht
      by_cases h2 : p > b (e + 1)
      · rw [if_pos h2] at ht
        split_ifs at ht with h3
        · simp only [checkThrows, decide_eq_true_eq] at h3
          rcases hinv with h | h
          · exact ⟨e, by rw [cellCount_append, cellCount_append]; omega⟩
          · omega
        · refine ih (dn ++ [p]) 1 (e + 1) hs.2 (fun q hq => by have := hs.1 q hq; linarith) ?_ ht
          by_cases h4 : p ≤ b (e + 1 + 1)
          · left; rw [cellCount_append, cellCount_single b p (e + 1) (by linarith) h4]; omega
          · right; exact ⟨le_refl _, fun q hq => by have := hs.1 q hq; linarith [not_le.1 h4]⟩
      · rw [if_neg h2] at ht
        have hle : p ≤ b (e + 1) := not_lt.1 h2
        refine ih (dn ++ [p]) (count + 1) e hs.2 (fun q hq => hge q (by simp [hq])) ?_ ht
        rcases hinv with h | h
        · left; rw [cellCount_append, cellCount_single b p e (hge p (by simp)) hle]; omega
        · exact absurd (h.2 p (by simp)) (not_lt.2 hle)

/-- C51: a list of increasing points is refused as overconstrained only if some cell does contain more than `degree + 1` points. -/
theorem c51_reject_sound (degree : ℕ) (b : ℕ → ℝ) (pts : List ℝ)
    (hs : pts.Pairwise (· < ·)) (hge : ∀ p ∈ pts, b 0 ≤ p) (ht : cellLoop degree b pts 0 1 = true) :
    ∃ k, degree + 1 < cellCount b pts k := by
  have := cellLoop_sound degree b pts [] 0 0 hs hge (Or.inl (Nat.zero_le _)) ht
  simpa using this

theorem cellLoop_complete (degree : ℕ) (b : ℕ → ℝ) (hb : StrictMono b) (total ps dn : List ℝ) (count e : ℕ)
    (htot : total = dn ++ ps)
    (hocc : ∀ k, (∃ p ∈ total, b (k + 1) ≤ p) → ∃ p ∈ total, b k < p ∧ p < b (k + 1))
    (hs : ps.Pairwise (· < ·)) (hds : ∀ d ∈ dn, ∀ p ∈ ps, d < p)
    (hdn : ∀ p ∈ dn, p < b (e + 1)) (hge : ∀ p ∈ ps, b e ≤ p)
    (hinv : count = cellCount b dn e) (hprev : ∀ k < e, cellCount b total k ≤ degree + 1)
    (ht : cellLoop degree b ps count (e + 1) = false) :
    ∀ k, cellCount b total k ≤ degree + 1 := by
  induction ps generalizing dn count e with
  | nil =>
    simp only [cellLoop, checkThrows, decide_eq_false_iff_not, not_lt] at ht
    intro k
    rcases lt_trichotomy k e with h | rfl | h
    · exact hprev k h
    · rw [htot, List.append_nil]; omega
    · rw [htot, List.append_nil, cellCount_zero]
      · omega
      · intro p hp
        left
        exact lt_of_lt_of_le (hdn p hp) (hb.monotone (by omega))
  | cons p ps ih =>
    rw [List.pairwise_cons] at hs
    have hassoc : total = (dn ++ [p]) ++ ps := by simp [htot]
    have hd' : ∀ d ∈ dn ++ [p], ∀ q ∈ ps, d < q := by
      intro d hd q hq
      rw [List.mem_append, List.mem_singleton] at hd
      rcases hd with hd | rfl
      · exact hds d hd q (by simp [hq])
      · exact hs.1 q hq
    rw [cellLoop] at ht
    have htail : b (e + 1) ≤ p → cellCount b ps e = 0 := fun hp =>
      cellCount_zero b ps e fun q hq => Or.inr (lt_of_le_of_lt hp (hs.1 q hq))
    have hdnext : cellCount b dn (e + 1) = 0 := cellCount_zero b dn (e + 1) fun q hq => Or.inl (hdn q hq)
    by_cases h1 : p = b (e + 1)
    · rw [if_pos h1] at ht
      split_ifs at ht with h2
      simp only [checkThrows, decide_eq_true_eq, not_lt] at h2
      refine ih (dn ++ [p]) 1 (e + 1) hassoc hs.2 hd' ?_ (fun q hq => by have := hs.1 q hq; linarith) ?_ ?_ ht
      · intro q hq
        rw [List.mem_append, List.mem_singleton] at hq
        rcases hq with hq | rfl
        · exact (hdn q hq).trans (hb (by omega))
        · rw [h1]; exact hb (by omega)
      · rw [cellCount_append, hdnext, cellCount_single b p (e + 1) h1.ge (by rw [h1]; exact (hb (by omega)).le)]
      · intro k hk
        rcases Nat.lt_succ_iff_lt_or_eq.1 hk with hk | rfl
        · exact hprev k hk
        · rw [hassoc, cellCount_append, cellCount_append, htail h1.ge,
            cellCount_single b p k (hge p (by simp)) h1.le]; omega
    · rw [if_neg h1] at ht
      by_cases h2 : p > b (e + 1)
      · rw [if_pos h2] at ht
        split_ifs at ht with h3
        simp only [checkThrows, decide_eq_true_eq, not_lt] at h3
        have hp2 : p < b (e + 1 + 1) := by
          by_contra hc
          rw [not_lt] at hc
          obtain ⟨q, hq, hq1, hq2⟩ := hocc (e + 1) ⟨p, by rw [htot]; simp, hc⟩
          rw [htot, List.mem_append, List.mem_cons] at hq
          rcases hq with hq | rfl | hq
          · linarith [hdn q hq]
          · linarith
          · linarith [hs.1 q hq]
        refine ih (dn ++ [p]) 1 (e + 1) hassoc hs.2 hd' ?_ (fun q hq => by have := hs.1 q hq; linarith) ?_ ?_ ht
        · intro q hq
          rw [List.mem_append, List.mem_singleton] at hq
          rcases hq with hq | rfl
          · exact (hdn q hq).trans (hb (by omega))
          · exact hp2
        · rw [cellCount_append, hdnext, cellCount_single b p (e + 1) h2.le hp2.le]
        · intro k hk
          rcases Nat.lt_succ_iff_lt_or_eq.1 hk with hk | rfl
          · exact hprev k hk
          · rw [hassoc, cellCount_append, cellCount_append, htail h2.le,
              cellCount_zero b [p] k (by intro q hq; rw [List.mem_singleton] at hq; subst hq; exact Or.inr h2)]; omega
      · rw [if_neg h2] at ht
        have hlt : p < b (e + 1) := lt_of_le_of_ne (not_lt.1 h2) h1
        refine ih (dn ++ [p]) (count + 1) e hassoc hs.2 hd' ?_ (fun q hq => hge q (by simp [hq])) ?_ hprev ht
        · intro q hq
          rw [List.mem_append, List.mem_singleton] at hq
          rcases hq with hq | rfl
          · exact hdn q hq
          · exact hlt
        · rw [cellCount_append, cellCount_single b p e (hge p (by simp)) hlt.le]; omega

/-- C51: when every cell up to the last point contains a point in its interior, an accepted list has at most `degree + 1` points in every cell. -/
theorem c51_accept_complete (degree : ℕ) (b : ℕ → ℝ) (hb : StrictMono b) (pts : List ℝ)
    (hocc : ∀ k, (∃ p ∈ pts, b (k + 1) ≤ p) → ∃ p ∈ pts, b k < p ∧ p < b (k + 1))
    (hs : pts.Pairwise (· < ·)) (hge : ∀ p ∈ pts, b 0 ≤ p) :
    cellLoop degree b pts 0 1 = false ↔ ∀ k, cellCount b pts k ≤ degree + 1 := by
  constructor
  · intro ht
    exact cellLoop_complete degree b hb pts pts [] 0 0 rfl hocc hs (by simp) (by simp) hge (by simp [cellCount]) (by simp) ht
  · intro h
    by_contra hc
    rw [Bool.not_eq_false] at hc
    obtain ⟨k, hk⟩ := c51_reject_sound degree b pts hs hge hc
    exact absurd (h k) (not_le.2 hk)

/-- The hypothesis on the interiors is met by points in the middle of each cell. -/
example : ∀ k, (∃ p ∈ [(1 / 2 : ℝ), 3 / 2], (((k + 1 : ℕ) : ℝ)) ≤ p) →
    ∃ p ∈ [(1 / 2 : ℝ), 3 / 2], ((k : ℕ) : ℝ) < p ∧ p < ((k + 1 : ℕ) : ℝ) := by
  intro k ⟨p, hp, h⟩
  have hk : k = 0 := by
    simp only [List.mem_cons, List.not_mem_nil, or_false] at hp
    rcases hp with rfl | rfl
    · by_contra hk
      have : (1 : ℝ) ≤ k := by exact_mod_cast Nat.one_le_iff_ne_zero.2 hk
      push_cast at h; linarith
    · by_contra hk
      have : (1 : ℝ) ≤ k := by exact_mod_cast Nat.one_le_iff_ne_zero.2 hk
      push_cast at h; linarith
  subst hk
  exact ⟨1 / 2, by simp, by norm_num, by norm_num⟩

/-- C51: the number of points is always checked first. -/
theorem c51_number (degree expected : ℕ) (periodic : Bool) (b : ℕ → ℝ) (len : ℝ) (pts : List ℝ) :
    getSampling degree expected periodic b len pts = .error .wrongNumber ↔ pts.length ≠ expected := by
  rw [getSampling]
  by_cases h1 : pts.length ≠ expected
  · simp [h1]
  · rw [if_neg h1]
    dsimp only
    generalize (if periodic = true then pts ++ [pts.headD 0 + len] else pts) = q
    by_cases h2 : cellLoop degree b q 0 1 = true
    · simp [h2, h1]
    · simp [h2, h1]

/-- C51: non-periodic sampling: error iff the number is wrong or some cell is overconstrained (no cell with an empty interior before the last point), and the sampling is the supplied list. -/
theorem c51_non_periodic (degree expected : ℕ) (b : ℕ → ℝ) (hb : StrictMono b) (len : ℝ) (pts : List ℝ)
    (hocc : ∀ k, (∃ p ∈ pts, b (k + 1) ≤ p) → ∃ p ∈ pts, b k < p ∧ p < b (k + 1))
    (hs : pts.Pairwise (· < ·)) (hge : ∀ p ∈ pts, b 0 ≤ p) :
    getSampling degree expected false b len pts = .ok pts ↔
      pts.length = expected ∧ ∀ k, cellCount b pts k ≤ degree + 1 := by
  rw [getSampling]
  by_cases h1 : pts.length ≠ expected
  · rw [if_pos h1]; simp [h1]
  · rw [if_neg h1]
    have h1' := not_not.1 h1
    simp only [Bool.false_eq_true, if_false]
    rw [← c51_accept_complete degree b hb pts hocc hs hge]
    by_cases h2 : cellLoop degree b pts 0 1 = true
    · rw [if_pos h2]; simp [h2]
    · rw [if_neg h2]; simp only [Bool.not_eq_true] at h2; simp [h1', h2]

/-- FINDING: when a cell is skipped the check is not exact: linear splines (degree 1) on the cells `[0,1], [1,2], [2,3]` with the points `0, 2.1, 2.2, 2.3`
are accepted although the third cell contains three points (and the second none): the interpolation problem is singular. -/
theorem c51_missed :
    let pts : List ℝ := [0, 2.1, 2.2, 2.3]
    getSampling 1 4 false (fun k => (k : ℝ)) 3 pts = .ok pts ∧ cellCount (fun k => (k : ℝ)) pts 2 = 3 := by
  constructor
  · norm_num [getSampling, cellLoop, checkThrows]
  · norm_num [cellCount, List.filter]

/-- C51, uniform sampling: accepted iff the list is accepted and every point is within the tolerance of the uniform grid. -/
theorem c51_uniform (degree expected : ℕ) (periodic : Bool) (b : ℕ → ℝ) (len tol : ℝ) (pts full : List ℝ)
    (h : getSampling degree expected periodic b len pts = .ok full) (o s : ℝ) :
    getSamplingUniform degree expected periodic b len tol pts = .ok (o, s) ↔
      o = full.headD 0 ∧ s = len / ((full.length : ℝ) - 1) ∧
      ∀ i < expected, |full.headD 0 + i * (len / ((full.length : ℝ) - 1)) - full.getD i 0| < tol := by
  rw [getSamplingUniform, h]
  dsimp only
  split_ifs with hc
  · simp only [Except.ok.injEq, Prod.mk.injEq]
    exact ⟨fun ⟨a, b⟩ => ⟨a.symm, b.symm, hc⟩, fun ⟨a, b, _⟩ => ⟨a.symm, b.symm⟩⟩
  · simp only [reduceCtorEq, false_iff]
    exact fun ⟨_, _, h⟩ => hc h

end Verif.GridTools
