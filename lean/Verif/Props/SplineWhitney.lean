import Verif.Props.SplineUnique
import Verif.Props.SplineInterpAccuracy
import Verif.Props.SplineZeros

/-!
# C115, C116: interpolation at any points inside the supports (boundary condition `GREVILLE`)

Specification: `PointInterpolant` says which values the spline has. The points are increasing, and each is inside the support of the B-spline with the same number (the condition of Schoenberg and Whitney).
-/

namespace Verif.SplineInterp

open Verif.BSpline Verif.SplineQuadrature Polynomial Finset

section
variable {n d : ℕ} {b : ℕ → ℝ}

/-- The first of the cells around `q` without a zero piece between. -/
theorem run_left (P : ℕ → ℝ[X]) (q : ℕ) (hq : P q ≠ 0) : ∃ l ≤ q, (∀ i, l ≤ i → i ≤ q → P i ≠ 0) ∧ (l = 0 ∨ P (l - 1) = 0) := by
  induction q with
  | zero => exact ⟨0, le_rfl, fun i _ h => by rwa [Nat.le_zero.1 h], Or.inl rfl⟩
  | succ q ih =>
    by_cases h : P q = 0
    · exact ⟨q + 1, le_rfl, fun i h1 h2 => by rwa [le_antisymm h2 h1], Or.inr h⟩
    · obtain ⟨l, h1, h2, h3⟩ := ih h
      refine ⟨l, by omega, fun i h4 h5 => ?_, h3⟩
      by_cases hi : i = q + 1
      · rwa [hi]
      · exact h2 i h4 (by omega)

theorem run_right (P : ℕ → ℝ[X]) (k q : ℕ) (hq : P q ≠ 0) : ∃ r, q < r ∧ r ≤ q + 1 + k ∧ (∀ i, q ≤ i → i < r → P i ≠ 0) ∧ (r = q + 1 + k ∨ P r = 0) := by
  induction k with
  | zero => exact ⟨q + 1, by omega, by omega, fun i h1 h2 => by rwa [show i = q by omega], Or.inl rfl⟩
  | succ k ih =>
    obtain ⟨r, h1, h2, h3, h4⟩ := ih
    by_cases h : P r = 0
    · exact ⟨r, h1, by omega, h3, Or.inr h⟩
    · rcases h4 with h4 | h4
      · refine ⟨r + 1, by omega, by omega, fun i h5 h6 => ?_, Or.inl (by omega)⟩
        by_cases hi : i = r
        · rwa [hi]
        · exact h3 i h5 (by omega)
      · exact absurd h4 h

theorem b_mono (hb : ∀ i < n, b i < b (i + 1)) : ∀ i j, i ≤ j → j ≤ n → b i ≤ b j := by
  intro i j hij
  induction j, hij using Nat.le_induction with
  | base => intro _; exact le_rfl
  | succ j _ ih => intro hj; exact (ih (by omega)).trans (hb j (by omega)).le

/-- A smooth piecewise polynomial with so many zeros, well distributed, is zero. -/
theorem pieces_zero (hn : 1 ≤ n) (hd : 1 ≤ d) (hb : ∀ i < n, b i < b (i + 1)) (P : ℕ → ℝ[X]) (hdeg : ∀ q < n, (P q).natDegree ≤ d)
    (hsm : ∀ q, q + 1 < n → ∀ k < d, (derivative^[k] (P q)).eval (b (q + 1)) = (derivative^[k] (P (q + 1))).eval (b (q + 1)))
    {κ : ℕ → ℕ} {x : ℕ → ℝ} (hκ : ∀ i < n + d, κ i < n ∧ b (κ i) ≤ x i ∧ x i ≤ b (κ i + 1)) (hx : ∀ i, i + 1 < n + d → x i < x (i + 1))
    (hleft : ∀ i, 1 ≤ i → i < n → b i < x (i + d)) (hright : ∀ i, i + 1 < n → x i < b (i + 1)) (h0 : ∀ i < n + d, (P (κ i)).eval (x i) = 0) : ∀ q < n, P q = 0 := by
  intro q hqn
  by_contra hq
  obtain ⟨l, hlq, hl, hl0⟩ := run_left P q hq
  obtain ⟨r, hqr, hrn, hr, hr0⟩ := run_right P (n - 1 - q) q hq
  have hrn' : r ≤ n := by omega
  have bm := b_mono hb
  have xm : ∀ i j, i ≤ j → j < n + d → x i ≤ x j := by
    intro i j hij
    induction j, hij using Nat.le_induction with
    | base => intro _; exact le_rfl
    | succ j _ ih => intro hj; exact (ih (by omega)).trans (hx j (by omega)).le
  obtain ⟨m, hm⟩ : ∃ m, r = l + m := ⟨r - l, by omega⟩
  obtain ⟨α, hα⟩ : ∃ α, α = if l = 0 then 0 else d := ⟨_, rfl⟩
  obtain ⟨β, hβ⟩ : ∃ β, β = if r = n then 0 else d := ⟨_, rfl⟩
  obtain ⟨a, ha⟩ : ∃ a, a = if l = 0 then 0 else 1 := ⟨_, rfl⟩
  obtain ⟨e, he⟩ : ∃ e, e = if r = n then 0 else 1 := ⟨_, rfl⟩
  obtain ⟨j0, hj0⟩ : ∃ j, j = if l = 0 then 0 else l + d := ⟨_, rfl⟩
  obtain ⟨j1, hj1⟩ : ∃ j, j = if r = n then n + d else r := ⟨_, rfl⟩
  obtain ⟨cnt, hcnt⟩ : ∃ k, k = j1 - j0 := ⟨_, rfl⟩
  have hj1n : j1 ≤ n + d := by rw [hj1]; split_ifs <;> omega
  have hlx : ∀ i, j0 ≤ i → i < j1 → 0 < l → b l < x i := fun i h1 h2 h3 => by
    rw [if_neg (by omega)] at hj0
    exact (hleft l h3 (by omega)).trans_le (xm _ _ (by omega) (by omega))
  have hxr : ∀ i, i < j1 → r < n → x i < b r := fun i h2 h3 => by
    rw [if_neg (by omega)] at hj1
    have := hright (r - 1) (by omega)
    rw [show r - 1 + 1 = r by omega] at this
    exact (xm i (r - 1) (by omega) (by omega)).trans_lt this
  have hcell : ∀ i, j0 ≤ i → i < j1 → l ≤ κ i ∧ κ i < r := fun i h1 h2 => by
    obtain ⟨k1, k2, k3⟩ := hκ i (by omega)
    constructor
    · by_contra hcon
      have := hlx i h1 h2 (by omega)
      linarith [bm (κ i + 1) l (by omega) (by omega)]
    · by_contra hcon
      have := hxr i h2 (by omega)
      linarith [bm r (κ i) (by omega) (by omega)]
  obtain ⟨z, hz⟩ : ∃ z : ℕ → ℕ × ℝ, z = fun j => if j < a then (0, b l) else if j < a + cnt then (κ (j0 + (j - a)) - l, x (j0 + (j - a))) else (m - 1, b r) := ⟨_, rfl⟩
  obtain ⟨b', hb'⟩ : ∃ b' : ℕ → ℝ, b' = fun i => b (l + i) := ⟨_, rfl⟩
  obtain ⟨Q, hQ⟩ : ∃ Q : ℕ → ℝ[X], Q = fun i => P (l + i) := ⟨_, rfl⟩
  have ha1 : a ≤ 1 ∧ (a = 1 → 0 < l) := ⟨by rw [ha]; split_ifs <;> omega, fun h => by
    by_contra hc
    rw [ha, if_pos (by omega)] at h
    omega⟩
  have he1 : e ≤ 1 ∧ (e = 1 → r < n) := ⟨by rw [he]; split_ifs <;> omega, fun h => by
    by_contra hc
    rw [he, if_pos (by omega)] at h
    omega⟩
  have hG : 1 ≤ a + cnt + e - 1 := by rw [ha, he, hcnt, hj1, hj0]; split_ifs <;> omega
  have hle : ∀ k < α, (derivative^[k] (Q 0)).eval (b' 0) = 0 := fun k hk => by
    have hl1 : l ≠ 0 := fun h => by rw [if_pos h] at hα; omega
    rw [if_neg hl1] at hα
    have hz0 : P (l - 1) = 0 := hl0.resolve_left hl1
    have := hsm (l - 1) (by omega) k (by omega)
    rw [show l - 1 + 1 = l by omega, hz0, Polynomial.iterate_derivative_zero, eval_zero] at this
    rw [hQ, hb']; simpa using this.symm
  have hre : ∀ k < β, (derivative^[k] (Q (m - 1))).eval (b' m) = 0 := fun k hk => by
    have hr1 : r ≠ n := fun h => by rw [if_pos h] at hβ; omega
    rw [if_neg hr1] at hβ
    have hz0 : P r = 0 := hr0.resolve_left (by omega)
    have := hsm (r - 1) (by omega) k (by omega)
    rw [show r - 1 + 1 = r by omega, hz0, Polynomial.iterate_derivative_zero, eval_zero] at this
    rw [hQ, hb']
    beta_reduce
    rw [show l + (m - 1) = r - 1 by omega, show l + m = r by omega]
    exact this
  have hmain := zeros (m := m) (b := b') (P := Q) (fun i hi => by rw [hb']; exact hb (l + i) (by omega)) (d - 1) α β (fun i hi => by rw [hQ, show d - 1 + 1 = d by omega]; exact hdeg _ (by omega))
    (fun i hi k hk => by rw [hQ, hb']; exact hsm (l + i) (by omega) k (by omega)) (by rw [hα]; split_ifs <;> omega) (by rw [hβ]; split_ifs <;> omega) hle hre (fun i hi => by
      rw [hQ]
      by_cases h : l + i ≤ q
      · exact hl _ (by omega) h
      · exact hr _ (by omega) (by omega)) z (a + cnt + e - 1) hG ?_ ?_ ?_
  · rw [hα, hβ, ha, he, hcnt, hj0, hj1] at hmain
    split_ifs at hmain <;> omega
  · intro j hj
    rw [hz, hb']
    beta_reduce
    split_ifs with h1 h2
    · exact ⟨by simp only; omega, le_rfl, (hb l (by omega)).le⟩
    · obtain ⟨g1, g2⟩ := hcell (j0 + (j - a)) (by omega) (by omega)
      obtain ⟨k1, k2, k3⟩ := hκ (j0 + (j - a)) (by omega)
      refine ⟨by simp only; omega, ?_, ?_⟩ <;> simp only
      · rwa [show l + (κ (j0 + (j - a)) - l) = κ (j0 + (j - a)) by omega]
      · rwa [show l + (κ (j0 + (j - a)) - l + 1) = κ (j0 + (j - a)) + 1 by omega]
    · refine ⟨by simp only; omega, ?_, ?_⟩ <;> simp only
      · exact bm _ _ (by omega) hrn'
      · rw [show l + (m - 1 + 1) = r by omega]
  · intro j hj
    rw [hz]
    simp only [Right]
    by_cases c1 : j < a
    · rw [if_pos c1]
      by_cases c2 : j + 1 < a + cnt
      · rw [if_neg (by omega), if_pos c2]
        exact ⟨Nat.zero_le _, hlx _ (by omega) (by omega) (by omega)⟩
      · rw [if_neg (by omega), if_neg c2]
        exact ⟨Nat.zero_le _, (hb l (by omega)).trans_le (bm _ _ (by omega) hrn')⟩
    · rw [if_neg c1]
      by_cases c2 : j + 1 < a + cnt
      · rw [if_pos (by omega), if_neg (by omega), if_pos c2, show j + 1 - a = j - a + 1 by omega]
        have hlt := hx (j0 + (j - a)) (by omega)
        rw [show j0 + (j - a + 1) = j0 + (j - a) + 1 by omega]
        refine ⟨?_, hlt⟩
        obtain ⟨-, k2, -⟩ := hκ (j0 + (j - a)) (by omega)
        obtain ⟨k1', -, k3'⟩ := hκ (j0 + (j - a) + 1) (by omega)
        have hle : κ (j0 + (j - a)) ≤ κ (j0 + (j - a) + 1) := by
          by_contra hcon
          have := (hκ (j0 + (j - a)) (by omega)).1
          linarith [bm (κ (j0 + (j - a) + 1) + 1) (κ (j0 + (j - a))) (by omega) (by omega)]
        simp only
        omega
      · rw [if_pos (by omega), if_neg (by omega), if_neg c2]
        have := (hcell (j0 + (j - a)) (by omega) (by omega)).2
        exact ⟨by simp only; omega, hxr _ (by omega) (by omega)⟩
  · intro j hj
    rw [hz, hQ]
    simp only [at_]
    split_ifs with h1 h2
    · have := hle 0 (by rw [hα, if_neg (by omega)]; omega)
      rw [hQ, hb'] at this
      simpa using this
    · have := (hcell (j0 + (j - a)) (by omega) (by omega)).1
      simp only
      rw [show l + (κ (j0 + (j - a)) - l) = κ (j0 + (j - a)) by omega]
      exact h0 _ (by omega)
    · have := hre 0 (by rw [hβ, if_neg (by omega)]; omega)
      rw [hQ, hb'] at this
      simp only [Function.iterate_zero, id_eq] at this
      rwa [show l + m = r by omega] at this

/-- A clamped spline with zero values at such points is zero. -/
theorem points_unique (hn : 1 ≤ n) (hd : 1 ≤ d) (hb : ∀ i < n, b i < b (i + 1)) {q : ℕ → ℕ} {x : ℕ → ℝ} (hq : ∀ i < n + d, q i < n ∧ x i ∈ Set.Icc (b (q i)) (b (q i + 1)))
    (hx : ∀ i, i + 1 < n + d → x i < x (i + 1)) (hleft : ∀ i, 1 ≤ i → i < n → b i < x (i + d)) (hright : ∀ i, i + 1 < n → x i < b (i + 1)) (c : ℕ → ℝ)
    (h : PointInterpolant n d b q x (fun _ => 0) c) : ∀ j < n + d, c j = 0 := by
  obtain ⟨P, hP⟩ : ∃ P : ℕ → ℝ[X], P = fun q : ℕ => spl (clampedKnots n b) q d (along d c) := ⟨_, rfl⟩
  have hval : ∀ q < n, ∀ x, valueAt (clampedKnots n b) d (n + d) q x c = (P q).eval x := fun q hq x => by
    rw [hP]; exact valueAt_eq _ _ _ _ _ _ _ (along_eq _ _ q c (by omega))
  have hz := pieces_zero hn hd hb P (fun q _ => by rw [hP]; exact spl_degree _ _) (fun q hq k hk => by rw [hP]; exact clamped_smooth hb _ q hq k hk) hq hx hleft hright
    fun i hi => by rw [← hval _ (hq i hi).1]; exact h i hi
  have hcell : ∀ q < n, clampedKnots n b q < clampedKnots n b ((q : ℤ) + 1) := by
    intro q hq
    rw [clamped_cell q (by omega), show (q : ℤ) + 1 = ((q + 1 : ℕ) : ℤ) by push_cast; ring, clamped_cell (q + 1) (by omega)]
    exact hb q hq
  intro j hj
  obtain ⟨q, hq⟩ : ∃ q, q = min j (n - 1) := ⟨_, rfl⟩
  have hq0 := hz q (by omega)
  rw [hP] at hq0
  have := independent (clamped_mono hb) (hcell q (by omega)) d _ hq0 (j - q) (by omega)
  have e0 := along_eq d (n + d) q c (by omega) (j - q) (by omega)
  push_cast at this e0
  rw [← e0, show j - q + q = j by omega, Nat.mod_eq_of_lt hj] at this
  exact this

/-- C116 (well posed, points inside the supports): for every degree, every increasing break points and every increasing interpolation points, each inside the support of its B-spline (the first and the last may be the ends of the domain),
there is exactly one spline with given values at these points. -/
theorem c116_points_unique (hn : 1 ≤ n) (hd : 1 ≤ d) (hb : ∀ i < n, b i < b (i + 1)) {q : ℕ → ℕ} {x : ℕ → ℝ} (hq : ∀ i < n + d, q i < n ∧ x i ∈ Set.Icc (b (q i)) (b (q i + 1)))
    (hx : ∀ i, i + 1 < n + d → x i < x (i + 1)) (hleft : ∀ i, 1 ≤ i → i < n → b i < x (i + d)) (hright : ∀ i, i + 1 < n → x i < b (i + 1)) (v : ℕ → ℝ) :
    ∃ c, PointInterpolant n d b q x v c ∧ ∀ c', PointInterpolant n d b q x v c' → ∀ j < n + d, c' j = c j :=
  square_system (fun i => valueAt (clampedKnots n b) d (n + d) (q i) (x i)) (fun i _ c => row_linear (n + d) d (q i) (by omega) _ c) (fun c hc => points_unique hn hd hb hq hx hleft hright c hc) v

/-! ## The Greville points -/

theorem clamped_at (i : ℤ) (hi : i ≤ n) : clampedKnots n b i = b i.toNat := by rw [clampedKnots, min_eq_left (by omega)]

theorem greville_increasing (hn : 1 ≤ n) (hd : 1 ≤ d) (hb : ∀ i < n, b i < b (i + 1)) (i : ℕ) (hi : i + 1 < n + d) : greville n d b i < greville n d b (i + 1) := by
  have hd' : (0 : ℝ) < d := by exact_mod_cast hd
  have key := sum_range_succ (fun k : ℕ => clampedKnots n b ((i : ℤ) - d + 1 + k)) d
  have key2 := sum_range_succ' (fun k : ℕ => clampedKnots n b ((i : ℤ) - d + 1 + k)) d
  have e : ∑ k ∈ range d, clampedKnots n b (((i + 1 : ℕ) : ℤ) - d + 1 + k) = ∑ k ∈ range d, clampedKnots n b ((i : ℤ) - d + 1 + (k + 1 : ℕ)) :=
    sum_congr rfl fun k _ => by push_cast; congr 1; ring
  rw [greville, greville, div_lt_div_iff_of_pos_right hd', e]
  have hlt : clampedKnots n b ((i : ℤ) - d + 1 + (0 : ℕ)) < clampedKnots n b ((i : ℤ) - d + 1 + d) := by
    have bm := b_mono hb
    obtain ⟨A, hA⟩ : ∃ A, A = (i + 1) - d := ⟨_, rfl⟩
    obtain ⟨B, hB⟩ : ∃ B, B = min (i + 1) n := ⟨_, rfl⟩
    have hAB : A + 1 ≤ B := by omega
    have eA : min ((i : ℤ) - d + 1 + (0 : ℕ)).toNat n = A := by rw [Nat.cast_zero, add_zero]; omega
    have eB : min ((i : ℤ) - d + 1 + d).toNat n = B := by rw [show (i : ℤ) - d + 1 + d = i + 1 by ring]; omega
    rw [clampedKnots, clampedKnots, eA, eB]
    exact lt_of_lt_of_le (hb A (by omega)) (bm _ _ hAB (by omega))
  linarith

theorem greville_bounds (hd : 1 ≤ d) (i : ℕ) {lo hi : ℝ} (h : ∀ k < d, lo ≤ clampedKnots n b ((i : ℤ) - d + 1 + k) ∧ clampedKnots n b ((i : ℤ) - d + 1 + k) ≤ hi) : lo ≤ greville n d b i ∧ greville n d b i ≤ hi := by
  have hd' : (0 : ℝ) < d := by exact_mod_cast hd
  have h1 := sum_le_sum fun k (hk : k ∈ range d) => (h k (mem_range.1 hk)).1
  have h2 := sum_le_sum fun k (hk : k ∈ range d) => (h k (mem_range.1 hk)).2
  rw [sum_const, card_range, nsmul_eq_mul] at h1 h2
  rw [greville, le_div_iff₀ hd', div_le_iff₀ hd']
  constructor <;> linarith

/-- The Greville points satisfy all the conditions. -/
theorem greville_points (hn : 1 ≤ n) (hd : 1 ≤ d) (hb : ∀ i < n, b i < b (i + 1)) : (∀ i < n + d, ∃ q < n, greville n d b i ∈ Set.Icc (b q) (b (q + 1))) ∧ (∀ i, i + 1 < n + d → greville n d b i < greville n d b (i + 1)) ∧
    (∀ i, 1 ≤ i → i < n → b i < greville n d b (i + d)) ∧ ∀ i, i + 1 < n → greville n d b i < b (i + 1) := by
  have bm := b_mono hb
  refine ⟨fun i _ => find_cell hn (greville_bounds hd i fun k _ => ⟨bm _ _ (Nat.zero_le _) (by omega), bm _ _ (by omega) le_rfl⟩), fun i hi => greville_increasing hn hd hb i hi, fun i h1 h2 => ?_, fun i hi => ?_⟩
  · refine (hb i h2).trans_le (greville_bounds hd (i + d) (lo := b (i + 1)) (hi := b n) fun k hk => ⟨bm _ _ (by push_cast; omega) (by omega), bm _ _ (by omega) le_rfl⟩).1
  · refine lt_of_le_of_lt (greville_bounds hd i (lo := b 0) (hi := b i) fun k hk => ⟨bm _ _ (Nat.zero_le _) (by omega), bm _ _ (by omega) (by omega)⟩).2 (hb i (by omega))

/-- C116 (well posed, Greville points): the interpolation problem of the simulations in a non-periodic dimension, for every degree and every increasing break points. -/
theorem c116_greville_unique (hn : 1 ≤ n) (hd : 1 ≤ d) (hb : ∀ i < n, b i < b (i + 1)) (v : ℕ → ℝ) : ∃ q : ℕ → ℕ, (∀ i < n + d, q i < n ∧ greville n d b i ∈ Set.Icc (b (q i)) (b (q i + 1))) ∧
    ∃ c, PointInterpolant n d b q (greville n d b) v c ∧ ∀ c', PointInterpolant n d b q (greville n d b) v c' → ∀ j < n + d, c' j = c j := by
  obtain ⟨h1, h2, h3, h4⟩ := greville_points hn hd hb
  have : ∀ i, ∃ q, i < n + d → q < n ∧ greville n d b i ∈ Set.Icc (b q) (b (q + 1)) := fun i => by
    by_cases hi : i < n + d
    · obtain ⟨q, hq⟩ := h1 i hi
      exact ⟨q, fun _ => hq⟩
    · exact ⟨0, fun h => absurd h hi⟩
  choose q hq using this
  exact ⟨q, hq, c116_points_unique hn hd hb hq h2 h3 h4 v⟩

/-- C115 (existence, without boundary conditions): the quadrature coefficients exist and are unique for these interpolation points, in particular for the Greville points. -/
theorem c115_clamped_coefficients (hn : 1 ≤ n) (hd : 1 ≤ d) (hb : ∀ i < n, b i < b (i + 1)) {q : ℕ → ℕ} {x : ℕ → ℝ} (hq : ∀ i < n + d, q i < n ∧ x i ∈ Set.Icc (b (q i)) (b (q i + 1)))
    (hx : ∀ i, i + 1 < n + d → x i < x (i + 1)) (hleft : ∀ i, 1 ≤ i → i < n → b i < x (i + d)) (hright : ∀ i, i + 1 < n → x i < b (i + 1)) (m : ℕ → ℝ) :
    ∃! w, QuadratureCoefficients (n + d) (valueRows (clampedKnots n b) d (n + d) ((List.range (n + d)).map fun i => (q i, x i))) m w := by
  refine c115_coefficients_exist (by simp [valueRows]) (valueRows_linear _ _ _ (by omega) _) (fun c hc => points_unique hn hd hb hq hx hleft hright c fun i hi => ?_) m
  refine hc (valueAt (clampedKnots n b) d (n + d) (q i) (x i)) ?_
  simp only [valueRows, List.map_map, List.mem_map, List.mem_range]
  exact ⟨i, hi, rfl⟩

/-- The condition is needed: if an interpolation point is not inside the support of its B-spline, the problem can be singular. Here the last two of the points for piecewise linear functions on two cells are in the first cell. -/
theorem c116_outside_singular : PointInterpolant 2 1 (fun q => (q : ℝ)) (fun _ => 0) (fun i => (i : ℝ) / 2) (fun _ => 0) (fun j => if j = 2 then 1 else 0) := by
  intro i hi
  interval_cases i <;> simp [valueAt, sum_range_succ]

/-- Instance: cubic splines at the Greville points of strongly non-uniform cells. -/
example (v : ℕ → ℝ) : ∃ q c, PointInterpolant 20 3 (fun q => (2 : ℝ) ^ q) q (greville 20 3 fun q => (2 : ℝ) ^ q) v c := by
  obtain ⟨q, -, c, h, -⟩ := c116_greville_unique (n := 20) (d := 3) (b := fun q => (2 : ℝ) ^ q) (by norm_num) (by norm_num) (fun i _ => by rw [pow_succ]; linarith [pow_pos (by norm_num : (0 : ℝ) < 2) i]) v
  exact ⟨q, c, h⟩

end

end Verif.SplineInterp
