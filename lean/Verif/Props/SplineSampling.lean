import Verif.Props.GridTools
import Verif.Props.SplineWhitney
import Verif.Props.SplineQuadratureAccuracy
import Mathlib.Algebra.Polynomial.Roots

/-!
# C51: what the check of user supplied interpolation points says about the spline problem (boundary condition GREVILLE)
-/

namespace Verif.GridTools

open Polynomial Finset Verif.BSpline Verif.SplineQuadrature Verif.SplineInterp

variable {n d : ℕ} {b : ℕ → ℝ}

/-- At a point of two cells both polynomials give the same value. -/
theorem value_any_cell (hd : 1 ≤ d) (hb : ∀ i < n, b i < b (i + 1)) (c : ℕ → ℝ) {q q' : ℕ} (hq : q < n) (hq' : q' < n) {x : ℝ} (hx : x ∈ Set.Icc (b q) (b (q + 1))) (hx' : x ∈ Set.Icc (b q') (b (q' + 1))) :
    valueAt (clampedKnots n b) d (n + d) q x c = (spl (clampedKnots n b) q' d (along d c)).eval x := by
  obtain ⟨e, rfl⟩ : ∃ e, d = e + 1 := ⟨d - 1, by omega⟩
  rw [valueAt_eq _ _ _ _ _ _ _ (along_eq _ _ q c (by omega)), ← glue_eq hb (fun q hq => clamped_cell q hq) _ q hq x hx, glue_eq hb (fun q hq => clamped_cell q hq) _ q' hq' x hx']

/-- More than `d + 1` points in one cell: some values are not those of any spline. -/
theorem crowded_cell (hd : 1 ≤ d) (hb : ∀ i < n, b i < b (i + 1)) {x : ℕ → ℝ} (hx : ∀ i, i + 1 < n + d → x i < x (i + 1)) {q : ℕ → ℕ} (hq : ∀ i < n + d, q i < n ∧ x i ∈ Set.Icc (b (q i)) (b (q i + 1)))
    {k : ℕ} (hk : k < n) {I : Finset ℕ} (hI : ∀ i ∈ I, i < n + d ∧ x i ∈ Set.Icc (b k) (b (k + 1))) (hcard : d + 1 < I.card) : ∃ v, ∀ c, ¬ PointInterpolant n d b q x v c := by
  classical
  have inj : ∀ i j, i < j → j < n + d → x i < x j := by
    intro i j hij
    induction j, hij using Nat.le_induction with
    | base => exact fun h => hx i h
    | succ j hj ih => exact fun h => (ih (by omega)).trans (hx j h)
  have inj' : ∀ i ∈ I, ∀ j ∈ I, x i = x j → i = j := by
    intro i hi j hj h
    by_contra hne
    rcases Nat.lt_or_gt_of_ne hne with h1 | h1
    · exact absurd h (inj i j h1 (hI j hj).1).ne
    · exact absurd h (inj j i h1 (hI i hi).1).ne'
  obtain ⟨i0, hi0⟩ : I.Nonempty := card_pos.1 (by omega)
  refine ⟨fun i => if i = i0 then 1 else 0, fun c hc => ?_⟩
  have hval : ∀ i ∈ I, (spl (clampedKnots n b) k d (along d c)).eval (x i) = if i = i0 then 1 else 0 := fun i hi => by
    refine Eq.trans ?_ (hc i (hI i hi).1)
    exact (value_any_cell hd hb c (hq i (hI i hi).1).1 hk (hq i (hI i hi).1).2 (hI i hi).2).symm
  have hzero : spl (clampedKnots n b) k d (along d c) = 0 := by
    refine Polynomial.eq_zero_of_natDegree_lt_card_of_eval_eq_zero' _ ((I.erase i0).image x) (fun y hy => ?_) ?_
    · obtain ⟨i, hi, rfl⟩ := mem_image.1 hy
      rw [hval i (mem_of_mem_erase hi), if_neg (ne_of_mem_erase hi)]
    · rw [card_image_of_injOn fun i hi j hj h => inj' i (mem_of_mem_erase hi) j (mem_of_mem_erase hj) h, card_erase_of_mem hi0]
      exact lt_of_le_of_lt (spl_degree _ _) (by omega)
  have := hval i0 hi0
  rw [hzero] at this
  simp at this

/-- C51 (a refusal as overconstrained is right): if increasing points of the domain are refused as overconstrained, then there are values at these points which are not those of any spline. -/
theorem c51_refused_singular (hd : 1 ≤ d) (hb : StrictMono b) {x : ℕ → ℝ} (hx : ∀ i, i + 1 < n + d → x i < x (i + 1)) {q : ℕ → ℕ} (hq : ∀ i < n + d, q i < n ∧ x i ∈ Set.Icc (b (q i)) (b (q i + 1))) (len : ℝ)
    (href : getSampling d (n + d) false b len ((List.range (n + d)).map x) = .error .overconstrained) : ∃ v, ∀ c, ¬ PointInterpolant n d b q x v c := by
  classical
  have inj : ∀ i j, i < j → j < n + d → x i < x j := by
    intro i j hij
    induction j, hij using Nat.le_induction with
    | base => exact fun h => hx i h
    | succ j hj ih => exact fun h => (ih (by omega)).trans (hx j h)
  have hloop : cellLoop d b ((List.range (n + d)).map x) 0 1 = true := by
    by_contra hne
    simp [getSampling, hne] at href
  have hs : ((List.range (n + d)).map x).Pairwise (· < ·) := by
    rw [List.pairwise_map, List.pairwise_iff_getElem]
    intro i j hi hj hij
    simp only [List.getElem_range]
    exact inj i j hij (by simpa using hj)
  obtain ⟨k, hk⟩ := c51_reject_sound d b _ hs (fun p hp => by
    obtain ⟨i, hi, rfl⟩ := List.mem_map.1 hp
    exact (hb.monotone (Nat.zero_le _)).trans (hq i (List.mem_range.1 hi)).2.1) hloop
  obtain ⟨I, hI⟩ : ∃ I, I = (range (n + d)).filter fun i => b k ≤ x i ∧ x i ≤ b (k + 1) := ⟨_, rfl⟩
  have hcount : cellCount b ((List.range (n + d)).map x) k = I.card := by
    rw [hI, cellCount, List.filter_map, List.length_map]
    rfl
  have hmem : ∀ i ∈ I, i < n + d ∧ x i ∈ Set.Icc (b k) (b (k + 1)) := fun i hi => by
    rw [hI, mem_filter, mem_range] at hi
    exact hi
  by_cases hkn : k < n
  · exact crowded_cell hd (fun i _ => hb (Nat.lt_succ_self i)) hx hq hkn hmem (by omega)
  · exfalso
    have h1 : I.card ≤ 1 := by
      rw [card_le_one]
      intro i hi j hj
      have hbound : ∀ i ∈ I, x i = b n := fun i hi => le_antisymm ((hq i (hmem i hi).1).2.2.trans (hb.monotone (hq i (hmem i hi).1).1)) ((hb.monotone (not_lt.1 hkn)).trans (hmem i hi).2.1)
      by_contra hne
      rcases Nat.lt_or_gt_of_ne hne with h | h
      · exact absurd ((hbound i hi).trans (hbound j hj).symm) (inj i j h (hmem j hj).1).ne
      · exact absurd ((hbound i hi).trans (hbound j hj).symm) (inj j i h (hmem i hi).1).ne'
    omega

/-- C51 (well posed problems are accepted): in particular, points each inside the support of its B-spline, such as the Greville points, are accepted. -/
theorem c51_well_posed_accepted (hn : 1 ≤ n) (hd : 1 ≤ d) (hb : StrictMono b) {x : ℕ → ℝ} (hx : ∀ i, i + 1 < n + d → x i < x (i + 1)) {q : ℕ → ℕ} (hq : ∀ i < n + d, q i < n ∧ x i ∈ Set.Icc (b (q i)) (b (q i + 1)))
    (hleft : ∀ i, 1 ≤ i → i < n → b i < x (i + d)) (hright : ∀ i, i + 1 < n → x i < b (i + 1)) (len : ℝ) :
    getSampling d (n + d) false b len ((List.range (n + d)).map x) = .ok ((List.range (n + d)).map x) := by
  by_cases hloop : cellLoop d b ((List.range (n + d)).map x) 0 1 = true
  · obtain ⟨v, hv⟩ := c51_refused_singular hd hb hx hq len (by simp [getSampling, hloop])
    obtain ⟨c, hc, -⟩ := c116_points_unique hn hd (fun i _ => hb (Nat.lt_succ_self i)) hq hx hleft hright v
    exact absurd hc (hv c)
  · simp [getSampling, hloop]

theorem c51_greville_accepted (hn : 1 ≤ n) (hd : 1 ≤ d) (hb : StrictMono b) (len : ℝ) :
    getSampling d (n + d) false b len ((List.range (n + d)).map (greville n d b)) = .ok ((List.range (n + d)).map (greville n d b)) := by
  have hb' : ∀ i < n, b i < b (i + 1) := fun i _ => hb (Nat.lt_succ_self i)
  obtain ⟨h1, h2, h3, h4⟩ := greville_points hn hd hb'
  have : ∀ i, ∃ q, i < n + d → q < n ∧ greville n d b i ∈ Set.Icc (b q) (b (q + 1)) := fun i => by
    by_cases hi : i < n + d
    · obtain ⟨q, hq⟩ := h1 i hi
      exact ⟨q, fun _ => hq⟩
    · exact ⟨0, fun h => absurd h hi⟩
  choose q hq using this
  exact c51_well_posed_accepted hn hd hb h2 hq h3 h4 len

/-- FINDING: an accepted list can make the problem singular, even if no cell has more than `degree + 1` points and every cell before the last point has a point in its interior. Quadratic splines on the cells
`[0,1], [1,2], [2,3], [3,4]` with three points in the first cell, two in the second and one in the third: a spline which is not zero vanishes at all of them. -/
theorem c51_accepted_singular :
    let pts : List ℝ := [0, 1 / 4, 1 / 2, 5 / 4, 7 / 4, 5 / 2]
    getSampling 2 6 false (fun k => (k : ℝ)) 4 pts = .ok pts ∧ (∀ k, cellCount (fun k => (k : ℝ)) pts k ≤ 3) ∧
      PointInterpolant 4 2 (fun k => (k : ℝ)) (fun i => [0, 0, 0, 1, 1, 2].getD i 0) (fun i => pts.getD i 0) (fun _ => 0) (fun j => if j = 5 then 1 else 0) := by
  intro pts
  have hacc : getSampling 2 6 false (fun k => (k : ℝ)) 4 pts = .ok pts := by
    norm_num [pts, getSampling, cellLoop, checkThrows]
  refine ⟨hacc, ?_, fun i hi => ?_⟩
  · have hocc : ∀ k : ℕ, (∃ p ∈ pts, ((k + 1 : ℕ) : ℝ) ≤ p) → ∃ p ∈ pts, (k : ℝ) < p ∧ p < ((k + 1 : ℕ) : ℝ) := by
      rintro k ⟨p, hp, hk⟩
      have hp' : p ≤ 5 / 2 := by
        simp only [pts, List.mem_cons, List.not_mem_nil, or_false] at hp
        rcases hp with rfl | rfl | rfl | rfl | rfl | rfl <;> norm_num
      have hk2 : k + 1 < 3 := by
        have : ((k + 1 : ℕ) : ℝ) < 3 := by linarith
        exact_mod_cast this
      rcases (by omega : k = 0 ∨ k = 1) with rfl | rfl
      · exact ⟨1 / 4, by simp [pts], by norm_num, by norm_num⟩
      · exact ⟨5 / 4, by simp [pts], by norm_num, by norm_num⟩
    exact ((c51_non_periodic 2 6 (fun k => (k : ℝ)) (fun i j h => by beta_reduce; exact_mod_cast h) 4 pts hocc (by simp [pts]; norm_num) (by simp [pts]; norm_num)).1 hacc).2
  · interval_cases i <;> simp [valueAt, sum_range_succ]

end Verif.GridTools
