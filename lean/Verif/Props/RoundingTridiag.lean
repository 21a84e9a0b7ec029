import Verif.Props.Rounding
import Mathlib.Tactic.NormNum
import Mathlib.Data.Finset.Max

/-! # C98: the tridiagonal solver in floating point is backward stable -/

namespace Verif.Rounding
open Verif.Tridiag Verif.LinearSystem Finset

/-! ## Factors close to one -/

theorem near_inv {u x : ℝ} (hu : 0 ≤ u) (hu1 : u ≤ 1 / 100) (h : |x - 1| ≤ u) : |x⁻¹ - 1| ≤ 1.0102 * u ∧ x ≠ 0 := by
  obtain ⟨h1, h2⟩ := abs_le.1 h
  have hx : 0.99 ≤ x := by linarith
  have hx0 : x ≠ 0 := by intro h; rw [h] at hx; norm_num at hx
  refine ⟨?_, hx0⟩
  rw [show x⁻¹ - 1 = (1 - x) / x by field_simp, abs_div, abs_of_pos (by linarith : (0 : ℝ) < x), div_le_iff₀ (by linarith), abs_sub_comm]
  nlinarith

theorem near_mul {u x y α β γ : ℝ} (hu : 0 ≤ u) (hu1 : u ≤ 1 / 100) (hα : 0 ≤ α) (hβ : 0 ≤ β) (h1 : |x - 1| ≤ α * u) (h2 : |y - 1| ≤ β * u) (hγ : α + β + α * β / 100 ≤ γ) : |x * y - 1| ≤ γ * u := by
  calc |x * y - 1| = |(x - 1) * (y - 1) + (x - 1) + (y - 1)| := by ring_nf
    _ ≤ |x - 1| * |y - 1| + |x - 1| + |y - 1| := by
      refine (abs_add_le _ _).trans (add_le_add ((abs_add_le _ _).trans (add_le_add ?_ le_rfl)) le_rfl)
      rw [abs_mul]
    _ ≤ (α * u) * (β * u) + α * u + β * u := by gcongr
    _ ≤ γ * u := by
      have : α * β * u ≤ α * β / 100 := by nlinarith [mul_nonneg hα hβ]
      nlinarith

theorem fl_factor {u x y : ℝ} (h : Fl u x y) : ∃ e, |e - 1| ≤ u ∧ y = x * e := by
  obtain ⟨δ, hδ, rfl⟩ := h
  exact ⟨1 + δ, by simpa using hδ, rfl⟩

/-! ## Dominance survives rounding -/

/-- Specification: the rows are diagonally dominant with a margin of one rounding. Entries outside of the matrix do not matter. -/
def Dominant (u : ℝ) (n : ℕ) (sub diag upp : ℕ → ℝ) : Prop :=
  ∀ i < n, (1 + u) * ((if 0 < i then |sub i| else 0) + (if i + 1 < n then |upp i| else 0)) < (1 - u) * |diag i|

theorem pivots {u : ℝ} (hu : 0 ≤ u) (hu1 : u ≤ 1 / 100) {n : ℕ} {sub diag upp b c y den x : ℕ → ℝ} (hd : Dominant u n sub diag upp) (h : TriFl u n sub diag upp b c y den x) :
    ∀ i < n, den i ≠ 0 ∧ (i + 1 < n → |c i| ≤ 1) := by
  have cbound : ∀ i, i + 1 < n → den i ≠ 0 → (1 + u) * |upp i| ≤ |den i| → |c i| ≤ 1 := by
    intro i hi h0 hle
    obtain ⟨e, he, hc⟩ := fl_factor (h.c_run i (by omega))
    obtain ⟨e1, e2⟩ := abs_le.1 he
    rw [hc, abs_mul, abs_div, div_mul_eq_mul_div, div_le_one (abs_pos.2 h0)]
    refine le_trans ?_ hle
    rw [mul_comm (1 + u)]
    refine mul_le_mul_of_nonneg_left ?_ (abs_nonneg _)
    rw [abs_le]
    constructor <;> linarith
  intro i
  induction i with
  | zero =>
    intro hn
    have := hd 0 hn
    rw [if_neg (lt_irrefl 0), zero_add] at this
    have hd0 : 0 ≤ |diag 0| := abs_nonneg _
    have h0 : den 0 ≠ 0 := by
      rw [h.den_zero]
      intro h0
      rw [h0, abs_zero, mul_zero] at this
      have : 0 ≤ (1 + u) * (if 0 + 1 < n then |upp 0| else 0) := mul_nonneg (by linarith) (by split <;> simp)
      linarith
    refine ⟨h0, fun h1 => cbound 0 h1 h0 ?_⟩
    rw [if_pos h1] at this
    rw [h.den_zero]
    nlinarith
  | succ i ih =>
    intro hn
    obtain ⟨-, hc⟩ := ih (by omega)
    have hc := hc hn
    have hdom := hd (i + 1) hn
    rw [if_pos (by omega)] at hdom
    obtain ⟨p, hp, hden⟩ := h.den_succ i hn
    obtain ⟨e, he, hp⟩ := fl_factor hp
    obtain ⟨e', he', hden⟩ := fl_factor hden
    obtain ⟨e1, e2⟩ := abs_le.1 he
    obtain ⟨e1', e2'⟩ := abs_le.1 he'
    have hpa : |p| ≤ (1 + u) * |sub (i + 1)| := by
      rw [hp, abs_mul, abs_mul, abs_of_nonneg (by linarith : 0 ≤ e), mul_comm (1 + u), mul_assoc]
      refine mul_le_mul_of_nonneg_left ?_ (abs_nonneg _)
      nlinarith [abs_nonneg (c i)]
    have hda : (1 - u) * (|diag (i + 1)| - (1 + u) * |sub (i + 1)|) ≤ |den (i + 1)| := by
      rw [hden, abs_mul, abs_of_nonneg (by linarith : 0 ≤ e')]
      have h1 : |diag (i + 1)| - (1 + u) * |sub (i + 1)| ≤ |diag (i + 1) - p| := by
        have := abs_sub_abs_le_abs_sub (diag (i + 1)) p
        linarith
      have h2 : 0 ≤ |diag (i + 1)| - (1 + u) * |sub (i + 1)| := by
        have : 0 ≤ (1 + u) * (if i + 1 + 1 < n then |upp (i + 1)| else 0) := mul_nonneg (by linarith) (by split <;> simp)
        nlinarith [abs_nonneg (diag (i + 1))]
      calc (1 - u) * (|diag (i + 1)| - (1 + u) * |sub (i + 1)|) ≤ e' * (|diag (i + 1)| - (1 + u) * |sub (i + 1)|) := mul_le_mul_of_nonneg_right (by linarith) h2
        _ ≤ e' * |diag (i + 1) - p| := mul_le_mul_of_nonneg_left h1 (by linarith)
        _ = _ := mul_comm _ _
    have hs0 : 0 ≤ |sub (i + 1)| := abs_nonneg _
    have hkey : (1 + u) * (if i + 1 + 1 < n then |upp (i + 1)| else 0) < |den (i + 1)| := by
      refine lt_of_lt_of_le ?_ hda
      nlinarith [mul_nonneg hu hs0]
    have h0 : den (i + 1) ≠ 0 := by
      intro h0
      rw [h0, abs_zero] at hkey
      have : 0 ≤ (1 + u) * (if i + 1 + 1 < n then |upp (i + 1)| else 0) := mul_nonneg (by linarith) (by split <;> simp)
      linarith
    refine ⟨h0, fun h1 => cbound (i + 1) h1 h0 ?_⟩
    rw [if_pos h1] at hkey
    exact hkey.le

/-! ## Backward error -/

theorem row_data {u : ℝ} (hu : 0 ≤ u) (hu1 : u ≤ 1 / 100) {n : ℕ} {sub diag upp b c y den x : ℕ → ℝ} (h : TriFl u n sub diag upp b c y den x) (h0 : ∀ i < n, den i ≠ 0) :
    (∃ e1 e : ℕ → ℝ, ∀ i < n, |e1 i - 1| ≤ 1 * u ∧ |e i - 1| ≤ 2.0307 * u ∧ (if 0 < i then sub i * e1 i * y (i - 1) else 0) + den i * e i * y i = b i) ∧
    (∃ h1 h2 : ℕ → ℝ, ∀ i < n, |h1 i - 1| ≤ 1 * u ∧ |h2 i - 1| ≤ 1.0102 * u ∧ y i = x i * h2 i + if i + 1 < n then c i * h1 i * x (i + 1) else 0) ∧
    (∃ g1 g2 : ℕ → ℝ, ∀ i < n, |g1 i - 1| ≤ 1 * u ∧ |g2 i - 1| ≤ 1 * u ∧ den i = (diag i - if 0 < i then sub i * c (i - 1) * g1 i else 0) * g2 i) ∧
    ∃ k : ℕ → ℝ, ∀ i < n, |k i - 1| ≤ 1 * u ∧ c i * den i = upp i * k i := by
  have one : |(1 : ℝ) - 1| ≤ 1 * u := by simpa using hu
  refine ⟨?_, ?_, ?_, ?_⟩
  · have : ∀ i, ∃ e1 e : ℝ, i < n → |e1 - 1| ≤ 1 * u ∧ |e - 1| ≤ 2.0307 * u ∧ (if 0 < i then sub i * e1 * y (i - 1) else 0) + den i * e * y i = b i := by
      intro i
      by_cases hi : i < n
      · cases i with
        | zero =>
          obtain ⟨e, he, hy⟩ := fl_factor h.y_zero
          obtain ⟨hinv, hne⟩ := near_inv hu hu1 he
          refine ⟨1, e⁻¹, fun _ => ⟨one, hinv.trans (by nlinarith), ?_⟩⟩
          rw [if_neg (lt_irrefl 0), zero_add, hy]
          have := h0 0 hi
          field_simp
        | succ i =>
          obtain ⟨p, r, hp, hr, hy⟩ := h.y_succ i hi
          obtain ⟨e1, he1, hp⟩ := fl_factor hp
          obtain ⟨e2, he2, hr⟩ := fl_factor hr
          obtain ⟨e3, he3, hy⟩ := fl_factor hy
          obtain ⟨hinv2, hne2⟩ := near_inv hu hu1 he2
          obtain ⟨hinv3, hne3⟩ := near_inv hu hu1 he3
          refine ⟨e1, e2⁻¹ * e3⁻¹, fun _ => ⟨by simpa using he1, near_mul hu hu1 (by norm_num) (by norm_num) hinv2 hinv3 (by norm_num), ?_⟩⟩
          rw [if_pos (by omega), Nat.add_sub_cancel, hy, hr, hp]
          have := h0 (i + 1) hi
          field_simp
          ring
      · exact ⟨1, 1, fun h => absurd h hi⟩
    choose e1 e he using this
    exact ⟨e1, e, he⟩
  · have : ∀ i, ∃ h1 h2 : ℝ, i < n → |h1 - 1| ≤ 1 * u ∧ |h2 - 1| ≤ 1.0102 * u ∧ y i = x i * h2 + if i + 1 < n then c i * h1 * x (i + 1) else 0 := by
      intro i
      by_cases hi : i + 1 < n
      · obtain ⟨p, hp, hx⟩ := h.x_run i hi
        obtain ⟨e1, he1, hp⟩ := fl_factor hp
        obtain ⟨e2, he2, hx⟩ := fl_factor hx
        obtain ⟨hinv2, hne2⟩ := near_inv hu hu1 he2
        refine ⟨e1, e2⁻¹, fun _ => ⟨by simpa using he1, hinv2, ?_⟩⟩
        rw [if_pos hi, hx, hp]
        field_simp
        ring
      · refine ⟨1, 1, fun h' => ⟨one, one.trans (by nlinarith), ?_⟩⟩
        have : i = n - 1 := by omega
        rw [if_neg hi, this, h.x_last]
        ring
    choose h1 h2 hh using this
    exact ⟨h1, h2, hh⟩
  · have : ∀ i, ∃ g1 g2 : ℝ, i < n → |g1 - 1| ≤ 1 * u ∧ |g2 - 1| ≤ 1 * u ∧ den i = (diag i - if 0 < i then sub i * c (i - 1) * g1 else 0) * g2 := by
      intro i
      by_cases hi : i < n
      · cases i with
        | zero => exact ⟨1, 1, fun _ => ⟨one, one, by rw [h.den_zero]; simp⟩⟩
        | succ i =>
          obtain ⟨p, hp, hd⟩ := h.den_succ i hi
          obtain ⟨e1, he1, hp⟩ := fl_factor hp
          obtain ⟨e2, he2, hd⟩ := fl_factor hd
          refine ⟨e1, e2, fun _ => ⟨by simpa using he1, by simpa using he2, ?_⟩⟩
          rw [if_pos (by omega), Nat.add_sub_cancel, hd, hp]
      · exact ⟨1, 1, fun h => absurd h hi⟩
    choose g1 g2 hg using this
    exact ⟨g1, g2, hg⟩
  · have : ∀ i, ∃ k : ℝ, i < n → |k - 1| ≤ 1 * u ∧ c i * den i = upp i * k := by
      intro i
      by_cases hi : i < n
      · obtain ⟨e, he, hc⟩ := fl_factor (h.c_run i hi)
        refine ⟨e, fun _ => ⟨by simpa using he, ?_⟩⟩
        have := h0 i hi
        rw [hc]
        field_simp
      · exact ⟨1, fun h => absurd h hi⟩
    choose k hk using this
    exact ⟨k, hk⟩

/-- C98. Backward stability: for a dominant matrix the floating-point result is the exact solution of a system whose entries differ from those of the given one by at most `12 u` relatively; the zero entries and the
right-hand side are unchanged. No growth with the size of the matrix. -/
theorem c98_backward_stable {u : ℝ} (hu : 0 ≤ u) (hu1 : u ≤ 1 / 100) {n : ℕ} {sub diag upp b c y den x : ℕ → ℝ} (hd : Dominant u n sub diag upp) (h : TriFl u n sub diag upp b c y den x) :
    ∃ A : ℕ → ℕ → ℝ, (∀ i < n, ∀ j < n, |A i j - entry sub diag upp i j| ≤ 12 * u * |entry sub diag upp i j|) ∧ Solves n A x b := by
  have piv := pivots hu hu1 hd h
  obtain ⟨⟨e1, e, he⟩, ⟨h1, h2, hh⟩, ⟨g1, g2, hg⟩, ⟨k, hk⟩⟩ := row_data hu hu1 h fun i hi => (piv i hi).1
  refine ⟨entry (fun i => sub i * (e1 i * h2 (i - 1))) (fun i => (if 0 < i then sub i * c (i - 1) * (e1 i * h1 (i - 1)) else 0) + den i * e i * h2 i) (fun i => upp i * (k i * e i * h1 i)), ?_, ?_⟩
  · intro i hi j hj
    unfold entry
    obtain ⟨he1, hee, -⟩ := he i hi
    obtain ⟨hh1, hh2, -⟩ := hh i hi
    obtain ⟨hg1, hg2, hden⟩ := hg i hi
    obtain ⟨hk1, -⟩ := hk i hi
    by_cases c1 : j = i
    · simp only [if_pos c1]
      obtain ⟨θ, hθ⟩ : ∃ θ, θ = g2 i * e i * h2 i := ⟨_, rfl⟩
      have bθ : |θ - 1| ≤ 4.0925 * u := by
        rw [hθ]
        refine near_mul hu hu1 (α := 3.0511) (by norm_num) (by norm_num) ?_ hh2 (by norm_num)
        exact near_mul hu hu1 (by norm_num) (by norm_num) hg2 hee (by norm_num)
      by_cases hi0 : 0 < i
      · simp only [if_pos hi0] at hden ⊢
        obtain ⟨hh1', hh2', -⟩ := hh (i - 1) (by omega)
        have bc := (piv (i - 1) (by omega)).2 (by omega)
        have b1 : |e1 i * h1 (i - 1) - 1| ≤ 2.01 * u := near_mul hu hu1 (by norm_num) (by norm_num) he1 hh1' (by norm_num)
        have b2 : |g1 i * θ - 1| ≤ 5.1335 * u := near_mul hu hu1 (by norm_num) (by norm_num) hg1 bθ (by norm_num)
        have hsd : |sub i| ≤ |diag i| := by
          have := hd i hi
          rw [if_pos hi0] at this
          have h3 : 0 ≤ (if i + 1 < n then |upp i| else 0) := by split <;> simp
          have := abs_nonneg (sub i)
          have := abs_nonneg (diag i)
          nlinarith
        rw [hden, show sub i * c (i - 1) * (e1 i * h1 (i - 1)) + (diag i - sub i * c (i - 1) * g1 i) * g2 i * e i * h2 i - diag i =
            diag i * (θ - 1) + sub i * c (i - 1) * ((e1 i * h1 (i - 1) - 1) - (g1 i * θ - 1)) by rw [hθ]; ring]
        calc |diag i * (θ - 1) + sub i * c (i - 1) * ((e1 i * h1 (i - 1) - 1) - (g1 i * θ - 1))|
            ≤ |diag i| * |θ - 1| + |sub i| * |c (i - 1)| * (|e1 i * h1 (i - 1) - 1| + |g1 i * θ - 1|) := by
              refine (abs_add_le _ _).trans (add_le_add (abs_mul _ _).le ?_)
              rw [abs_mul, abs_mul]
              exact mul_le_mul_of_nonneg_left (abs_sub _ _) (by positivity)
          _ ≤ |diag i| * (4.0925 * u) + |diag i| * 1 * (2.01 * u + 5.1335 * u) := by gcongr
          _ ≤ 12 * u * |diag i| := by nlinarith [mul_nonneg hu (abs_nonneg (diag i))]
      · simp only [if_neg hi0, sub_zero, zero_add] at hden ⊢
        rw [hden, show diag i * g2 i * e i * h2 i - diag i = (θ - 1) * diag i by rw [hθ]; ring, abs_mul]
        exact mul_le_mul_of_nonneg_right (bθ.trans (by nlinarith)) (abs_nonneg _)
    · simp only [if_neg c1]
      by_cases c2 : j + 1 = i
      · simp only [if_pos c2]
        obtain ⟨hh1', hh2', -⟩ := hh (i - 1) (by omega)
        have : |e1 i * h2 (i - 1) - 1| ≤ 2.0204 * u := near_mul hu hu1 (by norm_num) (by norm_num) he1 hh2' (by norm_num)
        rw [show sub i * (e1 i * h2 (i - 1)) - sub i = (e1 i * h2 (i - 1) - 1) * sub i by ring, abs_mul]
        exact mul_le_mul_of_nonneg_right (this.trans (by nlinarith)) (abs_nonneg _)
      · simp only [if_neg c2]
        by_cases c3 : j = i + 1
        · simp only [if_pos c3]
          have : |k i * e i * h1 i - 1| ≤ 4.0817 * u := by
            refine near_mul hu hu1 (α := 3.0511) (by norm_num) (by norm_num) ?_ hh1 (by norm_num)
            exact near_mul hu hu1 (by norm_num) (by norm_num) hk1 hee (by norm_num)
          rw [show upp i * (k i * e i * h1 i) - upp i = (k i * e i * h1 i - 1) * upp i by ring, abs_mul]
          exact mul_le_mul_of_nonneg_right (this.trans (by nlinarith)) (abs_nonneg _)
        · simp [c3]
  · intro i hi
    rw [row_sum n _ _ _ _ hi]
    obtain ⟨-, -, hrow⟩ := he i hi
    obtain ⟨-, -, hy⟩ := hh i hi
    obtain ⟨-, hkc⟩ := hk i hi
    rw [← hrow, hy]
    by_cases hi0 : 0 < i
    · obtain ⟨-, -, hy'⟩ := hh (i - 1) (by omega)
      rw [if_pos (by omega), Nat.sub_add_cancel hi0] at hy'
      simp only [if_pos hi0]
      rw [hy']
      by_cases hin : i + 1 < n
      · simp only [if_pos hin]
        linear_combination (-(e i * h1 i * x (i + 1))) * hkc
      · simp only [if_neg hin]
        ring
    · simp only [if_neg hi0]
      by_cases hin : i + 1 < n
      · simp only [if_pos hin]
        linear_combination (-(e i * h1 i * x (i + 1))) * hkc
      · simp only [if_neg hin]
        ring

/-- A vector is bounded by its image under a row-dominant matrix: maximum principle. -/
theorem dominant_bound {n : ℕ} {sub diag upp w r : ℕ → ℝ} {α R : ℝ} (hα : 0 < α)
    (hdom : ∀ i < n, (if 0 < i then |sub i| else 0) + (if i + 1 < n then |upp i| else 0) + α ≤ |diag i|) (hw : Solves n (entry sub diag upp) w r) (hr : ∀ i < n, |r i| ≤ R) : ∀ i < n, |w i| ≤ R / α := by
  intro i hi
  obtain ⟨m, hm, hmax⟩ := (Finset.range n).exists_max_image (fun i => |w i|) ⟨i, Finset.mem_range.2 hi⟩
  rw [Finset.mem_range] at hm
  refine (hmax i (Finset.mem_range.2 hi)).trans ?_
  rw [le_div_iff₀ hα]
  have row := hw m hm
  rw [row_sum n sub diag upp w hm] at row
  have b1 : |if 0 < m then sub m * w (m - 1) else 0| ≤ (if 0 < m then |sub m| else 0) * |w m| := by
    split
    · rw [abs_mul]; exact mul_le_mul_of_nonneg_left (hmax (m - 1) (Finset.mem_range.2 (by omega))) (abs_nonneg _)
    · simp
  have b2 : |if m + 1 < n then upp m * w (m + 1) else 0| ≤ (if m + 1 < n then |upp m| else 0) * |w m| := by
    split
    · rename_i h
      rw [abs_mul]; exact mul_le_mul_of_nonneg_left (hmax (m + 1) (Finset.mem_range.2 h)) (abs_nonneg _)
    · simp
  have b3 : |diag m| * |w m| ≤ |r m| + (if 0 < m then |sub m| else 0) * |w m| + (if m + 1 < n then |upp m| else 0) * |w m| := by
    rw [← abs_mul, show diag m * w m = r m - (if 0 < m then sub m * w (m - 1) else 0) - (if m + 1 < n then upp m * w (m + 1) else 0) by rw [← row]; ring]
    refine (abs_sub _ _).trans (add_le_add ((abs_sub _ _).trans (add_le_add le_rfl b1)) b2)
  have := hdom m hm
  have hR := hr m hm
  nlinarith [abs_nonneg (w m)]

/-- C98. Forward error: with a margin `α` of dominance, rows of absolute sum at most `S` and a computed solution of size at most `M`, the distance to the exact solution is at most `12 u S M / α`, whatever the size. -/
theorem c98_forward_error {u : ℝ} (hu : 0 ≤ u) (hu1 : u ≤ 1 / 100) {n : ℕ} {sub diag upp b c y den x z : ℕ → ℝ} (hd : Dominant u n sub diag upp) (h : TriFl u n sub diag upp b c y den x)
    (hz : Solves n (entry sub diag upp) z b) {α S M : ℝ} (hα : 0 < α)
    (hdom : ∀ i < n, (if 0 < i then |sub i| else 0) + (if i + 1 < n then |upp i| else 0) + α ≤ |diag i|)
    (hS : ∀ i < n, ∑ j ∈ range n, |entry sub diag upp i j| ≤ S) (hM : ∀ i < n, |x i| ≤ M) : ∀ i < n, |x i - z i| ≤ 12 * u * S * M / α := by
  obtain ⟨A, hA, hx⟩ := c98_backward_stable hu hu1 hd h
  refine dominant_bound (w := fun i => x i - z i) (r := fun i => ∑ j ∈ range n, (entry sub diag upp i j - A i j) * x j) hα hdom (fun i hi => ?_) fun i hi => ?_
  · have h1 := hx i hi
    have h2 := hz i hi
    simp only [mul_sub, sub_mul, Finset.sum_sub_distrib]
    rw [h1, h2]
  · have hM0 : 0 ≤ M := (abs_nonneg _).trans (hM i hi)
    calc |∑ j ∈ range n, (entry sub diag upp i j - A i j) * x j| ≤ ∑ j ∈ range n, |(entry sub diag upp i j - A i j) * x j| := Finset.abs_sum_le_sum_abs _ _
      _ ≤ ∑ j ∈ range n, 12 * u * M * |entry sub diag upp i j| := by
        refine Finset.sum_le_sum fun j hj => ?_
        rw [Finset.mem_range] at hj
        rw [abs_mul, abs_sub_comm]
        calc |A i j - entry sub diag upp i j| * |x j| ≤ (12 * u * |entry sub diag upp i j|) * M := mul_le_mul (hA i hi j hj) (hM j hj) (abs_nonneg _) (by positivity)
          _ = _ := by ring
      _ = 12 * u * M * ∑ j ∈ range n, |entry sub diag upp i j| := by rw [Finset.mul_sum]
      _ ≤ 12 * u * M * S := by gcongr; exact hS i hi
      _ = _ := by ring

/-- C98. For `u = 0` the run is unique and is the result of the solver with exact arithmetic (C23); for every `u` the exact computation is one of the runs: the relation extends the model of C23. -/
theorem c98_exact {n : ℕ} (hn : 0 < n) (sub diag upp b : ℕ → ℝ) :
    (∀ c y den x, TriFl 0 n sub diag upp b c y den x → ∀ i < n, x i = solveOne n sub diag upp b i) ∧
    ∀ u, 0 ≤ u → ∃ c y den, TriFl u n sub diag upp b c y den (solveOne n sub diag upp b) := by
  have z : ∀ {x y : ℝ}, Fl 0 x y → y = x := by
    rintro x y ⟨δ, hδ, rfl⟩
    rw [abs_nonpos_iff.1 hδ]
    ring
  obtain ⟨b1, b2, -⟩ := backward_eq n hn (cprim sub diag upp) (dprim sub diag upp b) b
  constructor
  · intro c y den x h
    have hc : ∀ i < n, c i = cprim sub diag upp i ∧ den i = pivot sub diag upp i := by
      intro i
      induction i with
      | zero => exact fun hi => ⟨by rw [z (h.c_run 0 hi), h.den_zero]; rfl, h.den_zero⟩
      | succ i ih =>
        intro hi
        obtain ⟨p, hp, hd⟩ := h.den_succ i hi
        have e : den (i + 1) = pivot sub diag upp (i + 1) := by rw [z hd, z hp, (ih (by omega)).1]; rfl
        exact ⟨by rw [z (h.c_run _ hi), e]; rfl, e⟩
    have hy : ∀ i < n, y i = dprim sub diag upp b i := by
      intro i
      induction i with
      | zero => exact fun hi => by rw [z h.y_zero, h.den_zero]; rfl
      | succ i ih =>
        intro hi
        obtain ⟨p, r, hp, hr, hy⟩ := h.y_succ i hi
        rw [z hy, z hr, z hp, ih (by omega), (hc (i + 1) hi).2]
        rfl
    have key : ∀ k i, i + k + 1 = n → x i = solveOne n sub diag upp b i := by
      intro k
      induction k with
      | zero =>
        intro i hi
        rw [show i = n - 1 by omega, h.x_last, hy _ (by omega)]
        exact b1.symm
      | succ k ih =>
        intro i hi
        obtain ⟨p, hp, hx⟩ := h.x_run i (by omega)
        rw [z hx, z hp, hy i (by omega), (hc i (by omega)).1, ih (i + 1) (by omega)]
        exact (b2 i (by omega)).symm
    exact fun i hi => key (n - 1 - i) i (by omega)
  · intro u hu
    refine ⟨cprim sub diag upp, dprim sub diag upp b, pivot sub diag upp, rfl, fun i _ => ?_, fl_exact hu _, fun i _ => ⟨_, fl_exact hu _, fl_exact hu _⟩, fun i _ => ⟨_, _, fl_exact hu _, fl_exact hu _, fl_exact hu _⟩, b1, fun i hi => ?_⟩
    · cases i <;> exact fl_exact hu _
    · refine ⟨_, fl_exact hu _, ?_⟩
      have := b2 i hi
      rw [show solveOne n sub diag upp b i = _ from this]
      exact fl_exact hu _

/-- The hypotheses are met, e.g. by the matrix with diagonals -1, 4, -1 of any size, in double precision. -/
example (n : ℕ) : Dominant (2⁻¹ ^ 53) n (fun _ => -1) (fun _ => 4) (fun _ => -1) := by
  intro i hi
  have h1 : (if 0 < i then |(-1 : ℝ)| else 0) ≤ 1 := by split <;> norm_num
  have h2 : (if i + 1 < n then |(-1 : ℝ)| else 0) ≤ 1 := by split <;> norm_num
  have : (2⁻¹ : ℝ) ^ 53 ≤ 1 / 100 := by norm_num
  have h3 : (0 : ℝ) ≤ 2⁻¹ ^ 53 := by positivity
  simp only
  generalize (if 0 < i then |(-1 : ℝ)| else 0) = a at h1 ⊢
  generalize (if i + 1 < n then |(-1 : ℝ)| else 0) = a' at h2 ⊢
  rw [show |(4 : ℝ)| = 4 by norm_num]
  calc (1 + 2⁻¹ ^ 53) * (a + a') ≤ (1 + 2⁻¹ ^ 53) * 2 := mul_le_mul_of_nonneg_left (by linarith) (by linarith)
    _ < (1 - 2⁻¹ ^ 53) * 4 := by linarith

/-- A run with rounding errors: 1/3 is not a double. -/
example : ∃ (u : ℝ) (c y den x : ℕ → ℝ), u ≤ 1 / 100 ∧ TriFl u 1 (fun _ => 0) (fun _ => 3) (fun _ => 0) (fun _ => 1) c y den x ∧ x 0 ≠ 1 / 3 := by
  refine ⟨1 / 1000, fun _ => 0, fun _ => 0.3333, fun _ => 3, fun _ => 0.3333, by norm_num, ⟨rfl, fun i hi => ⟨0, by norm_num, by norm_num⟩, ⟨-0.0001, ?_, by norm_num⟩, fun i hi => by omega, fun i hi => by omega, rfl, fun i hi => by omega⟩, by norm_num⟩
  rw [abs_neg, abs_of_pos (by norm_num)]
  norm_num

end Verif.Rounding
