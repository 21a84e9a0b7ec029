import Verif.Model.FloatWrap
import Verif.Props.LagrangeEvaluator
import Mathlib.Tactic.Linarith
import Mathlib.Tactic.Positivity
import Mathlib.Tactic.FieldSimp
import Mathlib.Tactic.Ring
import Mathlib.Tactic.LinearCombination
import Mathlib.Algebra.Order.Round
import Mathlib.Algebra.Order.Field.Power

/-!
# C102: periodic coordinates in floating-point arithmetic

Specification: a `double` is `m 2ᵉ` with `|m| < 2⁵³` (`IsDouble`).
-/

namespace Verif.FloatWrap

open Verif.Rounding Verif.LagrangeEvaluator

/-! ## Rounding to nearest -/

/-- The numbers of binary64, with an unbounded exponent. -/
def IsDouble (z : ℝ) : Prop := ∃ m e : ℤ, |m| < 2 ^ 53 ∧ z = m * 2 ^ e

theorem roundHalfEven_dist (t : ℝ) : |t - roundHalfEven t| ≤ 1 / 2 := by
  have h0 := Int.floor_le t
  have h1 := Int.lt_floor_add_one t
  unfold roundHalfEven
  split_ifs with a b c <;> push_cast <;> rw [abs_le] <;> constructor <;> linarith

/-- The rounded integer is a nearest one. -/
theorem roundHalfEven_nearest (t : ℝ) (k : ℤ) : |t - roundHalfEven t| ≤ |t - k| := by
  by_cases hk : roundHalfEven t = k
  · rw [hk]
  have h := roundHalfEven_dist t
  have h1 : (1 : ℝ) ≤ |(roundHalfEven t : ℝ) - k| := by
    have : (1 : ℤ) ≤ |roundHalfEven t - k| := Int.one_le_abs (sub_ne_zero.2 hk)
    exact_mod_cast this
  have h2 : |(roundHalfEven t : ℝ) - k| ≤ |t - roundHalfEven t| + |t - k| := by
    have := abs_sub_le (roundHalfEven t : ℝ) t k
    rwa [abs_sub_comm (roundHalfEven t : ℝ) t] at this
  linarith

/-- The exponent of a nonzero number. -/
theorem log_spec {x : ℝ} (hx : x ≠ 0) : (2 : ℝ) ^ (Int.log 2 |x|) ≤ |x| ∧ |x| < 2 ^ (Int.log 2 |x| + 1) := by
  have h := abs_pos.2 hx
  exact ⟨by exact_mod_cast Int.zpow_log_le_self (b := 2) (by norm_num) h, by exact_mod_cast Int.lt_zpow_succ_log_self (b := 2) (by norm_num) |x|⟩

theorem two_zpow_sub (a b : ℤ) : (2 : ℝ) ^ a = 2 ^ (a - b) * 2 ^ b := by
  rw [← zpow_add₀ (by norm_num : (2 : ℝ) ≠ 0)]; congr 1; ring

/-- **C102, rounding.** The relative error of one operation is at most `2⁻⁵³`: binary64 arithmetic satisfies the rounding relation of the floating-point models. -/
theorem c102_ieee_relative (x y : ℝ) (h : IEEE x y) : Fl (2⁻¹ ^ 53) x y := by
  unfold IEEE at h
  subst h
  by_cases hx : x = 0
  · refine ⟨0, by simp, ?_⟩
    subst hx
    simp [rn, roundHalfEven]
  obtain ⟨h1, -⟩ := log_spec hx
  obtain ⟨L, hL⟩ : ∃ L, L = Int.log 2 |x| := ⟨_, rfl⟩
  rw [← hL] at h1
  have hp : (0 : ℝ) < 2 ^ (L - 52) := by positivity
  have hd := roundHalfEven_dist (x / 2 ^ (L - 52))
  have herr : |x - rn x| ≤ 1 / 2 * 2 ^ (L - 52) := by
    have : x - rn x = (x / 2 ^ (L - 52) - roundHalfEven (x / 2 ^ (L - 52))) * 2 ^ (L - 52) := by
      unfold rn; rw [← hL, sub_mul, div_mul_cancel₀ _ hp.ne']
    rw [this, abs_mul, abs_of_pos hp]
    exact mul_le_mul_of_nonneg_right hd hp.le
  have h52 : (2 : ℝ) ^ L = 2 ^ 52 * 2 ^ (L - 52) := by
    rw [two_zpow_sub L (L - 52)]; congr 1; rw [show L - (L - 52) = 52 by ring]; norm_num
  refine ⟨(rn x - x) / x, ?_, by field_simp; ring⟩
  rw [abs_div, div_le_iff₀ (abs_pos.2 hx), abs_sub_comm]
  refine herr.trans ?_
  rw [h52] at h1
  have := mul_le_mul_of_nonneg_left h1 (by positivity : (0 : ℝ) ≤ 2⁻¹ ^ 53)
  refine le_trans (le_of_eq ?_) this
  ring

/-- The result of an operation is a `double`. -/
theorem rn_isDouble (x : ℝ) : IsDouble (rn x) := by
  by_cases hx : x = 0
  · subst hx; exact ⟨0, 0, by norm_num, by simp [rn, roundHalfEven]⟩
  obtain ⟨h1, h2⟩ := log_spec hx
  obtain ⟨L, hL⟩ : ∃ L, L = Int.log 2 |x| := ⟨_, rfl⟩
  rw [← hL] at h1 h2
  have hp : (0 : ℝ) < 2 ^ (L - 52) := by positivity
  obtain ⟨t, ht⟩ : ∃ t, t = x / 2 ^ (L - 52) := ⟨_, rfl⟩
  have hrn : rn x = roundHalfEven t * 2 ^ (L - 52) := by unfold rn; rw [← hL, ← ht]
  have htl : |t| < 2 ^ 53 := by
    rw [ht, abs_div, abs_of_pos hp, div_lt_iff₀ hp]
    refine h2.trans_le (le_of_eq ?_)
    rw [two_zpow_sub (L + 1) (L - 52), show L + 1 - (L - 52) = 53 by ring]; norm_num
  have hm : |roundHalfEven t| ≤ 2 ^ 53 := by
    have hd := roundHalfEven_dist t
    have : |(roundHalfEven t : ℝ)| < 2 ^ 53 + 1 := by
      have := abs_sub_abs_le_abs_sub (roundHalfEven t : ℝ) t
      rw [abs_sub_comm] at this
      linarith
    have : |roundHalfEven t| < 2 ^ 53 + 1 := by exact_mod_cast this
    omega
  rcases lt_or_eq_of_le hm with hlt | heq
  · exact ⟨roundHalfEven t, L - 52, hlt, hrn⟩
  · rcases eq_or_eq_neg_of_abs_eq heq with h | h
    · refine ⟨2 ^ 52, L - 51, by norm_num, ?_⟩
      rw [hrn, h, two_zpow_sub (L - 51) (L - 52), show L - 51 - (L - 52) = 1 by ring]; push_cast; ring
    · refine ⟨-2 ^ 52, L - 51, by norm_num, ?_⟩
      rw [hrn, h, two_zpow_sub (L - 51) (L - 52), show L - 51 - (L - 52) = 1 by ring]; push_cast; ring

/-- **C102, rounding.** The result of an operation is a `double`, and no `double` is nearer to the exact result. -/
theorem c102_ieee_nearest (x y : ℝ) (h : IEEE x y) : IsDouble y ∧ ∀ z, IsDouble z → |x - y| ≤ |x - z| := by
  unfold IEEE at h
  subst h
  refine ⟨rn_isDouble x, ?_⟩
  rintro z ⟨m, e, hm, rfl⟩
  by_cases hx : x = 0
  · subst hx; simp only [rn, roundHalfEven]; simp; positivity
  obtain ⟨h1, -⟩ := log_spec hx
  obtain ⟨L, hL⟩ : ∃ L, L = Int.log 2 |x| := ⟨_, rfl⟩
  rw [← hL] at h1
  have hp : (0 : ℝ) < 2 ^ (L - 52) := by positivity
  have key : ∀ k : ℤ, |x - rn x| ≤ |x - k * 2 ^ (L - 52)| := by
    intro k
    have e1 : x - rn x = (x / 2 ^ (L - 52) - roundHalfEven (x / 2 ^ (L - 52))) * 2 ^ (L - 52) := by
      unfold rn; rw [← hL, sub_mul, div_mul_cancel₀ _ hp.ne']
    have e2 : x - k * 2 ^ (L - 52) = (x / 2 ^ (L - 52) - k) * 2 ^ (L - 52) := by
      rw [sub_mul, div_mul_cancel₀ _ hp.ne']
    rw [e1, e2, abs_mul, abs_mul]
    exact mul_le_mul_of_nonneg_right (roundHalfEven_nearest _ k) (abs_nonneg _)
  rcases le_or_gt (L - 52) e with he | he
  · obtain ⟨n, hn⟩ := Int.eq_ofNat_of_zero_le (sub_nonneg.2 he)
    have := key (m * 2 ^ n)
    rw [two_zpow_sub e (L - 52), hn, zpow_natCast, ← mul_assoc]
    push_cast at this ⊢
    exact this
  · have hz : |(m : ℝ) * 2 ^ e| ≤ 2 ^ L := by
      rw [abs_mul, abs_of_pos (by positivity : (0 : ℝ) < 2 ^ e)]
      have hm' : |(m : ℝ)| ≤ 2 ^ 53 := by exact_mod_cast hm.le
      have he' : (2 : ℝ) ^ e ≤ 2 ^ (L - 53) := zpow_le_zpow_right₀ (by norm_num) (by omega)
      calc |(m : ℝ)| * 2 ^ e ≤ 2 ^ 53 * 2 ^ (L - 53) := mul_le_mul hm' he' (by positivity) (by positivity)
        _ = 2 ^ L := by rw [two_zpow_sub L (L - 53), show L - (L - 53) = 53 by ring]; norm_num
    have h52 : (2 : ℝ) ^ L = 2 ^ 52 * 2 ^ (L - 52) := by
      rw [two_zpow_sub L (L - 52)]; congr 1; rw [show L - (L - 52) = 52 by ring]; norm_num
    obtain ⟨hz1, hz2⟩ := abs_le.1 hz
    rcases le_total 0 x with h0 | h0
    · have := key (2 ^ 52)
      rw [show ((2 ^ 52 : ℤ) : ℝ) = 2 ^ 52 by norm_num, ← h52] at this
      refine this.trans ?_
      rw [abs_of_nonneg h0] at h1
      rw [abs_of_nonneg (by linarith), abs_of_nonneg (by linarith)]; linarith
    · have := key (-2 ^ 52)
      rw [show ((-2 ^ 52 : ℤ) : ℝ) = -2 ^ 52 by norm_num, neg_mul, ← h52] at this
      refine this.trans ?_
      rw [abs_of_nonpos h0] at h1
      rw [abs_of_nonpos (by linarith), abs_of_nonpos (by linarith)]; linarith

/-- A `double` is its own rounding (used to check witnesses). -/
theorem rn_eq_of_scale (x : ℝ) (L m : ℤ) (h1 : (2 : ℝ) ^ L ≤ |x|) (h2 : |x| < 2 ^ (L + 1)) (hm : roundHalfEven (x / 2 ^ (L - 52)) = m) : rn x = m * 2 ^ (L - 52) := by
  have hx : 0 < |x| := lt_of_lt_of_le (by positivity) h1
  have hL : Int.log 2 |x| = L := by
    apply le_antisymm
    · have := (Int.lt_zpow_iff_log_lt (b := 2) (by norm_num) hx (x := L + 1)).1 (by exact_mod_cast h2)
      omega
    · exact (Int.zpow_le_iff_le_log (b := 2) (by norm_num) hx).1 (by exact_mod_cast h1)
  unfold rn; rw [hL, hm]

/-! ## The wrap of a periodic coordinate -/

theorem Fl.dist {u x y : ℝ} (h : Fl u x y) : |y - x| ≤ u * |x| := by
  obtain ⟨δ, hδ, rfl⟩ := h
  rw [show x * (1 + δ) - x = δ * x by ring, abs_mul]
  exact mul_le_mul_of_nonneg_right hδ (abs_nonneg _)

/-- The computed quotient has a relative error of at most `4 u`. -/
theorem quotient_error {u a L d len q : ℝ} (hu0 : 0 ≤ u) (hu : u ≤ 1 / 5) (hL : 0 < L) (h1 : Fl u L len) (h2 : Fl u a d) (h3 : Fl u (d / len) q) :
    |q - a / L| ≤ 4 * u * |a / L| := by
  obtain ⟨δ1, hδ1, rfl⟩ := h1
  obtain ⟨δ2, hδ2, rfl⟩ := h2
  obtain ⟨δ3, hδ3, rfl⟩ := h3
  have b1 := abs_le.1 hδ1
  have b2 := abs_le.1 hδ2
  have b3 := abs_le.1 hδ3
  have hpos : 0 < 1 + δ1 := by linarith
  have e : a * (1 + δ2) / (L * (1 + δ1)) * (1 + δ3) - a / L = ((δ2 + δ3 + δ2 * δ3 - δ1) / (1 + δ1)) * (a / L) := by
    field_simp; ring
  rw [e, abs_mul]
  refine mul_le_mul_of_nonneg_right ?_ (abs_nonneg _)
  rw [abs_div, abs_of_pos hpos, div_le_iff₀ hpos]
  have h23 : |δ2 * δ3| ≤ u * u := by rw [abs_mul]; exact mul_le_mul hδ2 hδ3 (abs_nonneg _) hu0
  have : |δ2 + δ3 + δ2 * δ3 - δ1| ≤ u + u + u * u + u := by
    have b4 := abs_le.1 h23
    rw [abs_le]; constructor <;> linarith
  nlinarith

/-- **C102, accuracy of the wrap.** For every coordinate `x`, the wrapped coordinate `y` is, up to rounding errors, `x` moved by a whole number of periods, and it is, up to rounding errors, in the domain. -/
theorem c102_wrap_accuracy (u rmin rmax x y : ℝ) (hu0 : 0 ≤ u) (hu : u ≤ 1 / 5) (hr : rmin < rmax) (h : Wrap (Fl u) rmin rmax x y) :
    (∃ k : ℤ, |y - (x - k * (rmax - rmin))| ≤ 13 * u * (|x - rmin| + (rmax - rmin) + |rmin|)) ∧
      rmin - 13 * u * (|x - rmin| + (rmax - rmin) + |rmin|) ≤ y ∧ y ≤ rmax + 13 * u * (|x - rmin| + (rmax - rmin) + |rmin|) := by
  have hL : 0 < rmax - rmin := sub_pos.2 hr
  obtain ⟨L, hLe⟩ : ∃ L, L = rmax - rmin := ⟨_, rfl⟩
  obtain ⟨a, ha⟩ : ∃ a, a = x - rmin := ⟨_, rfl⟩
  have hη : 0 ≤ 13 * u * (|x - rmin| + (rmax - rmin) + |rmin|) := by positivity
  unfold Wrap at h
  split_ifs at h with hout
  · obtain ⟨len, d, q, p, h1, h2, h3, h4, h5⟩ := h
    have hq := quotient_error hu0 hu hL h1 h2 h3
    rw [← hLe] at h1 hq hL hη ⊢
    rw [← ha] at h2 hq hη ⊢
    have ha0 := abs_nonneg a
    -- the quotient, multiplied by the period
    have hQL : |a / L| * L = |a| := by rw [abs_div, abs_of_pos hL]; field_simp
    have hqL : |q * L - a| ≤ 4 * u * |a| := by
      have e : q * L - a = (q - a / L) * L := by field_simp
      rw [e, abs_mul, abs_of_pos hL, ← hQL, ← mul_assoc]
      exact mul_le_mul_of_nonneg_right hq hL.le
    have hua : u * |a| ≤ 1 / 5 * |a| := mul_le_mul_of_nonneg_right hu ha0
    have huL : u * L ≤ 1 / 5 * L := mul_le_mul_of_nonneg_right hu hL.le
    obtain ⟨K, hK⟩ : ∃ K : ℝ, K = (⌊q⌋ : ℝ) * L := ⟨_, rfl⟩
    have k1 : K ≤ q * L := by rw [hK]; exact mul_le_mul_of_nonneg_right (Int.floor_le q) hL.le
    have k2 : q * L ≤ K + L := by
      rw [hK]; have := mul_le_mul_of_nonneg_right (Int.lt_floor_add_one q).le hL.le; linarith
    have q1 := abs_le.1 hqL
    have a1 := abs_le.1 (le_refl |a|)
    have hKabs : |K| ≤ 2 * |a| + L := by rw [abs_le]; constructor <;> linarith
    -- the product
    have hp : |p - K| ≤ 3 * u * (2 * |a| + L) := by
      obtain ⟨δ1, hδ1, rfl⟩ := h1
      obtain ⟨δ4, hδ4, rfl⟩ := h4
      have e : (⌊q⌋ : ℝ) * (L * (1 + δ1)) * (1 + δ4) - K = (δ1 + δ4 + δ1 * δ4) * K := by rw [hK]; ring
      rw [e, abs_mul]
      have h14 : |δ1 * δ4| ≤ u * u := by rw [abs_mul]; exact mul_le_mul hδ1 hδ4 (abs_nonneg _) hu0
      have b : |δ1 + δ4 + δ1 * δ4| ≤ 3 * u := by
        have b1 := abs_le.1 hδ1
        have b4 := abs_le.1 hδ4
        have b5 := abs_le.1 h14
        have : u * u ≤ 1 / 5 * u := mul_le_mul_of_nonneg_right hu hu0
        rw [abs_le]; constructor <;> linarith
      exact mul_le_mul b hKabs (abs_nonneg _) (by positivity)
    have p1 := abs_le.1 hp
    -- the final subtraction
    have hxK1 : -(4 * u * |a|) ≤ x - K - rmin := by linarith
    have hxK2 : x - K - rmin ≤ L + 4 * u * |a| := by linarith
    have r1 := abs_le.1 (le_refl |rmin|)
    have hxp : |x - p| ≤ |rmin| + L + 4 * u * |a| + 3 * u * (2 * |a| + L) := by rw [abs_le]; constructor <;> linarith
    have hy := Fl.dist h5
    have hy2 : |y - (x - p)| ≤ u * |rmin| + u * L + 4 / 5 * (u * |a|) + 3 / 5 * (u * (2 * |a| + L)) := by
      refine hy.trans ((mul_le_mul_of_nonneg_left hxp hu0).trans ?_)
      have c1 : u * (u * |a|) ≤ 1 / 5 * (u * |a|) := mul_le_mul_of_nonneg_right hu (by positivity)
      have c2 : u * (u * (2 * |a| + L)) ≤ 1 / 5 * (u * (2 * |a| + L)) := mul_le_mul_of_nonneg_right hu (by positivity)
      linarith
    have y1 := abs_le.1 hy2
    have n1 : 0 ≤ u * |a| := by positivity
    have n2 : 0 ≤ u * L := by positivity
    have n3 : 0 ≤ u * |rmin| := by positivity
    refine ⟨⟨⌊q⌋, ?_⟩, ?_, ?_⟩
    · rw [← hK, abs_le]; constructor <;> linarith
    · linarith
    · linarith
  · subst h
    rw [not_or, not_lt, not_lt] at hout
    refine ⟨⟨0, ?_⟩, by linarith, by linarith⟩
    simpa using hη

/-- A coordinate of the domain is not changed, whatever the rounding. -/
theorem c102_wrap_inside (R : ℝ → ℝ → Prop) (rmin rmax x y : ℝ) (h : Wrap R rmin rmax x y) (h1 : rmin ≤ x) (h2 : x ≤ rmax) : y = x := by
  unfold Wrap at h
  rwa [if_neg (by rw [not_or, not_lt, not_lt]; exact ⟨h1, h2⟩)] at h

/-! ## The stencil on a uniform grid -/

/-- The computed offset. -/
theorem offset_error {u a dx d q A : ℝ} (hu0 : 0 ≤ u) (hu : u ≤ 1) (hdx : 0 < dx) (hA : |a| ≤ A) (h1 : Fl u a d) (h2 : Fl u (d / dx) q) : |q * dx - a| ≤ 3 * u * A := by
  obtain ⟨δ1, hδ1, rfl⟩ := h1
  obtain ⟨δ2, hδ2, rfl⟩ := h2
  have e : a * (1 + δ1) / dx * (1 + δ2) * dx - a = (δ1 + δ2 + δ1 * δ2) * a := by field_simp; ring
  rw [e, abs_mul]
  have h12 : |δ1 * δ2| ≤ u * u := by rw [abs_mul]; exact mul_le_mul hδ1 hδ2 (abs_nonneg _) hu0
  have b1 := abs_le.1 hδ1
  have b2 := abs_le.1 hδ2
  have b3 := abs_le.1 h12
  have b : |δ1 + δ2 + δ1 * δ2| ≤ 3 * u := by rw [abs_le]; constructor <;> nlinarith
  exact mul_le_mul b hA (abs_nonneg _) (by positivity)

/-- What `getclosest` returns for a coordinate near the domain: a knot of the domain, at a distance of at most half a cell (even degree) or the lower end of the cell (odd degree), up to rounding errors. -/
theorem closest_spec {u x0 dx η y : ℝ} {D Nl : ℕ} {c : ℤ} (hu0 : 0 ≤ u) (hu : u ≤ 1) (hdx : 0 < dx) (hη : 0 ≤ η) (hsmall : η + 3 * u * ((Nl + 1) * dx) ≤ dx / 4)
    (hy1 : x0 - η ≤ y) (hy2 : y ≤ x0 + Nl * dx + η) (hc : ClosestU (Fl u) D x0 dx y c) :
    0 ≤ c ∧ c ≤ Nl ∧ (D % 2 = 0 → |y - (x0 + c * dx)| ≤ dx / 2 + 3 * u * ((Nl + 1) * dx)) ∧
      (D % 2 = 1 → x0 + c * dx - (η + 3 * u * ((Nl + 1) * dx)) ≤ y ∧ y ≤ x0 + (c + 1) * dx + 3 * u * ((Nl + 1) * dx)) := by
  obtain ⟨d, q, h1, h2, rfl⟩ := hc
  obtain ⟨e, he⟩ : ∃ e, e = 3 * u * ((Nl + 1) * dx) := ⟨_, rfl⟩
  have he0 : 0 ≤ e := by rw [he]; positivity
  have hA : |y - x0| ≤ (Nl + 1) * dx := by
    rw [← he] at hsmall
    have : (0 : ℝ) ≤ Nl * dx := by positivity
    rw [abs_le]; constructor <;> linarith
  have ho := offset_error hu0 hu hdx hA h1 h2
  rw [← he] at ho hsmall ⊢
  have o := abs_le.1 ho
  have q1 : -(1 / 4) ≤ q := by by_contra hh; have : q * dx < -(1 / 4) * dx := mul_lt_mul_of_pos_right (not_le.1 hh) hdx; linarith
  have q2 : q ≤ Nl + 1 / 4 := by by_contra hh; have : (Nl + 1 / 4) * dx < q * dx := mul_lt_mul_of_pos_right (not_le.1 hh) hdx; linarith
  have hN0 : (0 : ℝ) ≤ Nl := Nat.cast_nonneg _
  rcases Nat.mod_two_eq_zero_or_one D with hD | hD
  · rw [if_pos hD]
    have hr : |q - roundAway q| ≤ 1 / 2 := by
      unfold roundAway
      split_ifs with h0
      · have f1 := Int.floor_le (q + 1 / 2)
        have f2 := Int.lt_floor_add_one (q + 1 / 2)
        rw [abs_le]; constructor <;> linarith
      · have f1 := Int.le_ceil (q - 1 / 2)
        have f2 := Int.ceil_lt_add_one (q - 1 / 2)
        rw [abs_le]; constructor <;> linarith
    have r := abs_le.1 hr
    refine ⟨?_, ?_, fun _ => ?_, fun h => absurd h (by omega)⟩
    · have : (-1 : ℝ) < roundAway q := by linarith
      have : (-1 : ℤ) < roundAway q := by exact_mod_cast this
      omega
    · have : (roundAway q : ℝ) < Nl + 1 := by linarith
      have : roundAway q < (Nl : ℤ) + 1 := by exact_mod_cast this
      omega
    · have m1 := mul_le_mul_of_nonneg_right r.1 hdx.le
      have m2 := mul_le_mul_of_nonneg_right r.2 hdx.le
      rw [abs_le]; constructor <;> linarith
  · rw [if_neg (by omega)]
    unfold trunc
    split_ifs with h0
    · have f1 := Int.floor_le q
      have f2 := Int.lt_floor_add_one q
      refine ⟨Int.floor_nonneg.2 h0, ?_, fun h => absurd h (by omega), fun _ => ?_⟩
      · have : (⌊q⌋ : ℝ) < Nl + 1 := by linarith
        have : ⌊q⌋ < (Nl : ℤ) + 1 := by exact_mod_cast this
        omega
      · have m1 := mul_le_mul_of_nonneg_right f1 hdx.le
        have m2 := mul_le_mul_of_nonneg_right f2.le hdx.le
        constructor <;> linarith
    · have hz : ⌈q⌉ = 0 := by rw [Int.ceil_eq_iff]; push_cast; constructor <;> linarith
      rw [hz]
      have m : q * dx ≤ 0 := mul_nonpos_of_nonpos_of_nonneg (by linarith) hdx.le
      refine ⟨le_refl _, by positivity, fun h => absurd h (by omega), fun _ => ?_⟩
      push_cast
      constructor <;> linarith

/-- **C102, stencil.** For every coordinate in the domain enlarged by a quarter of a cell and every rounding, the stencil chosen by the evaluator of a periodic uniform basis is inside the knots `0 .. Nl + D` of the
basis, and the coordinate handed to the basis is, up to rounding errors, at most half a cell away from the middle of the stencil. `kn` are the computed coordinates of the knots (of error at most `τ`). -/
theorem c102_uniform_stencil (u x0 dx η τ y : ℝ) (D Nl : ℕ) (kn : ℤ → ℝ) (c : ℤ) (hu0 : 0 ≤ u) (hu : u ≤ 1) (hdx : 0 < dx) (hη : 0 ≤ η) (hτ : 0 ≤ τ) (hD : 0 < D) (hDN : D ≤ Nl)
    (hkn : ∀ k : ℤ, 0 ≤ k → k ≤ Nl + D → |kn k - (x0 + k * dx)| ≤ τ) (hsmall : η + 3 * u * ((Nl + 1) * dx) ≤ dx / 4)
    (hy1 : x0 - η ≤ y) (hy2 : y ≤ x0 + Nl * dx + η) (hc : ClosestU (Fl u) D x0 dx y c) :
    0 ≤ c ∧ c ≤ Nl ∧ 0 ≤ stencilStart D Nl kn c y ∧ stencilStart D Nl kn c y + D ≤ Nl + D ∧
      ∀ x', Shifted (Fl u) (kn 0) (kn Nl) c (stencilStart D Nl kn c y) y x' →
        |x' - (x0 + (stencilStart D Nl kn c y + D / 2) * dx)| ≤ dx / 2 + (η + 10 * τ + 4 * u * (|x0| + 2 * ((Nl + 1) * dx))) := by
  obtain ⟨hc0, hcN, heven, hodd⟩ := closest_spec hu0 hu hdx hη hsmall hy1 hy2 hc
  obtain ⟨W, hW⟩ : ∃ W, W = (Nl + 1) * dx := ⟨_, rfl⟩
  have hW0 : 0 ≤ W := by rw [hW]; positivity
  rw [← hW] at hsmall heven hodd ⊢
  refine ⟨hc0, hcN, ?_⟩
  obtain ⟨st, hst⟩ : ∃ st : ℤ, st = -((D / 2 : ℕ) : ℤ) - ((D % 2 : ℕ) : ℤ) * (if kn c > y then 1 else 0) := ⟨_, rfl⟩
  obtain ⟨w, hw⟩ : ∃ w : ℤ, w = if 0 - c > st then 1 else 0 := ⟨_, rfl⟩
  have hs : stencilStart D Nl kn c y = c + (Nl : ℤ) * w + st := by unfold stencilStart; simp only; rw [← hst, ← hw]
  have hst1 : st ≤ 0 := by rw [hst]; split_ifs <;> omega
  have hst2 : -(D : ℤ) ≤ st := by rw [hst]; split_ifs <;> omega
  have hwcase : (w = 1 ∧ c + st < 0) ∨ (w = 0 ∧ 0 ≤ c + st) := by rw [hw]; split_ifs <;> [left; right] <;> omega
  have hs0 : 0 ≤ stencilStart D Nl kn c y := by rw [hs]; rcases hwcase with ⟨h1, h2⟩ | ⟨h1, h2⟩ <;> rw [h1] <;> omega
  have hsN : stencilStart D Nl kn c y ≤ Nl := by rw [hs]; rcases hwcase with ⟨h1, h2⟩ | ⟨h1, h2⟩ <;> rw [h1] <;> omega
  refine ⟨hs0, by omega, fun x' hx' => ?_⟩
  have hkc := abs_le.1 (hkn c hc0 (by omega))
  have huW : 0 ≤ u * W := by positivity
  have hux : 0 ≤ u * |x0| := by positivity
  -- the coordinate is near the middle of the (possibly virtual) knots `c + st` and `c + st + D`, up to rounding
  have hloc' : x0 + ((c + st : ℤ) + D / 2 - 1 / 2) * dx - (η + τ + 3 * u * W) ≤ y ∧ y ≤ x0 + ((c + st : ℤ) + D / 2 + 1 / 2) * dx + (η + τ + 3 * u * W) := by
    rcases Nat.mod_two_eq_zero_or_one D with hDm | hDm
    · obtain ⟨m, hm⟩ : ∃ m : ℕ, D = 2 * m := ⟨D / 2, by omega⟩
      have hst' : st = -(m : ℤ) := by rw [hst, hDm]; simp; omega
      have hy := abs_le.1 (heven hDm)
      have hm1 : (1 : ℝ) ≤ m := by exact_mod_cast (by omega : 1 ≤ m)
      have := mul_le_mul_of_nonneg_right hm1 hdx.le
      rw [hst', hm]
      push_cast
      constructor <;> linarith
    · obtain ⟨m, hm⟩ : ∃ m : ℕ, D = 2 * m + 1 := ⟨D / 2, by omega⟩
      obtain ⟨hy1', hy2'⟩ := hodd hDm
      have hm1 : (0 : ℝ) ≤ m := Nat.cast_nonneg m
      have := mul_nonneg hm1 hdx.le
      by_cases hgt : kn c > y
      · have hst' : st = -(m : ℤ) - 1 := by rw [hst, hDm, if_pos hgt]; omega
        rw [hst', hm]
        push_cast
        constructor <;> linarith
      · have hst' : st = -(m : ℤ) := by rw [hst, hDm, if_neg hgt]; omega
        rw [hst', hm]
        push_cast
        constructor <;> linarith
  obtain ⟨hloc1, hloc2⟩ := hloc'
  unfold Shifted at hx'
  rcases hwcase with ⟨h1, h2⟩ | ⟨h1, h2⟩
  · by_cases hgt : stencilStart D Nl kn c y > c
    swap
    · -- one cell and degree one: the stencil is the whole domain
      rw [if_neg hgt] at hx'
      subst hx'
      have hsc : stencilStart D Nl kn c x' = c + Nl + st := by rw [hs, h1]; ring
      by_cases hkgt : kn c > x'
      · rw [if_pos hkgt] at hst
        have hc00 : c = 0 := by omega
        have hDD : D = 1 := by omega
        have hs00 : stencilStart D Nl kn c x' = 0 := by omega
        rw [hs00, hDD]
        rw [hc00] at hkgt hkc
        push_cast at hkc ⊢
        rw [abs_le]; constructor <;> linarith
      · rw [if_neg hkgt] at hst
        omega
    rw [if_pos hgt] at hx'
    obtain ⟨len, hlen, hx'⟩ := hx'
    have hkN := abs_le.1 (hkn Nl (by omega) (by omega))
    have hk0 := abs_le.1 (hkn 0 (by omega) (by omega))
    push_cast at hkN hk0
    have hs' : stencilStart D Nl kn c y = c + st + Nl := by rw [hs, h1]; ring
    rw [hs']
    push_cast at hloc1 hloc2 ⊢
    have hNW : (Nl : ℝ) * dx ≤ W := by rw [hW]; linarith
    have hN0 : (0 : ℝ) ≤ Nl * dx := by positivity
    have hlen' := Fl.dist hlen
    have hlenb : |len - (kn Nl - kn 0)| ≤ u * (W + 2 * τ) := by
      refine hlen'.trans (mul_le_mul_of_nonneg_left ?_ hu0)
      rw [abs_le]; constructor <;> linarith
    have huτ : u * τ ≤ τ := mul_le_of_le_one_left hτ hu
    have huτ0 : 0 ≤ u * τ := by positivity
    have l := abs_le.1 hlenb
    have hxx := Fl.dist hx'
    have x0a := abs_le.1 (le_refl |x0|)
    have hyl : |y + len| ≤ |x0| + 2 * W + W + 4 * τ := by
      have : u * (W + 2 * τ) ≤ 1 * (W + 2 * τ) := mul_le_mul_of_nonneg_right hu (by positivity)
      have : η ≤ dx / 4 := by linarith
      have : Nl * dx + dx = W := by rw [hW]; ring
      rw [abs_le]; constructor <;> linarith
    have hxb : |x' - (y + len)| ≤ u * |x0| + 3 * (u * W) + 4 * τ := by
      refine hxx.trans ((mul_le_mul_of_nonneg_left hyl hu0).trans ?_)
      linarith
    have xb := abs_le.1 hxb
    rw [abs_le]; constructor <;> linarith
  · rw [if_neg (by rw [hs, h1]; omega)] at hx'
    subst hx'
    have hs' : stencilStart D Nl kn c x' = c + st := by rw [hs, h1]; ring
    rw [hs']
    push_cast at hloc1 hloc2 ⊢
    rw [abs_le]; constructor <;> linarith

/-- **C102, uniform periodic evaluator.** Every index used by the evaluator is inside the knots of the basis, for every coordinate `x` (inside or outside of the domain) and every rounding, as long as the rounding errors
for numbers of the size of `x` are small compared to the cells. -/
theorem c102_uniform_in_range (u x0 dx τ x y : ℝ) (D Nl : ℕ) (kn : ℤ → ℝ) (c : ℤ) (hu0 : 0 ≤ u) (hu : u ≤ 1 / 5) (hdx : 0 < dx) (hτ : 0 ≤ τ) (hD : 0 < D) (hDN : D ≤ Nl)
    (hkn : ∀ k : ℤ, 0 ≤ k → k ≤ Nl + D → |kn k - (x0 + k * dx)| ≤ τ) (hkn0 : kn 0 = x0)
    (hsmall : 13 * u * (|x - x0| + (Nl * dx + τ) + |x0|) + τ + 3 * u * ((Nl + 1) * dx) ≤ dx / 4)
    (hy : Wrap (Fl u) (kn 0) (kn Nl) x y) (hc : ClosestU (Fl u) D x0 dx y c) :
    0 ≤ c ∧ c ≤ Nl ∧ 0 ≤ stencilStart D Nl kn c y ∧ stencilStart D Nl kn c y + D ≤ Nl + D := by
  have hkN := abs_le.1 (hkn Nl (by omega) (by omega))
  push_cast at hkN
  have hN1 : (1 : ℝ) ≤ Nl := by exact_mod_cast (by omega : 1 ≤ Nl)
  have hNd := mul_le_mul_of_nonneg_right hN1 hdx.le
  have huN : 0 ≤ u * ((Nl + 1) * dx) := by positivity
  have hη : 0 ≤ 13 * u * (|x - x0| + (Nl * dx + τ) + |x0|) := by positivity
  have hlt : kn 0 < kn Nl := by rw [hkn0]; linarith
  obtain ⟨-, b1, b2⟩ := c102_wrap_accuracy u (kn 0) (kn Nl) x y hu0 hu hlt hy
  rw [hkn0] at b1 b2
  have hle : 13 * u * (|x - x0| + (kn Nl - x0) + |x0|) ≤ 13 * u * (|x - x0| + (Nl * dx + τ) + |x0|) := mul_le_mul_of_nonneg_left (by linarith) (by positivity)
  have h := c102_uniform_stencil u x0 dx (13 * u * (|x - x0| + (Nl * dx + τ) + |x0|) + τ) τ y D Nl kn c hu0 (by linarith) hdx (by linarith) hτ hD hDN hkn (by linarith) (by linarith) (by linarith) hc
  exact ⟨h.1, h.2.1, h.2.2.1, h.2.2.2.1⟩

theorem exists_ieee_closest (D : ℕ) (x0 dx y : ℝ) : ∃ c, ClosestU IEEE D x0 dx y c := ⟨_, _, _, rfl, rfl, rfl⟩

theorem exists_ieee_wrap (rmin rmax x : ℝ) : ∃ y, Wrap IEEE rmin rmax x y := by
  unfold Wrap
  split_ifs
  · exact ⟨_, _, _, _, _, rfl, rfl, rfl, rfl, rfl⟩
  · exact ⟨x, rfl⟩

theorem Wrap.mono {R R' : ℝ → ℝ → Prop} (h : ∀ x y, R x y → R' x y) {rmin rmax x y : ℝ} (hw : Wrap R rmin rmax x y) : Wrap R' rmin rmax x y := by
  unfold Wrap at hw ⊢
  split_ifs at hw ⊢
  · obtain ⟨len, d, q, p, h1, h2, h3, h4, h5⟩ := hw
    exact ⟨len, d, q, p, h _ _ h1, h _ _ h2, h _ _ h3, h _ _ h4, h _ _ h5⟩
  · exact hw

theorem ClosestU.mono {R R' : ℝ → ℝ → Prop} (h : ∀ x y, R x y → R' x y) {D : ℕ} {x0 dx y : ℝ} {c : ℤ} (hc : ClosestU R D x0 dx y c) : ClosestU R' D x0 dx y c := by
  obtain ⟨d, q, h1, h2, h3⟩ := hc
  exact ⟨d, q, h _ _ h1, h _ _ h2, h3⟩

/-- The hypotheses are satisfied by binary64 arithmetic on the unit grid `0, 1, ..., 100` and cubic interpolation, for a coordinate a million periods away from the domain. -/
example : ∃ y c, Wrap IEEE 0 100 100000000.7 y ∧ ClosestU IEEE 3 0 1 y c ∧ 0 ≤ c ∧ c ≤ 100 ∧ 0 ≤ stencilStart 3 100 (fun k => k) c y ∧ stencilStart 3 100 (fun k => k) c y + 3 ≤ 103 := by
  obtain ⟨y, hy⟩ := exists_ieee_wrap 0 100 100000000.7
  obtain ⟨c, hc⟩ := exists_ieee_closest 3 0 1 y
  refine ⟨y, c, hy, hc, ?_⟩
  have h := c102_uniform_in_range (2⁻¹ ^ 53) 0 1 0 100000000.7 y 3 100 (fun k => k) c (by positivity) (by norm_num) (by norm_num) (by norm_num) (by norm_num) (by norm_num)
    (fun k _ _ => by simp) (by simp) (by norm_num [abs_of_pos]) (by simpa using hy.mono c102_ieee_relative) (hc.mono c102_ieee_relative)
  exact_mod_cast h

/-! ## The search of the cell on a non-uniform grid -/

theorem searchCell_outside (knot : ℕ → ℝ) (x : ℝ) (Nl : ℕ) (h : (∀ k ≤ Nl, x < knot k) ∨ ∀ k ≤ Nl, knot k < x) (a b : ℕ) (hb : b ≤ Nl) (hab : a < b) : searchCell knot x a b = none := by
  induction hn : b - a using Nat.strong_induction_on generalizing a b with
  | _ n ih =>
    rw [searchCell]
    rcases h with h | h
    · have h1 := h (a + (b - a) / 2) (by omega)
      simp only [h1, true_or, if_true]
      split
      · rfl
      · exact ih _ (by omega) a (a + (b - a) / 2) (by omega) (by omega) rfl
    · have h1 := h (a + (b - a) / 2 + 1) (by omega)
      have h0 := h (a + (b - a) / 2) (by omega)
      simp only [h1, or_true, if_true, not_lt.2 h0.le, if_false]
      split
      · rfl
      · exact ih _ (by omega) (a + (b - a) / 2) b hb (by omega) rfl

/-- **C102, non-uniform grids.** The search of the cell ends if and only if the coordinate is in the domain, both ends included: there is no tolerance for rounding errors. -/
theorem c102_non_uniform_search (D Nl : ℕ) (hNl : 0 < Nl) (knot : ℕ → ℝ) (hk : Increasing Nl knot) (x : ℝ) : getclosestNU D Nl knot x = none ↔ x < knot 0 ∨ knot Nl < x := by
  constructor
  · intro h
    by_contra hcon
    rw [not_or, not_lt, not_lt] at hcon
    obtain ⟨e, he, -⟩ := searchCell_spec knot x 0 Nl hNl hcon.1 hcon.2
    unfold getclosestNU at h
    rw [he] at h
    simp at h
  · intro h
    unfold getclosestNU
    rw [searchCell_outside knot x Nl ?_ 0 Nl le_rfl hNl]
    · rfl
    · rcases h with h | h
      · exact Or.inl fun k hkN => lt_of_lt_of_le h (hk.le (Nat.zero_le k) hkN)
      · exact Or.inr fun k hkN => lt_of_le_of_lt (hk.le hkN le_rfl) h

/-! ## A coordinate that is wrapped to a point outside of the domain -/

theorem roundHalfEven_of (t : ℝ) (m : ℤ) (h : |t - m| < 1 / 2) : roundHalfEven t = m := by
  have h1 := roundHalfEven_dist t
  have h2 : |(roundHalfEven t : ℝ) - m| < 1 := by
    have := abs_sub_le (roundHalfEven t : ℝ) t m
    rw [abs_sub_comm (roundHalfEven t : ℝ) t] at this
    linarith
  have h3 : |roundHalfEven t - m| < 1 := by exact_mod_cast h2
  rw [Int.abs_lt_one_iff] at h3
  omega

theorem roundHalfEven_tie_up (t : ℝ) (m : ℤ) (h : t = m - 1 / 2) (hm : m % 2 = 0) : roundHalfEven t = m := by
  have hf : ⌊t⌋ = m - 1 := by rw [Int.floor_eq_iff]; push_cast; constructor <;> linarith
  unfold roundHalfEven
  rw [hf, h]
  push_cast
  rw [if_neg (by linarith), if_neg (by linarith), if_neg (by omega)]
  ring

theorem rn_38 : rn 3.8 = 8556839292003942 * 2⁻¹ ^ 51 := by
  rw [rn_eq_of_scale 3.8 1 8556839292003942 (by norm_num [abs_of_pos]) (by norm_num [abs_of_pos]) (roundHalfEven_of _ _ (by rw [abs_lt]; norm_num))]
  norm_num

theorem rn_m18 : rn (-1.8) = -8106479329266893 * 2⁻¹ ^ 52 := by
  rw [rn_eq_of_scale (-1.8) 0 (-8106479329266893) (by norm_num [abs_of_neg]) (by norm_num [abs_of_neg]) (roundHalfEven_of _ _ (by rw [abs_lt]; norm_num))]
  norm_num

theorem rn_one : rn 1 = 1 := by
  rw [rn_eq_of_scale 1 0 (2 ^ 52) (by norm_num) (by norm_num) (roundHalfEven_of _ _ (by rw [abs_lt]; norm_num))]
  norm_num

/-- **C102, negative result.** On the periodic domain `[1, 3.8]` the coordinate `-1.8`, one period to the left of the first point, is wrapped by binary64 arithmetic to `1 - 2⁻⁵²`, which is not in the domain. -/
theorem c102_wrap_outside_domain : Wrap IEEE (rn 1) (rn 3.8) (rn (-1.8)) (1 - 2⁻¹ ^ 52) ∧ ∀ y, Wrap IEEE (rn 1) (rn 3.8) (rn (-1.8)) y → y = 1 - 2⁻¹ ^ 52 := by
  have hlen : rn (8556839292003942 * 2⁻¹ ^ 51 - 1) = 6305039478318694 * 2⁻¹ ^ 51 := by
    rw [rn_eq_of_scale _ 1 6305039478318694 (by norm_num [abs_of_pos]) (by norm_num [abs_of_pos]) (roundHalfEven_of _ _ (by rw [abs_lt]; norm_num))]
    norm_num
  have hd : rn (-8106479329266893 * 2⁻¹ ^ 52 - 1) = -(6305039478318694 * 2⁻¹ ^ 51) := by
    rw [rn_eq_of_scale _ 1 (-6305039478318694) (by norm_num [abs_of_neg]) (by norm_num [abs_of_neg]) (roundHalfEven_tie_up _ _ (by norm_num) (by norm_num))]
    norm_num
  have hq : rn (-(6305039478318694 * 2⁻¹ ^ 51) / (6305039478318694 * 2⁻¹ ^ 51)) = -1 := by
    rw [show (-(6305039478318694 * 2⁻¹ ^ 51) / (6305039478318694 * 2⁻¹ ^ 51) : ℝ) = -1 by norm_num,
      rn_eq_of_scale (-1) 0 (-2 ^ 52) (by norm_num) (by norm_num) (roundHalfEven_of _ _ (by rw [abs_lt]; norm_num))]
    norm_num
  have hp : rn (((⌊(-1 : ℝ)⌋ : ℤ) : ℝ) * (6305039478318694 * 2⁻¹ ^ 51)) = -(6305039478318694 * 2⁻¹ ^ 51) := by
    rw [show ⌊(-1 : ℝ)⌋ = -1 by rw [Int.floor_eq_iff]; norm_num,
      rn_eq_of_scale _ 1 (-6305039478318694) (by norm_num [abs_of_neg]) (by norm_num [abs_of_neg]) (roundHalfEven_of _ _ (by rw [abs_lt]; norm_num))]
    norm_num
  have hy : rn (-8106479329266893 * 2⁻¹ ^ 52 - -(6305039478318694 * 2⁻¹ ^ 51)) = 1 - 2⁻¹ ^ 52 := by
    rw [rn_eq_of_scale _ (-1) 9007199254740990 (by norm_num [abs_of_pos]) (by norm_num [abs_of_pos]) (roundHalfEven_of _ _ (by rw [abs_lt]; norm_num))]
    norm_num
  rw [rn_38, rn_m18, rn_one]
  unfold Wrap IEEE
  rw [if_pos (by left; norm_num)]
  constructor
  · exact ⟨_, _, _, _, rfl, rfl, rfl, rfl, by rw [hlen, hd, hq, hp, hy]⟩
  · intro y h
    rw [if_pos (by left; norm_num)] at h
    obtain ⟨len, d, q, p, rfl, rfl, rfl, rfl, rfl⟩ := h
    rw [hlen, hd, hq, hp, hy]

/-- **C102, negative result.** Therefore the evaluation at `-1.8` of a Lagrange interpolant on any non-uniform periodic grid of `[1, 3.8]`, of any degree, does not end (`KOKKOS_ASSERT` stops it when assertions are enabled),
although `-1.8` represents the first point of the grid. -/
theorem c102_non_uniform_hangs (D Nl : ℕ) (hNl : 0 < Nl) (knot : ℕ → ℝ) (hk : Increasing Nl knot) (h0 : knot 0 = rn 1) (hN : knot Nl = rn 3.8) :
    ∃ y, Wrap IEEE (knot 0) (knot Nl) (rn (-1.8)) y ∧ getclosestNU D Nl knot y = none := by
  refine ⟨1 - 2⁻¹ ^ 52, by rw [h0, hN]; exact c102_wrap_outside_domain.1, ?_⟩
  rw [c102_non_uniform_search D Nl hNl knot hk, h0, rn_one]
  left
  norm_num

/-! ## `restrict_to_idx_range` -/

/-- The loop that adds periods, for coordinates at most `12` periods below the domain. -/
theorem raise_spec {u xmin len : ℝ} (hu0 : 0 ≤ u) (hlen : 0 < len) (hB : u * (|xmin| + 12 * len) ≤ len / 2) {c out : ℝ} {n : ℕ} (h : Raise (Fl u) xmin len c out n) :
    xmin - 12 * len ≤ c → xmin ≤ out ∧ n * (len / 2) ≤ max 0 (xmin - c + len / 2) ∧ |out - (c + n * len)| ≤ n * (u * (|xmin| + 12 * len)) ∧
      out ≤ max c (xmin + len + u * (|xmin| + 12 * len)) := by
  obtain ⟨B, hBe⟩ : ∃ B, B = u * (|xmin| + 12 * len) := ⟨_, rfl⟩
  induction h with
  | done c h =>
    intro _
    refine ⟨not_lt.1 h, by simp, by simp, le_max_left _ _⟩
  | step c c' out n h h' ht ih =>
    intro hc
    have hd := Fl.dist h'
    have xm := abs_le.1 (le_refl |xmin|)
    have hcl : |c + len| ≤ |xmin| + 12 * len := by rw [abs_le]; constructor <;> linarith
    have hd' : |c' - (c + len)| ≤ u * (|xmin| + 12 * len) := hd.trans (mul_le_mul_of_nonneg_left hcl hu0)
    obtain ⟨i1, i2, i3, i4⟩ := ih (by have := abs_le.1 hd'; linarith)
    rw [← hBe] at hd' i3 i4 hB ⊢
    have d := abs_le.1 hd'
    have e3 := abs_le.1 i3
    refine ⟨i1, ?_, ?_, ?_⟩
    · refine le_max_of_le_right ?_
      push_cast
      rcases le_max_iff.1 i2 with i | i
      · have : (0 : ℝ) ≤ n * (len / 2) := by positivity
        linarith
      · linarith
    · push_cast
      rw [abs_le]; constructor <;> linarith
    · refine i4.trans (max_le ?_ (le_max_right _ _))
      refine le_max_of_le_right ?_
      linarith

/-- The loop ends: for coordinates at most `k` half periods below the domain there is a run, of at most `k` iterations. -/
theorem raise_exists {u xmin len : ℝ} (hu0 : 0 ≤ u) (hlen : 0 < len) (hB : u * (|xmin| + 12 * len) ≤ len / 2) (R : ℝ → ℝ → Prop) (hR : ∀ x y, R x y → Fl u x y) (htot : ∀ x, ∃ y, R x y)
    (k : ℕ) : ∀ c, xmin - 12 * len ≤ c → xmin ≤ c + k * (len / 2) → ∃ out n, n ≤ k ∧ Raise R xmin len c out n := by
  induction k with
  | zero =>
    intro c _ hk
    exact ⟨c, 0, le_refl _, .done c (by simpa using hk)⟩
  | succ k ih =>
    intro c hc hk
    by_cases h : c < xmin
    · obtain ⟨c', h'⟩ := htot (c + len)
      have hd := Fl.dist (hR _ _ h')
      have xm := abs_le.1 (le_refl |xmin|)
      have hcl : |c + len| ≤ |xmin| + 12 * len := by rw [abs_le]; constructor <;> linarith
      have d := abs_le.1 (hd.trans ((mul_le_mul_of_nonneg_left hcl hu0).trans hB))
      push_cast at hk
      obtain ⟨out, n, hn, hrun⟩ := ih c' (by linarith) (by linarith)
      exact ⟨out, n + 1, by omega, .step c c' out n h h' hrun⟩
    · exact ⟨c, 0, by omega, .done c h⟩

/-- The loop that subtracts periods, for coordinates at most `12` periods above the end of the domain. -/
theorem lower_spec {u xmax len M : ℝ} (hu0 : 0 ≤ u) (hlen : 0 < len) (hM : |xmax| ≤ M) (hB : u * (M + 12 * len) ≤ len / 2) {c out : ℝ} {n : ℕ} (h : Lower (Fl u) xmax len c out n) :
    c ≤ xmax + 12 * len → out < xmax ∧ n * (len / 2) ≤ max 0 (c - xmax + len / 2) ∧ |out - (c - n * len)| ≤ n * (u * (M + 12 * len)) ∧
      min c (xmax - len - u * (M + 12 * len)) ≤ out := by
  obtain ⟨B, hBe⟩ : ∃ B, B = u * (M + 12 * len) := ⟨_, rfl⟩
  induction h with
  | done c h =>
    intro _
    refine ⟨not_le.1 h, by simp, by simp, min_le_left _ _⟩
  | step c c' out n h h' ht ih =>
    intro hc
    have hd := Fl.dist h'
    have xm := abs_le.1 hM
    have hcl : |c - len| ≤ M + 12 * len := by rw [abs_le]; constructor <;> linarith
    have hd' : |c' - (c - len)| ≤ u * (M + 12 * len) := hd.trans (mul_le_mul_of_nonneg_left hcl hu0)
    obtain ⟨i1, i2, i3, i4⟩ := ih (by have := abs_le.1 hd'; linarith)
    rw [← hBe] at hd' i3 i4 hB ⊢
    have d := abs_le.1 hd'
    have e3 := abs_le.1 i3
    refine ⟨i1, ?_, ?_, ?_⟩
    · refine le_max_of_le_right ?_
      push_cast
      rcases le_max_iff.1 i2 with i | i
      · have : (0 : ℝ) ≤ n * (len / 2) := by positivity
        linarith
      · linarith
    · push_cast
      rw [abs_le]; constructor <;> linarith
    · refine le_trans (le_min ?_ (min_le_right _ _)) i4
      refine min_le_of_right_le ?_
      linarith

theorem lower_exists {u xmax len M : ℝ} (hu0 : 0 ≤ u) (hlen : 0 < len) (hM : |xmax| ≤ M) (hB : u * (M + 12 * len) ≤ len / 2) (R : ℝ → ℝ → Prop) (hR : ∀ x y, R x y → Fl u x y) (htot : ∀ x, ∃ y, R x y)
    (k : ℕ) : ∀ c, c ≤ xmax + 12 * len → c - k * (len / 2) < xmax → ∃ out n, n ≤ k ∧ Lower R xmax len c out n := by
  induction k with
  | zero =>
    intro c _ hk
    exact ⟨c, 0, le_refl _, .done c (by simpa using hk)⟩
  | succ k ih =>
    intro c hc hk
    by_cases h : c ≥ xmax
    · obtain ⟨c', h'⟩ := htot (c - len)
      have hd := Fl.dist (hR _ _ h')
      have xm := abs_le.1 hM
      have hcl : |c - len| ≤ M + 12 * len := by rw [abs_le]; constructor <;> linarith
      have d := abs_le.1 (hd.trans ((mul_le_mul_of_nonneg_left hcl hu0).trans hB))
      push_cast at hk
      obtain ⟨out, n, hn, hrun⟩ := ih c' (by linarith) (by linarith)
      exact ⟨out, n + 1, by omega, .step c c' out n h h' hrun⟩
    · exact ⟨c, 0, by omega, .done c h⟩

/-- The first two operations. -/
theorem restrict_start {u xmin len x d c0 : ℝ} (hu0 : 0 ≤ u) (hlen : 0 < len) (hB : u * (|xmin| + 15 * len) ≤ len / 4) (hx : |x - xmin| ≤ 10 * len) (h1 : Fl u (x - xmin) d) (h2 : Fl u (d + xmin) c0) :
    |c0 - x| ≤ 2 * (u * (|xmin| + 15 * len)) := by
  have d1 := Fl.dist h1
  have d2 := Fl.dist h2
  have huL : 0 ≤ u * len := by positivity
  have hux : 0 ≤ u * |xmin| := by positivity
  have d1' : |d - (x - xmin)| ≤ 10 * (u * len) := by
    refine d1.trans ((mul_le_mul_of_nonneg_left hx hu0).trans (by linarith))
  have xm := abs_le.1 (le_refl |xmin|)
  have e1 := abs_le.1 d1'
  have ex := abs_le.1 hx
  have hdx : |d + xmin| ≤ |xmin| + 15 * len := by rw [abs_le]; constructor <;> linarith
  have e2 := abs_le.1 (d2.trans (mul_le_mul_of_nonneg_left hdx hu0))
  rw [abs_le]; constructor <;> linarith

/-- **C102, `restrict_to_idx_range`.** For a coordinate at most ten periods away from the domain the result is strictly below the (computed) end of the domain, is not below its beginning by more than rounding
errors, and is the coordinate moved by a whole number of periods, up to rounding errors. -/
theorem c102_restrict_accuracy (u xmin len x out : ℝ) (hu0 : 0 ≤ u) (hu : u ≤ 1 / 10) (hlen : 0 < len) (hB : u * (|xmin| + 15 * len) ≤ len / 4) (hx : |x - xmin| ≤ 10 * len)
    (h : Restrict (Fl u) xmin len x out) :
    (∃ xmax, Fl u (xmin + len) xmax ∧ out < xmax) ∧ xmin - 3 * (u * (|xmin| + 15 * len)) ≤ out ∧ ∃ j : ℤ, |out - (x + j * len)| ≤ 60 * (u * (|xmin| + 15 * len)) := by
  obtain ⟨xmax, d, c0, c1, n, m, hxmax, h1, h2, hr, hl⟩ := h
  have hs := abs_le.1 (restrict_start hu0 hlen hB hx h1 h2)
  obtain ⟨B, hBe⟩ : ∃ B, B = u * (|xmin| + 15 * len) := ⟨_, rfl⟩
  have hux : 0 ≤ u * |xmin| := by positivity
  have huL : 0 ≤ u * len := by positivity
  have hB0 : 0 ≤ B := by rw [hBe]; positivity
  have ex := abs_le.1 hx
  have xm := abs_le.1 (le_refl |xmin|)
  have hxm := Fl.dist hxmax
  have hxm1 : |xmin + len| ≤ |xmin| + len := by rw [abs_le]; constructor <;> linarith
  have hxm2 : |xmax - (xmin + len)| ≤ u * (|xmin| + len) := hxm.trans (mul_le_mul_of_nonneg_left hxm1 hu0)
  have e := abs_le.1 hxm2
  have hM : |xmax| ≤ |xmin| + 2 * len := by rw [abs_le]; constructor <;> linarith
  obtain ⟨r1, r2, r3, r4⟩ := raise_spec hu0 hlen (by linarith) hr (by linarith)
  have hr4 : c1 ≤ xmin + 11 * len := by
    refine r4.trans (max_le ?_ ?_) <;> linarith
  obtain ⟨l1, l2, l3, l4⟩ := lower_spec hu0 hlen hM (by linarith) hl (by linarith)
  refine ⟨⟨xmax, hxmax, l1⟩, ?_, ⟨(n : ℤ) - m, ?_⟩⟩
  · refine le_trans (le_min ?_ ?_) l4 <;> linarith
  · -- at most 22 iterations of each loop
    have hn : (n : ℝ) ≤ 23 := by
      rcases le_max_iff.1 r2 with i | i
      · by_contra hh
        have : 23 * (len / 2) < n * (len / 2) := mul_lt_mul_of_pos_right (not_le.1 hh) (by linarith)
        linarith
      · by_contra hh
        have : 23 * (len / 2) < n * (len / 2) := mul_lt_mul_of_pos_right (not_le.1 hh) (by linarith)
        linarith
    have hm : (m : ℝ) ≤ 23 := by
      rcases le_max_iff.1 l2 with i | i
      · by_contra hh
        have : 23 * (len / 2) < m * (len / 2) := mul_lt_mul_of_pos_right (not_le.1 hh) (by linarith)
        linarith
      · by_contra hh
        have : 23 * (len / 2) < m * (len / 2) := mul_lt_mul_of_pos_right (not_le.1 hh) (by linarith)
        linarith
    have e3 : |c1 - (c0 + n * len)| ≤ 23 * B := by
      refine r3.trans (mul_le_mul hn (by rw [hBe]; linarith) (by positivity) (by norm_num))
    have e4 : |out - (c1 - m * len)| ≤ 23 * B := by
      refine l3.trans (mul_le_mul hm (by rw [hBe]; linarith) (by positivity) (by norm_num))
    rw [← hBe] at hs ⊢
    have a3 := abs_le.1 e3
    have a4 := abs_le.1 e4
    push_cast
    rw [abs_le]; constructor <;> linarith

/-- **C102, `restrict_to_idx_range`.** Both loops end, in every arithmetic whose operations have a relative error of at most `u`. -/
theorem c102_restrict_ends (u xmin len x : ℝ) (hu0 : 0 ≤ u) (hu : u ≤ 1 / 10) (hlen : 0 < len) (hB : u * (|xmin| + 15 * len) ≤ len / 4) (hx : |x - xmin| ≤ 10 * len)
    (R : ℝ → ℝ → Prop) (hR : ∀ x y, R x y → Fl u x y) (htot : ∀ x, ∃ y, R x y) : ∃ out, Restrict R xmin len x out := by
  obtain ⟨xmax, hxmax⟩ := htot (xmin + len)
  obtain ⟨d, h1⟩ := htot (x - xmin)
  obtain ⟨c0, h2⟩ := htot (d + xmin)
  have hs := abs_le.1 (restrict_start hu0 hlen hB hx (hR _ _ h1) (hR _ _ h2))
  have hux : 0 ≤ u * |xmin| := by positivity
  have huL : 0 ≤ u * len := by positivity
  have ex := abs_le.1 hx
  have xm := abs_le.1 (le_refl |xmin|)
  have hxm1 : |xmin + len| ≤ |xmin| + len := by rw [abs_le]; constructor <;> linarith
  have e := abs_le.1 ((Fl.dist (hR _ _ hxmax)).trans (mul_le_mul_of_nonneg_left hxm1 hu0))
  have hM : |xmax| ≤ |xmin| + 2 * len := by rw [abs_le]; constructor <;> linarith
  obtain ⟨c1, n, -, hr⟩ := raise_exists (xmin := xmin) hu0 hlen (by linarith) R hR htot 23 c0 (by linarith) (by push_cast; linarith)
  have hr' : Raise (Fl u) xmin len c0 c1 n := by
    clear hs h2
    induction hr with
    | done c h => exact .done c h
    | step c c' out n h h' _ ih => exact .step c c' out n h (hR _ _ h') ih
  obtain ⟨-, -, -, r4⟩ := raise_spec hu0 hlen (by linarith) hr' (by linarith)
  have hr4 : c1 ≤ xmin + 11 * len := by
    refine r4.trans (max_le ?_ ?_) <;> linarith
  obtain ⟨out, m, -, hl⟩ := lower_exists (xmax := xmax) hu0 hlen hM (by linarith) R hR htot 23 c1 (by linarith) (by push_cast; linarith)
  exact ⟨out, xmax, d, c0, c1, n, m, hxmax, h1, h2, hr, hl⟩

theorem rn_half : rn 0.5 = 0.5 := by
  rw [rn_eq_of_scale 0.5 (-1) (2 ^ 52) (by norm_num [abs_of_pos]) (by norm_num [abs_of_pos]) (roundHalfEven_of _ _ (by rw [abs_lt]; norm_num))]
  norm_num

theorem rn_02 : rn 0.2 = 7205759403792794 * 2⁻¹ ^ 55 := by
  rw [rn_eq_of_scale 0.2 (-3) 7205759403792794 (by norm_num [abs_of_pos]) (by norm_num [abs_of_pos]) (roundHalfEven_of _ _ (by rw [abs_lt]; norm_num))]
  norm_num

theorem roundHalfEven_tie_down (t : ℝ) (m : ℤ) (h : t = m + 1 / 2) (hm : m % 2 = 0) : roundHalfEven t = m := by
  have hf : ⌊t⌋ = m := by rw [Int.floor_eq_iff]; constructor <;> linarith
  unfold roundHalfEven
  rw [hf, h, if_neg (by linarith), if_neg (by linarith), if_pos hm]

/-- **C102, negative result.** `restrict_to_idx_range` may return a coordinate outside of the domain: on a domain that starts at `0.5` and has the length `0.2`, the coordinate `0.5 - 2⁻⁵⁴` is raised by one period, rounded to the
end of the domain, lowered by one period, and returned unchanged. -/
theorem c102_restrict_outside : Restrict IEEE (rn 0.5) (rn 0.2) (0.5 - 2⁻¹ ^ 54) (0.5 - 2⁻¹ ^ 54) ∧ (0.5 - 2⁻¹ ^ 54 : ℝ) < rn 0.5 := by
  rw [rn_half, rn_02]
  have h1 : rn (0.5 + 7205759403792794 * 2⁻¹ ^ 55) = 6305039478318694 * 2⁻¹ ^ 53 := by
    rw [rn_eq_of_scale _ (-1) 6305039478318694 (by norm_num [abs_of_pos]) (by norm_num [abs_of_pos]) (roundHalfEven_tie_down _ _ (by norm_num) (by norm_num))]
    norm_num
  have h2 : rn (0.5 - 2⁻¹ ^ 54 - 0.5) = -2⁻¹ ^ 54 := by
    rw [rn_eq_of_scale _ (-54) (-2 ^ 52) (by norm_num [abs_of_neg]) (by norm_num [abs_of_neg]) (roundHalfEven_of _ _ (by rw [abs_lt]; norm_num))]
    norm_num
  have h3 : rn (-2⁻¹ ^ 54 + 0.5) = 0.5 - 2⁻¹ ^ 54 := by
    rw [rn_eq_of_scale _ (-2) 9007199254740991 (by norm_num [abs_of_pos]) (by norm_num [abs_of_pos]) (roundHalfEven_of _ _ (by rw [abs_lt]; norm_num))]
    norm_num
  have h4 : rn (0.5 - 2⁻¹ ^ 54 + 7205759403792794 * 2⁻¹ ^ 55) = 6305039478318694 * 2⁻¹ ^ 53 := by
    rw [rn_eq_of_scale _ (-1) 6305039478318694 (by norm_num [abs_of_pos]) (by norm_num [abs_of_pos]) (roundHalfEven_of _ _ (by rw [abs_lt]; norm_num))]
    norm_num
  have h5 : rn (6305039478318694 * 2⁻¹ ^ 53 - 7205759403792794 * 2⁻¹ ^ 55) = 0.5 - 2⁻¹ ^ 54 := by
    rw [rn_eq_of_scale _ (-2) 9007199254740991 (by norm_num [abs_of_pos]) (by norm_num [abs_of_pos]) (roundHalfEven_of _ _ (by rw [abs_lt]; norm_num))]
    norm_num
  refine ⟨⟨_, _, _, 6305039478318694 * 2⁻¹ ^ 53, 1, 1, rfl, rfl, rfl, ?_, ?_⟩, by norm_num⟩
  · rw [h2, h3]
    exact .step _ _ _ 0 (by norm_num) h4.symm (.done _ (by norm_num))
  · rw [h1]
    exact .step _ _ _ 0 le_rfl h5.symm (.done _ (by norm_num))

/-- The hypotheses of the accuracy theorem are satisfied by this run. -/
example : (2⁻¹ ^ 53 : ℝ) * (|0.5| + 15 * 0.2) ≤ 0.2 / 4 ∧ |(0.5 - 2⁻¹ ^ 54 : ℝ) - 0.5| ≤ 10 * 0.2 := by
  constructor
  · norm_num [abs_of_pos]
  · norm_num [abs_of_neg]

end Verif.FloatWrap
