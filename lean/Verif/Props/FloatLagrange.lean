import Verif.Model.FloatLagrange
import Verif.Props.FloatWrap
import Verif.Props.Lagrange
import Verif.Props.AccuracyLagrange
import Mathlib.Data.Nat.Choose.Sum
import Mathlib.Algebra.BigOperators.Intervals
import Mathlib.Data.Nat.Factorial.BigOperators
import Mathlib.Tactic.Linarith
import Mathlib.Tactic.Positivity
import Mathlib.Tactic.FieldSimp
import Mathlib.Tactic.Ring
import Mathlib.Tactic.LinearCombination

/-!
# C103: Lagrange interpolation in floating-point arithmetic

Specification: Mathlib's `Lagrange.basis (range (D + 1)) xs i`, and `lebesgue`, the sum of the absolute values of the basis functions at a point.
-/

namespace Verif.FloatLagrange

open Verif.Rounding Verif.FloatWrap Verif.Lagrange Finset

/-! ## Products of rounding factors -/

/-- `f` is a product of at most `k` factors `1 + δ` or `1 / (1 + δ)`, `|δ| ≤ u`. -/
def Fac (u : ℝ) (k : ℕ) (f : ℝ) : Prop := (1 - u) ^ k ≤ f ∧ f * (1 - u) ^ k ≤ 1

/-- The bound of the distance of such a product to one. -/
noncomputable def gam (u : ℝ) (k : ℕ) : ℝ := ((1 - u) ^ k)⁻¹ - 1

variable {u : ℝ}

theorem fac_pos (hu : u < 1) {k : ℕ} {f : ℝ} (h : Fac u k f) : 0 < f := lt_of_lt_of_le (pow_pos (by linarith) k) h.1

theorem fac_mono (hu0 : 0 ≤ u) (hu : u < 1) {k k' : ℕ} (hk : k ≤ k') {f : ℝ} (h : Fac u k f) : Fac u k' f := by
  have h1 : (1 - u) ^ k' ≤ (1 - u) ^ k := pow_le_pow_of_le_one (by linarith) (by linarith) hk
  exact ⟨h1.trans h.1, (mul_le_mul_of_nonneg_left h1 (fac_pos hu h).le).trans h.2⟩

theorem fac_mul (hu : u < 1) {k l : ℕ} {f g : ℝ} (hf : Fac u k f) (hg : Fac u l g) : Fac u (k + l) (f * g) := by
  have hp : 0 < (1 - u) ^ k := pow_pos (by linarith) k
  have hq : 0 < (1 - u) ^ l := pow_pos (by linarith) l
  constructor
  · rw [pow_add]; exact mul_le_mul hf.1 hg.1 hq.le (fac_pos hu hf).le
  · rw [pow_add, show f * g * ((1 - u) ^ k * (1 - u) ^ l) = (f * (1 - u) ^ k) * (g * (1 - u) ^ l) by ring]
    exact mul_le_one₀ hf.2 (mul_nonneg (fac_pos hu hg).le hq.le) hg.2

theorem fac_inv (hu : u < 1) {k : ℕ} {f : ℝ} (hf : Fac u k f) : Fac u k f⁻¹ := by
  have h0 := fac_pos hu hf
  constructor
  · rw [← one_div, le_div_iff₀ h0, mul_comm]; exact hf.2
  · rw [inv_mul_le_iff₀ h0, mul_one]; exact hf.1

theorem fac_one (hu0 : 0 ≤ u) (hu : u < 1) (k : ℕ) : Fac u k 1 :=
  fac_mono hu0 hu (Nat.zero_le k) (k := 0) ⟨by simp, by simp⟩

theorem fl_fac (hu0 : 0 ≤ u) (hu : u < 1) {x y : ℝ} (h : Fl u x y) : ∃ f, Fac u 1 f ∧ y = x * f := by
  obtain ⟨δ, hδ, rfl⟩ := h
  have b := abs_le.1 hδ
  refine ⟨1 + δ, ⟨by rw [pow_one]; linarith, ?_⟩, rfl⟩
  rw [pow_one]
  nlinarith [mul_le_mul_of_nonneg_right (by linarith : 1 + δ ≤ 1 + u) (by linarith : 0 ≤ 1 - u)]

theorem gam_nonneg (hu0 : 0 ≤ u) (hu : u < 1) (k : ℕ) : 0 ≤ gam u k := by
  have hp : 0 < (1 - u) ^ k := pow_pos (by linarith) k
  have : (1 - u) ^ k ≤ 1 := pow_le_one₀ (by linarith) (by linarith)
  unfold gam
  have := (one_le_inv₀ hp).2 this
  linarith

theorem gam_mono (hu0 : 0 ≤ u) (hu : u < 1) {k k' : ℕ} (hk : k ≤ k') : gam u k ≤ gam u k' := by
  have hp : 0 < (1 - u) ^ k' := pow_pos (by linarith) k'
  have h1 : (1 - u) ^ k' ≤ (1 - u) ^ k := pow_le_pow_of_le_one (by linarith) (by linarith) hk
  unfold gam
  have := inv_anti₀ hp h1
  linarith

/-- For `k u ≤ 1/2` the bound is at most `2 k u`. -/
theorem gam_le (hu0 : 0 ≤ u) (hu : u < 1) (k : ℕ) (hk : k * u ≤ 1 / 2) : gam u k ≤ 2 * (k * u) := by
  have hb : 1 - k * u ≤ (1 - u) ^ k := by
    have := one_add_mul_le_pow (a := -u) (by linarith) k
    have e : (1 + -u) ^ k = (1 - u) ^ k := by ring_nf
    rw [e] at this
    linarith
  have hp : 0 < (1 - u) ^ k := pow_pos (by linarith) k
  have h1 : (1 - u) ^ k ≤ 1 := pow_le_one₀ (by linarith) (by linarith)
  unfold gam
  rw [sub_le_iff_le_add, inv_le_iff_one_le_mul₀ hp]
  have h0 : (0 : ℝ) ≤ k * u := by positivity
  nlinarith

theorem fac_err (hu0 : 0 ≤ u) (hu : u < 1) {k : ℕ} {f : ℝ} (h : Fac u k f) : |f - 1| ≤ gam u k := by
  have hp : 0 < (1 - u) ^ k := pow_pos (by linarith) k
  have h1 : (1 - u) ^ k ≤ 1 := pow_le_one₀ (by linarith) (by linarith)
  obtain ⟨a, ha⟩ : ∃ a, a = (1 - u) ^ k := ⟨_, rfl⟩
  unfold Fac at h
  unfold gam
  rw [← ha] at h hp h1 ⊢
  have h2 : f ≤ a⁻¹ := by rw [← one_div, le_div_iff₀ hp]; exact h.2
  have h3 : 2 ≤ a + a⁻¹ := by
    have : a + a⁻¹ - 2 = (a - 1) ^ 2 / a := by field_simp; ring
    have : 0 ≤ (a - 1) ^ 2 / a := by positivity
    linarith
  rw [abs_le]; constructor <;> linarith [h.1]

/-! ## Loops -/

theorem mulLoop_fac (hu0 : 0 ≤ u) (hu : u < 1) {val : ℕ → ℝ → Prop} {e : ℕ → ℝ} {k : ℕ} (hval : ∀ j a, val j a → ∃ f, Fac u k f ∧ a = e j * f) {l : List ℕ} {acc out : ℝ}
    (h : MulLoop u val l acc out) : ∃ f, Fac u ((k + 1) * l.length) f ∧ out = acc * (l.map e).prod * f := by
  induction h with
  | nil acc => exact ⟨1, fac_one hu0 hu _, by simp⟩
  | cons j l acc a acc' out ha h ht ih =>
    obtain ⟨f, hf, rfl⟩ := hval j a ha
    obtain ⟨g, hg, rfl⟩ := fl_fac hu0 hu h
    obtain ⟨f', hf', rfl⟩ := ih
    refine ⟨f * g * f', ?_, by simp; ring⟩
    have := fac_mul hu (fac_mul hu hf hg) hf'
    rw [List.length_cons, Nat.mul_succ]
    exact fac_mono hu0 hu (by omega) this

theorem addLoop_err (hu0 : 0 ≤ u) (hu : u < 1) {val : ℕ → ℝ → Prop} {e : ℕ → ℝ} {k : ℕ} {l : List ℕ} (hval : ∀ j ∈ l, ∀ a, val j a → ∃ f, Fac u k f ∧ a = e j * f) {acc out : ℝ}
    (h : AddLoop u val l acc out) : ∃ f r, Fac u l.length f ∧ out = acc * f + r ∧ |r - (l.map e).sum| ≤ gam u (k + l.length) * (l.map fun j => |e j|).sum := by
  induction h with
  | nil acc => exact ⟨1, 0, fac_one hu0 hu _, by simp, by simp⟩
  | cons j l acc a acc' out ha h ht ih =>
    obtain ⟨f, hf, rfl⟩ := hval j (by simp) a ha
    obtain ⟨g, hg, rfl⟩ := fl_fac hu0 hu h
    obtain ⟨f', r, hf', rfl, hr⟩ := ih (fun i hi => hval i (by simp [hi]))
    refine ⟨g * f', e j * (f * g * f') + r, ?_, by ring, ?_⟩
    · rw [List.length_cons]
      exact fac_mono hu0 hu (by omega) (fac_mul hu hg hf')
    · have h1 := fac_err hu0 hu (fac_mul hu (fac_mul hu hf hg) hf')
      have h2 : gam u (k + 1 + l.length) = gam u (k + (j :: l).length) := by rw [List.length_cons]; congr 1; omega
      have h3 : gam u (k + l.length) ≤ gam u (k + (j :: l).length) := gam_mono hu0 hu (by rw [List.length_cons]; omega)
      have h4 : 0 ≤ (l.map fun j => |e j|).sum := List.sum_nonneg (by simp)
      simp only [List.map_cons, List.sum_cons]
      calc |e j * (f * g * f') + r - (e j + (l.map e).sum)| = |e j * (f * g * f' - 1) + (r - (l.map e).sum)| := by congr 1; ring
        _ ≤ |e j| * |f * g * f' - 1| + |r - (l.map e).sum| := by rw [← abs_mul]; exact abs_add_le _ _
        _ ≤ |e j| * gam u (k + (j :: l).length) + gam u (k + (j :: l).length) * (l.map fun j => |e j|).sum := by
          refine add_le_add (mul_le_mul_of_nonneg_left (by rw [← h2]; exact h1) (abs_nonneg _)) (hr.trans (mul_le_mul_of_nonneg_right h3 h4))
        _ = _ := by ring

theorem sum_range_list (f : ℕ → ℝ) (n : ℕ) : ((List.range n).map f).sum = ∑ j ∈ range n, f j := by
  induction n with
  | zero => simp
  | succ n ih => rw [List.range_succ, Finset.sum_range_succ]; simp [ih]

theorem prod_filter_list (f : ℕ → ℝ) (n i : ℕ) : (((List.range n).filter (· ≠ i)).map f).prod = ∏ j ∈ (range n).erase i, f j := by
  induction n with
  | zero => simp
  | succ n ih =>
    rw [List.range_succ, List.filter_append, List.map_append, List.prod_append, ih, Finset.range_add_one]
    by_cases h : n = i
    · subst h; simp [Finset.erase_insert_eq_erase]
    · rw [Finset.erase_insert_of_ne h, Finset.prod_insert (by simp)]; simp [h, mul_comm]

theorem length_filter_ne (n i : ℕ) : ((List.range n).filter (· ≠ i)).length = ((range n).erase i).card := by
  induction n with
  | zero => simp
  | succ n ih =>
    rw [List.range_succ, List.filter_append, List.length_append, ih, Finset.range_add_one]
    by_cases h : n = i
    · subst h; simp [Finset.erase_insert_eq_erase]
    · rw [Finset.erase_insert_of_ne h, Finset.card_insert_of_notMem (by simp)]; simp [h]

/-! ## The basis functions -/

/-- The sum of the absolute values of the basis functions. -/
noncomputable def lebesgue (D : ℕ) (xs : ℕ → ℝ) (t : ℝ) : ℝ := ∑ i ∈ range (D + 1), |(Lagrange.basis (range (D + 1)) xs i).eval t|

/-- The interpolating polynomial of the values `coef`. -/
noncomputable def interp (D : ℕ) (xs coef : ℕ → ℝ) (t : ℝ) : ℝ := ∑ i ∈ range (D + 1), coef i * (Lagrange.basis (range (D + 1)) xs i).eval t

theorem weight_fac (hu0 : 0 ≤ u) (hu : u < 1) {D i : ℕ} {w : ℝ} {val : ℕ → ℝ → Prop} {e : ℕ → ℝ} {k : ℕ} (hval : ∀ j a, val j a → ∃ f, Fac u k f ∧ a = e j * f)
    (hi : i ≤ D) (h : ∃ num, MulLoop u val ((List.range (D + 1)).filter (· ≠ i)) 1 num ∧ Fl u (1 / num) w) :
    ∃ f, Fac u ((k + 1) * D + 1) f ∧ w = (1 / ∏ j ∈ (range (D + 1)).erase i, e j) * f := by
  obtain ⟨num, hm, hw⟩ := h
  obtain ⟨f, hf, rfl⟩ := mulLoop_fac hu0 hu hval hm
  obtain ⟨g, hg, rfl⟩ := fl_fac hu0 hu hw
  have hlen : ((List.range (D + 1)).filter (· ≠ i)).length = D := by
    rw [length_filter_ne, Finset.card_erase_of_mem (by simp; omega)]; simp
  refine ⟨f⁻¹ * g, ?_, ?_⟩
  · rw [hlen] at hf; exact fac_mul hu (fac_inv hu hf) hg
  · rw [one_mul, prod_filter_list, one_div, one_div, mul_inv]; ring

/-- The computed values of the basis functions between the nodes. `W` is the number of roundings of a weight, the denominators `den` have one rounding. -/
theorem values_error (hu0 : 0 ≤ u) (hu : u < 1) {D W : ℕ} {xs w : ℕ → ℝ} {t : ℝ} (hxs : Distinct D xs) (ht : ∀ j ≤ D, t ≠ xs j)
    (hw : ∀ i ≤ D, ∃ f, Fac u W f ∧ w i = getWeights D xs i * f) (hsmall : gam u (W + D + 4) * (1 + lebesgue D xs t) ≤ 1 / 2) {i : ℕ} (hi : i ≤ D) {v : ℝ}
    (h : ValueFl u D w (fun j d => Fl u (t - xs j) d) i v) :
    |v - (Lagrange.basis (range (D + 1)) xs i).eval t| ≤ 2 * gam u (W + D + 4) * (1 + lebesgue D xs t) * |(Lagrange.basis (range (D + 1)) xs i).eval t| := by
  obtain ⟨d, n, s, hd, hn, hs, hv⟩ := h
  obtain ⟨T, hT⟩ : ∃ T : ℕ → ℝ, T = fun j => getWeights D xs j / (t - xs j) := ⟨_, rfl⟩
  obtain ⟨G, hG⟩ : ∃ G, G = gam u (W + D + 4) := ⟨_, rfl⟩
  have hG0 : 0 ≤ G := by rw [hG]; exact gam_nonneg hu0 hu _
  have term : ∀ j ≤ D, ∀ a, (∃ d, Fl u (t - xs j) d ∧ Fl u (w j / d) a) → ∃ f, Fac u (W + 2) f ∧ a = T j * f := by
    rintro j hj a ⟨d, h1, h2⟩
    obtain ⟨f1, hf1, rfl⟩ := fl_fac hu0 hu h1
    obtain ⟨f2, hf2, rfl⟩ := fl_fac hu0 hu h2
    obtain ⟨f3, hf3, hw3⟩ := hw j hj
    refine ⟨f3 * f1⁻¹ * f2, fac_mul (k := W + 1) (l := 1) hu (fac_mul hu hf3 (fac_inv hu hf1)) hf2, ?_⟩
    have h0 : t - xs j ≠ 0 := sub_ne_zero.2 (ht j hj)
    have h1 := (fac_pos hu hf1).ne'
    rw [hw3, hT]; simp only; field_simp
  obtain ⟨f, hf, hnT⟩ := term i hi n ⟨d, hd, hn⟩
  obtain ⟨f0, r, -, hsr, hr⟩ := addLoop_err hu0 hu (e := T) (k := W + 2) (fun j hj a ha => term j (by simpa [Nat.lt_succ_iff] using hj) a ha) hs
  rw [zero_mul, zero_add] at hsr
  rw [← hsr] at hr
  obtain ⟨f1, hf1, hv1⟩ := fl_fac hu0 hu hv
  rw [sum_range_list, sum_range_list, List.length_range] at hr
  -- the exact sum
  have hmem : ∀ k, k ∈ range (D + 1) ↔ k ≤ D := fun k => by simp [Nat.lt_succ_iff]
  obtain ⟨S, hS⟩ : ∃ S, S = ∑ j ∈ range (D + 1), T j := ⟨_, rfl⟩
  have hbasis : ∀ j ≤ D, (Lagrange.basis (range (D + 1)) xs j).eval t = T j / S := by
    intro j hj
    rw [← valuesBetweenNodes_eq D xs hxs t ht j hj]
    unfold valuesBetweenNodes
    rw [foldl_sum (fun k => getWeights D xs k / (t - xs k)), zero_add, hS, hT]
  have hS0 : S ≠ 0 := by
    intro h0
    have := congrArg (Polynomial.eval t) (Lagrange.sum_basis hxs ⟨0, by simp⟩)
    rw [Polynomial.eval_finsetSum, Polynomial.eval_one, Finset.sum_congr rfl (fun j hj => by rw [hbasis j ((hmem j).1 hj), h0, div_zero])] at this
    simp at this
  have hleb : lebesgue D xs t * |S| = ∑ j ∈ range (D + 1), |T j| := by
    unfold lebesgue
    rw [Finset.sum_mul]
    refine Finset.sum_congr rfl fun j hj => ?_
    rw [hbasis j ((hmem j).1 hj), abs_div, div_mul_cancel₀ _ (abs_ne_zero.2 hS0)]
  have hleb0 : 0 ≤ lebesgue D xs t := Finset.sum_nonneg fun _ _ => abs_nonneg _
  rw [← hS, ← hleb] at hr
  obtain ⟨Λ, hΛ⟩ : ∃ Λ, Λ = lebesgue D xs t := ⟨_, rfl⟩
  rw [← hΛ] at hr hleb0 hsmall ⊢
  rw [← hG] at hsmall ⊢
  have hr' : |s / S - 1| ≤ G * Λ := by
    have e : s / S - 1 = (s - S) / S := by field_simp
    rw [e, abs_div, div_le_iff₀ (abs_pos.2 hS0)]
    refine hr.trans ?_
    rw [← mul_assoc]
    refine mul_le_mul_of_nonneg_right (mul_le_mul_of_nonneg_right ?_ hleb0) (abs_nonneg _)
    rw [hG]; exact gam_mono hu0 hu (by omega)
  have hF := fac_err hu0 hu (fac_mul hu hf hf1)
  have hF' : |f * f1 - 1| ≤ G := hF.trans (by rw [hG]; exact gam_mono hu0 hu (by omega))
  obtain ⟨q, hq⟩ : ∃ q, q = s / S := ⟨_, rfl⟩
  rw [← hq] at hr'
  have b := abs_le.1 hr'
  have hGΛ : G * Λ ≤ 1 / 2 := by nlinarith
  have hq0 : 1 / 2 ≤ q := by linarith
  have hrq : s = q * S := by rw [hq]; field_simp
  have hq1 : q ≠ 0 := by linarith
  have e : v - T i / S = ((f * f1 - q) / q) * (T i / S) := by
    rw [hv1, hnT, hrq]
    field_simp
  rw [hbasis i hi, e, abs_mul]
  refine mul_le_mul_of_nonneg_right ?_ (abs_nonneg _)
  rw [abs_div, abs_of_pos (by linarith : 0 < q), div_le_iff₀ (by linarith)]
  have hfq : |f * f1 - q| ≤ G + G * Λ := by
    have b2 := abs_le.1 hF'
    rw [abs_le]; constructor <;> linarith
  refine hfq.trans ?_
  have : 0 ≤ G * (1 + Λ) := by positivity
  nlinarith

/-- The computed interpolant, when the computed values of the basis functions have the relative error `B`. -/
theorem sum_error (hu0 : 0 ≤ u) (hu : u < 1) {D : ℕ} {b coef vals : ℕ → ℝ} {M B y : ℝ} (hB0 : 0 ≤ B) (hM : ∀ i ≤ D, |coef i| ≤ M)
    (hv : ∀ i ≤ D, |vals i - b i| ≤ B * |b i|) (h : SumFl u D coef vals y) :
    |y - ∑ i ∈ range (D + 1), coef i * b i| ≤ (B + gam u (D + 2) * (1 + B)) * (∑ i ∈ range (D + 1), |b i|) * M := by
  have hmem : ∀ k, k ∈ range (D + 1) ↔ k ≤ D := fun k => by simp [Nat.lt_succ_iff]
  obtain ⟨f, r, -, hy, hr⟩ := addLoop_err hu0 hu (e := fun i => coef i * vals i) (k := 1) (l := List.range (D + 1)) (fun j _ a ha => fl_fac hu0 hu ha) h
  rw [zero_mul, zero_add] at hy
  rw [← hy] at hr
  rw [sum_range_list, sum_range_list, List.length_range, show 1 + (D + 1) = D + 2 by ring] at hr
  have hg := gam_nonneg hu0 hu (D + 2)
  have h1 : ∑ i ∈ range (D + 1), |coef i * vals i| ≤ (1 + B) * (∑ i ∈ range (D + 1), |b i|) * M := by
    rw [Finset.mul_sum, Finset.sum_mul]
    refine Finset.sum_le_sum fun i hi => ?_
    have hi' := (hmem i).1 hi
    have h2 : |vals i| ≤ (1 + B) * |b i| := by
      have := abs_sub_abs_le_abs_sub (vals i) (b i)
      linarith [hv i hi']
    rw [abs_mul, mul_comm]
    exact mul_le_mul h2 (hM i hi') (abs_nonneg _) (mul_nonneg (by linarith) (abs_nonneg _))
  have h2 : |∑ i ∈ range (D + 1), coef i * vals i - ∑ i ∈ range (D + 1), coef i * b i| ≤ B * (∑ i ∈ range (D + 1), |b i|) * M := by
    rw [← Finset.sum_sub_distrib, Finset.mul_sum, Finset.sum_mul]
    refine (Finset.abs_sum_le_sum_abs _ _).trans (Finset.sum_le_sum fun i hi => ?_)
    have hi' := (hmem i).1 hi
    rw [← mul_sub, abs_mul, mul_comm]
    exact mul_le_mul (hv i hi') (hM i hi') (abs_nonneg _) (mul_nonneg hB0 (abs_nonneg _))
  have h3 := hr.trans (mul_le_mul_of_nonneg_left h1 hg)
  have h4 := abs_sub_le y (∑ i ∈ range (D + 1), coef i * vals i) (∑ i ∈ range (D + 1), coef i * b i)
  linarith

theorem distinct_id (D : ℕ) : Distinct D (fun k => (k : ℝ)) := fun a _ b _ h => by simpa using h

theorem lebesgue_node {D : ℕ} {xs : ℕ → ℝ} (hxs : Distinct D xs) {n : ℕ} (hn : n ≤ D) : lebesgue D xs (xs n) = 1 := by
  unfold lebesgue
  rw [Finset.sum_eq_single n]
  · rw [basis_eval_node D xs hxs n n hn hn]; simp
  · intro j hj hne
    rw [basis_eval_node D xs hxs n j hn (by simpa [Nat.lt_succ_iff] using hj), if_neg hne, abs_zero]
  · intro h; exact absurd (by simp; omega) h

/-- At a point not detected as a node. -/
theorem between_error (hu0 : 0 ≤ u) (hu : u < 1) {D W : ℕ} {xs w coef vals : ℕ → ℝ} {t M L y : ℝ} (hxs : Distinct D xs) (ht : ∀ j ≤ D, t ≠ xs j)
    (hw : ∀ i ≤ D, ∃ f, Fac u W f ∧ w i = getWeights D xs i * f) (hL : lebesgue D xs t ≤ L) (hsmall : gam u (W + D + 4) * (1 + L) ≤ 1 / 2) (hM : ∀ i ≤ D, |coef i| ≤ M)
    (hv : ∀ i ≤ D, ValueFl u D w (fun j d => Fl u (t - xs j) d) i (vals i)) (h : SumFl u D coef vals y) :
    |y - interp D xs coef t| ≤ 4 * gam u (W + D + 4) * (1 + L) * L * M := by
  have hG := gam_nonneg hu0 hu (W + D + 4)
  have hΛ0 : 0 ≤ lebesgue D xs t := Finset.sum_nonneg fun _ _ => abs_nonneg _
  have hM0 : 0 ≤ M := (abs_nonneg _).trans (hM 0 (Nat.zero_le _))
  have hs : gam u (W + D + 4) * (1 + lebesgue D xs t) ≤ 1 / 2 := (mul_le_mul_of_nonneg_left (by linarith) hG).trans hsmall
  have hB : 0 ≤ 2 * gam u (W + D + 4) * (1 + lebesgue D xs t) := by positivity
  have h1 := sum_error hu0 hu hB hM (fun i hi => values_error hu0 hu hxs ht hw hs hi (hv i hi)) h
  refine h1.trans ?_
  have hg : gam u (D + 2) ≤ gam u (W + D + 4) := gam_mono hu0 hu (by omega)
  have hg0 := gam_nonneg hu0 hu (D + 2)
  refine mul_le_mul_of_nonneg_right ?_ hM0
  refine mul_le_mul ?_ hL hΛ0 (by have : 0 ≤ L := hΛ0.trans hL; positivity)
  obtain ⟨G, hGe⟩ : ∃ G, G = gam u (W + D + 4) := ⟨_, rfl⟩
  obtain ⟨Λ, hΛe⟩ : ∃ Λ, Λ = lebesgue D xs t := ⟨_, rfl⟩
  rw [← hGe] at hG hsmall hs hB hg ⊢
  rw [← hΛe] at hs hB hΛ0 hL ⊢
  have h2 : gam u (D + 2) * (1 + 2 * G * (1 + Λ)) ≤ G * 2 := mul_le_mul hg (by linarith) (by positivity) hG
  have h3 : G * (1 + Λ) ≤ G * (1 + L) := mul_le_mul_of_nonneg_left (by linarith) hG
  have h4 : G * 1 ≤ G * (1 + L) := mul_le_mul_of_nonneg_left (by linarith) hG
  linarith

/-- At a point detected as a node. -/
theorem node_error (hu0 : 0 ≤ u) (hu : u < 1) {D n : ℕ} {xs coef vals : ℕ → ℝ} {M y : ℝ} (hxs : Distinct D xs) (hn : n ≤ D) (hM : ∀ i ≤ D, |coef i| ≤ M)
    (hv : ∀ i ≤ D, vals i = if i = n then 1 else 0) (h : SumFl u D coef vals y) : |y - interp D xs coef (xs n)| ≤ gam u (D + 2) * M := by
  have h1 := sum_error (b := fun i => (Lagrange.basis (range (D + 1)) xs i).eval (xs n)) hu0 hu (le_refl 0) hM (fun i hi => by rw [hv i hi, basis_eval_node D xs hxs n i hn hi]; simp) h
  have h2 := lebesgue_node hxs hn
  unfold lebesgue at h2
  rw [h2] at h1
  unfold interp
  linarith

theorem prod_below (m : ℕ) : ∏ k ∈ range m, ((m : ℝ) - k) = m.factorial := by
  rw [← prod_range_add_one_eq_factorial, ← prod_range_reflect]
  push_cast
  refine prod_congr rfl fun k hk => ?_
  have := mem_range.1 hk
  rw [show m - 1 - k = m - (k + 1) by omega, Nat.cast_sub (by omega)]
  push_cast; ring

theorem prod_above (m r : ℕ) : ∏ k ∈ range r, (((m + 1 + k : ℕ) : ℝ) - m) = r.factorial := by
  rw [← prod_range_add_one_eq_factorial]
  push_cast
  exact prod_congr rfl fun k _ => by ring

/-- The denominators of the basis functions. -/
theorem prod_nodes (D j : ℕ) (hj : j ≤ D) : ∏ k ∈ (range (D + 1)).erase j, |(j : ℝ) - k| = j.factorial * (D - j).factorial := by
  have h1 : ∏ k ∈ (range (D + 1)).erase j, |(j : ℝ) - k| = ∏ k ∈ range (D + 1), (if k = j then 1 else |(j : ℝ) - k|) := by
    rw [← mul_prod_erase (range (D + 1)) _ (by simp; omega : j ∈ range (D + 1)), if_pos rfl, one_mul]
    exact prod_congr rfl fun k hk => by rw [if_neg (Finset.mem_erase.1 hk).1]
  rw [h1, show D + 1 = j + 1 + (D - j) by omega, prod_range_add, prod_range_succ, if_pos rfl, mul_one]
  congr 1
  · rw [← prod_below]
    refine prod_congr rfl fun k hk => ?_
    have hk' := mem_range.1 hk
    have : (k : ℝ) < j := by exact_mod_cast hk'
    rw [if_neg (by omega), abs_of_pos (by linarith)]
  · rw [← prod_above j]
    refine prod_congr rfl fun k hk => ?_
    rw [if_neg (by omega), abs_sub_comm, abs_of_nonneg]
    push_cast; have : (0 : ℝ) ≤ k := Nat.cast_nonneg k
    linarith

/-- The numerators. -/
theorem prod_point (D j : ℕ) (t : ℝ) (h0 : 0 ≤ t) (h1 : t ≤ D + 1) : ∏ k ∈ (range (D + 1)).erase j, |t - k| ≤ (D + 1).factorial := by
  obtain ⟨m, hmD, hm0, hm1⟩ : ∃ m : ℕ, m ≤ D ∧ (m : ℝ) ≤ t ∧ t ≤ m + 1 := by
    rcases lt_or_eq_of_le h1 with h | h
    · refine ⟨⌊t⌋₊, ?_, Nat.floor_le h0, (Nat.lt_floor_add_one t).le⟩
      have : ⌊t⌋₊ < D + 1 := (Nat.floor_lt h0).2 (by push_cast; exact h)
      omega
    · exact ⟨D, le_rfl, by linarith, by linarith⟩
  obtain ⟨b, hb⟩ : ∃ b : ℕ → ℝ, b = fun k => if k < m + 1 then ((m + 1 : ℕ) : ℝ) - k else (k : ℝ) - m := ⟨_, rfl⟩
  have hb1 : ∀ k : ℕ, 1 ≤ b k := by
    intro k
    rw [hb]; simp only
    split_ifs with h
    · have : ((k + 1 : ℕ) : ℝ) ≤ (m + 1 : ℕ) := by exact_mod_cast h
      push_cast at this ⊢; linarith
    · have : ((m + 1 : ℕ) : ℝ) ≤ k := by exact_mod_cast not_lt.1 h
      push_cast at this; linarith
  have hle : ∀ k : ℕ, |t - k| ≤ b k := by
    intro k
    rw [hb]; simp only
    split_ifs with h
    · have : ((k : ℕ) : ℝ) ≤ m := by exact_mod_cast Nat.lt_succ_iff.1 h
      push_cast; rw [abs_le]; constructor <;> linarith
    · have : ((m + 1 : ℕ) : ℝ) ≤ k := by exact_mod_cast not_lt.1 h
      push_cast at this; rw [abs_le]; constructor <;> linarith
  calc ∏ k ∈ (range (D + 1)).erase j, |t - k| ≤ ∏ k ∈ (range (D + 1)).erase j, b k := prod_le_prod (fun _ _ => abs_nonneg _) (fun k _ => hle k)
    _ ≤ ∏ k ∈ range (D + 1), b k := by
      by_cases hj : j ∈ range (D + 1)
      · rw [← mul_prod_erase _ _ hj]
        exact le_mul_of_one_le_left (prod_nonneg fun k _ => by linarith [hb1 k]) (hb1 j)
      · rw [erase_eq_of_notMem hj]
    _ = (m + 1).factorial * (D - m).factorial := by
      rw [show D + 1 = m + 1 + (D - m) by omega, prod_range_add]
      congr 1
      · rw [← prod_below]
        refine prod_congr rfl fun k hk => ?_
        rw [hb]; simp only; rw [if_pos (mem_range.1 hk)]
      · rw [← prod_above m]
        refine prod_congr rfl fun k hk => ?_
        rw [hb]; simp only; rw [if_neg (by omega)]
    _ ≤ (D + 1).factorial := by
      have := Nat.factorial_mul_factorial_dvd_factorial_add (m + 1) (D - m)
      rw [show m + 1 + (D - m) = D + 1 by omega] at this
      exact_mod_cast Nat.le_of_dvd (Nat.factorial_pos _) this

/-- The Lebesgue function of equidistant nodes, in the stencil and one cell beyond. -/
theorem lebesgue_le (D : ℕ) (t : ℝ) (h0 : 0 ≤ t) (h1 : t ≤ D + 1) : lebesgue D (fun k => k) t ≤ (D + 1) * 2 ^ D := by
  unfold lebesgue
  have hterm : ∀ j ∈ range (D + 1), |(Lagrange.basis (range (D + 1)) (fun k => (k : ℝ)) j).eval t| ≤ (D + 1) * (D.choose j : ℝ) := by
    intro j hj
    have hjD : j ≤ D := by simpa [Nat.lt_succ_iff] using hj
    rw [Lagrange.basis, Polynomial.eval_prod, Finset.abs_prod]
    have e : ∀ k ∈ (range (D + 1)).erase j, |(Lagrange.basisDivisor (j : ℝ) (k : ℝ)).eval t| = |t - k| / |(j : ℝ) - k| := by
      intro k _
      simp [Lagrange.basisDivisor, abs_mul, abs_inv]; ring
    rw [prod_congr rfl e, prod_div_distrib, prod_nodes D j hjD]
    have hf : (0 : ℝ) < j.factorial * (D - j).factorial := by exact_mod_cast Nat.mul_pos j.factorial_pos (D - j).factorial_pos
    rw [div_le_iff₀ hf]
    refine (prod_point D j t h0 h1).trans (le_of_eq ?_)
    have := Nat.choose_mul_factorial_mul_factorial hjD
    rw [Nat.factorial_succ, ← this]
    push_cast; ring
  refine (sum_le_sum hterm).trans (le_of_eq ?_)
  rw [← mul_sum]
  congr 1
  have := Nat.sum_range_choose D
  exact_mod_cast this

/-- **C103, uniform grid.** The value computed from the coefficients of a stencil is, up to a multiple of `u`, the value of the exact interpolating polynomial at a point `t` (in cells, from the first knot `x_s` of the stencil) that
differs from the position of `x` by rounding errors and the tolerance of the detection of nodes. `L` bounds the Lebesgue function near `x`. -/
theorem c103_uniform (u eps : ℝ) (D : ℕ) (w coef vals : ℕ → ℝ) (x_s dx x y M L : ℝ) (hu0 : 0 ≤ u) (hu : u ≤ 1 / 16) (hdx : 0 < dx) (heps0 : 0 ≤ eps) (heps : eps ≤ 1 / 16)
    (hw : ∀ i ≤ D, WeightU u D i (w i)) (hx0 : x_s ≤ x) (hx1 : x - x_s ≤ (D + 1 / 4) * dx) (hxu : gam u 3 * (D + 1) ≤ 1 / 16) (hM : ∀ i ≤ D, |coef i| ≤ M)
    (hL : ∀ t, |t - (x - x_s) / dx| ≤ gam u 3 * ((x - x_s) / dx) → lebesgue D (fun k => k) t ≤ L) (hL1 : 1 ≤ L) (hsmall : gam u (2 * D + 5) * (1 + L) ≤ 1 / 2)
    (hb : EvalBasisU u eps D w x_s dx x vals) (hs : SumFl u D coef vals y) :
    ∃ t, 0 ≤ t ∧ |t - (x - x_s) / dx| ≤ gam u 3 * ((x - x_s) / dx) + (2 * eps + u) ∧ |y - interp D (fun k => k) coef t| ≤ 4 * gam u (2 * D + 5) * (1 + L) * L * M := by
  have hu1 : u < 1 := by linarith
  obtain ⟨inv, d, off, r, h1, h2, h3, hr, hv⟩ := hb
  obtain ⟨f1, hf1, rfl⟩ := fl_fac hu0 hu1 h1
  obtain ⟨f2, hf2, rfl⟩ := fl_fac hu0 hu1 h2
  obtain ⟨f3, hf3, hoff⟩ := fl_fac hu0 hu1 h3
  obtain ⟨a, ha⟩ : ∃ a, a = (x - x_s) / dx := ⟨_, rfl⟩
  have ha0 : 0 ≤ a := by rw [ha]; exact div_nonneg (by linarith) hdx.le
  have ha1 : a ≤ D + 1 / 4 := by rw [ha, div_le_iff₀ hdx]; exact hx1
  have hoff' : off = a * (f2 * f1 * f3) := by rw [hoff, ha]; field_simp
  have hfac := fac_mul hu1 (fac_mul hu1 hf2 hf1) hf3
  have hoff0 : 0 ≤ off := by rw [hoff']; exact mul_nonneg ha0 (fac_pos hu1 hfac).le
  have hg3 := gam_nonneg hu0 hu1 3
  have hofferr : |off - a| ≤ gam u 3 * a := by
    rw [hoff', show a * (f2 * f1 * f3) - a = (f2 * f1 * f3 - 1) * a by ring, abs_mul, abs_of_nonneg ha0]
    exact mul_le_mul_of_nonneg_right (fac_err hu0 hu1 hfac) ha0
  have oe := abs_le.1 hofferr
  have hga : gam u 3 * a ≤ 1 / 16 := (mul_le_mul_of_nonneg_left (by linarith) hg3).trans hxu
  have hoff1 : off ≤ D + 5 / 16 := by linarith
  have hM0 : 0 ≤ M := (abs_nonneg _).trans (hM 0 (Nat.zero_le _))
  rw [← ha] at hL ⊢
  have hwfac : ∀ i ≤ D, ∃ f, Fac u (D + 1) f ∧ w i = getWeights D (fun k => (k : ℝ)) i * f := by
    intro i hi
    obtain ⟨f, hf, hwi⟩ := weight_fac hu0 hu1 (k := 0) (e := fun j => (i : ℝ) - j) (fun j a ha => ⟨1, fac_one hu0 hu1 0, by rw [ha]; ring⟩) hi (hw i hi)
    refine ⟨f, by simpa using hf, ?_⟩
    rw [hwi, getWeights, foldl_prod_ne i (fun j => (i : ℝ) - j), one_mul]
  have hnode : ∀ n : ℕ, n ≤ D → |(n : ℝ) - off| ≤ 2 * eps + u → (∀ i ≤ D, vals i = if i = n then 1 else 0) →
      ∃ t, 0 ≤ t ∧ |t - a| ≤ gam u 3 * a + (2 * eps + u) ∧ |y - interp D (fun k => k) coef t| ≤ 4 * gam u (2 * D + 5) * (1 + L) * L * M := by
    intro n hn hno hvn
    refine ⟨n, Nat.cast_nonneg n, ?_, ?_⟩
    · have := abs_le.1 hno
      rw [abs_le]; constructor <;> linarith
    · refine (node_error hu0 hu1 (distinct_id D) hn hM hvn hs).trans (mul_le_mul_of_nonneg_right ?_ hM0)
      have h1 : gam u (D + 2) ≤ gam u (2 * D + 5) := gam_mono hu0 hu1 (by omega)
      have h2 := gam_nonneg hu0 hu1 (2 * D + 5)
      have h3 : gam u (2 * D + 5) * 1 ≤ gam u (2 * D + 5) * (1 + L) := mul_le_mul_of_nonneg_left (by linarith) h2
      have h4 : 4 * (gam u (2 * D + 5) * (1 + L)) * 1 ≤ 4 * (gam u (2 * D + 5) * (1 + L)) * L := mul_le_mul_of_nonneg_left hL1 (by linarith)
      have h5 : 0 ≤ gam u (2 * D + 5) * (1 + L) := mul_nonneg h2 (by linarith)
      linarith
  obtain ⟨loc, hloc, hr⟩ := hr
  obtain ⟨n, hn⟩ := Int.eq_ofNat_of_zero_le (Int.floor_nonneg.2 hoff0)
  have htr : trunc off = n := by unfold trunc; rw [if_pos hoff0, hn]
  have hfl1 : (n : ℝ) ≤ off := by have := Int.floor_le off; rw [hn] at this; exact_mod_cast this
  have hfl2 : off < n + 1 := by have := Int.lt_floor_add_one off; rw [hn] at this; exact_mod_cast this
  have hnD : n ≤ D := by
    have : (n : ℝ) < D + 1 := by linarith
    have : n < D + 1 := by exact_mod_cast this
    omega
  rw [htr] at hloc hr
  push_cast at hloc
  obtain ⟨δ, hδ, hloc'⟩ := hloc
  have bδ := abs_le.1 hδ
  have hp0 : 0 ≤ off - n := by linarith
  have hloc1 : (off - n) * (1 - u) ≤ loc := by rw [hloc']; exact mul_le_mul_of_nonneg_left (by linarith) hp0
  have hloc2 : loc ≤ (off - n) * (1 + u) := by rw [hloc']; exact mul_le_mul_of_nonneg_left (by linarith) hp0
  have hup : u * (off - n) ≤ u * 1 := mul_le_mul_of_nonneg_left (by linarith) hu0
  split_ifs at hr with hle
  · subst hr
    refine hnode n hnD ?_ (fun i hi => ?_)
    · have : u * (off - n) ≤ 1 / 16 * (off - n) := mul_le_mul_of_nonneg_right hu hp0
      rw [abs_le]; constructor <;> linarith
    · have := hv i hi
      simp only [Nat.cast_inj] at this
      exact this
  · obtain ⟨l1, hl1, rfl⟩ := hr
    split_ifs at hv with hge
    · -- the next node
      have hl : loc - 1 ≥ -(2 * eps) := by
        by_contra hcon
        have hneg : loc - 1 < -(2 * eps) := not_le.1 hcon
        obtain ⟨δ', hδ', hl1'⟩ := hl1
        have b := abs_le.1 hδ'
        have h1 : (loc - 1) * (1 + δ') ≤ (loc - 1) * (1 / 2) := mul_le_mul_of_nonpos_left (by linarith) (by linarith)
        linarith
      have hnear : |((n + 1 : ℕ) : ℝ) - off| ≤ 2 * eps + u := by
        push_cast
        rw [abs_le]; constructor <;> linarith
      have hn1 : n + 1 ≤ D := by
        have b := abs_le.1 hnear
        push_cast at b
        have : (n : ℝ) + 1 < D + 1 := by linarith
        have : n + 1 < D + 1 := by exact_mod_cast this
        omega
      refine hnode (n + 1) hn1 hnear (fun i hi => ?_)
      have := hv i hi
      rw [this]
      have e : ((i : ℤ) = (n : ℤ) + 1) ↔ i = n + 1 := by omega
      simp only [e]
    · refine ⟨off, hoff0, ?_, ?_⟩
      · rw [abs_le]; constructor <;> linarith
      · have hne : ∀ j ≤ D, off ≠ (j : ℝ) := by
          intro j _ hj
          have hgt : (n : ℝ) < off := by
            rcases lt_or_eq_of_le hfl1 with h | h
            · exact h
            · exfalso
              rw [← h] at hloc2
              simp at hloc2
              linarith
          rw [hj] at hgt hfl2
          have h1 : n < j := by exact_mod_cast hgt
          have h2 : j < n + 1 := by exact_mod_cast hfl2
          omega
        have e : D + 1 + D + 4 = 2 * D + 5 := by ring
        have := between_error (W := D + 1) (xs := fun k => (k : ℝ)) hu0 hu1 (distinct_id D) hne hwfac (hL off hofferr) (by rw [e]; exact hsmall) hM hv hs
        rw [e] at this
        exact this

/-- The coordinate handed to `eval_basis` is not below the stencil, so that it is not moved by one more period. -/
theorem shifted_ge {u x0 dx η τ y x' : ℝ} {D Nl : ℕ} {kn : ℤ → ℝ} {c : ℤ} (hu0 : 0 ≤ u) (hu : u ≤ 1) (hdx : 0 < dx) (hη : 0 ≤ η) (hτ : 0 ≤ τ) (hD : 0 < D) (hDN : D ≤ Nl) (hN : 2 ≤ Nl)
    (hkn : ∀ k : ℤ, 0 ≤ k → k ≤ Nl + D → |kn k - (x0 + k * dx)| ≤ τ) (hsmall : η + 11 * τ + 4 * u * (|x0| + 2 * ((Nl + 1) * dx)) ≤ dx / 4)
    (hy1 : x0 - η ≤ y) (hy2 : y ≤ x0 + Nl * dx + η) (hc : ClosestU (Fl u) D x0 dx y c) (hx' : Shifted (Fl u) (kn 0) (kn Nl) c (stencilStart D Nl kn c y) y x') :
    kn (stencilStart D Nl kn c y) ≤ x' := by
  have hW0 : 0 ≤ u * ((Nl + 1) * dx) := by positivity
  have hux : 0 ≤ u * |x0| := by positivity
  have hsm : η + 3 * u * ((Nl + 1) * dx) ≤ dx / 4 := by linarith
  obtain ⟨hc0, hcN, hs0, hs1, hall⟩ := c102_uniform_stencil u x0 dx η τ y D Nl kn c hu0 hu hdx hη hτ hD hDN hkn hsm hy1 hy2 hc
  have hb := abs_le.1 (hall x' hx')
  have hks := abs_le.1 (hkn _ hs0 (by omega))
  obtain ⟨s, hs⟩ : ∃ s, s = stencilStart D Nl kn c y := ⟨_, rfl⟩
  rw [← hs] at hb hks hs0 hs1 hx' ⊢
  by_cases hD2 : 2 ≤ D
  · have h2 : (2 : ℝ) * dx ≤ D * dx := mul_le_mul_of_nonneg_right (by exact_mod_cast hD2) hdx.le
    linarith
  · have hD1 : D = 1 := by omega
    subst hD1
    obtain ⟨-, -, -, hodd⟩ := closest_spec hu0 hu hdx hη hsm hy1 hy2 hc
    have ho := hodd rfl
    unfold stencilStart at hs
    simp only at hs
    by_cases hgt : kn c > y
    · rw [if_pos hgt] at hs
      norm_num at hs
      by_cases hc1 : c < 1
      · have hc00 : c = 0 := by omega
        have hsN : s = Nl - 1 := by rw [hs, if_pos hc1, hc00]; ring
        rw [hsN, hc00] at hx'
        unfold Shifted at hx'
        rw [if_pos (by omega)] at hx'
        have hb1 := hb.1
        rw [hsN] at hb1 hks
        -- `x' = y + len` is near the upper end
        obtain ⟨len, hlen, hx'⟩ := hx'
        have hkN := abs_le.1 (hkn Nl (by omega) (by push_cast; omega))
        have hk0 := abs_le.1 (hkn 0 (by omega) (by push_cast; omega))
        push_cast at hkN hk0 hks
        obtain ⟨W, hW⟩ : ∃ W, W = (Nl + 1) * dx := ⟨_, rfl⟩
        rw [← hW] at hW0 hsmall
        have hN0 : (0 : ℝ) ≤ Nl * dx := by positivity
        have hNW : (Nl : ℝ) * dx ≤ W := by rw [hW]; linarith
        have hWp : 0 ≤ W := by rw [hW]; positivity
        have hlenb : |len - (kn Nl - kn 0)| ≤ u * (W + 2 * τ) := by
          refine (Fl.dist hlen).trans (mul_le_mul_of_nonneg_left ?_ hu0)
          rw [abs_le]; constructor <;> linarith
        have huτ : u * τ ≤ τ := mul_le_of_le_one_left hτ hu
        have huτ0 : 0 ≤ u * τ := by positivity
        have l := abs_le.1 hlenb
        have x0a := abs_le.1 (le_refl |x0|)
        have hyl : |y + len| ≤ |x0| + 2 * W + W + 4 * τ := by
          have : u * (W + 2 * τ) ≤ 1 * (W + 2 * τ) := mul_le_mul_of_nonneg_right hu (by positivity)
          have : η ≤ dx / 4 := by linarith
          have : Nl * dx + dx = W := by rw [hW]; ring
          rw [abs_le]; constructor <;> linarith
        have hxb : |x' - (y + len)| ≤ u * |x0| + 3 * (u * W) + 4 * τ := by
          refine (Fl.dist hx').trans ((mul_le_mul_of_nonneg_left hyl hu0).trans ?_)
          linarith
        have xb := abs_le.1 hxb
        rw [hsN]
        linarith
      · have hs' : s = c - 1 := by rw [hs, if_neg hc1]; ring
        unfold Shifted at hx'
        rw [if_neg (by omega)] at hx'
        rw [hs'] at hks ⊢
        push_cast at hks
        rw [hx']
        linarith
    · rw [if_neg hgt] at hs
      norm_num at hs
      rw [if_neg (by omega)] at hs
      norm_num at hs
      unfold Shifted at hx'
      rw [if_neg (by omega)] at hx'
      rw [hx', hs]
      linarith

/-- The coordinate handed to `eval_basis` is the wrapped coordinate, or the wrapped coordinate plus one period. -/
theorem shifted_near {u x0 dx η τ y x' : ℝ} {D Nl : ℕ} {kn : ℤ → ℝ} {c s : ℤ} (hu0 : 0 ≤ u) (hu : u ≤ 1) (hdx : 0 < dx) (hτ : 0 ≤ τ)
    (hkn : ∀ k : ℤ, 0 ≤ k → k ≤ Nl + D → |kn k - (x0 + k * dx)| ≤ τ) (hη : η ≤ dx / 4)
    (hy1 : x0 - η ≤ y) (hy2 : y ≤ x0 + Nl * dx + η) (hx' : Shifted (Fl u) (kn 0) (kn Nl) c s y x') :
    ∃ j : ℤ, |x' - (y + j * (kn Nl - kn 0))| ≤ 4 * u * (|x0| + (Nl + 1) * dx) + 6 * τ := by
  obtain ⟨W, hW⟩ : ∃ W, W = (Nl + 1) * dx := ⟨_, rfl⟩
  have hW0 : 0 ≤ W := by rw [hW]; positivity
  have huW : 0 ≤ u * W := by positivity
  have hux : 0 ≤ u * |x0| := by positivity
  rw [← hW]
  unfold Shifted at hx'
  split_ifs at hx' with hsc
  · refine ⟨1, ?_⟩
    obtain ⟨len, hlen, hx'⟩ := hx'
    have hkN := abs_le.1 (hkn Nl (by omega) (by push_cast; omega))
    have hk0 := abs_le.1 (hkn 0 (by omega) (by push_cast; omega))
    push_cast at hkN hk0
    have hN0 : (0 : ℝ) ≤ Nl * dx := by positivity
    have hNW : (Nl : ℝ) * dx ≤ W := by rw [hW]; linarith
    have hlenb : |len - (kn Nl - kn 0)| ≤ u * (W + 2 * τ) := by
      refine (Fl.dist hlen).trans (mul_le_mul_of_nonneg_left ?_ hu0)
      rw [abs_le]; constructor <;> linarith
    have huτ : u * τ ≤ τ := mul_le_of_le_one_left hτ hu
    have huτ0 : 0 ≤ u * τ := by positivity
    have l := abs_le.1 hlenb
    have x0a := abs_le.1 (le_refl |x0|)
    have hyl : |y + len| ≤ |x0| + 2 * W + W + 4 * τ := by
      have : u * (W + 2 * τ) ≤ 1 * (W + 2 * τ) := mul_le_mul_of_nonneg_right hu (by positivity)
      have : Nl * dx + dx = W := by rw [hW]; ring
      rw [abs_le]; constructor <;> linarith
    have hxb : |x' - (y + len)| ≤ u * |x0| + 3 * (u * W) + 4 * τ := by
      refine (Fl.dist hx').trans ((mul_le_mul_of_nonneg_left hyl hu0).trans ?_)
      linarith
    have xb := abs_le.1 hxb
    push_cast
    rw [abs_le]; constructor <;> linarith
  · refine ⟨0, ?_⟩
    rw [hx']
    simp
    positivity

/-- **C103, the periodic evaluator.** For every coordinate `x`, inside or outside of the domain, the computed value is, up to a multiple of `u`, the value at a point `t` of the exact polynomial interpolating the coefficients
`s, ..., s + D`, where the point `kn s + t dx` is, up to rounding errors, the coordinate `x` moved by a whole number of periods, and lies, up to rounding errors, at most half a cell away from the middle of the stencil. -/
theorem c103_periodic (u eps τ dx x y M : ℝ) (D Nl : ℕ) (w : ℕ → ℝ) (kn coef : ℤ → ℝ) (hu0 : 0 ≤ u) (hu : u ≤ 1 / 16) (hdx : 0 < dx) (hτ : 0 ≤ τ) (heps0 : 0 ≤ eps) (heps : eps ≤ 1 / 16)
    (hD : 0 < D) (hDN : D ≤ Nl) (hN : 2 ≤ Nl) (hw : ∀ i ≤ D, WeightU u D i (w i)) (hkn : ∀ k : ℤ, 0 ≤ k → k ≤ Nl + D → |kn k - (kn 0 + k * dx)| ≤ τ)
    (hsmall : 13 * u * (|x - kn 0| + (Nl * dx + τ) + |kn 0|) + 12 * τ + 4 * u * (|kn 0| + 2 * ((Nl + 1) * dx)) ≤ dx / 4)
    (hg3 : gam u 3 * (D + 1) ≤ 1 / 16) (hg : gam u (2 * D + 5) * (1 + (D + 1) * 2 ^ D) ≤ 1 / 2) (hM : ∀ k : ℤ, 0 ≤ k → k ≤ Nl + D → |coef k| ≤ M)
    (h : EvalPeriodicU u eps D Nl w kn dx coef x y) :
    ∃ (s j : ℤ) (t : ℝ), 0 ≤ s ∧ s ≤ Nl ∧ 0 ≤ t ∧ t ≤ D + 1 ∧
      |t - D / 2| * dx ≤ dx / 2 + (13 * u * (|x - kn 0| + (Nl * dx + τ) + |kn 0|) + 12 * τ + 4 * u * (|kn 0| + 2 * ((Nl + 1) * dx))) + (gam u 3 * (D + 1) + (2 * eps + u)) * dx ∧
      |kn s + t * dx - (x - j * (kn Nl - kn 0))| ≤ 13 * u * (|x - kn 0| + (Nl * dx + τ) + |kn 0|) + (4 * u * (|kn 0| + (Nl + 1) * dx) + 6 * τ) + (gam u 3 * (D + 1) + (2 * eps + u)) * dx ∧
      |y - interp D (fun k => k) (fun i => coef (s + i)) t| ≤ 4 * gam u (2 * D + 5) * (1 + (D + 1) * 2 ^ D) * ((D + 1) * 2 ^ D) * M := by
  obtain ⟨xw, c, x', vals, hwr, hc, hsh, ⟨x1, hx1, hb⟩, hs⟩ := h
  have hu1 : u < 1 := by linarith
  obtain ⟨x0, hx0⟩ : ∃ x0, x0 = kn 0 := ⟨_, rfl⟩
  obtain ⟨A, hA⟩ : ∃ A, A = 13 * u * (|x - kn 0| + (Nl * dx + τ) + |kn 0|) := ⟨_, rfl⟩
  have hkN := abs_le.1 (hkn Nl (by omega) (by omega))
  push_cast at hkN
  have hN1 : (2 : ℝ) ≤ Nl := by exact_mod_cast hN
  have hNd := mul_le_mul_of_nonneg_right hN1 hdx.le
  have huN : 0 ≤ u * ((Nl + 1) * dx) := by positivity
  have hux : 0 ≤ u * |kn 0| := by positivity
  have hA0 : 0 ≤ A := by rw [hA]; positivity
  rw [← hA] at hsmall ⊢
  have hlt : kn 0 < kn Nl := by linarith
  obtain ⟨⟨k, hk⟩, b1, b2⟩ := c102_wrap_accuracy u (kn 0) (kn Nl) x xw hu0 (by linarith) hlt hwr
  have hle : 13 * u * (|x - kn 0| + (kn Nl - kn 0) + |kn 0|) ≤ A := by rw [hA]; exact mul_le_mul_of_nonneg_left (by linarith) (by positivity)
  have hk' := abs_le.1 (hk.trans hle)
  have hη0 : 0 ≤ A + τ := by linarith
  have hge := shifted_ge (η := A + τ) hu0 hu1.le hdx hη0 hτ hD hDN hN hkn (by linarith) (by linarith) (by linarith) hc hsh
  obtain ⟨hc0, hcN, hs0, hs1, hall⟩ := c102_uniform_stencil u (kn 0) dx (A + τ) τ xw D Nl kn c hu0 hu1.le hdx hη0 hτ hD hDN hkn (by linarith) (by linarith) (by linarith) hc
  have hmid := abs_le.1 (hall x' hsh)
  obtain ⟨j, hj⟩ := shifted_near hu0 hu1.le hdx hτ hkn (by linarith : A + τ ≤ dx / 4) (by linarith) (by linarith) hsh
  obtain ⟨s, hse⟩ : ∃ s, s = stencilStart D Nl kn c xw := ⟨_, rfl⟩
  rw [← hse] at hge hs0 hs1 hmid hb hs hx1
  rw [if_neg (not_lt.2 hge)] at hx1
  subst hx1
  have hks := abs_le.1 (hkn s hs0 (by omega))
  have hD1 : (1 : ℝ) ≤ D := by exact_mod_cast hD
  have hDd := mul_le_mul_of_nonneg_right hD1 hdx.le
  have hx1D : x1 - kn s ≤ (D + 1 / 4) * dx := by linarith
  obtain ⟨a, ha⟩ : ∃ a, a = (x1 - kn s) / dx := ⟨_, rfl⟩
  have hax : x1 = kn s + a * dx := by rw [ha]; field_simp; ring
  have ha0 : 0 ≤ a := by rw [ha]; exact div_nonneg (by linarith) hdx.le
  have ha1 : a ≤ D + 1 / 4 := by rw [ha, div_le_iff₀ hdx]; exact hx1D
  have hg30 := gam_nonneg hu0 hu1 3
  have hga : gam u 3 * a ≤ gam u 3 * (D + 1) := mul_le_mul_of_nonneg_left (by linarith) hg30
  have hp2 : (1 : ℝ) ≤ 2 ^ D := one_le_pow₀ (by norm_num)
  have hL1 : (1 : ℝ) ≤ (D + 1) * 2 ^ D := by nlinarith
  have hLeb : ∀ t, |t - (x1 - kn s) / dx| ≤ gam u 3 * ((x1 - kn s) / dx) → lebesgue D (fun k => k) t ≤ (D + 1) * 2 ^ D := by
    intro t ht
    rw [← ha] at ht
    have b := abs_le.1 ht
    have hg1 : gam u 3 * 1 ≤ gam u 3 * (D + 1) := mul_le_mul_of_nonneg_left (by linarith) hg30
    have hg2 : gam u 3 * a ≤ 1 * a := mul_le_mul_of_nonneg_right (by linarith) ha0
    exact lebesgue_le D t (by linarith) (by linarith)
  obtain ⟨t, ht0, ht, hy⟩ := c103_uniform u eps D w (fun i => coef (s + i)) vals (kn s) dx x1 y M ((D + 1) * 2 ^ D) hu0 hu hdx heps0 heps hw hge hx1D hg3
    (fun i hi => hM _ (by omega) (by omega)) hLeb hL1 hg hb hs
  rw [← ha] at ht
  have hte := abs_le.1 (ht.trans (add_le_add_left hga _))
  have htb : |t - a| ≤ gam u 3 * (D + 1) + (2 * eps + u) := by rw [abs_le]; exact hte
  have hdist : |(t - a) * dx| ≤ (gam u 3 * (D + 1) + (2 * eps + u)) * dx := by
    rw [abs_mul, abs_of_pos hdx]; exact mul_le_mul_of_nonneg_right htb hdx.le
  have hd := abs_le.1 hdist
  have hj' := abs_le.1 hj
  have hcen : |t - D / 2| * dx ≤ dx / 2 + (A + 12 * τ + 4 * u * (|kn 0| + 2 * ((Nl + 1) * dx))) + (gam u 3 * (D + 1) + (2 * eps + u)) * dx := by
    rw [← abs_of_pos hdx, ← abs_mul, abs_of_pos hdx, abs_le]
    constructor <;> linarith
  refine ⟨s, k - j, t, hs0, by omega, ht0, by linarith, hcen, ?_, hy⟩
  push_cast
  rw [abs_le]; constructor <;> linarith

/-- **C103, accuracy.** With coefficients close to the values of a smooth periodic function `f` at the knots, the value computed in floating-point arithmetic at any coordinate `x` differs from `f x` by the interpolation
error of order `D + 1`, the error of the coefficients and a multiple of the rounding errors. -/
theorem c103_accuracy (u eps τ dx x y M ζ Mh M1 : ℝ) (D Nl : ℕ) (w : ℕ → ℝ) (kn coef : ℤ → ℝ) (f : ℝ → ℝ) (hu0 : 0 ≤ u) (hu : u ≤ 1 / 16) (hdx : 0 < dx) (hτ : 0 ≤ τ) (heps0 : 0 ≤ eps) (heps : eps ≤ 1 / 16)
    (hD : 0 < D) (hDN : D ≤ Nl) (hN : 2 ≤ Nl) (hw : ∀ i ≤ D, WeightU u D i (w i)) (hkn : ∀ k : ℤ, 0 ≤ k → k ≤ Nl + D → |kn k - (kn 0 + k * dx)| ≤ τ)
    (hsmall : 13 * u * (|x - kn 0| + (Nl * dx + τ) + |kn 0|) + 12 * τ + 4 * u * (|kn 0| + 2 * ((Nl + 1) * dx)) ≤ dx / 4)
    (hg3 : gam u 3 * (D + 1) ≤ 1 / 16) (hg : gam u (2 * D + 5) * (1 + (D + 1) * 2 ^ D) ≤ 1 / 2) (hM : ∀ k : ℤ, 0 ≤ k → k ≤ Nl + D → |coef k| ≤ M)
    (hf : ContDiff ℝ (D + 1 : ℕ) f) (hper : ∀ t, f (t + (kn Nl - kn 0)) = f t) (hMh : ∀ t, |iteratedDeriv (D + 1) f t| ≤ Mh) (hM1 : ∀ t, |deriv f t| ≤ M1)
    (hcoef : ∀ k : ℤ, 0 ≤ k → k ≤ Nl + D → |coef k - f (kn 0 + k * dx)| ≤ ζ) (h : EvalPeriodicU u eps D Nl w kn dx coef x y) :
    |y - f x| ≤ Mh * dx ^ (D + 1) + (D + 1) * 2 ^ D * ζ + 4 * gam u (2 * D + 5) * (1 + (D + 1) * 2 ^ D) * ((D + 1) * 2 ^ D) * M
      + M1 * (13 * u * (|x - kn 0| + (Nl * dx + τ) + |kn 0|) + (4 * u * (|kn 0| + (Nl + 1) * dx) + 7 * τ) + (gam u 3 * (D + 1) + (2 * eps + u)) * dx) := by
  obtain ⟨s, j, t, hs0, hs1, ht0, ht1, -, hpos, hy⟩ := c103_periodic u eps τ dx x y M D Nl w kn coef hu0 hu hdx hτ heps0 heps hD hDN hN hw hkn hsmall hg3 hg hM h
  obtain ⟨b, hb⟩ : ∃ b, b = kn 0 + s * dx := ⟨_, rfl⟩
  have hM10 : 0 ≤ M1 := (abs_nonneg _).trans (hM1 0)
  -- the interpolation error
  obtain ⟨g, hgdef⟩ : ∃ g : ℝ → ℝ, g = fun z => f (b + dx * z) := ⟨_, rfl⟩
  have hfb : ContDiff ℝ (D + 1 : ℕ) (fun z => f (b + z)) := hf.comp (contDiff_const.add contDiff_id)
  have hgc : ContDiff ℝ (D + 1 : ℕ) g := by rw [hgdef]; exact hf.comp (contDiff_const.add (contDiff_const.mul contDiff_id))
  have hgd : ∀ z ∈ Set.Icc (0 : ℝ) (D + 1), |iteratedDeriv (D + 1) g z| ≤ Mh * dx ^ (D + 1) := by
    intro z _
    have e := iteratedDeriv_comp_const_mul (n := D + 1) hfb dx
    have e2 := iteratedDeriv_comp_const_add (D + 1) f b
    have e3 : iteratedDeriv (D + 1) g z = dx ^ (D + 1) * iteratedDeriv (D + 1) f (b + dx * z) := by
      rw [hgdef]
      have := congrFun e z
      simp only [e2] at this
      exact this
    rw [e3, abs_mul, abs_of_pos (pow_pos hdx _), mul_comm]
    exact mul_le_mul_of_nonneg_right (hMh _) (pow_pos hdx _).le
  have hin : ∀ i ≤ D, ((i : ℕ) : ℝ) ∈ Set.Icc (0 : ℝ) (D + 1) := by
    intro i hi
    have : (i : ℝ) ≤ D := by exact_mod_cast hi
    exact ⟨Nat.cast_nonneg i, by linarith⟩
  have h1 := AccuracyLagrange.interp_error D (fun k => (k : ℝ)) (distinct_id D) g hgc 0 (D + 1) (Mh * dx ^ (D + 1)) hin hgd t ⟨ht0, ht1⟩
  have hp := prod_point D (D + 1) t ht0 ht1
  rw [Finset.erase_eq_of_notMem (by simp)] at hp
  have hfac : (0 : ℝ) < (D + 1).factorial := by exact_mod_cast (D + 1).factorial_pos
  have hMh0 : 0 ≤ Mh * dx ^ (D + 1) := mul_nonneg ((abs_nonneg _).trans (hMh 0)) (pow_pos hdx _).le
  have h2 : |(AccuracyLagrange.interp D (fun k => (k : ℝ)) g).eval t - g t| ≤ Mh * dx ^ (D + 1) := by
    refine h1.trans ((mul_le_mul_of_nonneg_left hp (div_nonneg hMh0 hfac.le)).trans (le_of_eq ?_))
    field_simp
  -- the error of the coefficients
  have h3 : |interp D (fun k => k) (fun i => coef (s + i)) t - (AccuracyLagrange.interp D (fun k => (k : ℝ)) g).eval t| ≤ (D + 1) * 2 ^ D * ζ := by
    have e : (AccuracyLagrange.interp D (fun k => (k : ℝ)) g).eval t = ∑ i ∈ range (D + 1), g i * (Lagrange.basis (range (D + 1)) (fun k => (k : ℝ)) i).eval t := by
      unfold AccuracyLagrange.interp
      simp only [Polynomial.eval_finsetSum, Polynomial.eval_mul, Polynomial.eval_C]
    unfold interp
    rw [e, ← Finset.sum_sub_distrib]
    have hζ : 0 ≤ ζ := (abs_nonneg _).trans (hcoef 0 le_rfl (by omega))
    refine le_trans ?_ (mul_le_mul_of_nonneg_right (lebesgue_le D t ht0 ht1) hζ)
    unfold lebesgue
    rw [Finset.sum_mul]
    refine (Finset.abs_sum_le_sum_abs _ _).trans (Finset.sum_le_sum fun i hi => ?_)
    have hiD : i ≤ D := by simpa [Nat.lt_succ_iff] using hi
    rw [← sub_mul, abs_mul, mul_comm]
    refine mul_le_mul_of_nonneg_left ?_ (abs_nonneg _)
    have := hcoef (s + i) (by omega) (by omega)
    rw [hgdef]; simp only
    rw [hb, show kn 0 + s * dx + dx * i = kn 0 + ((s + i : ℤ) : ℝ) * dx by push_cast; ring]
    exact this
  -- the error of the position
  have hkns := abs_le.1 (hkn s hs0 (by omega))
  have hperj : ∀ (j : ℤ) (t : ℝ), f (t + j * (kn Nl - kn 0)) = f t := by
    intro j t
    have hp : Function.Periodic f (kn Nl - kn 0) := hper
    have := hp.int_mul j t
    simpa using this
  have hlip : ∀ p q : ℝ, |f p - f q| ≤ M1 * |p - q| := by
    intro p q
    have hdf : Differentiable ℝ f := hf.differentiable (by simp)
    have := Convex.norm_image_sub_le_of_norm_deriv_le (s := Set.univ) (f := f) (C := M1) (fun z _ => hdf z) (fun z _ => by rw [Real.norm_eq_abs]; exact hM1 z) convex_univ (Set.mem_univ q) (Set.mem_univ p)
    simpa [Real.norm_eq_abs] using this
  have h4 : |g t - f x| ≤ M1 * (13 * u * (|x - kn 0| + (Nl * dx + τ) + |kn 0|) + (4 * u * (|kn 0| + (Nl + 1) * dx) + 7 * τ) + (gam u 3 * (D + 1) + (2 * eps + u)) * dx) := by
    rw [hgdef]; simp only
    rw [show f x = f (x - j * (kn Nl - kn 0)) by rw [← hperj j (x - j * (kn Nl - kn 0))]; congr 1; ring]
    refine (hlip _ _).trans (mul_le_mul_of_nonneg_left ?_ hM10)
    have hpos' := abs_le.1 hpos
    rw [hb, abs_le]; constructor <;> linarith
  have e : y - f x = (y - interp D (fun k => k) (fun i => coef (s + i)) t) + (interp D (fun k => k) (fun i => coef (s + i)) t - (AccuracyLagrange.interp D (fun k => (k : ℝ)) g).eval t)
      + ((AccuracyLagrange.interp D (fun k => (k : ℝ)) g).eval t - g t) + (g t - f x) := by ring
  rw [e]
  have a1 := abs_le.1 hy
  have a2 := abs_le.1 h3
  have a3 := abs_le.1 h2
  have a4 := abs_le.1 h4
  rw [abs_le]; constructor <;> linarith

/-- **C103, non-uniform grid.** The same on a non-uniform grid with knots `xs`. -/
theorem c103_non_uniform (u eps : ℝ) (D : ℕ) (xs coef vals : ℕ → ℝ) (x y M L : ℝ) (hu0 : 0 ≤ u) (hu : u ≤ 1 / 2) (heps0 : 0 < eps) (hxs : Distinct D xs) (hM : ∀ i ≤ D, |coef i| ≤ M)
    (hL : lebesgue D xs x ≤ L) (hL1 : 1 ≤ L) (hsmall : gam u (3 * D + 5) * (1 + L) ≤ 1 / 2) (hb : EvalBasisNU u eps D xs x vals) (hs : SumFl u D coef vals y) :
    ∃ t, |t - x| ≤ 2 * eps ∧ |y - interp D xs coef t| ≤ 4 * gam u (3 * D + 5) * (1 + L) * L * M := by
  have hu1 : u < 1 := by linarith
  have hM0 : 0 ≤ M := (abs_nonneg _).trans (hM 0 (Nat.zero_le _))
  obtain ⟨r, w, ⟨dist, hdist, hr⟩, hw, hv⟩ := hb
  cases hrc : r with
  | none =>
    rw [hrc] at hr hv
    refine ⟨x, by simp; linarith, ?_⟩
    have hne : ∀ j ≤ D, x ≠ xs j := by
      intro j hj hxj
      have := List.find?_eq_none.1 hr.symm j (by simp; omega)
      obtain ⟨δ, -, hd⟩ := hdist j
      rw [hxj, sub_self, zero_mul] at hd
      rw [hd] at this
      simp at this
      linarith
    have hwfac : ∀ i ≤ D, ∃ f, Fac u (2 * D + 1) f ∧ w i = getWeights D xs i * f := by
      intro i hi
      obtain ⟨f, hf, hwi⟩ := weight_fac hu0 hu1 (k := 1) (e := fun j => xs i - xs j) (fun j a ha => fl_fac hu0 hu1 ha) hi (hw i hi)
      refine ⟨f, hf, ?_⟩
      rw [hwi, getWeights, foldl_prod_ne i (fun j => xs i - xs j), one_mul]
    have e : 2 * D + 1 + D + 4 = 3 * D + 5 := by ring
    have := between_error hu0 hu1 hxs hne hwfac hL (by rw [e]; exact hsmall) hM hv hs
    rw [e] at this
    exact this
  | some n =>
    rw [hrc] at hr hv
    have hn := List.find?_some hr.symm
    have hmem := List.mem_of_find?_eq_some hr.symm
    have hnD : n ≤ D := by simpa [Nat.lt_succ_iff] using hmem
    simp at hn
    obtain ⟨δ, hδ, hd⟩ := hdist n
    have b := abs_le.1 hδ
    refine ⟨xs n, ?_, ?_⟩
    · rw [hd, abs_mul, abs_of_pos (by linarith : 0 < 1 + δ)] at hn
      have : |x - xs n| * (1 / 2) ≤ |x - xs n| * (1 + δ) := mul_le_mul_of_nonneg_left (by linarith) (abs_nonneg _)
      rw [abs_sub_comm]
      linarith
    · refine (node_error hu0 hu1 hxs hnD hM hv hs).trans (mul_le_mul_of_nonneg_right ?_ hM0)
      have h1 : gam u (D + 2) ≤ gam u (3 * D + 5) := gam_mono hu0 hu1 (by omega)
      have h2 := gam_nonneg hu0 hu1 (3 * D + 5)
      have h3 : gam u (3 * D + 5) * 1 ≤ gam u (3 * D + 5) * (1 + L) := mul_le_mul_of_nonneg_left (by linarith) h2
      have h5 : 0 ≤ gam u (3 * D + 5) * (1 + L) := mul_nonneg h2 (by linarith)
      have h4 : 4 * (gam u (3 * D + 5) * (1 + L)) * 1 ≤ 4 * (gam u (3 * D + 5) * (1 + L)) * L := mul_le_mul_of_nonneg_left hL1 (by linarith)
      linarith

/-! ## The hypotheses are met -/

theorem fl_self (hu0 : 0 ≤ u) (x : ℝ) : Fl u x x := ⟨0, by simpa using hu0, by ring⟩

theorem exists_mulLoop (hu0 : 0 ≤ u) {val : ℕ → ℝ → Prop} (h : ∀ j, ∃ a, val j a) (l : List ℕ) (acc : ℝ) : ∃ out, MulLoop u val l acc out := by
  induction l generalizing acc with
  | nil => exact ⟨acc, .nil acc⟩
  | cons j l ih =>
    obtain ⟨a, ha⟩ := h j
    obtain ⟨out, ho⟩ := ih (acc * a)
    exact ⟨out, .cons j l acc a _ out ha (fl_self hu0 _) ho⟩

theorem exists_addLoop (hu0 : 0 ≤ u) {val : ℕ → ℝ → Prop} (h : ∀ j, ∃ a, val j a) (l : List ℕ) (acc : ℝ) : ∃ out, AddLoop u val l acc out := by
  induction l generalizing acc with
  | nil => exact ⟨acc, .nil acc⟩
  | cons j l ih =>
    obtain ⟨a, ha⟩ := h j
    obtain ⟨out, ho⟩ := ih (acc + a)
    exact ⟨out, .cons j l acc a _ out ha (fl_self hu0 _) ho⟩

theorem exists_weights (hu0 : 0 ≤ u) (D : ℕ) : ∃ w : ℕ → ℝ, ∀ i ≤ D, WeightU u D i (w i) := by
  have : ∀ i, ∃ w, WeightU u D i w := fun i => by
    obtain ⟨num, hn⟩ := exists_mulLoop hu0 (val := fun j a => a = (i : ℝ) - j) (fun j => ⟨_, rfl⟩) ((List.range (D + 1)).filter (· ≠ i)) 1
    exact ⟨1 / num, num, hn, fl_self hu0 _⟩
  choose w hw using this
  exact ⟨w, fun i _ => hw i⟩

theorem exists_basis (hu0 : 0 ≤ u) (eps : ℝ) (D : ℕ) (w : ℕ → ℝ) (xs dx x : ℝ) : ∃ vals, EvalBasisU u eps D w xs dx x vals := by
  obtain ⟨off, hoff⟩ : ∃ off, off = (x - xs) * (1 / dx) := ⟨_, rfl⟩
  have hr : ∃ r, CheckNodeU u eps off r := by
    by_cases h : off - trunc off ≤ eps
    · exact ⟨_, _, fl_self hu0 _, by rw [if_pos h]⟩
    · exact ⟨_, _, fl_self hu0 _, by rw [if_neg h]; exact ⟨_, fl_self hu0 _, rfl⟩⟩
  obtain ⟨r, hr⟩ := hr
  have hden : ∀ j : ℕ, ∃ d, Fl u (off - j) d := fun j => ⟨_, fl_self hu0 _⟩
  obtain ⟨s, hs⟩ := exists_addLoop hu0 (val := fun j a => ∃ d, Fl u (off - (j : ℝ)) d ∧ Fl u (w j / d) a) (fun j => ⟨_, _, fl_self hu0 _, fl_self hu0 _⟩) (List.range (D + 1)) 0
  cases r with
  | none => exact ⟨fun i => w i / (off - i) / s, _, _, off, none, fl_self hu0 _, fl_self hu0 _, by rw [hoff]; exact fl_self hu0 _, hr, fun i _ => ⟨_, _, s, fl_self hu0 _, fl_self hu0 _, hs, fl_self hu0 _⟩⟩
  | some n => exact ⟨fun i => if (i : ℤ) = n then 1 else 0, _, _, off, some n, fl_self hu0 _, fl_self hu0 _, by rw [hoff]; exact fl_self hu0 _, hr, fun i _ => rfl⟩

/-- The evaluator has a result for every coordinate. -/
theorem exists_eval (hu0 : 0 ≤ u) (eps : ℝ) (D Nl : ℕ) (w : ℕ → ℝ) (kn : ℤ → ℝ) (dx : ℝ) (coef : ℤ → ℝ) (x : ℝ) : ∃ y, EvalPeriodicU u eps D Nl w kn dx coef x y := by
  have hw : ∃ xw, Wrap (Fl u) (kn 0) (kn Nl) x xw := by
    unfold Wrap
    split_ifs
    · exact ⟨_, _, _, _, _, fl_self hu0 _, fl_self hu0 _, fl_self hu0 _, fl_self hu0 _, fl_self hu0 _⟩
    · exact ⟨x, rfl⟩
  obtain ⟨xw, hw⟩ := hw
  obtain ⟨c, hc⟩ : ∃ c, ClosestU (Fl u) D (kn 0) dx xw c := ⟨_, _, _, fl_self hu0 _, fl_self hu0 _, rfl⟩
  obtain ⟨s, hs⟩ : ∃ s, s = stencilStart D Nl kn c xw := ⟨_, rfl⟩
  have hsh : ∃ x', Shifted (Fl u) (kn 0) (kn Nl) c s xw x' := by
    unfold Shifted
    split_ifs
    · exact ⟨_, _, fl_self hu0 _, fl_self hu0 _⟩
    · exact ⟨xw, rfl⟩
  obtain ⟨x', hx'⟩ := hsh
  have h1 : ∃ x1, if x' < kn s then ∃ len, Fl u (kn Nl - kn 0) len ∧ Fl u (x' + len) x1 else x1 = x' := by
    split_ifs
    · exact ⟨_, _, fl_self hu0 _, fl_self hu0 _⟩
    · exact ⟨x', rfl⟩
  obtain ⟨x1, hx1⟩ := h1
  obtain ⟨vals, hv⟩ := exists_basis hu0 eps D w (kn s) dx x1
  obtain ⟨y, hy⟩ := exists_addLoop hu0 (val := fun i a => Fl u (coef (s + i) * vals i) a) (fun i => ⟨_, fl_self hu0 _⟩) (List.range (D + 1)) 0
  rw [hs] at hx' hx1 hv hy
  exact ⟨y, xw, c, x', vals, hw, hc, hx', ⟨x1, hx1, hv⟩, hy⟩

/-- Cubic interpolation in binary64 arithmetic on the grid `0, 1, ..., 100`, far outside of the domain: the hypotheses of `c103_periodic` are met. -/
example : ∃ (w : ℕ → ℝ) (y : ℝ), EvalPeriodicU (2⁻¹ ^ 53) (2⁻¹ ^ 50) 3 100 w (fun k => k) 1 (fun k => (-1) ^ k.natAbs) 100000000.7 y ∧
    ∃ (s j : ℤ) (t : ℝ), 0 ≤ s ∧ s ≤ 100 ∧ |s + t - (100000000.7 - j * 100)| ≤ 1 / 1000000 ∧
      |y - interp 3 (fun k => k) (fun i => (-1) ^ (s + i).natAbs) t| ≤ 2⁻¹ ^ 34 := by
  have hu0 : (0 : ℝ) ≤ 2⁻¹ ^ 53 := by positivity
  have hu1 : (2⁻¹ ^ 53 : ℝ) < 1 := by norm_num
  obtain ⟨w, hw⟩ := exists_weights hu0 3
  obtain ⟨y, hy⟩ := exists_eval hu0 (2⁻¹ ^ 50) 3 100 w (fun k => (k : ℝ)) 1 (fun k => (-1) ^ k.natAbs) 100000000.7
  have g3 := gam_le hu0 hu1 3 (by norm_num)
  have g11 := gam_le hu0 hu1 (2 * 3 + 5) (by norm_num)
  have hM : ∀ k : ℤ, 0 ≤ k → k ≤ (100 : ℕ) + (3 : ℕ) → |((-1 : ℝ) ^ k.natAbs)| ≤ 1 := fun k _ _ => by simp
  obtain ⟨s, j, t, hs0, hs1, -, -, -, hp, hv⟩ := c103_periodic (2⁻¹ ^ 53) (2⁻¹ ^ 50) 0 1 100000000.7 y 1 3 100 w (fun k => (k : ℝ)) (fun k => (-1) ^ k.natAbs) hu0 (by norm_num) one_pos le_rfl (by positivity) (by norm_num)
    (by norm_num) (by norm_num) (by norm_num) hw (fun k _ _ => by simp) (by norm_num [abs_of_pos]) (by push_cast; linarith) (by push_cast at g11 ⊢; linarith) hM hy
  refine ⟨w, y, hy, s, j, t, hs0, by exact_mod_cast hs1, ?_, ?_⟩
  · push_cast at hp
    norm_num [abs_of_pos] at hp
    norm_num at g3 ⊢
    refine hp.trans ?_
    linarith
  · refine hv.trans ?_
    norm_num at g11 ⊢
    linarith

theorem exists_basis_nu (hu0 : 0 ≤ u) (eps : ℝ) (D : ℕ) (xs : ℕ → ℝ) (x : ℝ) : ∃ vals, EvalBasisNU u eps D xs x vals := by
  have hw : ∀ i, ∃ w, WeightNU u D xs i w := fun i => by
    obtain ⟨num, hn⟩ := exists_mulLoop hu0 (val := fun j a => Fl u (xs i - xs j) a) (fun j => ⟨_, fl_self hu0 _⟩) ((List.range (D + 1)).filter (· ≠ i)) 1
    exact ⟨1 / num, num, hn, fl_self hu0 _⟩
  choose w hw using hw
  obtain ⟨r, hr⟩ : ∃ r, CheckNodeNU u eps D xs x r := ⟨_, fun i => x - xs i, fun i => fl_self hu0 _, rfl⟩
  obtain ⟨s, hs⟩ := exists_addLoop hu0 (val := fun j a => ∃ d, Fl u (x - xs j) d ∧ Fl u (w j / d) a) (fun j => ⟨_, _, fl_self hu0 _, fl_self hu0 _⟩) (List.range (D + 1)) 0
  cases r with
  | none => exact ⟨fun i => w i / (x - xs i) / s, none, w, hr, fun i _ => hw i, fun i _ => ⟨_, _, s, fl_self hu0 _, fl_self hu0 _, hs, fl_self hu0 _⟩⟩
  | some n => exact ⟨fun i => if i = n then 1 else 0, some n, w, hr, fun i _ => hw i, fun i _ => rfl⟩

/-- The hypotheses of `c103_non_uniform` are met. -/
example : ∃ vals y, EvalBasisNU (2⁻¹ ^ 53) 1e-14 3 (fun k => k) 1.3 vals ∧ SumFl (2⁻¹ ^ 53) 3 (fun i => (-1) ^ i) vals y ∧
    ∃ t, |t - 1.3| ≤ 2e-14 ∧ |y - interp 3 (fun k => k) (fun i => (-1) ^ i) t| ≤ 2⁻¹ ^ 34 := by
  have hu0 : (0 : ℝ) ≤ 2⁻¹ ^ 53 := by positivity
  have hu1 : (2⁻¹ ^ 53 : ℝ) < 1 := by norm_num
  have g14 := gam_le hu0 hu1 (3 * 3 + 5) (by norm_num)
  obtain ⟨vals, hv⟩ := exists_basis_nu hu0 1e-14 3 (fun k => (k : ℝ)) 1.3
  obtain ⟨y, hy⟩ := exists_addLoop hu0 (val := fun i a => Fl (2⁻¹ ^ 53) ((-1 : ℝ) ^ i * vals i) a) (fun i => ⟨_, fl_self hu0 _⟩) (List.range (3 + 1)) 0
  obtain ⟨t, ht, h⟩ := c103_non_uniform (2⁻¹ ^ 53) 1e-14 3 (fun k => (k : ℝ)) (fun i => (-1) ^ i) vals 1.3 y 1 32 hu0 (by norm_num) (by norm_num) (distinct_id 3) (fun i _ => by simp)
    ((lebesgue_le 3 1.3 (by norm_num) (by norm_num)).trans (by norm_num)) (by norm_num) (by push_cast at g14 ⊢; linarith) hv hy
  refine ⟨vals, y, hv, hy, t, ht.trans (by norm_num), h.trans ?_⟩
  norm_num at g14 ⊢
  linarith

end Verif.FloatLagrange
