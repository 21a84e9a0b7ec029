import Verif.Props.SplineUnique
import Verif.Props.FemDensity
import Verif.Model.Interpolators

/-!
# C116: the cubic spline interpolation has order 4 on every mesh

Specification. `G 0` is the function which is interpolated, `G k` has the derivative `G (k + 1)`, and `|G 4| ≤ M`.
-/

namespace Verif.SplineInterp

open Verif.BSpline Verif.SplineQuadrature Polynomial Finset

/-! ## One cell -/

/-- A function which vanishes at both ends and whose second derivative is at most `ε`. -/
theorem value_bound {a c ε : ℝ} (hac : a < c) {u g r : ℝ → ℝ} (hu : ∀ x ∈ Set.Icc a c, HasDerivWithinAt u (g x) (Set.Icc a c) x) (hg : ∀ x ∈ Set.Icc a c, HasDerivWithinAt g (r x) (Set.Icc a c) x)
    (hr : ∀ x ∈ Set.Icc a c, |r x| ≤ ε) (ha : u a = 0) (hc : u c = 0) : ∀ x ∈ Set.Icc a c, |u x| ≤ ε * (c - a) ^ 2 := by
  intro x hx
  have hs := slope_bound hac hu hg hr (by rw [ha, hc])
  have h := Convex.norm_image_sub_le_of_norm_hasDerivWithin_le (s := Set.Icc a c) (f := u) (f' := g) (C := ε * (c - a)) hu hs (convex_Icc a c) ⟨le_rfl, hac.le⟩ hx
  rw [ha, sub_zero, Real.norm_eq_abs, Real.norm_eq_abs, abs_of_nonneg (show (0 : ℝ) ≤ x - a by linarith [hx.1])] at h
  have hε : 0 ≤ ε := (abs_nonneg _).trans (hr x hx)
  refine le_trans h ?_
  have h1 := hx.2
  have := mul_le_mul_of_nonneg_left (by linarith : x - a ≤ c - a) (mul_nonneg hε (by linarith : 0 ≤ c - a))
  linarith [sq (c - a), mul_assoc ε (c - a) (c - a)]

section cell
variable {a c M : ℝ} {P : ℝ[X]} {G : ℕ → ℝ → ℝ}

theorem cell_linear (hP : P.natDegree ≤ 3) (x : ℝ) : derivative (derivative (derivative (derivative P))) = 0 ∧ HasDerivAt (fun x => (derivative (derivative P)).eval x) ((derivative (derivative (derivative P))).eval x) x := by
  refine ⟨?_, (derivative (derivative P)).hasDerivAt x⟩
  have := iterate_derivative_eq_zero (p := P) (x := 4) (by omega)
  simpa [Function.iterate_succ_apply'] using this

/-- The error of a cubic polynomial with the right values at the ends of the cell; `r0` and `r1` are the errors of its second derivative at the ends. -/
theorem cell_error (hac : a < c) (hP : P.natDegree ≤ 3) (hG : ∀ k < 4, ∀ x ∈ Set.Icc a c, HasDerivWithinAt (G k) (G (k + 1) x) (Set.Icc a c) x) (hM : ∀ x ∈ Set.Icc a c, |G 4 x| ≤ M)
    (ha : P.eval a = G 0 a) (hc : P.eval c = G 0 c) {r0 r1 : ℝ} (h0 : r0 = G 2 a - (derivative (derivative P)).eval a) (h1 : r1 = G 2 c - (derivative (derivative P)).eval c) :
    |(G 1 a - (derivative P).eval a) + (c - a) * (r0 / 3 + r1 / 6)| ≤ M * (c - a) ^ 2 * (c - a) ∧
      |(G 1 c - (derivative P).eval c) - (c - a) * (r0 / 6 + r1 / 3)| ≤ M * (c - a) ^ 2 * (c - a) ∧
      ∀ R, |r0| ≤ R → |r1| ≤ R → ∀ x ∈ Set.Icc a c, |G 0 x - P.eval x| ≤ (M * (c - a) ^ 2 + R) * (c - a) ^ 2 ∧ |G 1 x - (derivative P).eval x| ≤ (M * (c - a) ^ 2 + R) * (c - a) ∧
        |G 2 x - (derivative (derivative P)).eval x| ≤ M * (c - a) ^ 2 + R := by
  obtain ⟨h, hh⟩ : ∃ h, h = c - a := ⟨_, rfl⟩
  have hpos : 0 < h := by rw [hh]; linarith
  have hne := hpos.ne'
  have hca : c = a + h := by rw [hh]; ring
  have d4 : derivative (derivative (derivative (derivative P))) = 0 := (cell_linear hP 0).1
  -- the error of the second derivative, without its linear part
  have hz := value_bound hac (u := fun x => G 2 x - (derivative (derivative P)).eval x - (r0 * (c - x) / h + r1 * (x - a) / h)) (g := fun x => G 3 x - (derivative (derivative (derivative P))).eval x - (r1 - r0) / h) (r := G 4) (ε := M)
    (fun x hx => by
      have l := ((((hasDerivAt_id x).const_sub c).const_mul r0).div_const h).add ((((hasDerivAt_id x).sub_const a).const_mul r1).div_const h)
      refine (((hG 2 (by norm_num) x hx).sub (cell_linear hP x).2.hasDerivWithinAt).sub l.hasDerivWithinAt).congr_deriv ?_
      ring)
    (fun x hx => by
      refine (((hG 3 (by norm_num) x hx).sub ((derivative (derivative (derivative P))).hasDerivAt x).hasDerivWithinAt).sub (hasDerivWithinAt_const x _ ((r1 - r0) / h))).congr_deriv ?_
      rw [d4]
      simp)
    hM (by beta_reduce; rw [← h0, sub_self, mul_zero, zero_div, add_zero, ← hh]; field_simp; ring) (by beta_reduce; rw [← h1, sub_self, mul_zero, zero_div, zero_add, ← hh]; field_simp; ring)
  beta_reduce at hz
  have dG : ∀ x, HasDerivAt (fun x => r0 * ((c - x) ^ 3 / h - h * (c - x)) / 6 + r1 * ((x - a) ^ 3 / h - h * (x - a)) / 6)
      (r0 * (-3 * (c - x) ^ 2 / h + h) / 6 + r1 * (3 * (x - a) ^ 2 / h - h) / 6) x := by
    intro x
    have l1 := (hasDerivAt_id x).const_sub c
    have l2 := (hasDerivAt_id x).sub_const a
    have l := (((((l1.pow 3).div_const h).sub (l1.const_mul h)).const_mul r0).div_const 6).add (((((l2.pow 3).div_const h).sub (l2.const_mul h)).const_mul r1).div_const 6)
    refine l.congr_deriv ?_
    simp only [id_eq]
    push_cast
    ring
  have dG' : ∀ x, HasDerivAt (fun x => r0 * (-3 * (c - x) ^ 2 / h + h) / 6 + r1 * (3 * (x - a) ^ 2 / h - h) / 6) (r0 * (c - x) / h + r1 * (x - a) / h) x := by
    intro x
    have l1 := (hasDerivAt_id x).const_sub c
    have l2 := (hasDerivAt_id x).sub_const a
    have l := ((((((l1.pow 2).const_mul (-3)).div_const h).add_const h).const_mul r0).div_const 6).add ((((((l2.pow 2).const_mul 3).div_const h).sub_const h).const_mul r1).div_const 6)
    refine l.congr_deriv ?_
    simp only [id_eq]
    push_cast
    ring
  have hu := slope_bound hac (u := fun x => G 0 x - P.eval x - (r0 * ((c - x) ^ 3 / h - h * (c - x)) / 6 + r1 * ((x - a) ^ 3 / h - h * (x - a)) / 6))
    (g := fun x => G 1 x - (derivative P).eval x - (r0 * (-3 * (c - x) ^ 2 / h + h) / 6 + r1 * (3 * (x - a) ^ 2 / h - h) / 6))
    (r := fun x => G 2 x - (derivative (derivative P)).eval x - (r0 * (c - x) / h + r1 * (x - a) / h)) (ε := M * (c - a) ^ 2)
    (fun x hx => ((hG 0 (by norm_num) x hx).sub (P.hasDerivAt x).hasDerivWithinAt).sub (dG x).hasDerivWithinAt)
    (fun x hx => ((hG 1 (by norm_num) x hx).sub ((derivative P).hasDerivAt x).hasDerivWithinAt).sub (dG' x).hasDerivWithinAt)
    hz (by
      beta_reduce
      rw [ha, hc, sub_self, sub_self, ← hh, sub_self, sub_self]
      field_simp
      ring)
  beta_reduce at hu
  refine ⟨?_, ?_, fun R hr0 hr1 => ?_⟩
  · have := hu a ⟨le_rfl, hac.le⟩
    refine le_trans (le_of_eq (congrArg abs ?_)) this
    rw [← hh, sub_self]
    field_simp
    ring
  · have := hu c ⟨hac.le, le_rfl⟩
    refine le_trans (le_of_eq (congrArg abs ?_)) this
    rw [← hh, sub_self]
    field_simp
    ring
  · have h2 : ∀ x ∈ Set.Icc a c, |G 2 x - (derivative (derivative P)).eval x| ≤ M * (c - a) ^ 2 + R := by
      intro x hx
      have e1 := hz x hx
      have e2 : |r0 * (c - x) / h + r1 * (x - a) / h| ≤ R := by
        have x1 : 0 ≤ (c - x) / h := div_nonneg (by linarith [hx.2]) hpos.le
        have x2 : 0 ≤ (x - a) / h := div_nonneg (by linarith [hx.1]) hpos.le
        have x3 : (c - x) / h + (x - a) / h = 1 := by rw [← add_div, hh]; rw [div_eq_one_iff_eq (by rw [← hh]; exact hne)]; ring
        refine (abs_add_le _ _).trans ?_
        rw [mul_div_assoc, mul_div_assoc, abs_mul, abs_mul, abs_of_nonneg x1, abs_of_nonneg x2]
        have := mul_le_mul_of_nonneg_right hr0 x1
        have := mul_le_mul_of_nonneg_right hr1 x2
        have e : R * ((c - x) / h) + R * ((x - a) / h) = R := by rw [← mul_add, x3, mul_one]
        linarith
      have e3 := abs_add_le (G 2 x - (derivative (derivative P)).eval x - (r0 * (c - x) / h + r1 * (x - a) / h)) (r0 * (c - x) / h + r1 * (x - a) / h)
      rw [sub_add_cancel] at e3
      linarith
    have hv := value_bound hac (u := fun x => G 0 x - P.eval x) (g := fun x => G 1 x - (derivative P).eval x) (r := fun x => G 2 x - (derivative (derivative P)).eval x)
      (fun x hx => (hG 0 (by norm_num) x hx).sub (P.hasDerivAt x).hasDerivWithinAt) (fun x hx => (hG 1 (by norm_num) x hx).sub ((derivative P).hasDerivAt x).hasDerivWithinAt) h2 (by rw [ha, sub_self]) (by rw [hc, sub_self])
    have hs := slope_bound hac (u := fun x => G 0 x - P.eval x) (g := fun x => G 1 x - (derivative P).eval x) (r := fun x => G 2 x - (derivative (derivative P)).eval x)
      (fun x hx => (hG 0 (by norm_num) x hx).sub (P.hasDerivAt x).hasDerivWithinAt) (fun x hx => (hG 1 (by norm_num) x hx).sub ((derivative P).hasDerivAt x).hasDerivWithinAt) h2 (by rw [ha, hc, sub_self, sub_self])
    exact fun x hx => ⟨hv x hx, hs x hx, h2 x hx⟩

end cell

/-- Diagonal dominance: the equation at a point between cells of the widths `h` and `k`. -/
theorem dominant {h k s r0 r r1 E : ℝ} (hh : 0 < h) (hk : 0 < k) (h1 : |s - h * (r0 / 6 + r / 3)| ≤ E * h) (h2 : |s + k * (r / 3 + r1 / 6)| ≤ E * k) (hr0 : |r0| ≤ |r|) (hr1 : |r1| ≤ |r|) : |r| ≤ 6 * E := by
  rw [abs_le] at h1 h2
  obtain ⟨a1, a2⟩ := abs_le.1 hr0
  obtain ⟨b1, b2⟩ := abs_le.1 hr1
  have p1 := mul_le_mul_of_nonneg_left a1 hh.le
  have p2 := mul_le_mul_of_nonneg_left a2 hh.le
  have p3 := mul_le_mul_of_nonneg_left b1 hk.le
  have p4 := mul_le_mul_of_nonneg_left b2 hk.le
  have hs : 0 < h + k := by linarith
  rcases le_total 0 r with hr | hr
  · rw [abs_of_nonneg hr] at p1 p2 p3 p4 ⊢
    have : (h + k) * r ≤ (h + k) * (6 * E) := by linarith
    exact le_of_mul_le_mul_left this hs
  · rw [abs_of_nonpos hr] at p1 p2 p3 p4 ⊢
    have : (h + k) * (-r) ≤ (h + k) * (6 * E) := by linarith
    exact le_of_mul_le_mul_left this hs

/-- Diagonal dominance at an end with the right slope. -/
theorem dominant_end {h r r1 E : ℝ} (hh : 0 < h) (h1 : |h * (r / 3 + r1 / 6)| ≤ E * h) (hr1 : |r1| ≤ |r|) : |r| ≤ 6 * E := by
  rw [abs_mul, abs_of_pos hh, mul_comm] at h1
  have h2 := le_of_mul_le_mul_right h1 hh
  rw [abs_le] at h2
  obtain ⟨b1, b2⟩ := abs_le.1 hr1
  rcases le_total 0 r with hr | hr
  · rw [abs_of_nonneg hr] at b1 b2 ⊢; linarith
  · rw [abs_of_nonpos hr] at b1 b2 ⊢; linarith

/-! ## The mesh -/

/-- The conditions at the two ends of the domain: the right slopes, or a periodic function. -/
def Ends (n : ℕ) (b : ℕ → ℝ) (P : ℕ → ℝ[X]) (G : ℕ → ℝ → ℝ) : Prop :=
  ((derivative (P 0)).eval (b 0) = G 1 (b 0) ∧ (derivative (P (n - 1))).eval (b n) = G 1 (b n)) ∨
    ((derivative (P (n - 1))).eval (b n) = (derivative (P 0)).eval (b 0) ∧ (derivative (derivative (P (n - 1)))).eval (b n) = (derivative (derivative (P 0))).eval (b 0) ∧
      G 1 (b n) = G 1 (b 0) ∧ G 2 (b n) = G 2 (b 0))

theorem mesh_error {n : ℕ} {b : ℕ → ℝ} {P : ℕ → ℝ[X]} {G : ℕ → ℝ → ℝ} {M H : ℝ} (hn : 1 ≤ n) (hb : ∀ i < n, b i < b (i + 1)) (hdeg : ∀ q < n, (P q).natDegree ≤ 3)
    (hcont : ∀ q, q + 1 < n → ∀ k, 1 ≤ k → k ≤ 2 → (derivative^[k] (P q)).eval (b (q + 1)) = (derivative^[k] (P (q + 1))).eval (b (q + 1)))
    (hval : ∀ q < n, (P q).eval (b q) = G 0 (b q) ∧ (P q).eval (b (q + 1)) = G 0 (b (q + 1))) (hends : Ends n b P G)
    (hG : ∀ k < 4, ∀ x ∈ Set.Icc (b 0) (b n), HasDerivWithinAt (G k) (G (k + 1) x) (Set.Icc (b 0) (b n)) x) (hM : ∀ x ∈ Set.Icc (b 0) (b n), |G 4 x| ≤ M) (hH : ∀ q < n, b (q + 1) - b q ≤ H) :
    ∀ q < n, ∀ x ∈ Set.Icc (b q) (b (q + 1)), |G 0 x - (P q).eval x| ≤ 7 * M * H ^ 4 ∧ |G 1 x - (derivative (P q)).eval x| ≤ 7 * M * H ^ 3 ∧ |G 2 x - (derivative (derivative (P q))).eval x| ≤ 7 * M * H ^ 2 := by
  have bm : ∀ i j, i ≤ j → j ≤ n → b i ≤ b j := by
    intro i j hij
    induction j, hij using Nat.le_induction with
    | base => intro _; exact le_rfl
    | succ j _ ih => intro hj; exact (ih (by omega)).trans (hb j (by omega)).le
  have hsub : ∀ q < n, Set.Icc (b q) (b (q + 1)) ⊆ Set.Icc (b 0) (b n) := fun q hq => Set.Icc_subset_Icc (bm 0 q (by omega) hq.le) (bm (q + 1) n hq le_rfl)
  have hM0 : 0 ≤ M := (abs_nonneg _).trans (hM (b 0) ⟨le_rfl, bm 0 n (by omega) le_rfl⟩)
  obtain ⟨r, hr⟩ : ∃ r : ℕ → ℝ, r = fun i => G 2 (b i) - (derivative (derivative (P (min i (n - 1))))).eval (b i) := ⟨_, rfl⟩
  have rl : ∀ q < n, r q = G 2 (b q) - (derivative (derivative (P q))).eval (b q) := fun q hq => by rw [hr]; simp only [Nat.min_eq_left (show q ≤ n - 1 by omega)]
  have rr : ∀ q < n, r (q + 1) = G 2 (b (q + 1)) - (derivative (derivative (P q))).eval (b (q + 1)) := fun q hq => by
    by_cases hl : q + 1 < n
    · rw [rl (q + 1) hl]
      have := hcont q hl 2 (by norm_num) le_rfl
      simp only [Function.iterate_succ_apply', Function.iterate_zero, id_eq] at this
      rw [this]
    · rw [hr]
      simp only [show min (q + 1) (n - 1) = q by omega]
  have cell := fun q (hq : q < n) => cell_error (hb q hq) (hdeg q hq) (fun k hk x hx => (hG k hk x (hsub q hq hx)).mono (hsub q hq)) (fun x hx => hM x (hsub q hq hx)) (hval q hq).1 (hval q hq).2 (rl q hq) (rr q hq)
  have hwid : ∀ q < n, M * (b (q + 1) - b q) ^ 2 ≤ M * H ^ 2 := fun q hq => mul_le_mul_of_nonneg_left (pow_le_pow_left₀ (by linarith [hb q hq]) (hH q hq) 2) hM0
  obtain ⟨E, hE⟩ : ∃ E, E = M * H ^ 2 := ⟨_, rfl⟩
  have left : ∀ q < n, |(G 1 (b q) - (derivative (P q)).eval (b q)) + (b (q + 1) - b q) * (r q / 3 + r (q + 1) / 6)| ≤ E * (b (q + 1) - b q) := fun q hq =>
    ((cell q hq).1).trans (mul_le_mul_of_nonneg_right (by rw [hE]; exact hwid q hq) (by linarith [hb q hq]))
  have right : ∀ q < n, |(G 1 (b (q + 1)) - (derivative (P q)).eval (b (q + 1))) - (b (q + 1) - b q) * (r q / 6 + r (q + 1) / 3)| ≤ E * (b (q + 1) - b q) := fun q hq =>
    ((cell q hq).2.1).trans (mul_le_mul_of_nonneg_right (by rw [hE]; exact hwid q hq) (by linarith [hb q hq]))
  obtain ⟨m, hm, hmax⟩ := Finset.exists_max_image (range (n + 1)) (fun i => |r i|) ⟨0, by simp⟩
  have hm := mem_range.1 hm
  have hmax : ∀ i ≤ n, |r i| ≤ |r m| := fun i hi => hmax i (mem_range.2 (by omega))
  have hlast : n - 1 + 1 = n := by omega
  have rn := right (n - 1) (by omega)
  rw [hlast] at rn
  have hR : |r m| ≤ 6 * E := by
    by_cases hmid : 1 ≤ m ∧ m < n
    · obtain ⟨q, rfl⟩ : ∃ q, m = q + 1 := ⟨m - 1, by omega⟩
      have h1 := right q (by omega)
      have h2 := left (q + 1) hmid.2
      have hc := hcont q hmid.2 1 le_rfl (by norm_num)
      simp only [Function.iterate_one] at hc
      rw [hc] at h1
      exact dominant (by linarith [hb q (by omega)]) (by linarith [hb (q + 1) hmid.2]) h1 h2 (hmax q (by omega)) (hmax (q + 1 + 1) (by omega))
    · have hcase : m = 0 ∨ m = n := by omega
      rcases hends with ⟨e0, e1⟩ | ⟨e1, e2, e3, e4⟩
      · rcases hcase with rfl | rfl
        · have h2 := left 0 (by omega)
          rw [e0, sub_self, zero_add] at h2
          exact dominant_end (by linarith [hb 0 (by omega)]) h2 (hmax 1 (by omega))
        · rw [e1, sub_self, zero_sub, abs_neg, add_comm] at rn
          exact dominant_end (by have := hb (m - 1) (by omega); rw [hlast] at this; linarith) rn (hmax (m - 1) (by omega))
      · have h0n : r n = r 0 := by
          have := rr (n - 1) (by omega)
          rw [hlast] at this
          rw [this, rl 0 (by omega), e2, e4]
        have h2 := left 0 (by omega)
        rw [e1, e3, h0n] at rn
        have hrm : r m = r 0 := by rcases hcase with rfl | rfl; exacts [rfl, h0n]
        rw [hrm] at hmax ⊢
        exact dominant (by have := hb (n - 1) (by omega); rw [hlast] at this; linarith) (by linarith [hb 0 (by omega)]) rn h2 (hmax (n - 1) (by omega)) (hmax 1 (by omega))
  intro q hq x hx
  obtain ⟨c0, c1, c2⟩ := (cell q hq).2.2 (6 * E) ((hmax q (by omega)).trans hR) ((hmax (q + 1) (by omega)).trans hR) x hx
  have hw0 : 0 ≤ b (q + 1) - b q := by linarith [hb q hq]
  have hE0 : 0 ≤ E := by rw [hE]; positivity
  have h7 : M * (b (q + 1) - b q) ^ 2 + 6 * E ≤ 7 * E := by have := hwid q hq; rw [← hE] at this; linarith
  refine ⟨c0.trans ?_, c1.trans ?_, c2.trans ?_⟩
  · refine (mul_le_mul h7 (pow_le_pow_left₀ hw0 (hH q hq) 2) (by positivity) (by linarith)).trans (le_of_eq ?_)
    rw [hE]; ring
  · refine (mul_le_mul h7 (hH q hq) hw0 (by linarith)).trans (le_of_eq ?_)
    rw [hE]; ring
  · refine h7.trans (le_of_eq ?_)
    rw [hE]; ring

/-! ## The interpolators -/

/-- The slopes of a periodic function are periodic. -/
theorem slope_periodic {f f' : ℝ → ℝ} {L : ℝ} (hf : ∀ x, HasDerivAt f (f' x) x) (hp : ∀ x, f (x + L) = f x) (x : ℝ) : f' (x + L) = f' x := by
  have h1 := (hf (x + L)).comp_add_const x L
  rw [funext hp] at h1
  exact h1.unique (hf x)

/-- C116 (accuracy, periodic): the cubic spline with the values of a periodic function at the break points differs from it by at most `7 M h ^ 4` everywhere, its slope by at most `7 M h ^ 3` and its
second derivative by at most `7 M h ^ 2`, where `h` is the widest cell and `M` bounds the fourth derivative: however different the widths of the cells are. -/
theorem c116_periodic_accuracy {n : ℕ} {b : ℕ → ℝ} {c : ℕ → ℝ} {G : ℕ → ℝ → ℝ} {M H : ℝ} (hn : 1 ≤ n) (hb : ∀ i < n, b i < b (i + 1)) (hc : PeriodicInterpolant n 3 b (fun q => G 0 (b q)) c)
    (hG : ∀ k < 4, ∀ x, HasDerivAt (G k) (G (k + 1) x) x) (hper : ∀ x, G 0 (x + (b n - b 0)) = G 0 x) (hM : ∀ x, |G 4 x| ≤ M) (hH : ∀ q < n, b (q + 1) - b q ≤ H) (q : ℕ) (hq : q < n) (x : ℝ) (hx : x ∈ Set.Icc (b q) (b (q + 1))) :
    |G 0 x - valueAt (periodicKnots n b) 3 n q x c| ≤ 7 * M * H ^ 4 ∧ |G 1 x - derivAt (periodicKnots n b) 3 n q 1 x c| ≤ 7 * M * H ^ 3 ∧ |G 2 x - derivAt (periodicKnots n b) 3 n q 2 x c| ≤ 7 * M * H ^ 2 := by
  obtain ⟨P, hP⟩ : ∃ P : ℕ → ℝ[X], P = fun q : ℕ => spl (periodicKnots n b) q 3 (around 3 n c) := ⟨_, rfl⟩
  have hder : ∀ q k x, derivAt (periodicKnots n b) 3 n q k x c = (derivative^[k] (P q)).eval x := fun q k x => by
    rw [hP]; exact derivAt_eq _ _ _ _ _ _ _ _ (around_eq 3 q c hn)
  have hcont : ∀ q < n, ∀ k < 3, (derivative^[k] (P q)).eval (b (q + 1)) = (derivative^[k] (P (q + 1))).eval (b (q + 1)) := fun q hq k hk => by
    rw [hP]; exact periodic_smooth hn hb _ q hq k hk
  have hwrap : ∀ k < 3, (derivative^[k] (P (n - 1))).eval (b n) = (derivative^[k] (P 0)).eval (b 0) := fun k hk => by
    rw [hP]; exact periodic_wrap hn hb c k hk
  have hv : ∀ q < n, (P q).eval (b q) = G 0 (b q) := fun q hq => by
    have := hder q 0 (b q)
    rw [← valueAt_derivAt, hc q hq] at this
    simpa using this.symm
  have hper1 := slope_periodic (hG 0 (by norm_num)) hper
  have hper2 := slope_periodic (hG 1 (by norm_num)) hper1
  have hends : Ends n b P G := by
    refine Or.inr ⟨?_, ?_, ?_, ?_⟩
    · have := hwrap 1 (by norm_num); simpa using this
    · have := hwrap 2 (by norm_num); simpa [Function.iterate_succ_apply'] using this
    · have := hper1 (b 0); rwa [add_sub_cancel] at this
    · have := hper2 (b 0); rwa [add_sub_cancel] at this
  have main := mesh_error (P := P) (G := G) hn hb (fun q _ => by rw [hP]; exact spl_degree _ _) (fun q hq k _ hk => hcont q (by omega) k (by omega)) (fun q hq => ⟨hv q hq, by
      by_cases hl : q + 1 < n
      · have := hcont q hq 0 (by norm_num)
        simp only [Function.iterate_zero, id_eq] at this
        rw [this]; exact hv _ hl
      · have := hwrap 0 (by norm_num)
        simp only [Function.iterate_zero, id_eq] at this
        have e := hper (b 0)
        rw [add_sub_cancel] at e
        rw [show q = n - 1 by omega, show n - 1 + 1 = n by omega, this, e]; exact hv 0 (by omega)⟩) hends
    (fun k hk x _ => (hG k hk x).hasDerivWithinAt) (fun x _ => hM x) hH q hq x hx
  rw [valueAt_derivAt, hder, hder, hder]
  simpa [Function.iterate_succ_apply'] using main

/-- C116 (accuracy, Hermite): the same for the cubic spline with the values of a function at the break points and its slopes at the ends (slopes zero: `HOMOGENEOUS_HERMITE`). -/
theorem c116_hermite_accuracy {n : ℕ} {b : ℕ → ℝ} {c v dl dr : ℕ → ℝ} {G : ℕ → ℝ → ℝ} {M H : ℝ} (hn : 1 ≤ n) (hb : ∀ i < n, b i < b (i + 1)) (hc : HermiteInterpolant n 3 b v dl dr c)
    (hv' : ∀ q ≤ n, v q = G 0 (b q)) (hl : dl 1 = G 1 (b 0)) (hr : dr 1 = G 1 (b n))
    (hG : ∀ k < 4, ∀ x ∈ Set.Icc (b 0) (b n), HasDerivWithinAt (G k) (G (k + 1) x) (Set.Icc (b 0) (b n)) x) (hM : ∀ x ∈ Set.Icc (b 0) (b n), |G 4 x| ≤ M) (hH : ∀ q < n, b (q + 1) - b q ≤ H)
    (q : ℕ) (hq : q < n) (x : ℝ) (hx : x ∈ Set.Icc (b q) (b (q + 1))) :
    |G 0 x - valueAt (clampedKnots n b) 3 (n + 3) q x c| ≤ 7 * M * H ^ 4 ∧ |G 1 x - derivAt (clampedKnots n b) 3 (n + 3) q 1 x c| ≤ 7 * M * H ^ 3 ∧
      |G 2 x - derivAt (clampedKnots n b) 3 (n + 3) q 2 x c| ≤ 7 * M * H ^ 2 := by
  obtain ⟨P, hP⟩ : ∃ P : ℕ → ℝ[X], P = fun q : ℕ => spl (clampedKnots n b) q 3 (along 3 c) := ⟨_, rfl⟩
  have hder : ∀ q < n, ∀ k x, derivAt (clampedKnots n b) 3 (n + 3) q k x c = (derivative^[k] (P q)).eval x := fun q hq k x => by
    rw [hP]; exact derivAt_eq _ _ _ _ _ _ _ _ (along_eq _ _ q c (by omega))
  have hcont : ∀ q, q + 1 < n → ∀ k < 3, (derivative^[k] (P q)).eval (b (q + 1)) = (derivative^[k] (P (q + 1))).eval (b (q + 1)) := fun q hq k hk => by
    rw [hP]; exact clamped_smooth hb _ q hq k hk
  have hv : ∀ q < n, (P q).eval (b q) = G 0 (b q) := fun q hq => by
    have := hder q hq 0 (b q)
    rw [← valueAt_derivAt, hc.value q hq, hv' q hq.le] at this
    simpa using this.symm
  have hends : Ends n b P G := by
    refine Or.inl ⟨?_, ?_⟩
    · have := hder 0 (by omega) 1 (b 0)
      rw [hc.left 1 le_rfl (by norm_num), hl] at this
      simpa using this.symm
    · have := hder (n - 1) (by omega) 1 (b n)
      rw [hc.right 1 le_rfl (by norm_num), hr] at this
      simpa using this.symm
  have main := mesh_error (P := P) (G := G) hn hb (fun q _ => by rw [hP]; exact spl_degree _ _) (fun q hq k _ hk => hcont q hq k (by omega)) (fun q hq => ⟨hv q hq, by
      by_cases hlt : q + 1 < n
      · have := hcont q hlt 0 (by norm_num)
        simp only [Function.iterate_zero, id_eq] at this
        rw [this]; exact hv _ hlt
      · have := hder (n - 1) (by omega) 0 (b n)
        rw [← valueAt_derivAt, hc.last, hv' n le_rfl] at this
        rw [show q = n - 1 by omega, show n - 1 + 1 = n by omega]
        simpa using this.symm⟩) hends hG hM hH q hq x hx
  rw [valueAt_derivAt, hder q hq, hder q hq, hder q hq]
  simpa [Function.iterate_succ_apply'] using main

/-- Every point of the domain is in a cell. -/
theorem find_cell {n : ℕ} {b : ℕ → ℝ} (hn : 1 ≤ n) {x : ℝ} (hx : x ∈ Set.Icc (b 0) (b n)) : ∃ q < n, x ∈ Set.Icc (b q) (b (q + 1)) := by
  obtain ⟨m, rfl⟩ : ∃ m, n = m + 1 := ⟨n - 1, by omega⟩
  clear hn
  induction m with
  | zero => exact ⟨0, by omega, hx⟩
  | succ m ih =>
    by_cases h : x ≤ b (m + 1)
    · obtain ⟨q, hq, h1⟩ := ih ⟨hx.1, h⟩
      exact ⟨q, by omega, h1⟩
    · exact ⟨m + 1, by omega, (not_le.1 h).le, hx.2⟩

theorem length_pos {n : ℕ} {b : ℕ → ℝ} (hn : 1 ≤ n) (hb : ∀ i < n, b i < b (i + 1)) : 0 < b n - b 0 := by
  have : ∀ m, m < n → b 0 < b (m + 1) := by
    intro m hm
    induction m with
    | zero => exact hb 0 hm
    | succ m ih => exact (ih (by omega)).trans (hb _ hm)
  have := this (n - 1) (by omega)
  rw [show n - 1 + 1 = n by omega] at this
  linarith

/-- C116 (the periodic interpolator, everywhere): `SplineInterpolator` with cubic splines in a periodic dimension returns at every coordinate, inside the domain or not, the value of the interpolated periodic function
with an error of at most `7 M h ^ 4`. -/
theorem c116_periodic_interpolator {n : ℕ} {b : ℕ → ℝ} {c : ℕ → ℝ} {s F : ℝ → ℝ} {G : ℕ → ℝ → ℝ} {M H : ℝ} (hn : 1 ≤ n) (hb : ∀ i < n, b i < b (i + 1)) (hc : PeriodicInterpolant n 3 b (fun q => G 0 (b q)) c)
    (hs : IsSpline n b (periodicKnots n b) 3 n c s) (hF : Interpolators.spline true .periodic .periodic .periodic .periodic (b 0) (b n) s = some F)
    (hG : ∀ k < 4, ∀ x, HasDerivAt (G k) (G (k + 1) x) x) (hper : ∀ x, G 0 (x + (b n - b 0)) = G 0 x) (hM : ∀ x, |G 4 x| ≤ M) (hH : ∀ q < n, b (q + 1) - b q ≤ H) (x : ℝ) :
    |G 0 x - F x| ≤ 7 * M * H ^ 4 := by
  have inside : ∀ y ∈ Set.Icc (b 0) (b n), |G 0 y - s y| ≤ 7 * M * H ^ 4 := by
    intro y hy
    obtain ⟨q, hq, h1⟩ := find_cell hn hy
    rw [hs q hq y h1]
    exact (c116_periodic_accuracy hn hb hc hG hper hM hH q hq y h1).1
  have hL := length_pos hn hb
  have hFe : F = fun x => s (if x < b 0 ∨ x > b n then x - (⌊(x - b 0) / (b n - b 0)⌋ : ℝ) * (b n - b 0) else x) := by
    simp only [Interpolators.spline, Interpolators.splineAccepted] at hF
    simp at hF
    exact hF.symm
  rw [hFe]
  beta_reduce
  split_ifs with h
  · have hp : Function.Periodic (G 0) (b n - b 0) := hper
    rw [← hp.sub_int_mul_eq ⌊(x - b 0) / (b n - b 0)⌋ (x := x)]
    refine inside _ ?_
    have f1 := Int.floor_le ((x - b 0) / (b n - b 0))
    have f2 := Int.lt_floor_add_one ((x - b 0) / (b n - b 0))
    rw [le_div_iff₀ hL] at f1
    rw [div_lt_iff₀ hL] at f2
    constructor <;> linarith
  · rw [not_or, not_lt, not_lt] at h
    exact inside x ⟨h.1, h.2⟩

/-- C116 (the interpolator in velocity, everywhere): with Hermite boundary conditions and constant extrapolation, the value returned inside the domain has an error of at most `7 M h ^ 4`, and outside it is the value of the
interpolated function at the nearer end. -/
theorem c116_hermite_interpolator {n : ℕ} {b : ℕ → ℝ} {c v dl dr : ℕ → ℝ} {s F : ℝ → ℝ} {G : ℕ → ℝ → ℝ} {M H : ℝ} (hn : 1 ≤ n) (hb : ∀ i < n, b i < b (i + 1)) (hc : HermiteInterpolant n 3 b v dl dr c)
    (hv : ∀ q ≤ n, v q = G 0 (b q)) (hl : dl 1 = G 1 (b 0)) (hr : dr 1 = G 1 (b n))
    (hs : IsSpline n b (clampedKnots n b) 3 (n + 3) c s) (hF : Interpolators.spline false .constant .constant .hermite .hermite (b 0) (b n) s = some F)
    (hG : ∀ k < 4, ∀ x ∈ Set.Icc (b 0) (b n), HasDerivWithinAt (G k) (G (k + 1) x) (Set.Icc (b 0) (b n)) x) (hM : ∀ x ∈ Set.Icc (b 0) (b n), |G 4 x| ≤ M) (hH : ∀ q < n, b (q + 1) - b q ≤ H) (x : ℝ) :
    (x ∈ Set.Icc (b 0) (b n) → |G 0 x - F x| ≤ 7 * M * H ^ 4) ∧ (x < b 0 → F x = G 0 (b 0)) ∧ (b n < x → F x = G 0 (b n)) := by
  have hL := length_pos hn hb
  have hFe : F = fun x => if x < b 0 then s (b 0) else if x > b n then s (b n) else s x := by
    simp only [Interpolators.spline, Interpolators.splineAccepted, Interpolators.splineRule, Interpolators.applySpline] at hF
    simp at hF
    exact hF.symm
  have h0 : s (b 0) = G 0 (b 0) := by rw [hs 0 (by omega) (b 0) ⟨le_rfl, (hb 0 (by omega)).le⟩, hc.value 0 (by omega), hv 0 (by omega)]
  have h1 : s (b n) = G 0 (b n) := by
    have hlast := hb (n - 1) (by omega)
    rw [show n - 1 + 1 = n by omega] at hlast
    rw [hs (n - 1) (by omega) (b n) ⟨hlast.le, by rw [show n - 1 + 1 = n by omega]⟩, hc.last, hv n le_rfl]
  rw [hFe]
  beta_reduce
  refine ⟨fun hx => ?_, fun hx => by rw [if_pos hx, h0], fun hx => by rw [if_neg (by linarith), if_pos hx, h1]⟩
  rw [if_neg (not_lt.2 hx.1), if_neg (not_lt.2 hx.2)]
  obtain ⟨q, hq, h1⟩ := find_cell hn hx
  rw [hs q hq x h1]
  exact (c116_hermite_accuracy hn hb hc hv hl hr hG hM hH q hq x h1).1

/-- C116 (the interpolator exists): on every mesh and for all values there is a periodic cubic spline with these values, `SplineInterpolator` accepts it, and two such interpolators agree at every coordinate of the domain. -/
theorem c116_periodic_exists {n : ℕ} {b : ℕ → ℝ} (hn : 1 ≤ n) (hb : ∀ i < n, b i < b (i + 1)) (v : ℕ → ℝ) :
    (∃ c s F, PeriodicInterpolant n 3 b v c ∧ IsSpline n b (periodicKnots n b) 3 n c s ∧ Interpolators.spline true .periodic .periodic .periodic .periodic (b 0) (b n) s = some F) ∧
    ∀ c s c' s', PeriodicInterpolant n 3 b v c → IsSpline n b (periodicKnots n b) 3 n c s → PeriodicInterpolant n 3 b v c' → IsSpline n b (periodicKnots n b) 3 n c' s' → ∀ x ∈ Set.Icc (b 0) (b n), s x = s' x := by
  obtain ⟨c, hc, hu⟩ := c116_periodic_unique (e := 1) hn hb v
  have tb : ∀ q ≤ n, periodicKnots n b ((q : ℕ) : ℤ) = b q := fun q hq => periodic_cell' hn q hq
  refine ⟨⟨c, glue n b (periodicKnots n b) 3 (around 3 n c), _, hc, fun q hq x hx => ?_, rfl⟩, fun c1 s1 c2 s2 h1 g1 h2 g2 x hx => ?_⟩
  · rw [glue_eq hb tb _ q hq x hx, valueAt_eq _ _ _ _ _ _ _ (around_eq 3 q c hn)]
  · obtain ⟨q, hq, hxq⟩ := find_cell hn hx
    rw [g1 q hq x hxq, g2 q hq x hxq]
    simp only [valueAt]
    refine sum_congr rfl fun j _ => ?_
    have hj : (j + q) % n < n := Nat.mod_lt _ (by omega)
    rw [hu c1 h1 _ hj, hu c2 h2 _ hj]

/-- C116 (the interpolator exists): the same for the Hermite splines, with given derivatives at the ends. -/
theorem c116_hermite_exists {n : ℕ} {b : ℕ → ℝ} (hn : 1 ≤ n) (hb : ∀ i < n, b i < b (i + 1)) (v dl dr : ℕ → ℝ) :
    (∃ c s F, HermiteInterpolant n 3 b v dl dr c ∧ IsSpline n b (clampedKnots n b) 3 (n + 3) c s ∧ Interpolators.spline false .constant .constant .hermite .hermite (b 0) (b n) s = some F) ∧
    ∀ c s c' s', HermiteInterpolant n 3 b v dl dr c → IsSpline n b (clampedKnots n b) 3 (n + 3) c s → HermiteInterpolant n 3 b v dl dr c' → IsSpline n b (clampedKnots n b) 3 (n + 3) c' s' →
      ∀ x ∈ Set.Icc (b 0) (b n), s x = s' x := by
  obtain ⟨c, hc, hu⟩ := c116_hermite_unique (e := 1) hn hb v dl dr
  have tb : ∀ q ≤ n, clampedKnots n b ((q : ℕ) : ℤ) = b q := fun q hq => clamped_cell q hq
  refine ⟨⟨c, glue n b (clampedKnots n b) 3 (along 3 c), _, hc, fun q hq x hx => ?_, rfl⟩, fun c1 s1 c2 s2 h1 g1 h2 g2 x hx => ?_⟩
  · rw [glue_eq hb tb _ q hq x hx, valueAt_eq _ _ _ _ _ _ _ (along_eq 3 (n + 3) q c (by omega))]
  · obtain ⟨q, hq, hxq⟩ := find_cell hn hx
    rw [g1 q hq x hxq, g2 q hq x hxq]
    simp only [valueAt]
    refine sum_congr rfl fun j _ => ?_
    have hj : (j + q) % (n + 3) < n + 3 := Nat.mod_lt _ (by omega)
    rw [hu c1 h1 _ hj, hu c2 h2 _ hj]

/-- Instance: `sin` on 8 equal cells of `[0, 2 π]` satisfies the hypotheses of the accuracy theorems, with a spline that exists. -/
example : ∃ F : ℝ → ℝ, ∀ x, |Real.sin x - F x| ≤ 7 * 1 * (2 * Real.pi / 8) ^ 4 := by
  obtain ⟨b, hbd⟩ : ∃ b : ℕ → ℝ, b = fun q : ℕ => (q : ℝ) * (2 * Real.pi / 8) := ⟨_, rfl⟩
  have hpi := Real.pi_pos
  have hb : ∀ i < 8, b i < b (i + 1) := fun i _ => by rw [hbd]; push_cast; nlinarith
  obtain ⟨c, s, F, hc, hs, hF⟩ := (c116_periodic_exists (n := 8) (by norm_num) hb fun q => Real.sin (b q)).1
  refine ⟨F, fun x => ?_⟩
  have h := c116_periodic_interpolator (G := fun k x => Real.sin (x + k * (Real.pi / 2))) (M := 1) (H := 2 * Real.pi / 8) (by norm_num) hb (by simpa using hc) hs hF (fun k _ x => ?_) (fun x => ?_)
    (fun x => Real.abs_sin_le_one _) (fun q _ => by rw [hbd]; push_cast; linarith) x
  · simpa using h
  · have h := (Real.hasDerivAt_sin (x + k * (Real.pi / 2))).comp x ((hasDerivAt_id x).add_const (k * (Real.pi / 2)))
    rw [mul_one] at h
    refine h.congr_deriv ?_
    beta_reduce
    rw [show x + ((k + 1 : ℕ) : ℝ) * (Real.pi / 2) = x + k * (Real.pi / 2) + Real.pi / 2 by push_cast; ring, Real.sin_add_pi_div_two]
  · rw [hbd]
    simp only [Nat.cast_zero, zero_mul, add_zero, sub_zero]
    rw [show x + ((8 : ℕ) : ℝ) * (2 * Real.pi / 8) = x + 2 * Real.pi by push_cast; ring, Real.sin_add_two_pi]

/-- Instance: `x ^ 4` on 10 cells of `[0, 1]`, with its slopes at both ends. -/
example : ∃ F : ℝ → ℝ, ∀ x ∈ Set.Icc (0 : ℝ) 1, |x ^ 4 - F x| ≤ 7 * 24 * (1 / 10) ^ 4 := by
  obtain ⟨b, hbd⟩ : ∃ b : ℕ → ℝ, b = fun q : ℕ => (q : ℝ) * (1 / 10) := ⟨_, rfl⟩
  have hb : ∀ i < 10, b i < b (i + 1) := fun i _ => by rw [hbd]; push_cast; linarith
  have h0 : b 0 = 0 := by simp [hbd]
  have h10 : b 10 = 1 := by rw [hbd]; norm_num
  obtain ⟨c, s, F, hc, hs, hF⟩ := (c116_hermite_exists (n := 10) (by norm_num) hb (fun q => (b q) ^ 4) (fun _ => 0) (fun _ => 4)).1
  refine ⟨F, fun x hx => ?_⟩
  have h := c116_hermite_interpolator (G := fun k x => match k with | 0 => x ^ 4 | 1 => 4 * x ^ 3 | 2 => 12 * x ^ 2 | 3 => 24 * x | _ => 24) (M := 24) (H := 1 / 10) (by norm_num) hb hc
    (fun q _ => rfl) (by simp [h0]) (by simp [h10]) hs hF (fun k hk x _ => ?_) (fun x _ => by norm_num) (fun q _ => by rw [hbd]; push_cast; linarith) x
  · exact h.1 (by rw [h0, h10]; exact hx)
  · refine HasDerivAt.hasDerivWithinAt ?_
    interval_cases k
    · simpa using hasDerivAt_pow 4 x
    · have := (hasDerivAt_pow 3 x).const_mul 4
      exact this.congr_deriv (by norm_num; ring)
    · have := (hasDerivAt_pow 2 x).const_mul 12
      exact this.congr_deriv (by norm_num; ring)
    · simpa using (hasDerivAt_id x).const_mul 24

/-! ## The quadratures -/

/-- C115 (accuracy of the cubic periodic spline quadrature at the break points, without the size of the coefficients). -/
theorem c115_periodic_cubic {n : ℕ} {b : ℕ → ℝ} {w : List ℝ} {G : ℕ → ℝ → ℝ} {M H : ℝ} (hn : 1 ≤ n) (hb : ∀ i < n, b i < b (i + 1))
    (hw : QuadratureCoefficients n (valueRows (periodicKnots n b) 3 n ((List.range n).map fun q => (q, b q))) (integralsOf (periodicKnots n b) 3) w)
    (hG : ∀ k < 4, ∀ x, HasDerivAt (G k) (G (k + 1) x) x) (hper : ∀ x, G 0 (x + (b n - b 0)) = G 0 x) (hM : ∀ x, |G 4 x| ≤ M) (hH : ∀ q < n, b (q + 1) - b q ≤ H) :
    |quadrature (splineCoefficients w) ((List.range n).map fun q => (q, b q)) (G 0) - ∫ x in (b 0)..(b n), G 0 x| ≤ 7 * M * H ^ 4 * (b n - b 0) := by
  obtain ⟨c, hc, -⟩ := c116_periodic_unique (e := 1) hn hb fun q => G 0 (b q)
  have tb : ∀ q ≤ n, periodicKnots n b ((q : ℕ) : ℤ) = b q := fun q hq => periodic_cell' hn q hq
  obtain ⟨s, hs⟩ : ∃ s, s = glue n b (periodicKnots n b) 3 (around 3 n c) := ⟨_, rfl⟩
  have hs1 : ∀ q < n, ∀ x ∈ Set.Icc (b q) (b (q + 1)), s x = (spl (periodicKnots n b) q 3 (around 3 n c)).eval x := fun q hq x hx => by rw [hs]; exact glue_eq hb tb _ q hq x hx
  have hspline : IsSpline n b (periodicKnots n b) 3 n c s := fun q hq x hx => by rw [hs1 q hq x hx, valueAt_eq _ _ _ _ _ _ _ (around_eq 3 q c hn)]
  have hquad := c115_periodic hn hb (xs := (List.range n).map fun q => (q, b q)) (fun qx hqx => by
    obtain ⟨q, hq, rfl⟩ := List.mem_map.1 hqx
    exact ⟨List.mem_range.1 hq, le_rfl, (hb q (List.mem_range.1 hq)).le⟩) hw (G 0) s c hspline fun qx hqx => by
    obtain ⟨q, hq, rfl⟩ := List.mem_map.1 hqx
    rw [hspline q (List.mem_range.1 hq) _ ⟨le_rfl, (hb q (List.mem_range.1 hq)).le⟩]
    exact (hc q (List.mem_range.1 hq)).symm
  rw [hquad]
  exact integral_close (d := 3) hb (G 0) s _ hs1 (fun x _ => (hG 0 (by norm_num) x).continuousAt.continuousWithinAt) fun q hq x hx => by
    rw [abs_sub_comm, hspline q hq x hx]
    exact (c116_periodic_accuracy hn hb hc hG hper hM hH q hq x hx).1

/-- C115 (accuracy of the Neumann spline quadrature at the break points): for functions whose slope vanishes at both ends. -/
theorem c115_neumann_cubic {n : ℕ} {b : ℕ → ℝ} {w : List ℝ} {G : ℕ → ℝ → ℝ} {M H : ℝ} (hn : 1 ≤ n) (hb : ∀ i < n, b i < b (i + 1))
    (hw : QuadratureCoefficients (n + 3) (hermiteRows n b (clampedKnots n b) 3 (n + 3) (((List.range n).map fun q => (q, b q)) ++ [(n - 1, b n)])) (integralsOf (clampedKnots n b) 3) w)
    (hG : ∀ k < 4, ∀ x ∈ Set.Icc (b 0) (b n), HasDerivWithinAt (G k) (G (k + 1) x) (Set.Icc (b 0) (b n)) x) (h0 : G 1 (b 0) = 0) (h1 : G 1 (b n) = 0)
    (hM : ∀ x ∈ Set.Icc (b 0) (b n), |G 4 x| ≤ M) (hH : ∀ q < n, b (q + 1) - b q ≤ H) :
    |quadrature (neumannCoefficients w) (((List.range n).map fun q => (q, b q)) ++ [(n - 1, b n)]) (G 0) - ∫ x in (b 0)..(b n), G 0 x| ≤ 7 * M * H ^ 4 * (b n - b 0) := by
  obtain ⟨c, hc, -⟩ := c116_hermite_unique (e := 1) hn hb (fun q => G 0 (b q)) (fun _ => 0) (fun _ => 0)
  have tb : ∀ q ≤ n, clampedKnots n b ((q : ℕ) : ℤ) = b q := fun q hq => clamped_cell q hq
  obtain ⟨s, hs⟩ : ∃ s, s = glue n b (clampedKnots n b) 3 (along 3 c) := ⟨_, rfl⟩
  have hlast := hb (n - 1) (by omega)
  have hn1 : n - 1 + 1 = n := by omega
  rw [hn1] at hlast
  have hs1 : ∀ q < n, ∀ x ∈ Set.Icc (b q) (b (q + 1)), s x = (spl (clampedKnots n b) q 3 (along 3 c)).eval x := fun q hq x hx => by rw [hs]; exact glue_eq hb tb _ q hq x hx
  have hspline : IsSpline n b (clampedKnots n b) 3 (n + 3) c s := fun q hq x hx => by rw [hs1 q hq x hx, valueAt_eq _ _ _ _ _ _ _ (along_eq 3 (n + 3) q c (by omega))]
  have hslope : ∀ q < n, ∀ x ∈ Set.Icc (b q) (b (q + 1)), derivAt (clampedKnots n b) 3 (n + 3) q 1 x c = 0 → HasDerivWithinAt s 0 (Set.Icc (b q) (b (q + 1))) x := by
    intro q hq x hx h
    rw [derivAt_eq _ _ _ _ _ _ _ _ (along_eq 3 (n + 3) q c (by omega)), Function.iterate_one] at h
    have := ((spl (clampedKnots n b) q 3 (along 3 c)).hasDerivAt x).hasDerivWithinAt (s := Set.Icc (b q) (b (q + 1)))
    rw [h] at this
    exact this.congr (fun y hy => hs1 q hq y hy) (hs1 q hq x hx)
  have hquad := c115_neumann hn hb (xs := ((List.range n).map fun q => (q, b q)) ++ [(n - 1, b n)]) (fun qx hqx => by
    rcases List.mem_append.1 hqx with hqx | hqx
    · obtain ⟨q, hq, rfl⟩ := List.mem_map.1 hqx
      exact ⟨List.mem_range.1 hq, le_rfl, (hb q (List.mem_range.1 hq)).le⟩
    · obtain rfl := List.mem_singleton.1 hqx
      exact ⟨by change n - 1 < n; omega, hlast.le, by simp only [hn1, le_refl]⟩) hw (G 0) s c hspline
    (hslope 0 (by omega) (b 0) ⟨le_rfl, (hb 0 (by omega)).le⟩ (hc.left 1 le_rfl (by norm_num)))
    (by
      have := hslope (n - 1) (by omega) (b n) ⟨hlast.le, by rw [hn1]⟩ (hc.right 1 le_rfl (by norm_num))
      rwa [hn1] at this) fun qx hqx => by
    rcases List.mem_append.1 hqx with hqx | hqx
    · obtain ⟨q, hq, rfl⟩ := List.mem_map.1 hqx
      rw [hspline q (List.mem_range.1 hq) _ ⟨le_rfl, (hb q (List.mem_range.1 hq)).le⟩]
      exact (hc.value q (List.mem_range.1 hq)).symm
    · obtain rfl := List.mem_singleton.1 hqx
      rw [hspline (n - 1) (by omega) _ ⟨hlast.le, by simp only [hn1, le_refl]⟩]
      exact hc.last.symm
  rw [hquad]
  exact integral_close (d := 3) hb (G 0) s _ hs1 (fun x hx => (hG 0 (by norm_num) x hx).continuousWithinAt) fun q hq x hx => by
    rw [abs_sub_comm, hspline q hq x hx]
    exact (c116_hermite_accuracy hn hb hc (fun _ _ => rfl) h0.symm h1.symm hG hM hH q hq x hx).1

end Verif.SplineInterp
