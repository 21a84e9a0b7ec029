import Verif.Props.PolarFem
import Mathlib.Algebra.Polynomial.Derivative
import Mathlib.Algebra.Polynomial.Roots
import Mathlib.LinearAlgebra.FiniteDimensional.Basic
import Mathlib.LinearAlgebra.Matrix.ToLin
import Mathlib.Tactic.FieldSimp
import Mathlib.Tactic.IntervalCases
import Mathlib.Tactic.LinearCombination

/-!
# C74: the linear system of the finite element solver has exactly one solution, which minimises the energy
-/

namespace Verif.PolarFem

open Verif.PolarSplines Finset Polynomial

/-! ## Specification -/

/-- What is known of a 1D B-spline basis of degree `p` on `n` cells, at the `p + 1` distinct quadrature points of each cell: in a cell the `p + 1` non-zero functions are polynomials of degree at most `p`, linearly
independent, with sum one; `v 0` are their values, `v 1` their derivatives. -/
structure PolyBasis (p n : ℕ) (v : ℕ → ℕ → ℕ → ℝ) (pt : ℕ → ℕ → ℝ) (P : ℕ → ℕ → ℝ[X]) : Prop where
  val : ∀ c < n, ∀ m < p + 1, ∀ k < p + 1, v 0 (c * (p + 1) + m) k = (P c k).eval (pt c m)
  der : ∀ c < n, ∀ m < p + 1, ∀ k < p + 1, v 1 (c * (p + 1) + m) k = (derivative (P c k)).eval (pt c m)
  deg : ∀ c < n, ∀ k < p + 1, (P c k).natDegree ≤ p
  one : ∀ c < n, ∑ k ∈ range (p + 1), P c k = 1
  indep : ∀ c < n, ∀ a : ℕ → ℝ, ∑ k ∈ range (p + 1), C (a k) * P c k = 0 → ∀ k < p + 1, a k = 0
  inj : ∀ c < n, ∀ m < p + 1, ∀ m' < p + 1, pt c m = pt c m' → m = m'

/-- The singular basis functions are linearly independent combinations of the tensor products. -/
def SingIndep (z : Sz) (d : Dat) : Prop :=
  ∀ y : ℕ → ℝ, (∀ r < z.c1, ∀ t < z.nT, ∑ s ∈ range z.nS, y s * d.elem s r t = 0) → ∀ s < z.nS, y s = 0

/-- An elliptic problem: at the quadrature points the weights and `α` are positive, `β` is not negative and the inverse metric is positive definite. -/
structure Elliptic (z : Sz) (d : Dat) : Prop where
  vol : ∀ qr < z.qR, ∀ qt < z.qT, 0 < d.vol qr qt
  alpha : ∀ qr < z.qR, ∀ qt < z.qT, 0 < d.alpha qr qt
  beta : ∀ qr < z.qR, ∀ qt < z.qT, 0 ≤ d.beta qr qt
  metric : ∀ qr < z.qR, ∀ qt < z.qT, ∀ u : Fin 2 → ℝ, u ≠ 0 → 0 < ∑ a, ∑ b, u a * d.ginv qr qt a b * u b

/-- The energy `½ ∫ α |∇u|² + β u² - ∫ f u` of the function with the coefficients `x`. -/
noncomputable def energy (z : Sz) (d : Dat) (f : ℕ → ℕ → ℝ) (x : ℕ → ℝ) : ℝ :=
  form z d (field z d z.matSize x) (field z d z.matSize x) / 2 - ∑ qr ∈ range z.qR, ∑ qt ∈ range z.qT, f qr qt * field z d z.matSize x 0 0 qr qt * d.vol qr qt

/-! ## One dimension -/

theorem poly_zero {p : ℕ} {Q : ℝ[X]} {pt : ℕ → ℝ} (hdeg : Q.natDegree ≤ p) (hinj : ∀ m < p + 1, ∀ m' < p + 1, pt m = pt m' → m = m') (h : ∀ m < p + 1, Q.eval (pt m) = 0) : Q = 0 := by
  refine Polynomial.eq_zero_of_natDegree_lt_card_of_eval_eq_zero' Q ((range (p + 1)).image pt) ?_ ?_
  · intro i hi
    obtain ⟨m, hm, rfl⟩ := mem_image.1 hi
    exact h m (mem_range.1 hm)
  · rw [card_image_of_injOn, card_range]
    · omega
    · intro a ha b hb hab
      exact hinj a (by simpa using ha) b (by simpa using hb) hab

theorem PolyBasis.values {p n : ℕ} {v pt P} (b : PolyBasis p n v pt P) {c : ℕ} (hc : c < n) (a : ℕ → ℝ) (h : ∀ m < p + 1, ∑ k ∈ range (p + 1), a k * v 0 (c * (p + 1) + m) k = 0) :
    ∀ k < p + 1, a k = 0 := by
  refine b.indep c hc a ?_
  refine poly_zero (p := p) (pt := pt c) ?_ (b.inj c hc) ?_
  · refine Polynomial.natDegree_sum_le_of_forall_le _ _ fun k hk => ?_
    exact (Polynomial.natDegree_C_mul_le _ _).trans (b.deg c hc k (mem_range.1 hk))
  · intro m hm
    rw [Polynomial.eval_finsetSum, ← h m hm]
    refine Finset.sum_congr rfl fun k hk => ?_
    rw [Polynomial.eval_mul, Polynomial.eval_C, b.val c hc m hm k (mem_range.1 hk)]

theorem PolyBasis.derivs {p n : ℕ} {v pt P} (b : PolyBasis p n v pt P) {c : ℕ} (hc : c < n) (a : ℕ → ℝ) (h : ∀ m < p + 1, ∑ k ∈ range (p + 1), a k * v 1 (c * (p + 1) + m) k = 0) :
    ∀ k < p + 1, a k = a p := by
  have hz : derivative (∑ k ∈ range (p + 1), C (a k) * P c k) = 0 := by
    refine poly_zero (p := p) (pt := pt c) ?_ (b.inj c hc) ?_
    · refine (Polynomial.natDegree_derivative_le _).trans ((Nat.sub_le _ _).trans ?_)
      refine Polynomial.natDegree_sum_le_of_forall_le _ _ fun k hk => ?_
      exact (Polynomial.natDegree_C_mul_le _ _).trans (b.deg c hc k (mem_range.1 hk))
    · intro m hm
      rw [Polynomial.derivative_sum, Polynomial.eval_finsetSum, ← h m hm]
      refine Finset.sum_congr rfl fun k hk => ?_
      rw [Polynomial.derivative_C_mul, Polynomial.eval_mul, Polynomial.eval_C, b.der c hc m hm k (mem_range.1 hk)]
  have hcst := Polynomial.eq_C_of_derivative_eq_zero hz
  obtain ⟨e, he⟩ : ∃ e, e = (∑ k ∈ range (p + 1), C (a k) * P c k).coeff 0 := ⟨_, rfl⟩
  rw [← he] at hcst
  have h0 : ∑ k ∈ range (p + 1), C (a k - e) * P c k = 0 := by
    have : ∑ k ∈ range (p + 1), C (a k - e) * P c k = ∑ k ∈ range (p + 1), C (a k) * P c k - C e * ∑ k ∈ range (p + 1), P c k := by
      rw [Finset.mul_sum, ← Finset.sum_sub_distrib]
      exact Finset.sum_congr rfl fun k _ => by rw [Polynomial.C_sub]; ring
    rw [this, hcst, b.one c hc, mul_one, sub_self]
  intro k hk
  have h1 := b.indep c hc (fun k => a k - e) h0 k hk
  have h2 := b.indep c hc (fun k => a k - e) h0 p (by omega)
  linarith

/-! ## The coefficients in the tensor-product basis -/

/-- Coefficient of the tensor product `(r, t)`. -/
noncomputable def tensCoef (z : Sz) (d : Dat) (x : ℕ → ℝ) (r t : ℕ) : ℝ :=
  if r < z.c1 then ∑ s ∈ range z.nS, x s * d.elem s r t else if r + 1 < z.nR then x (tp z r t) else 0

theorem sum_blocks (m n : ℕ) (f : ℕ → ℝ) : ∑ l ∈ range (m * n), f l = ∑ i ∈ range m, ∑ t ∈ range n, f (i * n + t) := by
  induction m with
  | zero => simp
  | succ m ih => rw [Nat.succ_mul, Finset.sum_range_add, ih, Finset.sum_range_succ]

theorem field_tensor (z : Sz) (d : Dat) (ok : Ok z) (x : ℕ → ℝ) (oR oT qr qt : ℕ) :
    field z d z.matSize x oR oT qr qt = ∑ r ∈ range z.nR, ∑ t ∈ range z.nT, tensCoef z d x r t * NR z d oR r qr * NT z d oT t qt := by
  have hmR := mR_eq z ok
  unfold field
  rw [matSize_eq z ok, Finset.sum_range_add, sum_blocks]
  have hsplit : z.nR = z.c1 + (z.mR + 1) := by omega
  rw [hsplit, Finset.sum_range_add, Finset.sum_range_succ]
  have hlast : ∑ t ∈ range z.nT, tensCoef z d x (z.c1 + z.mR) t * NR z d oR (z.c1 + z.mR) qr * NT z d oT t qt = 0 := by
    refine Finset.sum_eq_zero fun t _ => ?_
    unfold tensCoef
    rw [if_neg (by omega), if_neg (by omega), zero_mul, zero_mul]
  rw [hlast, add_zero]
  congr 1
  · have e : ∀ s ∈ range z.nS, x s * B z d oR oT s qr qt = ∑ a ∈ range z.c1, ∑ j ∈ range z.nT, x s * (d.elem s a j * NR z d oR a qr * NT z d oT j qt) := by
      intro s hs
      unfold B
      rw [if_pos (mem_range.1 hs), Finset.mul_sum]
      exact Finset.sum_congr rfl fun a _ => Finset.mul_sum _ _ _
    rw [Finset.sum_congr rfl e, Finset.sum_comm]
    refine Finset.sum_congr rfl fun r hr => ?_
    rw [Finset.sum_comm]
    refine Finset.sum_congr rfl fun t _ => ?_
    unfold tensCoef
    rw [if_pos (mem_range.1 hr), Finset.sum_mul, Finset.sum_mul]
    exact Finset.sum_congr rfl fun s _ => by ring
  · refine Finset.sum_congr rfl fun i hi => Finset.sum_congr rfl fun t ht => ?_
    rw [mem_range] at hi ht
    have htp : z.nS + (i * z.nT + t) = tp z (z.c1 + i) t := by
      unfold tp
      rw [Nat.add_sub_cancel_left]
    unfold B tensCoef
    rw [if_neg (by omega), if_neg (by omega), if_pos (by omega), htp, rad_tp z _ _ (by omega) ht, pol_tp z _ _ ht]
    ring

theorem NR_cell (z : Sz) (d : Dat) (o cr m : ℕ) (hcr : cr < z.cellsR) (hm : m < z.p + 1) (g : ℕ → ℝ) :
    ∑ r ∈ range z.nR, g r * NR z d o r (cr * (z.p + 1) + m) = ∑ k ∈ range (z.p + 1), g (cr + k) * d.rv o (cr * (z.p + 1) + m) k := by
  have hq : (cr * (z.p + 1) + m) / (z.p + 1) = cr := by
    rw [mul_comm, Nat.mul_add_div (by omega), Nat.div_eq_of_lt hm, add_zero]
  have hcell := cellsR_eq z
  have hn : z.nR = cr + ((z.p + 1) + (z.nR - cr - (z.p + 1))) := by omega
  rw [hn, Finset.sum_range_add, Finset.sum_range_add]
  have h1 : ∑ r ∈ range cr, g r * NR z d o r (cr * (z.p + 1) + m) = 0 := by
    refine Finset.sum_eq_zero fun r hr => ?_
    rw [mem_range] at hr
    unfold NR
    rw [hq, if_neg (by omega), mul_zero]
  have h2 : ∑ r ∈ range (z.nR - cr - (z.p + 1)), g (cr + (z.p + 1 + r)) * NR z d o (cr + (z.p + 1 + r)) (cr * (z.p + 1) + m) = 0 := by
    refine Finset.sum_eq_zero fun r _ => ?_
    unfold NR
    rw [hq, if_neg (by omega), mul_zero]
  rw [h1, h2, zero_add, add_zero]
  refine Finset.sum_congr rfl fun k hk => ?_
  rw [mem_range] at hk
  unfold NR
  rw [hq, if_pos (by omega), Nat.add_sub_cancel_left]

theorem NT_cell (z : Sz) (d : Dat) (ok : Ok z) (o ct m : ℕ) (hct : ct < z.nT) (hm : m < z.p + 1) (g : ℕ → ℝ) :
    ∑ t ∈ range z.nT, g t * NT z d o t (ct * (z.p + 1) + m) = ∑ k ∈ range (z.p + 1), g ((ct + k) % z.nT) * d.tv o (ct * (z.p + 1) + m) k := by
  have hq : (ct * (z.p + 1) + m) / (z.p + 1) = ct := by
    rw [mul_comm, Nat.mul_add_div (by omega), Nat.div_eq_of_lt hm, add_zero]
  have hT := ok.hT
  have := sum_theta z.p z.nT ct hct (by omega) (fun j => g (j % z.nT)) (fun k => d.tv o (ct * (z.p + 1) + m) k) (fun j _ => by rw [Nat.mod_mod])
  rw [this]
  refine Finset.sum_congr rfl fun t ht => ?_
  rw [mem_range] at ht
  unfold NT
  rw [hq, Nat.mod_eq_of_lt ht]

/-- A function of the space whose radial derivative vanishes at the quadrature points is zero. -/
theorem coef_zero (z : Sz) (d : Dat) (ok : Ok z) {pr Pr pth Pth} (br : PolyBasis z.p z.cellsR d.rv pr Pr) (bt : PolyBasis z.p z.nT d.tv pth Pth) (hs : SingIndep z d) (x : ℕ → ℝ)
    (h : ∀ qr < z.qR, ∀ qt < z.qT, field z d z.matSize x 1 0 qr qt = 0) : ∀ i < z.matSize, x i = 0 := by
  have hmR := mR_eq z ok
  have hcell := cellsR_eq z
  have hR := ok.hR
  have hT := ok.hT
  have hq : ∀ {c n m : ℕ}, c < n → m < z.p + 1 → c * (z.p + 1) + m < (z.p + 1) * n := by
    intro c n m hc hm
    calc c * (z.p + 1) + m < c * (z.p + 1) + (z.p + 1) := by omega
      _ = (c + 1) * (z.p + 1) := by ring
      _ ≤ n * (z.p + 1) := Nat.mul_le_mul_right _ hc
      _ = _ := mul_comm _ _
  -- in a cell, all the radial coefficients are equal
  have hconst : ∀ cr < z.cellsR, ∀ t < z.nT, ∀ k < z.p + 1, tensCoef z d x (cr + k) t = tensCoef z d x (cr + z.p) t := by
    intro cr hcr t ht
    refine br.derivs hcr (fun k => tensCoef z d x (cr + k) t) fun m hm => ?_
    have key := bt.values (c := t) ht (fun j => ∑ k ∈ range (z.p + 1), tensCoef z d x (cr + k) ((t + j) % z.nT) * d.rv 1 (cr * (z.p + 1) + m) k) (fun m' hm' => by
      rw [← NT_cell z d ok 0 t m' ht hm' (fun j => ∑ k ∈ range (z.p + 1), tensCoef z d x (cr + k) j * d.rv 1 (cr * (z.p + 1) + m) k),
        ← h (cr * (z.p + 1) + m) (hq hcr hm) (t * (z.p + 1) + m') (hq ht hm'), field_tensor z d ok, Finset.sum_comm]
      refine Finset.sum_congr rfl fun j _ => ?_
      rw [← NR_cell z d 1 cr m hcr hm (fun r => tensCoef z d x r j), Finset.sum_mul]) 0 (by omega)
    simpa [Nat.mod_eq_of_lt ht] using key
  -- from the outer boundary inwards
  have hzero : ∀ n r, r + n + 1 = z.nR → ∀ t < z.nT, tensCoef z d x r t = 0 := by
    intro n
    induction n with
    | zero =>
      intro r hr t ht
      unfold tensCoef
      rw [if_neg (by omega), if_neg (by omega)]
    | succ n ih =>
      intro r hr t ht
      by_cases hlt : r < z.cellsR
      · have h1 := hconst r hlt t ht 0 (by omega)
        have h2 := hconst r hlt t ht 1 (by have := ok.hp; omega)
        rw [add_zero] at h1
        rw [h1, ← h2]
        exact ih (r + 1) (by omega) t ht
      · have h1 := hconst (z.cellsR - 1) (by omega) t ht (r - (z.cellsR - 1)) (by omega)
        have h2 := hconst (z.cellsR - 1) (by omega) t ht (r + 1 - (z.cellsR - 1)) (by omega)
        rw [Nat.add_sub_cancel' (by omega)] at h1
        rw [Nat.add_sub_cancel' (by omega)] at h2
        rw [h1, ← h2]
        exact ih (r + 1) (by omega) t ht
  have hall : ∀ r < z.nR, ∀ t < z.nT, tensCoef z d x r t = 0 := fun r hr t ht => hzero (z.nR - 1 - r) r (by omega) t ht
  intro i hi
  by_cases his : i < z.nS
  · refine hs x (fun r hr t ht => ?_) i his
    have := hall r (by omega) t ht
    unfold tensCoef at this
    rwa [if_pos hr] at this
  · have hrad := rad_lt z ok i hi
    have hc : z.c1 ≤ rad z i := Nat.le_add_right _ _
    have := hall (rad z i) (by omega) (pol z i) (pol_lt z ok i)
    unfold tensCoef at this
    rwa [if_neg (by omega), if_pos hrad, tp_rad_pol z i (by omega)] at this

/-! ## Positive definite -/

theorem form_pos (z : Sz) (d : Dat) (ok : Ok z) (el : Elliptic z d) {pr Pr pth Pth} (br : PolyBasis z.p z.cellsR d.rv pr Pr) (bt : PolyBasis z.p z.nT d.tv pth Pth) (hs : SingIndep z d)
    (x : ℕ → ℝ) (hx : ∃ i < z.matSize, x i ≠ 0) : 0 < form z d (field z d z.matSize x) (field z d z.matSize x) := by
  obtain ⟨i, hi, hxi⟩ := hx
  have hne : ∃ qr < z.qR, ∃ qt < z.qT, field z d z.matSize x 1 0 qr qt ≠ 0 := by
    by_contra hcon
    push Not at hcon
    exact hxi (coef_zero z d ok br bt hs x hcon i hi)
  have hterm : ∀ qr < z.qR, ∀ qt < z.qT, 0 ≤ d.vol qr qt * (d.alpha qr qt *
      (field z d z.matSize x 1 0 qr qt * d.ginv qr qt 0 0 * field z d z.matSize x 1 0 qr qt + field z d z.matSize x 1 0 qr qt * d.ginv qr qt 0 1 * field z d z.matSize x 0 1 qr qt +
        field z d z.matSize x 0 1 qr qt * d.ginv qr qt 1 0 * field z d z.matSize x 1 0 qr qt + field z d z.matSize x 0 1 qr qt * d.ginv qr qt 1 1 * field z d z.matSize x 0 1 qr qt) +
      d.beta qr qt * (field z d z.matSize x 0 0 qr qt * field z d z.matSize x 0 0 qr qt)) ∧ (field z d z.matSize x 1 0 qr qt ≠ 0 → 0 < d.vol qr qt * (d.alpha qr qt *
      (field z d z.matSize x 1 0 qr qt * d.ginv qr qt 0 0 * field z d z.matSize x 1 0 qr qt + field z d z.matSize x 1 0 qr qt * d.ginv qr qt 0 1 * field z d z.matSize x 0 1 qr qt +
        field z d z.matSize x 0 1 qr qt * d.ginv qr qt 1 0 * field z d z.matSize x 1 0 qr qt + field z d z.matSize x 0 1 qr qt * d.ginv qr qt 1 1 * field z d z.matSize x 0 1 qr qt) +
      d.beta qr qt * (field z d z.matSize x 0 0 qr qt * field z d z.matSize x 0 0 qr qt))) := by
    intro qr hqr qt hqt
    generalize field z d z.matSize x 1 0 qr qt = a
    generalize field z d z.matSize x 0 1 qr qt = b
    generalize field z d z.matSize x 0 0 qr qt = e
    have hv := el.vol qr hqr qt hqt
    have ha := el.alpha qr hqr qt hqt
    have hb := mul_nonneg (el.beta qr hqr qt hqt) (mul_self_nonneg e)
    have hm := el.metric qr hqr qt hqt ![a, b]
    simp only [Fin.sum_univ_two, Matrix.cons_val_zero, Matrix.cons_val_one] at hm
    constructor
    · refine mul_nonneg hv.le (add_nonneg (mul_nonneg ha.le ?_) hb)
      by_cases h0 : ![a, b] = 0
      · have h1 : a = 0 := by simpa using congrFun h0 0
        have h2 : b = 0 := by simpa using congrFun h0 1
        rw [h1, h2]; simp
      · have := hm h0
        linarith
    · intro hane
      refine mul_pos hv (add_pos_of_pos_of_nonneg (mul_pos ha ?_) hb)
      have := hm fun h0 => hane (by simpa using congrFun h0 0)
      linarith
  obtain ⟨qr, hqr, qt, hqt, hf⟩ := hne
  unfold form
  refine Finset.sum_pos' (fun r hr => Finset.sum_nonneg fun t ht => (hterm r (mem_range.1 hr) t (mem_range.1 ht)).1) ⟨qr, mem_range.2 hqr, ?_⟩
  exact Finset.sum_pos' (fun t ht => (hterm qr hqr t (mem_range.1 ht)).1) ⟨qt, mem_range.2 hqt, (hterm qr hqr qt hqt).2 hf⟩

/-- C74: for an elliptic problem, also without a term of order zero (`β = 0`), the matrix is positive definite. -/
theorem c74_definite (z : Sz) (d : Dat) (g : Good z d) (el : Elliptic z d) {pr Pr pth Pth} (br : PolyBasis z.p z.cellsR d.rv pr Pr) (bt : PolyBasis z.p z.nT d.tv pth Pth)
    (hs : SingIndep z d) (x : ℕ → ℝ) (hx : ∃ i < z.matSize, x i ≠ 0) : 0 < ∑ i ∈ range z.matSize, x i * ∑ j ∈ range z.matSize, galerkin z d i j * x j := by
  rw [form_fields]
  exact form_pos z d g.ok el br bt hs x hx

/-- C74: for an elliptic problem the linear system that is assembled has exactly one solution, for every right-hand side. -/
theorem c74_exists_unique (z : Sz) (d : Dat) (g : Good z d) (el : Elliptic z d) {pr Pr pth Pth} (br : PolyBasis z.p z.cellsR d.rv pr Pr) (bt : PolyBasis z.p z.nT d.tv pth Pth)
    (hs : SingIndep z d) (wc : List (ℕ × ℕ)) (hc : wc.Perm (colWrites z)) (wv : List (ℕ × Option ℝ)) (hv : wv.Perm (valWrites z d (store wc))) (f : ℕ → ℕ → ℝ) :
    ∃ x : ℕ → ℝ, (∀ i < z.matSize, csrRow (ptr z) (store wc) (store wv) x i = rhs z d f i) ∧
      ∀ y : ℕ → ℝ, (∀ i < z.matSize, csrRow (ptr z) (store wc) (store wv) y i = rhs z d f i) → ∀ i < z.matSize, y i = x i := by
  have hsys : ∀ y : ℕ → ℝ, (∀ i < z.matSize, csrRow (ptr z) (store wc) (store wv) y i = rhs z d f i) ↔ ∀ i < z.matSize, ∑ j ∈ range z.matSize, galerkin z d i j * y j = load z d f i := by
    intro y
    refine forall_congr' fun i => forall_congr' fun hi => ?_
    rw [c74_product z d g wc hc wv hv y i hi, c74_rhs z d g f i hi, Option.some.injEq]
  have hinj : ∀ y : ℕ → ℝ, (∀ i < z.matSize, ∑ j ∈ range z.matSize, galerkin z d i j * y j = 0) → ∀ i < z.matSize, y i = 0 := by
    intro y hy i hi
    by_contra hne
    have := c74_definite z d g el br bt hs y ⟨i, hi, hne⟩
    rw [Finset.sum_eq_zero fun i hi => by rw [hy i (mem_range.1 hi), mul_zero]] at this
    exact lt_irrefl _ this
  obtain ⟨N, hN⟩ : ∃ N, N = z.matSize := ⟨_, rfl⟩
  rw [← hN] at hinj hsys ⊢
  let L : (Fin N → ℝ) →ₗ[ℝ] (Fin N → ℝ) := Matrix.toLin' (Matrix.of fun i j : Fin N => galerkin z d i j)
  have hL : ∀ (v : Fin N → ℝ) (i : Fin N), L v i = ∑ j : Fin N, galerkin z d i j * v j := fun v i => by
    simp only [L, Matrix.toLin'_apply, Matrix.mulVec, dotProduct, Matrix.of_apply]
  have hext : ∀ (y : ℕ → ℝ) (i : ℕ), ∑ j ∈ range N, galerkin z d i j * y j = ∑ j : Fin N, galerkin z d i j * y j := fun y i => by
    rw [Finset.sum_range]
  have hLinj : Function.Injective L := by
    rw [← LinearMap.ker_eq_bot, LinearMap.ker_eq_bot']
    intro v hv0
    funext k
    have := hinj (fun n => if h : n < N then v ⟨n, h⟩ else 0) (fun i hi => by
      rw [hext]
      have := congrFun hv0 ⟨i, hi⟩
      rw [hL] at this
      simpa using this) k k.2
    simpa using this
  obtain ⟨v, hv1⟩ := LinearMap.injective_iff_surjective.1 hLinj (fun i => load z d f i)
  refine ⟨fun n => if h : n < N then v ⟨n, h⟩ else 0, ?_, ?_⟩
  · rw [hsys]
    intro i hi
    rw [hext]
    have := congrFun hv1 ⟨i, hi⟩
    rw [hL] at this
    simpa using this
  · intro y hy i hi
    rw [hsys] at hy
    have := hinj (fun n => y n - if h : n < N then v ⟨n, h⟩ else 0) (fun i hi => by
      simp only [mul_sub, Finset.sum_sub_distrib]
      rw [hy i hi, hext]
      have := congrFun hv1 ⟨i, hi⟩
      rw [hL] at this
      simp only [Fin.is_lt, dite_true, Fin.eta]
      rw [this, sub_self]) i hi
    simp only [] at this ⊢
    linarith

theorem form_symm (z : Sz) (d : Dat) (hg : ∀ qr qt a b, d.ginv qr qt a b = d.ginv qr qt b a) (u v : ℕ → ℕ → ℕ → ℕ → ℝ) : form z d u v = form z d v u := by
  unfold form
  refine Finset.sum_congr rfl fun qr _ => Finset.sum_congr rfl fun qt _ => ?_
  rw [hg qr qt 1 0]
  ring

/-- C74: the solution of the system minimises the energy over the finite element space, strictly. -/
theorem c74_energy (z : Sz) (d : Dat) (g : Good z d) (el : Elliptic z d) {pr Pr pth Pth} (br : PolyBasis z.p z.cellsR d.rv pr Pr) (bt : PolyBasis z.p z.nT d.tv pth Pth)
    (hs : SingIndep z d) (wc : List (ℕ × ℕ)) (hc : wc.Perm (colWrites z)) (wv : List (ℕ × Option ℝ)) (hv : wv.Perm (valWrites z d (store wc))) (f : ℕ → ℕ → ℝ) (x : ℕ → ℝ)
    (hx : ∀ i < z.matSize, csrRow (ptr z) (store wc) (store wv) x i = rhs z d f i) (y : ℕ → ℝ) (hy : ∃ i < z.matSize, y i ≠ x i) : energy z d f x < energy z d f y := by
  have hgal : ∀ c : ℕ → ℝ, form z d (field z d z.matSize c) (field z d z.matSize x) = ∑ qr ∈ range z.qR, ∑ qt ∈ range z.qT, f qr qt * field z d z.matSize c 0 0 qr qt * d.vol qr qt := by
    intro c
    rw [← form_fields]
    have hrow : ∀ i ∈ range z.matSize, c i * ∑ j ∈ range z.matSize, galerkin z d i j * x j = c i * load z d f i := by
      intro i hi
      rw [mem_range] at hi
      have := hx i hi
      rw [c74_product z d g wc hc wv hv x i hi, c74_rhs z d g f i hi] at this
      rw [Option.some.inj this]
    rw [Finset.sum_congr rfl hrow]
    unfold load field
    simp only [Finset.mul_sum, Finset.sum_mul]
    rw [Finset.sum_comm]
    refine Finset.sum_congr rfl fun qr _ => ?_
    rw [Finset.sum_comm]
    refine Finset.sum_congr rfl fun qt _ => Finset.sum_congr rfl fun i _ => ?_
    ring
  have hadd : ∀ w : ℕ → ℝ, (∀ i, w i = y i - x i) → ∀ a b q t, field z d z.matSize w a b q t = field z d z.matSize y a b q t - field z d z.matSize x a b q t := by
    intro w hw a b q t
    unfold field
    rw [← Finset.sum_sub_distrib]
    exact Finset.sum_congr rfl fun i _ => by rw [hw]; ring
  have hd := hadd (fun i => y i - x i) (fun _ => rfl)
  have hpos := form_pos z d g.ok el br bt hs (fun i => y i - x i) (by
    obtain ⟨i, hi, h⟩ := hy
    exact ⟨i, hi, sub_ne_zero.2 h⟩)
  have hexp : form z d (field z d z.matSize fun i => y i - x i) (field z d z.matSize fun i => y i - x i) =
      form z d (field z d z.matSize y) (field z d z.matSize y) - form z d (field z d z.matSize y) (field z d z.matSize x) -
        form z d (field z d z.matSize x) (field z d z.matSize y) + form z d (field z d z.matSize x) (field z d z.matSize x) := by
    unfold form
    simp only [hd, ← Finset.sum_sub_distrib, ← Finset.sum_add_distrib]
    refine Finset.sum_congr rfl fun qr _ => Finset.sum_congr rfl fun qt _ => ?_
    ring
  rw [hexp, form_symm z d g.symm (field z d z.matSize x) (field z d z.matSize y)] at hpos
  unfold energy
  rw [← hgal x, ← hgal y]
  linarith

/-! ## The singular functions of the library -/

theorem evalBasis_zero (t : CoordTransforms.Triangle ℝ) (p : ℝ × ℝ) : PolarSplines.evalBasis 0 t p = [1] := by
  simp [PolarSplines.evalBasis, MathTools.ipowNat, MathTools.ipowInt, MathTools.factorial, MathTools.word]

theorem evalBasis_one (t : CoordTransforms.Triangle ℝ) (p : ℝ × ℝ) :
    PolarSplines.evalBasis 1 t p = [(CoordTransforms.cartToBary t p).2.2, (CoordTransforms.cartToBary t p).2.1, (CoordTransforms.cartToBary t p).1] := by
  simp [PolarSplines.evalBasis, MathTools.ipowNat, MathTools.ipowInt, MathTools.factorial, MathTools.word, List.range_succ]

/-- C74: the singular functions that the constructor of the polar B-splines builds are independent: always for `C = 0`; for `C = 1` as soon as three control points of the second row (the image of the first ring) are not
on a line. -/
theorem c74_singular (z : Sz) (d : Dat) (sizeTheta : ℕ) (x0 y0 : ℝ) (cp : ℕ → ℕ → ℝ × ℝ) (hT : 0 < z.nT) (hsz : z.nT ≤ sizeTheta) (hel : d.elem = PolarSplines.constructor z.c1 z.nT sizeTheta x0 y0 cp)
    (h : z.c1 = 1 ∨ (z.c1 = 2 ∧ ∃ i < z.nT, ∃ j < z.nT, ∃ k < z.nT,
      ((cp 1 j).1 - (cp 1 i).1) * ((cp 1 k).2 - (cp 1 i).2) - ((cp 1 k).1 - (cp 1 i).1) * ((cp 1 j).2 - (cp 1 i).2) ≠ 0)) : SingIndep z d := by
  intro y hy
  rw [hel] at hy
  unfold PolarSplines.constructor at hy
  rcases h with h1 | ⟨h2, i, hi, j, hj, k, hk, hdet⟩
  · have hn : z.nS = 1 := by unfold Sz.nS nSingular; rw [h1]
    have := hy 0 (by omega) 0 hT
    rw [hn] at this ⊢
    rw [Finset.sum_range_one, PolarSplines.elem_eq _ _ _ _ _ _ _ (by omega), h1, evalBasis_zero] at this
    intro s hs
    obtain rfl : s = 0 := by omega
    simpa using this
  · have hn : z.nS = 3 := by unfold Sz.nS nSingular; rw [h2]
    rw [hn] at hy ⊢
    have hprop := (PolarSplines.c69_triangle x0 y0 ((List.range sizeTheta).map (cp 1)) (by
      by_contra hcon
      push Not at hcon
      have e : ∀ l < z.nT, cp 1 l = (x0, y0) := fun l hl => hcon _ (List.mem_map.2 ⟨l, List.mem_range.2 (by omega), rfl⟩)
      rw [e i hi, e j hj, e k hk] at hdet
      simp at hdet)).1
    generalize PolarSplines.triangle x0 y0 (PolarSplines.tau x0 y0 ((List.range sizeTheta).map (cp 1))) = t at hy hprop
    have hdiv : t.div ≠ 0 := by
      intro h0
      refine hprop ?_
      unfold CoordTransforms.Triangle.div at h0
      linear_combination h0
    have haff : ∀ l < z.nT, y 0 * t.div + (y 2 - y 0) * ((t.y2 - t.y3) * ((cp 1 l).1 - t.x3) + (t.x3 - t.x2) * ((cp 1 l).2 - t.y3)) +
        (y 1 - y 0) * (((cp 1 l).2 - t.y3) * (t.x1 - t.x3) + (t.x3 - (cp 1 l).1) * (t.y1 - t.y3)) = 0 := by
      intro l hl
      have := hy 1 (by omega) l hl
      rw [Finset.sum_range_succ, Finset.sum_range_succ, Finset.sum_range_one, PolarSplines.elem_eq _ _ _ _ _ _ _ (by omega), PolarSplines.elem_eq _ _ _ _ _ _ _ (by omega),
        PolarSplines.elem_eq _ _ _ _ _ _ _ (by omega), h2, evalBasis_one, Nat.mod_eq_of_lt hl] at this
      simp only [CoordTransforms.cartToBary, List.getElem?_cons_zero, List.getElem?_cons_succ, Option.getD_some] at this
      field_simp at this
      linear_combination this
    have ei := haff i hi
    have ej := haff j hj
    have ek := haff k hk
    have hD : t.div = (t.y2 - t.y3) * (t.x1 - t.x3) + (t.x3 - t.x2) * (t.y1 - t.y3) := rfl
    obtain ⟨b, hb⟩ : ∃ b, b = (y 2 - y 0) * (t.y2 - t.y3) - (y 1 - y 0) * (t.y1 - t.y3) := ⟨_, rfl⟩
    obtain ⟨c, hc⟩ : ∃ c, c = (y 2 - y 0) * (t.x3 - t.x2) + (y 1 - y 0) * (t.x1 - t.x3) := ⟨_, rfl⟩
    have e1 : b * ((cp 1 j).1 - (cp 1 i).1) + c * ((cp 1 j).2 - (cp 1 i).2) = 0 := by rw [hb, hc]; linear_combination ej - ei
    have e2 : b * ((cp 1 k).1 - (cp 1 i).1) + c * ((cp 1 k).2 - (cp 1 i).2) = 0 := by rw [hb, hc]; linear_combination ek - ei
    have hb0 : b = 0 := by
      refine (mul_eq_zero.1 ?_).resolve_right hdet
      linear_combination ((cp 1 k).2 - (cp 1 i).2) * e1 - ((cp 1 j).2 - (cp 1 i).2) * e2
    have hc0 : c = 0 := by
      refine (mul_eq_zero.1 ?_).resolve_right hdet
      linear_combination ((cp 1 j).1 - (cp 1 i).1) * e2 - ((cp 1 k).1 - (cp 1 i).1) * e1
    have h20 : y 2 - y 0 = 0 := by
      refine (mul_eq_zero.1 ?_).resolve_right hdiv
      rw [hD]
      rw [hb0] at hb
      rw [hc0] at hc
      linear_combination -(t.x1 - t.x3) * hb - (t.y1 - t.y3) * hc
    have h10 : y 1 - y 0 = 0 := by
      refine (mul_eq_zero.1 ?_).resolve_right hdiv
      rw [hD]
      rw [hb0] at hb
      rw [hc0] at hc
      linear_combination (t.x3 - t.x2) * hb - (t.y2 - t.y3) * hc
    have h0 : y 0 = 0 := by
      refine (mul_eq_zero.1 ?_).resolve_right hdiv
      rw [h20, h10] at ei
      linear_combination ei
    intro s hs
    interval_cases s
    · exact h0
    · linarith
    · linarith

/-! ## A concrete case: linear B-splines, `C = 0` -/

/-- The hat functions on the cells `[c, c + 1]`. -/
noncomputable def hat (c k : ℕ) : ℝ[X] := if k = 0 then C ((c : ℝ) + 1) - X else X - C (c : ℝ)

/-- Quadrature points. -/
noncomputable def hatPt (c m : ℕ) : ℝ := (c : ℝ) + ((m : ℝ) + 1) / 3

/-- Values and derivatives. -/
noncomputable def hatVal (o q k : ℕ) : ℝ :=
  if o = 0 then (hat (q / 2) k).eval (hatPt (q / 2) (q % 2)) else (derivative (hat (q / 2) k)).eval (hatPt (q / 2) (q % 2))

theorem hat_basis (n : ℕ) : PolyBasis 1 n hatVal hatPt hat where
  val := fun c _ m hm k _ => by
    unfold hatVal
    rw [if_pos rfl, show (c * (1 + 1) + m) / 2 = c by omega, show (c * (1 + 1) + m) % 2 = m by omega]
  der := fun c _ m hm k _ => by
    unfold hatVal
    rw [if_neg one_ne_zero, show (c * (1 + 1) + m) / 2 = c by omega, show (c * (1 + 1) + m) % 2 = m by omega]
  deg := fun c _ k _ => by
    unfold hat
    split
    · rw [← neg_sub, Polynomial.natDegree_neg, Polynomial.natDegree_X_sub_C]
    · rw [Polynomial.natDegree_X_sub_C]
  one := fun c _ => by
    rw [Finset.sum_range_succ, Finset.sum_range_one]
    unfold hat
    rw [if_pos rfl, if_neg one_ne_zero, Polynomial.C_add, Polynomial.C_1]
    ring
  indep := fun c _ a h k hk => by
    rw [Finset.sum_range_succ, Finset.sum_range_one] at h
    unfold hat at h
    rw [if_pos rfl, if_neg one_ne_zero] at h
    have h0 := congrArg (Polynomial.eval (c : ℝ)) h
    have h1 := congrArg (Polynomial.eval ((c : ℝ) + 1)) h
    simp at h0 h1
    interval_cases k
    · exact h0
    · exact h1
  inj := fun c _ m _ m' _ h => by
    unfold hatPt at h
    have : (m : ℝ) = m' := by linarith
    exact_mod_cast this

/-- The Laplacian (`α = 1`, `β = 0`) with a constant metric. -/
noncomputable def hatDat : Dat where
  elem := PolarSplines.constructor 1 4 5 0 0 (fun _ _ => (0, 0))
  rv := hatVal
  tv := hatVal
  vol := fun _ _ => 1
  alpha := fun _ _ => 1
  beta := fun _ _ => 0
  ginv := fun _ _ a b => if a = b then 1 else 0

theorem hatDat_good : Good ⟨1, 1, 4, 4⟩ hatDat where
  ok := ⟨by decide, by decide, by decide, by decide, by decide⟩
  per := fun k i j hj => by
    have hj' : j < 2 * 4 := hj
    simp only [hatDat, PolarSplines.constructor]
    rw [PolarSplines.elem_eq _ _ _ _ _ _ _ hj', PolarSplines.elem_eq _ _ _ _ _ _ _ (by omega)]
  symm := fun _ _ a b => by simp [hatDat, eq_comm]

theorem hatDat_elliptic : Elliptic ⟨1, 1, 4, 4⟩ hatDat where
  vol := fun _ _ _ _ => zero_lt_one
  alpha := fun _ _ _ _ => zero_lt_one
  beta := fun _ _ _ _ => le_rfl
  metric := fun qr _ qt _ u hu => by
    simp only [hatDat, Fin.sum_univ_two, if_true, show (1 : Fin 2) ≠ 0 from by decide, show (0 : Fin 2) ≠ 1 from by decide, if_false]
    have h : u 0 ≠ 0 ∨ u 1 ≠ 0 := by
      by_contra hcon
      push Not at hcon
      refine hu (funext fun a => ?_)
      fin_cases a
      · exact hcon.1
      · exact hcon.2
    rcases h with h | h
    · have := mul_self_pos.2 h
      nlinarith [mul_self_nonneg (u 1)]
    · have := mul_self_pos.2 h
      nlinarith [mul_self_nonneg (u 0)]

example (f : ℕ → ℕ → ℝ) : ∃ x : ℕ → ℝ, ∀ i < (⟨1, 1, 4, 4⟩ : Sz).matSize,
    csrRow (ptr ⟨1, 1, 4, 4⟩) (store (colWrites ⟨1, 1, 4, 4⟩)) (store (valWrites ⟨1, 1, 4, 4⟩ hatDat (store (colWrites ⟨1, 1, 4, 4⟩)))) x i = rhs ⟨1, 1, 4, 4⟩ hatDat f i := by
  obtain ⟨x, hx, _⟩ := c74_exists_unique ⟨1, 1, 4, 4⟩ hatDat hatDat_good hatDat_elliptic (hat_basis _) (hat_basis _)
    (c74_singular _ _ 5 0 0 (fun _ _ => (0, 0)) (by decide) (by decide) rfl (Or.inl rfl)) _ (List.Perm.refl _) _ (List.Perm.refl _) f
  exact ⟨x, hx⟩

/-- Three control points on a circle are not on a line. -/
example : ((-1 : ℝ) - 1) * ((-1 : ℝ) - 0) - (0 - 1) * (0 - 0) ≠ 0 := by norm_num

end Verif.PolarFem
