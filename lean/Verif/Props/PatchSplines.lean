import Verif.Props.SplineUnique
import Verif.Props.InterfaceDerivs
import Verif.Model.SplineInterp2D
import Mathlib.Tactic.IntervalCases
import Mathlib.Tactic.ComputeDegree

/-!
# C119: patch-wise Hermite splines are the global spline
-/

namespace Verif.SplineInterp

open Polynomial Finset Verif.BSpline Verif.SplineQuadrature

noncomputable section

section
variable {n e m n' : ℕ} {b : ℕ → ℝ}

/-- The Hermite spline on a part of the break points with the data of a piecewise polynomial is this piecewise polynomial. -/
theorem restrict_core (hn : 1 ≤ n') (hb : ∀ i < n', b i < b (i + 1)) {Q : ℕ → ℝ[X]} (hdeg : ∀ q < n', (Q q).natDegree ≤ 2 * e + 1)
    (hcont : ∀ q, q + 1 < n' → ∀ k ≤ 2 * e, (derivative^[k] (Q q)).eval (b (q + 1)) = (derivative^[k] (Q (q + 1))).eval (b (q + 1)))
    {v dl dr c : ℕ → ℝ} (hc : HermiteInterpolant n' (2 * e + 1) b v dl dr c) (hv : ∀ q < n', v q = (Q q).eval (b q)) (hlast : v n' = (Q (n' - 1)).eval (b n'))
    (hl : ∀ k, 1 ≤ k → k ≤ e → dl k = (derivative^[k] (Q 0)).eval (b 0)) (hr : ∀ k, 1 ≤ k → k ≤ e → dr k = (derivative^[k] (Q (n' - 1))).eval (b n')) (q : ℕ) (hq : q < n') (k : ℕ) (x : ℝ) :
    derivAt (clampedKnots n' b) (2 * e + 1) (n' + (2 * e + 1)) q k x c = (derivative^[k] (Q q)).eval x := by
  obtain ⟨P, hP⟩ : ∃ P : ℕ → ℝ[X], P = fun q : ℕ => spl (clampedKnots n' b) q (2 * e + 1) (along (2 * e + 1) c) := ⟨_, rfl⟩
  have hder : ∀ q < n', ∀ k x, derivAt (clampedKnots n' b) (2 * e + 1) (n' + (2 * e + 1)) q k x c = (derivative^[k] (P q)).eval x := fun q hq k x => by
    rw [hP]; exact derivAt_eq _ _ _ _ _ _ _ _ (along_eq _ _ q c (by omega))
  have hval : ∀ q < n', ∀ x, valueAt (clampedKnots n' b) (2 * e + 1) (n' + (2 * e + 1)) q x c = (P q).eval x := fun q hq x => hder q hq 0 x
  have hcP : ∀ q, q + 1 < n' → ∀ k ≤ 2 * e, (derivative^[k] (P q)).eval (b (q + 1)) = (derivative^[k] (P (q + 1))).eval (b (q + 1)) := fun q hq k hk => by
    rw [hP]; exact clamped_smooth hb _ q hq k (by omega)
  have hv0 : ∀ q < n', (P q - Q q).eval (b q) = 0 := fun q hq => by
    rw [eval_sub, ← hval q hq, hc.value q hq, hv q hq, sub_self]
  have hcD : ∀ q, q + 1 < n' → ∀ k ≤ 2 * e, (derivative^[k] (P q - Q q)).eval (b (q + 1)) = (derivative^[k] (P (q + 1) - Q (q + 1))).eval (b (q + 1)) := fun q hq k hk => by
    rw [iterate_derivative_sub, iterate_derivative_sub, eval_sub, eval_sub, hcP q hq k hk, hcont q hq k hk]
  have hz := hermite_zero (e := e) hn hb (P := fun q => P q - Q q)
    (fun q hq => (natDegree_sub_le _ _).trans (max_le (by rw [hP]; exact spl_degree _ _) (hdeg q hq))) hcD
    (fun q hq => ⟨hv0 q hq, by
      by_cases h1 : q + 1 < n'
      · have := hcD q h1 0 (by omega)
        simp only [Function.iterate_zero, id_eq] at this
        rw [this]; exact hv0 _ h1
      · rw [show q = n' - 1 by omega, show n' - 1 + 1 = n' by omega, eval_sub, ← hval (n' - 1) (by omega), hc.last, hlast, sub_self]⟩)
    (fun k h1 h2 => by
      rw [iterate_derivative_sub, eval_sub, ← hder 0 (by omega), hc.left k h1 (by omega), hl k h1 h2, sub_self])
    (fun k h1 h2 => by
      rw [iterate_derivative_sub, eval_sub, ← hder (n' - 1) (by omega), hc.right k h1 (by omega), hr k h1 h2, sub_self]) q hq
  rw [hder q hq, sub_eq_zero.1 hz]

/-- C119 (walls): the global spline has walls at both ends; the patch has the cells `m … m + n' - 1` of it. If the patch gets the values and the end derivatives of the global spline, its spline is the global one on all its cells. -/
theorem c119_restrict (hn : 1 ≤ n') (hm : m + n' ≤ n) (hb : ∀ i < n, b i < b (i + 1)) (c : ℕ → ℝ) {v dl dr c' : ℕ → ℝ} (hc : HermiteInterpolant n' (2 * e + 1) (fun i => b (m + i)) v dl dr c')
    (hv : ∀ q < n', v q = valueAt (clampedKnots n b) (2 * e + 1) (n + (2 * e + 1)) (m + q) (b (m + q)) c) (hlast : v n' = valueAt (clampedKnots n b) (2 * e + 1) (n + (2 * e + 1)) (m + n' - 1) (b (m + n')) c)
    (hl : ∀ k, 1 ≤ k → k ≤ e → dl k = derivAt (clampedKnots n b) (2 * e + 1) (n + (2 * e + 1)) m k (b m) c)
    (hr : ∀ k, 1 ≤ k → k ≤ e → dr k = derivAt (clampedKnots n b) (2 * e + 1) (n + (2 * e + 1)) (m + n' - 1) k (b (m + n')) c) (q : ℕ) (hq : q < n') (k : ℕ) (x : ℝ) :
    derivAt (clampedKnots n' fun i => b (m + i)) (2 * e + 1) (n' + (2 * e + 1)) q k x c' = derivAt (clampedKnots n b) (2 * e + 1) (n + (2 * e + 1)) (m + q) k x c := by
  obtain ⟨P, hP⟩ : ∃ P : ℕ → ℝ[X], P = fun q : ℕ => spl (clampedKnots n b) q (2 * e + 1) (along (2 * e + 1) c) := ⟨_, rfl⟩
  have hder : ∀ q < n, ∀ k x, derivAt (clampedKnots n b) (2 * e + 1) (n + (2 * e + 1)) q k x c = (derivative^[k] (P q)).eval x := fun q hq k x => by
    rw [hP]; exact derivAt_eq _ _ _ _ _ _ _ _ (along_eq _ _ q c (by omega))
  rw [hder (m + q) (by omega)]
  refine restrict_core (Q := fun q => P (m + q)) hn (fun i hi => hb (m + i) (by omega)) (fun q _ => by rw [hP]; exact spl_degree _ _) (fun q hq k hk => by
    rw [hP]; exact clamped_smooth hb _ (m + q) (by omega) k (by omega)) hc (fun q hq => by rw [hv q hq]; exact hder _ (by omega) 0 _) ?_ (fun k h1 h2 => by rw [hl k h1 h2]; exact hder _ (by omega) k _) ?_ q hq k x
  · rw [hlast, ← show m + (n' - 1) = m + n' - 1 by omega]; exact hder _ (by omega) 0 _
  · intro k h1 h2
    rw [hr k h1 h2, ← show m + (n' - 1) = m + n' - 1 by omega]; exact hder _ (by omega) k _

/-- C119 (periodic global dimension). -/
theorem c119_restrict_periodic (hn : 1 ≤ n') (hm : m + n' ≤ n) (hb : ∀ i < n, b i < b (i + 1)) (c : ℕ → ℝ) {v dl dr c' : ℕ → ℝ} (hc : HermiteInterpolant n' (2 * e + 1) (fun i => b (m + i)) v dl dr c')
    (hv : ∀ q < n', v q = valueAt (periodicKnots n b) (2 * e + 1) n (m + q) (b (m + q)) c) (hlast : v n' = valueAt (periodicKnots n b) (2 * e + 1) n (m + n' - 1) (b (m + n')) c)
    (hl : ∀ k, 1 ≤ k → k ≤ e → dl k = derivAt (periodicKnots n b) (2 * e + 1) n m k (b m) c)
    (hr : ∀ k, 1 ≤ k → k ≤ e → dr k = derivAt (periodicKnots n b) (2 * e + 1) n (m + n' - 1) k (b (m + n')) c) (q : ℕ) (hq : q < n') (k : ℕ) (x : ℝ) :
    derivAt (clampedKnots n' fun i => b (m + i)) (2 * e + 1) (n' + (2 * e + 1)) q k x c' = derivAt (periodicKnots n b) (2 * e + 1) n (m + q) k x c := by
  obtain ⟨P, hP⟩ : ∃ P : ℕ → ℝ[X], P = fun q : ℕ => spl (periodicKnots n b) q (2 * e + 1) (around (2 * e + 1) n c) := ⟨_, rfl⟩
  have hder : ∀ q k x, derivAt (periodicKnots n b) (2 * e + 1) n q k x c = (derivative^[k] (P q)).eval x := fun q k x => by
    rw [hP]; exact derivAt_eq _ _ _ _ _ _ _ _ (around_eq _ q c (by omega))
  rw [hder (m + q)]
  refine restrict_core (Q := fun q => P (m + q)) hn (fun i hi => hb (m + i) (by omega)) (fun q _ => by rw [hP]; exact spl_degree _ _) (fun q hq k hk => by
    rw [hP]; exact periodic_smooth (by omega) hb _ (m + q) (by omega) k (by omega)) hc (fun q hq => by rw [hv q hq]; exact hder _ 0 _) ?_ (fun k h1 h2 => by rw [hl k h1 h2]; exact hder _ k _) ?_ q hq k x
  · rw [hlast, ← show m + (n' - 1) = m + n' - 1 by omega]; exact hder _ 0 _
  · intro k h1 h2
    rw [hr k h1 h2, ← show m + (n' - 1) = m + n' - 1 by omega]; exact hder _ k _

/-- C119 (the interface derivatives decide): two patches with `m` and `n - m` cells, with the same value at the interface. If the two splines have equal derivatives of all orders below the degree at the interface, then together they are
the spline over both patches with the same values and outer derivatives. -/
theorem c119_smooth_is_global (hm : 1 ≤ m) (hmn : m < n) (hb : ∀ i < n, b i < b (i + 1)) {v dl d1 d2 dr c c1 c2 : ℕ → ℝ} (hc : HermiteInterpolant n (2 * e + 1) b v dl dr c)
    (h1 : HermiteInterpolant m (2 * e + 1) b v dl d1 c1) (h2 : HermiteInterpolant (n - m) (2 * e + 1) (fun i => b (m + i)) (fun i => v (m + i)) d2 dr c2)
    (hs : ∀ k, 1 ≤ k → k ≤ 2 * e → derivAt (clampedKnots m b) (2 * e + 1) (m + (2 * e + 1)) (m - 1) k (b m) c1 = derivAt (clampedKnots (n - m) fun i => b (m + i)) (2 * e + 1) (n - m + (2 * e + 1)) 0 k (b m) c2) :
    (∀ q < m, ∀ k x, derivAt (clampedKnots n b) (2 * e + 1) (n + (2 * e + 1)) q k x c = derivAt (clampedKnots m b) (2 * e + 1) (m + (2 * e + 1)) q k x c1) ∧
      ∀ q < n - m, ∀ k x, derivAt (clampedKnots n b) (2 * e + 1) (n + (2 * e + 1)) (m + q) k x c = derivAt (clampedKnots (n - m) fun i => b (m + i)) (2 * e + 1) (n - m + (2 * e + 1)) q k x c2 := by
  obtain ⟨P1, hP1⟩ : ∃ P : ℕ → ℝ[X], P = fun q : ℕ => spl (clampedKnots m b) q (2 * e + 1) (along (2 * e + 1) c1) := ⟨_, rfl⟩
  obtain ⟨P2, hP2⟩ : ∃ P : ℕ → ℝ[X], P = fun q : ℕ => spl (clampedKnots (n - m) fun i => b (m + i)) q (2 * e + 1) (along (2 * e + 1) c2) := ⟨_, rfl⟩
  have hder1 : ∀ q < m, ∀ k x, derivAt (clampedKnots m b) (2 * e + 1) (m + (2 * e + 1)) q k x c1 = (derivative^[k] (P1 q)).eval x := fun q hq k x => by
    rw [hP1]; exact derivAt_eq _ _ _ _ _ _ _ _ (along_eq _ _ q c1 (by omega))
  have hder2 : ∀ q < n - m, ∀ k x, derivAt (clampedKnots (n - m) fun i => b (m + i)) (2 * e + 1) (n - m + (2 * e + 1)) q k x c2 = (derivative^[k] (P2 q)).eval x := fun q hq k x => by
    rw [hP2]; exact derivAt_eq _ _ _ _ _ _ _ _ (along_eq _ _ q c2 (by omega))
  obtain ⟨Q, hQ⟩ : ∃ Q : ℕ → ℝ[X], Q = fun q => if q < m then P1 q else P2 (q - m) := ⟨_, rfl⟩
  have hQ1 : ∀ q < m, Q q = P1 q := fun q hq => by rw [hQ]; exact if_pos hq
  have hQ2 : ∀ q, Q (m + q) = P2 q := fun q => by rw [hQ]; beta_reduce; rw [if_neg (by omega), Nat.add_sub_cancel_left]
  have hcore := restrict_core (Q := Q) (by omega) hb (fun q _ => by
      rw [hQ, hP1, hP2]
      beta_reduce
      split_ifs <;> exact spl_degree _ _) (fun q hq k hk => by
      by_cases ha : q + 1 < m
      · rw [hQ1 q (by omega), hQ1 (q + 1) ha, hP1]
        exact clamped_smooth (fun i hi => hb i (by omega)) _ q ha k (by omega)
      · by_cases hq' : q + 1 = m
        · rw [hQ1 q (by omega), hq', show Q m = P2 0 from hQ2 0, show q = m - 1 by omega, ← hder1 (m - 1) (by omega), ← hder2 0 (by omega)]
          by_cases hk0 : k = 0
          · rw [hk0]
            exact h1.last.trans (h2.value 0 (by omega)).symm
          · exact hs k (by omega) hk
        · rw [show q = m + (q - m) by omega, show m + (q - m) + 1 = m + (q - m + 1) by omega, hQ2, hQ2, hP2]
          exact clamped_smooth (b := fun i => b (m + i)) (fun i hi => hb (m + i) (by omega)) _ (q - m) (by omega) k (by omega)) hc
    (fun q hq => by
      by_cases ha : q < m
      · rw [hQ1 q ha, ← h1.value q ha]; exact hder1 q ha 0 _
      · obtain ⟨r, rfl⟩ : ∃ r, q = m + r := ⟨q - m, by omega⟩
        rw [hQ2, ← h2.value r (by omega)]; exact hder2 r (by omega) 0 _)
    (by
      have := h2.last
      beta_reduce at this
      rw [show m + (n - m) = n by omega] at this
      rw [show n - 1 = m + (n - m - 1) by omega, hQ2, ← this]
      exact hder2 (n - m - 1) (by omega) 0 _)
    (fun k k1 k2 => by rw [hQ1 0 (by omega), ← h1.left k k1 (by omega)]; exact hder1 0 (by omega) k _)
    (fun k k1 k2 => by
      have := h2.right k k1 (by omega)
      beta_reduce at this
      rw [show m + (n - m) = n by omega] at this
      rw [show n - 1 = m + (n - m - 1) by omega, hQ2, ← this]
      exact hder2 (n - m - 1) (by omega) k _)
  exact ⟨fun q hq k x => by rw [hcore q (by omega), hQ1 q hq, hder1 q hq], fun q hq k x => by rw [hcore (m + q) (by omega), hQ2, hder2 q hq]⟩

end

/-! ## With the interface derivative of `SingleInterfaceDerivativesCalculator` (C72) -/

open Verif.InterfaceDerivs in
/-- A cubic spline of class C² is reproduced by the Hermite problem. -/
theorem cubic_reproduced {n : ℕ} {b : ℕ → ℝ} {s : ℝ → ℝ} (hn : 1 ≤ n) (hb : ∀ i < n, b i < b (i + 1)) (hs : ContDiff ℝ 2 s) (hcub : ∀ i < n, CubicOn s (b i) (b (i + 1)))
    {v dl dr c : ℕ → ℝ} (hc : HermiteInterpolant n 3 b v dl dr c) (hv : ∀ q ≤ n, v q = s (b q)) (hl : dl 1 = deriv s (b 0)) (hr : dr 1 = deriv s (b n)) (q : ℕ) (hq : q < n) (x : ℝ) (hx : x ∈ Set.Icc (b q) (b (q + 1))) :
    valueAt (clampedKnots n b) 3 (n + 3) q x c = s x := by
  have : ∀ i, ∃ a : Fin 4 → ℝ, i < n → ∀ z, b i ≤ z → z ≤ b (i + 1) → s z = a 0 + a 1 * z + a 2 * z ^ 2 + a 3 * z ^ 3 := fun i => by
    by_cases hi : i < n
    · obtain ⟨c0, c1, c2, c3, h⟩ := hcub i hi
      exact ⟨![c0, c1, c2, c3], fun _ z h1 h2 => by simpa using h z h1 h2⟩
    · exact ⟨0, fun h => absurd h hi⟩
  choose a ha using this
  obtain ⟨Q, hQ⟩ : ∃ Q : ℕ → ℝ[X], Q = fun q => C (a q 0) + C (a q 1) * X + C (a q 2) * X ^ 2 + C (a q 3) * X ^ 3 := ⟨_, rfl⟩
  have d0 : ∀ q x, (Q q).eval x = a q 0 + a q 1 * x + a q 2 * x ^ 2 + a q 3 * x ^ 3 := fun q x => by rw [hQ]; simp
  have d1 : ∀ q x, (derivative (Q q)).eval x = a q 1 + 2 * a q 2 * x + 3 * a q 3 * x ^ 2 := fun q x => by rw [hQ]; simp; ring
  have d2 : ∀ q x, (derivative (derivative (Q q))).eval x = 2 * a q 2 + 6 * a q 3 * x := fun q x => by rw [hQ]; simp; ring
  have v0 : ∀ q < n, ∀ x ∈ Set.Icc (b q) (b (q + 1)), (Q q).eval x = s x := fun q hq x hx => by rw [d0, ha q hq x hx.1 hx.2]
  have v12 : ∀ q < n, ∀ x ∈ Set.Icc (b q) (b (q + 1)), (derivative (Q q)).eval x = deriv s x ∧ (derivative (derivative (Q q))).eval x = deriv (deriv s) x := fun q hq x hx => by
    have := cubic_derivs s hs (b q) (b (q + 1)) (hb q hq) _ _ _ _ (ha q hq) x hx
    exact ⟨by rw [d1, this.1], by rw [d2, this.2]⟩
  have e1 : ∀ q < n, b q ∈ Set.Icc (b q) (b (q + 1)) := fun q hq => ⟨le_rfl, (hb q hq).le⟩
  have e2 : ∀ q < n, b (q + 1) ∈ Set.Icc (b q) (b (q + 1)) := fun q hq => ⟨(hb q hq).le, le_rfl⟩
  have eN : b n ∈ Set.Icc (b (n - 1)) (b (n - 1 + 1)) := by have := e2 (n - 1) (by omega); rwa [show n - 1 + 1 = n by omega] at this ⊢
  have := restrict_core (e := 1) (Q := Q) hn hb (fun q _ => by rw [hQ]; beta_reduce; compute_degree!) (fun q hq k hk => by
      interval_cases k
      · simp only [Function.iterate_zero, id_eq]
        rw [v0 q (by omega) _ (e2 q (by omega)), v0 (q + 1) hq _ (e1 (q + 1) hq)]
      · simp only [Function.iterate_succ, Function.iterate_zero, Function.comp, id_eq]
        rw [(v12 q (by omega) _ (e2 q (by omega))).1, (v12 (q + 1) hq _ (e1 (q + 1) hq)).1]
      · simp only [Function.iterate_succ, Function.iterate_zero, Function.comp, id_eq]
        rw [(v12 q (by omega) _ (e2 q (by omega))).2, (v12 (q + 1) hq _ (e1 (q + 1) hq)).2])
    hc (fun q hq => by rw [v0 q hq _ (e1 q hq), hv q hq.le]) (by rw [v0 (n - 1) (by omega) _ eN, hv n le_rfl])
    (fun k k1 k2 => by
      obtain rfl : k = 1 := by omega
      simp only [Function.iterate_succ, Function.iterate_zero, Function.comp, id_eq]
      rw [(v12 0 (by omega) _ (e1 0 (by omega))).1, hl])
    (fun k k1 k2 => by
      obtain rfl : k = 1 := by omega
      simp only [Function.iterate_succ, Function.iterate_zero, Function.comp, id_eq]
      rw [(v12 (n - 1) (by omega) _ eN).1, hr]) q hq 0 x
  exact this.trans (v0 q hq x hx)

open Verif.InterfaceDerivs in
/-- C119 (two patches with the calculator): the class accepts the patches, and if `D` is the derivative which its coefficients give for the values of a C² cubic spline over both patches and its outer derivatives, then the cubic
Hermite splines of the two patches, built from the values, the outer derivatives and `D`, are this spline. The coordinate is the distance to the interface, negative on patch 1. -/
theorem c119_two_patches {p1 p2 : Patch} (hp1 : p1.Increasing) (hp2 : p2.Increasing) (h1 : 3 ≤ p1.cells false) (h2 : 2 ≤ p2.cells false) :
    ∃ r, nonUniform p1 p2 false false = some r ∧ ∀ s, GlobalSpline p1 p2 false false s →
      ∀ b1 b2 : ℕ → ℝ, (∀ i, b1 i = -p1.dist (p1.pos (p1.cells false - i))) → (∀ i, b2 i = p2.dist (p2.pos i)) →
      ∀ D, D = functionCoeffs p1 p2 r (fun j => s (-p1.dist j)) (fun j => s (p2.dist j)) + r.cd2 * deriv s (b2 (p2.cells false)) + r.cd1 * deriv s (b1 0) →
      ∀ c1 c2, HermiteInterpolant (p1.cells false) 3 b1 (fun q => s (b1 q)) (fun _ => deriv s (b1 0)) (fun _ => D) c1 → HermiteInterpolant (p2.cells false) 3 b2 (fun q => s (b2 q)) (fun _ => D) (fun _ => deriv s (b2 (p2.cells false))) c2 →
      (∀ q < p1.cells false, ∀ x ∈ Set.Icc (b1 q) (b1 (q + 1)), valueAt (clampedKnots (p1.cells false) b1) 3 (p1.cells false + 3) q x c1 = s x) ∧
        ∀ q < p2.cells false, ∀ x ∈ Set.Icc (b2 q) (b2 (q + 1)), valueAt (clampedKnots (p2.cells false) b2) 3 (p2.cells false + 3) q x c2 = s x := by
  obtain ⟨r, hr, hex, -⟩ := c72_non_uniform hp1 hp2 false false h1 (by simpa using h2)
  refine ⟨r, hr, fun s hs b1 b2 hb1 hb2 D hD c1 c2 hc1 hc2 => ?_⟩
  have z1 : p1.cells false + 1 ≤ p1.size := by simp only [Patch.cells, Bool.false_eq_true, if_false] at h1 ⊢; omega
  have z2 : p2.cells false + 1 ≤ p2.size := by simp only [Patch.cells, Bool.false_eq_true, if_false] at h2 ⊢; omega
  have hDs : D = deriv s 0 := by
    rw [hD, hex s hs, hb1, hb2, brk_pos _ _ _ (Or.inl rfl), brk_pos _ _ _ (Or.inl rfl), Nat.sub_zero]
  have i2 : ∀ i < p2.cells false, b2 i < b2 (i + 1) := fun i hi => by
    rw [hb2, hb2, dist_succ p2 hp2 i (by omega)]
    linarith [h_pos p2 hp2 i (by omega)]
  have i1 : ∀ i < p1.cells false, b1 i < b1 (i + 1) := fun i hi => by
    rw [hb1, hb1, show p1.cells false - i = p1.cells false - (i + 1) + 1 by omega, dist_succ p1 hp1 _ (by omega)]
    linarith [h_pos p1 hp1 (p1.cells false - (i + 1)) (by omega)]
  have e1 : b1 (p1.cells false) = 0 := by rw [hb1, Nat.sub_self, dist_itf, neg_zero]
  have e2 : b2 0 = 0 := by rw [hb2, dist_itf]
  refine ⟨fun q hq x hx => cubic_reproduced (by omega) i1 hs.smooth (fun i hi => ?_) hc1 (fun _ _ => rfl) rfl (by rw [e1]; exact hDs) q hq x hx,
    fun q hq x hx => cubic_reproduced (by omega) i2 hs.smooth (fun i hi => ?_) hc2 (fun _ _ => rfl) (by rw [e2]; exact hDs) rfl q hq x hx⟩
  · have := hs.left (p1.cells false - (i + 1)) (by omega)
    rw [brk_pos _ _ _ (Or.inl rfl), brk_pos _ _ _ (Or.inl rfl), ← hb1, show p1.cells false - (i + 1) + 1 = p1.cells false - i by omega, ← hb1] at this
    exact this
  · have := hs.right i hi
    rw [brk_pos _ _ _ (Or.inl rfl), brk_pos _ _ _ (Or.inl rfl), ← hb2, ← hb2] at this
    exact this

/-! ## Non-vacuity -/

/-- The hypotheses are met: 7 cells of unequal width with walls; the Hermite problem on the cells 2, 3 and 4 with the data of any spline of degree 5 has a solution, and every solution is the global spline. -/
example (c : ℕ → ℝ) :
    ∃ b c' : ℕ → ℝ, (∀ i < 7, b i < b (i + 1)) ∧ b 2 - b 1 ≠ b 1 - b 0 ∧ ∀ q < 3, ∀ k x, derivAt (clampedKnots 3 fun i => b (2 + i)) 5 8 q k x c' = derivAt (clampedKnots 7 b) 5 12 (2 + q) k x c := by
  obtain ⟨b, hb⟩ : ∃ b : ℕ → ℝ, b = fun i : ℕ => ((i : ℕ) : ℝ) ^ 2 := ⟨_, rfl⟩
  have hm : ∀ i < 7, b i < b (i + 1) := fun i _ => by rw [hb]; push_cast; nlinarith [(Nat.cast_nonneg i : (0 : ℝ) ≤ i)]
  obtain ⟨c', hc, -⟩ := c116_hermite_unique (n := 3) (e := 2) (b := fun i => b (2 + i)) (by norm_num) (fun i hi => hm (2 + i) (by omega))
    (fun q => if q < 3 then valueAt (clampedKnots 7 b) 5 12 (2 + q) (b (2 + q)) c else valueAt (clampedKnots 7 b) 5 12 4 (b 5) c)
    (fun k => derivAt (clampedKnots 7 b) 5 12 2 k (b 2) c) (fun k => derivAt (clampedKnots 7 b) 5 12 4 k (b 5) c)
  refine ⟨b, c', hm, by rw [hb]; norm_num, fun q hq k x => ?_⟩
  exact c119_restrict (n := 7) (e := 2) (m := 2) (n' := 3) (by norm_num) (by norm_num) hm c hc (fun q hq => if_pos hq) (if_neg (by norm_num)) (fun _ _ _ => rfl) (fun _ _ _ => rfl) q hq k x

open Verif.InterfaceDerivs in
/-- The two-patch theorem applies to two patches of unequal width, of 7 and 9 cells, and to a global spline on them. -/
example : ∃ p1 p2 : Patch, p1.Increasing ∧ p2.Increasing ∧ 3 ≤ p1.cells false ∧ 2 ≤ p2.cells false ∧ GlobalSpline p1 p2 false false (fun z => z ^ 2) :=
  ⟨exP1 7, exP2 9, fun _ _ _ h _ => exCubic_mono h, fun _ _ _ h _ => exCubic_mono h, by simp [Patch.cells, exP1], by simp [Patch.cells, exP2], square_spline _ _⟩

end

end Verif.SplineInterp
