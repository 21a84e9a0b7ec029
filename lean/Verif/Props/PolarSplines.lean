import Verif.Props.Bernstein
import Mathlib.Algebra.BigOperators.Intervals
import Mathlib.MeasureTheory.Integral.IntervalIntegral.Basic
import Mathlib.Tactic.FieldSimp
import Mathlib.Tactic.LinearCombination
import Mathlib.Tactic.IntervalCases

/-!
# C69: polar B-splines

A polar spline is a tensor product spline whose coefficients in the first `C + 1` rows are combinations of the singular coefficients. The specification is the tensor product spline `tensorEval`.
-/

namespace Verif.PolarSplines
open MathTools CoordTransforms Finset

/-- Value (or derivative) of the tensor product spline with coefficients `c`. -/
def tensorEval (degR degT : ℕ) (c : ℕ → ℕ → ℝ) (r t : Ev) : ℝ :=
  ∑ i ∈ range (degR + 1), ∑ j ∈ range (degT + 1), c (r.jmin + i) (t.jmin + j) * r.vals i * t.vals j

/-! ### Numbering -/

theorem wrapTheta_eq {n : ℕ} (hn : 0 < n) (t : ℕ) : wrapTheta n t = t % n := by
  induction t using Nat.strong_induction_on with
  | _ t ih =>
    rw [wrapTheta]
    split_ifs with h
    · rw [ih _ (by omega), ← Nat.mod_eq_sub_mod h.2]
    · rw [Nat.mod_eq_of_lt (by omega)]

/-- **C69** Polar index of a pair of indices and back: the pair with the poloidal index reduced to one period. -/
theorem c69_index_roundtrip (c1 nTheta r t : ℕ) (hn : 0 < nTheta) (hr : c1 ≤ r) :
    ∃ n, getPolarIndex c1 nTheta r t = some n ∧ get2dIndex c1 nTheta n = some (r, t % nTheta) := by
  have hm := Nat.mod_lt t hn
  refine ⟨nSingular c1 + ((r - c1) * nTheta + t % nTheta), ?_, ?_⟩
  · unfold getPolarIndex
    rw [wrapTheta_eq hn]
    dsimp only
    rw [if_pos (by omega), show ((r : ℤ) - c1).toNat = r - c1 by omega]
  · unfold get2dIndex
    rw [if_pos (by omega)]
    dsimp only
    have hd : ((r - c1) * nTheta + t % nTheta) / nTheta = r - c1 := by
      rw [add_comm, Nat.add_mul_div_right _ _ hn, Nat.div_eq_of_lt hm, zero_add]
    rw [Nat.add_sub_cancel_left, hd, Nat.add_sub_cancel_left, Nat.sub_add_cancel hr]

/-- **C69** Pair of a tensor product index and back: every index after the singular ones belongs to exactly one pair. -/
theorem c69_index_roundtrip' (c1 nTheta n : ℕ) (hn : 0 < nTheta) (hs : nSingular c1 ≤ n) :
    ∃ r t, get2dIndex c1 nTheta n = some (r, t) ∧ c1 ≤ r ∧ t < nTheta ∧ getPolarIndex c1 nTheta r t = some n := by
  have hdm := Nat.div_add_mod (n - nSingular c1) nTheta
  have hm := Nat.mod_lt (n - nSingular c1) hn
  have hc : nTheta * ((n - nSingular c1) / nTheta) = (n - nSingular c1) / nTheta * nTheta := Nat.mul_comm _ _
  refine ⟨(n - nSingular c1) / nTheta + c1, (n - nSingular c1) % nTheta, ?_, Nat.le_add_left _ _, hm, ?_⟩
  · unfold get2dIndex
    rw [if_pos hs]
    dsimp only
    congr 2
    omega
  · unfold getPolarIndex
    rw [wrapTheta_eq hn, Nat.mod_mod]
    dsimp only
    generalize (n - nSingular c1) / nTheta = q at *
    rw [if_pos (by omega), show (((q + c1 : ℕ) : ℤ) - c1).toNat = q by omega]
    congr 1
    omega

/-- **C69** The indices of the basis functions are exactly `[0, nbasis)`: a pair with radial index below `nR` has an index in the range. -/
theorem c69_index_range (c1 nTheta nR r t : ℕ) (hn : 0 < nTheta) (hr : c1 ≤ r) (n : ℕ) (h : getPolarIndex c1 nTheta r t = some n) (hR : c1 ≤ nR) :
    r < nR ↔ n < nbasis c1 nR nTheta := by
  have hm := Nat.mod_lt t hn
  unfold getPolarIndex at h
  rw [wrapTheta_eq hn] at h
  dsimp only at h
  rw [if_pos (by omega), show ((r : ℤ) - c1).toNat = r - c1 by omega, Option.some.injEq] at h
  subst h
  unfold nbasis
  rw [Nat.add_lt_add_iff_left]
  constructor
  · intro h
    calc (r - c1) * nTheta + t % nTheta < (r - c1) * nTheta + nTheta := by omega
      _ = (r - c1 + 1) * nTheta := by ring
      _ ≤ (nR - c1) * nTheta := Nat.mul_le_mul_right _ (by omega)
  · intro h
    by_contra hc
    have := Nat.mul_le_mul_right nTheta (show nR - c1 ≤ r - c1 by omega)
    omega

example : getPolarIndex 2 8 3 10 = some 13 ∧ get2dIndex 2 8 13 = some (3, 2) ∧ nbasis 2 6 8 = 35 := by
  refine ⟨?_, by decide, by decide⟩
  unfold getPolarIndex; rw [wrapTheta_eq (by norm_num)]; decide

/-! ### Evaluation -/

theorem foldl_add (f : ℕ → ℝ) (n : ℕ) (a : ℝ) : (List.range n).foldl (fun s i => s + f i) a = a + ∑ i ∈ range n, f i := by
  induction n with
  | zero => simp
  | succ n ih => rw [List.range_succ, List.foldl_append, ih, Finset.sum_range_succ]; simp [add_assoc]

theorem foldl_add2 (f : ℕ → ℕ → ℝ) (n m : ℕ) (a : ℝ) :
    (List.range n).foldl (fun s i => (List.range m).foldl (fun s j => s + f i j) s) a = a + ∑ i ∈ range n, ∑ j ∈ range m, f i j := by
  simp only [foldl_add]

theorem foldlM_add (step : ℝ → ℕ → Option ℝ) (g : ℕ → ℝ) (n : ℕ) (h : ∀ y, ∀ i < n, step y i = some (y + g i)) (y : ℝ) :
    (List.range n).foldlM step y = some (y + ∑ i ∈ range n, g i) := by
  induction n with
  | zero => simp
  | succ n ih =>
    rw [List.range_succ, List.foldlM_append, ih fun y i hi => h y i (by omega), Finset.sum_range_succ]
    simp [h _ n (by omega), add_assoc]

theorem get2d_first (c1 nTheta : ℕ) : get2dIndex c1 nTheta (nSingular c1) = some (c1, 0) := by
  simp [get2dIndex]

theorem get2d_last (c1 nTheta nR : ℕ) (hn : 0 < nTheta) (hR : c1 < nR) :
    get2dIndex c1 nTheta (nSingular c1 + (nbasis c1 nR nTheta - nSingular c1) - 1) = some (nR - 1, nTheta - 1) := by
  unfold nbasis
  rw [Nat.add_sub_cancel_left]
  obtain ⟨m, rfl⟩ : ∃ m, nR = c1 + m + 1 := ⟨nR - c1 - 1, by omega⟩
  have e : (c1 + m + 1 - c1) * nTheta = m * nTheta + nTheta := by rw [show c1 + m + 1 - c1 = m + 1 by omega]; ring
  rw [e]
  unfold get2dIndex
  rw [if_pos (by omega)]
  dsimp only
  rw [show nSingular c1 + (m * nTheta + nTheta) - 1 - nSingular c1 = (nTheta - 1) + m * nTheta by omega, Nat.add_mul_div_right _ _ hn, Nat.div_eq_of_lt (by omega), zero_add, Nat.add_sub_cancel]
  congr 2
  omega

theorem coef2d_eq (c1 nTheta nR : ℕ) (hn : 0 < nTheta) (hR : c1 < nR) (coef : ℕ → ℝ) (r t : ℕ) (hr : c1 ≤ r) (ht : t < nTheta) :
    coef2d c1 nTheta (nbasis c1 nR nTheta) coef r t = if r < nR then some (coef (nSingular c1 + ((r - c1) * nTheta + t))) else none := by
  unfold coef2d
  rw [get2d_first, get2d_last c1 nTheta nR hn hR]
  dsimp only
  have e1 : nR - 1 - c1 + 1 = nR - c1 := by omega
  have e2 : nTheta - 1 - 0 + 1 = nTheta := by omega
  rw [e1, e2]
  have e3 : (nR - c1) * nTheta = nbasis c1 nR nTheta - nSingular c1 := by unfold nbasis; omega
  split_ifs with h1 h2 h2
  · rfl
  · omega
  · exact absurd ⟨e3, ⟨hr, by omega⟩, by omega, by omega⟩ h1
  · rfl

theorem thetaRange_eq (c1 nTheta nR : ℕ) (hn : 0 < nTheta) (hR : c1 < nR) : thetaRange c1 nTheta (nbasis c1 nR nTheta) = (nTheta - 1, nTheta) := by
  unfold thetaRange
  rw [get2d_first, get2d_last c1 nTheta nR hn hR]
  dsimp only
  congr 1
  omega

/-- The coefficients of the tensor product spline which a polar spline is: combinations of the singular coefficients in the first rows, the coefficients numbered by pairs in the others. -/
def tensorCoef (c1 nTheta : ℕ) (elem : ℕ → ℕ → ℕ → ℝ) (coef : ℕ → ℝ) (i j : ℕ) : ℝ :=
  if i < c1 then ∑ k ∈ range (nSingular c1), coef k * elem k i j else coef (nSingular c1 + ((i - c1) * nTheta + j % nTheta))

/-- **C69** Evaluation: without reading outside of the coefficients, the value (or derivative) of a polar spline is that of the tensor product spline with the coefficients `tensorCoef`, for all degrees, numbers of cells,
coefficients and points, provided that there is at least one radial cell more than rows in the singular part. -/
theorem c69_eval (c1 degR degT nR nTheta : ℕ) (elem : ℕ → ℕ → ℕ → ℝ) (coef : ℕ → ℝ) (r t : Ev)
    (hcells : c1 + degR < nR) (hc : c1 ≤ degR + 1) (hr : r.jmin + degR < nR) (hn : 0 < nTheta) (hdeg : degT ≤ nTheta) (ht : t.jmin < nTheta) :
    evalNoBc c1 degR degT nTheta (nbasis c1 nR nTheta) elem coef r t = some (tensorEval degR degT (tensorCoef c1 nTheta elem coef) r t) := by
  unfold evalNoBc
  rw [thetaRange_eq c1 nTheta nR hn (by omega)]
  dsimp only
  set v := eval c1 degR degT elem r t with hv
  have hjr : c1 ≤ v.jr ∧ v.jr + degR < nR := by
    simp only [hv, eval]; split_ifs <;> omega
  have hjt : v.jt = t.jmin := rfl
  have hidx : ∀ j < degT + 1, (if v.jt + j > nTheta - 1 then v.jt + j - nTheta else v.jt + j) = (t.jmin + j) % nTheta := by
    intro j hj
    rw [hjt]
    split_ifs with h
    · rw [Nat.mod_eq_sub_mod (by omega), Nat.mod_eq_of_lt (by omega)]
    · rw [Nat.mod_eq_of_lt (by omega)]
  rw [foldlM_add (g := fun i => ∑ j ∈ range (degT + 1), coef (nSingular c1 + ((v.jr + i - c1) * nTheta + (t.jmin + j) % nTheta)) * v.values i j)]
  · congr 1
    rw [foldl_add, zero_add]
    unfold tensorEval
    by_cases hs : r.jmin < c1
    · have hnd : ∀ i, r.jmin + (c1 - r.jmin + i) = c1 + i := fun i => by omega
      have e1 : degR + 1 = (c1 - r.jmin) + (degR + 1 - (c1 - r.jmin)) := by omega
      have e2 : degR + 1 = (degR + 1 - (c1 - r.jmin)) + (c1 - r.jmin) := by omega
      have hval : ∀ i j, v.values i j = if i < degR + 1 - (c1 - r.jmin) then r.vals (i + (c1 - r.jmin)) * t.vals j else 0 := by
        simp [hv, eval, hs]
      have hsing : v.singular = fun k => ∑ i ∈ range (c1 - r.jmin), ∑ j ∈ range (degT + 1), elem k (r.jmin + i) (t.jmin + j) * r.vals i * t.vals j := by
        funext k
        simp only [hv, eval, hs, if_true]
        rw [foldl_add2, zero_add]
      have hjr' : v.jr = c1 := by simp [hv, eval, hs]
      conv_rhs => rw [e1, Finset.sum_range_add]
      congr 1
      · rw [hsing]
        simp only [Finset.mul_sum]
        rw [Finset.sum_comm]
        refine Finset.sum_congr rfl fun i hi => ?_
        rw [Finset.sum_comm]
        refine Finset.sum_congr rfl fun j _ => ?_
        rw [Finset.mem_range] at hi
        unfold tensorCoef
        rw [if_pos (by omega), Finset.sum_mul, Finset.sum_mul]
        exact Finset.sum_congr rfl fun k _ => by ring
      · conv_lhs => rw [e2, Finset.sum_range_add]
        rw [Finset.sum_eq_zero (s := range (c1 - r.jmin)), add_zero]
        · refine Finset.sum_congr rfl fun i hi => Finset.sum_congr rfl fun j _ => ?_
          rw [Finset.mem_range] at hi
          unfold tensorCoef
          rw [hval, hjr', hnd, if_pos hi, if_neg (by omega), add_comm i]
          ring
        · intro i _
          refine Finset.sum_eq_zero fun j _ => ?_
          rw [hval, if_neg (by omega), mul_zero]
    · have hval : ∀ i j, v.values i j = if i < degR + 1 then r.vals i * t.vals j else 0 := by
        simp [hv, eval, hs]
      have hsing : v.singular = fun _ => 0 := by
        funext k; simp [hv, eval, hs]
      have hjr' : v.jr = r.jmin := by simp [hv, eval, hs]
      rw [hsing, Finset.sum_eq_zero (fun _ _ => by rw [mul_zero]), zero_add]
      refine Finset.sum_congr rfl fun i hi => Finset.sum_congr rfl fun j _ => ?_
      rw [Finset.mem_range] at hi
      unfold tensorCoef
      rw [hval, hjr', if_pos hi, if_neg (by omega)]
      ring
  · intro y i hi
    refine foldlM_add _ _ _ (fun y j hj => ?_) y
    rw [hidx j hj, coef2d_eq c1 nTheta nR hn (by omega) coef _ _ (by omega) (Nat.mod_lt _ hn), if_pos (by omega)]

/-- **C69** The condition on the number of cells is needed: with exactly `C + 1` radial cells, evaluating in the innermost cell reads outside of the coefficients. -/
theorem c69_too_few_cells (c1 degR degT nTheta : ℕ) (elem : ℕ → ℕ → ℕ → ℝ) (coef : ℕ → ℝ) (r t : Ev)
    (hr : r.jmin < c1) (hd : 0 < degR) (hn : 0 < nTheta) (ht : t.jmin < nTheta) :
    evalNoBc c1 degR degT nTheta (nbasis c1 (c1 + degR) nTheta) elem coef r t = none := by
  unfold evalNoBc
  rw [thetaRange_eq c1 nTheta _ hn (by omega)]
  dsimp only
  rw [List.range_succ (n := degR), List.foldlM_append]
  have hjr : (eval c1 degR degT elem r t).jr = c1 := by simp [eval, hr]
  have hjt : (eval c1 degR degT elem r t).jt = t.jmin := rfl
  have hfin : ∀ y : ℝ, List.foldlM (fun y i => List.foldlM (fun y j =>
      match coef2d c1 nTheta (nbasis c1 (c1 + degR) nTheta) coef ((eval c1 degR degT elem r t).jr + i)
        (if (eval c1 degR degT elem r t).jt + j > nTheta - 1 then (eval c1 degR degT elem r t).jt + j - nTheta else (eval c1 degR degT elem r t).jt + j) with
      | some c => some (y + c * (eval c1 degR degT elem r t).values i j)
      | none => none) y (List.range (degT + 1))) y [degR] = none := by
    intro y
    rw [List.foldlM_cons, List.range_succ_eq_map, List.foldlM_cons, hjr, hjt, add_zero, if_neg (by omega), coef2d_eq c1 nTheta _ hn (by omega) _ _ _ (by omega) ht, if_neg (by omega)]
    rfl
  cases h : List.foldlM (fun y i => List.foldlM (fun y j =>
      match coef2d c1 nTheta (nbasis c1 (c1 + degR) nTheta) coef ((eval c1 degR degT elem r t).jr + i)
        (if (eval c1 degR degT elem r t).jt + j > nTheta - 1 then (eval c1 degR degT elem r t).jt + j - nTheta else (eval c1 degR degT elem r t).jt + j) with
      | some c => some (y + c * (eval c1 degR degT elem r t).values i j)
      | none => none) y (List.range (degT + 1)))
      ((List.range (nSingular c1)).foldl (fun y i => y + coef i * (eval c1 degR degT elem r t).singular i) 0) (List.range degR) with
  | none => rfl
  | some y => exact hfin y

/-- The hypotheses of the evaluation theorem hold e.g. with continuity 1, cubic splines, 4 radial cells and 8 poloidal ones. -/
example : (2 : ℕ) + 3 < 4 + 3 ∧ 2 ≤ 3 + 1 ∧ 3 ≤ 8 := by decide

/-- **C69** A polar spline is linear in its coefficients. -/
theorem c69_linear (c1 degR degT nTheta : ℕ) (elem : ℕ → ℕ → ℕ → ℝ) (a b : ℕ → ℝ) (k : ℝ) (r t : Ev) :
    tensorEval degR degT (tensorCoef c1 nTheta elem fun i => k * a i + b i) r t
      = k * tensorEval degR degT (tensorCoef c1 nTheta elem a) r t + tensorEval degR degT (tensorCoef c1 nTheta elem b) r t := by
  unfold tensorEval
  simp only [Finset.mul_sum, ← Finset.sum_add_distrib]
  refine Finset.sum_congr rfl fun i _ => Finset.sum_congr rfl fun j _ => ?_
  unfold tensorCoef
  split_ifs with h
  · have : ∑ x ∈ range (nSingular c1), (k * a x + b x) * elem x (r.jmin + i) (t.jmin + j)
        = k * ∑ x ∈ range (nSingular c1), a x * elem x (r.jmin + i) (t.jmin + j) + ∑ x ∈ range (nSingular c1), b x * elem x (r.jmin + i) (t.jmin + j) := by
      rw [Finset.mul_sum, ← Finset.sum_add_distrib]
      exact Finset.sum_congr rfl fun x _ => by ring
    rw [this]; ring
  · ring

/-! ### The triangle -/

theorem tau_step (x0 y0 : ℝ) (l : List (ℝ × ℝ)) :
    0 ≤ tau x0 y0 l ∧ ∀ p ∈ l, -2 * (p.1 - x0) ≤ tau x0 y0 l ∧ p.1 - x0 - Real.sqrt 3 * (p.2 - y0) ≤ tau x0 y0 l ∧ p.1 - x0 + Real.sqrt 3 * (p.2 - y0) ≤ tau x0 y0 l := by
  unfold tau
  norm_num only
  suffices h : ∀ init : ℝ, init ≤ l.foldl _ init ∧ ∀ p ∈ l, -2 * (p.1 - x0) ≤ l.foldl _ init ∧ p.1 - x0 - Real.sqrt 3 * (p.2 - y0) ≤ l.foldl _ init
      ∧ p.1 - x0 + Real.sqrt 3 * (p.2 - y0) ≤ l.foldl _ init from h 0
  induction l with
  | nil => intro init; simp
  | cons q l ih =>
    intro init
    rw [List.foldl_cons]
    set s := (let tau := if init > -2 * (q.1 - x0) then init else -2 * (q.1 - x0)
      let tau := if tau > q.1 - x0 - Real.sqrt 3 * (q.2 - y0) then tau else q.1 - x0 - Real.sqrt 3 * (q.2 - y0)
      if tau > q.1 - x0 + Real.sqrt 3 * (q.2 - y0) then tau else q.1 - x0 + Real.sqrt 3 * (q.2 - y0)) with hs
    have hs' : init ≤ s ∧ -2 * (q.1 - x0) ≤ s ∧ q.1 - x0 - Real.sqrt 3 * (q.2 - y0) ≤ s ∧ q.1 - x0 + Real.sqrt 3 * (q.2 - y0) ≤ s := by
      rw [hs]
      dsimp only
      split_ifs <;> refine ⟨?_, ?_, ?_, ?_⟩ <;> linarith
    obtain ⟨h1, h2⟩ := ih s
    refine ⟨hs'.1.trans h1, fun p hp => ?_⟩
    rcases List.mem_cons.mp hp with rfl | hp
    · exact ⟨hs'.2.1.trans h1, hs'.2.2.1.trans h1, hs'.2.2.2.trans h1⟩
    · exact h2 p hp

theorem triangle_proper {x0 y0 ta : ℝ} (h : ta ≠ 0) : Proper (triangle x0 y0 ta) := by
  unfold Proper triangle
  dsimp only
  have h3 : Real.sqrt 3.0 ≠ 0 := by rw [Real.sqrt_ne_zero (by norm_num)]; norm_num
  have e : (x0 + ta - (x0 - 0.5 * ta)) * (y0 + 0.5 * ta * Real.sqrt 3.0 - (y0 - 0.5 * ta * Real.sqrt 3.0)) - (x0 - 0.5 * ta - (x0 - 0.5 * ta)) * (y0 - (y0 - 0.5 * ta * Real.sqrt 3.0))
      = 3 / 2 * ta * ta * Real.sqrt 3.0 := by ring
  rw [e]
  positivity

/-- **C69** The triangle of the constructor is not degenerate as soon as one control point of the second row is not the O-point, and it contains the O-point and all control points of the second row. -/
theorem c69_triangle (x0 y0 : ℝ) (row1 : List (ℝ × ℝ)) (h : ∃ p ∈ row1, p ≠ (x0, y0)) :
    Proper (triangle x0 y0 (tau x0 y0 row1)) ∧
    ∀ p, p = (x0, y0) ∨ p ∈ row1 → ∃ a b c, 0 ≤ a ∧ 0 ≤ b ∧ 0 ≤ c ∧ a + b + c = 1 ∧ p = point (triangle x0 y0 (tau x0 y0 row1)) a b c := by
  obtain ⟨h0, hl⟩ := tau_step x0 y0 row1
  set ta := tau x0 y0 row1
  have h3 : 0 < Real.sqrt 3 := Real.sqrt_pos.mpr (by norm_num)
  have h33 : Real.sqrt 3 * Real.sqrt 3 = 3 := Real.mul_self_sqrt (by norm_num)
  have hpos : 0 < ta := by
    obtain ⟨p, hp, hne⟩ := h
    obtain ⟨h1, h2, h4⟩ := hl p hp
    rcases h0.lt_or_eq with hlt | heq
    · exact hlt
    · exfalso
      rw [← heq] at h1 h2 h4
      have hx : p.1 - x0 = 0 := by linarith
      rw [hx] at h2 h4
      have hy : p.2 - y0 = 0 := by nlinarith
      exact hne (Prod.ext (by linarith) (by linarith))
  refine ⟨triangle_proper hpos.ne', fun p hp => ?_⟩
  have hb : -2 * (p.1 - x0) ≤ ta ∧ p.1 - x0 - Real.sqrt 3 * (p.2 - y0) ≤ ta ∧ p.1 - x0 + Real.sqrt 3 * (p.2 - y0) ≤ ta := by
    rcases hp with rfl | hp
    · simp [hpos.le]
    · exact hl p hp
  refine ⟨(ta + 2 * (p.1 - x0)) / (3 * ta), (ta - (p.1 - x0) + Real.sqrt 3 * (p.2 - y0)) / (3 * ta), (ta - (p.1 - x0) - Real.sqrt 3 * (p.2 - y0)) / (3 * ta),
    div_nonneg (by linarith) (by linarith), div_nonneg (by linarith) (by linarith), div_nonneg (by linarith) (by linarith), ?_, ?_⟩
  · field_simp; ring
  · have e3 : (3.0 : ℝ) = 3 := by norm_num
    have e5 : (0.5 : ℝ) = 1 / 2 := by norm_num
    unfold point triangle
    rw [e3, e5]
    refine Prod.ext ?_ ?_
    · dsimp only
      field_simp
      ring
    · dsimp only
      field_simp
      linear_combination (-2 * ta * (p.2 - y0)) * h33

/-- Instance: four control points around the origin. -/
example : ∃ p ∈ [((1 : ℝ), (0 : ℝ)), (0, 1), (-1, 0), (0, -1)], p ≠ (0, 0) := ⟨(1, 0), by simp, by simp⟩

/-! ### The singular part -/

theorem elem_eq (c1 nTheta : ℕ) (t : Triangle ℝ) (cp : ℕ → ℕ → ℝ × ℝ) (k i j : ℕ) (hj : j < 2 * nTheta) :
    singularElem c1 nTheta t cp k i j = ((evalBasis (c1 - 1) t (cp i (j % nTheta)))[k]?).getD 0 := by
  unfold singularElem
  dsimp only
  split_ifs with h
  · rw [Nat.mod_eq_of_lt h]
  · rw [Nat.mod_eq_sub_mod (by omega), Nat.mod_eq_of_lt (by omega)]

theorem getD_sum (l : List ℝ) (g : ℕ → ℝ) : ∑ k ∈ range l.length, g k * (l[k]?).getD 0 = ((List.range l.length).map fun k => g k * (l[k]?).getD 0).sum := by
  rw [sum_range_list]

theorem sum_getD (l : List ℝ) : ∑ k ∈ range l.length, (l[k]?).getD 0 = l.sum := by
  induction l with
  | nil => simp
  | cons a l ih => rw [List.length_cons, Finset.sum_range_succ']; simp [ih, add_comm]

/-- **C69** In the singular rows the elements sum to one at each control point, for continuity `0` and `1`. -/
theorem c69_elements_sum (c1 nTheta : ℕ) (hc : 1 ≤ c1) (hc' : c1 ≤ 21) (t : Triangle ℝ) (ht : Proper t) (cp : ℕ → ℕ → ℝ × ℝ) (i j : ℕ) (hj : j < 2 * nTheta) :
    ∑ k ∈ range (nSingular c1), singularElem c1 nTheta t cp k i j = 1 := by
  simp only [elem_eq c1 nTheta t cp _ i j hj]
  have hn := c55_number (c1 - 1) t (cp i (j % nTheta))
  have : nSingular c1 = (evalBasis (c1 - 1) t (cp i (j % nTheta))).length := by
    rw [hn, Nat.sub_add_cancel hc, show c1 - 1 + 2 = c1 + 1 by omega]; rfl
  rw [this, sum_getD, c55_partition (by omega) t ht]

/-- **C69** Partition of unity: the polar spline with all coefficients one is the product of the sums of the 1D basis functions: `1` for values, `0` for derivatives. -/
theorem c69_partition (c1 degR degT nTheta : ℕ) (hc' : c1 ≤ 21) (tr : Triangle ℝ) (htr : Proper tr) (cp : ℕ → ℕ → ℝ × ℝ) (r t : Ev)
    (hdeg : degT ≤ nTheta) (ht : t.jmin < nTheta) :
    tensorEval degR degT (tensorCoef c1 nTheta (singularElem c1 nTheta tr cp) fun _ => 1) r t = (∑ i ∈ range (degR + 1), r.vals i) * ∑ j ∈ range (degT + 1), t.vals j := by
  unfold tensorEval
  rw [Finset.sum_mul]
  refine Finset.sum_congr rfl fun i _ => ?_
  rw [Finset.mul_sum]
  refine Finset.sum_congr rfl fun j hj => ?_
  rw [Finset.mem_range] at hj
  have : tensorCoef c1 nTheta (singularElem c1 nTheta tr cp) (fun _ => 1) (r.jmin + i) (t.jmin + j) = 1 := by
    unfold tensorCoef
    split_ifs with h
    · simp only [one_mul]
      exact c69_elements_sum c1 nTheta (by omega) hc' tr htr cp _ _ (by omega)
    · rfl
  rw [this, one_mul]

/-- **C69** With the constructor's elements, continuity at most 1 and non-negative 1D B-splines, all polar B-splines are non-negative, if the first row of control points is at the O-point. -/
theorem c69_nonneg (c1 degR degT nTheta sizeTheta : ℕ) (hc : c1 ≤ 2) (x0 y0 : ℝ) (cp : ℕ → ℕ → ℝ × ℝ) (h0 : ∀ j, cp 0 j = (x0, y0)) (hs : nTheta ≤ sizeTheta)
    (hne : ∃ j < sizeTheta, cp 1 j ≠ (x0, y0)) (hdeg : degT ≤ nTheta) (r t : Ev) (ht : t.jmin < nTheta) (hr0 : ∀ i, 0 ≤ r.vals i) (ht0 : ∀ j, 0 ≤ t.vals j) :
    let v := eval c1 degR degT (constructor c1 nTheta sizeTheta x0 y0 cp) r t
    (∀ k, 0 ≤ v.singular k) ∧ ∀ i j, 0 ≤ v.values i j := by
  intro v
  obtain ⟨htr, hin⟩ := c69_triangle x0 y0 ((List.range sizeTheta).map (cp 1)) (by
    obtain ⟨j, hj, h⟩ := hne
    exact ⟨cp 1 j, List.mem_map.mpr ⟨j, List.mem_range.mpr hj, rfl⟩, h⟩)
  have hel : ∀ k i j, i < c1 → j < 2 * nTheta → 0 ≤ constructor c1 nTheta sizeTheta x0 y0 cp k i j := by
    intro k i j hi hj
    unfold constructor
    rw [elem_eq _ _ _ _ _ _ _ hj]
    have hm := Nat.mod_lt j (show 0 < nTheta by omega)
    obtain ⟨a, b, c, ha, hb, hcc, hsum, hp⟩ := hin (cp i (j % nTheta)) (by
      rcases (by omega : i = 0 ∨ i = 1) with rfl | rfl
      · exact Or.inl (h0 _)
      · exact Or.inr (List.mem_map.mpr ⟨_, List.mem_range.mpr (by omega), rfl⟩))
    have := c55_nonneg (show c1 - 1 ≤ 20 by omega) _ htr a b c hsum ha hb hcc
    rw [← hp] at this
    cases hq : (evalBasis (c1 - 1) (triangle x0 y0 (tau x0 y0 ((List.range sizeTheta).map (cp 1)))) (cp i (j % nTheta)))[k]? with
    | none => simp
    | some y => exact this y (List.mem_of_getElem? hq)
  refine ⟨fun k => ?_, fun i j => ?_⟩
  · simp only [v, eval]
    split_ifs with h
    · rw [foldl_add2, zero_add]
      refine Finset.sum_nonneg fun i hi => Finset.sum_nonneg fun j hj => ?_
      rw [Finset.mem_range] at hi hj
      exact mul_nonneg (mul_nonneg (hel k _ _ (by omega) (by omega)) (hr0 i)) (ht0 j)
    · exact le_rfl
  · simp only [v, eval]
    split_ifs
    all_goals first | exact le_rfl | exact mul_nonneg (hr0 _) (ht0 _)

/-- **C69** Continuity 0: the singular basis function takes the value of its coefficient in the whole first row; so at the O-point, where only the first radial B-spline is non-zero, the spline has one value whatever the
poloidal coordinate. -/
theorem c69_continuous (degR degT nTheta : ℕ) (tr : Triangle ℝ) (htr : Proper tr) (cp : ℕ → ℕ → ℝ × ℝ) (coef : ℕ → ℝ) (r t : Ev) (hdeg : degT ≤ nTheta) (ht : t.jmin < nTheta)
    (hr : r.jmin = 0) (hr0 : ∀ i, 0 < i → r.vals i = 0) :
    tensorEval degR degT (tensorCoef 1 nTheta (singularElem 1 nTheta tr cp) coef) r t = coef 0 * r.vals 0 * ∑ j ∈ range (degT + 1), t.vals j := by
  unfold tensorEval
  rw [Finset.sum_eq_single 0]
  · rw [Finset.mul_sum]
    refine Finset.sum_congr rfl fun j hj => ?_
    rw [Finset.mem_range] at hj
    unfold tensorCoef
    have h := c69_elements_sum 1 nTheta le_rfl (by norm_num) tr htr cp 0 (t.jmin + j) (by omega)
    have hs : nSingular 1 = 1 := by decide
    rw [hs, Finset.sum_range_one] at h
    rw [hr, if_pos (by norm_num), hs, Finset.sum_range_one, add_zero, h, mul_one]
  · intro i _ hi
    exact Finset.sum_eq_zero fun j _ => by rw [hr0 i (by omega)]; ring
  · simp

/-- The affine function which takes the values `c1, c2, c3` at the corners. -/
theorem affine_exists (t : Triangle ℝ) (ht : Proper t) (v1 v2 v3 : ℝ) :
    ∃ c gx gy : ℝ, ∀ a b d : ℝ, a + b + d = 1 → v1 * a + v2 * b + v3 * d = c + gx * (point t a b d).1 + gy * (point t a b d).2 := by
  set D := (t.x1 - t.x3) * (t.y2 - t.y3) - (t.x2 - t.x3) * (t.y1 - t.y3) with hD
  have hD0 : D ≠ 0 := ht
  set gx := ((v1 - v3) * (t.y2 - t.y3) - (v2 - v3) * (t.y1 - t.y3)) / D with hgx
  set gy := ((t.x1 - t.x3) * (v2 - v3) - (t.x2 - t.x3) * (v1 - v3)) / D with hgy
  have e1 : gx * (t.x1 - t.x3) + gy * (t.y1 - t.y3) = v1 - v3 := by
    rw [hgx, hgy, div_mul_eq_mul_div, div_mul_eq_mul_div, ← add_div, div_eq_iff hD0, hD]; ring
  have e2 : gx * (t.x2 - t.x3) + gy * (t.y2 - t.y3) = v2 - v3 := by
    rw [hgx, hgy, div_mul_eq_mul_div, div_mul_eq_mul_div, ← add_div, div_eq_iff hD0, hD]; ring
  refine ⟨v3 - gx * t.x3 - gy * t.y3, gx, gy, fun a b d h => ?_⟩
  have hd : d = 1 - a - b := by linarith
  subst hd
  unfold point
  dsimp only
  linear_combination (-a) * e1 - b * e2

/-- The singular coefficients of continuity 1, third, second and first corner. -/
theorem tensorCoef_row (nTheta : ℕ) (tr : Triangle ℝ) (htr : Proper tr) (cp : ℕ → ℕ → ℝ × ℝ) (coef : ℕ → ℝ) (i j : ℕ) (hi : i < 2) (hj : j < 2 * nTheta) :
    ∃ a b d, a + b + d = 1 ∧ cp i (j % nTheta) = point tr a b d ∧ tensorCoef 2 nTheta (singularElem 2 nTheta tr cp) coef i j = coef 2 * a + coef 1 * b + coef 0 * d := by
  obtain ⟨a, b, d, h, hp⟩ := exists_bary tr htr (cp i (j % nTheta))
  refine ⟨a, b, d, h, hp, ?_⟩
  unfold tensorCoef
  have hs : nSingular 2 = 3 := by decide
  rw [if_pos hi, hs]
  simp only [elem_eq 2 nTheta tr cp _ i j hj, hp, show 2 - 1 = 1 from rfl, c55_degree_one tr htr a b d h, Finset.sum_range_succ, Finset.sum_range_zero]
  simp
  ring

/-- **C69** Continuity 1: there is one affine function of the physical coordinates such that, at the O-point, the value and the first derivatives of the polar spline are those of this function composed with the mapping
(whose control points are `cp`). So value and physical gradient at the O-point do not depend on the poloidal coordinate. `r` is any evaluation in which only the first two radial B-splines occur, as values and first
derivatives at the O-point. -/
theorem c69_smooth (degR degT nTheta : ℕ) (tr : Triangle ℝ) (htr : Proper tr) (cp : ℕ → ℕ → ℝ × ℝ) (hcp : ∀ i j, cp i (j % nTheta) = cp i j) (coef : ℕ → ℝ) (hdeg : degT ≤ nTheta) :
    ∃ c gx gy : ℝ, ∀ r t : Ev, t.jmin < nTheta → r.jmin = 0 → (∀ i, 2 ≤ i → r.vals i = 0) →
      tensorEval degR degT (tensorCoef 2 nTheta (singularElem 2 nTheta tr cp) coef) r t =
        c * tensorEval degR degT (fun _ _ => 1) r t + gx * tensorEval degR degT (fun i j => (cp i j).1) r t + gy * tensorEval degR degT (fun i j => (cp i j).2) r t := by
  obtain ⟨c, gx, gy, hA⟩ := affine_exists tr htr (coef 2) (coef 1) (coef 0)
  refine ⟨c, gx, gy, fun r t ht hr hr0 => ?_⟩
  unfold tensorEval
  simp only [Finset.mul_sum, ← Finset.sum_add_distrib]
  refine Finset.sum_congr rfl fun i _ => Finset.sum_congr rfl fun j hj => ?_
  rw [Finset.mem_range] at hj
  by_cases hi : i < 2
  · obtain ⟨a, b, d, h1, h2, h3⟩ := tensorCoef_row nTheta tr htr cp coef (r.jmin + i) (t.jmin + j) (by omega) (by omega)
    rw [h3, hA a b d h1, ← hcp, h2]
    ring
  · rw [hr0 i (by omega)]; ring

/-- Instance: the slope of linear radial splines at the O-point, at two different poloidal positions, with a mapping whose second row of control points is not at the O-point. -/
example : let r : Ev := ⟨0, fun i => if i = 0 then -1 else if i = 1 then 1 else 0⟩
    let t : Ev := ⟨3, fun _ => 1 / 2⟩
    Proper (triangle 0 0 1) ∧ t.jmin < 4 ∧ r.jmin = 0 ∧ (∀ i, 2 ≤ i → r.vals i = 0) := by
  refine ⟨triangle_proper (by norm_num), by norm_num, rfl, fun i hi => ?_⟩
  dsimp only
  rw [if_neg (by omega), if_neg (by omega)]

/-- **C69** Continuity 1: affine functions of the physical coordinates are in the space: with the values of the function at the corners and at the control points as coefficients, the polar spline is the function composed with
the mapping, at every point and for every derivative. -/
theorem c69_reproduces_affine (degR degT nTheta : ℕ) (tr : Triangle ℝ) (htr : Proper tr) (cp : ℕ → ℕ → ℝ × ℝ) (hcp : ∀ i j, cp i (j % nTheta) = cp i j) (hdeg : degT ≤ nTheta) (c gx gy : ℝ) (coef : ℕ → ℝ)
    (h0 : coef 0 = c + gx * tr.x3 + gy * tr.y3) (h1 : coef 1 = c + gx * tr.x2 + gy * tr.y2) (h2 : coef 2 = c + gx * tr.x1 + gy * tr.y1)
    (hcoef : ∀ i j n, 2 ≤ i → getPolarIndex 2 nTheta i j = some n → coef n = c + gx * (cp i j).1 + gy * (cp i j).2) (r t : Ev) (ht : t.jmin < nTheta) :
    tensorEval degR degT (tensorCoef 2 nTheta (singularElem 2 nTheta tr cp) coef) r t =
      c * tensorEval degR degT (fun _ _ => 1) r t + gx * tensorEval degR degT (fun i j => (cp i j).1) r t + gy * tensorEval degR degT (fun i j => (cp i j).2) r t := by
  unfold tensorEval
  simp only [Finset.mul_sum, ← Finset.sum_add_distrib]
  refine Finset.sum_congr rfl fun i _ => Finset.sum_congr rfl fun j hj => ?_
  rw [Finset.mem_range] at hj
  by_cases hi : r.jmin + i < 2
  · obtain ⟨a, b, d, e1, e2, e3⟩ := tensorCoef_row nTheta tr htr cp coef (r.jmin + i) (t.jmin + j) hi (by omega)
    rw [e3, h0, h1, h2, ← hcp, e2]
    unfold point
    dsimp only
    have : d = 1 - a - b := by linarith
    subst this
    ring
  · have hg : getPolarIndex 2 nTheta (r.jmin + i) (t.jmin + j) = some (nSingular 2 + ((r.jmin + i - 2) * nTheta + (t.jmin + j) % nTheta)) := by
      unfold getPolarIndex
      rw [wrapTheta_eq (by omega)]
      dsimp only
      rw [if_pos (by omega)]
      congr 4
      omega
    have := hcoef _ _ _ (by omega) hg
    unfold tensorCoef
    rw [if_neg hi, this]
    ring

/-! ### The evaluator -/

/-- **C69** Outside of the domain in the radial direction the boundary condition is used. -/
theorem c69_outer (c1 degR degT nTheta size : ℕ) (elem : ℕ → ℕ → ℕ → ℝ) (bR bT : Basis) (rmax tmin tmax : ℝ) (outer : ℝ × ℝ → (ℕ → ℝ) → ℝ) (coef : ℕ → ℝ) (r theta : ℝ) (h : rmax < r) :
    evaluate c1 degR degT nTheta size elem bR bT rmax tmin tmax outer coef (r, theta) = some (outer (r, theta) coef) := by
  unfold evaluate; rw [if_pos h]

/-- **C69** Evaluation is periodic in the poloidal direction: any number of turns from a point of the domain which leads outside of the domain gives the same value. -/
theorem c69_periodic (c1 degR degT nTheta size : ℕ) (elem : ℕ → ℕ → ℕ → ℝ) (bR bT : Basis) (rmax tmin tmax : ℝ) (outer : ℝ × ℝ → (ℕ → ℝ) → ℝ) (coef : ℕ → ℝ) (r theta : ℝ)
    (hr : r ≤ rmax) (h1 : tmin ≤ theta) (h2 : theta < tmax) (n : ℤ) (hout : theta + n * (tmax - tmin) < tmin ∨ tmax < theta + n * (tmax - tmin)) :
    evaluate c1 degR degT nTheta size elem bR bT rmax tmin tmax outer coef (r, theta + n * (tmax - tmin)) =
      evaluate c1 degR degT nTheta size elem bR bT rmax tmin tmax outer coef (r, theta) := by
  unfold evaluate
  have hl : 0 < tmax - tmin := by linarith
  have hf : ⌊(theta + n * (tmax - tmin) - tmin) / (tmax - tmin)⌋ = n := by
    rw [Int.floor_eq_iff]
    constructor
    · rw [le_div_iff₀ hl]; linarith
    · rw [div_lt_iff₀ hl]; linarith
  rw [if_neg (by simpa using hr), if_neg (by simpa using hr)]
  dsimp only
  rw [if_pos hout, if_neg (by rintro (h | h) <;> linarith), hf]
  congr 2
  ring

/-- **C69** Inside of the domain the evaluator gives the value of the tensor product spline. -/
theorem c69_evaluate (c1 degR degT nR nTheta : ℕ) (elem : ℕ → ℕ → ℕ → ℝ) (bR bT : Basis) (rmax tmin tmax : ℝ) (outer : ℝ × ℝ → (ℕ → ℝ) → ℝ) (coef : ℕ → ℝ) (r theta : ℝ)
    (hcells : c1 + degR < nR) (hc : c1 ≤ degR + 1) (hn : 0 < nTheta) (hdeg : degT ≤ nTheta)
    (hr : r ≤ rmax) (h1 : tmin ≤ theta) (h2 : theta ≤ tmax) (hjr : bR.jmin r + degR < nR) (hjt : bT.jmin theta < nTheta) :
    evaluate c1 degR degT nTheta (nbasis c1 nR nTheta) elem bR bT rmax tmin tmax outer coef (r, theta) =
      some (tensorEval degR degT (tensorCoef c1 nTheta elem coef) ⟨bR.jmin r, bR.evalBasis r⟩ ⟨bT.jmin theta, bT.evalBasis theta⟩) := by
  unfold evaluate
  rw [if_neg (by simpa using hr)]
  dsimp only
  rw [if_neg (by rintro (h | h) <;> linarith)]
  exact c69_eval c1 degR degT nR nTheta elem coef _ _ hcells hc hjr hn hdeg hjt

/-- **C69** Derivatives: the requested order is used in each direction. -/
theorem c69_deriv (c1 degR degT nR nTheta : ℕ) (elem : ℕ → ℕ → ℕ → ℝ) (bR bT : Basis) (coef : ℕ → ℝ) (r theta : ℝ) (m n : ℕ)
    (hcells : c1 + degR < nR) (hc : c1 ≤ degR + 1) (hn : 0 < nTheta) (hdeg : degT ≤ nTheta) (hjr : bR.jmin r + degR < nR) (hjt : bT.jmin theta < nTheta) :
    deriv c1 degR degT nTheta (nbasis c1 nR nTheta) elem bR bT (some m) (some n) coef (r, theta) =
      some (tensorEval degR degT (tensorCoef c1 nTheta elem coef) ⟨bR.jmin r, fun i => bR.evalDerivs r i m⟩ ⟨bT.jmin theta, fun i => bT.evalDerivs theta i n⟩) ∧
    deriv c1 degR degT nTheta (nbasis c1 nR nTheta) elem bR bT (some m) none coef (r, theta) =
      some (tensorEval degR degT (tensorCoef c1 nTheta elem coef) ⟨bR.jmin r, fun i => bR.evalDerivs r i m⟩ ⟨bT.jmin theta, bT.evalBasis theta⟩) ∧
    deriv c1 degR degT nTheta (nbasis c1 nR nTheta) elem bR bT none (some n) coef (r, theta) =
      some (tensorEval degR degT (tensorCoef c1 nTheta elem coef) ⟨bR.jmin r, bR.evalBasis r⟩ ⟨bT.jmin theta, fun i => bT.evalDerivs theta i n⟩) :=
  ⟨c69_eval c1 degR degT nR nTheta elem coef _ _ hcells hc hjr hn hdeg hjt, c69_eval c1 degR degT nR nTheta elem coef _ _ hcells hc hjr hn hdeg hjt,
    c69_eval c1 degR degT nR nTheta elem coef _ _ hcells hc hjr hn hdeg hjt⟩

/-! ### Integrals -/

/-- **C69** The integral of a singular basis function over the logical domain, the 1D B-splines being continuous functions `bR i`, `bT j` (periodic functions numbered once, the integrals of the repeated ones set to zero). -/
theorem c69_integral_singular (c1 nTheta sizeTheta : ℕ) (hs : nTheta ≤ sizeTheta) (elem : ℕ → ℕ → ℕ → ℝ) (bR bT : ℕ → ℝ → ℝ) (hR : ∀ i, Continuous (bR i)) (hT : ∀ j, Continuous (bT j))
    (r0 r1 t0 t1 : ℝ) (rInt tInt : ℕ → ℝ) (hrI : ∀ i, rInt i = ∫ r in r0..r1, bR i r) (htI : ∀ j < nTheta, tInt j = ∫ t in t0..t1, bT j t) (ht0 : ∀ j, nTheta ≤ j → tInt j = 0)
    (k : ℕ) (hk : k < nSingular c1) :
    integrals c1 nTheta sizeTheta elem rInt tInt k = some (∫ r in r0..r1, ∫ t in t0..t1, ∑ i ∈ range c1, ∑ j ∈ range nTheta, elem k i j * bR i r * bT j t) := by
  unfold integrals
  rw [if_pos hk, foldl_add2, zero_add]
  congr 1
  have hin : ∀ r, ∫ t in t0..t1, ∑ i ∈ range c1, ∑ j ∈ range nTheta, elem k i j * bR i r * bT j t = ∑ i ∈ range c1, ∑ j ∈ range nTheta, elem k i j * bR i r * tInt j := by
    intro r
    have hc : ∀ i j, Continuous fun t => elem k i j * bR i r * bT j t := fun i j => continuous_const.mul (hT j)
    rw [intervalIntegral.integral_finsetSum fun i _ => (continuous_finsetSum _ fun j _ => hc i j).intervalIntegrable _ _]
    refine Finset.sum_congr rfl fun i _ => ?_
    rw [intervalIntegral.integral_finsetSum fun j _ => (hc i j).intervalIntegrable _ _]
    refine Finset.sum_congr rfl fun j hj => ?_
    rw [intervalIntegral.integral_const_mul, htI j (Finset.mem_range.mp hj)]
  simp only [hin]
  have hc : ∀ i j, Continuous fun r => elem k i j * bR i r * tInt j := fun i j => (continuous_const.mul (hR i)).mul continuous_const
  rw [intervalIntegral.integral_finsetSum fun i _ => (continuous_finsetSum _ fun j _ => hc i j).intervalIntegrable _ _]
  refine Finset.sum_congr rfl fun i _ => ?_
  rw [intervalIntegral.integral_finsetSum fun j _ => (hc i j).intervalIntegrable _ _]
  rw [← Finset.sum_subset (Finset.range_subset_range.mpr hs)]
  · refine Finset.sum_congr rfl fun j _ => ?_
    rw [intervalIntegral.integral_mul_const, intervalIntegral.integral_const_mul, hrI]
  · intro j _ hj
    rw [Finset.mem_range, not_lt] at hj
    rw [ht0 j hj, mul_zero]

/-- **C69** The integral of a tensor product basis function. -/
theorem c69_integral_tensor (c1 nTheta sizeTheta : ℕ) (elem : ℕ → ℕ → ℕ → ℝ) (rInt tInt : ℕ → ℝ) (r t n : ℕ) (hn : 0 < nTheta) (hr : c1 ≤ r) (ht : t < nTheta) (h : getPolarIndex c1 nTheta r t = some n) :
    integrals c1 nTheta sizeTheta elem rInt tInt n = some (rInt r * tInt t) := by
  obtain ⟨n', h1, h2⟩ := c69_index_roundtrip c1 nTheta r t hn hr
  rw [h, Option.some.injEq] at h1
  subst h1
  have hge : ¬n < nSingular c1 := by
    unfold getPolarIndex at h
    dsimp only at h
    rw [if_pos (by omega), Option.some.injEq] at h
    omega
  unfold integrals
  rw [if_neg hge, h2, Nat.mod_eq_of_lt ht]
  rfl

end Verif.PolarSplines
