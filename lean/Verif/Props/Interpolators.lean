import Verif.Model.Interpolators
import Verif.Props.LagrangeEvaluator
import Mathlib.Tactic.Linarith
import Mathlib.Tactic.NormNum
import Mathlib.Tactic.FieldSimp
import Mathlib.Tactic.Ring
import Mathlib.Topology.Order.OrderClosed
import Mathlib.Topology.Order.Lattice
import Mathlib.Topology.Instances.Real.Lemmas
import Mathlib.Tactic.Continuity

/-!
# C86: interpolators evaluate their data inside of the domain and the chosen rule outside
-/
namespace Verif.Interpolators

open Verif.LagrangeEvaluator Verif.Lagrange Polynomial

/-- What the documentation says of a rule at one end of a non-periodic domain, `b` being the value given at this end: the null rule
returns 0, the constant rule the value at the nearest boundary point. -/
def RuleValue (r : Rule) (b v : ℝ) : Prop := (r = .nullValue → v = 0) ∧ (r = .constant → v = b)

/-- What a user relies on for an interpolator `F` of the values `vals` given at the points `knot 0, ..., knot Nl` of a non-periodic
dimension: `F x = some v` says that the evaluation at `x` is well defined and returns `v`. -/
structure InterpolatesWithRules (minRule maxRule : Rule) (D Nl : ℕ) (tol : ℝ) (knot vals : ℕ → ℝ) (F : ℝ → Option ℝ) : Prop where
  /-- the values given at the points are returned there -/
  values : ∀ k ≤ Nl, F (knot k) = some (vals k)
  /-- between the points polynomials up to the degree are reproduced (up to the node tolerance) -/
  poly : ∀ p : ℝ[X], p.natDegree ≤ D → (∀ k ≤ Nl, vals k = p.eval (knot k)) → ∀ x, knot 0 ≤ x → x ≤ knot Nl →
    ∃ y, |x - y| ≤ tol ∧ F x = some (p.eval y)
  /-- below the first point the first rule applies -/
  below : ∀ x, x < knot 0 → ∃ v, F x = some v ∧ RuleValue minRule (vals 0) v
  /-- above the last point the second rule applies -/
  above : ∀ x, knot Nl < x → ∃ v, F x = some v ∧ RuleValue maxRule (vals Nl) v

theorem isSome_ite {α : Type} (b : Bool) (x : α) : (if b = true then some x else none).isSome = b := by cases b <;> rfl

theorem lagrangeAccepted_iff : ∀ (isPeriodic : Bool) (minRule maxRule : Rule), lagrangeAccepted isPeriodic minRule maxRule = true ↔
    (isPeriodic = true ↔ minRule = .periodic) ∧ (isPeriodic = true ↔ maxRule = .periodic) := by
  intro p a b
  cases p <;> cases a <;> cases b <;> decide

theorem splineAccepted_iff : ∀ (isPeriodic : Bool) (minRule maxRule : Rule) (minBound maxBound : Bound),
    splineAccepted isPeriodic minRule maxRule minBound maxBound = true ↔
      (isPeriodic = true ↔ minRule = .periodic) ∧ (isPeriodic = true ↔ maxRule = .periodic) ∧
      (isPeriodic = true ↔ minBound = .periodic) ∧ (isPeriodic = true ↔ maxBound = .periodic) := by
  intro p a b c d
  cases p <;> cases a <;> cases b <;> cases c <;> cases d <;> decide

/-- **C86** The choices of rules which compile: both or none of the two rules are periodic, according to the dimension. -/
theorem c86_lagrange_accepted (isPeriodic : Bool) (minRule maxRule : Rule) (eps : ℝ) (D Nl : ℕ) (x0 dx : ℝ) (knot vals : ℕ → ℝ) :
    ((lagrangeU isPeriodic minRule maxRule eps D Nl x0 dx vals).isSome ↔
      (isPeriodic = true ↔ minRule = .periodic) ∧ (isPeriodic = true ↔ maxRule = .periodic)) ∧
    ((lagrangeNU isPeriodic minRule maxRule eps D Nl knot vals).isSome ↔
      (isPeriodic = true ↔ minRule = .periodic) ∧ (isPeriodic = true ↔ maxRule = .periodic)) := by
  unfold lagrangeU lagrangeNU
  simp only [isSome_ite]
  exact ⟨lagrangeAccepted_iff _ _ _, lagrangeAccepted_iff _ _ _⟩

theorem coeffs_np (D Nl : ℕ) (vals : ℕ → ℝ) (k : ℕ) (hk : k ≤ Nl) : coeffs false D Nl vals k = vals k := by
  simp [coeffs, buildCoeffs, Nat.lt_succ_of_le hk]

theorem ruleValue_front (D Nl : ℕ) (vals : ℕ → ℝ) (r : Rule) (x : ℝ) :
    RuleValue r (vals 0) (applyLagrange (coeffs false D Nl vals) (lagrangeRule (nKnots false D Nl) r .front) x) := by
  refine ⟨?_, ?_⟩ <;> rintro rfl
  · rfl
  · exact coeffs_np D Nl vals 0 (Nat.zero_le _)

theorem ruleValue_back (D Nl : ℕ) (vals : ℕ → ℝ) (r : Rule) (x : ℝ) :
    RuleValue r (vals Nl) (applyLagrange (coeffs false D Nl vals) (lagrangeRule (nKnots false D Nl) r .back) x) := by
  refine ⟨?_, ?_⟩ <;> rintro rfl
  · rfl
  · have : nKnots false D Nl - 1 = Nl := by simp [nKnots]
    simp only [lagrangeRule, this, applyLagrange]
    exact coeffs_np D Nl vals Nl le_rfl

theorem accepted_np {minRule maxRule : Rule} (hmin : minRule ≠ .periodic) (hmax : maxRule ≠ .periodic) :
    lagrangeAccepted false minRule maxRule = true := by
  cases minRule <;> cases maxRule <;> first | rfl | exact absurd rfl hmin | exact absurd rfl hmax

/-- From the properties of the evaluator to those of the interpolator. -/
theorem rules_of_eval {minRule maxRule : Rule} {D Nl : ℕ} {tol : ℝ} {knot vals : ℕ → ℝ}
    {ev : (ℕ → ℝ) → ℝ → Option ℝ}
    (H : InterpolatesNonPeriodic D Nl tol knot
      (applyLagrange (coeffs false D Nl vals) (lagrangeRule (nKnots false D Nl) minRule .front))
      (applyLagrange (coeffs false D Nl vals) (lagrangeRule (nKnots false D Nl) maxRule .back)) ev) :
    InterpolatesWithRules minRule maxRule D Nl tol knot vals (ev (coeffs false D Nl vals)) where
  values k hk := by rw [H.1 _ k hk, coeffs_np D Nl vals k hk]
  poly p hp hv x h0 h1 := by
    obtain ⟨y, hy, he⟩ := H.2.1 p hp x h0 h1
    refine ⟨y, hy, ?_⟩
    rw [← he]
    exact H.2.2.2.2 _ _ (fun k hk => by rw [coeffs_np D Nl vals k hk, hv k hk]) x
  below x hx := ⟨_, H.2.2.1 _ x hx, ruleValue_front D Nl vals minRule x⟩
  above x hx := ⟨_, H.2.2.2.1 _ x hx, ruleValue_back D Nl vals maxRule x⟩

/-- **C86** Uniform Lagrange interpolators, all pairs of rules accepted in a non-periodic dimension. -/
theorem c86_lagrange_uniform (minRule maxRule : Rule) (hmin : minRule ≠ .periodic) (hmax : maxRule ≠ .periodic)
    (eps : ℝ) (heps : 0 ≤ eps) (heps1 : eps < 1 / 2) (D Nl : ℕ) (hD : 0 < D) (hDN : D ≤ Nl) (x0 dx : ℝ) (hdx : 0 < dx)
    (vals : ℕ → ℝ) :
    ∃ F, lagrangeU false minRule maxRule eps D Nl x0 dx vals = some F ∧
      InterpolatesWithRules minRule maxRule D Nl (eps * dx) (fun k => x0 + k * dx) vals F := by
  unfold lagrangeU
  rw [if_pos (accepted_np hmin hmax)]
  exact ⟨_, rfl, rules_of_eval (ev := fun coef x => evalU false eps D Nl x0 dx _ _ coef x)
    (c19_uniform_non_periodic eps heps heps1 D Nl hD hDN x0 dx hdx _ _)⟩

/-- **C86** Non-uniform Lagrange interpolators, all pairs of rules accepted in a non-periodic dimension. -/
theorem c86_lagrange_non_uniform (minRule maxRule : Rule) (hmin : minRule ≠ .periodic) (hmax : maxRule ≠ .periodic)
    (eps : ℝ) (heps : 0 < eps) (D Nl : ℕ) (hD : 0 < D) (hDN : D ≤ Nl) (knot : ℕ → ℝ)
    (hsp : ∀ i j, i < j → j ≤ Nl → eps < knot j - knot i) (vals : ℕ → ℝ) :
    ∃ F, lagrangeNU false minRule maxRule eps D Nl knot vals = some F ∧
      InterpolatesWithRules minRule maxRule D Nl eps knot vals F := by
  unfold lagrangeNU
  rw [if_pos (accepted_np hmin hmax)]
  exact ⟨_, rfl, rules_of_eval (ev := fun coef x => evalNU false eps D Nl knot _ _ coef x)
    (c19_non_uniform_non_periodic eps heps D Nl hD hDN knot hsp _ _)⟩

/-- **C86** With the constant rule at both ends the interpolator is the interpolator at the nearest point of the domain. -/
theorem c86_clamp {D Nl : ℕ} {tol : ℝ} {knot vals : ℕ → ℝ} {F : ℝ → Option ℝ} (hk : knot 0 ≤ knot Nl)
    (H : InterpolatesWithRules .constant .constant D Nl tol knot vals F) (x : ℝ) :
    F x = F (max (knot 0) (min x (knot Nl))) := by
  rcases lt_or_ge x (knot 0) with h | h
  · obtain ⟨v, hv, hr⟩ := H.below x h
    rw [min_eq_left (h.le.trans hk), max_eq_left h.le, H.values 0 (Nat.zero_le _), hv, hr.2 rfl]
  · rcases lt_or_ge (knot Nl) x with h' | h'
    · obtain ⟨v, hv, hr⟩ := H.above x h'
      rw [min_eq_right h'.le, max_eq_right hk, H.values Nl le_rfl, hv, hr.2 rfl]
    · rw [min_eq_left h', max_eq_right h]

/-- **C86** Periodic Lagrange interpolators: the function does not depend on any rule and has the period of the domain. -/
theorem c86_lagrange_periodic (eps : ℝ) (heps : 0 ≤ eps) (heps1 : eps < 1 / 2) (D Nl : ℕ) (hD : 0 < D) (hDN : D < Nl)
    (x0 dx : ℝ) (hdx : 0 < dx) (vals : ℕ → ℝ) :
    ∃ F, lagrangeU true .periodic .periodic eps D Nl x0 dx vals = some F ∧
      (∀ x, (F x).isSome) ∧ (∀ x (m : ℤ), F (x + m * (Nl * dx)) = F x) ∧ (∀ k < Nl, F (x0 + k * dx) = some (vals k)) ∧
      (∀ a, (∀ k, vals k = a) → ∀ x, F x = some a) := by
  have H := c19_uniform_periodic eps heps heps1 D Nl hD hDN x0 dx hdx
    (applyLagrange (coeffs true D Nl vals) .periodic) (applyLagrange (coeffs true D Nl vals) .periodic) vals
  refine ⟨_, rfl, H.1, fun x m => ?_, fun k hk => H.2.2.1 k hk, fun a ha x => H.2.2.2 a ha x⟩
  have := H.2.1 x m
  simp only [uniformNodes, Nat.cast_zero, zero_mul, add_zero, add_sub_cancel_left] at this
  exact this

/-! ## Splines -/

/-- **C86** The boundary conditions and rules accepted by `SplineInterpolator`. -/
theorem c86_spline_accepted (isPeriodic : Bool) (minRule maxRule : Rule) (minBound maxBound : Bound) (rmin rmax : ℝ) (s : ℝ → ℝ) :
    (spline isPeriodic minRule maxRule minBound maxBound rmin rmax s).isSome ↔
      (isPeriodic = true ↔ minRule = .periodic) ∧ (isPeriodic = true ↔ maxRule = .periodic) ∧
      (isPeriodic = true ↔ minBound = .periodic) ∧ (isPeriodic = true ↔ maxBound = .periodic) := by
  unfold spline
  simp only [isSome_ite]
  exact splineAccepted_iff _ _ _ _ _

/-- **C86** Spline interpolators in a non-periodic dimension: the spline inside of the domain (ends included), below the value of the first
rule and above the value of the second, the boundary values being those of the spline. -/
theorem c86_spline_rules (minRule maxRule : Rule) (minBound maxBound : Bound) (rmin rmax : ℝ) (hr : rmin ≤ rmax) (s F : ℝ → ℝ)
    (h : spline false minRule maxRule minBound maxBound rmin rmax s = some F) (x : ℝ) :
    (rmin ≤ x → x ≤ rmax → F x = s x) ∧ (x < rmin → RuleValue minRule (s rmin) (F x)) ∧
      (rmax < x → RuleValue maxRule (s rmax) (F x)) := by
  unfold spline at h
  by_cases hacc : splineAccepted false minRule maxRule minBound maxBound = true
  swap
  · rw [if_neg hacc] at h; exact absurd h (by simp)
  rw [if_pos hacc] at h
  obtain rfl := Option.some.inj h
  refine ⟨fun h0 h1 => ?_, fun h0 => ?_, fun h1 => ?_⟩
  · simp [not_lt.2 h0, not_lt.2 h1]
  · simp only [Bool.false_eq_true, if_false, h0, if_true]
    refine ⟨?_, ?_⟩ <;> rintro rfl <;> rfl
  · simp only [Bool.false_eq_true, if_false, not_lt.2 (hr.trans h1.le), gt_iff_lt, h1, if_true]
    refine ⟨?_, ?_⟩ <;> rintro rfl <;> rfl

/-- **C86** Spline interpolators in a periodic dimension: the spline in the domain, with the period of the domain outside of it (for a spline with equal values at both ends). -/
theorem c86_spline_periodic (rmin rmax : ℝ) (hr : rmin < rmax) (s : ℝ → ℝ) (hs : s rmax = s rmin) :
    ∃ F, spline true .periodic .periodic .periodic .periodic rmin rmax s = some F ∧ (∀ x, rmin ≤ x → x ≤ rmax → F x = s x) ∧
      (∀ x (m : ℤ), F (x + m * (rmax - rmin)) = F x) := by
  have hL : 0 < rmax - rmin := by linarith
  have key : ∀ x : ℝ, (s (if x < rmin ∨ x > rmax then x - (⌊(x - rmin) / (rmax - rmin)⌋ : ℝ) * (rmax - rmin) else x)) =
      s (x - (⌊(x - rmin) / (rmax - rmin)⌋ : ℝ) * (rmax - rmin)) := by
    intro x
    split_ifs with h
    · rfl
    · rw [not_or, not_lt, gt_iff_lt, not_lt] at h
      rcases h.2.lt_or_eq with h' | rfl
      · have : ⌊(x - rmin) / (rmax - rmin)⌋ = 0 := by
          rw [Int.floor_eq_zero_iff]
          exact ⟨div_nonneg (by linarith [h.1]) hL.le, (div_lt_one hL).2 (by linarith)⟩
        rw [this]; simp
      · rw [div_self hL.ne', Int.floor_one]
        simp [hs]
  refine ⟨_, rfl, fun x h0 h1 => ?_, fun x m => ?_⟩
  · simp [not_lt.2 h0, not_lt.2 h1]
  · simp only [if_true]
    rw [key, key]
    congr 1
    have : (x + m * (rmax - rmin) - rmin) / (rmax - rmin) = (x - rmin) / (rmax - rmin) + m := by field_simp; ring
    rw [this, Int.floor_add_intCast]; push_cast; ring

/-- A function with equal values at both ends. -/
example : ∃ F, spline true .periodic .periodic .periodic .periodic 0 2 (fun x => x * (2 - x)) = some F ∧ F 5 = 1 := by
  obtain ⟨F, h, h1, h2⟩ := c86_spline_periodic 0 2 (by norm_num) (fun x => x * (2 - x)) (by norm_num)
  refine ⟨F, h, ?_⟩
  have := h2 1 2
  rw [h1 1 (by norm_num) (by norm_num)] at this
  norm_num at this
  exact this

/-- **C86** With constant rules the spline interpolator is continuous everywhere if the spline is continuous in the domain. -/
theorem c86_spline_continuous (minBound maxBound : Bound) (rmin rmax : ℝ) (hr : rmin ≤ rmax) (s F : ℝ → ℝ)
    (h : spline false .constant .constant minBound maxBound rmin rmax s = some F) (hs : ContinuousOn s (Set.Icc rmin rmax)) :
    Continuous F := by
  have : F = fun x => s (max rmin (min x rmax)) := by
    funext x
    obtain ⟨h0, h1, h2⟩ := c86_spline_rules _ _ _ _ rmin rmax hr s F h x
    rcases lt_or_ge x rmin with a | a
    · rw [(h1 a).2 rfl, min_eq_left (a.le.trans hr), max_eq_left a.le]
    · rcases lt_or_ge rmax x with b | b
      · rw [(h2 b).2 rfl, min_eq_right b.le, max_eq_right hr]
      · rw [h0 a b, min_eq_left b, max_eq_right a]
  rw [this]
  refine hs.comp_continuous (by fun_prop) fun x => ⟨le_max_left _ _, max_le hr (min_le_right _ _)⟩

/-- **C86** (limit) with the null rule the interpolator jumps at the end unless the spline vanishes there. -/
theorem c86_null_jump (maxRule : Rule) (minBound maxBound : Bound) (rmin rmax : ℝ) (hr : rmin < rmax) (s F : ℝ → ℝ)
    (h : spline false .nullValue maxRule minBound maxBound rmin rmax s = some F) :
    ContinuousAt F rmin → s rmin = 0 := by
  intro hc
  have hF : F rmin = s rmin := (c86_spline_rules _ _ _ _ rmin rmax hr.le s F h rmin).1 le_rfl hr.le
  have h0 : ∀ᶠ x in nhdsWithin rmin (Set.Iio rmin), F x = 0 := by
    filter_upwards [self_mem_nhdsWithin] with x hx
    exact ((c86_spline_rules _ _ _ _ rmin rmax hr.le s F h x).2.1 hx).1 rfl
  have h1 : Filter.Tendsto F (nhdsWithin rmin (Set.Iio rmin)) (nhds (F rmin)) := hc.mono_left nhdsWithin_le_nhds
  have h2 : Filter.Tendsto F (nhdsWithin rmin (Set.Iio rmin)) (nhds 0) :=
    Filter.Tendsto.congr' (h0.mono fun x hx => hx.symm) tendsto_const_nhds
  rw [← hF]
  exact tendsto_nhds_unique h1 h2

/-! ## The hypotheses are met -/

/-- Cubic interpolation on ten cells of width 1/10, constant below and null above. -/
example : ∃ F, lagrangeU false .constant .nullValue (1 / 100) 3 10 0 (1 / 10) (fun k => (k : ℝ) ^ 2) = some F ∧
    F (-5) = some 0 ∧ F 7 = some 0 ∧ F (0 + (4 : ℕ) * (1 / 10)) = some 16 := by
  obtain ⟨F, hF, H⟩ := c86_lagrange_uniform .constant .nullValue (by decide) (by decide) (1 / 100) (by norm_num) (by norm_num) 3 10
    (by norm_num) (by norm_num) 0 (1 / 10) (by norm_num) (fun k => (k : ℝ) ^ 2)
  refine ⟨F, hF, ?_, ?_, ?_⟩
  · obtain ⟨v, hv, hr⟩ := H.below (-5) (by norm_num)
    rw [hv, hr.2 rfl]; norm_num
  · obtain ⟨v, hv, hr⟩ := H.above 7 (by norm_num)
    rw [hv, hr.1 rfl]
  · rw [H.values 4 (by norm_num)]; norm_num

/-- Constant and null rules differ outside of the domain. -/
example : ∃ F G, spline false .constant .constant .greville .greville 0 1 (fun x => x + 1) = some F ∧
    spline false .nullValue .nullValue .greville .greville 0 1 (fun x => x + 1) = some G ∧ F (-1) = 1 ∧ F 3 = 2 ∧ G (-1) = 0 ∧ G 3 = 0 := by
  refine ⟨_, _, rfl, rfl, ?_, ?_, ?_, ?_⟩ <;> norm_num [applySpline, splineRule]

end Verif.Interpolators
