import Verif.Model.DiscreteMapping
import Verif.Props.GridTools
import Mathlib.Analysis.Calculus.Deriv.Basic
import Mathlib.Analysis.Calculus.Deriv.Mul
import Mathlib.LinearAlgebra.Matrix.Determinant.Basic
import Mathlib.LinearAlgebra.Lagrange
import Mathlib.Analysis.Calculus.Deriv.Polynomial
import Mathlib.Analysis.SpecialFunctions.Trigonometric.Basic
import Mathlib.Tactic.FinCases
import Mathlib.Tactic.FieldSimp

/-! Property C110: discrete mappings agree with the analytical mapping at the interpolation points of their grid; what can go wrong in the life of their builders. -/

namespace Verif.DiscreteMapping

variable {C : Type*}

/-- The contract of DDC's builder and evaluator: a spline takes the given values at the points it is built from, if they are distinct, and the derivatives returned are those of the spline. -/
structure Contract (S : Splines C) : Prop where
  interpolates : ∀ gr gt vals i j, gr.Nodup → gt.Nodup → i < gr.length → j < gt.length → S.eval (S.build gr gt vals) (gr.getD i 0, gt.getD j 0) = vals i j
  derivR : ∀ c r t, HasDerivAt (fun s => S.eval c (s, t)) (S.dr c (r, t)) r
  derivTheta : ∀ c r t, HasDerivAt (fun s => S.eval c (r, s)) (S.dtheta c (r, t)) t

/-- The discrete mapping is the analytical one at every interpolation point. -/
theorem fill_interpolates {S : Splines C} (hS : Contract S) (gr gt : List ℝ) (nr : gr.Nodup) (nt : gt.Nodup) (A : Pt → Pt) (r t : ℝ) (hr : r ∈ gr) (ht : t ∈ gt) : (fill S gr gt A).map S (r, t) = A (r, t) := by
  obtain ⟨i, hi, rfl⟩ := List.mem_iff_getElem.1 hr
  obtain ⟨j, hj, rfl⟩ := List.mem_iff_getElem.1 ht
  have ei : gr[i] = gr.getD i 0 := by simp [hi]
  have ej : gt[j] = gt.getD j 0 := by simp [hj]
  unfold fill Data.map
  rw [ei, ej]
  simp only
  rw [hS.interpolates gr gt _ i j nr nt hi hj, hS.interpolates gr gt _ i j nr nt hi hj]

/-- The operations of `l` leave the builder `b` alone. -/
def Untouched (b : ℕ) (l : List Op) : Prop := ∀ o ∈ l, match o with
  | .make k _ => k ≠ b
  | .makeRefined k _ => k ≠ b
  | .destroy k => k ≠ b

theorem run_untouched {S : Splines C} {R : Refinement} {gr gt : List ℝ} {b : ℕ} {l : List Op} {w w' : World C} (h : Untouched b l) (hr : run S R gr gt w l = .ok w') : w'.builders b = w.builders b := by
  induction l generalizing w with
  | nil => simp only [run, Except.ok.injEq] at hr; rw [hr]
  | cons o l ih =>
    have ho := h o (by simp)
    have hl : Untouched b l := fun o ho => h o (by simp [ho])
    unfold run at hr
    cases o with
    | make k A =>
      simp only [step] at hr
      rw [ih hl hr]
      simp only at ho ⊢
      rw [if_neg (Ne.symm ho)]
    | makeRefined k A =>
      simp only [step] at hr
      split_ifs at hr
      rw [ih hl hr]
      simp only at ho ⊢
      rw [if_neg (Ne.symm ho)]
    | destroy k =>
      simp only [step] at hr
      rw [ih hl hr]
      simp only at ho ⊢
      rw [if_neg (Ne.symm ho)]

/-- **C110, mapping on the original grid.** After the construction of a builder and any later operations that do not destroy it, its mapping is the analytical one at all interpolation points of the original grid. -/
theorem c110_mapping {S : Splines C} (hS : Contract S) (R : Refinement) (gr gt : List ℝ) (nr : gr.Nodup) (nt : gt.Nodup) (w w' : World C) (b : ℕ) (A : Pt → Pt) (l : List Op) (hl : Untouched b l)
    (h : run S R gr gt w (.make b A :: l) = .ok w') (r t : ℝ) (hr : r ∈ gr) (ht : t ∈ gt) : useMap S w' b (r, t) = some (A (r, t)) := by
  unfold run at h
  simp only [step] at h
  unfold useMap
  rw [run_untouched hl h]
  simp only [if_true, Option.map_some, Option.some.injEq]
  exact fill_interpolates hS gr gt nr nt A r t hr ht

theorem loopBreaks_uniform (min max : ℝ) (n : ℕ) (hn : 0 < n) : loopBreaks min max n = GridTools.uniformBreakPoints min max n := by
  have hn' : (n : ℝ) ≠ 0 := by positivity
  unfold loopBreaks GridTools.uniformBreakPoints
  refine List.map_congr_left fun i _ => ?_
  split_ifs with h1 h2
  · subst h1; field_simp; ring
  · subst h2; simp
  · rfl

/-- **C110, refined break points.** In both branches the break points are `n + 1` increasing points, from the lower to the upper bound of the original B-splines. -/
theorem c110_refined_breaks (uniform : Bool) (min max : ℝ) (n : ℕ) (hn : 0 < n) (h : min < max) :
    (refinedBreaks uniform min max n).length = n + 1 ∧ (refinedBreaks uniform min max n)[0]? = some min ∧ (refinedBreaks uniform min max n)[n]? = some max ∧
      (refinedBreaks uniform min max n).Pairwise (· < ·) ∧ ∀ i ≤ n, (refinedBreaks uniform min max n)[i]? = some (min + i * ((max - min) / n)) := by
  have e : refinedBreaks uniform min max n = GridTools.uniformBreakPoints min max n := by
    unfold refinedBreaks
    split_ifs
    · rfl
    · exact loopBreaks_uniform min max n hn
  rw [e]
  obtain ⟨h1, h2⟩ := GridTools.c50_uniform min max n hn
  obtain ⟨h3, h4, h5⟩ := GridTools.c50_uniform_increasing min max n hn h
  exact ⟨h1, h3, h4, h5, h2⟩

/-- **C110, refined mapping.** If the construction of a refined builder succeeds, its mapping is the analytical one at all points of the refined grid, as long as the builder is alive. -/
theorem c110_refined_mapping {S : Splines C} (hS : Contract S) (R : Refinement) (gr gt : List ℝ) (w w' : World C) (b : ℕ) (A : Pt → Pt) (l : List Op) (hl : Untouched b l)
    (h : run S R gr gt w (.makeRefined b A :: l) = .ok w') (nr : (R.grevilleR (refinedBreaks R.uniformR R.rMin R.rMax R.ncellsR)).Nodup)
    (nt : (R.grevilleTheta (refinedBreaks R.uniformTheta R.thetaMin R.thetaMax R.ncellsTheta)).Nodup) (r t : ℝ) (hr : r ∈ R.grevilleR (refinedBreaks R.uniformR R.rMin R.rMax R.ncellsR))
    (ht : t ∈ R.grevilleTheta (refinedBreaks R.uniformTheta R.thetaMin R.thetaMax R.ncellsTheta)) : useMap S w' b (r, t) = some (A (r, t)) := by
  unfold run at h
  simp only [step] at h
  split_ifs at h
  unfold useMap
  rw [run_untouched hl h]
  simp only [if_true, Option.map_some, Option.some.injEq]
  exact fill_interpolates hS _ _ nr nt A r t hr ht

theorem run_refined {S : Splines C} {R : Refinement} {gr gt : List ℝ} {l : List Op} {w w' : World C} (hw : w.refined = true) (hr : run S R gr gt w l = .ok w') : w'.refined = true := by
  induction l generalizing w with
  | nil => simp only [run, Except.ok.injEq] at hr; rw [← hr, hw]
  | cons o l ih =>
    unfold run at hr
    cases o with
    | make k A => simp only [step] at hr; exact ih (by exact hw) hr
    | makeRefined k A =>
      simp only [step, hw, if_true] at hr
      split_ifs at hr
    | destroy k => simp only [step] at hr; exact ih (by exact hw) hr

/-- **C110, once.** In every history the refined builder of one type can be constructed once: after a successful construction, every later one stops the program, even if the first builder is destroyed before and whatever the mapping. -/
theorem c110_refined_once (S : Splines C) (R : Refinement) (gr gt : List ℝ) (w w' : World C) (b b' : ℕ) (A A' : Pt → Pt) (l l' : List Op)
    (h : run S R gr gt w (.makeRefined b A :: l) = .ok w') : run S R gr gt w' (.makeRefined b' A' :: l') = .error .twice := by
  unfold run at h
  simp only [step] at h
  split_ifs at h with h1 h2
  have hw := run_refined (by rfl) h
  unfold run
  simp only [step, hw, if_true]
  rw [if_neg h1]

/-- **C110, kinds of splines.** The refined builder can be used exactly when the two original B-splines are both uniform or both non-uniform. -/
theorem c110_mixed (S : Splines C) (R : Refinement) (gr gt : List ℝ) (w : World C) (hw : w.refined = false) (b : ℕ) (A : Pt → Pt) :
    (∃ w', step S R gr gt w (.makeRefined b A) = .ok w') ↔ R.uniformR = R.uniformTheta := by
  unfold step Refinement.compiles
  simp only [hw]
  constructor
  · rintro ⟨w', h⟩
    split_ifs at h with h1
    simp at h1
    exact h1.symm
  · intro h
    rw [if_neg (by simp [h])]
    exact ⟨_, rfl⟩

/-- **C110, lifetime.** A mapping must not outlive its builder: once the builder is destroyed, the mapping reads memory that is not allocated any more, whatever was done before and after. -/
theorem c110_dangling (S : Splines C) (R : Refinement) (gr gt : List ℝ) (w w' : World C) (b : ℕ) (l : List Op) (hl : Untouched b l) (h : run S R gr gt w (.destroy b :: l) = .ok w') (p : Pt) :
    useMap S w' b p = none := by
  unfold run at h
  simp only [step] at h
  unfold useMap
  rw [run_untouched hl h]
  simp

/-- **C110, Jacobian.** `jacobian_component` gives the entries of `jacobian_matrix`, which are the partial derivatives of the mapping; `jacobian` is the determinant. -/
theorem c110_jacobian {S : Splines C} (hS : Contract S) (d : Data C) (r t : ℝ) :
    (∀ i j, d.jacobianComponent S i j (r, t) = d.jacobianMatrix S (r, t) i j) ∧
    HasDerivAt (fun s => (d.map S (s, t)).1) (d.jacobianMatrix S (r, t) .X .R) r ∧ HasDerivAt (fun s => (d.map S (s, t)).2) (d.jacobianMatrix S (r, t) .Y .R) r ∧
    HasDerivAt (fun s => (d.map S (r, s)).1) (d.jacobianMatrix S (r, t) .X .Theta) t ∧ HasDerivAt (fun s => (d.map S (r, s)).2) (d.jacobianMatrix S (r, t) .Y .Theta) t ∧
    d.jacobian S (r, t) = Matrix.det !![d.jacobianMatrix S (r, t) .X .R, d.jacobianMatrix S (r, t) .X .Theta; d.jacobianMatrix S (r, t) .Y .R, d.jacobianMatrix S (r, t) .Y .Theta] := by
  refine ⟨fun i j => ?_, hS.derivR _ _ _, hS.derivR _ _ _, hS.derivTheta _ _ _, hS.derivTheta _ _ _, ?_⟩
  · cases i <;> cases j <;> simp [Data.jacobianComponent, Data.jacobianMatrix]
  · rw [Matrix.det_fin_two_of]; unfold Data.jacobian; simp only; ring

/-- **C110, singular points.** They are the points of the grid with the first radial coordinate, one for each poloidal point. -/
theorem c110_singular_points (d : Data C) (p : Pt) : p ∈ d.singularPoints ↔ d.gr.head? = some p.1 ∧ p.2 ∈ d.gt := by
  unfold Data.singularPoints
  rcases d.gr with _ | ⟨a, l⟩
  · simp
  · obtain ⟨x, y⟩ := p
    simp [Prod.ext_iff, eq_comm, and_comm]

/-- **C110, O-point.** On a grid starting at the O-point (`r = 0`) which the analytical mapping sends to one point `o`, every singular point is mapped to `o`, and `o_point()` is `o` on a device; it is `o` on the host, too,
if the poloidal points contain the angle 0. -/
theorem c110_o_point {S : Splines C} (hS : Contract S) (gr gt : List ℝ) (nr : gr.Nodup) (nt : gt.Nodup) (A : Pt → Pt) (o : Pt) (hA : ∀ t, A (0, t) = o) (h0 : gr.head? = some 0) (ht : gt ≠ []) :
    (∀ p ∈ (fill S gr gt A).singularPoints, (fill S gr gt A).map S p = o) ∧ (fill S gr gt A).oPoint S false = o ∧ (0 ∈ gt → (fill S gr gt A).oPoint S true = o) := by
  have hg0 : (0 : ℝ) ∈ gr := List.mem_of_mem_head? h0
  refine ⟨fun p hp => ?_, ?_, fun h => ?_⟩
  · obtain ⟨h1, h2⟩ := (c110_singular_points _ p).1 hp
    obtain ⟨x, y⟩ := p
    simp only [fill] at h1 h2
    rw [h0] at h1
    simp only [Option.some.injEq] at h1
    rw [← h1, fill_interpolates hS gr gt nr nt A 0 y hg0 h2, hA]
  · have e : gr.getD 0 0 = 0 := by rcases gr with _ | ⟨a, l⟩ <;> simp_all
    have hm : gt.getD 0 0 ∈ gt := by rcases gt with _ | ⟨a, l⟩ <;> simp_all
    unfold Data.oPoint
    simp only [Bool.false_eq_true, if_false]
    change (fill S gr gt A).map S (gr.getD 0 0, gt.getD 0 0) = o
    rw [e, fill_interpolates hS gr gt nr nt A 0 _ hg0 hm, hA]
  · unfold Data.oPoint
    simp only [if_true]
    rw [fill_interpolates hS gr gt nr nt A 0 0 hg0 h, hA]

/-- What is used of the B-splines at the first radial point (the knots are clamped there): there a spline is the combination of the poloidal B-splines `B k` with its first row of coefficients, these B-splines sum to one, and a
poloidal spline that vanishes at all interpolation points is zero. -/
structure EdgeContract (S : Splines C) (gr gt : List ℝ) (n : ℕ) (B : ℕ → ℝ → ℝ) : Prop where
  edge : ∀ vals t, S.eval (S.build gr gt vals) (gr.getD 0 0, t) = ∑ k ∈ Finset.range n, S.coef (S.build gr gt vals) 0 k * B k t
  unity : ∀ t ∈ gt, ∑ k ∈ Finset.range n, B k t = 1
  unisolvent : ∀ a : ℕ → ℝ, (∀ t ∈ gt, ∑ k ∈ Finset.range n, a k * B k t = 0) → ∀ k < n, a k = 0

/-- **C110, control points.** If the analytical mapping sends the points with the first radial coordinate to one point, the first row of control points is this point. -/
theorem c110_control_points {S : Splines C} (hS : Contract S) {gr gt : List ℝ} (nr : gr.Nodup) (nt : gt.Nodup) (hg : gr ≠ []) {n : ℕ} {B : ℕ → ℝ → ℝ} (hE : EdgeContract S gr gt n B) (A : Pt → Pt) (o : Pt)
    (hA : ∀ t, A (gr.getD 0 0, t) = o) (k : ℕ) (hk : k < n) : (fill S gr gt A).controlPoint S 0 k = o := by
  have hm : gr.getD 0 0 ∈ gr := by rcases gr with _ | ⟨a, l⟩ <;> simp_all
  have h : ∀ t ∈ gt, (fill S gr gt A).map S (gr.getD 0 0, t) = o := fun t ht => by rw [fill_interpolates hS gr gt nr nt A _ t hm ht, hA]
  have key : ∀ (vals : ℕ → ℕ → ℝ) (a : ℝ), (∀ t ∈ gt, S.eval (S.build gr gt vals) (gr.getD 0 0, t) = a) → S.coef (S.build gr gt vals) 0 k = a := by
    intro vals a ha
    have := hE.unisolvent (fun k => S.coef (S.build gr gt vals) 0 k - a) (fun t ht => by
      simp only [sub_mul, Finset.sum_sub_distrib, ← Finset.mul_sum]
      rw [← hE.edge, ha t ht, hE.unity t ht]; ring) k hk
    exact sub_eq_zero.1 this
  obtain ⟨x, y⟩ := o
  exact Prod.ext (key _ x fun t ht => congrArg Prod.fst (h t ht)) (key _ y fun t ht => congrArg Prod.snd (h t ht))

/-! ## Instances -/

/-- The Lagrange polynomial of the point `i` of a list. -/
noncomputable def basis (g : List ℝ) (i : ℕ) : Polynomial ℝ := Lagrange.basis (Finset.range g.length) (fun k => g.getD k 0) i

/-- Tensor product polynomials, as an instance of the splines: one cell in each direction, of as large a degree as needed. -/
noncomputable def tensor : Splines (List ℝ × List ℝ × (ℕ → ℕ → ℝ)) where
  build gr gt vals := (gr, gt, vals)
  eval c p := ∑ i ∈ Finset.range c.1.length, ∑ j ∈ Finset.range c.2.1.length, c.2.2 i j * (basis c.1 i).eval p.1 * (basis c.2.1 j).eval p.2
  dr c p := ∑ i ∈ Finset.range c.1.length, ∑ j ∈ Finset.range c.2.1.length, c.2.2 i j * (basis c.1 i).derivative.eval p.1 * (basis c.2.1 j).eval p.2
  dtheta c p := ∑ i ∈ Finset.range c.1.length, ∑ j ∈ Finset.range c.2.1.length, c.2.2 i j * (basis c.1 i).eval p.1 * (basis c.2.1 j).derivative.eval p.2
  coef c := c.2.2

theorem basis_eval {g : List ℝ} (n : g.Nodup) {i k : ℕ} (hi : i < g.length) (hk : k < g.length) : (basis g i).eval (g.getD k 0) = if i = k then 1 else 0 := by
  have hinj : Set.InjOn (fun k => g.getD k 0) (Finset.range g.length : Set ℕ) := by
    intro a ha b hb hab
    simp only [Finset.coe_range, Set.mem_Iio] at ha hb
    simp only [List.getD_eq_getElem?_getD, List.getElem?_eq_getElem ha, List.getElem?_eq_getElem hb, Option.getD_some] at hab
    exact (List.Nodup.getElem_inj_iff n).1 hab
  unfold basis
  split_ifs with h
  · subst h
    exact Lagrange.eval_basis_self hinj (by simpa using hi)
  · exact Lagrange.eval_basis_of_ne (v := fun k => g.getD k 0) h (by simpa using hk)

/-- The contract can be met, for every grid. -/
theorem tensor_contract : Contract tensor where
  interpolates gr gt vals i j nr nt hi hj := by
    change ∑ a ∈ Finset.range gr.length, ∑ b ∈ Finset.range gt.length, vals a b * (basis gr a).eval (gr.getD i 0) * (basis gt b).eval (gt.getD j 0) = vals i j
    rw [Finset.sum_eq_single i, Finset.sum_eq_single j]
    · rw [basis_eval nr hi hi, basis_eval nt hj hj]; simp
    · intro b hb hbj
      rw [basis_eval nt (by simpa using hb) hj, if_neg hbj, mul_zero]
    · intro h; simp [hj] at h
    · intro a ha hai
      refine Finset.sum_eq_zero fun b _ => ?_
      rw [basis_eval nr (by simpa using ha) hi, if_neg hai]; simp
    · intro h; simp [hi] at h
  derivR c r t := by
    simp only [tensor]
    refine HasDerivAt.fun_sum fun i _ => ?_
    refine HasDerivAt.fun_sum fun j _ => ?_
    exact ((Polynomial.hasDerivAt _ r).const_mul _).mul_const _
  derivTheta c r t := by
    simp only [tensor]
    refine HasDerivAt.fun_sum fun i _ => ?_
    refine HasDerivAt.fun_sum fun j _ => ?_
    exact (Polynomial.hasDerivAt _ t).const_mul _

/-- The tensor product polynomials meet the contract at the first radial point. -/
theorem tensor_edge {gr gt : List ℝ} (nr : gr.Nodup) (nt : gt.Nodup) (hg : 0 < gr.length) : EdgeContract tensor gr gt gt.length fun k t => (basis gt k).eval t where
  edge vals t := by
    change ∑ a ∈ Finset.range gr.length, ∑ b ∈ Finset.range gt.length, vals a b * (basis gr a).eval (gr.getD 0 0) * (basis gt b).eval t = ∑ k ∈ Finset.range gt.length, vals 0 k * (basis gt k).eval t
    rw [Finset.sum_eq_single 0]
    · refine Finset.sum_congr rfl fun k _ => ?_
      rw [basis_eval nr hg hg]; simp
    · intro a ha h0
      refine Finset.sum_eq_zero fun b _ => ?_
      rw [basis_eval nr (by simpa using ha) hg, if_neg h0]; simp
    · intro h; simp at h; simp [h] at hg
  unity t ht := by
    obtain ⟨j, hj, rfl⟩ := List.mem_iff_getElem.1 ht
    have ej : gt[j] = gt.getD j 0 := by simp [hj]
    rw [ej, Finset.sum_eq_single j]
    · rw [basis_eval nt hj hj]; simp
    · intro k hk hkj; rw [basis_eval nt (by simpa using hk) hj, if_neg hkj]
    · intro h; simp [hj] at h
  unisolvent a h k hk := by
    have := h (gt.getD k 0) (by rw [List.getD_eq_getElem?_getD, List.getElem?_eq_getElem hk]; simp)
    rw [Finset.sum_eq_single k] at this
    · rw [basis_eval nt hk hk] at this; simpa using this
    · intro j hj hjk; rw [basis_eval nt (by simpa using hj) hk, if_neg hjk, mul_zero]
    · intro h; simp [hk] at h

/-- The control points of the circle mapping. -/
example : (fill tensor [0, 1, 2] [0, 3] fun p => (7 + p.1 * Real.cos p.2, 8 + p.1 * Real.sin p.2)).controlPoint tensor 0 1 = (7, 8) :=
  c110_control_points tensor_contract (by norm_num) (by norm_num) (by simp) (tensor_edge (by norm_num) (by norm_num) (by simp)) _ (7, 8) (by intro t; simp) 1 (by simp)

/-- A refinement with 4 times 3 cells of the square `[0, 1]²`; the points are the break points. -/
noncomputable def four : Refinement where
  ncellsR := 4
  ncellsTheta := 3
  uniformR := false
  uniformTheta := false
  rMin := 0
  rMax := 1
  thetaMin := 0
  thetaMax := 1
  grevilleR := id
  grevilleTheta := id

/-- The hypotheses of the theorems on the original grid are met: a builder is made, another refined one too, and the latter is destroyed. -/
example (A : Pt → Pt) (w : World (List ℝ × List ℝ × (ℕ → ℕ → ℝ))) (hw : w.refined = false) :
    ∃ w', run tensor four [0, 1, 2] [0, 3] w [.make 0 A, .makeRefined 1 A, .destroy 1] = .ok w' ∧ useMap tensor w' 0 (2, 3) = some (A (2, 3)) ∧ ∀ p, useMap tensor w' 1 p = none := by
  have hex : ∃ w', run tensor four [0, 1, 2] [0, 3] w [.make 0 A, .makeRefined 1 A, .destroy 1] = .ok w' := by
    simp [run, step, Refinement.compiles, four, hw]
  obtain ⟨w', h⟩ := hex
  refine ⟨w', h, ?_, ?_⟩
  · exact c110_mapping tensor_contract four _ _ (by norm_num) (by norm_num) w w' 0 A _ (by intro o ho; fin_cases ho <;> simp) h 2 3 (by simp) (by simp)
  · intro p
    have h2 : ∃ w₂, run tensor four [0, 1, 2] [0, 3] w₂ [.destroy 1] = .ok w' := by
      simp only [run, step, Refinement.compiles, four, hw] at h
      simp only [run, step]
      exact ⟨_, h⟩
    obtain ⟨w₂, h2⟩ := h2
    exact c110_dangling tensor four _ _ w₂ w' 1 [] (by intro o ho; simp at ho) h2 p

/-- Those of the refined mapping: at the point `(1/4, 2/3)` of the refined grid the mapping is the analytical one. -/
example (A : Pt → Pt) (w : World (List ℝ × List ℝ × (ℕ → ℕ → ℝ))) (hw : w.refined = false) :
    ∃ w', run tensor four [0, 1, 2] [0, 3] w [.makeRefined 1 A] = .ok w' ∧ useMap tensor w' 1 (1 / 4, 2 / 3) = some (A (1 / 4, 2 / 3)) := by
  obtain ⟨w', h⟩ : ∃ w', run tensor four [0, 1, 2] [0, 3] w [.makeRefined 1 A] = .ok w' := by simp [run, step, Refinement.compiles, four, hw]
  obtain ⟨_, _, _, p1, q1⟩ := c110_refined_breaks false 0 1 4 (by norm_num) one_pos
  obtain ⟨_, _, _, p2, q2⟩ := c110_refined_breaks false 0 1 3 (by norm_num) one_pos
  refine ⟨w', h, c110_refined_mapping tensor_contract four _ _ w w' 1 A [] (by intro o ho; simp at ho) h (p1.imp fun h => ne_of_lt h) (p2.imp fun h => ne_of_lt h) _ _ ?_ ?_⟩
  · have := List.mem_of_getElem? (q1 1 (by norm_num)); norm_num at this ⊢; exact this
  · have := List.mem_of_getElem? (q2 2 (by norm_num)); norm_num at this ⊢; exact this

/-- A mapping with an O-point: all the hypotheses of the O-point theorem are met by the circle mapping on a grid starting at `r = 0`. -/
example : (fill tensor [0, 1, 2] [0, 3] fun p => (p.1 * Real.cos p.2, p.1 * Real.sin p.2)).oPoint tensor true = (0, 0) :=
  (c110_o_point tensor_contract [0, 1, 2] [0, 3] (by norm_num) (by norm_num) _ (0, 0) (by intro t; simp) rfl (by simp)).2.2 (by simp)

/-- On a domain that does not contain the O-point (`r` in `[1, 2]`) the two versions of the constructor disagree: on the host `o_point()` is the extrapolated value at `(0, 0)`, on a device the image of the first grid point. -/
theorem c110_o_point_annulus : (fill tensor [1, 2] [0, 1] fun p => (p.1, p.1 * p.2)).oPoint tensor true = (0, 0) ∧ (fill tensor [1, 2] [0, 1] fun p => (p.1, p.1 * p.2)).oPoint tensor false = (1, 0) := by
  constructor
  · have e : (({1, 0} : Finset ℕ).erase 0) = {1} := by decide
    unfold Data.oPoint fill Data.map tensor
    simp [basis, Lagrange.basis, Lagrange.basisDivisor, Finset.range_add_one, e]
    norm_num
  · unfold Data.oPoint
    simp only [Bool.false_eq_true, if_false]
    change (fill tensor [1, 2] [0, 1] fun p => (p.1, p.1 * p.2)).map tensor (1, 0) = (1, 0)
    rw [fill_interpolates tensor_contract _ _ (by norm_num) (by norm_num) _ 1 0 (by simp) (by simp)]
    simp

end Verif.DiscreteMapping
