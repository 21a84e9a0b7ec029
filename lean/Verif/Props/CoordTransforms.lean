import Verif.Model.CoordTransforms
import Verif.Props.CircularMapping
import Mathlib.Algebra.Order.Field.Basic
import Mathlib.LinearAlgebra.Matrix.NonsingularInverse

/-!
# C33: barycentric and linear coordinate changes; C34 (first part): toroidal and cylindrical mappings
-/

namespace Verif.CoordTransforms

open Verif.Mappings

section bary
variable {K : Type*} [Field K]

/-- `div` is the oriented double area of the triangle: it vanishes exactly when the corners are aligned. -/
theorem div_eq (t : Triangle K) :
    t.div = (t.x1 - t.x3) * (t.y2 - t.y3) - (t.x2 - t.x3) * (t.y1 - t.y3) := by
  unfold Triangle.div; ring

/-- **C33** Cartesian → barycentric → Cartesian is the identity for a non-degenerate triangle. -/
theorem c33_cart_bary_cart (t : Triangle K)
    (h : (t.x1 - t.x3) * (t.y2 - t.y3) - (t.x2 - t.x3) * (t.y1 - t.y3) ≠ 0) (p : K × K) :
    baryToCart t (cartToBary t p) = p := by
  rw [← div_eq] at h
  unfold baryToCart cartToBary
  have hd : t.div = (t.y2 - t.y3) * (t.x1 - t.x3) + (t.x3 - t.x2) * (t.y1 - t.y3) := rfl
  ext
  · dsimp only
    field_simp
    rw [hd]; ring
  · dsimp only
    field_simp
    rw [hd]; ring

/-- **C33** The barycentric coordinates computed sum to one. -/
theorem c33_sum_one (t : Triangle K) (p : K × K) :
    (cartToBary t p).1 + (cartToBary t p).2.1 + (cartToBary t p).2.2 = 1 := by
  unfold cartToBary; ring

/-- **C33** Barycentric → Cartesian → barycentric is the identity on coordinates summing to one. -/
theorem c33_bary_cart_bary (t : Triangle K)
    (h : (t.x1 - t.x3) * (t.y2 - t.y3) - (t.x2 - t.x3) * (t.y1 - t.y3) ≠ 0) (l : K × K × K)
    (hl : l.1 + l.2.1 + l.2.2 = 1) : cartToBary t (baryToCart t l) = l := by
  obtain ⟨a, b, c⟩ := l
  have hc : c = 1 - a - b := by linear_combination hl
  rw [← div_eq] at h
  have e1 : (cartToBary t (baryToCart t (a, b, c))).1 = a := by
    unfold cartToBary baryToCart
    dsimp only
    rw [div_eq_iff h, hc]; unfold Triangle.div; ring
  have e2 : (cartToBary t (baryToCart t (a, b, c))).2.1 = b := by
    unfold cartToBary baryToCart
    dsimp only
    rw [div_eq_iff h, hc]; unfold Triangle.div; ring
  have e3 := c33_sum_one t (baryToCart t (a, b, c))
  rw [e1, e2] at e3
  have e4 : (cartToBary t (baryToCart t (a, b, c))).2.2 = c := by linear_combination e3 - hl
  exact Prod.ext e1 (Prod.ext e2 e4)

/-- **C33** The corners have the unit barycentric coordinates. -/
theorem c33_corners (t : Triangle K)
    (h : (t.x1 - t.x3) * (t.y2 - t.y3) - (t.x2 - t.x3) * (t.y1 - t.y3) ≠ 0) :
    cartToBary t (t.x1, t.y1) = (1, 0, 0) ∧ cartToBary t (t.x2, t.y2) = (0, 1, 0) ∧ cartToBary t (t.x3, t.y3) = (0, 0, 1) := by
  refine ⟨?_, ?_, ?_⟩
  · rw [← c33_bary_cart_bary t h (1, 0, 0) (by ring)]; congr 1; simp [baryToCart]
  · rw [← c33_bary_cart_bary t h (0, 1, 0) (by ring)]; congr 1; simp [baryToCart]
  · rw [← c33_bary_cart_bary t h (0, 0, 1) (by ring)]; congr 1; simp [baryToCart]

/-- **C33** (ordered field) A point has three nonnegative barycentric coordinates exactly when it is a convex combination of the
corners, that is, when it is in the triangle. -/
theorem c33_inside {K : Type*} [Field K] [LinearOrder K] [IsStrictOrderedRing K] (t : Triangle K)
    (h : (t.x1 - t.x3) * (t.y2 - t.y3) - (t.x2 - t.x3) * (t.y1 - t.y3) ≠ 0) (p : K × K) :
    (0 ≤ (cartToBary t p).1 ∧ 0 ≤ (cartToBary t p).2.1 ∧ 0 ≤ (cartToBary t p).2.2) ↔
      ∃ a b c : K, 0 ≤ a ∧ 0 ≤ b ∧ 0 ≤ c ∧ a + b + c = 1 ∧
        p = (a * t.x1 + b * t.x2 + c * t.x3, a * t.y1 + b * t.y2 + c * t.y3) := by
  constructor
  · rintro ⟨h1, h2, h3⟩
    refine ⟨_, _, _, h1, h2, h3, c33_sum_one t p, ?_⟩
    conv_lhs => rw [← c33_cart_bary_cart t h p]
    unfold baryToCart
    ext <;> dsimp only <;> ring
  · rintro ⟨a, b, c, ha, hb, hc, hs, rfl⟩
    have : cartToBary t (a * t.x1 + b * t.x2 + c * t.x3, a * t.y1 + b * t.y2 + c * t.y3) = (a, b, c) := by
      rw [← c33_bary_cart_bary t h (a, b, c) hs]
      congr 1
      unfold baryToCart
      ext <;> dsimp only <;> ring
    rw [this]; exact ⟨ha, hb, hc⟩

/-- Instance: a triangle that is not degenerate, and a point inside. -/
example : let t : Triangle ℚ := ⟨0, 0, 2, 0, 0, 4⟩
    (t.x1 - t.x3) * (t.y2 - t.y3) - (t.x2 - t.x3) * (t.y1 - t.y3) ≠ 0 ∧ cartToBary t (1/2, 1) = (1/2, 1/4, 1/4) := by
  refine ⟨by norm_num, ?_⟩
  unfold cartToBary Triangle.div
  norm_num

/-- **C33** The linear change of coordinate and its inverse mapping are mutually inverse, the inverse of the inverse is the
original one, and reference points correspond. -/
theorem c33_linear (m : Linear K) (h : m.scale ≠ 0) (c : K) :
    m.inverse.apply (m.apply c) = c ∧ m.apply (m.inverse.apply c) = c ∧ m.inverse.inverse = m ∧
    m.apply m.refIn = m.refOut := by
  obtain ⟨a, b, s⟩ := m
  unfold Linear.inverse Linear.apply
  dsimp only at h ⊢
  refine ⟨by field_simp; ring, by field_simp; ring, by simp, by ring⟩

/-- **C33** The declared inverse Jacobian is the inverse of the Jacobian and the Jacobian of the inverse mapping. -/
theorem c33_linear_inverse_jacobian (m : Linear K) (h : m.scale ≠ 0) (c : K) :
    m.jacobian c * m.invJacobian c = 1 ∧ m.inverse.jacobian (m.apply c) = m.invJacobian c := by
  unfold Linear.jacobian Linear.invJacobian Linear.inverse
  exact ⟨mul_one_div_cancel h, rfl⟩

end bary

/-- **C33** The Jacobian of the linear change of coordinate is its derivative. -/
theorem c33_linear_deriv (m : Linear ℝ) (c : ℝ) : HasDerivAt m.apply (m.jacobian c) c := by
  unfold Linear.jacobian
  have : m.apply = fun c => m.refOut + (c - m.refIn) * m.scale := rfl
  rw [this]
  simpa using (((hasDerivAt_id c).sub_const m.refIn).mul_const m.scale).const_add m.refOut

example : (⟨1, 2, -3⟩ : Linear ℚ).scale ≠ 0 := by norm_num

/-! ### Three-dimensional mappings -/

open Real

/-- Coordinate number `i` of a point. -/
def coord (p : P3) : Fin 3 → ℝ := ![p.1, p.2.1, p.2.2]

/-- Specification: `M` is the matrix of the partial derivatives of `F` at `p`. -/
def IsJacobian3 (F : P3 → P3) (M : Fin 3 → Fin 3 → ℝ) (p : P3) : Prop :=
  ∀ i, HasDerivAt (fun t => coord (F (t, p.2.1, p.2.2)) i) (M i 0) p.1 ∧
    HasDerivAt (fun t => coord (F (p.1, t, p.2.2)) i) (M i 1) p.2.1 ∧
    HasDerivAt (fun t => coord (F (p.1, p.2.1, t)) i) (M i 2) p.2.2

/-- **C34** If the 2-D mapping has the Jacobian matrix it declares, so has the toroidal mapping. -/
theorem c34_toroidal_jacobian (m : Map2D) (p : P3) (h : IsJacobian m.op (m.mat (p.1, p.2.1)) (p.1, p.2.1)) :
    IsJacobian3 (torToCyl m) (torJacMat m p) p := by
  obtain ⟨h00, h01, h10, h11⟩ := h
  intro i
  fin_cases i
  · exact ⟨h00, h01, hasDerivAt_const p.2.2 (m.op (p.1, p.2.1)).1⟩
  · exact ⟨h10, h11, hasDerivAt_const p.2.2 (m.op (p.1, p.2.1)).2⟩
  · exact ⟨hasDerivAt_const p.1 (-p.2.2), hasDerivAt_const p.2.1 (-p.2.2), hasDerivAt_neg p.2.2⟩

/-- **C34** `jacobian` is the determinant of the Jacobian matrix, the components agree with the matrix, and the inverse matrix is
the inverse, whenever this holds for the 2-D mapping. -/
theorem c34_toroidal_matrix (m : Map2D) (p : P3) :
    (m.jac (p.1, p.2.1) = (Matrix.of (m.mat (p.1, p.2.1))).det → torJac m p = (Matrix.of (torJacMat m p)).det) ∧
    (∀ i j, torJacComp m i j p = torJacMat m p i j) ∧
    (Matrix.of (m.mat (p.1, p.2.1)) * Matrix.of (m.inv (p.1, p.2.1)) = 1 →
      Matrix.of (torJacMat m p) * Matrix.of (torInvJacMat m p) = 1 ∧
      Matrix.of (torInvJacMat m p) * Matrix.of (torJacMat m p) = 1) := by
  refine ⟨?_, ?_, ?_⟩
  · intro h
    unfold torJac torJacMat first2
    rw [h, Matrix.det_fin_two, Matrix.det_fin_three]
    simp [Matrix.cons_val_zero, Matrix.cons_val_one]
    ring
  · intro i j
    fin_cases i <;> fin_cases j <;> simp [torJacComp, torJacMat]
  · intro h
    have key : Matrix.of (torJacMat m p) * Matrix.of (torInvJacMat m p) = 1 := by
      have e : ∀ i j, (Matrix.of (m.mat (p.1, p.2.1)) * Matrix.of (m.inv (p.1, p.2.1))) i j = (1 : Matrix (Fin 2) (Fin 2) ℝ) i j :=
        fun i j => by rw [h]
      simp only [Matrix.mul_apply, Fin.sum_univ_two, Matrix.of_apply] at e
      have e00 := e 0 0
      have e01 := e 0 1
      have e10 := e 1 0
      have e11 := e 1 1
      rw [Matrix.one_apply] at e00 e01 e10 e11
      ext i j
      rw [Matrix.mul_apply, Fin.sum_univ_three, Matrix.one_apply]
      fin_cases i <;> fin_cases j <;> simp [torJacMat, torInvJacMat, first2] at * <;> assumption
    exact ⟨key, mul_eq_one_comm.1 key⟩

/-- **C34** The Jacobian matrix of the cylindrical mapping is the matrix of its partial derivatives. -/
theorem c34_cylindrical_jacobian (p : P3) : IsJacobian3 cylToCart (cylJacMat p) p := by
  intro i
  fin_cases i
  · refine ⟨?_, hasDerivAt_const p.2.1 (p.1 * cos p.2.2), ?_⟩
    · simpa using! (hasDerivAt_id p.1).mul_const (cos p.2.2)
    · have h := (hasDerivAt_cos p.2.2).const_mul p.1
      rw [show p.1 * -sin p.2.2 = -p.1 * sin p.2.2 by ring] at h
      exact h
  · refine ⟨?_, hasDerivAt_const p.2.1 (p.1 * sin p.2.2), ?_⟩
    · simpa using! (hasDerivAt_id p.1).mul_const (sin p.2.2)
    · simpa using! (hasDerivAt_sin p.2.2).const_mul p.1
  · exact ⟨hasDerivAt_const p.1 p.2.1, hasDerivAt_id p.2.1, hasDerivAt_const p.2.2 p.2.1⟩

/-- **C34** `jacobian`, `jacobian_component`, `inv_jacobian_matrix` and `inv_jacobian_component` of the cylindrical mapping agree with its
Jacobian matrix. -/
theorem c34_cylindrical_matrix (p : P3) :
    cylJac p = (Matrix.of (cylJacMat p)).det ∧ (∀ i j, cylJacComp i j p = cylJacMat p i j) ∧
    (∀ i j, cylInvJacComp i j p = cylInvJacMat p i j) ∧
    (p.1 ≠ 0 → Matrix.of (cylJacMat p) * Matrix.of (cylInvJacMat p) = 1 ∧
      Matrix.of (cylInvJacMat p) * Matrix.of (cylJacMat p) = 1) := by
  have hsc := sin_sq_add_cos_sq p.2.2
  refine ⟨?_, ?_, ?_, ?_⟩
  · unfold cylJac cylJacMat
    rw [Matrix.det_fin_three]
    simp [Matrix.cons_val_zero, Matrix.cons_val_one]
    linear_combination p.1 * hsc
  · intro i j; fin_cases i <;> fin_cases j <;> simp [cylJacComp, cylJacMat]
  · intro i j; fin_cases i <;> fin_cases j <;> simp [cylInvJacComp, cylInvJacMat]
  · intro hr
    have key : Matrix.of (cylJacMat p) * Matrix.of (cylInvJacMat p) = 1 := by
      ext i j
      rw [Matrix.mul_apply, Fin.sum_univ_three, Matrix.one_apply]
      fin_cases i <;> fin_cases j <;> simp [cylJacMat, cylInvJacMat] <;> field_simp <;> first | linear_combination hsc | ring
    exact ⟨key, mul_eq_one_comm.1 key⟩

/-- The inverse cylindrical mapping is the inverse circular one around the origin, next to the unchanged height. -/
theorem cartToCyl_eq (p : P3) :
    cartToCyl p = ((cartToCirc (0, 0) (p.1, p.2.1)).1, p.2.2, (cartToCirc (0, 0) (p.1, p.2.1)).2) := by
  unfold cartToCyl cartToCirc
  simp only [sub_zero]
  refine Prod.ext rfl (Prod.ext rfl ?_)
  dsimp only
  split_ifs with h1 h2 h2
  · exact absurd h2 (not_le.2 h1)
  · ring
  · ring
  · exact absurd (not_lt.1 h1) h2

/-- **C34** Cartesian → cylindrical → Cartesian is the identity everywhere (also on the axis). -/
theorem c34_cart_cyl_cart (p : P3) : cylToCart (cartToCyl p) = p := by
  have h := c30_cart_circ_cart (0, 0) (p.1, p.2.1)
  rw [cartToCyl_eq]
  unfold circToCart at h
  unfold cylToCart
  simp only [add_zero, Prod.mk.injEq] at h
  exact Prod.ext h.1 (Prod.ext h.2 rfl)

/-- **C34** Cylindrical → Cartesian → cylindrical is the identity for `R > 0` and `zeta ∈ [0, 2π)`, and the result always has
`R ≥ 0` and `zeta ∈ [0, 2π)`. -/
theorem c34_cyl_cart_cyl (p : P3) :
    (0 < p.1 → 0 ≤ p.2.2 → p.2.2 < 2 * π → cartToCyl (cylToCart p) = p) ∧
    0 ≤ (cartToCyl p).1 ∧ 0 ≤ (cartToCyl p).2.2 ∧ (cartToCyl p).2.2 < 2 * π := by
  constructor
  · intro hr h0 h1
    have h := c30_circ_cart_circ (0, 0) hr h0 h1
    rw [cartToCyl_eq]
    unfold circToCart at h
    simp only [add_zero] at h
    unfold cylToCart
    dsimp only
    rw [h]
  · rw [cartToCyl_eq]
    have := c30_range (0, 0) (p.1, p.2.1)
    exact this

/-- **C34** The Jacobian matrix of the inverse cylindrical mapping is the matrix of its partial derivatives away from the half plane
where the angle jumps, and `jacobian` is its determinant away from the axis. -/
theorem c34_cart_cyl_jacobian (p : P3) :
    ((p.1 < 0 ∨ p.2.1 ≠ 0) → IsJacobian3 cartToCyl (cartToCylJacMat p) p) ∧
    ((p.1 ≠ 0 ∨ p.2.1 ≠ 0) → cartToCylJac p = (Matrix.of (cartToCylJacMat p)).det) ∧
    ((p.1 ≠ 0 ∨ p.2.1 ≠ 0) → Matrix.of (cartToCylJacMat p) = Matrix.of (cylInvJacMat (cartToCyl p))) := by
  refine ⟨?_, ?_, ?_⟩
  · intro h
    have hJ := c31_cart_to_circ_jacobian (o := (0, 0)) (p := (p.1, p.2.1)) (by simpa using h.symm)
    obtain ⟨h00, h01, h10, h11⟩ := hJ
    simp only [cartToCircJacMat, sub_zero, Matrix.cons_val_zero, Matrix.cons_val_one] at h00 h01 h10 h11
    have hf : cartToCyl = fun p => ((cartToCirc (0, 0) (p.1, p.2.1)).1, p.2.2, (cartToCirc (0, 0) (p.1, p.2.1)).2) :=
      funext cartToCyl_eq
    rw [hf]
    intro i
    fin_cases i
    · exact ⟨h00, h01, hasDerivAt_const p.2.2 (cartToCirc (0, 0) (p.1, p.2.1)).1⟩
    · exact ⟨hasDerivAt_const p.1 p.2.2, hasDerivAt_const p.2.1 p.2.2, hasDerivAt_id p.2.2⟩
    · exact ⟨h10, h11, hasDerivAt_const p.2.2 (cartToCirc (0, 0) (p.1, p.2.1)).2⟩
  · intro h
    have hpos : 0 < p.1 * p.1 + p.2.1 * p.2.1 := by
      rcases h with h | h
      · have := mul_self_pos.2 h; nlinarith [mul_self_nonneg p.2.1]
      · have := mul_self_pos.2 h; nlinarith [mul_self_nonneg p.1]
    have hs : sqrt (p.1 * p.1 + p.2.1 * p.2.1) ≠ 0 := (sqrt_pos.2 hpos).ne'
    have hsq : sqrt (p.1 * p.1 + p.2.1 * p.2.1) * sqrt (p.1 * p.1 + p.2.1 * p.2.1) = p.1 * p.1 + p.2.1 * p.2.1 :=
      mul_self_sqrt hpos.le
    unfold cartToCylJac cartToCylJacMat
    rw [Matrix.det_fin_three]
    simp [Matrix.cons_val_zero, Matrix.cons_val_one]
    set s := sqrt (p.1 * p.1 + p.2.1 * p.2.1) with hsdef
    have hp2 : p.1 * p.1 + p.2.1 * p.2.1 ≠ 0 := hpos.ne'
    rw [← hsq] at hp2 ⊢
    field_simp
    linear_combination (-1 : ℝ) * hsq
  · intro h
    have hpos : 0 < p.1 * p.1 + p.2.1 * p.2.1 := by
      rcases h with h | h
      · have := mul_self_pos.2 h; nlinarith [mul_self_nonneg p.2.1]
      · have := mul_self_pos.2 h; nlinarith [mul_self_nonneg p.1]
    have hs : sqrt (p.1 * p.1 + p.2.1 * p.2.1) ≠ 0 := (sqrt_pos.2 hpos).ne'
    have hsq : sqrt (p.1 * p.1 + p.2.1 * p.2.1) * sqrt (p.1 * p.1 + p.2.1 * p.2.1) = p.1 * p.1 + p.2.1 * p.2.1 :=
      mul_self_sqrt hpos.le
    have hb := c34_cart_cyl_cart p
    have hr : (cartToCyl p).1 = sqrt (p.1 * p.1 + p.2.1 * p.2.1) := rfl
    unfold cylToCart at hb
    have hx : (cartToCyl p).1 * cos (cartToCyl p).2.2 = p.1 := congrArg Prod.fst hb
    have hy : (cartToCyl p).1 * sin (cartToCyl p).2.2 = p.2.1 := congrArg (fun q : P3 => q.2.1) hb
    rw [hr] at hx hy
    have hc : cos (cartToCyl p).2.2 = p.1 / sqrt (p.1 * p.1 + p.2.1 * p.2.1) := by
      rw [eq_div_iff hs]; linear_combination hx
    have hsn : sin (cartToCyl p).2.2 = p.2.1 / sqrt (p.1 * p.1 + p.2.1 * p.2.1) := by
      rw [eq_div_iff hs]; linear_combination hy
    congr 1
    unfold cartToCylJacMat cylInvJacMat
    rw [hc, hsn, hr]
    have e1 : -p.2.1 / (p.1 * p.1 + p.2.1 * p.2.1) = -1 / sqrt (p.1 * p.1 + p.2.1 * p.2.1) * (p.2.1 / sqrt (p.1 * p.1 + p.2.1 * p.2.1)) := by
      rw [div_mul_div_comm, hsq]; ring
    have e2 : p.1 / (p.1 * p.1 + p.2.1 * p.2.1) = 1 / sqrt (p.1 * p.1 + p.2.1 * p.2.1) * (p.1 / sqrt (p.1 * p.1 + p.2.1 * p.2.1)) := by
      rw [div_mul_div_comm, hsq]; ring
    dsimp only
    rw [e1, e2]

/-- **C34** (defect) `CartesianToCylindrical::jacobian_component` compiles for no pair of index tags: its `static_assert`s require the row
tag to be both a Cartesian dimension other than `Z` and a cylindrical one. -/
theorem c34_component_never_compiles : ∀ t1 t2 : ℕ, cartToCylJacCompCompiles t1 t2 = false := by
  intro t1 t2
  unfold cartToCylJacCompCompiles
  simp only [List.mem_cons, List.not_mem_nil, or_false, Bool.and_eq_false_iff, decide_eq_false_iff_not]
  omega

/-- Instance: a non-trivial point of the cylinder. -/
example : (0 : ℝ) < ((2, 5, 1) : P3).1 ∧ (0 : ℝ) ≤ ((2, 5, 1) : P3).2.2 ∧ ((2, 5, 1) : P3).2.2 < 2 * π := by
  have := pi_gt_three
  refine ⟨by norm_num, by norm_num, ?_⟩
  show (1 : ℝ) < 2 * π
  linarith

/-- Instance: the toroidal mapping over the circular mapping satisfies every hypothesis. -/
noncomputable def circular2D : Map2D := ⟨circToCart (3, 0), circJac, circJacMat, circInvJacMat⟩

example (p : P3) (hp : p.1 ≠ 0) : IsJacobian circular2D.op (circular2D.mat (p.1, p.2.1)) (p.1, p.2.1) ∧
    circular2D.jac (p.1, p.2.1) = (Matrix.of (circular2D.mat (p.1, p.2.1))).det ∧
    Matrix.of (circular2D.mat (p.1, p.2.1)) * Matrix.of (circular2D.inv (p.1, p.2.1)) = 1 :=
  ⟨c31_circ_jacobian _ _, c31_circ_det (p.1, p.2.1), (c31_circ_inverse (p := (p.1, p.2.1)) hp).2⟩

end Verif.CoordTransforms
