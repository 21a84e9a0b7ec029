import Verif.Model.CombinedMapping
import Verif.Props.VectorMapper
import Verif.Props.CzarnyMapping
import Mathlib.Analysis.Calculus.FDeriv.Comp
import Mathlib.Analysis.Calculus.FDeriv.Pi
import Mathlib.Analysis.Calculus.Deriv.Pi
import Mathlib.Analysis.Calculus.Deriv.Prod
import Mathlib.Analysis.SpecialFunctions.Sqrt
import Mathlib.Analysis.Calculus.FDeriv.Mul
import Mathlib.Analysis.Calculus.FDeriv.Equiv
import Mathlib.Analysis.SpecialFunctions.Trigonometric.Deriv
import Mathlib.Topology.Algebra.Module.FiniteDimension
import Mathlib.LinearAlgebra.Matrix.ToLin

/-!
# C34 (second part): combined mappings, their Jacobians and the treatment of the O-point
-/

namespace Verif.CombinedMapping

open Matrix Real Verif.Mappings

/-- The linear map of a matrix. -/
noncomputable def lin (M : M2) : Pt →L[ℝ] Pt := LinearMap.toContinuousLinearMap (Matrix.toLin' (Matrix.of M))

/-- Specification: `M` is the (total) derivative of `F` at `c`. -/
def IsTotalJacobian (F : Pt → Pt) (M : M2) (c : Pt) : Prop := HasFDerivAt F (lin M) c

theorem tmul_eq (A B : M2) : Matrix.of (tmul A B) = Matrix.of A * Matrix.of B := by
  ext i k; simp [tmul, Matrix.mul_apply]

theorem lin_tmul (A B : M2) : lin (tmul A B) = (lin A).comp (lin B) := by
  ext v i
  simp only [lin, tmul_eq, LinearMap.coe_toContinuousLinearMap', ContinuousLinearMap.coe_comp', Function.comp_apply, Matrix.toLin'_mul]
  rfl

/-- **C34** Chain rule: the Jacobian matrix of a combined mapping (argument coordinate) is the derivative of the composition. -/
theorem c34_combined_jacobian (m1 m2 : Mapping) (c : Pt) (h1 : IsTotalJacobian m1.op (m1.jac (m2.op c)) (m2.op c))
    (h2 : IsTotalJacobian m2.op (m2.jac c) c) : IsTotalJacobian (op m1 m2) (jacArg m1 m2 c) c := by
  unfold IsTotalJacobian jacArg
  rw [lin_tmul]
  exact HasFDerivAt.comp c h1 h2

/-- The inverse Jacobian used by the combined mapping is right. -/
def InvOk (m : Mapping) (c : Pt) : Prop :=
  Matrix.of (m.jac c) * Matrix.of (m.invJac c) = 1 ∧ Matrix.of (m.invJac c) * Matrix.of (m.jac c) = 1

/-- A mapping without its own inverse Jacobian gets the right one where its Jacobian does not vanish. -/
theorem invOk_of_det (m : Mapping) (c : Pt) (h : m.own = none) (hd : (Matrix.of (m.jac c)).det ≠ 0) : InvOk m c := by
  have := Verif.VectorMapper.c35_inverse_jacobian (m.jac c) _ rfl hd
  unfold InvOk Mapping.invJac
  rw [h]
  exact ⟨this.2.1, this.2.2⟩

/-- **C34** With the Jacobian expressed on the intermediate coordinate: if `i2` is an inverse of `m2` around `a`, the matrix computed at
`m2 a` is the derivative of the composition at `a`. -/
theorem c34_combined_jacobian_intermediate (m1 m2 i2 : Mapping) (a : Pt)
    (h1 : IsTotalJacobian m1.op (m1.jac (m2.op a)) (m2.op a))
    (h2 : IsTotalJacobian i2.op (i2.jac (m2.op a)) (m2.op a)) (hi : InvOk i2 (m2.op a))
    (hc : ContinuousAt m2.op a) (hl : ∀ᶠ x in nhds a, i2.op (m2.op x) = x) :
    IsTotalJacobian (op m1 m2) (jacMid m1 i2 (m2.op a)) a := by
  have e1 : (lin (i2.jac (m2.op a))).comp (lin (i2.invJac (m2.op a))) = ContinuousLinearMap.id ℝ Pt := by
    rw [← lin_tmul]
    ext v i
    simp only [lin, tmul_eq, hi.1, LinearMap.coe_toContinuousLinearMap', Matrix.toLin'_one]
    rfl
  have e2 : (lin (i2.invJac (m2.op a))).comp (lin (i2.jac (m2.op a))) = ContinuousLinearMap.id ℝ Pt := by
    rw [← lin_tmul]
    ext v i
    simp only [lin, tmul_eq, hi.2, LinearMap.coe_toContinuousLinearMap', Matrix.toLin'_one]
    rfl
  let E : Pt ≃L[ℝ] Pt := ContinuousLinearEquiv.equivOfInverse (lin (i2.jac (m2.op a))) (lin (i2.invJac (m2.op a)))
    (fun x => by have := congrArg (fun f => f x) e2; simpa using! this)
    (fun x => by have := congrArg (fun f => f x) e1; simpa using! this)
  have h2' : HasFDerivAt i2.op (E : Pt →L[ℝ] Pt) (m2.op a) := h2
  have h3 : HasFDerivAt m2.op (E.symm : Pt →L[ℝ] Pt) a := HasFDerivAt.of_local_left_inverse hc h2' hl
  have h4 : (E.symm : Pt →L[ℝ] Pt) = lin (i2.invJac (m2.op a)) := by ext v i; rfl
  rw [h4] at h3
  unfold IsTotalJacobian jacMid
  rw [lin_tmul]
  exact HasFDerivAt.comp a h1 h3

/-- **C34** The inverse Jacobian matrix away from the O-point is the inverse of the Jacobian matrix, in both variants; the declared
determinant is the determinant. -/
theorem c34_combined_inverse (m1 m2 i2 : Mapping) (c : Pt) :
    (InvOk m1 c → InvOk i2 c → Matrix.of (jacMid m1 i2 c) * Matrix.of (nonSingularMid m1 i2 c) = 1) ∧
    (InvOk m1 (m2.op c) → InvOk m2 c → Matrix.of (jacArg m1 m2 c) * Matrix.of (nonSingularArg m1 m2 c) = 1) ∧
    (∀ J : M2, det J = (Matrix.of J).det) := by
  refine ⟨?_, ?_, ?_⟩
  · rintro h1 h2
    unfold jacMid nonSingularMid
    rw [tmul_eq, tmul_eq, Matrix.mul_assoc, ← Matrix.mul_assoc (Matrix.of (i2.invJac c)), h2.2, Matrix.one_mul, h1.1]
  · rintro h1 h2
    unfold jacArg nonSingularArg
    rw [tmul_eq, tmul_eq, Matrix.mul_assoc, ← Matrix.mul_assoc (Matrix.of (m2.jac c)), h2.1, Matrix.one_mul, h1.1]
  · intro J
    unfold det Verif.MathTools.det2
    rw [Matrix.det_fin_two]; simp only [Matrix.of_apply]; ring

theorem invJacSingular_eq (nonSing : Pt → M2) (J0 : M2) (eps r θ : ℝ) :
    invJacSingular nonSing J0 eps ![r, θ] =
      if r < eps then fun i j => (1 - r / eps) * J0 i j + r / eps * nonSing ![eps, θ] i j else nonSing ![r, θ] := rfl

/-- **C34** The inverse Jacobian of a mapping with a singular O-point: exact for `r ≥ ε`, equal to the O-point value at `r = 0`,
affine in `r` in between, and continuous in `r` if the non-singular formula is so from `ε` on. -/
theorem c34_o_point_interpolation (nonSing : Pt → M2) (J0 : M2) (eps : ℝ) (heps : 0 < eps) (θ : ℝ) :
    (∀ r, eps ≤ r → invJacSingular nonSing J0 eps ![r, θ] = nonSing ![r, θ]) ∧
    invJacSingular nonSing J0 eps ![0, θ] = J0 ∧
    (∀ s : ℝ, 0 ≤ s → s ≤ 1 → ∀ i j, invJacSingular nonSing J0 eps ![s * eps, θ] i j = (1 - s) * J0 i j + s * nonSing ![eps, θ] i j) ∧
    (∀ i j, ContinuousOn (fun r => nonSing ![r, θ] i j) (Set.Ici eps) →
      Continuous (fun r => invJacSingular nonSing J0 eps ![r, θ] i j)) := by
  have hge : ∀ r, eps ≤ r → invJacSingular nonSing J0 eps ![r, θ] = nonSing ![r, θ] := by
    intro r hr
    rw [invJacSingular_eq, if_neg (not_lt.2 hr)]
  refine ⟨hge, ?_, ?_, ?_⟩
  · rw [invJacSingular_eq, if_pos heps]
    funext i j
    simp
  · intro s h0 h1 i j
    rcases h1.lt_or_eq with h1 | h1
    · rw [invJacSingular_eq, if_pos (by nlinarith)]
      simp only [mul_div_assoc, div_self heps.ne', mul_one]
    · subst h1
      rw [one_mul, hge eps le_rfl]; ring
  · intro i j hcont
    have hlt : ∀ r, r < eps → invJacSingular nonSing J0 eps ![r, θ] i j = (1 - r / eps) * J0 i j + r / eps * nonSing ![eps, θ] i j := by
      intro r hr
      rw [invJacSingular_eq, if_pos hr]
    have hle : ∀ r, r ≤ eps → invJacSingular nonSing J0 eps ![r, θ] i j = (1 - r / eps) * J0 i j + r / eps * nonSing ![eps, θ] i j := by
      intro r hr
      rcases hr.lt_or_eq with hr | hr
      · exact hlt r hr
      · rw [hr, hge eps le_rfl, div_self heps.ne']; ring
    rw [← continuousOn_univ, ← Set.Iic_union_Ici (a := eps)]
    refine ContinuousOn.union_of_isClosed ?_ ?_ isClosed_Iic isClosed_Ici
    · refine ContinuousOn.congr (f := fun r => (1 - r / eps) * J0 i j + r / eps * nonSing ![eps, θ] i j) ?_ (fun r hr => hle r hr)
      exact (by fun_prop : Continuous _).continuousOn
    · exact hcont.congr (fun r hr => by rw [hge r hr])

/-- **C34** O-point value for two circular mappings: away from the O-point the inverse Jacobian is exactly the tabulated matrix. -/
theorem c34_o_point_circular (o1 o2 : ℝ × ℝ) (r θ : ℝ) (hr : r ≠ 0) :
    nonSingularMid (circularMapping o1) (circularMapping o2) ![r, θ] = oPointCircular := by
  have h := (c31_circ_inverse (p := (r, θ)) hr).2
  have : Matrix.of (nonSingularMid (circularMapping o1) (circularMapping o2) ![r, θ]) = 1 := by
    unfold nonSingularMid
    rw [tmul_eq]
    exact h
  have e : (1 : Matrix (Fin 2) (Fin 2) ℝ) = Matrix.of oPointCircular := by
    ext i j; fin_cases i <;> fin_cases j <;> simp [oPointCircular]
  exact Matrix.of.injective (this.trans e)

/-- **C34** O-point value for the Czarny mapping: the inverse Jacobian towards the pseudo-Cartesian coordinates tends to the tabulated matrix
when `r → 0`, along every angle. -/
theorem c34_o_point_czarny (z : Czarny) (o : ℝ × ℝ) (hv : Czarny.Valid z) (he1 : z.eps < 1) (θ : ℝ) (i j : Fin 2) :
    Filter.Tendsto (fun r => nonSingularMid (czarnyMapping z) (circularMapping o) ![r, θ] i j)
      (nhdsWithin 0 (Set.Ioi 0)) (nhds (z.invJacOPoint i j)) := by
  have hx := (Czarny.xi_pos hv).ne'
  have hep := hv.e_pos.ne'
  have hroot : Continuous (fun r : ℝ => z.root (r, θ)) := by unfold Czarny.root; fun_prop
  have hr0 : z.root (0, θ) = sqrt (1 + z.eps * z.eps) := by
    unfold Czarny.root; congr 1; ring
  -- closed form for 0 < r ≤ 1
  let G : ℝ → M2 := fun r =>
    ![![-z.root (r, θ), 0],
      ![z.eps * r * sin θ / (2 - z.root (r, θ)), (2 - z.root (r, θ)) / z.e / z.xi]]
  have hG : ∀ r : ℝ, 0 < r → r ≤ 1 → nonSingularMid (czarnyMapping z) (circularMapping o) ![r, θ] i j = G r i j := by
    intro r hr hr1
    have hreg : Czarny.Regular z (r, θ) := Czarny.regular_of_unit hv.eps_pos he1 hr.le hr1
    have hrp := (Czarny.root_pos hreg).ne'
    have h2 : 2 - z.root (r, θ) ≠ 0 := by linarith [Czarny.root_lt hreg]
    have hsc := sin_sq_add_cos_sq θ
    have hrne := hr.ne'
    have e1 : sqrt (1 + z.eps * (z.eps + 2 * r * cos θ)) = z.root (r, θ) := Czarny.root_comm (c := z) (r, θ)
    simp only [nonSingularMid, tmul, czarnyMapping, circularMapping, Mapping.invJac, Verif.VectorMapper.inverseJacobian2, Option.map_some,
      circJacMat, Czarny.invJacMat, Matrix.cons_val_zero, Matrix.cons_val_one, Matrix.cons_val_fin_one, Fin.sum_univ_two, e1, G]
    fin_cases i <;> fin_cases j <;>
      simp only [Fin.mk_zero, Fin.mk_one, Fin.zero_eta, Fin.isValue, Matrix.cons_val_zero, Matrix.cons_val_one, Matrix.cons_val_fin_one] <;>
      field_simp
    · linear_combination (-(z.root (r, θ) * (2 - z.root (r, θ)))) * hsc
    · ring
    · linear_combination (z.eps * r * sin θ) * hsc
    · linear_combination hsc
  have hlim : Filter.Tendsto (fun r => G r i j) (nhdsWithin 0 (Set.Ioi 0)) (nhds (G 0 i j)) := by
    have h20 : 2 - z.root (0, θ) ≠ 0 := by
      have := Czarny.root_lt (Czarny.regular_of_unit (c := z) (p := (0, θ)) hv.eps_pos he1 le_rfl zero_le_one)
      linarith
    have hc : ContinuousAt (fun r => G r i j) 0 := by
      have hd : ContinuousAt (fun r : ℝ => z.eps * r * sin θ / (2 - z.root (r, θ))) 0 :=
        ContinuousAt.div (by fun_prop) (continuous_const.sub hroot).continuousAt h20
      fin_cases i <;> fin_cases j <;> simp only [G, Fin.mk_zero, Fin.mk_one, Fin.zero_eta, Fin.isValue, Matrix.cons_val_zero,
        Matrix.cons_val_one, Matrix.cons_val_fin_one]
      · exact hroot.neg.continuousAt
      · exact continuousAt_const
      · exact hd
      · exact (((continuous_const.sub hroot).div_const _).div_const _).continuousAt
    exact hc.tendsto.mono_left nhdsWithin_le_nhds
  have hval : G 0 i j = z.invJacOPoint i j := by
    simp only [G, Czarny.invJacOPoint, hr0]
    fin_cases i <;> fin_cases j <;> simp
  rw [hval] at hlim
  refine hlim.congr' ?_
  have : Set.Ioc (0 : ℝ) 1 ∈ nhdsWithin (0 : ℝ) (Set.Ioi 0) := Ioc_mem_nhdsGT one_pos
  filter_upwards [this] with r hr
  exact (hG r hr.1 hr.2).symm

/-- The circular mapping has the total derivative it declares (instance of the hypotheses above). -/
theorem circular_total_jacobian (o : ℝ × ℝ) (c : Pt) : IsTotalJacobian (circularMapping o).op ((circularMapping o).jac c) c := by
  unfold IsTotalJacobian
  rw [hasFDerivAt_pi']
  have h0 : HasFDerivAt (fun c : Pt => c 0) (ContinuousLinearMap.proj 0 : Pt →L[ℝ] ℝ) c := hasFDerivAt_apply 0 c
  have h1 : HasFDerivAt (fun c : Pt => c 1) (ContinuousLinearMap.proj 1 : Pt →L[ℝ] ℝ) c := hasFDerivAt_apply 1 c
  intro i
  fin_cases i
  · refine ((h0.mul h1.cos).add_const o.1).congr_fderiv ?_
    ext v
    simp [lin, circularMapping, circJacMat, Matrix.mulVec, dotProduct, Fin.sum_univ_two]
    ring
  · refine ((h0.mul h1.sin).add_const o.2).congr_fderiv ?_
    ext v
    simp [lin, circularMapping, circJacMat, Matrix.mulVec, dotProduct, Fin.sum_univ_two]
    ring

/-- The Czarny mapping has the total derivative it declares at every regular point. -/
theorem czarny_total_jacobian (z : Czarny) (hv : Czarny.Valid z) (c : Pt) (hR : Czarny.Regular z (c 0, c 1)) :
    IsTotalJacobian (czarnyMapping z).op ((czarnyMapping z).jac c) c := by
  have h0 : DifferentiableAt ℝ (fun c : Pt => c 0) c := (hasFDerivAt_apply 0 c).differentiableAt
  have h1 : DifferentiableAt ℝ (fun c : Pt => c 1) c := (hasFDerivAt_apply 1 c).differentiableAt
  have hroot : DifferentiableAt ℝ (fun c : Pt => z.root (c 0, c 1)) c := by
    unfold Czarny.root
    refine DifferentiableAt.sqrt ?_ hR.pos.ne'
    have := (h0.const_mul 2).mul h1.cos
    exact ((this.const_add z.eps).const_mul z.eps).add_const 1
  have hlt := Czarny.root_lt hR
  have hxi := Czarny.xi_inv hv
  have hx := Czarny.xi_pos hv
  have hs : sqrt (1 - 0.25 * z.eps * z.eps) ≠ 0 := by rw [hxi]; exact (one_div_pos.2 hx).ne'
  have hdiff : DifferentiableAt ℝ (czarnyMapping z).op c := by
    rw [differentiableAt_pi]
    intro i
    fin_cases i
    · refine DifferentiableAt.add_const (c := z.o.1) ?_
      simp only [div_eq_mul_inv]
      exact (hroot.const_sub 1).mul_const _
    · refine DifferentiableAt.add_const (c := z.o.2) ?_
      have hd : DifferentiableAt ℝ (fun x : Pt => sqrt (1 - 0.25 * z.eps * z.eps) * (2 - z.root (x 0, x 1))) c := (hroot.const_sub 2).const_mul _
      have hn : DifferentiableAt ℝ (fun x : Pt => z.e * x 0 * sin (x 1)) c := (h0.const_mul z.e).mul h1.sin
      have hnz : sqrt (1 - 0.25 * z.eps * z.eps) * (2 - z.root (c 0, c 1)) ≠ 0 := mul_ne_zero hs (sub_ne_zero.2 hlt.ne')
      simp only [div_eq_mul_inv]
      exact hn.mul (hd.inv hnz)
  have hf := hdiff.hasFDerivAt
  have key : ∀ (v : Pt) (p : ℝ → Pt) (t : ℝ) (hp : p t = c) (hpd : HasDerivAt p v t) (i : Fin 2) (m : ℝ)
      (hm : HasDerivAt (fun t => (czarnyMapping z).op (p t) i) m t), fderiv ℝ (czarnyMapping z).op c v i = m := by
    intro v p t hp hpd i m hm
    have hf' := hf
    rw [← hp] at hf'
    have h2 := hf'.comp_hasDerivAt t hpd
    have h3 := (hasDerivAt_pi.1 h2) i
    rw [hp] at h3
    exact h3.unique hm
  obtain ⟨j00, j01, j10, j11⟩ := Czarny.c31_czarny_jacobian hv hR
  have p0 : HasDerivAt (fun t => (![t, c 1] : Pt)) ![1, 0] (c 0) := by
    rw [hasDerivAt_pi]
    intro i
    fin_cases i
    · exact hasDerivAt_id _
    · exact hasDerivAt_const _ _
  have p1 : HasDerivAt (fun t => (![c 0, t] : Pt)) ![0, 1] (c 1) := by
    rw [hasDerivAt_pi]
    intro i
    fin_cases i
    · exact hasDerivAt_const _ _
    · exact hasDerivAt_id _
  have hc : (![c 0, c 1] : Pt) = c := by funext i; fin_cases i <;> rfl
  have a00 := key _ _ _ hc p0 0 _ j00
  have a10 := key _ _ _ hc p0 1 _ j10
  have a01 := key _ _ _ hc p1 0 _ j01
  have a11 := key _ _ _ hc p1 1 _ j11
  refine hf.congr_fderiv ?_
  ext v i
  have hv2 : v = v 0 • (![1, 0] : Pt) + v 1 • (![0, 1] : Pt) := by funext k; fin_cases k <;> simp
  conv_lhs => rw [hv2]
  rw [map_add, map_smul, map_smul]
  simp only [Pi.add_apply, Pi.smul_apply, smul_eq_mul]
  fin_cases i
  · refine (congrArg₂ (fun x y => v 0 * x + v 1 * y) a00 a01).trans ?_
    simp [lin, czarnyMapping, Matrix.mulVec, dotProduct, Fin.sum_univ_two]
    ring
  · refine (congrArg₂ (fun x y => v 0 * x + v 1 * y) a10 a11).trans ?_
    simp [lin, czarnyMapping, Matrix.mulVec, dotProduct, Fin.sum_univ_two]
    ring

/-- **C34** The pseudo-Cartesian combination end to end: for the Czarny mapping composed with the inverse circular mapping, at *every* physical point other than the
O-point of the circular mapping (including the half-line where the computed angle jumps by `2π`), the matrix `jacobian_matrix` returns for the polar coordinate of the point is the derivative of
the composition at that point. -/
theorem c34_pseudo_cartesian_czarny (z : Czarny) (hv : Czarny.Valid z) (o : ℝ × ℝ) (a : Pt) (ha : (a 0, a 1) ≠ o)
    (hR : Czarny.Regular z (cartToCirc o (a 0, a 1))) :
    IsTotalJacobian (fun c => ![(z.toCart (cartToCirc o (c 0, c 1))).1, (z.toCart (cartToCirc o (c 0, c 1))).2])
      (jacMid (czarnyMapping z) (circularMapping o) ![(cartToCirc o (a 0, a 1)).1, (cartToCirc o (a 0, a 1)).2]) a := by
  -- an angle which is continuous at `a`
  have hne : ∀ᶠ x : Pt in nhds a, (x 0, x 1) ≠ o := by
    have hc : ContinuousAt (fun x : Pt => (x 0, x 1)) a := by fun_prop
    exact hc.eventually_ne ha
  obtain ⟨φ, hφc, hφa, hφ⟩ : ∃ φ : Pt → ℝ, ContinuousAt φ a ∧ φ a = (cartToCirc o (a 0, a 1)).2 ∧
      ∀ x : Pt, (x 0, x 1) ≠ o → cos (φ x) = cos (cartToCirc o (x 0, x 1)).2 ∧ sin (φ x) = sin (cartToCirc o (x 0, x 1)).2 := by
    have hcont : ∀ s : ℝ, ContinuousAt (fun x : Pt => (⟨s * (x 0 - o.1), s * (x 1 - o.2)⟩ : ℂ)) a := by
      intro s
      have e : (fun x : Pt => (⟨s * (x 0 - o.1), s * (x 1 - o.2)⟩ : ℂ)) = fun x : Pt => ((s * (x 0 - o.1) : ℝ) : ℂ) + ((s * (x 1 - o.2) : ℝ) : ℂ) * Complex.I := by
        funext x; apply Complex.ext <;> simp
      rw [e]
      fun_prop
    have hsnd : ∀ x : Pt, (cartToCirc o (x 0, x 1)).2 = wrap (atan2 (x 1 - o.2) (x 0 - o.1)) := fun x => by rw [cartToCirc_eq]
    by_cases h : a 1 - o.2 ≠ 0 ∨ a 0 - o.1 < 0
    · refine ⟨fun x => π + Complex.arg ⟨-1 * (x 0 - o.1), -1 * (x 1 - o.2)⟩, ?_, ?_, ?_⟩
      · refine continuousAt_const.add (ContinuousAt.comp (f := fun x : Pt => (⟨-1 * (x 0 - o.1), -1 * (x 1 - o.2)⟩ : ℂ)) (Complex.continuousAt_arg ?_) (hcont (-1)))
        rw [Complex.mem_slitPlane_iff]
        rcases h with h | h
        · right; show -1 * (a 1 - o.2) ≠ 0; exact mul_ne_zero (by norm_num) h
        · left; show 0 < -1 * (a 0 - o.1); linarith
      · rw [hsnd]
        simp only [neg_one_mul]
        exact (wrap_eq h).symm
      · intro x hx
        rw [hsnd]
        simp only [neg_one_mul, cos_wrap, sin_wrap]
        unfold atan2
        have hneg : (⟨-(x 0 - o.1), -(x 1 - o.2)⟩ : ℂ) = -⟨x 0 - o.1, x 1 - o.2⟩ := rfl
        have hz : (⟨x 0 - o.1, x 1 - o.2⟩ : ℂ) ≠ 0 := by
          intro hz
          apply hx
          have h1 := congrArg Complex.re hz
          have h2 := congrArg Complex.im hz
          simp only [Complex.zero_re, Complex.zero_im] at h1 h2
          exact Prod.ext (sub_eq_zero.1 h1) (sub_eq_zero.1 h2)
        rw [add_comm π, cos_add_pi, sin_add_pi, hneg, Complex.cos_arg (neg_ne_zero.2 hz), Complex.sin_arg, Complex.cos_arg hz, Complex.sin_arg, norm_neg]
        simp only [Complex.neg_re, Complex.neg_im, neg_div, neg_neg, and_self]
    · push Not at h
      refine ⟨fun x => Complex.arg ⟨1 * (x 0 - o.1), 1 * (x 1 - o.2)⟩, ?_, ?_, ?_⟩
      · refine ContinuousAt.comp (f := fun x : Pt => (⟨1 * (x 0 - o.1), 1 * (x 1 - o.2)⟩ : ℂ)) (Complex.continuousAt_arg ?_) (hcont 1)
        rw [Complex.mem_slitPlane_iff]
        left
        show 0 < 1 * (a 0 - o.1)
        rcases h.2.lt_or_eq with h2 | h2
        · linarith
        · exact absurd (Prod.ext (sub_eq_zero.1 h2.symm) (sub_eq_zero.1 h.1)) ha
      · rw [hsnd]
        simp only [one_mul, h.1]
        have h0 : Complex.arg ⟨a 0 - o.1, 0⟩ = 0 := by rw [Complex.arg_eq_zero_iff]; exact ⟨h.2, rfl⟩
        unfold wrap atan2
        rw [h0, if_neg (lt_irrefl 0)]
      · intro x _
        rw [hsnd, cos_wrap, sin_wrap]
        simp only [one_mul]
        exact ⟨rfl, rfl⟩
  have hfst : ∀ x : Pt, (cartToCirc o (x 0, x 1)).1 = sqrt ((x 0 - o.1) * (x 0 - o.1) + (x 1 - o.2) * (x 1 - o.2)) := fun x => by rw [cartToCirc_eq]
  let m2 : Mapping := ⟨fun x => ![(cartToCirc o (x 0, x 1)).1, φ x], fun _ _ _ => 0, none⟩
  have hm2a : m2.op a = ![(cartToCirc o (a 0, a 1)).1, (cartToCirc o (a 0, a 1)).2] := by
    show ![(cartToCirc o (a 0, a 1)).1, φ a] = _
    rw [hφa]
  have hr : (cartToCirc o (a 0, a 1)).1 ≠ 0 := by
    intro h0
    have hb := c30_cart_circ_cart o (a 0, a 1)
    apply ha
    rw [← hb]
    unfold circToCart
    simp [h0]
  have main := c34_combined_jacobian_intermediate (czarnyMapping z) m2 (circularMapping o) a
    (by rw [hm2a]; exact czarny_total_jacobian z hv _ hR) (circular_total_jacobian o _)
    (by
      rw [hm2a]
      have h := c31_circ_inverse (p := ((cartToCirc o (a 0, a 1)).1, (cartToCirc o (a 0, a 1)).2)) hr
      exact ⟨h.2, h.1⟩)
    (by
      rw [continuousAt_pi]
      intro i
      fin_cases i
      · show ContinuousAt (fun x : Pt => (cartToCirc o (x 0, x 1)).1) a
        simp only [hfst]
        fun_prop
      · exact hφc)
    (by
      filter_upwards [hne] with x hx
      have hb := c30_cart_circ_cart o (x 0, x 1)
      unfold circToCart at hb
      have hb1 := congrArg Prod.fst hb
      have hb2 := congrArg Prod.snd hb
      simp only at hb1 hb2
      rw [← (hφ x hx).1] at hb1
      rw [← (hφ x hx).2] at hb2
      funext i
      fin_cases i
      · exact hb1
      · exact hb2)
  rw [hm2a] at main
  refine HasFDerivAt.congr_of_eventuallyEq main ?_
  filter_upwards [hne] with x hx
  funext i
  have e1 : z.root (cartToCirc o (x 0, x 1)) = z.root ((cartToCirc o (x 0, x 1)).1, φ x) := by
    unfold Czarny.root
    rw [(hφ x hx).1]
  fin_cases i
  · show (z.toCart (cartToCirc o (x 0, x 1))).1 = (z.toCart ((cartToCirc o (x 0, x 1)).1, φ x)).1
    unfold Czarny.toCart
    rw [e1]
  · show (z.toCart (cartToCirc o (x 0, x 1))).2 = (z.toCart ((cartToCirc o (x 0, x 1)).1, φ x)).2
    unfold Czarny.toCart
    rw [e1]
    simp only [(hφ x hx).2]

/-- **C34** The same for the `CombinedMapping` object made of the Czarny mapping and of the inverse circular mapping. -/
theorem c34_pseudo_cartesian_object (z : Czarny) (hv : Czarny.Valid z) (o : ℝ × ℝ) (a : Pt) (ha : (a 0, a 1) ≠ o) (hR : Czarny.Regular z (cartToCirc o (a 0, a 1))) :
    IsTotalJacobian (op (czarnyMapping z) (cartToCircMapping o)) (jacMid (czarnyMapping z) (circularMapping o) ((cartToCircMapping o).op a)) a :=
  c34_pseudo_cartesian_czarny z hv o a ha hR

/-- **C34** The circular mapping combined with its inverse is the identity, with the identity as Jacobian matrix (argument coordinate) away from the O-point. -/
theorem c34_circular_identity (o : ℝ × ℝ) (c : Pt) :
    op (circularMapping o) (cartToCircMapping o) c = c ∧ ((c 0, c 1) ≠ o → ∀ i j, jacArg (circularMapping o) (cartToCircMapping o) c i j = if i = j then 1 else 0) := by
  have hb := c30_cart_circ_cart o (c 0, c 1)
  refine ⟨?_, fun hne i j => ?_⟩
  · funext i
    fin_cases i
    · exact congrArg Prod.fst hb
    · exact congrArg Prod.snd hb
  · have hr : (cartToCirc o (c 0, c 1)).1 ≠ 0 := by
      intro h0
      apply hne
      rw [← hb]
      unfold circToCart
      simp [h0]
    have h1 := c31_cart_to_circ_matrix o (p := cartToCirc o (c 0, c 1)) (lt_of_le_of_ne (c30_range o (c 0, c 1)).1 (Ne.symm hr))
    rw [hb] at h1
    have h2 := (c31_circ_inverse (p := cartToCirc o (c 0, c 1)) hr).2
    have h3 : Matrix.of (jacArg (circularMapping o) (cartToCircMapping o) c) = 1 := by
      unfold jacArg
      rw [tmul_eq]
      show Matrix.of (circJacMat (cartToCirc o (c 0, c 1))) * Matrix.of (cartToCircJacMat o (c 0, c 1)) = 1
      rw [h1]
      exact h2
    have h4 := congrFun (congrFun h3 i) j
    rw [Matrix.one_apply] at h4
    exact h4

/-- Instance: on the half-line where the angle jumps. -/
example : let z : Czarny := ⟨0.3, 1.4, (0, 0)⟩
    (((![0.5, 0] : Pt) 0, (![0.5, 0] : Pt) 1) ≠ ((0, 0) : ℝ × ℝ)) ∧ Czarny.Valid z ∧ Czarny.Regular z (cartToCirc (0, 0) ((![0.5, 0] : Pt) 0, (![0.5, 0] : Pt) 1)) := by
  refine ⟨by intro h; have := congrArg Prod.fst h; norm_num at this, ⟨by norm_num, by norm_num, by norm_num⟩, Czarny.regular_of_unit (by norm_num) (by norm_num) ?_ ?_⟩
  · exact (c30_range _ _).1
  · rw [cartToCirc_eq]
    show sqrt _ ≤ 1
    rw [sqrt_le_one]
    norm_num

/-- Instance: all hypotheses of the chain rule and of the inverse hold for two circular mappings at a point with `r ≠ 0`. -/
example : let m := circularMapping (0, 0)
    IsTotalJacobian m.op (m.jac (m.op ![1, 2])) (m.op ![1, 2]) ∧ IsTotalJacobian m.op (m.jac ![1, 2]) ![1, 2] ∧ InvOk m ![1, 2] := by
  refine ⟨circular_total_jacobian _ _, circular_total_jacobian _ _, ?_⟩
  have h := c31_circ_inverse (p := (1, 2)) one_ne_zero
  exact ⟨h.2, h.1⟩

example : Czarny.Valid ⟨0.3, 1.4, (0, 0)⟩ := ⟨by norm_num, by norm_num, by norm_num⟩

end Verif.CombinedMapping
