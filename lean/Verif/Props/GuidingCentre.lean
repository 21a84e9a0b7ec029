import Verif.Model.GuidingCentre
import Verif.Props.CombinedMapping
import Mathlib.Analysis.Calculus.Deriv.Prod
import Mathlib.Tactic.FieldSimp
import Mathlib.Tactic.LinearCombination

/-!
# C75: the advection field of the guiding-centre equations
-/

namespace Verif.GuidingCentre

open Verif.CombinedMapping Verif.VectorMapper Verif.Mappings

/-! ## Specification -/

/-- `g` is the gradient of the potential `Φ`, a function of the physical point, at `P`. -/
def IsGrad (Φ : Pt → ℝ) (g : Fin 2 → ℝ) (P : Pt) : Prop :=
  HasFDerivAt Φ (g 0 • ContinuousLinearMap.proj (R := ℝ) (φ := fun _ : Fin 2 => ℝ) 0 + g 1 • ContinuousLinearMap.proj (R := ℝ) (φ := fun _ : Fin 2 => ℝ) 1) P

/-- `d` are the partial derivatives at `c` of the potential in logical coordinates. -/
def IsLogicalDeriv (Φ : Pt → ℝ) (F : Pt → Pt) (d : Fin 2 → ℝ) (c : Pt) : Prop :=
  ∀ i, HasDerivAt (fun t => Φ (F (Function.update c i t))) (d i) (c i)

/-- The drift `E × e_z` with `E = -∇Φ`, i.e. `(-∂_y Φ, ∂_x Φ)`. -/
def drift (g : Fin 2 → ℝ) : Fin 2 → ℝ := ![-(g 1), g 0]

/-! ## Chain rule -/

theorem lin_apply (M : M2) (v : Pt) (i : Fin 2) : lin M v i = M i 0 * v 0 + M i 1 * v 1 := by
  simp [lin, Matrix.mulVec, dotProduct, Fin.sum_univ_two]

/-- The derivatives of the potential along the logical directions, from its gradient. -/
theorem logical_deriv (Φ : Pt → ℝ) (m : Mapping) (g d : Fin 2 → ℝ) (c : Pt) (hJ : IsTotalJacobian m.op (m.jac c) c) (hg : IsGrad Φ g (m.op c)) (hd : IsLogicalDeriv Φ m.op d c) (i : Fin 2) :
    d i = g 0 * m.jac c 0 i + g 1 * m.jac c 1 i := by
  have h1 : HasDerivAt (fun t => Function.update c i t) (Pi.single i (1 : ℝ)) (c i) := by
    rw [hasDerivAt_pi]
    intro k
    by_cases hk : k = i
    · subst hk
      simp only [Function.update_self, Pi.single_eq_same]
      exact hasDerivAt_id' (c k)
    · simp only [Function.update_of_ne hk, Pi.single_eq_of_ne hk]
      exact hasDerivAt_const _ _
  have e0 : Function.update c i (c i) = c := Function.update_eq_self i c
  have h2 : HasDerivAt (fun t => m.op (Function.update c i t)) (lin (m.jac c) (Pi.single i (1 : ℝ))) (c i) := by
    have hJ' : HasFDerivAt m.op (lin (m.jac c)) (Function.update c i (c i)) := by rw [e0]; exact hJ
    exact hJ'.comp_hasDerivAt (c i) h1
  have hg' := hg
  unfold IsGrad at hg'
  rw [← e0] at hg'
  have h3 := HasFDerivAt.comp_hasDerivAt (c i) hg' h2
  have := (hd i).unique h3
  rw [this]
  simp only [ContinuousLinearMap.add_apply, ContinuousLinearMap.smul_apply, ContinuousLinearMap.proj_apply, smul_eq_mul, lin_apply]
  fin_cases i <;> simp

/-- Entries of the product with the inverse. -/
theorem inv_entries (m : Mapping) (c : Pt) (h : InvOk m c) (i j : Fin 2) :
    (m.invJac c i 0 * m.jac c 0 j + m.invJac c i 1 * m.jac c 1 j = if i = j then 1 else 0) ∧
    (m.jac c i 0 * m.invJac c 0 j + m.jac c i 1 * m.invJac c 1 j = if i = j then 1 else 0) := by
  have h1 := congrFun (congrFun h.2 i) j
  have h2 := congrFun (congrFun h.1 i) j
  simp only [Matrix.mul_apply, Fin.sum_univ_two, Matrix.of_apply, Matrix.one_apply] at h1 h2
  exact ⟨h1, h2⟩

theorem mulJI_inv (m : Mapping) (g d : Fin 2 → ℝ) (c : Pt) (hI : InvOk m c) (hd : ∀ i, d i = g 0 * m.jac c 0 i + g 1 * m.jac c 1 i) : mulJI (m.invJac c) d = g := by
  funext i
  unfold mulJI
  rw [Fin.sum_univ_two, hd 0, hd 1]
  have h0 := (inv_entries m c hI 0 i).2
  have h1 := (inv_entries m c hI 1 i).2
  fin_cases i
  · simp only [Fin.zero_eta, Fin.isValue, ↓reduceIte, one_ne_zero] at h0 h1 ⊢
    linear_combination g 0 * h0 + g 1 * h1
  · simp only [Fin.mk_one, Fin.isValue, ↓reduceIte, zero_ne_one] at h0 h1 ⊢
    linear_combination g 0 * h0 + g 1 * h1

/-! ## The advection field -/

/-- C75: away from the O-point the field on the physical axes is the drift `(-∂_y Φ, ∂_x Φ)`. -/
theorem c75_physical (Φ : Pt → ℝ) (m : Mapping) (eps : ℝ) (dphi : DPhi) (c : Pt) (g : Fin 2 → ℝ) (hr : eps < c 0) (hJ : IsTotalJacobian m.op (m.jac c) c) (hI : InvOk m c)
    (hg : IsGrad Φ g (m.op c)) (hd : IsLogicalDeriv Φ m.op (dphi c) c) : advXY m eps dphi c = drift g := by
  unfold advXY electric
  simp only [gt_iff_lt, hr, if_true]
  rw [mulJI_inv m g (dphi c) c hI (logical_deriv Φ m g _ c hJ hg hd)]
  simp [drift]

/-- C75: the field on the logical axes: its fluxes are the derivatives of the potential (so that it has no divergence and follows the isolines of the potential). -/
theorem c75_flux (m : Mapping) (dphi : DPhi) (c : Pt) (hI : InvOk m c) :
    det (m.jac c) ≠ 0 ∧ det (m.jac c) * advRTheta m dphi c 0 = -(dphi c 1) ∧ det (m.jac c) * advRTheta m dphi c 1 = dphi c 0 ∧
    advRTheta m dphi c 0 * dphi c 0 + advRTheta m dphi c 1 * dphi c 1 = 0 := by
  have hdet : det (m.jac c) ≠ 0 := by
    intro h0
    have : (Matrix.of (m.jac c)).det * (Matrix.of (m.invJac c)).det = 1 := by rw [← Matrix.det_mul, hI.1, Matrix.det_one]
    rw [Matrix.det_fin_two] at this
    unfold det Verif.MathTools.det2 at h0
    simp only [Matrix.of_apply] at this
    rw [show m.jac c 0 0 * m.jac c 1 1 - m.jac c 0 1 * m.jac c 1 0 = 0 by linarith] at this
    simp at this
  obtain ⟨a00, b00⟩ := inv_entries m c hI 0 0
  obtain ⟨a01, b01⟩ := inv_entries m c hI 0 1
  obtain ⟨a10, b10⟩ := inv_entries m c hI 1 0
  obtain ⟨a11, b11⟩ := inv_entries m c hI 1 1
  simp only [if_true, if_false, show (0 : Fin 2) ≠ 1 from by decide, show (1 : Fin 2) ≠ 0 from by decide] at a00 a01 a10 a11 b00 b01 b10 b11
  have h1 : det (m.jac c) * advRTheta m dphi c 0 = -(dphi c 1) := by
    unfold advRTheta
    simp only [mulIJ, metricInv, Fin.sum_univ_two, Matrix.cons_val_zero]
    field_simp
    generalize m.jac c = J at *
    generalize m.invJac c = K at *
    obtain ⟨p, hp⟩ : ∃ p, p = dphi c := ⟨_, rfl⟩
    simp only [← hp]
    linear_combination (-J 0 1 * (p 0 * K 0 0 + p 1 * K 1 0)) * b00 + (-J 0 1 * (p 0 * K 0 1 + p 1 * K 1 1)) * b01 +
      (-J 1 1 * (p 0 * K 0 0 + p 1 * K 1 0)) * b10 + (-J 1 1 * (p 0 * K 0 1 + p 1 * K 1 1)) * b11 + (-p 0) * a01 + (-p 1) * a11
  have h2 : det (m.jac c) * advRTheta m dphi c 1 = dphi c 0 := by
    unfold advRTheta
    simp only [mulIJ, metricInv, Fin.sum_univ_two, Matrix.cons_val_one, Matrix.cons_val_zero]
    field_simp
    generalize m.jac c = J at *
    generalize m.invJac c = K at *
    obtain ⟨p, hp⟩ : ∃ p, p = dphi c := ⟨_, rfl⟩
    simp only [← hp]
    linear_combination (J 0 0 * (p 0 * K 0 0 + p 1 * K 1 0)) * b00 + (J 0 0 * (p 0 * K 0 1 + p 1 * K 1 1)) * b01 +
      (J 1 0 * (p 0 * K 0 0 + p 1 * K 1 0)) * b10 + (J 1 0 * (p 0 * K 0 1 + p 1 * K 1 1)) * b11 + (p 0) * a00 + (p 1) * a10
  refine ⟨hdet, h1, h2, ?_⟩
  apply mul_left_cancel₀ hdet
  linear_combination dphi c 0 * h1 + dphi c 1 * h2

/-- C75: the field on the logical axes, put on the physical axes, is the same drift. -/
theorem c75_logical (Φ : Pt → ℝ) (m : Mapping) (dphi : DPhi) (c : Pt) (g : Fin 2 → ℝ) (hJ : IsTotalJacobian m.op (m.jac c) c) (hI : InvOk m c)
    (hg : IsGrad Φ g (m.op c)) (hd : IsLogicalDeriv Φ m.op (dphi c) c) : mulIJ (m.jac c) (advRTheta m dphi c) = drift g := by
  obtain ⟨hdet, h1, h2, -⟩ := c75_flux m dphi c hI
  have hl := logical_deriv Φ m g _ c hJ hg hd
  rw [hl 1] at h1
  rw [hl 0] at h2
  have hd' : det (m.jac c) = m.jac c 0 0 * m.jac c 1 1 - m.jac c 1 0 * m.jac c 0 1 := rfl
  funext i
  apply mul_left_cancel₀ hdet
  fin_cases i
  · simp only [mulIJ, Fin.sum_univ_two, drift, Fin.zero_eta, Matrix.cons_val_zero]
    linear_combination m.jac c 0 0 * h1 + m.jac c 0 1 * h2 + g 1 * hd'
  · simp only [mulIJ, Fin.sum_univ_two, drift, Fin.mk_one, Matrix.cons_val_one, Matrix.cons_val_zero]
    linear_combination m.jac c 1 0 * h1 + m.jac c 1 1 * h2 - g 0 * hd'

/-- What is needed at the O-point: the ring `r = 0` is one physical point, the first column of the Jacobian matrix and the first derivative of the potential are the radial derivatives there
(from the inside of the domain). -/
structure AtOPoint (Φ : Pt → ℝ) (m : Mapping) (dphi : DPhi) (O : Pt) (th : ℝ) : Prop where
  centre : m.op ![0, th] = O
  jac : ∀ i, HasDerivWithinAt (fun r => m.op ![r, th] i) (m.jac ![0, th] i 0) (Set.Ici 0) 0
  phi : HasDerivWithinAt (fun r => Φ (m.op ![r, th])) (dphi ![0, th] 0) (Set.Ici 0) 0

theorem radial_deriv (Φ : Pt → ℝ) (m : Mapping) (dphi : DPhi) (O : Pt) (th : ℝ) (g : Fin 2 → ℝ) (hg : IsGrad Φ g O) (h : AtOPoint Φ m dphi O th) :
    dphi ![0, th] 0 = g 0 * m.jac ![0, th] 0 0 + g 1 * m.jac ![0, th] 1 0 := by
  have h1 : HasDerivWithinAt (fun r => m.op ![r, th]) (fun i => m.jac ![0, th] i 0) (Set.Ici 0) 0 := by
    rw [hasDerivWithinAt_pi]
    exact h.jac
  have hg' := hg
  unfold IsGrad at hg'
  rw [← h.centre] at hg'
  have h2 := HasFDerivAt.comp_hasDerivWithinAt 0 hg' h1
  have := (uniqueDiffWithinAt_Ici (0 : ℝ)).eq_deriv _ h.phi h2
  rw [this]
  simp

/-- C75: the gradient at the O-point is recovered from two radial derivatives. -/
theorem gradCentre_eq (Φ : Pt → ℝ) (m : Mapping) (dphi : DPhi) (O : Pt) (g : Fin 2 → ℝ) (hg : IsGrad Φ g O) (h1 : AtOPoint Φ m dphi O th1) (h2 : AtOPoint Φ m dphi O th2)
    (hind : m.jac ![0, th1] 0 0 * m.jac ![0, th2] 1 0 - m.jac ![0, th2] 0 0 * m.jac ![0, th1] 1 0 ≠ 0) : gradCentre m dphi = g := by
  have e1 := radial_deriv Φ m dphi O th1 g hg h1
  have e2 := radial_deriv Φ m dphi O th2 g hg h2
  funext i
  unfold gradCentre
  fin_cases i
  · simp only [Fin.zero_eta, Matrix.cons_val_zero]
    rw [div_eq_iff hind, e1, e2]; ring
  · simp only [Fin.mk_one, Matrix.cons_val_one, Matrix.cons_val_zero]
    rw [div_eq_iff hind, e1, e2]; ring

/-- C75: near the O-point the field on the physical axes goes linearly, along each radius, from the drift at the O-point to the drift at `r = epsilon`. -/
theorem c75_linearised (Φ : Pt → ℝ) (m : Mapping) (eps : ℝ) (heps : 0 < eps) (dphi : DPhi) (O : Pt) (g gε : Fin 2 → ℝ) (th : ℝ) (hg : IsGrad Φ g O) (h1 : AtOPoint Φ m dphi O th1)
    (h2 : AtOPoint Φ m dphi O th2) (hind : m.jac ![0, th1] 0 0 * m.jac ![0, th2] 1 0 - m.jac ![0, th2] 0 0 * m.jac ![0, th1] 1 0 ≠ 0)
    (hJ : IsTotalJacobian m.op (m.jac ![eps, th]) ![eps, th]) (hI : InvOk m ![eps, th]) (hgε : IsGrad Φ gε (m.op ![eps, th])) (hd : IsLogicalDeriv Φ m.op (dphi ![eps, th]) ![eps, th]) :
    (∀ r ≤ eps, advXY m eps dphi ![r, th] = fun i => (1 - r / eps) * drift g i + r / eps * drift gε i) ∧
    advXY m eps dphi ![0, th] = drift g ∧ advXY m eps dphi ![eps, th] = drift gε ∧ advCentre m dphi = drift g := by
  have hc := gradCentre_eq Φ m dphi O g hg h1 h2 hind
  have hm := mulJI_inv m gε (dphi ![eps, th]) ![eps, th] hI (logical_deriv Φ m gε _ _ hJ hgε hd)
  have key : ∀ r ≤ eps, advXY m eps dphi ![r, th] = fun i => (1 - r / eps) * drift g i + r / eps * drift gε i := by
    intro r hr
    unfold advXY electric
    simp only [Matrix.cons_val_zero, Matrix.cons_val_one, gt_iff_lt, not_lt.2 hr, if_false, hc, hm]
    funext i
    fin_cases i
    · simp only [drift, Fin.zero_eta, Matrix.cons_val_zero]; ring
    · simp only [drift, Fin.mk_one, Matrix.cons_val_one, Matrix.cons_val_zero]; ring
  refine ⟨key, ?_, ?_, ?_⟩
  · rw [key 0 heps.le]; funext i; simp
  · rw [key eps le_rfl, div_self heps.ne']; funext i; simp
  · unfold advCentre
    simp only [hc, drift]

/-! ## The O-point of a discrete mapping -/

/-- Specification: near the O-point the component `s` of the mapping is a differentiable function of the pseudo-Cartesian coordinates `(r cos θ, r sin θ)`, with gradient `a`;
the evaluator gives its radial derivative at `r = 0` and the derivative of that one along `θ`. -/
structure SmoothAtPole (s : Spl) (a : Fin 2 → ℝ) : Prop where
  smooth : ∃ P : Pt → ℝ, IsGrad P a ![0, 0] ∧ ∀ r θ, 0 ≤ r → s.val ![r, θ] = P ![r * Real.cos θ, r * Real.sin θ]
  dr : ∀ θ, HasDerivWithinAt (fun r => s.val ![r, θ]) (s.dr ![0, θ]) (Set.Ici 0) 0
  drt : ∀ θ, HasDerivAt (fun t => s.dr ![0, t]) (s.drt ![0, θ]) θ

theorem pole_dr (s : Spl) (a : Fin 2 → ℝ) (h : SmoothAtPole s a) (θ : ℝ) : s.dr ![0, θ] = a 0 * Real.cos θ + a 1 * Real.sin θ := by
  obtain ⟨P, hP, hs⟩ := h.smooth
  have h1 : HasDerivWithinAt (fun r : ℝ => (![r * Real.cos θ, r * Real.sin θ] : Pt)) ![Real.cos θ, Real.sin θ] (Set.Ici 0) 0 := by
    rw [hasDerivWithinAt_pi]
    intro i
    fin_cases i
    · simpa using ((hasDerivAt_id (0 : ℝ)).mul_const (Real.cos θ)).hasDerivWithinAt
    · simpa using ((hasDerivAt_id (0 : ℝ)).mul_const (Real.sin θ)).hasDerivWithinAt
  have hP' := hP
  unfold IsGrad at hP'
  have e : (![0, 0] : Pt) = ![0 * Real.cos θ, 0 * Real.sin θ] := by simp
  rw [e] at hP'
  have h2 := HasFDerivAt.comp_hasDerivWithinAt (0 : ℝ) hP' h1
  have h3 : HasDerivWithinAt (fun r : ℝ => P ![r * Real.cos θ, r * Real.sin θ]) (s.dr ![0, θ]) (Set.Ici 0) 0 :=
    (h.dr θ).congr (fun r hr => (hs r θ hr).symm) (hs 0 θ le_rfl).symm
  have := (uniqueDiffWithinAt_Ici (0 : ℝ)).eq_deriv _ h3 h2
  rw [this]
  simp

theorem pole_drt (s : Spl) (a : Fin 2 → ℝ) (h : SmoothAtPole s a) (θ : ℝ) : s.drt ![0, θ] = -(a 0) * Real.sin θ + a 1 * Real.cos θ := by
  have h1 := h.drt θ
  have e : (fun t => s.dr ![0, t]) = fun t => a 0 * Real.cos t + a 1 * Real.sin t := by
    funext t; exact pole_dr s a h t
  rw [e] at h1
  have h2 := ((Real.hasDerivAt_cos θ).const_mul (a 0)).add ((Real.hasDerivAt_sin θ).const_mul (a 1))
  rw [h1.unique h2]; ring

/-- C75: with a discrete mapping whose splines have the derivatives that the evaluator returns, the field at a point with `r > ε` is the drift of the potential. -/
theorem c75_discrete (Φ : Pt → ℝ) (sx sy : Spl) (eps : ℝ) (dphi : DPhi) (c : Pt) (g : Fin 2 → ℝ) (hr : eps < c 0)
    (hx : HasFDerivAt sx.val (sx.dr c • ContinuousLinearMap.proj 0 + sx.dt c • ContinuousLinearMap.proj 1 : Pt →L[ℝ] ℝ) c)
    (hy : HasFDerivAt sy.val (sy.dr c • ContinuousLinearMap.proj 0 + sy.dt c • ContinuousLinearMap.proj 1 : Pt →L[ℝ] ℝ) c)
    (hdet : sx.dr c * sy.dt c - sx.dt c * sy.dr c ≠ 0) (hg : IsGrad Φ g ![sx.val c, sy.val c])
    (hd : IsLogicalDeriv Φ (fun p => ![sx.val p, sy.val p]) (dphi c) c) : advXY (discreteMapping sx sy) eps dphi c = drift g := by
  refine c75_physical Φ (discreteMapping sx sy) eps dphi c g hr ?_ ?_ hg hd
  · unfold IsTotalJacobian
    rw [hasFDerivAt_pi']
    intro i
    fin_cases i
    · refine hx.congr_fderiv ?_
      ext v
      simp [lin, discreteMapping, Matrix.mulVec, dotProduct, Fin.sum_univ_two]
    · refine hy.congr_fderiv ?_
      ext v
      simp [lin, discreteMapping, Matrix.mulVec, dotProduct, Fin.sum_univ_two]
  · refine invOk_of_det _ _ rfl ?_
    rw [Matrix.det_fin_two]
    simpa [discreteMapping] using hdet

/-- Instance: the polar mapping as a discrete mapping away from the centre. -/
example : ∃ (Φ : Pt → ℝ) (sx sy : Spl) (eps : ℝ) (dphi : DPhi) (c : Pt) (g : Fin 2 → ℝ), eps < c 0 ∧
    HasFDerivAt sx.val (sx.dr c • ContinuousLinearMap.proj 0 + sx.dt c • ContinuousLinearMap.proj 1 : Pt →L[ℝ] ℝ) c ∧
    HasFDerivAt sy.val (sy.dr c • ContinuousLinearMap.proj 0 + sy.dt c • ContinuousLinearMap.proj 1 : Pt →L[ℝ] ℝ) c ∧
    sx.dr c * sy.dt c - sx.dt c * sy.dr c ≠ 0 ∧ IsGrad Φ g ![sx.val c, sy.val c] ∧ IsLogicalDeriv Φ (fun p => ![sx.val p, sy.val p]) (dphi c) c := by
  have h0 : ∀ c : Pt, HasFDerivAt (fun p : Pt => p 0) (ContinuousLinearMap.proj 0 : Pt →L[ℝ] ℝ) c := fun c => hasFDerivAt_apply 0 c
  have h1 : ∀ c : Pt, HasFDerivAt (fun p : Pt => p 1) (ContinuousLinearMap.proj 1 : Pt →L[ℝ] ℝ) c := fun c => hasFDerivAt_apply 1 c
  refine ⟨fun p => p 0, ⟨fun p => p 0, fun _ => 1, fun _ => 0, fun _ => 0⟩, ⟨fun p => p 1, fun _ => 0, fun _ => 1, fun _ => 0⟩, 0.1, fun _ => ![1, 0], ![1, 1], ![1, 0], by norm_num, ?_, ?_,
    by norm_num, ?_, ?_⟩
  · simpa using h0 _
  · simpa using h1 _
  · unfold IsGrad
    refine (h0 _).congr_fderiv ?_
    ext v
    simp
  · unfold IsLogicalDeriv
    intro i
    fin_cases i
    · simpa using hasDerivAt_id' (1 : ℝ)
    · simpa using hasDerivAt_const (1 : ℝ) (1 : ℝ)

/-- C75: for a discrete mapping that is smooth at the O-point, the matrix computed there is the inverse of the Jacobian matrix of the mapping from the pseudo-Cartesian to the physical coordinates,
whatever the number of poloidal points. -/
theorem c75_o_point (sx sy : Spl) (ax ay : Fin 2 → ℝ) (hx : SmoothAtPole sx ax) (hy : SmoothAtPole sy ay) (hdet : ax 0 * ay 1 - ax 1 * ay 0 ≠ 0) (rs ts : List ℝ) (hts : ts ≠ []) :
    Matrix.of (oPointDiscrete sx sy (singularPoints (0 :: rs) ts)) * Matrix.of ![ax, ay] = 1 ∧ Matrix.of ![ax, ay] * Matrix.of (oPointDiscrete sx sy (singularPoints (0 :: rs) ts)) = 1 := by
  have hK : oPointDiscrete sx sy (singularPoints (0 :: rs) ts) = Verif.MathTools.inv2 ![ax, ay] := by
    have h1 : ∀ c ∈ singularPoints (0 :: rs) ts, tmul (firstOrder sx sy c) ![![Real.cos (c 1), Real.sin (c 1)], ![-Real.sin (c 1), Real.cos (c 1)]] = ![ax, ay] := by
      intro c hc
      unfold singularPoints at hc
      simp only [List.take_succ_cons, List.take_zero, List.flatMap_cons, List.flatMap_nil, List.append_nil, List.mem_map] at hc
      obtain ⟨t, _, rfl⟩ := hc
      have hsc := Real.sin_sq_add_cos_sq t
      have e1 := pole_dr sx ax hx t
      have e2 := pole_drt sx ax hx t
      have e3 := pole_dr sy ay hy t
      have e4 := pole_drt sy ay hy t
      funext i k
      fin_cases i <;> fin_cases k <;> simp [tmul, firstOrder, Fin.sum_univ_two, e1, e2, e3, e4]
      · linear_combination ax 0 * hsc
      · linear_combination ax 1 * hsc
      · linear_combination ay 0 * hsc
      · linear_combination ay 1 * hsc
    have h2 : ∀ (l : List Pt), (∀ c ∈ l, tmul (firstOrder sx sy c) ![![Real.cos (c 1), Real.sin (c 1)], ![-Real.sin (c 1), Real.cos (c 1)]] = ![ax, ay]) → ∀ J0 : M2,
        l.foldl (fun J c => fun i j => J i j + Verif.MathTools.inv2 (tmul (firstOrder sx sy c) ![![Real.cos (c 1), Real.sin (c 1)], ![-Real.sin (c 1), Real.cos (c 1)]]) i j) J0 =
          fun i j => J0 i j + l.length * Verif.MathTools.inv2 ![ax, ay] i j := by
      intro l
      induction l with
      | nil => intro _ J0; funext i j; simp
      | cons a l ih =>
        intro h J0
        rw [List.foldl_cons, ih (fun c hc => h c (by simp [hc])), h a (by simp)]
        funext i j
        rw [List.length_cons]; push_cast; ring
    unfold oPointDiscrete
    simp only
    rw [h2 _ h1]
    funext i j
    simp only
    have hl : ((singularPoints (0 :: rs) ts).length : ℝ) ≠ 0 := by
      have : (singularPoints (0 :: rs) ts).length = ts.length := by simp [singularPoints]
      rw [this]
      exact_mod_cast fun h => hts (List.length_eq_zero_iff.1 h)
    rw [zero_add, mul_div_cancel_left₀ _ hl]
  rw [hK]
  have hd : (Matrix.of ![ax, ay]).det ≠ 0 := by
    rw [Matrix.det_fin_two]
    simpa using hdet
  have := Verif.VectorMapper.c35_inverse_jacobian ![ax, ay] _ rfl hd
  exact ⟨this.2.2, this.2.1⟩

/-! ## Concrete cases -/

/-- The potential `x`, of gradient `(1, 0)`. -/
theorem isGrad_x (P : Pt) : IsGrad (fun p => p 0) ![1, 0] P := by
  unfold IsGrad
  have := (ContinuousLinearMap.proj (R := ℝ) (φ := fun _ : Fin 2 => ℝ) 0).hasFDerivAt (x := P)
  refine this.congr_fderiv ?_
  ext v
  simp

/-- The logical derivatives of `x` for the circular mapping: `cos θ` and `-r sin θ`. -/
noncomputable def exDPhi : DPhi := fun c => ![Real.cos (c 1), -(c 0 * Real.sin (c 1))]

example : AtOPoint (fun p => p 0) (circularMapping (0, 0)) exDPhi ![0, 0] th1 where
  centre := by funext i; fin_cases i <;> simp [circularMapping, circToCart]
  jac := by
    intro i
    fin_cases i
    · simpa [circularMapping, circToCart, circJacMat] using ((hasDerivAt_id' (0 : ℝ)).mul_const (Real.cos th1)).hasDerivWithinAt
    · simpa [circularMapping, circToCart, circJacMat] using ((hasDerivAt_id' (0 : ℝ)).mul_const (Real.sin th1)).hasDerivWithinAt
  phi := by simpa [circularMapping, circToCart, exDPhi] using ((hasDerivAt_id' (0 : ℝ)).mul_const (Real.cos th1)).hasDerivWithinAt

example (c : Pt) : IsLogicalDeriv (fun p => p 0) (circularMapping (0, 0)).op (exDPhi c) c := by
  intro i
  fin_cases i
  · simpa [circularMapping, circToCart, exDPhi] using ((hasDerivAt_id' (c 0)).mul_const (Real.cos (c 1)))
  · simpa [circularMapping, circToCart, exDPhi] using ((Real.hasDerivAt_cos (c 1)).const_mul (c 0))

/-- `r cos θ` is smooth at the pole. -/
example : SmoothAtPole ⟨fun c => c 0 * Real.cos (c 1), fun c => Real.cos (c 1), fun c => -(c 0 * Real.sin (c 1)), fun c => -Real.sin (c 1)⟩ ![1, 0] where
  smooth := ⟨fun p => p 0, isGrad_x _, fun r θ _ => by simp⟩
  dr := fun θ => by simpa using ((hasDerivAt_id' (0 : ℝ)).mul_const (Real.cos θ)).hasDerivWithinAt
  drt := fun θ => by simpa using Real.hasDerivAt_cos θ

/-- The two directions are independent for the circular mapping. -/
example : (circularMapping (0, 0)).jac ![0, th1] 0 0 * (circularMapping (0, 0)).jac ![0, th2] 1 0 - (circularMapping (0, 0)).jac ![0, th2] 0 0 * (circularMapping (0, 0)).jac ![0, th1] 1 0 ≠ 0 := by
  have e : (circularMapping (0, 0)).jac ![0, th1] 0 0 * (circularMapping (0, 0)).jac ![0, th2] 1 0 - (circularMapping (0, 0)).jac ![0, th2] 0 0 * (circularMapping (0, 0)).jac ![0, th1] 1 0 =
      Real.sin (th2 - th1) := by
    rw [Real.sin_sub]
    simp only [circularMapping, circJacMat, Matrix.cons_val_zero, Matrix.cons_val_one]
    ring
  have h2 : th2 - th1 = -(Real.pi / 2) + 2 * Real.pi := by unfold th1 th2; ring
  rw [e, h2, Real.sin_add_two_pi, Real.sin_neg, Real.sin_pi_div_two]
  norm_num

end Verif.GuidingCentre
