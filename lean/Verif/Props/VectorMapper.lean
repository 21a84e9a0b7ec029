import Verif.Model.VectorMapper
import Verif.Model.CircularMapping
import Verif.Props.CircularMapping
import Verif.Props.MathTools
import Mathlib.LinearAlgebra.Matrix.PosDef
import Mathlib.LinearAlgebra.Matrix.NonsingularInverse
import Mathlib.Tactic.FinCases

/-!
# C35: metric tensors and vector transfers are consistent
-/

namespace Verif.VectorMapper

open Matrix

variable {n : Type*} [Fintype n] [DecidableEq n]

theorem mulIJ_eq (A : n → n → ℝ) (v : n → ℝ) : mulIJ A v = Matrix.of A *ᵥ v := rfl

theorem mulJI_eq (A : n → n → ℝ) (v : n → ℝ) : mulJI A v = (Matrix.of A)ᵀ *ᵥ v := rfl

theorem metric_eq (J : n → n → ℝ) : Matrix.of (metric J) = (Matrix.of J)ᵀ * Matrix.of J := by
  ext i k; simp [metric, Matrix.mul_apply]

theorem metricInv_eq (I : n → n → ℝ) : Matrix.of (metricInv I) = Matrix.of I * (Matrix.of I)ᵀ := by
  ext i k; simp [metricInv, Matrix.mul_apply]

/-- **C35** The metric tensor is symmetric; it is the matrix of the scalar products of the images of the basis vectors. -/
theorem c35_metric_symmetric (J : n → n → ℝ) (i k : n) :
    metric J i k = metric J k i ∧ metric J i k = (fun a => J a i) ⬝ᵥ (fun a => J a k) := by
  unfold metric
  exact ⟨Finset.sum_congr rfl fun j _ => mul_comm _ _, rfl⟩

/-- **C35** The metric tensor is positive definite when the Jacobian matrix is invertible. -/
theorem c35_metric_pos_def (J invJ : n → n → ℝ) (h : Matrix.of invJ * Matrix.of J = 1) (v : n → ℝ) (hv : v ≠ 0) :
    0 < ∑ i, ∑ k, v i * metric J i k * v k := by
  have e : ∑ i, ∑ k, v i * metric J i k * v k = ∑ a, (∑ i, J a i * v i) * (∑ k, J a k * v k) := by
    simp only [metric, Finset.mul_sum, Finset.sum_mul]
    rw [Finset.sum_comm]
    have : ∀ y, ∑ x, ∑ i, v x * (J i x * J i y) * v y = ∑ i, ∑ x, v x * (J i x * J i y) * v y := fun y => Finset.sum_comm
    simp only [this]
    rw [Finset.sum_comm]
    refine Finset.sum_congr rfl fun a _ => Finset.sum_congr rfl fun y _ => Finset.sum_congr rfl fun x _ => ?_
    ring
  rw [e]
  have hne : ∃ a, (∑ i, J a i * v i) ≠ 0 := by
    by_contra hcon
    push Not at hcon
    apply hv
    have h0 : Matrix.of J *ᵥ v = 0 := funext hcon
    have : (Matrix.of invJ * Matrix.of J) *ᵥ v = 0 := by rw [← Matrix.mulVec_mulVec, h0, Matrix.mulVec_zero]
    rwa [h, Matrix.one_mulVec] at this
  obtain ⟨a, ha⟩ := hne
  exact Finset.sum_pos' (fun _ _ => mul_self_nonneg _) ⟨a, Finset.mem_univ _, mul_self_pos.2 ha⟩

/-- **C35** `MetricTensorEvaluator::inverse` is the inverse of the metric tensor. -/
theorem c35_metric_inverse (J invJ : n → n → ℝ) (h : Matrix.of J * Matrix.of invJ = 1) :
    Matrix.of (metric J) * Matrix.of (metricInv invJ) = 1 ∧ Matrix.of (metricInv invJ) * Matrix.of (metric J) = 1 := by
  have h' := mul_eq_one_comm.1 h
  have ht : (Matrix.of invJ)ᵀ * (Matrix.of J)ᵀ = 1 := by rw [← Matrix.transpose_mul, h, Matrix.transpose_one]
  have key : Matrix.of (metricInv invJ) * Matrix.of (metric J) = 1 := by
    rw [metric_eq, metricInv_eq, Matrix.mul_assoc, ← Matrix.mul_assoc (Matrix.of invJ)ᵀ, ht, Matrix.one_mul, h']
  exact ⟨mul_eq_one_comm.1 key, key⟩

/-- Matrix taking components in a space to Cartesian components. -/
def toCartM (J invJ : n → n → ℝ) : Space → Matrix n n ℝ
  | .argContra => Matrix.of J
  | .argCov => (Matrix.of invJ)ᵀ
  | .cart => 1

/-- Matrix taking Cartesian components to components in a space. -/
def ofCartM (J invJ : n → n → ℝ) : Space → Matrix n n ℝ
  | .argContra => Matrix.of invJ
  | .argCov => (Matrix.of J)ᵀ
  | .cart => 1

theorem toCart_ofCart (J invJ : n → n → ℝ) (h : Matrix.of J * Matrix.of invJ = 1) (b : Space) :
    toCartM J invJ b * ofCartM J invJ b = 1 ∧ ofCartM J invJ b * toCartM J invJ b = 1 := by
  have h' := mul_eq_one_comm.1 h
  have ht : (Matrix.of invJ)ᵀ * (Matrix.of J)ᵀ = 1 := by rw [← Matrix.transpose_mul, h, Matrix.transpose_one]
  have ht' := mul_eq_one_comm.1 ht
  cases b
  · exact ⟨h, h'⟩
  · exact ⟨ht, ht'⟩
  · exact ⟨Matrix.one_mul _, Matrix.one_mul _⟩

theorem toVectorSpace_eq (J invJ : n → n → ℝ) (h : Matrix.of J * Matrix.of invJ = 1) (c a : Space) (v : n → ℝ) :
    toVectorSpace J invJ c a v = (ofCartM J invJ c * toCartM J invJ a) *ᵥ v := by
  have h' := mul_eq_one_comm.1 h
  have ht : (Matrix.of invJ)ᵀ * (Matrix.of J)ᵀ = 1 := by rw [← Matrix.transpose_mul, h, Matrix.transpose_one]
  have ht' := mul_eq_one_comm.1 ht
  cases a <;> cases c <;>
    simp only [toVectorSpace, mulIJ_eq, mulJI_eq, metric_eq, metricInv_eq, toCartM, ofCartM, Matrix.one_mul, Matrix.mul_one,
      h', ht', Matrix.one_mulVec]

/-- **C35** Converting through any intermediate space is the same as converting directly; in particular (`c = a`) every conversion
is undone by the converse one. -/
theorem c35_conversion_compose (J invJ : n → n → ℝ) (h : Matrix.of J * Matrix.of invJ = 1) (a b c : Space) (v : n → ℝ) :
    toVectorSpace J invJ c b (toVectorSpace J invJ b a v) = toVectorSpace J invJ c a v ∧
    toVectorSpace J invJ a b (toVectorSpace J invJ b a v) = v := by
  have key : ∀ c, toVectorSpace J invJ c b (toVectorSpace J invJ b a v) = toVectorSpace J invJ c a v := by
    intro c
    simp only [toVectorSpace_eq J invJ h, Matrix.mulVec_mulVec]
    congr 1
    rw [Matrix.mul_assoc, ← Matrix.mul_assoc (toCartM J invJ b), (toCart_ofCart J invJ h b).1, Matrix.one_mul]
  refine ⟨key c, ?_⟩
  rw [key a, toVectorSpace_eq J invJ h, (toCart_ofCart J invJ h a).2, Matrix.one_mulVec]

/-- **C35** Meaning of the conversions. Contravariant components `v` stand for the Cartesian vector `∑ v^j e_j` where `e_j` is column `j`
of the Jacobian matrix; covariant components are the scalar products with the `e_i`. -/
theorem c35_conversion_meaning (J invJ : n → n → ℝ) (h : Matrix.of J * Matrix.of invJ = 1) (a : Space) (v : n → ℝ) (w : n → ℝ)
    (hw : w = toVectorSpace J invJ .cart a v) :
    (∀ x, w x = ∑ j, toVectorSpace J invJ .argContra a v j * J x j) ∧
    (∀ i, toVectorSpace J invJ .argCov a v i = ∑ x, J x i * w x) := by
  subst hw
  constructor
  · intro x
    have := (c35_conversion_compose J invJ h a .argContra .cart v).1
    rw [← this]
    exact Finset.sum_congr rfl fun j _ => mul_comm _ _
  · intro i
    rw [← (c35_conversion_compose J invJ h a .cart .argCov v).1]
    rfl

/-- **C35** The contraction of the covariant components of one vector with the contravariant components of another is their Cartesian
scalar product, whatever the spaces the two vectors are given in. -/
theorem c35_scalar_product (J invJ : n → n → ℝ) (h : Matrix.of J * Matrix.of invJ = 1) (a b : Space) (u v : n → ℝ) :
    ∑ i, toVectorSpace J invJ .argCov a u i * toVectorSpace J invJ .argContra b v i =
      ∑ x, toVectorSpace J invJ .cart a u x * toVectorSpace J invJ .cart b v x := by
  obtain ⟨_, h2⟩ := c35_conversion_meaning J invJ h a u _ rfl
  obtain ⟨h1, _⟩ := c35_conversion_meaning J invJ h b v _ rfl
  simp only [h1, h2, Finset.sum_mul, Finset.mul_sum]
  rw [Finset.sum_comm]
  refine Finset.sum_congr rfl fun x _ => Finset.sum_congr rfl fun j _ => ?_
  ring

/-- **C35** The conversion of a whole field is the conversion at each index with the Jacobian there. -/
theorem c35_copy_to_vector_space {ι : Type*} (J invJ : ι → n → n → ℝ) (h : ∀ i, Matrix.of (J i) * Matrix.of (invJ i) = 1) (a b : Space)
    (field : ι → n → ℝ) : copyToVectorSpace J invJ a b (copyToVectorSpace J invJ b a field) = field := by
  funext idx
  exact (c35_conversion_compose (J idx) (invJ idx) (h idx) a b a (field idx)).2

/-- **C35** The two ways of computing an inverse Jacobian (whole matrix or by component) agree, and give the inverse, when `jacobian`
is the determinant of the matrix and is not zero. -/
theorem c35_inverse_jacobian (J : Fin 2 → Fin 2 → ℝ) (jac : ℝ) (hj : jac = (Matrix.of J).det) (h0 : jac ≠ 0) :
    (∀ i j, invJacobianComponent2 jac J i j = inverseJacobian2 none J i j) ∧
    Matrix.of J * Matrix.of (inverseJacobian2 none J) = 1 ∧ Matrix.of (inverseJacobian2 none J) * Matrix.of J = 1 := by
  rw [Matrix.det_fin_two] at hj
  simp only [Matrix.of_apply] at hj
  have hd : Verif.MathTools.det2 J = jac := by unfold Verif.MathTools.det2; rw [hj]; ring
  have key : Matrix.of J * Matrix.of (inverseJacobian2 none J) = 1 := by
    ext i j
    rw [Matrix.mul_apply, Fin.sum_univ_two, Matrix.one_apply]
    simp only [inverseJacobian2, Verif.MathTools.inv2, hd]
    fin_cases i <;> fin_cases j <;> simp [Matrix.of_apply] <;> field_simp <;> rw [hj] <;> ring
  refine ⟨?_, key, mul_eq_one_comm.1 key⟩
  intro i j
  unfold invJacobianComponent2 inverseJacobian2 Verif.MathTools.inv2
  rw [hd]
  fin_cases i <;> fin_cases j <;> simp

/-- Instance: the circular mapping away from the O-point satisfies the hypotheses. -/
example (p : ℝ × ℝ) (hp : p.1 ≠ 0) :
    Matrix.of (Verif.Mappings.circJacMat p) * Matrix.of (Verif.Mappings.circInvJacMat p) = 1 ∧
    Verif.Mappings.circJac p = (Matrix.of (Verif.Mappings.circJacMat p)).det ∧ Verif.Mappings.circJac p ≠ 0 :=
  ⟨(Verif.Mappings.c31_circ_inverse hp).2, Verif.Mappings.c31_circ_det p, hp⟩

end Verif.VectorMapper
