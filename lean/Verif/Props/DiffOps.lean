import Verif.Model.DiffOps
import Verif.Props.VectorMapper
import Mathlib.LinearAlgebra.CrossProduct
import Mathlib.LinearAlgebra.Matrix.Determinant.Basic
import Mathlib.Analysis.Calculus.FDeriv.Symmetric
import Mathlib.Analysis.Calculus.FDeriv.Pi
import Mathlib.Analysis.Calculus.FDeriv.Mul
import Mathlib.Tactic.FinCases
import Mathlib.Tactic.Ring
import Mathlib.Tactic.FieldSimp
import Mathlib.Tactic.LinearCombination
import Mathlib.Tactic.NormNum

/-!
# C70: gradient, curl and Lie–Poisson bracket do not depend on the coordinates
-/

namespace Verif.DiffOps

open Verif.VectorMapper Matrix

/-- The permutation symbol. -/
noncomputable def sgn3 (i j k : Fin 3) : ℝ := ((j.1 : ℝ) - i.1) * ((k.1 : ℝ) - j.1) * ((k.1 : ℝ) - i.1) / 2

theorem eps_eq (cart : Bool) (jac : ℝ) (i j k : Fin 3) : eps cart jac i j k = sgn3 i j k * (if cart then jac else 1 / jac) := by
  have h : ∀ i j k : Fin 3, ∃ z : ℤ, Verif.TypeSeq.parity [i, j, k] [0, 1, 2] = some z ∧ (z : ℝ) = sgn3 i j k := by
    intro i j k
    fin_cases i <;> fin_cases j <;> fin_cases k <;>
      first
      | exact ⟨0, by decide +kernel, by norm_num [sgn3]⟩
      | exact ⟨1, by decide +kernel, by norm_num [sgn3]⟩
      | exact ⟨-1, by decide +kernel, by norm_num [sgn3]⟩
  obtain ⟨z, h1, h2⟩ := h i j k
  simp only [eps, Verif.Tensor.leviCivita, h1, Option.map_some, Option.getD_some, h2]
  cases cart <;> simp [tags, Verif.Tensor.isCo]

theorem sum_sgn3 (u v w : Fin 3 → ℝ) : ∑ i, ∑ j, ∑ k, sgn3 i j k * u i * v j * w k = u ⬝ᵥ (v ⨯₃ w) := by
  have h : ∀ f : Fin 3 → ℝ, u ⬝ᵥ f = u 0 * f 0 + u 1 * f 1 + u 2 * f 2 := fun f => by simp [dotProduct, Fin.sum_univ_three]
  have c0 : (v ⨯₃ w) 0 = v 1 * w 2 - v 2 * w 1 := by rw [cross_apply]; rfl
  have c1 : (v ⨯₃ w) 1 = v 2 * w 0 - v 0 * w 2 := by rw [cross_apply]; rfl
  have c2 : (v ⨯₃ w) 2 = v 0 * w 1 - v 1 * w 0 := by rw [cross_apply]; rfl
  rw [h, c0, c1, c2]
  simp only [Fin.sum_univ_three, sgn3, Fin.val_zero, Fin.val_one, Fin.val_two, Fin.isValue]
  push_cast
  ring

/-- The triple product of three transformed vectors. -/
theorem triple_transform (J : Fin 3 → Fin 3 → ℝ) (a p q : Fin 3 → ℝ) :
    mulJI J a ⬝ᵥ (mulJI J p ⨯₃ mulJI J q) = (Matrix.of J).det * (a ⬝ᵥ (p ⨯₃ q)) := by
  have hdet : (Matrix.of J).det = J 0 0 * J 1 1 * J 2 2 - J 0 0 * J 1 2 * J 2 1 - J 0 1 * J 1 0 * J 2 2 + J 0 1 * J 1 2 * J 2 0 +
      J 0 2 * J 1 0 * J 2 1 - J 0 2 * J 1 1 * J 2 0 := by
    rw [Matrix.det_fin_three]; rfl
  rw [hdet, ← sum_sgn3, ← sum_sgn3]
  simp only [Fin.sum_univ_three, sgn3, mulJI, Fin.val_zero, Fin.val_one, Fin.val_two, Fin.isValue]
  push_cast
  ring

theorem norm_metric (J : Fin 3 → Fin 3 → ℝ) (B : Fin 3 → ℝ) : norm (metric J) B = Real.sqrt (mulIJ J B ⬝ᵥ mulIJ J B) := by
  unfold norm
  congr 1
  simp only [metric, mulIJ, dotProduct, Fin.sum_univ_three]
  ring

/-- **C70** `norm(metric, v)` is the Euclidean length of the Cartesian vector of which `v` holds the contravariant components. -/
theorem c70_norm {n : Type*} [Fintype n] (J : n → n → ℝ) (v : n → ℝ) :
    norm (metric J) v = Real.sqrt (∑ a, (∑ i, J a i * v i) ^ 2) := by
  unfold norm metric
  congr 1
  have : ∀ a, (∑ i, J a i * v i) ^ 2 = ∑ i, ∑ j, v i * (J a i * J a j) * v j := by
    intro a
    rw [sq, Finset.sum_mul_sum]
    exact Finset.sum_congr rfl fun i _ => Finset.sum_congr rfl fun j _ => by ring
  simp only [this, Finset.mul_sum, Finset.sum_mul]
  rw [Finset.sum_comm (s := Finset.univ) (t := Finset.univ) (f := fun a i => ∑ j, v i * (J a i * J a j) * v j)]
  exact Finset.sum_congr rfl fun i _ => Finset.sum_comm

theorem bracket_sum (cart : Bool) (jac : ℝ) (J : Fin 3 → Fin 3 → ℝ) (df dg B : Fin 3 → ℝ) :
    bracket cart jac J df dg B =
      (if cart then jac else 1 / jac) * (mulIJ (metric J) (fun l => B l / norm (metric J) B) ⬝ᵥ (df ⨯₃ dg)) := by
  rw [← sum_sgn3]
  simp only [bracket, eps_eq, mulIJ, Finset.mul_sum, Finset.sum_mul]
  refine Finset.sum_congr rfl fun i _ => Finset.sum_congr rfl fun j _ => Finset.sum_congr rfl fun k _ => Finset.sum_congr rfl fun l _ => ?_
  ring

/-- **C70** The bracket computed from the logical partial derivatives (by the chain rule `Jᵀ∇f`, `Jᵀ∇g`) and the contravariant components of `B` is
`b · (∇f × ∇g)`, `b` the unit vector of `B`, all in Cartesian components: it does not depend on the coordinates, for any orientation of the mapping. -/
theorem c70_bracket (J : Fin 3 → Fin 3 → ℝ) (hJ : (Matrix.of J).det ≠ 0) (p q B df dg : Fin 3 → ℝ)
    (hf : ∀ j, df j = ∑ a, J a j * p a) (hg : ∀ k, dg k = ∑ a, J a k * q a) :
    bracket false (Matrix.of J).det J df dg B =
      (fun a => mulIJ J B a / Real.sqrt (mulIJ J B ⬝ᵥ mulIJ J B)) ⬝ᵥ (p ⨯₃ q) := by
  rw [bracket_sum]
  obtain rfl : df = mulJI J p := funext hf
  obtain rfl : dg = mulJI J q := funext hg
  have : mulIJ (metric J) (fun l => B l / norm (metric J) B) =
      mulJI J (fun a => mulIJ J B a / Real.sqrt (mulIJ J B ⬝ᵥ mulIJ J B)) := by
    funext i
    rw [← norm_metric]
    simp only [mulIJ, mulJI, metric, Fin.sum_univ_three]
    ring
  rw [this, triple_transform]
  simp only [Bool.false_eq_true, if_false]
  rw [← mul_assoc, one_div, inv_mul_cancel₀ hJ, one_mul]

/-- A cylindrical-like point with a left-handed Jacobian and a non-trivial field meets the hypotheses. -/
example : (Matrix.of ![![1, 0, 0], ![0, 0, 2], ![(0 : ℝ), 3, 1]]).det ≠ 0 := by
  have : (Matrix.of ![![1, 0, 0], ![0, 0, 2], ![(0 : ℝ), 3, 1]]).det = -6 := by
    rw [Matrix.det_fin_three]
    show (1 : ℝ) * 0 * 1 - 1 * 2 * 3 - 0 * 0 * 1 + 0 * 2 * 0 + 0 * 0 * 3 - 0 * 0 * 0 = -6
    norm_num
  rw [this]
  norm_num

/-- **C70** The bracket is antisymmetric, vanishes on `f, f`, is linear in each argument and obeys the product rule (`d(gh) = g dh + h dg`). -/
theorem c70_bracket_algebra (cart : Bool) (jac : ℝ) (J : Fin 3 → Fin 3 → ℝ) (df dg dh B : Fin 3 → ℝ) (a b : ℝ) :
    bracket cart jac J df dg B = -bracket cart jac J dg df B ∧
      bracket cart jac J df df B = 0 ∧
      bracket cart jac J df (fun k => a * dg k + b * dh k) B = a * bracket cart jac J df dg B + b * bracket cart jac J df dh B ∧
      bracket cart jac J (fun k => a * dg k + b * dh k) df B = a * bracket cart jac J dg df B + b * bracket cart jac J dh df B := by
  simp only [bracket_sum, ← sum_sgn3, Fin.sum_univ_three, sgn3, Fin.val_zero, Fin.val_one, Fin.val_two]
  push_cast
  refine ⟨by ring, by ring, by ring, by ring⟩

/-- **C70** The bracket depends on the direction of `B` only: multiplying `B` by a positive number changes nothing, reversing it changes the sign. -/
theorem c70_bracket_direction (cart : Bool) (jac : ℝ) (J : Fin 3 → Fin 3 → ℝ) (df dg B : Fin 3 → ℝ) (c : ℝ) (hc : c ≠ 0) :
    bracket cart jac J df dg (fun l => c * B l) = SignType.sign c * bracket cart jac J df dg B := by
  have hn : norm (metric J) (fun l => c * B l) = |c| * norm (metric J) B := by
    rw [norm_metric, norm_metric, ← Real.sqrt_sq_eq_abs, ← Real.sqrt_mul (sq_nonneg c)]
    congr 1
    simp only [mulIJ, dotProduct, Fin.sum_univ_three]
    ring
  have hs : ∀ l, c * B l / norm (metric J) (fun l => c * B l) = SignType.sign c * (B l / norm (metric J) B) := by
    intro l
    rw [hn, mul_div_mul_comm]
    congr 1
    rcases lt_or_gt_of_ne hc with h | h
    · rw [abs_of_neg h, sign_neg h]; field_simp; norm_num
    · rw [abs_of_pos h, sign_pos h]; field_simp; norm_num
  simp only [bracket, Finset.mul_sum, hs]
  refine Finset.sum_congr rfl fun i _ => Finset.sum_congr rfl fun j _ => Finset.sum_congr rfl fun k _ => Finset.sum_congr rfl fun l _ => ?_
  ring

/-- **C70** With a vector as second argument each component is the bracket with that component; on fields each value uses the Jacobian, the derivatives and
the magnetic field of its own index. -/
theorem c70_bracket_vector {n ι : Type*} (cart : Bool) (jac : ℝ) (J : Fin 3 → Fin 3 → ℝ) (df : Fin 3 → ℝ) (dg : n → Fin 3 → ℝ) (B : Fin 3 → ℝ) (m : n)
    (jacF : ι → ℝ) (JF : ι → Fin 3 → Fin 3 → ℝ) (dfF dgF BF : ι → Fin 3 → ℝ) (idx : ι) :
    bracketVec cart jac J df dg B m = bracket cart jac J df (dg m) B ∧
      bracketField cart jacF JF dfF dgF BF idx = bracket cart (jacF idx) (JF idx) (dfF idx) (dgF idx) (BF idx) :=
  ⟨rfl, rfl⟩

/-- **C70** When the logical dimensions are Cartesian tags the tensor is scaled by the determinant instead of its inverse: bracket and curl come out multiplied
by `det²`. They are right only for a volume-preserving mapping. -/
theorem c70_cartesian_argument (jac : ℝ) (hj : jac ≠ 0) (J dF : Fin 3 → Fin 3 → ℝ) (df dg B : Fin 3 → ℝ) (k : Fin 3) :
    bracket true jac J df dg B = jac ^ 2 * bracket false jac J df dg B ∧ curl true jac dF k = jac ^ 2 * curl false jac dF k := by
  constructor
  · rw [bracket_sum, bracket_sum]
    simp only [if_true, Bool.false_eq_true, if_false]
    field_simp
  · simp only [curl, eps_eq, Finset.mul_sum, if_true, Bool.false_eq_true, if_false]
    refine Finset.sum_congr rfl fun l _ => Finset.sum_congr rfl fun m _ => ?_
    field_simp

/-- … e.g. for `X = 2x, Y = y, Z = z`, `f = X`, `g = Y` and `B` along `Z`, `b·(∇f × ∇g) = 1`: with Cartesian tags the result is 4, otherwise 1. -/
theorem c70_cartesian_argument_wrong :
    bracket true 2 ![![2, 0, 0], ![0, 1, 0], ![0, 0, 1]] ![2, 0, 0] ![0, 1, 0] ![0, 0, 1] = 4 ∧
      bracket false 2 ![![2, 0, 0], ![0, 1, 0], ![0, 0, 1]] ![2, 0, 0] ![0, 1, 0] ![0, 0, 1] = 1 ∧
      (![0, 0, 1] : Fin 3 → ℝ) ⬝ᵥ (![1, 0, 0] ⨯₃ ![0, 1, 0]) = 1 := by
  refine ⟨?_, ?_, ?_⟩
  · rw [bracket_sum, norm_metric]
    simp [mulIJ, metric, Fin.sum_univ_three, cross_apply, dotProduct]
    norm_num
  · rw [bracket_sum, norm_metric]
    simp [mulIJ, metric, Fin.sum_univ_three, cross_apply, dotProduct]
  · simp [Fin.sum_univ_three, cross_apply, dotProduct]

/-- The curl of a vector field with derivative matrix `A a b = ∂F_a/∂x_b`, in Cartesian components. -/
def curlCart (A : Fin 3 → Fin 3 → ℝ) : Fin 3 → ℝ := ![A 2 1 - A 1 2, A 0 2 - A 2 0, A 1 0 - A 0 1]

theorem curl_algebra (J : Fin 3 → Fin 3 → ℝ) (hJ : (Matrix.of J).det ≠ 0) (A H dF : Fin 3 → Fin 3 → ℝ) (hH : ∀ l m, H l m = H m l)
    (hd : ∀ m l, dF m l = ∑ a, ∑ b, J a m * A a b * J b l + H m l) :
    mulIJ J (curl false (Matrix.of J).det dF) = curlCart A := by
  have e : ∀ k, curl false (Matrix.of J).det dF k =
      (Matrix.of J).det⁻¹ * ∑ l, ∑ m, sgn3 k l m * (∑ a, ∑ b, J a m * A a b * J b l) := by
    intro k
    simp only [curl, eps_eq, Bool.false_eq_true, if_false, one_div, Finset.mul_sum, hd]
    have hz : ∑ l, ∑ m, sgn3 k l m * H m l = 0 := by
      simp only [Fin.sum_univ_three]
      rw [hH 1 0, hH 2 0, hH 2 1]
      fin_cases k <;> simp [sgn3] <;> ring
    have : ∑ l, ∑ m, sgn3 k l m * (Matrix.of J).det⁻¹ * H m l = 0 := by
      have h2 : ∑ l, ∑ m, sgn3 k l m * (Matrix.of J).det⁻¹ * H m l = (Matrix.of J).det⁻¹ * ∑ l, ∑ m, sgn3 k l m * H m l := by
        simp only [Finset.mul_sum]
        exact Finset.sum_congr rfl fun l _ => Finset.sum_congr rfl fun m _ => by ring
      rw [h2, hz, mul_zero]
    rw [← sub_eq_zero]
    simp only [← Finset.mul_sum, mul_add, Finset.sum_add_distrib]
    rw [this, add_zero, sub_eq_zero]
    simp only [Finset.mul_sum]
    exact Finset.sum_congr rfl fun l _ => Finset.sum_congr rfl fun m _ => Finset.sum_congr rfl fun a _ => Finset.sum_congr rfl fun b _ => by ring
  have hdet : (Matrix.of J).det = J 0 0 * J 1 1 * J 2 2 - J 0 0 * J 1 2 * J 2 1 - J 0 1 * J 1 0 * J 2 2 + J 0 1 * J 1 2 * J 2 0 +
      J 0 2 * J 1 0 * J 2 1 - J 0 2 * J 1 1 * J 2 0 := by
    rw [Matrix.det_fin_three]; rfl
  funext n
  simp only [mulIJ, e]
  have hm : ∀ x : Fin 3 → ℝ, (∑ j, J n j * ((Matrix.of J).det⁻¹ * x j)) = (Matrix.of J).det⁻¹ * ∑ j, J n j * x j := by
    intro x
    rw [Finset.mul_sum]
    exact Finset.sum_congr rfl fun j _ => by ring
  have hc0 : curlCart A 0 = A 2 1 - A 1 2 := rfl
  have hc1 : curlCart A 1 = A 0 2 - A 2 0 := rfl
  have hc2 : curlCart A 2 = A 1 0 - A 0 1 := rfl
  rw [hm, inv_mul_eq_iff_eq_mul₀ hJ, hdet]
  fin_cases n <;>
  · simp only [Fin.sum_univ_three, sgn3, hc0, hc1, hc2, Fin.val_zero, Fin.val_one, Fin.val_two, Fin.zero_eta, Fin.mk_one, Fin.reduceFinMk, Fin.isValue]
    push_cast
    ring

/-- **C70** The curl of a symmetric derivative matrix vanishes: `curl grad f = 0` in every coordinate system (the second derivatives commute). -/
theorem c70_curl_grad (cart : Bool) (jac : ℝ) (dF : Fin 3 → Fin 3 → ℝ) (h : ∀ l m, dF l m = dF m l) (k : Fin 3) : curl cart jac dF k = 0 := by
  simp only [curl, eps_eq, Fin.sum_univ_three]
  rw [h 1 0, h 2 0, h 2 1]
  generalize (if cart = true then jac else 1 / jac) = c
  fin_cases k <;> simp [sgn3] <;> ring

/-! ## The same statements with actual derivatives -/

/-- Partial derivative along a coordinate direction. -/
noncomputable def pd {E : Type*} [NormedAddCommGroup E] [NormedSpace ℝ E] (f : (Fin 3 → ℝ) → E) (i : Fin 3) (x : Fin 3 → ℝ) : E :=
  fderiv ℝ f x (Pi.single i 1)

/-- The Jacobian matrix of a mapping. -/
noncomputable def jacobian (X : (Fin 3 → ℝ) → (Fin 3 → ℝ)) (u : Fin 3 → ℝ) (a i : Fin 3) : ℝ := pd X i u a

theorem fderiv_sum {E : Type*} [NormedAddCommGroup E] [NormedSpace ℝ E] (L : (Fin 3 → ℝ) →L[ℝ] E) (v : Fin 3 → ℝ) :
    L v = ∑ a, v a • L (Pi.single a 1) := by
  conv_lhs => rw [pi_eq_sum_univ' v]
  rw [map_sum]
  refine Finset.sum_congr rfl fun a _ => ?_
  rw [map_smul]

theorem chain {E : Type*} [NormedAddCommGroup E] [NormedSpace ℝ E] (X : (Fin 3 → ℝ) → (Fin 3 → ℝ)) (f : (Fin 3 → ℝ) → E) (u : Fin 3 → ℝ)
    (hX : DifferentiableAt ℝ X u) (hf : DifferentiableAt ℝ f (X u)) (j : Fin 3) :
    pd (fun w => f (X w)) j u = ∑ a, jacobian X u a j • pd f a (X u) := by
  have h : fderiv ℝ (fun w => f (X w)) u = (fderiv ℝ f (X u)).comp (fderiv ℝ X u) := fderiv_comp u hf hX
  unfold pd
  rw [h, ContinuousLinearMap.comp_apply, fderiv_sum (fderiv ℝ f (X u))]
  rfl

/-- **C70** Gradient: for a function `f` of the Cartesian position, the contravariant gradient computed from the partial derivatives of `f ∘ X` holds the
contravariant components of the Cartesian gradient (`J` times it is `∇f`), and the covariant gradient its covariant components. -/
theorem c70_gradient (X : (Fin 3 → ℝ) → (Fin 3 → ℝ)) (f : (Fin 3 → ℝ) → ℝ) (u : Fin 3 → ℝ) (hX : DifferentiableAt ℝ X u)
    (hf : DifferentiableAt ℝ f (X u)) (invJ : Fin 3 → Fin 3 → ℝ) (hinv : Matrix.of (jacobian X u) * Matrix.of invJ = 1) :
    (∀ a, ∑ i, jacobian X u a i * gradContra invJ (fun j => pd (fun w => f (X w)) j u) i = pd f a (X u)) ∧
      (∀ i, gradCov (fun j => pd (fun w => f (X w)) j u) i = ∑ a, jacobian X u a i * pd f a (X u)) := by
  have hc := chain X f u hX hf
  constructor
  · intro a
    have h1 : (fun j => pd (fun w => f (X w)) j u) = (Matrix.of (jacobian X u))ᵀ *ᵥ fun a => pd f a (X u) := by
      funext j
      rw [hc j]
      simp [Matrix.mulVec, dotProduct]
    have h2 : gradContra invJ (fun j => pd (fun w => f (X w)) j u) = Matrix.of invJ *ᵥ fun a => pd f a (X u) := by
      rw [gradContra, mulIJ_eq, metricInv_eq, h1, Matrix.mulVec_mulVec, Matrix.mul_assoc, ← Matrix.transpose_mul, hinv, Matrix.transpose_one, Matrix.mul_one]
    have h3 : (Matrix.of (jacobian X u) * Matrix.of invJ) *ᵥ (fun a => pd f a (X u)) = fun a => pd f a (X u) := by rw [hinv, Matrix.one_mulVec]
    have h4 := congrFun h3 a
    rw [← Matrix.mulVec_mulVec, ← h2] at h4
    exact h4
  · intro i
    simp only [gradCov, hc i, smul_eq_mul]

/-- **C70** Gradient of a field: at every index of the grid, the gradient at the coordinate of that index. -/
theorem c70_gradient_field {ι : Type*} (X : (Fin 3 → ℝ) → (Fin 3 → ℝ)) (f : (Fin 3 → ℝ) → ℝ) (coord : ι → Fin 3 → ℝ) (invJ : ι → Fin 3 → Fin 3 → ℝ) (partials : ι → Fin 3 → ℝ)
    (hX : ∀ k, DifferentiableAt ℝ X (coord k)) (hf : ∀ k, DifferentiableAt ℝ f (X (coord k))) (hinv : ∀ k, Matrix.of (jacobian X (coord k)) * Matrix.of (invJ k) = 1)
    (hp : ∀ k j, partials k j = pd (fun w => f (X w)) j (coord k)) (k : ι) (a : Fin 3) :
    ∑ i, jacobian X (coord k) a i * gradContraField invJ partials k i = pd f a (X (coord k)) := by
  unfold gradContraField
  rw [show partials k = fun j => pd (fun w => f (X w)) j (coord k) from funext (hp k)]
  exact (c70_gradient X f (coord k) (hX k) (hf k) (invJ k) (hinv k)).1 a

/-- **C70** The Lie–Poisson bracket with actual derivatives: the operator applied to the partial derivatives of `f ∘ X` and `g ∘ X` and to the contravariant
components `B` of a Cartesian vector `Bc ≠ 0` gives `(Bc/|Bc|) · (∇f × ∇g)` at `X(u)`. -/
theorem c70_bracket_fields (X : (Fin 3 → ℝ) → (Fin 3 → ℝ)) (f g : (Fin 3 → ℝ) → ℝ) (u : Fin 3 → ℝ) (hX : DifferentiableAt ℝ X u)
    (hf : DifferentiableAt ℝ f (X u)) (hg : DifferentiableAt ℝ g (X u)) (hJ : (Matrix.of (jacobian X u)).det ≠ 0) (B Bc : Fin 3 → ℝ)
    (hB : ∀ a, Bc a = ∑ i, jacobian X u a i * B i) :
    bracket false (Matrix.of (jacobian X u)).det (jacobian X u) (fun j => pd (fun w => f (X w)) j u) (fun k => pd (fun w => g (X w)) k u) B =
      (fun a => Bc a / Real.sqrt (∑ b, Bc b ^ 2)) ⬝ᵥ ((fun a => pd f a (X u)) ⨯₃ (fun a => pd g a (X u))) := by
  obtain rfl : Bc = mulIJ (jacobian X u) B := funext hB
  rw [c70_bracket (jacobian X u) hJ (fun a => pd f a (X u)) (fun a => pd g a (X u)) B _ _
    (fun j => by rw [chain X f u hX hf j]; rfl) (fun k => by rw [chain X g u hX hg k]; rfl)]
  simp only [dotProduct, sq]

/-- **C70** Curl with actual derivatives: let `F` be a vector field on the Cartesian space and `F_m = Σ_a F_a(X) ∂X_a/∂u_m` its covariant components; the
operator applied to their partial derivatives gives the contravariant components of `curl F` at `X(u)`. -/
theorem c70_curl (X : (Fin 3 → ℝ) → (Fin 3 → ℝ)) (F : (Fin 3 → ℝ) → (Fin 3 → ℝ)) (u : Fin 3 → ℝ) (hX : ContDiffAt ℝ 2 X u)
    (hF : DifferentiableAt ℝ F (X u)) (hJ : (Matrix.of (jacobian X u)).det ≠ 0) (dF : Fin 3 → Fin 3 → ℝ)
    (hd : ∀ m l, dF m l = pd (fun w => ∑ a, F (X w) a * jacobian X w a m) l u) (a : Fin 3) :
    ∑ i, jacobian X u a i * curl false (Matrix.of (jacobian X u)).det dF i = curlCart (fun a b => pd F b (X u) a) a := by
  have hX1 : DifferentiableAt ℝ X u := hX.differentiableAt (by norm_num)
  have hX2 : DifferentiableAt ℝ (fderiv ℝ X) u := (hX.fderiv_right (m := 1) (by norm_num)).differentiableAt (by norm_num)
  have hsym : IsSymmSndFDerivAt ℝ X u := hX.isSymmSndFDerivAt (by simp)
  have hXF : DifferentiableAt ℝ (fun w => F (X w)) u := hF.comp u hX1
  have hFa : ∀ a, DifferentiableAt ℝ (fun w => F (X w) a) u := fun a => differentiableAt_pi.1 hXF a
  have hJac : ∀ a m, HasFDerivAt (fun w => jacobian X w a m)
      (((ContinuousLinearMap.proj a).comp (ContinuousLinearMap.apply ℝ (Fin 3 → ℝ) (Pi.single m (1 : ℝ)))).comp (fderiv ℝ (fderiv ℝ X) u)) u := by
    intro a m
    exact (((ContinuousLinearMap.proj (R := ℝ) (φ := fun _ : Fin 3 => ℝ) a).comp
      (ContinuousLinearMap.apply ℝ (Fin 3 → ℝ) (Pi.single m (1 : ℝ)))).hasFDerivAt).comp u hX2.hasFDerivAt
  have hpd : ∀ m l, dF m l = ∑ a, (∑ b, jacobian X u a m * pd F b (X u) a * jacobian X u b l) +
      ∑ a, F (X u) a * fderiv ℝ (fderiv ℝ X) u (Pi.single l 1) (Pi.single m 1) a := by
    intro m l
    have h1 : HasFDerivAt (fun w => ∑ a, F (X w) a * jacobian X w a m)
        (∑ a, (F (X u) a • (((ContinuousLinearMap.proj a).comp
          (ContinuousLinearMap.apply ℝ (Fin 3 → ℝ) (Pi.single m (1 : ℝ)))).comp (fderiv ℝ (fderiv ℝ X) u)) +
          jacobian X u a m • fderiv ℝ (fun w => F (X w) a) u)) u :=
      HasFDerivAt.fun_sum fun a _ => (hFa a).hasFDerivAt.mul (hJac a m)
    rw [hd m l, pd, h1.fderiv, _root_.sum_apply, ← Finset.sum_add_distrib]
    refine Finset.sum_congr rfl fun a _ => ?_
    have h2 : fderiv ℝ (fun w => F (X w) a) u (Pi.single l 1) = ∑ b, jacobian X u b l * pd F b (X u) a := by
      have h3 := chain X F u hX1 hF l
      have h4 : fderiv ℝ (fun w => F (X w) a) u (Pi.single l 1) = pd (fun w => F (X w)) l u a := by
        unfold pd
        rw [fderiv_apply hXF]
        rfl
      rw [h4, h3, Finset.sum_apply]
      rfl
    simp only [_root_.add_apply, _root_.smul_apply, ContinuousLinearMap.comp_apply, ContinuousLinearMap.proj_apply,
      ContinuousLinearMap.apply_apply, smul_eq_mul]
    rw [h2, add_comm, Finset.mul_sum]
    congr 1
    exact Finset.sum_congr rfl fun b _ => by ring
  have hc := curl_algebra (jacobian X u) hJ (fun a b => pd F b (X u) a)
    (fun m l => ∑ a, F (X u) a * fderiv ℝ (fderiv ℝ X) u (Pi.single l 1) (Pi.single m 1) a) dF
    (fun l m => by
      refine Finset.sum_congr rfl fun a _ => ?_
      rw [hsym.eq]) hpd
  exact congrFun hc a

/-- The identity mapping and the rotation field `F = (-y, x, 0)` meet the hypotheses. -/
example : ContDiffAt ℝ 2 (fun w : Fin 3 → ℝ => w) 0 ∧ (Matrix.of (jacobian (fun w => w) 0)).det ≠ 0 := by
  refine ⟨contDiffAt_id, ?_⟩
  have : Matrix.of (jacobian (fun w => w) 0) = 1 := by
    ext i j
    simp [jacobian, pd, Matrix.one_apply, Pi.single_apply]
  rw [this, Matrix.det_one]
  exact one_ne_zero

end Verif.DiffOps
