import Verif.Props.Gyroaverage
import Mathlib.Analysis.SpecialFunctions.Integrals.Basic
import Mathlib.Algebra.Polynomial.Eval.Degree
import Mathlib.Analysis.Calculus.Taylor
import Mathlib.Analysis.Calculus.ContDiff.Bounds
import Mathlib.Analysis.Calculus.IteratedDeriv.Lemmas
import Mathlib.Tactic.Positivity
import Mathlib.Tactic.FunProp

/-!
# C58: accuracy of the gyroaverage
-/

namespace Verif.Gyroaverage
open Finset Polynomial

variable {B I J C : Type*}

/-- Specification: the mean of `F` over the circle with the centre `x` and the radius `ρ`. -/
noncomputable def circleMean (F : ℝ × ℝ → ℝ) (x : ℝ × ℝ) (ρ : ℝ) : ℝ :=
  (∫ θ in (0 : ℝ)..(2 * Real.pi), F (x.1 + ρ * Real.cos θ, x.2 + ρ * Real.sin θ)) / (2 * Real.pi)

/-- Specification: a polynomial of two variables, of total degree less than `n`. -/
def poly2 (n : ℕ) (a : ℕ → ℕ → ℝ) (x : ℝ × ℝ) : ℝ := ∑ p ∈ range n, ∑ q ∈ range (n - p), a p q * x.1 ^ p * x.2 ^ q

/-! ### Trigonometric polynomials -/

/-- `g` is a trigonometric polynomial of degree at most `d`. -/
def TP (d : ℕ) (g : ℝ → ℝ) : Prop :=
  ∃ P : ℂ[X], P.natDegree ≤ 2 * d ∧ ∀ θ : ℝ, (g θ : ℂ) * Complex.exp (θ * Complex.I) ^ d = P.eval (Complex.exp (θ * Complex.I))

theorem TP.const (c : ℝ) : TP 0 (fun _ => c) := ⟨Polynomial.C (c : ℂ), by simp, fun θ => by simp⟩

theorem TP.mono {d e : ℕ} {g : ℝ → ℝ} (h : TP d g) (hde : d ≤ e) : TP e g := by
  obtain ⟨P, hP, hg⟩ := h
  refine ⟨P * X ^ (e - d), ?_, fun θ => ?_⟩
  · refine Polynomial.natDegree_mul_le.trans ?_
    rw [Polynomial.natDegree_X_pow]
    omega
  · rw [Polynomial.eval_mul, ← hg, Polynomial.eval_pow, Polynomial.eval_X, mul_assoc, ← pow_add, Nat.add_sub_cancel' hde]

theorem TP.add {d : ℕ} {f g : ℝ → ℝ} (hf : TP d f) (hg : TP d g) : TP d (fun θ => f θ + g θ) := by
  obtain ⟨P, hP, h1⟩ := hf
  obtain ⟨Q, hQ, h2⟩ := hg
  refine ⟨P + Q, (Polynomial.natDegree_add_le _ _).trans (max_le hP hQ), fun θ => ?_⟩
  rw [Polynomial.eval_add, ← h1, ← h2, Complex.ofReal_add, add_mul]

theorem TP.mul {d e : ℕ} {f g : ℝ → ℝ} (hf : TP d f) (hg : TP e g) : TP (d + e) (fun θ => f θ * g θ) := by
  obtain ⟨P, hP, h1⟩ := hf
  obtain ⟨Q, hQ, h2⟩ := hg
  refine ⟨P * Q, Polynomial.natDegree_mul_le.trans (by omega), fun θ => ?_⟩
  rw [Polynomial.eval_mul, ← h1, ← h2, Complex.ofReal_mul, pow_add]
  ring

theorem TP.pow {d : ℕ} {f : ℝ → ℝ} (hf : TP d f) (k : ℕ) : TP (k * d) (fun θ => f θ ^ k) := by
  induction k with
  | zero => simpa using TP.const 1
  | succ k ih =>
    rw [Nat.succ_mul]
    simpa only [pow_succ] using ih.mul hf

theorem TP.sum {d : ℕ} {ι : Type*} (s : Finset ι) (f : ι → ℝ → ℝ) (h : ∀ i ∈ s, TP d (f i)) : TP d (fun θ => ∑ i ∈ s, f i θ) := by
  classical
  induction s using Finset.induction_on with
  | empty => simpa using (TP.const 0).mono (Nat.zero_le d)
  | insert i s hi ih =>
    simp only [Finset.sum_insert hi]
    exact (h i (Finset.mem_insert_self _ _)).add (ih fun j hj => h j (Finset.mem_insert_of_mem hj))

theorem TP.cos : TP 1 Real.cos := by
  refine ⟨Polynomial.C (1 / 2 : ℂ) * (X ^ 2 + 1), ?_, fun θ => ?_⟩
  · compute_degree
  · have h : Complex.exp (θ * Complex.I) * Complex.exp (-θ * Complex.I) = 1 := by rw [← Complex.exp_add]; simp
    rw [Complex.ofReal_cos, Complex.cos]
    simp only [Polynomial.eval_mul, Polynomial.eval_C, Polynomial.eval_add, Polynomial.eval_pow, Polynomial.eval_X, Polynomial.eval_one]
    linear_combination (1 / 2 : ℂ) * h

theorem TP.sin : TP 1 Real.sin := by
  refine ⟨Polynomial.C (-(Complex.I / 2) : ℂ) * (X ^ 2 - 1), ?_, fun θ => ?_⟩
  · compute_degree
  · have h : Complex.exp (θ * Complex.I) * Complex.exp (-θ * Complex.I) = 1 := by rw [← Complex.exp_add]; simp
    rw [Complex.ofReal_sin, Complex.sin]
    simp only [Polynomial.eval_mul, Polynomial.eval_C, Polynomial.eval_sub, Polynomial.eval_pow, Polynomial.eval_X, Polynomial.eval_one]
    linear_combination (Complex.I / 2 : ℂ) * h

theorem TP.expand {d : ℕ} {g : ℝ → ℝ} (h : TP d g) : ∃ a : ℕ → ℂ, ∀ θ : ℝ, (g θ : ℂ) = ∑ j ∈ range (2 * d + 1), a j * Complex.exp ((((j : ℤ) - (d : ℤ) : ℤ) : ℂ) * Complex.I * θ) := by
  obtain ⟨P, hP, hg⟩ := h
  refine ⟨P.coeff, fun θ => ?_⟩
  have hne : Complex.exp (θ * Complex.I) ^ d ≠ 0 := pow_ne_zero _ (Complex.exp_ne_zero _)
  rw [← mul_left_inj' hne, hg, Polynomial.eval_eq_sum_range' (n := 2 * d + 1) (by omega), Finset.sum_mul]
  refine Finset.sum_congr rfl fun j _ => ?_
  rw [mul_assoc, ← Complex.exp_nat_mul, ← Complex.exp_nat_mul, ← Complex.exp_add]
  congr 2
  push_cast
  ring

theorem disc_mode (n : ℕ) (hn : 0 < n) (m : ℤ) (hm : |m| < n) :
    ∑ k ∈ range n, Complex.exp ((m : ℂ) * Complex.I * ((2 * Real.pi * k / n : ℝ) : ℂ)) = if m = 0 then (n : ℂ) else 0 := by
  have hn' : (n : ℂ) ≠ 0 := Nat.cast_ne_zero.2 hn.ne'
  split
  · next h => simp [h]
  · next h =>
    obtain ⟨w, hw⟩ : ∃ w, w = Complex.exp ((m : ℂ) * (2 * Real.pi * Complex.I) / n) := ⟨_, rfl⟩
    have ht : ∀ k : ℕ, Complex.exp ((m : ℂ) * Complex.I * ((2 * Real.pi * k / n : ℝ) : ℂ)) = w ^ k := by
      intro k
      rw [hw, ← Complex.exp_nat_mul]
      congr 1
      push_cast
      ring
    simp only [ht]
    have h1 : w ^ n = 1 := by
      rw [hw, ← Complex.exp_nat_mul, mul_div_cancel₀ _ hn', Complex.exp_int_mul_two_pi_mul_I]
    have h2 : w ≠ 1 := by
      intro hw1
      rw [hw, Complex.exp_eq_one_iff] at hw1
      obtain ⟨l, hl⟩ := hw1
      rw [div_eq_iff hn'] at hl
      have h3 : (m : ℂ) = l * n := by
        refine mul_right_cancel₀ Complex.two_pi_I_ne_zero ?_
        rw [hl]; ring
      have h4 : m = l * n := by exact_mod_cast h3
      have h5 : (n : ℤ) ∣ m := ⟨l, by rw [h4]; ring⟩
      exact h (Int.eq_zero_of_abs_lt_dvd h5 hm)
    have := geom_sum_mul w n
    rw [h1, sub_self] at this
    exact (mul_eq_zero.1 this).resolve_right (sub_ne_zero.2 h2)

theorem int_mode (m : ℤ) : ∫ θ in (0 : ℝ)..(2 * Real.pi), Complex.exp ((m : ℂ) * Complex.I * θ) = if m = 0 then ((2 * Real.pi : ℝ) : ℂ) else 0 := by
  split
  · next h => simp [h]
  · next h =>
    rw [integral_exp_mul_complex (mul_ne_zero (by exact_mod_cast h) Complex.I_ne_zero)]
    have : Complex.exp ((m : ℂ) * Complex.I * ((2 * Real.pi : ℝ) : ℂ)) = 1 := by
      rw [← Complex.exp_int_mul_two_pi_mul_I m]
      congr 1
      push_cast
      ring
    rw [this]
    simp

/-- The mean of a trigonometric polynomial over more points than its degree. -/
theorem TP.mean {d n : ℕ} {g : ℝ → ℝ} (h : TP d g) (hn : d < n) :
    (∑ k ∈ range n, g (2 * Real.pi * k / n)) / n = (∫ θ in (0 : ℝ)..(2 * Real.pi), g θ) / (2 * Real.pi) := by
  obtain ⟨a, ha⟩ := h.expand
  have hn' : (n : ℂ) ≠ 0 := Nat.cast_ne_zero.2 (by omega)
  have hpi : ((2 * Real.pi : ℝ) : ℂ) ≠ 0 := by exact_mod_cast (by positivity : (2 * Real.pi : ℝ) ≠ 0)
  have hmode : ∀ c : ℂ, ∑ j ∈ range (2 * d + 1), a j * (if ((j : ℤ) - (d : ℤ) : ℤ) = 0 then c else 0) = a d * c := by
    intro c
    rw [Finset.sum_eq_single d]
    · simp
    · intro j _ hj
      rw [if_neg (by omega), mul_zero]
    · intro hd
      simp at hd
      omega
  have e1 : ((∑ k ∈ range n, g (2 * Real.pi * k / n) : ℝ) : ℂ) = a d * n := by
    rw [Complex.ofReal_sum]
    simp only [ha]
    rw [Finset.sum_comm, ← hmode n]
    refine Finset.sum_congr rfl fun j hj => ?_
    rw [mem_range] at hj
    rw [← Finset.mul_sum, disc_mode n (by omega) _ (by rw [abs_lt]; omega)]
  have e2 : ((∫ θ in (0 : ℝ)..(2 * Real.pi), g θ : ℝ) : ℂ) = a d * ((2 * Real.pi : ℝ) : ℂ) := by
    rw [← intervalIntegral.integral_ofReal]
    simp only [ha]
    rw [intervalIntegral.integral_finsetSum, ← hmode]
    · refine Finset.sum_congr rfl fun j _ => ?_
      rw [intervalIntegral.integral_const_mul, int_mode]
    · intro j _
      refine Continuous.intervalIntegrable ?_ _ _
      fun_prop
  have : (((∑ k ∈ range n, g (2 * Real.pi * k / n)) / n : ℝ) : ℂ) = (((∫ θ in (0 : ℝ)..(2 * Real.pi), g θ) / (2 * Real.pi) : ℝ) : ℂ) := by
    rw [Complex.ofReal_div, Complex.ofReal_div, e1, e2, mul_div_assoc, mul_div_assoc, div_self hpi]
    simp [hn']
  exact_mod_cast this

theorem poly2_TP (n : ℕ) (hn : 0 < n) (a : ℕ → ℕ → ℝ) (x : ℝ × ℝ) (ρ : ℝ) : TP (n - 1) (fun θ => poly2 n a (x.1 + ρ * Real.cos θ, x.2 + ρ * Real.sin θ)) := by
  have hc : ∀ c r : ℝ, TP 1 (fun θ => c + r * Real.cos θ) := fun c r => ((TP.const c).mono (by omega)).add (by simpa using (TP.const r).mul TP.cos)
  have hs : ∀ c r : ℝ, TP 1 (fun θ => c + r * Real.sin θ) := fun c r => ((TP.const c).mono (by omega)).add (by simpa using (TP.const r).mul TP.sin)
  unfold poly2
  refine TP.sum _ _ fun p hp => TP.sum _ _ fun q hq => ?_
  rw [mem_range] at hp hq
  exact ((((TP.const (a p q)).mul ((hc x.1 ρ).pow p)).mul ((hs x.2 ρ).pow q))).mono (by omega)

theorem poly2_continuous (n : ℕ) (a : ℕ → ℕ → ℝ) : Continuous (poly2 n a) := by
  unfold poly2
  fun_prop

/-! ### The gyroaverage -/

/-- **C58** With `n` gyro points the gyroaverage of a polynomial of total degree less than `n` (where the interpolation reproduces it) is its exact mean over the Larmor circle. -/
theorem c58_polynomial (o : Op I J C) (hn : 0 < o.n) (A : B → I → J → ℝ) (b : B) (a : ℕ → ℕ → ℝ) (i : I) (j : J) (hj : j ≠ o.back)
    (hA : ∀ θ : ℝ, o.field (A b) ((o.centre i j).1 + o.rho i j * Real.cos θ, (o.centre i j).2 + o.rho i j * Real.sin θ) =
      poly2 o.n a ((o.centre i j).1 + o.rho i j * Real.cos θ, (o.centre i j).2 + o.rho i j * Real.sin θ)) :
    o.apply A b i j = circleMean (poly2 o.n a) (o.centre i j) (o.rho i j) := by
  rw [c58_value o A b i j hj]
  simp only [hA]
  exact (poly2_TP o.n hn a (o.centre i j) (o.rho i j)).mean (by omega)

/-- The error of the mean over equally spaced points, from the distance to a trigonometric polynomial. -/
theorem mean_near {d n : ℕ} {p g G : ℝ → ℝ} (hp : TP d p) (hd : d < n) (hcp : Continuous p) (hG : Continuous G) {δ ε : ℝ} (hg : ∀ θ, |g θ - G θ| ≤ δ) (hP : ∀ θ, |G θ - p θ| ≤ ε) :
    |(∑ k ∈ range n, g (2 * Real.pi * k / n)) / n - (∫ θ in (0 : ℝ)..(2 * Real.pi), G θ) / (2 * Real.pi)| ≤ δ + 2 * ε := by
  have hn' : (0 : ℝ) < n := Nat.cast_pos.2 (by omega)
  have hpi : (0 : ℝ) < 2 * Real.pi := by positivity
  have hm := hp.mean hd
  -- the discrete mean
  have h1 : |(∑ k ∈ range n, g (2 * Real.pi * k / n)) / n - (∑ k ∈ range n, p (2 * Real.pi * k / n)) / n| ≤ δ + ε := by
    rw [← sub_div, ← Finset.sum_sub_distrib, abs_div, abs_of_pos hn', div_le_iff₀ hn']
    refine (Finset.abs_sum_le_sum_abs _ _).trans ?_
    have : ∀ k ∈ range n, |g (2 * Real.pi * k / n) - p (2 * Real.pi * k / n)| ≤ δ + ε := fun k _ =>
      (abs_sub_le _ _ _).trans (add_le_add (hg _) (hP _))
    refine (Finset.sum_le_sum this).trans (le_of_eq ?_)
    rw [Finset.sum_const, Finset.card_range, nsmul_eq_mul, mul_comm]
  -- the integral
  have h2 : |(∫ θ in (0 : ℝ)..(2 * Real.pi), G θ) / (2 * Real.pi) - (∫ θ in (0 : ℝ)..(2 * Real.pi), p θ) / (2 * Real.pi)| ≤ ε := by
    rw [← sub_div, ← intervalIntegral.integral_sub, abs_div, abs_of_pos hpi, div_le_iff₀ hpi]
    · have := intervalIntegral.norm_integral_le_of_norm_le_const (a := 0) (b := 2 * Real.pi) (C := ε) (f := fun θ => G θ - p θ) fun θ _ => hP θ
      rwa [Real.norm_eq_abs, sub_zero, abs_of_pos hpi] at this
    · exact Continuous.intervalIntegrable (by fun_prop) _ _
    · exact Continuous.intervalIntegrable (by fun_prop) _ _
  rw [← hm] at h2
  rw [abs_sub_le_iff] at h1 h2 ⊢
  constructor <;> linarith [h1.1, h1.2, h2.1, h2.2]

/-- **C58** Accuracy: if the interpolant differs by at most `δ` from a continuous function `F` on the Larmor circle, and if `F` differs there by at most `ε` from some polynomial of total degree less than the number of
gyro points, then the gyroaverage differs by at most `δ + 2 ε` from the mean of `F` over the circle. -/
theorem c58_accuracy (o : Op I J C) (hn : 0 < o.n) (A : B → I → J → ℝ) (b : B) (i : I) (j : J) (hj : j ≠ o.back) (F : ℝ × ℝ → ℝ) (hF : Continuous F) (δ ε : ℝ)
    (hA : ∀ θ : ℝ, |o.field (A b) ((o.centre i j).1 + o.rho i j * Real.cos θ, (o.centre i j).2 + o.rho i j * Real.sin θ) -
      F ((o.centre i j).1 + o.rho i j * Real.cos θ, (o.centre i j).2 + o.rho i j * Real.sin θ)| ≤ δ) (a : ℕ → ℕ → ℝ)
    (hP : ∀ θ : ℝ, |F ((o.centre i j).1 + o.rho i j * Real.cos θ, (o.centre i j).2 + o.rho i j * Real.sin θ) -
      poly2 o.n a ((o.centre i j).1 + o.rho i j * Real.cos θ, (o.centre i j).2 + o.rho i j * Real.sin θ)| ≤ ε) :
    |o.apply A b i j - circleMean F (o.centre i j) (o.rho i j)| ≤ δ + 2 * ε := by
  have hcP := poly2_continuous o.n a
  rw [c58_value o A b i j hj]
  exact mean_near (poly2_TP o.n hn a (o.centre i j) (o.rho i j)) (by omega) (by fun_prop)
    (G := fun θ => F ((o.centre i j).1 + o.rho i j * Real.cos θ, (o.centre i j).2 + o.rho i j * Real.sin θ)) (by fun_prop)
    (g := fun θ => o.field (A b) ((o.centre i j).1 + o.rho i j * Real.cos θ, (o.centre i j).2 + o.rho i j * Real.sin θ)) hA hP

/-! ### Smooth functions -/

theorem TP.prod {ι : Type*} (s : Finset ι) (f : ι → ℝ → ℝ) (h : ∀ i ∈ s, TP 1 (f i)) : TP s.card (fun θ => ∏ i ∈ s, f i θ) := by
  classical
  induction s using Finset.induction_on with
  | empty => simpa using TP.const 1
  | insert i s hi ih =>
    simp only [Finset.prod_insert hi, Finset.card_insert_of_notMem hi, Nat.add_comm s.card]
    exact (h i (Finset.mem_insert_self _ _)).mul (ih fun j hj => h j (Finset.mem_insert_of_mem hj))

/-- A homogeneous form of degree `k` on the circle. -/
theorem multilinear_TP {k : ℕ} (T : ContinuousMultilinearMap ℝ (fun _ : Fin k => ℝ × ℝ) ℝ) (ρ : ℝ) : TP k (fun θ => T fun _ => (ρ * Real.cos θ, ρ * Real.sin θ)) := by
  have e : ∀ θ : ℝ, (T fun _ => (ρ * Real.cos θ, ρ * Real.sin θ)) = ∑ r : Fin k → Fin 2, (∏ i : Fin k, ![ρ * Real.cos θ, ρ * Real.sin θ] (r i)) * T fun i => ![((1 : ℝ), (0 : ℝ)), (0, 1)] (r i) := by
    intro θ
    have hv : (fun _ : Fin k => (ρ * Real.cos θ, ρ * Real.sin θ)) = fun _ : Fin k => ∑ j : Fin 2, ![ρ * Real.cos θ, ρ * Real.sin θ] j • (![((1 : ℝ), (0 : ℝ)), (0, 1)] j : ℝ × ℝ) := by
      funext i
      simp [Fin.sum_univ_two]
    rw [hv, ContinuousMultilinearMap.map_sum]
    refine Finset.sum_congr rfl fun r _ => ?_
    rw [ContinuousMultilinearMap.map_smul_univ, smul_eq_mul]
  simp only [e]
  refine TP.sum _ _ fun r _ => ?_
  have hf : ∀ i : Fin 2, TP 1 (fun θ => ![ρ * Real.cos θ, ρ * Real.sin θ] i) := by
    intro i
    fin_cases i
    · simpa using (TP.const ρ).mul TP.cos
    · simpa using (TP.const ρ).mul TP.sin
  have := (TP.prod (Finset.univ : Finset (Fin k)) (fun i θ => ![ρ * Real.cos θ, ρ * Real.sin θ] (r i)) fun i _ => hf (r i)).mul (TP.const (T fun i => ![((1 : ℝ), (0 : ℝ)), (0, 1)] (r i)))
  simpa using this

/-- Taylor's formula of order `m + 1` around a point. -/
theorem taylor_point {m : ℕ} {F : ℝ × ℝ → ℝ} (hF : ContDiff ℝ ((m + 1 : ℕ) : ℕ∞) F) (x w : ℝ × ℝ) {M ρ : ℝ} (hw : ‖w‖ ≤ ρ) (hM : ∀ y, ‖y - x‖ ≤ ρ → ‖iteratedFDeriv ℝ (m + 1) F y‖ ≤ M) :
    |F (x + w) - ∑ k ∈ range (m + 1), (k.factorial : ℝ)⁻¹ * iteratedFDeriv ℝ k F x fun _ => w| ≤ M * ρ ^ (m + 1) / m.factorial := by
  obtain ⟨φ, hφ⟩ : ∃ φ : ℝ → ℝ, φ = fun t => F (x + t • w) := ⟨_, rfl⟩
  have hsm : ContDiff ℝ ((m + 1 : ℕ) : ℕ∞) φ := by
    rw [hφ]
    exact hF.comp (by fun_prop)
  have hd : ∀ k ≤ m + 1, ∀ t, iteratedDeriv k φ t = iteratedFDeriv ℝ k F (x + t • w) fun _ => w := by
    intro k hk t
    have h1 : φ = (fun y => F (x + y)) ∘ (ContinuousLinearMap.toSpanSingleton ℝ w) := by
      rw [hφ]
      funext s
      simp [ContinuousLinearMap.toSpanSingleton_apply]
    have hF' : ContDiff ℝ ((m + 1 : ℕ) : ℕ∞) (fun y => F (x + y)) := hF.comp (by fun_prop)
    rw [iteratedDeriv_eq_iteratedFDeriv, h1, ContinuousLinearMap.iteratedFDeriv_comp_right _ hF' t (by exact_mod_cast hk), iteratedFDeriv_comp_add_left]
    simp [ContinuousLinearMap.toSpanSingleton_apply]
  have hu : UniqueDiffOn ℝ (Set.Icc (0 : ℝ) 1) := uniqueDiffOn_Icc zero_lt_one
  have hdw : ∀ k ≤ m + 1, ∀ t ∈ Set.Icc (0 : ℝ) 1, iteratedDerivWithin k φ (Set.Icc 0 1) t = iteratedFDeriv ℝ k F (x + t • w) fun _ => w := by
    intro k hk t ht
    rw [iteratedDerivWithin_eq_iteratedDeriv hu ((hsm.of_le (by exact_mod_cast hk)).contDiffAt) ht, hd k hk t]
  have key := taylor_mean_remainder_bound (f := φ) (a := 0) (b := 1) (x := 1) (n := m) (C := M * ρ ^ (m + 1)) zero_le_one (by exact_mod_cast hsm.contDiffOn) (by simp) (by
    intro t ht
    rw [hdw (m + 1) le_rfl t ht]
    refine ((iteratedFDeriv ℝ (m + 1) F (x + t • w)).le_opNorm _).trans ?_
    rw [Finset.prod_const, Finset.card_univ, Fintype.card_fin]
    have h1 : ‖t • w‖ ≤ ρ := by
      rw [norm_smul, Real.norm_eq_abs, abs_of_nonneg ht.1]
      exact (mul_le_of_le_one_left (norm_nonneg _) ht.2).trans hw
    have h2 := hM (x + t • w) (by rwa [add_sub_cancel_left])
    exact mul_le_mul h2 (pow_le_pow_left₀ (norm_nonneg _) hw _) (by positivity) ((norm_nonneg _).trans h2))
  rw [taylor_within_apply, Real.norm_eq_abs, sub_zero, one_pow, mul_one] at key
  have e1 : φ 1 = F (x + w) := by rw [hφ]; simp
  rw [e1] at key
  refine le_of_eq_of_le (congrArg abs (congrArg _ (Finset.sum_congr rfl fun k hk => ?_))) key
  rw [mem_range] at hk
  rw [hdw k (by omega) 0 (by simp), zero_smul, add_zero, one_pow, mul_one, smul_eq_mul]

/-- **C58** Order of accuracy: with `n` gyro points and a function `F` with `n` continuous derivatives, the last ones bounded by `M` in the square around the Larmor circle, the gyroaverage differs from the mean of `F` over the
circle by at most the interpolation error `δ` and `2 M ρ ^ n / (n - 1)!`. -/
theorem c58_smooth (o : Op I J C) (hn : 0 < o.n) (A : B → I → J → ℝ) (b : B) (i : I) (j : J) (hj : j ≠ o.back) (F : ℝ × ℝ → ℝ) (hF : ContDiff ℝ (o.n : ℕ∞) F) (δ M : ℝ)
    (hA : ∀ θ : ℝ, |o.field (A b) ((o.centre i j).1 + o.rho i j * Real.cos θ, (o.centre i j).2 + o.rho i j * Real.sin θ) -
      F ((o.centre i j).1 + o.rho i j * Real.cos θ, (o.centre i j).2 + o.rho i j * Real.sin θ)| ≤ δ)
    (hM : ∀ y : ℝ × ℝ, |y.1 - (o.centre i j).1| ≤ |o.rho i j| → |y.2 - (o.centre i j).2| ≤ |o.rho i j| → ‖iteratedFDeriv ℝ o.n F y‖ ≤ M) :
    |o.apply A b i j - circleMean F (o.centre i j) (o.rho i j)| ≤ δ + 2 * (M * |o.rho i j| ^ o.n / (o.n - 1).factorial) := by
  obtain ⟨m, hm⟩ : ∃ m, o.n = m + 1 := ⟨o.n - 1, by omega⟩
  have hFc : Continuous F := hF.continuous
  rw [c58_value o A b i j hj]
  unfold circleMean
  generalize o.centre i j = x at *
  generalize o.rho i j = ρ at *
  rw [hm] at hF hM ⊢
  rw [Nat.add_sub_cancel]
  have hT : ∀ k : ℕ, TP k (fun θ => iteratedFDeriv ℝ k F x fun _ => (ρ * Real.cos θ, ρ * Real.sin θ)) := fun k => multilinear_TP _ ρ
  have hTc : ∀ k : ℕ, Continuous (fun θ => iteratedFDeriv ℝ k F x fun _ => (ρ * Real.cos θ, ρ * Real.sin θ)) := fun k =>
    (iteratedFDeriv ℝ k F x).cont.comp (by fun_prop)
  refine mean_near (d := m) (p := fun θ => ∑ k ∈ range (m + 1), (k.factorial : ℝ)⁻¹ * iteratedFDeriv ℝ k F x fun _ => (ρ * Real.cos θ, ρ * Real.sin θ))
    (G := fun θ => F (x.1 + ρ * Real.cos θ, x.2 + ρ * Real.sin θ)) (g := fun θ => o.field (A b) (x.1 + ρ * Real.cos θ, x.2 + ρ * Real.sin θ))
    (TP.sum _ _ fun k hk => ?_) (by omega) ?_ (by fun_prop) hA fun θ => ?_
  · rw [mem_range] at hk
    exact ((TP.const _).mul (hT k)).mono (by omega)
  · exact continuous_finsetSum _ fun k _ => (hTc k).const_mul _
  · refine taylor_point hF x (ρ * Real.cos θ, ρ * Real.sin θ) (ρ := |ρ|) ?_ fun y hy => ?_
    · rw [Prod.norm_def]
      refine max_le ?_ ?_
      · rw [Real.norm_eq_abs, abs_mul]
        exact mul_le_of_le_one_right (abs_nonneg _) (Real.abs_cos_le_one _)
      · rw [Real.norm_eq_abs, abs_mul]
        exact mul_le_of_le_one_right (abs_nonneg _) (Real.abs_sin_le_one _)
    · rw [Prod.norm_def, max_le_iff] at hy
      exact hM y hy.1 hy.2

/-! ### A concrete case -/

/-- An interpolation that is exact for the cubic function `x ^ 3` (four gyro points, a grid of one radial and two poloidal points, identity mappings). -/
noncomputable def cubicOp : Op (Fin 1) (Fin 2) Unit where
  build := fun _ => ()
  eval := fun x _ => x.1 ^ 3
  toLogical := id
  toPhysical := id
  coord := fun _ j => (1, j)
  rho := fun _ _ => 2
  n := 4
  front := 0
  back := 1

/-- Four gyro points give the mean of `x ^ 3` over the circle of radius 2 around `(1, 0)`. -/
example : cubicOp.apply (fun (_ : Unit) _ j => (j : ℝ)) () 0 0 = circleMean (poly2 4 fun p q => if p = 3 ∧ q = 0 then 1 else 0) (cubicOp.centre 0 0) 2 := by
  refine c58_polynomial cubicOp (by decide) (fun (_ : Unit) _ j => (j : ℝ)) () (fun p q => if p = 3 ∧ q = 0 then 1 else 0) 0 0 (by decide) fun θ => ?_
  simp [cubicOp, Op.field, poly2, Finset.sum_range_succ]

/-- The same with three gyro points, which are not exact, and a small radius. -/
noncomputable def cubicOp3 : Op (Fin 1) (Fin 2) Unit := { cubicOp with n := 3, rho := fun _ _ => 1 / 10 }

/-- The accuracy theorem: `x ^ 3` is close to a constant on a small circle. -/
example : |cubicOp3.apply (fun (_ : Unit) _ j => (j : ℝ)) () 0 0 - circleMean (fun x => x.1 ^ 3) (cubicOp3.centre 0 0) (cubicOp3.rho 0 0)| ≤ 0 + 2 * (1 / 2) := by
  refine c58_accuracy cubicOp3 (by decide) (fun (_ : Unit) _ j => (j : ℝ)) () 0 0 (by decide) (fun x => x.1 ^ 3) (by fun_prop) 0 (1 / 2) (fun θ => ?_)
    (fun p q => if p = 0 ∧ q = 0 then 1 else 0) fun θ => ?_
  · simp [cubicOp3, cubicOp, Op.field]
  · have h1 := Real.cos_le_one θ
    have h2 := Real.neg_one_le_cos θ
    have e : poly2 3 (fun p q => if p = 0 ∧ q = 0 then 1 else 0) = fun _ => 1 := by
      funext x
      simp [poly2, Finset.sum_range_succ]
    have e3 : cubicOp3.n = 3 := rfl
    rw [e3, e]
    simp only [cubicOp3, cubicOp, Op.centre, id]
    rw [abs_le]
    constructor <;> nlinarith [mul_self_nonneg (Real.cos θ), mul_nonneg (sub_nonneg.2 h1) (mul_self_nonneg (Real.cos θ)), mul_nonneg (neg_le_iff_add_nonneg.1 h2) (mul_self_nonneg (Real.cos θ))]

/-- The order of accuracy: some bound `M` exists, as the square is compact. -/
example : ∃ M : ℝ, |cubicOp3.apply (fun (_ : Unit) _ j => (j : ℝ)) () 0 0 - circleMean (fun x => x.1 ^ 3) (cubicOp3.centre 0 0) (1 / 10)| ≤ 0 + 2 * (M * |1 / 10| ^ 3 / (3 - 1).factorial) := by
  have hF : ContDiff ℝ (3 : ℕ∞) (fun x : ℝ × ℝ => x.1 ^ 3) := by fun_prop
  have hc : Continuous (iteratedFDeriv ℝ 3 (fun x : ℝ × ℝ => x.1 ^ 3)) := hF.continuous_iteratedFDeriv (m := 3) (by norm_num)
  obtain ⟨M, hM⟩ := (isCompact_Icc (a := ((9 / 10 : ℝ), (-1 / 10 : ℝ))) (b := (11 / 10, 1 / 10))).exists_bound_of_continuousOn hc.continuousOn
  refine ⟨M, c58_smooth cubicOp3 (by decide) (fun (_ : Unit) _ j => (j : ℝ)) () 0 0 (by decide) (fun x => x.1 ^ 3) hF 0 M (fun θ => ?_) fun y h1 h2 => hM y ?_⟩
  · simp [cubicOp3, cubicOp, Op.field]
  · simp only [cubicOp3, cubicOp, Op.centre, id, abs_le, abs_of_pos (show (0 : ℝ) < 1 / 10 by norm_num)] at h1 h2
    norm_num at h1 h2
    rw [Set.mem_Icc, Prod.le_def, Prod.le_def]
    refine ⟨⟨?_, ?_⟩, ?_, ?_⟩ <;> norm_num <;> linarith [h1.1, h1.2, h2.1, h2.2]

end Verif.Gyroaverage
