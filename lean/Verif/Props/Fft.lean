import Verif.Model.Fft
import Mathlib.Analysis.Calculus.Deriv.Add
import Mathlib.Analysis.Calculus.Deriv.Mul
import Mathlib.Analysis.SpecialFunctions.ExpDeriv
import Mathlib.Tactic.Linarith
import Mathlib.Tactic.Ring
import Mathlib.Tactic.FieldSimp
import Mathlib.Tactic.NormNum
import Mathlib.Tactic.FinCases

/-!
# C53: the Fourier Poisson solver

Specification: there is a trigonometric polynomial `P` (a finite sum of exponentials whose wave numbers are the signed frequencies of the grid) which takes the values of the returned
potential at the grid points and satisfies `- sum_i d^2 P / d y_i^2 = rho - mean rho` there; the electric field is `- d P / d y_i`.
-/

namespace Verif.Fft
open Complex

variable {D : ℕ} (N : Fin (D + 1) → ℕ) [∀ i, NeZero (N i)]

/-! ## Modes -/

theorem mode_symm (k x : Grid N) : mode N k x = mode N x k := by simp [mode, mul_comm]

theorem mode_add (k l x : Grid N) : mode N (k + l) x = mode N k x * mode N l x := by
  simp [mode, add_mul, AddChar.map_add_eq_mul, Finset.prod_mul_distrib]

theorem mode_neg (k x : Grid N) : mode N (-k) x = (starRingEnd ℂ) (mode N k x) := by
  simp [mode, AddChar.map_neg_eq_conj]

theorem mode_zero (x : Grid N) : mode N 0 x = 1 := by simp [mode]

theorem mode_mul_neg (k x : Grid N) : mode N k x * mode N (-k) x = 1 := by
  rw [← mode_add, add_neg_cancel, mode_zero]

theorem sum_mode (k : Grid N) : ∑ x, mode N k x = if k = 0 then ∏ i, (N i : ℂ) else 0 := by
  have h1 : ∑ x : Grid N, mode N k x = ∏ i, ∑ x : ZMod (N i), ZMod.stdAddChar (x * k i) := by
    rw [Finset.prod_univ_sum, Fintype.piFinset_univ]
    exact Finset.sum_congr rfl fun x _ => Finset.prod_congr rfl fun i _ => by rw [mul_comm]
  rw [h1]
  have h2 : ∀ i, ∑ x : ZMod (N i), ZMod.stdAddChar (x * k i) = if k i = 0 then (N i : ℂ) else 0 := by
    intro i
    rw [AddChar.sum_mulShift (k i) (ZMod.isPrimitive_stdAddChar (N i)), ZMod.card]
    push_cast
    rfl
  simp only [h2]
  split_ifs with h
  · subst h; simp
  · obtain ⟨i, hi⟩ := Function.ne_iff.1 h
    exact Finset.prod_eq_zero (Finset.mem_univ i) (if_neg hi)

theorem prod_ne_zero : (∏ i, (N i : ℂ)) ≠ 0 := Finset.prod_ne_zero_iff.2 fun i _ => Nat.cast_ne_zero.2 (NeZero.ne _)

/-- Inversion formula of the discrete Fourier transform. -/
theorem fft_inverse (rho : Grid N → ℝ) (x : Grid N) : ∑ k, fft N rho k * mode N k x = (∏ i, (N i : ℂ)) * rho x := by
  simp only [fft, Finset.sum_mul]
  rw [Finset.sum_comm]
  have : ∀ y, ∑ k, (rho y : ℂ) * mode N (-k) y * mode N k x = (rho y : ℂ) * if x = y then ∏ i, (N i : ℂ) else 0 := by
    intro y
    have h := sum_mode N (x - y)
    simp only [sub_eq_zero] at h
    rw [← h, Finset.mul_sum]
    refine Finset.sum_congr rfl fun k _ => ?_
    rw [mul_assoc, mode_symm N (x - y) k, mode_symm N (-k) y, mode_symm N k x, mul_comm (mode N y (-k)), sub_eq_add_neg, ← mode_symm N (x + -y) k, mode_add,
      mode_symm N x k]
    congr 2
    rw [mode_symm N y (-k), mode_neg, mode_neg, mode_symm]
  simp only [this, mul_ite, mul_zero]
  rw [Finset.sum_ite_eq, if_pos (Finset.mem_univ _), mul_comm]

theorem fft_neg (rho : Grid N → ℝ) (k : Grid N) : fft N rho (-k) = (starRingEnd ℂ) (fft N rho k) := by
  simp only [fft, map_sum, map_mul, conj_ofReal]
  exact Finset.sum_congr rfl fun x _ => by rw [mode_neg N (-k)]

theorem fft_zero (rho : Grid N → ℝ) : fft N rho 0 = ((∑ x, rho x : ℝ) : ℂ) := by
  simp [fft, mode_zero]

/-! ## Frequencies -/

theorem freq_eq (n : ℕ) [NeZero n] (k : ZMod n) : freq n k = if k.val < n - n / 2 then (k.val : ℤ) else (k.val : ℤ) - n := by
  have hv := ZMod.val_lt k
  unfold freq
  split_ifs with h
  · rw [Nat.mod_eq_of_lt (by omega)]; push_cast; omega
  · rw [Nat.mod_eq_sub_mod (by omega), Nat.mod_eq_of_lt (by omega)]; omega

theorem freq_cast (n : ℕ) [NeZero n] (k : ZMod n) : ((freq n k : ℤ) : ZMod n) = k := by
  rw [freq_eq]
  split_ifs <;> simp

theorem freq_eq_zero (n : ℕ) [NeZero n] (k : ZMod n) : freq n k = 0 ↔ k = 0 := by
  refine ⟨fun h => by rw [← freq_cast n k, h, Int.cast_zero], fun h => ?_⟩
  subst h
  rw [freq_eq]
  have := NeZero.pos n
  simp only [ZMod.val_zero]
  split_ifs <;> omega

theorem val_neg (n : ℕ) [NeZero n] (k : ZMod n) : (-k).val = if k.val = 0 then 0 else n - k.val := by
  rw [ZMod.neg_val]
  by_cases h : k = 0
  · simp [h]
  · rw [if_neg h, if_neg (by rwa [ZMod.val_eq_zero])]

/-- Opposite indices have opposite wave numbers, except the Nyquist index, which is its own opposite. -/
theorem freq_neg (n : ℕ) [NeZero n] (k : ZMod n) (h : 2 * k.val ≠ n) : freq n (-k) = -freq n k := by
  have hv := ZMod.val_lt k
  rw [freq_eq, freq_eq, val_neg]
  split_ifs <;> omega

theorem freq_neg_sq (n : ℕ) [NeZero n] (k : ZMod n) : freq n (-k) * freq n (-k) = freq n k * freq n k := by
  by_cases h : 2 * k.val = n
  · have hv : (-k).val = k.val := by
      have := NeZero.pos n
      rw [val_neg]; split_ifs <;> omega
    rw [show -k = k from ZMod.val_injective n hv]
  · rw [freq_neg n k h]; ring

variable (h : Fin (D + 1) → ℝ)

theorem laplace_neg (k : Grid N) : laplace N h (-k) = laplace N h k := by
  refine Finset.sum_congr rfl fun i _ => ?_
  simp only [wave, Pi.neg_apply]
  have := congrArg (fun z : ℤ => (z : ℝ)) (freq_neg_sq (N i) (k i))
  simp only [Int.cast_mul] at this
  linear_combination (2 * Real.pi / (N i * h i)) ^ 2 * this

theorem wave_eq_zero (hh : ∀ i, 0 < h i) (i : Fin (D + 1)) (k : ZMod (N i)) : wave N h i k = 0 ↔ k = 0 := by
  have hN : (0 : ℝ) < N i := Nat.cast_pos.2 (NeZero.pos _)
  have : 2 * Real.pi / (N i * h i) ≠ 0 := by have := hh i; have := Real.pi_pos; positivity
  simp [wave, this, freq_eq_zero]

/-- The Laplace operator vanishes on the constant mode only: no other division by zero. -/
theorem c53_laplace_pos (hh : ∀ i, 0 < h i) (k : Grid N) (hk : k ≠ 0) : 0 < laplace N h k := by
  obtain ⟨i, hi⟩ := Function.ne_iff.1 hk
  refine lt_of_lt_of_le ?_ (Finset.single_le_sum (f := fun i => wave N h i (k i) * wave N h i (k i)) (fun i _ => mul_self_nonneg _) (Finset.mem_univ i))
  exact mul_self_pos.2 fun h0 => hi ((wave_eq_zero N h hh i _).1 h0)

/-! ## Complex to real transform -/

theorem selfConj_neg (k : Grid N) : selfConj N (-k) ↔ selfConj N k := by
  have hv := ZMod.val_lt (k (Fin.last D))
  simp only [selfConj, Pi.neg_apply, val_neg]
  split_ifs <;> omega

theorem half_neg (k : Grid N) (hs : ¬selfConj N k) : inHalfMesh N (-k) ↔ ¬inHalfMesh N k := by
  have hv := ZMod.val_lt (k (Fin.last D))
  simp only [selfConj, not_or] at hs
  simp only [inHalfMesh, Pi.neg_apply, val_neg]
  rw [if_neg hs.1]
  omega

theorem half_of_self (k : Grid N) (hs : selfConj N k) : inHalfMesh N k := by
  simp only [selfConj] at hs
  simp only [inHalfMesh]
  omega

/-- The complex to real transform is the real part of the full inverse transform, if the values at opposite indices are conjugate (only where the last index is not its own opposite). -/
theorem ifft_eq (F : Grid N → ℂ) (hF : ∀ k, ¬selfConj N k → F (-k) = (starRingEnd ℂ) (F k)) (x : Grid N) :
    ifft N F x = ((∑ k, F k * mode N k x) / ∏ i, (N i : ℂ)).re := by
  classical
  have hp : (∏ i, (N i : ℂ)) = ((∏ i, (N i : ℝ) : ℝ) : ℂ) := by push_cast; rfl
  rw [hp, Complex.div_ofReal_re, ifft, Complex.re_sum]
  congr 1
  set T : Grid N → ℝ := fun k => (F k * mode N k x).re with hT
  have hTneg : ∀ k, ¬selfConj N k → T (-k) = T k := by
    intro k hk
    simp only [hT, hF k hk, mode_neg, ← map_mul, conj_re]
  have h1 : ∑ k, T k = ∑ k, (if selfConj N k then T k else 0) + ∑ k, (if selfConj N k then 0 else T k) := by
    rw [← Finset.sum_add_distrib]
    exact Finset.sum_congr rfl fun k _ => by split_ifs <;> simp
  have h2 : ∑ k, (if selfConj N k then 0 else T k) = ∑ k, (if selfConj N k then 0 else if inHalfMesh N k then T k else 0) + ∑ k, (if selfConj N k then 0 else if inHalfMesh N k then 0 else T k) := by
    rw [← Finset.sum_add_distrib]
    exact Finset.sum_congr rfl fun k _ => by split_ifs <;> simp
  have h3 : ∑ k, (if selfConj N k then 0 else if inHalfMesh N k then 0 else T k) = ∑ k, (if selfConj N k then 0 else if inHalfMesh N k then T k else 0) := by
    refine (Equiv.sum_comp (Equiv.neg (Grid N)) _).symm.trans ?_
    refine Finset.sum_congr rfl fun k _ => ?_
    simp only [Equiv.neg_apply, selfConj_neg]
    by_cases hs : selfConj N k
    · rw [if_pos hs, if_pos hs]
    · rw [if_neg hs, if_neg hs, hTneg k hs]
      by_cases hh : inHalfMesh N k
      · rw [if_neg (by rw [half_neg N k hs]; exact not_not.2 hh), if_pos hh]
      · rw [if_pos ((half_neg N k hs).2 hh), if_neg hh]
  rw [h1, h2, h3, ← Finset.sum_add_distrib, ← Finset.sum_add_distrib]
  refine Finset.sum_congr rfl fun k _ => ?_
  by_cases hs : selfConj N k
  · simp [hs, half_of_self N k hs, hT]
  · by_cases hh : inHalfMesh N k
    · simp only [hs, hh, if_true, if_false]; ring
    · simp [hs, hh]

/-- C53: forward and inverse transforms undo each other on real data, although only half of the mesh is kept. -/
theorem c53_round_trip (rho : Grid N → ℝ) : ifft N (fft N rho) = rho := by
  funext x
  rw [ifft_eq N _ (fun k _ => fft_neg N rho k), fft_inverse, mul_div_cancel_left₀ _ (prod_ne_zero N), ofReal_re]

theorem solve_neg (rho : Grid N → ℝ) (k : Grid N) : solveFourier N h rho (-k) = (starRingEnd ℂ) (solveFourier N h rho k) := by
  simp only [solveFourier, ne_eq, neg_eq_zero]
  split_ifs
  · simp
  · rw [fft_neg, laplace_neg, map_div₀, conj_ofReal]

/-! ## Trigonometric polynomials -/

/-- Coordinates of a grid point: `a i + x i * h i`. -/
def point (a : Fin (D + 1) → ℝ) (x : Grid N) : Fin (D + 1) → ℝ := fun i => a i + (x i).val * h i

/-- The exponential with the wave numbers of the index `k`. -/
noncomputable def wavefn (a : Fin (D + 1) → ℝ) (k : Grid N) (y : Fin (D + 1) → ℝ) : ℂ := exp (I * ((∑ i, wave N h i (k i) * (y i - a i) : ℝ) : ℂ))

/-- The trigonometric polynomial with coefficients `c`. -/
noncomputable def trig (a : Fin (D + 1) → ℝ) (c : Grid N → ℂ) (y : Fin (D + 1) → ℝ) : ℂ := ∑ k, c k * wavefn N h a k y

theorem wavefn_point (hh : ∀ i, 0 < h i) (a : Fin (D + 1) → ℝ) (k x : Grid N) : wavefn N h a k (point N h a x) = mode N k x := by
  unfold wavefn mode point
  push_cast
  rw [Finset.mul_sum, Complex.exp_sum]
  refine Finset.prod_congr rfl fun i _ => ?_
  have h1 : (((freq (N i) (k i) * ((x i).val : ℤ) : ℤ)) : ZMod (N i)) = k i * x i := by
    push_cast
    rw [freq_cast, ZMod.natCast_zmod_val]
  rw [← h1, ZMod.stdAddChar_coe]
  congr 1
  have hN : (N i : ℂ) ≠ 0 := Nat.cast_ne_zero.2 (NeZero.ne _)
  have hh' : (h i : ℂ) ≠ 0 := ofReal_ne_zero.2 (hh i).ne'
  simp only [wave]
  push_cast
  field_simp
  ring

theorem wavefn_deriv (a : Fin (D + 1) → ℝ) (k : Grid N) (y : Fin (D + 1) → ℝ) (i : Fin (D + 1)) :
    HasDerivAt (fun s : ℝ => wavefn N h a k (Function.update y i s)) (I * wave N h i (k i) * wavefn N h a k y) (y i) := by
  unfold wavefn
  have hs : ∀ j, HasDerivAt (fun s : ℝ => wave N h j (k j) * (Function.update y i s j - a j)) (if j = i then wave N h j (k j) else 0) (y i) := by
    intro j
    by_cases hj : j = i
    · subst hj
      simp only [Function.update_self, if_true]
      have := ((hasDerivAt_id (y j)).sub_const (a j)).const_mul (wave N h j (k j))
      simpa using this
    · simp only [Function.update_of_ne hj, if_neg hj]
      exact hasDerivAt_const _ _
  have hsum := HasDerivAt.fun_sum (u := Finset.univ) fun j _ => hs j
  rw [Finset.sum_ite_eq' Finset.univ i, if_pos (Finset.mem_univ _)] at hsum
  have h1 := ((hsum.ofReal_comp).const_mul I).cexp
  rw [Function.update_eq_self] at h1
  convert h1 using 1
  ring

/-- Derivatives of trigonometric polynomials: the coefficients are multiplied by `i` times the wave number. -/
theorem trig_deriv (a : Fin (D + 1) → ℝ) (c : Grid N → ℂ) (y : Fin (D + 1) → ℝ) (i : Fin (D + 1)) :
    HasDerivAt (fun s : ℝ => trig N h a c (Function.update y i s)) (trig N h a (fun k => I * wave N h i (k i) * c k) y) (y i) := by
  unfold trig
  have := HasDerivAt.fun_sum (u := Finset.univ) fun k _ => (wavefn_deriv N h a k y i).const_mul (c k)
  rw [show ∑ k, I * wave N h i (k i) * c k * wavefn N h a k y = ∑ k, c k * (I * wave N h i (k i) * wavefn N h a k y) from Finset.sum_congr rfl fun k _ => by ring]
  exact this

theorem potential_eq (rho : Grid N → ℝ) (x : Grid N) : potential N h rho x = ((∑ k, solveFourier N h rho k * mode N k x) / ∏ i, (N i : ℂ)).re :=
  ifft_eq N _ (fun k _ => solve_neg N h rho k) x

theorem conj_sum (F : Grid N → ℂ) (hF : ∀ k, F (-k) = (starRingEnd ℂ) (F k)) (x : Grid N) :
    (starRingEnd ℂ) (∑ k, F k * mode N k x) = ∑ k, F k * mode N k x := by
  rw [map_sum]
  refine ((Equiv.sum_comp (Equiv.neg (Grid N)) fun k => (starRingEnd ℂ) (F k * mode N k x)).symm).trans ?_
  refine Finset.sum_congr rfl fun k _ => ?_
  simp only [Equiv.neg_apply, map_mul, hF, mode_neg, conj_conj]

/-- C53: for every density on the grid there is a trigonometric polynomial `P` with partial derivatives `Q i` and second derivatives `R i` such that the potential is `P` at the grid points,
`- sum_i R i = rho - mean rho` at the grid points, and the component `i` of the electric field is `- Q i` (its real part, see the next theorem) in the last dimension and in every dimension
with an odd number of points. -/
theorem c53_poisson (hh : ∀ i, 0 < h i) (a : Fin (D + 1) → ℝ) (rho : Grid N → ℝ) :
    ∃ P : (Fin (D + 1) → ℝ) → ℂ, ∃ Q R : Fin (D + 1) → (Fin (D + 1) → ℝ) → ℂ,
      (∀ y i, HasDerivAt (fun s : ℝ => P (Function.update y i s)) (Q i y) (y i)) ∧
      (∀ y i, HasDerivAt (fun s : ℝ => Q i (Function.update y i s)) (R i y) (y i)) ∧
      (∀ x, (potential N h rho x : ℂ) = P (point N h a x)) ∧
      (∀ x, -∑ i, R i (point N h a x) = ((rho x - (∑ z, rho z) / ∏ i, (N i : ℝ) : ℝ) : ℂ)) ∧
      (∀ i, i = Fin.last D ∨ Odd (N i) → ∀ x, electricField N h rho i x = (-Q i (point N h a x)).re) ∧
      (∀ i, Odd (N i) → ∀ x, (electricField N h rho i x : ℂ) = -Q i (point N h a x)) := by
  set S : ℂ := ∏ i, (N i : ℂ) with hS
  have hS0 : S ≠ 0 := prod_ne_zero N
  let c : Grid N → ℂ := fun k => solveFourier N h rho k / S
  have hSr : (starRingEnd ℂ) S = S := by simp [hS]
  have hgrid : ∀ (F : Grid N → ℂ) (x : Grid N), trig N h a (fun k => F k / S) (point N h a x) = (∑ k, F k * mode N k x) / S := by
    intro F x
    unfold trig
    rw [Finset.sum_div]
    exact Finset.sum_congr rfl fun k _ => by rw [wavefn_point N h hh]; ring
  have hodd : ∀ i, Odd (N i) → ∀ k : Grid N, negDiff N h i (solveFourier N h rho) (-k) = (starRingEnd ℂ) (negDiff N h i (solveFourier N h rho) k) := by
    intro i hi k
    have : wave N h i (-k i) = -wave N h i (k i) := by
      simp only [wave]
      rw [freq_neg (N i) (k i) (by rintro h'; rw [← h'] at hi; exact (Nat.not_odd_iff_even.2 (even_two_mul _)) hi)]
      push_cast; ring
    simp only [negDiff, Pi.neg_apply, this, solve_neg, map_mul, map_neg, conj_I, conj_ofReal]
    push_cast; ring
  have hQ : ∀ i x, -trig N h a (fun k => I * wave N h i (k i) * c k) (point N h a x) = (∑ k, negDiff N h i (solveFourier N h rho) k * mode N k x) / S := by
    intro i x
    have := hgrid (fun k => I * wave N h i (k i) * solveFourier N h rho k) x
    rw [show (fun k => I * wave N h i (k i) * solveFourier N h rho k / S) = fun k => I * wave N h i (k i) * c k from funext fun k => by simp only [c]; ring] at this
    rw [this, ← neg_div, ← Finset.sum_neg_distrib]
    congr 1
    exact Finset.sum_congr rfl fun k _ => by simp only [negDiff]; ring
  refine ⟨trig N h a c, fun i => trig N h a fun k => I * wave N h i (k i) * c k, fun i => trig N h a fun k => I * wave N h i (k i) * (I * wave N h i (k i) * c k),
    fun y i => trig_deriv N h a c y i, fun y i => trig_deriv N h a _ y i, fun x => ?_, fun x => ?_, fun i hi x => ?_, fun i hi x => ?_⟩
  · rw [hgrid, potential_eq]
    refine Complex.conj_eq_iff_re.1 ?_
    rw [map_div₀, hSr, conj_sum N _ (solve_neg N h rho)]
  · have e1 : -∑ i, trig N h a (fun k => I * wave N h i (k i) * (I * wave N h i (k i) * c k)) (point N h a x) =
        trig N h a (fun k => ((laplace N h k : ℂ) * solveFourier N h rho k) / S) (point N h a x) := by
      unfold trig
      rw [Finset.sum_comm, ← Finset.sum_neg_distrib]
      refine Finset.sum_congr rfl fun k _ => ?_
      simp only [laplace, c]
      push_cast
      rw [Finset.sum_mul, Finset.sum_div, Finset.sum_mul, ← Finset.sum_neg_distrib]
      refine Finset.sum_congr rfl fun i _ => ?_
      linear_combination (-(wave N h i (k i) : ℂ) * (wave N h i (k i) : ℂ) * (solveFourier N h rho k / S) * wavefn N h a k (point N h a x)) * I_mul_I
    rw [e1, hgrid]
    have e2 : ∀ k, (laplace N h k : ℂ) * solveFourier N h rho k = fft N rho k - if k = 0 then fft N rho 0 else 0 := by
      intro k
      by_cases hk : k = 0
      · subst hk; simp [solveFourier]
      · have : (laplace N h k : ℂ) ≠ 0 := ofReal_ne_zero.2 (c53_laplace_pos N h hh k hk).ne'
        simp only [solveFourier, ne_eq, hk, not_false_eq_true, if_true, if_false, sub_zero]
        field_simp
    simp only [e2, sub_mul, Finset.sum_sub_distrib, fft_inverse]
    rw [show (∑ k, (if k = 0 then fft N rho 0 else 0) * mode N k x) = fft N rho 0 by
      simp only [ite_mul, zero_mul]
      rw [Finset.sum_ite_eq', if_pos (Finset.mem_univ _), mode_zero, mul_one]]
    rw [fft_zero, sub_div, mul_div_cancel_left₀ _ hS0]
    push_cast
    rfl
  · rw [hQ]
    refine ifft_eq N _ (fun k hk => ?_) x
    rcases hi with rfl | hi
    · simp only [selfConj, not_or] at hk
      have : wave N h (Fin.last D) (-k (Fin.last D)) = -wave N h (Fin.last D) (k (Fin.last D)) := by
        simp only [wave]
        rw [freq_neg _ _ hk.2]
        push_cast; ring
      simp only [negDiff, Pi.neg_apply, this, solve_neg, map_mul, map_neg, conj_I, conj_ofReal]
      push_cast; ring
    · exact hodd i hi k
  · rw [hQ]
    rw [electricField, ifft_eq N _ (fun k _ => hodd i hi k)]
    refine Complex.conj_eq_iff_re.1 ?_
    rw [map_div₀, hSr, conj_sum N _ (hodd i hi)]

/-- C53: the potential has zero mean value, and a constant density gives the potential zero. -/
theorem c53_zero_mean (rho : Grid N → ℝ) : ∑ x, potential N h rho x = 0 := by
  simp only [potential_eq]
  rw [← Complex.re_sum, ← Finset.sum_div, Finset.sum_comm]
  have : ∀ k, ∑ x, solveFourier N h rho k * mode N k x = 0 := by
    intro k
    rw [← Finset.mul_sum, sum_mode]
    by_cases hk : k = 0
    · simp [solveFourier, hk]
    · simp [hk]
  simp [this]

/-- C53: the solver is linear in the density. -/
theorem c53_linear (α β : ℝ) (rho sigma : Grid N → ℝ) (x : Grid N) :
    potential N h (fun x => α * rho x + β * sigma x) x = α * potential N h rho x + β * potential N h sigma x := by
  have h1 : ∀ k, fft N (fun x => α * rho x + β * sigma x) k = α * fft N rho k + β * fft N sigma k := by
    intro k
    simp only [fft, Finset.mul_sum, ← Finset.sum_add_distrib]
    exact Finset.sum_congr rfl fun x _ => by push_cast; ring
  have h2 : ∀ k, solveFourier N h (fun x => α * rho x + β * sigma x) k = α * solveFourier N h rho k + β * solveFourier N h sigma k := by
    intro k
    simp only [solveFourier, h1]
    split_ifs <;> ring
  simp only [potential_eq, h2, add_mul, mul_assoc, Finset.sum_add_distrib, ← Finset.mul_sum, add_div, mul_div_assoc, Complex.add_re, Complex.re_ofReal_mul]

theorem fft_mode (k0 k : Grid N) : ∑ x, mode N k0 x * mode N (-k) x = if k = k0 then ∏ i, (N i : ℂ) else 0 := by
  have := sum_mode N (k0 - k)
  simp only [sub_eq_zero, eq_comm (a := k0)] at this
  rw [← this]
  exact Finset.sum_congr rfl fun x _ => by rw [sub_eq_add_neg, mode_add]

theorem re_eq_half (z : ℂ) : ((z.re : ℝ) : ℂ) = (z + (starRingEnd ℂ) z) / 2 := by rw [Complex.add_conj]; push_cast; ring

theorem solve_cosine (k0 : Grid N) (hk0 : k0 ≠ 0) (k : Grid N) :
    solveFourier N h (fun x => (mode N k0 x).re) k = ((if k = k0 then ∏ i, (N i : ℂ) else 0) + if k = -k0 then ∏ i, (N i : ℂ) else 0) / 2 / (laplace N h k0 : ℂ) := by
  have h1 : ∀ k, fft N (fun x => (mode N k0 x).re) k = ((if k = k0 then ∏ i, (N i : ℂ) else 0) + if k = -k0 then ∏ i, (N i : ℂ) else 0) / 2 := by
    intro k
    rw [← fft_mode, ← fft_mode, ← Finset.sum_add_distrib, Finset.sum_div]
    refine Finset.sum_congr rfl fun y _ => ?_
    rw [re_eq_half, mode_neg N k0]; ring
  simp only [solveFourier, h1]
  by_cases hk : k = 0
  · subst hk
    rw [if_neg (by simp), if_neg (fun h => hk0 h.symm), if_neg (fun h => hk0 (neg_eq_zero.1 h.symm))]
    simp
  · rw [if_pos hk]
    by_cases ha : k = k0
    · rw [ha]
    · by_cases hb : k = -k0
      · rw [hb, laplace_neg]
      · rw [if_neg ha, if_neg hb]; simp

/-- C53: a cosine of the mesh (any non-zero mode) is divided by the square of its wave vector. -/
theorem c53_cosine (k0 : Grid N) (hk0 : k0 ≠ 0) (x : Grid N) :
    potential N h (fun x => (mode N k0 x).re) x = (mode N k0 x).re / laplace N h k0 := by
  have hre := re_eq_half
  have h2 := solve_cosine N h k0 hk0
  rw [potential_eq]
  simp only [h2]
  have h3 : ∑ k, ((if k = k0 then ∏ i, (N i : ℂ) else 0) + if k = -k0 then ∏ i, (N i : ℂ) else 0) / 2 / (laplace N h k0 : ℂ) * mode N k x =
      (∏ i, (N i : ℂ)) * (((mode N k0 x).re / laplace N h k0 : ℝ) : ℂ) := by
    have : ∀ k, ((if k = k0 then ∏ i, (N i : ℂ) else 0) + if k = -k0 then ∏ i, (N i : ℂ) else 0) / 2 / (laplace N h k0 : ℂ) * mode N k x =
        (if k = k0 then (∏ i, (N i : ℂ)) / 2 / (laplace N h k0 : ℂ) * mode N k x else 0) + if k = -k0 then (∏ i, (N i : ℂ)) / 2 / (laplace N h k0 : ℂ) * mode N k x else 0 := by
      intro k
      split_ifs <;> ring
    simp only [this, Finset.sum_add_distrib]
    rw [Finset.sum_ite_eq', Finset.sum_ite_eq', if_pos (Finset.mem_univ _), if_pos (Finset.mem_univ _)]
    push_cast
    rw [hre, mode_neg]
    ring
  rw [h3, mul_div_cancel_left₀ _ (prod_ne_zero N), ofReal_re]

/-- C53: the electric field of a cosine of the mesh is the sine: `E_i = k_i / |k|^2 sin`, for every dimension `i`, when the mode is in the half mesh and its last index is not its own opposite. -/
theorem c53_sine (k0 : Grid N) (hs : ¬selfConj N k0) (hm : inHalfMesh N k0) (i : Fin (D + 1)) (x : Grid N) :
    electricField N h (fun x => (mode N k0 x).re) i x = wave N h i (k0 i) / laplace N h k0 * (mode N k0 x).im := by
  classical
  have hk0 : k0 ≠ 0 := by
    rintro rfl
    exact hs (Or.inl (by simp))
  have hne : k0 ≠ -k0 := fun h' => by
    have := half_neg N k0 hs
    rw [← h'] at this
    tauto
  have hterm : ∀ k, (if inHalfMesh N k then (if selfConj N k then 1 else 2) * (negDiff N h i (solveFourier N h fun x => (mode N k0 x).re) k * mode N k x).re else 0) =
      if k = k0 then (∏ i, (N i : ℝ)) * (wave N h i (k0 i) / laplace N h k0 * (mode N k0 x).im) else 0 := by
    intro k
    by_cases ha : k = k0
    · subst ha
      rw [if_pos hm, if_neg hs, if_pos rfl, negDiff, solve_cosine N h k hk0, if_pos rfl, if_neg hne, add_zero]
      have : -I * (wave N h i (k i) : ℂ) * ((∏ i, (N i : ℂ)) / 2 / (laplace N h k : ℂ)) * mode N k x =
          ((wave N h i (k i) * (∏ i, (N i : ℝ)) / 2 / laplace N h k : ℝ) : ℂ) * (-I * mode N k x) := by push_cast; ring
      rw [this, Complex.re_ofReal_mul]
      have h2 : (-I * mode N k x).re = (mode N k x).im := by simp
      rw [h2]; ring
    · rw [if_neg ha]
      by_cases hh : inHalfMesh N k
      · rw [if_pos hh]
        have hb : k ≠ -k0 := by
          rintro rfl
          exact (half_neg N k0 hs).1 hh hm
        rw [negDiff, solve_cosine N h k0 hk0, if_neg ha, if_neg hb]
        simp
      · rw [if_neg hh]
  rw [electricField, ifft]
  simp only [hterm]
  rw [Finset.sum_ite_eq', if_pos (Finset.mem_univ _), mul_div_cancel_left₀]
  exact Finset.prod_ne_zero_iff.2 fun i _ => Nat.cast_ne_zero.2 (NeZero.ne _)

/-! ## The Nyquist mode in a dimension which is not the last -/

/-- Two points in the first dimension and four in the second. -/
def grid24 : Fin 2 → ℕ := ![2, 4]

instance : ∀ i, NeZero (grid24 i) := fun i => by fin_cases i <;> exact ⟨by decide⟩

/-- The index `(a, b)` of the grid `2 x 4`. -/
def idx24 (a : ZMod 2) (b : ZMod 4) : Grid grid24 := fun i => match i with
  | 0 => a
  | 1 => b

/-- C53 refuted for even numbers of points in a dimension which is not the last: the density `cos` of the mode `(1, 1)` is symmetric in the second coordinate, but the first component of the
field is not; where the real interpolant of the potential is symmetric, its derivative should be. -/
theorem c53_nyquist :
    let rho : Grid grid24 → ℝ := fun x => (mode grid24 (idx24 1 1) x).re
    (∀ a b, rho (idx24 a (-b)) = rho (idx24 a b)) ∧
    electricField grid24 (fun _ => 1) rho 0 (idx24 0 1) < 0 ∧ 0 < electricField grid24 (fun _ => 1) rho 0 (idx24 0 (-1)) := by
  intro rho
  have hm : ∀ a b, mode grid24 (idx24 1 1) (idx24 a b) = (ZMod.stdAddChar (N := 2) a) * ZMod.stdAddChar (N := 4) b := by
    intro a b
    have h2 : mode grid24 (idx24 1 1) (idx24 a b)
        = ZMod.stdAddChar (N := 2) (1 * a) * ZMod.stdAddChar (N := 4) (1 * b) := by
      unfold mode
      exact Fin.prod_univ_two (fun i : Fin 2 =>
        ZMod.stdAddChar (N := grid24 i) (idx24 1 1 i * idx24 a b i))
    rw [h2, one_mul, one_mul]
  have hI : ZMod.stdAddChar (N := 4) 1 = I := by
    have := ZMod.stdAddChar_coe (N := 4) 1
    rw [Int.cast_one] at this
    rw [this, show (2 * (Real.pi : ℂ) * I * (1 : ℤ) / (4 : ℕ)) = (Real.pi : ℂ) / 2 * I by push_cast; ring, Complex.exp_pi_div_two_mul_I]
  have h1 : ZMod.stdAddChar (N := 4) (-1) = -I := by rw [AddChar.map_neg_eq_conj, hI, conj_I]
  have hreal : ∀ a : ZMod 2, (starRingEnd ℂ) (ZMod.stdAddChar (N := 2) a) = ZMod.stdAddChar (N := 2) a := by
    intro a
    rw [← AddChar.map_neg_eq_conj]
    congr 1
    revert a; decide
  have hs : ¬selfConj grid24 (idx24 1 1) := by
    unfold selfConj
    decide
  have hh : inHalfMesh grid24 (idx24 1 1) := by
    unfold inHalfMesh
    decide
  have hw : wave grid24 (fun _ => 1) 0 (idx24 1 1 0) = -Real.pi := by
    have : freq (grid24 0) (idx24 1 1 0) = -1 := by decide
    rw [wave, this]
    have : (grid24 0 : ℝ) = 2 := by norm_num [grid24]
    rw [this]; push_cast; ring
  have hk : idx24 1 1 ≠ 0 := fun h0 => by
    have this : (1 : ZMod 4) = 0 := congrFun h0 1
    exact absurd this (by decide)
  have hL := c53_laplace_pos grid24 (fun _ => 1) (fun _ => one_pos) _ hk
  refine ⟨fun a b => ?_, ?_, ?_⟩
  · simp only [rho, hm, AddChar.map_neg_eq_conj]
    rw [← hreal a, ← map_mul, conj_re, hreal a]
  · simp only [rho]
    rw [c53_sine grid24 _ _ hs hh, hm, hI, hw, AddChar.map_zero_eq_one, one_mul, I_im, mul_one]
    exact div_neg_of_neg_of_pos (neg_neg_of_pos Real.pi_pos) hL
  · simp only [rho]
    rw [c53_sine grid24 _ _ hs hh, hm, h1, hw, AddChar.map_zero_eq_one, one_mul, neg_im, I_im]
    have : 0 < Real.pi / laplace grid24 (fun _ => 1) (idx24 1 1) := div_pos Real.pi_pos hL
    have e : -Real.pi / laplace grid24 (fun _ => 1) (idx24 1 1) * -1 = Real.pi / laplace grid24 (fun _ => 1) (idx24 1 1) := by ring
    rw [e]; exact this

end Verif.Fft
