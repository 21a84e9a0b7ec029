import Verif.Model.Simulation
import Verif.Props.LagrangeShift
import Verif.Props.Advection
import Verif.Props.QnSolver
import Verif.Props.TimeLoops
import Mathlib.Tactic.FinCases

/-!
# C94: symmetries, conservation and equilibria of the periodic Vlasov-Poisson programs
-/

namespace Verif.Simulation
open Verif.Advection Verif.Splitting Verif.TimeLoops Finset

/-! ## Interpolators on a periodic line -/

/-- Specification: the interpolator commutes with translations of the grid: moving the data by `a` points moves the interpolant by `a` points. -/
def ShiftInvariant {I C : Type*} [AddCommGroup I] (ip : Interp I C) (coord : I → ℝ) : Prop :=
  ∀ (v : I → ℝ) (a i : I) (δ : ℝ), ip.eval (coord (i + a) - δ) (ip.build fun j => v (j - a)) = ip.eval (coord i - δ) (ip.build v)

/-- Specification: the interpolant depends linearly on the data. -/
def IsLinear {I C : Type*} (ip : Interp I C) : Prop :=
  ∀ (x α β : ℝ) (v w : I → ℝ), ip.eval x (ip.build fun i => α * v i + β * w i) = α * ip.eval x (ip.build v) + β * ip.eval x (ip.build w)

/-- Specification: constants are reproduced. -/
def KeepsConstants {I C : Type*} (ip : Interp I C) : Prop := ∀ k x : ℝ, ip.eval x (ip.build fun _ => k) = k

theorem IsLinear.zero {I C : Type*} {ip : Interp I C} (h : IsLinear ip) (x : ℝ) : ip.eval x (ip.build fun _ => 0) = 0 := by
  have := h x 0 0 (fun _ => 0) (fun _ => 0)
  simpa using this

theorem IsLinear.sum {I C J : Type*} {ip : Interp I C} (h : IsLinear ip) (x : ℝ) (s : Finset J) (c : J → ℝ) (v : J → I → ℝ) :
    ip.eval x (ip.build fun i => ∑ j ∈ s, c j * v j i) = ∑ j ∈ s, c j * ip.eval x (ip.build (v j)) := by
  classical
  induction s using Finset.induction with
  | empty => simpa using h.zero x
  | insert j s hj ih =>
    have := h x (c j) 1 (v j) (fun i => ∑ j ∈ s, c j * v j i)
    simp only [one_mul] at this
    simp only [sum_insert hj]
    rw [this, ih]

theorem IsLinear.basis {I C : Type*} [Fintype I] [DecidableEq I] {ip : Interp I C} (h : IsLinear ip) (x : ℝ) (v : I → ℝ) :
    ip.eval x (ip.build v) = ∑ j, v j * ip.eval x (ip.build (Pi.single j 1)) := by
  rw [← h.sum x univ v (fun j => Pi.single j 1)]
  congr 2
  funext i
  simp [Pi.single_apply]

/-- C94: the sum of the values on a periodic line is unchanged when the line is displaced by any amount, for every interpolator which is linear, commutes with the translations of the
grid and reproduces constants. -/
theorem line_sum {I C : Type*} [AddCommGroup I] [Fintype I] (ip : Interp I C) (coord : I → ℝ) (hs : ShiftInvariant ip coord) (hl : IsLinear ip)
    (hc : KeepsConstants ip) (v : I → ℝ) (δ : ℝ) : ∑ i, ip.eval (coord i - δ) (ip.build v) = ∑ i, v i := by
  classical
  have hsingle : ∀ i j, ip.eval (coord i - δ) (ip.build (Pi.single j 1)) = ip.eval (coord (i - j) - δ) (ip.build (Pi.single 0 1)) := by
    intro i j
    have := hs (Pi.single 0 1) j (i - j) δ
    rw [sub_add_cancel] at this
    rw [← this]
    congr 2
    funext k
    simp [Pi.single_apply, sub_eq_zero]
  have hone : ∑ i, ip.eval (coord i - δ) (ip.build (Pi.single (0 : I) 1)) = 1 := by
    have h1 := hl.basis (coord 0 - δ) (fun _ => (1 : ℝ))
    rw [hc] at h1
    simp only [one_mul] at h1
    refine Eq.trans ?_ h1.symm
    rw [← Equiv.sum_comp (Equiv.neg I) fun i => ip.eval (coord i - δ) (ip.build (Pi.single (0 : I) 1))]
    refine sum_congr rfl fun j _ => ?_
    rw [hsingle 0 j, zero_sub]; rfl
  have hcol : ∀ j, ∑ i, ip.eval (coord i - δ) (ip.build (Pi.single j 1)) = 1 := by
    intro j
    refine Eq.trans ?_ hone
    rw [← Equiv.sum_comp (Equiv.subRight j) fun i => ip.eval (coord i - δ) (ip.build (Pi.single (0 : I) 1))]
    refine sum_congr rfl fun i _ => ?_
    rw [hsingle i j]; rfl
  calc ∑ i, ip.eval (coord i - δ) (ip.build v)
      = ∑ i, ∑ j, v j * ip.eval (coord i - δ) (ip.build (Pi.single j 1)) := sum_congr rfl fun i _ => hl.basis _ v
    _ = ∑ j, ∑ i, v j * ip.eval (coord i - δ) (ip.build (Pi.single j 1)) := sum_comm
    _ = ∑ j, v j := sum_congr rfl fun j _ => by rw [← mul_sum, hcol, mul_one]

/-! ### Lagrange interpolation -/

section lagrange
open LagrangeEvaluator Verif.Lagrange

variable (eps : ℝ) (D N : ℕ) (hD : 0 < D) (hDN : D < N) (x0 dx : ℝ) (hdx : 0 < dx)

theorem cast_emod (N : ℕ) (hN : 0 < N) (z : ℤ) : (((z % N).toNat : ℕ) : ZMod N) = (z : ZMod N) := by
  have h : ((z % N).toNat : ℤ) = z % N := Int.toNat_of_nonneg (Int.emod_nonneg _ (by omega))
  have : (((z % N).toNat : ℤ) : ZMod N) = ((z % N : ℤ) : ZMod N) := by rw [h]
  rw [Int.cast_natCast] at this
  rw [this, ZMod.intCast_mod]

include hD hDN hdx in
theorem lagrange_closed (v : ZMod N → ℝ) (x : ℝ) :
    (lagrangeLine eps D N x0 dx).eval x ((lagrangeLine eps D N x0 dx).build v) =
      ∑ i ∈ range (D + 1), v ((centre D x0 dx x - (D / 2 : ℕ) + i : ℤ) : ZMod N) *
        evalBasisU eps D 0 1 ((x - x0) / dx - centre D x0 dx x + (D / 2 : ℕ)) i := by
  have := evalU_closed eps D N hD hDN x0 dx hdx (fun _ => 0) (fun _ => 0) (fun k : ℕ => v (k : ZMod N)) x
  unfold lagrangeLine
  simp only
  rw [show (fun k => (buildCoeffs true D N (fun k : ℕ => v (k : ZMod N)) k).getD 0) = builtCoeffs true D N (fun k : ℕ => v (k : ZMod N)) from rfl, this,
    Option.getD_some]
  apply sum_congr rfl
  intro i _
  rw [cast_emod N (by omega)]

include hD hDN hdx in
theorem lagrange_shift : ShiftInvariant (lagrangeLine eps D N x0 dx) (periodicCoord N x0 dx) := by
  have : NeZero N := ⟨by omega⟩
  intro v a i δ
  obtain ⟨q, hq, hqa⟩ : ∃ q : ℤ, ((i + a).val : ℤ) = i.val + q ∧ (q : ZMod N) = a := by
    refine ⟨(i + a).val - i.val, by ring, ?_⟩
    push_cast
    simp
  have hx : periodicCoord N x0 dx (i + a) - δ = (periodicCoord N x0 dx i - δ) + q * dx := by
    have : ((i + a).val : ℝ) = i.val + q := by exact_mod_cast hq
    unfold periodicCoord
    rw [this]; ring
  rw [lagrange_closed eps D N hD hDN x0 dx hdx, lagrange_closed eps D N hD hDN x0 dx hdx, hx, centre_shift D x0 dx _ hdx]
  apply sum_congr rfl
  intro k _
  congr 1
  · congr 1
    push_cast
    rw [hqa]; ring
  · congr 1
    push_cast
    field_simp
    ring

include hD hDN hdx in
theorem lagrange_linear : IsLinear (lagrangeLine eps D N x0 dx) := by
  intro x α β v w
  simp only [lagrange_closed eps D N hD hDN x0 dx hdx, mul_sum, ← sum_add_distrib]
  exact sum_congr rfl fun i _ => by ring

include hD hDN hdx in
theorem lagrange_exact (heps : 0 ≤ eps) (heps1 : eps < 1 / 2) : KeepsConstants (lagrangeLine eps D N x0 dx) ∧
    Interpolates (lagrangeLine eps D N x0 dx) (periodicCoord N x0 dx) := by
  have : NeZero N := ⟨by omega⟩
  have h := c19_uniform_periodic eps heps heps1 D N hD hDN x0 dx hdx (fun _ => 0) (fun _ => 0)
  constructor
  · intro k x
    have := (h (fun _ => k)).2.2.2 k (fun _ => rfl) x
    simp only at this
    unfold lagrangeLine
    simp only
    rw [show (fun k' => (buildCoeffs true D N (fun _ : ℕ => k) k').getD 0) = builtCoeffs true D N (fun _ : ℕ => k) from rfl, this, Option.getD_some]
  · intro v i
    have := (h (fun k : ℕ => v (k : ZMod N))).2.2.1 i.val (ZMod.val_lt i)
    simp only [uniformNodes] at this
    unfold lagrangeLine periodicCoord
    simp only
    rw [show (fun k => (buildCoeffs true D N (fun k : ℕ => v (k : ZMod N)) k).getD 0) = builtCoeffs true D N (fun k : ℕ => v (k : ZMod N)) from rfl, this,
      Option.getD_some, ZMod.natCast_zmod_val]

end lagrange

/-! ### Splines -/

/-- What DDC provides on a uniform periodic grid with as many basis functions as points: `phi j` is the function `phi 0` moved by `j` points, the functions sum to one, and the builder returns
the coefficients of the only combination which takes the given values at the points. -/
structure UniformPeriodicSpline {I : Type*} [AddCommGroup I] [Fintype I] (coord : I → ℝ) (phi : I → ℝ → ℝ) (solve : (I → ℝ) → I → ℝ) : Prop where
  translated : ∀ (j a i : I) (δ : ℝ), phi (j + a) (coord (i + a) - δ) = phi j (coord i - δ)
  unity : ∀ x, ∑ j, phi j x = 1
  solves : ∀ v i, ∑ j, solve v j * phi j (coord i) = v i
  unique : ∀ c c' : I → ℝ, (∀ i, ∑ j, c j * phi j (coord i) = ∑ j, c' j * phi j (coord i)) → c = c'

section spline
variable {I : Type*} [AddCommGroup I] [Fintype I] {coord : I → ℝ} {phi : I → ℝ → ℝ} {solve : (I → ℝ) → I → ℝ}

theorem spline_shift (h : UniformPeriodicSpline coord phi solve) : ShiftInvariant (splineLine solve phi) coord := by
  intro v a i δ
  have hb : solve (fun j => v (j - a)) = fun j => solve v (j - a) := by
    apply h.unique
    intro k
    rw [h.solves]
    have := h.solves v (k - a)
    rw [← this]
    rw [← Equiv.sum_comp (Equiv.addRight a) fun j => solve v (j - a) * phi j (coord k)]
    apply sum_congr rfl
    intro j _
    have ht := h.translated j a (k - a) 0
    simp only [sub_zero, sub_add_cancel] at ht
    simp [ht]
  simp only [splineLine]
  rw [hb, ← Equiv.sum_comp (Equiv.addRight a) fun j => solve v (j - a) * phi j (coord (i + a) - δ)]
  apply sum_congr rfl
  intro j _
  simp [h.translated j a i δ]

theorem spline_linear (h : UniformPeriodicSpline coord phi solve) : IsLinear (splineLine solve phi) := by
  intro x α β v w
  have hb : solve (fun i => α * v i + β * w i) = fun j => α * solve v j + β * solve w j := by
    apply h.unique
    intro k
    rw [h.solves, ← h.solves v k, ← h.solves w k, mul_sum, mul_sum, ← sum_add_distrib]
    exact sum_congr rfl fun j _ => by ring
  simp only [splineLine]
  rw [hb, mul_sum, mul_sum, ← sum_add_distrib]
  exact sum_congr rfl fun j _ => by ring

theorem spline_exact (h : UniformPeriodicSpline coord phi solve) : KeepsConstants (splineLine solve phi) ∧ Interpolates (splineLine solve phi) coord := by
  refine ⟨fun k x => ?_, fun v i => h.solves v i⟩
  have hb : solve (fun _ => k) = fun _ => k := by
    apply h.unique
    intro i
    rw [h.solves, ← mul_sum, h.unity, mul_one]
  simp only [splineLine]
  rw [hb, ← mul_sum, h.unity, mul_one]

end spline

/-! ## The Fourier solver commutes with translations -/

section fft
open Fft

variable {D : ℕ} (N : Fin (D + 1) → ℕ) [∀ i, NeZero (N i)] (h : Fin (D + 1) → ℝ)

theorem mode_add_right (k x y : Grid N) : mode N k (x + y) = mode N k x * mode N k y := by
  rw [mode_symm, mode_add, mode_symm N x, mode_symm N y]

theorem fft_translated (rho : Grid N → ℝ) (a k : Grid N) : fft N (fun x => rho (x - a)) k = fft N rho k * mode N (-k) a := by
  unfold fft
  rw [← Equiv.sum_comp (Equiv.addRight a) fun x => ((rho (x - a) : ℝ) : ℂ) * mode N (-k) x, sum_mul]
  apply sum_congr rfl
  intro x _
  simp only [Equiv.coe_addRight, add_sub_cancel_right, mode_add_right]
  ring

theorem ifft_translated (F : Grid N → ℂ) (a x : Grid N) : ifft N (fun k => F k * mode N (-k) a) x = ifft N F (x - a) := by
  unfold ifft
  congr 1
  apply sum_congr rfl
  intro k _
  have : F k * mode N (-k) a * mode N k x = F k * mode N k (x - a) := by
    rw [sub_eq_add_neg, mode_add_right, mode_symm N k (-a), mode_neg, mode_neg, mode_symm N k a]; ring
  rw [this]

theorem solve_translated (rho : Grid N → ℝ) (a k : Grid N) : solveFourier N h (fun x => rho (x - a)) k = solveFourier N h rho k * mode N (-k) a := by
  unfold solveFourier
  simp only [fft_translated]
  split_ifs
  · ring
  · simp

/-- C94: the FFT Poisson solver commutes with the translations of the periodic grid, in any dimension. -/
theorem c94_fft_translation (rho : Grid N → ℝ) (a x : Grid N) :
    potential N h (fun x => rho (x - a)) x = potential N h rho (x - a) ∧
    ∀ i, electricField N h (fun x => rho (x - a)) i x = electricField N h rho i (x - a) := by
  refine ⟨?_, fun i => ?_⟩
  · unfold potential
    rw [← ifft_translated]
    congr 1
    funext k
    exact solve_translated N h rho a k
  · unfold electricField
    rw [← ifft_translated]
    congr 1
    funext k
    unfold negDiff
    rw [solve_translated]
    ring

/-- A uniform density has a zero potential and a zero field. -/
theorem fftSolver_const (c : ℝ) : QnSolver.fftSolver N h (fun _ => c) = (fun _ => 0, fun _ _ => 0) := by
  have h0 : solveFourier N h (fun _ => 0) = fun _ => 0 := by
    funext k
    simp [solveFourier, fft]
  have := QnSolver.c87_fft_background N h (fun _ => 0) c
  simp only [zero_add] at this
  rw [this]
  unfold QnSolver.fftSolver potential electricField
  rw [h0]
  congr 1
  · funext x; simp [ifft]
  · funext i x; simp [ifft, negDiff]

end fft
end Verif.Simulation
