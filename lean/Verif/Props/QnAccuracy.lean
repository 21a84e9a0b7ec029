import Verif.Props.QnSolver
import Verif.Props.FftAccuracy
import Mathlib.Algebra.Order.Chebyshev

/-!
# C121: accuracy of the quasi-neutrality solver, from the distribution function to the field

Specification: the exact densities `dens s` of the species on the periodic domain; the exact charge density is a series of plane waves (C120). The quadrature over the velocities may be wrong by `κ s` at each point.
-/

namespace Verif.QnSolver
open Finset Verif.Fft

noncomputable section

variable {D : ℕ} (N : Fin (D + 1) → ℕ) [∀ i, NeZero (N i)] (h : Fin (D + 1) → ℝ)

theorem card_grid : (Fintype.card (Fft.Grid N) : ℝ) = ∏ i, (N i : ℝ) := by
  have : Fintype.card (Fft.Grid N) = ∏ i, N i := by
    rw [show Fintype.card (Fft.Grid N) = Fintype.card ((i : Fin (D + 1)) → ZMod (N i)) from rfl, Fintype.card_pi]
    exact Finset.prod_congr rfl fun i _ => ZMod.card (N i)
  rw [this]; push_cast; rfl

/-- The triangle inequality of the root mean square. -/
theorem rms_add {ι : Type*} [Fintype ι] (u v : ι → ℝ) {α β : ℝ} (hα : 0 ≤ α) (hβ : 0 ≤ β) (hu : ∀ x, |u x| ≤ α) (hv : ∑ x, v x ^ 2 ≤ Fintype.card ι * β ^ 2) :
    ∑ x, (u x + v x) ^ 2 ≤ Fintype.card ι * (α + β) ^ 2 := by
  have h1 : ∑ x, |v x| ≤ Fintype.card ι * β := by
    refine abs_le_of_sq_le_sq' ?_ (by positivity) |>.2
    have := sq_sum_le_card_mul_sum_sq (s := (Finset.univ : Finset ι)) (f := fun x => |v x|)
    simp only [sq_abs, Finset.card_univ] at this
    refine this.trans ?_
    rw [mul_pow]
    nlinarith [mul_le_mul_of_nonneg_left hv (Nat.cast_nonneg (α := ℝ) (Fintype.card ι))]
  calc ∑ x, (u x + v x) ^ 2 ≤ ∑ x, (α ^ 2 + 2 * α * |v x| + v x ^ 2) := by
        refine Finset.sum_le_sum fun x _ => ?_
        have h2 : u x ^ 2 ≤ α ^ 2 := sq_le_sq' (by linarith [(abs_le.1 (hu x)).1]) (abs_le.1 (hu x)).2
        have h3 : u x * v x ≤ α * |v x| := (le_abs_self _).trans (by rw [abs_mul]; exact mul_le_mul_of_nonneg_right (hu x) (abs_nonneg _))
        nlinarith
    _ = Fintype.card ι * α ^ 2 + 2 * α * ∑ x, |v x| + ∑ x, v x ^ 2 := by
        rw [Finset.sum_add_distrib, Finset.sum_add_distrib, Finset.sum_const, Finset.card_univ, nsmul_eq_mul, ← Finset.mul_sum]
    _ ≤ _ := by nlinarith [mul_le_mul_of_nonneg_left h1 hα]

theorem deviation_le (d : Fft.Grid N → ℝ) {κ : ℝ} (hd : ∀ x, |d x| ≤ κ) :
    ∑ x, (d x - (∑ z, d z) / ∏ i, (N i : ℝ)) ^ 2 ≤ Fintype.card (Fft.Grid N) * κ ^ 2 := by
  have hS := Fft.prod_pos N
  have e : ∑ x, (d x - (∑ z, d z) / ∏ i, (N i : ℝ)) ^ 2 = ∑ x, d x ^ 2 - (∑ z, d z) ^ 2 / ∏ i, (N i : ℝ) := by
    have : ∀ x, (d x - (∑ z, d z) / ∏ i, (N i : ℝ)) ^ 2 = d x ^ 2 - 2 * ((∑ z, d z) / ∏ i, (N i : ℝ)) * d x + ((∑ z, d z) / ∏ i, (N i : ℝ)) ^ 2 := fun x => by ring
    simp only [this]
    rw [Finset.sum_add_distrib, Finset.sum_sub_distrib, ← Finset.mul_sum, Finset.sum_const, Finset.card_univ, nsmul_eq_mul, card_grid N]
    field_simp; ring
  rw [e]
  have h1 : ∑ x, d x ^ 2 ≤ Fintype.card (Fft.Grid N) * κ ^ 2 := by
    refine (Finset.sum_le_card_nsmul Finset.univ _ (κ ^ 2) fun x _ => ?_).trans_eq (by rw [Finset.card_univ, nsmul_eq_mul])
    exact sq_le_sq' (by linarith [(abs_le.1 (hd x)).1]) (abs_le.1 (hd x)).2
  have h2 : 0 ≤ (∑ z, d z) ^ 2 / ∏ i, (N i : ℝ) := by positivity
  linarith

theorem multiplier_add (w : Fft.Grid N → ℂ) (rho sigma : Fft.Grid N → ℝ) (x : Fft.Grid N) :
    multiplier N w (fun z => rho z + sigma z) x = multiplier N w rho x + multiplier N w sigma x := by
  have h1 : ∀ k, Fft.fft N (fun z => rho z + sigma z) k = Fft.fft N rho k + Fft.fft N sigma k := by
    intro k
    simp only [Fft.fft, ← Finset.sum_add_distrib]
    exact Finset.sum_congr rfl fun x _ => by push_cast; ring
  rw [multiplier_eq, multiplier_eq, multiplier_eq, ← add_div, ← Finset.sum_add_distrib]
  refine congrArg₂ _ (Finset.sum_congr rfl fun k _ => ?_) rfl
  rw [h1, mul_add, add_mul, Complex.add_re, mul_add]

open scoped Classical in
/-- C121: let the exact charge density of the species (kinetic densities `dens s` times the charges, plus the adiabatic background) be a series of waves on the periodic domain, of length at most `L` in every direction, and let the
quadrature of the distribution function give each density at each grid point up to `κ s`. There is an exact periodic potential `Φ` of the charge density minus its mean, with gradient `Q`; the root mean square error of the potential
which the quasi-neutrality solver returns is at most `(L / 2 pi)^2` times the sum of what the grid does not resolve and the error of the charge, and with odd numbers of points that of each component of the field at most
`L / pi` times the former plus `L / (2 pi)` times the latter. -/
theorem c121_accuracy (hh : ∀ i, 0 < h i) {L : ℝ} (hL : ∀ i, N i * h i ≤ L) (a : Fin (D + 1) → ℝ) (nsp nkin : ℕ) (charge : ℕ → ℝ) (nv : ℕ) (w : ℕ → ℝ) (f : ℕ → Fft.Grid N → ℕ → ℝ)
    {R : Type} [DecidableEq R] (r : R) (dens : ℕ → (Fin (D + 1) → ℝ) → ℝ) (κ : ℕ → ℝ)
    (hq : ∀ s < nkin, ∀ x : Fft.Grid N, |∑ k ∈ range nv, w k * f s x k - dens s (fun i => a i + (x i).val * h i)| ≤ κ s)
    {ι : Type*} (m : ι → Fin (D + 1) → ℤ) (c : ι → ℂ) (hc : Summable fun s => ‖c s‖)
    (hser : ∀ y, (∑ s ∈ range nkin, charge s * dens s y) + (if nkin < nsp then charge (nsp - 1) else 0) = series a (fun i => N i * h i) m c y) :
    ∃ phi e, qn r r (rhoXVx nkin charge nv w) (fftSolver N h) f = some (phi, e) ∧
      ∃ (Φ : (Fin (D + 1) → ℝ) → ℝ) (Q S : Fin (D + 1) → (Fin (D + 1) → ℝ) → ℝ),
        (∀ y i, HasDerivAt (fun t => Φ (Function.update y i t)) (Q i y) (y i)) ∧
        (∀ y i, HasDerivAt (fun t => Q i (Function.update y i t)) (S i y) (y i)) ∧
        (∀ y, -∑ i, S i y = (∑ s ∈ range nkin, charge s * dens s y) + (if nkin < nsp then charge (nsp - 1) else 0) - ∑' s, if m s = 0 then (c s).re else 0) ∧
        (∀ y i, Φ (Function.update y i (y i + N i * h i)) = Φ y) ∧
        (∑ x : Fft.Grid N, (phi x - Φ (fun i => a i + (x i).val * h i)) ^ 2 ≤
          (∏ i, (N i : ℝ)) * ((L / (2 * Real.pi)) ^ 2 * (∑' s, if ∀ i, 2 * |m s i| < N i then 0 else ‖c s‖) + (L / (2 * Real.pi)) ^ 2 * ∑ s ∈ range nkin, |charge s| * κ s) ^ 2) ∧
        ((∀ i, Odd (N i)) → ∀ i, ∑ x : Fft.Grid N, (e i x - -Q i (fun i => a i + (x i).val * h i)) ^ 2 ≤
          (∏ i, (N i : ℝ)) * (L / Real.pi * (∑' s, if ∀ i, 2 * |m s i| < N i then 0 else ‖c s‖) + L / (2 * Real.pi) * ∑ s ∈ range nkin, |charge s| * κ s) ^ 2) := by
  obtain ⟨Φ, Q, S, h1, h2, h3, h4, h5, h6⟩ := c120_accuracy N h hh hL a m c hc
  obtain ⟨ρ, hρ⟩ : ∃ ρ : Fft.Grid N → ℝ, ρ = fun z => series a (fun i => N i * h i) m c (point N h a z) := ⟨_, rfl⟩
  obtain ⟨d, hd⟩ : ∃ d : Fft.Grid N → ℝ, d = fun z => totalCharge nsp nkin charge nv w f z - ρ z := ⟨_, rfl⟩
  obtain ⟨K, hK⟩ : ∃ K, K = ∑ s ∈ range nkin, |charge s| * κ s := ⟨_, rfl⟩
  obtain ⟨T, hT⟩ : ∃ T, T = ∑' s, if ∀ i, 2 * |m s i| < N i then 0 else ‖c s‖ := ⟨_, rfl⟩
  have hpi := Real.pi_pos
  have hL0 : 0 < L := lt_of_lt_of_le (mul_pos (Nat.cast_pos.2 (NeZero.pos _)) (hh 0)) (hL 0)
  have hT0 : 0 ≤ T := by rw [hT]; exact tsum_nonneg fun s => by split_ifs <;> simp
  have hdK : ∀ x, |d x| ≤ K := by
    intro x
    rw [hd, hK, hρ]
    simp only [← hser, totalCharge, add_sub_add_right_eq_sub, ← Finset.sum_sub_distrib, ← mul_sub]
    refine (Finset.abs_sum_le_sum_abs _ _).trans (Finset.sum_le_sum fun s hs => ?_)
    rw [abs_mul]
    exact mul_le_mul_of_nonneg_left (hq s (Finset.mem_range.1 hs) x) (abs_nonneg _)
  have hK0 : 0 ≤ K := (abs_nonneg _).trans (hdK 0)
  have hdev := deviation_le N d hdK
  have hst := c53_stable N h hh L hL d
  have hsum : totalCharge nsp nkin charge nv w f = fun z => ρ z + d z := by funext z; rw [hd]; ring
  have hphi : ∀ x, (fftSolver N h (totalCharge nsp nkin charge nv w f)).1 x = potential N h ρ x + potential N h d x := by
    intro x
    show potential N h _ x = _
    rw [hsum, potential_multiplier, multiplier_add, ← potential_multiplier, ← potential_multiplier]
  have he : ∀ i x, (fftSolver N h (totalCharge nsp nkin charge nv w f)).2 i x = electricField N h ρ i x + electricField N h d i x := by
    intro i x
    show electricField N h _ i x = _
    rw [hsum, field_multiplier, multiplier_add, ← field_multiplier, ← field_multiplier]
  refine ⟨(fftSolver N h (totalCharge nsp nkin charge nv w f)).1, (fftSolver N h (totalCharge nsp nkin charge nv w f)).2, ?_, Φ, Q, S, h1, h2, fun y => by rw [h3, hser], h4, ?_, fun hodd i => ?_⟩
  · rw [qn, if_pos rfl, rhoXVx_eq nsp, c87_fft_background]
  · rw [← hT, ← hK, ← card_grid N]
    refine (Finset.sum_congr rfl fun x _ => ?_).trans_le (rms_add (fun x => potential N h ρ x - Φ (point N h a x)) (potential N h d) (by positivity) (by positivity) (fun x => ?_) ?_)
    · rw [hphi]; congr 1; rw [show (fun i => a i + (x i).val * h i) = point N h a x from rfl]; ring
    · rw [hρ, hT]; exact h5 x
    · refine hst.1.trans ((mul_le_mul_of_nonneg_left hdev (by positivity)).trans_eq (by ring))
  · rw [← hT, ← hK, ← card_grid N]
    refine (Finset.sum_congr rfl fun x _ => ?_).trans_le (rms_add (fun x => electricField N h ρ i x - -Q i (point N h a x)) (electricField N h d i) (by positivity) (by positivity) (fun x => ?_) ?_)
    · rw [he]; congr 1; rw [show (fun i => a i + (x i).val * h i) = point N h a x from rfl]; ring
    · rw [hρ, hT]; exact h6 i x
    · refine (Finset.sum_le_sum fun x _ => ?_).trans ((hst.2 hodd).trans ((mul_le_mul_of_nonneg_left hdev (by positivity)).trans_eq (by ring)))
      exact Finset.single_le_sum (f := fun i => electricField N h d i x ^ 2) (fun i _ => sq_nonneg _) (Finset.mem_univ i)

/-- C121: the serial 2D2V quasi-neutrality solver returns the same as the solver to which `c121_accuracy` applies, and so does the parallel one on any number of ranks. -/
theorem c121_xyvxvy (P : ℕ) (off len : ℕ → ℕ) (h0 : off 0 = 0) (hs : ∀ r < P, off (r + 1) = off r + len r) (nsp nkin : ℕ) (h1 : 1 ≤ nkin) (h2 : nkin ≤ nsp) (charge : ℕ → ℝ) (w : ℕ → ℝ)
    (f : ℕ → Fft.Grid N → ℕ → ℝ) {R : Type} [DecidableEq R] (r r' : R) :
    qn r r' (rhoXYVxVy nsp nkin charge (off P) w) (fftSolver N h) f = qn r r' (rhoXVx nkin charge (off P) w) (fftSolver N h) f ∧
    qn r r' (rhoMpi P off len nsp nkin charge w) (fftSolver N h) f = qn r r' (rhoXVx nkin charge (off P) w) (fftSolver N h) f := by
  have e : qn r r' (rhoXYVxVy nsp nkin charge (off P) w) (fftSolver N h) f = qn r r' (rhoXVx nkin charge (off P) w) (fftSolver N h) f := by
    unfold qn
    rw [rhoXYVxVy_eq _ _ _ _ _ _ h1 h2, rhoXVx_eq nsp, c87_fft_background]
  exact ⟨e, (c87_fft_mpi N h P off len h0 hs nsp nkin h1 h2 charge w f r r').trans e⟩

/-! ## Non-vacuity -/

/-- The hypotheses are met by ions of density `1 + cos (2 pi y)` on a line of length 1 with 3 points, adiabatic electrons, and a quadrature with error 1/10. -/
example : ∃ (dens : ℕ → (Fin 1 → ℝ) → ℝ) (f : ℕ → Fft.Grid (fun _ : Fin 1 => 3) → ℕ → ℝ) (m : Unit → Fin 1 → ℤ) (c : Unit → ℂ) (charge : ℕ → ℝ),
    (∀ s < 1, ∀ x : Fft.Grid (fun _ : Fin 1 => 3), |∑ k ∈ range 1, (fun _ => (1 : ℝ)) k * f s x k - dens s (fun i => (fun _ => (0 : ℝ)) i + (x i).val * (fun _ => (1 / 3 : ℝ)) i)| ≤ 1 / 10) ∧
    (Summable fun s => ‖c s‖) ∧ c () ≠ 0 ∧
    ∀ y, (∑ s ∈ range 1, charge s * dens s y) + (if 1 < 2 then charge (2 - 1) else 0) = series (fun _ => 0) (fun i => ((fun _ : Fin 1 => 3) i : ℕ) * (fun _ => (1 / 3 : ℝ)) i) m c y := by
  refine ⟨fun _ y => 1 + Real.cos (2 * Real.pi * y 0), fun _ x _ => 1 + Real.cos (2 * Real.pi * ((x 0).val * (1 / 3))) + 1 / 10, fun _ _ => 1, fun _ => 1, fun s => if s = 0 then 1 else -1, ?_, ?_, one_ne_zero, fun y => ?_⟩
  · intro s _ x
    simp only [Finset.range_one, Finset.sum_singleton, one_mul, zero_add, add_sub_cancel_left]
    norm_num [abs_of_pos]
  · exact (hasSum_fintype _).summable
  · rw [series, tsum_fintype]
    simp only [planeWave, Finset.range_one, Finset.sum_singleton, if_pos, Finset.univ_unique, one_mul]
    rw [mul_comm Complex.I, Complex.exp_ofReal_mul_I_re]
    norm_num [Fin.sum_univ_succ]

end

end Verif.QnSolver
