import Verif.Model.FloatRk
import Verif.Props.Rounding
import Verif.Props.RkOrder
import Mathlib.Analysis.Normed.Group.Constructions
import Mathlib.Analysis.Complex.Exponential
import Mathlib.Analysis.SpecialFunctions.Trigonometric.Deriv
import Mathlib.Analysis.Calculus.MeanValue
import Mathlib.Tactic.Linarith
import Mathlib.Tactic.Positivity
import Mathlib.Tactic.Ring
import Mathlib.Tactic.NormNum

/-!
# C108: the explicit time steppers in floating-point arithmetic

Specification: the exact steppers `stepEx` (C05, C93), and the solution of the differential equation. Errors are measured in the maximum norm over the index range.
-/

namespace Verif.FloatRk

open Verif.Rounding Verif.Timestepper

variable {ι : Type*} {u : ℝ}

/-! ## Approximate values -/

/-- `v` approximates `x`, `|x| ≤ X`, up to `j` roundings and an error `e` of the data. -/
def App (u : ℝ) (j : ℕ) (x X e v : ℝ) : Prop := |x| ≤ X ∧ |v - x| ≤ ((1 + u) ^ j - 1) * X + (1 + u) ^ j * e

theorem app_fl (hu : 0 ≤ u) {j : ℕ} {x X e v w : ℝ} (h : App u j x X e v) (hw : Fl u v w) : App u (j + 1) x X e w := by
  obtain ⟨h1, h2⟩ := h
  refine ⟨h1, ?_⟩
  have h3 := fl_err hw
  have h4 : |v| ≤ |v - x| + |x| := by
    have := abs_add_le (v - x) x
    rwa [sub_add_cancel] at this
  have h5 : |w - x| ≤ |w - v| + |v - x| := abs_sub_le _ _ _
  have h6 : u * |v| ≤ u * (((1 + u) ^ j - 1) * X + (1 + u) ^ j * e + X) := mul_le_mul_of_nonneg_left (by linarith) hu
  rw [pow_succ]
  nlinarith

theorem app_mono (hu : 0 ≤ u) {j l : ℕ} (hjl : j ≤ l) {x X e v : ℝ} (he : 0 ≤ e) (h : App u j x X e v) : App u l x X e v := by
  have hp : (1 + u) ^ j ≤ (1 + u) ^ l := pow_le_pow_right₀ (by linarith) hjl
  have hX := (abs_nonneg _).trans h.1
  refine ⟨h.1, h.2.trans ?_⟩
  gcongr

theorem app_add {j : ℕ} {x y X Y e e' v w : ℝ} (h : App u j x X e v) (h' : App u j y Y e' w) : App u j (x + y) (X + Y) (e + e') (v + w) := by
  refine ⟨(abs_add_le _ _).trans (add_le_add h.1 h'.1), ?_⟩
  have := abs_add_le (v - x) (w - y)
  rw [show v + w - (x + y) = (v - x) + (w - y) by ring]
  linarith [h.2, h'.2]

theorem app_neg {j : ℕ} {x X e v : ℝ} (h : App u j x X e v) : App u j (-x) X e (-v) := by
  refine ⟨by rw [abs_neg]; exact h.1, ?_⟩
  rw [show -v - -x = -(v - x) by ring, abs_neg]; exact h.2

theorem app_smul {j : ℕ} {x X e v c : ℝ} (hc : 0 ≤ c) (h : App u j x X e v) : App u j (c * x) (c * X) (c * e) (c * v) := by
  refine ⟨by rw [abs_mul, abs_of_nonneg hc]; exact mul_le_mul_of_nonneg_left h.1 hc, ?_⟩
  rw [show c * v - c * x = c * (v - x) by ring, abs_mul, abs_of_nonneg hc]
  have := mul_le_mul_of_nonneg_left h.2 hc
  linarith

theorem pow_bound (hu : 0 ≤ u) (hu1 : u ≤ 1 / 1000) (j : ℕ) (hj : j ≤ 9) : (1 + u) ^ j ≤ 1 + 1.01 * j * u := by
  induction j with
  | zero => simp
  | succ j ih =>
    have h := ih (by omega)
    have hj' : (j : ℝ) ≤ 8 := by exact_mod_cast (by omega : j ≤ 8)
    have hj0 : (0 : ℝ) ≤ j := Nat.cast_nonneg j
    rw [pow_succ]
    push_cast
    have h1 : (1 + u) ^ j * (1 + u) ≤ (1 + 1.01 * j * u) * (1 + u) := mul_le_mul_of_nonneg_right h (by linarith)
    have h2 : (j : ℝ) * u ≤ 8 * (1 / 1000) := mul_le_mul hj' hu1 hu (by norm_num)
    have h3 : (j : ℝ) * u * u ≤ 8 * (1 / 1000) * u := mul_le_mul_of_nonneg_right h2 hu
    nlinarith

/-- The default update. -/
theorem upd_scalar (hu : 0 ≤ u) (hu1 : u ≤ 1 / 1000) {j : ℕ} (hj : j ≤ 6) {κ K e k h h' y p y' : ℝ} (hh : 0 ≤ h) (he : 0 ≤ e) (hk : App u j κ K e k) (h1 : Fl u h h') (h2 : Fl u (k * h') p) (h3 : Fl u (y + p) y') :
    |y' - (y + h * κ)| ≤ u * |y| + h * (1.01 * (j + 3) * u * K + 1.01 * e) := by
  obtain ⟨δ, hδ, rfl⟩ := h1
  have hK := (abs_nonneg _).trans hk.1
  have a1 : App u (j + 1) (h * κ) (h * K) (h * e) (k * (h * (1 + δ))) :=
    app_fl hu (app_smul hh hk) ⟨δ, hδ, by ring⟩
  have a2 := app_fl hu a1 h2
  obtain ⟨δ', hδ', rfl⟩ := h3
  have b := pow_bound hu hu1 (j + 3) (by omega)
  have hj' : ((j : ℝ) + 3) ≤ 9 := by exact_mod_cast (by omega : j + 3 ≤ 9)
  have hj0 : (0 : ℝ) ≤ (j : ℝ) + 3 := by positivity
  have b2 : (1 + u) ^ (j + 3) ≤ 1.01 := by
    refine b.trans ?_
    push_cast
    have : ((j : ℝ) + 3) * u ≤ 9 * (1 / 1000) := mul_le_mul hj' hu1 hu (by norm_num)
    nlinarith
  have a3 := app_fl hu a2 (⟨δ', hδ', rfl⟩ : Fl u p (p * (1 + δ')))
  have e1 : (y + p) * (1 + δ') - (y + h * κ) = y * δ' + (p * (1 + δ') - h * κ) := by ring
  rw [e1]
  have c1 : |y * δ'| ≤ u * |y| := by rw [abs_mul, mul_comm]; exact mul_le_mul_of_nonneg_right hδ' (abs_nonneg _)
  have c2 : ((1 + u) ^ (j + 3) - 1) * (h * K) ≤ 1.01 * (j + 3) * u * (h * K) := by
    refine mul_le_mul_of_nonneg_right ?_ (by positivity)
    push_cast at b; linarith
  have c3 : (1 + u) ^ (j + 3) * (h * e) ≤ 1.01 * (h * e) := mul_le_mul_of_nonneg_right b2 (by positivity)
  calc |y * δ' + (p * (1 + δ') - h * κ)| ≤ |y * δ'| + |p * (1 + δ') - h * κ| := abs_add_le _ _
    _ ≤ u * |y| + (((1 + u) ^ (j + 3) - 1) * (h * K) + (1 + u) ^ (j + 3) * (h * e)) := add_le_add c1 a3.2
    _ ≤ u * |y| + h * (1.01 * (j + 3) * u * K + 1.01 * e) := by linarith

variable [Fintype ι]

theorem upd_err (hu : 0 ≤ u) (hu1 : u ≤ 1 / 1000) {j : ℕ} (hj : j ≤ 6) {κ k y y' : ι → ℝ} {K e h h' B : ℝ} (hh : 0 ≤ h) (he : 0 ≤ e) (hK : 0 ≤ K) (hB : ‖y‖ ≤ B) (hk : ∀ i, App u j (κ i) K e (k i)) (h1 : Fl u h h')
    (h2 : UpdFl u y k h' y') : ‖y' - (y + h • κ)‖ ≤ u * B + h * (1.01 * (j + 3) * u * K + 1.01 * e) := by
  have hB0 : 0 ≤ B := (norm_nonneg _).trans hB
  refine (pi_norm_le_iff_of_nonneg (by positivity)).2 fun i => ?_
  obtain ⟨p, hp, hy⟩ := h2 i
  have := upd_scalar hu hu1 hj hh he (hk i) h1 hp hy
  have hyi : |y i| ≤ B := (norm_le_pi_norm y i).trans hB
  simp only [Pi.sub_apply, Pi.add_apply, Pi.smul_apply, smul_eq_mul, Real.norm_eq_abs]
  refine this.trans (add_le_add (mul_le_mul_of_nonneg_left hyi hu) le_rfl)

theorem app_zero {κ k : ι → ℝ} {K e : ℝ} (h1 : ‖κ‖ ≤ K) (h2 : ‖k - κ‖ ≤ e) (i : ι) : App u 0 (κ i) K e (k i) := by
  refine ⟨(norm_le_pi_norm κ i).trans h1, ?_⟩
  have := (norm_le_pi_norm (k - κ) i).trans h2
  simpa using this

/-! ## One step -/

/-- Specification: the right-hand side is `f`, bounded by `K`, with Lipschitz constant `L`, and evaluated with an error of at most `ε`. -/
structure Rhs (f : (ι → ℝ) → (ι → ℝ)) (dy : (ι → ℝ) → (ι → ℝ) → Prop) (K L ε : ℝ) : Prop where
  bound : ∀ y, ‖f y‖ ≤ K
  lip : ∀ y z, ‖f y - f z‖ ≤ L * ‖y - z‖
  eval : ∀ y k, dy y k → ‖k - f y‖ ≤ ε

variable {f : (ι → ℝ) → (ι → ℝ)} {dy : (ι → ℝ) → (ι → ℝ) → Prop} {K L ε : ℝ}

theorem rhs_near (h : Rhs f dy K L ε) {y z k : ι → ℝ} {s : ℝ} (hL : 0 ≤ L) (hd : dy y k) (hs : ‖y - z‖ ≤ s) : ‖k - f z‖ ≤ ε + L * s := by
  have h1 := h.eval y k hd
  have h2 := (h.lip y z).trans (mul_le_mul_of_nonneg_left hs hL)
  have := norm_sub_le_norm_sub_add_norm_sub k (f y) (f z)
  linarith

/-- C108. One step of every explicit stepper in floating point is within `16 (u B + dt (u K + ε))` of the exact step from the same state, where `B` bounds the state, `K` the derivative, and `ε` the error of the user's evaluation of the
derivative, if the step is resolved (`dt L ≤ 1`). -/
theorem c108_one_step (m : Method) (hu : 0 ≤ u) (hu1 : u ≤ 1 / 1000) (hL : 0 ≤ L) (hε : 0 ≤ ε) (hr : Rhs f dy K L ε) {dt : ℝ} (hdt : 0 ≤ dt) (hdL : dt * L ≤ 1) {y y' : ι → ℝ} {B : ℝ} (hB : ‖y‖ ≤ B)
    (h : StepFl m u dy y dt y') : ‖y' - stepEx m f y dt‖ ≤ 16 * (u * B + dt * (u * K + ε)) := by
  have hK : 0 ≤ K := (norm_nonneg _).trans (hr.bound y)
  have hB0 : 0 ≤ B := (norm_nonneg _).trans hB
  obtain ⟨a, ha⟩ : ∃ a, a = u * B := ⟨_, rfl⟩
  obtain ⟨b, hb⟩ : ∃ b, b = dt * (u * K) := ⟨_, rfl⟩
  obtain ⟨c, hc⟩ : ∃ c, c = dt * ε := ⟨_, rfl⟩
  have a0 : 0 ≤ a := by rw [ha]; positivity
  have b0 : 0 ≤ b := by rw [hb]; positivity
  have c0 : 0 ≤ c := by rw [hc]; positivity
  have fin : 16 * (u * B + dt * (u * K + ε)) = 16 * (a + b + c) := by rw [ha, hb, hc]; ring
  have e1 : (0.5 : ℝ) * dt = dt / 2 := by ring
  have dtL : ∀ {s : ℝ}, 0 ≤ s → dt * (L * s) ≤ s := fun {s} hs => by
    rw [← mul_assoc]; exact mul_le_of_le_one_left hs hdL
  rw [fin]
  cases m with
  | euler =>
    obtain ⟨k1, d1, h1⟩ := h
    have := upd_err hu hu1 (j := 0) (by norm_num) hdt hε hK hB (app_zero (hr.bound y) (hr.eval y k1 d1)) (fl_exact hu dt) h1
    simp only [stepEx, euler, defaultUpdate]
    refine this.trans ?_
    push_cast
    nlinarith
  | rk2 =>
    obtain ⟨k1, hh, yp, k2, d1, fh, h1, d2, h2⟩ := h
    rw [e1] at fh
    have s1 := upd_err hu hu1 (j := 0) (by norm_num) (by positivity : 0 ≤ dt / 2) hε hK hB (app_zero (hr.bound y) (hr.eval y k1 d1)) fh h1
    obtain ⟨z1, hz1⟩ : ∃ z, z = y + (dt / 2) • f y := ⟨_, rfl⟩
    rw [← hz1] at s1
    obtain ⟨σ, hσ⟩ : ∃ σ, σ = u * B + dt / 2 * (1.01 * ((0 : ℕ) + 3) * u * K + 1.01 * ε) := ⟨_, rfl⟩
    rw [← hσ] at s1
    have σ0 : 0 ≤ σ := (norm_nonneg _).trans s1
    have σe : σ ≤ a + 1.6 * b + 0.6 * c := by rw [hσ]; push_cast; nlinarith
    have s2 := upd_err hu hu1 (j := 0) (by norm_num) hdt (by positivity) hK hB (app_zero (hr.bound z1) (rhs_near hr hL d2 s1)) (fl_exact hu dt) h2
    simp only [stepEx, rk2, defaultUpdate, e1, ← hz1]
    refine s2.trans ?_
    have := dtL σ0
    push_cast
    have e : u * B + dt * (1.01 * (0 + 3) * u * K + 1.01 * (ε + L * σ)) = a + 3.03 * b + 1.01 * c + 1.01 * (dt * (L * σ)) := by rw [ha, hb, hc]; ring
    rw [e]; linarith
  | rk3 =>
    obtain ⟨k1, hh, yp, k2, kt, yp', k3, kt', h', d1, fh, h1, d2, ct, h2, d3, ct', fh', h3⟩ := h
    rw [e1] at fh
    have p1 := hr.eval y k1 d1
    have s1 := upd_err hu hu1 (j := 0) (by norm_num) (by positivity : 0 ≤ dt / 2) hε hK hB (app_zero (hr.bound y) p1) fh h1
    obtain ⟨z1, hz1⟩ : ∃ z, z = y + (dt / 2) • f y := ⟨_, rfl⟩
    rw [← hz1] at s1
    obtain ⟨σ, hσ⟩ : ∃ σ, σ = u * B + dt / 2 * (1.01 * ((0 : ℕ) + 3) * u * K + 1.01 * ε) := ⟨_, rfl⟩
    rw [← hσ] at s1
    have σ0 : 0 ≤ σ := (norm_nonneg _).trans s1
    have σe : σ ≤ a + 1.6 * b + 0.6 * c := by rw [hσ]; push_cast; nlinarith
    have p2 := rhs_near hr hL d2 s1
    have t1 : ∀ i, App u 2 (((2 : ℝ) • f z1 - f y) i) (2 * K + K) (2 * (ε + L * σ) + ε) (kt i) := by
      intro i
      obtain ⟨p, fp, fq⟩ := ct i
      have q1 := app_fl hu (app_smul (by norm_num : (0 : ℝ) ≤ 2) (app_zero (u := u) (hr.bound z1) p2 i)) fp
      have q2 := app_neg (app_mono hu (by norm_num : 0 ≤ 1) hε (app_zero (u := u) (hr.bound y) p1 i))
      exact app_fl hu (app_add q1 q2) fq
    have s2 := upd_err hu hu1 (j := 2) (by norm_num) hdt (by positivity) (by positivity) hB t1 (fl_exact hu dt) h2
    obtain ⟨z2, hz2⟩ : ∃ z, z = y + dt • ((2 : ℝ) • f z1 - f y) := ⟨_, rfl⟩
    rw [← hz2] at s2
    obtain ⟨τ, hτ⟩ : ∃ τ, τ = u * B + dt * (1.01 * ((2 : ℕ) + 3) * u * (2 * K + K) + 1.01 * (2 * (ε + L * σ) + ε)) := ⟨_, rfl⟩
    rw [← hτ] at s2
    have τ0 : 0 ≤ τ := (norm_nonneg _).trans s2
    have τe : τ ≤ a + 15.15 * b + 3.03 * c + 2.02 * σ := by
      have := dtL σ0
      have e : τ = a + 15.15 * b + 3.03 * c + 2.02 * (dt * (L * σ)) := by rw [hτ, ha, hb, hc]; push_cast; ring
      rw [e]; linarith
    have p3 := rhs_near hr hL d3 s2
    have t2 : ∀ i, App u 3 ((f y + (4 : ℝ) • f z1 + f z2) i) (K + 4 * K + K) (ε + 4 * (ε + L * σ) + (ε + L * τ)) (kt' i) := by
      intro i
      obtain ⟨p, s, fp, fq, fr⟩ := ct' i
      have q1 := app_fl hu (app_smul (by norm_num : (0 : ℝ) ≤ 4) (app_zero (u := u) (hr.bound z1) p2 i)) fp
      have q2 := app_mono hu (by norm_num : 0 ≤ 1) hε (app_zero (u := u) (hr.bound y) p1 i)
      have q3 := app_fl hu (app_add q2 q1) fq
      have q4 := app_mono hu (by norm_num : 0 ≤ 2) (by positivity) (app_zero (u := u) (hr.bound z2) p3 i)
      exact app_fl hu (app_add q3 q4) fr
    have s3 := upd_err hu hu1 (j := 3) (by norm_num) (by positivity : 0 ≤ dt / 6) (by positivity) (by positivity) hB t2 fh' h3
    simp only [stepEx, rk3, defaultUpdate, e1, ← hz1, ← hz2]
    refine s3.trans ?_
    have g1 := dtL σ0
    have g2 := dtL τ0
    have e : u * B + dt / 6 * (1.01 * ((3 : ℕ) + 3) * u * (K + 4 * K + K) + 1.01 * (ε + 4 * (ε + L * σ) + (ε + L * τ))) =
        a + 6.06 * b + 1.01 * c + 1.01 / 6 * (4 * (dt * (L * σ)) + dt * (L * τ)) := by rw [ha, hb, hc]; push_cast; ring
    rw [e]; linarith
  | rk4 =>
    obtain ⟨k1, hh, yp, k2, hh2, yp2, k3, yp3, k4, kt, h', d1, fh, h1, d2, fh2, h2, d3, h3, d4, ct, fh', h4⟩ := h
    rw [e1] at fh fh2
    have p1 := hr.eval y k1 d1
    have s1 := upd_err hu hu1 (j := 0) (by norm_num) (by positivity : 0 ≤ dt / 2) hε hK hB (app_zero (hr.bound y) p1) fh h1
    obtain ⟨z1, hz1⟩ : ∃ z, z = y + (dt / 2) • f y := ⟨_, rfl⟩
    rw [← hz1] at s1
    obtain ⟨σ, hσ⟩ : ∃ σ, σ = u * B + dt / 2 * (1.01 * ((0 : ℕ) + 3) * u * K + 1.01 * ε) := ⟨_, rfl⟩
    rw [← hσ] at s1
    have σ0 : 0 ≤ σ := (norm_nonneg _).trans s1
    have σe : σ ≤ a + 1.6 * b + 0.6 * c := by rw [hσ]; push_cast; nlinarith
    have p2 := rhs_near hr hL d2 s1
    have s2 := upd_err hu hu1 (j := 0) (by norm_num) (by positivity : 0 ≤ dt / 2) (by positivity) hK hB (app_zero (hr.bound z1) p2) fh2 h2
    obtain ⟨z2, hz2⟩ : ∃ z, z = y + (dt / 2) • f z1 := ⟨_, rfl⟩
    rw [← hz2] at s2
    obtain ⟨τ, hτ⟩ : ∃ τ, τ = u * B + dt / 2 * (1.01 * ((0 : ℕ) + 3) * u * K + 1.01 * (ε + L * σ)) := ⟨_, rfl⟩
    rw [← hτ] at s2
    have τ0 : 0 ≤ τ := (norm_nonneg _).trans s2
    have τe : τ ≤ a + 1.6 * b + 0.6 * c + 0.6 * σ := by
      have := dtL σ0
      have e : τ = a + 1.515 * b + 0.505 * c + 0.505 * (dt * (L * σ)) := by rw [hτ, ha, hb, hc]; push_cast; ring
      rw [e]; linarith
    have p3 := rhs_near hr hL d3 s2
    have s3 := upd_err hu hu1 (j := 0) (by norm_num) hdt (by positivity) hK hB (app_zero (hr.bound z2) p3) (fl_exact hu dt) h3
    obtain ⟨z3, hz3⟩ : ∃ z, z = y + dt • f z2 := ⟨_, rfl⟩
    rw [← hz3] at s3
    obtain ⟨ρ, hρ⟩ : ∃ ρ, ρ = u * B + dt * (1.01 * ((0 : ℕ) + 3) * u * K + 1.01 * (ε + L * τ)) := ⟨_, rfl⟩
    rw [← hρ] at s3
    have ρ0 : 0 ≤ ρ := (norm_nonneg _).trans s3
    have ρe : ρ ≤ a + 3.03 * b + 1.01 * c + 1.01 * τ := by
      have := dtL τ0
      have e : ρ = a + 3.03 * b + 1.01 * c + 1.01 * (dt * (L * τ)) := by rw [hρ, ha, hb, hc]; push_cast; ring
      rw [e]; linarith
    have p4 := rhs_near hr hL d4 s3
    have t : ∀ i, App u 4 ((f y + (2 : ℝ) • f z1 + (2 : ℝ) • f z2 + f z3) i) (K + 2 * K + 2 * K + K) (ε + 2 * (ε + L * σ) + 2 * (ε + L * τ) + (ε + L * ρ)) (kt i) := by
      intro i
      obtain ⟨p, q, s, t, fp, fs, fq, ft, fk⟩ := ct i
      have q1 := app_fl hu (app_smul (by norm_num : (0 : ℝ) ≤ 2) (app_zero (u := u) (hr.bound z1) p2 i)) fp
      have q2 := app_mono hu (by norm_num : 0 ≤ 1) hε (app_zero (u := u) (hr.bound y) p1 i)
      have q3 := app_fl hu (app_add q2 q1) fs
      have q4 := app_mono hu (by norm_num : 1 ≤ 2) (by positivity) (app_fl hu (app_smul (by norm_num : (0 : ℝ) ≤ 2) (app_zero (u := u) (hr.bound z2) p3 i)) fq)
      have q5 := app_fl hu (app_add q3 q4) ft
      have q6 := app_mono hu (by norm_num : 0 ≤ 3) (by positivity) (app_zero (u := u) (hr.bound z3) p4 i)
      exact app_fl hu (app_add q5 q6) fk
    have s4 := upd_err hu hu1 (j := 4) (by norm_num) (by positivity : 0 ≤ dt / 6) (by positivity) (by positivity) hB t fh' h4
    simp only [stepEx, rk4, defaultUpdate, e1, ← hz1, ← hz2, ← hz3]
    refine s4.trans ?_
    have g1 := dtL σ0
    have g2 := dtL τ0
    have g3 := dtL ρ0
    have e : u * B + dt / 6 * (1.01 * ((4 : ℕ) + 3) * u * (K + 2 * K + 2 * K + K) + 1.01 * (ε + 2 * (ε + L * σ) + 2 * (ε + L * τ) + (ε + L * ρ))) =
        a + 7.07 * b + 1.01 * c + 1.01 / 6 * (2 * (dt * (L * σ)) + 2 * (dt * (L * τ)) + dt * (L * ρ)) := by rw [ha, hb, hc]; push_cast; ring
    rw [e]; linarith

/-! ## Many steps -/

theorem stepEx_lip (m : Method) (hL : 0 ≤ L) (hlip : ∀ y z, ‖f y - f z‖ ≤ L * ‖y - z‖) {dt : ℝ} (hdt : 0 ≤ dt) (hdL : dt * L ≤ 1) (y z : ι → ℝ) :
    ‖stepEx m f y dt - stepEx m f z dt‖ ≤ (1 + 2 * (dt * L)) * ‖y - z‖ := by
  obtain ⟨d, hd⟩ : ∃ d, d = ‖y - z‖ := ⟨_, rfl⟩
  have d0 : 0 ≤ d := by rw [hd]; positivity
  have e1 : (0.5 : ℝ) * dt = dt / 2 := by ring
  have upd : ∀ (k k' : ι → ℝ) (h c : ℝ), 0 ≤ h → ‖k - k'‖ ≤ c → ‖(y + h • k) - (z + h • k')‖ ≤ d + h * c := by
    intro k k' h c hh hk
    have : (y + h • k) - (z + h • k') = (y - z) + h • (k - k') := by rw [smul_sub]; abel
    rw [this]
    refine (norm_add_le _ _).trans (add_le_add hd.ge ?_)
    rw [norm_smul, Real.norm_of_nonneg hh]
    exact mul_le_mul_of_nonneg_left hk hh
  have rhs : ∀ (a b : ι → ℝ) (c : ℝ), ‖a - b‖ ≤ c → ‖f a - f b‖ ≤ L * c := fun a b c h => (hlip a b).trans (mul_le_mul_of_nonneg_left h hL)
  have q1 : ‖f y - f z‖ ≤ L * d := rhs y z d hd.ge
  have x0 : 0 ≤ dt * L := by positivity
  have x1 : (dt * L) * (dt * L) ≤ dt * L := mul_le_of_le_one_left x0 hdL
  have Ld : dt * (L * d) = dt * L * d := by ring
  have xd : dt * L * d ≤ d := mul_le_of_le_one_left d0 hdL
  have xxd : (dt * L) * (dt * L * d) ≤ dt * L * d := mul_le_of_le_one_left (by positivity) hdL
  rw [← hd]
  cases m with
  | euler =>
    simp only [stepEx, euler, defaultUpdate]
    have := upd _ _ dt _ hdt q1
    nlinarith
  | rk2 =>
    simp only [stepEx, rk2, defaultUpdate, e1]
    have q2 := rhs _ _ _ (upd _ _ (dt / 2) _ (by positivity) q1)
    have := upd _ _ dt _ hdt q2
    refine this.trans ?_
    have e : dt * (L * (d + dt / 2 * (L * d))) = dt * L * d + (dt * L) * (dt * L * d) / 2 := by ring
    rw [e]; nlinarith
  | rk3 =>
    simp only [stepEx, rk3, defaultUpdate, e1]
    obtain ⟨y1, hy1⟩ : ∃ w, w = y + (dt / 2) • f y := ⟨_, rfl⟩
    obtain ⟨z1, hz1⟩ : ∃ w, w = z + (dt / 2) • f z := ⟨_, rfl⟩
    have r1 := upd _ _ (dt / 2) _ (by positivity) q1
    rw [← hy1, ← hz1] at r1 ⊢
    have r1' : ‖y1 - z1‖ ≤ 1.5 * d := by
      refine r1.trans ?_
      have e : dt / 2 * (L * d) = dt * L * d / 2 := by ring
      rw [e]; linarith
    have q2 := rhs _ _ _ r1'
    have t1 : ‖((2 : ℝ) • f y1 - f y) - ((2 : ℝ) • f z1 - f z)‖ ≤ 4 * (L * d) := by
      have : ((2 : ℝ) • f y1 - f y) - ((2 : ℝ) • f z1 - f z) = (2 : ℝ) • (f y1 - f z1) - (f y - f z) := by rw [smul_sub]; abel
      rw [this]
      refine (norm_sub_le _ _).trans ?_
      rw [norm_smul, Real.norm_of_nonneg (by norm_num : (0 : ℝ) ≤ 2)]
      linarith
    have r2 := upd _ _ dt _ hdt t1
    obtain ⟨y2, hy2⟩ : ∃ w, w = y + dt • ((2 : ℝ) • f y1 - f y) := ⟨_, rfl⟩
    obtain ⟨z2, hz2⟩ : ∃ w, w = z + dt • ((2 : ℝ) • f z1 - f z) := ⟨_, rfl⟩
    rw [← hy2, ← hz2] at r2 ⊢
    have r2' : ‖y2 - z2‖ ≤ 5 * d := by
      refine r2.trans ?_
      have e : dt * (4 * (L * d)) = 4 * (dt * L * d) := by ring
      rw [e]; linarith
    have q3 := rhs _ _ _ r2'
    have t2 : ‖(f y + (4 : ℝ) • f y1 + f y2) - (f z + (4 : ℝ) • f z1 + f z2)‖ ≤ 12 * (L * d) := by
      have : (f y + (4 : ℝ) • f y1 + f y2) - (f z + (4 : ℝ) • f z1 + f z2) = (f y - f z) + (4 : ℝ) • (f y1 - f z1) + (f y2 - f z2) := by rw [smul_sub]; abel
      rw [this]
      refine (norm_add_le _ _).trans (le_trans (add_le_add (norm_add_le _ _) le_rfl) ?_)
      rw [norm_smul, Real.norm_of_nonneg (by norm_num : (0 : ℝ) ≤ 4)]
      linarith
    refine (upd _ _ (dt / 6) _ (by positivity) t2).trans ?_
    have e : dt / 6 * (12 * (L * d)) = 2 * (dt * L * d) := by ring
    rw [e]; linarith
  | rk4 =>
    simp only [stepEx, rk4, defaultUpdate, e1]
    obtain ⟨y1, hy1⟩ : ∃ w, w = y + (dt / 2) • f y := ⟨_, rfl⟩
    obtain ⟨z1, hz1⟩ : ∃ w, w = z + (dt / 2) • f z := ⟨_, rfl⟩
    have r1 := upd _ _ (dt / 2) _ (by positivity) q1
    rw [← hy1, ← hz1] at r1 ⊢
    have r1' : ‖y1 - z1‖ ≤ 1.5 * d := by
      refine r1.trans ?_
      have e : dt / 2 * (L * d) = dt * L * d / 2 := by ring
      rw [e]; linarith
    have q2 := rhs _ _ _ r1'
    have r2 := upd _ _ (dt / 2) _ (by positivity) q2
    obtain ⟨y2, hy2⟩ : ∃ w, w = y + (dt / 2) • f y1 := ⟨_, rfl⟩
    obtain ⟨z2, hz2⟩ : ∃ w, w = z + (dt / 2) • f z1 := ⟨_, rfl⟩
    rw [← hy2, ← hz2] at r2 ⊢
    have r2' : ‖y2 - z2‖ ≤ 1.75 * d := by
      refine r2.trans ?_
      have e : dt / 2 * (L * (1.5 * d)) = 0.75 * (dt * L * d) := by ring
      rw [e]; linarith
    have q3 := rhs _ _ _ r2'
    have r3 := upd _ _ dt _ hdt q3
    obtain ⟨y3, hy3⟩ : ∃ w, w = y + dt • f y2 := ⟨_, rfl⟩
    obtain ⟨z3, hz3⟩ : ∃ w, w = z + dt • f z2 := ⟨_, rfl⟩
    rw [← hy3, ← hz3] at r3 ⊢
    have r3' : ‖y3 - z3‖ ≤ 2.75 * d := by
      refine r3.trans ?_
      have e : dt * (L * (1.75 * d)) = 1.75 * (dt * L * d) := by ring
      rw [e]; linarith
    have q4 := rhs _ _ _ r3'
    have t2 : ‖(f y + (2 : ℝ) • f y1 + (2 : ℝ) • f y2 + f y3) - (f z + (2 : ℝ) • f z1 + (2 : ℝ) • f z2 + f z3)‖ ≤ 10.25 * (L * d) := by
      have : (f y + (2 : ℝ) • f y1 + (2 : ℝ) • f y2 + f y3) - (f z + (2 : ℝ) • f z1 + (2 : ℝ) • f z2 + f z3) =
          (f y - f z) + (2 : ℝ) • (f y1 - f z1) + (2 : ℝ) • (f y2 - f z2) + (f y3 - f z3) := by rw [smul_sub, smul_sub]; abel
      rw [this]
      refine (norm_add_le _ _).trans (le_trans (add_le_add ((norm_add_le _ _).trans (add_le_add (norm_add_le _ _) le_rfl)) le_rfl) ?_)
      rw [norm_smul, norm_smul, Real.norm_of_nonneg (by norm_num : (0 : ℝ) ≤ 2)]
      linarith
    refine (upd _ _ (dt / 6) _ (by positivity) t2).trans ?_
    have e : dt / 6 * (10.25 * (L * d)) = 10.25 / 6 * (dt * L * d) := by ring
    rw [e]
    have : 0 ≤ dt * L * d := by positivity
    linarith

/-- C108. Many steps: the states computed by any number of floating-point steps stay within `exp (2 L n dt) (‖error of the initial state‖ + 16 n (u B + dt (u K + ε)))` of the states of the exact stepper, where `B` bounds the computed states. -/
theorem c108_many_steps (m : Method) (hu : 0 ≤ u) (hu1 : u ≤ 1 / 1000) (hL : 0 ≤ L) (hε : 0 ≤ ε) (hr : Rhs f dy K L ε) {dt : ℝ} (hdt : 0 ≤ dt) (hdL : dt * L ≤ 1) (Y : ℕ → ι → ℝ) (n : ℕ) {B : ℝ} (hB : ∀ j < n, ‖Y j‖ ≤ B)
    (h : ∀ j < n, StepFl m u dy (Y j) dt (Y (j + 1))) (z : ι → ℝ) :
    ‖Y n - (fun w => stepEx m f w dt)^[n] z‖ ≤ Real.exp (2 * L * (n * dt)) * (‖Y 0 - z‖ + n * (16 * (u * B + dt * (u * K + ε)))) := by
  obtain ⟨r, hrd⟩ : ∃ r, r = 16 * (u * B + dt * (u * K + ε)) := ⟨_, rfl⟩
  obtain ⟨q, hq⟩ : ∃ q, q = 1 + 2 * (dt * L) := ⟨_, rfl⟩
  have q1 : 1 ≤ q := by rw [hq]; nlinarith [mul_nonneg hdt hL]
  rw [← hrd]
  have main : ∀ k ≤ n, ‖Y k - (fun w => stepEx m f w dt)^[k] z‖ ≤ q ^ k * (‖Y 0 - z‖ + k * r) := by
    intro k
    induction k with
    | zero => intro _; simp
    | succ k ih =>
      intro hk
      have i1 := ih (by omega)
      have i2 := c108_one_step m hu hu1 hL hε hr hdt hdL (hB k (by omega)) (h k (by omega))
      have i3 := stepEx_lip m hL hr.lip hdt hdL (Y k) ((fun w => stepEx m f w dt)^[k] z)
      rw [← hrd] at i2
      rw [← hq] at i3
      have r0 : 0 ≤ r := (norm_nonneg _).trans i2
      rw [Function.iterate_succ_apply']
      have tri := norm_sub_le_norm_sub_add_norm_sub (Y (k + 1)) (stepEx m f (Y k) dt) (stepEx m f ((fun w => stepEx m f w dt)^[k] z) dt)
      have i4 := mul_le_mul_of_nonneg_left i1 (by linarith : 0 ≤ q)
      have i5 : r ≤ q ^ (k + 1) * r := le_mul_of_one_le_left r0 (one_le_pow₀ q1)
      push_cast
      rw [pow_succ] at i5 ⊢
      nlinarith
  have hqe : q ^ n ≤ Real.exp (2 * L * (n * dt)) := by
    have h1 : q ≤ Real.exp (2 * (dt * L)) := by rw [hq]; linarith [Real.add_one_le_exp (2 * (dt * L))]
    calc q ^ n ≤ Real.exp (2 * (dt * L)) ^ n := pow_le_pow_left₀ (by linarith) h1 n
      _ = Real.exp (n * (2 * (dt * L))) := (Real.exp_nat_mul _ _).symm
      _ = Real.exp (2 * L * (n * dt)) := by congr 1; ring
  refine (main n le_rfl).trans ?_
  by_cases hn : n = 0
  · subst hn; simp
  · have r0 : 0 ≤ r := by
      rw [hrd]
      have := (norm_nonneg _).trans (hB 0 (by omega))
      have := (norm_nonneg _).trans (hr.bound (Y 0))
      positivity
    exact mul_le_mul_of_nonneg_right hqe (by positivity)

/-- The order of a stepper. -/
def Method.order : Method → ℕ
  | .euler => 1
  | .rk2 => 2
  | .rk3 => 3
  | .rk4 => 4

/-- C108. The error with respect to the solution of the differential equation, rounding included: `C dtᵖ` plus the accumulated rounding errors `16 exp (2 L T) (n u B + T (u K + ε))`: decreasing the time step stops paying off when `n u B`, which
grows like `1/dt`, dominates. -/
theorem c108_total_error (m : Method) (hL : 0 ≤ L) (hf : ContDiff ℝ m.order f) {sol : ℝ → ι → ℝ} {T : ℝ} (hsol : RkOrder.Solves f sol T) :
    ∃ C h0 : ℝ, 0 < h0 ∧ ∀ (u ε K B : ℝ) (dy : (ι → ℝ) → (ι → ℝ) → Prop), 0 ≤ u → u ≤ 1 / 1000 → 0 ≤ ε → Rhs f dy K L ε → ∀ dt, 0 ≤ dt → dt ≤ h0 → dt * L ≤ 1 →
      ∀ (Y : ℕ → ι → ℝ) (n : ℕ), n * dt ≤ T → Y 0 = sol 0 → (∀ j < n, ‖Y j‖ ≤ B) → (∀ j < n, StepFl m u dy (Y j) dt (Y (j + 1))) →
        ‖Y n - sol (n * dt)‖ ≤ C * dt ^ m.order + Real.exp (2 * L * (n * dt)) * (n * (16 * (u * B + dt * (u * K + ε)))) := by
  have hG : RkOrder.GlobalOrder (fun y dt => stepEx m f y dt) sol T m.order := by
    cases m with
    | euler => exact (RkOrder.c93_euler hf hsol).2
    | rk2 => exact (RkOrder.c93_rk2 hf hsol).2
    | rk3 => exact (RkOrder.c93_rk3 hf hsol).2
    | rk4 => exact (RkOrder.c93_rk4 hf hsol).2
  obtain ⟨C, h0, hh0, hb⟩ := hG
  refine ⟨C, h0, hh0, fun u ε K B dy hu hu1 hε hr dt hdt hdt0 hdL Y n hn hY0 hB hY => ?_⟩
  have h1 := hb dt hdt hdt0 n hn
  have h2 := c108_many_steps m hu hu1 hL hε hr hdt hdL Y n hB hY (sol 0)
  rw [hY0, sub_self, norm_zero, zero_add] at h2
  have := norm_sub_le_norm_sub_add_norm_sub (Y n) ((fun w => stepEx m f w dt)^[n] (sol 0)) (sol (n * dt))
  linarith

/-- C108. The exact step is one of the possible floating-point steps. -/
theorem c108_exact_step (m : Method) (hu : 0 ≤ u) (f : (ι → ℝ) → (ι → ℝ)) (y : ι → ℝ) (dt : ℝ) : StepFl m u (fun y k => k = f y) y dt (stepEx m f y dt) := by
  have hupd : ∀ (y k : ι → ℝ) (h : ℝ), UpdFl u y k h (y + h • k) := fun y k h i => by
    refine ⟨k i * h, fl_exact hu _, ?_⟩
    have : (y + h • k) i = y i + k i * h := by simp [mul_comm]
    rw [this]
    exact fl_exact hu _
  cases m with
  | euler => exact ⟨_, rfl, hupd _ _ _⟩
  | rk2 => exact ⟨_, _, _, _, rfl, fl_exact hu _, hupd _ _ _, rfl, hupd _ _ _⟩
  | rk3 =>
    exact ⟨_, _, _, _, _, _, _, _, _, rfl, fl_exact hu _, hupd _ _ _, rfl, fun i => ⟨_, fl_exact hu _, fl_exact hu _⟩, hupd _ _ _, rfl,
      fun i => ⟨_, _, fl_exact hu _, fl_exact hu _, fl_exact hu _⟩, fl_exact hu _, hupd _ _ _⟩
  | rk4 =>
    exact ⟨_, _, _, _, _, _, _, _, _, _, _, rfl, fl_exact hu _, hupd _ _ _, rfl, fl_exact hu _, hupd _ _ _, rfl, hupd _ _ _, rfl,
      fun i => ⟨_, _, _, _, fl_exact hu _, fl_exact hu _, fl_exact hu _, fl_exact hu _, fl_exact hu _⟩, fl_exact hu _, hupd _ _ _⟩

/-- A right-hand side that meets the hypotheses: `sin` of each component, evaluated with an error of up to `1e-16`, and a step that differs from the exact one. -/
example : Rhs (fun (y : Fin 2 → ℝ) i => Real.sin (y i)) (fun y k => ∀ i, |k i - Real.sin (y i)| ≤ 1e-16) 1 1 1e-16 ∧
    StepFl .euler (1 / 1000) (fun (y k : Fin 2 → ℝ) => ∀ i, |k i - Real.sin (y i)| ≤ 1e-16) (fun _ => 1) 0 (fun _ => 1.001) := by
  refine ⟨⟨fun y => ?_, fun y z => ?_, fun y k h => ?_⟩, fun i => Real.sin 1, fun i => by norm_num, fun i => ⟨0, ⟨0, by norm_num, by ring⟩, ⟨1 / 1000, by rw [abs_of_pos (by norm_num)], by norm_num⟩⟩⟩
  · exact (pi_norm_le_iff_of_nonneg (by norm_num)).2 fun i => Real.abs_sin_le_one _
  · refine (pi_norm_le_iff_of_nonneg (by positivity)).2 fun i => ?_
    have h1 : |Real.sin (y i) - Real.sin (z i)| ≤ |y i - z i| := by
      have := Convex.norm_image_sub_le_of_norm_deriv_le (f := Real.sin) (C := 1) (s := Set.univ) (x := z i) (y := y i) (fun x _ => Real.differentiableAt_sin)
        (fun x _ => by rw [Real.deriv_sin]; exact Real.abs_cos_le_one x) convex_univ trivial trivial
      simpa using this
    have h2 : |y i - z i| ≤ ‖y - z‖ := norm_le_pi_norm (y - z) i
    simp only [Pi.sub_apply, Real.norm_eq_abs, one_mul]
    exact h1.trans h2
  · exact (pi_norm_le_iff_of_nonneg (by norm_num)).2 fun i => h i

end Verif.FloatRk
