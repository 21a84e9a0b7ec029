import Verif.Model.Timestepper
import Verif.Props.RkExpansion
import Mathlib.Analysis.Calculus.Deriv.Pow
import Mathlib.Analysis.Calculus.Deriv.Inv
import Mathlib.Analysis.Calculus.Deriv.Shift
import Mathlib.Analysis.SpecialFunctions.Exp
import Mathlib.Tactic.Linarith
import Mathlib.Tactic.Module

/-!
# C93: order of convergence of the time steppers for nonlinear equations
-/

open Filter Asymptotics Topology

namespace Verif.RkOrder

open Verif.Timestepper Verif.Taylor

variable {E : Type*} [NormedAddCommGroup E] [NormedSpace ℝ E]

/-! ## The expansion of the exact solution -/

/-- Pairs (step, starting time) such that the step stays in `[0, T]`. -/
def reg (T : ℝ) : Set (ℝ × ℝ) := {p | 0 ≤ p.1 ∧ 0 ≤ p.2 ∧ p.1 + p.2 ≤ T}

/-- Small steps, uniformly in the starting time. -/
def lf (T : ℝ) : Filter (ℝ × ℝ) := comap Prod.fst (𝓝 0) ⊓ 𝓟 (reg T)

theorem lf_tendsto (T : ℝ) : Tendsto Prod.fst (lf T) (𝓝 0) := tendsto_comap.mono_left inf_le_left

/-- What `O` means along this filter. -/
theorem O_lf {F : Type*} [NormedAddCommGroup F] {T : ℝ} {n : ℕ} {u : ℝ × ℝ → F} :
    O (lf T) Prod.fst n u ↔ ∃ K r : ℝ, 0 ≤ K ∧ 0 < r ∧ ∀ h s, 0 ≤ h → h ≤ r → 0 ≤ s → h + s ≤ T → ‖u (h, s)‖ ≤ K * h ^ n := by
  constructor
  · intro hu
    obtain ⟨c, hc⟩ := IsBigO.bound hu
    unfold lf at hc
    rw [eventually_inf_principal, eventually_comap, Metric.eventually_nhds_iff] at hc
    obtain ⟨ε, hε, hc⟩ := hc
    refine ⟨|c|, ε / 2, abs_nonneg c, by positivity, fun h s h0 h1 s0 hs => ?_⟩
    have := hc (y := h) (by rw [Real.dist_eq, sub_zero, abs_of_nonneg h0]; linarith) (h, s) rfl ⟨h0, s0, hs⟩
    refine this.trans ?_
    rw [norm_pow, Real.norm_of_nonneg h0]
    exact mul_le_mul_of_nonneg_right (le_abs_self c) (by positivity)
  · rintro ⟨K, r, _, hr, hb⟩
    refine IsBigO.of_bound K ?_
    unfold lf
    rw [eventually_inf_principal, eventually_comap, Metric.eventually_nhds_iff]
    refine ⟨r, hr, fun y hy p hp hreg => ?_⟩
    obtain ⟨h, s⟩ := p
    simp only at hp
    subst hp
    obtain ⟨h0, s0, hs⟩ := hreg
    simp only at h0 s0 hs
    rw [Real.dist_eq, sub_zero, abs_of_nonneg h0] at hy
    rw [norm_pow, Real.norm_of_nonneg h0]
    exact hb h s h0 hy.le s0 hs

/-- Integration of an estimate. -/
theorem integrate {T : ℝ} {n : ℕ} {G d : ℝ × ℝ → E} (h0 : ∀ s, G (0, s) = 0)
    (hG : ∀ p ∈ reg T, HasDerivAt (fun x => G (x, p.2)) (d p) p.1) (hd : O (lf T) Prod.fst n d) : O (lf T) Prod.fst (n + 1) G := by
  rw [O_lf] at hd ⊢
  obtain ⟨K, r, hK, hr, hb⟩ := hd
  refine ⟨K, r, hK, hr, fun h s hh hhr hs hT => ?_⟩
  have := norm_image_sub_le_of_norm_deriv_le_segment' (f := fun x => G (x, s)) (f' := fun x => d (x, s)) (C := K * h ^ n) (a := 0) (b := h)
    (fun x hx => (hG (x, s) ⟨hx.1, hs, by simp only; linarith [hx.2]⟩).hasDerivWithinAt)
    (fun x hx => (hb x s hx.1 (hx.2.le.trans hhr) hs (by linarith [hx.2])).trans
      (mul_le_mul_of_nonneg_left (pow_le_pow_left₀ hx.1 hx.2.le n) hK)) h ⟨hh, le_rfl⟩
  simp only [h0, sub_zero] at this
  rw [pow_succ, ← mul_assoc]
  exact this

/-- The increment of the exact solution over a step. -/
def incr (y : ℝ → E) (p : ℝ × ℝ) : E := y (p.1 + p.2) - y p.2

/-- One bootstrap step: an expansion of the increment to order `n` gives one to order `n + 1`. -/
theorem exact_step {T : ℝ} {f : E → E} {y : ℝ → E} {A : ℝ → Lin E E} {B : ℝ → Lin E (Lin E E)} {C : ℝ → Lin E (Lin E (Lin E E))} {n : ℕ} (hy : ∀ t, 0 ≤ t → t ≤ T → HasDerivAt y (f (y t)) t)
    (hT : Tay (lf T) Prod.fst f (fun p => y p.2) (fun p => A p.2) (fun p => B p.2) (fun p => C p.2) n) (h1 : 1 ≤ n) (h4 : n ≤ 4) {a b c : ℝ → E}
    (ha : O (lf T) Prod.fst 0 fun p => a p.2) (hb : O (lf T) Prod.fst 0 fun p => b p.2) (hc : O (lf T) Prod.fst 0 fun p => c p.2)
    (hD : O (lf T) Prod.fst n fun p => incr y p - (p.1 • a p.2 + p.1 ^ 2 • b p.2 + p.1 ^ 3 • c p.2)) :
    O (lf T) Prod.fst (n + 1) fun p => incr y p - (p.1 • f (y p.2) + p.1 ^ 2 • (1 / 2 : ℝ) • A p.2 (a p.2) +
      p.1 ^ 3 • (1 / 3 : ℝ) • (A p.2 (b p.2) + (1 / 2 : ℝ) • B p.2 (a p.2) (a p.2)) +
      p.1 ^ 4 • (1 / 4 : ℝ) • (A p.2 (c p.2) + (1 / 2 : ℝ) • (B p.2 (a p.2) (b p.2) + B p.2 (b p.2) (a p.2)) + (1 / 6 : ℝ) • C p.2 (a p.2) (a p.2) (a p.2))) := by
  have hcomp := hT.comp h1 h4 ha hb hc hD
  refine integrate ?_ ?_ hcomp
  · intro s
    simp [incr]
  · rintro ⟨x, s⟩ ⟨hx, hs, hxs⟩
    simp only at hx hs hxs ⊢
    have hY : HasDerivAt (fun x => incr y (x, s)) (f (y s + incr y (x, s))) x := by
      have e : y s + incr y (x, s) = y (x + s) := by simp [incr]
      rw [e]
      exact ((hy (x + s) (by linarith) hxs).comp_add_const x s).sub_const (y s)
    have hp : ∀ (k : ℕ) (v : E), HasDerivAt (fun x : ℝ => x ^ (k + 1) • (1 / (k + 1 : ℝ)) • v) (x ^ k • v) x := by
      intro k v
      have := (hasDerivAt_pow (k + 1) x).smul_const ((1 / (k + 1 : ℝ)) • v)
      refine this.congr_deriv ?_
      rw [smul_smul]
      congr 1
      push_cast
      have : (k + 1 : ℝ) ≠ 0 := by positivity
      field_simp
    have p1 := (hasDerivAt_id x).smul_const (f (y s))
    have p2 := hp 1 (A s (a s))
    have p3 := hp 2 (A s (b s) + (1 / 2 : ℝ) • B s (a s) (a s))
    have p4 := hp 3 (A s (c s) + (1 / 2 : ℝ) • (B s (a s) (b s) + B s (b s) (a s)) + (1 / 6 : ℝ) • C s (a s) (a s) (a s))
    norm_num at p2 p3 p4
    have := hY.sub (((p1.add p2).add p3).add p4)
    norm_num
    refine (this.congr_deriv ?_).congr_of_eventuallyEq (Eventually.of_forall fun z => ?_)
    · module
    · simp

/-! ## Taylor expansions along a solution -/

theorem bounded_along {F : Type*} [NormedAddCommGroup F] {T : ℝ} {y : ℝ → E} {g : E → F} (hg : Continuous g) (hy : ∀ t, 0 ≤ t → t ≤ T → ContinuousAt y t) :
    O (lf T) Prod.fst 0 fun p : ℝ × ℝ => g (y p.2) := by
  have hc : ContinuousOn (fun t => g (y t)) (Set.Icc 0 T) := fun t ht => (hg.continuousAt.comp (hy t ht.1 ht.2)).continuousWithinAt
  obtain ⟨K, hK⟩ := isCompact_Icc.exists_bound_of_continuousOn hc
  rw [O_lf]
  refine ⟨|K|, 1, abs_nonneg K, one_pos, fun h s h0 _ s0 hs => ?_⟩
  rw [pow_zero, mul_one]
  exact (hK s ⟨s0, by linarith⟩).trans (le_abs_self K)

theorem tay_mk {T : ℝ} {f : E → E} {y : ℝ → E} {A : E → Lin E E} {B : E → Lin E (Lin E E)} {C : E → Lin E (Lin E (Lin E E))} {n : ℕ}
    (hf : Continuous f) (hA : Continuous A) (hB : Continuous B) (hC : Continuous C) (hy : ∀ t, 0 ≤ t → t ≤ T → ContinuousAt y t)
    (hb : ∃ r K : ℝ, 0 < r ∧ 0 ≤ K ∧ ∀ z ∈ y '' Set.Icc 0 T, ∀ x, ‖x‖ ≤ r →
      ‖f (z + x) - (f z + A z x + (1 / 2 : ℝ) • B z x x + (1 / 6 : ℝ) • C z x x x)‖ ≤ K * ‖x‖ ^ n) :
    Tay (lf T) Prod.fst f (fun p => y p.2) (fun p => A (y p.2)) (fun p => B (y p.2)) (fun p => C (y p.2)) n := by
  refine ⟨lf_tendsto T, bounded_along hf hy, bounded_along hA hy, bounded_along hB hy, bounded_along hC hy, fun D hD => ?_⟩
  obtain ⟨r, K, hr, hK, hb⟩ := hb
  rw [O_lf] at hD ⊢
  obtain ⟨K1, r1, hK1, hr1, hD⟩ := hD
  refine ⟨K * K1 ^ n, min r1 (r / (K1 + 1)), by positivity, by positivity, fun h s h0 h1 s0 hs => ?_⟩
  have hDh := hD h s h0 (h1.trans (min_le_left _ _)) s0 hs
  rw [pow_one] at hDh
  have hx : ‖D (h, s)‖ ≤ r := by
    have h2 : h ≤ r / (K1 + 1) := h1.trans (min_le_right _ _)
    have h3 : (K1 + 1) * h ≤ r := by
      rw [le_div_iff₀ (by positivity)] at h2
      linarith
    linarith
  refine (hb (y s) ⟨s, ⟨s0, by linarith⟩, rfl⟩ _ hx).trans ?_
  rw [mul_assoc, ← mul_pow]
  exact mul_le_mul_of_nonneg_left (pow_le_pow_left₀ (norm_nonneg _) hDh n) hK

section contDiff

variable {T : ℝ} {f : E → E} {y : ℝ → E}

theorem compact_along (hy : ∀ t, 0 ≤ t → t ≤ T → ContinuousAt y t) : IsCompact (y '' Set.Icc 0 T) :=
  isCompact_Icc.image_of_continuousOn fun t ht => (hy t ht.1 ht.2).continuousWithinAt

theorem tay1 (hf : ContDiff ℝ 1 f) (hy : ∀ t, 0 ≤ t → t ≤ T → ContinuousAt y t) :
    Tay (lf T) Prod.fst f (fun p => y p.2) (fun _ => 0) (fun _ => 0) (fun _ => 0) 1 := by
  refine tay_mk (A := fun _ => 0) (B := fun _ => 0) (C := fun _ => 0) hf.continuous continuous_const continuous_const continuous_const hy ?_
  obtain ⟨r, K, hr, hK, hb⟩ := bounded_near (hf.continuous_fderiv (by norm_num)) (compact_along hy)
  refine ⟨r, K, hr, hK, fun z hz x hx => ?_⟩
  have := taylor1 hf hK (hb z hz) x hx
  simpa using this

theorem tay2 (hf : ContDiff ℝ 2 f) (hy : ∀ t, 0 ≤ t → t ≤ T → ContinuousAt y t) :
    Tay (lf T) Prod.fst f (fun p => y p.2) (fun p => D f (y p.2)) (fun _ => 0) (fun _ => 0) 2 := by
  have h1 : ContDiff ℝ 1 (D f) := hf.fderiv_right (by norm_num)
  refine tay_mk (A := D f) (B := fun _ => 0) (C := fun _ => 0) hf.continuous h1.continuous continuous_const continuous_const hy ?_
  obtain ⟨r, K, hr, hK, hb⟩ := bounded_near (h1.continuous_fderiv (by norm_num)) (compact_along hy)
  refine ⟨r, K, hr, hK, fun z hz x hx => ?_⟩
  have := taylor2 hf hK (hb z hz) x hx
  simpa using this

theorem tay3 (hf : ContDiff ℝ 3 f) (hy : ∀ t, 0 ≤ t → t ≤ T → ContinuousAt y t) :
    Tay (lf T) Prod.fst f (fun p => y p.2) (fun p => D f (y p.2)) (fun p => D (D f) (y p.2)) (fun _ => 0) 3 := by
  have h1 : ContDiff ℝ 2 (D f) := hf.fderiv_right (by norm_num)
  have h2 : ContDiff ℝ 1 (D (D f)) := h1.fderiv_right (by norm_num)
  refine tay_mk (A := D f) (B := D (D f)) (C := fun _ => 0) hf.continuous h1.continuous h2.continuous continuous_const hy ?_
  obtain ⟨r, K, hr, hK, hb⟩ := bounded_near (h2.continuous_fderiv (by norm_num)) (compact_along hy)
  refine ⟨r, K, hr, hK, fun z hz x hx => ?_⟩
  have := taylor3 hf hK (hb z hz) x hx
  simpa using this

theorem tay4 (hf : ContDiff ℝ 4 f) (hy : ∀ t, 0 ≤ t → t ≤ T → ContinuousAt y t) :
    Tay (lf T) Prod.fst f (fun p => y p.2) (fun p => D f (y p.2)) (fun p => D (D f) (y p.2)) (fun p => D (D (D f)) (y p.2)) 4 := by
  have h1 : ContDiff ℝ 3 (D f) := hf.fderiv_right (by norm_num)
  have h2 : ContDiff ℝ 2 (D (D f)) := h1.fderiv_right (by norm_num)
  have h3 : ContDiff ℝ 1 (D (D (D f))) := h2.fderiv_right (by norm_num)
  refine tay_mk (A := D f) (B := D (D f)) (C := D (D (D f))) hf.continuous h1.continuous h2.continuous h3.continuous hy ?_
  obtain ⟨r, K, hr, hK, hb⟩ := bounded_near (h3.continuous_fderiv (by norm_num)) (compact_along hy)
  exact ⟨r, K, hr, hK, fun z hz x hx => taylor4 hf hK (hb z hz) x hx⟩

end contDiff

/-! ## The exact solution to order five -/

section exact

variable {T : ℝ} {f : E → E} {y : ℝ → E} {A : ℝ → Lin E E} {B : ℝ → Lin E (Lin E E)} {C : ℝ → Lin E (Lin E (Lin E E))} {n : ℕ}

theorem exact1 (hy : ∀ t, 0 ≤ t → t ≤ T → HasDerivAt y (f (y t)) t) (hf : Continuous f) : O (lf T) Prod.fst 1 (incr y) := by
  have hc : ∀ t, 0 ≤ t → t ≤ T → ContinuousAt y t := fun t h0 h1 => (hy t h0 h1).continuousAt
  refine integrate (n := 0) (d := fun p => f (y (p.1 + p.2))) ?_ ?_ ?_
  · intro s; simp [incr]
  · rintro ⟨x, s⟩ ⟨hx, hs, hxs⟩
    simp only at hx hs hxs ⊢
    exact ((hy (x + s) (by linarith) hxs).comp_add_const x s).sub_const (y s)
  · have := bounded_along (T := T) (y := y) hf hc
    rw [O_lf] at this ⊢
    obtain ⟨K, r, hK, _, hb⟩ := this
    refine ⟨K, r, hK, ‹0 < r›, fun h s h0 _ s0 hs => ?_⟩
    have := hb 0 (h + s) le_rfl ‹0 < r›.le (by linarith) (by linarith)
    simpa using this

variable (hy : ∀ t, 0 ≤ t → t ≤ T → HasDerivAt y (f (y t)) t) (hf : Continuous f)
include hy hf

theorem exact2 (hT : Tay (lf T) Prod.fst f (fun p => y p.2) (fun p => A p.2) (fun p => B p.2) (fun p => C p.2) n) (hn : 1 ≤ n) :
    O (lf T) Prod.fst 2 fun p => incr y p - p.1 • f (y p.2) := by
  have h0 : O (lf T) Prod.fst 0 fun _ : ℝ × ℝ => (0 : E) := isBigO_zero _ _
  have := exact_step hy (hT.of_le hn) le_rfl (by norm_num) (a := fun _ => 0) (b := fun _ => 0) (c := fun _ => 0) h0 h0 h0 (by simpa using exact1 hy hf)
  simpa using this

theorem exact3 (hT : Tay (lf T) Prod.fst f (fun p => y p.2) (fun p => A p.2) (fun p => B p.2) (fun p => C p.2) n) (hn : 2 ≤ n) :
    O (lf T) Prod.fst 3 fun p => incr y p - (p.1 • f (y p.2) + p.1 ^ 2 • (1 / 2 : ℝ) • A p.2 (f (y p.2))) := by
  have h0 : O (lf T) Prod.fst 0 fun _ : ℝ × ℝ => (0 : E) := isBigO_zero _ _
  have h := exact_step hy (hT.of_le hn) (by norm_num) (by norm_num) (a := fun s => f (y s)) (b := fun _ => 0) (c := fun _ => 0) hT.f0 h0 h0
    (by simpa using exact2 hy hf hT (by omega))
  have h3 := (((hT.bB.app hT.f0).app hT.f0).csmul (1 / 2)).csmul (1 / 3) |>.hsmul 3
  have h4 := ((((hT.bC.app hT.f0).app hT.f0).app hT.f0).csmul (1 / 6)).csmul (1 / 4) |>.hsmul 4
  refine IsBigO.congr_left ((h.add (h3.mono (n := 3) hT.ht (by norm_num))).add (h4.mono (n := 3) hT.ht (by norm_num))) fun p => ?_
  simp only [map_zero, zero_apply]
  module

theorem exact4 (hT : Tay (lf T) Prod.fst f (fun p => y p.2) (fun p => A p.2) (fun p => B p.2) (fun p => C p.2) n) (hn : 3 ≤ n) :
    O (lf T) Prod.fst 4 fun p => incr y p - (p.1 • f (y p.2) + p.1 ^ 2 • (1 / 2 : ℝ) • A p.2 (f (y p.2)) +
      p.1 ^ 3 • (1 / 6 : ℝ) • (A p.2 (A p.2 (f (y p.2))) + B p.2 (f (y p.2)) (f (y p.2)))) := by
  have h0 : O (lf T) Prod.fst 0 fun _ : ℝ × ℝ => (0 : E) := isBigO_zero _ _
  have hAf := (hT.bA.app hT.f0).csmul (1 / 2)
  have h := exact_step hy (hT.of_le hn) (by norm_num) (by norm_num) (a := fun s => f (y s)) (b := fun s => (1 / 2 : ℝ) • A s (f (y s))) (c := fun _ => 0) hT.f0 hAf h0
    (by simpa using exact3 hy hf hT (by omega))
  have h4 := ((((hT.bB.app hT.f0).app hAf).add ((hT.bB.app hAf).app hT.f0)).csmul (1 / 2)).csmul (1 / 4) |>.hsmul 4
  have h5 := ((((hT.bC.app hT.f0).app hT.f0).app hT.f0).csmul (1 / 6)).csmul (1 / 4) |>.hsmul 4
  refine IsBigO.congr_left ((h.add (h4.mono (n := 4) hT.ht (by norm_num))).add (h5.mono (n := 4) hT.ht (by norm_num))) fun p => ?_
  simp only [map_zero, zero_apply, map_smul, smul_apply]
  module

theorem exact5 (hT : Tay (lf T) Prod.fst f (fun p => y p.2) (fun p => A p.2) (fun p => B p.2) (fun p => C p.2) 4) :
    O (lf T) Prod.fst 5 fun p => incr y p - (p.1 • f (y p.2) + p.1 ^ 2 • (1 / 2 : ℝ) • A p.2 (f (y p.2)) +
      p.1 ^ 3 • (1 / 6 : ℝ) • (A p.2 (A p.2 (f (y p.2))) + B p.2 (f (y p.2)) (f (y p.2))) +
      p.1 ^ 4 • (1 / 24 : ℝ) • (A p.2 (A p.2 (A p.2 (f (y p.2)))) + A p.2 (B p.2 (f (y p.2)) (f (y p.2))) +
        (3 / 2 : ℝ) • (B p.2 (f (y p.2)) (A p.2 (f (y p.2))) + B p.2 (A p.2 (f (y p.2))) (f (y p.2))) + C p.2 (f (y p.2)) (f (y p.2)) (f (y p.2)))) := by
  have hAf := (hT.bA.app hT.f0).csmul (1 / 2)
  have hc := ((hT.bA.app (hT.bA.app hT.f0)).add ((hT.bB.app hT.f0).app hT.f0)).csmul (1 / 6)
  have h := exact_step hy hT (by norm_num) (by norm_num) (a := fun s => f (y s)) (b := fun s => (1 / 2 : ℝ) • A s (f (y s)))
    (c := fun s => (1 / 6 : ℝ) • (A s (A s (f (y s))) + B s (f (y s)) (f (y s)))) hT.f0 hAf hc (exact4 hy hf hT (by omega))
  refine IsBigO.congr_left h fun p => ?_
  simp only [map_add, map_smul, add_apply, smul_apply]
  module

end exact

/-! ## Expansions of the steppers -/

section steppers

variable {T : ℝ} {f : E → E} {y : ℝ → E} {A : ℝ → Lin E E} {B : ℝ → Lin E (Lin E E)} {C : ℝ → Lin E (Lin E (Lin E E))}

theorem euler_O (hy : ∀ t, 0 ≤ t → t ≤ T → HasDerivAt y (f (y t)) t) (hf : ContDiff ℝ 1 f) :
    O (lf T) Prod.fst 2 fun p => euler defaultUpdate f (y p.2) p.1 - y (p.1 + p.2) := by
  have hT := tay1 hf fun t h0 h1 => (hy t h0 h1).continuousAt
  have h := exact2 (A := fun _ => 0) (B := fun _ => 0) (C := fun _ => 0) hy hf.continuous hT le_rfl
  refine IsBigO.congr_left (h.csmul (-1)) fun p => ?_
  simp only [euler, defaultUpdate, incr]
  module

theorem rk2_O (hy : ∀ t, 0 ≤ t → t ≤ T → HasDerivAt y (f (y t)) t) (hf : ContDiff ℝ 2 f) :
    O (lf T) Prod.fst 3 fun p => rk2 defaultUpdate f (y p.2) p.1 - y (p.1 + p.2) := by
  have hT := tay2 hf fun t h0 h1 => (hy t h0 h1).continuousAt
  have h := exact3 (A := fun s => D f (y s)) (B := fun _ => 0) (C := fun _ => 0) hy hf.continuous hT le_rfl
  have h0 : O (lf T) Prod.fst 0 fun _ : ℝ × ℝ => (0 : E) := isBigO_zero _ _
  have hz : ∀ n, O (lf T) Prod.fst n fun _ : ℝ × ℝ => (0 : E) := fun n => isBigO_zero _ _
  have k2 := hT.comp (by norm_num) (by norm_num) (a := fun p => (1 / 2 : ℝ) • f (y p.2)) (b := fun _ => 0) (c := fun _ => 0) (hT.f0.csmul _) h0 h0
    (D := fun p => (0.5 * p.1) • f (y p.2)) (by
      refine IsBigO.congr_left (hz 2) fun p => ?_
      norm_num
      module)
  have k2' := k2.hsmul 1
  refine IsBigO.congr_left (k2'.sub h) fun p => ?_
  simp only [rk2, defaultUpdate, incr, map_zero, map_smul, zero_apply, smul_apply]
  module

theorem rk3_O (hy : ∀ t, 0 ≤ t → t ≤ T → HasDerivAt y (f (y t)) t) (hf : ContDiff ℝ 3 f) :
    O (lf T) Prod.fst 4 fun p => rk3 defaultUpdate f (y p.2) p.1 - y (p.1 + p.2) := by
  have hT := tay3 hf fun t h0 h1 => (hy t h0 h1).continuousAt
  have h := exact4 (A := fun s => D f (y s)) (B := fun s => D (D f) (y s)) (C := fun _ => 0) hy hf.continuous hT le_rfl
  have hz : ∀ n, O (lf T) Prod.fst n fun _ : ℝ × ℝ => (0 : E) := fun n => isBigO_zero _ _
  have k2 := hT.comp (by norm_num) (by norm_num) (a := fun p => (1 / 2 : ℝ) • f (y p.2)) (b := fun _ => 0) (c := fun _ => 0) (hT.f0.csmul _) (hz 0) (hz 0)
    (D := fun p => (0.5 * p.1) • f (y p.2)) (by
      refine IsBigO.congr_left (hz 3) fun p => ?_
      norm_num
      module)
  obtain ⟨k, hk⟩ : ∃ k : ℝ × ℝ → E, k = fun p => f (y p.2 + (0.5 * p.1) • f (y p.2)) := ⟨_, rfl⟩
  have hke : ∀ p, f (y p.2 + (0.5 * p.1) • f (y p.2)) = k p := fun p => by rw [hk]
  simp only [hke] at k2
  have hAf := hT.bA.app hT.f0
  have hBff := (hT.bB.app hT.f0).app hT.f0
  have k3 := hT.comp (by norm_num) (by norm_num) (a := fun p => f (y p.2)) (b := fun p => D f (y p.2) (f (y p.2)))
    (c := fun p => (1 / 4 : ℝ) • D (D f) (y p.2) (f (y p.2)) (f (y p.2))) hT.f0 hAf (hBff.csmul _)
    (D := fun p => p.1 • ((2 : ℝ) • k p - f (y p.2))) (by
      have hcub := (((hT.bB.app (hT.f0.csmul (1 / 2))).app (hz 0)).add ((hT.bB.app (hz 0)).app (hT.f0.csmul (1 / 2)))).csmul (1 / 2)
      refine IsBigO.congr_left (((k2.hsmul 1).csmul 2).mono (n := 3) hT.ht (by norm_num)) fun p => ?_
      simp only [map_zero, map_smul, zero_apply, smul_apply]
      module)
  have hf' := ((k2.csmul 4).add k3).csmul (1 / 6) |>.hsmul 1
  have hrest : O (lf T) Prod.fst 4 fun p : ℝ × ℝ => p.1 ^ 4 • ((1 / 6 : ℝ) • (D f (y p.2) ((1 / 4 : ℝ) • D (D f) (y p.2) (f (y p.2)) (f (y p.2))) +
      (1 / 2 : ℝ) • (D (D f) (y p.2) (f (y p.2)) (D f (y p.2) (f (y p.2))) + D (D f) (y p.2) (D f (y p.2) (f (y p.2))) (f (y p.2))))) := by
    have := (((hT.bA.app (hBff.csmul (1 / 4))).add ((((hT.bB.app hT.f0).app hAf).add ((hT.bB.app hAf).app hT.f0)).csmul (1 / 2))).csmul (1 / 6)).hsmul 4
    simpa using this
  refine IsBigO.congr_left ((hf'.add hrest).sub h) fun p => ?_
  simp only [rk3, defaultUpdate, incr, map_zero, map_smul, zero_apply, smul_apply, hke]
  module

set_option maxHeartbeats 4000000 in
theorem rk4_O (hy : ∀ t, 0 ≤ t → t ≤ T → HasDerivAt y (f (y t)) t) (hf : ContDiff ℝ 4 f) :
    O (lf T) Prod.fst 5 fun p => rk4 defaultUpdate f (y p.2) p.1 - y (p.1 + p.2) := by
  have hT := tay4 hf fun t h0 h1 => (hy t h0 h1).continuousAt
  have h := exact5 (A := fun s => D f (y s)) (B := fun s => D (D f) (y s)) (C := fun s => D (D (D f)) (y s)) hy hf.continuous hT
  have hz : ∀ n, O (lf T) Prod.fst n fun _ : ℝ × ℝ => (0 : E) := fun n => isBigO_zero _ _
  have hAf := hT.bA.app hT.f0
  have hBff := (hT.bB.app hT.f0).app hT.f0
  have hAAf := hT.bA.app hAf
  have k2 := hT.comp (by norm_num) (by norm_num) (a := fun p => (1 / 2 : ℝ) • f (y p.2)) (b := fun _ => 0) (c := fun _ => 0) (hT.f0.csmul _) (hz 0) (hz 0)
    (D := fun p => (0.5 * p.1) • f (y p.2)) (by
      refine IsBigO.congr_left (hz 4) fun p => ?_
      norm_num
      module)
  obtain ⟨κ2, hk⟩ : ∃ k : ℝ × ℝ → E, k = fun p => f (y p.2 + (0.5 * p.1) • f (y p.2)) := ⟨_, rfl⟩
  have hk2 : ∀ p, f (y p.2 + (0.5 * p.1) • f (y p.2)) = κ2 p := fun p => by rw [hk]
  simp only [hk2] at k2
  have c3 := (((hT.bC.app hT.f0).app hT.f0).app hT.f0)
  have k3 := hT.comp (by norm_num) (by norm_num) (a := fun p => (1 / 2 : ℝ) • f (y p.2)) (b := fun p => (1 / 4 : ℝ) • D f (y p.2) (f (y p.2)))
    (c := fun p => (1 / 16 : ℝ) • D (D f) (y p.2) (f (y p.2)) (f (y p.2))) (hT.f0.csmul _) (hAf.csmul _) (hBff.csmul _)
    (D := fun p => (0.5 * p.1) • κ2 p) (by
      have hr := (c3.csmul (1 / 96)).hsmul 4
      refine IsBigO.congr_left ((((k2.hsmul 1).csmul (1 / 2)).mono (n := 4) hT.ht (by norm_num)).add (hr.mono (n := 4) hT.ht (by norm_num))) fun p => ?_
      have e5 : (0.5 : ℝ) = 1 / 2 := by norm_num
      simp only [map_zero, map_smul, zero_apply, smul_apply, e5]
      module)
  obtain ⟨κ3, hk⟩ : ∃ k : ℝ × ℝ → E, k = fun p => f (y p.2 + (0.5 * p.1) • κ2 p) := ⟨_, rfl⟩
  have hk3 : ∀ p, f (y p.2 + (0.5 * p.1) • κ2 p) = κ3 p := fun p => by rw [hk]
  simp only [hk3] at k3
  have hBA := ((hT.bB.app hT.f0).app hAf).add ((hT.bB.app hAf).app hT.f0)
  have hAB := hT.bA.app hBff
  have k4 := hT.comp (by norm_num) (by norm_num) (a := fun p => f (y p.2)) (b := fun p => (1 / 2 : ℝ) • D f (y p.2) (f (y p.2)))
    (c := fun p => (1 / 4 : ℝ) • D f (y p.2) (D f (y p.2) (f (y p.2))) + (1 / 8 : ℝ) • D (D f) (y p.2) (f (y p.2)) (f (y p.2)))
    hT.f0 (hAf.csmul _) ((hAAf.csmul _).add (hBff.csmul _))
    (D := fun p => p.1 • κ3 p) (by
      have hr := (((hAB.csmul (1 / 16)).add (hBA.csmul (1 / 16))).add (c3.csmul (1 / 48))).hsmul 4
      refine IsBigO.congr_left (((k3.hsmul 1).mono (n := 4) hT.ht (by norm_num)).add (hr.mono (n := 4) hT.ht (by norm_num))) fun p => ?_
      simp only [map_smul, smul_apply]
      module)
  have hf' := (((k2.csmul 2).add (k3.csmul 2)).add k4).csmul (1 / 6) |>.hsmul 1
  refine IsBigO.congr_left (hf'.sub h) fun p => ?_
  simp only [rk4, defaultUpdate, incr, map_zero, map_add, map_smul, zero_apply, add_apply, smul_apply, hk2, hk3]
  module

end steppers

/-! ## Stability -/

/-- A constant for all steppers. -/
noncomputable def lam (L : ℝ) : ℝ := 2 * L * (1 + L) ^ 3

/-- Near a ball on which `f` is bounded and Lipschitz, one step of `Φ` is Lipschitz with constant `1 + h Λ`. -/
def StepLip (f : E → E) (Φ : E → ℝ → E) : Prop :=
  ∀ (c : E) (r L M h : ℝ), 0 ≤ L → 0 ≤ h → h ≤ 1 → h * (3 * M) ≤ r / 2 →
    (∀ u, ‖u - c‖ ≤ r → ∀ v, ‖v - c‖ ≤ r → ‖f u - f v‖ ≤ L * ‖u - v‖) → (∀ u, ‖u - c‖ ≤ r → ‖f u‖ ≤ M) →
    ∀ u, ‖u - c‖ ≤ r / 2 → ∀ v, ‖v - c‖ ≤ r / 2 → ‖Φ u h - Φ v h‖ ≤ (1 + h * lam L) * ‖u - v‖

/-- A stage point stays in the ball, and two stage points differ by at most … -/
theorem stage {c u v k k' : E} {r M h d a : ℝ} (w : ℝ) (hw : 0 ≤ w) (h0 : 0 ≤ h) (hu : ‖u - c‖ ≤ r / 2) (hk : ‖k‖ ≤ M)
    (hr : h * w * M ≤ r / 2) (hd : ‖u - v‖ ≤ d) (ha : ‖k - k'‖ ≤ a) :
    ‖u + (h * w) • k - c‖ ≤ r ∧ ‖(u + (h * w) • k) - (v + (h * w) • k')‖ ≤ d + h * w * a := by
  have hhw : 0 ≤ h * w := mul_nonneg h0 hw
  constructor
  · have e : u + (h * w) • k - c = (u - c) + (h * w) • k := by abel
    rw [e]
    refine (norm_add_le _ _).trans ?_
    rw [norm_smul, Real.norm_of_nonneg hhw]
    have := mul_le_mul_of_nonneg_left hk hhw
    linarith
  · have e : (u + (h * w) • k) - (v + (h * w) • k') = (u - v) + (h * w) • (k - k') := by module
    rw [e]
    refine (norm_add_le _ _).trans ?_
    rw [norm_smul, Real.norm_of_nonneg hhw]
    have := mul_le_mul_of_nonneg_left ha hhw
    linarith

section lip

variable (f : E → E)

theorem lam_ge {L : ℝ} (hL : 0 ≤ L) : L ≤ lam L ∧ L * (1 + L) ≤ lam L := by
  unfold lam
  constructor <;> nlinarith [mul_nonneg hL hL, mul_nonneg (mul_nonneg hL hL) hL, mul_nonneg (mul_nonneg hL hL) (mul_nonneg hL hL)]

theorem euler_lip : StepLip f (euler defaultUpdate f) := by
  intro c r L M h hL h0 h1 hM hlip hb u hu v hv
  have hr : 0 ≤ r := by linarith [norm_nonneg (u - c)]
  have k1 := hlip u (by linarith) v (by linarith)
  have e : euler defaultUpdate f u h - euler defaultUpdate f v h = (u - v) + h • (f u - f v) := by
    simp only [euler, defaultUpdate]; module
  rw [e]
  refine (norm_add_le _ _).trans ?_
  rw [norm_smul, Real.norm_of_nonneg h0]
  have := mul_le_mul_of_nonneg_left (k1.trans (mul_le_mul_of_nonneg_right (lam_ge hL).1 (norm_nonneg _))) h0
  linarith

theorem rk2_lip : StepLip f (rk2 defaultUpdate f) := by
  intro c r L M h hL h0 h1 hM hlip hb u hu v hv
  have hr : 0 ≤ r := by linarith [norm_nonneg (u - c)]
  have hM0 : 0 ≤ M := (norm_nonneg _).trans (hb u (by linarith))
  have hhM : 0 ≤ h * M := mul_nonneg h0 hM0
  have k1 := hlip u (by linarith) v (by linarith)
  obtain ⟨d, hd⟩ : ∃ d, d = ‖u - v‖ := ⟨_, rfl⟩
  have hd0 : 0 ≤ d := hd ▸ norm_nonneg _
  rw [← hd] at k1 ⊢
  obtain ⟨s1, s2⟩ := stage (c := c) (1 / 2) (by norm_num) h0 hu (hb u (by linarith)) (by linarith) hd.symm.le k1
  obtain ⟨s3, -⟩ := stage (c := c) (v := u) (d := ‖v - u‖) (k' := f v) (a := 0) (1 / 2) (by norm_num) h0 hv (hb v (by linarith)) (by linarith) le_rfl (by simp)
  have k2 := (hlip _ s1 _ s3).trans (mul_le_mul_of_nonneg_left s2 hL)
  have e : rk2 defaultUpdate f u h - rk2 defaultUpdate f v h = (u - v) + h • (f (u + (h * (1 / 2)) • f u) - f (v + (h * (1 / 2)) • f v)) := by
    have e5 : (0.5 : ℝ) * h = h * (1 / 2) := by norm_num; ring
    simp only [rk2, defaultUpdate, e5]; module
  rw [e]
  refine (norm_add_le _ _).trans ?_
  rw [norm_smul, Real.norm_of_nonneg h0, ← hd]
  have hLd := mul_nonneg hL hd0
  have b2 : L * (d + h * (1 / 2) * (L * d)) ≤ lam L * d := by
    have hx : L * (d + h * (1 / 2) * (L * d)) ≤ L * (1 + L) * d := by
      have : h * (1 / 2) * (L * d) ≤ L * d := by nlinarith
      calc L * (d + h * (1 / 2) * (L * d)) ≤ L * (d + L * d) := mul_le_mul_of_nonneg_left (by linarith) hL
        _ = L * (1 + L) * d := by ring
    exact hx.trans (mul_le_mul_of_nonneg_right (lam_ge hL).2 hd0)
  have := mul_le_mul_of_nonneg_left (k2.trans b2) h0
  linarith

theorem rk3_lip : StepLip f (rk3 defaultUpdate f) := by
  intro c r L M h hL h0 h1 hM hlip hb u hu v hv
  have hr : 0 ≤ r := by linarith [norm_nonneg (u - c)]
  have hM0 : 0 ≤ M := (norm_nonneg _).trans (hb u (by linarith))
  have hhM : 0 ≤ h * M := mul_nonneg h0 hM0
  have k1 := hlip u (by linarith) v (by linarith)
  obtain ⟨d, hd⟩ : ∃ d, d = ‖u - v‖ := ⟨_, rfl⟩
  have hd0 : 0 ≤ d := hd ▸ norm_nonneg _
  rw [← hd] at k1 ⊢
  obtain ⟨s1, s2⟩ := stage (c := c) (1 / 2) (by norm_num) h0 hu (hb u (by linarith)) (by linarith) hd.symm.le k1
  obtain ⟨s3, -⟩ := stage (c := c) (v := u) (d := ‖v - u‖) (k' := f v) (a := 0) (1 / 2) (by norm_num) h0 hv (hb v (by linarith)) (by linarith) le_rfl (by simp)
  have k2 := (hlip _ s1 _ s3).trans (mul_le_mul_of_nonneg_left s2 hL)
  have n2u := hb _ s1
  have n2v := hb _ s3
  obtain ⟨a1, ha1⟩ : ∃ a, a = f u := ⟨_, rfl⟩
  obtain ⟨b1, hb1⟩ : ∃ a, a = f v := ⟨_, rfl⟩
  obtain ⟨a2, ha2⟩ : ∃ a, a = f (u + (h * (1 / 2)) • f u) := ⟨_, rfl⟩
  obtain ⟨b2, hb2⟩ : ∃ a, a = f (v + (h * (1 / 2)) • f v) := ⟨_, rfl⟩
  have n1u : ‖a1‖ ≤ M := ha1 ▸ hb u (by linarith)
  have n1v : ‖b1‖ ≤ M := hb1 ▸ hb v (by linarith)
  rw [← ha2] at n2u k2
  rw [← hb2] at n2v k2
  rw [← ha1, ← hb1] at k1
  rw [← ha1] at ha2
  rw [← hb1] at hb2
  have t1 : ∀ p q : E, ‖p‖ ≤ M → ‖q‖ ≤ M → ‖(2 : ℝ) • p - q‖ ≤ 3 * M := by
    intro p q hp hq
    refine (norm_sub_le _ _).trans ?_
    rw [norm_smul, Real.norm_of_nonneg (by norm_num)]
    linarith
  have hLd := mul_nonneg hL hd0
  have k2' : ‖a2 - b2‖ ≤ L * (1 + L) * d := by
    refine k2.trans ?_
    have : h * (1 / 2) * (L * d) ≤ L * d := by nlinarith
    calc L * (d + h * (1 / 2) * (L * d)) ≤ L * (d + L * d) := mul_le_mul_of_nonneg_left (by linarith) hL
      _ = L * (1 + L) * d := by ring
  have t2 : ‖((2 : ℝ) • a2 - a1) - ((2 : ℝ) • b2 - b1)‖ ≤ 2 * (L * (1 + L) * d) + L * d := by
    have e : ((2 : ℝ) • a2 - a1) - ((2 : ℝ) • b2 - b1) = (2 : ℝ) • (a2 - b2) - (a1 - b1) := by module
    rw [e]
    refine (norm_sub_le _ _).trans ?_
    rw [norm_smul, Real.norm_of_nonneg (by norm_num)]
    linarith
  obtain ⟨s4, s5⟩ := stage (c := c) (h := h) (v := v) (d := d) 1 (by norm_num) h0 hu (t1 a2 a1 n2u n1u) (by linarith) hd.symm.le t2
  obtain ⟨s6, -⟩ := stage (c := c) (h := h) (v := u) (d := ‖v - u‖) (k' := (2 : ℝ) • b2 - b1) (a := 0) 1 (by norm_num) h0 hv (t1 b2 b1 n2v n1v) (by linarith) le_rfl (by simp)
  have k3 := (hlip _ s4 _ s6).trans (mul_le_mul_of_nonneg_left s5 hL)
  rw [mul_one] at k3
  obtain ⟨a3, ha3⟩ : ∃ a, a = f (u + h • ((2 : ℝ) • a2 - a1)) := ⟨_, rfl⟩
  obtain ⟨b3, hb3⟩ : ∃ a, a = f (v + h • ((2 : ℝ) • b2 - b1)) := ⟨_, rfl⟩
  rw [← ha3, ← hb3] at k3
  have e : rk3 defaultUpdate f u h - rk3 defaultUpdate f v h = (u - v) + h • (1 / 6 : ℝ) • ((a1 - b1) + (4 : ℝ) • (a2 - b2) + (a3 - b3)) := by
    have e5 : (0.5 : ℝ) * h = h * (1 / 2) := by norm_num; ring
    simp only [rk3, defaultUpdate, e5, ← ha2, ← hb2, ← ha1, ← hb1, ← ha3, ← hb3]
    rw [div_eq_mul_inv]
    module
  rw [e]
  refine (norm_add_le _ _).trans ?_
  rw [norm_smul, norm_smul, Real.norm_of_nonneg h0, Real.norm_of_nonneg (by norm_num), ← hd]
  have hs : ‖(a1 - b1) + (4 : ℝ) • (a2 - b2) + (a3 - b3)‖ ≤ L * d + 4 * (L * (1 + L) * d) + L * (d + h * (2 * (L * (1 + L) * d) + L * d)) := by
    refine (norm_add_le _ _).trans (add_le_add ((norm_add_le _ _).trans (add_le_add k1 ?_)) k3)
    rw [norm_smul, Real.norm_of_nonneg (by norm_num)]
    linarith
  have hx : h * (2 * (L * (1 + L) * d) + L * d) ≤ 2 * (L * (1 + L) * d) + L * d := by
    have : 0 ≤ 2 * (L * (1 + L) * d) + L * d := by positivity
    nlinarith
  have hfin : 1 / 6 * (L * d + 4 * (L * (1 + L) * d) + L * (d + h * (2 * (L * (1 + L) * d) + L * d))) ≤ lam L * d := by
    have h2 : L * (d + h * (2 * (L * (1 + L) * d) + L * d)) ≤ L * (d + (2 * (L * (1 + L) * d) + L * d)) := mul_le_mul_of_nonneg_left (by linarith) hL
    have h3 : 0 ≤ L * L * d ∧ 0 ≤ L * L * L * d ∧ 0 ≤ L * L * L * L * d := ⟨by positivity, by positivity, by positivity⟩
    unfold lam
    nlinarith [h3.1, h3.2.1, h3.2.2]
  have := mul_le_mul_of_nonneg_left ((mul_le_mul_of_nonneg_left hs (by norm_num : (0 : ℝ) ≤ 1 / 6)).trans hfin) h0
  linarith

theorem rk4_lip : StepLip f (rk4 defaultUpdate f) := by
  intro c r L M h hL h0 h1 hM hlip hb u hu v hv
  have hr : 0 ≤ r := by linarith [norm_nonneg (u - c)]
  have hM0 : 0 ≤ M := (norm_nonneg _).trans (hb u (by linarith))
  have hhM : 0 ≤ h * M := mul_nonneg h0 hM0
  have k1 := hlip u (by linarith) v (by linarith)
  obtain ⟨d, hd⟩ : ∃ d, d = ‖u - v‖ := ⟨_, rfl⟩
  have hd0 : 0 ≤ d := hd ▸ norm_nonneg _
  have hLd := mul_nonneg hL hd0
  rw [← hd] at k1 ⊢
  obtain ⟨a1, ha1⟩ : ∃ a, a = f u := ⟨_, rfl⟩
  obtain ⟨b1, hb1⟩ : ∃ a, a = f v := ⟨_, rfl⟩
  have n1u : ‖a1‖ ≤ M := ha1 ▸ hb u (by linarith)
  have n1v : ‖b1‖ ≤ M := hb1 ▸ hb v (by linarith)
  rw [← ha1, ← hb1] at k1
  -- one stage
  have st : ∀ (w : ℝ) (p q : E) (m : ℝ), 0 ≤ w → w ≤ 1 → ‖p‖ ≤ M → ‖q‖ ≤ M → 0 ≤ m → ‖p - q‖ ≤ m * d →
      ‖f (u + (h * w) • p)‖ ≤ M ∧ ‖f (v + (h * w) • q)‖ ≤ M ∧ ‖f (u + (h * w) • p) - f (v + (h * w) • q)‖ ≤ L * (1 + m) * d := by
    intro w p q m hw0 hw1 hp hq hm hpq
    have hwM : h * w * M ≤ r / 2 := by nlinarith
    obtain ⟨s1, s2⟩ := stage (c := c) (v := v) (d := d) w hw0 h0 hu hp hwM hd.symm.le hpq
    obtain ⟨s3, -⟩ := stage (c := c) (v := u) (d := ‖v - u‖) (k' := q) (a := 0) w hw0 h0 hv hq hwM le_rfl (by simp)
    refine ⟨hb _ s1, hb _ s3, ((hlip _ s1 _ s3).trans (mul_le_mul_of_nonneg_left s2 hL)).trans ?_⟩
    have hmd := mul_nonneg hm hd0
    have hhw : h * w ≤ 1 := by nlinarith
    calc L * (d + h * w * (m * d)) ≤ L * (d + m * d) := mul_le_mul_of_nonneg_left (by nlinarith) hL
      _ = L * (1 + m) * d := by ring
  obtain ⟨n2u, n2v, k2⟩ := st (1 / 2) a1 b1 L (by norm_num) (by norm_num) n1u n1v hL k1
  obtain ⟨a2, ha2⟩ : ∃ a, a = f (u + (h * (1 / 2)) • a1) := ⟨_, rfl⟩
  obtain ⟨b2, hb2⟩ : ∃ a, a = f (v + (h * (1 / 2)) • b1) := ⟨_, rfl⟩
  rw [← ha2] at n2u k2
  rw [← hb2] at n2v k2
  obtain ⟨n3u, n3v, k3⟩ := st (1 / 2) a2 b2 _ (by norm_num) (by norm_num) n2u n2v (by positivity) k2
  obtain ⟨a3, ha3⟩ : ∃ a, a = f (u + (h * (1 / 2)) • a2) := ⟨_, rfl⟩
  obtain ⟨b3, hb3⟩ : ∃ a, a = f (v + (h * (1 / 2)) • b2) := ⟨_, rfl⟩
  rw [← ha3] at n3u k3
  rw [← hb3] at n3v k3
  obtain ⟨-, -, k4⟩ := st 1 a3 b3 _ (by norm_num) (by norm_num) n3u n3v (by positivity) k3
  rw [mul_one] at k4
  obtain ⟨a4, ha4⟩ : ∃ a, a = f (u + h • a3) := ⟨_, rfl⟩
  obtain ⟨b4, hb4⟩ : ∃ a, a = f (v + h • b3) := ⟨_, rfl⟩
  rw [← ha4, ← hb4] at k4
  have e : rk4 defaultUpdate f u h - rk4 defaultUpdate f v h = (u - v) + h • (1 / 6 : ℝ) • ((a1 - b1) + (2 : ℝ) • (a2 - b2) + (2 : ℝ) • (a3 - b3) + (a4 - b4)) := by
    have e5 : (0.5 : ℝ) * h = h * (1 / 2) := by norm_num; ring
    simp only [rk4, defaultUpdate, e5, ← ha1, ← hb1, ← ha2, ← hb2, ← ha3, ← hb3, ← ha4, ← hb4]
    rw [div_eq_mul_inv]
    module
  rw [e]
  refine (norm_add_le _ _).trans ?_
  rw [norm_smul, norm_smul, Real.norm_of_nonneg h0, Real.norm_of_nonneg (by norm_num), ← hd]
  have hs : ‖(a1 - b1) + (2 : ℝ) • (a2 - b2) + (2 : ℝ) • (a3 - b3) + (a4 - b4)‖ ≤
      L * d + 2 * (L * (1 + L) * d) + 2 * (L * (1 + L * (1 + L)) * d) + L * (1 + L * (1 + L * (1 + L))) * d := by
    have two : ∀ x : E, ‖(2 : ℝ) • x‖ = 2 * ‖x‖ := fun x => by rw [norm_smul, Real.norm_of_nonneg (by norm_num)]
    refine (norm_add_le _ _).trans (add_le_add ((norm_add_le _ _).trans (add_le_add ((norm_add_le _ _).trans (add_le_add k1 ?_)) ?_)) k4)
    · rw [two]; linarith
    · rw [two]; linarith
  have hfin : 1 / 6 * (L * d + 2 * (L * (1 + L) * d) + 2 * (L * (1 + L * (1 + L)) * d) + L * (1 + L * (1 + L * (1 + L))) * d) ≤ lam L * d := by
    have h3 : 0 ≤ L * L * d ∧ 0 ≤ L * L * L * d ∧ 0 ≤ L * L * L * L * d := ⟨by positivity, by positivity, by positivity⟩
    unfold lam
    nlinarith [h3.1, h3.2.1, h3.2.2]
  have := mul_le_mul_of_nonneg_left ((mul_le_mul_of_nonneg_left hs (by norm_num : (0 : ℝ) ≤ 1 / 6)).trans hfin) h0
  linarith

end lip

/-! ## Convergence -/

/-- Near a ball on which `f` is bounded and Lipschitz, a step `R` differs from `Φ` by at most `Q h^(p+1)`. -/
def StepPert (f : E → E) (Φ : E → ℝ → E) (R : ℝ → E → E → Prop) (Q : ℝ → ℝ → ℝ) (p : ℕ) : Prop :=
  ∀ (c : E) (r L M h : ℝ), 0 ≤ L → 0 ≤ M → 0 ≤ h → h ≤ 1 → h * (3 * M) ≤ r / 2 →
    (∀ u, ‖u - c‖ ≤ r → ∀ v, ‖v - c‖ ≤ r → ‖f u - f v‖ ≤ L * ‖u - v‖) → (∀ u, ‖u - c‖ ≤ r → ‖f u‖ ≤ M) →
    ∀ u u', ‖u - c‖ ≤ r / 2 → R h u u' → ‖u' - Φ u h‖ ≤ Q L M * h ^ (p + 1)

/-- A stable and consistent one-step method converges, also if every step is perturbed by `O(h^(p+1))`. -/
theorem converges {T : ℝ} {f : E → E} {y : ℝ → E} {Φ : E → ℝ → E} {R : ℝ → E → E → Prop} {Q : ℝ → ℝ → ℝ} {p : ℕ} (hp : 1 ≤ p)
    (hy : ∀ t, 0 ≤ t → t ≤ T → HasDerivAt y (f (y t)) t) (hf : ContDiff ℝ 1 f) (hΦ : StepLip f Φ) (hR : StepPert f Φ R Q p)
    (hQ : ∀ L M, 0 ≤ L → 0 ≤ M → 0 ≤ Q L M) (hloc : O (lf T) Prod.fst (p + 1) fun q => Φ (y q.2) q.1 - y (q.1 + q.2)) :
    ∃ K h0 : ℝ, 0 < h0 ∧ ∀ h, 0 ≤ h → h ≤ h0 → ∀ n : ℕ, n * h ≤ T → ∀ u : ℕ → E, u 0 = y 0 → (∀ m, m < n → R h (u m) (u (m + 1))) →
      ‖u n - y (n * h)‖ ≤ K * h ^ p := by
  by_cases hT : 0 ≤ T
  swap
  · refine ⟨0, 1, one_pos, fun h hh _ n hn u _ _ => ?_⟩
    have : (0 : ℝ) ≤ n * h := by positivity
    exact absurd (this.trans hn) hT
  have hc : ∀ t, 0 ≤ t → t ≤ T → ContinuousAt y t := fun t h0 h1 => (hy t h0 h1).continuousAt
  obtain ⟨r1, L, hr1, hL, hbL⟩ := bounded_near (hf.continuous_fderiv (by norm_num)) (compact_along hc)
  obtain ⟨r2, M, hr2, hM, hbM⟩ := bounded_near hf.continuous (compact_along hc)
  rw [O_lf] at hloc
  obtain ⟨K0, r3, hK0, hr3, hloc⟩ := hloc
  have hQ0 := hQ L M hL hM
  obtain ⟨K, hKd⟩ : ∃ K, K = K0 + Q L M := ⟨_, rfl⟩
  have hK : 0 ≤ K := by rw [hKd]; linarith
  obtain ⟨r, hr⟩ : ∃ r, r = min r1 r2 := ⟨_, rfl⟩
  have hrpos : 0 < r := hr ▸ lt_min hr1 hr2
  obtain ⟨Λ, hΛ⟩ : ∃ Λ, Λ = lam L := ⟨_, rfl⟩
  have hΛ0 : 0 ≤ Λ := by rw [hΛ]; unfold lam; positivity
  obtain ⟨W, hW⟩ : ∃ W, W = K * T * Real.exp (Λ * T) := ⟨_, rfl⟩
  have hW0 : 0 ≤ W := by rw [hW]; positivity
  -- Lipschitz and bounded on the balls around the solution
  have hlip : ∀ s, 0 ≤ s → s ≤ T → ∀ u, ‖u - y s‖ ≤ r → ∀ v, ‖v - y s‖ ≤ r → ‖f u - f v‖ ≤ L * ‖u - v‖ := by
    intro s s0 s1 u hu v hv
    have hball : ∀ x ∈ Metric.closedBall (y s) r, ‖fderiv ℝ f x‖ ≤ L := by
      intro x hx
      have hx' : ‖x - y s‖ ≤ r1 := (mem_closedBall_iff_norm.1 hx).trans (hr ▸ min_le_left _ _)
      have := hbL (y s) ⟨s, ⟨s0, s1⟩, rfl⟩ (x - y s) hx'
      simpa using this
    exact (convex_closedBall (y s) r).norm_image_sub_le_of_norm_fderiv_le (𝕜 := ℝ) (fun x _ => (hf.differentiable (by norm_num)) x) hball
      (mem_closedBall_iff_norm.2 hv) (mem_closedBall_iff_norm.2 hu)
  have hbd : ∀ s, 0 ≤ s → s ≤ T → ∀ u, ‖u - y s‖ ≤ r → ‖f u‖ ≤ M := by
    intro s s0 s1 u hu
    have := hbM (y s) ⟨s, ⟨s0, s1⟩, rfl⟩ (u - y s) (hu.trans (hr ▸ min_le_right _ _))
    simpa using this
  refine ⟨W, min (min 1 r3) (min (r / (6 * M + 1)) (r / (2 * (W + 1)))), by positivity, fun h hh hle n hn u hu0 hu => ?_⟩
  have l1 : h ≤ 1 := hle.trans ((min_le_left _ _).trans (min_le_left _ _))
  have l2 : h ≤ r3 := hle.trans ((min_le_left _ _).trans (min_le_right _ _))
  have l3 : h * (3 * M) ≤ r / 2 := by
    have : h ≤ r / (6 * M + 1) := hle.trans ((min_le_right _ _).trans (min_le_left _ _))
    rw [le_div_iff₀ (by positivity)] at this
    linarith
  have l4 : W * h ^ p ≤ r / 2 := by
    have h4 : h ≤ r / (2 * (W + 1)) := hle.trans ((min_le_right _ _).trans (min_le_right _ _))
    rw [le_div_iff₀ (by positivity)] at h4
    have hpow : h ^ p ≤ h := by
      calc h ^ p ≤ h ^ 1 := pow_le_pow_of_le_one hh l1 hp
        _ = h := pow_one h
    have := mul_le_mul_of_nonneg_left hpow hW0
    linarith
  -- error after `m` steps
  have gron : ∀ m : ℕ, m * h ≤ T → (m : ℝ) * (K * h ^ (p + 1)) * (1 + h * Λ) ^ m ≤ W * h ^ p := by
    intro m hm
    have hq : (1 + h * Λ) ^ m ≤ Real.exp (Λ * T) := by
      have h1 : 1 + h * Λ ≤ Real.exp (h * Λ) := by linarith [Real.add_one_le_exp (h * Λ)]
      calc (1 + h * Λ) ^ m ≤ Real.exp (h * Λ) ^ m := pow_le_pow_left₀ (by positivity) h1 m
        _ = Real.exp (m * (h * Λ)) := (Real.exp_nat_mul _ _).symm
        _ ≤ Real.exp (Λ * T) := by
          apply Real.exp_le_exp.2
          calc m * (h * Λ) = Λ * (m * h) := by ring
            _ ≤ Λ * T := mul_le_mul_of_nonneg_left hm hΛ0
    have hs : (m : ℝ) * (K * h ^ (p + 1)) ≤ K * T * h ^ p := by
      calc (m : ℝ) * (K * h ^ (p + 1)) = K * h ^ p * (m * h) := by ring
        _ ≤ K * h ^ p * T := mul_le_mul_of_nonneg_left hm (by positivity)
        _ = K * T * h ^ p := by ring
    calc (m : ℝ) * (K * h ^ (p + 1)) * (1 + h * Λ) ^ m ≤ K * T * h ^ p * Real.exp (Λ * T) := mul_le_mul hs hq (by positivity) (by positivity)
      _ = W * h ^ p := by rw [hW]; ring
  have main : ∀ m : ℕ, m ≤ n → ‖u m - y (m * h)‖ ≤ (m : ℝ) * (K * h ^ (p + 1)) * (1 + h * Λ) ^ m := by
    intro m
    induction m with
    | zero => intro _; simp [hu0]
    | succ m ih =>
      intro hmn
      have hm : ((m : ℝ) + 1) * h ≤ T := by
        refine le_trans (mul_le_mul_of_nonneg_right ?_ hh) hn
        exact_mod_cast hmn
      push_cast
      have hm' : (m : ℝ) * h ≤ T := by linarith
      have e1 := ih (by omega)
      have hmh : 0 ≤ (m : ℝ) * h := by positivity
      have hin : ‖u m - y (m * h)‖ ≤ r / 2 := (e1.trans (gron m hm')).trans l4
      have s0 := hR (y (m * h)) r L M h hL hM hh l1 l3 (hlip _ hmh hm') (hbd _ hmh hm') _ _ hin (hu m (by omega))
      have s1 := hΦ (y (m * h)) r L M h hL hh l1 l3 (hlip _ hmh hm') (hbd _ hmh hm') _ hin (y (m * h)) (by simp; positivity)
      have s2 := hloc h (m * h) hh l2 hmh (by linarith)
      simp only at s2
      have et : h + (m : ℝ) * h = (m + 1) * h := by ring
      rw [et] at s2
      have tri := norm_sub_le_norm_sub_add_norm_sub (Φ (u m) h) (Φ (y (m * h)) h) (y ((m + 1) * h))
      have tri0 := norm_sub_le_norm_sub_add_norm_sub (u (m + 1)) (Φ (u m) h) (y ((m + 1) * h))
      rw [← hΛ] at s1
      have hq1 : (1 : ℝ) ≤ (1 + h * Λ) ^ (m + 1) := one_le_pow₀ (by nlinarith [mul_nonneg hh hΛ0])
      have hKh : 0 ≤ K * h ^ (p + 1) := by positivity
      have hKe : K * h ^ (p + 1) = K0 * h ^ (p + 1) + Q L M * h ^ (p + 1) := by rw [hKd]; ring
      calc _ ≤ (1 + h * Λ) * ‖u m - y (m * h)‖ + K * h ^ (p + 1) := by linarith
        _ ≤ (1 + h * Λ) * ((m : ℝ) * (K * h ^ (p + 1)) * (1 + h * Λ) ^ m) + K * h ^ (p + 1) * (1 + h * Λ) ^ (m + 1) := by
          refine add_le_add (mul_le_mul_of_nonneg_left e1 (by positivity)) ?_
          nlinarith
        _ = ((m : ℝ) + 1) * (K * h ^ (p + 1)) * (1 + h * Λ) ^ (m + 1) := by ring
  exact (main n le_rfl).trans (gron n hn)

/-! ## C93 -/

/-- Specification: `y` solves `y' = f(y)` on `[0, T]`. -/
def Solves (f : E → E) (y : ℝ → E) (T : ℝ) : Prop := ∀ t, 0 ≤ t → t ≤ T → HasDerivAt y (f (y t)) t

/-- Specification: one step of size `h` from any point of the solution has an error of at most `K h^(p+1)`. -/
def LocalOrder (Φ : E → ℝ → E) (y : ℝ → E) (T : ℝ) (p : ℕ) : Prop :=
  ∃ K h0 : ℝ, 0 < h0 ∧ ∀ h s, 0 ≤ h → h ≤ h0 → 0 ≤ s → s + h ≤ T → ‖Φ (y s) h - y (s + h)‖ ≤ K * h ^ (p + 1)

/-- Specification: the result of any number of steps of size `h` from `y 0`, as long as time does not exceed `T`, has an error of at most `K h^p`. -/
def GlobalOrder (Φ : E → ℝ → E) (y : ℝ → E) (T : ℝ) (p : ℕ) : Prop :=
  ∃ K h0 : ℝ, 0 < h0 ∧ ∀ h, 0 ≤ h → h ≤ h0 → ∀ n : ℕ, n * h ≤ T → ‖(fun u => Φ u h)^[n] (y 0) - y (n * h)‖ ≤ K * h ^ p

theorem localOrder_of_O {Φ : E → ℝ → E} {y : ℝ → E} {T : ℝ} {p : ℕ} (h : O (lf T) Prod.fst (p + 1) fun q => Φ (y q.2) q.1 - y (q.1 + q.2)) : LocalOrder Φ y T p := by
  rw [O_lf] at h
  obtain ⟨K, r, _, hr, hb⟩ := h
  refine ⟨K, r, hr, fun h s h0 h1 s0 hs => ?_⟩
  have := hb h s h0 h1 s0 (by linarith)
  simp only at this
  rwa [add_comm h s] at this

theorem globalOrder_of_O {f : E → E} {Φ : E → ℝ → E} {y : ℝ → E} {T : ℝ} {p : ℕ} (hp : 1 ≤ p) (hy : Solves f y T) (hf : ContDiff ℝ 1 f) (hΦ : StepLip f Φ)
    (h : O (lf T) Prod.fst (p + 1) fun q => Φ (y q.2) q.1 - y (q.1 + q.2)) : GlobalOrder Φ y T p := by
  obtain ⟨K, h0, hh0, hc⟩ := converges (R := fun h u u' => u' = Φ u h) (Q := fun _ _ => 0) hp hy hf hΦ
    (by intro c r L M h _ _ _ _ _ _ _ u u' _ hu; rw [hu]; simp) (fun _ _ _ _ => le_rfl) h
  refine ⟨K, h0, hh0, fun h hh hle n hn => ?_⟩
  exact hc h hh hle n hn (fun m => (fun u => Φ u h)^[m] (y 0)) rfl (fun m _ => Function.iterate_succ_apply' _ _ _)

/-- **C93** `Euler` is of order one for every equation with a continuously differentiable right-hand side. -/
theorem c93_euler {f : E → E} {y : ℝ → E} {T : ℝ} (hf : ContDiff ℝ 1 f) (hy : Solves f y T) :
    LocalOrder (euler defaultUpdate f) y T 1 ∧ GlobalOrder (euler defaultUpdate f) y T 1 :=
  ⟨localOrder_of_O (euler_O hy hf), globalOrder_of_O le_rfl hy hf (euler_lip f) (euler_O hy hf)⟩

/-- **C93** `RK2` is of order two. -/
theorem c93_rk2 {f : E → E} {y : ℝ → E} {T : ℝ} (hf : ContDiff ℝ 2 f) (hy : Solves f y T) :
    LocalOrder (rk2 defaultUpdate f) y T 2 ∧ GlobalOrder (rk2 defaultUpdate f) y T 2 :=
  ⟨localOrder_of_O (rk2_O hy hf), globalOrder_of_O (by norm_num) hy (hf.of_le (by norm_num)) (rk2_lip f) (rk2_O hy hf)⟩

/-- **C93** `RK3` is of order three. -/
theorem c93_rk3 {f : E → E} {y : ℝ → E} {T : ℝ} (hf : ContDiff ℝ 3 f) (hy : Solves f y T) :
    LocalOrder (rk3 defaultUpdate f) y T 3 ∧ GlobalOrder (rk3 defaultUpdate f) y T 3 :=
  ⟨localOrder_of_O (rk3_O hy hf), globalOrder_of_O (by norm_num) hy (hf.of_le (by norm_num)) (rk3_lip f) (rk3_O hy hf)⟩

/-- **C93** `RK4` is of order four. -/
theorem c93_rk4 {f : E → E} {y : ℝ → E} {T : ℝ} (hf : ContDiff ℝ 4 f) (hy : Solves f y T) :
    LocalOrder (rk4 defaultUpdate f) y T 4 ∧ GlobalOrder (rk4 defaultUpdate f) y T 4 :=
  ⟨localOrder_of_O (rk4_O hy hf), globalOrder_of_O (by norm_num) hy (hf.of_le (by norm_num)) (rk4_lip f) (rk4_O hy hf)⟩

/-- Instance, nonlinear: `y' = -y²` with `y(t) = 1/(1+t)`. -/
example (T : ℝ) : ContDiff ℝ 4 (fun x : ℝ => -x ^ 2) ∧ Solves (fun x : ℝ => -x ^ 2) (fun t => (1 + t)⁻¹) T := by
  refine ⟨by fun_prop, fun t h0 _ => ?_⟩
  have h1 : HasDerivAt (fun t : ℝ => 1 + t) 1 t := (hasDerivAt_id t).const_add 1
  refine (h1.inv (by positivity)).congr_deriv ?_
  simp only [inv_pow]
  ring

end Verif.RkOrder
