import Verif.Props.RkOrder
import Mathlib.Analysis.Calculus.ContDiff.Operations
import Mathlib.Analysis.Calculus.FDeriv.Prod
import Mathlib.Analysis.Calculus.Deriv.Prod
import Mathlib.Analysis.Calculus.FDeriv.Comp

/-!
# Compositions of flows (background of C104)

No code is modelled here. A *smooth flow* `φ z t` with generator `A` solves `z' = A(z)`. The expansion of a composition of flows in powers of the time step, the
composition of a palindromic list of flows, and the convergence of a consistent one-step method which is a smooth map.
-/

open Filter Asymptotics Topology

namespace Verif.FlowComp

open Verif.RkOrder Verif.Taylor

variable {Z : Type*} [NormedAddCommGroup Z] [NormedSpace ℝ Z]

/-- `φ z t` is the value at time `t` of the solution of `z' = A(z)` starting from `z`, and depends smoothly on `z` and `t`. -/
structure SmoothFlow (φ : Z → ℝ → Z) (A : Z → Z) : Prop where
  smooth : ContDiff ℝ 3 fun p : Z × ℝ => φ p.1 p.2
  zero : ∀ z, φ z 0 = z
  deriv : ∀ z t, HasDerivAt (fun t => φ z t) (A (φ z t)) t

theorem SmoothFlow.gen {φ : Z → ℝ → Z} {A : Z → Z} (h : SmoothFlow φ A) : ContDiff ℝ 2 A := by
  have e : A = fun z => fderiv ℝ (fun p : Z × ℝ => φ p.1 p.2) (z, 0) (0, 1) := by
    funext z
    have h1 : HasFDerivAt (fun p : Z × ℝ => φ p.1 p.2) (fderiv ℝ (fun p : Z × ℝ => φ p.1 p.2) (z, 0)) (z, 0) :=
      ((h.smooth.differentiable (by norm_num)) (z, 0)).hasFDerivAt
    have h2 : HasDerivAt (fun t : ℝ => ((z, t) : Z × ℝ)) (0, 1) 0 := (hasDerivAt_const (0 : ℝ) z).prodMk (hasDerivAt_id (0 : ℝ))
    have h3 := h1.comp_hasDerivAt (0 : ℝ) h2
    have h4 := h.deriv z 0
    rw [h.zero] at h4
    exact h4.unique h3
  rw [e]
  have h1 : ContDiff ℝ 2 (fderiv ℝ (fun p : Z × ℝ => φ p.1 p.2)) := h.smooth.fderiv_right (by norm_num)
  have h2 : ContDiff ℝ 2 fun z : Z => ((z, 0) : Z × ℝ) := contDiff_id.prodMk contDiff_const
  exact (h1.comp h2).clm_apply contDiff_const

/-- The second derivative of a solution. -/
noncomputable def second (A : Z → Z) (z : Z) : Z := D A z (A z)

theorem second_contDiff {A : Z → Z} (hA : ContDiff ℝ 2 A) : ContDiff ℝ 1 (second A) := by
  have h1 : ContDiff ℝ 1 (D A) := hA.fderiv_right (by norm_num)
  exact h1.clm_apply (hA.of_le (by norm_num))

/-- Taylor expansion of a flow in time, with a remainder which is uniform near a compact set. -/
theorem flow_taylor {φ : Z → ℝ → Z} {A : Z → Z} (h : SmoothFlow φ A) {S : Set Z} (hS : IsCompact S) :
    ∃ r K : ℝ, 0 < r ∧ 0 ≤ K ∧ ∀ z ∈ S, ∀ x, ‖x‖ ≤ r → ∀ t, 0 ≤ t → t ≤ r →
      ‖φ (z + x) t - (z + x + t • A (z + x) + t ^ 2 • (1 / 2 : ℝ) • second A (z + x))‖ ≤ K * t ^ 3 := by
  have hA := h.gen
  have hA2 := second_contDiff hA
  have hA3 : Continuous fun p : Z × ℝ => D (second A) (φ p.1 p.2) (A (φ p.1 p.2)) := by
    have hc : Continuous fun p : Z × ℝ => φ p.1 p.2 := h.smooth.continuous
    exact ((hA2.continuous_fderiv (by norm_num)).comp hc).clm_apply (hA.continuous.comp hc)
  obtain ⟨r, K, hr, hK, hb⟩ := bounded_near hA3 (hS.prod (isCompact_singleton (x := (0 : ℝ))))
  refine ⟨r, K, hr, hK, fun z hz x hx t ht htr => ?_⟩
  obtain ⟨w, hw⟩ : ∃ w, w = z + x := ⟨_, rfl⟩
  rw [← hw]
  have b3 : ∀ s, 0 ≤ s → s ≤ t → ‖D (second A) (φ w s) (A (φ w s))‖ ≤ K := by
    intro s s0 s1
    have := hb (z, 0) ⟨hz, rfl⟩ (x, s) (by
      rw [Prod.norm_def]
      exact max_le hx (by rw [Real.norm_of_nonneg s0]; linarith))
    simpa [hw] using this
  have d1 : ∀ s, HasDerivAt (fun s => φ w s) (A (φ w s)) s := h.deriv w
  have d2 : ∀ s, HasDerivAt (fun s => A (φ w s)) (second A (φ w s)) s := fun s =>
    ((hA.differentiable (by norm_num)) (φ w s)).hasFDerivAt.comp_hasDerivAt s (d1 s)
  have d3 : ∀ s, HasDerivAt (fun s => second A (φ w s)) (D (second A) (φ w s) (A (φ w s))) s := fun s =>
    ((hA2.differentiable (by norm_num)) (φ w s)).hasFDerivAt.comp_hasDerivAt s (d1 s)
  have s2 : ∀ s, 0 ≤ s → s ≤ t → ‖second A (φ w s) - second A w‖ ≤ K * s := by
    intro s s0 s1
    have := norm_image_sub_le_of_norm_deriv_le_segment' (f := fun s => second A (φ w s)) (f' := fun s => D (second A) (φ w s) (A (φ w s))) (C := K) (a := 0) (b := s)
      (fun q hq => (d3 q).hasDerivWithinAt) (fun q hq => b3 q hq.1 (hq.2.le.trans s1)) s ⟨s0, le_rfl⟩
    simpa [h.zero] using this
  have s1 : ∀ s, 0 ≤ s → s ≤ t → ‖A (φ w s) - (A w + s • second A w)‖ ≤ K * s * s := by
    intro s s0 st
    have := norm_image_sub_le_of_norm_deriv_le_segment' (f := fun s => A (φ w s) - (A w + s • second A w)) (f' := fun s => second A (φ w s) - second A w) (C := K * s) (a := 0) (b := s)
      (fun q hq => ((d2 q).sub ((((hasDerivAt_id q).smul_const (second A w)).const_add (A w)).congr_deriv (by simp))).hasDerivWithinAt)
      (fun q hq => (s2 q hq.1 (hq.2.le.trans st)).trans (mul_le_mul_of_nonneg_left hq.2.le hK)) s ⟨s0, le_rfl⟩
    simpa [h.zero] using this
  have := norm_image_sub_le_of_norm_deriv_le_segment' (f := fun s => φ w s - (w + s • A w + s ^ 2 • (1 / 2 : ℝ) • second A w)) (f' := fun s => A (φ w s) - (A w + s • second A w)) (C := K * t * t) (a := 0) (b := t)
    (fun q hq => by
      have p1 := ((hasDerivAt_id q).smul_const (A w)).const_add w
      have p2 := (hasDerivAt_pow 2 q).smul_const ((1 / 2 : ℝ) • second A w)
      refine (((d1 q).sub (p1.add p2)).congr_deriv ?_).hasDerivWithinAt
      simp only [one_smul, smul_smul]
      congr 2
      push_cast
      ring_nf)
    (fun q hq => (s1 q hq.1 hq.2.le).trans (by
      have : K * q ≤ K * t := mul_le_mul_of_nonneg_left hq.2.le hK
      exact mul_le_mul this hq.2.le hq.1 (by positivity))) t ⟨ht, le_rfl⟩
  simp only [h.zero, sub_zero] at this
  have e : K * t ^ 3 = K * t * t * t := by ring
  rw [e]
  simpa using this

/-! ## One flow applied to an expansion -/

section expand

variable {T : ℝ} {z : ℝ → Z}

theorem fst_O : O (lf T) Prod.fst 1 fun p : ℝ × ℝ => p.1 := by
  have := isBigO_refl (fun p : ℝ × ℝ => p.1) (lf T)
  simpa [O] using this

/-- A flow of duration `c h` applied to `z + h a + h² b + O(h³)`. -/
theorem flow_step {φ : Z → ℝ → Z} {A : Z → Z} (h : SmoothFlow φ A) {c : ℝ} (hc : 0 ≤ c) (hz : ∀ t, 0 ≤ t → t ≤ T → ContinuousAt z t) {a b d : ℝ × ℝ → Z}
    (ha : O (lf T) Prod.fst 0 a) (hb : O (lf T) Prod.fst 0 b) (hd : O (lf T) Prod.fst 3 fun p => d p - (p.1 • a p + p.1 ^ 2 • b p)) :
    O (lf T) Prod.fst 3 fun p => (φ (z p.2 + d p) (c * p.1) - z p.2) -
      (p.1 • (a p + c • A (z p.2)) + p.1 ^ 2 • (b p + c • D A (z p.2) (a p) + (c ^ 2 / 2) • D A (z p.2) (A (z p.2)))) := by
  have hA := h.gen
  have ht := lf_tendsto T
  have d1 : O (lf T) Prod.fst 1 d := by
    have h1 := ((hd.mono (n := 1) ht (by norm_num)).add ((ha.hsmul 1).mono (n := 1) ht (by norm_num))).add ((hb.hsmul 2).mono (n := 1) ht (by norm_num))
    refine IsBigO.congr_left h1 fun p => ?_
    rw [pow_one]; abel
  -- the remainder of the flow
  have r1 : O (lf T) Prod.fst 3 fun p => φ (z p.2 + d p) (c * p.1) - (z p.2 + d p + (c * p.1) • A (z p.2 + d p) + (c * p.1) ^ 2 • (1 / 2 : ℝ) • second A (z p.2 + d p)) := by
    obtain ⟨r, K, hr, hK, hbd⟩ := flow_taylor h (compact_along hz)
    rw [O_lf] at d1 ⊢
    obtain ⟨K1, r1, hK1, hr1, hd1⟩ := d1
    refine ⟨K * c ^ 3, min r1 (min (r / (K1 + 1)) (r / (c + 1))), by positivity, by positivity, fun h s h0 h1 s0 hs => ?_⟩
    have q1 : h * (K1 + 1) ≤ r := by
      have := h1.trans ((min_le_right _ _).trans (min_le_left _ _))
      rwa [le_div_iff₀ (by positivity)] at this
    have q2 : h * (c + 1) ≤ r := by
      have := h1.trans ((min_le_right _ _).trans (min_le_right _ _))
      rwa [le_div_iff₀ (by positivity)] at this
    have q3 := hd1 h s h0 (h1.trans (min_le_left _ _)) s0 hs
    rw [pow_one] at q3
    have := hbd (z s) ⟨s, ⟨s0, by linarith⟩, rfl⟩ (d (h, s)) (by linarith) (c * h) (by positivity) (by linarith)
    refine this.trans (le_of_eq (by ring))
  -- the generator
  have hz0 : ∀ n, O (lf T) Prod.fst n fun _ : ℝ × ℝ => (0 : Z) := fun n => isBigO_zero _ _
  have t2 := tay2 hA hz
  have g1 := t2.comp (by norm_num) (by norm_num) (a := a) (b := b) (c := fun _ => 0) ha hb (hz0 0) (D := d) (by simpa using hd.mono (n := 2) ht (by norm_num))
  have t1 := tay1 (second_contDiff hA) hz
  have g2 := t1.comp le_rfl (by norm_num) (a := a) (b := b) (c := fun _ => 0) ha hb (hz0 0) (D := d) (by simpa using hd.mono (n := 1) ht (by norm_num))
  have hDb := ((bounded_along (T := T) (hA.continuous_fderiv (by norm_num)) hz).app hb).hsmul 2
  have h1 := ((g1.add (hDb.mono (n := 2) ht (by norm_num))).csmul c).hsmul 1
  have h2 := ((g2.csmul (c ^ 2 / 2)).hsmul 2)
  refine IsBigO.congr_left (((r1.add hd).add h1).add h2) fun p => ?_
  simp only [zero_apply, map_zero, second]
  module

end expand

/-! ## Palindromic lists -/

/-- First order coefficient of the composition of the flows whose generators have the values `v` and the derivatives `L` at a point. -/
def q1 : List (Z × (Z →L[ℝ] Z)) → Z
  | [] => 0
  | x :: l => x.1 + q1 l

/-- Derivative of the sum of the generators. -/
noncomputable def q1' : List (Z × (Z →L[ℝ] Z)) → Z →L[ℝ] Z
  | [] => 0
  | x :: l => x.2 + q1' l

/-- Second order coefficient; the head of the list acts first. -/
noncomputable def q2 : List (Z × (Z →L[ℝ] Z)) → Z
  | [] => 0
  | x :: l => (1 / 2 : ℝ) • x.2 x.1 + q1' l x.1 + q2 l

theorem q1_append (l m : List (Z × (Z →L[ℝ] Z))) : q1 (l ++ m) = q1 l + q1 m := by
  induction l with
  | nil => simp [q1]
  | cons x l ih => simp [q1, ih, add_assoc]

theorem q1'_append (l m : List (Z × (Z →L[ℝ] Z))) : q1' (l ++ m) = q1' l + q1' m := by
  induction l with
  | nil => simp [q1']
  | cons x l ih => simp [q1', ih, add_assoc]

theorem q1_reverse (l : List (Z × (Z →L[ℝ] Z))) : q1 l.reverse = q1 l := by
  induction l with
  | nil => rfl
  | cons x l ih => rw [List.reverse_cons, q1_append, ih]; simp [q1, add_comm]

theorem q2_append (l m : List (Z × (Z →L[ℝ] Z))) : q2 (l ++ m) = q2 l + q1' m (q1 l) + q2 m := by
  induction l with
  | nil => simp [q2, q1]
  | cons x l ih =>
    simp only [List.cons_append, q2, q1, ih, q1'_append, add_apply, map_add]
    abel

/-- The second order coefficients of a list and of its reverse add up to that of an exact flow. -/
theorem q2_reverse (l : List (Z × (Z →L[ℝ] Z))) : q2 l + q2 l.reverse = q1' l (q1 l) := by
  induction l with
  | nil => simp [q2, q1]
  | cons x l ih =>
    rw [List.reverse_cons, q2_append, q1_reverse]
    simp only [q2, q1, q1', add_apply, map_add]
    rw [← ih]
    simp only [zero_apply]
    module

/-- A palindrome agrees with the flow of the sum to second order. -/
theorem q2_palindrome {l : List (Z × (Z →L[ℝ] Z))} (h : l.reverse = l) : q2 l = (1 / 2 : ℝ) • q1' l (q1 l) := by
  rw [← q2_reverse l, h]
  module

/-! ## Convergence of a smooth consistent one-step method -/

/-- One step is Lipschitz with constant `1 + Λ h` near the trajectory. -/
theorem step_lip {F : Type*} [NormedAddCommGroup F] [NormedSpace ℝ F] {Φ : F → ℝ → F} (hΦ : ContDiff ℝ 2 fun p : F × ℝ => Φ p.1 p.2) (h0 : ∀ f, Φ f 0 = f) {S : Set F} (hS : IsCompact S) :
    ∃ r Λ : ℝ, 0 < r ∧ 0 ≤ Λ ∧ ∀ c ∈ S, ∀ u v, ‖u - c‖ ≤ r → ‖v - c‖ ≤ r → ∀ h, 0 ≤ h → h ≤ r → ‖Φ u h - Φ v h‖ ≤ (1 + h * Λ) * ‖u - v‖ := by
  -- derivative with respect to the state
  obtain ⟨ψ, hψ⟩ : ∃ ψ : F × ℝ → F →L[ℝ] F, ψ = fun p => (fderiv ℝ (fun p : F × ℝ => Φ p.1 p.2) p).comp (ContinuousLinearMap.inl ℝ F ℝ) := ⟨_, rfl⟩
  have hψ1 : ContDiff ℝ 1 ψ := by
    rw [hψ]
    have h1 : ContDiff ℝ 1 (fderiv ℝ (fun p : F × ℝ => Φ p.1 p.2)) := hΦ.fderiv_right (by norm_num)
    exact h1.clm_comp contDiff_const
  have hd : ∀ f h, HasFDerivAt (fun f => Φ f h) (ψ (f, h)) f := by
    intro f h
    have h1 : HasFDerivAt (fun p : F × ℝ => Φ p.1 p.2) (fderiv ℝ (fun p : F × ℝ => Φ p.1 p.2) (f, h)) (f, h) := ((hΦ.differentiable (by norm_num)) (f, h)).hasFDerivAt
    have h2 : HasFDerivAt (fun f : F => ((f, h) : F × ℝ)) (ContinuousLinearMap.inl ℝ F ℝ) f := hasFDerivAt_prodMk_left f h
    rw [hψ]
    exact h1.comp f h2
  have hψ0 : ∀ f, ψ (f, 0) = ContinuousLinearMap.id ℝ F := by
    intro f
    refine (hd f 0).unique ?_
    simp only [h0]
    exact hasFDerivAt_id f
  obtain ⟨r, Λ, hr, hΛ, hb⟩ := bounded_near (hψ1.continuous_fderiv (by norm_num)) (hS.prod (isCompact_singleton (x := (0 : ℝ))))
  refine ⟨r, Λ, hr, hΛ, fun c hc u v hu hv h hh hhr => ?_⟩
  have hψb : ∀ x, ‖x - c‖ ≤ r → ‖ψ (x, h) - ContinuousLinearMap.id ℝ F‖ ≤ Λ * h := by
    intro x hx
    have hder : ∀ t, HasDerivAt (fun t => ψ (x, t)) (D ψ (x, t) (0, 1)) t := fun t =>
      ((hψ1.differentiable (by norm_num)) (x, t)).hasFDerivAt.comp_hasDerivAt t ((hasDerivAt_const t x).prodMk (hasDerivAt_id t))
    have := norm_image_sub_le_of_norm_deriv_le_segment' (f := fun t => ψ (x, t)) (f' := fun t => D ψ (x, t) (0, 1)) (C := Λ) (a := 0) (b := h)
      (fun t _ => (hder t).hasDerivWithinAt) (fun t ht => by
        have hn : ‖((x - c, t) : F × ℝ)‖ ≤ r := by
          rw [Prod.norm_def]
          exact max_le hx (by rw [Real.norm_of_nonneg ht.1]; linarith [ht.2])
        have h1 := hb (c, 0) ⟨hc, rfl⟩ (x - c, t) hn
        simp only [Prod.mk_add_mk, add_sub_cancel, zero_add] at h1
        have h2 := (D ψ (x, t)).le_opNorm (0, 1)
        have h3 : ‖((0, 1) : F × ℝ)‖ = 1 := by rw [Prod.norm_def]; simp
        rw [h3, mul_one] at h2
        exact h2.trans h1) h ⟨hh, le_rfl⟩
    rw [hψ0, sub_zero] at this
    exact this
  have hball := (convex_closedBall c r).norm_image_sub_le_of_norm_hasFDerivWithin_le (f := fun x => Φ x h - x) (f' := fun x => ψ (x, h) - ContinuousLinearMap.id ℝ F) (C := Λ * h) (x := v) (y := u)
    (fun x _ => ((hd x h).sub (hasFDerivAt_id x)).hasFDerivWithinAt) (fun x hx => hψb x (mem_closedBall_iff_norm.1 hx)) (mem_closedBall_iff_norm.2 hv) (mem_closedBall_iff_norm.2 hu)
  have e : Φ u h - Φ v h = (u - v) + ((Φ u h - u) - (Φ v h - v)) := by abel
  rw [e]
  refine (norm_add_le _ _).trans ?_
  linarith

/-- A smooth one-step method of local order `p` converges with order `p`. -/
theorem converges_smooth {F : Type*} [NormedAddCommGroup F] [NormedSpace ℝ F] {T : ℝ} {y : ℝ → F} {Φ : F → ℝ → F} {p : ℕ} (hp : 1 ≤ p) (hy : ∀ t, 0 ≤ t → t ≤ T → ContinuousAt y t)
    (hΦ : ContDiff ℝ 2 fun p : F × ℝ => Φ p.1 p.2) (hΦ0 : ∀ f, Φ f 0 = f) (hloc : O (lf T) Prod.fst (p + 1) fun q => Φ (y q.2) q.1 - y (q.1 + q.2)) : GlobalOrder Φ y T p := by
  by_cases hT : 0 ≤ T
  swap
  · refine ⟨0, 1, one_pos, fun h hh _ n hn => ?_⟩
    have : (0 : ℝ) ≤ n * h := by positivity
    exact absurd (this.trans hn) hT
  obtain ⟨r, Λ, hr, hΛ, hlip⟩ := step_lip hΦ hΦ0 (compact_along hy)
  rw [O_lf] at hloc
  obtain ⟨K, r3, hK, hr3, hloc⟩ := hloc
  obtain ⟨W, hW⟩ : ∃ W, W = K * T * Real.exp (Λ * T) := ⟨_, rfl⟩
  have hW0 : 0 ≤ W := by rw [hW]; positivity
  refine ⟨W, min (min 1 r3) (min r (r / (W + 1))), by positivity, fun h hh hle n hn => ?_⟩
  have l1 : h ≤ 1 := hle.trans ((min_le_left _ _).trans (min_le_left _ _))
  have l2 : h ≤ r3 := hle.trans ((min_le_left _ _).trans (min_le_right _ _))
  have l3 : h ≤ r := hle.trans ((min_le_right _ _).trans (min_le_left _ _))
  have l4 : W * h ^ p ≤ r := by
    have h4 : h ≤ r / (W + 1) := hle.trans ((min_le_right _ _).trans (min_le_right _ _))
    rw [le_div_iff₀ (by positivity)] at h4
    have hpow : h ^ p ≤ h := by
      calc h ^ p ≤ h ^ 1 := pow_le_pow_of_le_one hh l1 hp
        _ = h := pow_one h
    have := mul_le_mul_of_nonneg_left hpow hW0
    linarith
  have gron : ∀ m : ℕ, m * h ≤ T → (m : ℝ) * (K * h ^ (p + 1)) * (1 + h * Λ) ^ m ≤ W * h ^ p := by
    intro m hm
    have hq : (1 + h * Λ) ^ m ≤ Real.exp (Λ * T) := by
      have h1 : 1 + h * Λ ≤ Real.exp (h * Λ) := by linarith [Real.add_one_le_exp (h * Λ)]
      calc (1 + h * Λ) ^ m ≤ Real.exp (h * Λ) ^ m := pow_le_pow_left₀ (by positivity) h1 m
        _ = Real.exp (m * (h * Λ)) := (Real.exp_nat_mul _ _).symm
        _ ≤ Real.exp (Λ * T) := by
          apply Real.exp_le_exp.2
          calc m * (h * Λ) = Λ * (m * h) := by ring
            _ ≤ Λ * T := mul_le_mul_of_nonneg_left hm hΛ
    have hs : (m : ℝ) * (K * h ^ (p + 1)) ≤ K * T * h ^ p := by
      calc (m : ℝ) * (K * h ^ (p + 1)) = K * h ^ p * (m * h) := by ring
        _ ≤ K * h ^ p * T := mul_le_mul_of_nonneg_left hm (by positivity)
        _ = K * T * h ^ p := by ring
    calc (m : ℝ) * (K * h ^ (p + 1)) * (1 + h * Λ) ^ m ≤ K * T * h ^ p * Real.exp (Λ * T) := mul_le_mul hs hq (by positivity) (by positivity)
      _ = W * h ^ p := by rw [hW]; ring
  have main : ∀ m : ℕ, m ≤ n → ‖(fun u => Φ u h)^[m] (y 0) - y (m * h)‖ ≤ (m : ℝ) * (K * h ^ (p + 1)) * (1 + h * Λ) ^ m := by
    intro m
    induction m with
    | zero => intro _; simp
    | succ m ih =>
      intro hmn
      have hm : ((m : ℝ) + 1) * h ≤ T := by
        refine le_trans (mul_le_mul_of_nonneg_right ?_ hh) hn
        exact_mod_cast hmn
      rw [Function.iterate_succ_apply']
      push_cast
      obtain ⟨um, hum⟩ : ∃ um, um = (fun u => Φ u h)^[m] (y 0) := ⟨_, rfl⟩
      rw [← hum] at ih ⊢
      have hm' : (m : ℝ) * h ≤ T := by linarith
      have e1 := ih (by omega)
      have hmh : 0 ≤ (m : ℝ) * h := by positivity
      have hin : ‖um - y (m * h)‖ ≤ r := (e1.trans (gron m hm')).trans l4
      have s1 := hlip (y (m * h)) ⟨m * h, ⟨hmh, hm'⟩, rfl⟩ um (y (m * h)) hin (by simp; exact hr.le) h hh l3
      have s2 := hloc h (m * h) hh l2 hmh (by linarith)
      simp only at s2
      have et : h + (m : ℝ) * h = (m + 1) * h := by ring
      rw [et] at s2
      have tri := norm_sub_le_norm_sub_add_norm_sub (Φ um h) (Φ (y (m * h)) h) (y ((m + 1) * h))
      have hq1 : (1 : ℝ) ≤ (1 + h * Λ) ^ (m + 1) := one_le_pow₀ (by nlinarith [mul_nonneg hh hΛ])
      have hKh : 0 ≤ K * h ^ (p + 1) := by positivity
      calc _ ≤ (1 + h * Λ) * ‖um - y (m * h)‖ + K * h ^ (p + 1) := by linarith
        _ ≤ (1 + h * Λ) * ((m : ℝ) * (K * h ^ (p + 1)) * (1 + h * Λ) ^ m) + K * h ^ (p + 1) * (1 + h * Λ) ^ (m + 1) := by
          refine add_le_add (mul_le_mul_of_nonneg_left e1 (by positivity)) ?_
          nlinarith
        _ = ((m : ℝ) + 1) * (K * h ^ (p + 1)) * (1 + h * Λ) ^ (m + 1) := by ring
  exact (main n le_rfl).trans (gron n hn)

/-! ## Flows that depend on a field -/

section field

variable {F W : Type*} [NormedAddCommGroup F] [NormedSpace ℝ F] [NormedAddCommGroup W] [NormedSpace ℝ W]

/-- Specification: for every fixed field `e`, `op f e t` is the value at time `t` of the solution of `f' = G(f, e)` starting from `f`; it depends smoothly on the
state, the field and time. -/
structure FieldFlow (op : F → W → ℝ → F) (G : F → W → F) : Prop where
  smooth : ContDiff ℝ 3 fun p : F × W × ℝ => op p.1 p.2.1 p.2.2
  zero : ∀ f e, op f e 0 = f
  deriv : ∀ f e t, HasDerivAt (fun t => op f e t) (G (op f e t) e) t

/-- State and field together. -/
def ext (op : F → W → ℝ → F) (z : F × W) (t : ℝ) : F × W := (op z.1 z.2 t, z.2)

/-- The generator on the pairs. -/
def extGen (G : F → W → F) (z : F × W) : F × W := (G z.1 z.2, 0)

theorem FieldFlow.ext {op : F → W → ℝ → F} {G : F → W → F} (h : FieldFlow op G) : SmoothFlow (ext op) (extGen G) := by
  refine ⟨?_, fun z => ?_, fun z t => ?_⟩
  · have h1 : ContDiff ℝ 3 fun p : (F × W) × ℝ => (p.1.1, p.1.2, p.2) := by fun_prop
    have h2 : ContDiff ℝ 3 fun p : (F × W) × ℝ => p.1.2 := by fun_prop
    exact (h.smooth.comp h1).prodMk h2
  · simp [FlowComp.ext, h.zero]
  · exact (h.deriv z.1 z.2 t).prodMk (hasDerivAt_const t z.2)

/-- A sub-step: duration as a fraction of the time step, operator, generator. -/
structure Sub (F W : Type*) where
  c : ℝ
  op : F → W → ℝ → F
  gen : F → W → F

/-- The sub-steps, one after the other, with the same field. -/
noncomputable def comp (L : List (Sub F W)) (f : F) (e : W) (h : ℝ) : F := L.foldl (fun f q => q.op f e (q.c * h)) f

/-- The sum of the generators, weighted by the total durations. -/
noncomputable def sumG (L : List (Sub F W)) (f : F) (e : W) : F := (L.map fun q => q.c • q.gen f e).sum

/-- All the sub-steps are flows and go forward in time. -/
def Good (L : List (Sub F W)) : Prop := ∀ q ∈ L, 0 ≤ q.c ∧ FieldFlow q.op q.gen

noncomputable def compZ (L : List (Sub F W)) (z : F × W) (h : ℝ) : F × W := L.foldl (fun z q => ext q.op z (q.c * h)) z

omit [NormedAddCommGroup F] [NormedSpace ℝ F] [NormedAddCommGroup W] [NormedSpace ℝ W] in
theorem compZ_eq (L : List (Sub F W)) (z : F × W) (h : ℝ) : compZ L z h = (comp L z.1 z.2 h, z.2) := by
  induction L generalizing z with
  | nil => rfl
  | cons q L ih =>
    have := ih (ext q.op z (q.c * h))
    simpa [compZ, comp, ext] using this

/-- Values and derivatives of the generators at a point. -/
noncomputable def data (L : List (Sub F W)) (z : F × W) : List ((F × W) × ((F × W) →L[ℝ] (F × W))) := L.map fun q => (q.c • extGen q.gen z, q.c • D (extGen q.gen) z)

theorem data_continuous {L : List (Sub F W)} (hL : Good L) : Continuous (fun z => q1 (data L z)) ∧ Continuous (fun z => q1' (data L z)) ∧ Continuous (fun z => q2 (data L z)) := by
  induction L with
  | nil => exact ⟨continuous_const, continuous_const, continuous_const⟩
  | cons q L ih =>
    obtain ⟨h1, h2, h3⟩ := ih fun r hr => hL r (List.mem_cons_of_mem _ hr)
    have hg := (hL q (by simp)).2.ext.gen
    have c1 : Continuous fun z => q.c • extGen q.gen z := (continuous_const_smul q.c).comp hg.continuous
    have c2 : Continuous fun z => q.c • D (extGen q.gen) z := (continuous_const_smul q.c).comp (hg.continuous_fderiv (by norm_num))
    simp only [data, List.map_cons, q1, q1', q2] at h1 h2 h3 ⊢
    exact ⟨c1.add h1, c2.add h2, (((c2.clm_apply c1).const_smul (1 / 2 : ℝ)).add (h2.clm_apply c1)).add h3⟩

variable {T : ℝ} {z : ℝ → F × W}

theorem comp_O {L : List (Sub F W)} (hL : Good L) (hz : ∀ t, 0 ≤ t → t ≤ T → ContinuousAt z t) {a b d : ℝ × ℝ → F × W}
    (ha : O (lf T) Prod.fst 0 a) (hb : O (lf T) Prod.fst 0 b) (hd : O (lf T) Prod.fst 3 fun p => d p - (p.1 • a p + p.1 ^ 2 • b p)) :
    O (lf T) Prod.fst 3 fun p => (compZ L (z p.2 + d p) p.1 - z p.2) -
      (p.1 • (a p + q1 (data L (z p.2))) + p.1 ^ 2 • (b p + q1' (data L (z p.2)) (a p) + q2 (data L (z p.2)))) := by
  induction L generalizing a b d with
  | nil =>
    refine IsBigO.congr_left hd fun p => ?_
    simp [compZ, data, q1, q1', q2]
  | cons q L ih =>
    have hL' : Good L := fun r hr => hL r (List.mem_cons_of_mem _ hr)
    obtain ⟨hc, hq⟩ := hL q (by simp)
    have hA := hq.ext.gen
    have bA := bounded_along (T := T) hA.continuous hz
    have bD := bounded_along (T := T) (hA.continuous_fderiv (by norm_num)) hz
    have h1 := flow_step hq.ext hc hz ha hb hd
    have h2 := ih hL' (ha.add (bA.csmul q.c)) ((hb.add ((bD.app ha).csmul q.c)).add ((bD.app bA).csmul (q.c ^ 2 / 2))) h1
    refine IsBigO.congr_left h2 fun p => ?_
    have e : z p.2 + (ext q.op (z p.2 + d p) (q.c * p.1) - z p.2) = ext q.op (z p.2 + d p) (q.c * p.1) := by abel
    rw [e]
    simp only [compZ, List.foldl_cons, data, List.map_cons, q1, q1', q2, add_apply, smul_apply, map_add, map_smul]
    module

/-! ### The sum of the generators -/

theorem q1_data {L : List (Sub F W)} (z : F × W) : q1 (data L z) = (sumG L z.1 z.2, 0) := by
  induction L with
  | nil => rfl
  | cons q L ih =>
    have ih' : q1 (List.map (fun q => (q.c • extGen q.gen z, q.c • D (extGen q.gen) z)) L) = (sumG L z.1 z.2, 0) := ih
    simp only [data, List.map_cons, q1, ih']
    simp [sumG, extGen]

theorem q1'_data {L : List (Sub F W)} (hL : Good L) (z : F × W) : HasFDerivAt (fun z : F × W => ((sumG L z.1 z.2, 0) : F × W)) (q1' (data L z)) z := by
  induction L with
  | nil => exact hasFDerivAt_const (0 : F × W) z
  | cons q L ih =>
    have hg := (hL q (by simp)).2.ext.gen
    have h1 := (((hg.differentiable (by norm_num)) z).hasFDerivAt.const_smul q.c).add (ih fun r hr => hL r (List.mem_cons_of_mem _ hr))
    have e : (fun z : F × W => ((sumG (q :: L) z.1 z.2, 0) : F × W)) = (fun z => q.c • extGen q.gen z) + fun z : F × W => ((sumG L z.1 z.2, 0) : F × W) := by
      funext z
      simp [sumG, extGen]
    rw [e]
    exact h1

theorem sumG_contDiff {L : List (Sub F W)} (hL : Good L) : ContDiff ℝ 2 fun z : F × W => sumG L z.1 z.2 := by
  induction L with
  | nil => exact contDiff_const
  | cons q L ih =>
    have hg := (hL q (by simp)).2.ext.gen
    have h1 : ContDiff ℝ 2 fun z : F × W => q.c • q.gen z.1 z.2 := (contDiff_fst.comp hg).const_smul q.c
    have h2 := h1.add (ih fun r hr => hL r (List.mem_cons_of_mem _ hr))
    simpa [sumG] using h2

theorem comp_contDiff {L : List (Sub F W)} (hL : Good L) : ContDiff ℝ 2 fun p : F × W × ℝ => comp L p.1 p.2.1 p.2.2 := by
  have key : ∀ (g : F × W × ℝ → F), ContDiff ℝ 2 g → ContDiff ℝ 2 fun p : F × W × ℝ => comp L (g p) p.2.1 p.2.2 := by
    induction L with
    | nil => intro g hg; exact hg
    | cons q L ih =>
      intro g hg
      have hq := (hL q (by simp)).2
      have h1 : ContDiff ℝ 2 fun p : F × W × ℝ => (g p, p.2.1, q.c * p.2.2) := hg.prodMk (by fun_prop)
      exact ih (fun r hr => hL r (List.mem_cons_of_mem _ hr)) _ ((hq.smooth.of_le (by norm_num)).comp h1)
  exact key _ contDiff_fst

theorem comp_zero {L : List (Sub F W)} (hL : Good L) (f : F) (e : W) : comp L f e 0 = f := by
  induction L generalizing f with
  | nil => rfl
  | cons q L ih =>
    have := ih (fun r hr => hL r (List.mem_cons_of_mem _ hr)) (q.op f e (q.c * 0))
    simp only [comp, List.foldl_cons] at this ⊢
    rw [this, mul_zero, (hL q (by simp)).2.zero]

end field

end Verif.FlowComp
