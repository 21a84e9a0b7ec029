import Verif.Props.FlowComp
import Verif.Props.TimeLoops
import Verif.Props.Splitting
import Mathlib.Analysis.SpecialFunctions.Trigonometric.DerivHyp
import Mathlib.Analysis.SpecialFunctions.Exponential
import Mathlib.Analysis.SpecificLimits.Basic

/-!
# C104: second order accuracy of the predictor-corrector time loops, with the self-consistent field
-/

open Filter Asymptotics Topology

namespace Verif.VlasovOrder

open Verif.RkOrder Verif.Taylor Verif.FlowComp Verif.TimeLoops Verif.Splitting

variable {F W : Type*} [NormedAddCommGroup F] [NormedSpace ℝ F] [NormedAddCommGroup W] [NormedSpace ℝ W] {T : ℝ}

theorem O_half {G : Type*} [NormedAddCommGroup G] {n : ℕ} {u : ℝ × ℝ → G} (h : O (lf T) Prod.fst n u) : O (lf T) Prod.fst n fun p => u (p.1 / 2, p.2) := by
  rw [O_lf] at h ⊢
  obtain ⟨K, r, hK, hr, hb⟩ := h
  refine ⟨K, r, hK, hr, fun h s h0 h1 s0 hs => ?_⟩
  refine (hb (h / 2) s (by linarith) (by linarith) s0 (by linarith)).trans ?_
  exact mul_le_mul_of_nonneg_left (pow_le_pow_left₀ (by linarith) (by linarith) n) hK

theorem O_fst {n : ℕ} {u : ℝ × ℝ → F × W} (h : O (lf T) Prod.fst n u) : O (lf T) Prod.fst n fun p => (u p).1 :=
  IsBigO.trans (IsBigO.of_bound 1 (Eventually.of_forall fun p => by rw [one_mul]; exact norm_fst_le _)) h

/-- One step of the predictor-corrector: half a step with the field of the initial state, the field of the result, a full step with that field. -/
noncomputable def pc (step : F → W → ℝ → F) (E : F → W) (f : F) (h : ℝ) : F := step f (E (step f (E f) (h / 2))) h

/-- The error of second order of a list of sub-steps. -/
noncomputable def defect (L : List (Sub F W)) (z : F × W) : F := (q2 (data L z) - (1 / 2 : ℝ) • q1' (data L z) (q1 (data L z))).1

/-- Expansion of one step of the predictor-corrector built on any list of flows. -/
theorem pc_O {L : List (Sub F W)} (hL : Good L) {E : F → W} (hE : ContDiff ℝ 2 E) {y : ℝ → F} (hy : Solves (fun f => sumG L f (E f)) y T) :
    O (lf T) Prod.fst 3 fun p => pc (comp L) E (y p.2) p.1 - y (p.1 + p.2) - p.1 ^ 2 • defect L (y p.2, E (y p.2)) := by
  have ht := lf_tendsto T
  have hyc : ∀ t, 0 ≤ t → t ≤ T → ContinuousAt y t := fun t h0 h1 => (hy t h0 h1).continuousAt
  obtain ⟨z, hzd⟩ : ∃ z : ℝ → F × W, z = fun s => (y s, E (y s)) := ⟨_, rfl⟩
  have hz : ∀ t, 0 ≤ t → t ≤ T → ContinuousAt z t := fun t h0 h1 => by
    rw [hzd]
    exact (hyc t h0 h1).prodMk (hE.continuous.continuousAt.comp (hyc t h0 h1))
  obtain ⟨c1, c2, c3⟩ := data_continuous hL
  have b1 := bounded_along (T := T) c1 hz
  have b2 := bounded_along (T := T) c2 hz
  have b3 := bounded_along (T := T) c3 hz
  have hz0 : ∀ n, O (lf T) Prod.fst n fun _ : ℝ × ℝ => (0 : F × W) := fun n => isBigO_zero _ _
  -- the predictor
  have p1 := comp_O hL hz (a := fun _ => 0) (b := fun _ => 0) (d := fun _ => 0) (hz0 0) (hz0 0) (by simpa using hz0 3)
  have p2 := O_half p1
  simp only [add_zero, zero_add, map_zero] at p2
  -- the field of the predictor
  obtain ⟨Et, hEt⟩ : ∃ Et : F × W → F × W, Et = fun z => (0, E z.1) := ⟨_, rfl⟩
  have hEt2 : ContDiff ℝ 2 Et := by
    rw [hEt]
    exact contDiff_const.prodMk (hE.comp contDiff_fst)
  have t2 := tay2 hEt2 hz
  have p3 := t2.comp (by norm_num) (by norm_num) (a := fun p => (1 / 2 : ℝ) • q1 (data L (z p.2))) (b := fun p => (1 / 4 : ℝ) • q2 (data L (z p.2))) (c := fun _ => 0)
    (b1.csmul _) (b3.csmul _) (hz0 0) (D := fun p => compZ L (z p.2) (p.1 / 2) - z p.2) (by
      refine IsBigO.congr_left (p2.mono (n := 2) ht (by norm_num)) fun p => ?_
      module)
  obtain ⟨d, hd⟩ : ∃ d : ℝ × ℝ → F × W, d = fun p => Et (compZ L (z p.2) (p.1 / 2)) - Et (z p.2) := ⟨_, rfl⟩
  obtain ⟨a, ha⟩ : ∃ a : ℝ × ℝ → F × W, a = fun p => D Et (z p.2) ((1 / 2 : ℝ) • q1 (data L (z p.2))) := ⟨_, rfl⟩
  have ha0 : O (lf T) Prod.fst 0 a := by rw [ha]; exact t2.bA.app (b1.csmul _)
  have hd2 : O (lf T) Prod.fst 2 fun p => d p - p.1 • a p := by
    have hb := (t2.bA.app (b3.csmul (1 / 4))).hsmul 2
    refine IsBigO.congr_left (p3.add hb) fun p => ?_
    have e : z p.2 + (compZ L (z p.2) (p.1 / 2) - z p.2) = compZ L (z p.2) (p.1 / 2) := by abel
    rw [e, hd, ha]
    simp only [zero_apply, map_zero, smul_zero, add_zero]
    module
  obtain ⟨b, hb⟩ : ∃ b : ℝ × ℝ → F × W, b = fun p => (p.1 ^ 2)⁻¹ • (d p - p.1 • a p) := ⟨_, rfl⟩
  have hb0 : O (lf T) Prod.fst 0 b := by
    rw [O_lf] at hd2 ⊢
    obtain ⟨K, r, hK, hr, hbd⟩ := hd2
    refine ⟨K, r, hK, hr, fun h s h0 h1 s0 hs => ?_⟩
    rw [hb, pow_zero, mul_one]
    simp only
    rw [norm_smul, norm_inv, norm_pow, Real.norm_of_nonneg h0]
    rcases h0.eq_or_lt with h00 | h00
    · rw [← h00]; simpa using hK
    · have := hbd h s h0 h1 s0 hs
      rw [inv_mul_le_iff₀ (by positivity)]
      linarith
  have hdE : ∀ p, (d p).1 = 0 := fun p => by rw [hd, hEt]; simp
  have haE : ∀ p, (a p).1 = 0 := fun p => by
    have h1 : HasFDerivAt (fun x => (Et x).1) ((ContinuousLinearMap.fst ℝ F W).comp (D Et (z p.2))) (z p.2) :=
      (ContinuousLinearMap.fst ℝ F W).hasFDerivAt.comp (z p.2) ((hEt2.differentiable (by norm_num)) (z p.2)).hasFDerivAt
    have h2 : HasFDerivAt (fun x : F × W => (Et x).1) (0 : F × W →L[ℝ] F) (z p.2) := by
      rw [hEt]; exact hasFDerivAt_const 0 _
    have h3 := congrArg (fun l : F × W →L[ℝ] F => l ((1 / 2 : ℝ) • q1 (data L (z p.2)))) (h1.unique h2)
    rw [ha]
    simpa using h3
  have hbE : ∀ p, (b p).1 = 0 := fun p => by rw [hb]; simp [hdE, haE]
  have hd3 : O (lf T) Prod.fst 3 fun p => d p - (p.1 • a p + p.1 ^ 2 • b p) := by
    refine IsBigO.congr' (isBigO_zero _ _) (f₁ := fun _ => (0 : F × W)) ?_ EventuallyEq.rfl
    have hz1 : O (lf T) Prod.fst 3 fun _ : ℝ × ℝ => (0 : F × W) := hz0 3
    filter_upwards with p
    rw [hb]
    simp only
    by_cases h0 : p.1 = 0
    · have : d p = 0 := by
        rw [hd]
        simp only [h0, zero_div, compZ_eq]
        rw [comp_zero hL]
        simp
      rw [this, h0]; simp
    · rw [smul_smul, mul_inv_cancel₀ (pow_ne_zero 2 h0), one_smul]
      abel
  have p4 := O_fst (comp_O hL hz ha0 hb0 hd3)
  -- the exact solution
  have hG : ContDiff ℝ 2 fun f => sumG L f (E f) := (sumG_contDiff hL).comp (contDiff_id.prodMk hE)
  have tG := tay2 hG hyc
  have ex := exact3 (f := fun f => sumG L f (E f)) (A := fun s => D (fun f => sumG L f (E f)) (y s)) (B := fun _ => 0) (C := fun _ => 0) hy hG.continuous tG le_rfl
  refine IsBigO.congr_left (p4.sub ex) fun p => ?_
  -- chain rule
  have hch : D (fun f => sumG L f (E f)) (y p.2) (sumG L (y p.2) (E (y p.2))) =
      (q1' (data L (z p.2)) (q1 (data L (z p.2)))).1 + (2 : ℝ) • (q1' (data L (z p.2)) (a p)).1 := by
    have hEd := ((hE.differentiable (by norm_num)) (y p.2)).hasFDerivAt
    have h1 : HasFDerivAt (fun f => ((f, E f) : F × W)) ((ContinuousLinearMap.id ℝ F).prod (fderiv ℝ E (y p.2))) (y p.2) := (hasFDerivAt_id (y p.2)).prodMk hEd
    have hzz : ((y p.2, E (y p.2)) : F × W) = z p.2 := by rw [hzd]
    have h2 := q1'_data hL (z p.2)
    rw [← hzz] at h2
    have h3 := (ContinuousLinearMap.fst ℝ F W).hasFDerivAt.comp (y p.2) (h2.comp (y p.2) h1)
    have h4 : D (fun f => sumG L f (E f)) (y p.2) = _ := h3.fderiv
    have hEtd : D Et (z p.2) (q1 (data L (z p.2))) = (0, fderiv ℝ E (y p.2) (sumG L (y p.2) (E (y p.2)))) := by
      have g0 : HasFDerivAt (fun x : F × W => E x.1) ((fderiv ℝ E (y p.2)).comp (ContinuousLinearMap.fst ℝ F W)) (z p.2) := by
        have : HasFDerivAt E (fderiv ℝ E (y p.2)) (z p.2).1 := by rw [hzd]; exact hEd
        exact this.comp (z p.2) (hasFDerivAt_fst (𝕜 := ℝ) (p := z p.2))
      have g1 : HasFDerivAt Et ((0 : F × W →L[ℝ] F).prod ((fderiv ℝ E (y p.2)).comp (ContinuousLinearMap.fst ℝ F W))) (z p.2) := by
        rw [hEt]
        exact (hasFDerivAt_const (0 : F) (z p.2)).prodMk g0
      have g2 : D Et (z p.2) = _ := g1.fderiv
      rw [g2, q1_data]
      simp [hzd]
    have ea : (2 : ℝ) • a p = (0, fderiv ℝ E (y p.2) (sumG L (y p.2) (E (y p.2)))) := by
      rw [ha, ← hEtd]
      simp only [map_smul]
      module
    rw [h4]
    simp only [ContinuousLinearMap.comp_apply, ContinuousLinearMap.prod_apply, ContinuousLinearMap.id_apply, ContinuousLinearMap.coe_fst', hzz]
    rw [← Prod.smul_fst, ← map_smul, ea, ← Prod.fst_add, ← map_add, q1_data]
    simp [hzd]
  have hq1 : (q1 (data L (z p.2))).1 = sumG L (y p.2) (E (y p.2)) := by rw [q1_data, hzd]
  have hcomp : (compZ L (z p.2 + d p) p.1).1 = pc (comp L) E (y p.2) p.1 := by
    rw [compZ_eq]
    have e1 : (z p.2 + d p).1 = y p.2 := by rw [Prod.fst_add, hdE, hzd]; simp
    have e2 : (z p.2 + d p).2 = E (comp L (y p.2) (E (y p.2)) (p.1 / 2)) := by
      rw [Prod.snd_add, hd, hEt]; simp [compZ_eq, hzd]
    simp only [e1, e2, pc]
  have hzz : ((y p.2, E (y p.2)) : F × W) = z p.2 := by rw [hzd]
  have hz1 : (z p.2).1 = y p.2 := by rw [hzd]
  rw [hch]
  simp only [Prod.fst_sub, Prod.fst_add, Prod.smul_fst, hcomp, haE, hbE, hq1, hz1, defect, incr, hzz, zero_add]
  module

/-- A palindrome of flows gives a method of second order. -/
theorem pc_second_order {L : List (Sub F W)} (hL : Good L) (hrev : L.reverse = L) {E : F → W} (hE : ContDiff ℝ 2 E) {y : ℝ → F} (hy : Solves (fun f => sumG L f (E f)) y T) :
    LocalOrder (pc (comp L) E) y T 2 ∧ GlobalOrder (pc (comp L) E) y T 2 := by
  have hO : O (lf T) Prod.fst 3 fun p => pc (comp L) E (y p.2) p.1 - y (p.1 + p.2) := by
    refine IsBigO.congr_left (pc_O hL hE hy) fun p => ?_
    have hr : ∀ z, (data L z).reverse = data L z := fun z => by rw [data, ← List.map_reverse, hrev]
    have : defect L (y p.2, E (y p.2)) = 0 := by
      rw [defect, q2_palindrome (hr _)]; simp
    rw [this]; simp
  refine ⟨localOrder_of_O hO, converges_smooth (by norm_num) (fun t h0 h1 => (hy t h0 h1).continuousAt) ?_ ?_ hO⟩
  · have hc := comp_contDiff hL
    have h1 : ContDiff ℝ 2 fun p : F × ℝ => E (comp L p.1 (E p.1) (p.2 / 2)) :=
      hE.comp (hc.comp (contDiff_fst.prodMk ((hE.comp contDiff_fst).prodMk (contDiff_snd.div_const 2))))
    exact hc.comp (contDiff_fst.prodMk (h1.prodMk contDiff_snd))
  · intro f
    simp only [pc]
    exact comp_zero hL _ _

/-! ## The operators of the code -/

theorem pc_eq_midpoint (step : F → W → ℝ → F) (E : F → W) (h : ℝ) : (fun f => pc step E f h) = TimeLoops.midpoint step E h := rfl

theorem _root_.Verif.FlowComp.SmoothFlow.toField {φ : F → ℝ → F} {A : F → F} (h : SmoothFlow φ A) : FieldFlow (fun f (_ : W) t => φ f t) (fun f _ => A f) := by
  refine ⟨?_, fun f _ => h.zero f, fun f _ t => h.deriv f t⟩
  have h1 : ContDiff ℝ 3 fun p : F × W × ℝ => (p.1, p.2.2) := by fun_prop
  exact h.smooth.comp h1

theorem _root_.Verif.FlowComp.FieldFlow.precomp {W' : Type*} [NormedAddCommGroup W'] [NormedSpace ℝ W'] {op : F → W → ℝ → F} {G : F → W → F} (h : FieldFlow op G) {π : W' → W} (hπ : ContDiff ℝ 3 π) :
    FieldFlow (fun f e t => op f (π e) t) (fun f e => G f (π e)) := by
  refine ⟨?_, fun f e => h.zero f _, fun f e t => h.deriv f _ t⟩
  have h1 : ContDiff ℝ 3 fun p : F × W' × ℝ => (p.1, π p.2.1, p.2.2) := contDiff_fst.prodMk ((hπ.comp (by fun_prop)).prodMk (by fun_prop))
  exact h.smooth.comp h1

/-- From the abstract statement to a loop of the code. -/
theorem run_order {L : List (Sub F W)} (hL : Good L) (hrev : L.reverse = L) {E : F → W} (hE : ContDiff ℝ 2 E) {y : ℝ → F} {G : F → F} (hy : Solves G y T) {step : F → W → ℝ → F}
    (hstep : ∀ f e h, step f e h = comp L f e h) (hG : ∀ f, G f = sumG L f (E f)) :
    ∃ K h0 : ℝ, 0 < h0 ∧ ∀ h, 0 ≤ h → h ≤ h0 → ∀ n : ℕ, n * h ≤ T → ‖(TimeLoops.midpoint step E h)^[n] (y 0) - y (n * h)‖ ≤ K * h ^ 2 := by
  have e1 : step = comp L := by funext f e h; exact hstep f e h
  have e2 : G = fun f => sumG L f (E f) := funext hG
  rw [e2] at hy
  rw [e1]
  exact (pc_second_order hL hrev hE hy).2

/-- Specification: on `[0, T]`, a run of `n` steps of size `h` that starts from `y 0` ends at most `K h²` away from `y (n h)`. -/
def SecondOrder (run : F → ℝ → ℕ → F) (y : ℝ → F) (T : ℝ) : Prop :=
  ∃ K h0 : ℝ, 0 < h0 ∧ ∀ h, 0 ≤ h → h ≤ h0 → ∀ n : ℕ, n * h ≤ T → ‖run (y 0) h n - y (n * h)‖ ≤ K * h ^ 2

/-- **C104, 1D1V.** `ax`, `av` are the flows of `A` (advection in space) and of `B` (advection in velocity in a given field), and `poisson f` is the pair of the potential
and the field of `f`. The time loop approximates the solution of the *coupled* equation `f' = A(f) + B(f, E(f))` to second order. -/
theorem c104_xvx {Φ : Type*} {ax : F → ℝ → F} {A : F → F} {av : F → W → ℝ → F} {B : F → W → F} {poisson : F → Φ × W} (hx : SmoothFlow ax A) (hv : FieldFlow av B)
    (hE : ContDiff ℝ 2 fun f => (poisson f).2) {y : ℝ → F} (hy : Solves (fun f => A f + B f (poisson f).2) y T) (t0 : ℝ) :
    SecondOrder (fun f h n => (predCorrXVx (splitVlasovXVx ax av) poisson f t0 h n).1) y T := by
  have := run_order (L := [⟨1 / 2, fun f _ t => ax f t, fun f _ => A f⟩, ⟨1, av, B⟩, ⟨1 / 2, fun f _ t => ax f t, fun f _ => A f⟩]) (by
    intro q hq
    simp only [List.mem_cons, List.not_mem_nil, or_false] at hq
    rcases hq with rfl | rfl | rfl
    · exact ⟨by norm_num, hx.toField⟩
    · exact ⟨by norm_num, hv⟩
    · exact ⟨by norm_num, hx.toField⟩) rfl hE hy (step := splitVlasovXVx ax av) (fun f e h => by
      simp only [splitVlasovXVx, comp, List.foldl_cons, List.foldl_nil, one_mul, show (1 / 2 : ℝ) * h = h / 2 by ring]) (fun f => by
      simp only [sumG, List.map_cons, List.map_nil, List.sum_cons, List.sum_nil]
      module)
  simpa only [SecondOrder, c46_xvx] using this

/-- The documented sequence of sources, as a list of flows. -/
noncomputable def sources (rs : List ((F → ℝ → F) × (F → F))) : List (Sub F W) := rs.map fun r => ⟨1 / 2, fun f _ t => r.1 f t, fun f _ => r.2 f⟩

theorem sources_good {rs : List ((F → ℝ → F) × (F → F))} (h : ∀ r ∈ rs, SmoothFlow r.1 r.2) : Good (sources (W := W) rs) := by
  intro q hq
  obtain ⟨r, hr, rfl⟩ := List.mem_map.1 hq
  exact ⟨by norm_num, (h r hr).toField⟩

theorem comp_append (L M : List (Sub F W)) (f : F) (e : W) (h : ℝ) : comp (L ++ M) f e h = comp M (comp L f e h) e h := by
  simp only [comp, List.foldl_append]

theorem sumG_append (L M : List (Sub F W)) (f : F) (e : W) : sumG (L ++ M) f e = sumG L f e + sumG M f e := by
  simp only [sumG, List.map_append, List.sum_append]

theorem sumG_reverse (L : List (Sub F W)) (f : F) (e : W) : sumG L.reverse f e = sumG L f e := by
  simp only [sumG, List.map_reverse, List.sum_reverse]

theorem sumG_sources (rs : List ((F → ℝ → F) × (F → F))) (f : F) (e : W) : sumG (sources rs) f e = (1 / 2 : ℝ) • (rs.map fun r => r.2 f).sum := by
  induction rs with
  | nil => simp [sumG, sources]
  | cons r rs ih =>
    simp only [sumG, sources, List.map_cons, List.sum_cons, smul_add] at ih ⊢
    rw [ih]

theorem comp_sources (rs : List ((F → ℝ → F) × (F → F))) (f : F) (e : W) (h : ℝ) : comp (sources rs) f e h = applyRhs (rs.map Prod.fst) f h := by
  induction rs generalizing f with
  | nil => rfl
  | cons r rs ih =>
    have := ih (r.1 f (h / 2))
    simp only [comp, sources, List.map_cons, List.foldl_cons, applyRhs, show (1 / 2 : ℝ) * h = h / 2 by ring] at this ⊢
    exact this

/-- The flows of the Vlasov step. -/
noncomputable def vlasovList (ax : F → ℝ → F) (A : F → F) (av : F → W → ℝ → F) (B : F → W → F) : List (Sub F W) :=
  [⟨1 / 2, fun f _ t => ax f t, fun f _ => A f⟩, ⟨1, av, B⟩, ⟨1 / 2, fun f _ t => ax f t, fun f _ => A f⟩]

theorem vlasov_good {ax : F → ℝ → F} {A : F → F} {av : F → W → ℝ → F} {B : F → W → F} (hx : SmoothFlow ax A) (hv : FieldFlow av B) : Good (vlasovList ax A av B) := by
  intro q hq
  simp only [vlasovList, List.mem_cons, List.not_mem_nil, or_false] at hq
  rcases hq with rfl | rfl | rfl
  · exact ⟨by norm_num, hx.toField⟩
  · exact ⟨by norm_num, hv⟩
  · exact ⟨by norm_num, hx.toField⟩

theorem vlasov_comp (ax : F → ℝ → F) (A : F → F) (av : F → W → ℝ → F) (B : F → W → F) (f : F) (e : W) (h : ℝ) : comp (vlasovList ax A av B) f e h = splitVlasovXVx ax av f e h := by
  simp only [vlasovList, splitVlasovXVx, comp, List.foldl_cons, List.foldl_nil, one_mul, show (1 / 2 : ℝ) * h = h / 2 by ring]

theorem vlasov_sumG (ax : F → ℝ → F) (A : F → F) (av : F → W → ℝ → F) (B : F → W → F) (f : F) (e : W) : sumG (vlasovList ax A av B) f e = A f + B f e := by
  simp only [sumG, vlasovList, List.map_cons, List.map_nil, List.sum_cons, List.sum_nil]
  module

/-- **C104, 1D1V with one source or collision operator.** -/
theorem c104_xvx_source {Φ : Type*} {ax : F → ℝ → F} {A : F → F} {av : F → W → ℝ → F} {B : F → W → F} {r : F → ℝ → F} {R : F → F} {poisson : F → Φ × W} (hx : SmoothFlow ax A) (hv : FieldFlow av B)
    (hr : SmoothFlow r R) (hE : ContDiff ℝ 2 fun f => (poisson f).2) {y : ℝ → F} (hy : Solves (fun f => A f + B f (poisson f).2 + R f) y T) (t0 : ℝ) :
    SecondOrder (fun f h n => (predCorrXVx (splitRhs (splitVlasovXVx ax av) [r]) poisson f t0 h n).1) y T := by
  have := run_order (L := sources [(r, R)] ++ (vlasovList ax A av B ++ sources [(r, R)])) (by
    intro q hq
    rcases List.mem_append.1 hq with h | h
    · exact sources_good (W := W) (rs := [(r, R)]) (by simpa using hr) q h
    · rcases List.mem_append.1 h with h | h
      · exact vlasov_good hx hv q h
      · exact sources_good (W := W) (rs := [(r, R)]) (by simpa using hr) q h) rfl hE hy (step := splitRhs (splitVlasovXVx ax av) [r]) (fun f e h => by
      rw [comp_append, comp_append, comp_sources, comp_sources, vlasov_comp]
      rfl) (fun f => by
      rw [sumG_append, sumG_append, sumG_sources, vlasov_sumG]
      simp only [List.map_cons, List.map_nil, List.sum_cons, List.sum_nil, add_zero]
      module)
  simpa only [SecondOrder, c46_xvx] using this

/-- **C104, 1D1V with any number of sources**: with the sequence that the documentation describes (the sources in reverse order after the transport) the method is of second order. -/
theorem c104_xvx_documented {Φ : Type*} {ax : F → ℝ → F} {A : F → F} {av : F → W → ℝ → F} {B : F → W → F} {rs : List ((F → ℝ → F) × (F → F))} {poisson : F → Φ × W} (hx : SmoothFlow ax A) (hv : FieldFlow av B)
    (hr : ∀ r ∈ rs, SmoothFlow r.1 r.2) (hE : ContDiff ℝ 2 fun f => (poisson f).2) {y : ℝ → F} (hy : Solves (fun f => A f + B f (poisson f).2 + (rs.map fun r => r.2 f).sum) y T) (t0 : ℝ) :
    SecondOrder (fun f h n => (predCorrXVx (documentedRhs (splitVlasovXVx ax av) (rs.map Prod.fst)) poisson f t0 h n).1) y T := by
  have hmem : ∀ q ∈ (sources rs).reverse, 0 ≤ q.c ∧ FieldFlow (W := W) q.op q.gen := fun q hq => sources_good hr q (List.mem_reverse.1 hq)
  have fold1 : ∀ (l : List (F → ℝ → F)) g h, applyRhs l g h = l.foldl (fun f r => r f (h / 2)) g := by
    intro l
    induction l with
    | nil => intros; rfl
    | cons r rs ih => intro g h; simp [applyRhs, ih]
  have hrs : (sources (W := W) rs).reverse = sources rs.reverse := by simp [sources]
  have := run_order (L := sources rs ++ (vlasovList ax A av B ++ (sources rs).reverse)) (by
    intro q hq
    rcases List.mem_append.1 hq with h | h
    · exact sources_good hr q h
    · rcases List.mem_append.1 h with h | h
      · exact vlasov_good hx hv q h
      · exact hmem q h) (by
      rw [List.reverse_append, List.reverse_append, List.reverse_reverse, List.append_assoc]
      rfl) hE hy (step := documentedRhs (splitVlasovXVx ax av) (rs.map Prod.fst)) (fun f e h => by
      rw [comp_append, comp_append, hrs, comp_sources, comp_sources, vlasov_comp, fold1, fold1, List.map_reverse]
      rfl) (fun f => by
      rw [sumG_append, sumG_append, sumG_reverse, sumG_sources, vlasov_sumG]
      module)
  simpa only [SecondOrder, c46_xvx] using this

/-- **C104, 2D2V.** -/
theorem c104_xyvxvy {Φ : Type*} {ax ay : F → ℝ → F} {Ax Ay : F → F} {avx avy : F → W → ℝ → F} {Bx By : F → W → F} {poisson : F → Φ × (W × W)} (hx : SmoothFlow ax Ax) (hy' : SmoothFlow ay Ay)
    (hvx : FieldFlow avx Bx) (hvy : FieldFlow avy By) (hE : ContDiff ℝ 2 fun f => (poisson f).2) {y : ℝ → F}
    (hy : Solves (fun f => Ax f + Ay f + Bx f (poisson f).2.1 + By f (poisson f).2.2) y T) :
    SecondOrder (fun f h n => (predCorrXYVxVy (splitVlasovXYVxVy ax ay avx avy) poisson f h n).1) y T := by
  have g1 : FieldFlow (fun f (e : W × W) t => avx f e.1 t) (fun f e => Bx f e.1) := hvx.precomp contDiff_fst
  have g2 : FieldFlow (fun f (e : W × W) t => avy f e.2 t) (fun f e => By f e.2) := hvy.precomp contDiff_snd
  have := run_order (L := [⟨1 / 2, fun f _ t => ax f t, fun f _ => Ax f⟩, ⟨1 / 2, fun f _ t => ay f t, fun f _ => Ay f⟩, ⟨1 / 2, fun f e t => avx f e.1 t, fun f e => Bx f e.1⟩,
      ⟨1, fun f e t => avy f e.2 t, fun f e => By f e.2⟩, ⟨1 / 2, fun f e t => avx f e.1 t, fun f e => Bx f e.1⟩, ⟨1 / 2, fun f _ t => ay f t, fun f _ => Ay f⟩,
      ⟨1 / 2, fun f _ t => ax f t, fun f _ => Ax f⟩]) (by
    intro q hq
    simp only [List.mem_cons, List.not_mem_nil, or_false] at hq
    rcases hq with rfl | rfl | rfl | rfl | rfl | rfl | rfl
    · exact ⟨by norm_num, hx.toField⟩
    · exact ⟨by norm_num, hy'.toField⟩
    · exact ⟨by norm_num, g1⟩
    · exact ⟨by norm_num, g2⟩
    · exact ⟨by norm_num, g1⟩
    · exact ⟨by norm_num, hy'.toField⟩
    · exact ⟨by norm_num, hx.toField⟩) rfl hE hy (step := splitVlasovXYVxVy ax ay avx avy) (fun f e h => by
      simp only [splitVlasovXYVxVy, comp, List.foldl_cons, List.foldl_nil, one_mul, show (1 / 2 : ℝ) * h = h / 2 by ring]) (fun f => by
      simp only [sumG, List.map_cons, List.map_nil, List.sum_cons, List.sum_nil]
      module)
  simpa only [SecondOrder, c46_xyvxvy] using this

/-- **C104, guiding centre, Cartesian.** The equation is `f' = X(f, -E_y(f)) + Y(f, E_x(f))`. -/
theorem c104_xy {Φ I : Type*} [Fintype I] {advX advY : F → (I → ℝ) → ℝ → F} {GX GY : F → (I → ℝ) → F} {poisson : F → Φ × ((I → ℝ) × (I → ℝ))} (hX : FieldFlow advX GX) (hY : FieldFlow advY GY)
    (hE : ContDiff ℝ 2 fun f => (poisson f).2) {y : ℝ → F} (hy : Solves (fun f => GX f (-(poisson f).2.2) + GY f (poisson f).2.1) y T) :
    SecondOrder (fun f h n => (predCorrRK2XY advX advY poisson f h n).1) y T := by
  have g1 : FieldFlow (fun f (e : (I → ℝ) × (I → ℝ)) t => advX f (-e.2) t) (fun f e => GX f (-e.2)) := hX.precomp contDiff_snd.neg
  have g2 : FieldFlow (fun f (e : (I → ℝ) × (I → ℝ)) t => advY f e.1 t) (fun f e => GY f e.1) := hY.precomp contDiff_fst
  have := run_order (L := [⟨1 / 2, fun f e t => advX f (-e.2) t, fun f e => GX f (-e.2)⟩, ⟨1, fun f e t => advY f e.1 t, fun f e => GY f e.1⟩,
      ⟨1 / 2, fun f e t => advX f (-e.2) t, fun f e => GX f (-e.2)⟩]) (by
    intro q hq
    simp only [List.mem_cons, List.not_mem_nil, or_false] at hq
    rcases hq with rfl | rfl | rfl
    · exact ⟨by norm_num, g1⟩
    · exact ⟨by norm_num, g2⟩
    · exact ⟨by norm_num, g1⟩) rfl hE hy (step := driftAdvect advX advY) (fun f e h => by
      simp only [driftAdvect, comp, List.foldl_cons, List.foldl_nil, one_mul, show (1 / 2 : ℝ) * h = h / 2 by ring]) (fun f => by
      simp only [sumG, List.map_cons, List.map_nil, List.sum_cons, List.sum_nil]
      module)
  simpa only [SecondOrder, c46_xy] using this

/-- **C104, guiding centre, polar, RK2 scheme.** -/
theorem c104_polar {Φ : Type*} {advect : F → W → ℝ → F} {G : F → W → F} {phiOf : F → Φ} {advField : F → W} (hG : FieldFlow advect G) (hE : ContDiff ℝ 2 advField) {y : ℝ → F}
    (hy : Solves (fun f => G f (advField f)) y T) : SecondOrder (fun f h n => (bslPredCorr advect phiOf advField f h n).1) y T := by
  have := run_order (L := [⟨1, advect, G⟩]) (by
    intro q hq
    simp only [List.mem_cons, List.not_mem_nil, or_false] at hq
    subst hq
    exact ⟨by norm_num, hG⟩) rfl hE hy (step := advect) (fun f e h => by
      simp only [comp, List.foldl_cons, List.foldl_nil, one_mul]) (fun f => by
      simp [sumG])
  simpa only [SecondOrder, c46_polar_rk2] using this

/-! ## Two sources -/

theorem data_append (L M : List (Sub F W)) (z : F × W) : data (L ++ M) z = data L z ++ data M z := by simp [data]

/-- **C104, two sources, code order (FINDING).** The code applies the sources in the same order before and after the transport; the error of one step is
`h²/4 (R₂'(R₁) - R₁'(R₂)) + O(h³)`: the scheme is of first order only, unless the sources commute. -/
theorem c104_xvx_two_sources {ax : F → ℝ → F} {A : F → F} {av : F → W → ℝ → F} {B : F → W → F} {r1 r2 : F → ℝ → F} {R1 R2 : F → F} {E : F → W} (hx : SmoothFlow ax A) (hv : FieldFlow av B)
    (hr1 : SmoothFlow r1 R1) (hr2 : SmoothFlow r2 R2) (hE : ContDiff ℝ 2 E) {y : ℝ → F} (hy : Solves (fun f => A f + B f (E f) + (R1 f + R2 f)) y T) :
    ∃ K h0 : ℝ, 0 < h0 ∧ ∀ h s, 0 ≤ h → h ≤ h0 → 0 ≤ s → s + h ≤ T →
      ‖TimeLoops.midpoint (splitRhs (splitVlasovXVx ax av) [r1, r2]) E h (y s) - y (s + h) - (h ^ 2 / 4) • (fderiv ℝ R2 (y s) (R1 (y s)) - fderiv ℝ R1 (y s) (R2 (y s)))‖ ≤ K * h ^ 3 := by
  obtain ⟨P, hP⟩ : ∃ P : List (Sub F W), P = sources [(r1, R1), (r2, R2)] := ⟨_, rfl⟩
  obtain ⟨M, hM⟩ : ∃ M : List (Sub F W), M = vlasovList ax A av B := ⟨_, rfl⟩
  have hPg : Good P := by
    rw [hP]
    refine sources_good fun r hr => ?_
    simp only [List.mem_cons, List.not_mem_nil, or_false] at hr
    rcases hr with rfl | rfl
    · exact hr1
    · exact hr2
  have hMg : Good M := by rw [hM]; exact vlasov_good hx hv
  have hg : Good (P ++ (M ++ P)) := by
    intro q hq
    rcases List.mem_append.1 hq with h | h
    · exact hPg q h
    · rcases List.mem_append.1 h with h | h
      · exact hMg q h
      · exact hPg q h
  have hsum : (fun f => A f + B f (E f) + (R1 f + R2 f)) = fun f => sumG (P ++ (M ++ P)) f (E f) := by
    funext f
    rw [sumG_append, sumG_append, hP, hM, sumG_sources, vlasov_sumG]
    simp only [List.map_cons, List.map_nil, List.sum_cons, List.sum_nil, add_zero]
    module
  rw [hsum] at hy
  have hO := pc_O hg hE hy
  have hstep : splitRhs (splitVlasovXVx ax av) [r1, r2] = comp (P ++ (M ++ P)) := by
    funext f e h
    rw [comp_append, comp_append, hP, hM, comp_sources, comp_sources, vlasov_comp]
    rfl
  have hMr : M.reverse = M := by rw [hM]; rfl
  have hdef : ∀ z : F × W, defect (P ++ (M ++ P)) z = (1 / 4 : ℝ) • (fderiv ℝ R2 z.1 (R1 z.1) - fderiv ℝ R1 z.1 (R2 z.1)) := by
    intro z
    have hrev := q2_reverse (data (P ++ (M ++ P)) z)
    have hMd : (data M z).reverse = data M z := by rw [data, ← List.map_reverse, hMr]
    have h1 : q2 (data (P ++ (M ++ P)) z) - (1 / 2 : ℝ) • q1' (data (P ++ (M ++ P)) z) (q1 (data (P ++ (M ++ P)) z)) = q2 (data P z) - q2 (data P z).reverse := by
      rw [← hrev]
      simp only [data_append, List.reverse_append, q2_append, q1_append, q1'_append, q1_reverse, hMd, List.append_assoc, map_add, add_apply]
      have hr' : q1' (data P z).reverse = q1' (data P z) := by
        have : ∀ l : List ((F × W) × ((F × W) →L[ℝ] (F × W))), q1' l.reverse = q1' l := by
          intro l
          induction l with
          | nil => rfl
          | cons x l ih => rw [List.reverse_cons, q1'_append, ih]; simp [q1', add_comm]
        exact this _
      rw [hr']
      module
    have hd : ∀ {φ : F → ℝ → F} {R : F → F}, SmoothFlow φ R → ∀ v : F × W, D (extGen fun f (_ : W) => R f) z v = (fderiv ℝ R z.1 v.1, 0) := by
      intro φ R hR v
      have g0 : HasFDerivAt (fun x : F × W => R x.1) ((fderiv ℝ R z.1).comp (ContinuousLinearMap.fst ℝ F W)) z :=
        ((hR.gen.differentiable (by norm_num)) z.1).hasFDerivAt.comp z (hasFDerivAt_fst (𝕜 := ℝ) (p := z))
      have g1 : HasFDerivAt (extGen fun f (_ : W) => R f) (((fderiv ℝ R z.1).comp (ContinuousLinearMap.fst ℝ F W)).prod (0 : F × W →L[ℝ] W)) z :=
        g0.prodMk (hasFDerivAt_const (0 : W) z)
      have g2 : D (extGen fun f (_ : W) => R f) z = _ := g1.fderiv
      rw [g2]
      simp
    rw [defect, h1, hP]
    simp only [sources, List.map_cons, List.map_nil, data, List.reverse_cons, List.reverse_nil, List.nil_append, List.cons_append, q2, q1', add_apply, smul_apply, map_smul, hd hr1, hd hr2,
      zero_apply, extGen, Prod.fst_sub, Prod.fst_add, Prod.smul_fst, add_zero, Prod.fst_zero]
    module
  rw [O_lf] at hO
  obtain ⟨K, r, _, hr, hb⟩ := hO
  refine ⟨K, r, hr, fun h s h0 h1 s0 hs => ?_⟩
  have := hb h s h0 h1 s0 (by linarith)
  simp only [hdef] at this
  rw [hstep, ← pc_eq_midpoint, add_comm s h]
  have e : (h ^ 2 / 4) • (fderiv ℝ R2 (y s) (R1 (y s)) - fderiv ℝ R1 (y s) (R2 (y s))) = h ^ 2 • (1 / 4 : ℝ) • (fderiv ℝ R2 (y s) (R1 (y s)) - fderiv ℝ R1 (y s) (R2 (y s))) := by
    rw [smul_smul]; congr 1; ring
  rw [e]
  exact this

theorem shear1_flow : SmoothFlow shear1 (fun f => (f.2, 0)) := by
  refine ⟨?_, fun f => by simp [shear1], fun f t => ?_⟩
  · simp only [shear1]; fun_prop
  · have h1 : HasDerivAt (fun t : ℝ => f.1 + t * f.2) f.2 t := by simpa using ((hasDerivAt_id t).mul_const f.2).const_add f.1
    exact h1.prodMk (hasDerivAt_const t f.2)

theorem shear2_flow : SmoothFlow shear2 (fun f => (0, f.1)) := by
  refine ⟨?_, fun f => by simp [shear2], fun f t => ?_⟩
  · simp only [shear2]; fun_prop
  · have h1 : HasDerivAt (fun t : ℝ => f.2 + t * f.1) f.1 t := by simpa using ((hasDerivAt_id t).mul_const f.1).const_add f.2
    exact (hasDerivAt_const t f.1).prodMk h1

/-- **C104 (FINDING), global error.** With two sources the loop is not of second order: two sources (the shears, whose sum is `f' = (f₂, f₁)` with solution `(cosh t, sinh t)`), no transport and no
field. -/
theorem c104_xvx_two_sources_not_second_order :
    Solves (fun f : ℝ × ℝ => ((f.2, 0) : ℝ × ℝ) + (0, f.1)) (fun t => (Real.cosh t, Real.sinh t)) 1 ∧
    ¬ SecondOrder (fun f h n => (predCorrXVx (splitRhs (fun f (_ : ℝ) _ => f) [shear1, shear2]) (fun _ => ((), (0 : ℝ))) f 0 h n).1) (fun t => (Real.cosh t, Real.sinh t)) 1 := by
  constructor
  · intro t _ _
    refine ((Real.hasDerivAt_cosh t).prodMk (Real.hasDerivAt_sinh t)).congr_deriv ?_
    simp
  rintro ⟨K, h0, hh0, hb⟩
  simp only [c46_xvx, Real.cosh_zero, Real.sinh_zero] at hb
  -- one step is a linear map with an invariant quadratic form
  have hstep : ∀ (h : ℝ) (f : ℝ × ℝ), TimeLoops.midpoint (splitRhs (fun f (_ : ℝ) _ => f) [shear1, shear2]) (fun _ => (0 : ℝ)) h f =
      shear2 (shear1 (shear2 (shear1 f (h / 2)) (h / 2)) (h / 2)) (h / 2) := fun h f => rfl
  have hinv : ∀ (h : ℝ) (n : ℕ) (u : ℝ × ℝ), u = (TimeLoops.midpoint (splitRhs (fun f (_ : ℝ) _ => f) [shear1, shear2]) (fun _ => (0 : ℝ)) h)^[n] (1, 0) →
      u.1 ^ 2 + (h / 2) * (u.1 * u.2) - u.2 ^ 2 = 1 := by
    intro h n
    induction n with
    | zero => rintro u rfl; simp
    | succ n ih =>
      rintro u rfl
      rw [Function.iterate_succ_apply']
      have := ih _ rfl
      obtain ⟨v, hv⟩ : ∃ v, v = (TimeLoops.midpoint (splitRhs (fun f (_ : ℝ) _ => f) [shear1, shear2]) (fun _ => (0 : ℝ)) h)^[n] (1, 0) := ⟨_, rfl⟩
      rw [← hv] at this ⊢
      rw [hstep]
      simp only [shear1, shear2]
      linear_combination this
  obtain ⟨u, hu⟩ : ∃ u : ℕ → ℝ × ℝ, u = fun n : ℕ => (TimeLoops.midpoint (splitRhs (fun f (_ : ℝ) _ => f) [shear1, shear2]) (fun _ => (0 : ℝ)) (1 / ((n : ℝ) + 1)))^[n + 1] (1, 0) := ⟨_, rfl⟩
  obtain ⟨c, hc⟩ : ∃ c, c = Real.cosh 1 := ⟨_, rfl⟩
  obtain ⟨s, hs⟩ : ∃ s, s = Real.sinh 1 := ⟨_, rfl⟩
  have hcs : c ^ 2 - s ^ 2 = 1 := by rw [hc, hs]; exact Real.cosh_sq_sub_sinh_sq 1
  have hc0 : 0 < c := by rw [hc]; exact Real.cosh_pos 1
  have hs0 : 0 < s := by rw [hs]; exact Real.sinh_pos_iff.2 one_pos
  have lim0 : Tendsto (fun n : ℕ => 1 / ((n : ℝ) + 1)) atTop (𝓝 0) := tendsto_one_div_add_atTop_nhds_zero_nat
  have herr : ∀ᶠ n : ℕ in atTop, |(u n).1 - c| ≤ K * (1 / ((n : ℝ) + 1)) ^ 2 ∧ |(u n).2 - s| ≤ K * (1 / ((n : ℝ) + 1)) ^ 2 := by
    filter_upwards [lim0.eventually (gt_mem_nhds hh0)] with n hn
    have hn1 : ((n + 1 : ℕ) : ℝ) * (1 / ((n : ℝ) + 1)) = 1 := by
      push_cast
      field_simp
    have := hb (1 / ((n : ℝ) + 1)) (by positivity) hn.le (n + 1) hn1.le
    rw [hn1, ← hc, ← hs] at this
    have hn' : ‖u n - (c, s)‖ ≤ K * (1 / ((n : ℝ) + 1)) ^ 2 := by rw [hu]; exact this
    exact ⟨by simpa using (norm_fst_le (u n - (c, s))).trans hn', by simpa using (norm_snd_le (u n - (c, s))).trans hn'⟩
  have limK : Tendsto (fun n : ℕ => K * (1 / ((n : ℝ) + 1)) ^ 2) atTop (𝓝 0) := by simpa using (lim0.pow 2).const_mul K
  have l1 : Tendsto (fun n => (u n).1) atTop (𝓝 c) := by
    rw [tendsto_iff_norm_sub_tendsto_zero]
    exact squeeze_zero' (Eventually.of_forall fun n => norm_nonneg _) (herr.mono fun n h => by rw [Real.norm_eq_abs]; exact h.1) limK
  have l2 : Tendsto (fun n => (u n).2) atTop (𝓝 s) := by
    rw [tendsto_iff_norm_sub_tendsto_zero]
    exact squeeze_zero' (Eventually.of_forall fun n => norm_nonneg _) (herr.mono fun n h => by rw [Real.norm_eq_abs]; exact h.2) limK
  have lL : Tendsto (fun n => (u n).1 * (u n).2 / 2) atTop (𝓝 (c * s / 2)) := (l1.mul l2).div_const 2
  have lR : Tendsto (fun n : ℕ => K * (1 / ((n : ℝ) + 1)) * (|(u n).1 + c| + |(u n).2 + s|)) atTop (𝓝 (K * 0 * (|c + c| + |s + s|))) :=
    (lim0.const_mul K).mul ((l1.add_const c).abs.add (l2.add_const s).abs)
  have hle : ∀ᶠ n : ℕ in atTop, (u n).1 * (u n).2 / 2 ≤ K * (1 / ((n : ℝ) + 1)) * (|(u n).1 + c| + |(u n).2 + s|) := by
    filter_upwards [herr] with n hn
    obtain ⟨e1, e2⟩ := hn
    have hq := hinv (1 / ((n : ℝ) + 1)) (n + 1) (u n) (by rw [hu])
    obtain ⟨h, hh⟩ : ∃ h : ℝ, h = 1 / ((n : ℝ) + 1) := ⟨_, rfl⟩
    rw [← hh] at hq e1 e2 ⊢
    have hpos : 0 < h := by rw [hh]; positivity
    obtain ⟨x, hx⟩ : ∃ x, x = (u n).1 := ⟨_, rfl⟩
    obtain ⟨w, hw⟩ : ∃ w, w = (u n).2 := ⟨_, rfl⟩
    rw [← hx] at hq e1 ⊢
    rw [← hw] at hq e2 ⊢
    have key : h * (x * w / 2) = (w - s) * (w + s) - (x - c) * (x + c) := by linear_combination hq - hcs
    have b1 : (w - s) * (w + s) ≤ K * h ^ 2 * |w + s| :=
      (le_abs_self _).trans (by rw [abs_mul]; exact mul_le_mul_of_nonneg_right e2 (abs_nonneg _))
    have b2 : -((x - c) * (x + c)) ≤ K * h ^ 2 * |x + c| :=
      (neg_le_abs _).trans (by rw [abs_mul]; exact mul_le_mul_of_nonneg_right e1 (abs_nonneg _))
    have : h * (x * w / 2) ≤ h * (K * h * (|x + c| + |w + s|)) := by
      rw [key]
      calc _ ≤ K * h ^ 2 * |w + s| + K * h ^ 2 * |x + c| := by linarith
        _ = _ := by ring
    exact le_of_mul_le_mul_left this hpos
  have := le_of_tendsto_of_tendsto lL lR hle
  have hp : 0 < c * s / 2 := by positivity
  rw [mul_zero, zero_mul] at this
  linarith

/-- The hypotheses of the statement on two sources are met by this example (with the transport absent). -/
example : SmoothFlow (fun (f : ℝ × ℝ) (_ : ℝ) => f) (fun _ => 0) ∧ FieldFlow (fun (f : ℝ × ℝ) (_ : ℝ) (_ : ℝ) => f) (fun _ _ => 0) :=
  ⟨⟨contDiff_fst, fun _ => rfl, fun z t => hasDerivAt_const t z⟩, ⟨contDiff_fst, fun _ _ => rfl, fun z _ t => hasDerivAt_const t z⟩⟩

/-! ## Instances -/

section instances

variable [CompleteSpace F]

theorem exp_smul_hasDerivAt (A : F →L[ℝ] F) (f : F) (t : ℝ) : HasDerivAt (fun t : ℝ => NormedSpace.exp (t • A) f) (A (NormedSpace.exp (t • A) f)) t := by
  have h1 : HasDerivAt (fun t : ℝ => NormedSpace.exp (t • A)) (A * NormedSpace.exp (t • A)) t := hasDerivAt_exp_smul_const' (𝕂 := ℝ) A t
  exact h1.clm_apply (hasDerivAt_const t f) |>.congr_deriv (by simp)

theorem exp_contDiff : ContDiff ℝ 3 (NormedSpace.exp : (F →L[ℝ] F) → F →L[ℝ] F) := by
  have : AnalyticOnNhd ℝ (NormedSpace.exp : (F →L[ℝ] F) → F →L[ℝ] F) Set.univ := fun x _ => NormedSpace.exp_analytic x
  exact contDiffOn_univ.1 (this.contDiffOn uniqueDiffOn_univ)

/-- Every bounded linear operator (for instance a discretised differential operator) generates a smooth flow. -/
theorem smoothFlow_exp (A : F →L[ℝ] F) : SmoothFlow (fun f t => NormedSpace.exp (t • A) f) (fun f => A f) := by
  refine ⟨?_, fun z => by simp, fun z t => exp_smul_hasDerivAt A z t⟩
  have h1 : ContDiff ℝ 3 fun p : F × ℝ => p.2 • A := contDiff_snd.smul contDiff_const
  exact (exp_contDiff.comp h1).clm_apply contDiff_fst

/-- The advection in velocity of a discretised Vlasov equation, `f' = B(e) f`, is linear in the field and in the state. -/
theorem fieldFlow_exp (B : W →L[ℝ] F →L[ℝ] F) : FieldFlow (fun f e t => NormedSpace.exp (t • B e) f) (fun f e => B e f) := by
  refine ⟨?_, fun z e => by simp, fun z e t => exp_smul_hasDerivAt (B e) z t⟩
  have h0 : ContDiff ℝ 3 fun p : F × W × ℝ => B p.2.1 := B.contDiff.comp (contDiff_fst.comp contDiff_snd)
  have h1 : ContDiff ℝ 3 fun p : F × W × ℝ => p.2.2 • B p.2.1 := (contDiff_snd.comp contDiff_snd).smul h0
  exact (exp_contDiff.comp h1).clm_apply contDiff_fst

/-- **C104 for a discretised Vlasov-Poisson system** `f' = A f + B(P f + e₀) f`: the field solver is affine, the transport operators linear. -/
theorem c104_vlasov_poisson {Φ : Type*} (A : F →L[ℝ] F) (B : W →L[ℝ] F →L[ℝ] F) (P : F →L[ℝ] W) (e0 : W) (phi : F → Φ) {y : ℝ → F} (hy : Solves (fun f => A f + B (P f + e0) f) y T) (t0 : ℝ) :
    SecondOrder (fun f h n => (predCorrXVx (splitVlasovXVx (fun f t => NormedSpace.exp (t • A) f) (fun f e t => NormedSpace.exp (t • B e) f)) (fun f => (phi f, P f + e0)) f t0 h n).1) y T :=
  c104_xvx (smoothFlow_exp A) (fieldFlow_exp B) (P.contDiff.add contDiff_const) hy t0

end instances

/-- A nonlinear instance of the hypotheses of `c104_xvx` with an explicit solution: `f' = f + E(f)²`, `E(f) = f`, `f(t) = -e^t / (2 + e^t)`. -/
example (T : ℝ) : SmoothFlow (fun (f t : ℝ) => f * Real.exp t) (fun f => f) ∧ FieldFlow (fun (f e t : ℝ) => f + t * e ^ 2) (fun _ e => e ^ 2) ∧
    Solves (fun f : ℝ => f + f ^ 2) (fun t => -Real.exp t / (2 + Real.exp t)) T := by
  refine ⟨⟨by fun_prop, fun z => by simp, fun z t => (Real.hasDerivAt_exp t).const_mul z⟩, ⟨by fun_prop, fun z e => by simp, fun z e t => ?_⟩, fun t _ _ => ?_⟩
  · simpa using ((hasDerivAt_id t).mul_const (e ^ 2)).const_add z
  · have hp : 2 + Real.exp t ≠ 0 := by positivity
    refine ((Real.hasDerivAt_exp t).neg.div ((Real.hasDerivAt_exp t).const_add 2) hp).congr_deriv ?_
    simp only [Pi.neg_apply]
    field_simp
    ring

end Verif.VlasovOrder
