import Verif.Props.Taylor
import Mathlib.Analysis.Asymptotics.Lemmas
import Mathlib.Analysis.Calculus.Deriv.Pow
import Mathlib.Tactic.Linarith
import Mathlib.Tactic.Module

/-!
# Expansions in powers of the time step (background of C93)

Expansions in powers of the time step, uniform along a filter `l` on an arbitrary index type: `h i` is the time step, `y i` the starting point.
-/

open Filter Asymptotics Topology

namespace Verif.RkOrder

open Verif.Taylor

variable {E : Type*} [NormedAddCommGroup E] [NormedSpace ℝ E]
variable {ι : Type*} {l : Filter ι} {h : ι → ℝ}

/-- `u = O(h^n)` along `l`. -/
def O {F : Type*} [Norm F] (l : Filter ι) (h : ι → ℝ) (n : ℕ) (u : ι → F) : Prop := u =O[l] fun i => h i ^ n

/-- Continuous linear maps between normed spaces, as a normed space. -/
abbrev Lin (E F : Type*) [NormedAddCommGroup E] [NormedSpace ℝ E] [NormedAddCommGroup F] [NormedSpace ℝ F] := E →L[ℝ] F

section rules

variable {F G H : Type*} [NormedAddCommGroup F] [NormedSpace ℝ F] [NormedAddCommGroup G] [NormedSpace ℝ G] [NormedAddCommGroup H] [NormedSpace ℝ H]

theorem O.mono {u : ι → F} {n m : ℕ} (ht : Tendsto h l (𝓝 0)) (hnm : n ≤ m) (hu : O l h m u) : O l h n u := by
  refine IsBigO.trans hu ?_
  refine IsBigO.of_bound 1 ?_
  filter_upwards [ht.eventually (Metric.ball_mem_nhds (0 : ℝ) one_pos)] with i hi
  have hi' : ‖h i‖ ≤ 1 := by simpa using (mem_ball_zero_iff.1 hi).le
  rw [norm_pow, norm_pow, one_mul]
  exact pow_le_pow_of_le_one (norm_nonneg _) hi' hnm

theorem O.add {u v : ι → F} {n : ℕ} (hu : O l h n u) (hv : O l h n v) : O l h n (fun i => u i + v i) := IsBigO.add hu hv
theorem O.sub {u v : ι → F} {n : ℕ} (hu : O l h n u) (hv : O l h n v) : O l h n (fun i => u i - v i) := IsBigO.sub hu hv
theorem O.csmul {u : ι → F} {n : ℕ} (c : ℝ) (hu : O l h n u) : O l h n (fun i => c • u i) := IsBigO.const_smul_left hu c

theorem O.hsmul {u : ι → F} {n : ℕ} (k : ℕ) (hu : O l h n u) : O l h (n + k) (fun i => h i ^ k • u i) := by
  have := (isBigO_refl (fun i => h i ^ k) l).smul hu
  refine this.congr_right fun i => ?_
  rw [smul_eq_mul, pow_add, mul_comm]

theorem O.app {A : ι → F →L[ℝ] G} {u : ι → F} {p q : ℕ} (hA : O l h p A) (hu : O l h q u) : O l h (p + q) (fun i => A i (u i)) := by
  have h1 : (fun i => A i (u i)) =O[l] fun i => ‖A i‖ * ‖u i‖ := by
    refine IsBigO.of_bound 1 (Eventually.of_forall fun i => ?_)
    rw [one_mul, Real.norm_of_nonneg (by positivity)]
    exact (A i).le_opNorm (u i)
  refine h1.trans ((hA.norm_left.mul hu.norm_left).congr_right fun i => (pow_add _ _ _).symm)

end rules

/-- The Taylor expansion of `f` at the points `y i`, with error `O(h^n)` for increments `O(h)`, and bounded coefficients. -/
structure Tay (l : Filter ι) (h : ι → ℝ) (f : E → E) (y : ι → E) (A : ι → Lin E E) (B : ι → Lin E (Lin E E)) (C : ι → Lin E (Lin E (Lin E E))) (n : ℕ) : Prop where
  ht : Tendsto h l (𝓝 0)
  f0 : O l h 0 fun i => f (y i)
  bA : O l h 0 A
  bB : O l h 0 B
  bC : O l h 0 C
  tay : ∀ D : ι → E, O l h 1 D →
    O l h n fun i => f (y i + D i) - (f (y i) + A i (D i) + (1 / 2 : ℝ) • B i (D i) (D i) + (1 / 6 : ℝ) • C i (D i) (D i) (D i))

theorem Tay.of_le {f : E → E} {y : ι → E} {A B C} {n m : ℕ} (T : Tay l h f y A B C m) (hnm : n ≤ m) : Tay l h f y A B C n :=
  ⟨T.ht, T.f0, T.bA, T.bB, T.bC, fun D hD => (T.tay D hD).mono T.ht hnm⟩

set_option maxHeartbeats 4000000 in
/-- Composition of expansions: `f (y + D)` for an increment `D = h a + h² b + h³ c + O(h^n)`. -/
theorem Tay.comp {f : E → E} {y : ι → E} {A B C} {n : ℕ} (T : Tay l h f y A B C n) (h1 : 1 ≤ n) (h4 : n ≤ 4) {a b c : ι → E}
    (ha : O l h 0 a) (hb : O l h 0 b) (hc : O l h 0 c) {D : ι → E}
    (hD : O l h n fun i => D i - (h i • a i + h i ^ 2 • b i + h i ^ 3 • c i)) :
    O l h n fun i => f (y i + D i) - (f (y i) + h i • A i (a i) + h i ^ 2 • (A i (b i) + (1 / 2 : ℝ) • B i (a i) (a i)) +
      h i ^ 3 • (A i (c i) + (1 / 2 : ℝ) • (B i (a i) (b i) + B i (b i) (a i)) + (1 / 6 : ℝ) • C i (a i) (a i) (a i))) := by
  have ht := T.ht
  have oa : O l h 1 fun i => h i ^ 1 • a i := by simpa using ha.hsmul 1
  have ob : O l h 2 fun i => h i ^ 2 • b i := by simpa using hb.hsmul 2
  have oc : O l h 3 fun i => h i ^ 3 • c i := by simpa using hc.hsmul 3
  have oR1 : O l h 2 fun i => h i ^ 2 • b i + h i ^ 3 • c i := ob.add (oc.mono ht (by norm_num))
  have oP : O l h 1 fun i => h i ^ 1 • a i + (h i ^ 2 • b i + h i ^ 3 • c i) := oa.add (oR1.mono ht (by norm_num))
  have oe : O l h n fun i => D i - (h i ^ 1 • a i + (h i ^ 2 • b i + h i ^ 3 • c i)) := by simpa [add_assoc] using hD
  have oD : O l h 1 D := by
    have := (oe.mono ht h1).add oP
    simpa using this
  have t0 := T.tay D oD
  have t1 := T.bA.app oe
  have t2 := (T.bB.app oe).app oD
  have t3 := (T.bB.app oP).app oe
  have t4 := ((T.bC.app oe).app oD).app oD
  have t5 := ((T.bC.app oP).app oe).app oD
  have t6 := ((T.bC.app oP).app oP).app oe
  have t7 := (T.bB.app oa).app oc
  have t8 := (T.bB.app oc).app oa
  have t9 := (T.bB.app oR1).app oR1
  have t10 := ((T.bC.app oR1).app oP).app oP
  have t11 := ((T.bC.app oa).app oR1).app oP
  have t12 := ((T.bC.app oa).app oa).app oR1
  have s1 := t0.add (t1.mono (n := n) ht (by omega))
  have s2 := ((t2.mono (n := n) ht (by omega)).add (t3.mono (n := n) ht (by omega))).csmul (1 / 2)
  have s3 := (((t4.mono (n := n) ht (by omega)).add (t5.mono (n := n) ht (by omega))).add (t6.mono (n := n) ht (by omega))).csmul (1 / 6)
  have s4 := (((t7.mono (n := n) ht (by omega)).add (t8.mono (n := n) ht (by omega))).add (t9.mono (n := n) ht (by omega))).csmul (1 / 2)
  have s5 := (((t10.mono (n := n) ht (by omega)).add (t11.mono (n := n) ht (by omega))).add (t12.mono (n := n) ht (by omega))).csmul (1 / 6)
  refine IsBigO.congr_left ((((s1.add s2).add s3).add s4).add s5) fun i => ?_
  simp only [map_add, map_sub, map_smul, add_apply, sub_apply, smul_apply]
  module

end Verif.RkOrder
