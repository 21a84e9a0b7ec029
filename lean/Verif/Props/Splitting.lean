import Verif.Model.Splitting
import Mathlib.Analysis.Normed.Algebra.Exponential
import Mathlib.Analysis.Analytic.Basic
import Mathlib.Tactic.NoncommRing
import Mathlib.Tactic.Module
import Mathlib.Tactic.Ring
import Mathlib.Tactic.NormNum
import Mathlib.Tactic.Linarith

/-!
# C45: operator splitting

Specification side: a sub-operator is a *flow* `op f t` which is a one-parameter group, or it is
reversible (`op (op f t) (-t) = f`).
-/

namespace Verif.Splitting
open Asymptotics Filter Topology

/-- Reversible operator: advancing by `t` and then by `-t` gives the initial state back. -/
def Reversible {F : Type*} (op : F → ℝ → F) : Prop := ∀ f t, op (op f t) (-t) = f

/-- Reversible and defined for all signs: the other order is the same statement for `-t`. -/
theorem Reversible.symm {F : Type*} {op : F → ℝ → F} (h : Reversible op) (f : F) (t : ℝ) : op (op f (-t)) t = f := by
  have := h f (-t); rwa [neg_neg] at this

/-- One-parameter group of transformations. -/
structure IsFlow {F : Type*} (op : F → ℝ → F) : Prop where
  zero : ∀ f, op f 0 = f
  add : ∀ f s t, op (op f s) t = op f (s + t)

/-- Two operators commute for all times. -/
def Comm {F : Type*} (a b : F → ℝ → F) : Prop := ∀ f s t, a (b f s) t = b (a f t) s

variable {F E : Type*}

/-! ## Total time -/

/-- Each sub-operator of the 1D1V solver acts for a total time `dt`: when the two flows commute,
the step is exactly the flow of each for a time `dt`. -/
theorem c45_xvx_total_time (ax : F → ℝ → F) (av : F → E → ℝ → F) (e : E)
    (hx : IsFlow ax) (hc : Comm ax (fun f t => av f e t)) (f : F) (dt : ℝ) :
    splitVlasovXVx ax av f e dt = av (ax f dt) e dt := by
  have := hc (ax f (dt / 2)) dt (dt / 2)
  simp only at this
  simp only [splitVlasovXVx, this, hx.add]
  norm_num

example : IsFlow (fun (f : ℝ) (t : ℝ) => f + t) := ⟨by simp, fun f s t => by ring⟩
example : Comm (fun (f : ℝ) (t : ℝ) => f + t) (fun f t => f + 3 * t) := fun f s t => by ring
example : splitVlasovXVx (fun (f t : ℝ) => f + t) (fun (f e t : ℝ) => f + e * t) 0 3 2 = 8 := by norm_num [splitVlasovXVx]

/-- Same for the 2D2V solver. -/
theorem c45_xyvxvy_total_time (ax ay : F → ℝ → F) (avx avy : F → E → ℝ → F) (e : E × E)
    (hx : IsFlow ax) (hy : IsFlow ay) (hvx : IsFlow (fun f t => avx f e.1 t))
    (h1 : Comm ax ay) (h2 : Comm ax (fun f t => avx f e.1 t)) (h3 : Comm ax (fun f t => avy f e.2 t))
    (h4 : Comm ay (fun f t => avx f e.1 t)) (h5 : Comm ay (fun f t => avy f e.2 t))
    (h6 : Comm (fun f t => avx f e.1 t) (fun f t => avy f e.2 t)) (f : F) (dt : ℝ) :
    splitVlasovXYVxVy ax ay avx avy f e dt = avy (avx (ay (ax f dt) dt) e.1 dt) e.2 dt := by
  have h2' : ∀ f s t, ax (avx f e.1 s) t = avx (ax f t) e.1 s := h2
  have h3' : ∀ f s t, ax (avy f e.2 s) t = avy (ax f t) e.2 s := h3
  have h4' : ∀ f s t, ay (avx f e.1 s) t = avx (ay f t) e.1 s := h4
  have h5' : ∀ f s t, ay (avy f e.2 s) t = avy (ay f t) e.2 s := h5
  have h6' : ∀ f s t, avx (avy f e.2 s) e.1 t = avy (avx f e.1 t) e.2 s := h6
  have hva : ∀ f s t, avx (avx f e.1 s) e.1 t = avx f e.1 (s + t) := hvx.add
  have h1' : ∀ f s t, ax (ay f s) t = ay (ax f t) s := h1
  simp only [splitVlasovXYVxVy, h6', h5', h4', h3', h2', h1', hva, hy.add, hx.add, add_halves]

example : splitVlasovXYVxVy (fun (f t : ℝ) => f + t) (fun (f t : ℝ) => f + 10 * t) (fun (f e t : ℝ) => f + e * t)
    (fun (f e t : ℝ) => f + e * t) 0 (100, 1000) 2 = 2222 := by norm_num [splitVlasovXYVxVy]

/-! ## Reversibility -/

/-- The 1D1V step is time-symmetric: a step `dt` followed by a step `-dt` gives the initial state back,
for all reversible sub-operators (which need not commute). -/
theorem c45_xvx_reversible (ax : F → ℝ → F) (av : F → E → ℝ → F) (e : E)
    (hx : Reversible ax) (hv : Reversible (fun f t => av f e t)) :
    Reversible (fun f t => splitVlasovXVx ax av f e t) := by
  intro f t
  have hv' : ∀ f t, av (av f e t) e (-t) = f := hv
  simp only [splitVlasovXVx, neg_div, hx _ _, hv']

/-- The 2D2V step is time-symmetric. -/
theorem c45_xyvxvy_reversible (ax ay : F → ℝ → F) (avx avy : F → E → ℝ → F) (e : E × E)
    (hx : Reversible ax) (hy : Reversible ay)
    (hvx : Reversible (fun f t => avx f e.1 t)) (hvy : Reversible (fun f t => avy f e.2 t)) :
    Reversible (fun f t => splitVlasovXYVxVy ax ay avx avy f e t) := by
  intro f t
  have h1 : ∀ f t, avx (avx f e.1 t) e.1 (-t) = f := hvx
  have h2 : ∀ f t, avy (avy f e.2 t) e.2 (-t) = f := hvy
  simp only [splitVlasovXYVxVy, neg_div, hx _ _, hy _ _, h1, h2]

/-- Non-commuting reversible operators (on states in `ℝ × ℝ`: shears) used as a test case. -/
noncomputable def shear1 (f : ℝ × ℝ) (t : ℝ) : ℝ × ℝ := (f.1 + t * f.2, f.2)
/-- The other shear. -/
noncomputable def shear2 (f : ℝ × ℝ) (t : ℝ) : ℝ × ℝ := (f.1, f.2 + t * f.1)

theorem shear1_rev : Reversible shear1 := fun f t => by ext <;> simp [shear1]
theorem shear2_rev : Reversible shear2 := fun f t => by ext <;> simp [shear2]

example : Reversible (fun f t => splitVlasovXVx shear1 (fun f (_ : Unit) t => shear2 f t) f () t) :=
  c45_xvx_reversible _ _ () shear1_rev shear2_rev
example : splitVlasovXVx shear1 (fun f (_ : Unit) t => shear2 f t) (1, 0) () 2 = (3, 2) := by
  norm_num [splitVlasovXVx, shear1, shear2]

/-! ## The source terms -/

/-- Every source acts for a total time `dt`, when the sources and the transport are commuting flows:
the step is the transport for `dt` of every source for `dt` (in the order of the list). -/
theorem applyRhs_comm (b : F → ℝ → F) (rhs : List (F → ℝ → F)) (hc : ∀ r ∈ rhs, Comm r b)
    (f : F) (s t : ℝ) : applyRhs rhs (b f s) t = b (applyRhs rhs f t) s := by
  induction rhs generalizing f with
  | nil => rfl
  | cons r rs ih =>
    simp only [applyRhs]
    rw [hc r (by simp) f s (t / 2), ih (fun r hr => hc r (by simp [hr]))]

theorem c45_rhs_total_time (b : F → E → ℝ → F) (rhs : List (F → ℝ → F)) (e : E)
    (hf : ∀ r ∈ rhs, IsFlow r) (hp : rhs.Pairwise Comm) (hc : ∀ r ∈ rhs, Comm r (fun f t => b f e t))
    (f : F) (dt : ℝ) :
    splitRhs b rhs f e dt = b (rhs.foldl (fun f r => r f dt) f) e dt := by
  have key : ∀ (rhs : List (F → ℝ → F)), (∀ r ∈ rhs, IsFlow r) → rhs.Pairwise Comm → ∀ f,
      applyRhs rhs (applyRhs rhs f dt) dt = rhs.foldl (fun f r => r f dt) f := by
    intro rhs
    induction rhs with
    | nil => intros; rfl
    | cons r rs ih =>
      intro hf hp f
      rw [List.pairwise_cons] at hp
      have h1 := applyRhs_comm (F := F) r rs (fun q hq f s t => (hp.1 q hq f t s).symm)
      simp only [applyRhs, List.foldl_cons]
      rw [← h1, (hf r (by simp)).add, add_halves, ih (fun r hr => hf r (by simp [hr])) hp.2]
  have hb := applyRhs_comm (fun f t => b f e t) rhs hc
  simp only [splitRhs]
  rw [hb, key rhs hf hp]

example : splitRhs (fun (f e t : ℝ) => f + e * t) [fun f t => f + 10 * t, fun f t => f + 100 * t] 0 1 2 = 222 := by
  norm_num [splitRhs, applyRhs]

/-- With at most one source term the step is time-symmetric, as `SplitRightHandSideSolver`'s documentation
("Strang's splitting", `src/geometryXVx/boltzmann/splitrighthandsidesolver.hpp:13-22`) requires. -/
theorem c45_rhs_reversible_one (b : F → E → ℝ → F) (r : F → ℝ → F) (e : E)
    (hr : Reversible r) (hb : Reversible (fun f t => b f e t)) :
    Reversible (fun f t => splitRhs b [r] f e t) := by
  intro f t
  have hb' : ∀ f t, b (b f e t) e (-t) = f := hb
  simp only [splitRhs, applyRhs, neg_div, hr _ _, hb']

/-- FINDING. The documentation says that the second half of the sources is applied "in reverse order"
(`src/geometryXVx/boltzmann/splitrighthandsidesolver.hpp:20-21`); the code applies the same order twice, and the step is not time-symmetric
as soon as there are two sources: two reversible sources and no transport at all are a counterexample. -/
theorem c45_rhs_not_reversible :
    ¬ Reversible (fun f t => splitRhs (fun f (_ : Unit) _ => f) [shear1, shear2] f () t) := by
  intro h
  have := congrArg Prod.fst (h (1, 0) 2)
  norm_num [splitRhs, applyRhs, shear1, shear2] at this

/-- The documented sequence (sources for `dt/2`, transport, sources for `dt/2` in reverse order). -/
noncomputable def documentedRhs (b : F → E → ℝ → F) (rhs : List (F → ℝ → F)) (f : F) (e : E) (dt : ℝ) : F :=
  (rhs.reverse).foldl (fun f r => r f (dt / 2)) (b (rhs.foldl (fun f r => r f (dt / 2)) f) e dt)

/-- The documented sequence would be time-symmetric for any number of sources. -/
theorem c45_documented_reversible (b : F → E → ℝ → F) (rhs : List (F → ℝ → F)) (e : E)
    (hr : ∀ r ∈ rhs, Reversible r) (hb : Reversible (fun f t => b f e t)) :
    Reversible (fun f t => documentedRhs b rhs f e t) := by
  have hb' : ∀ f t, b (b f e t) e (-t) = f := hb
  have key : ∀ (rhs : List (F → ℝ → F)), (∀ r ∈ rhs, Reversible r) → ∀ f t,
      rhs.foldl (fun f r => r f (-t)) (rhs.reverse.foldl (fun f r => r f t) f) = f := by
    intro rhs
    induction rhs with
    | nil => intros; rfl
    | cons r rs ih =>
      intro hr f t
      simp only [List.reverse_cons, List.foldl_append, List.foldl_cons, List.foldl_nil]
      rw [hr r (by simp), ih (fun r h => hr r (by simp [h]))]
  intro f t
  simp only [documentedRhs, neg_div]
  rw [key rhs hr, hb']
  have := key rhs.reverse (fun r h => hr r (by simpa using h)) f (t / 2)
  rwa [List.reverse_reverse] at this

/-- The code agrees with the documentation exactly on one source or less, or when the second pass is order independent:
here, for every list of sources, on the list and its reverse when they commute. -/
theorem c45_rhs_documented_comm (b : F → E → ℝ → F) (rhs : List (F → ℝ → F))
    (hp : ∀ r ∈ rhs, ∀ q ∈ rhs, Comm r q) (f : F) (e : E) (dt : ℝ) :
    splitRhs b rhs f e dt = documentedRhs b rhs f e dt := by
  have h0 : ∀ (l : List (F → ℝ → F)) g, applyRhs l g dt = l.foldl (fun f r => r f (dt / 2)) g := by
    intro l
    induction l with
    | nil => intros; rfl
    | cons r rs ih => intro g; simp [applyRhs, ih]
  simp only [splitRhs, documentedRhs, h0]
  refine List.Perm.foldl_eq' (List.reverse_perm _).symm ?_ _
  intro x hx y hy z
  exact hp y hy x hx z (dt / 2) (dt / 2)

/-! ## Second order accuracy for linear operators -/

section Order
variable {A : Type*} [NormedRing A] [NormedAlgebra ℝ A] [CompleteSpace A]

/-- Second order Taylor expansion at `t = 0` of a curve in a Banach algebra. -/
def HasExp2 (g : ℝ → A) (a b : A) : Prop :=
  (fun t : ℝ => g t - (1 + t • a + t ^ 2 • b)) =O[𝓝 0] (fun t : ℝ => t ^ 3)

omit [CompleteSpace A] in
theorem poly_bdd (a b : A) : (fun t : ℝ => (1 : A) + t • a + t ^ 2 • b) =O[𝓝 0] (fun _ => (1 : ℝ)) := by
  have : Continuous (fun t : ℝ => (1 : A) + t • a + t ^ 2 • b) := by fun_prop
  exact (this.tendsto 0).isBigO_one ℝ

omit [CompleteSpace A] in
theorem HasExp2.mul {g h : ℝ → A} {a b c d : A} (hg : HasExp2 g a b) (hh : HasExp2 h c d) :
    HasExp2 (fun t => g t * h t) (a + c) (b + d + a * c) := by
  have h1 : (fun t : ℝ => t ^ 3) =O[𝓝 0] (fun _ : ℝ => (1 : ℝ)) :=
    ((continuous_pow 3).tendsto (0 : ℝ)).isBigO_one ℝ
  have hB : h =O[𝓝 0] (fun _ => (1 : ℝ)) := by
    have := (hh.trans h1).add (poly_bdd c d)
    simpa using this
  have e1 : (fun t => (g t - (1 + t • a + t ^ 2 • b)) * h t) =O[𝓝 0] (fun t : ℝ => t ^ 3) := by
    simpa using IsBigO.mul hg hB
  have e2 : (fun t : ℝ => (1 + t • a + t ^ 2 • b) * (h t - (1 + t • c + t ^ 2 • d))) =O[𝓝 0] (fun t : ℝ => t ^ 3) := by
    simpa using (poly_bdd a b).mul hh
  have e3 : (fun t : ℝ => t ^ 3 • (a * d + b * c + t • (b * d))) =O[𝓝 0] (fun t : ℝ => t ^ 3) := by
    have hc : Continuous (fun t : ℝ => a * d + b * c + t • (b * d)) := by fun_prop
    simpa using (isBigO_refl (fun t : ℝ => t ^ 3) (𝓝 0)).smul ((hc.tendsto 0).isBigO_one ℝ)
  have := (e1.add e2).add e3
  refine this.congr_left fun t => ?_
  simp only [sub_mul, mul_sub, add_mul, mul_add, one_mul, mul_one, smul_mul_assoc, mul_smul_comm, smul_add, smul_smul]
  module

theorem hasExp2_exp (a : A) (c : ℝ) :
    HasExp2 (fun t => NormedSpace.exp ((c * t) • a)) (c • a) ((c ^ 2 / 2) • (a * a)) := by
  have hp : HasFPowerSeriesAt (NormedSpace.exp : A → A) (NormedSpace.expSeries ℝ A) 0 :=
    NormedSpace.hasFPowerSeriesAt_exp_zero_of_radius_pos (NormedSpace.expSeries_radius_pos ℝ A)
  have h1 := hp.isBigO_sub_partialSum_pow 3
  have ht : Tendsto (fun t : ℝ => (c * t) • a) (𝓝 0) (𝓝 0) := by
    have : Continuous (fun t : ℝ => (c * t) • a) := by fun_prop
    simpa using this.tendsto 0
  have h2 := h1.comp_tendsto ht
  have h3 : (fun t : ℝ => ‖(c * t) • a‖ ^ 3) =O[𝓝 0] (fun t : ℝ => t ^ 3) := by
    refine IsBigO.of_bound ((|c| * ‖a‖) ^ 3) (Eventually.of_forall fun t => ?_)
    simp only [norm_smul, norm_mul, Real.norm_eq_abs, norm_pow, abs_norm, abs_mul, abs_abs]
    apply le_of_eq; ring
  refine (h2.trans h3).congr_left fun t => ?_
  simp only [Function.comp, zero_add, FormalMultilinearSeries.partialSum, Finset.sum_range_succ,
    Finset.sum_range_zero, NormedSpace.expSeries_apply_eq, smul_pow]
  simp only [Nat.factorial, pow_zero, one_smul, pow_one, pow_two, Nat.cast_one, inv_one, smul_smul]
  norm_num
  module

/-- The 1D1V Strang splitting is second order accurate: for linear sub-flows `exp (t A)`, `exp (t B)` acting on a state by
multiplication, one step differs from the exact flow `exp (t (A + B))` by `O(dt³)`. -/
theorem c45_xvx_second_order (A₁ A₂ f : A) :
    (fun dt : ℝ => splitVlasovXVx (fun f t => NormedSpace.exp (t • A₁) * f)
        (fun f (_ : Unit) t => NormedSpace.exp (t • A₂) * f) f () dt
      - NormedSpace.exp (dt • (A₁ + A₂)) * f) =O[𝓝 0] (fun dt : ℝ => dt ^ 3) := by
  have h1 := hasExp2_exp A₁ (1 / 2)
  have h2 := hasExp2_exp A₂ 1
  have h3 := hasExp2_exp (A₁ + A₂) 1
  have h := (h1.mul (h2.mul h1)).sub h3
  have h := IsBigO.mul h (isBigO_const_const f (one_ne_zero (α := ℝ)) (𝓝 (0 : ℝ)))
  simp only [mul_one] at h
  refine h.congr_left fun t => ?_
  · simp only [splitVlasovXVx, one_mul, mul_assoc, sub_mul, mul_sub, add_mul, mul_add, smul_mul_assoc, mul_smul_comm,
      smul_smul, smul_add, show (1 / 2 * t : ℝ) = t / 2 by ring]
    module

/-- The 2D2V splitting is second order accurate. -/
theorem c45_xyvxvy_second_order (Ax Ay Avx Avy f : A) :
    (fun dt : ℝ => splitVlasovXYVxVy (fun f t => NormedSpace.exp (t • Ax) * f) (fun f t => NormedSpace.exp (t • Ay) * f)
        (fun f (_ : Unit) t => NormedSpace.exp (t • Avx) * f) (fun f (_ : Unit) t => NormedSpace.exp (t • Avy) * f)
        f ((), ()) dt
      - NormedSpace.exp (dt • (Ax + Ay + Avx + Avy)) * f) =O[𝓝 0] (fun dt : ℝ => dt ^ 3) := by
  have h1 := hasExp2_exp Ax (1 / 2)
  have h2 := hasExp2_exp Ay (1 / 2)
  have h3 := hasExp2_exp Avx (1 / 2)
  have h4 := hasExp2_exp Avy 1
  have h5 := hasExp2_exp (Ax + Ay + Avx + Avy) 1
  have h := (h1.mul (h2.mul (h3.mul (h4.mul (h3.mul (h2.mul h1)))))).sub h5
  have h := IsBigO.mul h (isBigO_const_const f (one_ne_zero (α := ℝ)) (𝓝 (0 : ℝ)))
  simp only [mul_one] at h
  refine h.congr_left fun t => ?_
  · simp only [splitVlasovXYVxVy, one_mul, mul_assoc, sub_mul, mul_sub, add_mul, mul_add, smul_mul_assoc, mul_smul_comm,
      smul_smul, smul_add, show (1 / 2 * t : ℝ) = t / 2 by ring]
    module

end Order

/-! ## The distributed solver -/

section Mpi
variable {Sp X Y VX VY R : Type*} (ownV : VX × VY → R) (ownX : X × Y → R)

/-- Distribution of a global field over the processes: every process holds the values of the velocities it owns. -/
def scatter (f : FieldV Sp X Y (VX × VY)) : DistV Sp X Y ownV := fun _ s x y v => f s x y v.1

/-- The MPI solver gives the serial result: for every assignment of the velocity points and of the position points to the processes, stepping the distributed
field gives the distribution of the field stepped serially. -/
theorem c45_mpi_eq_serial (opX : Sp → VX → (X → ℝ) → ℝ → X → ℝ) (opY : Sp → VY → (Y → ℝ) → ℝ → Y → ℝ)
    (opVx : Sp → ℝ → (VX → ℝ) → ℝ → VX → ℝ) (opVy : Sp → ℝ → (VY → ℝ) → ℝ → VY → ℝ)
    (f : FieldV Sp X Y (VX × VY)) (e : (X × Y → ℝ) × (X × Y → ℝ)) (eLocal : R → (X × Y → ℝ) × (X × Y → ℝ))
    (he : ∀ p, (eLocal (ownX p)).1 p = e.1 p ∧ (eLocal (ownX p)).2 p = e.2 p) (dt : ℝ) :
    mpiStep ownV ownX opX opY opVx opVy (scatter ownV f) eLocal dt
      = scatter ownV (serialStep opX opY opVx opVy f e dt) := by
  funext r s x y v
  simp only [mpiStep, serialStep, splitVlasovXYVxVy, scatter, advX, advY, advVx, advVy, transposeVX, transposeXV, toX, toV,
    id, (he _).1, (he _).2]

/-- The hypothesis is met when every process has the whole electric field, as in the code (lines 33-40). -/
example (e : (ℤ × ℤ → ℝ) × (ℤ × ℤ → ℝ)) (own : ℤ × ℤ → Fin 4) :
    ∀ p, ((fun _ : Fin 4 => e) (own p)).1 p = e.1 p ∧ ((fun _ : Fin 4 => e) (own p)).2 p = e.2 p := fun _ => ⟨rfl, rfl⟩

/-- On each process, the data after the two transpositions is the initial data (the round trip is the identity). -/
theorem c45_transpose_roundtrip (f : FieldV Sp X Y (VX × VY)) :
    transposeXV ownV ownX (transposeVX ownV ownX (scatter ownV f)) = scatter ownV f := rfl

end Mpi

end Verif.Splitting
