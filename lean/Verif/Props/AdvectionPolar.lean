import Verif.Props.Advection
import Verif.Props.GridTools
import Verif.Props.CircularMapping
import Mathlib.Algebra.BigOperators.Ring.List

/-!
# C68: polar backward semi-Lagrangian advection

Specification: the foot of the characteristic of a grid point is the logical coordinate of the pseudo-physical point `X - dt A`; the theta coordinate is brought back to the
periodic domain; the point of index `r = 0` has one foot and therefore one value.
-/

namespace Verif.Advection
open Verif.Timestepper Verif.GridTools

/-- The two mappings of the foot finder are consistent: the inverse mapping is a right inverse and the mapping is periodic in theta. -/
structure Consistent {I C : Type*} (o : FootFinder I C) : Prop where
  right_inv : ∀ p, o.toXY (o.toLogical p) = p
  periodic : ∀ r θ (k : ℤ), o.toXY (r, θ + k * o.thetaLen) = o.toXY (r, θ)
  len_pos : 0 < o.thetaLen

section
variable {I C : Type*} (o : FootFinder I C)

/-- C68: one update of a foot is a displacement by `-dt a` in the pseudo-physical plane: exactly so, or the new foot is the centre and the exact one is within `1e-15` of it. -/
theorem c68_update (ho : Consistent o) (foot a : P2) (dt : ℝ) :
    o.toXY (o.upd foot a dt) = o.toXY foot - dt • a ∨
      (o.upd foot a dt = (0, 0) ∧ |(o.toXY foot - dt • a).1 - (o.toXY (0, 0)).1| < 1e-15 ∧ |(o.toXY foot - dt • a).2 - (o.toXY (0, 0)).2| < 1e-15) := by
  simp only [FootFinder.upd]
  split_ifs with h
  · right
    rw [normInf, max_lt_iff] at h
    exact ⟨rfl, h.1, h.2⟩
  · left
    obtain ⟨k, hk⟩ := (c49_restrict o.thetaMin o.thetaLen (o.toLogical (o.toXY foot - dt • a)).2 ho.len_pos).2.2
    rw [hk, ho.periodic]
    exact ho.right_inv _

/-- C68: the velocity at a foot is the interpolated field at this foot, expressed in the pseudo-physical basis at the foot; beyond the outer boundary the basis is the one of the
boundary point with the same theta. -/
theorem c68_velocity (c1 c2 : C) (r θ : ℝ) :
    (r ≤ o.rmax → o.dy c1 c2 (r, θ) = o.toPseudo (r, θ) (o.eval (r, θ) c1, o.eval (r, θ) c2)) ∧
    (o.rmax ≤ r → o.dy c1 c2 (r, θ) = o.toPseudo (o.rmax, θ) (o.eval (r, θ) c1, o.eval (r, θ) c2)) := by
  refine ⟨fun h => ?_, fun h => ?_⟩
  · simp only [FootFinder.dy, min_eq_left h]
  · simp only [FootFinder.dy, min_eq_right h]

/-- C68: away from the centre the displacement is exact. -/
theorem c68_update_exact (ho : Consistent o) (foot a : P2) (dt : ℝ)
    (h : 1e-15 ≤ |(o.toXY foot - dt • a).1 - (o.toXY (0, 0)).1| ∨ 1e-15 ≤ |(o.toXY foot - dt • a).2 - (o.toXY (0, 0)).2|) :
    o.toXY (o.upd foot a dt) = o.toXY foot - dt • a := by
  rcases c68_update o ho foot a dt with h' | ⟨_, h1, h2⟩
  · exact h'
  · rcases h with h | h
    · exact absurd h1 (not_lt.2 h)
    · exact absurd h2 (not_lt.2 h)

/-- C68: the theta coordinate of an updated foot lies in the periodic domain when that domain contains `0`. -/
theorem c68_update_theta (ho : Consistent o) (h0 : o.thetaMin ≤ 0 ∧ 0 < o.thetaMin + o.thetaLen) (foot a : P2) (dt : ℝ) :
    o.thetaMin ≤ (o.upd foot a dt).2 ∧ (o.upd foot a dt).2 < o.thetaMin + o.thetaLen := by
  simp only [FootFinder.upd]
  split_ifs with h
  · exact h0
  · have := c49_restrict o.thetaMin o.thetaLen (o.toLogical (o.toXY foot - dt • a)).2 ho.len_pos
    exact ⟨this.1, this.2.1⟩

/-- Whatever the stepper, the state is the result of one update from the initial state: of the combination of stages `k` with the time step `s`. -/
theorem update_form (st : Stepper) (en : P2 → P2 → ℝ) (nm : P2 → ℝ) (f : P2 → P2) (y : P2) (dt : ℝ) :
    ∃ k s, st.update en nm o.upd f y dt = o.upd y k s := by
  cases st with
  | crankNicolson m eps =>
    have h := (cnLoop_body o.upd f en nm m eps y (f y) dt 0 y).1
    exact ⟨_, _, h⟩
  | _ => exact ⟨_, _, rfl⟩

/-- An update only depends on the product of time step and velocity. -/
theorem upd_smul (y k : P2) (c s : ℝ) : o.upd y (c • k) s = o.upd y k (s * c) := by
  simp only [FootFinder.upd, smul_smul]

/-- C68: whatever the stepper, a velocity which is constant in the pseudo-physical basis gives the foot obtained by one displacement by `-dt A`. -/
theorem c68_constant_velocity (st : Stepper) (en : P2 → P2 → ℝ) (nm : P2 → ℝ) (k y : P2) (dt : ℝ) :
    st.update en nm o.upd (fun _ => k) y dt = o.upd y k dt := by
  cases st with
  | euler => rfl
  | rk2 => rfl
  | rk3 =>
    simp only [Stepper.update, rk3]
    rw [show k + (4 : ℝ) • k + k = (6 : ℝ) • k by module, upd_smul]
    congr 1; ring
  | rk4 =>
    simp only [Stepper.update, rk4]
    rw [show k + (2 : ℝ) • k + (2 : ℝ) • k + k = (6 : ℝ) • k by module, upd_smul]
    congr 1; ring
  | crankNicolson m eps =>
    simp only [Stepper.update, crankNicolson]
    rw [(cnLoop_body o.upd (fun _ => k) en nm m eps y k dt 0 y).1]
    simp only [cnBody]
    rw [show k + k = (2 : ℝ) • k by module, upd_smul]
    congr 1; norm_num; ring

/-- Consequence: with a zero time step every stepper gives the update with zero displacement. -/
theorem update_zero (st : Stepper) (en : P2 → P2 → ℝ) (nm : P2 → ℝ) (f : P2 → P2) (y : P2) :
    st.update en nm o.upd f y 0 = o.upd y 0 0 := by
  have key : ∀ k : P2, o.upd y k 0 = o.upd y 0 0 := fun k => by simp [FootFinder.upd]
  cases st with
  | euler => exact key _
  | rk2 => exact key _
  | rk3 => simp only [Stepper.update, rk3, zero_div]; exact key _
  | rk4 => simp only [Stepper.update, rk4, zero_div]; exact key _
  | crankNicolson m eps =>
    simp only [Stepper.update, crankNicolson]
    rw [(cnLoop_body o.upd f en nm m eps y (f y) 0 0 y).1]
    simp only [cnBody, mul_zero]
    exact key _

/-- Uniqueness of the representative in the periodic domain. -/
theorem restrict_of_mem (xmin len t : ℝ) (hl : 0 < len) (h0 : xmin ≤ t) (h1 : t < xmin + len) (k : ℤ) : restrictToIdxRange xmin len (t + k * len) = t := by
  obtain ⟨a, b, m, hm⟩ := c49_restrict xmin len (t + k * len) hl
  rw [hm] at a b ⊢
  have h2 : ((k + m : ℤ) : ℝ) * len < 1 * len := by push_cast; linarith
  have h3 : (-1 : ℝ) * len < ((k + m : ℤ) : ℝ) * len := by push_cast; linarith
  have h2' : k + m < 1 := by exact_mod_cast lt_of_mul_lt_mul_right h2 hl.le
  have h3' : -1 < k + m := by exact_mod_cast lt_of_mul_lt_mul_right h3 hl.le
  have h4 : k + m = 0 := by omega
  have : (k : ℝ) + m = 0 := by exact_mod_cast h4
  linear_combination len * this

end

section
variable {IR IT B C : Type*} [DecidableEq IR] (o : FootFinder (IR × IT) C) (st : Stepper) (en : P2 → P2 → ℝ) (nm : P2 → ℝ)
  (rCoord : IR → ℝ) (tCoord : IT → ℝ) (r0 : IR) (t0 : IT)

theorem find_ne (a : B → IR → IT → P2) (dt : ℝ) (b : B) (i : IR) (j : IT) (hi : i ≠ r0) :
    o.find st en nm rCoord tCoord r0 t0 a dt b i j =
      st.update en nm o.upd (o.dy (o.build fun p => (a b p.1 p.2).1) (o.build fun p => (a b p.1 p.2).2)) (rCoord i, tCoord j) dt := by
  simp only [FootFinder.find, unify]
  by_cases h : |rCoord r0| < 1e-15 <;> simp [h, hi]

theorem find_form (a : B → IR → IT → P2) (dt : ℝ) (b : B) (i : IR) (j : IT) :
    ∃ i' j', o.find st en nm rCoord tCoord r0 t0 a dt b i j =
      st.update en nm o.upd (o.dy (o.build fun p => (a b p.1 p.2).1) (o.build fun p => (a b p.1 p.2).2)) (rCoord i', tCoord j') dt := by
  simp only [FootFinder.find, unify]
  by_cases h : |rCoord r0| < 1e-15
  · by_cases hi : i = r0
    · exact ⟨r0, t0, by simp [h, hi]⟩
    · exact ⟨i, j, by simp [h, hi]⟩
  · exact ⟨i, j, by simp [h]⟩

/-- C68: if the first radial point is the O-point, all the points of this index get the same foot. -/
theorem c68_unified (a : B → IR → IT → P2) (dt : ℝ) (h0 : |rCoord r0| < 1e-15) (b : B) (j j' : IT) :
    o.find st en nm rCoord tCoord r0 t0 a dt b r0 j = o.find st en nm rCoord tCoord r0 t0 a dt b r0 j' := by
  simp [FootFinder.find, unify, h0]

/-- C68: hence the advected function is single valued at the O-point, whatever was stored there before. -/
theorem c68_single_valued {D : Type*} (build : (IR × IT → ℝ) → D) (eval : P2 → D → ℝ) (f : B → IR → IT → ℝ) (a : B → IR → IT → P2) (dt : ℝ)
    (h0 : |rCoord r0| < 1e-15) (b : B) (j j' : IT) :
    bslPolar build eval (o.find st en nm rCoord tCoord r0 t0) f a dt b r0 j = bslPolar build eval (o.find st en nm rCoord tCoord r0 t0) f a dt b r0 j' := by
  simp only [bslPolar]
  rw [c68_unified o st en nm rCoord tCoord r0 t0 a dt h0 b j j']

/-- C68: the theta coordinates of all feet lie in the periodic domain, for every field, stepper and time step. -/
theorem c68_feet_theta (ho : Consistent o) (h0 : o.thetaMin ≤ 0 ∧ 0 < o.thetaMin + o.thetaLen) (a : B → IR → IT → P2) (dt : ℝ) (b : B) (i : IR) (j : IT) :
    o.thetaMin ≤ (o.find st en nm rCoord tCoord r0 t0 a dt b i j).2 ∧ (o.find st en nm rCoord tCoord r0 t0 a dt b i j).2 < o.thetaMin + o.thetaLen := by
  obtain ⟨i', j', h⟩ := find_form o st en nm rCoord tCoord r0 t0 a dt b i j
  rw [h]
  obtain ⟨k, s, hk⟩ := update_form o st en nm (o.dy (o.build fun p => (a b p.1 p.2).1) (o.build fun p => (a b p.1 p.2).2)) (rCoord i', tCoord j') dt
  rw [hk]
  exact c68_update_theta o ho h0 _ _ _

/-- C68: translation. Where the velocity is the constant `A` in the pseudo-physical basis, the foot of a grid point other than the O-point is the point `X(r, theta) - dt A` of the
plane (for every stepper, up to the `1e-15` neighbourhood of the centre), and the new value is the interpolant of the old function there. -/
theorem c68_translation (ho : Consistent o) (a : B → IR → IT → P2) (dt : ℝ) (b : B) (A : P2)
    (hA : ∀ p, o.dy (o.build fun p => (a b p.1 p.2).1) (o.build fun p => (a b p.1 p.2).2) p = A) (i : IR) (j : IT) (hi : i ≠ r0) :
    let foot := o.find st en nm rCoord tCoord r0 t0 a dt b i j
    let target := o.toXY (rCoord i, tCoord j) - dt • A
    o.toXY foot = target ∨ (foot = (0, 0) ∧ |target.1 - (o.toXY (0, 0)).1| < 1e-15 ∧ |target.2 - (o.toXY (0, 0)).2| < 1e-15) := by
  intro foot target
  have h : foot = o.upd (rCoord i, tCoord j) A dt := by
    simp only [foot]
    rw [find_ne _ _ _ _ _ _ _ _ _ _ _ _ _ hi,
      show (o.dy (o.build fun p => (a b p.1 p.2).1) (o.build fun p => (a b p.1 p.2).2)) = fun _ => A from funext hA]
    exact c68_constant_velocity o st en nm A _ dt
  rw [h]
  exact c68_update o ho _ A dt

/-- C68: with the Euler stepper the foot is `X - dt A(X)` for every velocity field. -/
theorem c68_euler (ho : Consistent o) (a : B → IR → IT → P2) (dt : ℝ) (b : B) (i : IR) (j : IT) (hi : i ≠ r0) :
    let A := o.dy (o.build fun p => (a b p.1 p.2).1) (o.build fun p => (a b p.1 p.2).2) (rCoord i, tCoord j)
    let foot := o.find .euler en nm rCoord tCoord r0 t0 a dt b i j
    let target := o.toXY (rCoord i, tCoord j) - dt • A
    o.toXY foot = target ∨ (foot = (0, 0) ∧ |target.1 - (o.toXY (0, 0)).1| < 1e-15 ∧ |target.2 - (o.toXY (0, 0)).2| < 1e-15) := by
  intro A foot target
  have h : foot = o.upd (rCoord i, tCoord j) A dt := by
    simp only [foot]
    rw [find_ne _ _ _ _ _ _ _ _ _ _ _ _ _ hi]; rfl
  rw [h]
  exact c68_update o ho _ A dt

/-- C68: with the RK2 stepper the foot is `X - dt A(X')`, `X'` being the foot of the half step: the midpoint rule along the characteristic. -/
theorem c68_rk2 (ho : Consistent o) (a : B → IR → IT → P2) (dt : ℝ) (b : B) (i : IR) (j : IT) (hi : i ≠ r0) :
    let vel := o.dy (o.build fun p => (a b p.1 p.2).1) (o.build fun p => (a b p.1 p.2).2)
    let mid := o.find .euler en nm rCoord tCoord r0 t0 a (dt / 2) b i j
    let foot := o.find .rk2 en nm rCoord tCoord r0 t0 a dt b i j
    let target := o.toXY (rCoord i, tCoord j) - dt • vel mid
    o.toXY foot = target ∨ (foot = (0, 0) ∧ |target.1 - (o.toXY (0, 0)).1| < 1e-15 ∧ |target.2 - (o.toXY (0, 0)).2| < 1e-15) := by
  intro vel mid foot target
  have hm : mid = o.upd (rCoord i, tCoord j) (vel (rCoord i, tCoord j)) (0.5 * dt) := by
    have : (0.5 : ℝ) * dt = dt / 2 := by norm_num; ring
    rw [this]
    simp only [mid]
    rw [find_ne _ _ _ _ _ _ _ _ _ _ _ _ _ hi]; rfl
  have h : foot = o.upd (rCoord i, tCoord j) (vel mid) dt := by
    rw [hm]
    simp only [foot]
    rw [find_ne _ _ _ _ _ _ _ _ _ _ _ _ _ hi]; rfl
  rw [h]
  exact c68_update o ho _ _ dt

/-- C68: a zero time step leaves the feet at the grid points which are not the O-point, whatever the field and the stepper. -/
theorem c68_zero_step_feet (ho : Consistent o) (a : B → IR → IT → P2) (b : B) (i : IR) (j : IT) (hi : i ≠ r0)
    (hθ : o.thetaMin ≤ tCoord j ∧ tCoord j < o.thetaMin + o.thetaLen)
    (hinv : ∃ k : ℤ, o.toLogical (o.toXY (rCoord i, tCoord j)) = (rCoord i, tCoord j + k * o.thetaLen))
    (hfar : 1e-15 ≤ |(o.toXY (rCoord i, tCoord j)).1 - (o.toXY (0, 0)).1| ∨ 1e-15 ≤ |(o.toXY (rCoord i, tCoord j)).2 - (o.toXY (0, 0)).2|) :
    o.find st en nm rCoord tCoord r0 t0 a 0 b i j = (rCoord i, tCoord j) := by
  have h : o.find st en nm rCoord tCoord r0 t0 a 0 b i j = o.upd (rCoord i, tCoord j) 0 0 := by
    rw [find_ne _ _ _ _ _ _ _ _ _ _ _ _ _ hi]
    exact update_zero o st en nm _ _
  obtain ⟨k, hk⟩ := hinv
  rw [h]
  simp only [FootFinder.upd, smul_zero, sub_zero, hk]
  rw [if_neg, restrict_of_mem _ _ _ ho.len_pos hθ.1 hθ.2]
  rw [normInf, max_lt_iff]
  rintro ⟨h1, h2⟩
  rcases hfar with hf | hf
  · exact absurd h1 (not_lt.2 hf)
  · exact absurd h2 (not_lt.2 hf)

/-- C68: then the advected function keeps its values there, when the interpolant passes through the data. -/
theorem c68_zero_step {D : Type*} (ho : Consistent o) (build : (IR × IT → ℝ) → D) (eval : P2 → D → ℝ)
    (hint : ∀ v i j, eval (rCoord i, tCoord j) (build v) = v (i, j)) (f : B → IR → IT → ℝ) (a : B → IR → IT → P2) (b : B) (i : IR) (j : IT) (hi : i ≠ r0)
    (hθ : o.thetaMin ≤ tCoord j ∧ tCoord j < o.thetaMin + o.thetaLen)
    (hinv : ∃ k : ℤ, o.toLogical (o.toXY (rCoord i, tCoord j)) = (rCoord i, tCoord j + k * o.thetaLen))
    (hfar : 1e-15 ≤ |(o.toXY (rCoord i, tCoord j)).1 - (o.toXY (0, 0)).1| ∨ 1e-15 ≤ |(o.toXY (rCoord i, tCoord j)).2 - (o.toXY (0, 0)).2|) :
    bslPolar build eval (o.find st en nm rCoord tCoord r0 t0) f a 0 b i j = f b i j := by
  simp only [bslPolar]
  rw [c68_zero_step_feet o st en nm rCoord tCoord r0 t0 ho a b i j hi hθ hinv hfar, hint]

/-- C68: a zero time step at the O-point: the foot is `(0, 0)`, so that the value becomes the one of the interpolant at the centre. -/
theorem c68_zero_step_centre (hc : rCoord r0 = 0) (hdeg : ∀ θ, o.toXY (0, θ) = o.toXY (0, 0)) (a : B → IR → IT → P2) (b : B) (j : IT) :
    o.find st en nm rCoord tCoord r0 t0 a 0 b r0 j = (0, 0) := by
  have h0 : |rCoord r0| < 1e-15 := by rw [hc]; norm_num
  simp only [FootFinder.find, unify, h0, if_true]
  rw [update_zero o st en nm, FootFinder.upd]
  simp only [hc, hdeg, normInf, smul_zero, sub_zero, sub_self, Prod.fst_zero, Prod.snd_zero, abs_zero, max_self]
  rw [if_pos (by norm_num)]

/-- C68: constants are preserved for every field, stepper and time step. -/
theorem c68_constant_function {D : Type*} (build : (IR × IT → ℝ) → D) (eval : P2 → D → ℝ) (find : (B → IR → IT → P2) → ℝ → B → IR → IT → P2)
    (c : ℝ) (hc : ∀ p, eval p (build fun _ => c) = c) (f : B → IR → IT → ℝ) (hf : ∀ b i j, f b i j = c) (a : B → IR → IT → P2) (dt : ℝ) (b : B) (i : IR) (j : IT) :
    bslPolar build eval find f a dt b i j = c := by
  simp only [bslPolar]
  rw [show (fun p : IR × IT => f b p.1 p.2) = fun _ => c from funext fun p => hf b p.1 p.2]
  exact hc _

/-- C68: the batches (species) are independent: result and feet of a batch only depend on this batch of the function and of the field. -/
theorem c68_batches_independent {D : Type*} (build : (IR × IT → ℝ) → D) (eval : P2 → D → ℝ) (f f' : B → IR → IT → ℝ) (a a' : B → IR → IT → P2) (dt : ℝ) (b : B)
    (hf : f b = f' b) (ha : a b = a' b) :
    bslPolar build eval (o.find st en nm rCoord tCoord r0 t0) f a dt b = bslPolar build eval (o.find st en nm rCoord tCoord r0 t0) f' a' dt b := by
  have : o.find st en nm rCoord tCoord r0 t0 a dt b = o.find st en nm rCoord tCoord r0 t0 a' dt b := by
    funext i j
    simp only [FootFinder.find, unify]
    by_cases h : |rCoord r0| < 1e-15 <;> simp only [h, if_true, if_false, ha]
  funext i j
  simp only [bslPolar, this, hf]

end

/-! ## The advection field at the O-point -/

section
variable {IR IT B : Type*} [DecidableEq IR] (J : P2 → P2 → P2) (rCoord : IR → ℝ) (tCoord : IT → ℝ) (thetas : List IT) (r0 r1 : IR)

theorem foldl_pair (g : IT → P2) (l : List IT) (s : P2) :
    l.foldl (fun acc j => (acc.1 + (g j).1, acc.2 + (g j).2)) s = (s.1 + (l.map fun j => (g j).1).sum, s.2 + (l.map fun j => (g j).2).sum) := by
  induction l generalizing s with
  | nil => simp
  | cons x l ih => simp only [List.foldl_cons, ih, List.map_cons, List.sum_cons]; ext <;> simp <;> ring

/-- C68: the overload without a central value. At the O-point the field is the arithmetic mean over theta of the physical field on the first ring; elsewhere
(and everywhere if the grid does not contain the O-point) it is the Jacobian matrix times the logical field. -/
theorem c68_average (a : B → IR → IT → P2) (b : B) (i : IR) (j : IT) :
    (rCoord r0 < 1e-13 → fieldWithAverage J rCoord tCoord thetas r0 r1 a b r0 j =
      ((thetas.map fun j => (J (rCoord r1, tCoord j) (a b r1 j)).1).sum / thetas.length, (thetas.map fun j => (J (rCoord r1, tCoord j) (a b r1 j)).2).sum / thetas.length)) ∧
    (i ≠ r0 ∨ 1e-13 ≤ rCoord r0 → fieldWithAverage J rCoord tCoord thetas r0 r1 a b i j = J (rCoord i, tCoord j) (a b i j)) := by
  refine ⟨fun h => ?_, fun h => ?_⟩
  · simp only [fieldWithAverage, h, if_true, foldl_pair, zero_add]
  · simp only [fieldWithAverage]
    by_cases h1 : rCoord r0 < 1e-13
    · have h2 : i ≠ r0 := h.resolve_right (not_le.2 h1)
      simp [h1, h2]
    · simp [h1]

/-- C68: a physical field which is constant on the first ring gets this constant at the O-point. -/
theorem c68_average_constant (a : B → IR → IT → P2) (b : B) (j : IT) (v : P2) (hr : rCoord r0 < 1e-13) (hne : thetas ≠ [])
    (hv : ∀ j ∈ thetas, J (rCoord r1, tCoord j) (a b r1 j) = v) : fieldWithAverage J rCoord tCoord thetas r0 r1 a b r0 j = v := by
  rw [(c68_average J rCoord tCoord thetas r0 r1 a b r0 j).1 hr]
  have hl : (thetas.length : ℝ) ≠ 0 := by
    have := List.length_pos_of_ne_nil hne
    positivity
  have h1 : thetas.map (fun j => (J (rCoord r1, tCoord j) (a b r1 j)).1) = thetas.map fun _ => v.1 := List.map_congr_left fun x hx => by rw [hv x hx]
  have h2 : thetas.map (fun j => (J (rCoord r1, tCoord j) (a b r1 j)).2) = thetas.map fun _ => v.2 := List.map_congr_left fun x hx => by rw [hv x hx]
  rw [h1, h2]
  simp only [List.map_const', List.sum_replicate, nsmul_eq_mul]
  ext <;> field_simp

/-- C68: the overload with a central value puts this value on the whole first ring `r0`, and the Jacobian matrix times the logical field elsewhere; with the mean value as central value
it is the other overload. -/
theorem c68_centre (a : B → IR → IT → P2) (centre : P2) (b : B) (i : IR) (j : IT) :
    fieldWithCentre J rCoord tCoord r0 a centre b r0 j = centre ∧
    (i ≠ r0 → fieldWithCentre J rCoord tCoord r0 a centre b i j = J (rCoord i, tCoord j) (a b i j)) := by
  refine ⟨by simp [fieldWithCentre], fun h => by simp [fieldWithCentre, h]⟩

/-- C68: agreement of the overloads for one batch. -/
theorem c68_overloads_agree (a : B → IR → IT → P2) (b : B) (j0 : IT) (hr : rCoord r0 < 1e-13) :
    fieldWithAverage J rCoord tCoord thetas r0 r1 a b = fieldWithCentre J rCoord tCoord r0 a (fieldWithAverage J rCoord tCoord thetas r0 r1 a b r0 j0) b := by
  funext i j
  by_cases hi : i = r0
  · subst hi
    rw [(c68_centre J rCoord tCoord i a _ b i j).1, (c68_average J rCoord tCoord thetas i r1 a b i j).1 hr, (c68_average J rCoord tCoord thetas i r1 a b i j0).1 hr]
  · rw [(c68_centre J rCoord tCoord r0 a _ b i j).2 hi, (c68_average J rCoord tCoord thetas r0 r1 a b i j).2 (Or.inl hi)]

end

/-! ## A concrete foot finder: the circular mapping -/

/-- Foot finder on the disk with the circular mapping of properties C30, velocity already in the pseudo-physical basis and an evaluator which returns the first stored value. -/
noncomputable def circFinder : FootFinder (Fin 3 × Fin 4) ℝ where
  toXY := Mappings.circToCart (0, 0)
  toLogical := Mappings.cartToCirc (0, 0)
  toPseudo _ v := v
  build v := v (0, 0)
  eval _ c := c
  rmax := 1
  thetaMin := 0
  thetaLen := 2 * Real.pi

theorem circFinder_consistent : Consistent circFinder where
  right_inv p := Mappings.c30_cart_circ_cart (0, 0) p
  periodic r θ k := by
    simp only [circFinder, Mappings.circToCart]
    rw [Real.cos_add_int_mul_two_pi, Real.sin_add_int_mul_two_pi]
  len_pos := by simp only [circFinder]; positivity

/-- The hypotheses of the translation theorem are met: a uniform velocity `(1, 0)` moves the foot of `(r, theta) = (1, 0)` for a time `1/4` to the point `(3/4, 0)`, with RK4. -/
example : circFinder.toXY (circFinder.find (B := Unit) .rk4 (fun _ _ => 0) (fun _ => 0) (fun i => (i : ℝ) / 2) (fun j => j * (Real.pi / 2)) 0 0
    (fun _ _ _ => ((1 : ℝ), (0 : ℝ))) (1 / 4) () 2 0) = (3 / 4, 0) := by
  have h := c68_translation circFinder .rk4 (fun _ _ => 0) (fun _ => 0) (fun i : Fin 3 => (i : ℝ) / 2) (fun j : Fin 4 => j * (Real.pi / 2)) 0 0 circFinder_consistent
    (fun (_ : Unit) _ _ => ((1 : ℝ), (0 : ℝ))) (1 / 4) () (1, 0) (fun p => rfl) 2 0 (by decide)
  have ht : circFinder.toXY (((2 : Fin 3) : ℝ) / 2, ((0 : Fin 4) : ℝ) * (Real.pi / 2)) - (1 / 4 : ℝ) • ((1 : ℝ), (0 : ℝ)) = (3 / 4, 0) := by
    simp only [circFinder, Mappings.circToCart]
    ext <;> norm_num
  simp only [ht] at h
  rcases h with h | ⟨_, h1, _⟩
  · exact h
  · norm_num [circFinder, Mappings.circToCart] at h1

end Verif.Advection
