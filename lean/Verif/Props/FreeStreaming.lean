import Verif.Props.AdvectionStability
import Verif.Props.SplineAdvection

/-! Property C101: the whole Vlasov-Poisson programs (1D1V and 2D2V) transport a species without charge along straight lines: the sum of squares never grows, and the distribution after any
number of steps converges to the initial one carried along the trajectories, whatever the other species and the electric field do. -/

namespace Verif.FreeStreaming

open Finset Verif.Simulation Verif.AccuracyAdvection Verif.Advection Verif.Splitting Verif.TimeLoops Verif.AdvectionStability Verif.SplineAdvection

/-- The interpolation of a line at displaced points. -/
noncomputable def displace {I C : Type*} (fi : Interp I C) (coord : I → ℝ) (δ : ℝ) (v : I → ℝ) (i : I) : ℝ := fi.eval (coord i - δ) (fi.build v)

/-- Specification: displacing a periodic line of `N` points is linear, does not increase the sum of squares, and makes an error of at most `B` on the samples of any function of a family
closed by translation. -/
structure GoodLine {C : Type*} (N : ℕ) [NeZero N] (fi : Interp (ZMod N) C) (coord : ZMod N → ℝ) (smooth : (ℝ → ℝ) → Prop) (B : ℝ) : Prop where
  linear : ∀ δ u w i, displace fi coord δ (fun j => u j - w j) i = displace fi coord δ u i - displace fi coord δ w i
  stable : ∀ δ v, ∑ i, displace fi coord δ v i ^ 2 ≤ ∑ i, v i ^ 2
  accurate : ∀ g, smooth g → ∀ δ i, |displace fi coord δ (fun j => g (coord j)) i - g (coord i - δ)| ≤ B
  nonneg : 0 ≤ B
  translated : ∀ g, smooth g → ∀ a, smooth fun t => g (t - a)

/-- Smooth periodic functions: `n` continuous derivatives, the last one bounded by `M`, the first one by `M1`. -/
def Smooth (n : ℕ) (L M M1 : ℝ) (g : ℝ → ℝ) : Prop :=
  ContDiff ℝ n g ∧ (∀ t, g (t + L) = g t) ∧ (∀ t, |iteratedDeriv n g t| ≤ M) ∧ ∀ t, |deriv g t| ≤ M1

theorem Smooth.shift {n : ℕ} {L M M1 : ℝ} {g : ℝ → ℝ} (h : Smooth n L M M1 g) (a : ℝ) : Smooth n L M M1 fun t => g (t - a) := by
  obtain ⟨h1, h2, h3, h4⟩ := h
  exact ⟨shift_contDiff h1 a, fun t => (congrArg g (by ring)).trans (h2 (t - a)), fun t => by rw [shift_iteratedDeriv]; exact h3 _, fun t => by rw [shift_deriv]; exact h4 _⟩

theorem lagrange_good (eps : ℝ) (heps : 0 ≤ eps) (heps1 : eps < 1 / 2) (D N : ℕ) [NeZero N] (hD : 0 < D) (hDN : D < N) (x0 dx : ℝ) (hdx : 0 < dx) (M M1 : ℝ) (hM : 0 ≤ M) :
    GoodLine N (lagrangeLine eps D N x0 dx) (periodicCoord N x0 dx) (Smooth (D + 1) (N * dx) M M1) (max (M / (4 * (D + 1)) * dx ^ (D + 1)) (M1 * (eps * dx))) where
  linear δ u w i := by
    have := lagrange_linear eps D N hD hDN x0 dx hdx (periodicCoord N x0 dx i - δ) 1 (-1) u w
    simp only [one_mul, neg_mul, ← sub_eq_add_neg] at this
    exact this
  stable δ v := by
    obtain ⟨y, c, hy, hform⟩ := lagrange_form eps heps heps1 D N hD hDN x0 dx hdx δ
    simp only [displace, hform]
    refine le_trans (le_of_eq ?_) (Strang.lagrange_stable D y hy v)
    exact Equiv.sum_comp (Equiv.addRight c) fun x => (∑ j ∈ range (D + 1), Strang.weight D y j * v (x + j)) ^ 2
  accurate g hg δ i := line_error eps heps heps1 N x0 dx hdx D hD hDN g hg.1 hg.2.1 M M1 hg.2.2.1 hg.2.2.2 _
  nonneg := le_max_of_le_left (by positivity)
  translated g hg a := hg.shift a

theorem spline_good {N : ℕ} [NeZero N] {x0 dx : ℝ} (hdx : 0 < dx) {phi : ZMod N → ℝ → ℝ} {solve : (ZMod N → ℝ) → ZMod N → ℝ} (h : CubicPeriodicSpline N x0 dx phi solve) (M M1 : ℝ)
    (hM : 0 ≤ M) : GoodLine N (splineLine solve phi) (periodicCoord N x0 dx) (Smooth 4 (N * dx) M M1) (6 * M * dx ^ 4) where
  linear δ u w i := by
    have hsub : solve (fun j => u j - w j) = fun j => solve u j - solve w j := by
      refine coefficients_unique h _ _ fun i => ?_
      rw [built h, show (solve u (i - 1) - solve w (i - 1) + 4 * (solve u i - solve w i) + (solve u (i + 1) - solve w (i + 1))) / 6 =
        (solve u (i - 1) + 4 * solve u i + solve u (i + 1)) / 6 - (solve w (i - 1) + 4 * solve w i + solve w (i + 1)) / 6 by ring, built h, built h]
    simp only [displace, splineLine, hsub, sub_mul, sum_sub_distrib]
  stable δ v := by
    have := c100_stable hdx h (nv := 1) ⟨0, fun _ => 0, fun _ => 1, 1, fun _ => δ, fun _ => 0⟩ (fun _ x _ => v x) 1 0 0
    simpa [Simulation.advX, bslX, displace] using this
  accurate g hg δ i := c100_interpolation hdx h g hg.1 hg.2.1 M hg.2.2.1 _
  nonneg := by positivity
  translated g hg a := hg.shift a

/-- One step of a linear scheme which does not increase the sum of squares adds at most the error made on the exact values. -/
theorem one_step {ι : Type*} [Fintype ι] (T : (ι → ℝ) → ι → ℝ) (hlin : ∀ u w i, T (fun j => u j - w j) i = T u i - T w i) (hstable : ∀ v, ∑ i, T v i ^ 2 ≤ ∑ i, v i ^ 2)
    (u w w' : ι → ℝ) (B : ℝ) (hB : 0 ≤ B) (hw : ∀ i, |T w i - w' i| ≤ B) :
    Real.sqrt (∑ i, (T u i - w' i) ^ 2) ≤ Real.sqrt (∑ i, (u i - w i) ^ 2) + Real.sqrt (Fintype.card ι) * B := by
  have hsplit : ∀ i, T u i - w' i = T (fun j => u j - w j) i + (T w i - w' i) := fun i => by rw [hlin]; ring
  simp only [hsplit]
  refine (minkowski _ _).trans (add_le_add (Real.sqrt_le_sqrt (hstable _)) ?_)
  rw [Real.sqrt_le_left (by positivity), mul_pow, Real.sq_sqrt (Nat.cast_nonneg _)]
  have : ∑ i, (T w i - w' i) ^ 2 ≤ ∑ _i : ι, B ^ 2 := sum_le_sum fun i _ => sq_le_sq' (abs_le.1 (hw i)).1 (abs_le.1 (hw i)).2
  refine this.trans (le_of_eq ?_)
  rw [sum_const, card_univ, nsmul_eq_mul]

/-! ## 1D1V -/

section xvx
variable {C C' : Type*} {nv : ℕ}

/-- A step of the Vlasov solver on a species without charge: two half steps of the spatial advection. -/
theorem neutral_step (P : Plasma nv) {X : Type*} (fi : Interp X C) (xCoord : X → ℝ) (gi : Interp (Fin nv) C') (hi : Interpolates gi P.vel) (s : ℕ) (hq : P.charge s = 0)
    (f : ℕ → X → Fin nv → ℝ) (e : X → ℝ) (dt : ℝ) (x : X) (v : Fin nv) :
    vlasovXVx P fi xCoord gi f e dt s x v =
      displace fi xCoord (Real.sqrt (P.massElec / P.mass s) * (dt / 2) * P.vel v) (displace fi xCoord (Real.sqrt (P.massElec / P.mass s) * (dt / 2) * P.vel v) fun x => f s x v) x := by
  have hv : ∀ f : ℕ → X → Fin nv → ℝ, advV P gi f e dt s = f s := by
    intro f; funext x v
    simp only [advV, bslV, hq, zero_mul, sub_zero]
    exact hi (f s x) v
  simp only [vlasovXVx, splitVlasovXVx]
  change Simulation.advX P fi xCoord (advV P gi (Simulation.advX P fi xCoord f (dt / 2)) e dt) (dt / 2) s x v = _
  simp only [Simulation.advX, bslX, hv]
  rfl

/-- **C101 (1D1V, stability)** Over any number of steps of the whole program, the sum of squares of every line of a species without charge does not grow, whatever the field solver. -/
theorem c101_xvx_stable {Φ : Type} {N : ℕ} [NeZero N] (P : Plasma nv) {fi : Interp (ZMod N) C} {xCoord : ZMod N → ℝ} {smooth : (ℝ → ℝ) → Prop} {B : ℝ} (hfi : GoodLine N fi xCoord smooth B)
    (gi : Interp (Fin nv) C') (hi : Interpolates gi P.vel) (solver : (ZMod N → ℝ) → Φ × (ZMod N → ℝ)) (s : ℕ) (hq : P.charge s = 0) (f : ℕ → ZMod N → Fin nv → ℝ) (t0 dt : ℝ) (n : ℕ)
    (v : Fin nv) : ∑ x, (simXVx P fi xCoord gi solver f t0 dt n).1 s x v ^ 2 ≤ ∑ x, f s x v ^ 2 := by
  rw [simXVx, c46_xvx]
  simp only
  induction n with
  | zero => exact le_rfl
  | succ n ih =>
    rw [Function.iterate_succ', Function.comp_apply]
    refine le_trans ?_ ih
    simp only [TimeLoops.midpoint, neutral_step P fi xCoord gi hi s hq]
    exact (hfi.stable _ _).trans (hfi.stable _ _)

/-- **C101 (1D1V, convergence)** The whole program with `n` steps of length `dt` carries a species without charge along the straight trajectories of its particles: started from the samples of
a smooth function, it ends within `2 n` interpolation errors of `g (x - v n dt)`, in root mean square; whatever the other species, the field solver and the time step. -/
theorem c101_xvx_convergence {Φ : Type} {N : ℕ} [NeZero N] (P : Plasma nv) {fi : Interp (ZMod N) C} {xCoord : ZMod N → ℝ} {smooth : (ℝ → ℝ) → Prop} {B : ℝ}
    (hfi : GoodLine N fi xCoord smooth B) (gi : Interp (Fin nv) C') (hi : Interpolates gi P.vel) (solver : (ZMod N → ℝ) → Φ × (ZMod N → ℝ)) (s : ℕ) (hq : P.charge s = 0)
    (f : ℕ → ZMod N → Fin nv → ℝ) (v : Fin nv) (g : ℝ → ℝ) (hg : smooth g) (hf : ∀ x, f s x v = g (xCoord x)) (t0 dt : ℝ) (n : ℕ) :
    Real.sqrt (∑ x, ((simXVx P fi xCoord gi solver f t0 dt n).1 s x v - g (xCoord x - Real.sqrt (P.massElec / P.mass s) * P.vel v * (n * dt))) ^ 2) ≤ 2 * n * (Real.sqrt N * B) := by
  rw [simXVx, c46_xvx]
  simp only
  obtain ⟨δ, hδ⟩ : ∃ δ, δ = Real.sqrt (P.massElec / P.mass s) * (dt / 2) * P.vel v := ⟨_, rfl⟩
  have hexact : ∀ m : ℕ, Real.sqrt (P.massElec / P.mass s) * P.vel v * (m * dt) = 2 * m * δ := fun m => by rw [hδ]; ring
  rw [hexact]
  induction n with
  | zero => simp [hf]
  | succ n ih =>
    rw [Function.iterate_succ', Function.comp_apply]
    simp only [TimeLoops.midpoint, neutral_step P fi xCoord gi hi s hq, ← hδ]
    have h1 := one_step (displace fi xCoord δ) (hfi.linear δ) (hfi.stable δ)
      (fun x => (TimeLoops.midpoint (vlasovXVx P fi xCoord gi) (fun f => (poissonXVx P solver f).2) dt)^[n] f s x v)
      (fun x => g (xCoord x - 2 * n * δ)) (fun x => g (xCoord x - (2 * n + 1) * δ)) B hfi.nonneg (fun i => by
        rw [show xCoord i - (2 * n + 1) * δ = xCoord i - δ - 2 * n * δ by ring]
        exact hfi.accurate _ (hfi.translated g hg (2 * n * δ)) δ i)
    have h2 := one_step (displace fi xCoord δ) (hfi.linear δ) (hfi.stable δ)
      (displace fi xCoord δ fun x => (TimeLoops.midpoint (vlasovXVx P fi xCoord gi) (fun f => (poissonXVx P solver f).2) dt)^[n] f s x v)
      (fun x => g (xCoord x - (2 * n + 1) * δ)) (fun x => g (xCoord x - 2 * ((n + 1 : ℕ) : ℝ) * δ)) B hfi.nonneg (fun i => by
        rw [show xCoord i - 2 * ((n + 1 : ℕ) : ℝ) * δ = xCoord i - δ - (2 * n + 1) * δ by push_cast; ring]
        exact hfi.accurate _ (hfi.translated g hg ((2 * n + 1) * δ)) δ i)
    rw [ZMod.card] at h1 h2
    refine (h2.trans (add_le_add_left (h1.trans (add_le_add_left ih _)) _)).trans (le_of_eq ?_)
    push_cast
    ring

end xvx

/-! ## 2D2V -/

section xyvxvy
variable {CX CY CVX CVY : Type*} {nvx nvy : ℕ}

/-- The advection of all the lines along `x`. -/
noncomputable def displaceX {X Y C : Type*} (fi : Interp X C) (coord : X → ℝ) (δ : ℝ) (u : X × Y → ℝ) (p : X × Y) : ℝ := displace fi coord δ (fun x => u (x, p.2)) p.1

/-- The advection of all the lines along `y`. -/
noncomputable def displaceY {X Y C : Type*} (fi : Interp Y C) (coord : Y → ℝ) (δ : ℝ) (u : X × Y → ℝ) (p : X × Y) : ℝ := displace fi coord δ (fun y => u (p.1, y)) p.2

/-- A step of the 2D2V Vlasov solver on a species without charge. -/
theorem neutral_step2 (P : Plasma2 nvx nvy) {X Y : Type*} (ip : Interps2 X Y nvx nvy CX CY CVX CVY) (hvx : Interpolates ip.vx P.velX) (hvy : Interpolates ip.vy P.velY) (s : ℕ)
    (hq : P.charge s = 0) (f : FieldV ℕ X Y (Fin nvx × Fin nvy)) (e : (X × Y → ℝ) × (X × Y → ℝ)) (dt : ℝ) (x : X) (y : Y) (v : Fin nvx × Fin nvy) :
    vlasov2 P ip f e dt s x y v =
      displaceX ip.x ip.xCoord (Real.sqrt (P.massElec / P.mass s) * (dt / 2) * P.velX v.1)
        (displaceY ip.y ip.yCoord (Real.sqrt (P.massElec / P.mass s) * (dt / 2) * P.velY v.2)
          (displaceY ip.y ip.yCoord (Real.sqrt (P.massElec / P.mass s) * (dt / 2) * P.velY v.2)
            (displaceX ip.x ip.xCoord (Real.sqrt (P.massElec / P.mass s) * (dt / 2) * P.velX v.1) fun p => f s p.1 p.2 v))) (x, y) := by
  have hVx : ∀ (f : FieldV ℕ X Y (Fin nvx × Fin nvy)) (e : X × Y → ℝ) dt, toV (advVx (lineV P.massElec P.mass P.charge P.velX ip.vx) (toX f) e dt) s = f s := by
    intro f e dt; funext x y v
    simp only [toV, toX, advVx, lineV, bslV, hq, zero_mul, sub_zero]
    exact hvx (fun vx => f s x y (vx, v.2)) v.1
  have hVy : ∀ (f : FieldV ℕ X Y (Fin nvx × Fin nvy)) (e : X × Y → ℝ) dt, toV (advVy (lineV P.massElec P.mass P.charge P.velY ip.vy) (toX f) e dt) s = f s := by
    intro f e dt; funext x y v
    simp only [toV, toX, advVy, lineV, bslV, hq, zero_mul, sub_zero]
    exact hvy (fun vy => f s x y (v.1, vy)) v.2
  simp only [vlasov2, serialStep, splitVlasovXYVxVy, Splitting.advX, Splitting.advY, hVx, hVy, id]
  rfl

theorem stableX {N : ℕ} [NeZero N] {Y : Type*} [Fintype Y] {C : Type*} {fi : Interp (ZMod N) C} {coord : ZMod N → ℝ} {smooth : (ℝ → ℝ) → Prop} {B : ℝ} (h : GoodLine N fi coord smooth B) (δ : ℝ)
    (u : ZMod N × Y → ℝ) : ∑ p, displaceX fi coord δ u p ^ 2 ≤ ∑ p, u p ^ 2 := by
  rw [Fintype.sum_prod_type_right, Fintype.sum_prod_type_right]
  exact sum_le_sum fun y _ => h.stable δ fun x => u (x, y)

theorem stableY {N : ℕ} [NeZero N] {X : Type*} [Fintype X] {C : Type*} {fi : Interp (ZMod N) C} {coord : ZMod N → ℝ} {smooth : (ℝ → ℝ) → Prop} {B : ℝ} (h : GoodLine N fi coord smooth B) (δ : ℝ)
    (u : X × ZMod N → ℝ) : ∑ p, displaceY fi coord δ u p ^ 2 ≤ ∑ p, u p ^ 2 := by
  rw [Fintype.sum_prod_type, Fintype.sum_prod_type]
  exact sum_le_sum fun x _ => h.stable δ fun y => u (x, y)

variable {Nx Ny : ℕ} [NeZero Nx] [NeZero Ny] {Φ : Type} (P : Plasma2 nvx nvy) (ip : Interps2 (ZMod Nx) (ZMod Ny) nvx nvy CX CY CVX CVY) {sx sy : (ℝ → ℝ) → Prop} {Bx By : ℝ}
  (hx : GoodLine Nx ip.x ip.xCoord sx Bx) (hy : GoodLine Ny ip.y ip.yCoord sy By) (hvx : Interpolates ip.vx P.velX) (hvy : Interpolates ip.vy P.velY)
  (solver : (ZMod Nx × ZMod Ny → ℝ) → Φ × ((ZMod Nx × ZMod Ny → ℝ) × (ZMod Nx × ZMod Ny → ℝ))) (s : ℕ) (hq : P.charge s = 0)

include hx hy hvx hvy hq in
/-- **C101 (2D2V, stability)** -/
theorem c101_xyvxvy_stable (f : FieldV ℕ (ZMod Nx) (ZMod Ny) (Fin nvx × Fin nvy)) (dt : ℝ) (n : ℕ) (v : Fin nvx × Fin nvy) :
    ∑ p : ZMod Nx × ZMod Ny, (sim2 P ip solver f dt n).1 s p.1 p.2 v ^ 2 ≤ ∑ p : ZMod Nx × ZMod Ny, f s p.1 p.2 v ^ 2 := by
  rw [sim2, c46_xyvxvy]
  simp only
  induction n with
  | zero => exact le_rfl
  | succ n ih =>
    rw [Function.iterate_succ', Function.comp_apply]
    refine le_trans ?_ ih
    simp only [TimeLoops.midpoint, neutral_step2 P ip hvx hvy s hq]
    exact (stableX hx _ _).trans ((stableY hy _ _).trans ((stableY hy _ _).trans (stableX hx _ _)))

include hx hy hvx hvy hq in
/-- **C101 (2D2V, convergence)** The whole 2D2V program carries a species without charge along straight lines: started from the samples of a function smooth in each variable, it ends within
`n (2 Bx + 2 By)` of `g (x - vx n dt, y - vy n dt)` in root mean square. -/
theorem c101_xyvxvy_convergence (f : FieldV ℕ (ZMod Nx) (ZMod Ny) (Fin nvx × Fin nvy)) (v : Fin nvx × Fin nvy) (g : ℝ → ℝ → ℝ) (hgx : ∀ y, sx fun x => g x y) (hgy : ∀ x, sy fun y => g x y)
    (hf : ∀ x y, f s x y v = g (ip.xCoord x) (ip.yCoord y)) (dt : ℝ) (n : ℕ) :
    Real.sqrt (∑ p : ZMod Nx × ZMod Ny, ((sim2 P ip solver f dt n).1 s p.1 p.2 v - g (ip.xCoord p.1 - Real.sqrt (P.massElec / P.mass s) * P.velX v.1 * (n * dt))
        (ip.yCoord p.2 - Real.sqrt (P.massElec / P.mass s) * P.velY v.2 * (n * dt))) ^ 2) ≤ n * (Real.sqrt (Nx * Ny) * (2 * Bx + 2 * By)) := by
  rw [sim2, c46_xyvxvy]
  simp only
  obtain ⟨a, ha⟩ : ∃ a, a = Real.sqrt (P.massElec / P.mass s) * (dt / 2) * P.velX v.1 := ⟨_, rfl⟩
  obtain ⟨b, hb⟩ : ∃ b, b = Real.sqrt (P.massElec / P.mass s) * (dt / 2) * P.velY v.2 := ⟨_, rfl⟩
  have ea : ∀ m : ℕ, Real.sqrt (P.massElec / P.mass s) * P.velX v.1 * (m * dt) = 2 * m * a := fun m => by rw [ha]; ring
  have eb : ∀ m : ℕ, Real.sqrt (P.massElec / P.mass s) * P.velY v.2 * (m * dt) = 2 * m * b := fun m => by rw [hb]; ring
  rw [ea, eb]
  -- one advection along x or y of the exact values
  have stepX : ∀ (u : ZMod Nx × ZMod Ny → ℝ) (α β : ℝ), Real.sqrt (∑ p, (displaceX ip.x ip.xCoord a u p - g (ip.xCoord p.1 - (α + a)) (ip.yCoord p.2 - β)) ^ 2) ≤
      Real.sqrt (∑ p, (u p - g (ip.xCoord p.1 - α) (ip.yCoord p.2 - β)) ^ 2) + Real.sqrt (Nx * Ny) * Bx := by
    intro u α β
    have := one_step (displaceX ip.x ip.xCoord a) (fun u w i => hx.linear a (fun x => u (x, i.2)) (fun x => w (x, i.2)) i.1) (stableX hx a) u
      (fun p => g (ip.xCoord p.1 - α) (ip.yCoord p.2 - β)) (fun p => g (ip.xCoord p.1 - (α + a)) (ip.yCoord p.2 - β)) Bx hx.nonneg (fun p => by
        rw [show ip.xCoord p.1 - (α + a) = ip.xCoord p.1 - a - α by ring]
        exact hx.accurate _ (hx.translated _ (hgx (ip.yCoord p.2 - β)) α) a p.1)
    rw [Fintype.card_prod, ZMod.card, ZMod.card, Nat.cast_mul] at this
    exact this
  have stepY : ∀ (u : ZMod Nx × ZMod Ny → ℝ) (α β : ℝ), Real.sqrt (∑ p, (displaceY ip.y ip.yCoord b u p - g (ip.xCoord p.1 - α) (ip.yCoord p.2 - (β + b))) ^ 2) ≤
      Real.sqrt (∑ p, (u p - g (ip.xCoord p.1 - α) (ip.yCoord p.2 - β)) ^ 2) + Real.sqrt (Nx * Ny) * By := by
    intro u α β
    have := one_step (displaceY ip.y ip.yCoord b) (fun u w i => hy.linear b (fun y => u (i.1, y)) (fun y => w (i.1, y)) i.2) (stableY hy b) u
      (fun p => g (ip.xCoord p.1 - α) (ip.yCoord p.2 - β)) (fun p => g (ip.xCoord p.1 - α) (ip.yCoord p.2 - (β + b))) By hy.nonneg (fun p => by
        rw [show ip.yCoord p.2 - (β + b) = ip.yCoord p.2 - b - β by ring]
        exact hy.accurate _ (hy.translated _ (hgy (ip.xCoord p.1 - α)) β) b p.2)
    rw [Fintype.card_prod, ZMod.card, ZMod.card, Nat.cast_mul] at this
    exact this
  induction n with
  | zero => simp [hf]
  | succ n ih =>
    rw [Function.iterate_succ', Function.comp_apply]
    simp only [TimeLoops.midpoint, neutral_step2 P ip hvx hvy s hq, ← ha, ← hb]
    obtain ⟨u, hu⟩ : ∃ u : ZMod Nx × ZMod Ny → ℝ, u = fun p => (TimeLoops.midpoint (vlasov2 P ip) (fun f => (poisson2 P solver f).2) dt)^[n] f s p.1 p.2 v := ⟨_, rfl⟩
    have h1 := stepX u (2 * n * a) (2 * n * b)
    have h2 := stepY (displaceX ip.x ip.xCoord a u) (2 * n * a + a) (2 * n * b)
    have h3 := stepY (displaceY ip.y ip.yCoord b (displaceX ip.x ip.xCoord a u)) (2 * n * a + a) (2 * n * b + b)
    have h4 := stepX (displaceY ip.y ip.yCoord b (displaceY ip.y ip.yCoord b (displaceX ip.x ip.xCoord a u))) (2 * n * a + a) (2 * n * b + b + b)
    have e1 : 2 * ((n + 1 : ℕ) : ℝ) * a = 2 * n * a + a + a := by push_cast; ring
    have e2 : 2 * ((n + 1 : ℕ) : ℝ) * b = 2 * n * b + b + b := by push_cast; ring
    rw [e1, e2]
    have ih' : Real.sqrt (∑ p, (u p - g (ip.xCoord p.1 - 2 * n * a) (ip.yCoord p.2 - 2 * n * b)) ^ 2) ≤ n * (Real.sqrt (Nx * Ny) * (2 * Bx + 2 * By)) := by rw [hu]; exact ih
    rw [← hu]
    push_cast
    refine h4.trans ?_
    linarith

end xyvxvy

/-! ## A concrete program: three species, the last one neutral -/

/-- Ions, electrons and neutral atoms on a velocity grid with two points. -/
noncomputable def plasma3 : Plasma 2 := ⟨3, fun s => if s = 0 then 1 else if s = 1 then -1 else 0, fun s => if s = 1 then 1 else 1836, 1, ![-1, 1], fun _ => 1⟩

/-- The 1D1V program with the Fourier solver and Lagrange interpolation of degree 5 on eight points: ten steps carry a sine wave of neutral atoms, whatever the initial ions and electrons. -/
example (f : ℕ → ZMod 8 → Fin 2 → ℝ) (hf : ∀ x, f 2 x 1 = Real.sin (Real.pi / 4 * periodicCoord 8 0 1 x)) :
    Real.sqrt (∑ x, ((simXVx plasma3 (lagrangeLine 0 5 8 0 1) (periodicCoord 8 0 1) line2 (fft1 8 1) f 0 0.1 10).1 2 x 1
      - Real.sin (Real.pi / 4 * (periodicCoord 8 0 1 x - Real.sqrt (plasma3.massElec / plasma3.mass 2) * plasma3.vel 1 * ((10 : ℕ) * 0.1)))) ^ 2) ≤
    2 * (10 : ℕ) * (Real.sqrt (8 : ℕ) * max ((Real.pi / 4) ^ 6 / (4 * ((5 : ℕ) + 1)) * 1 ^ (5 + 1)) (Real.pi / 4 * (0 * 1))) := by
  have hd : ∀ t, HasDerivAt (fun t : ℝ => Real.sin (Real.pi / 4 * t)) (Real.pi / 4 * Real.cos (Real.pi / 4 * t)) t := fun t => by
    have := (Real.hasDerivAt_sin (Real.pi / 4 * t)).comp t ((hasDerivAt_id t).const_mul (Real.pi / 4))
    simpa [Function.comp_def, mul_comm] using this
  refine c101_xvx_convergence plasma3 (lagrange_good 0 le_rfl (by norm_num) 5 8 (by norm_num) (by norm_num) 0 1 one_pos ((Real.pi / 4) ^ 6) (Real.pi / 4) (by positivity)) line2
    line2_interpolates (fft1 8 1) 2 (by simp [plasma3]) f 1 (fun t => Real.sin (Real.pi / 4 * t)) ⟨by fun_prop, fun t => ?_, fun t => ?_, fun t => ?_⟩ hf 0 0.1 10
  · simp only
    rw [show Real.pi / 4 * (t + (8 : ℕ) * 1) = Real.pi / 4 * t + 2 * Real.pi by push_cast; ring, Real.sin_add_two_pi]
  · rw [iteratedDeriv_comp_const_mul (by fun_prop)]
    simp only [abs_mul, abs_pow]
    rw [abs_of_nonneg (by positivity : 0 ≤ Real.pi / 4)]
    refine mul_le_of_le_one_right (by positivity) ?_
    rw [show (5 + 1 : ℕ) = 2 * 3 from rfl, Real.iteratedDeriv_even_sin 3]
    simpa using Real.abs_sin_le_one _
  · rw [(hd t).deriv, abs_mul, abs_of_nonneg (by positivity : 0 ≤ Real.pi / 4)]
    exact mul_le_of_le_one_right (by positivity) (Real.abs_cos_le_one _)

/-- The 2D2V program: the sum of squares of the neutral species never grows, with Lagrange interpolation along `x` and cubic splines along `y`. -/
example : ∃ solve, ∀ (Φ : Type) (solver : (ZMod 8 × ZMod 6 → ℝ) → Φ × ((ZMod 8 × ZMod 6 → ℝ) × (ZMod 8 × ZMod 6 → ℝ))) (f : FieldV ℕ (ZMod 8) (ZMod 6) (Fin 2 × Fin 2)) (n : ℕ) (v : Fin 2 × Fin 2),
    ∑ p : ZMod 8 × ZMod 6, (sim2 ⟨3, 3, plasma3.charge, plasma3.mass, 1, ![-1, 1], ![-1, 1], fun _ => 1⟩
      ⟨lagrangeLine 0 5 8 0 1, splineLine solve (cubicPhi 6 0 1), line2, line2, periodicCoord 8 0 1, periodicCoord 6 0 1⟩ solver f 0.1 n).1 2 p.1 p.2 v ^ 2 ≤
      ∑ p : ZMod 8 × ZMod 6, f 2 p.1 p.2 v ^ 2 := by
  obtain ⟨solve, h⟩ := exists_spline 6 0 1 one_pos
  refine ⟨solve, fun Φ solver f n v => ?_⟩
  exact c101_xyvxvy_stable _ ⟨lagrangeLine 0 5 8 0 1, splineLine solve (cubicPhi 6 0 1), line2, line2, periodicCoord 8 0 1, periodicCoord 6 0 1⟩
    (lagrange_good 0 le_rfl (by norm_num) 5 8 (by norm_num) (by norm_num) 0 1 one_pos 1 1 zero_le_one) (spline_good one_pos h 1 1 zero_le_one) line2_interpolates line2_interpolates
    solver 2 (by simp [plasma3]) f 0.1 n v

end Verif.FreeStreaming
