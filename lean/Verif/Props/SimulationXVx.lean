import Verif.Props.Simulation
import Mathlib.Analysis.Convex.Jensen
import Mathlib.Analysis.Convex.Mul

/-!
# C94: the 1D1V and 2D2V periodic programs
-/

namespace Verif.Simulation
open Verif.Advection Verif.Splitting Verif.TimeLoops Finset

/-! ## Time loops and symmetries -/

/-- Specification: an event with its payload transformed by `T` (density) and `TΦ` (potential). -/
def Event.mapped {F F' Φ Φ' : Type*} (T : F → F') (TΦ : Φ → Φ') (e : Event F Φ) : Event F' Φ' := ⟨e.name, e.iter, e.time, T e.density, TΦ e.phi⟩

theorem predCorrXVx_symmetry {F Φ E : Type*} (T : F → F) (TΦ : Φ → Φ) (TE : E → E) (boltz : F → E → ℝ → F) (poisson : F → Φ × E)
    (hb : ∀ f e dt, boltz (T f) (TE e) dt = T (boltz f e dt)) (hp : ∀ f, poisson (T f) = (TΦ (poisson f).1, TE (poisson f).2)) (f : F) (t0 dt : ℝ) (n : ℕ) :
    (predCorrXVx boltz poisson (T f) t0 dt n).1 = T (predCorrXVx boltz poisson f t0 dt n).1 ∧
    (predCorrXVx boltz poisson (T f) t0 dt n).2 = (predCorrXVx boltz poisson f t0 dt n).2.map (Event.mapped T TΦ) := by
  have key : ∀ (n iter : ℕ) (f : F) (log : List (Event F Φ)),
      (predCorrXVxLoop boltz poisson t0 dt n iter (T f) (log.map (Event.mapped T TΦ))).1 = T (predCorrXVxLoop boltz poisson t0 dt n iter f log).1 ∧
      (predCorrXVxLoop boltz poisson t0 dt n iter (T f) (log.map (Event.mapped T TΦ))).2
        = (predCorrXVxLoop boltz poisson t0 dt n iter f log).2.map (Event.mapped T TΦ) := by
    intro n
    induction n with
    | zero => intro iter f log; simp [predCorrXVxLoop, hp, Event.mapped]
    | succ n ih =>
      intro iter f log
      have := ih (iter + 1) (boltz f (poisson (boltz f (poisson f).2 (dt / 2))).2 dt) (log ++ [⟨.iteration, iter, t0 + iter * dt, f, (poisson f).1⟩])
      simpa [predCorrXVxLoop, hp, hb, Event.mapped] using this
  simpa [predCorrXVx] using key n 0 f []

theorem predCorrXYVxVy_symmetry {F Φ E : Type*} (T : F → F) (TΦ : Φ → Φ) (TE : E → E) (boltz : F → E → ℝ → F) (poisson : F → Φ × E)
    (hb : ∀ f e dt, boltz (T f) (TE e) dt = T (boltz f e dt)) (hp : ∀ f, poisson (T f) = (TΦ (poisson f).1, TE (poisson f).2)) (f : F) (dt : ℝ) (n : ℕ) :
    (predCorrXYVxVy boltz poisson (T f) dt n).1 = T (predCorrXYVxVy boltz poisson f dt n).1 ∧
    (predCorrXYVxVy boltz poisson (T f) dt n).2 = (predCorrXYVxVy boltz poisson f dt n).2.map (Event.mapped T TΦ) := by
  have key : ∀ (n iter : ℕ) (f : F) (log : List (Event F Φ)),
      (predCorrXYVxVyLoop boltz poisson dt n iter (T f) (log.map (Event.mapped T TΦ))).1 = T (predCorrXYVxVyLoop boltz poisson dt n iter f log).1 ∧
      (predCorrXYVxVyLoop boltz poisson dt n iter (T f) (log.map (Event.mapped T TΦ))).2
        = (predCorrXYVxVyLoop boltz poisson dt n iter f log).2.map (Event.mapped T TΦ) := by
    intro n
    induction n with
    | zero => intro iter f log; simp [predCorrXYVxVyLoop, hp, Event.mapped]
    | succ n ih =>
      intro iter f log
      have := ih (iter + 1) (boltz f (poisson (boltz f (poisson f).2 (dt / 2))).2 dt) (log ++ [⟨.iteration, iter, iter * dt, f, (poisson f).1⟩])
      simpa [predCorrXYVxVyLoop, hp, hb, Event.mapped] using this
  simpa [predCorrXYVxVy] using key n 0 f []

/-- Specification: nothing moves: the final state is `f` and each of the `n + 1` events carries the state `f` and the potential `phi`. -/
def Stationary {F Φ : Type*} (r : F × List (Event F Φ)) (n : ℕ) (f : F) (phi : Φ) : Prop :=
  r.1 = f ∧ r.2.length = n + 1 ∧ ∀ e ∈ r.2, e.density = f ∧ e.phi = phi

theorem predCorrXVx_stationary {F Φ E : Type*} (boltz : F → E → ℝ → F) (poisson : F → Φ × E) (f : F) (phi : Φ) (e : E) (hp : poisson f = (phi, e))
    (hb : ∀ dt, boltz f e dt = f) (t0 dt : ℝ) (n : ℕ) : Stationary (predCorrXVx boltz poisson f t0 dt n) n f phi := by
  have key : ∀ (n iter : ℕ) (log : List (Event F Φ)), (∀ e ∈ log, e.density = f ∧ e.phi = phi) →
      (predCorrXVxLoop boltz poisson t0 dt n iter f log).1 = f ∧ (predCorrXVxLoop boltz poisson t0 dt n iter f log).2.length = log.length + (n + 1) ∧
      ∀ e ∈ (predCorrXVxLoop boltz poisson t0 dt n iter f log).2, e.density = f ∧ e.phi = phi := by
    intro n
    induction n with
    | zero =>
      intro iter log h
      refine ⟨rfl, by simp [predCorrXVxLoop], ?_⟩
      intro e he
      simp only [predCorrXVxLoop, List.mem_append, List.mem_singleton] at he
      rcases he with he | rfl
      · exact h e he
      · simp [hp]
    | succ n ih =>
      intro iter log h
      have := ih (iter + 1) (log ++ [⟨.iteration, iter, t0 + iter * dt, f, phi⟩]) (by
        intro e he
        simp only [List.mem_append, List.mem_singleton] at he
        rcases he with he | rfl
        · exact h e he
        · exact ⟨rfl, rfl⟩)
      simp only [predCorrXVxLoop, hp, hb]
      refine ⟨this.1, ?_, this.2.2⟩
      rw [this.2.1]; simp; omega
  have := key n 0 [] (by simp)
  simpa [Stationary, predCorrXVx] using this

theorem predCorrXYVxVy_stationary {F Φ E : Type*} (boltz : F → E → ℝ → F) (poisson : F → Φ × E) (f : F) (phi : Φ) (e : E) (hp : poisson f = (phi, e))
    (hb : ∀ dt, boltz f e dt = f) (dt : ℝ) (n : ℕ) : Stationary (predCorrXYVxVy boltz poisson f dt n) n f phi := by
  have key : ∀ (n iter : ℕ) (log : List (Event F Φ)), (∀ e ∈ log, e.density = f ∧ e.phi = phi) →
      (predCorrXYVxVyLoop boltz poisson dt n iter f log).1 = f ∧ (predCorrXYVxVyLoop boltz poisson dt n iter f log).2.length = log.length + (n + 1) ∧
      ∀ e ∈ (predCorrXYVxVyLoop boltz poisson dt n iter f log).2, e.density = f ∧ e.phi = phi := by
    intro n
    induction n with
    | zero =>
      intro iter log h
      refine ⟨rfl, by simp [predCorrXYVxVyLoop], ?_⟩
      intro e he
      simp only [predCorrXYVxVyLoop, List.mem_append, List.mem_singleton] at he
      rcases he with he | rfl
      · exact h e he
      · simp [hp]
    | succ n ih =>
      intro iter log h
      have := ih (iter + 1) (log ++ [⟨.iteration, iter, iter * dt, f, phi⟩]) (by
        intro e he
        simp only [List.mem_append, List.mem_singleton] at he
        rcases he with he | rfl
        · exact h e he
        · exact ⟨rfl, rfl⟩)
      simp only [predCorrXYVxVyLoop, hp, hb]
      refine ⟨this.1, ?_, this.2.2⟩
      rw [this.2.1]; simp; omega
  have := key n 0 [] (by simp)
  simpa [Stationary, predCorrXYVxVy] using this

/-! ## 1D1V -/

section xvx
variable {C C' : Type*} {nv : ℕ}

/-- Specification: the distribution moved by `a` grid points. -/
def translated {X : Type*} [Sub X] (a : X) (f : ℕ → X → Fin nv → ℝ) : ℕ → X → Fin nv → ℝ := fun s x v => f s (x - a) v

theorem advX_translated {X : Type*} [AddCommGroup X] (P : Plasma nv) (fi : Interp X C) (xCoord : X → ℝ) (hs : ShiftInvariant fi xCoord) (a : X)
    (f : ℕ → X → Fin nv → ℝ) (dt : ℝ) : advX P fi xCoord (translated a f) dt = translated a (advX P fi xCoord f dt) := by
  funext s x v
  simp only [advX, bslX, translated]
  have := hs (fun x => f s x v) a (x - a) (Real.sqrt (P.massElec / P.mass s) * dt * P.vel v)
  rw [sub_add_cancel] at this
  exact this

theorem advV_translated {X : Type*} [AddCommGroup X] (P : Plasma nv) (gi : Interp (Fin nv) C') (a : X) (f : ℕ → X → Fin nv → ℝ) (e : X → ℝ) (dt : ℝ) :
    advV P gi (translated a f) (fun x => e (x - a)) dt = translated a (advV P gi f e dt) := rfl

theorem fft1_translated (N : ℕ) [NeZero N] (h : ℝ) (rho : ZMod N → ℝ) (a : ZMod N) :
    fft1 N h (fun x => rho (x - a)) = (fun x => (fft1 N h rho).1 (x - a), fun x => (fft1 N h rho).2 (x - a)) := by
  have key := fun x : ZMod N => c94_fft_translation (fun _ : Fin 1 => N) (fun _ => h) (fun x => rho (x 0)) (fun _ => a) (fun _ => x)
  ext x
  · exact (key x).1
  · exact (key x).2 0

/-- C94 (1D1V): moving the initial distribution by any number of grid points moves the whole simulation: the final distribution and, in every output event, the distribution and the
potential; for every grid, time step, number of steps and set of species. -/
theorem c94_translation_xvx (P : Plasma nv) (N : ℕ) [NeZero N] (h : ℝ) (fi : Interp (ZMod N) C) (xCoord : ZMod N → ℝ) (hs : ShiftInvariant fi xCoord)
    (gi : Interp (Fin nv) C') (f : ℕ → ZMod N → Fin nv → ℝ) (t0 dt : ℝ) (n : ℕ) (a : ZMod N) :
    (simXVx P fi xCoord gi (fft1 N h) (translated a f) t0 dt n).1 = translated a (simXVx P fi xCoord gi (fft1 N h) f t0 dt n).1 ∧
    (simXVx P fi xCoord gi (fft1 N h) (translated a f) t0 dt n).2 =
      (simXVx P fi xCoord gi (fft1 N h) f t0 dt n).2.map (Event.mapped (translated a) fun phi x => phi (x - a)) := by
  refine predCorrXVx_symmetry (translated a) (fun (phi : ZMod N → ℝ) x => phi (x - a)) (fun (e : ZMod N → ℝ) x => e (x - a)) _ _ ?_ ?_ f t0 dt n
  · intro f e dt
    simp only [vlasovXVx, splitVlasovXVx]
    rw [advX_translated P fi xCoord hs, advV_translated, advX_translated P fi xCoord hs]
  · intro f
    exact fft1_translated N h (QnSolver.rhoXVx P.nkin P.charge nv P.w (numbered f)) a

/-- C94 (1D1V): a distribution which does not depend on the position is a stationary solution of the whole program, with a zero potential, whatever the species and their charges. -/
theorem c94_homogeneous_xvx (P : Plasma nv) (N : ℕ) [NeZero N] (h : ℝ) (fi : Interp (ZMod N) C) (xCoord : ZMod N → ℝ) (hc : KeepsConstants fi)
    (gi : Interp (Fin nv) C') (hi : Interpolates gi P.vel) (g : ℕ → Fin nv → ℝ) (t0 dt : ℝ) (n : ℕ) :
    Stationary (simXVx P fi xCoord gi (fft1 N h) (fun s _ v => g s v) t0 dt n) n (fun s _ v => g s v) fun _ => 0 := by
  have hf : poissonXVx P (fft1 N h) (fun s _ v => g s v) = (fun _ => 0, fun _ => 0) := by
    have := QnSolver.c87_fft_uniform (fun _ : Fin 1 => N) (fun _ => h) P.nkin P.charge nv P.w (fun s k => if hk : k < nv then g s ⟨k, hk⟩ else 0) ()
    simp only [QnSolver.qn, if_true, Option.some.injEq] at this
    simp only [poissonXVx, fft1]
    have e : (fun x : Fft.Grid (fun _ : Fin 1 => N) => QnSolver.rhoXVx P.nkin P.charge nv P.w (numbered fun s (_ : ZMod N) v => g s v) (x 0)) =
        QnSolver.rhoXVx P.nkin P.charge nv P.w (fun s (_ : Fft.Grid (fun _ : Fin 1 => N)) k => if hk : k < nv then g s ⟨k, hk⟩ else 0) := rfl
    rw [e, this]
  refine predCorrXVx_stationary _ _ _ _ _ hf ?_ t0 dt n
  intro dt
  have hx : ∀ dt, advX P fi xCoord (fun s _ v => g s v) dt = fun s _ v => g s v := by
    intro dt; funext s x v
    simp only [advX, bslX]
    exact hc _ _
  have hv : advV P gi (fun s (_ : ZMod N) v => g s v) (fun _ => 0) dt = fun s _ v => g s v := by
    funext s x v
    simp only [advV, bslV, mul_zero, sub_zero]
    exact hi (g s) v
  simp only [vlasovXVx, splitVlasovXVx, hx, hv]

/-- C94 (1D1V): a spatial advection with any time step keeps, for every species and every velocity, the sum over the positions; hence the total number of particles, the momentum,
the energy and any other velocity moment. -/
theorem c94_mass_x {X : Type*} [AddCommGroup X] [Fintype X] (P : Plasma nv) (fi : Interp X C) (xCoord : X → ℝ) (hs : ShiftInvariant fi xCoord) (hl : IsLinear fi)
    (hc : KeepsConstants fi) (f : ℕ → X → Fin nv → ℝ) (dt : ℝ) :
    (∀ s v, ∑ x, advX P fi xCoord f dt s x v = ∑ x, f s x v) ∧
    ∀ (s : ℕ) (m : Fin nv → ℝ), ∑ x, ∑ v, m v * advX P fi xCoord f dt s x v = ∑ x, ∑ v, m v * f s x v := by
  have h1 : ∀ s v, ∑ x, advX P fi xCoord f dt s x v = ∑ x, f s x v := fun s v => by
    simp only [advX, bslX]
    exact line_sum fi xCoord hs hl hc (fun x => f s x v) _
  refine ⟨h1, fun s m => ?_⟩
  rw [sum_comm, sum_comm (f := fun x v => m v * f s x v)]
  exact sum_congr rfl fun v _ => by rw [← mul_sum, ← mul_sum, h1]

/-- C94 (1D1V): neutral species keep, for ever, the sum over the positions at every velocity. -/
theorem c94_free_streaming (P : Plasma nv) (N : ℕ) [NeZero N] (h : ℝ) (fi : Interp (ZMod N) C) (xCoord : ZMod N → ℝ) (hs : ShiftInvariant fi xCoord) (hl : IsLinear fi)
    (hc : KeepsConstants fi) (gi : Interp (Fin nv) C') (hi : Interpolates gi P.vel) (f : ℕ → ZMod N → Fin nv → ℝ) (t0 dt : ℝ) (n : ℕ)
    (s : ℕ) (hq : P.charge s = 0) (v : Fin nv) :
    ∑ x, (simXVx P fi xCoord gi (fft1 N h) f t0 dt n).1 s x v = ∑ x, f s x v := by
  have hstep : ∀ (f : ℕ → ZMod N → Fin nv → ℝ) (e : ZMod N → ℝ) (dt : ℝ), ∑ x, vlasovXVx P fi xCoord gi f e dt s x v = ∑ x, f s x v := by
    intro f e dt
    have hv : ∀ f : ℕ → ZMod N → Fin nv → ℝ, advV P gi f e dt s = f s := by
      intro f; funext x v
      simp only [advV, bslV, hq, zero_mul, sub_zero]
      exact hi (f s x) v
    simp only [vlasovXVx, splitVlasovXVx]
    rw [(c94_mass_x P fi xCoord hs hl hc _ _).1, hv, (c94_mass_x P fi xCoord hs hl hc _ _).1]
  rw [simXVx, c46_xvx]
  simp only
  induction n generalizing f with
  | zero => rfl
  | succ n ih =>
    rw [Function.iterate_succ, Function.comp_apply, ih]
    exact hstep f _ dt

end xvx

/-! ## 2D2V -/

section xyvxvy
variable {CX CY CVX CVY : Type*} {nvx nvy : ℕ}

/-- Specification: the distribution moved by `a` grid points along `x` and `b` along `y`. -/
def translated2 {X Y : Type*} [Sub X] [Sub Y] (a : X) (b : Y) (f : FieldV ℕ X Y (Fin nvx × Fin nvy)) : FieldV ℕ X Y (Fin nvx × Fin nvy) :=
  fun s x y v => f s (x - a) (y - b) v

theorem lineX_translated {X C : Type*} [AddCommGroup X] (me : ℝ) (m : ℕ → ℝ) {nv : ℕ} (vel : Fin nv → ℝ) (fi : Interp X C) (coord : X → ℝ) (hs : ShiftInvariant fi coord)
    (s : ℕ) (v : Fin nv) (line : X → ℝ) (dt : ℝ) (a x : X) :
    lineX me m vel fi coord s v (fun x => line (x - a)) dt x = lineX me m vel fi coord s v line dt (x - a) := by
  have := hs line a (x - a) (Real.sqrt (me / m s) * dt * vel v)
  rw [sub_add_cancel] at this
  exact this

theorem pt_sub {N : Fin 2 → ℕ} (p q : ZMod (N 0) × ZMod (N 1)) : pt (p - q) = pt p - pt q := by
  funext i; fin_cases i <;> rfl

theorem fft2_translated (N : Fin 2 → ℕ) [∀ i, NeZero (N i)] (h : Fin 2 → ℝ) (rho : ZMod (N 0) × ZMod (N 1) → ℝ) (a : ZMod (N 0) × ZMod (N 1)) :
    fft2 N h (fun p => rho (p - a)) = (fun p => (fft2 N h rho).1 (p - a), (fun p => (fft2 N h rho).2.1 (p - a), fun p => (fft2 N h rho).2.2 (p - a))) := by
  have key := fun p : ZMod (N 0) × ZMod (N 1) => c94_fft_translation N h (fun x => rho (x 0, x 1)) (pt a) (pt p)
  ext p
  · have := (key p).1; rw [← pt_sub] at this; exact this
  · have := (key p).2 0; rw [← pt_sub] at this; exact this
  · have := (key p).2 1; rw [← pt_sub] at this; exact this

/-- C94 (2D2V): moving the initial distribution by any number of grid points in both directions moves the whole simulation. -/
theorem c94_translation_xyvxvy (P : Plasma2 nvx nvy) (N : Fin 2 → ℕ) [∀ i, NeZero (N i)] (h : Fin 2 → ℝ)
    (ip : Interps2 (ZMod (N 0)) (ZMod (N 1)) nvx nvy CX CY CVX CVY) (hx : ShiftInvariant ip.x ip.xCoord) (hy : ShiftInvariant ip.y ip.yCoord)
    (f : FieldV ℕ (ZMod (N 0)) (ZMod (N 1)) (Fin nvx × Fin nvy)) (dt : ℝ) (n : ℕ) (a : ZMod (N 0)) (b : ZMod (N 1)) :
    (sim2 P ip (fft2 N h) (translated2 a b f) dt n).1 = translated2 a b (sim2 P ip (fft2 N h) f dt n).1 ∧
    (sim2 P ip (fft2 N h) (translated2 a b f) dt n).2 = (sim2 P ip (fft2 N h) f dt n).2.map (Event.mapped (translated2 a b) fun phi p => phi (p - (a, b))) := by
  refine predCorrXYVxVy_symmetry (translated2 a b) (fun (phi : ZMod (N 0) × ZMod (N 1) → ℝ) p => phi (p - (a, b)))
    (fun e : (ZMod (N 0) × ZMod (N 1) → ℝ) × (ZMod (N 0) × ZMod (N 1) → ℝ) => (fun p => e.1 (p - (a, b)), fun p => e.2 (p - (a, b)))) _ _ ?_ ?_ f dt n
  · intro f e dt
    have hX : ∀ (f : FieldV ℕ (ZMod (N 0)) (ZMod (N 1)) (Fin nvx × Fin nvy)) dt,
        Splitting.advX id (lineX P.massElec P.mass P.velX ip.x ip.xCoord) (translated2 a b f) dt
          = translated2 a b (Splitting.advX id (lineX P.massElec P.mass P.velX ip.x ip.xCoord) f dt) := by
      intro f dt; funext s x y v
      exact lineX_translated _ _ _ _ _ hx s _ (fun x => f s x (y - b) v) dt a x
    have hY : ∀ (f : FieldV ℕ (ZMod (N 0)) (ZMod (N 1)) (Fin nvx × Fin nvy)) dt,
        Splitting.advY id (lineX P.massElec P.mass P.velY ip.y ip.yCoord) (translated2 a b f) dt
          = translated2 a b (Splitting.advY id (lineX P.massElec P.mass P.velY ip.y ip.yCoord) f dt) := by
      intro f dt; funext s x y v
      exact lineX_translated _ _ _ _ _ hy s _ (fun y => f s (x - a) y v) dt b y
    have hVx : ∀ (f : FieldV ℕ (ZMod (N 0)) (ZMod (N 1)) (Fin nvx × Fin nvy)) (e : ZMod (N 0) × ZMod (N 1) → ℝ) dt,
        toV (advVx (lineV P.massElec P.mass P.charge P.velX ip.vx) (toX (translated2 a b f)) (fun p => e (p - (a, b))) dt)
          = translated2 a b (toV (advVx (lineV P.massElec P.mass P.charge P.velX ip.vx) (toX f) e dt)) := fun _ _ _ => rfl
    have hVy : ∀ (f : FieldV ℕ (ZMod (N 0)) (ZMod (N 1)) (Fin nvx × Fin nvy)) (e : ZMod (N 0) × ZMod (N 1) → ℝ) dt,
        toV (advVy (lineV P.massElec P.mass P.charge P.velY ip.vy) (toX (translated2 a b f)) (fun p => e (p - (a, b))) dt)
          = translated2 a b (toV (advVy (lineV P.massElec P.mass P.charge P.velY ip.vy) (toX f) e dt)) := fun _ _ _ => rfl
    simp only [vlasov2, serialStep, splitVlasovXYVxVy, hX, hY, hVx, hVy]
  · intro f
    exact fft2_translated N h (QnSolver.rhoXYVxVy P.nsp P.nkin P.charge (nvx * nvy) P.w (numbered2 f)) (a, b)

/-- C94 (2D2V): a distribution which does not depend on the position is a stationary solution of the whole program, with a zero potential. -/
theorem c94_homogeneous_xyvxvy (P : Plasma2 nvx nvy) (N : Fin 2 → ℕ) [∀ i, NeZero (N i)] (h : Fin 2 → ℝ)
    (ip : Interps2 (ZMod (N 0)) (ZMod (N 1)) nvx nvy CX CY CVX CVY) (hx : KeepsConstants ip.x) (hy : KeepsConstants ip.y)
    (hvx : Interpolates ip.vx P.velX) (hvy : Interpolates ip.vy P.velY) (g : ℕ → Fin nvx × Fin nvy → ℝ) (dt : ℝ) (n : ℕ) :
    Stationary (sim2 P ip (fft2 N h) (fun s _ _ v => g s v) dt n) n (fun s _ _ v => g s v) fun _ => 0 := by
  have hf : poisson2 P (fft2 N h) (fun s (_ : ZMod (N 0)) (_ : ZMod (N 1)) v => g s v) = (fun _ => 0, (fun _ => 0, fun _ => 0)) := by
    obtain ⟨c, hc⟩ : ∃ c : ℝ, QnSolver.rhoXYVxVy P.nsp P.nkin P.charge (nvx * nvy) P.w
        (numbered2 fun s (_ : ZMod (N 0)) (_ : ZMod (N 1)) v => g s v) = fun _ => c :=
      ⟨Moments.chargeDensityXYVxVy P.nsp P.nkin P.charge (nvx * nvy) P.w fun s k => if h : k < nvx * nvy then g s (finProdFinEquiv.symm ⟨k, h⟩) else 0, rfl⟩
    simp only [poisson2, fft2, hc, fftSolver_const]
  refine predCorrXYVxVy_stationary _ _ _ _ _ hf ?_ dt n
  intro dt
  have hX : ∀ dt, Splitting.advX id (lineX P.massElec P.mass P.velX ip.x ip.xCoord) (fun s (_ : ZMod (N 0)) (_ : ZMod (N 1)) v => g s v) dt = fun s _ _ v => g s v := by
    intro dt; funext s x y v; exact hx _ _
  have hY : ∀ dt, Splitting.advY id (lineX P.massElec P.mass P.velY ip.y ip.yCoord) (fun s (_ : ZMod (N 0)) (_ : ZMod (N 1)) v => g s v) dt = fun s _ _ v => g s v := by
    intro dt; funext s x y v; exact hy _ _
  have hVx : ∀ dt, toV (advVx (lineV P.massElec P.mass P.charge P.velX ip.vx) (toX (fun s (_ : ZMod (N 0)) (_ : ZMod (N 1)) v => g s v)) (fun _ => 0) dt)
      = fun s _ _ v => g s v := by
    intro dt; funext s x y v
    simp only [toV, toX, advVx, lineV, bslV, mul_zero, sub_zero]
    exact hvx (fun vx => g s (vx, v.2)) v.1
  have hVy : ∀ dt, toV (advVy (lineV P.massElec P.mass P.charge P.velY ip.vy) (toX (fun s (_ : ZMod (N 0)) (_ : ZMod (N 1)) v => g s v)) (fun _ => 0) dt)
      = fun s _ _ v => g s v := by
    intro dt; funext s x y v
    simp only [toV, toX, advVy, lineV, bslV, mul_zero, sub_zero]
    exact hvy (fun vy => g s (v.1, vy)) v.2
  simp only [vlasov2, serialStep, splitVlasovXYVxVy, hX, hY, hVx, hVy]

/-- C94 (2D2V): the two spatial advections keep, for every species and velocity, the sum over the positions. -/
theorem c94_mass_xy {X Y : Type*} [AddCommGroup X] [Fintype X] [AddCommGroup Y] [Fintype Y] (P : Plasma2 nvx nvy) (ip : Interps2 X Y nvx nvy CX CY CVX CVY)
    (hxs : ShiftInvariant ip.x ip.xCoord) (hxl : IsLinear ip.x) (hxc : KeepsConstants ip.x)
    (hys : ShiftInvariant ip.y ip.yCoord) (hyl : IsLinear ip.y) (hyc : KeepsConstants ip.y)
    (f : FieldV ℕ X Y (Fin nvx × Fin nvy)) (dt : ℝ) (s : ℕ) (v : Fin nvx × Fin nvy) :
    ∑ x, ∑ y, Splitting.advX id (lineX P.massElec P.mass P.velX ip.x ip.xCoord) f dt s x y v = ∑ x, ∑ y, f s x y v ∧
    ∑ x, ∑ y, Splitting.advY id (lineX P.massElec P.mass P.velY ip.y ip.yCoord) f dt s x y v = ∑ x, ∑ y, f s x y v := by
  constructor
  · rw [sum_comm, sum_comm (f := fun x y => f s x y v)]
    exact sum_congr rfl fun y _ => line_sum ip.x ip.xCoord hxs hxl hxc (fun x => f s x y v) _
  · exact sum_congr rfl fun x _ => line_sum ip.y ip.yCoord hys hyl hyc (fun y => f s x y v) _

end xyvxvy
/-! ## The interpolators of the library meet the hypotheses -/

/-- C94: Lagrange interpolation of any degree on a uniform periodic grid with more points than the degree. -/
theorem c94_lagrange (eps : ℝ) (heps : 0 ≤ eps) (heps1 : eps < 1 / 2) (D N : ℕ) (hD : 0 < D) (hDN : D < N) (x0 dx : ℝ) (hdx : 0 < dx) :
    ShiftInvariant (lagrangeLine eps D N x0 dx) (periodicCoord N x0 dx) ∧ IsLinear (lagrangeLine eps D N x0 dx) ∧
    KeepsConstants (lagrangeLine eps D N x0 dx) ∧ Interpolates (lagrangeLine eps D N x0 dx) (periodicCoord N x0 dx) :=
  ⟨lagrange_shift eps D N hD hDN x0 dx hdx, lagrange_linear eps D N hD hDN x0 dx hdx, lagrange_exact eps D N hD hDN x0 dx hdx heps heps1⟩

/-- C94: uniform periodic splines. -/
theorem c94_spline {I : Type*} [AddCommGroup I] [Fintype I] {coord : I → ℝ} {phi : I → ℝ → ℝ} {solve : (I → ℝ) → I → ℝ} (h : UniformPeriodicSpline coord phi solve) :
    ShiftInvariant (splineLine solve phi) coord ∧ IsLinear (splineLine solve phi) ∧ KeepsConstants (splineLine solve phi) ∧ Interpolates (splineLine solve phi) coord :=
  ⟨spline_shift h, spline_linear h, spline_exact h⟩

/-! ## Degree one: no new extrema, every convex functional decreases -/

section degreeOne
open LagrangeEvaluator Verif.Lagrange

variable (eps : ℝ) (heps : 0 ≤ eps) (heps1 : eps < 1 / 2) (N : ℕ) (hN : 1 < N) (x0 dx : ℝ) (hdx : 0 < dx)

include heps heps1 in
theorem basis_one (t : ℝ) (h0 : 0 ≤ t) (h1 : t ≤ 1) :
    ∃ y, 0 ≤ y ∧ y ≤ 1 ∧ evalBasisU eps 1 0 1 t 0 = 1 - y ∧ evalBasisU eps 1 0 1 t 1 = y := by
  obtain ⟨y, hy, hv⟩ := c17_values_uniform eps heps heps1 1 0 1 t 0 false one_pos t (by simp) h0 (by simpa [uniformNodes] using h1)
  have hv' : ∀ j ≤ 1, evalBasisU eps 1 0 1 t j = (_root_.Lagrange.basis (Finset.range (1 + 1)) (uniformNodes 0 1) j).eval y := by
    intro j hj
    have := hv j hj
    simpa [evalBasisUniform] using this
  have hone := (c17_reproduction 1 (uniformNodes 0 1) (uniform_distinct 1 0 1 one_pos) y _ hv').1
  have hX := (c17_reproduction 1 (uniformNodes 0 1) (uniform_distinct 1 0 1 one_pos) y _ hv').2 Polynomial.X (by simp)
  simp only [sum_range_succ, range_zero, sum_empty, zero_add, uniformNodes, Polynomial.eval_X] at hone hX
  norm_num at hX
  refine ⟨y, ?_, ?_, by linarith, hX⟩
  · rcases hy with rfl | ⟨i, hi, rfl, _⟩
    · exact h0
    · simp [uniformNodes]
  · rcases hy with rfl | ⟨i, hi, rfl, _⟩
    · exact h1
    · simp only [uniformNodes, zero_add, mul_one]; exact_mod_cast hi

include heps heps1 hN hdx in
/-- C94: with linear interpolation the displaced line is made of averages of two neighbouring values, with the same weights everywhere. -/
theorem degree_one_form (δ : ℝ) : ∃ (y : ℝ) (c : ZMod N), 0 ≤ y ∧ y ≤ 1 ∧ ∀ (v : ZMod N → ℝ) (i : ZMod N),
    (lagrangeLine eps 1 N x0 dx).eval (periodicCoord N x0 dx i - δ) ((lagrangeLine eps 1 N x0 dx).build v) = (1 - y) * v (i + c) + y * v (i + c + 1) := by
  have : NeZero N := ⟨by omega⟩
  have hcen : ∀ x, centre 1 x0 dx x = ⌊(x - x0) / dx⌋ := fun x => by simp [centre]
  have h0 : 0 ≤ (periodicCoord N x0 dx 0 - δ - x0) / dx - centre 1 x0 dx (periodicCoord N x0 dx 0 - δ) := by
    have := Int.floor_le ((periodicCoord N x0 dx 0 - δ - x0) / dx)
    rw [hcen]; linarith
  have h1 : (periodicCoord N x0 dx 0 - δ - x0) / dx - centre 1 x0 dx (periodicCoord N x0 dx 0 - δ) ≤ 1 := by
    have := Int.lt_floor_add_one ((periodicCoord N x0 dx 0 - δ - x0) / dx)
    rw [hcen]; linarith
  obtain ⟨y, hy0, hy1, hb0, hb1⟩ := basis_one eps heps heps1 _ h0 h1
  refine ⟨y, (centre 1 x0 dx (periodicCoord N x0 dx 0 - δ) : ℤ), hy0, hy1, fun v i => ?_⟩
  have hs := lagrange_shift eps 1 N one_pos hN x0 dx hdx (fun j => v (j + i)) i 0 δ
  rw [zero_add] at hs
  simp only [sub_add_cancel] at hs
  rw [hs, lagrange_closed eps 1 N one_pos hN x0 dx hdx]
  simp only [sum_range_succ, range_zero, sum_empty, zero_add, Nat.reduceDiv, Nat.cast_zero, add_zero, sub_zero, Nat.cast_one, hb0, hb1]
  push_cast
  rw [show ((centre 1 x0 dx (periodicCoord N x0 dx 0 - δ) : ℤ) : ZMod N) + i = i + (centre 1 x0 dx (periodicCoord N x0 dx 0 - δ) : ℤ) by ring,
    show ((centre 1 x0 dx (periodicCoord N x0 dx 0 - δ) : ℤ) : ZMod N) + 1 + i = i + (centre 1 x0 dx (periodicCoord N x0 dx 0 - δ) : ℤ) + 1 by ring]
  ring

include heps heps1 hN hdx in
/-- C94: with linear interpolation the spatial advection creates no new maximum or minimum (positive distributions stay positive), and the sum over the line of every convex function
of the values (the square, minus the entropy...) does not increase. -/
theorem c94_degree_one {nv : ℕ} (P : Plasma nv) (f : ℕ → ZMod N → Fin nv → ℝ) (dt : ℝ) (s : ℕ) (v : Fin nv) :
    (∀ lo hi : ℝ, (∀ x, lo ≤ f s x v ∧ f s x v ≤ hi) → ∀ x, lo ≤ advX P (lagrangeLine eps 1 N x0 dx) (periodicCoord N x0 dx) f dt s x v ∧
      advX P (lagrangeLine eps 1 N x0 dx) (periodicCoord N x0 dx) f dt s x v ≤ hi) ∧
    ∀ [NeZero N] (S : Set ℝ) (φ : ℝ → ℝ), ConvexOn ℝ S φ → (∀ x, f s x v ∈ S) →
      ∑ x, φ (advX P (lagrangeLine eps 1 N x0 dx) (periodicCoord N x0 dx) f dt s x v) ≤ ∑ x, φ (f s x v) := by
  obtain ⟨y, c, hy0, hy1, h⟩ := degree_one_form eps heps heps1 N hN x0 dx hdx (Real.sqrt (P.massElec / P.mass s) * dt * P.vel v)
  have hadv : ∀ x, advX P (lagrangeLine eps 1 N x0 dx) (periodicCoord N x0 dx) f dt s x v = (1 - y) * f s (x + c) v + y * f s (x + c + 1) v :=
    fun x => h (fun x => f s x v) x
  refine ⟨fun lo hi hb x => ?_, ?_⟩
  · rw [hadv]
    have a := hb (x + c); have b := hb (x + c + 1)
    constructor <;> nlinarith [a.1, a.2, b.1, b.2]
  · intro _ S φ hφ hS
    have hle : ∀ x, φ (advX P (lagrangeLine eps 1 N x0 dx) (periodicCoord N x0 dx) f dt s x v) ≤ (1 - y) * φ (f s (x + c) v) + y * φ (f s (x + c + 1) v) := by
      intro x
      rw [hadv]
      exact hφ.2 (hS _) (hS _) (by linarith) hy0 (by ring)
    refine (sum_le_sum fun x _ => hle x).trans (le_of_eq ?_)
    rw [sum_add_distrib, ← mul_sum, ← mul_sum]
    have e1 : ∑ x, φ (f s (x + c) v) = ∑ x, φ (f s x v) := Equiv.sum_comp (Equiv.addRight c) fun x => φ (f s x v)
    have e2 : ∑ x, φ (f s (x + c + 1) v) = ∑ x, φ (f s x v) := by
      simp only [add_assoc]
      exact Equiv.sum_comp (Equiv.addRight (c + 1)) fun x => φ (f s x v)
    rw [e1, e2]; ring

end degreeOne

/-! ## Concrete instances of the hypotheses -/

/-- Cubic Lagrange interpolation on eight points: the hypotheses of the theorems on the spatial advections hold. -/
example : ShiftInvariant (lagrangeLine 0 3 8 0 1) (periodicCoord 8 0 1) ∧ IsLinear (lagrangeLine 0 3 8 0 1) ∧ KeepsConstants (lagrangeLine 0 3 8 0 1) :=
  let h := c94_lagrange 0 le_rfl (by norm_num) 3 8 (by norm_num) (by norm_num) 0 1 one_pos
  ⟨h.1, h.2.1, h.2.2.1⟩

/-- A velocity grid with two points and the line through them. -/
noncomputable def line2 : Interp (Fin 2) (ℝ × ℝ) where
  build v := (v 0, v 1)
  eval x c := c.1 + (c.2 - c.1) * ((x + 1) / 2)

theorem line2_interpolates : Interpolates line2 ![-1, 1] := by
  intro v i
  fin_cases i <;> simp [line2]

/-- Ions and electrons on this velocity grid. -/
noncomputable def plasma2 : Plasma 2 := ⟨2, ![1, -1] ∘ fun s => if s = 0 then 0 else 1, fun s => if s = 0 then 1836 else 1, 1, ![-1, 1], fun _ => 1⟩

/-- The whole program on a distribution uniform in space. -/
example (n : ℕ) : Stationary (simXVx plasma2 (lagrangeLine 0 3 8 0 1) (periodicCoord 8 0 1) line2 (fft1 8 1) (fun s _ v => (s : ℝ) + v.val + 1) 0 0.1 n) n
    (fun s _ v => (s : ℝ) + v.val + 1) fun _ => 0 :=
  c94_homogeneous_xvx plasma2 8 1 _ _ (c94_lagrange 0 le_rfl (by norm_num) 3 8 (by norm_num) (by norm_num) 0 1 one_pos).2.2.1 line2 line2_interpolates
    (fun s v => (s : ℝ) + v.val + 1) 0 0.1 n

/-- Two points per period and the functions `cos^2`, `sin^2`: a uniform periodic space with its builder (the coefficients are the values). -/
example : UniformPeriodicSpline (fun i : ZMod 2 => (i.val : ℝ)) (fun j x => if j = 0 then Real.cos (Real.pi / 2 * x) ^ 2 else Real.sin (Real.pi / 2 * x) ^ 2) (fun v => v) := by
  have h1 : (1 : ZMod 2).val = 1 := rfl
  have h10 : (1 : ZMod 2) ≠ 0 := by decide
  have h11 : (1 : ZMod 2) + 1 = 0 := by decide
  have hsum : ∀ g : ZMod 2 → ℝ, ∑ j, g j = g 0 + g 1 := fun g => Fin.sum_univ_two g
  have hv : ∀ (v : ZMod 2 → ℝ) i, ∑ j : ZMod 2, v j * (if j = 0 then Real.cos (Real.pi / 2 * (i.val : ℝ)) ^ 2 else Real.sin (Real.pi / 2 * (i.val : ℝ)) ^ 2) = v i := by
    intro v i
    rw [hsum]
    have hcase : ∀ k : ZMod 2, k = 0 ∨ k = 1 := by decide
    rcases hcase i with rfl | rfl
    · simp
    · change v 0 * (if (0 : ZMod 2) = 0 then Real.cos (Real.pi / 2 * ((1 : ZMod 2).val : ℝ)) ^ 2 else _) +
        v 1 * (if (1 : ZMod 2) = 0 then _ else Real.sin (Real.pi / 2 * ((1 : ZMod 2).val : ℝ)) ^ 2) = v 1
      simp [h1]
  refine ⟨?_, ?_, hv, ?_⟩
  · intro j a i δ
    have e1 : ∀ x, Real.cos (Real.pi / 2 * (1 - x)) = Real.sin (Real.pi / 2 * x) := fun x => by
      rw [mul_sub, mul_one, Real.cos_pi_div_two_sub]
    have e2 : ∀ x, Real.sin (Real.pi / 2 * (1 - x)) = Real.cos (Real.pi / 2 * x) := fun x => by
      rw [mul_sub, mul_one, Real.sin_pi_div_two_sub]
    have hcase : ∀ k : ZMod 2, k = 0 ∨ k = 1 := by decide
    rcases hcase j with rfl | rfl <;> rcases hcase a with rfl | rfl <;> rcases hcase i with rfl | rfl <;>
      simp [h1, h11, e1, e2]
  · intro x
    rw [hsum]
    simp
  · intro c c' h
    funext i
    have := h i
    rw [hv, hv] at this
    exact this

end Verif.Simulation
