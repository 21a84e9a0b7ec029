import Verif.Model.Rounding
import Verif.Model.Timestepper

/-!
# The explicit time steppers in floating-point arithmetic

The relation `Rounding.Fl` of `Model/Rounding.lean` for every operation of the explicit steppers of `src/timestepper` with the default `y_update`; the values are the components of a field over a finite index range (one component for the scalar
overload, several for coordinates). `dy y k` says that `k` is a possible result of the user's `dy_calculator(k, y)` in floating point.
-/

namespace Verif.FloatRk

open Verif.Rounding

variable {ι : Type*}

/-- The default `y_update`: `y(idx) = y(idx) + dy(idx) * dt` at every index in floating point, `src/timestepper/itimestepper.hpp:295-299` and `394-409`. -/
def UpdFl (u : ℝ) (y k : ι → ℝ) (h : ℝ) (y' : ι → ℝ) : Prop := ∀ i, ∃ p, Fl u (k i * h) p ∧ Fl u (y i + p) (y' i)

/-- `Euler::update`, `src/timestepper/euler.hpp:66-83` and `150-167`. -/
def EulerFl (u : ℝ) (dy : (ι → ℝ) → (ι → ℝ) → Prop) (y : ι → ℝ) (dt : ℝ) (y' : ι → ℝ) : Prop := ∃ k1, dy y k1 ∧ UpdFl u y k1 dt y'

/-- `RK2::update`, `src/timestepper/rk2.hpp:70-99` and `169-201`. -/
def Rk2Fl (u : ℝ) (dy : (ι → ℝ) → (ι → ℝ) → Prop) (y : ι → ℝ) (dt : ℝ) (y' : ι → ℝ) : Prop :=
  ∃ k1 h yp k2, dy y k1 ∧ Fl u (0.5 * dt) h ∧ UpdFl u y k1 h yp ∧ dy yp k2 ∧ UpdFl u y k2 dt y'

/-- `2 * k[1] - k[0]`, `src/timestepper/rk3.hpp:100` and `229`. -/
def Comb21Fl (u : ℝ) (k1 k2 kt : ι → ℝ) : Prop := ∀ i, ∃ p, Fl u (2 * k2 i) p ∧ Fl u (p - k1 i) (kt i)

/-- `k[0] + 4 * k[1] + k[2]`, `src/timestepper/rk3.hpp:113` and `248`. -/
def Comb141Fl (u : ℝ) (k1 k2 k3 kt : ι → ℝ) : Prop := ∀ i, ∃ p s, Fl u (4 * k2 i) p ∧ Fl u (k1 i + p) s ∧ Fl u (s + k3 i) (kt i)

/-- `RK3::update`, `src/timestepper/rk3.hpp:70-117` and `188-255`. -/
def Rk3Fl (u : ℝ) (dy : (ι → ℝ) → (ι → ℝ) → Prop) (y : ι → ℝ) (dt : ℝ) (y' : ι → ℝ) : Prop :=
  ∃ k1 h yp k2 kt yp' k3 kt' h', dy y k1 ∧ Fl u (0.5 * dt) h ∧ UpdFl u y k1 h yp ∧ dy yp k2 ∧ Comb21Fl u k1 k2 kt ∧ UpdFl u y kt dt yp' ∧ dy yp' k3 ∧
    Comb141Fl u k1 k2 k3 kt' ∧ Fl u (dt / 6) h' ∧ UpdFl u y kt' h' y'

/-- `k[0] + 2 * k[1] + 2 * k[2] + k[3]`, `src/timestepper/rk4.hpp:121` and `260`. -/
def Comb1221Fl (u : ℝ) (k1 k2 k3 k4 kt : ι → ℝ) : Prop :=
  ∀ i, ∃ p q s t, Fl u (2 * k2 i) p ∧ Fl u (k1 i + p) s ∧ Fl u (2 * k3 i) q ∧ Fl u (s + q) t ∧ Fl u (t + k4 i) (kt i)

/-- `RK4::update`, `src/timestepper/rk4.hpp:70-125` and `196-269`. -/
def Rk4Fl (u : ℝ) (dy : (ι → ℝ) → (ι → ℝ) → Prop) (y : ι → ℝ) (dt : ℝ) (y' : ι → ℝ) : Prop :=
  ∃ k1 h yp k2 h2 yp2 k3 yp3 k4 kt h', dy y k1 ∧ Fl u (0.5 * dt) h ∧ UpdFl u y k1 h yp ∧ dy yp k2 ∧ Fl u (0.5 * dt) h2 ∧ UpdFl u y k2 h2 yp2 ∧ dy yp2 k3 ∧
    UpdFl u y k3 dt yp3 ∧ dy yp3 k4 ∧ Comb1221Fl u k1 k2 k3 k4 kt ∧ Fl u (dt / 6) h' ∧ UpdFl u y kt h' y'

/-- The explicit steppers (`src/timestepper/euler.hpp:66`, `rk2.hpp:70`, `rk3.hpp:70`, `rk4.hpp:70`). -/
inductive Method | euler | rk2 | rk3 | rk4

/-- One floating-point step of a stepper (`src/timestepper/euler.hpp:66`, `rk2.hpp:70`, `rk3.hpp:70`, `rk4.hpp:70`). -/
def StepFl (m : Method) (u : ℝ) (dy : (ι → ℝ) → (ι → ℝ) → Prop) (y : ι → ℝ) (dt : ℝ) (y' : ι → ℝ) : Prop :=
  match m with
  | .euler => EulerFl u dy y dt y'
  | .rk2 => Rk2Fl u dy y dt y'
  | .rk3 => Rk3Fl u dy y dt y'
  | .rk4 => Rk4Fl u dy y dt y'

/-- One step of the same stepper in real arithmetic, with exact derivative `f` (`src/timestepper/euler.hpp:66`, `rk2.hpp:70`, `rk3.hpp:70`, `rk4.hpp:70`). -/
noncomputable def stepEx (m : Method) (f : (ι → ℝ) → (ι → ℝ)) (y : ι → ℝ) (dt : ℝ) : ι → ℝ :=
  match m with
  | .euler => Timestepper.euler Timestepper.defaultUpdate f y dt
  | .rk2 => Timestepper.rk2 Timestepper.defaultUpdate f y dt
  | .rk3 => Timestepper.rk3 Timestepper.defaultUpdate f y dt
  | .rk4 => Timestepper.rk4 Timestepper.defaultUpdate f y dt

end Verif.FloatRk
