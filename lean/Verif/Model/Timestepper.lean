import Mathlib.Algebra.Module.Basic
import Mathlib.Algebra.Order.Field.Basic
import Mathlib.Data.Real.Basic

/-!
# Time steppers (src/timestepper)

The steppers are modelled over an arbitrary value type `Y`, derivative type `K` and user supplied update
functor `upd : Y → K → ℝ → Y` (the C++ `y_update(y, dy, dt)`, returning the new content of `y`).
`f : Y → K` is the C++ `dy_calculator(dy, y)`.  The scalar overload and the `FieldLike` overload of
each class run the same sequence of operations; both are modelled by the same definition.
Simplifications: `double` is `ℝ`; memory allocation and the execution space are not modelled.
-/

namespace Verif.Timestepper

variable {Y K : Type*}

/-- The default functor `y_update`: `y = y + dy * dt`.
`src/timestepper/itimestepper.hpp:295-299` (`serial_y_update`) and `391-406` (the field version: the same formula at
every index, with `assemble_k_total` of lines `157-290` combining the stages index by index). -/
def defaultUpdate {V : Type*} [AddCommGroup V] [Module ℝ V] (y dy : V) (dt : ℝ) : V :=
  y + dt • dy

/-- `Euler::update`, `src/timestepper/euler.hpp:66-83` and `150-167`. -/
def euler (upd : Y → K → ℝ → Y) (f : Y → K) (y : Y) (dt : ℝ) : Y :=
  let k1 := f y
  upd y k1 dt

/-- `RK2::update`, `src/timestepper/rk2.hpp:70-99` and `169-201`. -/
noncomputable def rk2 (upd : Y → K → ℝ → Y) (f : Y → K) (y : Y) (dt : ℝ) : Y :=
  let yPrime := y
  let k1 := f y
  let yPrime := upd yPrime k1 (0.5 * dt)
  let k2 := f yPrime
  upd y k2 dt

/-- `RK3::update`, `src/timestepper/rk3.hpp:70-117` and `188-255`. -/
noncomputable def rk3 [AddCommGroup K] [Module ℝ K]
    (upd : Y → K → ℝ → Y) (f : Y → K) (y : Y) (dt : ℝ) : Y :=
  let yPrime := y
  let k1 := f y
  let yPrime := upd yPrime k1 (0.5 * dt)
  let k2 := f yPrime
  let kTotal := (2 : ℝ) • k2 - k1
  let yPrime := y
  let yPrime := upd yPrime kTotal dt
  let k3 := f yPrime
  let kTotal := k1 + (4 : ℝ) • k2 + k3
  upd y kTotal (dt / 6)

/-- `RK4::update`, `src/timestepper/rk4.hpp:70-125` and `196-269`. -/
noncomputable def rk4 [AddCommGroup K] [Module ℝ K]
    (upd : Y → K → ℝ → Y) (f : Y → K) (y : Y) (dt : ℝ) : Y :=
  let yPrime := y
  let k1 := f y
  let yPrime := upd yPrime k1 (0.5 * dt)
  let k2 := f yPrime
  let yPrime := y
  let yPrime := upd yPrime k2 (0.5 * dt)
  let k3 := f yPrime
  let yPrime := y
  let yPrime := upd yPrime k3 dt
  let k4 := f yPrime
  let kTotal := k1 + (2 : ℝ) • k2 + (2 : ℝ) • k3 + k4
  upd y kTotal (dt / 6)

/-- The stopping test `(norm_inf(y_old - y) / norm_inf(y_old)) >= m_epsilon` of
`src/timestepper/crank_nicolson.hpp:127` and `273-275`, with the IEEE meaning of a zero divisor:
`0/0` is NaN, which compares false (the loop stops), and `e/0` with `e > 0` is `+inf`,
which compares true.  `err`, `nrm` are the two norms. -/
noncomputable def notConverged (err nrm eps : ℝ) : Bool :=
  if nrm = 0 then decide (err ≠ 0) else decide (err / nrm ≥ eps)

/-- One pass through the body of the `do ... while` of `src/timestepper/crank_nicolson.hpp:109-124`
(`248-269`): from the current iterate `y` to the next one. -/
noncomputable def cnBody [AddCommGroup K] (upd : Y → K → ℝ → Y) (f : Y → K)
    (yInit : Y) (k1 : K) (dt : ℝ) (y : Y) : Y :=
  let kNew := f y
  let kTotal := k1 + kNew
  upd yInit kTotal (0.5 * dt)

/-- Result of `CrankNicolson::update`: the new state, the iterate before it (`y_old`), the value of `counter` and
the value of `not_converged` on exit. Used in the model of `src/timestepper/crank_nicolson.hpp:108-129`. -/
structure CNResult (Y : Type*) where
  y : Y
  yOld : Y
  counter : ℕ
  notConv : Bool

/-- The `do ... while (not_converged and (counter < m_max_counter))` loop of
`src/timestepper/crank_nicolson.hpp:108-129` (`247-278`).  `counter` is the value on entry of the body.
The C++ loop ends since `counter` grows up to `m_max_counter`; that is the termination measure. -/
noncomputable def cnLoop [AddCommGroup K] (upd : Y → K → ℝ → Y) (f : Y → K)
    (errNorm : Y → Y → ℝ) (norm : Y → ℝ) (maxCounter : ℕ) (eps : ℝ)
    (yInit : Y) (k1 : K) (dt : ℝ) (counter : ℕ) (y : Y) : CNResult Y :=
  let counter' := counter + 1
  let yOld := y
  let yNew := cnBody upd f yInit k1 dt y
  let nc := notConverged (errNorm yOld yNew) (norm yOld) eps
  if nc && decide (counter' < maxCounter) then
    cnLoop upd f errNorm norm maxCounter eps yInit k1 dt counter' yNew
  else ⟨yNew, yOld, counter', nc⟩
termination_by maxCounter - counter
decreasing_by
  rename_i h
  simp only [Bool.and_eq_true, decide_eq_true_eq] at h
  have := h.2
  simp only [counter'] at this ⊢
  omega

/-- `CrankNicolson::update`, `src/timestepper/crank_nicolson.hpp:84-130` (`216-279`).
A negative `m_max_counter` behaves as `0`, so the counter is a natural number here. -/
noncomputable def crankNicolson [AddCommGroup K] (upd : Y → K → ℝ → Y) (f : Y → K)
    (errNorm : Y → Y → ℝ) (norm : Y → ℝ) (maxCounter : ℕ) (eps : ℝ) (y : Y) (dt : ℝ) : CNResult Y :=
  let yInit := y
  let k1 := f y
  cnLoop upd f errNorm norm maxCounter eps yInit k1 dt 0 y

end Verif.Timestepper
