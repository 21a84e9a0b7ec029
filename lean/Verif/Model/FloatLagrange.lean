import Verif.Model.FloatWrap

/-!
# Lagrange basis functions and Lagrange evaluation in floating-point arithmetic

`lagrange_basis_uniform.hpp:142-151,223-246,369-415`, `lagrange_basis_non_uniform.hpp:229-247,368-423` and the sum of `lagrange_evaluator.hpp:571-576`, with the rounding relation `Fl u` of
`Model/Rounding`: each operation on `double` has a relative error of at most `u`, independent of the other ones.
-/

namespace Verif.FloatLagrange

open Verif.Rounding Verif.FloatWrap

/-- A loop of multiplications `acc *= a`; `val j a` says that `a` is a possible value of the factor of iteration `j`. `lagrange_basis_uniform.hpp:144-149`, `lagrange_basis_non_uniform.hpp:388-394`. -/
inductive MulLoop (u : ℝ) (val : ℕ → ℝ → Prop) : List ℕ → ℝ → ℝ → Prop
  | nil (acc : ℝ) : MulLoop u val [] acc acc
  | cons (j : ℕ) (l : List ℕ) (acc a acc' out : ℝ) (ha : val j a) (h : Fl u (acc * a) acc') (ht : MulLoop u val l acc' out) : MulLoop u val (j :: l) acc out

/-- A loop of additions `acc += a`. `lagrange_basis_uniform.hpp:409-412`, `lagrange_basis_non_uniform.hpp:417-420`, `lagrange_evaluator.hpp:572-575`. -/
inductive AddLoop (u : ℝ) (val : ℕ → ℝ → Prop) : List ℕ → ℝ → ℝ → Prop
  | nil (acc : ℝ) : AddLoop u val [] acc acc
  | cons (j : ℕ) (l : List ℕ) (acc a acc' out : ℝ) (ha : val j a) (h : Fl u (acc + a) acc') (ht : AddLoop u val l acc' out) : AddLoop u val (j :: l) acc out

/-- `m_weights[i]` of the uniform basis, `lagrange_basis_uniform.hpp:143-151`: the differences `i - j` are integers. -/
def WeightU (u : ℝ) (D i : ℕ) (w : ℝ) : Prop :=
  ∃ num, MulLoop u (fun j a => a = (i : ℝ) - j) ((List.range (D + 1)).filter (· ≠ i)) 1 num ∧ Fl u (1 / num) w

/-- `get_weights`, `lagrange_basis_non_uniform.hpp:382-398`. -/
def WeightNU (u : ℝ) (D : ℕ) (xs : ℕ → ℝ) (i : ℕ) (w : ℝ) : Prop :=
  ∃ num, MulLoop u (fun j a => Fl u (xs i - xs j) a) ((List.range (D + 1)).filter (· ≠ i)) 1 num ∧ Fl u (1 / num) w

/-- One entry of `calculate_values_between_nodes`, `lagrange_basis_uniform.hpp:400-415` and `lagrange_basis_non_uniform.hpp:409-423`: `den j d` says that `d` is a possible value of `offset - j`
(of `x - ddc::coordinate(poly_start + j)`). -/
def ValueFl (u : ℝ) (D : ℕ) (w : ℕ → ℝ) (den : ℕ → ℝ → Prop) (i : ℕ) (v : ℝ) : Prop :=
  ∃ d n s, den i d ∧ Fl u (w i / d) n ∧ AddLoop u (fun j a => ∃ d, den j d ∧ Fl u (w j / d) a) (List.range (D + 1)) 0 s ∧ Fl u (n / s) v

/-- `check_if_node` of the uniform basis, `lagrange_basis_uniform.hpp:377-388`; `none` is `-1`. -/
def CheckNodeU (u eps off : ℝ) (r : Option ℤ) : Prop :=
  ∃ loc, Fl u (off - trunc off) loc ∧
    if loc ≤ eps then r = some (trunc off) else ∃ l1, Fl u (loc - 1) l1 ∧ r = if l1 ≥ -eps then some (trunc off + 1) else none

/-- `check_if_node` of the non-uniform basis, `lagrange_basis_non_uniform.hpp:368-379`: `dist i` is the computed difference to node `i` of the stencil. -/
def CheckNodeNU (u eps : ℝ) (D : ℕ) (xs : ℕ → ℝ) (x : ℝ) (r : Option ℕ) : Prop :=
  ∃ dist : ℕ → ℝ, (∀ i, Fl u (x - xs i) (dist i)) ∧ r = (List.range (D + 1)).find? fun i => decide (|dist i| < eps)

/-- `eval_basis` of the uniform basis, `lagrange_basis_uniform.hpp:234-246,369-389`, after the shift of lines 229-233 (see `EvalBasisPer`); `vals` are the values left in the array. -/
def EvalBasisU (u eps : ℝ) (D : ℕ) (w : ℕ → ℝ) (xs dx x : ℝ) (vals : ℕ → ℝ) : Prop :=
  ∃ inv d off r, Fl u (1 / dx) inv ∧ Fl u (x - xs) d ∧ Fl u (d * inv) off ∧ CheckNodeU u eps off r ∧
    match r with
    | none => ∀ i ≤ D, ValueFl u D w (fun j d => Fl u (off - j) d) i (vals i)
    | some n => ∀ i ≤ D, vals i = if (i : ℤ) = n then 1 else 0

/-- `eval_basis` of a periodic uniform basis, `lagrange_basis_uniform.hpp:223-246`: lines 229-233 add a period to a coordinate below the stencil. `length()` is lines 189-192. -/
def EvalBasisPer (u eps : ℝ) (D : ℕ) (w : ℕ → ℝ) (rmin rmax xs dx x : ℝ) (vals : ℕ → ℝ) : Prop :=
  ∃ x1, (if x < xs then ∃ len, Fl u (rmax - rmin) len ∧ Fl u (x + len) x1 else x1 = x) ∧ EvalBasisU u eps D w xs dx x1 vals

/-- `eval_basis` of the non-uniform basis, `lagrange_basis_non_uniform.hpp:229-247`. -/
def EvalBasisNU (u eps : ℝ) (D : ℕ) (xs : ℕ → ℝ) (x : ℝ) (vals : ℕ → ℝ) : Prop :=
  ∃ r w, CheckNodeNU u eps D xs x r ∧ (∀ i ≤ D, WeightNU u D xs i (w i)) ∧
    match r with
    | none => ∀ i ≤ D, ValueFl u D w (fun j d => Fl u (x - xs j) d) i (vals i)
    | some n => ∀ i ≤ D, vals i = if i = n then 1 else 0

/-- The sum over the stencil, `lagrange_evaluator.hpp:572-576`. -/
def SumFl (u : ℝ) (D : ℕ) (coef vals : ℕ → ℝ) (y : ℝ) : Prop :=
  AddLoop u (fun i a => Fl u (coef i * vals i) a) (List.range (D + 1)) 0 y

/-- `LagrangeEvaluator::eval` for a periodic uniform basis of `Nl` cells, `lagrange_evaluator.hpp:452-479,497-511,536-577,589-598`: `kn` are the coordinates of the knots, `coef` the interpolation coefficients. -/
def EvalPeriodicU (u eps : ℝ) (D Nl : ℕ) (w : ℕ → ℝ) (kn : ℤ → ℝ) (dx : ℝ) (coef : ℤ → ℝ) (x y : ℝ) : Prop :=
  ∃ xw c x' vals, Wrap (Fl u) (kn 0) (kn Nl) x xw ∧ ClosestU (Fl u) D (kn 0) dx xw c ∧ Shifted (Fl u) (kn 0) (kn Nl) c (stencilStart D Nl kn c xw) xw x' ∧
    EvalBasisPer u eps D w (kn 0) (kn Nl) (kn (stencilStart D Nl kn c xw)) dx x' vals ∧ SumFl u D (fun i => coef (stencilStart D Nl kn c xw + i)) vals y

end Verif.FloatLagrange
