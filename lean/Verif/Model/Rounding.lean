import Verif.Model.Norms
import Verif.Model.Tridiag

/-!
# Floating-point arithmetic: reductions and the tridiagonal solver

The other models compute with real numbers. Here every operation on `double` returns its exact result times `1 + δ` with
`|δ| ≤ u` (`u = 2⁻⁵³` for IEEE double precision with rounding to nearest). The rounding is a relation: the `δ` of different operations are
independent, so that every rounding mode and the contraction of `a * b + c` to one instruction (`δ = 0` for the product) are covered.
Simplification: no overflow and no underflow (these are the cases in which the relation fails for IEEE arithmetic), no NaN.
-/

namespace Verif.Rounding

/-- `y` is a possible floating-point result of an operation of exact result `x` (e.g. the product of `quadrature.hpp:89`). -/
def Fl (u x y : ℝ) : Prop := ∃ δ, |δ| ≤ u ∧ y = x * (1 + δ)

/-! ## Reductions -/


variable {ι : Type*}

/-- `v` is a possible result of `ddc::parallel_transform_reduce` with `ddc::reducer::sum<double>` along the tree (`quadrature.hpp:93-101`) when `val i a` says that `a` is
a possible floating-point value of the transformed element `i`. -/
inductive SumFl (u : ℝ) (val : ι → ℝ → Prop) : Norms.Tree ι → ℝ → Prop
  | idle : SumFl u val .idle 0
  | leaf (i : ι) (a : ℝ) (h : val i a) : SumFl u val (.leaf i) a
  | node (l r : Norms.Tree ι) (a b v : ℝ) (hl : SumFl u val l a) (hr : SumFl u val r b) (h : Fl u (a + b) v) : SumFl u val (.node l r) v

/-- The number of additions on the longest path of the tree (`quadrature.hpp:93-101`). -/
def height : Norms.Tree ι → ℕ
  | .idle => 0
  | .leaf _ => 0
  | .node l r => max (height l) (height r) + 1

/-- `Quadrature::operator()`, `quadrature.hpp:83-102` (and one batch element of the batched operator, 172-182): products `coeff * f` and a sum that starts from the initial value `0.0`. -/
def QuadFl (u : ℝ) (q f : ι → ℝ) (t : Norms.Tree ι) (v : ℝ) : Prop := ∃ s, SumFl u (fun i a => Fl u (q i * f i) a) t s ∧ Fl u (0 + s) v

/-- `norm_L1`, `l_norm_tools.hpp:238-248` (`fabs` is exact). -/
def NormL1Fl (u : ℝ) (q f : ι → ℝ) (t : Norms.Tree ι) (v : ℝ) : Prop := QuadFl u q (fun i => |f i|) t v

/-- `norm_L2`, `l_norm_tools.hpp:288-298`: the squares are rounded, then their products with the coefficients, the sum and the square root. -/
def NormL2Fl (u : ℝ) (q f : ι → ℝ) (t : Norms.Tree ι) (v : ℝ) : Prop :=
  ∃ g : ι → ℝ, (∀ i, Fl u (f i * f i) (g i)) ∧ ∃ s, QuadFl u q g t s ∧ Fl u (Real.sqrt s) v

/-- `detail::error_norm_inf`, `l_norm_tools.hpp:97-115`: the differences are rounded, the absolute values and the maxima are exact. -/
def ErrorNormInfFl (u : ℝ) (f g : ι → ℝ) (t : Norms.Tree ι) (v : ℝ) : Prop :=
  ∃ d : ι → ℝ, (∀ i, Fl u (f i - g i) (d i)) ∧ v = Norms.normInf t d

/-! ## Tridiagonal solver -/

/-- A floating-point run of the body of "Tridiagonal solver" for one batch, `matrix_batch_tridiag.hpp:166-187`: `c`, `y` and `x` are the final contents of `cprim`, `dprim` and `b`, and `den` the computed
denominators. The denominator occurs twice in the code (lines 173-174 and 178-179): both occurrences are assumed to be evaluated in the same way. -/
structure TriFl (u : ℝ) (n : ℕ) (sub diag upp b : ℕ → ℝ) (c y den x : ℕ → ℝ) : Prop where
  /-- lines 168-169 -/
  den_zero : den 0 = diag 0
  /-- lines 168, 171-174 -/
  c_run : ∀ i < n, Fl u (upp i / den i) (c i)
  /-- line 169 -/
  y_zero : Fl u (b 0 / den 0) (y 0)
  /-- lines 173-174, 178-179 -/
  den_succ : ∀ i, i + 1 < n → ∃ p, Fl u (sub (i + 1) * c i) p ∧ Fl u (diag (i + 1) - p) (den (i + 1))
  /-- lines 175-179 -/
  y_succ : ∀ i, i + 1 < n → ∃ p r, Fl u (sub (i + 1) * y i) p ∧ Fl u (b (i + 1) - p) r ∧ Fl u (r / den (i + 1)) (y (i + 1))
  /-- line 182 -/
  x_last : x (n - 1) = y (n - 1)
  /-- lines 183-186 -/
  x_run : ∀ i, i + 1 < n → ∃ p, Fl u (c i * x (i + 1)) p ∧ Fl u (y i - p) (x i)

end Verif.Rounding
