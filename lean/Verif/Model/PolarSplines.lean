import Verif.Model.MathTools
import Verif.Model.CoordTransforms
import Mathlib.Analysis.Real.Sqrt

/-!
# Bernstein polynomials and polar B-splines (src/interpolation/polar_splines)

The radial and poloidal B-splines come from DDC: what the code uses of them at a point is the record `Ev`. `double` is `ℝ`. The continuity template parameter `C` of the polar B-splines is `-1`, `0` or `1`
(`polar_bsplines.hpp:47-48`); the model uses `c1 = C + 1`.
-/

namespace Verif.PolarSplines
open MathTools CoordTransforms

/-! ### bernstein.hpp -/

/-- `TriangularBernsteinPolynomialBasis::nbasis`, bernstein.hpp:61-64. -/
def bernsteinNbasis (D : ℕ) : ℕ := (D + 1) * (D + 2) / 2

/-- `eval_basis`, bernstein.hpp:154-175: the values in the order in which the loops fill the output. `factorial` and the product of factorials are 64-bit unsigned. (A zero divisor, which is undefined in C++, is not
reachable for degrees up to 20, where the property holds.) -/
noncomputable def evalBasis (D : ℕ) (t : Triangle ℝ) (x : ℝ × ℝ) : List ℝ :=
  let l := cartToBary t x
  (List.range (D + 1)).flatMap fun (i : ℕ) => (List.range (D + 1 - i)).map fun (j : ℕ) =>
    let k : ℤ := (D : ℤ) - i - j
    let multinomial : ℕ := factorial D / (factorial i * factorial j % word * factorial k.toNat % word)
    (multinomial : ℝ) * ipowNat l.1 i * ipowNat l.2.1 j * ipowInt l.2.2 k

/-! ### polar_bsplines.hpp -/

/-- `n_singular_basis`, polar_bsplines.hpp:111-114. -/
def nSingular (c1 : ℕ) : ℕ := c1 * (c1 + 1) / 2

/-- `while (theta_idx >= n_theta) theta_idx -= n_theta`, polar_bsplines.hpp:148-149. The loop does not end if there is no poloidal basis function. -/
def wrapTheta (nTheta t : ℕ) : ℕ :=
  if _h : 0 < nTheta ∧ nTheta ≤ t then wrapTheta nTheta (t - nTheta) else t
termination_by t
decreasing_by omega

/-- `get_polar_index`, polar_bsplines.hpp:139-154; `none` when the assertion fails. -/
def getPolarIndex (c1 nTheta r t : ℕ) : Option ℕ :=
  let rIdx : ℤ := (r : ℤ) - c1
  if 0 ≤ rIdx then some (nSingular c1 + (rIdx.toNat * nTheta + wrapTheta nTheta t)) else none

/-- `get_2d_index`, polar_bsplines.hpp:164-174; `none` when the assertion fails. -/
def get2dIndex (c1 nTheta idx : ℕ) : Option (ℕ × ℕ) :=
  if nSingular c1 ≤ idx then
    let idx2d := idx - nSingular c1
    let rIdx := idx2d / nTheta
    let thetaIdx := idx2d - rIdx * nTheta
    some (rIdx + c1, thetaIdx)
  else none

/-- Number of polar B-splines: `nbasis`, polar_bsplines.hpp:627-632. -/
def nbasis (c1 nR nTheta : ℕ) : ℕ := nSingular c1 + (nR - c1) * nTheta

/-- The loop for `tau`, polar_bsplines.hpp:351-365; `row1` are the control points of the second row. -/
noncomputable def tau (x0 y0 : ℝ) (row1 : List (ℝ × ℝ)) : ℝ :=
  row1.foldl (fun tau p =>
    let tau1 := -2.0 * (p.1 - x0)
    let tau2 := p.1 - x0 - Real.sqrt 3.0 * (p.2 - y0)
    let tau3 := p.1 - x0 + Real.sqrt 3.0 * (p.2 - y0)
    let tau := if tau > tau1 then tau else tau1
    let tau := if tau > tau2 then tau else tau2
    if tau > tau3 then tau else tau3) 0.0

/-- The corners, polar_bsplines.hpp:366-369. -/
noncomputable def triangle (x0 y0 tau : ℝ) : Triangle ℝ where
  x1 := x0 + tau
  y1 := y0
  x2 := x0 - 0.5 * tau
  y2 := y0 + 0.5 * tau * Real.sqrt 3.0
  x3 := x0 - 0.5 * tau
  y3 := y0 - 0.5 * tau * Real.sqrt 3.0

/-- `m_singular_basis_elements(k, i, j)` as filled by the constructor, polar_bsplines.hpp:404-435, for `C > -1`: Bernstein values at the control points `cp i j` (`control_points`,
discrete_poloidal_cs_spline_mapping.hpp:398-446) for the first `nTheta` poloidal indices, then a copy. Simplification: the loops are written as a function of the indices. -/
noncomputable def singularElem (c1 nTheta : ℕ) (t : Triangle ℝ) (cp : ℕ → ℕ → ℝ × ℝ) (k i j : ℕ) : ℝ :=
  let fill (j : ℕ) : ℝ := ((evalBasis (c1 - 1) t (cp i j))[k]?).getD 0
  if j < nTheta then fill j else fill (j - nTheta)

/-- The constructor, polar_bsplines.hpp:348-435, from the O-point `(x0, y0)` and the control points of the mapping; `sizeTheta` is `size()` of the poloidal B-splines, the number of control points in a row. -/
noncomputable def constructor (c1 nTheta sizeTheta : ℕ) (x0 y0 : ℝ) (cp : ℕ → ℕ → ℝ × ℝ) : ℕ → ℕ → ℕ → ℝ :=
  let ta := tau x0 y0 ((List.range sizeTheta).map (cp 1))
  singularElem c1 nTheta (triangle x0 y0 ta) cp

/-- What `eval_basis` or `eval_basis_and_n_derivs` of a 1D B-spline basis return at a point: the index of the first basis function which is non-zero there, and the values (or derivatives of the requested order) of the
`degree + 1` functions from there on (polar_bsplines.hpp:697-725). -/
structure Ev where
  jmin : ℕ
  vals : ℕ → ℝ

/-- A 1D B-spline basis: `eval_basis`, and `eval_basis_and_n_derivs` up to some order (DDC). Used in the model of `polar_bsplines.hpp:697-725`. -/
structure Basis where
  jmin : ℝ → ℕ
  evalBasis : ℝ → ℕ → ℝ
  evalDerivs : ℝ → ℕ → ℕ → ℝ

/-- The choice between values and derivatives, polar_bsplines.hpp:697-725: `none` if the direction is not among the derivative directions. -/
def Basis.ev (b : Basis) (order : Option ℕ) (x : ℝ) : Ev :=
  match order with
  | none => ⟨b.jmin x, b.evalBasis x⟩
  | some n => ⟨b.jmin x, fun i => b.evalDerivs x i n⟩

/-- The outputs of `eval`. Used in the model of `polar_bsplines.hpp:666-761`. -/
structure PolarVals where
  singular : ℕ → ℝ
  values : ℕ → ℕ → ℝ
  jr : ℕ
  jt : ℕ

/-- `PolarBSplines::Impl::eval`, polar_bsplines.hpp:666-761; `elem` is `m_singular_basis_elements`. -/
def eval (c1 degR degT : ℕ) (elem : ℕ → ℕ → ℕ → ℝ) (r t : Ev) : PolarVals :=
  let nr := degR + 1
  let nth := degT + 1
  let nrDone := if r.jmin < c1 then c1 - r.jmin else 0
  { singular := fun k =>
      if r.jmin < c1 then
        (List.range nrDone).foldl (fun s i =>
          (List.range nth).foldl (fun s j => s + elem k (r.jmin + i) (t.jmin + j) * r.vals i * t.vals j) s) 0
      else 0
    values := fun i j => if i < nr - nrDone then r.vals (i + nrDone) * t.vals j else 0
    jr := if r.jmin < c1 then c1 else r.jmin
    jt := t.jmin }

/-- The part of the field returned by `get_tensor_product_subset` (polar_bsplines.hpp:196-221) read at `(r, t)`: `size` is the number of polar coefficients; the range is `[front, back]` in both directions, the data is
row-major. `none` if the assertion on the size fails or if the index is outside of the range. -/
def coef2d (c1 nTheta size : ℕ) (coef : ℕ → ℝ) (r t : ℕ) : Option ℝ :=
  match get2dIndex c1 nTheta (nSingular c1), get2dIndex c1 nTheta (nSingular c1 + (size - nSingular c1) - 1) with
  | some start, some back =>
    let extR := back.1 - start.1 + 1
    let extT := back.2 - start.2 + 1
    if extR * extT = size - nSingular c1 ∧ (start.1 ≤ r ∧ r < start.1 + extR) ∧ start.2 ≤ t ∧ t < start.2 + extT then
      some (coef (nSingular c1 + ((r - start.1) * extT + (t - start.2))))
    else none
  | _, _ => none

/-- `tensor_prod_idx_range_theta.back()` and `.extents()`, polar_spline_evaluator.hpp:534-537: last poloidal index and number of poloidal indices. -/
def thetaRange (c1 nTheta size : ℕ) : ℕ × ℕ :=
  match get2dIndex c1 nTheta (nSingular c1), get2dIndex c1 nTheta (nSingular c1 + (size - nSingular c1) - 1) with
  | some start, some back => (back.2, back.2 - start.2 + 1)
  | _, _ => (0, 0)

/-! ### polar_spline_evaluator.hpp -/

/-- `eval_no_bc`, polar_spline_evaluator.hpp:510-548; `none` is a read outside of the coefficients. -/
def evalNoBc (c1 degR degT nTheta size : ℕ) (elem : ℕ → ℕ → ℕ → ℝ) (coef : ℕ → ℝ) (r t : Ev) : Option ℝ :=
  let v := eval c1 degR degT elem r t
  let y := (List.range (nSingular c1)).foldl (fun y i => y + coef i * v.singular i) 0
  let (thetaMax, nIdxTheta) := thetaRange c1 nTheta size
  (List.range (degR + 1)).foldlM (fun y i =>
    (List.range (degT + 1)).foldlM (fun y j =>
      let idxTheta := if v.jt + j > thetaMax then v.jt + j - nIdxTheta else v.jt + j
      match coef2d c1 nTheta size coef (v.jr + i) idxTheta with
      | some c => some (y + c * v.values i j)
      | none => none) y) y

/-- `eval`, polar_spline_evaluator.hpp:490-508: outer boundary condition, periodic poloidal coordinate. -/
noncomputable def evaluate (c1 degR degT nTheta size : ℕ) (elem : ℕ → ℕ → ℕ → ℝ) (bR bT : Basis) (rmax tmin tmax : ℝ) (outer : ℝ × ℝ → (ℕ → ℝ) → ℝ)
    (coef : ℕ → ℝ) (x : ℝ × ℝ) : Option ℝ :=
  if x.1 > rmax then some (outer x coef) else
  let len := tmax - tmin
  let theta := if x.2 < tmin ∨ x.2 > tmax then x.2 - ⌊(x.2 - tmin) / len⌋ * len else x.2
  evalNoBc c1 degR degT nTheta size elem coef (bR.ev none x.1) (bT.ev none theta)

/-- `deriv`, polar_spline_evaluator.hpp:189-196, 272-317: no boundary condition. -/
def deriv (c1 degR degT nTheta size : ℕ) (elem : ℕ → ℕ → ℕ → ℝ) (bR bT : Basis) (orderR orderT : Option ℕ) (coef : ℕ → ℝ) (x : ℝ × ℝ) : Option ℝ :=
  evalNoBc c1 degR degT nTheta size elem coef (bR.ev orderR x.1) (bT.ev orderT x.2)

/-- `PolarSplines::integrals`, polar_bsplines.hpp:763-838. `rInt`, `tInt` are the integrals of the 1D B-splines (`ddc::integrals`); the singular elements are summed over the index range of `m_singular_basis_elements`,
`c1` radial and `sizeTheta` poloidal indices. -/
def integrals (c1 nTheta sizeTheta : ℕ) (elem : ℕ → ℕ → ℕ → ℝ) (rInt tInt : ℕ → ℝ) (idx : ℕ) : Option ℝ :=
  if idx < nSingular c1 then
    some ((List.range c1).foldl (fun s i => (List.range sizeTheta).foldl (fun s j => s + elem idx i j * rInt i * tInt j) s) 0)
  else (get2dIndex c1 nTheta idx).map fun p => rInt p.1 * tInt p.2

end Verif.PolarSplines
