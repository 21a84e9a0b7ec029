import Verif.Model.PolarSplines

/-!
# Finite elements on polar splines for Poisson-like equations

`src/pde_solvers/polar_spline_fem_poisson_like_assembler.hpp` and `src/pde_solvers/polar_spline_fem_poisson_like_solver.hpp`.

Both B-spline bases have the same degree `p` (the code uses `BSplinesR::degree()` for both in several places, e.g. polar_spline_fem_poisson_like_assembler.hpp:112-113, 1285-1286). Indices of basis functions, knots, quadrature
points are numbered from 0; knots are relative to the first break point, so that the B-spline `i` has its first support knot at `i - p` and its last at `i + 1` (DDC).
`double` is `ℝ`. Reductions over quadrature points are sums of a list (their order does not matter in `ℝ`). Kernels are lists of writes, in some order.
Not modelled: GPU execution, Ginkgo (`solve` is any function).
-/

namespace Verif.PolarFem

open Verif.PolarSplines

/-- Sizes: degree, continuity plus one, number of radial and poloidal B-splines (`nbasis`). Used in the model of `polar_spline_fem_poisson_like_assembler.hpp:396`. -/
structure Sz where
  p : ℕ
  c1 : ℕ
  nR : ℕ
  nT : ℕ

/-- `n_singular_basis()`. Used in the model of `polar_spline_fem_poisson_like_assembler.hpp:97-165`. -/
def Sz.nS (z : Sz) : ℕ := nSingular z.c1

/-- `m_nbasis_r`, polar_spline_fem_poisson_like_assembler.hpp:396. -/
def Sz.mR (z : Sz) : ℕ := z.nR - z.c1 - 1

/-- `m_matrix_size`, polar_spline_fem_poisson_like_assembler.hpp:398. -/
def Sz.matSize (z : Sz) : ℕ := nbasis z.c1 z.nR z.nT - z.nT

/-- Cells in the radial direction (DDC: `nbasis = ncells + degree` for a non-periodic basis; for the periodic one `nbasis = ncells`). Used in the model of `polar_spline_fem_poisson_like_assembler.hpp:406-409`. -/
def Sz.cellsR (z : Sz) : ℕ := z.nR - z.p

/-- Radial quadrature points, polar_spline_fem_poisson_like_assembler.hpp:406-409. -/
def Sz.qR (z : Sz) : ℕ := (z.p + 1) * z.cellsR

/-- Poloidal quadrature points, polar_spline_fem_poisson_like_assembler.hpp:410-413. -/
def Sz.qT (z : Sz) : ℕ := (z.p + 1) * z.nT

/-- Data at the quadrature points: elements of the singular basis, values (`order = 0`) and derivatives (`order = 1`) of the 1D B-splines that are non-zero in the cell of a quadrature point,
integration weights times volume (polar_spline_fem_poisson_like_solver.hpp:612-625), the coefficients and the inverse metric. -/
structure Dat where
  elem : ℕ → ℕ → ℕ → ℝ
  rv : ℕ → ℕ → ℕ → ℝ
  tv : ℕ → ℕ → ℕ → ℝ
  vol : ℕ → ℕ → ℝ
  alpha : ℕ → ℕ → ℝ
  beta : ℕ → ℕ → ℝ
  ginv : ℕ → ℕ → Fin 2 → Fin 2 → ℝ

/-- The first loop of `theta_mod` on a step, polar_spline_fem_poisson_like_assembler.hpp:34-35. -/
def thetaUp (n : ℕ) (i : ℤ) : ℤ :=
  if _h : 0 < n ∧ i < 0 then thetaUp n (i + n) else i
termination_by (-i).toNat
decreasing_by omega

/-- The second loop of `theta_mod` on a step, polar_spline_fem_poisson_like_assembler.hpp:36-37. -/
def thetaDown (n : ℕ) (i : ℤ) : ℤ :=
  if _h : 0 < n ∧ (n : ℤ) ≤ i then thetaDown n (i - n) else i
termination_by i.toNat
decreasing_by omega

/-- `theta_mod` on a step, polar_spline_fem_poisson_like_assembler.hpp:30-39. -/
def thetaModStep (n : ℕ) (i : ℤ) : ℤ := thetaDown n (thetaUp n i)

/-- `mod_add`, polar_spline_fem_poisson_like_assembler.hpp:41-51, on the range `[0, n)`. -/
def modAdd (n : ℕ) (idx step : ℤ) : ℤ :=
  if idx - 0 < -step then idx + n + step
  else if (n - 1 : ℤ) - idx < step then idx + step - n
  else idx + step

/-- What DDC's `eval_basis` (or its derivatives) give at a quadrature point: there are `p + 1` points in each cell, in the cell `c` the non-zero B-splines are `c, …, c + p`. Used in the model of `polar_spline_fem_poisson_like_assembler.hpp:97-165`. -/
def evAt (p : ℕ) (v : ℕ → ℕ → ℕ → ℝ) (order q : ℕ) : Ev := ⟨q / (p + 1), v order q⟩

/-- `get_polar_bspline_vals_and_derivs`, polar_spline_fem_poisson_like_assembler.hpp:97-165: the value (`orders = (0, 0)`), the radial derivative `(1, 0)` or the poloidal one `(0, 1)`; `none` if an assertion (polar_spline_fem_poisson_like_assembler.hpp:148-151) fails. -/
def bspline (z : Sz) (d : Dat) (oR oT : ℕ) (qr qt idx : ℕ) : Option ℝ :=
  let v := eval z.c1 z.p z.p d.elem (evAt z.p d.rv oR qr) (evAt z.p d.tv oT qt)
  if idx < z.nS then some (v.singular idx)
  else
    match get2dIndex z.c1 z.nT idx with
    | none => none
    | some (r, t) =>
      let ir : ℤ := (r : ℤ) - v.jr
      let it : ℤ := thetaModStep z.nT ((t : ℤ) - v.jt)
      if (0 ≤ ir ∧ ir < z.p + 1) ∧ 0 ≤ it ∧ it < z.p + 1 then some (v.values ir.toNat it.toNat) else none

/-- Derivative number `a` (radial, poloidal). Used in the model of `polar_spline_fem_poisson_like_assembler.hpp:1088-1129`. -/
def bsplineDeriv (z : Sz) (d : Dat) (qr qt idx : ℕ) (a : Fin 2) : Option ℝ :=
  if a = 0 then bspline z d 1 0 qr qt idx else bspline z d 0 1 qr qt idx

/-- `weak_integral_element`, polar_spline_fem_poisson_like_assembler.hpp:1088-1129; `none` if the quadrature point is outside of the range of the volume field or if an assertion fails. -/
def weak (z : Sz) (d : Dat) (test trial : ℕ) (q : ℕ × ℕ) : Option ℝ := do
  if q.1 < z.qR ∧ q.2 < z.qT then
    let vt ← bspline z d 0 0 q.1 q.2 test
    let d0 ← bsplineDeriv z d q.1 q.2 test 0
    let d1 ← bsplineDeriv z d q.1 q.2 test 1
    let vu ← bspline z d 0 0 q.1 q.2 trial
    let e0 ← bsplineDeriv z d q.1 q.2 trial 0
    let e1 ← bsplineDeriv z d q.1 q.2 trial 1
    let g := d.ginv q.1 q.2
    some (d.vol q.1 q.2 * (d.alpha q.1 q.2 * (d0 * g 0 0 * e0 + d0 * g 0 1 * e1 + d1 * g 1 0 * e0 + d1 * g 1 1 * e1) + d.beta q.1 q.2 * vt * vu))
  else none

/-- `parallel_reduce` with a sum. Used in the model of `polar_spline_fem_poisson_like_assembler.hpp:779-824`. -/
def reduce (f : ℕ × ℕ → Option ℝ) (qs : List (ℕ × ℕ)) : Option ℝ := (qs.mapM f).map List.sum

/-- A rectangle of quadrature points. Used in the model of `polar_spline_fem_poisson_like_assembler.hpp:779-824`. -/
def rect (r0 nr t0 nt : ℕ) : List (ℕ × ℕ) := (List.range nr).flatMap fun i => (List.range nt).map fun j => (r0 + i, t0 + j)

/-- `get_quadrature_between_knots`, polar_spline_fem_poisson_like_assembler.hpp:197-233: first point and number of points; `none` if an assertion fails or if the first point is negative. -/
def quadBetween (z : Sz) (startR endR startT endT : ℤ) : Option ((ℕ × ℕ) × (ℕ × ℕ)) :=
  let offT := if startT < 0 then startT + z.nT else startT
  if 0 < endR - startR ∧ 0 < endT - startT ∧ 0 ≤ startR ∧ 0 ≤ offT then
    some ((startR.toNat * (z.p + 1), (endR - startR).toNat * (z.p + 1)), (offT.toNat * (z.p + 1), (endT - startT).toNat * (z.p + 1)))
  else none

/-- "Manage periodicity", polar_spline_fem_poisson_like_assembler.hpp:944-948 and 1234-1237. -/
def wrapQuad (z : Sz) (q : ℕ × ℕ) : ℕ × ℕ := if q.1 < z.qR ∧ q.2 < z.qT then q else (q.1, q.2 - z.qT)

/-- The element of two singular functions, polar_spline_fem_poisson_like_assembler.hpp:779-824. -/
def elemSS (z : Sz) (d : Dat) (test trial : ℕ) : Option ℝ := reduce (weak z d test trial) (rect 0 (z.c1 * (z.p + 1)) 0 z.qT)

/-- The element of a singular and a tensor function, polar_spline_fem_poisson_like_assembler.hpp:896-959. -/
def elemST (z : Sz) (d : Dat) (test trial : ℕ) : Option ℝ := do
  let (r, t) ← get2dIndex z.c1 z.nT trial
  let (qr, qt) ← quadBetween z (max 0 ((r : ℤ) - z.p)) (min (z.c1 : ℤ) (r + 1)) ((t : ℤ) - z.p) (t + 1)
  reduce (fun q => weak z d test trial (wrapQuad z q)) (rect qr.1 qr.2 qt.1 qt.2)

/-- `get_matrix_stencil_element`, polar_spline_fem_poisson_like_assembler.hpp:1157-1250. -/
def elemTT (z : Sz) (d : Dat) (test trial : ℕ) : Option ℝ := do
  let (r, t) ← get2dIndex z.c1 z.nT test
  let (r', t') ← get2dIndex z.c1 z.nT trial
  let startR : ℤ := max 0 (max ((r : ℤ) - z.p) ((r' : ℤ) - z.p))
  let endR : ℤ := min (z.cellsR : ℤ) (min ((r : ℤ) + 1) ((r' : ℤ) + 1))
  let ft : ℤ := (wrapTheta z.nT t : ℤ) - z.p
  let ft' : ℤ := (wrapTheta z.nT t' : ℤ) - z.p
  let lt := ft + (z.p + 1)
  let lt' := ft' + (z.p + 1)
  let s : (ℤ × ℤ) × (ℤ × ℤ) :=
    if ft > lt' then ((ft, lt), (ft' + z.nT, lt' + z.nT))
    else if lt < ft' then ((ft + z.nT, lt + z.nT), (ft', lt'))
    else ((ft, lt), (ft', lt'))
  let (qr, qt) ← quadBetween z startR endR (max s.1.1 s.2.1) (min s.1.2 s.2.2)
  reduce (fun q => weak z d test trial (wrapQuad z q)) (rect qr.1 qr.2 qt.1 qt.2)

/-! ### CSR structure -/

/-- Number of matrix elements that is allocated, polar_spline_fem_poisson_like_assembler.hpp:447-462. -/
def nnzAlloc (z : Sz) : ℕ :=
  let nElemSingular := z.nS * z.nS
  let nElemOverlap := 2 * (z.nS * z.p * z.nT)
  let nStencilTheta := z.nT * min (1 + 2 * z.p) z.nT
  let nStencilR := z.mR * (1 + 2 * z.p) - (1 + z.p) * z.p
  nElemSingular + nElemOverlap + nStencilR * nStencilTheta

/-- `init_nnz_per_line`, polar_spline_fem_poisson_like_assembler.hpp:1267-1399: entry `k` of `nnz_per_row`. The four kernels write the entries of the rows of the singular functions, of the first `p` radial functions, of the middle ones, of the last `p`;
a later kernel overwrites. Polar index `nS + ir * nT + it` is at entry one further. Simplification: each kernel is given as a function of the entry. -/
def ptr (z : Sz) (k : ℕ) : ℕ :=
  let so := 2 * z.p + 1
  let nnzSing := z.nS + z.p * z.nT
  let sum1 := nnzSing * z.nS
  let sum2 := sum1 + (z.nS * z.p + z.p * (z.p + 2 * z.p + 1) * so / 2) * z.nT
  let nStencil := (z.mR - 2 * z.p) * z.nT
  let sum3 := sum2 + nStencil * so * so
  let kp := k - 1 - z.nS
  if k = 0 then 0
  else if k ≤ z.nS then k * nnzSing
  else if k ≤ z.nS + z.mR * z.nT ∧ z.nS + (z.mR - z.p) * z.nT < k then
    let ir := kp / z.nT - (z.mR - z.p)
    let it := kp % z.nT
    let nr := 2 * z.p - ir
    sum3 + (z.p * (2 * z.p + 1) - nr * (nr + 1) / 2) * so * z.nT + (it + 1) * nr * so
  else if z.p * z.nT ≤ kp ∧ kp < z.p * z.nT + nStencil then
    sum2 + (kp - z.p * z.nT + 1) * so * so
  else if kp < z.p * z.nT then
    let ir := kp / z.nT
    let it := kp % z.nT
    let nr := z.p + ir + 1
    sum1 + z.nS * ir * z.nT + (nr * (nr - 1) - z.p * (z.p + 1)) * z.nT * so / 2 + (it + 1) * (z.nS + nr * so)
  else 0

/-- `compute_singular_singular_col_idx`, polar_spline_fem_poisson_like_assembler.hpp:545-568: the writes (position, column). -/
def colsSS (z : Sz) : List (ℕ × ℕ) := (List.range z.nS).flatMap fun row => (List.range z.nS).map fun col => (ptr z row + col, col)

/-- `compute_singular_tensor_col_idx`, polar_spline_fem_poisson_like_assembler.hpp:579-622: the writes. -/
def colsST (z : Sz) : List (ℕ × ℕ) :=
  let nOv := z.p * z.nT
  (List.range (z.nS * nOv)).flatMap fun l =>
    let row := l / nOv
    let col := l % nOv + z.nS
    [(ptr z row + col, col), (ptr z col + row, row)]

/-- The radial indices of the trial functions of a row, polar_spline_fem_poisson_like_assembler.hpp:676-698. -/
def trialR (z : Sz) (r : ℕ) : List ℕ :=
  let lo : ℤ := max (-(z.p : ℤ)) ((z.c1 : ℤ) - r)
  let hi : ℤ := min ((z.p : ℤ) + 1) ((z.nR : ℤ) - 1 - r)
  (List.range (hi - lo).toNat).map fun (k : ℕ) => ((r : ℤ) + (lo + (k : ℤ))).toNat

/-- The poloidal indices of the trial functions of a row, polar_spline_fem_poisson_like_assembler.hpp:704-734. -/
def trialT (z : Sz) (t : ℕ) : List ℕ :=
  let first := modAdd z.nT t (-(z.p : ℤ))
  let last := modAdd z.nT t (z.p + 1)
  let s : ℤ × ℤ := if first > last then (0, first) else (first, z.nT)
  (List.range (last - s.1).toNat).map (fun (k : ℕ) => (s.1 + (k : ℤ)).toNat) ++ (List.range ((z.nT : ℤ) - s.2).toNat).map (fun (k : ℕ) => (s.2 + (k : ℤ)).toNat)

/-- `n_singular * central_radial_bspline_idx_range.contains(idx_test_r)`, polar_spline_fem_poisson_like_assembler.hpp:691-692 and 1036-1037. -/
def colOffset (z : Sz) (r : ℕ) : ℕ := if z.c1 ≤ r ∧ r < z.c1 + z.p then z.nS else 0

/-- The columns written for the row of the polar index `row`, in order, polar_spline_fem_poisson_like_assembler.hpp:666-742. -/
def trialCols (z : Sz) (row : ℕ) : List ℕ :=
  match get2dIndex z.c1 z.nT row with
  | none => []
  | some (r, t) => (trialR z r).flatMap fun r' => (trialT z t).filterMap fun t' => getPolarIndex z.c1 z.nT r' t'

/-- `compute_tensor_tensor_col_idx`, polar_spline_fem_poisson_like_assembler.hpp:633-745: the writes. -/
def colsTT (z : Sz) : List (ℕ × ℕ) :=
  (List.range (z.mR * z.nT)).flatMap fun l =>
    let row := z.nS + l
    match get2dIndex z.c1 z.nT row with
    | none => []
    | some (r, _) => (trialCols z row).mapIdx fun k c => (ptr z row + colOffset z r + k, c)

/-- All the writes of column indices, polar_spline_fem_poisson_like_assembler.hpp:476-478. -/
def colWrites (z : Sz) : List (ℕ × ℕ) := colsSS z ++ colsST z ++ colsTT z

/-- The contents of an array after writes in the order of the list (`none`: never written). Used for `compute_*_col_idx` and `compute_*_elements`, polar_spline_fem_poisson_like_assembler.hpp:545-1061. -/
def store {α : Type*} (w : List (ℕ × α)) : ℕ → Option α := w.foldl (fun a x => Function.update a x.1 (some x.2)) fun _ => none

/-- `compute_singular_singular_elements`, polar_spline_fem_poisson_like_assembler.hpp:766-829: the writes. -/
def valsSS (z : Sz) (d : Dat) : List (ℕ × Option ℝ) :=
  (List.range (z.nS * z.nS)).map fun l =>
    let row := l / z.nS
    let col := l % z.nS
    (ptr z row + col, elemSS z d row col)

/-- `compute_singular_tensor_elements`, polar_spline_fem_poisson_like_assembler.hpp:850-969: the writes. -/
def valsST (z : Sz) (d : Dat) : List (ℕ × Option ℝ) :=
  let nOv := z.p * z.nT
  (List.range (z.nS * nOv)).flatMap fun l =>
    let test := l / nOv
    let trial := z.nS + l % nOv
    let e := elemST z d test trial
    let row := l / nOv
    let col := l % nOv + z.nS
    [(ptr z row + col, e), (ptr z col + row, e)]

/-- `compute_tensor_tensor_elements`, polar_spline_fem_poisson_like_assembler.hpp:990-1061: the writes; `cols` is `col_idx_csr`. -/
def valsTT (z : Sz) (d : Dat) (cols : ℕ → Option ℕ) : List (ℕ × Option ℝ) :=
  (List.range (z.mR * z.nT)).flatMap fun l =>
    let row := z.nS + l
    match get2dIndex z.c1 z.nT row with
    | none => []
    | some (r, _) =>
      let start := ptr z row + colOffset z r
      (List.range (ptr z (row + 1) - start)).map fun k => (start + k, (cols (start + k)).bind fun col => elemTT z d row col)

/-- `operator()` of the assembler, polar_spline_fem_poisson_like_assembler.hpp:500-534: the writes of values. -/
def valWrites (z : Sz) (d : Dat) (cols : ℕ → Option ℕ) : List (ℕ × Option ℝ) := valsSS z d ++ valsST z d ++ valsTT z d cols

/-! ### Solver -/

/-- Right-hand side of a singular function, polar_spline_fem_poisson_like_solver.hpp:435-461; `f` is `rhs(coord)` at the quadrature points. -/
def rhsS (z : Sz) (d : Dat) (f : ℕ → ℕ → ℝ) (idx : ℕ) : Option ℝ :=
  reduce (fun q => (bspline z d 0 0 q.1 q.2 idx).map fun b => f q.1 q.2 * b * d.vol q.1 q.2) (rect 0 (z.c1 * (z.p + 1)) 0 z.qT)

/-- Right-hand side of a tensor function, polar_spline_fem_poisson_like_solver.hpp:467-519. -/
def rhsT (z : Sz) (d : Dat) (f : ℕ → ℕ → ℝ) (idx : ℕ) : Option ℝ := do
  let (r, t) ← get2dIndex z.c1 z.nT idx
  let (qr, qt) ← quadBetween z (max 0 ((r : ℤ) - z.p)) (min (z.cellsR : ℤ) (r + 1)) ((t : ℤ) - z.p) (t + 1)
  reduce (fun q =>
    let q' := (q.1, if q.2 < z.qT then q.2 else q.2 - z.qT)
    if q'.1 < z.qR ∧ q'.2 < z.qT then (bspline z d 0 0 q'.1 q'.2 idx).map fun b => f q'.1 q'.2 * b * d.vol q'.1 q'.2 else none) (rect qr.1 qr.2 qt.1 qt.2)

/-- The vector `b`, polar_spline_fem_poisson_like_solver.hpp:433-519. -/
def rhs (z : Sz) (d : Dat) (f : ℕ → ℕ → ℝ) (idx : ℕ) : Option ℝ := if idx < z.nS then rhsS z d f idx else rhsT z d f idx

/-- Filling of the spline, polar_spline_fem_poisson_like_solver.hpp:527-540, from the solution `x` of the linear system. -/
def fillSpline (z : Sz) (x : ℕ → ℝ) (idx : ℕ) : ℝ := if idx < nbasis z.c1 z.nR z.nT - z.nT then x idx else 0

end Verif.PolarFem
