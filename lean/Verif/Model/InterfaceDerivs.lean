import Mathlib.Analysis.SpecialFunctions.Sqrt
import Mathlib.Algebra.BigOperators.Group.Finset.Basic
import Mathlib.Order.Interval.Finset.Basic
import Mathlib.Data.Int.Interval

/-!
# Derivatives at the interface of two patches

`src/multipatch/interface_derivatives/single_interface_derivatives_calculator.hpp`. Indices of the perpendicular grids are integers, fields
and coordinates functions of the index, `double` is `ℝ`. Not modelled: the two checks of lines 421-496 on the position of the interpolation points, the debug
assertions, and the exception of lines 1113-1116 for cells of length zero (the theorems ask for increasing coordinates).
-/

namespace Verif.InterfaceDerivs

/-- `Extremity`, src/utils/geometry_descriptors.hpp:4. -/
inductive Ext
  | front
  | back
deriving DecidableEq, Repr

/-- What the calculator knows of one patch: the extremity of its edge (lines 125-126), its perpendicular index range (122-123): first index and number of points,
and the coordinates of the points (`ddc::coordinate`). -/
structure Patch where
  ext : Ext
  front : ℤ
  size : ℕ
  x : ℤ → ℝ

/-- `idx_range.back()` (DDC). Used in `get_extremity_idx`, single_interface_derivatives_calculator.hpp:1149-1155. -/
def Patch.back (p : Patch) : ℤ := p.front + p.size - 1

/-- `get_extremity_idx`, lines 1149-1155. -/
def Patch.itf (p : Patch) : ℤ := if p.ext = .front then p.front else p.back

/-- The step away from the interface, lines 559-562 (also 752, 850, 973-976). -/
def Patch.step (p : Patch) : ℤ := if p.ext = .front then 1 else -1

/-- The ranges of the constructor with a number of cells, lines 273-291: `take_first` or `take_last` of `min (n + 1) size` points. -/
def Patch.reduced (p : Patch) (cells : ℕ) : Patch :=
  let m := min (cells + 1) p.size
  match p.ext with
  | .front => { p with size := m }
  | .back => { p with size := m, front := p.front + (p.size - m : ℤ) }

/-- `get_cell_lengths(idx)`, lines 1053-1118: `on1` says that `idx` is an index of the grid of patch 1. At the interface index the *left* length is the one of the
other patch (line 1099) whichever patch the index belongs to. -/
noncomputable def cellLengths (p1 p2 : Patch) (on1 : Bool) (idx : ℤ) : ℝ × ℝ :=
  let p := if on1 then p1 else p2
  let o := if on1 then p2 else p1
  if idx = p.itf then
    (|o.x (o.itf + o.step) - o.x o.itf|, |p.x (idx + p.step) - p.x idx|)
  else if (on1 = true ∧ p1.ext = .back) ∨ (on1 = false ∧ p2.ext = .front) then
    (|p.x idx - p.x (idx - 1)|, |p.x (idx + 1) - p.x idx|)
  else
    (|p.x (idx + 1) - p.x idx|, |p.x idx - p.x (idx - 1)|)

/-- `get_gammas`, lines 1122-1134. -/
noncomputable def gammas (left right : ℝ) : ℝ × ℝ × ℝ :=
  let factor := 3 / 2 / (left + right)
  let rOnL := right / left
  let lOnR := left / right
  (-factor * rOnL, factor * (rOnL - lOnR), factor * lOnR)

/-- `get_alpha`, lines 1137-1140. -/
noncomputable def alpha (left right : ℝ) : ℝ := -0.5 * left / (right + left)

/-- `get_beta`, lines 1143-1146. -/
noncomputable def beta (left right : ℝ) : ℝ := -0.5 * right / (right + left)

/-- One slot of the arrays `coeff_deriv_patch1`, `coeff_deriv_patch2`, `weights_patch1`, `weights_patch2`, lines 545-551. -/
structure Row where
  cd1 : ℝ
  cd2 : ℝ
  w1 : ℤ → ℝ
  w2 : ℤ → ℝ

/-- `w(i) = v`. Simplification: fields are total functions of the index, so a write outside of the index range (undefined behaviour) has no effect
on the others. (lines 587-590) -/
def setAt (w : ℤ → ℝ) (i : ℤ) (v : ℝ) : ℤ → ℝ := fun j => if j = i then v else w j

/-- `w(i) += v` (lines 618-621, 687-690, 798-804, 941-949). -/
def bump (w : ℤ → ℝ) (i : ℤ) (v : ℝ) : ℤ → ℝ := fun j => if j = i then w j + v else w j

/-- Slot 0 of the first recursion, lines 568-590. -/
noncomputable def start (p1 p2 : Patch) : Row :=
  let l := cellLengths p1 p2 false p2.itf
  let g := gammas l.1 l.2
  { cd1 := beta l.1 l.2
    cd2 := alpha l.1 l.2
    w1 := setAt (setAt (fun _ => 0) (p1.itf + p1.step) g.1) p1.itf g.2.1
    w2 := setAt (setAt (fun _ => 0) p2.itf g.2.1) (p2.itf + p2.step) g.2.2 }

/-- Slot 1 of the first recursion, lines 592-621. -/
noncomputable def second (p1 p2 : Patch) (r : Row) : Row :=
  let l := cellLengths p1 p2 false (p2.itf + p2.step)
  let g := gammas l.1 l.2
  let a := alpha l.1 l.2
  let b := beta l.1 l.2
  let factor := 1 / (1 - r.cd2 * b) * r.cd2
  { cd2 := a * r.cd2 / (1 - r.cd2 * b)
    cd1 := r.cd1 / (1 - r.cd2 * b)
    w1 := bump (fun j => 1 / (1 - r.cd2 * b) * r.w1 j) p1.itf (factor * g.1)
    w2 := bump (bump (bump (fun j => 1 / (1 - r.cd2 * b) * r.w2 j) (p2.itf + 2 * p2.step) (factor * g.2.2)) (p2.itf + p2.step) (factor * g.2.1))
      p2.itf (factor * g.1) }

/-- Slot 1 of the second recursion, lines 656-690. -/
noncomputable def third (p1 p2 : Patch) (r : Row) : Row :=
  let l := cellLengths p1 p2 true (p1.itf + p1.step)
  let g := gammas l.1 l.2
  let a := alpha l.1 l.2
  let b := beta l.1 l.2
  let factor := 1 / (1 - r.cd1 * a) * r.cd1
  { cd2 := r.cd2 / (1 - r.cd1 * a)
    cd1 := r.cd1 * b / (1 - r.cd1 * a)
    w1 := bump (bump (bump (fun j => 1 / (1 - r.cd1 * a) * r.w1 j) (p1.itf + 2 * p1.step) (factor * g.1)) (p1.itf + p1.step) (factor * g.2.1))
      p1.itf (factor * g.2.2)
    w2 := bump (fun j => 1 / (1 - r.cd1 * a) * r.w2 j) p2.itf (factor * g.2.2) }

/-- `coeff_deriv_patch` of the patch on which the recursion runs (lines 743, 841; the calls 635-641 and 697-703). -/
def own (on1 : Bool) (r : Row) : ℝ := if on1 then r.cd1 else r.cd2

/-- `coeff_deriv_other_patch` (lines 744, 842). -/
def other (on1 : Bool) (r : Row) : ℝ := if on1 then r.cd2 else r.cd1

/-- The three slots `[0]`, `[1]`, `[2]` (lines 545-551). -/
structure Slots where
  s0 : Row
  s1 : Row
  s2 : Row

/-- The new slot `[2]` in the loop body of `recursion`, lines 755-805. -/
noncomputable def nextRow (p1 p2 : Patch) (on1 : Bool) (n : ℕ) (s : Slots) : Row :=
  let p := if on1 then p1 else p2
  let l := cellLengths p1 p2 on1 (p.itf + n * p.step)
  let g := gammas l.1 l.2
  let furthest := if on1 then beta l.1 l.2 else alpha l.1 l.2
  let closest := if on1 then alpha l.1 l.2 else beta l.1 l.2
  let denom := 1 - closest * own on1 s.s1 / own on1 s.s0
  let closer := closest * own on1 s.s1 / own on1 s.s0
  let factor := 1 / denom * own on1 s.s1
  let ownNew := furthest * own on1 s.s1 / denom
  let otherNew := (other on1 s.s1 - closest * own on1 s.s1 / own on1 s.s0 * other on1 s.s0) / denom
  let w1 := fun j => 1 / denom * (s.s1.w1 j - closer * s.s0.w1 j)
  let w2 := fun j => 1 / denom * (s.s1.w2 j - closer * s.s0.w2 j)
  let at' := fun k : ℤ => p.itf + k * p.step
  if on1 then
    { cd1 := ownNew, cd2 := otherNew, w2 := w2
      w1 := bump (bump (bump w1 (at' (n + 1)) (factor * g.1)) (at' n) (factor * g.2.1)) (at' (n - 1)) (factor * g.2.2) }
  else
    { cd2 := ownNew, cd1 := otherNew, w1 := w1
      w2 := bump (bump (bump w2 (at' (n + 1)) (factor * g.2.2)) (at' n) (factor * g.2.1)) (at' (n - 1)) (factor * g.1) }

/-- The loop body of `recursion` with the update of the slots, lines 754-818. -/
noncomputable def loopStep (p1 p2 : Patch) (on1 : Bool) (s : Slots) (n : ℕ) : Slots :=
  let r := nextRow p1 p2 on1 n s
  { s0 := s.s1, s1 := r, s2 := r }

/-- `recursion`, lines 739-819: `n = 2, …, n_cells - 1`. -/
noncomputable def recursion (p1 p2 : Patch) (on1 : Bool) (nCells : ℕ) (s : Slots) : Slots :=
  (List.range' 2 (nCells - 2)).foldl (loopStep p1 p2 on1) s

/-- `correction_boundary`, lines 837-951: the new slot `[2]`. -/
noncomputable def correction (p1 p2 : Patch) (on1 : Bool) (s : Slots) : Row :=
  let p := if on1 then p1 else p2
  let n : ℤ := p.size - 3
  let idxMinus := p.itf + (n - 1) * p.step
  let idx := p.itf + n * p.step
  let idxPlus := p.itf + (n + 2) * p.step
  let idxStar := p.itf + (n + 1) * p.step
  let l := cellLengths p1 p2 on1 idx
  let ls := cellLengths p1 p2 on1 idxStar
  let left := if on1 then l.1 + ls.1 else l.1
  let right := if on1 then l.2 else l.2 + ls.2
  let furthest := if on1 then beta left right else alpha left right
  let closest0 := if on1 then alpha left right else beta left right
  let g := gammas left right
  let x := if on1 then ls.1 / left else ls.1 / right
  let h0 := (1 - x) * (1 - x) * (1 + 2 * x)
  let h1 := x * x * (3 - 2 * x)
  let k0 := (1 - x) * (1 - x) * x
  let k1 := x * x * (x - 1)
  let dg := if on1 then 1 / (1 + furthest * k1 / k0) else 1 / (1 + furthest * k0 / k1)
  let closest := dg * closest0
  let gPlus := if on1 then dg * (g.1 - furthest * h0 / k0 / left) else dg * (g.2.2 - furthest * h1 / k1 / right)
  let gStar := if on1 then dg * furthest / k0 / left else dg * furthest / k1 / right
  let gIdx := if on1 then dg * (g.2.1 - furthest * h1 / k0 / left) else dg * (g.2.1 - furthest * h0 / k1 / right)
  let gMinus := if on1 then dg * g.2.2 else dg * g.1
  let denom := 1 - closest * own on1 s.s1 / own on1 s.s0
  let ownNew := 0 * own on1 s.s1 / denom
  let otherNew := (other on1 s.s1 - closest * own on1 s.s1 / own on1 s.s0 * other on1 s.s0) / denom
  let closer := closest * own on1 s.s1 / own on1 s.s0
  let w1 := fun j => 1 / denom * (s.s1.w1 j - closer * s.s0.w1 j)
  let w2 := fun j => 1 / denom * (s.s1.w2 j - closer * s.s0.w2 j)
  let factor := 1 / denom * own on1 s.s1
  if on1 then
    { cd1 := ownNew, cd2 := otherNew, w2 := w2
      w1 := bump (bump (bump (bump w1 idxPlus (factor * gPlus)) idxStar (factor * gStar)) idx (factor * gIdx)) idxMinus (factor * gMinus) }
  else
    { cd2 := ownNew, cd1 := otherNew, w1 := w1
      w2 := bump (bump (bump (bump w2 idxPlus (factor * gPlus)) idxStar (factor * gStar)) idx (factor * gIdx)) idxMinus (factor * gMinus) }

/-- The part of `set_coefficients_non_uniform_case` on patch 2, lines 564-652. `g2` is `m_is_cell_bound_2_with_extra_interpol_pt`. -/
noncomputable def stage2 (p1 p2 : Patch) (g2 : Bool) : Slots :=
  let r0 := start p1 p2
  let r1 := second p1 p2 r0
  let s := recursion p1 p2 false (if g2 then p2.size - 3 else p2.size - 1) { s0 := r0, s1 := r1, s2 := r1 }
  if g2 then { s with s2 := correction p1 p2 false s } else s

/-- `set_coefficients_non_uniform_case`, lines 505-721: the final contents of the slots `[2]`; `none` for the exceptions of lines 529-534. -/
noncomputable def nonUniform (p1 p2 : Patch) (g1 g2 : Bool) : Option Row :=
  if p1.size < 2 ∨ p2.size < 2 then none
  else
    let s := stage2 p1 p2 g2
    let s' := recursion p1 p2 true (if g1 then p1.size - 3 else p1.size - 1)
      { s0 := s.s2, s1 := third p1 p2 s.s2, s2 := s.s2 }
    some (if g1 then correction p1 p2 true s' else s'.s2)

/-- `un = pow(2 + sqrt(3), n) - pow(2 - sqrt(3), n)`, lines 985-993, 1018-1021, 1035-1038. -/
noncomputable def un (n : ℕ) : ℝ := (2 + Real.sqrt 3) ^ n - (2 - Real.sqrt 3) ^ n

/-- The coefficients of `set_coefficients_uniform_per_patch_case` for given lengths, lines 980-1046. The loops of lines 1014-1029 and 1031-1046 fill the weights of the
points at distance `k = 1, …, n_cells` from the interface: here the weight at an index is the one of its distance. `idx_1` at distance 0 is line 1010, `idx_2` line 1012. -/
noncomputable def uniformRow (p1 p2 : Patch) (left right : ℝ) : Row :=
  let n1 := p1.size - 1
  let n2 := p2.size - 1
  let a11 := -0.5 * left / (left + right)
  let b11 := -0.5 * right / (left + right)
  let u1 := 2 * Real.sqrt 3
  let denominator := un n1 * un n2 + un n1 * un (n2 - 1) * a11 + un (n1 - 1) * un n2 * b11
  let factorA := 3 * a11 / right / denominator
  let factorB := 3 * b11 / left / denominator
  let w0 := factorA * un n1 * (un n2 - un (n2 - 1)) - factorB * un n2 * (un n1 - un (n1 - 1))
  { cd1 := (-1) ^ ((n1 - 1) % 2) * u1 * b11 * un n2 / denominator
    cd2 := (-1) ^ ((n2 - 1) % 2) * u1 * a11 * un n1 / denominator
    w1 := fun j =>
      let k := (j - p1.itf).natAbs
      if k = 0 then w0
      else if k < n1 then (-1) ^ ((k + 1) % 2) * factorB * un n2 * (un (n1 - k + 1) - un (n1 - k - 1))
      else (-1) ^ ((n1 + 1) % 2) * factorB * un n2 * u1
    w2 := fun j =>
      let k := (j - p2.itf).natAbs
      if k = 0 then w0
      else if k < n2 then (-1) ^ (k % 2) * factorA * un n1 * (un (n2 - k + 1) - un (n2 - k - 1))
      else (-1) ^ (n2 % 2) * factorA * un n1 * u1 }

/-- `set_coefficients_uniform_per_patch_case`, lines 961-1047: the lengths are those of `get_cell_lengths(idx_1)`, `idx_1` the interface index of *patch 1* (line 978). -/
noncomputable def uniform (p1 p2 : Patch) : Row :=
  let l := cellLengths p1 p2 true p1.itf
  uniformRow p1 p2 l.1 l.2

/-- `get_function_coefficients`, lines 375-402. -/
noncomputable def functionCoeffs (p1 p2 : Patch) (r : Row) (f1 f2 : ℤ → ℝ) : ℝ :=
  (∑ j ∈ Finset.Icc p1.front p1.back, f1 j * r.w1 j) +
    ∑ j ∈ (if p2.ext = .front then Finset.Icc (p2.front + 1) p2.back else Finset.Icc p2.front (p2.back - 1)), f2 j * r.w2 j

end Verif.InterfaceDerivs
