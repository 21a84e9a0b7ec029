import Mathlib.Algebra.Order.Archimedean.Real.Basic
import Mathlib.Algebra.BigOperators.Group.Finset.Basic

/-! Model of `src/quadrature/gauss_legendre_integration.{hpp,cpp}`. -/

namespace Verif.GaussLegendre

/-- The tables `s_weight<n>` and `s_pos<n>` (gauss_legendre_integration.cpp:14-end), multiplied by `10^25` (all the literals have 25
decimals): `(weights, positions)`. The code stores them as `long double`; this further rounding is not modelled. -/
def table : ℕ → List ℤ × List ℤ
  | 1 => ([20000000000000000000000000],
      [0])
  | 2 => ([10000000000000000000000000, 10000000000000000000000000],
      [-5773502691896257645091488, 5773502691896257645091488])
  | 3 => ([5555555555555555555555556, 8888888888888888888888889, 5555555555555555555555556],
      [-7745966692414833770358531, 0, 7745966692414833770358531])
  | 4 => ([3478548451374538573730639, 6521451548625461426269361, 6521451548625461426269361, 3478548451374538573730639],
      [-8611363115940525752239465, -3399810435848562648026658, 3399810435848562648026658, 8611363115940525752239465])
  | 5 => ([2369268850561890875142640, 4786286704993664680412915, 5688888888888888888888889, 4786286704993664680412915, 2369268850561890875142640],
      [-9061798459386639927976269, -5384693101056830910363144, 0, 5384693101056830910363144, 9061798459386639927976269])
  | 6 => ([1713244923791703450402961, 3607615730481386075698335, 4679139345726910473898703, 4679139345726910473898703, 3607615730481386075698335, 1713244923791703450402961],
      [-9324695142031520278123016, -6612093864662645136613996, -2386191860831969086305017, 2386191860831969086305017, 6612093864662645136613996, 9324695142031520278123016])
  | 7 => ([1294849661688696932706114, 2797053914892766679014678, 3818300505051189449503698, 4179591836734693877551020, 3818300505051189449503698, 2797053914892766679014678, 1294849661688696932706114],
      [-9491079123427585245261897, -7415311855993944398638648, -4058451513773971669066064, 0, 4058451513773971669066064, 7415311855993944398638648, 9491079123427585245261897])
  | 8 => ([1012285362903762591525314, 2223810344533744705443560, 3137066458778872873379622, 3626837833783619829651504, 3626837833783619829651504, 3137066458778872873379622, 2223810344533744705443560, 1012285362903762591525314],
      [-9602898564975362316835609, -7966664774136267395915539, -5255324099163289858177390, -1834346424956498049394761, 1834346424956498049394761, 5255324099163289858177390, 7966664774136267395915539, 9602898564975362316835609])
  | 9 => ([812743883615744119718922, 1806481606948574040584720, 2606106964029354623187429, 3123470770400028400686304, 3302393550012597631645251, 3123470770400028400686304, 2606106964029354623187429, 1806481606948574040584720, 812743883615744119718922],
      [-9681602395076260898355762, -8360311073266357942994298, -6133714327005903973087020, -3242534234038089290385380, 0, 3242534234038089290385380, 6133714327005903973087020, 8360311073266357942994298, 9681602395076260898355762])
  | 10 => ([666713443086881375935688, 1494513491505805931457763, 2190863625159820439955349, 2692667193099963550912269, 2955242247147528701738930, 2955242247147528701738930, 2692667193099963550912269, 2190863625159820439955349, 1494513491505805931457763, 666713443086881375935688],
      [-9739065285171717200779640, -8650633666889845107320967, -6794095682990244062343274, -4333953941292471907992659, -1488743389816312108848260, 1488743389816312108848260, 4333953941292471907992659, 6794095682990244062343274, 8650633666889845107320967, 9739065285171717200779640])
  | _ => ([], [])

/-- Table entries as numbers. (gauss_legendre_integration.hpp:20-32.) -/
noncomputable def weights (n : ℕ) : List ℝ := (table n).1.map (fun z : ℤ => (z : ℝ) / 10 ^ 25)

/-- Table entries as numbers. (gauss_legendre_integration.hpp:20-32.) -/
noncomputable def positions (n : ℕ) : List ℝ := (table n).2.map (fun z : ℤ => (z : ℝ) / 10 ^ 25)

/-- `get_sampling_on_cell` (gauss_legendre_integration.hpp:169-182) : the points of one cell. -/
noncomputable def cellPoints (pos : List ℝ) (x0 x1 : ℝ) : List ℝ :=
  let l := 0.5 * (x1 - x0)
  let c := 0.5 * (x0 + x1)
  pos.map (fun p => c + l * p)

/-- `get_sampling` (gauss_legendre_integration.hpp:184-239): the three versions walk through the mesh edges, the counter `k` running
over the points of the cells one after the other. -/
noncomputable def sampling (pos : List ℝ) : List ℝ → List ℝ
  | x0 :: x1 :: rest => cellPoints pos x0 x1 ++ sampling pos (x1 :: rest)
  | _ => []

/-- `m_cell_lengths` (gauss_legendre_integration.hpp:176-177): half the length of each cell. -/
noncomputable def cellLengths : List ℝ → List ℝ
  | x0 :: x1 :: rest => 0.5 * (x1 - x0) :: cellLengths (x1 :: rest)
  | _ => []

/-- `gauss_legendre_coefficients` (gauss_legendre_integration.hpp:152-166), the coefficient of point `ix` for `NPoints = w.length`. -/
noncomputable def coefficient (w edges : List ℝ) (ix : ℕ) : ℝ :=
  (cellLengths edges).getD (ix / w.length) 0 * w.getD (ix % w.length) 0

/-- The quadrature of a function with these points and coefficients (quadrature.hpp:60-103). The index range has
`(number of edges - 1) * NPoints` points (gauss_legendre_integration.hpp:90-92). -/
noncomputable def integrate (pos w edges : List ℝ) (f : ℝ → ℝ) : ℝ :=
  ∑ ix ∈ Finset.range ((edges.length - 1) * w.length), coefficient w edges ix * f ((sampling pos edges).getD ix 0)

end Verif.GaussLegendre
