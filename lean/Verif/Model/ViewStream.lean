import Verif.Model.Pdi

/-!
# Printing of views (`src/utils/view.hpp`)

Model of `operator<<` for `Kokkos::mdspan`.  A view is its extents and a function from multi-indices to elements; the output is the list of
characters; `pr` prints one element.
-/
namespace Verif.ViewStream

open Pdi (Out)

variable {E : Type*}

/-- The last dimension (src/utils/view.hpp 56-60): all elements but the last followed by a comma, then the last one.  `n - 1` is computed with `std::size_t`: for an
empty dimension it is the largest number and the loop reads elements which do not exist. -/
def streamLine (pr : E → List Char) (n : ℕ) (s : ℕ → E) : Out (List Char) :=
  if n = 0 then .ub
  else .ok ('[' :: ((List.range (n - 1)).flatMap (fun i0 => pr (s i0) ++ [',']) ++ pr (s (n - 1)) ++ [']']))

/-- Concatenation of the outputs of the iterations of a loop (src/utils/view.hpp 48-53). -/
def streamRows (row : ℕ → Out (List Char)) : List ℕ → Out (List Char)
  | [] => .ok []
  | i0 :: l => (row i0).bind fun a => (streamRows row l).bind fun b => .ok (a ++ b)

/-- `detail::stream_impl` (src/utils/view.hpp 34-63); rank 0 does not compile (no `I0`) and is given as an empty output. -/
def stream (pr : E → List Char) : List ℕ → (List ℕ → E) → Out (List Char)
  | [], _ => .ok []
  | [n], s => streamLine pr n fun i => s [i]
  | n :: m :: es, s =>
    (streamRows (fun i0 => stream pr (m :: es) fun idx => s (i0 :: idx)) (List.range n)).bind fun b => .ok ('[' :: (b ++ [']']))

end Verif.ViewStream
