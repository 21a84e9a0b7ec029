/-!
# Model of the type-sequence meta-programs

`ddc::detail::TypeSeq<T...>` is modelled by `List α` with decidable equality (`std::is_same_v`).
A C++ instantiation that does not compile is modelled by `none`.
-/
namespace Verif.TypeSeq

universe u v
variable {α : Type u} {β : Type v} [DecidableEq α]

/-- `detail::GetUnique<Start, Result>`, src/utils/type_seq_tools.hpp:101-119 (both specialisations). -/
def getUnique : List α → List α → List α
  | [], result => result
  | h :: t, result => getUnique t (if h ∈ result then result else result ++ [h])

/-- `type_seq_unique_t`, src/utils/type_seq_tools.hpp:236-237. -/
def unique (l : List α) : List α := getUnique l []

/-- `type_seq_has_unique_elements_v`, src/utils/type_seq_tools.hpp:243-245. -/
def hasUniqueElements (l : List α) : Bool := decide (l = unique l)

/-- `ddc::type_seq_replace_t<Seq, TypeSeq<A>, TypeSeq<B>>` (DDC): every occurrence of `a` is replaced by `b`.
Only the single-element form is used (src/utils/type_seq_tools.hpp:168-171). -/
def replace (l : List α) (a b : α) : List α := l.map fun x => if x = a then b else x

/-- The boolean `contains_duplicate`, src/utils/type_seq_tools.hpp:130-138 and 154-162. -/
def containsDuplicate (l o : List α) : Bool := decide (o ≠ unique o) || decide (l ≠ unique l)

/-- `detail::GetPermutationParity`, src/utils/type_seq_tools.hpp:121-179. The three specialisations are the three
cases; sequences of different lengths match no specialisation (`none`). When duplicates are found the recursive
instantiation is still named by the conditional expression, so its failure to exist is a compile error too. -/
def parity : List α → List α → Option Int
  | [], [] => some 1
  | h :: t, oh :: ot =>
    if h = oh then
      (parity t ot).map fun v => if containsDuplicate (h :: t) (h :: ot) then 0 else v
    else
      (parity (replace t oh h) ot).map fun v => if containsDuplicate (h :: t) (oh :: ot) then 0 else -v
  | _, _ => none
termination_by l => l.length
decreasing_by all_goals simp [replace]

/-- `ddc::type_seq_merge_t<A, B>` (DDC): the elements of `B` that are not yet present are appended to `A`. Used in the model of `src/utils/type_seq_tools.hpp:24-46`. -/
def merge (a b : List α) : List α := b.foldl (fun acc x => if x ∈ acc then acc else acc ++ [x]) a

/-- `detail::TypeSeqRange<In, Start, End, Idx, Out>`, src/utils/type_seq_tools.hpp:24-46. `fuel` bounds the
template recursion: the element at `Idx` is named eagerly, so an instantiation with `Idx ≥ size` does not compile. -/
def rangeAux (l : List α) (start stop : Nat) : Nat → Nat → List α → Option (List α)
  | 0, _, _ => none
  | fuel + 1, idx, out =>
    if idx = stop then some out
    else if stop ≤ l.length then
      match l[idx]? with
      | none => none
      | some x => rangeAux l start stop fuel (idx + 1) (if start ≤ idx ∧ idx < stop then merge out [x] else out)
    else none

/-- `type_seq_range_t<In, Start, End>`, src/utils/type_seq_tools.hpp:213-214 (the recursion starts at `Idx = Start`). -/
def range (l : List α) (start stop : Nat) : Option (List α) := rangeAux l start stop (l.length + 2) start []

/-- `detail::TypeSeqCat<S...>`, src/utils/type_seq_tools.hpp:85-99: two or more sequences (a single one matches no
specialisation). -/
def cat : List (List α) → Option (List α)
  | [] => none
  | [_] => none
  | [a, b] => some (a ++ b)
  | a :: b :: c :: rest => cat ((a ++ b) :: c :: rest)
termination_by l => l.length

/-- `detail::TypeSeqDuplicate`, src/utils/type_seq_tools.hpp:181-193 and 261-263. -/
def duplicate (x : α) (n : Nat) : List α := (List.range n).map fun _ => x

/-- `detail::FindGrid<Dim, TypeSeq<Grids...>>`, src/utils/type_seq_tools.hpp:48-65. `cdim` is `GetCDim` (lines 6-22).
Not found: the `static_assert(std::is_same_v<Dim, Dim>)` of line 63 is always satisfied, the result is the type `void`,
modelled by `none`. -/
def findGrid [DecidableEq β] (cdim : α → β) (d : β) : List α → Option α
  | [] => none
  | g :: gs => if cdim g = d then some g else findGrid cdim d gs

/-- `detail::FindAllGrids`, src/utils/type_seq_tools.hpp:67-74. -/
def findAllGrids [DecidableEq β] (cdim : α → β) (ds : List β) (l : List α) : List (Option α) :=
  ds.map fun d => findGrid cdim d l

/-- What the expression `typename GetFirst<Condition, T...>::type` denotes.
`element` is a type of the list, `void` the result of the empty case and `metafunction l` the (class) type
`GetFirst<Condition, l...>` itself. Used in the model of `src/utils/type_seq_tools.hpp:195-208`. -/
inductive FirstResult (α : Type u) where
  | element (x : α)
  | void
  | metafunction (rest : List α)
  deriving DecidableEq

/-- The member alias `type` of `detail::GetFirst<Condition, T...>`, src/utils/type_seq_tools.hpp:195-208: on line 201 the
third argument of `std::conditional_t` is `GetFirst<Condition, T...>`, without `::type`. (Access control of the member,
which is private in a `class`, is not modelled here.) -/
def getFirstType (cond : α → Bool) : List α → FirstResult α
  | [] => .void
  | x :: t => if cond x then .element x else .metafunction t

/-- `ddc::type_seq_remove_t<Seq, TypeSeq<x>>` (DDC): `x` is removed. Used in the model of `src/mpi_parallelisation/mpitools.hpp:86-102`. -/
def remove (l : List α) (x : α) : List α := l.filter fun y => decide (y ≠ x)

/-- `detail::InsertIntoTypeSeq<Tag, POS, Seq>`, src/mpi_parallelisation/mpitools.hpp:86-102. `type_seq_element_t<0, ...>`
of an empty sequence does not compile. -/
def insertInto (tag : α) : Nat → List α → Option (List α)
  | 0, l => some (tag :: l)
  | _ + 1, [] => none
  | n + 1, h :: t => (insertInto tag n (remove (h :: t) h)).map fun r => merge [h] r

/-- `ddc::type_seq_rank_v` (DDC): position of the first occurrence; the tag has to be present. Used in the model of `src/mpi_parallelisation/mpitools.hpp:134-138`. -/
def rank (x : α) (l : List α) : Option Nat := if x ∈ l then some (l.idxOf x) else none

/-- `insert_into_seq_before_t`, src/mpi_parallelisation/mpitools.hpp:134-138. -/
def insertBefore (tag : α) (sub l : List α) : Option (List α) :=
  match sub with
  | [] => none
  | s :: _ => (rank s l).bind fun p => insertInto tag p l

/-- `detail::InsertMPITags<MPISeq, Seq>`, src/mpi_parallelisation/mpitools.hpp:155-175; `mpi d` is the type `MPIDim<d>`
and the sequence is given by its distributed dimensions. -/
def insertMPITags (mpi : α → α) : List α → List α → Option (List α)
  | [], l => some l
  | d :: ds, l => (rank d l).bind fun p => (insertInto (mpi d) p l).bind fun l' => insertMPITags mpi ds l'

/-- `DimensionsAreAdjacent::check_adjacent`, src/mpi_parallelisation/mpitools.hpp:59-77; the static assertion of line 67
gives `none`. `ranks[i] - ranks[i-1]` is an unsigned 64 bit subtraction; since ranks are far below 2^63 it equals one
exactly when `ranks[i] = ranks[i-1] + 1`, which is how it is written here. -/
def areAdjacent (query l : List α) : Option Bool :=
  if query.all (fun q => decide (q ∈ l)) then
    let ranks := query.map fun q => l.idxOf q
    some ((List.range ranks.length).all fun i =>
      i = 0 || decide (ranks.getD i 0 = ranks.getD (i - 1) 0 + 1))
  else none

end Verif.TypeSeq
