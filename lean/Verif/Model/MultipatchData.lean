import Verif.Model.Connectivity
import Verif.Model.VectorFields

/-!
# Multipatch containers and spline builders

Model of `src/multipatch/data_types/multipatch_type.hpp`, `multipatch_field.hpp`, `multipatch_field_mem.hpp`,
`src/multipatch/spline/multipatch_spline_builder.hpp`, `multipatch_spline_builder_2d.hpp` and
`src/multipatch/interface_derivatives/single_interface_derivatives_calculator_collection.hpp`.

Patches are natural numbers; `T : ℕ → κ` is the alias template giving the element type on a patch; an `std::tuple` is a list
of (type, value); a compilation error is `none`.
-/
namespace Verif.MultipatchData

open Verif.Connectivity (Iface Edge equivalentEdge)
open Verif.VectorFields (Fld Heap copyField alloc)

variable {κ V W : Type}

/-- `std::get<Type>(tuple)`: ill-formed unless the type appears exactly once in the tuple
(used at src/multipatch/data_types/multipatch_type.hpp 124). -/
def stdGet [DecidableEq κ] (l : List (κ × V)) (k : κ) : Option V :=
  match l.filter fun x => x.1 = k with
  | [x] => some x.2
  | _ => none

/-- `MultipatchType(T<Patches>... args)` (src/multipatch/data_types/multipatch_type.hpp 63-66): one argument per patch, of the
type of this patch, stored in the order of the patches. -/
def make [DecidableEq κ] (T : ℕ → κ) (patches : List ℕ) (args : List (κ × V)) : Option (List (κ × V)) :=
  if args.map Prod.fst = patches.map T then some args else none

/-- `get<Patch>()` (src/multipatch/data_types/multipatch_type.hpp 121-125, multipatch_field.hpp 151-155,
multipatch_field_mem.hpp 140-156): the element is found by its *type* `T<Patch>`. -/
def mpGet [DecidableEq κ] (T : ℕ → κ) (l : List (κ × V)) (p : ℕ) : Option V := stdGet l (T p)

/-- All the `get<Patches>()...` of a pack expansion, tagged with the type of the new container. Used in the model of `src/multipatch/data_types/multipatch_type.hpp:82-92`. -/
def gather [DecidableEq κ] (T T' : ℕ → κ) (l' : List (κ × V)) : List ℕ → Option (List (κ × V))
  | [] => some []
  | p :: ps =>
    match mpGet T' l' p, gather T T' l' ps with
    | some x, some r => some ((T p, x) :: r)
    | _, _ => none

/-- `MultipatchType(MultipatchType<OtherType, OPatches...> const&)` (src/multipatch/data_types/multipatch_type.hpp 82-92): the
elements are fetched patch by patch; the patches must be among those of the other object and the types must agree. -/
def fromOther [DecidableEq κ] (T T' : ℕ → κ) (P P' : List ℕ) (l' : List (κ × V)) : Option (List (κ × V)) :=
  if (∀ p ∈ P, p ∈ P') ∧ P.map T = P.map T' then gather T T' l' P else none

/-- `MultipatchField(MultipatchObj& other)` (src/multipatch/data_types/multipatch_field.hpp 101-122): each element is converted
from the element of the other object on the same patch. `conv` says which conversions between element types exist. -/
def fieldFromOther [DecidableEq κ] (conv : κ → κ → Bool) (T T' : ℕ → κ) (P : List ℕ) (l' : List (κ × V)) :
    Option (List (κ × V)) :=
  if ∀ p ∈ P, conv (T' p) (T p) = true then gather T T' l' P else none

/-- `idx_range()`, `get_field()`, `get_const_field()` (src/multipatch/data_types/multipatch_field.hpp 162-199,
multipatch_field_mem.hpp 163-200): a new container over the same patches made of the images of the elements. -/
def mapPatches [DecidableEq κ] (T U : ℕ → κ) (f : V → W) (l : List (κ × V)) : List ℕ → Option (List (κ × W))
  | [] => some []
  | p :: ps =>
    match mpGet T l p, mapPatches T U f l ps with
    | some x, some r => some ((U p, f x) :: r)
    | _, _ => none

/-- `MultipatchFieldMem(label, MultipatchObj& other)` (src/multipatch/data_types/multipatch_field_mem.hpp 100-105): one
allocation per patch on the index range found in the other object. -/
def fieldMem [DecidableEq κ] {δ α : Type} (T T' : ℕ → κ) (l' : List (κ × List (δ × ℤ × ℕ))) :
    List ℕ → Heap α → Option (Heap α × List (κ × Fld δ))
  | [], h => some (h, [])
  | p :: ps, h =>
    match mpGet T' l' p with
    | none => none
    | some dom =>
      let (h1, f) := alloc h dom
      match fieldMem T T' l' ps h1 with
      | some (h2, r) => some (h2, (T p, f) :: r)
      | none => none

/-- The types of the arguments given to `base_type(label, args...)` by `MultipatchFieldMem(label, T<Patches>... args)`
(src/multipatch/data_types/multipatch_field_mem.hpp 81-84). -/
def owningArgs (string : κ) (T : ℕ → κ) (patches : List ℕ) : List κ := string :: patches.map T

/-- Does a constructor of `MultipatchType<T, Patches...>` taking several arguments accept these types?  The only one is
`MultipatchType(T<Patches>... args)` (src/multipatch/data_types/multipatch_type.hpp 63); the others (55, 83, 101) take one. -/
def baseAccepts [DecidableEq κ] (T : ℕ → κ) (patches : List ℕ) (args : List κ) : Bool := args = patches.map T

/-- `ddcHelper::deepcopy(MultipatchField dst, MultipatchField src)` (src/multipatch/data_types/multipatch_field.hpp 229-237): the
field of each patch is copied into the field of the same patch. -/
def mpDeepcopy [DecidableEq κ] {δ α : Type} (T1 T2 : ℕ → κ) (dst src : List (κ × Fld δ)) :
    List ℕ → Heap α → Option (Heap α)
  | [], h => some h
  | p :: ps, h =>
    match mpGet T1 dst p, mpGet T2 src p with
    | some d, some s => mpDeepcopy T1 T2 dst src ps (copyField h d s)
    | _, _ => none

/-! ## Spline builders -/

/-- The boundary condition of the builder at an edge
(src/multipatch/spline/multipatch_spline_builder.hpp 78-91, multipatch_spline_builder_2d.hpp 115-137): the outer condition if
the matching edge is `OutsideEdge`, the transition condition otherwise; a compilation error if the edge is in no interface. -/
def edgeBc {BC : Type} (ifs : List Iface) (bcOut bcTransition : BC) (e : Edge) : Option BC :=
  match equivalentEdge ifs e with
  | none => none
  | some none => some bcOut
  | some (some _) => some bcTransition

/-- The type of the builder on a patch: grid, spline basis, lower and upper boundary condition. Used in the model of `src/multipatch/spline/multipatch_spline_builder.hpp:75-97`. -/
structure BuilderTy (BC : Type) where
  bspl : ℕ
  grid : ℕ
  lower : BC
  upper : BC
  deriving DecidableEq

/-- `BuilderOnPatch<Patch>` (src/multipatch/spline/multipatch_spline_builder.hpp 75-97). -/
def builderTy {BC : Type} (ifs : List Iface) (bspl grid : ℕ → ℕ) (bcL bcU bcT : BC) (p : ℕ) : Option (BuilderTy BC) :=
  match edgeBc ifs bcL bcT ⟨p, grid p, .front⟩, edgeBc ifs bcU bcT ⟨p, grid p, .back⟩ with
  | some l, some u => some ⟨bspl p, grid p, l, u⟩
  | _, _ => none

/-- The type of the two-dimensional builder on a patch. Used in the model of `src/multipatch/spline/multipatch_spline_builder_2d.hpp:112-143`. -/
structure Builder2Ty (BC : Type) where
  bspl1 : ℕ
  bspl2 : ℕ
  grid1 : ℕ
  grid2 : ℕ
  lower1 : BC
  upper1 : BC
  lower2 : BC
  upper2 : BC
  deriving DecidableEq

/-- `BuilderOnPatch<Patch>` (src/multipatch/spline/multipatch_spline_builder_2d.hpp 112-143). -/
def builder2Ty {BC : Type} (ifs : List Iface) (bspl1 bspl2 grid1 grid2 : ℕ → ℕ) (bcL1 bcU1 bcL2 bcU2 bcT : BC) (p : ℕ) :
    Option (Builder2Ty BC) :=
  match edgeBc ifs bcL1 bcT ⟨p, grid1 p, .front⟩, edgeBc ifs bcU1 bcT ⟨p, grid1 p, .back⟩,
    edgeBc ifs bcL2 bcT ⟨p, grid2 p, .front⟩, edgeBc ifs bcU2 bcT ⟨p, grid2 p, .back⟩ with
  | some a, some b, some c, some d => some ⟨bspl1 p, bspl2 p, grid1 p, grid2 p, a, b, c, d⟩
  | _, _, _, _ => none

/-- `get_deriv_value<Patch>(derivs)` (src/multipatch/spline/multipatch_spline_builder.hpp 129-138, multipatch_spline_builder_2d.hpp
193-202): outer `none` is a compilation error, inner `none` is `std::nullopt`. -/
def derivValue [DecidableEq κ] (T : ℕ → κ) (derivs : Option (List (κ × V))) (p : ℕ) : Option (Option V) :=
  match derivs with
  | none => some none
  | some l => (mpGet T l p).map some

/-- One call of a builder: which builder, coefficients, values and the optional derivatives in the order of the arguments. Used in the model of `src/multipatch/spline/multipatch_spline_builder.hpp:164-176`. -/
structure Call (V : Type) where
  builder : V
  splines : V
  values : V
  derivs : List (Option V)

/-- The list of `get_deriv_value` of one patch, in the order of the arguments of the builder. Used in the model of `src/multipatch/spline/multipatch_spline_builder.hpp:164-176`. -/
def derivValues [DecidableEq κ] (p : ℕ) : List ((ℕ → κ) × Option (List (κ × V))) → Option (List (Option V))
  | [] => some []
  | (T, d) :: ds =>
    match derivValue T d p, derivValues p ds with
    | some x, some r => some (x :: r)
    | _, _ => none

/-- `MultipatchSplineBuilder::operator()` (src/multipatch/spline/multipatch_spline_builder.hpp 164-176) and
`MultipatchSplineBuilder2D::operator()` (multipatch_spline_builder_2d.hpp 247-271): patch after patch, the builder found by its type
is called with the coefficients, the values and the derivatives of the patch. `derivs` lists the optional multipatch derivatives in
the order of the arguments: `derivs_xmin, derivs_xmax` in one dimension; `derivs_min1, derivs_max1, derivs_min2, derivs_max2,
mixed_derivs_min1_min2, mixed_derivs_max1_min2, mixed_derivs_min1_max2, mixed_derivs_max1_max2` in two. -/
def buildAll {β : Type} [DecidableEq β] [DecidableEq κ] (B : ℕ → β) (builders : List (β × V))
    (TS TV : ℕ → κ) (splines values : List (κ × V)) (derivs : List ((ℕ → κ) × Option (List (κ × V)))) :
    List ℕ → Option (List (Call V))
  | [] => some []
  | p :: ps =>
    match stdGet builders (B p), mpGet TS splines p, mpGet TV values p, derivValues p derivs,
      buildAll B builders TS TV splines values derivs ps with
    | some b, some s, some v, some d, some r => some (⟨b, s, v, d⟩ :: r)
    | _, _, _, _, _ => none

/-! ## Collection of interface derivative calculators -/

/-- `SingleInterfaceDerivativesCalculatorCollection` (…/single_interface_derivatives_calculator_collection.hpp 32-54): the
calculators with the types `SingleInterfaceDerivativesCalculator<Interface>`, in order.  A calculator carries the interface it is
associated with (`associated_interface`, deduction guide 82-85). -/
def collection (calcs : List (Iface × V)) : List (Iface × V) := calcs

/-- `get<Interface>()` (…/single_interface_derivatives_calculator_collection.hpp 68-77): static assertion, then by type. -/
def collGet (c : List (Iface × V)) (I : Iface) : Option V :=
  if I ∈ c.map Prod.fst then stdGet c I else none

end Verif.MultipatchData
