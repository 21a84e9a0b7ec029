/-! Model of `src/multipatch/connectivity/{patch,edge,interface,connectivity,connectivity_details}.hpp`.

The C++ is a template metaprogram over type sequences; types are modelled by natural number labels, type sequences by lists,
and a compilation error by `none`. -/

namespace Verif.Connectivity

/-- `enum Extremity` (edge.hpp:1-22). -/
inductive Ext | front | back
  deriving DecidableEq, Repr

/-- `Edge<Patch, Grid1D, extremity>` (edge.hpp:23-37): `grid` is the perpendicular grid. -/
structure Edge where
  patch : Nat
  grid : Nat
  ext : Ext
  deriving DecidableEq, Repr

/-- `SwapExtremity` (connectivity_details.hpp:257-274). -/
def Edge.swap (e : Edge) : Edge :=
  { e with ext := match e.ext with | .front => .back | .back => .front }

/-- `Interface<Edge1, Edge2, orientations_agree>` (interface.hpp:19-45); `none` is `OutsideEdge` (edge.hpp:46). -/
structure Iface where
  edge1 : Option Edge
  edge2 : Option Edge
  agree : Bool
  deriving DecidableEq, Repr

/-- `Interface::OtherEdge` (interface.hpp:35-38). -/
def Iface.other (I : Iface) (e : Option Edge) : Option Edge := if e = I.edge1 then I.edge2 else I.edge1

/-- `Interface::connected_to_patch` (interface.hpp:52-63). -/
def Iface.connectedTo (I : Iface) (p : Nat) : Bool :=
  match I.edge1, I.edge2 with
  | none, none => false
  | none, some e2 => e2.patch == p
  | some e1, none => e1.patch == p
  | some e1, some e2 => e1.patch == p || e2.patch == p

/-- `ddc::type_seq_merge_t` (DDC): the elements of the second sequence not yet present are appended in order. Used in the model of `connectivity_details.hpp:19-50`. -/
def merge {α : Type} [DecidableEq α] (a b : List α) : List α :=
  b.foldl (fun acc x => if x ∈ acc then acc else acc ++ [x]) a

/-- `PatchConnection` (connectivity_details.hpp:19-50). -/
def patchConnection (p : Nat) : List Iface → List Iface
  | [] => []
  | [I] => if I.connectedTo p then [I] else []
  | I :: J :: rest => merge (if I.connectedTo p then [I] else []) (patchConnection p (J :: rest))

/-- `StripOutsideEdges` (connectivity_details.hpp:57-79). The C++ has no specialisation for the empty sequence. -/
def stripOutside : List (Option Edge) → List Edge
  | [] => []
  | [e] => e.toList
  | e :: f :: rest => merge e.toList (stripOutside (f :: rest))

/-- `ExtractPatches` (connectivity_details.hpp:100-119). -/
def extractPatches : List Edge → List Nat
  | [] => []
  | e :: rest => merge [e.patch] (extractPatches rest)

/-- `MultipatchConnectivity::inner_edges` (connectivity.hpp:23-25). -/
def innerEdges (ifs : List Iface) : List Edge := stripOutside (ifs.map Iface.edge1 ++ ifs.map Iface.edge2)

/-- `MultipatchConnectivity::all_patches` (connectivity.hpp:28). -/
def allPatches (ifs : List Iface) : List Nat := extractPatches (innerEdges ifs)

/-- The static assertion of `MultipatchConnectivity` (connectivity.hpp:30-32). -/
def edgesComplete (ifs : List Iface) : Bool := (innerEdges ifs).length == 4 * (allPatches ifs).length

/-- `find_connections_t` (connectivity.hpp:56-59): the intersection of the two connection sequences. -/
def findConnections (p q : Nat) (ifs : List Iface) : List Iface :=
  (patchConnection p ifs).filter (fun I => I ∈ patchConnection q ifs)

/-- `FindInterface` (connectivity_details.hpp:180-222): the first interface one of whose edges is `e`. -/
def findInterface (e : Edge) : List Iface → Option Iface
  | [] => none
  | I :: rest => if I.edge1 = some e ∨ I.edge2 = some e then some I else findInterface e rest

/-- `equivalent_edge_t` (connectivity_details.hpp:284-286). -/
def equivalentEdge (ifs : List Iface) (e : Edge) : Option (Option Edge) :=
  (findInterface e ifs).map (fun I => I.other (some e))

/-- `EnforceFirstInterfaceEdge` (connectivity_details.hpp:229-251). -/
def enforceFirst (I : Iface) (first : Option Edge) : Option Iface :=
  if I.edge1 = first then some I
  else if I.edge2 = first then some ⟨first, I.edge1, I.agree⟩
  else none

/-- `InsertPosition` and `AddToTypeSeq` (connectivity_details.hpp:292-317). -/
inductive Pos | frontInsert | backInsert

/-- `AddToTypeSeq` (connectivity_details.hpp:300-317). -/
def addToSeq {α : Type} [DecidableEq α] (x : α) (l : List α) : Pos → List α
  | .frontInsert => merge l [x]
  | .backInsert => merge [x] l

/-- Common recursion of `CollectInterfacesAlongDim` (connectivity_details.hpp:329-409) and `CollectGridsAlongDim`
(connectivity_details.hpp:421-479). They differ in what is recorded for the edge `start`: `key start`. `fuel` bounds the
template recursion depth (out of fuel and missing interfaces are compilation errors). -/
def collectAlong {α : Type} [DecidableEq α] (key : Edge → Option α) (ifs : List Iface) (pos : Pos) :
    Nat → Edge → List α → Option (List α)
  | 0, _, _ => none
  | fuel + 1, start, found =>
    match equivalentEdge ifs start, key start with
    | some matching, some k =>
      if k ∈ found then some found
      else
        let new := addToSeq k found pos
        match matching with
        | none => some new
        | some e => collectAlong key ifs pos fuel e.swap new
    | _, _ => none

/-- What `CollectGridsAlongDim` records: `StartEdge::perpendicular_grid` (connectivity_details.hpp:447-449). -/
def gridKey (e : Edge) : Option Nat := some e.grid

/-- What `CollectInterfacesAlongDim` records (connectivity_details.hpp:335-340, 359-364): the interface of the edge,
written with the first edge chosen according to the extremity of the edge. -/
def ifaceKey (ifs : List Iface) (e : Edge) : Option Iface :=
  match findInterface e ifs with
  | none => none
  | some I => enforceFirst I (match e.ext with | .front => I.other (some e) | .back => some e)

/-- `CollectAllGridsOnDim` (connectivity_details.hpp:489-518). -/
def collectGridsOnDim (ifs : List Iface) (fuel : Nat) (patch grid : Nat) : Option (List Nat) :=
  match collectAlong gridKey ifs .backInsert fuel ⟨patch, grid, .front⟩ [] with
  | none => none
  | some backward =>
    match collectAlong gridKey ifs .frontInsert fuel ⟨patch, grid, .back⟩ (backward.take (backward.length - 1)) with
    | none => none
    | some forward => some (merge backward forward)

/-- `CollectAllInterfacesOnDim` (connectivity_details.hpp:528-551). -/
def collectInterfacesOnDim (ifs : List Iface) (fuel : Nat) (patch grid : Nat) : Option (List Iface) :=
  match collectAlong (ifaceKey ifs) ifs .backInsert fuel ⟨patch, grid, .front⟩ [] with
  | none => none
  | some backward =>
    match collectAlong (ifaceKey ifs) ifs .frontInsert fuel ⟨patch, grid, .back⟩ backward with
    | none => none
    | some forward => some (merge backward forward)

/-- `FindPatch` (connectivity_details.hpp:126-173): patches are given as `(label, grid1, grid2)`. -/
def findPatch (g : Nat) : List (Nat × Nat × Nat) → Option (Nat × Nat × Nat)
  | [] => none
  | P :: rest => if P.2.1 = g ∨ P.2.2 = g then some P else findPatch g rest

end Verif.Connectivity
