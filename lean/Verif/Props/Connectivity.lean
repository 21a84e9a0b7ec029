import Verif.Model.Connectivity
import Mathlib.Data.List.Nodup
import Mathlib.Data.List.Chain
import Mathlib.Data.List.Dedup
import Mathlib.Data.Finset.Card
import Mathlib.Data.Finset.Dedup
import Mathlib.Algebra.Order.BigOperators.Group.Finset

/-! Property C12: multipatch connectivity queries. -/

namespace Verif.Connectivity

/-! ### Specification: the graph described by a collection of interfaces -/

/-- The edge belongs to the collection of interfaces. -/
def HasEdge (ifs : List Iface) (e : Edge) : Prop := ∃ I ∈ ifs, I.edge1 = some e ∨ I.edge2 = some e

/-- The two edges are glued by an interface of the collection. -/
def Joined (ifs : List Iface) (e e' : Edge) : Prop :=
  ∃ I ∈ ifs, (I.edge1 = some e ∧ I.edge2 = some e') ∨ (I.edge1 = some e' ∧ I.edge2 = some e)

/-- A well-formed collection: no edge is in two interfaces, the two sides of an interface are different, the opposite edge of
an edge is in the collection, a grid belongs to one patch. -/
structure WF (ifs : List Iface) : Prop where
  uniq : ∀ I ∈ ifs, ∀ J ∈ ifs, ∀ e, (I.edge1 = some e ∨ I.edge2 = some e) → (J.edge1 = some e ∨ J.edge2 = some e) → I = J
  distinct : ∀ I ∈ ifs, I.edge1 ≠ I.edge2
  complete : ∀ e, HasEdge ifs e → HasEdge ifs e.swap
  gridPatch : ∀ e e', HasEdge ifs e → HasEdge ifs e' → e.grid = e'.grid → e.patch = e'.patch

/-! ### Small lemmas -/

@[simp] theorem swap_swap (e : Edge) : e.swap.swap = e := by
  cases e with | mk p g x => cases x <;> rfl
@[simp] theorem swap_grid (e : Edge) : e.swap.grid = e.grid := rfl
@[simp] theorem swap_patch (e : Edge) : e.swap.patch = e.patch := rfl

theorem Joined.symm {ifs : List Iface} {e e' : Edge} (h : Joined ifs e e') : Joined ifs e' e := by
  obtain ⟨I, hI, h⟩ := h; exact ⟨I, hI, h.symm⟩

theorem Joined.left {ifs : List Iface} {e e' : Edge} (h : Joined ifs e e') : HasEdge ifs e := by
  obtain ⟨I, hI, h⟩ := h
  rcases h with h | h
  · exact ⟨I, hI, Or.inl h.1⟩
  · exact ⟨I, hI, Or.inr h.2⟩

theorem merge_subset {α : Type} [DecidableEq α] (a b : List α) (h : ∀ x ∈ b, x ∈ a) : merge a b = a := by
  unfold merge
  induction b with
  | nil => rfl
  | cons x b ih =>
    rw [List.foldl_cons, if_pos (h x (by simp))]
    exact ih (fun y hy => h y (by simp [hy]))

theorem merge_disjoint {α : Type} [DecidableEq α] (a b : List α) (h : (a ++ b).Nodup) : merge a b = a ++ b := by
  unfold merge
  induction b generalizing a with
  | nil => simp
  | cons x b ih =>
    have hx : x ∉ a := by
      intro hx
      exact (List.disjoint_of_nodup_append h) hx (by simp)
    rw [List.foldl_cons, if_neg hx, ih (a ++ [x]) (by simpa using h)]
    simp

theorem merge_append {α : Type} [DecidableEq α] (a b c : List α) : merge a (b ++ c) = merge (merge a b) c := by
  unfold merge; rw [List.foldl_append]

theorem mem_merge {α : Type} [DecidableEq α] (a b : List α) (x : α) : x ∈ merge a b ↔ x ∈ a ∨ x ∈ b := by
  unfold merge
  induction b generalizing a with
  | nil => simp
  | cons y b ih =>
    rw [List.foldl_cons, ih]
    by_cases hy : y ∈ a
    · rw [if_pos hy]
      simp only [List.mem_cons]
      constructor
      · rintro (h | h) <;> simp [h]
      · rintro (h | rfl | h)
        · exact Or.inl h
        · exact Or.inl hy
        · exact Or.inr h
    · rw [if_neg hy]
      simp only [List.mem_append, List.mem_cons, List.not_mem_nil, or_false]
      tauto

theorem nodup_merge {α : Type} [DecidableEq α] (a b : List α) (h : a.Nodup) : (merge a b).Nodup := by
  unfold merge
  induction b generalizing a with
  | nil => simpa using h
  | cons y b ih =>
    rw [List.foldl_cons]
    apply ih
    by_cases hy : y ∈ a
    · rw [if_pos hy]; exact h
    · rw [if_neg hy]
      rw [List.nodup_append]
      refine ⟨h, by simp, ?_⟩
      intro x hx z hz
      simp at hz; subst hz
      intro hxz; subst hxz; exact hy hx

theorem findInterface_some (e : Edge) (ifs : List Iface) (I : Iface) (h : findInterface e ifs = some I) :
    I ∈ ifs ∧ (I.edge1 = some e ∨ I.edge2 = some e) := by
  induction ifs with
  | nil => cases h
  | cons J rest ih =>
    unfold findInterface at h
    split at h
    · rename_i hJ; cases h; exact ⟨by simp, hJ⟩
    · obtain ⟨a, b⟩ := ih h; exact ⟨by simp [a], b⟩

theorem findInterface_of_hasEdge (e : Edge) (ifs : List Iface) (h : HasEdge ifs e) :
    ∃ I, findInterface e ifs = some I := by
  induction ifs with
  | nil => obtain ⟨I, hI, _⟩ := h; cases hI
  | cons J rest ih =>
    unfold findInterface
    by_cases hJ : J.edge1 = some e ∨ J.edge2 = some e
    · exact ⟨J, if_pos hJ⟩
    · rw [if_neg hJ]
      apply ih
      obtain ⟨I, hI, h2⟩ := h
      rcases List.mem_cons.1 hI with rfl | hI
      · exact absurd h2 hJ
      · exact ⟨I, hI, h2⟩

theorem findInterface_eq {ifs : List Iface} (wf : WF ifs) {I : Iface} (hI : I ∈ ifs) {e : Edge}
    (h : I.edge1 = some e ∨ I.edge2 = some e) : findInterface e ifs = some I := by
  obtain ⟨J, hJ⟩ := findInterface_of_hasEdge e ifs ⟨I, hI, h⟩
  obtain ⟨h1, h2⟩ := findInterface_some e ifs J hJ
  rw [hJ, wf.uniq J h1 I hI e h2 h]

theorem equivalentEdge_some {ifs : List Iface} {e e' : Edge} (h : equivalentEdge ifs e = some (some e')) :
    Joined ifs e e' := by
  unfold equivalentEdge at h
  cases hf : findInterface e ifs with
  | none => rw [hf] at h; cases h
  | some I =>
    obtain ⟨h1, h2⟩ := findInterface_some e ifs I hf
    rw [hf] at h
    simp only [Option.map_some, Option.some.injEq] at h
    unfold Iface.other at h
    split at h
    · rename_i h3; exact ⟨I, h1, Or.inl ⟨h3.symm, h⟩⟩
    · rename_i h3
      rcases h2 with h2 | h2
      · exact absurd h2.symm h3
      · exact ⟨I, h1, Or.inr ⟨h, h2⟩⟩

/-- Under well-formedness the partner of an edge is unique. -/
theorem Joined.unique {ifs : List Iface} (wf : WF ifs) {e a : Edge} {x : Option Edge} (h : Joined ifs e a)
    (hx : equivalentEdge ifs e = some x) : x = some a := by
  obtain ⟨I, hI, h⟩ := h
  have hd := wf.distinct I hI
  have hf : findInterface e ifs = some I :=
    findInterface_eq wf hI (by rcases h with h | h; exact Or.inl h.1; exact Or.inr h.2)
  unfold equivalentEdge at hx
  rw [hf] at hx
  simp only [Option.map_some, Option.some.injEq] at hx
  unfold Iface.other at hx
  rcases h with ⟨h1, h2⟩ | ⟨h1, h2⟩
  · rw [if_pos h1.symm] at hx; rw [← hx, h2]
  · rw [if_neg] at hx
    · rw [← hx, h1]
    · rw [← h2]; exact fun h => hd h.symm

/-! ### The walk performed by the recursion -/

/-- `Walk ifs e ws fin`: starting from the edge `e`, crossing interfaces and patches visits the edges `ws`; it then stopped in front
of the edge `f` (`fin = some f`) or because the last edge is on the outside (`fin = none`). -/
inductive Walk (ifs : List Iface) : Edge → List Edge → Option Edge → Prop
  | stop (e : Edge) : Walk ifs e [] (some e)
  | out (e : Edge) (h : equivalentEdge ifs e = some none) : Walk ifs e [e] none
  | step (e e' : Edge) (ws : List Edge) (f : Option Edge) (h : Joined ifs e e') (w : Walk ifs e'.swap ws f) :
      Walk ifs e (e :: ws) f

theorem collectAlong_spec {α : Type} [DecidableEq α] (key : Edge → Option α) (kf : Edge → α) (ifs : List Iface)
    (wf : WF ifs) (U : List α) (hkey : ∀ e, HasEdge ifs e → key e = some (kf e) ∧ kf e ∈ U) (pos : Pos) (fuel : Nat) :
    ∀ (e : Edge) (found : List α), HasEdge ifs e → found.Nodup → (∀ x ∈ found, x ∈ U) →
      U.length < fuel + found.length →
    ∃ ws fin R, collectAlong key ifs pos fuel e found = some R ∧ Walk ifs e ws fin ∧
      R = (match pos with | .frontInsert => found ++ ws.map kf | .backInsert => (ws.map kf).reverse ++ found) ∧
      R.Nodup ∧ (∀ x ∈ R, x ∈ U) ∧ (∀ w ∈ ws, HasEdge ifs w) ∧ (∀ f, fin = some f → HasEdge ifs f ∧ kf f ∈ R) := by
  induction fuel with
  | zero =>
    intro e found _ hn hU hlen
    exfalso
    have : found.length ≤ U.length := by
      have h1 := List.toFinset_card_of_nodup hn
      have h2 : found.toFinset ⊆ U.toFinset := fun x hx => List.mem_toFinset.2 (hU x (List.mem_toFinset.1 hx))
      have h3 := Finset.card_le_card h2
      have h4 := List.toFinset_card_le U
      omega
    omega
  | succ fuel ih =>
    intro e found he hn hU hlen
    obtain ⟨I, hI⟩ := findInterface_of_hasEdge e ifs he
    have hm : equivalentEdge ifs e = some (I.other (some e)) := by unfold equivalentEdge; rw [hI]; rfl
    obtain ⟨hk, hkU⟩ := hkey e he
    unfold collectAlong
    rw [hm, hk]
    simp only
    by_cases hf : kf e ∈ found
    · refine ⟨[], some e, found, by rw [if_pos hf], Walk.stop e, by cases pos <;> simp, hn, hU, by simp, ?_⟩
      intro f hff; cases hff; exact ⟨he, hf⟩
    · rw [if_neg hf]
      have hnew : addToSeq (kf e) found pos =
          (match pos with | .frontInsert => found ++ [kf e] | .backInsert => kf e :: found) := by
        cases pos
        · simp only [addToSeq]
          apply merge_disjoint
          rw [List.nodup_append]
          refine ⟨hn, by simp, ?_⟩
          intro x hx z hz hxz
          simp at hz; subst hz; subst hxz; exact hf hx
        · simp only [addToSeq]
          exact merge_disjoint [kf e] found (List.nodup_cons.2 ⟨hf, hn⟩)
      have hnd : (addToSeq (kf e) found pos).Nodup := by
        rw [hnew]
        cases pos
        · simp only
          rw [List.nodup_append]
          refine ⟨hn, by simp, ?_⟩
          intro x hx z hz hxz
          simp at hz; subst hz; subst hxz; exact hf hx
        · exact List.nodup_cons.2 ⟨hf, hn⟩
      have hnU : ∀ x ∈ addToSeq (kf e) found pos, x ∈ U := by
        rw [hnew]
        intro x hx
        cases pos
        · simp only [List.mem_append, List.mem_singleton] at hx
          rcases hx with hx | rfl
          · exact hU x hx
          · exact hkU
        · rcases List.mem_cons.1 hx with rfl | hx
          · exact hkU
          · exact hU x hx
      have hnlen : (addToSeq (kf e) found pos).length = found.length + 1 := by
        rw [hnew]; cases pos <;> simp
      cases hother : I.other (some e) with
      | none =>
        refine ⟨[e], none, _, rfl, Walk.out e (by rw [hm, hother]), ?_, hnd, hnU, ?_, by intro f hff; cases hff⟩
        · rw [hnew]; cases pos <;> simp
        · intro w hw; simp at hw; rw [hw]; exact he
      | some e' =>
        have hj : Joined ifs e e' := equivalentEdge_some (by rw [hm, hother])
        have he' : HasEdge ifs e'.swap := wf.complete _ hj.symm.left
        obtain ⟨ws, fin, R, h1, h2, h3, h4, h5, h6, h7⟩ := ih e'.swap (addToSeq (kf e) found pos) he' hnd hnU (by omega)
        refine ⟨e :: ws, fin, R, h1, Walk.step e e' ws fin hj h2, ?_, h4, h5, ?_, h7⟩
        · rw [h3, hnew]; cases pos <;> simp
        · intro w hw
          rcases List.mem_cons.1 hw with rfl | hw
          · exact he
          · exact h6 w hw

/-- Successive edges of a walk in the forward direction: the interface of `d` leads to the patch that is left by `d'`. -/
def Next (ifs : List Iface) (d d' : Edge) : Prop := Joined ifs d d'.swap

theorem Walk.chain {ifs : List Iface} {e : Edge} {ws : List Edge} {fin : Option Edge} (w : Walk ifs e ws fin) :
    List.IsChain (Next ifs) (ws ++ fin.toList) ∧ (ws ++ fin.toList).head? = some e := by
  induction w with
  | stop e => simp
  | out e h => simp
  | step e e' ws f h w ih =>
    obtain ⟨h1, h2⟩ := ih
    refine ⟨?_, by simp⟩
    cases hc : ws ++ f.toList with
    | nil => rw [hc] at h2; simp at h2
    | cons a l =>
      rw [hc] at h1 h2
      simp at h2
      rw [List.cons_append, hc]
      refine List.isChain_cons_cons.2 ⟨?_, h1⟩
      unfold Next
      rw [h2]; simpa using h

theorem Walk.out_last {ifs : List Iface} {e : Edge} {ws : List Edge} (w : Walk ifs e ws none) :
    ∃ l, ws.getLast? = some l ∧ equivalentEdge ifs l = some none := by
  generalize hf : (none : Option Edge) = fin at w
  induction w with
  | stop e => cases hf
  | out e h => exact ⟨e, by simp, h⟩
  | step e e' ws f h w ih =>
    obtain ⟨l, h1, h2⟩ := ih hf
    refine ⟨l, ?_, h2⟩
    cases ws with
    | nil => simp at h1
    | cons a t => rw [List.getLast?_cons_cons]; exact h1

/-- In a walk, the edge glued to a visited edge leads to the next visited edge, to the final one or outside. -/
theorem Walk.next_mem {ifs : List Iface} (wf : WF ifs) {e : Edge} {ws : List Edge} {fin : Option Edge} (w : Walk ifs e ws fin)
    {d a : Edge} (hd : d ∈ ws) (hj : Joined ifs d a) : a.swap ∈ ws ∨ fin = some a.swap := by
  induction w with
  | stop e => cases hd
  | out e h =>
    simp at hd; subst hd
    have := Joined.unique wf hj h
    cases this
  | step e e' ws f h w ih =>
    rcases List.mem_cons.1 hd with rfl | hd
    · have hf : a = e' := by
        have := findInterface_of_hasEdge d ifs hj.left
        obtain ⟨I, hI⟩ := this
        have hm : equivalentEdge ifs d = some (I.other (some d)) := by unfold equivalentEdge; rw [hI]; rfl
        have e1 := Joined.unique wf hj hm
        have e2 := Joined.unique wf h hm
        rw [e1] at e2; exact Option.some.inj e2
      subst hf
      cases w with
      | stop => right; rfl
      | out => left; simp
      | step => left; simp
    · rcases ih hd with h1 | h1
      · left; exact List.mem_cons_of_mem _ h1
      · right; exact h1

theorem chain_reverse_swap {ifs : List Iface} (ws : List Edge) (h : List.IsChain (Next ifs) ws) :
    List.IsChain (Next ifs) ((ws.map Edge.swap).reverse) := by
  rw [List.isChain_reverse, List.isChain_map]
  refine List.IsChain.imp ?_ h
  intro a b hab
  simp only [Next, flip, swap_swap] at *
  exact hab.symm

/-- C12: following a dimension in both directions. For every well-formed collection of interfaces and every starting
edge of the collection, with enough recursion depth, the collected grids are: without repetition; listed in the order in which a
forward walk (leaving through the edges `ds`) crosses the patches, the starting patch being left by its back edge; and
closed under crossing an interface (so that they are all the grids that can be reached along the dimension). -/
theorem c12_grids (ifs : List Iface) (wf : WF ifs) (patch grid fuel : Nat)
    (hstart : HasEdge ifs ⟨patch, grid, .front⟩) (hfuel : 2 * ifs.length < fuel) :
    ∃ (L : List Nat) (ds : List Edge), collectGridsOnDim ifs fuel patch grid = some L ∧ L.Nodup ∧
      L = ds.map Edge.grid ∧ List.IsChain (fun d d' => Joined ifs d d'.swap) ds ∧ ⟨patch, grid, .back⟩ ∈ ds ∧
      (∀ g ∈ L, ∀ e e', e.grid = g → Joined ifs e e' → e'.grid ∈ L) := by
  -- all grids of the collection
  let U : List Nat := (ifs.flatMap (fun I => I.edge1.toList ++ I.edge2.toList)).map Edge.grid
  have hU : U.length ≤ 2 * ifs.length := by
    simp only [U, List.length_map, List.length_flatMap]
    clear hfuel hstart wf U
    induction ifs with
    | nil => simp
    | cons I rest ih =>
      simp only [List.map_cons, List.sum_cons, List.length_append, List.length_cons]
      have h1 : I.edge1.toList.length ≤ 1 := by cases I.edge1 <;> simp
      have h2 : I.edge2.toList.length ≤ 1 := by cases I.edge2 <;> simp
      simp only [List.length_append] at ih
      omega
  have hkey : ∀ e, HasEdge ifs e → gridKey e = some e.grid ∧ e.grid ∈ U := by
    intro e he
    refine ⟨rfl, ?_⟩
    obtain ⟨I, hI, h⟩ := he
    apply List.mem_map_of_mem
    apply List.mem_flatMap.2
    refine ⟨I, hI, ?_⟩
    rcases h with h | h <;> simp [h]
  have hback : HasEdge ifs ⟨patch, grid, .back⟩ := wf.complete _ hstart
  obtain ⟨wb, fb, B, hB, hwb, hBe, hBn, hBU, hwbE, hfb⟩ :=
    collectAlong_spec gridKey Edge.grid ifs wf U hkey .backInsert fuel ⟨patch, grid, .front⟩ [] hstart (by simp) (by simp)
      (by simp; omega)
  simp only [List.append_nil] at hBe
  -- the backward walk starts with the start edge
  obtain ⟨wb', hwb'⟩ : ∃ wb', wb = ⟨patch, grid, .front⟩ :: wb' := by
    cases hwb with
    | stop =>
      have := (hfb _ rfl).2
      rw [hBe] at this; simp at this
    | out => exact ⟨[], rfl⟩
    | step e e' ws f h w => exact ⟨ws, rfl⟩
  have hB' : B = (wb'.map Edge.grid).reverse ++ [grid] := by rw [hBe, hwb']; simp
  have htake : B.take (B.length - 1) = (wb'.map Edge.grid).reverse := by
    rw [hB']
    simp
  have hN : ((wb'.map Edge.grid).reverse).Nodup := by
    rw [hB'] at hBn; exact (List.nodup_append.1 hBn).1
  obtain ⟨wfw, ff, F, hF, hwf, hFe, hFn, hFU, hwfE, hff⟩ :=
    collectAlong_spec gridKey Edge.grid ifs wf U hkey .frontInsert fuel ⟨patch, grid, .back⟩ (B.take (B.length - 1)) hback
      (by rw [htake]; exact hN) (by intro x hx; exact hBU x (List.mem_of_mem_take hx)) (by omega)
  simp only at hFe
  rw [htake] at hFe
  have hgn : grid ∉ (wb'.map Edge.grid).reverse := by
    intro hg
    rw [hB'] at hBn
    exact (List.disjoint_of_nodup_append hBn) hg (by simp)
  obtain ⟨wf', hwf'⟩ : ∃ wf', wfw = ⟨patch, grid, .back⟩ :: wf' := by
    cases hwf with
    | stop =>
      have := (hff _ rfl).2
      rw [hFe] at this; simp at this
      exact absurd (by simpa using this) hgn
    | out => exact ⟨[], rfl⟩
    | step e e' ws f h w => exact ⟨ws, rfl⟩
  have hmerge : merge B F = F := by
    rw [hFe, hwf']
    rw [show (wb'.map Edge.grid).reverse ++ List.map Edge.grid (⟨patch, grid, .back⟩ :: wf') = B ++ wf'.map Edge.grid by
      rw [hB']; simp]
    rw [merge_append, merge_subset B B (fun x hx => hx)]
    apply merge_disjoint
    rw [hFe, hwf'] at hFn
    rw [hB']; simpa using hFn
  refine ⟨F, (wb'.map Edge.swap).reverse ++ wfw, ?_, hFn, ?_, ?_, ?_, ?_⟩
  · unfold collectGridsOnDim
    rw [hB]; simp only; rw [hF]; simp only; rw [hmerge]
  · rw [hFe]; simp [Function.comp_def]
  · -- chain
    have hcb := chain_reverse_swap _ (List.isChain_append.1 hwb.chain.1).1
    have hcf := (List.isChain_append.1 hwf.chain.1).1
    rw [hwb'] at hcb
    rw [hwf'] at hcf ⊢
    simp only [List.map_cons, List.reverse_cons] at hcb
    have hsw : (⟨patch, grid, .front⟩ : Edge).swap = ⟨patch, grid, .back⟩ := rfl
    rw [hsw] at hcb
    rw [List.isChain_append] at hcb ⊢
    refine ⟨hcb.1, hcf, ?_⟩
    intro x hx y hy
    exact hcb.2.2 x hx y (by simpa using hy)
  · rw [hwf']; simp
  · -- closed
    have hBF : ∀ x ∈ B, x ∈ F := by
      intro x hx; rw [← hmerge, mem_merge]; exact Or.inl hx
    have hmemB : ∀ w ∈ wb, w.grid ∈ F := fun w hw => hBF _ (by rw [hBe]; simp; exact ⟨w, hw, rfl⟩)
    have hmemF : ∀ w ∈ wfw, w.grid ∈ F := fun w hw => by rw [hFe]; simp; exact Or.inr ⟨w, hw, rfl⟩
    have closedB : ∀ d ∈ wb, ∀ a, Joined ifs d a → a.grid ∈ F := by
      intro d hd a hj
      rcases hwb.next_mem wf hd hj with h | h
      · simpa using hmemB _ h
      · simpa using hBF _ (hfb _ h).2
    have closedF : ∀ d ∈ wfw, ∀ a, Joined ifs d a → a.grid ∈ F := by
      intro d hd a hj
      rcases hwf.next_mem wf hd hj with h | h
      · simpa using hmemF _ h
      · simpa using (hff _ h).2
    -- the edges opposite to visited ones: their partner is the previous visited edge
    have prev : ∀ (s : Edge) (ws : List Edge) (fin : Option Edge), Walk ifs s ws fin → ∀ d ∈ ws, d ≠ s → ∀ a, Joined ifs d.swap a →
        a ∈ ws := by
      intro s ws fin w
      induction w with
      | stop e => intro d hd; cases hd
      | out e h => intro d hd hne; simp at hd; exact absurd hd hne
      | step e e' ws f h w ih =>
        intro d hd hne a hj
        rcases List.mem_cons.1 hd with rfl | hd
        · exact absurd rfl hne
        · by_cases hde : d = e'.swap
          · subst hde
            rw [swap_swap] at hj
            have : a = e := by
              obtain ⟨I, hI⟩ := findInterface_of_hasEdge e' ifs hj.left
              have hm : equivalentEdge ifs e' = some (I.other (some e')) := by unfold equivalentEdge; rw [hI]; rfl
              have e1 := Joined.unique wf hj hm
              have e2 := Joined.unique wf h.symm hm
              rw [e1] at e2; exact Option.some.inj e2
            rw [this]; simp
          · exact List.mem_cons_of_mem _ (ih d hd hde a hj)
    have closedBs : ∀ d ∈ wb, ∀ a, Joined ifs d.swap a → a.grid ∈ F := by
      intro d hd a hj
      by_cases hds : d = ⟨patch, grid, .front⟩
      · rw [hds] at hj
        exact closedF ⟨patch, grid, .back⟩ (by rw [hwf']; simp) a hj
      · exact hmemB _ (prev _ _ _ hwb d hd hds a hj)
    have closedFs : ∀ d ∈ wfw, ∀ a, Joined ifs d.swap a → a.grid ∈ F := by
      intro d hd a hj
      by_cases hds : d = ⟨patch, grid, .back⟩
      · rw [hds] at hj
        exact closedB ⟨patch, grid, .front⟩ (by rw [hwb']; simp) a hj
      · exact hmemF _ (prev _ _ _ hwf d hd hds a hj)
    intro g hg e e' heg hj
    -- find a visited edge with the same grid
    have : ∃ d, (d ∈ wb ∨ d ∈ wfw) ∧ d.grid = g := by
      rw [hFe] at hg
      simp only [List.mem_append, List.mem_reverse, List.mem_map] at hg
      rcases hg with ⟨d, hd, hdg⟩ | ⟨d, hd, hdg⟩
      · exact ⟨d, Or.inl (by rw [hwb']; exact List.mem_cons_of_mem _ hd), hdg⟩
      · exact ⟨d, Or.inr hd, hdg⟩
    obtain ⟨d, hd, hdg⟩ := this
    have hdE : HasEdge ifs d := by rcases hd with h | h; exact hwbE d h; exact hwfE d h
    have hp := wf.gridPatch d e hdE hj.left (by rw [hdg, heg])
    have hde : e = d ∨ e = d.swap := by
      cases e with | mk p1 g1 x1 => cases d with | mk p2 g2 x2 =>
        simp at hp hdg heg
        subst hp; subst hdg; subst heg
        cases x1 <;> cases x2 <;> simp [Edge.swap]
    rcases hde with rfl | rfl
    · rcases hd with h | h
      · exact closedB _ h _ hj
      · exact closedF _ h _ hj
    · rcases hd with h | h
      · exact closedBs _ h _ hj
      · exact closedFs _ h _ hj

/-- Instance: three patches in a row, with the edges of one dimension. Grids 10, 20, 30 are met in this order from any of them. -/
def row3 : List Iface :=
  [⟨none, some ⟨1, 10, .front⟩, true⟩, ⟨some ⟨2, 20, .front⟩, some ⟨1, 10, .back⟩, true⟩,
   ⟨some ⟨2, 20, .back⟩, some ⟨3, 30, .front⟩, true⟩, ⟨some ⟨3, 30, .back⟩, none, true⟩]

/-- Two patches forming a closed ring. -/
def ring2 : List Iface :=
  [⟨some ⟨1, 10, .back⟩, some ⟨2, 20, .front⟩, true⟩, ⟨some ⟨1, 10, .front⟩, some ⟨2, 20, .back⟩, true⟩]

instance (ifs : List Iface) (e : Edge) : Decidable (HasEdge ifs e) := by unfold HasEdge; infer_instance

/-- All the inner edges of a collection. -/
def edgesOf (ifs : List Iface) : List Edge := ifs.flatMap (fun I => I.edge1.toList ++ I.edge2.toList)

theorem hasEdge_iff (ifs : List Iface) (e : Edge) : HasEdge ifs e ↔ e ∈ edgesOf ifs := by
  unfold HasEdge edgesOf
  simp only [List.mem_flatMap, List.mem_append, Option.mem_toList, Option.mem_def]

/-- A decidable form of well-formedness. -/
theorem wf_of_check (ifs : List Iface)
    (h1 : ∀ I ∈ ifs, ∀ J ∈ ifs, ∀ e ∈ edgesOf ifs, (I.edge1 = some e ∨ I.edge2 = some e) → (J.edge1 = some e ∨ J.edge2 = some e) → I = J)
    (h2 : ∀ I ∈ ifs, I.edge1 ≠ I.edge2) (h3 : ∀ e ∈ edgesOf ifs, e.swap ∈ edgesOf ifs)
    (h4 : ∀ e ∈ edgesOf ifs, ∀ e' ∈ edgesOf ifs, e.grid = e'.grid → e.patch = e'.patch) : WF ifs where
  uniq := fun I hI J hJ e he he' => h1 I hI J hJ e ((hasEdge_iff ifs e).1 ⟨I, hI, he⟩) he he'
  distinct := h2
  complete := fun e he => (hasEdge_iff ifs _).2 (h3 e ((hasEdge_iff ifs e).1 he))
  gridPatch := fun e e' he he' => h4 e ((hasEdge_iff ifs e).1 he) e' ((hasEdge_iff ifs e').1 he')

example : WF row3 ∧ WF ring2 :=
  ⟨wf_of_check _ (by decide) (by decide) (by decide) (by decide), wf_of_check _ (by decide) (by decide) (by decide) (by decide)⟩

example : collectGridsOnDim row3 9 2 20 = some [10, 20, 30] ∧ collectGridsOnDim row3 9 3 30 = some [10, 20, 30] ∧
    collectGridsOnDim ring2 9 1 10 = some [20, 10] := by decide

/-! ### Interfaces -/

/-- The interface with its two sides exchanged. -/
def Iface.flip (I : Iface) : Iface := ⟨I.edge2, I.edge1, I.agree⟩

theorem ifaceKey_spec {ifs : List Iface} {e : Edge} (he : HasEdge ifs e) :
    ∃ I ∈ ifs, (I.edge1 = some e ∨ I.edge2 = some e) ∧ findInterface e ifs = some I ∧
      ∃ K, ifaceKey ifs e = some K ∧ (K = I ∨ K = I.flip) ∧
        (e.ext = .back → K.edge1 = some e) ∧ (e.ext = .front → I.edge1 ≠ I.edge2 → K.edge2 = some e) := by
  obtain ⟨I, hI⟩ := findInterface_of_hasEdge e ifs he
  obtain ⟨h1, h2⟩ := findInterface_some e ifs I hI
  refine ⟨I, h1, h2, hI, ?_⟩
  unfold ifaceKey
  rw [hI]
  simp only
  cases hx : e.ext with
  | front =>
    simp only
    unfold enforceFirst Iface.other
    by_cases h3 : some e = I.edge1
    · rw [if_pos h3]
      by_cases h4 : I.edge1 = I.edge2
      · exact ⟨I, by rw [if_pos h4], Or.inl rfl, by simp, fun _ h => absurd h4 h⟩
      · refine ⟨I.flip, ?_, Or.inr rfl, by simp, fun _ _ => by simp [Iface.flip, h3]⟩
        rw [if_neg h4, if_pos rfl]; rfl
    · rw [if_neg h3]
      refine ⟨I, by rw [if_pos rfl], Or.inl rfl, by simp, fun _ _ => ?_⟩
      rcases h2 with h2 | h2
      · exact absurd h2.symm h3
      · exact h2
  | back =>
    simp only
    unfold enforceFirst
    by_cases h3 : I.edge1 = some e
    · exact ⟨I, by rw [if_pos h3], Or.inl rfl, fun _ => h3, by simp⟩
    · rw [if_neg h3]
      have h4 : I.edge2 = some e := by
        rcases h2 with h2 | h2
        · exact absurd h2 h3
        · exact h2
      refine ⟨⟨some e, I.edge1, I.agree⟩, by rw [if_pos h4], Or.inr ?_, fun _ => rfl, by simp⟩
      unfold Iface.flip; rw [h4]

/-- The interface of an edge is in the list, with its sides in one order or the other. -/
def Listed (ifs L : List Iface) (e : Edge) : Prop :=
  ∃ I ∈ ifs, (I.edge1 = some e ∨ I.edge2 = some e) ∧ (I ∈ L ∨ I.flip ∈ L)

/-- C12: the interfaces collected along a dimension. Each is an interface of the collection (possibly with its sides
exchanged), the interfaces on both sides of the starting patch are listed, and the list is closed under crossing a patch: if
a listed interface has the edge `e`, the interface of the opposite edge is listed. No entry is repeated. -/
theorem c12_interfaces (ifs : List Iface) (wf : WF ifs) (patch grid fuel : Nat)
    (hstart : HasEdge ifs ⟨patch, grid, .front⟩) (hfuel : 2 * ifs.length < fuel) :
    ∃ L : List Iface, collectInterfacesOnDim ifs fuel patch grid = some L ∧ L.Nodup ∧
      (∀ K ∈ L, K ∈ ifs ∨ K.flip ∈ ifs) ∧
      Listed ifs L ⟨patch, grid, .front⟩ ∧ Listed ifs L ⟨patch, grid, .back⟩ ∧
      (∀ K ∈ L, ∀ e, (K.edge1 = some e ∨ K.edge2 = some e) → Listed ifs L e.swap) := by
  let U : List Iface := ifs ++ ifs.map Iface.flip
  let kf : Edge → Iface := fun e => (ifaceKey ifs e).getD ⟨none, none, true⟩
  have hkey : ∀ e, HasEdge ifs e → ifaceKey ifs e = some (kf e) ∧ kf e ∈ U := by
    intro e he
    obtain ⟨I, hI, _, _, K, hK, hKI, _⟩ := ifaceKey_spec he
    have : kf e = K := by simp [kf, hK]
    refine ⟨by rw [this, hK], ?_⟩
    rw [this]
    simp only [U, List.mem_append, List.mem_map]
    rcases hKI with rfl | rfl
    · exact Or.inl hI
    · exact Or.inr ⟨I, hI, rfl⟩
  have hback : HasEdge ifs ⟨patch, grid, .back⟩ := wf.complete _ hstart
  have hUlen : U.length = 2 * ifs.length := by simp [U]; omega
  obtain ⟨wb, fb, B, hB, hwb, hBe, hBn, hBU, hwbE, hfb⟩ :=
    collectAlong_spec (ifaceKey ifs) kf ifs wf U hkey .backInsert fuel ⟨patch, grid, .front⟩ [] hstart (by simp) (by simp)
      (by simp; omega)
  obtain ⟨wfw, ff, F, hF, hwf, hFe, hFn, hFU, hwfE, hff⟩ :=
    collectAlong_spec (ifaceKey ifs) kf ifs wf U hkey .frontInsert fuel ⟨patch, grid, .back⟩ B hback hBn hBU (by omega)
  simp only [List.append_nil] at hBe
  simp only at hFe
  have hmerge : merge B F = F := by
    rw [hFe, merge_append, merge_subset B B (fun x hx => hx)]
    apply merge_disjoint
    rw [← hFe]; exact hFn
  have hBF : ∀ x ∈ B, x ∈ F := by intro x hx; rw [hFe]; simp [hx]
  have listed_of_key : ∀ e, HasEdge ifs e → kf e ∈ F → Listed ifs F e := by
    intro e he hk
    obtain ⟨I, hI, hIe, _, K, hK, hKI, _⟩ := ifaceKey_spec he
    have : kf e = K := by simp [kf, hK]
    rw [this] at hk
    refine ⟨I, hI, hIe, ?_⟩
    rcases hKI with rfl | rfl
    · exact Or.inl hk
    · exact Or.inr hk
  have hmemB : ∀ w ∈ wb, kf w ∈ F := fun w hw => hBF _ (by rw [hBe]; simp; exact ⟨w, hw, rfl⟩)
  have hmemF : ∀ w ∈ wfw, kf w ∈ F := fun w hw => by rw [hFe]; simp; exact Or.inr ⟨w, hw, rfl⟩
  -- the interface glued to a visited edge: the far side is the opposite of the next edge
  have startF : kf ⟨patch, grid, .front⟩ ∈ F := by
    cases hwb with
    | stop => exact hBF _ (hfb _ rfl).2
    | out => exact hmemB _ (by simp)
    | step => exact hmemB _ (by simp)
  have startB : kf ⟨patch, grid, .back⟩ ∈ F := by
    cases hwf with
    | stop => exact (hff _ rfl).2
    | out => exact hmemF _ (by simp)
    | step => exact hmemF _ (by simp)
  have flip_has : ∀ (I : Iface) (e : Edge), (I.flip.edge1 = some e ∨ I.flip.edge2 = some e) ↔ (I.edge1 = some e ∨ I.edge2 = some e) := by
    intro I e; simp [Iface.flip]; tauto
  -- Listed depends only on the interface
  have listed_partner : ∀ e a, Joined ifs e a → Listed ifs F e → Listed ifs F a := by
    rintro e a ⟨J, hJ, hJe⟩ ⟨I, hI, hIe, hIF⟩
    have hIJ := wf.uniq I hI J hJ e hIe (by tauto)
    subst hIJ
    exact ⟨I, hI, by tauto, hIF⟩
  -- the edge opposite to a visited edge is listed
  have prev : ∀ (s : Edge) (ws : List Edge) (fin : Option Edge), Walk ifs s ws fin → (∀ w ∈ ws, HasEdge ifs w ∧ kf w ∈ F) →
      ∀ d ∈ ws, d ≠ s → Listed ifs F d.swap := by
    intro s ws fin w
    induction w with
    | stop e => intro _ d hd; cases hd
    | out e h => intro _ d hd hne; simp at hd; exact absurd hd hne
    | step e e' ws f h w ih =>
      intro hall d hd hne
      rcases List.mem_cons.1 hd with rfl | hd
      · exact absurd rfl hne
      · by_cases hde : d = e'.swap
        · subst hde
          rw [swap_swap]
          have := hall e (by simp)
          exact listed_partner e e' h (listed_of_key e this.1 this.2)
        · exact ih (fun w hw => hall w (List.mem_cons_of_mem _ hw)) d hd hde
  have closed_edge : ∀ d, (d ∈ wb ∨ d ∈ wfw) → Listed ifs F d.swap ∧ ∀ a, Joined ifs d a → Listed ifs F a.swap := by
    intro d hd
    rcases hd with hd | hd
    · constructor
      · by_cases hds : d = ⟨patch, grid, .front⟩
        · rw [hds]; exact listed_of_key _ hback startB
        · exact prev _ _ _ hwb (fun w hw => ⟨hwbE w hw, hmemB w hw⟩) d hd hds
      · intro a hj
        rcases hwb.next_mem wf hd hj with h | h
        · exact listed_of_key _ (hwbE _ h) (hmemB _ h)
        · exact listed_of_key _ (hfb _ h).1 (hBF _ (hfb _ h).2)
    · constructor
      · by_cases hds : d = ⟨patch, grid, .back⟩
        · rw [hds]; exact listed_of_key _ hstart startF
        · exact prev _ _ _ hwf (fun w hw => ⟨hwfE w hw, hmemF w hw⟩) d hd hds
      · intro a hj
        rcases hwf.next_mem wf hd hj with h | h
        · exact listed_of_key _ (hwfE _ h) (hmemF _ h)
        · exact listed_of_key _ (hff _ h).1 (hff _ h).2
  refine ⟨F, ?_, hFn, ?_, listed_of_key _ hstart startF, listed_of_key _ hback startB, ?_⟩
  · unfold collectInterfacesOnDim
    rw [hB]; simp only; rw [hF]; simp only; rw [hmerge]
  · intro K hK
    have := hFU K hK
    simp only [U, List.mem_append, List.mem_map] at this
    rcases this with h | ⟨J, hJ, rfl⟩
    · exact Or.inl h
    · exact Or.inr (by simpa [Iface.flip] using hJ)
  · intro K hK e hKe
    have : ∃ d, (d ∈ wb ∨ d ∈ wfw) ∧ kf d = K := by
      rw [hFe, hBe] at hK
      simp only [List.mem_append, List.mem_reverse, List.mem_map] at hK
      rcases hK with ⟨d, hd, h⟩ | ⟨d, hd, h⟩
      · exact ⟨d, Or.inl hd, h⟩
      · exact ⟨d, Or.inr hd, h⟩
    obtain ⟨d, hd, hdK⟩ := this
    have hdE : HasEdge ifs d := by rcases hd with h | h; exact hwbE d h; exact hwfE d h
    obtain ⟨I, hI, hId, hfI, K', hK', hKI, _⟩ := ifaceKey_spec hdE
    have hkk : K = K' := by rw [← hdK]; simp [kf, hK']
    rw [hkk] at hKe
    have hIe : I.edge1 = some e ∨ I.edge2 = some e := by
      rcases hKI with h | h
      · rw [h] at hKe; exact hKe
      · rw [h] at hKe; exact (flip_has I e).1 hKe
    obtain ⟨c1, c2⟩ := closed_edge d hd
    by_cases hed : e = d
    · rw [hed]; exact c1
    · apply c2
      refine ⟨I, hI, ?_⟩
      rcases hId with h1 | h1 <;> rcases hIe with h2 | h2
      · rw [h1] at h2; exact absurd (Option.some.inj h2).symm hed
      · exact Or.inl ⟨h1, h2⟩
      · exact Or.inr ⟨h2, h1⟩
      · rw [h1] at h2; exact absurd (Option.some.inj h2).symm hed

/-- C12: when every interface between two patches joins a front edge to a back edge, no interface is listed twice, even with its
sides exchanged; each is listed with the back edge of the previous patch first. -/
theorem c12_interfaces_once (ifs : List Iface) (wf : WF ifs)
    (horient : ∀ e e', Joined ifs e e' → e.ext ≠ e'.ext) (patch grid fuel : Nat) (L : List Iface)
    (hstart : HasEdge ifs ⟨patch, grid, .front⟩) (hfuel : 2 * ifs.length < fuel)
    (hL : collectInterfacesOnDim ifs fuel patch grid = some L) :
    (∀ K ∈ L, K.flip ∉ L) ∧
    (∀ K ∈ L, (∀ e, K.edge1 = some e → e.ext = .back) ∧ (∀ e, K.edge2 = some e → e.ext = .front)) := by
  let U : List Iface := ifs ++ ifs.map Iface.flip
  let kf : Edge → Iface := fun e => (ifaceKey ifs e).getD ⟨none, none, true⟩
  have hkey : ∀ e, HasEdge ifs e → ifaceKey ifs e = some (kf e) ∧ kf e ∈ U := by
    intro e he
    obtain ⟨I, hI, _, _, K, hK, hKI, _⟩ := ifaceKey_spec he
    have : kf e = K := by simp [kf, hK]
    refine ⟨by rw [this, hK], ?_⟩
    rw [this]
    simp only [U, List.mem_append, List.mem_map]
    rcases hKI with rfl | rfl
    · exact Or.inl hI
    · exact Or.inr ⟨I, hI, rfl⟩
  have hback : HasEdge ifs ⟨patch, grid, .back⟩ := wf.complete _ hstart
  have hUlen : U.length = 2 * ifs.length := by simp [U]; omega
  obtain ⟨wb, fb, B, hB, hwb, hBe, hBn, hBU, hwbE, hfb⟩ :=
    collectAlong_spec (ifaceKey ifs) kf ifs wf U hkey .backInsert fuel ⟨patch, grid, .front⟩ [] hstart (by simp) (by simp)
      (by simp; omega)
  obtain ⟨wfw, ff, F, hF, hwf, hFe, hFn, hFU, hwfE, hff⟩ :=
    collectAlong_spec (ifaceKey ifs) kf ifs wf U hkey .frontInsert fuel ⟨patch, grid, .back⟩ B hback hBn hBU (by omega)
  simp only [List.append_nil] at hBe
  simp only at hFe
  have hmerge : merge B F = F := by
    rw [hFe, merge_append, merge_subset B B (fun x hx => hx)]
    apply merge_disjoint
    rw [← hFe]; exact hFn
  have hLF : L = F := by
    unfold collectInterfacesOnDim at hL
    rw [hB] at hL; simp only at hL; rw [hF] at hL; simp only at hL
    rw [hmerge] at hL; exact (Option.some.inj hL).symm
  have exts : ∀ K ∈ L, (∀ e, K.edge1 = some e → e.ext = .back) ∧ (∀ e, K.edge2 = some e → e.ext = .front) := by
    intro K hK
    have : ∃ d, HasEdge ifs d ∧ kf d = K := by
      rw [hLF, hFe, hBe] at hK
      simp only [List.mem_append, List.mem_reverse, List.mem_map] at hK
      rcases hK with ⟨d, hd, h⟩ | ⟨d, hd, h⟩
      · exact ⟨d, hwbE d hd, h⟩
      · exact ⟨d, hwfE d hd, h⟩
    obtain ⟨d, hdE, hdK⟩ := this
    obtain ⟨I, hI, hId, hfI, K', hK', hKI, hb, hf⟩ := ifaceKey_spec hdE
    have hkk : K = K' := by rw [← hdK]; simp [kf, hK']
    subst hkk
    have hjoin : ∀ e e', K.edge1 = some e → K.edge2 = some e' → e.ext ≠ e'.ext := by
      intro e e' h1 h2
      apply horient
      refine ⟨I, hI, ?_⟩
      rcases hKI with h | h
      · rw [h] at h1 h2; exact Or.inl ⟨h1, h2⟩
      · rw [h] at h1 h2; exact Or.inr ⟨h2, h1⟩
    cases hx : d.ext with
    | back =>
      have h1 := hb hx
      refine ⟨?_, ?_⟩
      · intro e he; rw [h1] at he; cases he; exact hx
      · intro e he
        have := hjoin d e h1 he
        rw [hx] at this
        cases hxe : e.ext
        · rfl
        · rw [hxe] at this; exact absurd rfl this
    | front =>
      have h2 := hf hx (wf.distinct I hI)
      refine ⟨?_, ?_⟩
      · intro e he
        have := hjoin e d he h2
        rw [hx] at this
        cases hxe : e.ext
        · rw [hxe] at this; exact absurd rfl this
        · rfl
      · intro e he; rw [h2] at he; cases he; exact hx
  refine ⟨?_, exts⟩
  intro K hK hKf
  obtain ⟨a1, a2⟩ := exts K hK
  obtain ⟨b1, b2⟩ := exts _ hKf
  have hnone : K.edge1 = none ∧ K.edge2 = none := by
    constructor
    · cases h : K.edge1 with
      | none => rfl
      | some e => have := a1 e h; have h2 := b2 e (by simp [Iface.flip, h]); rw [this] at h2; cases h2
    · cases h : K.edge2 with
      | none => rfl
      | some e => have := a2 e h; have h2 := b1 e (by simp [Iface.flip, h]); rw [this] at h2; cases h2
  have hKF : K ∈ U := hFU K (by rw [← hLF]; exact hK)
  simp only [U, List.mem_append, List.mem_map] at hKF
  rcases hKF with h | ⟨J, hJ, h⟩
  · exact wf.distinct K h (by rw [hnone.1, hnone.2])
  · apply wf.distinct J hJ
    have h1 : J.edge2 = none := by rw [← hnone.1, ← h]; rfl
    have h2 : J.edge1 = none := by rw [← hnone.2, ← h]; rfl
    rw [h1, h2]

example : collectInterfacesOnDim row3 9 3 30 = some
    [⟨none, some ⟨1, 10, .front⟩, true⟩, ⟨some ⟨1, 10, .back⟩, some ⟨2, 20, .front⟩, true⟩,
     ⟨some ⟨2, 20, .back⟩, some ⟨3, 30, .front⟩, true⟩, ⟨some ⟨3, 30, .back⟩, none, true⟩] := by decide

/-- A ring of two patches one of which is parametrised in the opposite direction. -/
def ringFlipped : List Iface :=
  [⟨some ⟨1, 10, .front⟩, some ⟨2, 20, .front⟩, false⟩, ⟨some ⟨1, 10, .back⟩, some ⟨2, 20, .back⟩, false⟩]

/-- C12 (finding): on a closed ring in which interfaces join two front edges and two back edges, each interface is
collected twice, once in each order of its sides. -/
theorem c12_flipped_ring_counterexample :
    WF ringFlipped ∧
    collectInterfacesOnDim ringFlipped 9 1 10 = some
      [⟨some ⟨2, 20, .back⟩, some ⟨1, 10, .back⟩, false⟩, ⟨some ⟨2, 20, .front⟩, some ⟨1, 10, .front⟩, false⟩,
       ⟨some ⟨1, 10, .back⟩, some ⟨2, 20, .back⟩, false⟩, ⟨some ⟨1, 10, .front⟩, some ⟨2, 20, .front⟩, false⟩] :=
  ⟨wf_of_check _ (by decide) (by decide) (by decide) (by decide), by decide⟩

/-! ### Connection queries -/

/-- C12: `get_connections_t` returns exactly the interfaces touching the patch, without repetition. -/
theorem c12_patch_connections (p : Nat) (ifs : List Iface) :
    (patchConnection p ifs).Nodup ∧
    ∀ I, I ∈ patchConnection p ifs ↔ I ∈ ifs ∧ ∃ e, (I.edge1 = some e ∨ I.edge2 = some e) ∧ e.patch = p := by
  have hc : ∀ I : Iface, I.connectedTo p = true ↔ ∃ e, (I.edge1 = some e ∨ I.edge2 = some e) ∧ e.patch = p := by
    rintro ⟨a, b, c⟩
    unfold Iface.connectedTo
    cases a <;> cases b <;> simp [or_and_right, exists_or]
  match ifs with
  | [] => simp [patchConnection]
  | [I] =>
    unfold patchConnection
    by_cases h : I.connectedTo p = true
    · rw [if_pos h]
      refine ⟨by simp, ?_⟩
      intro J
      simp only [List.mem_singleton]
      constructor
      · rintro rfl; exact ⟨rfl, (hc _).1 h⟩
      · rintro ⟨rfl, _⟩; rfl
    · rw [if_neg h]
      refine ⟨by simp, ?_⟩
      intro J
      simp only [List.not_mem_nil, List.mem_singleton, false_iff]
      rintro ⟨rfl, h2⟩; exact h ((hc _).2 h2)
  | I :: J :: rest =>
    have ih := c12_patch_connections p (J :: rest)
    unfold patchConnection
    constructor
    · apply nodup_merge; split <;> simp
    · intro K
      rw [mem_merge, ih.2 K]
      by_cases h : I.connectedTo p = true
      · rw [if_pos h]
        simp only [List.mem_cons, List.not_mem_nil, or_false]
        constructor
        · rintro (rfl | ⟨h1, h2⟩)
          · exact ⟨Or.inl rfl, (hc _).1 h⟩
          · exact ⟨Or.inr h1, h2⟩
        · rintro ⟨rfl | h1, h2⟩
          · exact Or.inl rfl
          · exact Or.inr ⟨h1, h2⟩
      · rw [if_neg h]
        simp only [List.mem_cons, List.not_mem_nil, false_or]
        constructor
        · rintro ⟨h1, h2⟩; exact ⟨Or.inr h1, h2⟩
        · rintro ⟨rfl | h1, h2⟩
          · exact absurd ((hc _).2 h2) h
          · exact ⟨h1, h2⟩

/-- C12: `find_connections_t` returns exactly the interfaces touching both patches. -/
theorem c12_find_connections (p q : Nat) (ifs : List Iface) (I : Iface) :
    I ∈ findConnections p q ifs ↔ I ∈ ifs ∧ (∃ e, (I.edge1 = some e ∨ I.edge2 = some e) ∧ e.patch = p) ∧
      (∃ e, (I.edge1 = some e ∨ I.edge2 = some e) ∧ e.patch = q) := by
  unfold findConnections
  simp only [List.mem_filter, decide_eq_true_eq]
  rw [(c12_patch_connections p ifs).2, (c12_patch_connections q ifs).2]
  constructor
  · rintro ⟨⟨h1, h2⟩, _, h3⟩; exact ⟨h1, h2, h3⟩
  · rintro ⟨h1, h2, h3⟩; exact ⟨⟨h1, h2⟩, h1, h3⟩

/-- C12: `inner_edges` lists each edge of a patch once, and no outside edge. -/
theorem c12_inner_edges (ifs : List Iface) :
    (innerEdges ifs).Nodup ∧ ∀ e, e ∈ innerEdges ifs ↔ HasEdge ifs e := by
  have hs : ∀ l : List (Option Edge), (stripOutside l).Nodup ∧ ∀ e, e ∈ stripOutside l ↔ some e ∈ l := by
    intro l
    induction l using stripOutside.induct with
    | case1 => simp [stripOutside]
    | case2 e => 
      unfold stripOutside
      cases e <;> simp
    | case3 e f rest ih =>
      unfold stripOutside
      constructor
      · apply nodup_merge; cases e <;> simp
      · intro x
        rw [mem_merge, ih.2 x]
        cases e <;> simp [eq_comm]
  unfold innerEdges
  refine ⟨(hs _).1, ?_⟩
  intro e
  rw [(hs _).2 e]
  unfold HasEdge
  simp only [List.mem_append, List.mem_map]
  constructor
  · rintro (⟨I, h1, h2⟩ | ⟨I, h1, h2⟩)
    · exact ⟨I, h1, Or.inl h2⟩
    · exact ⟨I, h1, Or.inr h2⟩
  · rintro ⟨I, h1, h2 | h2⟩
    · exact Or.inl ⟨I, h1, h2⟩
    · exact Or.inr ⟨I, h1, h2⟩

theorem extractPatches_spec (l : List Edge) : (extractPatches l).Nodup ∧ ∀ p, p ∈ extractPatches l ↔ ∃ e ∈ l, e.patch = p := by
  induction l with
  | nil => simp [extractPatches]
  | cons e l ih =>
    unfold extractPatches
    refine ⟨nodup_merge _ _ (List.nodup_singleton _), fun p => ?_⟩
    rw [mem_merge, ih.2, List.mem_singleton]
    simp [eq_comm]

/-- C12: `all_patches` lists, without repetition, the patches that have an edge in the collection. -/
theorem c12_all_patches (ifs : List Iface) : (allPatches ifs).Nodup ∧ ∀ p, p ∈ allPatches ifs ↔ ∃ e, HasEdge ifs e ∧ e.patch = p := by
  obtain ⟨h1, h2⟩ := extractPatches_spec (innerEdges ifs)
  refine ⟨h1, fun p => ?_⟩
  unfold allPatches
  rw [h2]
  exact exists_congr fun e => and_congr_left fun _ => (c12_inner_edges ifs).2 e

/-- C12: if the edges are made with the two grids `g p` of their patch, the static assertion accepts a collection of interfaces exactly when all the four edges of every patch are in it. -/
theorem c12_four_edges (ifs : List Iface) (g : Nat → Nat × Nat) (hg : ∀ p, (g p).1 ≠ (g p).2) (hv : ∀ e, HasEdge ifs e → e.grid = (g e.patch).1 ∨ e.grid = (g e.patch).2) :
    edgesComplete ifs = true ↔ ∀ p ∈ allPatches ifs, ∀ x : Ext, HasEdge ifs ⟨p, (g p).1, x⟩ ∧ HasEdge ifs ⟨p, (g p).2, x⟩ := by
  obtain ⟨n1, m1⟩ := c12_inner_edges ifs
  obtain ⟨n2, m2⟩ := c12_all_patches ifs
  let four : Nat → Finset Edge := fun p => {⟨p, (g p).1, .front⟩, ⟨p, (g p).1, .back⟩, ⟨p, (g p).2, .front⟩, ⟨p, (g p).2, .back⟩}
  have hfour : ∀ p e, e ∈ four p ↔ e.patch = p ∧ (e.grid = (g p).1 ∨ e.grid = (g p).2) := by
    intro p e
    obtain ⟨q, k, x⟩ := e
    simp only [four, Finset.mem_insert, Finset.mem_singleton, Edge.mk.injEq]
    cases x <;> simp <;> constructor <;> (rintro h; first | omega | (rcases h with ⟨h1, h2⟩ | ⟨h1, h2⟩ <;> simp [h1, h2]) | (obtain ⟨h1, h2 | h2⟩ := h <;> simp [h1, h2]))
  have hcard : ∀ p, (four p).card = 4 := by
    intro p
    have := hg p
    simp only [four]
    rw [Finset.card_insert_of_notMem, Finset.card_insert_of_notMem, Finset.card_insert_of_notMem, Finset.card_singleton] <;>
      simp [this]
  let U : Finset Edge := (allPatches ifs).toFinset.biUnion four
  have hU : U.card = 4 * (allPatches ifs).length := by
    rw [Finset.card_biUnion (fun p _ q _ hpq => Finset.disjoint_left.2 fun e h1 h2 => hpq (((hfour p e).1 h1).1.symm.trans ((hfour q e).1 h2).1)),
      Finset.sum_congr rfl (fun p _ => hcard p), Finset.sum_const, List.toFinset_card_of_nodup n2, Nat.mul_comm]
    rfl
  have hE : (innerEdges ifs).toFinset.card = (innerEdges ifs).length := List.toFinset_card_of_nodup n1
  have hsub : (innerEdges ifs).toFinset ⊆ U := by
    intro e he
    rw [List.mem_toFinset, m1] at he
    rw [Finset.mem_biUnion]
    exact ⟨e.patch, List.mem_toFinset.2 ((m2 _).2 ⟨e, he, rfl⟩), (hfour _ _).2 ⟨rfl, hv e he⟩⟩
  unfold edgesComplete
  rw [beq_iff_eq, ← hE, ← hU]
  constructor
  · intro h p hp x
    have heq := Finset.eq_of_subset_of_card_le hsub h.ge
    have key : ∀ k, k = (g p).1 ∨ k = (g p).2 → HasEdge ifs ⟨p, k, x⟩ := by
      intro k hk
      rw [← m1, ← List.mem_toFinset, heq, Finset.mem_biUnion]
      exact ⟨p, List.mem_toFinset.2 hp, (hfour _ _).2 ⟨rfl, hk⟩⟩
    exact ⟨key _ (Or.inl rfl), key _ (Or.inr rfl)⟩
  · intro h
    refine congrArg Finset.card (Finset.Subset.antisymm hsub ?_)
    intro e he
    rw [Finset.mem_biUnion] at he
    obtain ⟨p, hp, he⟩ := he
    obtain ⟨rfl, hk⟩ := (hfour _ _).1 he
    rw [List.mem_toFinset, m1]
    have := h _ (List.mem_toFinset.1 hp) e.ext
    rcases hk with hk | hk
    · rw [← hk] at this; exact this.1
    · rw [← hk] at this; exact this.2

/-- C12: hence an accepted collection contains the opposite edge of each of its edges, as the walks along a dimension need. -/
theorem c12_complete (ifs : List Iface) (g : Nat → Nat × Nat) (hg : ∀ p, (g p).1 ≠ (g p).2) (hv : ∀ e, HasEdge ifs e → e.grid = (g e.patch).1 ∨ e.grid = (g e.patch).2)
    (hacc : edgesComplete ifs = true) (e : Edge) (he : HasEdge ifs e) : HasEdge ifs e.swap := by
  have h := (c12_four_edges ifs g hg hv).1 hacc e.patch (((c12_all_patches ifs).2 _).2 ⟨e, he, rfl⟩) e.swap.ext
  rcases hv e he with hk | hk
  · rw [← hk] at h; exact h.1
  · rw [← hk] at h; exact h.2

/-- One patch, periodic in the first dimension; the second interface repeats an edge of the first one. -/
def repeatedEdge : List Iface :=
  [⟨some ⟨1, 10, .front⟩, some ⟨1, 10, .back⟩, true⟩, ⟨some ⟨1, 10, .front⟩, none, true⟩, ⟨none, some ⟨1, 11, .front⟩, true⟩, ⟨some ⟨1, 11, .back⟩, none, true⟩]

/-- C12 (finding): that an edge is in two interfaces is not detected. -/
theorem c12_repeated_edge_accepted : edgesComplete repeatedEdge = true ∧ ¬ ∀ I ∈ repeatedEdge, ∀ J ∈ repeatedEdge, ∀ e, (I.edge1 = some e ∨ I.edge2 = some e) → (J.edge1 = some e ∨ J.edge2 = some e) → I = J := by
  refine ⟨by decide, fun h => ?_⟩
  have := h ⟨some ⟨1, 10, .front⟩, some ⟨1, 10, .back⟩, true⟩ (by simp [repeatedEdge]) ⟨some ⟨1, 10, .front⟩, none, true⟩ (by simp [repeatedEdge]) ⟨1, 10, .front⟩ (Or.inl rfl) (Or.inl rfl)
  simp at this

/-- Instance: a periodic patch with two outer edges is accepted; without one of them it is not. -/
example : edgesComplete [⟨some ⟨1, 10, .front⟩, some ⟨1, 10, .back⟩, true⟩, ⟨none, some ⟨1, 11, .front⟩, true⟩, ⟨some ⟨1, 11, .back⟩, none, true⟩] = true ∧
    edgesComplete [⟨some ⟨1, 10, .front⟩, some ⟨1, 10, .back⟩, true⟩, ⟨none, some ⟨1, 11, .front⟩, true⟩] = false := by decide

/-- **C12** The patch found from a grid is the first of the list with this grid, along its first or its second dimension; nothing is found (a compile-time error) exactly when no patch
has this grid. With different grids in different patches, it is the only patch having this grid. -/
theorem c12_find_patch (g : Nat) (l : List (Nat × Nat × Nat)) :
    (findPatch g l = none ↔ ∀ P ∈ l, P.2.1 ≠ g ∧ P.2.2 ≠ g) ∧
    (∀ P, findPatch g l = some P → ∃ before after, l = before ++ P :: after ∧ (P.2.1 = g ∨ P.2.2 = g) ∧ ∀ Q ∈ before, Q.2.1 ≠ g ∧ Q.2.2 ≠ g) ∧
    (∀ P ∈ l, (P.2.1 = g ∨ P.2.2 = g) → (∀ Q ∈ l, (Q.2.1 = g ∨ Q.2.2 = g) → Q = P) → findPatch g l = some P) := by
  have hnone : findPatch g l = none ↔ ∀ P ∈ l, P.2.1 ≠ g ∧ P.2.2 ≠ g := by
    induction l with
    | nil => simp [findPatch]
    | cons P rest ih =>
      unfold findPatch
      split_ifs with h
      · simp only [reduceCtorEq, List.mem_cons, forall_eq_or_imp, false_iff]
        rintro ⟨⟨h1, h2⟩, -⟩
        exact h.elim h1 h2
      · rw [ih, List.forall_mem_cons]
        rw [not_or] at h
        exact ⟨fun a => ⟨h, a⟩, fun a => a.2⟩
  have hsome : ∀ P, findPatch g l = some P → ∃ before after, l = before ++ P :: after ∧ (P.2.1 = g ∨ P.2.2 = g) ∧ ∀ Q ∈ before, Q.2.1 ≠ g ∧ Q.2.2 ≠ g := by
    clear hnone
    induction l with
    | nil => intro P h; simp [findPatch] at h
    | cons R rest ih =>
      intro P h
      unfold findPatch at h
      split_ifs at h with hR
      · obtain rfl := Option.some.inj h
        exact ⟨[], rest, rfl, hR, by simp⟩
      · obtain ⟨b, a, rfl, h1, h2⟩ := ih P h
        rw [not_or] at hR
        exact ⟨R :: b, a, rfl, h1, List.forall_mem_cons.2 ⟨hR, h2⟩⟩
  refine ⟨hnone, hsome, fun P hP hg huniq => ?_⟩
  cases h : findPatch g l with
  | none => exact absurd hg (by have := hnone.1 h P hP; tauto)
  | some Q =>
    obtain ⟨b, a, rfl, h1, -⟩ := hsome Q h
    rw [huniq Q (by simp) h1]

/-- Two patches sharing no grid. -/
example : findPatch 3 [(0, 1, 2), (1, 3, 4)] = some (1, 3, 4) := (c12_find_patch 3 _).2.2 _ (by simp) (by simp) (by simp)

end Verif.Connectivity
