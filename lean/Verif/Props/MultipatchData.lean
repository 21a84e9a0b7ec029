import Verif.Model.MultipatchData
import Verif.Props.Connectivity
import Verif.Props.VectorFields
import Mathlib.Data.List.Duplicate
import Mathlib.Data.List.NodupEquivFin

/-!
# C84: multipatch containers give each patch its own element; C85: multipatch spline builders
-/
namespace Verif.MultipatchData

open Verif.Connectivity
open Verif.VectorFields (Fld Heap copyField alloc rd InDom Inj SamePos copyField_spec layoutRight inj_layoutRight)

variable {κ V W : Type}

/-! ## `std::get` -/

theorem stdGet_nodup [DecidableEq κ] (l : List (κ × V)) (hn : (l.map Prod.fst).Nodup) (n : ℕ) (h : n < l.length) :
    stdGet l l[n].1 = some l[n].2 := by
  have : l.filter (fun x => x.1 = l[n].1) = [l[n]] := by
    induction l generalizing n with
    | nil => simp at h
    | cons a l ih =>
      simp only [List.map_cons, List.nodup_cons] at hn
      cases n with
      | zero =>
        simp only [List.getElem_cons_zero, List.filter_cons, decide_true, if_true, List.cons.injEq, true_and]
        rw [List.filter_eq_nil_iff]
        intro b hb hab
        simp only [decide_eq_true_eq] at hab
        exact hn.1 (hab ▸ List.mem_map_of_mem hb)
      | succ n =>
        simp only [List.length_cons] at h
        simp only [List.getElem_cons_succ, List.filter_cons]
        have hne : ¬ a.1 = (l[n]'(by omega)).1 := by
          intro e
          exact hn.1 (e ▸ List.mem_map_of_mem (List.getElem_mem (by omega)))
        simp only [hne, decide_false, Bool.false_eq_true, if_false]
        exact ih hn.2 n (by omega)
  unfold stdGet
  rw [this]

theorem stdGet_isSome [DecidableEq κ] (l : List (κ × V)) (k : κ) :
    (stdGet l k).isSome ↔ (l.map Prod.fst).count k = 1 := by
  have hc : (l.map Prod.fst).count k = (l.filter fun x => x.1 = k).length := by
    induction l with
    | nil => rfl
    | cons a l ih =>
      by_cases h : a.1 = k
      · simp [h, ih]
      · simp [h, ih]
  rw [hc]
  unfold stdGet
  split
  · rename_i x h; simp [h]
  · rename_i h
    constructor
    · intro h'; simp at h'
    · intro h'
      obtain ⟨x, hx⟩ := List.length_eq_one_iff.1 h'
      exact absurd hx (h x)

/-! ## C84 -/

/-- **C84** With element types that differ from patch to patch, the k-th argument of the constructor is what `get` of the k-th
patch returns. -/
theorem c84_get [DecidableEq κ] (T : ℕ → κ) (patches : List ℕ) (args l : List (κ × V))
    (hT : (patches.map T).Nodup) (hm : make T patches args = some l) (n : ℕ) (hn : n < patches.length) :
    ∃ h : n < args.length, mpGet T l patches[n] = some args[n].2 := by
  unfold make at hm
  by_cases h : args.map Prod.fst = patches.map T
  · rw [if_pos h] at hm
    cases hm
    have hl : args.length = patches.length := by simpa using congrArg List.length h
    refine ⟨by omega, ?_⟩
    have e : args[n].1 = T patches[n] := by
      have h1 : n < (args.map Prod.fst).length := by simp; omega
      have : (args.map Prod.fst)[n] = (patches.map T)[n]'(by simp; omega) := by simp only [h]
      simpa using this
    unfold mpGet
    rw [← e]
    exact stdGet_nodup args (by rw [h]; exact hT) n (by omega)
  · rw [if_neg h] at hm; simp at hm

/-- **C84** Exact condition: `get<Patch>` compiles if and only if exactly one of the patches has the element type of `Patch`. -/
theorem c84_get_iff [DecidableEq κ] (T : ℕ → κ) (patches : List ℕ) (args l : List (κ × V))
    (hm : make T patches args = some l) (p : ℕ) :
    (mpGet T l p).isSome ↔ (patches.map T).count (T p) = 1 := by
  unfold make at hm
  by_cases h : args.map Prod.fst = patches.map T
  · rw [if_pos h] at hm
    cases hm
    unfold mpGet
    rw [stdGet_isSome, h]
  · rw [if_neg h] at hm; simp at hm

/-- **C84** Refuted expectation: if two patches share the element type - for example the index range of a common grid - the
container is accepted but neither of the two elements can be read. -/
theorem c84_shared_type [DecidableEq κ] (T : ℕ → κ) (patches : List ℕ) (args : List (κ × V))
    (ha : args.map Prod.fst = patches.map T) (m n : ℕ) (hm : m < patches.length) (hn : n < patches.length)
    (hmn : m ≠ n) (hT : T patches[m] = T patches[n]) :
    make T patches args = some args ∧ mpGet T args patches[m] = none ∧ mpGet T args patches[n] = none := by
  have hmk : make T patches args = some args := by unfold make; rw [if_pos ha]
  have hcount : (patches.map T).count (T patches[m]) ≠ 1 := by
    intro h1
    have hm' : m < (patches.map T).length := by simpa using hm
    have hn' : n < (patches.map T).length := by simpa using hn
    have hdup : List.Duplicate (T patches[m]) (patches.map T) := by
      rcases Nat.lt_or_gt_of_ne hmn with h | h
      · exact List.duplicate_iff_exists_distinct_get.2 ⟨⟨m, hm'⟩, ⟨n, hn'⟩, h, by simp, by simp [hT]⟩
      · exact List.duplicate_iff_exists_distinct_get.2 ⟨⟨n, hn'⟩, ⟨m, hm'⟩, h, by simp [hT], by simp⟩
    have := List.duplicate_iff_two_le_count.1 hdup
    omega
  refine ⟨hmk, ?_, ?_⟩
  · have := (c84_get_iff T patches args args hmk patches[m]).not.2 hcount
    simpa using this
  · have := (c84_get_iff T patches args args hmk patches[n]).not.2 (hT ▸ hcount)
    simpa using this

theorem gather_fst [DecidableEq κ] (T T' : ℕ → κ) (l' : List (κ × V)) (P : List ℕ) (l : List (κ × V))
    (h : gather T T' l' P = some l) :
    l.map Prod.fst = P.map T ∧ ∀ n (h1 : n < P.length) (h2 : n < l.length), mpGet T' l' P[n] = some l[n].2 := by
  induction P generalizing l with
  | nil => simp only [gather, Option.some.injEq] at h; subst h; simp
  | cons p P ih =>
    simp only [gather] at h
    cases hx : mpGet T' l' p with
    | none => rw [hx] at h; simp at h
    | some x =>
      cases hr : gather T T' l' P with
      | none => rw [hx, hr] at h; simp at h
      | some r =>
        rw [hx, hr] at h
        simp only [Option.some.injEq] at h
        subst h
        obtain ⟨i1, i2⟩ := ih r hr
        refine ⟨by simp [i1], ?_⟩
        intro n h1 h2
        cases n with
        | zero => simpa using hx
        | succ n => exact i2 n (by simpa using h1) (by simpa using h2)

/-- **C84** A container built from another one, possibly with the patches in another order or with fewer patches, holds on each
of its patches the element that the other one holds on the same patch. -/
theorem c84_reorder [DecidableEq κ] (T T' : ℕ → κ) (P P' : List ℕ) (l' l : List (κ × V))
    (hT : (P.map T).Nodup) (h : fromOther T T' P P' l' = some l) :
    (∀ p ∈ P, p ∈ P' ∧ T p = T' p ∧ (mpGet T l p).isSome ∧ mpGet T l p = mpGet T' l' p) := by
  unfold fromOther at h
  by_cases hc : (∀ p ∈ P, p ∈ P') ∧ P.map T = P.map T'
  · rw [if_pos hc] at h
    obtain ⟨h1, h2⟩ := gather_fst T T' l' P l h
    intro p hp
    obtain ⟨n, hn, rfl⟩ := List.getElem_of_mem hp
    have hl : l.length = P.length := by simpa using congrArg List.length h1
    obtain ⟨_, hg⟩ := c84_get T P l l hT (by unfold make; rw [if_pos h1]) n hn
    refine ⟨hc.1 _ hp, List.map_inj_left.1 hc.2 _ hp, by rw [hg]; rfl, ?_⟩
    rw [hg, h2 n hn (by omega)]
  · rw [if_neg hc] at h; simp at h

/-- **C84** The same for the conversion between multipatch fields (constant or not, owning or not). -/
theorem c84_convert [DecidableEq κ] (conv : κ → κ → Bool) (T T' : ℕ → κ) (P : List ℕ) (l' l : List (κ × V))
    (hT : (P.map T).Nodup) (h : fieldFromOther conv T T' P l' = some l) :
    ∀ p ∈ P, conv (T' p) (T p) = true ∧ (mpGet T l p).isSome ∧ mpGet T l p = mpGet T' l' p := by
  unfold fieldFromOther at h
  by_cases hc : ∀ p ∈ P, conv (T' p) (T p) = true
  · rw [if_pos hc] at h
    obtain ⟨h1, h2⟩ := gather_fst T T' l' P l h
    intro p hp
    obtain ⟨n, hn, rfl⟩ := List.getElem_of_mem hp
    have hl : l.length = P.length := by simpa using congrArg List.length h1
    obtain ⟨_, hg⟩ := c84_get T P l l hT (by unfold make; rw [if_pos h1]) n hn
    refine ⟨hc _ hp, by rw [hg]; rfl, ?_⟩
    rw [hg, h2 n hn (by omega)]
  · rw [if_neg hc] at h; simp at h

theorem gather_some [DecidableEq κ] (T T' : ℕ → κ) (l' : List (κ × V)) (P : List ℕ)
    (h : ∀ p ∈ P, (mpGet T' l' p).isSome) : (gather T T' l' P).isSome := by
  induction P with
  | nil => rfl
  | cons p P ih =>
    obtain ⟨x, hx⟩ := Option.isSome_iff_exists.1 (h p (by simp))
    obtain ⟨r, hr⟩ := Option.isSome_iff_exists.1 (ih (fun q hq => h q (by simp [hq])))
    simp [gather, hx, hr]

/-- **C84** A reordering with distinct element types is always accepted. -/
theorem c84_reorder_accepted [DecidableEq κ] (T : ℕ → κ) (P P' : List ℕ) (args l' : List (κ × V))
    (hT : (P'.map T).Nodup) (hsub : ∀ p ∈ P, p ∈ P') (hm : make T P' args = some l') :
    (fromOther T T P P' l').isSome := by
  unfold fromOther
  rw [if_pos ⟨hsub, rfl⟩]
  apply gather_some
  intro p hp
  obtain ⟨n, hn, rfl⟩ := List.getElem_of_mem (hsub p hp)
  obtain ⟨_, hg⟩ := c84_get T P' args l' hT hm n hn
  rw [hg]; rfl

/-- **C84** `idx_range()`, `get_field()` and `get_const_field()` give on each patch the image of the element of this patch. -/
theorem c84_map [DecidableEq κ] (T U : ℕ → κ) (f : V → W) (l : List (κ × V)) (P : List ℕ) (r : List (κ × W))
    (hU : (P.map U).Nodup) (h : mapPatches T U f l P = some r) :
    ∀ p ∈ P, (mpGet U r p).isSome ∧ mpGet U r p = (mpGet T l p).map f := by
  have key : ∀ (P : List ℕ) (r : List (κ × W)), mapPatches T U f l P = some r →
      r.map Prod.fst = P.map U ∧
      ∀ n (h1 : n < P.length) (h2 : n < r.length), (mpGet T l P[n]).map f = some r[n].2 := by
    intro P
    induction P with
    | nil => intro r h; simp only [mapPatches, Option.some.injEq] at h; subst h; simp
    | cons p P ih =>
      intro r h
      simp only [mapPatches] at h
      cases hx : mpGet T l p with
      | none => rw [hx] at h; simp at h
      | some x =>
        cases hr : mapPatches T U f l P with
        | none => rw [hx, hr] at h; simp at h
        | some r' =>
          rw [hx, hr] at h
          simp only [Option.some.injEq] at h
          subst h
          obtain ⟨i1, i2⟩ := ih r' hr
          refine ⟨by simp [i1], ?_⟩
          intro n h1 h2
          cases n with
          | zero => simp [hx]
          | succ n => exact i2 n (by simpa using h1) (by simpa using h2)
  obtain ⟨h1, h2⟩ := key P r h
  intro p hp
  obtain ⟨n, hn, rfl⟩ := List.getElem_of_mem hp
  have hl : r.length = P.length := by simpa using congrArg List.length h1
  obtain ⟨_, hg⟩ := c84_get U P r r hU (by unfold make; rw [if_pos h1]) n hn
  exact ⟨by rw [hg]; rfl, by rw [hg, h2 n hn (by omega)]⟩

/-- **C84** The owning container allocated from index ranges: every patch gets new memory of its own on its index range. -/
theorem c84_field_mem [DecidableEq κ] {δ α : Type} (T T' : ℕ → κ) (l' : List (κ × List (δ × ℤ × ℕ))) (P : List ℕ)
    (h h' : Heap α) (l : List (κ × Fld δ)) (hT : (P.map T).Nodup) (hf : fieldMem T T' l' P h = some (h', l)) :
    h'.mem = h.mem ∧ h'.next = h.next + P.length ∧ (l.map fun x => x.2.buf).Nodup ∧
    ∀ p ∈ P, ∃ f dom, mpGet T l p = some f ∧ mpGet T' l' p = some dom ∧ h.next ≤ f.buf ∧ f.buf < h'.next ∧
      f.base = 0 ∧ f.dims = layoutRight dom := by
  have key : ∀ (P : List ℕ) (h h' : Heap α) (l : List (κ × Fld δ)), fieldMem T T' l' P h = some (h', l) →
      h'.mem = h.mem ∧ h'.next = h.next + P.length ∧ l.map Prod.fst = P.map T ∧ (l.map fun x => x.2.buf).Nodup ∧
      (∀ x ∈ l, h.next ≤ x.2.buf ∧ x.2.buf < h'.next) ∧
      ∀ n (h1 : n < P.length) (h2 : n < l.length), ∃ dom, mpGet T' l' P[n] = some dom ∧ l[n].2.base = 0 ∧
        l[n].2.dims = layoutRight dom := by
    intro P
    induction P with
    | nil =>
      intro h h' l hf
      simp only [fieldMem, Option.some.injEq, Prod.mk.injEq] at hf
      obtain ⟨rfl, rfl⟩ := hf
      simp
    | cons p P ih =>
      intro h h' l hf
      simp only [fieldMem] at hf
      cases hx : mpGet T' l' p with
      | none => rw [hx] at hf; simp at hf
      | some dom =>
        rw [hx] at hf
        simp only at hf
        cases hr : fieldMem T T' l' P (alloc h dom).1 with
        | none => rw [hr] at hf; simp at hf
        | some q =>
          obtain ⟨h2, r⟩ := q
          rw [hr] at hf
          simp only [Option.some.injEq, Prod.mk.injEq] at hf
          obtain ⟨rfl, rfl⟩ := hf
          obtain ⟨i0, i1, i2, i3, i4, i5⟩ := ih _ _ _ hr
          have hnx : (alloc h dom).1.next = h.next + 1 := rfl
          refine ⟨by rw [i0]; rfl, by rw [i1, hnx, List.length_cons]; omega, by simp [i2], ?_, ?_, ?_⟩
          · simp only [List.map_cons, List.nodup_cons]
            refine ⟨?_, i3⟩
            intro hmem
            obtain ⟨x, hx, hb⟩ := List.mem_map.1 hmem
            have := (i4 x hx).1
            have e : (alloc h dom).2.buf = h.next := rfl
            omega
          · intro x hx
            rcases List.mem_cons.1 hx with rfl | hx
            · show h.next ≤ h.next ∧ h.next < _
              omega
            · have := i4 x hx; omega
          · intro n h1 h2
            cases n with
            | zero => exact ⟨dom, by simpa using hx, rfl, rfl⟩
            | succ n => exact i5 n (by simpa using h1) (by simpa using h2)
  obtain ⟨k0, k1, k2, k3, k4, k5⟩ := key P h h' l hf
  refine ⟨k0, k1, k3, ?_⟩
  intro p hp
  obtain ⟨n, hn, rfl⟩ := List.getElem_of_mem hp
  have hl : l.length = P.length := by simpa using congrArg List.length k2
  obtain ⟨_, hg⟩ := c84_get T P l l hT (by unfold make; rw [if_pos k2]) n hn
  obtain ⟨dom, d1, d2, d3⟩ := k5 n hn (by omega)
  have := k4 _ (List.getElem_mem (l := l) (n := n) (by omega))
  exact ⟨_, dom, hg, d1, this.1, this.2, d2, d3⟩

/-- **C84** Refuted expectation: the constructor taking the owning fields of the patches never compiles, whatever the types
(the label is forwarded to a base class that has no constructor with one more argument than patches). -/
theorem c84_owning_constructor [DecidableEq κ] (string : κ) (T : ℕ → κ) (patches : List ℕ) :
    baseAccepts T patches (owningArgs string T patches) = false := by
  unfold baseAccepts owningArgs
  rw [decide_eq_false_iff_not]
  intro h
  have := congrArg List.length h
  simp at this

/-- **C84** After a multipatch copy, each patch of the destination has the values of the same patch of the source, position by
position; nothing else has changed. -/
theorem c84_deepcopy [DecidableEq κ] {δ α : Type} [DecidableEq δ] (T1 T2 : ℕ → κ) (dst src : List (κ × Fld δ))
    (P : List ℕ) (hP : P.Nodup) (h h' : Heap α)
    (hsep : ∀ p ∈ P, ∀ q ∈ P, ∀ f g, mpGet T1 dst p = some f → mpGet T1 dst q = some g → f.buf = g.buf → p = q)
    (hdis : ∀ p ∈ P, ∀ q ∈ P, ∀ f g, mpGet T1 dst p = some f → mpGet T2 src q = some g → f.buf ≠ g.buf)
    (hinj : ∀ p ∈ P, ∀ f, mpGet T1 dst p = some f → Inj f.dims)
    (hc : mpDeepcopy T1 T2 dst src P h = some h') :
    (∀ p ∈ P, ∃ f g, mpGet T1 dst p = some f ∧ mpGet T2 src p = some g ∧
      ∀ i j, InDom f.dims i → SamePos f.dims g.dims i j → rd h' f i = rd h g j) ∧
    (∀ b a, (∀ p ∈ P, ∀ f, mpGet T1 dst p = some f → f.buf ≠ b) → h'.mem b a = h.mem b a) := by
  induction P generalizing h with
  | nil => simp only [mpDeepcopy, Option.some.injEq] at hc; subst hc; simp
  | cons p P ih =>
    rw [List.nodup_cons] at hP
    simp only [mpDeepcopy] at hc
    cases hF : mpGet T1 dst p with
    | none => rw [hF] at hc; simp at hc
    | some F =>
      cases hG : mpGet T2 src p with
      | none => rw [hF, hG] at hc; simp at hc
      | some G =>
        rw [hF, hG] at hc
        simp only at hc
        obtain ⟨k0, k1, k2⟩ := copyField_spec h F G (hdis p (by simp) p (by simp) F G hF hG) (hinj p (by simp) F hF)
        obtain ⟨i1, i2⟩ := ih hP.2 (copyField h F G) (fun p hp q hq => hsep p (by simp [hp]) q (by simp [hq]))
          (fun p hp q hq => hdis p (by simp [hp]) q (by simp [hq])) (fun p hp => hinj p (by simp [hp])) hc
        refine ⟨?_, ?_⟩
        · intro q hq
          rcases List.mem_cons.1 hq with rfl | hq
          · refine ⟨F, G, hF, hG, ?_⟩
            intro i j hi hij
            rw [← k2 i j hi hij]
            unfold rd
            apply i2
            intro r hr f hf hb
            exact hP.1 (hsep r (by simp [hr]) q (by simp) f F hf hF hb ▸ hr)
          · obtain ⟨f, g, hf, hg, hv⟩ := i1 q hq
            refine ⟨f, g, hf, hg, ?_⟩
            intro i j hi hij
            rw [hv i j hi hij]
            unfold rd
            apply k1
            exact fun e => hdis p (by simp) q (by simp [hq]) F g hF hg e.symm
        · intro b a hb
          rw [i2 b a (fun q hq => hb q (by simp [hq]))]
          exact k1 b (fun e => hb p (by simp) F hF e.symm) a

/-- Three patches whose element type is their own number: reading back, and a permuted container. -/
example : make (fun p => p) [5, 6, 7] [(5, 50), (6, 60), (7, 70)] = some [(5, 50), (6, 60), (7, 70)] ∧
    fromOther (fun p => p) (fun p => p) [7, 5] [5, 6, 7] [(5, 50), (6, 60), (7, 70)] = some [(7, 70), (5, 50)] ∧
    mpGet (fun p => p) [(7, 70), (5, 50)] 5 = some 50 := by decide

/-- Two patches with the same radial grid (type 0): index ranges on this grid cannot be read back. -/
example : make (fun _ => 0) [1, 2] [(0, 10), (0, 20)] = some [(0, 10), (0, 20)] ∧
    mpGet (fun _ => 0) [(0, 10), (0, 20)] 1 = none := by decide

/-! ## C85 -/

/-- **C85** The boundary condition at an edge is the outer one exactly if the connectivity joins the edge to the outside, and the
transition condition exactly if it glues the edge to an edge of a patch. -/
theorem c85_edge_bc {BC : Type} (ifs : List Iface) (wf : WF ifs) (out trans : BC) (hne : out ≠ trans) (e : Edge)
    (he : HasEdge ifs e) :
    (edgeBc ifs out trans e = some trans ↔ ∃ e', Joined ifs e e') ∧
    (edgeBc ifs out trans e = some out ↔ ∃ I ∈ ifs, (I.edge1 = some e ∧ I.edge2 = none) ∨
      (I.edge1 = none ∧ I.edge2 = some e)) := by
  obtain ⟨I, hI, hIe⟩ := he
  have hfind : findInterface e ifs = some I := by
    have : (findInterface e ifs).isSome := by
      clear wf
      induction ifs with
      | nil => simp at hI
      | cons J ifs ih =>
        unfold findInterface
        split_ifs with h
        · rfl
        · rcases List.mem_cons.1 hI with rfl | hI
          · exact absurd hIe h
          · exact ih hI
    obtain ⟨J, hJ⟩ := Option.isSome_iff_exists.1 this
    obtain ⟨h1, h2⟩ := findInterface_some e ifs J hJ
    rw [hJ, wf.uniq J h1 I hI e h2 hIe]
  have heq : equivalentEdge ifs e = some (I.other (some e)) := by unfold equivalentEdge; rw [hfind]; rfl
  have hother : (I.edge1 = some e ∧ I.other (some e) = I.edge2) ∨ (I.edge2 = some e ∧ I.other (some e) = I.edge1) := by
    unfold Iface.other
    by_cases h : some e = I.edge1
    · left; exact ⟨h.symm, by rw [if_pos h]⟩
    · right
      refine ⟨?_, by rw [if_neg h]⟩
      rcases hIe with h' | h'
      · exact absurd h'.symm h
      · exact h'
  unfold edgeBc
  rw [heq]
  cases ho : I.other (some e) with
  | none =>
    rw [ho] at hother
    simp only [Option.some.injEq]
    constructor
    · constructor
      · intro h; exact absurd h hne
      · rintro ⟨e', J, hJ, hj⟩
        have : J = I := by
          apply wf.uniq J hJ I hI e _ hIe
          rcases hj with h | h
          · exact Or.inl h.1
          · exact Or.inr h.2
        subst this
        exfalso
        have hd := wf.distinct J hJ
        rcases hother with ⟨a, b⟩ | ⟨a, b⟩
        · rcases hj with ⟨c, d⟩ | ⟨c, d⟩
          · rw [d] at b; cases b
          · rw [d] at b; cases b
        · rcases hj with ⟨c, d⟩ | ⟨c, d⟩
          · rw [c] at b; cases b
          · rw [c] at b; cases b
    · refine ⟨fun _ => ⟨I, hI, ?_⟩, fun _ => trivial⟩
      rcases hother with ⟨a, b⟩ | ⟨a, b⟩
      · exact Or.inl ⟨a, b.symm⟩
      · exact Or.inr ⟨b.symm, a⟩
  | some e' =>
    rw [ho] at hother
    simp only [Option.some.injEq]
    constructor
    · refine ⟨fun _ => ⟨e', I, hI, ?_⟩, fun _ => trivial⟩
      rcases hother with ⟨a, b⟩ | ⟨a, b⟩
      · exact Or.inl ⟨a, b.symm⟩
      · exact Or.inr ⟨b.symm, a⟩
    · constructor
      · intro h; exact absurd h.symm hne
      · rintro ⟨J, hJ, hj⟩
        have : J = I := by
          apply wf.uniq J hJ I hI e _ hIe
          rcases hj with h | h
          · exact Or.inl h.1
          · exact Or.inr h.2
        subst this
        exfalso
        rcases hother with ⟨a, b⟩ | ⟨a, b⟩
        · rcases hj with ⟨c, d⟩ | ⟨c, d⟩
          · rw [d] at b; cases b
          · rw [c] at a; cases a
        · rcases hj with ⟨c, d⟩ | ⟨c, d⟩
          · rw [d] at a; cases a
          · rw [c] at b; cases b

/-- **C85** An edge that is in no interface is a compilation error, not a default condition. -/
theorem c85_missing_edge {BC : Type} (ifs : List Iface) (out trans : BC) (e : Edge) (he : ¬ HasEdge ifs e) :
    edgeBc ifs out trans e = none := by
  have : findInterface e ifs = none := by
    cases h : findInterface e ifs with
    | none => rfl
    | some I =>
      obtain ⟨h1, h2⟩ := findInterface_some e ifs I h
      exact absurd ⟨I, h1, h2⟩ he
  unfold edgeBc equivalentEdge
  rw [this]
  rfl

/-- **C85** The builder of a patch uses the spline basis and the grid of the patch, the condition of its front edge below and the
condition of its back edge above. -/
theorem c85_builder {BC : Type} (ifs : List Iface) (bspl grid : ℕ → ℕ) (bcL bcU bcT : BC) (p : ℕ)
    (b : BuilderTy BC) :
    builderTy ifs bspl grid bcL bcU bcT p = some b ↔
      b.bspl = bspl p ∧ b.grid = grid p ∧ edgeBc ifs bcL bcT ⟨p, grid p, .front⟩ = some b.lower ∧
        edgeBc ifs bcU bcT ⟨p, grid p, .back⟩ = some b.upper := by
  unfold builderTy
  obtain ⟨b1, b2, b3, b4⟩ := b
  cases edgeBc ifs bcL bcT ⟨p, grid p, .front⟩ with
  | none => simp
  | some l =>
    cases edgeBc ifs bcU bcT ⟨p, grid p, .back⟩ with
    | none => simp
    | some u =>
      simp only [Option.some.injEq, BuilderTy.mk.injEq]
      constructor
      · rintro ⟨rfl, rfl, rfl, rfl⟩; exact ⟨rfl, rfl, rfl, rfl⟩
      · rintro ⟨rfl, rfl, rfl, rfl⟩; exact ⟨rfl, rfl, rfl, rfl⟩

/-- **C85** The same in two dimensions. -/
theorem c85_builder_2d {BC : Type} (ifs : List Iface) (bspl1 bspl2 grid1 grid2 : ℕ → ℕ) (bcL1 bcU1 bcL2 bcU2 bcT : BC)
    (p : ℕ) (b : Builder2Ty BC) :
    builder2Ty ifs bspl1 bspl2 grid1 grid2 bcL1 bcU1 bcL2 bcU2 bcT p = some b ↔
      b.bspl1 = bspl1 p ∧ b.bspl2 = bspl2 p ∧ b.grid1 = grid1 p ∧ b.grid2 = grid2 p ∧
        edgeBc ifs bcL1 bcT ⟨p, grid1 p, .front⟩ = some b.lower1 ∧
        edgeBc ifs bcU1 bcT ⟨p, grid1 p, .back⟩ = some b.upper1 ∧
        edgeBc ifs bcL2 bcT ⟨p, grid2 p, .front⟩ = some b.lower2 ∧
        edgeBc ifs bcU2 bcT ⟨p, grid2 p, .back⟩ = some b.upper2 := by
  unfold builder2Ty
  obtain ⟨b1, b2, b3, b4, b5, b6, b7, b8⟩ := b
  cases edgeBc ifs bcL1 bcT ⟨p, grid1 p, .front⟩ <;> cases edgeBc ifs bcU1 bcT ⟨p, grid1 p, .back⟩ <;>
    cases edgeBc ifs bcL2 bcT ⟨p, grid2 p, .front⟩ <;> cases edgeBc ifs bcU2 bcT ⟨p, grid2 p, .back⟩ <;>
    simp only [Option.some.injEq, Builder2Ty.mk.injEq, reduceCtorEq, false_and, and_false]
  constructor
  · rintro ⟨rfl, rfl, rfl, rfl, rfl, rfl, rfl, rfl⟩; exact ⟨rfl, rfl, rfl, rfl, rfl, rfl, rfl, rfl⟩
  · rintro ⟨rfl, rfl, rfl, rfl, rfl, rfl, rfl, rfl⟩; exact ⟨rfl, rfl, rfl, rfl, rfl, rfl, rfl, rfl⟩

theorem derivValues_spec [DecidableEq κ] (p : ℕ) (ds : List ((ℕ → κ) × Option (List (κ × V)))) (r : List (Option V))
    (h : derivValues p ds = some r) :
    r.length = ds.length ∧ ∀ k (h1 : k < ds.length) (h2 : k < r.length),
      (ds[k].2 = none → r[k] = none) ∧ (∀ l, ds[k].2 = some l → r[k] = mpGet ds[k].1 l p ∧ r[k].isSome) := by
  induction ds generalizing r with
  | nil => simp only [derivValues, Option.some.injEq] at h; subst h; simp
  | cons d ds ih =>
    obtain ⟨T, d⟩ := d
    simp only [derivValues] at h
    cases hx : derivValue T d p with
    | none => rw [hx] at h; simp at h
    | some x =>
      cases hr : derivValues p ds with
      | none => rw [hx, hr] at h; simp at h
      | some r' =>
        rw [hx, hr] at h
        simp only [Option.some.injEq] at h
        subst h
        obtain ⟨i1, i2⟩ := ih r' hr
        refine ⟨by simp [i1], ?_⟩
        intro k h1 h2
        cases k with
        | zero =>
          simp only [List.getElem_cons_zero]
          cases d with
          | none =>
            simp only [derivValue, Option.some.injEq] at hx
            exact ⟨fun _ => hx.symm, by simp⟩
          | some l =>
            refine ⟨by simp, ?_⟩
            intro l' hl
            cases hl
            simp only [derivValue] at hx
            cases hg : mpGet T l p with
            | none => rw [hg] at hx; simp at hx
            | some y => rw [hg] at hx; simp only [Option.map_some, Option.some.injEq] at hx; subst hx; simp
        | succ k => exact i2 k (by simpa using h1) (by simpa using h2)

/-- **C85** Building: one call per patch, in order; the n-th call uses the builder given for the n-th patch, the coefficients and the
values of this patch and, for each derivative argument, the derivatives of this patch if they were given and nothing otherwise. -/
theorem c85_build {β : Type} [DecidableEq β] [DecidableEq κ] (B : ℕ → β) (builders : List (β × V))
    (TS TV : ℕ → κ) (splines values : List (κ × V)) (derivs : List ((ℕ → κ) × Option (List (κ × V))))
    (patches : List ℕ) (hB : builders.map Prod.fst = patches.map B) (hBn : (patches.map B).Nodup)
    (calls : List (Call V)) (h : buildAll B builders TS TV splines values derivs patches = some calls) :
    calls.length = patches.length ∧
    ∀ n (h1 : n < patches.length) (h2 : n < calls.length), ∃ h3 : n < builders.length,
      calls[n].builder = builders[n].2 ∧ mpGet TS splines patches[n] = some calls[n].splines ∧
      mpGet TV values patches[n] = some calls[n].values ∧ calls[n].derivs.length = derivs.length ∧
      ∀ k (h4 : k < derivs.length) (h5 : k < calls[n].derivs.length),
        (derivs[k].2 = none → calls[n].derivs[k] = none) ∧
        (∀ l, derivs[k].2 = some l → calls[n].derivs[k] = mpGet derivs[k].1 l patches[n] ∧
          calls[n].derivs[k].isSome) := by
  have key : ∀ (P : List ℕ) (calls : List (Call V)),
      buildAll B builders TS TV splines values derivs P = some calls → calls.length = P.length ∧
      ∀ n (h1 : n < P.length) (h2 : n < calls.length),
        stdGet builders (B P[n]) = some calls[n].builder ∧ mpGet TS splines P[n] = some calls[n].splines ∧
        mpGet TV values P[n] = some calls[n].values ∧ derivValues P[n] derivs = some calls[n].derivs := by
    intro P
    induction P with
    | nil => intro calls h; simp only [buildAll, Option.some.injEq] at h; subst h; simp
    | cons p P ih =>
      intro calls h
      simp only [buildAll] at h
      split at h
      · rename_i b s v d r e1 e2 e3 e4 e5
        simp only [Option.some.injEq] at h
        subst h
        obtain ⟨i1, i2⟩ := ih r e5
        refine ⟨by simp [i1], ?_⟩
        intro n h1 h2
        cases n with
        | zero => exact ⟨by simpa using e1, by simpa using e2, by simpa using e3, by simpa using e4⟩
        | succ n => exact i2 n (by simpa using h1) (by simpa using h2)
      · simp at h
  obtain ⟨k1, k2⟩ := key patches calls h
  refine ⟨k1, ?_⟩
  intro n h1 h2
  obtain ⟨a, b, c, d⟩ := k2 n h1 h2
  have hl : builders.length = patches.length := by simpa using congrArg List.length hB
  have h3 : n < builders.length := by omega
  have e : builders[n].1 = B patches[n] := by
    have : (builders.map Prod.fst)[n]'(by simpa using h3) = (patches.map B)[n]'(by simpa using h1) := by simp only [hB]
    simpa using this
  have hg := stdGet_nodup builders (by rw [hB]; exact hBn) n h3
  rw [e, a] at hg
  obtain ⟨f, g⟩ := derivValues_spec patches[n] derivs _ d
  exact ⟨h3, Option.some.inj hg, b, c, f, fun k h4 h5 => g k h4 h5⟩

/-- **C85** Refuted expectation: two patches with the same basis, grid and boundary conditions have builders of the same type; such a
multipatch builder can be constructed but never called. -/
theorem c85_same_builder_type {β : Type} [DecidableEq β] [DecidableEq κ] (B : ℕ → β) (builders : List (β × V))
    (TS TV : ℕ → κ) (splines values : List (κ × V)) (derivs : List ((ℕ → κ) × Option (List (κ × V))))
    (patches : List ℕ) (hB : builders.map Prod.fst = patches.map B) (m n : ℕ) (hm : m < patches.length)
    (hn : n < patches.length) (hmn : m ≠ n) (he : B patches[m] = B patches[n]) :
    buildAll B builders TS TV splines values derivs patches = none := by
  have hnone := (c84_shared_type B patches builders hB m n hm hn hmn he).2.1
  unfold mpGet at hnone
  have key : ∀ (P : List ℕ), patches[m] ∈ P → buildAll B builders TS TV splines values derivs P = none := by
    intro P
    induction P with
    | nil => intro h; simp at h
    | cons p P ih =>
      intro h
      simp only [buildAll]
      by_cases hp : p = patches[m]
      · rw [hp, hnone]
      · rw [ih (by simpa [Ne.symm hp] using h)]
        split
        · rename_i heq; simp at heq
        · rfl
  exact key patches (List.getElem_mem hm)

/-- **C85** The collection of derivative calculators: `get<Interface>` returns the calculator given for this interface, and is
refused for an interface that is not in the collection. -/
theorem c85_collection (calcs : List (Iface × V)) (hn : (calcs.map Prod.fst).Nodup) :
    (∀ n (h : n < calcs.length), collGet (collection calcs) calcs[n].1 = some calcs[n].2) ∧
    ∀ I, I ∉ calcs.map Prod.fst → collGet (collection calcs) I = none := by
  refine ⟨?_, ?_⟩
  · intro n h
    unfold collGet collection
    rw [if_pos (List.mem_map_of_mem (List.getElem_mem h))]
    exact stdGet_nodup calcs hn n h
  · intro I hI
    unfold collGet collection
    rw [if_neg hI]

/-- Two patches in a row: outside - patch 1 - patch 2 - outside. -/
def twoPatches : List Iface :=
  [⟨none, some ⟨1, 10, .front⟩, true⟩, ⟨some ⟨1, 10, .back⟩, some ⟨2, 20, .front⟩, true⟩, ⟨some ⟨2, 20, .back⟩, none, true⟩]

/-- This connectivity meets the hypotheses of `c85_edge_bc`. -/
example : WF twoPatches ∧ HasEdge twoPatches ⟨1, 10, .back⟩ ∧ Joined twoPatches ⟨1, 10, .back⟩ ⟨2, 20, .front⟩ :=
  ⟨wf_of_check _ (by decide) (by decide) (by decide) (by decide), ⟨_, by simp [twoPatches]; right; left; rfl, Or.inl rfl⟩,
    ⟨_, by simp [twoPatches]; right; left; rfl, Or.inl ⟨rfl, rfl⟩⟩⟩

/-- The first patch has the outer condition below and the transition condition above, the second one the converse. -/
example : builderTy twoPatches (fun p => 100 * p) (fun p => 10 * p) 'L' 'U' 'T' 1 = some ⟨100, 10, 'L', 'T'⟩ ∧
    builderTy twoPatches (fun p => 100 * p) (fun p => 10 * p) 'L' 'U' 'T' 2 = some ⟨200, 20, 'T', 'U'⟩ ∧
    builderTy twoPatches (fun p => 100 * p) (fun p => 10 * p) 'L' 'U' 'T' 3 = none := by decide

/-- A build on two patches with upper derivatives only. -/
example : (buildAll (fun p => p) [(1, 11), (2, 12)] (fun p => p) (fun p => p) [(1, 21), (2, 22)] [(1, 31), (2, 32)]
    [((fun p => p), none), ((fun p => p), some [(1, 41), (2, 42)])] [1, 2]).map
      (fun l => l.map fun c => (c.builder, c.splines, c.values, c.derivs))
    = some [(11, 21, 31, [none, some 41]), (12, 22, 32, [none, some 42])] := by decide

end Verif.MultipatchData
