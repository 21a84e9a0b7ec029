import Verif.Model.VectorFields
import Mathlib.Tactic.Linarith
import Mathlib.Tactic.Ring
import Mathlib.Tactic.Positivity
import Mathlib.Data.List.Forall2

/-!
# C83: vector fields

Specification vocabulary first (well-formed vector field, index in the domain, distinct elements stored at distinct
addresses), then the theorems about access, views, slices, copies and mirrors.
-/
namespace Verif.VectorFields

variable {δ τ α : Type}

/-- One component per tag, no tag twice. -/
def WF (v : VF τ δ) : Prop := v.tags.Nodup ∧ v.comps.length = v.tags.length

/-- The index is inside of the box of the dimensions. -/
def InDom (ds : List (Dim δ)) (i : δ → ℤ) : Prop :=
  ∀ d ∈ ds, d.front ≤ i d.name ∧ i d.name < d.front + d.ext

/-- Two indices which differ in the box are stored at different addresses, and no dimension appears twice. -/
def Inj (ds : List (Dim δ)) : Prop :=
  (ds.map Dim.name).Nodup ∧
    ∀ i j, InDom ds i → InDom ds j → offset i ds = offset j ds → ∀ d ∈ ds, i d.name = j d.name

/-- No two components share a buffer. -/
def Separate (v : VF τ δ) : Prop := (v.comps.map Fld.buf).Nodup

/-- The index obtained by completing `j` with the indices of the slice. -/
def join [DecidableEq δ] (s : List (δ × ℤ)) (j : δ → ℤ) : δ → ℤ := fun d => (s.lookup d).getD (j d)

/-- The same position in two boxes of equal extents. -/
def SamePos (ds es : List (Dim δ)) (i j : δ → ℤ) : Prop :=
  List.Forall₂ (fun d e => d.ext = e.ext ∧ i d.name - d.front = j e.name - e.front) ds es

/-! ## Elementary lemmas -/

theorem comps_eq [DecidableEq τ] (v : VF τ δ) (hv : WF v) :
    ∀ n (hn : n < v.tags.length), vget v v.tags[n] = some (v.comps[n]'(by rw [hv.2]; exact hn)) := by
  intro n hn
  unfold vget
  rw [if_pos (List.getElem_mem hn), hv.1.idxOf_getElem]
  exact List.getElem?_eq_getElem (by rw [hv.2]; exact hn)

theorem vget_mem [DecidableEq τ] (v : VF τ δ) (hv : WF v) (t : τ) (ht : t ∈ v.tags) :
    ∃ f ∈ v.comps, vget v t = some f := by
  obtain ⟨n, hn, rfl⟩ := List.getElem_of_mem ht
  exact ⟨_, List.getElem_mem _, comps_eq v hv n hn⟩

theorem filterMap_get [DecidableEq τ] {β : Type} (v : VF τ δ) (hv : WF v) (g : Fld δ → β) :
    (v.tags.filterMap fun t => (vget v t).map g) = v.comps.map g := by
  have key : ∀ (ts : List τ) (cs : List (Fld δ)), ts.length = cs.length →
      (∀ n (h1 : n < ts.length) (h2 : n < cs.length), vget v ts[n] = some cs[n]) →
      (ts.filterMap fun t => (vget v t).map g) = cs.map g := by
    intro ts
    induction ts with
    | nil => intro cs h _; cases cs <;> simp_all
    | cons t ts ih =>
      intro cs h hg
      cases cs with
      | nil => simp at h
      | cons c cs =>
        have h0 := hg 0 (by simp) (by simp)
        simp only [List.getElem_cons_zero] at h0
        rw [List.filterMap_cons, h0]
        simp only [Option.map_some, List.map_cons, List.cons.injEq, true_and]
        apply ih cs (by simpa using h)
        intro n h1 h2
        have := hg (n + 1) (by simpa using h1) (by simpa using h2)
        simpa using this
  exact key _ _ hv.2.symm (fun n h1 h2 => comps_eq v hv n h1)

theorem vspan_eq [DecidableEq τ] (v : VF τ δ) (hv : WF v) : vspan v = v := by
  have := filterMap_get v hv id
  simp only [Option.map_id, id_eq, List.map_id] at this
  unfold vspan
  rw [this]

theorem offset_filter_add [DecidableEq δ] (S : List δ) (i : δ → ℤ) (ds : List (Dim δ)) :
    offset i (ds.filter fun d => d.name ∈ S) + offset i (ds.filter fun d => d.name ∉ S) = offset i ds := by
  induction ds with
  | nil => rfl
  | cons d ds ih =>
    by_cases h : d.name ∈ S
    · simp only [List.filter_cons, h, decide_true, not_true, decide_false, if_true]
      simp only [offset]
      rw [← ih]; simp only [Bool.false_eq_true, if_false]; ring
    · simp only [List.filter_cons, h, decide_false, not_false_iff, decide_true, if_true]
      simp only [Bool.false_eq_true, if_false, offset]
      rw [← ih]; ring

theorem offset_congr (i j : δ → ℤ) (ds : List (Dim δ)) (h : ∀ d ∈ ds, i d.name = j d.name) :
    offset i ds = offset j ds := by
  induction ds with
  | nil => rfl
  | cons d ds ih =>
    simp only [offset]
    rw [h d (by simp), ih (fun e he => h e (by simp [he]))]

theorem lookup_some_of_mem [DecidableEq δ] {β : Type} (s : List (δ × β)) (d : δ) (h : d ∈ s.map Prod.fst) :
    ∃ y, s.lookup d = some y := by
  induction s with
  | nil => simp at h
  | cons p s ih =>
    obtain ⟨a, b⟩ := p
    by_cases hd : d = a
    · exact ⟨b, by simp [List.lookup_cons, hd]⟩
    · have : d ∈ s.map Prod.fst := by simpa [hd] using h
      obtain ⟨y, hy⟩ := ih this
      refine ⟨y, ?_⟩
      rw [List.lookup_cons]
      have : (d == a) = false := by simpa using hd
      rw [this]; exact hy

theorem lookup_none_of_not_mem [DecidableEq δ] {β : Type} (s : List (δ × β)) (d : δ) (h : d ∉ s.map Prod.fst) :
    s.lookup d = none := by
  induction s with
  | nil => rfl
  | cons p s ih =>
    obtain ⟨a, b⟩ := p
    simp only [List.map_cons, List.mem_cons, not_or] at h
    rw [List.lookup_cons]
    have : (d == a) = false := by simpa using h.1
    rw [this]; exact ih h.2

theorem addr_sliceIdx [DecidableEq δ] (f : Fld δ) (s : List (δ × ℤ)) (j : δ → ℤ) :
    addr (sliceIdx f s) j = addr f (join s j) := by
  unfold addr sliceIdx
  simp only
  rw [← offset_filter_add (s.map Prod.fst) (join s j) f.dims, add_assoc]
  congr 2
  · apply offset_congr
    intro d hd
    simp only [List.mem_filter, decide_eq_true_eq] at hd
    obtain ⟨y, hy⟩ := lookup_some_of_mem s d.name hd.2
    simp [join, hy]
  · apply offset_congr
    intro d hd
    simp only [List.mem_filter, decide_eq_true_eq] at hd
    simp [join, lookup_none_of_not_mem s d.name hd.2]

theorem addr_sliceRange [DecidableEq δ] (f : Fld δ) (s : List (δ × ℤ × ℕ)) (j : δ → ℤ) :
    addr (sliceRange f s) j = addr f j := by
  unfold addr sliceRange
  simp only
  rw [add_assoc]
  congr 1
  induction f.dims with
  | nil => rfl
  | cons d ds ih =>
    by_cases h : d.name ∈ s.map Prod.fst
    · obtain ⟨⟨a, e⟩, hy⟩ := lookup_some_of_mem s d.name h
      simp only [List.filter_cons, h, decide_true, if_true, List.map_cons, hy, offset]
      rw [← ih]
      simp only [Option.getD_some]
      ring
    · have hy := lookup_none_of_not_mem s d.name h
      simp only [List.filter_cons, h, decide_false, Bool.false_eq_true, if_false, List.map_cons, hy, offset]
      rw [← ih]
      ring

/-! ## Layout -/

theorem offset_layoutRight_bounds (dom : List (δ × ℤ × ℕ)) (i : δ → ℤ) (h : InDom (layoutRight dom) i) :
    0 ≤ offset i (layoutRight dom) ∧
      offset i (layoutRight dom) < (((dom.map fun x => x.2.2).prod : ℕ) : ℤ) := by
  induction dom with
  | nil => simp [layoutRight, offset]
  | cons x dom ih =>
    obtain ⟨n, a, e⟩ := x
    simp only [layoutRight, offset, List.map_cons, List.prod_cons] at *
    have hd := h ⟨n, a, e, ((dom.map fun x => x.2.2).prod : ℕ)⟩ (by simp)
    simp only at hd
    obtain ⟨h0, h1⟩ := ih (fun d hd => h d (by simp [hd]))
    push_cast at *
    constructor
    · have : 0 ≤ (i n - a) * (((dom.map fun x => x.2.2).prod : ℕ) : ℤ) :=
        mul_nonneg (by linarith [hd.1]) (by positivity)
      push_cast at this
      linarith
    · nlinarith [hd.1, hd.2]

theorem inj_layoutRight (dom : List (δ × ℤ × ℕ)) (hn : (dom.map Prod.fst).Nodup) : Inj (layoutRight dom) := by
  induction dom with
  | nil => exact ⟨by simp [layoutRight], by simp [layoutRight]⟩
  | cons x dom ih =>
    obtain ⟨n, a, e⟩ := x
    have hnames : ∀ l : List (δ × ℤ × ℕ), (layoutRight l).map Dim.name = l.map Prod.fst := by
      intro l; induction l with
      | nil => rfl
      | cons y l ih => obtain ⟨p, q, r⟩ := y; simp [layoutRight, ih]
    refine ⟨by rw [hnames]; exact hn, ?_⟩
    have hn' : (dom.map Prod.fst).Nodup := by
      simp only [List.map_cons, List.nodup_cons] at hn; exact hn.2
    intro i j hi hj hij
    simp only [layoutRight, offset] at hij
    have bi := offset_layoutRight_bounds dom i (fun d hd => hi d (by simp [layoutRight, hd]))
    have bj := offset_layoutRight_bounds dom j (fun d hd => hj d (by simp [layoutRight, hd]))
    set P : ℤ := (((dom.map fun x => x.2.2).prod : ℕ) : ℤ) with hP
    have heq : i n = j n := by
      rcases lt_trichotomy (i n) (j n) with h | h | h
      · exfalso
        have : i n + 1 ≤ j n := h
        have hPpos : 0 < P := lt_of_le_of_lt bi.1 bi.2
        nlinarith [mul_le_mul_of_nonneg_right this hPpos.le]
      · exact h
      · exfalso
        have : j n + 1 ≤ i n := h
        have hPpos : 0 < P := lt_of_le_of_lt bi.1 bi.2
        nlinarith [mul_le_mul_of_nonneg_right this hPpos.le]
    have hrest : offset i (layoutRight dom) = offset j (layoutRight dom) := by
      rw [heq] at hij; linarith
    intro d hd
    simp only [layoutRight, List.mem_cons] at hd
    rcases hd with rfl | hd
    · exact heq
    · exact (ih hn').2 i j (fun d hd => hi d (by simp [layoutRight, hd]))
        (fun d hd => hj d (by simp [layoutRight, hd])) hrest d hd

theorem inj_sliceIdx [DecidableEq δ] (f : Fld δ) (s : List (δ × ℤ)) (hf : Inj f.dims)
    (hs : ∀ d ∈ f.dims, ∀ y, s.lookup d.name = some y → d.front ≤ y ∧ y < d.front + d.ext) :
    Inj (sliceIdx f s).dims := by
  refine ⟨hf.1.sublist ((List.filter_sublist).map _), ?_⟩
  intro i j hi hj hij d hd
  have hjoin : ∀ k, InDom (sliceIdx f s).dims k → InDom f.dims (join s k) := by
    intro k hk d hd
    by_cases h : d.name ∈ s.map Prod.fst
    · obtain ⟨y, hy⟩ := lookup_some_of_mem s d.name h
      simp only [join, hy, Option.getD_some]
      exact hs d hd y hy
    · have hy := lookup_none_of_not_mem s d.name h
      simp only [join, hy, Option.getD_none]
      exact hk d (by simp only [sliceIdx, List.mem_filter, decide_eq_true_eq]; exact ⟨hd, h⟩)
  have ha : addr f (join s i) = addr f (join s j) := by
    rw [← addr_sliceIdx, ← addr_sliceIdx]; unfold addr; rw [hij]
  have hd' : d ∈ f.dims ∧ d.name ∉ s.map Prod.fst := by
    simpa only [sliceIdx, List.mem_filter, decide_eq_true_eq] using hd
  have := hf.2 _ _ (hjoin i hi) (hjoin j hj) (by unfold addr at ha; linarith) d hd'.1
  simpa [join, lookup_none_of_not_mem s d.name hd'.2] using this

/-! ## Copies -/

/-- Position of an index in a box. -/
def pos (ds : List (Dim δ)) (i : δ → ℤ) : List ℕ := ds.map fun d => (i d.name - d.front).toNat

theorem mem_positions (es : List ℕ) (ks : List ℕ) :
    ks ∈ positions es ↔ List.Forall₂ (fun k e => k < e) ks es := by
  induction es generalizing ks with
  | nil => simp [positions]
  | cons e es ih =>
    simp only [positions, List.mem_flatMap, List.mem_range, List.mem_map]
    constructor
    · rintro ⟨k, hk, ks', hks', rfl⟩
      exact List.Forall₂.cons hk ((ih _).1 hks')
    · intro h
      cases h with
      | cons hk hks => exact ⟨_, hk, _, (ih _).2 hks, rfl⟩

theorem pos_mem (ds : List (Dim δ)) (i : δ → ℤ) (h : InDom ds i) : pos ds i ∈ positions (ds.map Dim.ext) := by
  rw [mem_positions]
  induction ds with
  | nil => exact List.Forall₂.nil
  | cons d ds ih =>
    have hd := h d (by simp)
    refine List.Forall₂.cons ?_ (ih (fun e he => h e (by simp [he])))
    show (i d.name - d.front).toNat < d.ext
    omega

theorem posOffset_pos (ds : List (Dim δ)) (i : δ → ℤ) (h : InDom ds i) : posOffset ds (pos ds i) = offset i ds := by
  induction ds with
  | nil => rfl
  | cons d ds ih =>
    have hd := h d (by simp)
    simp only [pos, List.map_cons, posOffset, offset]
    rw [Int.toNat_of_nonneg (by linarith [hd.1])]
    have := ih (fun e he => h e (by simp [he]))
    rw [pos] at this
    rw [this]

theorem exists_index [DecidableEq δ] (ds : List (Dim δ)) (hn : (ds.map Dim.name).Nodup) (ks : List ℕ)
    (hk : ks ∈ positions (ds.map Dim.ext)) : ∃ i, InDom ds i ∧ pos ds i = ks := by
  rw [mem_positions] at hk
  induction ds generalizing ks with
  | nil =>
    simp only [List.map_nil, List.forall₂_nil_right_iff] at hk
    exact ⟨fun _ => 0, by intro d hd; simp at hd, by simp [pos, hk]⟩
  | cons d ds ih =>
    simp only [List.map_cons] at hk hn
    cases hk with
    | @cons k _ ks' _ hk hks =>
      rw [List.nodup_cons] at hn
      obtain ⟨i, hi, hp⟩ := ih hn.2 ks' hks
      have hne : ∀ e ∈ ds, e.name ≠ d.name := by
        intro e he h; apply hn.1; rw [← h]; exact List.mem_map_of_mem he
      refine ⟨fun x => if x = d.name then d.front + k else i x, ?_, ?_⟩
      · intro e he
        rcases List.mem_cons.1 he with rfl | he
        · simp only [if_true]; omega
        · simp only [hne e he, if_false]; exact hi e he
      · simp only [pos, List.map_cons, if_true, List.cons.injEq]
        refine ⟨by omega, ?_⟩
        rw [← hp, pos]
        apply List.map_congr_left
        intro e he
        simp only [hne e he, if_false]

theorem posOffset_inj [DecidableEq δ] (ds : List (Dim δ)) (hd : Inj ds) (ks ls : List ℕ)
    (hk : ks ∈ positions (ds.map Dim.ext)) (hl : ls ∈ positions (ds.map Dim.ext))
    (h : posOffset ds ks = posOffset ds ls) : ks = ls := by
  obtain ⟨i, hi, rfl⟩ := exists_index ds hd.1 ks hk
  obtain ⟨j, hj, rfl⟩ := exists_index ds hd.1 ls hl
  rw [posOffset_pos ds i hi, posOffset_pos ds j hj] at h
  have := hd.2 i j hi hj h
  unfold pos
  apply List.map_congr_left
  intro d hd
  rw [this d hd]

theorem copy_fold [DecidableEq δ] (dst src : Fld δ) (hb : dst.buf ≠ src.buf) (hd : Inj dst.dims)
    (L : List (List ℕ)) (hL : ∀ ks ∈ L, ks ∈ positions (dst.dims.map Dim.ext)) (h : Heap α) :
    let r := L.foldl (fun h ks => copyOne h dst src ks) h
    r.next = h.next ∧
    (∀ b, b ≠ dst.buf → ∀ a, r.mem b a = h.mem b a) ∧
    (∀ a, (∀ ks ∈ L, a ≠ dst.base + posOffset dst.dims ks) → r.mem dst.buf a = h.mem dst.buf a) ∧
    (∀ ks ∈ L, r.mem dst.buf (dst.base + posOffset dst.dims ks)
      = h.mem src.buf (src.base + posOffset src.dims ks)) := by
  induction L generalizing h with
  | nil => simp
  | cons k L ih =>
    simp only [List.foldl_cons]
    have ih' := ih (fun ks hks => hL ks (by simp [hks])) (copyOne h dst src k)
    simp only [copyOne] at ih' ⊢
    obtain ⟨i0, i1, i2, i3⟩ := ih'
    refine ⟨i0, ?_, ?_, ?_⟩
    · intro b hb' a
      rw [i1 b hb' a]
      simp [hb']
    · intro a ha
      rw [i2 a (fun ks hks => ha ks (by simp [hks]))]
      have := ha k (by simp)
      simp [this]
    · intro ks hks
      by_cases hmem : ks ∈ L
      · rw [i3 ks hmem]
        simp [hb.symm]
      · have hk : ks = k := by
          rcases List.mem_cons.1 hks with h | h
          · exact h
          · exact absurd h hmem
        subst hk
        rw [i2]
        · simp
        · intro ls hls heq
          have := posOffset_inj dst.dims hd ks ls (hL ks (by simp)) (hL ls (by simp [hls])) (by linarith)
          exact hmem (this ▸ hls)

theorem posOffset_same (ds es : List (Dim δ)) (i j : δ → ℤ) (hi : InDom ds i) (hij : SamePos ds es i j) :
    posOffset es (pos ds i) = offset j es := by
  unfold SamePos at hij
  induction hij with
  | nil => rfl
  | @cons d e ds es hde _ ih =>
    have hd0 := hi d (by simp)
    have := ih (fun e he => hi e (by simp [he]))
    simp only [pos, List.map_cons, posOffset, offset] at this ⊢
    rw [Int.toNat_of_nonneg (by linarith [hd0.1]), hde.2, this]

/-- Copy of one component: same values at the same positions, nothing else changes. -/
theorem copyField_spec [DecidableEq δ] (h : Heap α) (dst src : Fld δ) (hb : dst.buf ≠ src.buf) (hd : Inj dst.dims) :
    (copyField h dst src).next = h.next ∧
    (∀ b, b ≠ dst.buf → ∀ a, (copyField h dst src).mem b a = h.mem b a) ∧
    (∀ i j, InDom dst.dims i → SamePos dst.dims src.dims i j →
      rd (copyField h dst src) dst i = rd h src j) := by
  have := copy_fold dst src hb hd (positions (dst.dims.map Dim.ext)) (fun _ h => h) h
  simp only at this
  obtain ⟨i0, i1, i2, i3⟩ := this
  refine ⟨i0, i1, ?_⟩
  intro i j hi hij
  have h3 := i3 (pos dst.dims i) (pos_mem _ _ hi)
  rw [posOffset_pos _ _ hi] at h3
  unfold rd addr
  rw [show (copyField h dst src).mem dst.buf (dst.base + offset i dst.dims) = _ from h3]
  rw [posOffset_same _ _ _ _ hi hij]

/-! ## Allocation -/

theorem allocN_spec (h : Heap α) (dom : List (δ × ℤ × ℕ)) (n : ℕ) :
    (allocN h dom n).1.next = h.next + n ∧ (allocN h dom n).1.mem = h.mem ∧
    (allocN h dom n).2 = (List.range n).map fun k => ⟨h.next + k, 0, layoutRight dom⟩ := by
  induction n generalizing h with
  | zero => simp [allocN]
  | succ n ih =>
    obtain ⟨h1, h2, h3⟩ := ih (alloc h dom).1
    simp only [allocN]
    refine ⟨by rw [h1]; simp only [alloc]; omega, by rw [h2]; simp only [alloc], ?_⟩
    rw [h3, List.range_succ_eq_map]
    simp only [alloc, List.map_cons, List.map_map, add_zero, List.cons.injEq, true_and]
    apply List.map_congr_left
    intro k _
    simp only [Function.comp, Fld.mk.injEq, and_true, true_and]
    omega

theorem vfMem_comps (h : Heap α) (tags : List τ) (dom : List (δ × ℤ × ℕ)) :
    (vfMem h tags dom).2.comps
      = (List.range tags.length).map fun k => ⟨h.next + k, 0, layoutRight dom⟩ :=
  (allocN_spec h dom tags.length).2.2

theorem dims_layoutRight (dom : List (δ × ℤ × ℕ)) :
    ((layoutRight dom).map fun d => (d.name, d.front, d.ext)) = dom := by
  induction dom with
  | nil => rfl
  | cons y l ih => obtain ⟨p, q, r⟩ := y; simp [layoutRight, ih]

/-- **C83** A new vector field has one component per tag; each component has its own newly allocated memory, covers the
requested index range and stores different indices at different addresses. -/
theorem c83_mem (h : Heap α) (tags : List τ) (dom : List (δ × ℤ × ℕ)) (ht : tags.Nodup)
    (hd : (dom.map Prod.fst).Nodup) :
    let v := (vfMem h tags dom).2
    WF v ∧ v.tags = tags ∧ Separate v ∧ (∀ f ∈ v.comps, h.next ≤ f.buf ∧ f.buf < (vfMem h tags dom).1.next) ∧
      (∀ f ∈ v.comps, Inj f.dims ∧ (f.dims.map fun d => (d.name, d.front, d.ext)) = dom) ∧
      (tags ≠ [] → vdom v = some dom) ∧ (vfMem h tags dom).1.mem = h.mem := by
  intro v
  have hc := vfMem_comps (τ := τ) h tags dom
  have hn := (allocN_spec h dom tags.length)
  refine ⟨⟨ht, ?_⟩, rfl, ?_, ?_, ?_, ?_, hn.2.1⟩
  · show (vfMem h tags dom).2.comps.length = _
    rw [hc, List.length_map, List.length_range]
    rfl
  · unfold Separate
    show ((vfMem h tags dom).2.comps.map Fld.buf).Nodup
    rw [hc, List.map_map]
    apply List.Nodup.map _ List.nodup_range
    intro a b hab
    simpa using hab
  · intro f hf
    have hf' : f ∈ (vfMem h tags dom).2.comps := hf
    rw [hc, List.mem_map] at hf'
    obtain ⟨k, hk, rfl⟩ := hf'
    rw [List.mem_range] at hk
    refine ⟨by simp, ?_⟩
    show h.next + k < (allocN h dom tags.length).1.next
    rw [hn.1]; omega
  · intro f hf
    have hf' : f ∈ (vfMem h tags dom).2.comps := hf
    rw [hc, List.mem_map] at hf'
    obtain ⟨k, hk, rfl⟩ := hf'
    exact ⟨inj_layoutRight dom hd, dims_layoutRight dom⟩
  · intro hne
    unfold vdom
    show ((vfMem h tags dom).2.comps[0]?.map _) = _
    rw [hc]
    cases tags with
    | nil => exact absurd rfl hne
    | cons t ts => simp [List.range_succ_eq_map, dims_layoutRight]

/-! ## Access -/

/-- **C83** The component of the vector `v(i)` along a tag is the value at `i` of the component field `get<Tag>(v)`; with
pointers given to the constructor, the k-th pointer is the component of the k-th tag. -/
theorem c83_get_read [DecidableEq τ] (h : Heap α) (v : VF τ δ) (hv : WF v) (t : τ) (ht : t ∈ v.tags) (i : δ → ℤ) :
    ∃ f, vget v t = some f ∧ vecGet v.tags (vread h v i) t = some (rd h f i) := by
  obtain ⟨n, hn, rfl⟩ := List.getElem_of_mem ht
  refine ⟨_, comps_eq v hv n hn, ?_⟩
  unfold vecGet vread
  rw [if_pos ht, hv.1.idxOf_getElem]
  simp [hv.2, hn]

/-- **C83** Pointers are attached to the tags in order. -/
theorem c83_pointers [DecidableEq τ] (tags : List τ) (dom : List (δ × ℤ × ℕ)) (ptrs : List (ℕ × ℤ))
    (ht : tags.Nodup) (hl : ptrs.length = tags.length) (n : ℕ) (hn : n < tags.length) :
    WF (vfOfPtrs tags dom ptrs) ∧
    vget (vfOfPtrs tags dom ptrs) tags[n] = some ⟨(ptrs[n]'(by omega)).1, (ptrs[n]'(by omega)).2, layoutRight dom⟩ := by
  have hv : WF (vfOfPtrs (δ := δ) tags dom ptrs) := ⟨ht, by simp [vfOfPtrs, hl]⟩
  refine ⟨hv, ?_⟩
  have := comps_eq _ hv n hn
  simpa [vfOfPtrs] using this

/-- **C83** Views (`span_view`, `span_cview`, conversion to `VectorField`) refer to the very same memory. -/
theorem c83_span [DecidableEq τ] (v : VF τ δ) (hv : WF v) : vspan v = v := vspan_eq v hv

/-! ## Slices -/

theorem vsliceIdx_comps [DecidableEq τ] [DecidableEq δ] (v : VF τ δ) (hv : WF v) (s : List (δ × ℤ)) :
    vsliceIdx v s = ⟨v.tags, v.comps.map (sliceIdx · s)⟩ := by
  unfold vsliceIdx; rw [filterMap_get v hv]

theorem vsliceRange_comps [DecidableEq τ] [DecidableEq δ] (v : VF τ δ) (hv : WF v) (s : List (δ × ℤ × ℕ)) :
    vsliceRange v s = ⟨v.tags, v.comps.map (sliceRange · s)⟩ := by
  unfold vsliceRange; rw [filterMap_get v hv]

/-- **C83** Slicing at an index: whatever the memory contains, `v[s](j) = v(s, j)` for every component, and writing through
the slice is writing in the original. -/
theorem c83_slice_idx [DecidableEq τ] [DecidableEq δ] (v : VF τ δ) (hv : WF v) (s : List (δ × ℤ)) (j : δ → ℤ) :
    WF (vsliceIdx v s) ∧ (∀ h : Heap α, vread h (vsliceIdx v s) j = vread h v (join s j)) ∧
    ∀ (h : Heap α) (t : τ) (f g : Fld δ) (x : α), vget v t = some f → vget (vsliceIdx v s) t = some g →
      wr h g j x = wr h f (join s j) x := by
  rw [vsliceIdx_comps v hv]
  refine ⟨⟨hv.1, by simp [hv.2]⟩, ?_, ?_⟩
  · intro h
    unfold vread
    simp only [List.map_map]
    apply List.map_congr_left
    intro f _
    simp only [Function.comp, rd, addr_sliceIdx]
    rfl
  · intro h t f g x hf hg
    have : g = sliceIdx f s := by
      unfold vget at hf hg
      by_cases ht : t ∈ v.tags
      · rw [if_pos ht] at hf hg
        simp only [List.getElem?_map, hf, Option.map_some, Option.some.injEq] at hg
        exact hg.symm
      · rw [if_neg ht] at hf; simp at hf
    subst this
    unfold wr
    simp only [addr_sliceIdx]
    rfl

/-- **C83** Slicing on an index range keeps the value and the address of every element, and the new index range has the
requested first indices and extents in the dimensions of the range and the old ones elsewhere. -/
theorem c83_slice_range [DecidableEq τ] [DecidableEq δ] (v : VF τ δ) (hv : WF v) (s : List (δ × ℤ × ℕ)) (i : δ → ℤ) :
    WF (vsliceRange v s) ∧ (∀ h : Heap α, vread h (vsliceRange v s) i = vread h v i) ∧
    (∀ (h : Heap α) (t : τ) (f g : Fld δ) (x : α), vget v t = some f → vget (vsliceRange v s) t = some g →
      wr h g i x = wr h f i x) ∧
    vdom (vsliceRange v s) = (vdom v).map fun l => l.map fun d => (d.1, (s.lookup d.1).getD d.2) := by
  rw [vsliceRange_comps v hv]
  refine ⟨⟨hv.1, by simp [hv.2]⟩, ?_, ?_, ?_⟩
  · intro h
    unfold vread
    simp only [List.map_map]
    apply List.map_congr_left
    intro f _
    simp only [Function.comp, rd, addr_sliceRange]
    rfl
  · intro h t f g x hf hg
    have : g = sliceRange f s := by
      unfold vget at hf hg
      by_cases ht : t ∈ v.tags
      · rw [if_pos ht] at hf hg
        simp only [List.getElem?_map, hf, Option.map_some, Option.some.injEq] at hg
        exact hg.symm
      · rw [if_neg ht] at hf; simp at hf
    subst this
    unfold wr
    simp only [addr_sliceRange]
    rfl
  · unfold vdom
    simp only [List.getElem?_map, Option.map_map]
    congr 1
    funext f
    simp only [Function.comp, sliceRange, List.map_map]
    apply List.map_congr_left
    intro d _
    simp only [Function.comp]
    cases hl : s.lookup d.name with
    | none => simp
    | some p => obtain ⟨a, e⟩ := p; simp

/-- **C83** Two successive slices at indices of different dimensions are one slice at the joined index. -/
theorem c83_slice_slice [DecidableEq τ] [DecidableEq δ] (v : VF τ δ) (hv : WF v) (s t : List (δ × ℤ))
    (h : Heap α) (j : δ → ℤ) :
    vread h (vsliceIdx (vsliceIdx v s) t) j = vread h (vsliceIdx v (s ++ t)) j := by
  obtain ⟨w1, r1, _⟩ := c83_slice_idx (α := α) v hv s (join t j)
  obtain ⟨_, r2, _⟩ := c83_slice_idx (α := α) (vsliceIdx v s) w1 t j
  obtain ⟨_, r3, _⟩ := c83_slice_idx (α := α) v hv (s ++ t) j
  rw [r2, r1, r3]
  congr 1
  funext d
  unfold join
  rw [List.lookup_append]
  cases s.lookup d <;> simp

/-! ## Assignment -/

theorem assignTags_frame [DecidableEq τ] (v : VF τ δ) (hv : WF v) (i : δ → ℤ) (x : List α) (ts : List τ)
    (h : Heap α) (b : ℕ) (a : ℤ)
    (hb : ∀ t ∈ ts, ∀ f, vget v t = some f → ¬ (b = f.buf ∧ a = addr f i)) :
    (assignTags v i x ts h).mem b a = h.mem b a := by
  induction ts generalizing h with
  | nil => rfl
  | cons t ts ih =>
    have ih' := fun h => ih h (fun u hu => hb u (by simp [hu]))
    simp only [assignTags]
    cases hf : vget v t with
    | none => simp only; exact ih' h
    | some f =>
      cases hy : vecGet v.tags x t with
      | none => simp only; exact ih' h
      | some y =>
        simp only
        rw [ih']
        unfold wr
        simp only
        rw [if_neg (hb t (by simp) f hf)]

theorem buf_inj [DecidableEq τ] (v : VF τ δ) (hv : WF v) (hs : Separate v) (t u : τ) (f g : Fld δ)
    (hf : vget v t = some f) (hg : vget v u = some g) (h : f.buf = g.buf) : t = u := by
  unfold vget at hf hg
  by_cases ht : t ∈ v.tags
  · by_cases hu : u ∈ v.tags
    · rw [if_pos ht] at hf
      rw [if_pos hu] at hg
      have hti : v.tags.idxOf t < v.comps.length := by rw [hv.2]; exact List.idxOf_lt_length_of_mem ht
      have hui : v.tags.idxOf u < v.comps.length := by rw [hv.2]; exact List.idxOf_lt_length_of_mem hu
      rw [List.getElem?_eq_getElem hti] at hf
      rw [List.getElem?_eq_getElem hui] at hg
      have : v.tags.idxOf t = v.tags.idxOf u := by
        have := List.Nodup.getElem_inj_iff hs (i := v.tags.idxOf t) (j := v.tags.idxOf u)
          (hi := by simpa using hti) (hj := by simpa using hui)
        apply this.1
        simp only [List.getElem_map]
        rw [Option.some.inj hf, Option.some.inj hg, h]
      exact (List.idxOf_inj ht).1 this
    · rw [if_neg hu] at hg; simp at hg
  · rw [if_neg ht] at hf; simp at hf

theorem assignTags_get [DecidableEq τ] (v : VF τ δ) (hv : WF v) (hs : Separate v) (i : δ → ℤ) (x : List α)
    (ts : List τ) (hts : ts.Nodup) (h : Heap α) (t : τ) (ht : t ∈ ts) (f : Fld δ) (y : α)
    (hf : vget v t = some f) (hy : vecGet v.tags x t = some y) :
    rd (assignTags v i x ts h) f i = y := by
  induction ts generalizing h with
  | nil => simp at ht
  | cons u ts ih =>
    rw [List.nodup_cons] at hts
    simp only [assignTags]
    by_cases htu : t = u
    · subst htu
      rw [hf, hy]
      simp only
      unfold rd
      rw [assignTags_frame v hv]
      · simp [wr]
      · intro u hu g hg hbad
        exact hts.1 (buf_inj v hv hs t u f g hf hg hbad.1 ▸ hu)
    · have ht' : t ∈ ts := by simpa [htu] using ht
      cases vget v u with
      | none => exact ih hts.2 h ht'
      | some g =>
        cases vecGet v.tags x u with
        | none => exact ih hts.2 h ht'
        | some z => exact ih hts.2 _ ht'

/-- **C83** `assign_vector_field_element(field, i, vector)` makes `field(i)` equal to the vector, component by component, and
changes no other element of the field, nor any other memory. -/
theorem c83_assign [DecidableEq τ] (h : Heap α) (v : VF τ δ) (hv : WF v) (hs : Separate v)
    (i : δ → ℤ) (x : List α) (hx : x.length = v.tags.length) :
    vread (assign h v i x) v i = x ∧
    (∀ j, (∀ f ∈ v.comps, Inj f.dims ∧ InDom f.dims i ∧ InDom f.dims j ∧ ∃ d ∈ f.dims, i d.name ≠ j d.name) →
      vread (assign h v i x) v j = vread h v j) ∧
    (∀ b a, (∀ f ∈ v.comps, f.buf ≠ b) → (assign h v i x).mem b a = h.mem b a) := by
  refine ⟨?_, ?_, ?_⟩
  · apply List.ext_getElem
    · simp [vread, hv.2, hx]
    · intro n h1 h2
      have hn : n < v.tags.length := by omega
      simp only [vread, List.getElem_map]
      apply assignTags_get v hv hs i x v.tags hv.1 h v.tags[n] (List.getElem_mem hn) _ _ (comps_eq v hv n hn)
      unfold vecGet
      rw [if_pos (List.getElem_mem hn), hv.1.idxOf_getElem]
      exact List.getElem?_eq_getElem h2
  · intro j hj
    unfold vread
    apply List.map_congr_left
    intro f hf
    unfold rd assign
    apply assignTags_frame v hv
    intro t ht g hg hbad
    obtain ⟨hI, hi, hjd, d, hd, hne⟩ := hj f hf
    obtain ⟨n, hn, rfl⟩ := List.getElem_of_mem hf
    have hn' : n < v.tags.length := by rw [← hv.2]; exact hn
    have htn := buf_inj v hv hs v.tags[n] t _ g (comps_eq v hv n hn') hg hbad.1
    subst htn
    rw [comps_eq v hv n hn'] at hg
    have : v.comps[n] = g := Option.some.inj hg
    subst this
    apply hne
    apply (hI.2 j i hjd hi ?_ d hd).symm
    have := hbad.2
    unfold addr at this
    linarith
  · intro b a hb
    apply assignTags_frame v hv
    intro t ht f hf hbad
    obtain ⟨g, hg, hg'⟩ := vget_mem v hv t ht
    rw [hf] at hg'
    cases hg'
    exact hb f hg hbad.1.symm

/-! ## Deep copies -/

theorem copyTags_spec [DecidableEq τ] [DecidableEq δ] (dst src : VF τ δ) (hd : WF dst) (hs : WF src)
    (hsep : Separate dst) (hinj : ∀ f ∈ dst.comps, Inj f.dims)
    (hdis : ∀ f ∈ dst.comps, ∀ g ∈ src.comps, f.buf ≠ g.buf)
    (ts : List τ) (hts : ts.Nodup) (htd : ∀ t ∈ ts, t ∈ dst.tags) (htS : ∀ t ∈ ts, t ∈ src.tags) (h : Heap α) :
    (copyTags dst src ts h).next = h.next ∧
    (∀ b a, (∀ t ∈ ts, ∀ f, vget dst t = some f → f.buf ≠ b) → (copyTags dst src ts h).mem b a = h.mem b a) ∧
    (∀ t ∈ ts, ∀ f g i j, vget dst t = some f → vget src t = some g → InDom f.dims i → SamePos f.dims g.dims i j →
      rd (copyTags dst src ts h) f i = rd h g j) := by
  induction ts generalizing h with
  | nil => simp [copyTags]
  | cons u ts ih =>
    rw [List.nodup_cons] at hts
    obtain ⟨F, hF, hFg⟩ := vget_mem dst hd u (htd u (by simp))
    obtain ⟨G, hG, hGg⟩ := vget_mem src hs u (htS u (by simp))
    obtain ⟨k0, k1, k2⟩ := copyField_spec h F G (hdis F hF G hG) (hinj F hF)
    obtain ⟨i0, i1, i2⟩ := ih hts.2 (fun t ht => htd t (by simp [ht])) (fun t ht => htS t (by simp [ht]))
      (copyField h F G)
    simp only [copyTags, hFg, hGg]
    refine ⟨by rw [i0, k0], ?_, ?_⟩
    · intro b a hb
      rw [i1 b a (fun t ht => hb t (by simp [ht]))]
      exact k1 b (fun e => hb u (by simp) F hFg e.symm) a
    · intro t ht f g i j hf hg hi hij
      by_cases htu : t = u
      · subst htu
        rw [hFg] at hf; rw [hGg] at hg
        cases hf; cases hg
        rw [← k2 i j hi hij]
        unfold rd
        apply i1
        intro t' ht' f' hf' hb
        exact hts.1 (buf_inj dst hd hsep t' t f' F hf' hFg hb ▸ ht')
      · have ht' : t ∈ ts := by simpa [htu] using ht
        rw [i2 t ht' f g i j hf hg hi hij]
        unfold rd
        apply k1
        obtain ⟨g', hg', e⟩ := vget_mem src hs t (htS t (by simp [ht']))
        rw [hg] at e; cases e
        exact fun e => hdis F hF g hg' e.symm

/-- **C83** After an accepted `deepcopy(dst, src)` the vector of the destination at each position is the vector of the source
at the same position (component by component), the source and all other memory are unchanged. -/
theorem c83_deepcopy [DecidableEq τ] [DecidableEq δ] (h h' : Heap α) (dst src : VF τ δ) (hd : WF dst) (hs : WF src)
    (hsep : Separate dst) (hinj : ∀ f ∈ dst.comps, Inj f.dims)
    (hdis : ∀ f ∈ dst.comps, ∀ g ∈ src.comps, f.buf ≠ g.buf)
    (hc : deepcopy h dst src = some h') :
    (∀ i j, (∀ n (h1 : n < dst.comps.length) (h2 : n < src.comps.length),
        InDom dst.comps[n].dims i ∧ SamePos dst.comps[n].dims src.comps[n].dims i j) →
      vread h' dst i = vread h src j) ∧
    (∀ j, vread h' src j = vread h src j) ∧
    (∀ b a, (∀ f ∈ dst.comps, f.buf ≠ b) → h'.mem b a = h.mem b a) := by
  unfold deepcopy at hc
  by_cases hcond : dst.tags = src.tags ∧
      (vdom dst).map (fun l => l.map fun x => x.2.2) = (vdom src).map (fun l => l.map fun x => x.2.2)
  · rw [if_pos hcond] at hc
    cases hc
    obtain ⟨_, i1, i2⟩ := copyTags_spec dst src hd hs hsep hinj hdis dst.tags hd.1 (fun _ h => h)
      (fun t ht => hcond.1 ▸ ht) h
    have frame : ∀ b a, (∀ f ∈ dst.comps, f.buf ≠ b) → (copyTags dst src dst.tags h).mem b a = h.mem b a := by
      intro b a hb
      apply i1
      intro t ht f hf
      obtain ⟨g, hg, e⟩ := vget_mem dst hd t ht
      rw [hf] at e; cases e
      exact hb f hg
    refine ⟨?_, ?_, frame⟩
    · intro i j hij
      have hlen : dst.comps.length = src.comps.length := by rw [hd.2, hs.2, hcond.1]
      apply List.ext_getElem
      · simp [vread, hlen]
      · intro n h1 h2
        simp only [vread, List.length_map] at h1 h2
        simp only [vread, List.getElem_map]
        have hn : n < dst.tags.length := by rw [← hd.2]; exact h1
        have hn2 : n < src.tags.length := by rw [← hs.2]; exact h2
        have e2 := comps_eq src hs n hn2
        have et : src.tags[n] = dst.tags[n] := by simp [hcond.1]
        rw [et] at e2
        obtain ⟨a1, a2⟩ := hij n h1 h2
        exact i2 dst.tags[n] (List.getElem_mem hn) _ _ i j (comps_eq dst hd n hn) e2 a1 a2
    · intro j
      unfold vread
      apply List.map_congr_left
      intro g hg
      unfold rd
      exact frame _ _ (fun f hf => hdis f hf g hg)
  · rw [if_neg hcond] at hc; simp at hc

/-- **C83** The copy is refused exactly if the tags, or the extents of the first components, differ. -/
theorem c83_deepcopy_refused [DecidableEq τ] (h : Heap α) (dst src : VF τ δ) :
    deepcopy h dst src = none ↔ ¬ (dst.tags = src.tags ∧
      (vdom dst).map (fun l => l.map fun x => x.2.2) = (vdom src).map (fun l => l.map fun x => x.2.2)) := by
  unfold deepcopy
  split_ifs with h <;> simp [h]

/-! ## Mirrors -/

theorem samePos_self (ds es : List (Dim δ)) (i : δ → ℤ)
    (h : (ds.map fun d => (d.name, d.front, d.ext)) = es.map fun d => (d.name, d.front, d.ext)) :
    SamePos ds es i i := by
  induction ds generalizing es with
  | nil => cases es with
    | nil => exact List.Forall₂.nil
    | cons => simp at h
  | cons d ds ih => cases es with
    | nil => simp at h
    | cons e es =>
      simp only [List.map_cons, List.cons.injEq, Prod.mk.injEq] at h
      exact List.Forall₂.cons ⟨h.1.2.2, by rw [h.1.1, h.1.2.1]⟩ (ih es h.2)

theorem inDom_of_dom (ds : List (Dim δ)) (dom : List (δ × ℤ × ℕ)) (i : δ → ℤ)
    (h : (ds.map fun d => (d.name, d.front, d.ext)) = dom)
    (hi : ∀ x ∈ dom, x.2.1 ≤ i x.1 ∧ i x.1 < x.2.1 + x.2.2) : InDom ds i := by
  intro d hd
  have := hi (d.name, d.front, d.ext) (by rw [← h]; exact List.mem_map.2 ⟨d, hd, rfl⟩)
  exact this

/-- **C83** A mirror has the values of the original on its index range.  In an accessible memory space it *is* the original
(writes are seen in both); otherwise its memory is new: writing in the mirror does not touch the original. -/
theorem c83_mirror [DecidableEq τ] [DecidableEq δ] (acc : Bool) (h : Heap α) (v : VF τ δ) (hv : WF v)
    (hne : v.tags ≠ []) (dom : List (δ × ℤ × ℕ)) (hn : (dom.map Prod.fst).Nodup)
    (hdom : ∀ f ∈ v.comps, (f.dims.map fun d => (d.name, d.front, d.ext)) = dom)
    (hold : ∀ f ∈ v.comps, f.buf < h.next) :
    let r := mirror acc h v
    WF r.2 ∧ vdom r.2 = some dom ∧
    (∀ i : δ → ℤ, (∀ x ∈ dom, x.2.1 ≤ i x.1 ∧ i x.1 < x.2.1 + x.2.2) → vread r.1 r.2 i = vread h v i) ∧
    (∀ j, vread r.1 v j = vread h v j) ∧
    (acc = true → r.2 = v) ∧
    (acc = false → ∀ i (x : List α), x.length = v.tags.length → ∀ j,
      vread (assign r.1 r.2 i x) v j = vread h v j) := by
  have hcl : v.comps ≠ [] := by
    intro h0; apply hne; apply List.length_eq_zero_iff.1; rw [← hv.2, h0]; rfl
  have hvd : vdom v = some dom := by
    unfold vdom
    cases hc : v.comps with
    | nil => exact absurd hc hcl
    | cons f fs => simp [hdom f (by simp [hc])]
  cases acc with
  | true =>
    intro r
    exact ⟨hv, hvd, fun _ _ => rfl, fun _ => rfl, fun _ => rfl, by simp⟩
  | false =>
    intro r
    obtain ⟨w1, w2, w3, w4, w5, w6, w7⟩ := c83_mem h v.tags dom hv.1 hn
    have hr : r = (copyTags (vfMem h v.tags dom).2 v v.tags (vfMem h v.tags dom).1, (vfMem h v.tags dom).2) := by
      simp only [r, mirror, hvd, Option.getD_some]
      rfl
    rw [hr]
    simp only
    have hdis : ∀ f ∈ (vfMem h v.tags dom).2.comps, ∀ g ∈ v.comps, f.buf ≠ g.buf := by
      intro f hf g hg
      have := (w4 f hf).1
      have := hold g hg
      omega
    have hcopy : deepcopy (vfMem h v.tags dom).1 (vfMem h v.tags dom).2 v
        = some (copyTags (vfMem h v.tags dom).2 v v.tags (vfMem h v.tags dom).1) := by
      unfold deepcopy
      rw [if_pos ⟨rfl, by rw [w6 hne, hvd]⟩]
      rfl
    obtain ⟨d1, d2, d3⟩ := c83_deepcopy _ _ _ v w1 hv w3 (fun f hf => (w5 f hf).1) hdis hcopy
    have hread : ∀ j, vread (vfMem h v.tags dom).1 v j = vread h v j := by
      intro j; unfold vread rd; rw [w7]
    refine ⟨w1, w6 hne, ?_, ?_, by simp, ?_⟩
    · intro i hi
      rw [d1 i i, hread]
      intro n h1 h2
      have e1 := (w5 _ (List.getElem_mem h1)).2
      have e2 := hdom _ (List.getElem_mem h2)
      exact ⟨inDom_of_dom _ dom i e1 hi, samePos_self _ _ i (by rw [e1, e2])⟩
    · intro j; rw [d2, hread]
    · intro _ i x hx j
      have hA := (c83_assign (copyTags (vfMem h v.tags dom).2 v v.tags (vfMem h v.tags dom).1)
        (vfMem h v.tags dom).2 w1 w3 i x hx).2.2
      rw [← hread, ← d2]
      unfold vread
      apply List.map_congr_left
      intro g hg
      unfold rd
      exact hA _ _ (fun f hf => hdis f hf g hg)

/-! ## What the constructors do not check -/

/-- **C83** Refuted expectation: component fields with different index ranges are accepted; `idx_range()` then contains an index
at which a component has no value, and a copy between such vector fields is accepted and leaves this component incomplete. -/
theorem c83_unchecked_ranges :
    ∃ (v : VF Bool Unit) (i : Unit → ℤ), WF v ∧
      vdom v = some [((), 0, 4)] ∧ (0 ≤ i () ∧ i () < 4) ∧
      (∃ f, vget v true = some f ∧ ¬ InDom f.dims i) ∧
      ∀ h : Heap ℤ, (deepcopy h v (vfMem h [false, true] [((), 0, 4)]).2).isSome := by
  refine ⟨vfOfFields [false, true] [⟨0, 0, layoutRight [((), 0, 4)]⟩, ⟨1, 0, layoutRight [((), 0, 2)]⟩], fun _ => 3,
    ⟨by simp [vfOfFields], by simp [vfOfFields]⟩, ?_, by decide, ?_, ?_⟩
  · simp [vdom, vfOfFields, layoutRight]
  · refine ⟨⟨1, 0, layoutRight [((), 0, 2)]⟩, ?_, ?_⟩
    · simp [vget, vfOfFields, List.idxOf, List.findIdx_cons]
    · intro h
      have := h ⟨(), 0, 2, 1⟩ (by simp [layoutRight])
      simp at this
  · intro h
    simp [deepcopy, vdom, vfOfFields, vfMem, allocN, alloc, layoutRight]

/-- **C83** Refuted expectation: the same pointer for two components is accepted; assigning a vector then does not read back. -/
theorem c83_alias :
    ∃ (v : VF Bool Unit), WF v ∧ v = vfOfPtrs [false, true] [((), 0, 4)] [(0, 0), (0, 0)] ∧
      ∀ (h : Heap ℤ) (i : Unit → ℤ), vread (assign h v i [1, 2]) v i = [2, 2] := by
  refine ⟨_, ⟨by simp [vfOfPtrs], by simp [vfOfPtrs]⟩, rfl, ?_⟩
  intro h i
  simp [vread, assign, assignTags, vfOfPtrs, vget, vecGet, List.idxOf, List.findIdx_cons, rd, wr, addr]

/-! ## Non-vacuity -/

/-- A two-component field on a 3 by 2 box: hypotheses of the theorems, and an assignment read back. -/
example : ∃ (h : Heap ℤ) (v : VF Bool Bool) (i : Bool → ℤ), WF v ∧ Separate v ∧
    (∀ f ∈ v.comps, Inj f.dims ∧ InDom f.dims i) ∧ vread (assign h v i [7, 8]) v i = [7, 8] := by
  have h0 : Heap ℤ := ⟨0, fun _ _ => 0⟩
  obtain ⟨a, _, b, _, c, _, _⟩ := c83_mem h0 [false, true] [(false, 5, 3), (true, 2, 2)] (by simp) (by simp)
  refine ⟨h0, _, fun d => if d then 3 else 7, a, b, ?_, (c83_assign h0 _ a b _ [7, 8] (by rfl)).1⟩
  intro f hf
  refine ⟨(c f hf).1, inDom_of_dom _ _ _ (c f hf).2 ?_⟩
  intro x hx
  simp only [List.mem_cons, List.not_mem_nil, or_false] at hx
  rcases hx with rfl | rfl <;> simp

/-- A slice at an index of the first dimension. -/
example (h : Heap ℤ) :
    vread h (vsliceIdx (vfOfPtrs [false, true] [(false, 5, 3), (true, 2, 2)] [(0, 0), (1, 0)]) [(false, 6)])
      (fun _ => 3) = [h.mem 0 3, h.mem 1 3] := by
  simp [vread, vsliceIdx, vfOfPtrs, vget, List.idxOf, List.findIdx_cons, layoutRight, sliceIdx, rd, addr, offset]

/-- A copy from a box starting at 0 into a box starting at 10. -/
example : ∃ (h h' : Heap ℤ) (d s : VF Bool Unit), deepcopy h d s = some h' ∧
    vread h' d (fun _ => 11) = [101, 201] := by
  refine ⟨⟨4, fun b a => if b = 2 then 100 + a else if b = 3 then 200 + a else 0⟩, _,
    vfOfPtrs [false, true] [((), 10, 2)] [(0, 0), (1, 0)], vfOfPtrs [false, true] [((), 0, 2)] [(2, 0), (3, 0)], rfl, ?_⟩
  decide

end Verif.VectorFields
