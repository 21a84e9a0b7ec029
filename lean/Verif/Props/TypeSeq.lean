import Verif.Model.TypeSeq
import Mathlib.GroupTheory.Perm.Fin
import Mathlib.Data.List.Nodup
import Mathlib.Data.List.OfFn
import Mathlib.Tactic.FinCases
import Mathlib.Data.Fintype.Perm
/-!
# C38 and C56: type sequence utilities
-/
namespace Verif.TypeSeq

variable {α β : Type*} [DecidableEq α]

/-! ## Unique -/

theorem getUnique_spec (l r : List α) (hr : r.Nodup) :
    (getUnique l r).Nodup ∧ (∀ x, x ∈ getUnique l r ↔ x ∈ r ∨ x ∈ l) ∧
      ∃ s, getUnique l r = r ++ s ∧ s.Sublist l := by
  induction l generalizing r with
  | nil => exact ⟨hr, by simp [getUnique], [], by simp [getUnique]⟩
  | cons h t ih =>
    simp only [getUnique]
    split
    · next hm =>
      obtain ⟨h1, h2, s, h3, h4⟩ := ih r hr
      refine ⟨h1, fun x => ?_, s, h3, h4.cons _⟩
      rw [h2]
      constructor
      · rintro (a | a) <;> simp [a]
      · rintro (a | a)
        · exact .inl a
        · rcases List.mem_cons.1 a with rfl | a
          · exact .inl hm
          · exact .inr a
    · next hm =>
      have hr' : (r ++ [h]).Nodup := by
        rw [List.nodup_append]; exact ⟨hr, by simp, by rintro a ha b hb rfl; simp at hb; exact hm (hb ▸ ha)⟩
      obtain ⟨h1, h2, s, h3, h4⟩ := ih _ hr'
      refine ⟨h1, fun x => ?_, h :: s, by simp [h3], h4.cons_cons _⟩
      rw [h2]; simp only [List.mem_append, List.mem_cons, List.not_mem_nil, or_false]; tauto

/-- C56: `type_seq_unique_t` keeps exactly one copy of every element and the remaining elements keep their order. -/
theorem c56_unique (l : List α) :
    (unique l).Nodup ∧ (∀ x, x ∈ unique l ↔ x ∈ l) ∧ (unique l).Sublist l := by
  obtain ⟨h1, h2, s, h3, h4⟩ := getUnique_spec l [] List.nodup_nil
  refine ⟨h1, fun x => by simpa [unique] using h2 x, ?_⟩
  simpa [unique, h3] using h4

theorem getUnique_of_nodup (l r : List α) (h : (r ++ l).Nodup) : getUnique l r = r ++ l := by
  induction l generalizing r with
  | nil => simp [getUnique]
  | cons x t ih =>
    have hx : x ∉ r := fun hm => by
      rw [List.nodup_append] at h; exact h.2.2 x hm x (by simp) rfl
    simp only [getUnique, hx, if_false]
    rw [ih] <;> simpa using h

/-- C56: first occurrences are the ones kept. -/
theorem c56_unique_first (l r : List α) : unique (l ++ r) = unique l ++ (unique r).filter (fun x => x ∉ l) := by
  have gu_append : ∀ (a b acc : List α), getUnique (a ++ b) acc = getUnique b (getUnique a acc) := by
    intro a
    induction a with
    | nil => simp [getUnique]
    | cons h t ih => intro b acc; simp [getUnique, ih]
  -- direct induction on the accumulators
  have main : ∀ (b res : List α), (unique l ++ res.filter (fun x => x ∉ l)).Nodup → res.Nodup →
      getUnique b (unique l ++ res.filter (fun x => x ∉ l)) =
        unique l ++ (getUnique b res).filter (fun x => x ∉ l) := by
    intro b
    induction b with
    | nil => intro res _ _; simp [getUnique]
    | cons h t ih =>
      intro res h1 h2
      have hu := (c56_unique l).2.1
      simp only [getUnique]
      by_cases hl : h ∈ l
      · have hm : h ∈ unique l ++ res.filter (fun x => x ∉ l) := by simp [hu, hl]
        rw [if_pos hm]
        by_cases hr : h ∈ res
        · rw [if_pos hr]; exact ih res h1 h2
        · rw [if_neg hr]
          have e : (res ++ [h]).filter (fun x => x ∉ l) = res.filter (fun x => x ∉ l) := by simp [hl]
          have h2' : (res ++ [h]).Nodup := by
            rw [List.nodup_append]; exact ⟨h2, by simp, by rintro a ha b hb rfl; simp at hb; exact hr (hb ▸ ha)⟩
          have := ih (res ++ [h]) (by rw [e]; exact h1) h2'
          rw [e] at this; exact this
      · by_cases hr : h ∈ res
        · have hm : h ∈ unique l ++ res.filter (fun x => x ∉ l) := by simp [hl, hr]
          rw [if_pos hm, if_pos hr]; exact ih res h1 h2
        · have hm : h ∉ unique l ++ res.filter (fun x => x ∉ l) := by simp [hu, hl, hr]
          rw [if_neg hm, if_neg hr]
          have e : (res ++ [h]).filter (fun x => x ∉ l) = res.filter (fun x => x ∉ l) ++ [h] := by simp [hl]
          have h2' : (res ++ [h]).Nodup := by
            rw [List.nodup_append]; exact ⟨h2, by simp, by rintro a ha b hb rfl; simp at hb; exact hr (hb ▸ ha)⟩
          have h1' : (unique l ++ (res ++ [h]).filter (fun x => x ∉ l)).Nodup := by
            rw [e, ← List.append_assoc, List.nodup_append]
            exact ⟨h1, by simp, by rintro a ha b hb rfl; simp at hb; exact hm (hb ▸ ha)⟩
          have := ih (res ++ [h]) h1' h2'
          rw [e, ← List.append_assoc] at this; exact this
  have := main r [] (by simpa using (c56_unique l).1) List.nodup_nil
  simpa [unique, gu_append] using this

/-- C56: the uniqueness test is exact. -/
theorem c56_has_unique (l : List α) : hasUniqueElements l = true ↔ l.Nodup := by
  simp only [hasUniqueElements, decide_eq_true_eq]
  constructor
  · intro h; rw [h]; exact (c56_unique l).1
  · intro h; rw [unique, getUnique_of_nodup l [] (by simpa using h)]; rfl

theorem unique_eq_iff (l : List α) : l = unique l ↔ l.Nodup := by
  simpa [hasUniqueElements] using c56_has_unique l

theorem containsDuplicate_iff (l o : List α) : containsDuplicate l o = false ↔ l.Nodup ∧ o.Nodup := by
  simp [containsDuplicate, unique_eq_iff, and_comm]

/-! ## Parity -/

theorem parity_isSome (l o : List α) : (parity l o).isSome ↔ l.length = o.length := by
  induction o generalizing l with
  | nil => cases l <;> simp [parity]
  | cons oh ot ih =>
    cases l with
    | nil => simp [parity]
    | cons h t =>
      rw [parity]
      split <;> simp [ih, replace]

/-- C38: the parity exists exactly for sequences of equal lengths. -/
theorem c38_defined (l o : List α) : (∃ v, parity l o = some v) ↔ l.length = o.length := by
  rw [← parity_isSome, Option.isSome_iff_exists]

/-- C38: a repeated index gives zero. -/
theorem c38_duplicate (l o : List α) (hlen : l.length = o.length) (h : ¬ l.Nodup ∨ ¬ o.Nodup) :
    parity l o = some 0 := by
  obtain ⟨v, hv⟩ := (c38_defined l o).2 hlen
  cases l with
  | nil => cases o with
    | nil => simp at h
    | cons => simp at hlen
  | cons x t => cases o with
    | nil => simp at hlen
    | cons y ot =>
      have hd : ∀ o', (o' = y :: ot) → containsDuplicate (x :: t) o' = true := by
        rintro _ rfl
        by_contra hc
        have := (containsDuplicate_iff _ _).1 (by simpa using hc)
        tauto
      rw [parity] at hv ⊢
      split at hv
      · next e => rw [if_pos e]; subst e
                  simp only [hd _ rfl, if_true] at hv ⊢
                  obtain ⟨w, hw, _⟩ := Option.map_eq_some_iff.1 hv
                  simp [hw]
      · next e => rw [if_neg e]
                  simp only [hd _ rfl, if_true] at hv ⊢
                  obtain ⟨w, hw, _⟩ := Option.map_eq_some_iff.1 hv
                  simp [hw]

/-- C38: for an ordered sequence of distinct elements, the parity of its rearrangement by `σ` is the sign of `σ`. -/
theorem c38_sign {n : ℕ} (f : Fin n → α) (hf : Function.Injective f) (σ : Equiv.Perm (Fin n)) :
    parity (List.ofFn (f ∘ σ)) (List.ofFn f) = some (Equiv.Perm.sign σ : ℤ) := by
  induction n with
  | zero => simp [parity, Subsingleton.elim σ 1]
  | succ n ih =>
    have hnd : (List.ofFn f).Nodup := List.nodup_ofFn.2 hf
    have hnd' : (List.ofFn (f ∘ σ)).Nodup := List.nodup_ofFn.2 (hf.comp σ.injective)
    obtain ⟨⟨p, e⟩, rfl⟩ := Equiv.Perm.decomposeFin.symm.surjective σ
    have hcd : containsDuplicate (List.ofFn (f ∘ Equiv.Perm.decomposeFin.symm (p, e))) (List.ofFn f) = false :=
      (containsDuplicate_iff _ _).2 ⟨hnd', hnd⟩
    have hf' : Function.Injective (fun i : Fin n => f i.succ) := hf.comp (Fin.succ_injective n)
    have this : parity (List.ofFn fun i => f (e i).succ) (List.ofFn fun i => f i.succ) = some (Equiv.Perm.sign e : ℤ) :=
      ih (fun i => f i.succ) hf' e
    rw [List.ofFn_succ, List.ofFn_succ (f := f)] at hcd ⊢
    rw [parity]
    simp only [Function.comp, Equiv.Perm.decomposeFin_symm_apply_zero, Equiv.Perm.decomposeFin_symm_apply_succ] at hcd ⊢
    have hsign := Equiv.Perm.decomposeFin.symm_sign p e
    split
    · next hp =>
      have hp0 : p = 0 := hf hp
      subst hp0
      simp only [Equiv.swap_self, Equiv.refl_apply] at hcd ⊢
      rw [this]; simp [hcd, hsign]
    · next hp =>
      have hp0 : p ≠ 0 := fun h => hp (by rw [h])
      have hrep : replace (List.ofFn fun i => f (Equiv.swap 0 p (e i).succ)) (f 0) (f p)
          = List.ofFn fun i => f (e i).succ := by
        rw [replace, List.map_ofFn]
        congr 1; funext i
        simp only [Function.comp]
        by_cases hi : (e i).succ = p
        · rw [hi, Equiv.swap_apply_right, if_pos rfl]
        · rw [Equiv.swap_apply_of_ne_of_ne (Fin.succ_ne_zero _) hi]
          rw [if_neg (fun h => Fin.succ_ne_zero _ (hf h))]
      rw [hrep, this]
      simp [hcd, hsign, hp0]

/-- C38: exchanging two indices at different positions negates the parity (of any sequence of elements of the ordered
sequence, with or without repetition). -/
theorem c38_swap {n : ℕ} (f : Fin n → α) (hf : Function.Injective f) (g : Fin n → Fin n) (i j : Fin n) (hij : i ≠ j) :
    ∃ v : ℤ, parity (List.ofFn (f ∘ g)) (List.ofFn f) = some v ∧
      parity (List.ofFn (f ∘ g ∘ Equiv.swap i j)) (List.ofFn f) = some (-v) := by
  by_cases hg : Function.Injective g
  · let σ : Equiv.Perm (Fin n) := Equiv.ofBijective g (Finite.injective_iff_bijective.1 hg)
    refine ⟨Equiv.Perm.sign σ, c38_sign f hf σ, ?_⟩
    have := c38_sign f hf (σ * Equiv.swap i j)
    rw [Equiv.Perm.sign_mul, Equiv.Perm.sign_swap hij] at this
    have e : ((Equiv.Perm.sign σ * -1 : ℤˣ) : ℤ) = -(Equiv.Perm.sign σ : ℤ) := by simp
    rw [e] at this
    exact this
  · have h1 : ¬ (List.ofFn (f ∘ g)).Nodup := by
      rw [List.nodup_ofFn]; exact fun h => hg (Function.Injective.of_comp h)
    have h2 : ¬ (List.ofFn (f ∘ g ∘ Equiv.swap i j)).Nodup := by
      rw [List.nodup_ofFn]; intro h
      apply hg
      have h3 : Function.Injective (g ∘ Equiv.swap i j) := Function.Injective.of_comp h
      have := h3.comp (Equiv.swap i j).injective
      have e : (g ∘ Equiv.swap i j) ∘ Equiv.swap i j = g := by funext x; simp
      rwa [e] at this
    exact ⟨0, c38_duplicate _ _ (by simp) (.inl h1), by simpa using c38_duplicate _ _ (by simp) (.inl h2)⟩

/-- C38: an index that does not belong to the ordered sequence is not diagnosed: the result is a sign. (The users of the
parity, the Levi-Civita tensors, only query indices of the ordered sequence.) -/
theorem c38_foreign_index (a b : α) (h : a ≠ b) : parity [a] [b] = some (-1) := by
  simp [parity, h, replace, containsDuplicate, unique, getUnique]

example : parity ["t", "r", "z"] ["r", "t", "z"] = some (-1) := by decide +kernel
example : parity ["t", "z", "r"] ["r", "t", "z"] = some 1 := by decide +kernel
example : parity ["t", "t", "r"] ["r", "t", "z"] = some 0 := by decide +kernel
example : Function.Injective (![5, 3, 8] : Fin 3 → ℕ) := by decide

/-! ## Range, cat, duplicate, find -/

theorem merge_singleton (a : List α) (x : α) : merge a [x] = if x ∈ a then a else a ++ [x] := rfl

theorem rangeAux_spec (l : List α) (hn : l.Nodup) (start stop : Nat) (h2 : stop ≤ l.length)
    (k idx fuel : Nat) (hk : idx + k = stop) (hs : start ≤ idx) (hf : k < fuel) :
    rangeAux l start stop fuel idx ((l.drop start).take (idx - start)) = some ((l.drop start).take (stop - start)) := by
  induction k generalizing idx fuel with
  | zero =>
    cases fuel with
    | zero => omega
    | succ fuel => simp only [rangeAux]; rw [if_pos (by omega)]; congr 3
  | succ k ih =>
    cases fuel with
    | zero => omega
    | succ fuel =>
      simp only [rangeAux]
      rw [if_neg (by omega), if_pos h2, List.getElem?_eq_getElem (by omega)]
      simp only
      rw [if_pos (by omega), merge_singleton]
      have hx : l[idx] ∉ (l.drop start).take (idx - start) := by
        intro hm
        rw [List.mem_take_iff_getElem] at hm
        obtain ⟨j, hj, e⟩ := hm
        rw [List.getElem_drop] at e
        have := (List.Nodup.getElem_inj_iff hn).1 e
        omega
      rw [if_neg hx]
      have : (l.drop start).take (idx - start) ++ [l[idx]] = (l.drop start).take (idx + 1 - start) := by
        rw [show idx + 1 - start = (idx - start) + 1 by omega, List.take_add_one, List.getElem?_drop,
          show start + (idx - start) = idx by omega, List.getElem?_eq_getElem (by omega)]; rfl
      rw [this]
      exact ih (idx + 1) fuel (by omega) (by omega) (by omega)

/-- C56: `type_seq_range_t<In, Start, End>` is the sub-sequence of positions `Start ≤ i < End`. -/
theorem c56_range (l : List α) (hn : l.Nodup) (start stop : Nat) (h1 : start ≤ stop) (h2 : stop ≤ l.length) :
    range l start stop = some ((l.drop start).take (stop - start)) := by
  have := rangeAux_spec l hn start stop h2 (stop - start) start (l.length + 2) (by omega) le_rfl (by omega)
  simpa [range] using this

/-- C56: with repeated elements the range loses the repetitions (it is built with a set-like merge). -/
theorem c56_range_drops_repetitions (a b : α) (h : a ≠ b) : range [a, a, b] 0 3 = some [a, b] := by
  have hb : b ≠ a := fun e => h e.symm
  simp [range, rangeAux, merge, hb]

/-- C56: an end before the start does not compile. -/
theorem c56_range_reversed (l : List α) (start stop : Nat) (h : stop < start) : range l start stop = none := by
  have : ∀ fuel idx out, stop < idx → rangeAux l start stop fuel idx out = none := by
    intro fuel
    induction fuel with
    | zero => intros; rfl
    | succ fuel ih =>
      intro idx out hi
      simp only [rangeAux]
      rw [if_neg (by omega)]
      split
      · split
        · rfl
        · exact ih _ _ (by omega)
      · rfl
  exact this _ _ _ h

/-- C56: concatenation keeps all elements in order. -/
theorem c56_cat (a b : List α) (rest : List (List α)) : cat (a :: b :: rest) = some ((a :: b :: rest).flatten) := by
  induction rest generalizing a b with
  | nil => simp [cat]
  | cons c rest ih => rw [cat, ih]; simp

/-- C56: `type_seq_duplicate_t` holds `n` copies. -/
theorem c56_duplicate (x : α) (n : ℕ) : duplicate x n = List.replicate n x := by
  simp [duplicate, List.map_const']

/-- C56: `find_grid_t` returns the first grid discretising the requested dimension; it is the type void exactly when there
is none (no diagnostic is raised). -/
theorem c56_find_grid [DecidableEq β] (cdim : α → β) (d : β) (l : List α) :
    (∀ g, findGrid cdim d l = some g ↔ ∃ pre post, l = pre ++ g :: post ∧ cdim g = d ∧ ∀ x ∈ pre, cdim x ≠ d) ∧
    (findGrid cdim d l = none ↔ ∀ g ∈ l, cdim g ≠ d) := by
  induction l with
  | nil => simp [findGrid]
  | cons h t ih =>
    simp only [findGrid]
    split
    · next e =>
      constructor
      · intro g
        constructor
        · intro hg; cases hg; exact ⟨[], t, rfl, e, by simp⟩
        · rintro ⟨pre, post, h1, h2, h3⟩
          cases pre with
          | nil => simp at h1; simp [h1.1]
          | cons p pre => simp at h1; exact absurd e (by rw [h1.1]; exact h3 p (by simp))
      · simp [e]
    · next e =>
      constructor
      · intro g
        rw [ih.1]
        constructor
        · rintro ⟨pre, post, h1, h2, h3⟩
          exact ⟨h :: pre, post, by simp [h1], h2, by simpa [e] using h3⟩
        · rintro ⟨pre, post, h1, h2, h3⟩
          cases pre with
          | nil => simp at h1; exact absurd h2 (by rw [← h1.1]; exact e)
          | cons p pre => simp at h1; exact ⟨pre, post, h1.2, h2, fun x hx => h3 x (by simp [hx])⟩
      · rw [ih.2]; simp [e]

/-- C56: `FindAllGrids` gives, for each dimension and in the order of the dimensions, the first grid that discretises it. -/
theorem c56_find_all_grids [DecidableEq β] (cdim : α → β) (ds : List β) (l : List α) :
    (findAllGrids cdim ds l).length = ds.length ∧ ∀ i (hi : i < ds.length) g,
      (findAllGrids cdim ds l)[i]? = some (some g) ↔ ∃ pre post, l = pre ++ g :: post ∧ cdim g = ds[i] ∧ ∀ x ∈ pre, cdim x ≠ ds[i] := by
  refine ⟨by simp [findAllGrids], fun i hi g => ?_⟩
  unfold findAllGrids
  rw [List.getElem?_map, List.getElem?_eq_getElem hi, Option.map_some, Option.some.injEq]
  exact (c56_find_grid cdim ds[i] l).1 g

example : findAllGrids (fun n : ℕ => n % 3) [2, 0] [4, 5, 6, 8] = [some 5, some 6] := by decide

/-- C56: `get_first_t` is not the first element satisfying the condition as soon as the first list element does not satisfy
it: it denotes the meta-function class itself. -/
theorem c56_get_first_defect (cond : α → Bool) (x y : α) (hx : cond x = false) (hy : cond y = true) :
    getFirstType cond [x, y] ≠ .element y := by
  simp [getFirstType, hx]

/-- C56: what does hold: if the head satisfies the condition, it is returned. -/
theorem c56_get_first_head (cond : α → Bool) (x : α) (t : List α) (hx : cond x = true) :
    getFirstType cond (x :: t) = .element x := by simp [getFirstType, hx]

/-! ## Insertion of MPI tags -/

theorem merge_of_nodup (a b : List α) (h : (a ++ b).Nodup) : merge a b = a ++ b := by
  induction b generalizing a with
  | nil => simp [merge]
  | cons x t ih =>
    have hx : x ∉ a := fun hm => by
      rw [List.nodup_append] at h; exact h.2.2 x hm x (by simp) rfl
    have := ih (a ++ [x]) (by simpa using h)
    simpa [merge, hx] using this

/-- C56: insertion puts the tag at the requested position of a sequence of distinct elements. -/
theorem c56_insert (tag : α) (l : List α) (hn : l.Nodup) (ht : tag ∉ l) (p : ℕ) :
    insertInto tag p l = if p ≤ l.length then some (l.take p ++ tag :: l.drop p) else none := by
  induction p generalizing l with
  | zero => simp [insertInto]
  | succ p ih =>
    cases l with
    | nil => simp [insertInto]
    | cons h t =>
      have hr : remove (h :: t) h = t := by
        have : h ∉ t := (List.nodup_cons.1 hn).1
        simp only [remove, ne_eq, decide_not, not_true_eq_false, List.filter_cons, decide_true, Bool.not_true, Bool.false_eq_true, if_false]
        rw [List.filter_eq_self]
        intro a ha
        simpa using (fun e : a = h => this (e ▸ ha))
      simp only [insertInto, hr, ih t (List.nodup_cons.1 hn).2 (by simp_all)]
      split
      · next hp =>
        rw [if_pos (by simpa using hp)]
        simp only [Option.map_some, List.take_succ_cons, List.drop_succ_cons, List.cons_append, Option.some.injEq]
        rw [merge_of_nodup]; · rfl
        have hperm : (t.take p ++ tag :: t.drop p).Perm (tag :: t) := by
          simpa using (List.perm_middle (a := tag) (l₁ := t.take p) (l₂ := t.drop p))
        rw [List.singleton_append, List.nodup_cons, hperm.nodup_iff, hperm.mem_iff]
        simp only [List.nodup_cons, List.mem_cons, not_or] at hn ht ⊢
        exact ⟨⟨fun e => ht.1 e.symm, hn.1⟩, ht.2, hn.2⟩
      · next hp => rw [if_neg (by simpa using hp)]; rfl

theorem idxOf_split (d : α) (l : List α) (hd : d ∈ l) :
    l.drop (l.idxOf d) = d :: l.drop (l.idxOf d + 1) := by
  have h : l.idxOf d < l.length := List.idxOf_lt_length_iff.2 hd
  rw [List.drop_eq_getElem_cons h, List.getElem_idxOf]

/-- C56: `insert_into_seq_before_t` puts the tag immediately before the first dimension of the sub-sequence. -/
theorem c56_insert_before (tag d : α) (sub a b : List α) (hn : (a ++ d :: b).Nodup) (ht : tag ∉ a ++ d :: b) :
    insertBefore tag (d :: sub) (a ++ d :: b) = some (a ++ tag :: d :: b) := by
  have hd : d ∉ a := by
    intro h
    exact (List.nodup_append.1 hn).2.2 d h d (by simp) rfl
  have hr : rank d (a ++ d :: b) = some a.length := by
    simp [rank, List.idxOf_append, hd]
  simp only [insertBefore, hr, Option.bind_some, c56_insert tag _ hn ht]
  simp

example : insertBefore 9 [2, 3] [1, 2, 3] = some [1, 9, 2, 3] := c56_insert_before 9 2 [3] [1] [3] (by decide) (by decide)

/-- What the insertion is documented to produce: every distributed dimension is preceded by its MPI tag, everything else is
unchanged. -/
def withTags (mpi : α → α) (ds l : List α) : List α :=
  l.flatMap fun x => if x ∈ ds then [mpi x, x] else [x]

theorem withTags_append (mpi : α → α) (ds a b : List α) : withTags mpi ds (a ++ b) = withTags mpi ds a ++ withTags mpi ds b := by
  simp [withTags]

/-- C56: `insert_mpi_tags_into_seq_t` puts every MPI tag immediately before the dimension it splits, in whatever order the
tags are listed, and leaves the rest untouched. -/
theorem c56_insert_mpi_tags (mpi : α → α) (ds l : List α) (hl : l.Nodup) (hds : ds.Nodup) (hsub : ∀ d ∈ ds, d ∈ l)
    (hinj : Function.Injective mpi) (hnew : ∀ d ∈ ds, mpi d ∉ l) (hdd : ∀ d ∈ ds, ∀ e ∈ ds, mpi d ≠ e) :
    insertMPITags mpi ds l = some (withTags mpi ds l) := by
  have hid : ∀ l : List α, withTags mpi [] l = l := by
    intro l; induction l with
    | nil => rfl
    | cons h t ih => simp_all [withTags]
  induction ds generalizing l with
  | nil => simp [insertMPITags, hid]
  | cons d ds ih =>
    have hd : d ∈ l := hsub d (by simp)
    have hlt : l.idxOf d < l.length := List.idxOf_lt_length_iff.2 hd
    set p := l.idxOf d with hp
    have hsplit : l = l.take p ++ d :: l.drop (p + 1) := by
      rw [← idxOf_split d l hd, List.take_append_drop]
    have e1 : insertInto (mpi d) p l = some (l.take p ++ mpi d :: d :: l.drop (p + 1)) := by
      rw [c56_insert _ _ hl (hnew d (by simp)), if_pos (by omega), ← idxOf_split d l hd]
    simp only [insertMPITags, rank, if_pos hd, ← hp, Option.bind_some, e1]
    have hdds : d ∉ ds := (List.nodup_cons.1 hds).1
    have hperm : (l.take p ++ mpi d :: d :: l.drop (p + 1)).Perm (mpi d :: l) := by
      conv_rhs => rw [hsplit]
      exact List.perm_middle
    rw [ih]
    · congr 1
      rw [withTags_append]
      conv_rhs => rw [hsplit, withTags_append]
      have hmd : mpi d ∉ ds := fun h => hdd d (by simp) (mpi d) (by simp [h]) rfl
      have hnd := hl; rw [hsplit, List.nodup_append] at hnd
      have c1 : ∀ a : List α, d ∉ a → withTags mpi ds a = withTags mpi (d :: ds) a := by
        intro a ha
        unfold withTags
        induction a with
        | nil => rfl
        | cons x t ih' =>
          have hx : x ≠ d := fun e => ha (by simp [e])
          rw [List.flatMap_cons, List.flatMap_cons, ih' (fun h => ha (by simp [h]))]
          simp [hx]
      rw [c1 (l.take p) (fun h => hnd.2.2 d h d (by simp) rfl)]
      congr 1
      have : withTags mpi ds (mpi d :: d :: l.drop (p + 1)) = mpi d :: d :: withTags mpi ds (l.drop (p+1)) := by
        simp [withTags, hmd, hdds]
      rw [this, c1 _ (List.nodup_cons.1 hnd.2.1).1]
      simp [withTags]
    · rw [hperm.nodup_iff, List.nodup_cons]; exact ⟨hnew d (by simp), hl⟩
    · exact (List.nodup_cons.1 hds).2
    · intro x hx; rw [hperm.mem_iff]; exact List.mem_cons_of_mem _ (hsub x (by simp [hx]))
    · intro x hx; rw [hperm.mem_iff, List.mem_cons, not_or]
      exact ⟨fun e => hdds (hinj e ▸ hx), hnew x (by simp [hx])⟩
    · intro x hx y hy; exact hdd x (by simp [hx]) y (by simp [hy])

example : insertMPITags (· + 100) [3, 1] [1, 2, 3] = some [101, 1, 2, 103, 3] := by decide +kernel

/-- C56: the adjacency test holds exactly when the queried dimensions are consecutive, in order, in the container. -/
theorem c56_adjacent (query l : List α) (hl : l.Nodup) (hq : query ≠ []) (hsub : ∀ q ∈ query, q ∈ l) :
    areAdjacent query l = some true ↔ query <:+: l := by
  have hall : query.all (fun q => decide (q ∈ l)) = true := by simpa [List.all_eq_true] using hsub
  simp only [areAdjacent, hall, if_true, Option.some.injEq, List.all_eq_true, List.mem_range, List.length_map,
    Bool.or_eq_true, decide_eq_true_eq]
  constructor
  · intro h
    have hlen : 0 < query.length := List.length_pos_iff.2 hq
    have hr : ∀ i (hi : i < query.length), l.idxOf query[i] = l.idxOf query[0] + i := by
      intro i
      induction i with
      | zero => intro _; rfl
      | succ i ih =>
        intro hi
        have := h (i + 1) hi
        have hi' : i < query.length := by omega
        simp only [Nat.add_sub_cancel, Nat.add_eq_zero_iff, one_ne_zero, and_false, false_or,
          List.getD_eq_getElem?_getD, List.getElem?_map, List.getElem?_eq_getElem hi, List.getElem?_eq_getElem hi',
          Option.map_some, Option.getD_some] at this
        rw [this, ih hi']; omega
    set p := l.idxOf query[0] with hp
    refine ⟨l.take p, l.drop (p + query.length), ?_⟩
    have hlast := hr (query.length - 1) (by omega)
    have hlt : p + query.length ≤ l.length := by
      have : l.idxOf query[query.length - 1] < l.length := List.idxOf_lt_length_iff.2 (hsub _ (List.getElem_mem _))
      omega
    have : query = (l.drop p).take query.length := by
      apply List.ext_getElem
      · simp; omega
      · intro i h1 h2
        rw [List.getElem_take, List.getElem_drop]
        have := hr i h1
        have e := List.getElem_idxOf (x := query[i]) (xs := l) (List.idxOf_lt_length_iff.2 (hsub _ (List.getElem_mem _)))
        simp only [this] at e
        exact e.symm
    conv_lhs => rw [this]
    rw [List.length_take, List.length_drop, min_eq_left (by omega), ← List.drop_drop, List.append_assoc,
      List.take_append_drop, List.take_append_drop]
  · rintro ⟨s, t, rfl⟩ i hi
    by_cases h0 : i = 0
    · exact .inl (by simp [h0])
    · refine .inr ?_
      have hidx : ∀ j (hj : j < query.length), (s ++ query ++ t).idxOf query[j] = s.length + j := by
        intro j hj
        have e : (s ++ query ++ t)[s.length + j]'(by simp; omega) = query[j] := by
          rw [List.getElem_append_left (by simp; omega), List.getElem_append_right (by omega)]; simp
        rw [← e, hl.idxOf_getElem]
      have hi' : i - 1 < query.length := by omega
      simp only [List.getD_eq_getElem?_getD, List.getElem?_map, List.getElem?_eq_getElem hi, List.getElem?_eq_getElem hi',
          Option.map_some, Option.getD_some, hidx]
      omega

example : areAdjacent [2, 3] [1, 2, 3, 4] = some true := by decide +kernel
example : areAdjacent [3, 2] [1, 2, 3, 4] = some false := by decide +kernel

end Verif.TypeSeq
