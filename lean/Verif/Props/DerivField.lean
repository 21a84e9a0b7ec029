import Verif.Model.DerivField
import Mathlib.Tactic.Linarith
import Mathlib.Tactic.Ring
import Mathlib.Data.List.Nodup

/-!
# C77: fields with their derivatives
-/

namespace Verif.DerivField

/-! ## Specification -/

/-- The point `i` is one of those where the derivatives in dimension `k` are kept. -/
def InSlice (d : Desc) (k : ℕ) (i : ℤ) : Prop := ∃ j : ℕ, j < d.sCount k ∧ i = d.sFront k + j * d.sStride k

/-- The elements of a field with derivatives: orders at most `NDerivs`; in dimensions in which the order is not zero the point is one of those where derivatives are kept, in the others a point of the grid. -/
structure Valid (d : Desc) (e : Elem) : Prop where
  ord : ∀ k, Tag.der k ∈ d.ddims → e.ord k ≤ d.nDerivs
  deriv : ∀ k, Tag.grid k ∈ d.ddims → Tag.der k ∈ d.ddims → e.ord k ≠ 0 → InSlice d k (e.pos k)
  value : ∀ k, Tag.grid k ∈ d.ddims → ¬(Tag.der k ∈ d.ddims ∧ e.ord k ≠ 0) → d.front k ≤ e.pos k ∧ e.pos k < d.front k + d.size k

/-- Two elements with the same index in all the dimensions of the field. -/
def Same (d : Desc) (e e' : Elem) : Prop := ∀ t ∈ d.ddims, match t with
  | .grid k => e.pos k = e'.pos k
  | .der k => e.ord k = e'.ord k

/-- What the types guarantee: no dimension twice, and positive strides. -/
structure WF (d : Desc) : Prop where
  nodup : d.ddims.Nodup
  stride : ∀ k, 0 < d.sStride k

/-! ## Bits -/

theorem mem_derivTags (d : Desc) (k : ℕ) : k ∈ d.derivTags ↔ Tag.der k ∈ d.ddims := by
  rw [Desc.derivTags, List.mem_filterMap]
  constructor
  · rintro ⟨t, ht, h⟩
    cases t with
    | grid j => simp at h
    | der j => simp at h; rw [← h]; exact ht
  · intro h; exact ⟨_, h, rfl⟩

theorem derivTags_nodup (d : Desc) (h : d.ddims.Nodup) : d.derivTags.Nodup := by
  refine List.Nodup.filterMap ?_ h
  intro t t' k hk hk'
  cases t <;> cases t' <;> simp at hk hk' ⊢
  rw [hk, hk']

/-- The sum of `get_array_index`. -/
def bits (l : List ℕ) (b : ℕ → ℕ) : ℕ := (l.map fun k => b k <<< l.idxOf k).sum

theorem sum_two_mul (l : List ℕ) (f : ℕ → ℕ) : (l.map fun k => 2 * f k).sum = 2 * (l.map f).sum := by
  induction l with
  | nil => rfl
  | cons a l ih => rw [List.map_cons, List.sum_cons, ih, List.map_cons, List.sum_cons]; omega

theorem bits_cons (h : ℕ) (t : List ℕ) (b : ℕ → ℕ) (hn : (h :: t).Nodup) : bits (h :: t) b = b h + 2 * bits t b := by
  have hmem := List.nodup_cons.1 hn
  unfold bits
  rw [List.map_cons, List.sum_cons, List.idxOf_cons_self, Nat.shiftLeft_zero]
  congr 1
  have : (t.map fun k => b k <<< (h :: t).idxOf k) = t.map fun k => 2 * (b k <<< t.idxOf k) := by
    apply List.map_congr_left
    intro k hk
    have hne : h ≠ k := fun e => hmem.1 (e ▸ hk)
    rw [List.idxOf_cons_ne _ hne, Nat.shiftLeft_succ]
  rw [this]; exact sum_two_mul t _

theorem bits_spec (l : List ℕ) (hn : l.Nodup) (b : ℕ → ℕ) (hb : ∀ k, b k = 0 ∨ b k = 1) :
    bits l b < 2 ^ l.length ∧ ∀ k ∈ l, (bits l b).testBit (l.idxOf k) = decide (b k = 1) := by
  induction l with
  | nil => simp [bits]
  | cons h t ih =>
    have hmem := List.nodup_cons.1 hn
    obtain ⟨i1, i2⟩ := ih hmem.2
    rw [bits_cons h t b hn]
    refine ⟨?_, ?_⟩
    · rw [List.length_cons, pow_succ]
      rcases hb h with h0 | h0 <;> omega
    · intro k hk
      rcases List.mem_cons.1 hk with e | hk
      · subst e
        rw [List.idxOf_cons_self, Nat.testBit_zero]
        rcases hb k with h0 | h0
        · rw [h0]; simp
        · rw [h0]; simp
      · have hne : h ≠ k := fun e => hmem.1 (e ▸ hk)
        rw [List.idxOf_cons_ne _ hne, Nat.testBit_succ, ← i2 k hk]
        congr 1
        rcases hb h with h0 | h0 <;> omega

theorem bits_testBit (l : List ℕ) (hn : l.Nodup) (a : ℕ) (ha : a < 2 ^ l.length) :
    bits l (fun k => if a.testBit (l.idxOf k) then 1 else 0) = a := by
  induction l generalizing a with
  | nil => simp at ha; simp [bits, ha]
  | cons h t ih =>
    have hmem := List.nodup_cons.1 hn
    rw [bits_cons h t _ hn, List.idxOf_cons_self, Nat.testBit_zero]
    rw [List.length_cons, pow_succ] at ha
    have := ih hmem.2 (a / 2) (by omega)
    have e : bits t (fun k => if a.testBit ((h :: t).idxOf k) then 1 else 0) = bits t (fun k => if (a / 2).testBit (t.idxOf k) then 1 else 0) := by
      unfold bits
      congr 1
      apply List.map_congr_left
      intro k hk
      have hne : h ≠ k := fun e => hmem.1 (e ▸ hk)
      simp only
      rw [List.idxOf_cons_ne _ hne, Nat.testBit_succ]
    rw [e, this]
    by_cases h1 : a % 2 = 1 <;> simp [h1] <;> omega

theorem arrayIndex_bits (d : Desc) (ord : ℕ → ℕ) : arrayIndex d ord = bits d.derivTags fun k => if ord k ≠ 0 then 1 else 0 := rfl

theorem arrayIndex_lt {d : Desc} (h : WF d) (ord : ℕ → ℕ) : arrayIndex d ord < 2 ^ d.derivTags.length := by
  rw [arrayIndex_bits]
  exact (bits_spec _ (derivTags_nodup d h.nodup) _ fun k => by by_cases h : ord k = 0 <;> simp [h]).1

theorem hasDeriv_iff {d : Desc} (h : WF d) (ord : ℕ → ℕ) (k : ℕ) : hasDeriv d (arrayIndex d ord) k = true ↔ Tag.der k ∈ d.ddims ∧ ord k ≠ 0 := by
  rw [hasDeriv, Bool.and_eq_true, decide_eq_true_iff, mem_derivTags]
  constructor
  · rintro ⟨h1, h2⟩
    refine ⟨h1, ?_⟩
    rw [arrayIndex_bits, Desc.rank, (bits_spec _ (derivTags_nodup d h.nodup) _ fun k => by by_cases h : ord k = 0 <;> simp [h]).2 k ((mem_derivTags d k).2 h1)] at h2
    intro h0
    simp [h0] at h2
  · rintro ⟨h1, h2⟩
    refine ⟨h1, ?_⟩
    rw [arrayIndex_bits, Desc.rank, (bits_spec _ (derivTags_nodup d h.nodup) _ fun k => by by_cases h : ord k = 0 <;> simp [h]).2 k ((mem_derivTags d k).2 h1)]
    simp [h2]

/-! ## Offsets -/

theorem offset_some (l : List Tag) (ext : Tag → ℕ) (sl : Tag → Option ℕ) :
    (∀ o, offset (l.map ext) (strides (l.map ext)) (l.map sl) = some o → o < (l.map ext).prod ∧ ∀ t ∈ l, ∃ p, sl t = some p ∧ p < ext t) ∧
    ((∀ t ∈ l, ∃ p, sl t = some p ∧ p < ext t) → ∃ o, offset (l.map ext) (strides (l.map ext)) (l.map sl) = some o) := by
  induction l with
  | nil => simp [offset, strides]
  | cons t l ih =>
    constructor
    · intro o ho
      simp only [List.map_cons, strides] at ho ⊢
      cases hs : sl t with
      | none => rw [hs] at ho; simp [offset] at ho
      | some p =>
        rw [hs, offset] at ho
        by_cases hp : p < ext t
        · rw [if_pos hp, Option.map_eq_some_iff] at ho
          obtain ⟨o', h1, h2⟩ := ho
          obtain ⟨h3, h4⟩ := ih.1 o' h1
          refine ⟨?_, ?_⟩
          · rw [List.prod_cons, ← h2]
            have : (p + 1) * (l.map ext).prod ≤ ext t * (l.map ext).prod := Nat.mul_le_mul_right _ hp
            rw [Nat.add_mul, Nat.one_mul] at this
            omega
          · intro t' ht'
            rcases List.mem_cons.1 ht' with e | ht'
            · subst e; exact ⟨p, hs, hp⟩
            · exact h4 t' ht'
        · rw [if_neg hp] at ho; simp at ho
    · intro h
      obtain ⟨p, hs, hp⟩ := h t (by simp)
      obtain ⟨o, ho⟩ := ih.2 fun t' ht' => h t' (List.mem_cons_of_mem _ ht')
      refine ⟨p * (l.map ext).prod + o, ?_⟩
      simp only [List.map_cons, strides]
      rw [hs, offset, if_pos hp, ho]; rfl

theorem offset_inj (l : List Tag) (ext : Tag → ℕ) (sl sl' : Tag → Option ℕ) (o : ℕ)
    (h : offset (l.map ext) (strides (l.map ext)) (l.map sl) = some o) (h' : offset (l.map ext) (strides (l.map ext)) (l.map sl') = some o) :
    ∀ t ∈ l, sl t = sl' t := by
  induction l generalizing o with
  | nil => simp
  | cons t l ih =>
    simp only [List.map_cons, strides] at h h'
    cases hs : sl t with
    | none => rw [hs] at h; simp [offset] at h
    | some p =>
      cases hs' : sl' t with
      | none => rw [hs'] at h'; simp [offset] at h'
      | some p' =>
        rw [hs, offset] at h
        rw [hs', offset] at h'
        split at h
        · rename_i hp
          split at h'
          · rename_i hp'
            rw [Option.map_eq_some_iff] at h h'
            obtain ⟨o1, h1, h2⟩ := h
            obtain ⟨o2, h3, h4⟩ := h'
            have l1 := ((offset_some l ext sl).1 o1 h1).1
            have l2 := ((offset_some l ext sl').1 o2 h3).1
            have hpp : p = p' := by
              obtain ⟨P, hP⟩ : ∃ P, P = (l.map ext).prod := ⟨_, rfl⟩
              rw [← hP] at l1 l2 h2 h4
              rcases lt_trichotomy p p' with hl | hl | hl
              · have := Nat.mul_le_mul_right P hl
                rw [Nat.succ_mul] at this
                omega
              · exact hl
              · have := Nat.mul_le_mul_right P hl
                rw [Nat.succ_mul] at this
                omega
            subst hpp
            have ho : o1 = o2 := by omega
            subst ho
            intro t' ht'
            rcases List.mem_cons.1 ht' with e | ht'
            · subst e; rw [hs, hs']
            · exact ih o1 h1 h3 t' ht'
          · simp at h'
        · simp at h

theorem offset_surj (l : List Tag) (hn : l.Nodup) (ext : Tag → ℕ) (o : ℕ) (ho : o < (l.map ext).prod) :
    ∃ p : Tag → ℕ, (∀ t ∈ l, p t < ext t) ∧ offset (l.map ext) (strides (l.map ext)) (l.map fun t => some (p t)) = some o := by
  induction l generalizing o with
  | nil => simp at ho; exact ⟨fun _ => 0, by simp, by simp [offset, strides, ho]⟩
  | cons t l ih =>
    have hmem := List.nodup_cons.1 hn
    rw [List.map_cons, List.prod_cons] at ho
    obtain ⟨P, hP⟩ : ∃ P, P = (l.map ext).prod := ⟨_, rfl⟩
    have hP0 : 0 < P := by
      rcases Nat.eq_zero_or_pos P with h0 | h0
      · rw [← hP, h0, Nat.mul_zero] at ho; omega
      · exact h0
    obtain ⟨p, h1, h2⟩ := ih hmem.2 (o % P) (hP ▸ Nat.mod_lt _ hP0)
    refine ⟨fun t' => if t' = t then o / P else p t', ?_, ?_⟩
    · intro t' ht'
      rcases List.mem_cons.1 ht' with e | ht'
      · subst e; simp only [if_true]; rw [Nat.div_lt_iff_lt_mul hP0, hP]; exact ho
      · have hne : t' ≠ t := fun e => hmem.1 (e ▸ ht')
        simp only [if_neg hne]; exact h1 t' ht'
    · simp only [List.map_cons, strides, if_true]
      rw [offset, if_pos (by rw [Nat.div_lt_iff_lt_mul hP0, hP]; exact ho)]
      have : (l.map fun t' => some (if t' = t then o / P else p t')) = l.map fun t' => some (p t') := by
        apply List.map_congr_left
        intro t' ht'
        have hne : t' ≠ t := fun e => hmem.1 (e ▸ ht')
        rw [if_neg hne]
      rw [this, h2, ← hP, Option.map_some, Option.some_inj, Nat.mul_comm]
      exact Nat.div_add_mod o P

/-! ## Elements and memory -/

theorem sliceContains_iff (d : Desc) (h : WF d) (k : ℕ) (i : ℤ) : sliceContains d k i = true ↔ InSlice d k i := by
  have hs : (0 : ℤ) < d.sStride k := by exact_mod_cast h.stride k
  rw [sliceContains, decide_eq_true_iff, InSlice]
  constructor
  · rintro ⟨h1, h2, h3⟩
    have h4 : 0 ≤ (i - d.sFront k) / d.sStride k := Int.ediv_nonneg (by omega) hs.le
    refine ⟨((i - d.sFront k) / d.sStride k).toNat, by omega, ?_⟩
    rw [Int.toNat_of_nonneg h4]
    have := Int.mul_ediv_add_emod (i - d.sFront k) (d.sStride k)
    rw [h2] at this
    rw [mul_comm] at this
    omega
  · rintro ⟨j, h1, h2⟩
    have e : i - d.sFront k = j * d.sStride k := by omega
    rw [e]
    refine ⟨?_, Int.mul_emod_left _ _, ?_⟩
    · have : (0 : ℤ) ≤ j * d.sStride k := by positivity
      omega
    · rw [Int.mul_ediv_cancel _ hs.ne']; exact_mod_cast h1

theorem getIndex_spec (d : Desc) (h : WF d) (k : ℕ) (i : ℤ) (p : ℕ) : getIndex d k i = some p ↔ p < d.sCount k ∧ i = d.sFront k + p * d.sStride k := by
  have hs : (0 : ℤ) < d.sStride k := by exact_mod_cast h.stride k
  have key : ∀ j : ℕ, i = d.sFront k + j * d.sStride k → ((i - d.sFront k) / d.sStride k).toNat = j := by
    intro j hj
    have e : i - d.sFront k = j * d.sStride k := by omega
    rw [e, Int.mul_ediv_cancel _ hs.ne', Int.toNat_natCast]
  rw [getIndex]
  split
  · rename_i hc
    obtain ⟨j, h1, h2⟩ := (sliceContains_iff d h k i).1 hc
    rw [key j h2, Option.some_inj]
    constructor
    · intro e; rw [← e]; exact ⟨h1, h2⟩
    · rintro ⟨_, h3⟩; rw [← key j h2, key p h3]
  · rename_i hc
    constructor
    · intro h; simp at h
    · rintro ⟨h1, h2⟩; exact absurd ((sliceContains_iff d h k i).2 ⟨p, h1, h2⟩) hc

theorem asSize_spec (i : ℤ) (p : ℕ) : asSize i = some p ↔ i = p := by
  rw [asSize]
  split
  · rw [Option.some_inj]; omega
  · constructor
    · intro h; simp at h
    · intro h; omega

/-- The position of a valid element in one dimension of its array. -/
theorem slicer_valid {d : Desc} (h : WF d) (e : Elem) :
    Valid d e ↔ ∀ t ∈ d.ddims, ∃ p, slicer d (arrayIndex d e.ord) e t = some p ∧ p < extent d (arrayIndex d e.ord) t := by
  constructor
  · intro hv t ht
    cases t with
    | grid k =>
      by_cases hd : hasDeriv d (arrayIndex d e.ord) k = true
      · obtain ⟨h1, h2⟩ := (hasDeriv_iff h e.ord k).1 hd
        obtain ⟨j, h3, h4⟩ := hv.deriv k ht h1 h2
        refine ⟨j, ?_, ?_⟩
        · rw [slicer, if_pos hd, getIndex_spec d h]; exact ⟨h3, h4⟩
        · rw [extent, if_pos hd]; exact h3
      · have hv' := hv.value k ht fun hc => hd ((hasDeriv_iff h e.ord k).2 hc)
        refine ⟨(e.pos k - d.front k).toNat, ?_, ?_⟩
        · rw [slicer, if_neg hd, asSize_spec]; omega
        · rw [extent, if_neg hd]; omega
    | der k =>
      by_cases hd : hasDeriv d (arrayIndex d e.ord) k = true
      · obtain ⟨h1, h2⟩ := (hasDeriv_iff h e.ord k).1 hd
        have h3 := hv.ord k h1
        refine ⟨e.ord k - 1, ?_, ?_⟩
        · rw [slicer, if_pos hd, asSize_spec]; omega
        · rw [extent, if_pos hd]; omega
      · have h0 : e.ord k = 0 := by
          by_contra hc
          exact hd ((hasDeriv_iff h e.ord k).2 ⟨ht, hc⟩)
        refine ⟨0, ?_, ?_⟩
        · rw [slicer, if_neg hd, if_pos h0]
        · rw [extent, if_neg hd]; omega
  · intro hs
    refine ⟨?_, ?_, ?_⟩
    · intro k hk
      by_cases h0 : e.ord k = 0
      · omega
      · have hd := (hasDeriv_iff h e.ord k).2 ⟨hk, h0⟩
        obtain ⟨p, h1, h2⟩ := hs _ hk
        rw [slicer, if_pos hd, asSize_spec] at h1
        rw [extent, if_pos hd] at h2
        omega
    · intro k hk hk' h0
      have hd := (hasDeriv_iff h e.ord k).2 ⟨hk', h0⟩
      obtain ⟨p, h1, _⟩ := hs _ hk
      rw [slicer, if_pos hd, getIndex_spec d h] at h1
      exact ⟨p, h1⟩
    · intro k hk hc
      have hd : ¬ hasDeriv d (arrayIndex d e.ord) k = true := fun hd => hc ((hasDeriv_iff h e.ord k).1 hd)
      obtain ⟨p, h1, h2⟩ := hs _ hk
      rw [slicer, if_neg hd, asSize_spec] at h1
      rw [extent, if_neg hd] at h2
      omega

theorem at_some {d : Desc} (a : ℕ) (sl : Tag → Option ℕ) (c : ℕ × ℕ) :
    at' d a sl = some c → c.1 = a ∧ c.2 < allocSize d a ∧ offset (d.ddims.map (extent d a)) (strides (d.ddims.map (extent d a))) (d.ddims.map sl) = some c.2 := by
  intro h
  rw [at', Option.map_eq_some_iff] at h
  obtain ⟨o, h1, h2⟩ := h
  rw [← h2]
  exact ⟨rfl, ((offset_some _ _ _).1 o h1).1, h1⟩

/-- **C77** (every element has its place) An element is accepted exactly when it is valid; then it is in one of the `2^n` arrays (`n` dimensions with derivatives), inside the allocated memory. -/
theorem c77_access {d : Desc} (h : WF d) (e : Elem) :
    ((∃ c, cell d e = some c) ↔ Valid d e) ∧ ∀ a o, cell d e = some (a, o) → a < 2 ^ d.derivTags.length ∧ o < allocSize d a := by
  refine ⟨?_, ?_⟩
  · rw [slicer_valid h]
    constructor
    · rintro ⟨c, hc⟩
      obtain ⟨_, _, h3⟩ := at_some _ _ c hc
      exact ((offset_some _ _ _).1 _ h3).2
    · intro hv
      obtain ⟨o, ho⟩ := (offset_some _ _ _).2 hv
      exact ⟨(arrayIndex d e.ord, o), by simp only [cell, at']; rw [ho]; rfl⟩
  · intro a o hc
    obtain ⟨h1, h2, _⟩ := at_some _ _ _ hc
    simp only at h1 h2
    rw [h1]
    exact ⟨arrayIndex_lt h _, h2⟩

/-- **C77** (no overlap) Two elements with the same place are the same: values and derivatives never overwrite each other. -/
theorem c77_injective {d : Desc} (h : WF d) (e e' : Elem) (c : ℕ × ℕ) (hc : cell d e = some c) (hc' : cell d e' = some c) : Same d e e' := by
  obtain ⟨h1, _, h3⟩ := at_some _ _ c hc
  obtain ⟨h1', _, h3'⟩ := at_some _ _ c hc'
  have ha : arrayIndex d e.ord = arrayIndex d e'.ord := by rw [← h1, ← h1']
  have hb : ∀ k, Tag.der k ∈ d.ddims → (e.ord k ≠ 0 ↔ e'.ord k ≠ 0) := by
    intro k hk
    have a1 := hasDeriv_iff h e.ord k
    have a2 := hasDeriv_iff h e'.ord k
    rw [ha] at a1
    rw [a1] at a2
    simpa [hk] using a2
  have hs := offset_inj _ _ _ _ _ h3 (by rw [ha]; exact h3')
  have hv := (slicer_valid h e).1 ((c77_access h e).1.1 ⟨c, hc⟩)
  intro t ht
  have hst := hs t ht
  obtain ⟨p, hp, _⟩ := hv t ht
  have hp' := hst ▸ hp
  cases t with
  | grid k =>
    simp only
    by_cases hd : hasDeriv d (arrayIndex d e.ord) k = true
    · have hd' : hasDeriv d (arrayIndex d e'.ord) k = true := ha ▸ hd
      rw [slicer, if_pos hd, getIndex_spec d h] at hp
      rw [slicer, if_pos hd', getIndex_spec d h] at hp'
      rw [hp.2, hp'.2]
    · have hd' : ¬ hasDeriv d (arrayIndex d e'.ord) k = true := ha ▸ hd
      rw [slicer, if_neg hd, asSize_spec] at hp
      rw [slicer, if_neg hd', asSize_spec] at hp'
      omega
  | der k =>
    simp only
    by_cases hd : hasDeriv d (arrayIndex d e.ord) k = true
    · have hd' : hasDeriv d (arrayIndex d e'.ord) k = true := ha ▸ hd
      rw [slicer, if_pos hd, asSize_spec] at hp
      rw [slicer, if_pos hd', asSize_spec] at hp'
      omega
    · have h0 : e.ord k = 0 := by
        by_contra hc
        exact hd ((hasDeriv_iff h e.ord k).2 ⟨ht, hc⟩)
      have h0' : e'.ord k = 0 := by
        by_contra hc
        exact (hb k ht).2 hc h0
      rw [h0, h0']

/-- **C77** (no waste) Every place of every array is that of a valid element. -/
theorem c77_surjective {d : Desc} (h : WF d) (a o : ℕ) (ha : a < 2 ^ d.derivTags.length) (ho : o < allocSize d a) :
    ∃ e, Valid d e ∧ cell d e = some (a, o) := by
  obtain ⟨p, h1, h2⟩ := offset_surj d.ddims h.nodup (extent d a) o ho
  obtain ⟨e, he⟩ : ∃ e : Elem, e = ⟨fun k => if hasDeriv d a k then d.sFront k + p (.grid k) * d.sStride k else d.front k + p (.grid k),
    fun k => if hasDeriv d a k then p (.der k) + 1 else 0⟩ := ⟨_, rfl⟩
  have hai : arrayIndex d e.ord = a := by
    rw [arrayIndex_bits]
    have := bits_testBit d.derivTags (derivTags_nodup d h.nodup) a ha
    refine Eq.trans ?_ this
    unfold bits
    congr 1
    apply List.map_congr_left
    intro k hk
    rw [he]
    simp only [hasDeriv, hk, decide_true, Bool.true_and, Desc.rank]
    by_cases hb : a.testBit (d.derivTags.idxOf k) = true <;> simp [hb]
  have hsl : ∀ t ∈ d.ddims, slicer d a e t = some (p t) := by
    intro t ht
    cases t with
    | grid k =>
      by_cases hd : hasDeriv d a k = true
      · rw [slicer, if_pos hd, getIndex_spec d h]
        have := h1 _ ht
        rw [extent, if_pos hd] at this
        exact ⟨this, by rw [he]; simp only [hd, if_true]⟩
      · rw [slicer, if_neg hd, asSize_spec, he]
        simp only [hd]
        simp
    | der k =>
      by_cases hd : hasDeriv d a k = true
      · rw [slicer, if_pos hd, asSize_spec, he]
        simp only [hd, if_true]
        push_cast; ring
      · rw [slicer, if_neg hd, he]
        have := h1 _ ht
        rw [extent, if_neg hd] at this
        simp only [hd]
        simp; omega
  have hc : cell d e = some (a, o) := by
    simp only [cell, hai, at']
    rw [List.map_congr_left hsl, h2]; rfl
  exact ⟨e, (c77_access h e).1.1 ⟨_, hc⟩, hc⟩

/-- **C77** (read what was written) After writing at a valid element, reading the same element gives the new value, and reading any other valid one gives what was there. -/
theorem c77_write_read {d : Desc} (h : WF d) {V : Type*} (mem : ℕ × ℕ → V) (e e' : Elem) (c c' : ℕ × ℕ) (v : V) (hc : cell d e = some c) (hc' : cell d e' = some c') :
    (Same d e e' → Function.update mem c v c' = v) ∧ (¬Same d e e' → Function.update mem c v c' = mem c') := by
  refine ⟨fun hs => ?_, fun hs => ?_⟩
  · have hord : ∀ k ∈ d.derivTags, e.ord k = e'.ord k := fun k hk => hs _ ((mem_derivTags d k).1 hk)
    have ha : arrayIndex d e.ord = arrayIndex d e'.ord := by
      unfold arrayIndex
      congr 1
      apply List.map_congr_left
      intro k hk
      rw [hord k hk]
    have hcc : cell d e = cell d e' := by
      simp only [cell, ha, at']
      congr 2
      apply List.map_congr_left
      intro t ht
      have := hs t ht
      cases t with
      | grid k => simp only at this; simp only [slicer, this]
      | der k => simp only at this; simp only [slicer, this]
    rw [hcc, hc', Option.some_inj] at hc
    rw [hc, Function.update_self]
  · have : c ≠ c' := by
      intro e1; subst e1
      exact hs (c77_injective h e e' c hc hc')
    rw [Function.update_of_ne this.symm]

/-! ## Slices -/

/-- **C77** (slices by an index) If the position is fixed in each dimension in which a derivative is requested, the field `operator[](Idx)` gives at the remaining positions the elements of the original, the orders not
requested being zero. -/
theorem c77_slice {d : Desc} (h : WF d) (fixed : List Tag) (e : Elem)
    (h0 : ∀ k, Tag.der k ∈ d.ddims → Tag.der k ∉ fixed → e.ord k = 0)
    (hpos : ∀ k, Tag.der k ∈ d.ddims → Tag.grid k ∈ d.ddims → e.ord k ≠ 0 → Tag.grid k ∈ fixed) :
    sliceCell d fixed e = cell d e := by
  have ha : arrayIndex d (fun k => if Tag.der k ∈ fixed then e.ord k else 0) = arrayIndex d e.ord := by
    unfold arrayIndex
    congr 1
    apply List.map_congr_left
    intro k hk
    by_cases hf : Tag.der k ∈ fixed
    · simp only [hf, if_true]
    · simp only [hf, if_false, h0 k ((mem_derivTags d k).1 hk) hf]
  simp only [sliceCell, cell, ha, at']
  congr 2
  apply List.map_congr_left
  intro t ht
  cases t with
  | grid k =>
    simp only
    by_cases hf : Tag.grid k ∈ fixed
    · rw [if_pos hf]; rfl
    · rw [if_neg hf, slicer]
      have : ¬ hasDeriv d (arrayIndex d e.ord) k = true := by
        intro hd
        obtain ⟨h1, h2⟩ := (hasDeriv_iff h e.ord k).1 hd
        exact hf (hpos k h1 ht h2)
      rw [if_neg this]
  | der k =>
    simp only [slicer]
    by_cases hf : Tag.der k ∈ fixed
    · simp only [hf, if_true]
    · simp only [hf, if_false, h0 k ht hf]

/-- **C77** (the position of a derivative has to be fixed) Otherwise the field has the whole grid as its range but only the memory of the points with derivatives: on a grid of five points with derivatives at the two
ends, the second point of the slice gives the derivative at the last point of the grid, and the last point is outside the memory. -/
theorem c77_slice_position_needed :
    ∃ (d : Desc) (e e' : Elem), WF d ∧ Valid d e' ∧ e'.pos 0 = 4 ∧ e.pos 0 = 1 ∧
      sliceCell d [Tag.der 0] e = cell d e' ∧ (cell d e').isSome ∧ sliceCell d [Tag.der 0] e' = none := by
  refine ⟨⟨[.der 0, .grid 0], fun _ => 0, fun _ => 5, fun _ => 0, fun _ => 4, fun _ => 2, 1⟩, ⟨fun _ => 1, fun _ => 1⟩, ⟨fun _ => 4, fun _ => 1⟩, ⟨by decide, fun _ => Nat.succ_pos 3⟩, ?_, rfl, rfl, by decide, by decide, by decide⟩
  refine ⟨fun k _ => le_rfl, fun k _ _ _ => ⟨1, Nat.lt_succ_self 1, rfl⟩, ?_⟩
  intro k hk hc
  simp at hk
  subst hk
  simp at hc

/-- **C77** (slices by ranges) For ranges of orders which are either zero alone or within `1 … NDerivs`, and ranges on the grid which, where derivatives are requested, are single points or parts of an unstrided range
of points with derivatives, the field `operator[](IdxRange)` gives the elements of the original at all indices of the ranges. -/
theorem c77_ranges {d : Desc} (h : WF d) (q : Ranges) (e : Elem)
    (ho : ∀ k, Tag.der k ∈ d.ddims → (q.derRange k = (0, 1) ∨ 1 ≤ (q.derRange k).1))
    (hoe : ∀ k, Tag.der k ∈ d.ddims → (q.derRange k).1 ≤ e.ord k ∧ e.ord k < (q.derRange k).1 + (q.derRange k).2)
    (hg : ∀ k, Tag.grid k ∈ d.ddims → (q.gridRange d k).1 ≤ e.pos k ∧ e.pos k < (q.gridRange d k).1 + (q.gridRange d k).2)
    (hgv : ∀ k, Tag.grid k ∈ d.ddims → d.front k ≤ (q.gridRange d k).1 )
    (hgd : ∀ k, Tag.grid k ∈ d.ddims → Tag.der k ∈ d.ddims → 1 ≤ (q.derRange k).1 →
      ((q.gridRange d k).2 = 1 ∨ d.sStride k = 1) ∧ InSlice d k (q.gridRange d k).1 ∧ InSlice d k ((q.gridRange d k).1 + (q.gridRange d k).2 - 1)) :
    rangeCell d q e = cell d e := by
  have hb : ∀ k, Tag.der k ∈ d.ddims → ((q.derRange k).1 ≠ 0 ↔ e.ord k ≠ 0) := by
    intro k hk
    have := hoe k hk
    rcases ho k hk with h1 | h1
    · rw [h1] at this ⊢; simp only at this ⊢; omega
    · omega
  have ha : arrayIndex d (fun k => (q.derRange k).1) = arrayIndex d e.ord := by
    unfold arrayIndex
    congr 1
    apply List.map_congr_left
    intro k hk
    have := hb k ((mem_derivTags d k).1 hk)
    by_cases h0 : e.ord k = 0
    · have : (q.derRange k).1 = 0 := by by_contra hc; exact this.1 hc h0
      simp [h0, this]
    · simp only [this.2 h0, h0, ne_eq, not_false_eq_true, if_true]
  simp only [rangeCell, cell, ha, at']
  congr 2
  apply List.map_congr_left
  intro t ht
  cases t with
  | grid k =>
    simp only [slicer]
    have hgk := hg k ht
    by_cases hd : hasDeriv d (arrayIndex d e.ord) k = true
    · obtain ⟨h1, h2⟩ := (hasDeriv_iff h e.ord k).1 hd
      have h3 : 1 ≤ (q.derRange k).1 := Nat.one_le_iff_ne_zero.2 ((hb k h1).2 h2)
      obtain ⟨g1, ⟨j, g2, g2'⟩, ⟨j', g3, g3'⟩⟩ := hgd k ht h1 h3
      rw [if_pos hd, if_pos hd, if_pos ⟨(sliceContains_iff d h k _).2 ⟨j, g2, g2'⟩, g1⟩]
      rw [(getIndex_spec d h k _ j).2 ⟨g2, g2'⟩, (getIndex_spec d h k _ j').2 ⟨g3, g3'⟩, (asSize_spec _ (e.pos k - (q.gridRange d k).1).toNat).2 (by omega)]
      simp only
      symm
      rcases g1 with g1 | g1
      · have hp : e.pos k = (q.gridRange d k).1 := by rw [g1] at hgk; push_cast at hgk; omega
        have hj : j = j' := by
          have hs : (0 : ℤ) < d.sStride k := by exact_mod_cast h.stride k
          have e1 : ((j : ℤ) - j') * d.sStride k = 0 := by
            rw [g1] at g3'; push_cast at g3'
            rw [sub_mul]; linarith
          rcases mul_eq_zero.1 e1 with e1 | e1 <;> omega
        rw [hp, sub_self, Int.toNat_zero, if_pos (by omega), Nat.add_zero, getIndex_spec d h]
        exact ⟨g2, g2'⟩
      · rw [g1] at g2' g3'
        push_cast at g2' g3'
        rw [if_pos (by omega), getIndex_spec d h, g1]
        push_cast
        omega
    · rw [if_neg hd, if_neg hd, (asSize_spec ((q.gridRange d k).1 - d.front k) ((q.gridRange d k).1 - d.front k).toNat).2 (by have := hgv k ht; omega),
        (asSize_spec _ (e.pos k - (q.gridRange d k).1).toNat).2 (by omega)]
      simp only
      have := hgv k ht
      rw [if_pos (by omega)]
      symm
      rw [asSize_spec]
      omega
  | der k =>
    simp only [slicer]
    have hoek := hoe k ht
    by_cases hd : hasDeriv d (arrayIndex d e.ord) k = true
    · obtain ⟨h1, h2⟩ := (hasDeriv_iff h e.ord k).1 hd
      have h3 : 1 ≤ (q.derRange k).1 := Nat.one_le_iff_ne_zero.2 ((hb k h1).2 h2)
      rw [if_pos hd, if_pos hd, (asSize_spec _ ((q.derRange k).1 - 1)).2 (by omega), (asSize_spec _ (e.ord k - (q.derRange k).1)).2 (by omega)]
      simp only
      rw [if_pos (by omega)]
      symm
      rw [asSize_spec]
      omega
    · have h0 : e.ord k = 0 := by
        by_contra hc
        exact hd ((hasDeriv_iff h e.ord k).2 ⟨ht, hc⟩)
      have hz : q.derRange k = (0, 1) := by
        rcases ho k ht with h1 | h1
        · exact h1
        · omega
      rw [if_neg hd, if_neg hd, if_pos h0, hz]
      simp [h0]

/-- **C77** (slices by ranges, extents) The field `operator[](IdxRange)` has no element outside the requested ranges. -/
theorem c77_ranges_only {d : Desc} (h : WF d) (q : Ranges) (e : Elem) (c : ℕ × ℕ) (hc : rangeCell d q e = some c)
    (hne : ∀ k, 1 ≤ (q.gridRange d k).2) :
    (∀ k, Tag.grid k ∈ d.ddims → (q.gridRange d k).1 ≤ e.pos k ∧ e.pos k < (q.gridRange d k).1 + (q.gridRange d k).2) ∧
    ∀ k, Tag.der k ∈ d.ddims → (q.derRange k).1 ≤ e.ord k ∧ e.ord k < (q.derRange k).1 + (q.derRange k).2 := by
  unfold rangeCell at hc
  obtain ⟨-, -, h3⟩ := at_some _ _ _ hc
  have hall := ((offset_some _ _ _).1 _ h3).2
  refine ⟨fun k hk => ?_, fun k hk => ?_⟩
  · obtain ⟨p, hp, -⟩ := hall _ hk
    simp only at hp
    split at hp
    · split at hp
      · rename_i hs
        split at hp
        · rename_i lo hi x h1 h2 h4
          split at hp
          · rename_i hlt
            rw [getIndex_spec d h] at h1 h2
            rw [asSize_spec] at h4
            have hn := hne k
            rcases hs.2 with g | g
            · have hj : lo = hi := by
                have hst : (0 : ℤ) < d.sStride k := by exact_mod_cast h.stride k
                have e1 : ((lo : ℤ) - hi) * d.sStride k = 0 := by
                  have a1 := h1.2; have a2 := h2.2
                  rw [g] at a2; push_cast at a2
                  rw [sub_mul]; linarith
                rcases mul_eq_zero.1 e1 with e1 | e1 <;> omega
              omega
            · have a1 := h1.2; have a2 := h2.2
              rw [g] at a1 a2
              push_cast at a1 a2
              omega
          · cases hp
        · cases hp
      · cases hp
    · split at hp
      · rename_i lo x h1 h2
        split at hp
        · rw [asSize_spec] at h1 h2
          omega
        · cases hp
      · cases hp
  · obtain ⟨p, hp, -⟩ := hall _ hk
    simp only at hp
    split at hp
    · split at hp
      · rename_i lo x h1 h2
        split at hp
        · rw [asSize_spec] at h1 h2
          omega
        · cases hp
      · cases hp
    · split at hp
      · rename_i g
        omega
      · cases hp

/-- **C77** (views) A `DerivField` built on a `DerivFieldMem` or on another `DerivField` uses the same arrays in the same places. -/
theorem c77_view {d : Desc} (h : WF d) (a : ℕ) (ha : a < 2 ^ d.derivTags.length) : viewArray d a = a := by
  rw [viewArray, arrayIndex_bits]
  have := bits_testBit d.derivTags (derivTags_nodup d h.nodup) a ha
  refine Eq.trans ?_ this
  unfold bits
  congr 1
  apply List.map_congr_left
  intro k _
  simp only [Desc.rank]
  by_cases hb : a.testBit (d.derivTags.idxOf k) = true <;> simp [hb]

/-! ## Ownership -/

/-- The program constructs objects with the given numbers of arrays. -/
def constructAll (h : Heap) : List ℕ → Heap × List (List ℕ)
  | [] => (h, [])
  | n :: ns => let (h1, p) := construct h n; let (h2, ps) := constructAll h1 ns; (h2, p :: ps)

/-- The program destroys objects. -/
def destroyAll (h : Heap) (objs : List (List ℕ)) : Option Heap := objs.foldlM destroy h

theorem destroy_perm (h : Heap) (ptrs rest : List ℕ) (hp : h.live.Perm (ptrs ++ rest)) :
    ∃ h', destroy h ptrs = some h' ∧ h'.live.Perm rest ∧ h'.next = h.next := by
  induction ptrs generalizing h with
  | nil => exact ⟨h, rfl, hp, rfl⟩
  | cons p ps ih =>
    have hmem : p ∈ h.live := hp.mem_iff.2 (by simp)
    have := ih { h with live := h.live.erase p } (by
      have := hp.erase p
      simpa using this)
    obtain ⟨h', h1, h2, h3⟩ := this
    refine ⟨h', ?_, h2, h3⟩
    rw [destroy, List.foldlM_cons, free, if_pos hmem]
    exact h1

theorem destroyAll_perm (objs : List (List ℕ)) (h : Heap) (rest : List ℕ) (hp : h.live.Perm (objs.flatten ++ rest)) :
    ∃ h', destroyAll h objs = some h' ∧ h'.live.Perm rest := by
  induction objs generalizing h with
  | nil => exact ⟨h, rfl, by simpa using hp⟩
  | cons o os ih =>
    obtain ⟨h1, e1, e2, _⟩ := destroy_perm h o (os.flatten ++ rest) (by simpa using hp)
    obtain ⟨h2, e3, e4⟩ := ih h1 e2
    exact ⟨h2, by rw [destroyAll, List.foldlM_cons, e1]; exact e3, e4⟩

theorem constructAll_perm (ns : List ℕ) (h : Heap) : (constructAll h ns).1.live.Perm ((constructAll h ns).2.flatten ++ h.live) := by
  induction ns generalizing h with
  | nil => simp [constructAll]
  | cons n ns ih =>
    have := ih (construct h n).1
    simp only [constructAll, List.flatten_cons]
    refine this.trans ?_
    simp only [construct]
    rw [← List.append_assoc]
    refine List.Perm.append_right _ ?_
    exact List.perm_append_comm

/-- **C77** (lifetime) Any number of objects, destroyed once each in any order, free each of their arrays exactly once: no block is freed twice and none is left. -/
theorem c77_lifetime (ns : List ℕ) (objs : List (List ℕ)) (hobj : objs.Perm (constructAll ⟨[], 0⟩ ns).2) :
    ∃ h', destroyAll (constructAll ⟨[], 0⟩ ns).1 objs = some h' ∧ h'.live = [] := by
  have hp := constructAll_perm ns ⟨[], 0⟩
  rw [List.append_nil] at hp
  obtain ⟨h', h1, h2⟩ := destroyAll_perm objs (constructAll ⟨[], 0⟩ ns).1 [] (by
    rw [List.append_nil]
    exact hp.trans hobj.symm.flatten)
  exact ⟨h', h1, List.perm_nil.1 h2⟩

theorem destroy_not_live (h : Heap) (p : ℕ) (ps : List ℕ) (hp : p ∉ h.live) : destroy h (p :: ps) = none := by
  rw [destroy, List.foldlM_cons, free, if_neg hp]; rfl

theorem destroy_sub (ptrs : List ℕ) (h h' : Heap) (hn : h.live.Nodup) (hd : destroy h ptrs = some h') : h'.live.Nodup ∧ (∀ x ∈ h'.live, x ∈ h.live) ∧ ∀ p ∈ ptrs, p ∉ h'.live := by
  induction ptrs generalizing h with
  | nil => rw [destroy] at hd; simp at hd; subst hd; simp [hn]
  | cons p ps ih =>
    rw [destroy, List.foldlM_cons, free] at hd
    split at hd
    · have := ih { h with live := h.live.erase p } (hn.erase p) hd
      obtain ⟨a, b, c⟩ := this
      refine ⟨a, fun x hx => List.mem_of_mem_erase (b x hx), ?_⟩
      intro q hq
      rcases List.mem_cons.1 hq with e | hq
      · subst e
        intro hc
        exact (List.Nodup.not_mem_erase hn) (b q hc)
      · exact c q hq
    · simp at hd

/-- **C77** (finding) The move assignment of `DerivFieldMem` copies the pointers of the other object without giving it anything else: when both objects are destroyed, in either order, the same blocks are freed twice. After a temporary was
assigned, the target has no memory as soon as the temporary is gone. -/
theorem c77_move_assign (h : Heap) (hn : h.live.Nodup) (this other : List ℕ) (hne : other ≠ []) (hlive : ∀ p ∈ other, p ∈ h.live) :
    let (t, o) := moveAssign this other
    (∀ h', destroy h o = some h' → (∀ p ∈ t, p ∉ h'.live) ∧ destroy h' t = none) ∧ (∀ h', destroy h t = some h' → destroy h' o = none) := by
  simp only [moveAssign]
  have key : ∀ h', destroy h other = some h' → (∀ p ∈ other, p ∉ h'.live) ∧ destroy h' other = none := by
    intro h' hd
    obtain ⟨_, _, h3⟩ := destroy_sub other h h' hn hd
    refine ⟨h3, ?_⟩
    cases other with
    | nil => exact absurd rfl hne
    | cons p ps => exact destroy_not_live h' p ps (h3 p (by simp))
  exact ⟨key, fun h' hd => (key h' hd).2⟩

/-! ## Examples -/

/-- A field in two dimensions, `x` (0) and `y` (1), with three derivatives at the two ends of each. -/
def exDesc : Desc := ⟨[.der 0, .der 1, .grid 0, .grid 1], fun _ => 10, fun k => 5 + k, fun _ => 10, fun k => 4 + k, fun _ => 2, 3⟩

example : WF exDesc := ⟨by decide, fun k => by simp [exDesc]⟩
/-- The cross derivative of order (2, 3) at the corner is in array 3, out of 36 elements. -/
example : cell exDesc ⟨fun k => if k = 0 then 14 else 10, fun k => if k = 0 then 2 else 3⟩ = some (3, 22) ∧ allocSize exDesc 3 = 36 := by decide
/-- Not between the ends. -/
example : cell exDesc ⟨fun k => if k = 0 then 12 else 10, fun k => if k = 0 then 2 else 0⟩ = none := by decide
/-- The derivative on the left end in `x`, for all `y`. -/
example : sliceCell exDesc [.der 0, .grid 0] ⟨fun k => if k = 0 then 10 else 13, fun k => if k = 0 then 1 else 0⟩ = some (1, 3) := by decide

/-- Instance of the slices by ranges. -/
example : rangeCell exDesc ⟨fun k => if k = 0 then some (14, 1) else none, fun k => if k = 0 then some (1, 2) else none⟩ ⟨fun k => if k = 0 then 14 else 10, fun k => if k = 0 then 2 else 0⟩ ≠ none := by decide

end Verif.DerivField
