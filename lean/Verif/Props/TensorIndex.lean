import Verif.Model.Tensor
import Verif.Props.TypeSeq
import Mathlib.Tactic.Ring
import Mathlib.Algebra.BigOperators.Group.List.Basic
/-!
# C36: tensor indexing is a bijection with storage; tensor arithmetic
-/
namespace Verif.Tensor

universe u v
variable {T : Type u} [DecidableEq T] {R : Type v}

theorem nthElement_prefix (sets : List (List T)) (s : List T) (k elem : ℕ) (hk : k ≤ sets.length) :
    nthElement (sets ++ [s]) k elem = nthElement sets k elem := by
  induction k generalizing elem with
  | zero => rfl
  | succ k ih =>
    simp only [nthElement, List.getElem?_append_left (show k < sets.length by omega)]
    split
    · rfl
    · split
      · rfl
      · rw [ih _ (by omega)]

theorem getNth_snoc (sets : List (List T)) (s : List T) (i : ℕ) :
    getNth i (sets ++ [s]) = (s[i % s.length]?).bind fun x => (getNth (i / s.length) sets).map fun r => r ++ [x] := by
  unfold getNth
  rw [List.length_append, List.length_singleton]
  simp only [nthElement]
  rw [List.getElem?_append_right (le_refl _)]
  simp only [Nat.sub_self, List.getElem?_cons_zero]
  cases h : s[i % s.length]? with
  | none => simp
  | some x => simp [nthElement_prefix]

theorem index_snoc (sets : List (List T)) (s : List T) (e : List T) (x : T) (h : e.length = sets.length) :
    index (sets ++ [s]) (e ++ [x]) = index sets e * s.length + s.idxOf x := by
  unfold index layoutRight
  rw [List.zip_append h]
  simp

theorem size_snoc (sets : List (List T)) (s : List T) : size (sets ++ [s]) = size sets * s.length := by
  simp [size]

theorem validElement_snoc (sets : List (List T)) (s : List T) (e : List T) (x : T) :
    validElement (sets ++ [s]) (e ++ [x]) = true ↔ validElement sets e = true ∧ x ∈ s := by
  simp only [validElement, Bool.and_eq_true, decide_eq_true_eq, List.length_append, List.length_singleton]
  constructor
  · rintro ⟨h1, h2⟩
    have h : e.length = sets.length := by omega
    rw [List.zip_append h] at h2
    simp only [List.zip_cons_cons, List.zip_nil_left, List.all_append, List.all_cons, List.all_nil, Bool.and_true, Bool.and_eq_true,
      decide_eq_true_eq] at h2
    exact ⟨⟨h, h2.1⟩, h2.2⟩
  · rintro ⟨⟨h, h1⟩, h2⟩
    rw [List.zip_append h]
    simp [h, h1, h2]

/-- C36: the element at storage position `i < size` exists, is made of valid indices and its position is `i`: every storage
slot is reachable. -/
theorem c36_position_to_element (sets : List (List T)) (hn : ∀ s ∈ sets, s.Nodup) (i : ℕ) (hi : i < size sets) :
    ∃ e, getNth i sets = some e ∧ validElement sets e = true ∧ index sets e = i := by
  induction sets using List.reverseRecOn generalizing i with
  | nil =>
    refine ⟨[], rfl, rfl, ?_⟩
    simp [size] at hi; simp [index, layoutRight, hi]
  | append_singleton sets s ih =>
    rw [size_snoc] at hi
    have hs : 0 < s.length := Nat.pos_of_ne_zero (by rintro h; simp [h] at hi)
    have hm : i % s.length < s.length := Nat.mod_lt _ hs
    obtain ⟨e, h1, h2, h3⟩ := ih (fun s hs => hn s (by simp [hs])) (i / s.length)
      (Nat.div_lt_of_lt_mul (by rw [Nat.mul_comm]; exact hi))
    refine ⟨e ++ [s[i % s.length]], ?_, ?_, ?_⟩
    · rw [getNth_snoc, List.getElem?_eq_getElem hm, h1]; rfl
    · rw [validElement_snoc]; exact ⟨h2, List.getElem_mem _⟩
    · have hl : e.length = sets.length := by
        simp only [validElement, Bool.and_eq_true, decide_eq_true_eq] at h2; exact h2.1
      rw [index_snoc _ _ _ _ hl, h3, (hn s (by simp)).idxOf_getElem, Nat.mul_comm]
      exact Nat.div_add_mod i s.length

theorem valid_length {sets : List (List T)} {e : List T} (h : validElement sets e = true) : e.length = sets.length := by
  simp only [validElement, Bool.and_eq_true, decide_eq_true_eq] at h; exact h.1

/-- C36: the position of a valid element lies in the storage, and the element at that position is the element itself. -/
theorem c36_element_to_position (sets : List (List T)) (e : List T) (he : validElement sets e = true) :
    index sets e < size sets ∧ getNth (index sets e) sets = some e := by
  induction sets using List.reverseRecOn generalizing e with
  | nil =>
    have := valid_length he
    simp at this; subst this
    exact ⟨by simp [index, layoutRight, size], rfl⟩
  | append_singleton sets s ih =>
    have hl := valid_length he
    rcases List.eq_nil_or_concat e with rfl | ⟨e', x, rfl⟩
    · simp at hl
    · simp only [List.concat_eq_append] at *
      have hl' : e'.length = sets.length := by simpa using hl
      rw [validElement_snoc] at he
      obtain ⟨h1, h2⟩ := ih e' he.1
      have hx : s.idxOf x < s.length := List.idxOf_lt_length_iff.2 he.2
      rw [index_snoc _ _ _ _ hl', size_snoc, getNth_snoc]
      constructor
      · calc index sets e' * s.length + s.idxOf x < index sets e' * s.length + s.length := by omega
          _ = (index sets e' + 1) * s.length := by ring
          _ ≤ size sets * s.length := Nat.mul_le_mul_right _ h1
      · have hs : 0 < s.length := by omega
        have e1 : (index sets e' * s.length + s.idxOf x) % s.length = s.idxOf x := by
          rw [Nat.add_comm, Nat.add_mul_mod_self_right, Nat.mod_eq_of_lt hx]
        have e2 : (index sets e' * s.length + s.idxOf x) / s.length = index sets e' := by
          rw [Nat.add_comm, Nat.add_mul_div_right _ _ hs, Nat.div_eq_of_lt hx, Nat.zero_add]
        rw [e1, e2, h2, List.getElem?_eq_getElem hx, List.getElem_idxOf]
        rfl

/-- C36: distinct index combinations never share storage. -/
theorem c36_injective (sets : List (List T)) (e e' : List T) (he : validElement sets e = true)
    (he' : validElement sets e' = true) (h : index sets e = index sets e') : e = e' := by
  have h1 := (c36_element_to_position sets e he).2
  have h2 := (c36_element_to_position sets e' he').2
  rw [h] at h1
  exact Option.some.inj (h1.symm.trans h2)

/-- C36: what is written through one index combination is read back through it and changes no other one. -/
theorem c36_get_set (sets : List (List T)) (m : Storage R) (e e' : List T) (v : R) (he : validElement sets e = true)
    (he' : validElement sets e' = true) :
    get sets (set sets m e v) e' = if e' = e then v else get sets m e' := by
  unfold get set
  by_cases h : e' = e
  · simp [h]
  · rw [if_neg h, if_neg (fun hh => h (c36_injective sets e' e he' he hh))]

example : validElement [["r", "t"], ["x", "y", "z"]] ["t", "y"] = true := by decide +kernel
example : index [["r", "t"], ["x", "y", "z"]] ["t", "y"] = 4 := by decide +kernel
example : getNth 4 [["r", "t"], ["x", "y", "z"]] = some ["t", "y"] := by decide +kernel

/-! ## Element-wise arithmetic -/

/-- C36: arithmetic operators act on every component. -/
theorem c36_arithmetic [Ring R] (sets : List (List T)) (a b : Storage R) (v : R) (e : List T)
    (he : validElement sets e = true) :
    get sets (addAssign (size sets) a b) e = get sets a e + get sets b e ∧
    get sets (subAssign (size sets) a b) e = get sets a e - get sets b e ∧
    get sets (mulAssign (size sets) a v) e = get sets a e * v ∧
    get sets (neg (size sets) a) e = - get sets a e := by
  have h := (c36_element_to_position sets e he).1
  simp [get, addAssign, subAssign, mulAssign, neg, h]

/-- C36: `==` compares all the components. -/
theorem c36_eq [DecidableEq R] (sets : List (List T)) (hn : ∀ s ∈ sets, s.Nodup) (a b : Storage R) :
    eq (size sets) a b = true ↔ ∀ e, validElement sets e = true → get sets a e = get sets b e := by
  have key : ∀ n, eq n a b = true ↔ ∀ i < n, a i = b i := by
    intro n
    unfold eq
    induction n with
    | zero => simp
    | succ n ih =>
      rw [List.range_succ, List.foldl_append]
      simp only [List.foldl_cons, List.foldl_nil, Bool.and_eq_true, decide_eq_true_eq, ih]
      constructor
      · rintro ⟨h1, h2⟩ i hi
        rcases Nat.lt_succ_iff_lt_or_eq.1 hi with h | rfl
        · exact h1 i h
        · exact h2
      · intro h; exact ⟨fun i hi => h i (by omega), h n (by omega)⟩
  rw [key]
  constructor
  · intro h e he; exact h _ (c36_element_to_position sets e he).1
  · intro h i hi
    obtain ⟨e, _, h2, h3⟩ := c36_position_to_element sets hn i hi
    have := h e h2
    simpa [get, h3] using this

theorem assign_loop (outSets inSets sets : List (List T)) (inp : Storage R) (hn : ∀ s ∈ sets, s.Nodup)
    (hv : ∀ e, validElement sets e = true → validElement outSets e = true ∧ validElement inSets e = true)
    (n : ℕ) (hnsize : n ≤ size sets) (out : Storage R) :
    ∃ m, (List.range n).foldlM (fun m i =>
        (getNth i sets).bind fun e =>
          if validElement outSets e && validElement inSets e then some (set outSets m e (get inSets inp e)) else none) out
        = some m ∧
      ∀ e, validElement outSets e = true →
        get outSets m e = if validElement sets e = true ∧ index sets e < n then get inSets inp e else get outSets out e := by
  induction n with
  | zero => exact ⟨out, rfl, by simp⟩
  | succ n ih =>
    obtain ⟨m, hm, hm'⟩ := ih (by omega)
    obtain ⟨e, h1, h2, h3⟩ := c36_position_to_element sets hn n (by omega)
    obtain ⟨v1, v2⟩ := hv e h2
    refine ⟨set outSets m e (get inSets inp e), ?_, ?_⟩
    · rw [List.range_succ, List.foldlM_append, hm]
      simp [h1, v1, v2]
    · intro e' he'
      rw [c36_get_set outSets m e e' _ v1 he', hm' e' he']
      by_cases hee : e' = e
      · subst hee; simp [h2, h3]
      · rw [if_neg hee]
        by_cases hs : validElement sets e' = true
        · have : index sets e' ≠ n := fun h => hee (c36_injective sets e' e hs h2 (by rw [h, h3]))
          have : index sets e' < n + 1 ↔ index sets e' < n := by omega
          simp [hs, this]
        · simp [hs]

/-- C36: `assign_elements` from a tensor whose index sets are contained in those of the target copies exactly the common
elements (and leaves the others); to a smaller tensor it copies every element of the target. -/
theorem c36_assign_elements (outSets inSets : List (List T)) (out inp : Storage R)
    (hno : ∀ s ∈ outSets, s.Nodup) (hni : ∀ s ∈ inSets, s.Nodup)
    (hsub : if size inSets < size outSets then ∀ e, validElement inSets e = true → validElement outSets e = true
      else ∀ e, validElement outSets e = true → validElement inSets e = true) :
    ∃ m, assignElements outSets inSets out inp = some m ∧
      ∀ e, validElement outSets e = true →
        get outSets m e = if validElement inSets e = true then get inSets inp e else get outSets out e := by
  unfold assignElements
  by_cases h : size inSets < size outSets
  · rw [if_pos h] at hsub
    obtain ⟨m, h1, h2⟩ := assign_loop outSets inSets inSets inp hni (fun e he => ⟨hsub e he, he⟩) (size inSets) le_rfl out
    refine ⟨m, by simpa [h] using h1, fun e he => ?_⟩
    rw [h2 e he]
    congr 1
    simp only [eq_iff_iff, and_iff_left_iff_imp]
    exact fun hh => (c36_element_to_position inSets e hh).1
  · rw [if_neg h] at hsub
    obtain ⟨m, h1, h2⟩ := assign_loop outSets inSets outSets inp hno (fun e he => ⟨he, hsub e he⟩) (size outSets) le_rfl out
    refine ⟨m, by simpa [h] using h1, fun e he => ?_⟩
    rw [h2 e he, if_pos ⟨he, (c36_element_to_position outSets e he).1⟩, if_pos (hsub e he)]

/-! ## Static tensors -/

/-- C36: the identity tensor is the Kronecker symbol. -/
theorem c36_identity [Zero R] [One R] (row col : List T) (hlen : row.length = col.length) (hr : row.Nodup) (hc : col.Nodup)
    (i j : ℕ) (hi : i < row.length) (hj : j < col.length) :
    (identityGet row col [row[i], col[j]] : R) = if i = j then 1 else 0 := by
  simp [identityGet, hr.idxOf_getElem, hc.idxOf_getElem]

/-- C38: the Levi-Civita tensors are the sign of the permutation, times the Jacobian for covariant indices and divided by it
for contravariant indices. -/
theorem c38_levi_civita [Field R] (V : Variance T) {n : ℕ} (f : Fin n → T) (hf : Function.Injective f) (J : R)
    (σ : Equiv.Perm (Fin n)) :
    leviCivitaCartesian (List.ofFn f) (List.ofFn (f ∘ σ)) = some (Equiv.Perm.sign σ : ℤ) ∧
    leviCivita V (List.ofFn f) J (List.ofFn (f ∘ σ)) =
      some (((Equiv.Perm.sign σ : ℤ) : R) * if ∀ i, V.co (f i) = true then J else J⁻¹) := by
  constructor
  · exact Verif.TypeSeq.c38_sign f hf σ
  · simp only [leviCivita, Verif.TypeSeq.c38_sign f hf σ, Option.map_some, one_div]
    have : isCo V (List.ofFn f) = true ↔ ∀ i, V.co (f i) = true := by
      simp [isCo, List.all_eq_true]
    simp [this]

end Verif.Tensor
