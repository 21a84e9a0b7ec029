import Verif.Model.MatchSlice
import Verif.Props.EdgeTransform
import Mathlib.Data.Nat.GCD.Basic
import Mathlib.Tactic.Linarith
import Mathlib.Tactic.Ring

/-! # C61: conforming index slices of an interface -/

namespace Verif.MatchSlice

theorem toU64_of_nat {n : ℕ} (h : n < 2 ^ 64) : toU64 (n : ℤ) = n := by
  have h' : (n : ℤ) < 2 ^ 64 := by exact_mod_cast h
  unfold toU64
  rw [Int.emod_eq_of_lt (by omega) h']
  exact Int.toNat_natCast n

theorem slice_of_nat {size d : ℕ} (hs : 1 ≤ size) (hs64 : size < 2 ^ 64) (hd : 0 < d) (hd64 : d < 2 ^ 64) :
    idxRangeSlice size (.ok (d : ℤ)) = .ok ⟨(size - 1) / d + 1, d⟩ := by
  have h1 : ((size : ℤ) - 1) = ((size - 1 : ℕ) : ℤ) := by omega
  simp only [idxRangeSlice, toU64_of_nat hd64, h1, toU64_of_nat (show size - 1 < 2 ^ 64 by omega)]
  rw [if_neg (by omega)]

/-- C61 (non-periodic uniform edges): with `n1` and `n2` cells, both slices have the same number of indices, and the
slice of an edge consists exactly of the indices whose point has a counterpart, i.e. lies at the same fraction of the edge as
some point of the other edge. -/
theorem c61_uniform (n1 n2 : ℕ) (h1 : 0 < n1) (h2 : 0 < n2) (h164 : n1 + 1 < 2 ^ 64) (h264 : n2 + 1 < 2 ^ 64) :
    ∃ s1 s2, uniform (n1 + 1) (n2 + 1) = (.ok s1, .ok s2) ∧ s1.size = s2.size ∧
      (∀ i : ℕ, (i : ℤ) ∈ s1.indices ↔ i ≤ n1 ∧ ∃ j ≤ n2, (i : ℚ) / n1 = (j : ℚ) / n2) ∧
      (∀ j : ℕ, (j : ℤ) ∈ s2.indices ↔ j ≤ n2 ∧ ∃ i ≤ n1, (i : ℚ) / n1 = (j : ℚ) / n2) := by
  set g := Nat.gcd n1 n2 with hg
  have hgpos : 0 < g := Nat.gcd_pos_of_pos_left _ h1
  obtain ⟨a, ha⟩ := Nat.gcd_dvd_left n1 n2
  obtain ⟨b, hb⟩ := Nat.gcd_dvd_right n1 n2
  rw [← hg] at ha hb
  have hapos : 0 < a := Nat.pos_of_ne_zero (by rintro rfl; omega)
  have hbpos : 0 < b := Nat.pos_of_ne_zero (by rintro rfl; omega)
  have hd1 : n1 / g = a := by rw [ha]; exact Nat.mul_div_cancel_left _ hgpos
  have hd2 : n2 / g = b := by rw [hb]; exact Nat.mul_div_cancel_left _ hgpos
  have hcop : Nat.Coprime a b := by
    have := Nat.coprime_div_gcd_div_gcd (m := n1) (n := n2) (by rw [← hg]; exact hgpos)
    rwa [← hg, hd1, hd2] at this
  have e1 : n1 / a = g := by rw [ha]; exact Nat.mul_div_cancel _ hapos
  have e2 : n2 / b = g := by rw [hb]; exact Nat.mul_div_cancel _ hbpos
  have hab1 : a ≤ n1 := by rw [ha]; exact Nat.le_mul_of_pos_left _ hgpos
  have hab2 : b ≤ n2 := by rw [hb]; exact Nat.le_mul_of_pos_left _ hgpos
  refine ⟨⟨g + 1, a⟩, ⟨g + 1, b⟩, ?_, rfl, ?_, ?_⟩
  · simp only [uniform, stepUniform, Nat.add_sub_cancel, ← hg, if_neg (by omega : ¬ g = 0), hd1, hd2]
    rw [slice_of_nat (by omega) h164 hapos (by omega), slice_of_nat (by omega) h264 hbpos (by omega)]
    simp [e1, e2]
  · intro i
    have hq : ∀ j : ℕ, (i : ℚ) / n1 = (j : ℚ) / n2 ↔ i * b = j * a := by
      intro j
      rw [div_eq_div_iff (by exact_mod_cast h1.ne') (by exact_mod_cast h2.ne')]
      rw [show ((i : ℚ) * n2 = j * n1) ↔ i * n2 = j * n1 by exact_mod_cast Iff.rfl, ha, hb]
      constructor
      · intro h
        have : g * (i * b) = g * (j * a) := by linarith
        exact Nat.eq_of_mul_eq_mul_left hgpos this
      · intro h
        have : g * (i * b) = g * (j * a) := by rw [h]
        linarith
    simp only [Slice.indices, List.mem_map, List.mem_range]
    constructor
    · rintro ⟨k, hk, hki⟩
      have hi : i = k * a := by exact_mod_cast hki.symm
      refine ⟨?_, k * b, ?_, (hq _).2 (by rw [hi]; ring)⟩
      · rw [hi, ha]; exact Nat.mul_le_mul_right _ (by omega)
      · rw [hb]; exact Nat.mul_le_mul_right _ (by omega)
    · rintro ⟨hi, j, _, hj⟩
      have h3 := (hq j).1 hj
      have : a ∣ i := hcop.dvd_of_dvd_mul_right (Dvd.intro_left j h3.symm)
      obtain ⟨k, rfl⟩ := this
      refine ⟨k, ?_, by push_cast; ring⟩
      rw [ha, Nat.mul_comm g a] at hi
      have := Nat.le_of_mul_le_mul_left hi hapos
      omega
  · intro j
    have hq : ∀ i : ℕ, (i : ℚ) / n1 = (j : ℚ) / n2 ↔ i * b = j * a := by
      intro i
      rw [div_eq_div_iff (by exact_mod_cast h1.ne') (by exact_mod_cast h2.ne')]
      rw [show ((i : ℚ) * n2 = j * n1) ↔ i * n2 = j * n1 by exact_mod_cast Iff.rfl, ha, hb]
      constructor
      · intro h
        have : g * (i * b) = g * (j * a) := by linarith
        exact Nat.eq_of_mul_eq_mul_left hgpos this
      · intro h
        have : g * (i * b) = g * (j * a) := by rw [h]
        linarith
    simp only [Slice.indices, List.mem_map, List.mem_range]
    constructor
    · rintro ⟨k, hk, hki⟩
      have hi : j = k * b := by exact_mod_cast hki.symm
      refine ⟨?_, k * a, ?_, (hq _).2 (by rw [hi]; ring)⟩
      · rw [hi, hb]; exact Nat.mul_le_mul_right _ (by omega)
      · rw [ha]; exact Nat.mul_le_mul_right _ (by omega)
    · rintro ⟨hi, i, _, hj⟩
      have h3 := (hq i).1 hj
      have : b ∣ j := hcop.symm.dvd_of_dvd_mul_right (Dvd.intro_left i h3)
      obtain ⟨k, rfl⟩ := this
      refine ⟨k, ?_, by push_cast; ring⟩
      rw [hb, Nat.mul_comm g b] at hi
      have := Nat.le_of_mul_le_mul_left hi hbpos
      omega

/-- 4 cells facing 6 cells: points 0, 2, 4 against 0, 3, 6. -/
example : uniform 5 7 = (.ok ⟨3, 2⟩, .ok ⟨3, 3⟩) := by decide +kernel

/-- C61: with one index on both edges the constructor divides by zero. -/
theorem c61_single_points : uniform 1 1 = (.ub, .ub) := by decide +kernel

/-- C61 (finding, periodic uniform edges): with 4 facing 8 periodic cells (4 and 8 indices) the slices pair index 3 with index 7,
which are not the same point (the search of `EdgeTransformation`, which accounts for the periodicity, matches 3 with 6), and the
matching index 1 is not in the slice. -/
theorem c61_periodic_counterexample :
    uniform 4 8 = (.ok ⟨2, 3⟩, .ok ⟨2, 7⟩) ∧
    (⟨2, 3⟩ : Slice).indices = [0, 3] ∧ (⟨2, 7⟩ : Slice).indices = [0, 7] ∧
    EdgeTransform.searchUniform EdgeTransform.exactTruncDiv true true 4 8 3 = some 6 ∧
    EdgeTransform.searchUniform EdgeTransform.exactTruncDiv true true 4 8 1 = some 2 := by
  refine ⟨by decide +kernel, by decide +kernel, by decide +kernel, ?_, ?_⟩ <;>
    simp [EdgeTransform.searchUniform, EdgeTransform.exactTruncDiv_eq]

/-! ### Non-uniform grids -/

theorem stepsAgree_iff (d a : ℤ) (l : List ℤ) :
    stepsAgree d (a :: l) = true ↔ ∀ k (hk : k < (a :: l).length), (a :: l)[k] = a + k * d := by
  induction l generalizing a with
  | nil => simp [stepsAgree]
  | cons b rest ih =>
    simp only [stepsAgree, Bool.and_eq_true, decide_eq_true_eq, ih]
    constructor
    · rintro ⟨hba, h⟩ k hk
      cases k with
      | zero => simp
      | succ k =>
        have := h k (by simpa using hk)
        simp only [List.getElem_cons_succ]
        rw [this]; push_cast; rw [show b = a + d by omega]; ring
    · intro h
      have h1 := h 1 (by simp)
      simp only [List.getElem_cons_succ, List.getElem_cons_zero] at h1
      refine ⟨by rw [h1]; push_cast; ring, fun k hk => ?_⟩
      have := h (k + 1) (by simpa using hk)
      simp only [List.getElem_cons_succ] at this
      rw [this, h1]; push_cast; ring

/-- C61: the step of a vector of at least two indices is its common difference; if there is none an exception is thrown. -/
theorem c61_step (v : List ℤ) (h : 2 ≤ v.length) :
    (∀ d, stepNonUniform v = .ok d ↔ ∀ k (hk : k + 1 < v.length), v[k + 1] - v[k] = d) ∧
    (stepNonUniform v = .throws ↔ ¬ ∃ d, ∀ k (hk : k + 1 < v.length), v[k + 1] - v[k] = d) := by
  match v, h with
  | a :: b :: rest, _ =>
    have key : ∀ d, (stepsAgree (b - a) (b :: rest) = true ∧ b - a = d) ↔
        ∀ k (hk : k + 1 < (a :: b :: rest).length), (a :: b :: rest)[k + 1] - (a :: b :: rest)[k] = d := by
      intro d
      constructor
      · rintro ⟨hs, rfl⟩ k hk
        rw [stepsAgree_iff] at hs
        have e1 := hs k (by simpa using hk)
        cases k with
        | zero => simp
        | succ k =>
          have e2 := hs k (by simp at hk ⊢; omega)
          simp only [List.getElem_cons_succ] at e1 e2 ⊢
          rw [e1, e2]; push_cast; ring
      · intro hh
        have h0 := hh 0 (by simp)
        simp only [List.getElem_cons_succ, List.getElem_cons_zero] at h0
        refine ⟨?_, h0⟩
        rw [stepsAgree_iff]
        intro k
        induction k with
        | zero => simp
        | succ k ih =>
          intro hk
          have e1 := ih (by omega)
          have e2 := hh (k + 1) (by simpa using hk)
          simp only [List.getElem_cons_succ] at e1 e2 ⊢
          rw [h0]
          rw [h0] at e1
          push_cast
          linarith
    unfold stepNonUniform
    by_cases hs : stepsAgree (b - a) (b :: rest) = true
    · simp only [hs, if_true, Outcome.ok.injEq]
      refine ⟨fun d => ?_, ?_⟩
      · rw [← key d]; simp [hs]
      · simp only [reduceCtorEq, false_iff, not_not]
        exact ⟨b - a, (key _).1 ⟨hs, rfl⟩⟩
    · simp only [hs, Bool.false_eq_true, if_false]
      refine ⟨fun d => ?_, ?_⟩
      · rw [← key d]; simp [hs]
      · simp only [true_iff]
        rintro ⟨d, hd⟩
        exact hs ((key d).2 hd).1

theorem slice_eq_list (v : List ℕ) (size : ℕ) (hv : 2 ≤ v.length) (hs64 : size < 2 ^ 64)
    (h0 : v.head? = some 0) (hlast : v.getLast? = some (size - 1)) (hmono : v.Pairwise (· < ·)) (d : ℤ)
    (hd : ∀ k (hk : k + 1 < v.length), (v[k + 1] : ℤ) - v[k] = d) :
    ∃ s, idxRangeSlice size (.ok d) = .ok s ∧ s.indices = v.map fun i : ℕ => (i : ℤ) := by
  obtain ⟨a, b, rest, rfl⟩ : ∃ a b rest, v = a :: b :: rest := by
    match v, hv with
    | a :: b :: rest, _ => exact ⟨a, b, rest, rfl⟩
  simp only [List.head?_cons, Option.some.injEq] at h0
  subst h0
  have hb0 : 0 < b := (List.pairwise_cons.1 hmono).1 b (by simp)
  have hdb : d = b := by have := hd 0 (by simp); simpa using this.symm
  subst hdb
  have hall : ∀ k (hk : k < (0 :: b :: rest).length), (0 :: b :: rest)[k] = k * b := by
    intro k
    induction k with
    | zero => simp
    | succ k ih =>
      intro hk
      have e1 := ih (by omega)
      have e2 := hd k (by simpa using hk)
      rw [e1] at e2
      zify
      push_cast at e2
      linarith
  set v := 0 :: b :: rest with hvdef
  have hlen : 2 ≤ v.length := by simp [v]
  have hsz : size - 1 = (v.length - 1) * b := by
    rw [List.getLast?_eq_getElem?, List.getElem?_eq_getElem (by omega), Option.some.injEq] at hlast
    rw [← hlast, hall]
  have hpos : 0 < (v.length - 1) * b := Nat.mul_pos (by omega) hb0
  have hble : b ≤ (v.length - 1) * b := Nat.le_mul_of_pos_left _ (by omega)
  refine ⟨⟨(size - 1) / b + 1, b⟩, slice_of_nat (by omega) hs64 hb0 (by omega), ?_⟩
  have hdiv : (size - 1) / b = v.length - 1 := by rw [hsz]; exact Nat.mul_div_cancel _ hb0
  unfold Slice.indices
  rw [hdiv]
  apply List.ext_getElem
  · simp; omega
  · intro k h1 h2
    simp only [List.getElem_map, List.getElem_range, hall]
    push_cast; ring

/-- C61 (non-uniform edges with the same orientation): if the ends of the edges match each other and the matching is
increasing, then either the steps between the matching indices are not constant and the constructor throws, or the slices
list exactly the matching indices of the first edge and, in the same order, their counterparts on the second edge. -/
theorem c61_non_uniform (size1 size2 : ℕ) (m : ℕ → Option ℕ) (h1 : 2 ≤ size1) (h164 : size1 < 2 ^ 64) (h264 : size2 < 2 ^ 64)
    (hfront : m 0 = some 0) (hback : m (size1 - 1) = some (size2 - 1))
    (hmono : ∀ i j i' j', i < j → j < size1 → m i = some i' → m j = some j' → i' < j') :
    (∃ s1 s2, nonUniform size1 size2 m = (.ok s1, .ok s2) ∧
      s1.indices = ((List.range size1).filter fun i => (m i).isSome).map (fun i : ℕ => (i : ℤ)) ∧
      s2.indices = ((List.range size1).filterMap m).map (fun i : ℕ => (i : ℤ))) ∨
    ((nonUniform size1 size2 m).1 = .throws ∨ (nonUniform size1 size2 m).2 = .throws) := by
  obtain ⟨N, rfl⟩ : ∃ N, size1 = N + 2 := ⟨size1 - 2, by omega⟩
  set l1 := (List.range (N + 2)).filter fun i => (m i).isSome with hl1
  set l2 := (List.range (N + 2)).filterMap m with hl2
  simp only [show N + 2 - 1 = N + 1 from rfl] at hback
  have hp1 : l1.Pairwise (· < ·) := List.Pairwise.filter _ List.pairwise_lt_range
  have hp2 : l2.Pairwise (· < ·) := by
    refine List.Pairwise.filterMap m (R := fun i j => i < j ∧ j < N + 2) ?_ ?_
    · intro a a' haa b hb b' hb'
      exact hmono a a' b b' haa.1 haa.2 hb hb'
    · have := List.pairwise_lt_range (n := N + 2)
      refine this.imp_of_mem ?_
      intro a b _ hb hab
      exact ⟨hab, List.mem_range.1 hb⟩
  have hr : List.range (N + 2) = 0 :: ((List.range N).map Nat.succ ++ [N + 1]) := by
    rw [List.range_succ, List.range_succ_eq_map]; rfl
  have e1 : l1 = 0 :: (((List.range N).map Nat.succ).filter (fun i => (m i).isSome) ++ [N + 1]) := by
    rw [hl1, hr, List.filter_cons, List.filter_append]
    simp [hfront, hback]
  have e2 : l2 = 0 :: (((List.range N).map Nat.succ).filterMap m ++ [size2 - 1]) := by
    rw [hl2, hr, List.filterMap_cons, List.filterMap_append]
    simp [hfront, hback]
  have len1 : 2 ≤ (l1.map fun i : ℕ => (i : ℤ)).length := by rw [e1]; simp
  have len2 : 2 ≤ (l2.map fun i : ℕ => (i : ℤ)).length := by rw [e2]; simp
  have hu : ∀ {v : List ℤ}, 2 ≤ v.length → stepNonUniform v ≠ .ub := by
    intro v hv
    match v, hv with
    | a :: b :: r, _ => simp only [stepNonUniform]; split <;> simp
  have c1 : (nonUniform (N + 2) size2 m).1 = idxRangeSlice (N + 2) (stepNonUniform (l1.map fun i : ℕ => (i : ℤ))) := rfl
  have c2 : (nonUniform (N + 2) size2 m).2 = idxRangeSlice size2 (stepNonUniform (l2.map fun i : ℕ => (i : ℤ))) := rfl
  rcases hs1 : stepNonUniform (l1.map fun i : ℕ => (i : ℤ)) with d1 | _ | _
  · rcases hs2 : stepNonUniform (l2.map fun i : ℕ => (i : ℤ)) with d2 | _ | _
    · left
      obtain ⟨s1, g1, g2⟩ := slice_eq_list l1 (N + 2) (by simpa using len1) h164 (by rw [e1]; rfl)
        (by rw [e1, ← List.cons_append, List.getLast?_append]; rfl) hp1 d1 (by
          have := ((c61_step _ len1).1 d1).1 hs1
          intro k hk
          have h3 := this k (by simpa using hk)
          rw [List.getElem_map, List.getElem_map] at h3
          exact h3)
      obtain ⟨s2, g3, g4⟩ := slice_eq_list l2 size2 (by simpa using len2) h264 (by rw [e2]; rfl)
        (by rw [e2, ← List.cons_append, List.getLast?_append]; rfl) hp2 d2 (by
          have := ((c61_step _ len2).1 d2).1 hs2
          intro k hk
          have h3 := this k (by simpa using hk)
          rw [List.getElem_map, List.getElem_map] at h3
          exact h3)
      refine ⟨s1, s2, ?_, g2, g4⟩
      apply Prod.ext
      · rw [c1, hs1, g1]
      · rw [c2, hs2, g3]
    · right; right; rw [c2, hs2]; rfl
    · exact absurd hs2 (hu len2)
  · right; left; rw [c1, hs1]; rfl
  · exact absurd hs1 (hu len1)

/-- 5 points facing 3 points, every second point matching. -/
example : nonUniform 5 3 (fun i => if i % 2 = 0 then some (i / 2) else none) = (.ok ⟨3, 2⟩, .ok ⟨3, 1⟩) := by decide +kernel

/-- Irregularly spaced matching points are refused. -/
example : (nonUniform 4 3 (fun i => if i = 2 then none else if i = 3 then some 2 else some i)).1 = .throws := by decide +kernel

/-- C61 (finding, opposite orientations): when the edges run in opposite directions the counterparts are found in decreasing
order, the stride of the second slice is negative and, converted to an unsigned integer, makes its size 1: whatever
the number of points, the second slice contains only the front of its edge. -/
theorem c61_reversed_counterexample (n : ℕ) (h : 0 < n) (hn : n + 1 < 2 ^ 63) :
    (nonUniform (n + 1) (n + 1) (fun i => some (n - i))).1 = .ok ⟨n + 1, 1⟩ ∧
    (nonUniform (n + 1) (n + 1) (fun i => some (n - i))).2 = .ok ⟨1, -1⟩ := by
  have hc1 : (conforming (n + 1) (fun i => some (n - i))).1 = (List.range (n + 1)).map fun i : ℕ => (i : ℤ) := by
    simp [conforming]
  have hc2 : (conforming (n + 1) (fun i => some (n - i))).2 = (List.range (n + 1)).map fun i : ℕ => ((n - i : ℕ) : ℤ) := by
    simp [conforming, List.filterMap_eq_map', Function.comp_def]
  have s1 : stepNonUniform (conforming (n + 1) (fun i => some (n - i))).1 = .ok 1 := by
    rw [hc1]
    refine ((c61_step _ (by simp; omega)).1 1).2 ?_
    intro k hk
    simp
  have s2 : stepNonUniform (conforming (n + 1) (fun i => some (n - i))).2 = .ok (-1) := by
    rw [hc2]
    refine ((c61_step _ (by simp; omega)).1 (-1)).2 ?_
    intro k hk
    simp only [List.length_map, List.length_range] at hk
    simp only [List.getElem_map, List.getElem_range]
    omega
  constructor
  · simp only [nonUniform, s1]
    have := slice_of_nat (size := n + 1) (d := 1) (by omega) (by omega) one_pos (by norm_num)
    simpa using this
  · simp only [nonUniform, s2, idxRangeSlice]
    have hu : toU64 (-1) = 2 ^ 64 - 1 := by decide +kernel
    have hn' : toU64 (((n + 1 : ℕ) : ℤ) - 1) = n := by
      rw [show (((n + 1 : ℕ) : ℤ) - 1) = ((n : ℕ) : ℤ) by push_cast; ring]
      exact toU64_of_nat (by omega)
    rw [hu, hn', if_neg (by norm_num), Nat.div_eq_of_lt (by omega)]

end Verif.MatchSlice
