import Verif.Model.Csr
import Mathlib.Algebra.BigOperators.Group.Finset.Basic
import Mathlib.Algebra.BigOperators.Group.List.Basic
import Mathlib.Data.List.Sort
import Mathlib.Data.Real.Basic
import Mathlib.Tactic.NormNum
import Mathlib.Tactic.Ring

/-!
# C25: COO to CSR conversion
-/

namespace Verif.Csr

variable {α : Type*} [AddCommMonoid α]

/-- Specification: the `(i, j)` entry of batch `b` of the matrix given by triplets (all batches share the row and column
indices; duplicates add up). -/
def cooEntry (nnz : ℕ) (vals : ℕ → α) (row col : ℕ → ℕ) (b i j : ℕ) : α :=
  ((List.range nnz).map fun k => if row k = i ∧ col k = j then vals (b * nnz + k) else 0).sum

/-- Specification: the `(i, j)` entry of batch `b` of a CSR matrix (standard meaning of the format). -/
def csrEntry (m : Csr α) (b i j : ℕ) : α :=
  ((List.range' (m.ptr i) (m.ptr (i + 1) - m.ptr i)).map fun k =>
    if m.cols k = j then m.vals b k else 0).sum

/-- Positions `k` of the triplets of row `i`, in order. -/
def rowList (nnz : ℕ) (row : ℕ → ℕ) (i : ℕ) : List ℕ := (List.range nnz).filter (fun k => row k = i)

/-- Positions of the triplets of rows `0 .. n-1`, grouped by row. -/
def allList (nnz : ℕ) (row : ℕ → ℕ) (n : ℕ) : List ℕ := (List.range n).flatMap (rowList nnz row)

theorem allList_succ (nnz : ℕ) (row : ℕ → ℕ) (n : ℕ) :
    allList nnz row (n + 1) = allList nnz row n ++ rowList nnz row n := by
  unfold allList; rw [List.range_succ, List.flatMap_append]; simp

theorem rowLoop_spec (nnz : ℕ) (vals : ℕ → α) (row col : ℕ → ℕ) (i p : ℕ) (c : ℕ → ℕ) (v : ℕ → α) :
    let r := rowLoop nnz vals row col i p c v
    r.cnt = (rowList nnz row i).length ∧
    (∀ t k, (rowList nnz row i)[t]? = some k → r.cols (p + t) = col k ∧ r.vals (p + t) = vals k) ∧
    ∀ x < p, r.cols x = c x ∧ r.vals x = v x := by
  unfold rowLoop rowList
  induction nnz with
  | zero => refine ⟨rfl, ?_, fun x _ => ⟨rfl, rfl⟩⟩; simp
  | succ m ih =>
      rw [List.range_succ, List.foldl_append, List.filter_append]
      obtain ⟨h1, h2, h3⟩ := ih
      simp only [List.foldl_cons, List.foldl_nil]
      set s := (List.range m).foldl (fun (s : Row α) k =>
        if row k = i then
          { cnt := s.cnt + 1,
            cols := Function.update s.cols (p + s.cnt) (col k),
            vals := Function.update s.vals (p + s.cnt) (vals k) }
        else s) ⟨0, c, v⟩ with hs
      by_cases h : row m = i
      · have hf : List.filter (fun k => decide (row k = i)) [m] = [m] := by simp [h]
        rw [if_pos h, hf]
        refine ⟨by simp [h1], fun t k ht => ?_, fun x hx => ?_⟩
        · rcases lt_trichotomy t s.cnt with hlt | heq | hgt
          · rw [List.getElem?_append_left (by omega)] at ht
            obtain ⟨a, b⟩ := h2 t k ht
            have : p + t ≠ p + s.cnt := by omega
            exact ⟨by rw [← a]; exact Function.update_of_ne this _ _,
              by rw [← b]; exact Function.update_of_ne this _ _⟩
          · rw [List.getElem?_append_right (by omega)] at ht
            have e : t - (List.filter (fun k => decide (row k = i)) (List.range m)).length = 0 := by omega
            rw [e] at ht
            simp at ht
            subst ht
            rw [heq]
            exact ⟨Function.update_self _ _ _, Function.update_self _ _ _⟩
          · rw [List.getElem?_eq_none (by simp; omega)] at ht
            cases ht
        · have : x ≠ p + s.cnt := by omega
          obtain ⟨a, b⟩ := h3 x hx
          exact ⟨by rw [← a]; exact Function.update_of_ne this _ _,
              by rw [← b]; exact Function.update_of_ne this _ _⟩
      · have hf : List.filter (fun k => decide (row k = i)) [m] = [] := by simp [h]
        rw [if_neg h, hf, List.append_nil]
        exact ⟨h1, h2, h3⟩

theorem rowsLoop_spec (n nnz : ℕ) (vals : ℕ → α) (row col : ℕ → ℕ) :
    let s := rowsLoop n nnz vals row col
    (∀ i ≤ n, 0 < n → s.ptr i = (allList nnz row i).length) ∧
    ∀ t k, (allList nnz row n)[t]? = some k → s.cols t = col k ∧ s.vals t = vals k := by
  -- generalise over the number of rows already processed
  have key : ∀ m ≤ n, ∀ s, s = (List.range m).foldl (rowsStep nnz vals row col) (rowsInit n nnz) →
      (∀ i ≤ m, 0 < n → s.ptr i = (allList nnz row i).length) ∧
      ∀ t k, (allList nnz row m)[t]? = some k → s.cols t = col k ∧ s.vals t = vals k := by
    intro m
    induction m with
    | zero =>
        rintro _ s rfl
        refine ⟨fun i hi hn => ?_, fun t k h => by simp [allList] at h⟩
        have : i = 0 := by omega
        subst this
        simp only [List.range_zero, List.foldl_nil, allList, List.flatMap_nil, List.length_nil, rowsInit]
        rw [Function.update_of_ne (by omega), Function.update_self]
    | succ m ih =>
        rintro hm s' rfl
        obtain ⟨h1, h2⟩ := ih (by omega) _ rfl
        rw [List.range_succ, List.foldl_append]
        simp only [List.foldl_cons, List.foldl_nil]
        set s := (List.range m).foldl (rowsStep nnz vals row col) (rowsInit n nnz) with hs
        unfold rowsStep
        dsimp only
        obtain ⟨r1, r2, r3⟩ := rowLoop_spec nnz vals row col m (s.ptr m) s.cols s.vals
        have hpm : s.ptr m = (allList nnz row m).length := h1 m le_rfl (by omega)
        refine ⟨fun i hi hn => ?_, fun t k ht => ?_⟩
        · by_cases h : i = m + 1
          · subst h
            rw [Function.update_self, r1, hpm, allList_succ, List.length_append]
          · rw [Function.update_of_ne h]
            exact h1 i (by omega) hn
        · rw [allList_succ] at ht
          rcases lt_or_ge t (allList nnz row m).length with hlt | hge
          · rw [List.getElem?_append_left hlt] at ht
            obtain ⟨a, b⟩ := h2 t k ht
            obtain ⟨c, d⟩ := r3 t (by omega)
            exact ⟨c.trans a, d.trans b⟩
          · rw [List.getElem?_append_right hge] at ht
            have := r2 _ k ht
            have e : s.ptr m + (t - (allList nnz row m).length) = t := by rw [hpm]; omega
            rwa [e] at this
  exact key n le_rfl _ rfl

theorem sum_map_filter (L : List ℕ) (p : ℕ → Prop) [DecidablePred p] (f : ℕ → α) :
    ((L.filter (fun k => decide (p k))).map f).sum = (L.map fun k => if p k then f k else 0).sum := by
  induction L with
  | nil => rfl
  | cons a L ih =>
      rw [List.filter_cons]
      by_cases h : p a
      · simp [h, ih]
      · simp [h, ih]

/-- If the values of batch `b` at the positions of row `i` follow the grouped order, the CSR entry is the COO entry. -/
theorem entry_of_grouped (n nnz : ℕ) (vals : ℕ → α) (row col : ℕ → ℕ) (m : Csr α) (b : ℕ) {i : ℕ} (hi : i < n)
    (hptr : ∀ i ≤ n, m.ptr i = (allList nnz row i).length)
    (hc : ∀ t k, (allList nnz row n)[t]? = some k → m.cols t = col k ∧ m.vals b t = vals (b * nnz + k))
    (j : ℕ) : csrEntry m b i j = cooEntry nnz vals row col b i j := by
  have hlen : m.ptr (i + 1) - m.ptr i = (rowList nnz row i).length := by
    rw [hptr (i + 1) hi, hptr i hi.le, allList_succ, List.length_append]; omega
  have hmap : (List.range' (m.ptr i) (m.ptr (i + 1) - m.ptr i)).map
      (fun k => if m.cols k = j then m.vals b k else 0)
      = (rowList nnz row i).map (fun k => if col k = j then vals (b * nnz + k) else 0) := by
    rw [hlen, hptr i hi.le]
    apply List.ext_getElem?
    intro t
    rw [List.getElem?_map, List.getElem?_map]
    by_cases ht : t < (rowList nnz row i).length
    · have hrow : (rowList nnz row i)[t]? = some ((rowList nnz row i)[t]) := List.getElem?_eq_getElem ht
      have hall : (allList nnz row n)[(allList nnz row i).length + t]? = some ((rowList nnz row i)[t]) := by
        have hsplit : ∃ rest, allList nnz row n = (allList nnz row i ++ rowList nnz row i) ++ rest := by
          obtain ⟨d, rfl⟩ : ∃ d, n = (i + 1) + d := ⟨n - (i + 1), by omega⟩
          rw [← allList_succ]
          clear hi hptr hc hlen
          induction d with
          | zero => exact ⟨[], by simp⟩
          | succ d ih =>
              obtain ⟨rest, hr⟩ := ih
              exact ⟨rest ++ rowList nnz row (i + 1 + d), by
                rw [← Nat.add_assoc, allList_succ, hr, List.append_assoc]⟩
        obtain ⟨rest, hr⟩ := hsplit
        rw [hr, List.getElem?_append_left (by rw [List.length_append]; omega),
          List.getElem?_append_right (by omega), Nat.add_sub_cancel_left, hrow]
      obtain ⟨a, c⟩ := hc _ _ hall
      rw [hrow, List.getElem?_range' ht]
      simp [a, c]
    · rw [List.getElem?_eq_none (by simpa using ht), List.getElem?_eq_none (by simpa using ht)]
      rfl
  unfold csrEntry cooEntry
  rw [hmap, rowList, sum_map_filter]
  congr 1
  refine List.map_congr_left fun k _ => ?_
  by_cases h1 : row k = i <;> by_cases h2 : col k = j <;> simp [h1, h2]

/-- **C25 (first batch)** Whatever the order of the triplets, the first matrix of the batch is the one described by the
triplets. -/
theorem c25_first_batch {n nnz : ℕ} (hn : 0 < n) (vals : ℕ → α) (row col : ℕ → ℕ) {i : ℕ} (hi : i < n) (j : ℕ) :
    csrEntry (convert n nnz vals row col) 0 i j = cooEntry nnz vals row col 0 i j := by
  obtain ⟨h1, h2⟩ := rowsLoop_spec n nnz vals row col
  refine entry_of_grouped n nnz vals row col _ 0 hi (fun i hi => h1 i hi hn) (fun t k ht => ?_) j
  obtain ⟨a, b⟩ := h2 t k ht
  refine ⟨a, ?_⟩
  simp only [convert, if_true, Nat.zero_mul, Nat.zero_add]
  exact b

/-- The row pointers are the standard ones: `0` first, increasing, `nnz` last when every row index is in range. -/
theorem c25_row_pointers {n nnz : ℕ} (hn : 0 < n) (vals : ℕ → α) (row col : ℕ → ℕ)
    (hrow : ∀ k < nnz, row k < n) :
    (convert n nnz vals row col).ptr 0 = 0 ∧ (convert n nnz vals row col).ptr n = nnz ∧
      ∀ i < n, (convert n nnz vals row col).ptr i ≤ (convert n nnz vals row col).ptr (i + 1) := by
  obtain ⟨h1, -⟩ := rowsLoop_spec n nnz vals row col
  have h1' : ∀ i ≤ n, (convert n nnz vals row col).ptr i = (allList nnz row i).length :=
    fun i hi => h1 i hi hn
  refine ⟨by rw [h1' 0 (by omega)]; rfl, ?_, fun i hi => ?_⟩
  · rw [h1' n le_rfl]
    have : ∀ m, (allList nnz row m).length = ((List.range nnz).filter (fun k => row k < m)).length := by
      intro m
      induction m with
      | zero => simp [allList]
      | succ m ih =>
          rw [allList_succ, List.length_append, ih, rowList]
          rw [← List.countP_eq_length_filter, ← List.countP_eq_length_filter,
            ← List.countP_eq_length_filter]
          clear ih
          induction nnz with
          | zero => rfl
          | succ q ih2 =>
              rw [List.range_succ, List.countP_append, List.countP_append, List.countP_append]
              have := ih2 (fun k hk => hrow k (by omega)) (rowsLoop_spec n q vals row col).1
                (fun i hi => (rowsLoop_spec n q vals row col).1 i hi hn)
              have hs : List.countP (fun k => decide (row k < m)) [q] + List.countP (fun k => decide (row k = m)) [q]
                  = List.countP (fun k => decide (row k < m + 1)) [q] := by
                rcases lt_trichotomy (row q) m with h | h | h
                · have e1 : row q ≠ m := by omega
                  have e2 : row q < m + 1 := by omega
                  simp [h, e1, e2]
                · simp [h]
                · have e1 : row q ≠ m := by omega
                  have e2 : ¬ row q < m + 1 := by omega
                  have e3 : ¬ row q < m := by omega
                  simp [e1, e2, e3]
              omega
    rw [this n, List.filter_eq_self.2]
    · simp
    · intro k hk
      simpa using hrow k (List.mem_range.1 hk)
  · rw [h1' i hi.le, h1' (i + 1) hi, allList_succ, List.length_append]; omega

/-- Grouping an already sorted list changes nothing. -/
theorem allList_sorted (n nnz : ℕ) (row : ℕ → ℕ) (hrow : ∀ k < nnz, row k < n)
    (hs : ∀ k l, k ≤ l → l < nnz → row k ≤ row l) : allList nnz row n = List.range nnz := by
  -- by uniqueness of the sorted permutation ordered by position
  have h1 : ∀ m, ∀ k, k ∈ allList nnz row m ↔ k < nnz ∧ row k < m := by
    intro m k
    simp only [allList, rowList, List.mem_flatMap, List.mem_filter, List.mem_range, decide_eq_true_eq]
    constructor
    · rintro ⟨i, hi, hk, rfl⟩; exact ⟨hk, hi⟩
    · rintro ⟨hk, hr⟩; exact ⟨row k, hr, hk, rfl⟩
  have h2 : ∀ m, (allList nnz row m).Pairwise (· < ·) := by
    intro m
    induction m with
    | zero => simp [allList]
    | succ m ih =>
        rw [allList_succ, List.pairwise_append]
        refine ⟨ih, List.Pairwise.filter _ List.pairwise_lt_range, fun a ha b hb => ?_⟩
        obtain ⟨ha1, ha2⟩ := (h1 m a).1 ha
        simp only [rowList, List.mem_filter, List.mem_range, decide_eq_true_eq] at hb
        by_contra hc
        have := hs b a (by omega) ha1
        omega
  have hsub : ∀ k, k ∈ allList nnz row n ↔ k ∈ List.range nnz := by
    intro k
    rw [h1 n k, List.mem_range]
    exact ⟨fun h => h.1, fun h => ⟨h, hrow k h⟩⟩
  have hperm : (allList nnz row n).Perm (List.range nnz) := by
    rw [List.perm_ext_iff_of_nodup]
    · exact hsub
    · exact (h2 n).imp (fun h => h.ne)
    · exact List.nodup_range
  exact hperm.eq_of_pairwise (fun a b _ _ h1 h2 => absurd h1 (by omega)) (h2 n) List.pairwise_lt_range

/-- **C25 (all batches, sorted input)** If the triplets are sorted by row (and the rows in range), every matrix of the batch is
the one described by the triplets. -/
theorem c25_sorted {n nnz : ℕ} (hn : 0 < n) (vals : ℕ → α) (row col : ℕ → ℕ) (hrow : ∀ k < nnz, row k < n)
    (hs : ∀ k l, k ≤ l → l < nnz → row k ≤ row l) (b : ℕ) {i : ℕ} (hi : i < n) (j : ℕ) :
    csrEntry (convert n nnz vals row col) b i j = cooEntry nnz vals row col b i j := by
  obtain ⟨h1, h2⟩ := rowsLoop_spec n nnz vals row col
  refine entry_of_grouped n nnz vals row col _ b hi (fun i hi => h1 i hi hn) (fun t k ht => ?_) j
  obtain ⟨a, c⟩ := h2 t k ht
  refine ⟨a, ?_⟩
  have htk : t = k := by
    rw [allList_sorted n nnz row hrow hs] at ht
    obtain ⟨hlt, he⟩ := List.getElem?_eq_some_iff.1 ht
    simpa using he
  subst htk
  by_cases hb : b = 0
  · subst hb; simp only [convert, if_true, Nat.zero_mul, Nat.zero_add]; exact c
  · simp only [convert, hb, if_false]

/-- **C25 (finding)** When the triplets are not sorted by row, the matrices of the batches after the first are wrong: two
batches with triplets `(1,1), (0,0)`; the second matrix should be `diag(4, 3)` but the converted one is
`diag(3, 4)`. -/
theorem c25_unsorted_counterexample : ∃ (n nnz : ℕ) (vals : ℕ → ℤ) (row col : ℕ → ℕ),
    (∀ k < nnz, row k < n ∧ col k < n) ∧
    csrEntry (convert n nnz vals row col) 1 0 0 ≠ cooEntry nnz vals row col 1 0 0 := by
  refine ⟨2, 2, fun k => k + 1, fun k => 1 - k, fun k => 1 - k, fun k _ => ⟨by dsimp only; omega, by dsimp only; omega⟩, ?_⟩
  decide

/-- **C25 (finding)** `setup_solver` sorts the columns inside the rows item by item, but the column indices are shared: after
the first item has been sorted, `is_sorted_by_column_index` holds for all the others and their values are not moved. Whenever
the indices were not sorted (and sorting them makes them sorted), the values of every other item keep their old
positions while the columns have moved. -/
theorem c25_setup_sort_only_first (isSorted : (ℕ → ℕ) → Bool) (perm : (ℕ → ℕ) → (ℕ → ℕ)) (batch : ℕ)
    (hb : 0 < batch) (m : Csr α) (hu : isSorted m.cols = false)
    (hsort : isSorted (fun k => m.cols (perm m.cols k)) = true) :
    (setupSort isSorted perm batch m).cols = (fun k => m.cols (perm m.cols k)) ∧
    (setupSort isSorted perm batch m).vals 0 = (fun k => m.vals 0 (perm m.cols k)) ∧
    ∀ b, b ≠ 0 → (setupSort isSorted perm batch m).vals b = m.vals b := by
  obtain ⟨q, rfl⟩ : ∃ q, batch = q + 1 := ⟨batch - 1, by omega⟩
  unfold setupSort
  rw [List.range_succ_eq_map, List.foldl_cons, hu]
  simp only [Bool.false_eq_true, if_false]
  have stay : ∀ (L : List ℕ) (m' : Csr α), isSorted m'.cols = true →
      L.foldl (fun (m : Csr α) b =>
        if isSorted m.cols then m
        else { m with
          cols := fun k => m.cols (perm m.cols k),
          vals := Function.update m.vals b (fun k => m.vals b (perm m.cols k)) }) m' = m' := by
    intro L
    induction L with
    | nil => intro m' _; rfl
    | cons a L ih => intro m' h; rw [List.foldl_cons, if_pos h]; exact ih m' h
  rw [stay _ _ hsort]
  refine ⟨rfl, by simp, fun b hb => by simp [hb]⟩

/-- Concrete instance of the previous theorem: one row `[a b]` stored with columns `1, 0`; after `setup_solver` the second
item's matrix has its two entries exchanged. -/
theorem c25_setup_sort_counterexample : ∃ (m : Csr ℤ) (isSorted : (ℕ → ℕ) → Bool) (perm : (ℕ → ℕ) → (ℕ → ℕ)),
    isSorted m.cols = false ∧ isSorted (fun k => m.cols (perm m.cols k)) = true ∧
    csrEntry (setupSort isSorted perm 2 m) 0 0 1 = csrEntry m 0 0 1 ∧
    csrEntry (setupSort isSorted perm 2 m) 1 0 1 ≠ csrEntry m 1 0 1 := by
  refine ⟨⟨fun b k => 10 * b + k + 1, fun k => 1 - k, fun i => if i = 0 then 0 else 2⟩,
    fun c => decide (c 0 ≤ c 1), fun _ k => 1 - k, ?_, ?_, ?_, ?_⟩ <;> decide

/-- The hypotheses of `c25_sorted` are met by a non-trivial input (duplicates and an empty row included). -/
example : (∀ k < 4, (fun k => if k = 3 then 2 else 0) k < 3) ∧
    ∀ k l, k ≤ l → l < 4 → (fun k => if k = 3 then 2 else 0) k ≤ (fun k => if k = 3 then 2 else 0) l := by
  constructor
  · intro k _; dsimp only; split_ifs <;> omega
  · intro k l _ _; dsimp only; split_ifs <;> omega

end Verif.Csr
