import Verif.Props.PolarFemPtr

/-!
# C74: the finite element solver on polar splines
-/

namespace Verif.PolarFem

open Verif.PolarSplines Finset

/-! ## Specification -/

/-- The supports of two basis functions share a cell. -/
def Share (z : Sz) (i j : ℕ) : Prop := ∃ cr < z.cellsR, ∃ ct < z.nT, Supp z i cr ct ∧ Supp z j cr ct

/-- Product of row `i` of a CSR matrix with a vector; `none` if an entry was not written. -/
def csrRow (P : ℕ → ℕ) (cols : ℕ → Option ℕ) (vals : ℕ → Option (Option ℝ)) (x : ℕ → ℝ) (i : ℕ) : Option ℝ :=
  ((List.range' (P i) (P (i + 1) - P i)).mapM fun k => (cols k).bind fun c => ((vals k).bind id).map fun v => v * x c).map List.sum

/-- A function of the finite element space, and its derivatives, at a quadrature point. -/
def field (z : Sz) (d : Dat) (n : ℕ) (x : ℕ → ℝ) (oR oT qr qt : ℕ) : ℝ := ∑ j ∈ range n, x j * B z d oR oT j qr qt

/-- The bilinear form of the weak problem, `∫ α ∇u · g⁻¹ ∇v + β u v`, with the quadrature. -/
def form (z : Sz) (d : Dat) (v u : ℕ → ℕ → ℕ → ℕ → ℝ) : ℝ :=
  ∑ qr ∈ range z.qR, ∑ qt ∈ range z.qT, d.vol qr qt * (d.alpha qr qt *
    (v 1 0 qr qt * d.ginv qr qt 0 0 * u 1 0 qr qt + v 1 0 qr qt * d.ginv qr qt 0 1 * u 0 1 qr qt + v 0 1 qr qt * d.ginv qr qt 1 0 * u 1 0 qr qt + v 0 1 qr qt * d.ginv qr qt 1 1 * u 0 1 qr qt) +
    d.beta qr qt * (v 0 0 qr qt * u 0 0 qr qt))

/-! ## Arrays after a list of writes -/

theorem store_append {α : Type*} (w : List (ℕ × α)) (s : ℕ) (v : α) : store (w ++ [(s, v)]) = Function.update (store w) s (some v) := by
  unfold store
  rw [List.foldl_append]
  rfl

theorem store_some {α : Type*} (w : List (ℕ × α)) (s : ℕ) (v : α) (h : (s, v) ∈ w) (hu : ∀ x ∈ w, x.1 = s → x.2 = v) : store w s = some v := by
  induction w using List.reverseRecOn with
  | nil => cases h
  | append_singleton w a ih =>
    rw [store_append]
    by_cases ha : a.1 = s
    · rw [ha, Function.update_self, hu a (by simp) ha]
    · rw [Function.update_of_ne (Ne.symm ha)]
      refine ih ?_ fun x hx => hu x (by simp [hx])
      rw [List.mem_append, List.mem_singleton] at h
      rcases h with h | h
      · exact h
      · exact absurd (by rw [← h]) ha

/-! ## The writes of columns -/

/-- Entry `k` of row `i` of the column array. -/
def IsSlot (z : Sz) (s i k c : ℕ) : Prop := i < z.matSize ∧ (rowCols z i)[k]? = some c ∧ s = ptr z i + k

theorem slot_col_unique (z : Sz) (ok : Ok z) {s i k c i' k' c' : ℕ} (h : IsSlot z s i k c) (h' : IsSlot z s i' k' c') : i = i' ∧ c = c' := by
  obtain ⟨a1, a2, a3⟩ := h
  obtain ⟨b1, b2, b3⟩ := h'
  obtain ⟨rfl, rfl⟩ := slot_unique z ok a1 b1 (List.getElem?_eq_some_iff.1 a2).1 (List.getElem?_eq_some_iff.1 b2).1 (by omega)
  exact ⟨rfl, by rw [a2] at b2; exact Option.some.inj b2⟩

theorem sizes (z : Sz) (ok : Ok z) : z.nS ≤ z.matSize ∧ z.nS + z.p * z.nT ≤ z.matSize := by
  have hpm : z.p * z.nT ≤ z.mR * z.nT := Nat.mul_le_mul_right _ (by have := p_le_mR z ok; omega)
  rw [matSize_eq z ok]; omega

theorem slot_SS (z : Sz) (ok : Ok z) (row col : ℕ) (hr : row < z.nS) (hc : col < z.nS + z.p * z.nT) : IsSlot z (ptr z row + col) row col col := by
  refine ⟨by have := (sizes z ok).1; omega, ?_, rfl⟩
  unfold rowCols
  rw [if_pos hr, List.getElem?_range hc]

theorem slot_TS (z : Sz) (ok : Ok z) (row col : ℕ) (hr : row < z.nS) (hc : z.nS ≤ col) (hc' : col < z.nS + z.p * z.nT) : IsSlot z (ptr z col + row) col row row := by
  refine ⟨by have := (sizes z ok).2; omega, ?_, rfl⟩
  unfold rowCols
  have := (central_lt z ok col).1 hc'
  rw [if_neg (by omega), if_pos (by omega), List.getElem?_append_left (by rw [List.length_range]; exact hr), List.getElem?_range hr]

theorem slot_TT (z : Sz) (ok : Ok z) (row k c : ℕ) (hr : z.nS ≤ row) (hr' : row < z.matSize) (hk : (trialCols z row)[k]? = some c) :
    IsSlot z (ptr z row + colOffset z (rad z row) + k) row (colOffset z (rad z row) + k) c := by
  refine ⟨hr', ?_, by omega⟩
  unfold rowCols colOffset
  have hrad : z.c1 ≤ rad z row := Nat.le_add_right _ _
  rw [if_neg (by omega)]
  by_cases h : rad z row < z.c1 + z.p
  · rw [if_pos h, if_pos ⟨hrad, h⟩, List.getElem?_append_right (by rw [List.length_range]; omega), List.length_range, Nat.add_sub_cancel_left, hk]
  · rw [if_neg h, if_neg (by tauto), List.nil_append, zero_add, hk]

theorem div_mod_lt {a b l : ℕ} (h : l < a * b) : l / b < a ∧ l % b < b := by
  have hb : 0 < b := by
    rcases Nat.eq_zero_or_pos b with h0 | h0
    · subst h0; simp at h
    · exact h0
  exact ⟨by rwa [Nat.div_lt_iff_lt_mul hb], Nat.mod_lt _ hb⟩

theorem div_mod_mk {a b x y : ℕ} (hx : x < a) (hy : y < b) : x * b + y < a * b ∧ (x * b + y) / b = x ∧ (x * b + y) % b = y := by
  have : (x + 1) * b ≤ a * b := Nat.mul_le_mul_right _ (by omega)
  rw [add_mul] at this
  refine ⟨by omega, ?_, ?_⟩
  · rw [mul_comm, Nat.mul_add_div (by omega), Nat.div_eq_of_lt hy, add_zero]
  · rw [mul_comm, Nat.mul_add_mod, Nat.mod_eq_of_lt hy]

/-- Every write of a column is at the place of that column in its row. -/
theorem colWrites_slot (z : Sz) (ok : Ok z) (x : ℕ × ℕ) (hx : x ∈ colWrites z) : ∃ i k, IsSlot z x.1 i k x.2 := by
  unfold colWrites at hx
  rw [List.mem_append, List.mem_append] at hx
  rcases hx with (hx | hx) | hx
  · unfold colsSS at hx
    rw [List.mem_flatMap] at hx
    obtain ⟨row, hr, hx⟩ := hx
    rw [List.mem_map] at hx
    obtain ⟨col, hc, rfl⟩ := hx
    rw [List.mem_range] at hr hc
    exact ⟨_, _, slot_SS z ok row col hr (by omega)⟩
  · unfold colsST at hx
    simp only [List.mem_flatMap, List.mem_range] at hx
    obtain ⟨l, hl, hx⟩ := hx
    obtain ⟨h1, h2⟩ := div_mod_lt hl
    rw [List.mem_cons, List.mem_singleton] at hx
    rcases hx with rfl | rfl
    · exact ⟨_, _, slot_SS z ok _ _ h1 (by omega)⟩
    · exact ⟨_, _, slot_TS z ok _ _ h1 (by omega) (by omega)⟩
  · unfold colsTT at hx
    simp only [List.mem_flatMap, List.mem_range] at hx
    obtain ⟨l, hl, hx⟩ := hx
    rw [get2d_eq z _ (Nat.le_add_right _ _)] at hx
    simp only [List.mem_mapIdx] at hx
    obtain ⟨k, hk, rfl⟩ := hx
    exact ⟨_, _, slot_TT z ok (z.nS + l) k _ (by omega) (by rw [matSize_eq z ok]; omega) (List.getElem?_eq_getElem hk)⟩

/-- Every entry of every row is written. -/
theorem colWrites_mem (z : Sz) (ok : Ok z) (s i k c : ℕ) (h : IsSlot z s i k c) : (s, c) ∈ colWrites z := by
  obtain ⟨hi, hk, rfl⟩ := h
  unfold colWrites
  rw [List.mem_append, List.mem_append]
  have hms := matSize_eq z ok
  unfold rowCols at hk
  by_cases hs : i < z.nS
  · rw [if_pos hs] at hk
    have hk' : k < z.nS + z.p * z.nT := by
      have := (List.getElem?_eq_some_iff.1 hk).1
      rwa [List.length_range] at this
    rw [List.getElem?_range hk'] at hk
    obtain rfl := Option.some.inj hk
    left
    by_cases hc : k < z.nS
    · left
      unfold colsSS
      rw [List.mem_flatMap]
      exact ⟨i, by simpa, by rw [List.mem_map]; exact ⟨k, by simpa, rfl⟩⟩
    · right
      unfold colsST
      simp only [List.mem_flatMap, List.mem_range]
      obtain ⟨a1, a2, a3⟩ := div_mod_mk hs (show k - z.nS < z.p * z.nT by omega)
      refine ⟨_, a1, ?_⟩
      rw [a2, a3, Nat.sub_add_cancel (by omega)]
      simp
  · rw [if_neg hs] at hk
    have hrad : z.c1 ≤ rad z i := Nat.le_add_right _ _
    by_cases hr : rad z i < z.c1 + z.p
    · rw [if_pos hr] at hk
      by_cases hkn : k < z.nS
      · rw [List.getElem?_append_left (by rw [List.length_range]; exact hkn), List.getElem?_range hkn] at hk
        obtain rfl := Option.some.inj hk
        left; right
        unfold colsST
        simp only [List.mem_flatMap, List.mem_range]
        have hlt := (central_lt z ok i).2 (Or.inr hr)
        obtain ⟨a1, a2, a3⟩ := div_mod_mk hkn (show i - z.nS < z.p * z.nT by omega)
        refine ⟨_, a1, ?_⟩
        rw [a2, a3, Nat.sub_add_cancel (by omega)]
        simp
      · rw [List.getElem?_append_right (by rw [List.length_range]; omega), List.length_range] at hk
        right
        unfold colsTT
        simp only [List.mem_flatMap, List.mem_range]
        refine ⟨i - z.nS, by omega, ?_⟩
        rw [Nat.add_sub_cancel' (by omega), get2d_eq z i (by omega)]
        simp only [List.mem_mapIdx]
        obtain ⟨hk1, hk2⟩ := List.getElem?_eq_some_iff.1 hk
        refine ⟨k - z.nS, hk1, ?_⟩
        rw [hk2]
        unfold colOffset
        rw [if_pos ⟨hrad, hr⟩]
        congr 1; omega
    · rw [if_neg hr, List.nil_append] at hk
      right
      unfold colsTT
      simp only [List.mem_flatMap, List.mem_range]
      refine ⟨i - z.nS, by omega, ?_⟩
      rw [Nat.add_sub_cancel' (by omega), get2d_eq z i (by omega)]
      simp only [List.mem_mapIdx]
      obtain ⟨hk1, hk2⟩ := List.getElem?_eq_some_iff.1 hk
      refine ⟨k, hk1, ?_⟩
      rw [hk2]
      unfold colOffset
      rw [if_neg (by tauto), add_zero]

/-- The column array, whatever the order of the writes. -/
theorem cols_at (z : Sz) (ok : Ok z) (wc : List (ℕ × ℕ)) (hc : wc.Perm (colWrites z)) (s i k c : ℕ) (h : IsSlot z s i k c) : store wc s = some c := by
  refine store_some wc s c (hc.mem_iff.2 (colWrites_mem z ok s i k c h)) ?_
  intro x hx hs
  obtain ⟨i', k', h'⟩ := colWrites_slot z ok x (hc.mem_iff.1 hx)
  rw [hs] at h'
  exact (slot_col_unique z ok h h').2.symm

/-! ## The writes of values -/

theorem galerkin_symm (z : Sz) (d : Dat) (hg : ∀ qr qt a b, d.ginv qr qt a b = d.ginv qr qt b a) (i j : ℕ) : galerkin z d i j = galerkin z d j i :=
  Finset.sum_congr rfl fun _ _ => Finset.sum_congr rfl fun _ _ => W_symm z d hg _ _ _ _

/-- The coefficient matrix `g⁻¹` is symmetric and the singular basis periodic. -/
structure Good (z : Sz) (d : Dat) : Prop where
  ok : Ok z
  per : ElemPer z d
  symm : ∀ qr qt a b, d.ginv qr qt a b = d.ginv qr qt b a

theorem valWrites_slot (z : Sz) (d : Dat) (g : Good z d) (wc : List (ℕ × ℕ)) (hc : wc.Perm (colWrites z)) (x : ℕ × Option ℝ) (hx : x ∈ valWrites z d (store wc)) :
    ∃ i k c, IsSlot z x.1 i k c ∧ x.2 = some (galerkin z d i c) := by
  have ok := g.ok
  unfold valWrites at hx
  rw [List.mem_append, List.mem_append] at hx
  rcases hx with (hx | hx) | hx
  · unfold valsSS at hx
    simp only [List.mem_map, List.mem_range] at hx
    obtain ⟨l, hl, rfl⟩ := hx
    obtain ⟨h1, h2⟩ := div_mod_lt hl
    exact ⟨_, _, _, slot_SS z ok _ _ h1 (by omega), elemSS_eq z d ok g.per _ _ h1 h2⟩
  · unfold valsST at hx
    simp only [List.mem_flatMap, List.mem_range] at hx
    obtain ⟨l, hl, hx⟩ := hx
    obtain ⟨h1, h2⟩ := div_mod_lt hl
    have he : elemST z d (l / (z.p * z.nT)) (z.nS + l % (z.p * z.nT)) = some (galerkin z d (l / (z.p * z.nT)) (l % (z.p * z.nT) + z.nS)) := by
      have := (central_lt z ok (z.nS + l % (z.p * z.nT))).1 (by omega)
      rw [elemST_eq z d ok g.per _ _ h1 (by omega) (by omega), Nat.add_comm z.nS]
    rw [he, List.mem_cons, List.mem_singleton] at hx
    rcases hx with rfl | rfl
    · exact ⟨_, _, _, slot_SS z ok _ _ h1 (by omega), rfl⟩
    · exact ⟨_, _, _, slot_TS z ok _ _ h1 (by omega) (by omega), by simp only; rw [galerkin_symm z d g.symm]⟩
  · unfold valsTT at hx
    simp only [List.mem_flatMap, List.mem_range] at hx
    obtain ⟨l, hl, hx⟩ := hx
    rw [get2d_eq z _ (Nat.le_add_right _ _)] at hx
    simp only [List.mem_map, List.mem_range] at hx
    obtain ⟨k, hk, rfl⟩ := hx
    have hlt : z.nS + l < z.matSize := by rw [matSize_eq z ok]; omega
    have hlen : ptr z (z.nS + l + 1) - (ptr z (z.nS + l) + colOffset z (rad z (z.nS + l))) = (trialCols z (z.nS + l)).length := by
      have hrad : z.c1 ≤ rad z (z.nS + l) := Nat.le_add_right _ _
      rw [ptr_succ z ok _ hlt]
      unfold rowCols colOffset
      rw [if_neg (by omega), List.length_append]
      by_cases h : rad z (z.nS + l) < z.c1 + z.p
      · rw [if_pos h, if_pos ⟨hrad, h⟩, List.length_range]; omega
      · rw [if_neg h, if_neg (by tauto), List.length_nil]; omega
    rw [hlen] at hk
    have hs := slot_TT z ok (z.nS + l) k _ (by omega) hlt (List.getElem?_eq_getElem hk)
    refine ⟨_, _, _, hs, ?_⟩
    simp only
    rw [cols_at z ok wc hc _ _ _ _ hs, Option.bind_some]
    have hm := ((trialCols_props z ok (z.nS + l) (by omega) hlt).2.2 _).1 (List.getElem_mem hk)
    exact elemTT_eq z d ok g.per _ _ (by omega) hm.1 (rad_lt z ok _ hlt) (rad_lt z ok _ hm.2.1) hm.2.2.1 hm.2.2.2

/-- The places where values are written are those where columns are, in the same number. -/
theorem valWrites_places (z : Sz) (d : Dat) (ok : Ok z) (cols : ℕ → Option ℕ) : ((valWrites z d cols).map Prod.fst).Perm ((colWrites z).map Prod.fst) := by
  unfold valWrites colWrites
  simp only [List.map_append]
  refine List.Perm.append (List.Perm.append ?_ ?_) ?_
  · unfold valsSS colsSS
    have : (List.range (z.nS * z.nS)) = (List.range z.nS).flatMap fun row => (List.range z.nS).map fun col => row * z.nS + col := by
      have gen : ∀ a b : ℕ, List.range (a * b) = (List.range a).flatMap fun row => (List.range b).map fun col => row * b + col := by
        intro a b
        induction a with
        | zero => simp
        | succ a ih =>
          rw [List.range_succ, List.flatMap_append, ← ih, add_mul, one_mul, List.range_add]
          simp
      exact gen _ _
    rw [this]
    refine List.Perm.of_eq ?_
    rw [List.map_map, List.map_flatMap, List.map_flatMap]
    apply List.flatMap_congr
    intro row hr
    rw [List.mem_range] at hr
    rw [List.map_map, List.map_map]
    apply List.map_congr_left
    intro col hcol
    rw [List.mem_range] at hcol
    obtain ⟨_, a2, a3⟩ := div_mod_mk hr hcol
    simp only [Function.comp, a2, a3]
  · unfold valsST colsST
    refine List.Perm.of_eq ?_
    rw [List.map_flatMap, List.map_flatMap]
    rfl
  · unfold valsTT colsTT
    refine List.Perm.of_eq ?_
    rw [List.map_flatMap, List.map_flatMap]
    apply List.flatMap_congr
    intro l hl
    rw [List.mem_range] at hl
    simp only
    rw [get2d_eq z _ (Nat.le_add_right _ _)]
    simp only
    have hlt : z.nS + l < z.matSize := by rw [matSize_eq z ok]; omega
    have hlen : ptr z (z.nS + l + 1) - (ptr z (z.nS + l) + colOffset z (rad z (z.nS + l))) = (trialCols z (z.nS + l)).length := by
      have hrad : z.c1 ≤ rad z (z.nS + l) := Nat.le_add_right _ _
      rw [ptr_succ z ok _ hlt]
      unfold rowCols colOffset
      rw [if_neg (by omega), List.length_append]
      by_cases h : rad z (z.nS + l) < z.c1 + z.p
      · rw [if_pos h, if_pos ⟨hrad, h⟩, List.length_range]; omega
      · rw [if_neg h, if_neg (by tauto), List.length_nil]; omega
    rw [hlen]
    apply List.ext_getElem
    · simp
    · intro k hk hk'
      simp

theorem vals_at (z : Sz) (d : Dat) (g : Good z d) (wc : List (ℕ × ℕ)) (hc : wc.Perm (colWrites z)) (wv : List (ℕ × Option ℝ)) (hv : wv.Perm (valWrites z d (store wc)))
    (s i k c : ℕ) (h : IsSlot z s i k c) : store wv s = some (some (galerkin z d i c)) := by
  have hin : s ∈ (valWrites z d (store wc)).map Prod.fst :=
    (valWrites_places z d g.ok (store wc)).mem_iff.2 (List.mem_map.2 ⟨(s, c), colWrites_mem z g.ok s i k c h, rfl⟩)
  have huniq : ∀ x ∈ valWrites z d (store wc), x.1 = s → x.2 = some (galerkin z d i c) := by
    intro x hx hs
    obtain ⟨i', k', c', h', hval⟩ := valWrites_slot z d g wc hc x hx
    rw [hs] at h'
    obtain ⟨rfl, rfl⟩ := slot_col_unique z g.ok h h'
    exact hval
  obtain ⟨x, hx, hxs⟩ := List.mem_map.1 hin
  refine store_some wv s _ (hv.mem_iff.2 ?_) fun y hy => huniq y (hv.mem_iff.1 hy)
  rw [← huniq x hx hxs, ← hxs]
  exact hx

/-! ## Structure of the matrix -/

/-- C74: the row pointers start at 0, end at the number of entries that was allocated; the entries of a row are the basis functions whose supports share a cell with that of the row, each once, in
increasing order; whatever the order in which the threads write. -/
theorem c74_structure (z : Sz) (ok : Ok z) (wc : List (ℕ × ℕ)) (hc : wc.Perm (colWrites z)) :
    ptr z 0 = 0 ∧ ptr z z.matSize = nnzAlloc z ∧ ∀ i < z.matSize, ptr z i ≤ ptr z (i + 1) ∧
      (∀ s, ptr z i ≤ s → s < ptr z (i + 1) → ∃ j < z.matSize, store wc s = some j ∧ Share z i j) ∧
      (∀ j < z.matSize, Share z i j → ∃ s, ptr z i ≤ s ∧ s < ptr z (i + 1) ∧ store wc s = some j) ∧
      (∀ s s' j j', ptr z i ≤ s → s < s' → s' < ptr z (i + 1) → store wc s = some j → store wc s' = some j' → j < j') := by
  refine ⟨ptr_zero z, ptr_last z ok, fun i hi => ?_⟩
  have hs := ptr_succ z ok i hi
  obtain ⟨hsort, hmem⟩ := rowCols_props z ok i hi
  have at' : ∀ s (h1 : ptr z i ≤ s) (h2 : s < ptr z (i + 1)), ∃ h : s - ptr z i < (rowCols z i).length, store wc s = some ((rowCols z i)[s - ptr z i]) := by
    intro s h1 h2
    have h : s - ptr z i < (rowCols z i).length := by omega
    exact ⟨h, cols_at z ok wc hc s i (s - ptr z i) _ ⟨hi, List.getElem?_eq_getElem h, by omega⟩⟩
  refine ⟨by omega, ?_, ?_, ?_⟩
  · intro s h1 h2
    obtain ⟨h, hst⟩ := at' s h1 h2
    have := (hmem _).1 (List.getElem_mem h)
    exact ⟨_, this.1, hst, this.2⟩
  · intro j hj hsh
    obtain ⟨k, hk, hkj⟩ := List.getElem_of_mem ((hmem j).2 ⟨hj, hsh⟩)
    obtain ⟨_, hst⟩ := at' (ptr z i + k) (by omega) (by omega)
    refine ⟨ptr z i + k, by omega, by omega, ?_⟩
    rw [hst]
    simp only [Nat.add_sub_cancel_left, hkj]
  · intro s s' j j' h1 h2 h3 hj hj'
    obtain ⟨h, hst⟩ := at' s h1 (by omega)
    obtain ⟨h', hst'⟩ := at' s' (by omega) h3
    rw [hst] at hj
    rw [hst'] at hj'
    rw [← Option.some.inj hj, ← Option.some.inj hj']
    exact List.pairwise_iff_getElem.1 hsort _ _ h h' (by omega)

theorem nodup_of_length {l : List ℕ} {n : ℕ} (hl : l.length = n) (hs : ∀ k < n, k ∈ l) : l.Nodup := by
  have h1 : (range n) ⊆ l.toFinset := fun k hk => by rw [List.mem_toFinset]; exact hs k (mem_range.1 hk)
  have h2 := Finset.card_le_card h1
  rw [card_range] at h2
  have h3 : l.toFinset.card ≤ l.length := List.toFinset_card_le l
  exact List.dedup_eq_self.1 (List.Sublist.eq_of_length (List.dedup_sublist l) (by rw [← List.card_toFinset]; omega))

theorem sum_len (z : Sz) (ok : Ok z) (n : ℕ) (hn : n ≤ z.matSize) : ptr z n = ((List.range n).map fun i => (rowCols z i).length).sum := by
  induction n with
  | zero => rw [ptr_zero]; rfl
  | succ n ih => rw [List.range_succ, List.map_append, List.sum_append, ← ih (by omega), ptr_succ z ok n (by omega)]; simp

theorem colWrites_length (z : Sz) (ok : Ok z) : (colWrites z).length = nnzAlloc z := by
  have hms := matSize_eq z ok
  have hpm : z.p * z.nT ≤ z.mR * z.nT := Nat.mul_le_mul_right _ (by have := p_le_mR z ok; omega)
  rw [← ptr_last z ok, sum_len z ok _ le_rfl, hms, List.range_add, List.map_append, List.sum_append]
  unfold colWrites
  rw [List.length_append, List.length_append]
  have e1 : (colsSS z).length = z.nS * z.nS := by
    unfold colsSS
    rw [List.length_flatMap]
    simp
  have e2 : (colsST z).length = 2 * (z.nS * (z.p * z.nT)) := by
    unfold colsST
    simp only [List.length_flatMap, List.length_cons, List.length_nil, List.map_const', List.sum_replicate, List.length_range, smul_eq_mul]
    ring
  have e3 : (colsTT z).length = ((List.range (z.mR * z.nT)).map fun l => (trialCols z (z.nS + l)).length).sum := by
    unfold colsTT
    rw [List.length_flatMap]
    congr 1
    apply List.map_congr_left
    intro l _
    simp only
    rw [get2d_eq z _ (Nat.le_add_right _ _)]
    simp
  have e4 : ((List.range z.nS).map fun i => (rowCols z i).length).sum = z.nS * (z.nS + z.p * z.nT) := by
    have : (List.range z.nS).map (fun i => (rowCols z i).length) = (List.range z.nS).map fun _ => z.nS + z.p * z.nT := by
      apply List.map_congr_left
      intro i hi
      rw [List.mem_range] at hi
      unfold rowCols
      rw [if_pos hi, List.length_range]
    rw [this]
    simp
  have e5 : (((List.range (z.mR * z.nT)).map fun l => z.nS + l).map fun i => (rowCols z i).length).sum =
      ((List.range (z.mR * z.nT)).map fun l => (trialCols z (z.nS + l)).length).sum + z.nS * (z.p * z.nT) := by
    rw [List.map_map]
    have h1 : (List.range (z.mR * z.nT)).map ((fun i => (rowCols z i).length) ∘ fun l => z.nS + l) =
        (List.range (z.mR * z.nT)).map fun l => (trialCols z (z.nS + l)).length + if l < z.p * z.nT then z.nS else 0 := by
      apply List.map_congr_left
      intro l _
      simp only [Function.comp]
      unfold rowCols
      have := central_lt z ok (z.nS + l)
      rw [if_neg (by omega), List.length_append]
      by_cases h : l < z.p * z.nT
      · rw [if_pos (by omega), if_pos h, List.length_range]; omega
      · rw [if_neg (by omega), if_neg h, List.length_nil]; omega
    rw [h1, List.sum_map_add]
    congr 1
    obtain ⟨m, hm⟩ : ∃ m, z.mR * z.nT = z.p * z.nT + m := ⟨_, (Nat.add_sub_cancel' hpm).symm⟩
    rw [hm, List.range_add, List.map_append, List.sum_append, List.map_map]
    have h2 : (List.range (z.p * z.nT)).map (fun l => if l < z.p * z.nT then z.nS else 0) = (List.range (z.p * z.nT)).map fun _ => z.nS := by
      apply List.map_congr_left
      intro l hl
      rw [if_pos (List.mem_range.1 hl)]
    have h3 : (List.range m).map ((fun l => if l < z.p * z.nT then z.nS else 0) ∘ fun l => z.p * z.nT + l) = (List.range m).map fun _ => 0 := by
      apply List.map_congr_left
      intro l _
      simp
    rw [h2, h3]
    simp
    ring
  rw [e1, e2, e3, e4, e5]
  ring

/-- C74: the kernels write each of the allocated entries of the two arrays exactly once: no race, no entry left out, none outside. -/
theorem c74_writes (z : Sz) (ok : Ok z) (d : Dat) (cols : ℕ → Option ℕ) :
    (((colWrites z).map Prod.fst).Nodup ∧ ∀ s, s ∈ (colWrites z).map Prod.fst ↔ s < nnzAlloc z) ∧
    (((valWrites z d cols).map Prod.fst).Nodup ∧ ∀ s, s ∈ (valWrites z d cols).map Prod.fst ↔ s < nnzAlloc z) := by
  have hmem : ∀ s, s ∈ (colWrites z).map Prod.fst ↔ s < nnzAlloc z := by
    intro s
    constructor
    · intro h
      obtain ⟨x, hx, rfl⟩ := List.mem_map.1 h
      obtain ⟨i, k, h1, h2, h3⟩ := colWrites_slot z ok x hx
      rw [h3]
      exact slot_lt z ok h1 (List.getElem?_eq_some_iff.1 h2).1
    · intro h
      obtain ⟨i, k, h1, h2, h3⟩ := slot_exists z ok s h
      exact List.mem_map.2 ⟨(s, (rowCols z i)[k]), colWrites_mem z ok s i k _ ⟨h1, List.getElem?_eq_getElem h2, h3⟩, rfl⟩
  have hnd : ((colWrites z).map Prod.fst).Nodup := nodup_of_length (by rw [List.length_map, colWrites_length z ok]) fun k hk => (hmem k).2 hk
  have hperm := valWrites_places z d ok cols
  exact ⟨⟨hnd, hmem⟩, hperm.nodup_iff.2 hnd, fun s => hperm.mem_iff.trans (hmem s)⟩

theorem galerkin_zero (z : Sz) (d : Dat) (i j : ℕ) (h : ¬ Share z i j) : galerkin z d i j = 0 := by
  refine Finset.sum_eq_zero fun qr hr => Finset.sum_eq_zero fun qt ht => W_zero z d i j qr qt ?_
  rw [mem_range] at hr ht
  rintro ⟨h1, h2⟩
  exact h ⟨_, cell_lt hr (by omega), _, cell_lt ht (by omega), h1, h2⟩

/-- C74: the entries that are stored are the elements of the Galerkin matrix; those that are not stored are zero. -/
theorem c74_values (z : Sz) (d : Dat) (g : Good z d) (wc : List (ℕ × ℕ)) (hc : wc.Perm (colWrites z)) (wv : List (ℕ × Option ℝ)) (hv : wv.Perm (valWrites z d (store wc)))
    (i : ℕ) (hi : i < z.matSize) :
    (∀ s j, ptr z i ≤ s → s < ptr z (i + 1) → store wc s = some j → store wv s = some (some (galerkin z d i j))) ∧
    (∀ j < z.matSize, (∀ s, ptr z i ≤ s → s < ptr z (i + 1) → store wc s ≠ some j) → galerkin z d i j = 0) := by
  have hs := ptr_succ z g.ok i hi
  constructor
  · intro s j h1 h2 hj
    have h : s - ptr z i < (rowCols z i).length := by omega
    have slot : IsSlot z s i (s - ptr z i) ((rowCols z i)[s - ptr z i]) := ⟨hi, List.getElem?_eq_getElem h, by omega⟩
    rw [cols_at z g.ok wc hc s i _ _ slot] at hj
    rw [vals_at z d g wc hc wv hv s i _ _ slot, Option.some.inj hj]
  · intro j hj h
    apply galerkin_zero
    intro hsh
    obtain ⟨s, h1, h2, h3⟩ := ((c74_structure z g.ok wc hc).2.2 i hi).2.2.1 j hj hsh
    exact h s h1 h2 h3

/-- C74: the product of the sparse matrix with a vector is that of the full Galerkin matrix. -/
theorem c74_product (z : Sz) (d : Dat) (g : Good z d) (wc : List (ℕ × ℕ)) (hc : wc.Perm (colWrites z)) (wv : List (ℕ × Option ℝ)) (hv : wv.Perm (valWrites z d (store wc)))
    (x : ℕ → ℝ) (i : ℕ) (hi : i < z.matSize) : csrRow (ptr z) (store wc) (store wv) x i = some (∑ j ∈ range z.matSize, galerkin z d i j * x j) := by
  obtain ⟨hsort, hmem⟩ := rowCols_props z g.ok i hi
  have hs := ptr_succ z g.ok i hi
  unfold csrRow
  have e : ptr z (i + 1) - ptr z i = (rowCols z i).length := by omega
  have h1 : ∀ l : List ℕ, ∀ n, (∀ k c, l[k]? = some c → IsSlot z (ptr z i + n + k) i (n + k) c) →
      (List.range' (ptr z i + n) l.length).mapM (fun k => (store wc k).bind fun c => ((store wv k).bind id).map fun v => v * x c) = some (l.map fun c => galerkin z d i c * x c) := by
    intro l
    induction l with
    | nil => intro n _; rfl
    | cons a l ih =>
      intro n h
      have h0 := h 0 a rfl
      rw [add_zero, add_zero] at h0
      rw [List.length_cons, List.range'_succ, List.mapM_cons, cols_at z g.ok wc hc _ _ _ _ h0, vals_at z d g wc hc wv hv _ _ _ _ h0,
        show ptr z i + n + 1 = ptr z i + (n + 1) from by omega, ih (n + 1) fun k c hk => by
          have := h (k + 1) c (by rw [List.getElem?_cons_succ]; exact hk)
          rw [show n + 1 + k = n + (k + 1) by omega, show ptr z i + (n + 1) + k = ptr z i + n + (k + 1) by omega]
          exact this]
      rfl
  have h2 := h1 (rowCols z i) 0 fun k c hk => ⟨hi, by rw [zero_add]; exact hk, by omega⟩
  rw [add_zero] at h2
  rw [e, h2, Option.map_some]
  congr 1
  rw [← List.sum_toFinset _ (hsort.imp (fun h => Nat.ne_of_lt h))]
  refine Finset.sum_subset (fun j hj => ?_) fun j hj hj' => ?_
  · rw [List.mem_toFinset] at hj
    exact mem_range.2 ((hmem j).1 hj).1
  · rw [List.mem_toFinset, hmem j] at hj'
    rw [galerkin_zero z d i j fun h => hj' ⟨mem_range.1 hj, h⟩, zero_mul]

/-! ## The right-hand side -/

/-- C74: the right-hand side is the load vector. -/
theorem c74_rhs (z : Sz) (d : Dat) (g : Good z d) (f : ℕ → ℕ → ℝ) (i : ℕ) (hi : i < z.matSize) : rhs z d f i = some (load z d f i) := by
  have ok := g.ok
  have hR := ok.hR; have hT := ok.hT; have hcp := ok.hcp; have hc := ok.hc
  have key : ∀ s e off len, e ≤ z.cellsR → s ≤ e → off < z.nT → len ≤ z.nT →
      (∀ cr ct, cr < z.cellsR → ct < z.nT → Supp z i cr ct → (s ≤ cr ∧ cr < e) ∧ (ct + z.nT - off) % z.nT < len) →
      ((rect (s * (z.p + 1)) ((e - s) * (z.p + 1)) (off * (z.p + 1)) (len * (z.p + 1))).map fun q => (fun q : ℕ × ℕ => f q.1 q.2 * B z d 0 0 i q.1 q.2 * d.vol q.1 q.2) (wrapQuad z q)).sum = load z d f i := by
    intro s e off len he hse hoff hlen hout
    rw [block_sum z s e off len he hse hoff hlen (fun q : ℕ × ℕ => f q.1 q.2 * B z d 0 0 i q.1 q.2 * d.vol q.1 q.2)]
    refine Finset.sum_congr rfl fun qr hr => Finset.sum_congr rfl fun qt ht => ?_
    rw [mem_range] at hr ht
    split
    · rfl
    · rename_i hn
      rw [B_zero z d 0 0 i qr qt fun h => hn (hout _ _ (cell_lt hr (by omega)) (cell_lt ht (by omega)) h)]
      ring
  unfold rhs
  by_cases hs : i < z.nS
  · rw [if_pos hs]
    unfold rhsS
    have hw : ∀ q ∈ rect 0 (z.c1 * (z.p + 1)) 0 z.qT, wrapQuad z q = q ∧ q.1 < z.qR ∧ q.2 < z.qT := by
      intro q hq
      rw [mem_rect] at hq
      have h1 : q.1 < z.qR := by
        have : z.c1 * (z.p + 1) ≤ (z.p + 1) * z.cellsR := by
          rw [mul_comm]; exact Nat.mul_le_mul_left _ (by rw [cellsR_eq]; omega)
        unfold Sz.qR; omega
      have h2 : q.2 < z.qT := by omega
      refine ⟨?_, h1, h2⟩
      unfold wrapQuad
      rw [if_pos ⟨h1, h2⟩]
    rw [reduce_some _ (fun q => f (wrapQuad z q).1 (wrapQuad z q).2 * B z d 0 0 i (wrapQuad z q).1 (wrapQuad z q).2 * d.vol (wrapQuad z q).1 (wrapQuad z q).2)]
    · congr 1
      have := key 0 z.c1 0 z.nT (by rw [cellsR_eq]; omega) (by omega) (by omega) le_rfl (fun cr ct _ _ h => by
        unfold Supp at h
        rw [if_pos hs] at h
        exact ⟨⟨by omega, h⟩, Nat.mod_lt _ (by omega)⟩)
      rw [zero_mul, Nat.sub_zero, mul_comm z.nT] at this
      exact this
    · intro q hq
      obtain ⟨h1, h2, h3⟩ := hw q hq
      rw [h1, bspline_eq z d ok g.per 0 0 q.1 q.2 i h3 (Or.inl hs)]
      rfl
  · rw [if_neg hs]
    unfold rhsT
    rw [get2d_eq z i (by omega)]
    simp only [Option.bind_eq_bind, Option.bind_some]
    have hri := rad_lt z ok i hi
    have hrad : z.c1 ≤ rad z i := Nat.le_add_right _ _
    have hpi := pol_lt z ok i
    have hS : ∀ cr ct, ct < z.nT → (Supp z i cr ct ↔ (cr ≤ rad z i ∧ rad z i ≤ cr + z.p) ∧ (if ct ≤ pol z i then pol z i - ct else pol z i + z.nT - ct) ≤ z.p) := by
      intro cr ct hct
      unfold Supp
      rw [if_neg hs, circ hpi hct]
    have hcell := cellsR_eq z
    rw [quadBetween_eq z _ _ _ _ (rad z i - z.p) (min z.cellsR (rad z i + 1)) (if pol z i < z.p then pol z i + z.nT - z.p else pol z i - z.p) (z.p + 1)
      (by omega) (by omega) (by omega) (by omega) (by omega) (by split <;> split <;> omega)]
    simp only [Option.bind_some]
    obtain ⟨off, hoffd⟩ : ∃ off, off = if pol z i < z.p then pol z i + z.nT - z.p else pol z i - z.p := ⟨_, rfl⟩
    rw [← hoffd]
    have hoff : off < z.nT := by rw [hoffd]; split <;> omega
    rw [reduce_some _ (fun q => f (wrapQuad z q).1 (wrapQuad z q).2 * B z d 0 0 i (wrapQuad z q).1 (wrapQuad z q).2 * d.vol (wrapQuad z q).1 (wrapQuad z q).2)]
    · congr 1
      refine key _ _ _ _ (by omega) (by omega) hoff (by omega) ?_
      intro cr ct hcr hct h
      rw [hS cr ct hct] at h
      rw [circ hct hoff, hoffd]
      obtain ⟨h1, h2⟩ := h
      refine ⟨by omega, ?_⟩
      split at h2 <;> split <;> split <;> omega
    · intro q hq
      obtain ⟨h1, h2, h3⟩ := wrap_mem z _ _ _ _ (by omega) (by omega) hoff (by omega) q hq
      have hwq : wrapQuad z q = (q.1, if q.2 < z.qT then q.2 else q.2 - z.qT) := by
        unfold wrapQuad at h1 ⊢
        by_cases hq2 : q.2 < z.qT
        · rw [if_pos hq2]
          by_cases hq1 : q.1 < z.qR
          · rw [if_pos ⟨hq1, hq2⟩]
          · exfalso
            rw [if_neg (by tauto)] at h1
            exact hq1 h1
        · rw [if_neg hq2, if_neg (by tauto)]
      have e1 : (wrapQuad z q).1 = q.1 := by rw [hwq]
      have e2 : (wrapQuad z q).2 = if q.2 < z.qT then q.2 else q.2 - z.qT := by rw [hwq]
      rw [← e2, ← e1, if_pos ⟨h1, h2⟩, bspline_eq z d ok g.per 0 0 _ _ i h2 (Or.inr ?_)]
      · rfl
      · rw [hS _ _ (cell_lt h2 (by omega))]
        obtain ⟨h3, h4⟩ := h3
        have hct := cell_lt h2 (show 0 < z.p + 1 by omega)
        rw [circ hct hoff, hoffd] at h4
        refine ⟨by omega, ?_⟩
        generalize (wrapQuad z q).2 / (z.p + 1) = ct at *
        split at h4 <;> split at h4 <;> split <;> omega

/-! ## The solution -/

theorem form_fields (z : Sz) (d : Dat) (n m : ℕ) (c x : ℕ → ℝ) :
    ∑ i ∈ range n, c i * ∑ j ∈ range m, galerkin z d i j * x j = form z d (field z d n c) (field z d m x) := by
  unfold form galerkin
  have h : ∀ qr qt, d.vol qr qt * (d.alpha qr qt *
      (field z d n c 1 0 qr qt * d.ginv qr qt 0 0 * field z d m x 1 0 qr qt + field z d n c 1 0 qr qt * d.ginv qr qt 0 1 * field z d m x 0 1 qr qt +
        field z d n c 0 1 qr qt * d.ginv qr qt 1 0 * field z d m x 1 0 qr qt + field z d n c 0 1 qr qt * d.ginv qr qt 1 1 * field z d m x 0 1 qr qt) +
      d.beta qr qt * (field z d n c 0 0 qr qt * field z d m x 0 0 qr qt)) = ∑ i ∈ range n, ∑ j ∈ range m, c i * (W z d i j qr qt * x j) := by
    intro qr qt
    have e : ∀ (k : ℝ) (f g : ℕ → ℝ), (∑ i ∈ range n, c i * f i) * k * (∑ j ∈ range m, x j * g j) = ∑ i ∈ range n, ∑ j ∈ range m, c i * (k * f i * g j * x j) := by
      intro k f g
      rw [mul_assoc, Finset.sum_mul]
      refine Finset.sum_congr rfl fun i _ => ?_
      rw [Finset.mul_sum, Finset.mul_sum]
      exact Finset.sum_congr rfl fun j _ => by ring
    have e' : ∀ (f g : ℕ → ℝ), (∑ i ∈ range n, c i * f i) * (∑ j ∈ range m, x j * g j) = ∑ i ∈ range n, ∑ j ∈ range m, c i * (1 * f i * g j * x j) := by
      intro f g
      rw [← e 1 f g, mul_one]
    unfold field
    rw [e, e, e, e, e']
    simp only [Finset.mul_sum, ← Finset.sum_add_distrib]
    refine Finset.sum_congr rfl fun i _ => Finset.sum_congr rfl fun j _ => ?_
    unfold W
    simp only [Fin.sum_univ_two, if_true, show (1 : Fin 2) ≠ 0 from by decide, if_false]
    ring
  simp only [h]
  have e1 : ∀ i, c i * ∑ j ∈ range m, (∑ qr ∈ range z.qR, ∑ qt ∈ range z.qT, W z d i j qr qt) * x j = ∑ qr ∈ range z.qR, ∑ qt ∈ range z.qT, ∑ j ∈ range m, c i * (W z d i j qr qt * x j) := by
    intro i
    rw [Finset.mul_sum]
    simp only [Finset.sum_mul, Finset.mul_sum]
    rw [Finset.sum_comm]
    exact Finset.sum_congr rfl fun qr _ => Finset.sum_comm
  simp only [e1]
  rw [Finset.sum_comm]
  exact Finset.sum_congr rfl fun qr _ => Finset.sum_comm

/-- C74: if `x` solves the linear system that is assembled, the spline that the solver fills with it vanishes at the outer boundary coefficients and satisfies the weak form of the equation, with the
quadrature over the whole domain, for all the test functions of the space. -/
theorem c74_solution (z : Sz) (d : Dat) (g : Good z d) (wc : List (ℕ × ℕ)) (hc : wc.Perm (colWrites z)) (wv : List (ℕ × Option ℝ)) (hv : wv.Perm (valWrites z d (store wc)))
    (f : ℕ → ℕ → ℝ) (x : ℕ → ℝ) (hx : ∀ i < z.matSize, csrRow (ptr z) (store wc) (store wv) x i = rhs z d f i) :
    (∀ i, z.matSize ≤ i → fillSpline z x i = 0) ∧
    ∀ c : ℕ → ℝ, form z d (field z d z.matSize c) (field z d (nbasis z.c1 z.nR z.nT) (fillSpline z x)) =
      ∑ qr ∈ range z.qR, ∑ qt ∈ range z.qT, f qr qt * field z d z.matSize c 0 0 qr qt * d.vol qr qt := by
  have hfill : ∀ i, z.matSize ≤ i → fillSpline z x i = 0 := by
    intro i hi
    unfold fillSpline
    rw [if_neg (by change ¬ i < z.matSize; omega)]
  refine ⟨hfill, fun c => ?_⟩
  have hsz : z.matSize ≤ nbasis z.c1 z.nR z.nT := by unfold Sz.matSize; omega
  have hfield : field z d (nbasis z.c1 z.nR z.nT) (fillSpline z x) = field z d z.matSize x := by
    funext oR oT qr qt
    unfold field
    rw [← Finset.sum_subset (Finset.range_mono hsz) fun j _ hj => by rw [hfill j (by simpa using hj), zero_mul]]
    refine Finset.sum_congr rfl fun j hj => ?_
    unfold fillSpline
    rw [if_pos (by change j < z.matSize; exact mem_range.1 hj)]
  rw [hfield, ← form_fields]
  have hrow : ∀ i ∈ range z.matSize, c i * ∑ j ∈ range z.matSize, galerkin z d i j * x j = c i * load z d f i := by
    intro i hi
    rw [mem_range] at hi
    have := hx i hi
    rw [c74_product z d g wc hc wv hv x i hi, c74_rhs z d g f i hi] at this
    rw [Option.some.inj this]
  rw [Finset.sum_congr rfl hrow]
  unfold load field
  simp only [Finset.mul_sum, Finset.sum_mul]
  rw [Finset.sum_comm]
  refine Finset.sum_congr rfl fun qr _ => ?_
  rw [Finset.sum_comm]
  refine Finset.sum_congr rfl fun qt _ => Finset.sum_congr rfl fun i _ => ?_
  ring

/-- C74: the matrix is symmetric, and positive semi-definite for non-negative coefficients and weights and a positive semi-definite inverse metric; its kernel then consists of functions with zero energy. -/
theorem c74_symmetric_psd (z : Sz) (d : Dat) (g : Good z d) :
    (∀ i j, galerkin z d i j = galerkin z d j i) ∧
    ((∀ qr qt, 0 ≤ d.vol qr qt ∧ 0 ≤ d.alpha qr qt ∧ 0 ≤ d.beta qr qt) → (∀ qr qt (u : Fin 2 → ℝ), 0 ≤ ∑ a, ∑ b, u a * d.ginv qr qt a b * u b) →
      ∀ x : ℕ → ℝ, 0 ≤ ∑ i ∈ range z.matSize, x i * ∑ j ∈ range z.matSize, galerkin z d i j * x j) := by
  refine ⟨galerkin_symm z d g.symm, fun hpos hg x => ?_⟩
  rw [form_fields]
  refine Finset.sum_nonneg fun qr _ => Finset.sum_nonneg fun qt _ => ?_
  obtain ⟨h1, h2, h3⟩ := hpos qr qt
  have h4 := hg qr qt (fun a => if a = 0 then field z d z.matSize x 1 0 qr qt else field z d z.matSize x 0 1 qr qt)
  simp only [Fin.sum_univ_two, if_true, show (1 : Fin 2) ≠ 0 from by decide, if_false] at h4
  refine mul_nonneg h1 (add_nonneg (mul_nonneg h2 ?_) (mul_nonneg h3 (mul_self_nonneg _)))
  linarith

/-! ## Few cells in the poloidal direction -/

theorem store_none {α : Type*} (w : List (ℕ × α)) (s : ℕ) (h : ∀ x ∈ w, x.1 ≠ s) : store w s = none := by
  induction w using List.reverseRecOn with
  | nil => rfl
  | append_singleton w a ih => rw [store_append, Function.update_of_ne (Ne.symm (h a (by simp))), ih fun x hx => h x (by simp [hx])]

/-- C74, the limit of the previous theorems: with `2 p + 1` poloidal cells, for which the allocation still has room for all the pairs, no column of two tensor-product functions is ever written
(both ends of the poloidal loop coincide), so that the entries are used uninitialised. -/
theorem c74_too_few_cells (z : Sz) (hT : z.nT = 2 * z.p + 1) :
    (∀ row, trialCols z row = []) ∧ colsTT z = [] ∧
    ((1 + z.p) * z.p < z.mR * (1 + 2 * z.p) → ∃ s < nnzAlloc z, ∀ w, w.Perm (colWrites z) → store w s = none) := by
  have h0 : ∀ t < z.nT, trialT z t = [] := by
    intro t ht
    unfold trialT
    have e : modAdd z.nT t (-(z.p : ℤ)) = modAdd z.nT t ((z.p : ℤ) + 1) := by
      unfold modAdd
      split <;> split <;> (try split) <;> (try split) <;> omega
    simp only
    rw [e, if_neg (by omega)]
    simp
  have h1 : ∀ row, trialCols z row = [] := by
    intro row
    unfold trialCols
    by_cases h : z.nS ≤ row
    · rw [get2d_eq z row h]
      simp only
      rw [h0 (pol z row) (Nat.mod_lt _ (by omega))]
      simp
    · unfold get2dIndex
      rw [if_neg (by exact h)]
  have h2 : colsTT z = [] := by
    unfold colsTT
    rw [List.flatMap_eq_nil_iff]
    intro l _
    simp only
    rw [get2d_eq z _ (Nat.le_add_right _ _)]
    simp [h1]
  refine ⟨h1, h2, fun hpos => ?_⟩
  have hlen : (colWrites z).length = z.nS * z.nS + 2 * (z.nS * (z.p * z.nT)) := by
    have e1 : (colsSS z).length = z.nS * z.nS := by
      unfold colsSS
      rw [List.length_flatMap]
      simp
    have e2 : (colsST z).length = 2 * (z.nS * (z.p * z.nT)) := by
      unfold colsST
      simp only [List.length_flatMap, List.length_cons, List.length_nil, List.map_const', List.sum_replicate, List.length_range, smul_eq_mul]
      ring
    unfold colWrites
    rw [h2, List.append_nil, List.length_append, e1, e2]
  have hlt : (colWrites z).length < nnzAlloc z := by
    rw [hlen]
    unfold nnzAlloc
    simp only
    have : 0 < (z.mR * (1 + 2 * z.p) - (1 + z.p) * z.p) * (z.nT * min (1 + 2 * z.p) z.nT) := by
      refine Nat.mul_pos (by omega) (Nat.mul_pos (by omega) (by omega))
    have e : z.nS * z.p * z.nT = z.nS * (z.p * z.nT) := by ring
    rw [e]; omega
  by_contra hcon
  have hall : ∀ s < nnzAlloc z, s ∈ ((colWrites z).map Prod.fst).toFinset := by
    intro s hs
    by_contra hns
    refine hcon ⟨s, hs, fun w hw => store_none w s fun x hx hxs => hns ?_⟩
    rw [List.mem_toFinset]
    exact List.mem_map.2 ⟨x, hw.mem_iff.1 hx, hxs⟩
  have h3 : range (nnzAlloc z) ⊆ ((colWrites z).map Prod.fst).toFinset := fun s hs => hall s (mem_range.1 hs)
  have h4 := Finset.card_le_card h3
  have h5 := List.toFinset_card_le ((colWrites z).map Prod.fst)
  rw [List.length_map] at h5
  rw [card_range] at h4
  omega

/-- C74: with fewer poloidal cells the row pointers run beyond the entries that were allocated (cubic splines, 6 cells): the kernels then write out of bounds. -/
theorem c74_overrun : ∃ z : Sz, z.nT = 2 * z.p ∧ nnzAlloc z < ptr z z.matSize ∧ ∃ x ∈ colWrites z, nnzAlloc z ≤ x.1 :=
  ⟨⟨3, 2, 12, 6⟩, by decide, by decide, by decide +kernel⟩

/-! ## Concrete cases -/

example : Ok ⟨3, 2, 12, 16⟩ := ⟨by decide, by decide, by decide, by decide, by decide⟩

/-- Data with a constant metric: the hypotheses of the theorems hold. -/
noncomputable def exampleDat : Dat where
  elem := fun _ _ _ => 1
  rv := fun o _ k => if o = 0 then 1 / 4 else (k : ℝ)
  tv := fun o _ k => if o = 0 then 1 / 4 else (k : ℝ)
  vol := fun _ _ => 1
  alpha := fun _ _ => 1
  beta := fun _ _ => 1
  ginv := fun _ _ a b => if a = b then 1 else 0

example : Good ⟨3, 2, 12, 16⟩ exampleDat where
  ok := ⟨by decide, by decide, by decide, by decide, by decide⟩
  per := fun _ _ _ _ => rfl
  symm := fun _ _ a b => by simp [exampleDat, eq_comm]

example : ∀ qr qt (u : Fin 2 → ℝ), 0 ≤ ∑ a, ∑ b, u a * exampleDat.ginv qr qt a b * u b := by
  intro qr qt u
  simp only [exampleDat, Fin.sum_univ_two, if_true, show (1 : Fin 2) ≠ 0 from by decide, show (0 : Fin 2) ≠ 1 from by decide, if_false]
  nlinarith [mul_self_nonneg (u 0), mul_self_nonneg (u 1)]

example : (3 : ℕ) * 2 < (⟨2, 1, 8, 5⟩ : Sz).mR * (1 + 2 * 2) ∧ (⟨2, 1, 8, 5⟩ : Sz).nT = 2 * 2 + 1 := by decide

end Verif.PolarFem
