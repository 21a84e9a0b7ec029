import Verif.Props.PolarFemElem
import Mathlib.Data.List.Perm.Basic
import Mathlib.Data.List.FinRange
import Mathlib.Data.List.Range

/-!
# C74: the sparse matrix of the finite elements on polar splines
-/

namespace Verif.PolarFem

open Verif.PolarSplines Finset

/-- The columns of a row, in order. -/
def rowCols (z : Sz) (i : ℕ) : List ℕ :=
  if i < z.nS then List.range (z.nS + z.p * z.nT) else (if rad z i < z.c1 + z.p then List.range z.nS else []) ++ trialCols z i

/-! ## Loops over the trial functions -/

theorem mR_eq (z : Sz) (ok : Ok z) : z.nR = z.mR + z.c1 + 1 := by have := ok.hR; unfold Sz.mR; omega

theorem matSize_eq (z : Sz) (ok : Ok z) : z.matSize = z.nS + z.mR * z.nT := by
  unfold Sz.matSize nbasis
  have : z.nR - z.c1 = z.mR + 1 := by have := ok.hR; unfold Sz.mR; omega
  rw [this, add_mul, one_mul]
  show z.nS + _ - _ = _
  omega

theorem trialR_eq (z : Sz) (ok : Ok z) (r : ℕ) (h1 : z.c1 ≤ r) (h2 : r + 1 < z.nR) :
    trialR z r = List.range' (max (r - z.p) z.c1) (min (r + z.p + 1) (z.nR - 1) - max (r - z.p) z.c1) := by
  unfold trialR
  apply List.ext_getElem
  · simp only [List.length_map, List.length_range, List.length_range']
    omega
  · intro k hk hk'
    simp only [List.getElem_map, List.getElem_range, List.getElem_range', one_mul]
    simp only [List.length_range'] at hk'
    omega

theorem trialT_eq (z : Sz) (ok : Ok z) (t : ℕ) (ht : t < z.nT) : ∃ a b c, trialT z t = List.range a ++ List.range' b c ∧ a ≤ b ∧ b + c ≤ z.nT ∧ a + c = 2 * z.p + 1 ∧
    ∀ x < z.nT, (x < a ∨ (b ≤ x ∧ x < b + c)) ↔ ((x + z.nT - t) % z.nT ≤ z.p ∨ (t + z.nT - x) % z.nT ≤ z.p) := by
  have hT := ok.hT
  have hf : modAdd z.nT t (-(z.p : ℤ)) = if t < z.p then (t : ℤ) + z.nT - z.p else (t : ℤ) - z.p := by
    unfold modAdd; split <;> split <;> (try split) <;> omega
  have hl : modAdd z.nT t ((z.p : ℤ) + 1) = if t + z.p + 1 < z.nT then (t : ℤ) + z.p + 1 else (t : ℤ) + z.p + 1 - z.nT := by
    unfold modAdd; rw [if_neg (by omega)]; split <;> split <;> omega
  have hlist : ∀ (s : ℤ) (n : ℕ) (b : ℕ), s = b → (List.range n).map (fun k : ℕ => (s + k).toNat) = List.range' b n := by
    intro s n b h
    apply List.ext_getElem
    · simp
    · intro k hk hk'
      simp only [List.getElem_map, List.getElem_range, List.getElem_range', one_mul]
      omega
  unfold trialT
  simp only
  rw [hf, hl]
  by_cases h1 : t < z.p
  · rw [if_pos h1, if_pos (by omega), if_pos (by omega)]
    refine ⟨t + z.p + 1, t + z.nT - z.p, z.p - t, ?_, by omega, by omega, by omega, ?_⟩
    · simp only
      rw [hlist 0 _ 0 rfl, hlist _ _ (t + z.nT - z.p) (by omega), List.range_eq_range']
      congr 2 <;> omega
    · intro x hx
      rw [circ hx ht, circ ht hx]
      split <;> split <;> omega
  · rw [if_neg h1]
    by_cases h2 : t + z.p + 1 < z.nT
    · rw [if_pos h2, if_neg (by omega)]
      refine ⟨0, t - z.p, 2 * z.p + 1, ?_, by omega, by omega, by omega, ?_⟩
      · simp only
        rw [hlist _ _ (t - z.p) (by omega), hlist _ _ z.nT rfl]
        have e1 : ((t : ℤ) + z.p + 1 - ((t : ℤ) - z.p)).toNat = 2 * z.p + 1 := by omega
        have e2 : ((z.nT : ℤ) - z.nT).toNat = 0 := by omega
        rw [e1, e2]
        simp
      · intro x hx
        rw [circ hx ht, circ ht hx]
        split <;> split <;> omega
    · rw [if_neg h2, if_pos (by omega)]
      refine ⟨t + z.p + 1 - z.nT, t - z.p, z.nT + z.p - t, ?_, by omega, by omega, by omega, ?_⟩
      · simp only
        rw [hlist 0 _ 0 rfl, hlist _ _ (t - z.p) (by omega), List.range_eq_range']
        congr 2 <;> omega
      · intro x hx
        rw [circ hx ht, circ ht hx]
        split <;> split <;> omega

theorem trialT_props (z : Sz) (ok : Ok z) (t : ℕ) (ht : t < z.nT) :
    (trialT z t).length = 2 * z.p + 1 ∧ (trialT z t).Pairwise (· < ·) ∧
      ∀ x, x ∈ trialT z t ↔ x < z.nT ∧ ((x + z.nT - t) % z.nT ≤ z.p ∨ (t + z.nT - x) % z.nT ≤ z.p) := by
  obtain ⟨a, b, c, h, hab, hbc, hac, hm⟩ := trialT_eq z ok t ht
  rw [h]
  refine ⟨by simp [hac], ?_, ?_⟩
  · rw [List.pairwise_append]
    refine ⟨List.pairwise_lt_range, List.pairwise_lt_range', ?_⟩
    intro x hx y hy
    rw [List.mem_range] at hx
    rw [List.mem_range'_1] at hy
    omega
  · intro x
    rw [List.mem_append, List.mem_range, List.mem_range'_1]
    constructor
    · intro hx
      have : x < z.nT := by omega
      exact ⟨this, (hm x this).1 hx⟩
    · rintro ⟨hx, h⟩
      exact (hm x hx).2 h

/-- The polar index of a tensor product. -/
def tp (z : Sz) (r t : ℕ) : ℕ := z.nS + ((r - z.c1) * z.nT + t)

theorem getPolar_eq (z : Sz) (r t : ℕ) (hr : z.c1 ≤ r) (ht : t < z.nT) : getPolarIndex z.c1 z.nT r t = some (tp z r t) := by
  unfold getPolarIndex tp
  simp only
  rw [if_pos (by omega), wrapTheta_eq (by omega), Nat.mod_eq_of_lt ht]
  congr 3
  congr 1
  omega

theorem rad_tp (z : Sz) (r t : ℕ) (hr : z.c1 ≤ r) (ht : t < z.nT) : rad z (tp z r t) = r := by
  unfold rad tp
  rw [Nat.add_sub_cancel_left, mul_comm, Nat.mul_add_div (by omega), Nat.div_eq_of_lt ht]
  omega

theorem pol_tp (z : Sz) (r t : ℕ) (ht : t < z.nT) : pol z (tp z r t) = t := by
  unfold pol tp
  rw [Nat.add_sub_cancel_left, mul_comm, Nat.mul_add_mod, Nat.mod_eq_of_lt ht]

theorem tp_rad_pol (z : Sz) (i : ℕ) (hi : z.nS ≤ i) : tp z (rad z i) (pol z i) = i := by
  unfold tp rad pol
  rw [Nat.add_sub_cancel_left, mul_comm, Nat.div_add_mod]
  omega

theorem tp_lt (z : Sz) {r t r' t' : ℕ} (hr : z.c1 ≤ r) (ht : t < z.nT) (h : r < r' ∨ (r = r' ∧ t < t')) : tp z r t < tp z r' t' := by
  unfold tp
  rcases h with h | ⟨rfl, h⟩
  · have : (r - z.c1 + 1) * z.nT ≤ (r' - z.c1) * z.nT := Nat.mul_le_mul_right _ (by omega)
    rw [add_mul, one_mul] at this
    omega
  · omega

theorem trialCols_eq (z : Sz) (ok : Ok z) (i : ℕ) (hi : z.nS ≤ i) (hr : rad z i + 1 < z.nR) :
    trialCols z i = (trialR z (rad z i)).flatMap fun r' => (trialT z (pol z i)).map fun t' => tp z r' t' := by
  unfold trialCols
  rw [get2d_eq z i hi]
  simp only
  apply List.flatMap_congr
  intro r' hr'
  rw [trialR_eq z ok (rad z i) (Nat.le_add_right _ _) hr, List.mem_range'_1] at hr'
  have hmem := (trialT_props z ok (pol z i) (pol_lt z ok i)).2.2
  have key : ∀ l : List ℕ, (∀ x ∈ l, x < z.nT) → l.filterMap (fun t' => getPolarIndex z.c1 z.nT r' t') = l.map fun t' => tp z r' t' := by
    intro l hl
    induction l with
    | nil => rfl
    | cons a l ih =>
      rw [List.filterMap_cons, getPolar_eq z r' a (by omega) (hl a (by simp)), ih fun x hx => hl x (by simp [hx])]
      rfl
  exact key _ fun x hx => ((hmem x).1 hx).1

theorem rad_lt (z : Sz) (ok : Ok z) (i : ℕ) (hi : i < z.matSize) : rad z i + 1 < z.nR := by
  rw [matSize_eq z ok] at hi
  rw [mR_eq z ok]
  unfold rad
  have hT := ok.hT
  have hR := ok.hR
  have h0 : 0 < z.mR := by unfold Sz.mR; have := ok.hp; omega
  have : (i - z.nS) / z.nT < z.mR := by
    rw [Nat.div_lt_iff_lt_mul (by omega)]
    have : 0 < z.mR * z.nT := Nat.mul_pos h0 (by omega)
    omega
  omega

theorem lt_of_rad (z : Sz) (ok : Ok z) (i : ℕ) (h : rad z i + 1 < z.nR) : i < z.matSize := by
  rw [matSize_eq z ok]
  rw [mR_eq z ok] at h
  unfold rad at h
  have hT := ok.hT
  have : (i - z.nS) / z.nT < z.mR := by omega
  rw [Nat.div_lt_iff_lt_mul (by omega)] at this
  omega

theorem trialCols_props (z : Sz) (ok : Ok z) (i : ℕ) (hi : z.nS ≤ i) (hlt : i < z.matSize) :
    (trialCols z i).length = (min (rad z i + z.p + 1) (z.nR - 1) - max (rad z i - z.p) z.c1) * (2 * z.p + 1) ∧
    (trialCols z i).Pairwise (· < ·) ∧
    ∀ j, j ∈ trialCols z i ↔ z.nS ≤ j ∧ j < z.matSize ∧ (rad z i ≤ rad z j + z.p ∧ rad z j ≤ rad z i + z.p) ∧
      ((pol z j + z.nT - pol z i) % z.nT ≤ z.p ∨ (pol z i + z.nT - pol z j) % z.nT ≤ z.p) := by
  have hr := rad_lt z ok i hlt
  have hrad : z.c1 ≤ rad z i := Nat.le_add_right _ _
  obtain ⟨hlen, hsort, hmem⟩ := trialT_props z ok (pol z i) (pol_lt z ok i)
  rw [trialCols_eq z ok i hi hr, trialR_eq z ok _ hrad hr]
  refine ⟨?_, ?_, ?_⟩
  · rw [List.length_flatMap]
    simp only [List.length_map, hlen]
    rw [List.map_const', List.sum_replicate, List.length_range', smul_eq_mul]
  · rw [List.pairwise_flatMap]
    constructor
    · intro r' hr'
      rw [List.mem_range'_1] at hr'
      rw [List.pairwise_map]
      refine hsort.imp_of_mem fun {x y} hx _ hxy => ?_
      exact tp_lt z (by omega) ((hmem x).1 hx).1 (Or.inr ⟨rfl, hxy⟩)
    · have : (List.range' (max (rad z i - z.p) z.c1) (min (rad z i + z.p + 1) (z.nR - 1) - max (rad z i - z.p) z.c1)).Pairwise (· < ·) := List.pairwise_lt_range'
      refine this.imp_of_mem fun {x y} hx _ hxy => ?_
      rw [List.mem_range'_1] at hx
      intro a ha b hb
      rw [List.mem_map] at ha hb
      obtain ⟨t, ht, rfl⟩ := ha
      obtain ⟨t', _, rfl⟩ := hb
      exact tp_lt z (by omega) ((hmem t).1 ht).1 (Or.inl hxy)
  · intro j
    rw [List.mem_flatMap]
    constructor
    · rintro ⟨r', hr', hj⟩
      rw [List.mem_range'_1] at hr'
      rw [List.mem_map] at hj
      obtain ⟨t', ht', rfl⟩ := hj
      have ht := (hmem t').1 ht'
      have e1 := rad_tp z r' t' (by omega) ht.1
      have e2 := pol_tp z r' t' ht.1
      refine ⟨Nat.le_add_right _ _, lt_of_rad z ok _ (by rw [e1]; omega), ?_, ?_⟩
      · rw [e1]; omega
      · rw [e2]; exact ht.2
    · rintro ⟨hj, hjlt, h1, h2⟩
      have := rad_lt z ok j hjlt
      have hradj : z.c1 ≤ rad z j := Nat.le_add_right _ _
      refine ⟨rad z j, by rw [List.mem_range'_1]; omega, ?_⟩
      rw [List.mem_map]
      exact ⟨pol z j, (hmem _).2 ⟨pol_lt z ok j, h2⟩, tp_rad_pol z j hj⟩

/-! ## Columns and supports -/

theorem nS_pos (z : Sz) (ok : Ok z) : 0 < z.nS := by
  have := ok.hc
  unfold Sz.nS nSingular
  have : 1 * 2 ≤ z.c1 * (z.c1 + 1) := Nat.mul_le_mul (by omega) (by omega)
  omega

theorem central_lt (z : Sz) (ok : Ok z) (i : ℕ) : i < z.nS + z.p * z.nT ↔ i < z.nS ∨ rad z i < z.c1 + z.p := by
  have hT := ok.hT
  unfold rad
  have : (i - z.nS) / z.nT < z.p ↔ i - z.nS < z.p * z.nT := Nat.div_lt_iff_lt_mul (by omega)
  have hp : 0 < z.p * z.nT := Nat.mul_pos ok.hp (by omega)
  omega

theorem p_le_mR (z : Sz) (ok : Ok z) : 2 * z.p ≤ z.mR := by have := ok.hR; unfold Sz.mR; omega

/-- The columns of a row are in increasing order and are those of the basis functions whose support shares a cell with that of the row. -/
theorem rowCols_props (z : Sz) (ok : Ok z) (i : ℕ) (hi : i < z.matSize) :
    (rowCols z i).Pairwise (· < ·) ∧
    ∀ j, j ∈ rowCols z i ↔ j < z.matSize ∧ ∃ cr < z.cellsR, ∃ ct < z.nT, Supp z i cr ct ∧ Supp z j cr ct := by
  have hT := ok.hT; have hR := ok.hR; have hc := ok.hc; have hcp := ok.hcp
  have hms := matSize_eq z ok
  have hpm : z.p * z.nT ≤ z.mR * z.nT := Nat.mul_le_mul_right _ (by have := p_le_mR z ok; omega)
  have hcells := cellsR_eq z
  have tens : ∀ k cr ct, ¬ k < z.nS → ct < z.nT → (Supp z k cr ct ↔ (cr ≤ rad z k ∧ rad z k ≤ cr + z.p) ∧ (if ct ≤ pol z k then pol z k - ct else pol z k + z.nT - ct) ≤ z.p) := by
    intro k cr ct hk hct
    unfold Supp
    rw [if_neg hk, circ (pol_lt z ok k) hct]
  have sing : ∀ k cr ct, k < z.nS → (Supp z k cr ct ↔ cr < z.c1) := by
    intro k cr ct hk
    unfold Supp
    rw [if_pos hk]
  -- a singular and a tensor function
  have mixed : ∀ k j, k < z.nS → ¬ j < z.nS → rad z j + 1 < z.nR → ((∃ cr < z.cellsR, ∃ ct < z.nT, Supp z k cr ct ∧ Supp z j cr ct) ↔ rad z j < z.c1 + z.p) := by
    intro k j hk hj hrj
    have hradj : z.c1 ≤ rad z j := Nat.le_add_right _ _
    constructor
    · rintro ⟨cr, _, ct, hct, h1, h2⟩
      rw [sing k cr ct hk] at h1
      rw [tens j cr ct hj hct] at h2
      omega
    · intro h
      refine ⟨rad z j - z.p, by omega, pol z j, pol_lt z ok j, (sing k _ _ hk).2 (by omega), (tens j _ _ hj (pol_lt z ok j)).2 ⟨by omega, ?_⟩⟩
      rw [if_pos le_rfl]; omega
  unfold rowCols
  by_cases hs : i < z.nS
  · rw [if_pos hs]
    refine ⟨List.pairwise_lt_range, fun j => ?_⟩
    rw [List.mem_range, central_lt z ok j]
    by_cases hj : j < z.nS
    · simp only [hj, true_or, true_iff]
      exact ⟨by omega, 0, by omega, 0, by omega, (sing i _ _ hs).2 (by omega), (sing j _ _ hj).2 (by omega)⟩
    · simp only [hj, false_or]
      constructor
      · intro h
        have hjlt : j < z.matSize := lt_of_rad z ok j (by omega)
        exact ⟨hjlt, (mixed i j hs hj (rad_lt z ok j hjlt)).2 h⟩
      · rintro ⟨hjlt, h⟩
        exact (mixed i j hs hj (rad_lt z ok j hjlt)).1 h
  · rw [if_neg hs]
    obtain ⟨_, hsort, hmem⟩ := trialCols_props z ok i (by omega) hi
    have hri := rad_lt z ok i hi
    constructor
    · rw [List.pairwise_append]
      refine ⟨?_, hsort, ?_⟩
      · split
        · exact List.pairwise_lt_range
        · exact List.Pairwise.nil
      · intro a ha b hb
        have hb' := (hmem b).1 hb
        split at ha
        · rw [List.mem_range] at ha; omega
        · cases ha
    · intro j
      rw [List.mem_append, hmem j]
      by_cases hj : j < z.nS
      · have hno : ¬ (z.nS ≤ j) := by omega
        simp only [hno, false_and, or_false]
        have hm := mixed j i hj hs hri
        constructor
        · intro h
          split at h
          · refine ⟨by omega, ?_⟩
            obtain ⟨cr, h1, ct, h2, h3, h4⟩ := hm.2 ‹_›
            exact ⟨cr, h1, ct, h2, h4, h3⟩
          · cases h
        · rintro ⟨_, cr, h1, ct, h2, h3, h4⟩
          rw [if_pos (hm.1 ⟨cr, h1, ct, h2, h4, h3⟩), List.mem_range]
          exact hj
      · have hnin : j ∉ (if rad z i < z.c1 + z.p then List.range z.nS else []) := by
          split
          · rw [List.mem_range]; exact hj
          · simp
        simp only [hnin, false_or]
        have hpi := pol_lt z ok i
        have hpj := pol_lt z ok j
        rw [circ hpj hpi, circ hpi hpj]
        constructor
        · rintro ⟨_, hjlt, h1, h2⟩
          have hrj := rad_lt z ok j hjlt
          refine ⟨hjlt, max (rad z i - z.p) (rad z j - z.p), by omega, ?_⟩
          rcases h2 with h2 | h2
          · refine ⟨pol z i, hpi, (tens i _ _ hs hpi).2 ⟨by omega, ?_⟩, (tens j _ _ hj hpi).2 ⟨by omega, h2⟩⟩
            rw [if_pos le_rfl]; omega
          · refine ⟨pol z j, hpj, (tens i _ _ hs hpj).2 ⟨by omega, h2⟩, (tens j _ _ hj hpj).2 ⟨by omega, ?_⟩⟩
            rw [if_pos le_rfl]; omega
        · rintro ⟨hjlt, cr, _, ct, hct, h3, h4⟩
          rw [tens i cr ct hs hct] at h3
          rw [tens j cr ct hj hct] at h4
          refine ⟨by omega, hjlt, by omega, ?_⟩
          obtain ⟨_, h3⟩ := h3
          obtain ⟨_, h4⟩ := h4
          split at h3 <;> split at h4 <;> split <;> split <;> omega

end Verif.PolarFem
