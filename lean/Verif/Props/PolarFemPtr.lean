import Verif.Props.PolarFemCsr

/-!
# C74: the row pointers of the sparse matrix
-/

namespace Verif.PolarFem

open Verif.PolarSplines Finset

/-- `Σ_{k < n} (p + k + 1)`. -/
def triU (p : ℕ) : ℕ → ℕ
  | 0 => 0
  | n + 1 => triU p n + (p + n + 1)

/-- `Σ_{k < n} (2 p - k)`. -/
def triD (p : ℕ) : ℕ → ℕ
  | 0 => 0
  | n + 1 => triD p n + (2 * p - n)

theorem triU_eq (p n : ℕ) : 2 * triU p n = n * (2 * p + n + 1) := by
  induction n with
  | zero => simp [triU]
  | succ n ih => rw [triU, mul_add, ih]; ring

theorem triD_eq (p n : ℕ) (h : n ≤ 2 * p) : 2 * triD p n + (2 * p - n) * (2 * p - n + 1) = 2 * p * (2 * p + 1) := by
  induction n with
  | zero => simp [triD]
  | succ n ih =>
    have := ih (by omega)
    obtain ⟨m, hm⟩ : ∃ m, 2 * p - n = m + 1 := ⟨2 * p - n - 1, by omega⟩
    have hm' : 2 * p - (n + 1) = m := by omega
    rw [hm] at this
    rw [hm', triD, hm, ← this]
    ring

/-- Start of the first row of the radial index `ir`. -/
def base (z : Sz) (ir : ℕ) : ℕ :=
  let so := 2 * z.p + 1
  let sum1 := (z.nS + z.p * z.nT) * z.nS
  let sum2 := sum1 + (z.nS * z.p + triU z.p z.p * so) * z.nT
  let sum3 := sum2 + (z.mR - 2 * z.p) * z.nT * so * so
  if ir < z.p then sum1 + (z.nS * ir + triU z.p ir * so) * z.nT
  else if ir < z.mR - z.p then sum2 + (ir - z.p) * z.nT * so * so
  else sum3 + triD z.p (ir - (z.mR - z.p)) * so * z.nT

/-- Length of the rows of the radial index `ir`. -/
def rlen (z : Sz) (ir : ℕ) : ℕ :=
  let so := 2 * z.p + 1
  if ir < z.p then z.nS + (z.p + ir + 1) * so
  else if ir < z.mR - z.p then so * so
  else (2 * z.p - (ir - (z.mR - z.p))) * so

theorem base_succ (z : Sz) (ok : Ok z) (ir : ℕ) : base z (ir + 1) = base z ir + z.nT * rlen z ir := by
  have hm := p_le_mR z ok
  unfold base rlen
  simp only
  by_cases h1 : ir < z.p
  · by_cases h2 : ir + 1 < z.p
    · simp only [h1, h2, if_true, triU]; ring
    · have h3 : ir + 1 = z.p := by omega
      rw [if_neg h2, if_pos h1, if_pos h1]
      by_cases h4 : ir + 1 < z.mR - z.p
      · rw [if_pos h4, h3, Nat.sub_self, ← h3]
        simp only [triU]; ring
      · have h5 : z.mR - 2 * z.p = 0 := by omega
        have h6 : ir + 1 - (z.mR - z.p) = 0 := by omega
        rw [if_neg h4, h5, h6, ← h3]
        simp only [triU, triD]; ring
  · rw [if_neg h1, if_neg h1, if_neg (by omega)]
    by_cases h2 : ir < z.mR - z.p
    · rw [if_pos h2, if_pos h2]
      by_cases h3 : ir + 1 < z.mR - z.p
      · obtain ⟨m, hm⟩ : ∃ m, ir = z.p + m := ⟨ir - z.p, by omega⟩
        have e1 : ir + 1 - z.p = m + 1 := by omega
        have e2 : ir - z.p = m := by omega
        rw [if_pos h3, e1, e2]; ring
      · obtain ⟨m, hm⟩ : ∃ m, ir = z.p + m := ⟨ir - z.p, by omega⟩
        have e1 : ir + 1 - (z.mR - z.p) = 0 := by omega
        have e2 : ir - z.p = m := by omega
        have e3 : z.mR - 2 * z.p = m + 1 := by omega
        rw [if_neg h3, e1, e2, e3]
        simp only [triD]; ring
    · rw [if_neg h2, if_neg h2, if_neg (by omega)]
      have e1 : ir + 1 - (z.mR - z.p) = (ir - (z.mR - z.p)) + 1 := by omega
      rw [e1, triD]; ring

theorem ptr_sing (z : Sz) (k : ℕ) (h : k ≤ z.nS) : ptr z k = k * (z.nS + z.p * z.nT) := by
  unfold ptr
  by_cases h0 : k = 0
  · simp only [h0, if_true]; ring
  · simp only [h0, if_false, h, if_true]

theorem ptr_tens (z : Sz) (ok : Ok z) (ir it : ℕ) (hir : ir < z.mR) (hit : it < z.nT) :
    ptr z (z.nS + (ir * z.nT + it) + 1) = base z ir + (it + 1) * rlen z ir := by
  have hm := p_le_mR z ok
  have hT := ok.hT
  have hdiv : (ir * z.nT + it) / z.nT = ir := by rw [mul_comm, Nat.mul_add_div (by omega), Nat.div_eq_of_lt hit, add_zero]
  have hmod : (ir * z.nT + it) % z.nT = it := by rw [mul_comm, Nat.mul_add_mod, Nat.mod_eq_of_lt hit]
  have hk : z.nS + (ir * z.nT + it) + 1 - 1 - z.nS = ir * z.nT + it := by omega
  have hlt : ∀ a, ir * z.nT + it < a * z.nT ↔ ir < a := by
    intro a
    rw [← Nat.div_lt_iff_lt_mul (by omega), hdiv]
  have e2 : z.p * (z.p + 2 * z.p + 1) * (2 * z.p + 1) / 2 = triU z.p z.p * (2 * z.p + 1) := by
    have := triU_eq z.p z.p
    have : z.p * (z.p + 2 * z.p + 1) * (2 * z.p + 1) = 2 * (triU z.p z.p * (2 * z.p + 1)) := by
      rw [← mul_assoc, this]; ring
    omega
  unfold ptr
  simp only [hk, hdiv, hmod, e2]
  rw [if_neg (by omega), if_neg (by omega)]
  have hA := hlt z.mR
  have hB := hlt (z.mR - z.p)
  have hC := hlt z.p
  have hD : z.p * z.nT + (z.mR - 2 * z.p) * z.nT = (z.mR - z.p) * z.nT := by
    rw [← add_mul]; congr 1; omega
  unfold base rlen
  simp only
  by_cases h1 : ir < z.p
  · have h2 : ir < z.mR - z.p := by omega
    rw [if_neg (by omega), if_neg (by omega), if_pos (hC.2 h1), if_pos h1, if_pos h1]
    have e3 : ((z.p + ir + 1) * (z.p + ir + 1 - 1) - z.p * (z.p + 1)) * z.nT * (2 * z.p + 1) / 2 = triU z.p ir * (2 * z.p + 1) * z.nT := by
      have ht := triU_eq z.p ir
      have : (z.p + ir + 1) * (z.p + ir + 1 - 1) = 2 * triU z.p ir + z.p * (z.p + 1) := by
        rw [ht, Nat.add_sub_cancel]; ring
      rw [this, Nat.add_sub_cancel]
      have : 2 * triU z.p ir * z.nT * (2 * z.p + 1) = 2 * (triU z.p ir * (2 * z.p + 1) * z.nT) := by ring
      omega
    rw [e3]; ring
  · rw [if_neg h1, if_neg h1]
    by_cases h2 : ir < z.mR - z.p
    · rw [if_neg (by omega), if_pos (by omega), if_pos h2, if_pos h2]
      have e4 : ir * z.nT + it - z.p * z.nT = (ir - z.p) * z.nT + it := by
        obtain ⟨m, hm⟩ : ∃ m, ir = z.p + m := ⟨ir - z.p, by omega⟩
        rw [hm, add_mul, Nat.add_sub_cancel_left]; omega
      rw [e4]; ring
    · rw [if_pos (by omega), if_neg h2, if_neg h2]
      obtain ⟨s, hs⟩ : ∃ s, s = ir - (z.mR - z.p) := ⟨_, rfl⟩
      rw [← hs]
      have ht := triD_eq z.p s (by omega)
      have e5 : z.p * (2 * z.p + 1) - (2 * z.p - s) * (2 * z.p - s + 1) / 2 = triD z.p s := by
        have : 2 * z.p * (2 * z.p + 1) = 2 * (z.p * (2 * z.p + 1)) := by ring
        omega
      rw [e5]; ring

theorem ptr_row (z : Sz) (ok : Ok z) (ir it : ℕ) (hir : ir < z.mR) (hit : it < z.nT) :
    ptr z (z.nS + (ir * z.nT + it)) = base z ir + it * rlen z ir := by
  have hT := ok.hT
  have hp := ok.hp
  rcases Nat.eq_zero_or_pos it with h | h
  · subst h
    rcases Nat.eq_zero_or_pos ir with h | h
    · subst h
      rw [zero_mul, add_zero, add_zero, zero_mul, add_zero, ptr_sing z _ le_rfl]
      unfold base
      simp only
      rw [if_pos (by omega)]
      simp only [triU]; ring
    · obtain ⟨m, rfl⟩ : ∃ m, ir = m + 1 := ⟨ir - 1, by omega⟩
      have := ptr_tens z ok m (z.nT - 1) (by omega) (by omega)
      have e : z.nS + (m * z.nT + (z.nT - 1)) + 1 = z.nS + ((m + 1) * z.nT + 0) := by rw [add_mul]; omega
      have e' : z.nT - 1 + 1 = z.nT := by omega
      rw [e, e'] at this
      rw [this, base_succ z ok]; ring
  · obtain ⟨m, rfl⟩ : ∃ m, it = m + 1 := ⟨it - 1, by omega⟩
    have := ptr_tens z ok ir m hir (by omega)
    rw [show z.nS + (ir * z.nT + (m + 1)) = z.nS + (ir * z.nT + m) + 1 by omega]
    exact this

theorem rowCols_length (z : Sz) (ok : Ok z) (i : ℕ) (hi : i < z.matSize) :
    (rowCols z i).length = if i < z.nS then z.nS + z.p * z.nT else rlen z ((i - z.nS) / z.nT) := by
  unfold rowCols
  by_cases hs : i < z.nS
  · rw [if_pos hs, if_pos hs, List.length_range]
  · rw [if_neg hs, if_neg hs, List.length_append, (trialCols_props z ok i (by omega) hi).1]
    have hm := p_le_mR z ok
    have hR := mR_eq z ok
    have hr := rad_lt z ok i hi
    obtain ⟨ir, hir⟩ : ∃ ir, ir = (i - z.nS) / z.nT := ⟨_, rfl⟩
    have hrad : rad z i = z.c1 + ir := by unfold rad; rw [hir]
    rw [hrad] at hr ⊢
    rw [← hir]
    unfold rlen
    simp only
    by_cases h1 : ir < z.p
    · rw [if_pos (by omega), if_pos h1, List.length_range]
      congr 2; omega
    · rw [if_neg (by omega), if_neg h1, List.length_nil, zero_add]
      split
      · congr 1; omega
      · congr 1; omega

/-- Row `i` of the matrix occupies the entries `ptr i … ptr (i + 1) - 1`, as many as it has columns. -/
theorem ptr_succ (z : Sz) (ok : Ok z) (i : ℕ) (hi : i < z.matSize) : ptr z (i + 1) = ptr z i + (rowCols z i).length := by
  rw [rowCols_length z ok i hi]
  by_cases hs : i < z.nS
  · rw [if_pos hs, ptr_sing z _ (by omega), ptr_sing z _ (by omega)]; ring
  · rw [if_neg hs]
    have hT := ok.hT
    have hr := rad_lt z ok i hi
    have hR := mR_eq z ok
    unfold rad at hr
    have e : i = z.nS + ((i - z.nS) / z.nT * z.nT + (i - z.nS) % z.nT) := by
      rw [Nat.div_add_mod']; omega
    obtain ⟨ir, hir⟩ : ∃ ir, ir = (i - z.nS) / z.nT := ⟨_, rfl⟩
    obtain ⟨it, hit⟩ : ∃ it, it = (i - z.nS) % z.nT := ⟨_, rfl⟩
    have hit' : it < z.nT := by rw [hit]; exact Nat.mod_lt _ (by omega)
    rw [← hir, ← hit] at e
    rw [← hir] at hr ⊢
    rw [e, ptr_row z ok ir it (by omega) hit', ptr_tens z ok ir it (by omega) hit']
    ring

theorem ptr_zero (z : Sz) : ptr z 0 = 0 := by simp [ptr]

/-- The last pointer is the number of allocated entries. -/
theorem ptr_last (z : Sz) (ok : Ok z) : ptr z z.matSize = nnzAlloc z := by
  have hT := ok.hT
  have hp := ok.hp
  have hm := p_le_mR z ok
  rw [matSize_eq z ok]
  obtain ⟨m, hmR⟩ : ∃ m, z.mR = m + 1 := ⟨z.mR - 1, by omega⟩
  have h1 := ptr_tens z ok m (z.nT - 1) (by omega) (by omega)
  have e : z.nS + (m * z.nT + (z.nT - 1)) + 1 = z.nS + z.mR * z.nT := by rw [hmR, add_mul]; omega
  have e' : z.nT - 1 + 1 = z.nT := by omega
  rw [e, e', ← base_succ z ok, ← hmR] at h1
  rw [h1]
  unfold base nnzAlloc
  simp only
  rw [if_neg (by omega), if_neg (by omega)]
  have e1 : z.mR - (z.mR - z.p) = z.p := by omega
  have e2 : min (1 + 2 * z.p) z.nT = 2 * z.p + 1 := by omega
  rw [e1, e2]
  obtain ⟨k, hk⟩ : ∃ k, z.mR = 2 * z.p + k := ⟨z.mR - 2 * z.p, by omega⟩
  have e3 : z.mR - 2 * z.p = k := by omega
  rw [e3]
  have t1 := triU_eq z.p z.p
  have t2 := triD_eq z.p z.p (by omega)
  have e4 : 2 * z.p - z.p = z.p := by omega
  rw [e4] at t2
  have t3 : triU z.p z.p = triD z.p z.p := by
    have : 2 * z.p * (2 * z.p + 1) = z.p * (2 * z.p + z.p + 1) + z.p * (z.p + 1) := by ring
    omega
  have e5 : z.mR * (1 + 2 * z.p) - (1 + z.p) * z.p = k * (2 * z.p + 1) + 2 * triU z.p z.p := by
    rw [hk, t1]
    have : (2 * z.p + k) * (1 + 2 * z.p) = k * (2 * z.p + 1) + z.p * (2 * z.p + z.p + 1) + (1 + z.p) * z.p := by ring
    omega
  rw [e5, ← t3]
  ring

theorem ptr_mono (z : Sz) (ok : Ok z) (i j : ℕ) (h : i ≤ j) (hj : j ≤ z.matSize) : ptr z i ≤ ptr z j := by
  induction j with
  | zero => rw [Nat.le_zero.1 h]
  | succ j ih =>
    rcases Nat.lt_or_ge j i with h' | h'
    · rw [show i = j + 1 by omega]
    · have := ih h' (by omega)
      rw [ptr_succ z ok j (by omega)]
      omega

/-- Two entries are the same only if they belong to the same row. -/
theorem slot_unique (z : Sz) (ok : Ok z) {i k i' k' : ℕ} (hi : i < z.matSize) (hi' : i' < z.matSize) (hk : k < (rowCols z i).length) (hk' : k' < (rowCols z i').length)
    (h : ptr z i + k = ptr z i' + k') : i = i' ∧ k = k' := by
  have a1 := ptr_succ z ok i hi
  have a2 := ptr_succ z ok i' hi'
  rcases Nat.lt_trichotomy i i' with h1 | h1 | h1
  · have := ptr_mono z ok (i + 1) i' (by omega) (by omega); omega
  · subst h1; exact ⟨rfl, by omega⟩
  · have := ptr_mono z ok (i' + 1) i (by omega) (by omega); omega

theorem slot_lt (z : Sz) (ok : Ok z) {i k : ℕ} (hi : i < z.matSize) (hk : k < (rowCols z i).length) : ptr z i + k < nnzAlloc z := by
  have a1 := ptr_succ z ok i hi
  have := ptr_mono z ok (i + 1) z.matSize (by omega) le_rfl
  rw [← ptr_last z ok]; omega

theorem slot_exists (z : Sz) (ok : Ok z) (s : ℕ) (hs : s < nnzAlloc z) : ∃ i k, i < z.matSize ∧ k < (rowCols z i).length ∧ s = ptr z i + k := by
  rw [← ptr_last z ok] at hs
  have : ∀ n ≤ z.matSize, s < ptr z n → ∃ i k, i < z.matSize ∧ k < (rowCols z i).length ∧ s = ptr z i + k := by
    intro n
    induction n with
    | zero => intro _ h; rw [ptr_zero] at h; omega
    | succ n ih =>
      intro hn h
      rcases Nat.lt_or_ge s (ptr z n) with h' | h'
      · exact ih (by omega) h'
      · have := ptr_succ z ok n (by omega)
        exact ⟨n, s - ptr z n, by omega, by omega, by omega⟩
  exact this _ le_rfl hs

end Verif.PolarFem
