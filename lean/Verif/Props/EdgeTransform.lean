import Verif.Model.EdgeTransform
import Mathlib.Tactic.Ring
import Mathlib.Tactic.FieldSimp
import Mathlib.Tactic.Linarith
import Mathlib.Tactic.NormNum
import Mathlib.Tactic.Positivity
import Mathlib.Tactic.GCongr
import Mathlib.Algebra.Order.Floor.Semifield

/-! Properties C09, C10, C11: coordinates and indices across an interface between two patches. -/

namespace Verif.EdgeTransform

theorem trunc_of_nonneg_lt_one {x : ℝ} (h0 : 0 ≤ x) (h1 : x < 1) : trunc x = 0 := by
  unfold trunc; rw [if_pos h0]; exact Int.floor_eq_zero_iff.2 ⟨h0, h1⟩

theorem fmod_of_lt {a b : ℝ} (h0 : 0 ≤ a) (h1 : a < b) : fmod a b = a := by
  have hb : 0 < b := lt_of_le_of_lt h0 h1
  unfold fmod
  rw [trunc_of_nonneg_lt_one (div_nonneg h0 hb.le) ((div_lt_one hb).2 h1)]; simp

theorem fmod_self {b : ℝ} (hb : 0 < b) : fmod b b = 0 := by
  unfold fmod trunc
  rw [div_self hb.ne', if_pos (by norm_num)]
  simp

/-- The affine map of the edge `cur` onto the edge `tgt` that identifies their ends: minimum to minimum if the
orientations agree, minimum to maximum otherwise. (Specification, written without periodicity.) -/
noncomputable def affineEdge (agree : Bool) (cur tgt : Edge) (x : ℝ) : ℝ :=
  if agree then tgt.min + (x - cur.min) * (tgt.len / cur.len)
  else tgt.min + tgt.len - (x - cur.min) * (tgt.len / cur.len)

theorem affineEdge_bounds (agree : Bool) (cur tgt : Edge) (hc : 0 < cur.len) (ht : 0 < tgt.len) {x : ℝ} :
    (cur.min ≤ x → x ≤ cur.min + cur.len →
      tgt.min ≤ affineEdge agree cur tgt x ∧ affineEdge agree cur tgt x ≤ tgt.min + tgt.len) ∧
    (cur.min < x → x < cur.min + cur.len →
      tgt.min < affineEdge agree cur tgt x ∧ affineEdge agree cur tgt x < tgt.min + tgt.len) := by
  have e : (x - cur.min) * (tgt.len / cur.len) = (x - cur.min) / cur.len * tgt.len := by field_simp
  unfold affineEdge
  rw [e]
  constructor
  · intro h1 h2
    have a1 : 0 ≤ (x - cur.min) / cur.len := div_nonneg (by linarith) hc.le
    have a2 : (x - cur.min) / cur.len ≤ 1 := by rw [div_le_one hc]; linarith
    have b1 := mul_nonneg a1 ht.le
    have b2 : (x - cur.min) / cur.len * tgt.len ≤ tgt.len := by nlinarith
    cases agree <;> simp <;> constructor <;> linarith
  · intro h1 h2
    have a1 : 0 < (x - cur.min) / cur.len := div_pos (by linarith) hc
    have a2 : (x - cur.min) / cur.len < 1 := by rw [div_lt_one hc]; linarith
    have b1 := mul_pos a1 ht
    have b2 : (x - cur.min) / cur.len * tgt.len < tgt.len := by nlinarith
    cases agree <;> simp <;> constructor <;> linarith

theorem affineEdge_inv (agree : Bool) (cur tgt : Edge) (hc : 0 < cur.len) (ht : 0 < tgt.len) (x : ℝ) :
    affineEdge agree tgt cur (affineEdge agree cur tgt x) = x := by
  unfold affineEdge
  cases agree <;> simp <;> field_simp <;> ring

theorem transformEdge_eq (agree : Bool) (cur tgt : Edge) (x : ℝ) :
    transformEdge agree cur tgt x =
      if tgt.periodic then tgt.min + fmod (affineEdge agree cur tgt x - tgt.min) tgt.len
      else affineEdge agree cur tgt x := by
  have e : (x - cur.min) * (tgt.len / cur.len) = (x - cur.min) / cur.len * tgt.len := by ring
  unfold transformEdge affineEdge
  simp only [e]
  cases agree <;> cases tgt.periodic <;> simp
  · ring
  · congr 1; ring

theorem transformEdge_inner (agree : Bool) (cur tgt : Edge) (x : ℝ) (ht : 0 < tgt.len)
    (h1 : tgt.min ≤ affineEdge agree cur tgt x) (h2 : tgt.periodic = true → affineEdge agree cur tgt x < tgt.min + tgt.len) :
    transformEdge agree cur tgt x = affineEdge agree cur tgt x := by
  rw [transformEdge_eq]
  split
  · rename_i hp
    rw [fmod_of_lt (by linarith) (by have := h2 hp; linarith)]; ring
  · rfl

theorem transformEdge_max_periodic (agree : Bool) (cur tgt : Edge) (x : ℝ) (ht : 0 < tgt.len)
    (hp : tgt.periodic = true) (h : affineEdge agree cur tgt x = tgt.min + tgt.len) :
    transformEdge agree cur tgt x = tgt.min := by
  rw [transformEdge_eq, if_pos hp, h]
  rw [show tgt.min + tgt.len - tgt.min = tgt.len by ring, fmod_self ht]; ring

/-! ### C09 -/

/-- C09: between non-periodic edges the transformation and the transformation in the other direction are inverse
of each other, for every coordinate and both relative orientations. -/
theorem c09_round_trip_nonperiodic (agree : Bool) (cur tgt : Edge) (hc : 0 < cur.len) (ht : 0 < tgt.len)
    (hcp : cur.periodic = false) (htp : tgt.periodic = false) (x : ℝ) :
    transformEdge agree tgt cur (transformEdge agree cur tgt x) = x := by
  rw [transformEdge_eq _ _ _ x, transformEdge_eq]
  simp [hcp, htp, affineEdge_inv agree cur tgt hc ht]

/-- C09: with periodic dimensions the round trip is the identity on the whole edge, the last point being excluded
when the current dimension is periodic (it is the same point as the first). When only the target dimension is periodic the
two ends of the edge are also excluded (they become the same point). -/
theorem c09_round_trip (agree : Bool) (cur tgt : Edge) (hc : 0 < cur.len) (ht : 0 < tgt.len)
    (x : ℝ) (h1 : cur.min ≤ x) (h2 : x ≤ cur.min + cur.len)
    (hcp : cur.periodic = true → x < cur.min + cur.len)
    (htp : tgt.periodic = true → cur.periodic = false → cur.min < x ∧ x < cur.min + cur.len) :
    transformEdge agree tgt cur (transformEdge agree cur tgt x) = x := by
  obtain ⟨b1, b2⟩ := (affineEdge_bounds agree cur tgt hc ht (x := x)).1 h1 h2
  have binv := affineEdge_inv agree cur tgt hc ht x
  by_cases hmax : tgt.periodic = true ∧ affineEdge agree cur tgt x = tgt.min + tgt.len
  · obtain ⟨hp, hm⟩ := hmax
    rw [transformEdge_max_periodic agree cur tgt x ht hp hm]
    cases hcc : cur.periodic
    · obtain ⟨i1, i2⟩ := htp hp hcc
      have := ((affineEdge_bounds agree cur tgt hc ht (x := x)).2 i1 i2).2
      linarith
    · have hx := hcp hcc
      -- the orientation must be reversed, and x is the minimum
      cases agree
      · have hxm : x = cur.min := by
          rw [hm] at binv
          rw [← binv]; unfold affineEdge; simp
          field_simp; ring
        rw [transformEdge_max_periodic _ _ _ _ hc hcc (by unfold affineEdge; simp)]
        exact hxm.symm
      · exfalso
        rw [hm] at binv
        have : x = cur.min + cur.len := by
          rw [← binv]; unfold affineEdge; simp
          field_simp
        linarith
  · have hlt : tgt.periodic = true → affineEdge agree cur tgt x < tgt.min + tgt.len := by
      intro hp
      exact lt_of_le_of_ne b2 (fun h => hmax ⟨hp, h⟩)
    rw [transformEdge_inner agree cur tgt x ht b1 hlt]
    rw [transformEdge_inner agree tgt cur _ hc (by rw [binv]; exact h1) (by rw [binv]; exact hcp), binv]

/-- C09: the ends of the edges are identified according to the orientation flag. -/
theorem c09_ends (cur tgt : Edge) (hc : 0 < cur.len) (htp : tgt.periodic = false) :
    transformEdge true cur tgt cur.min = tgt.min ∧
    transformEdge true cur tgt (cur.min + cur.len) = tgt.min + tgt.len ∧
    transformEdge false cur tgt cur.min = tgt.min + tgt.len ∧
    transformEdge false cur tgt (cur.min + cur.len) = tgt.min := by
  simp only [transformEdge_eq, htp]
  unfold affineEdge
  refine ⟨?_, ?_, ?_, ?_⟩ <;> simp <;> field_simp <;> ring

/-- C09: the transformation keeps or reverses the order of the points, and the ratio of distances is constant. -/
theorem c09_order (agree : Bool) (cur tgt : Edge) (hc : 0 < cur.len) (ht : 0 < tgt.len)
    (htp : tgt.periodic = false) (x y : ℝ) (hxy : x < y) :
    (agree = true → transformEdge agree cur tgt x < transformEdge agree cur tgt y) ∧
    (agree = false → transformEdge agree cur tgt y < transformEdge agree cur tgt x) ∧
    |transformEdge agree cur tgt y - transformEdge agree cur tgt x| = (y - x) * (tgt.len / cur.len) := by
  have hr : 0 < tgt.len / cur.len := div_pos ht hc
  have hm : 0 < (y - x) * (tgt.len / cur.len) := mul_pos (by linarith) hr
  simp only [transformEdge_eq, htp]
  unfold affineEdge
  cases agree
  · refine ⟨by simp, fun _ => ?_, ?_⟩
    · simp; nlinarith
    · simp
      rw [abs_of_neg (by nlinarith)]; ring
  · refine ⟨fun _ => ?_, by simp, ?_⟩
    · simp; nlinarith
    · simp
      rw [abs_of_pos (by nlinarith)]; ring

/-- C09 with a periodic target: the two ends of the edge become the same point, and between them the transformation keeps or reverses the order as on a non-periodic edge. -/
theorem c09_order_periodic (agree : Bool) (cur tgt : Edge) (hc : 0 < cur.len) (ht : 0 < tgt.len) :
    (tgt.periodic = true → transformEdge agree cur tgt cur.min = tgt.min ∧ transformEdge agree cur tgt (cur.min + cur.len) = tgt.min) ∧
    ∀ x y, cur.min < x → x < y → y < cur.min + cur.len →
      (agree = true → transformEdge agree cur tgt x < transformEdge agree cur tgt y) ∧
      (agree = false → transformEdge agree cur tgt y < transformEdge agree cur tgt x) := by
  have hr : 0 < tgt.len / cur.len := div_pos ht hc
  constructor
  · intro hp
    have hz : fmod 0 tgt.len = 0 := by simp [fmod, trunc]
    have ho : fmod tgt.len tgt.len = 0 := by simp [fmod, trunc, div_self ht.ne']
    constructor <;> cases agree <;> simp [transformEdge, hp, hz, ho, div_self hc.ne']
  · intro x y hx hxy hy
    have key : ∀ z, cur.min < z → z < cur.min + cur.len → transformEdge agree cur tgt z = affineEdge agree cur tgt z := by
      intro z h1 h2
      obtain ⟨b1, b2⟩ := (affineEdge_bounds agree cur tgt hc ht (x := z)).1 h1.le h2.le
      refine transformEdge_inner agree cur tgt z ht b1 fun _ => ?_
      exact ((affineEdge_bounds agree cur tgt hc ht (x := z)).2 h1 h2).2
    have hm : 0 < (y - x) * (tgt.len / cur.len) := mul_pos (by linarith) hr
    rw [key x hx (hxy.trans hy), key y (hx.trans hxy) hy]
    unfold affineEdge
    cases agree
    · exact ⟨by simp, fun _ => by simp; nlinarith⟩
    · exact ⟨fun _ => by simp; nlinarith, by simp⟩

/-- The transformed point stays on the target edge. -/
theorem c09_stays_on_edge (agree : Bool) (cur tgt : Edge) (hc : 0 < cur.len) (ht : 0 < tgt.len)
    (x : ℝ) (h1 : cur.min ≤ x) (h2 : x ≤ cur.min + cur.len) :
    tgt.min ≤ transformEdge agree cur tgt x ∧ transformEdge agree cur tgt x ≤ tgt.min + tgt.len ∧
    (tgt.periodic = true → transformEdge agree cur tgt x < tgt.min + tgt.len) := by
  obtain ⟨b1, b2⟩ := (affineEdge_bounds agree cur tgt hc ht (x := x)).1 h1 h2
  by_cases hmax : tgt.periodic = true ∧ affineEdge agree cur tgt x = tgt.min + tgt.len
  · rw [transformEdge_max_periodic agree cur tgt x ht hmax.1 hmax.2]
    exact ⟨le_refl _, by linarith, fun _ => by linarith⟩
  · have hlt : tgt.periodic = true → affineEdge agree cur tgt x < tgt.min + tgt.len := by
      intro hp
      exact lt_of_le_of_ne b2 (fun h => hmax ⟨hp, h⟩)
    rw [transformEdge_inner agree cur tgt x ht b1 hlt]
    exact ⟨b1, b2, hlt⟩

/-- A non-trivial instance of the hypotheses of `c09_round_trip`: two periodic edges of lengths 2 and 3. -/
example : transformEdge false ⟨1, 3, true⟩ ⟨0, 2, true⟩ (transformEdge false ⟨0, 2, true⟩ ⟨1, 3, true⟩ (1 / 2)) = 1 / 2 :=
  c09_round_trip false ⟨0, 2, true⟩ ⟨1, 3, true⟩ (by norm_num) (by norm_num) _ (by norm_num) (by norm_num)
    (by norm_num) (by simp)

/-! ### C10 -/

/-- Coordinate of point `i` of the uniform grid with `n` cells on an edge. -/
noncomputable def uniformPoint (E : Edge) (n i : ℕ) : ℝ := E.min + E.len * i / n

theorem exactTruncDiv_eq (v nc nt : ℕ) : exactTruncDiv v nc nt = v * nt / nc := by
  unfold exactTruncDiv trunc
  have e : (v : ℝ) / ((nc : ℝ) / (nt : ℝ)) = ((v * nt : ℕ) : ℝ) / (nc : ℝ) := by
    push_cast; rw [div_div_eq_mul_div]
  rw [e, if_pos (by positivity)]
  rw [Int.floor_toNat, Nat.floor_div_natCast, Nat.floor_natCast]

theorem matchable_iff (nc nt v : ℕ) (hc : 0 < nc) :
    v % (nc / Nat.gcd nc nt) = 0 ↔ nc ∣ v * nt := by
  have hg : 0 < Nat.gcd nc nt := Nat.gcd_pos_of_pos_left _ hc
  rw [← Nat.dvd_iff_mod_eq_zero]
  constructor
  · rintro ⟨k, rfl⟩
    obtain ⟨a, ha⟩ := Nat.gcd_dvd_left nc nt
    obtain ⟨b, hb⟩ := Nat.gcd_dvd_right nc nt
    have hq : nc / Nat.gcd nc nt = a := Nat.div_eq_of_eq_mul_right hg ha
    rw [hq]
    refine ⟨k * b, ?_⟩
    calc a * k * nt = a * k * (Nat.gcd nc nt * b) := by rw [← hb]
      _ = (Nat.gcd nc nt * a) * (k * b) := by ring
      _ = nc * (k * b) := by rw [← ha]
  · intro h
    exact Nat.Coprime.dvd_of_dvd_mul_right (Nat.coprime_div_gcd_div_gcd hg) (by
      obtain ⟨k, hk⟩ := h
      obtain ⟨a, ha⟩ := Nat.gcd_dvd_left nc nt
      obtain ⟨b, hb⟩ := Nat.gcd_dvd_right nc nt
      have hq : nc / Nat.gcd nc nt = a := Nat.div_eq_of_eq_mul_right hg ha
      have hq2 : nt / Nat.gcd nc nt = b := Nat.div_eq_of_eq_mul_right hg hb
      rw [hq, hq2]
      refine ⟨k, ?_⟩
      apply Nat.eq_of_mul_eq_mul_left hg
      calc Nat.gcd nc nt * (v * b) = v * (Nat.gcd nc nt * b) := by ring
        _ = v * nt := by rw [← hb]
        _ = nc * k := hk
        _ = (Nat.gcd nc nt * a) * k := by rw [← ha]
        _ = Nat.gcd nc nt * (a * k) := by ring)

/-- The affine image of the current point `v` is the target point `j` exactly when the index equation holds. -/
theorem affine_uniform_iff (agree : Bool) (cur tgt : Edge) (hc : 0 < cur.len) (ht : 0 < tgt.len)
    (nc nt v j : ℕ) (hnc : 0 < nc) (hnt : 0 < nt) :
    uniformPoint tgt nt j = affineEdge agree cur tgt (uniformPoint cur nc v) ↔
      (if agree then j * nc = v * nt else j * nc + v * nt = nt * nc) := by
  have h1 : (0 : ℝ) < nc := by exact_mod_cast hnc
  have h2 : (0 : ℝ) < nt := by exact_mod_cast hnt
  unfold uniformPoint affineEdge
  cases agree
  · simp only [Bool.false_eq_true, if_false]
    have e : (j * nc + v * nt = nt * nc) ↔ ((j : ℝ) * nc + v * nt = nt * nc) := by exact_mod_cast Iff.rfl
    rw [e]
    constructor
    · intro h
      have : tgt.len * j / nt = tgt.len - tgt.len * v / nc := by
        have e2 : (cur.min + cur.len * v / nc - cur.min) * (tgt.len / cur.len) = tgt.len * v / nc := by field_simp; ring
        rw [e2] at h; linarith
      field_simp at this
      nlinarith
    · intro h
      have e2 : (cur.min + cur.len * v / nc - cur.min) * (tgt.len / cur.len) = tgt.len * v / nc := by field_simp; ring
      rw [e2]
      have : tgt.len * j / nt = tgt.len - tgt.len * v / nc := by
        field_simp; nlinarith
      linarith
  · simp only [if_true]
    have e : (j * nc = v * nt) ↔ ((j : ℝ) * nc = v * nt) := by exact_mod_cast Iff.rfl
    rw [e]
    have e2 : (cur.min + cur.len * v / nc - cur.min) * (tgt.len / cur.len) = tgt.len * v / nc := by field_simp; ring
    rw [e2]
    constructor
    · intro h
      have : tgt.len * j / nt = tgt.len * v / nc := by linarith
      field_simp at this
      nlinarith
    · intro h
      have : tgt.len * j / nt = tgt.len * v / nc := by
        field_simp; nlinarith
      linarith

theorem searchUniform_exact (agree tp : Bool) (nc nt v : ℕ) (hnc : 0 < nc) (hnt : 0 < nt) (hv : v ≤ nc) :
    (searchUniform exactTruncDiv agree tp nc nt v = none ∧
      ∀ j, ¬ (if agree then j * nc = v * nt else j * nc + v * nt = nt * nc)) ∨
    (∃ j ≤ nt, (if agree then j * nc = v * nt else j * nc + v * nt = nt * nc) ∧
      searchUniform exactTruncDiv agree tp nc nt v = some (if tp && decide (j = nt) then 0 else j)) := by
  unfold searchUniform
  by_cases h : v % (nc / Nat.gcd nc nt) = 0
  · right
    obtain ⟨k, hk⟩ := (matchable_iff nc nt v hnc).1 h
    have hkt : exactTruncDiv v nc nt = k := by
      rw [exactTruncDiv_eq, hk]; exact Nat.mul_div_cancel_left k hnc
    have hkn : k ≤ nt := by
      have : nc * k ≤ nc * nt := by rw [← hk]; exact Nat.mul_le_mul_right _ hv
      exact Nat.le_of_mul_le_mul_left this hnc
    cases agree
    · refine ⟨nt - k, Nat.sub_le _ _, ?_, ?_⟩
      · simp only [Bool.false_eq_true, if_false]
        rw [hk, Nat.sub_mul, Nat.mul_comm nc k, Nat.sub_add_cancel (Nat.mul_le_mul_right _ hkn)]
      · simp only [h, hkt, if_true, Bool.false_eq_true, if_false]
    · refine ⟨k, hkn, ?_, ?_⟩
      · simp only [if_true]; rw [hk]; ring
      · simp only [h, hkt, if_true]
  · left
    refine ⟨by simp [h], ?_⟩
    intro j hj
    apply h
    rw [matchable_iff nc nt v hnc]
    cases agree
    · simp only [Bool.false_eq_true, if_false] at hj
      refine ⟨nt - j, ?_⟩
      rw [Nat.mul_sub]
      have : nc * nt = nc * j + v * nt := by rw [Nat.mul_comm, ← hj]; ring
      omega
    · simp only [if_true] at hj
      exact ⟨j, by rw [← hj]; ring⟩

/-- C10 (exact arithmetic): on uniform grids, the search succeeds exactly when a point of the target grid is the
image of the current point under the coordinate transformation, and then the index returned is that point. -/
theorem c10_uniform_exact (agree : Bool) (cur tgt : Edge) (hc : 0 < cur.len) (ht : 0 < tgt.len)
    (nc nt v : ℕ) (hnc : 0 < nc) (hnt : 0 < nt) (hv : v ≤ nc) :
    (∀ t, searchUniform exactTruncDiv agree tgt.periodic nc nt v = some t →
      t ≤ nt ∧ (tgt.periodic = true → t < nt) ∧
      uniformPoint tgt nt t = transformEdge agree cur tgt (uniformPoint cur nc v)) ∧
    (searchUniform exactTruncDiv agree tgt.periodic nc nt v = none ↔
      ¬ ∃ j ≤ nt, uniformPoint tgt nt j = transformEdge agree cur tgt (uniformPoint cur nc v)) := by
  have hncr : (0 : ℝ) < nc := by exact_mod_cast hnc
  have hntr : (0 : ℝ) < nt := by exact_mod_cast hnt
  have hvr : (v : ℝ) ≤ nc := by exact_mod_cast hv
  have hx1 : cur.min ≤ uniformPoint cur nc v := by
    unfold uniformPoint
    have : 0 ≤ cur.len * v / nc := by positivity
    linarith
  have hx2 : uniformPoint cur nc v ≤ cur.min + cur.len := by
    unfold uniformPoint
    have : cur.len * v / nc ≤ cur.len := by rw [div_le_iff₀ hncr]; exact mul_le_mul_of_nonneg_left hvr hc.le
    linarith
  obtain ⟨b1, b2⟩ := (affineEdge_bounds agree cur tgt hc ht).1 hx1 hx2
  set y := uniformPoint cur nc v with hy
  have hpn : uniformPoint tgt nt nt = tgt.min + tgt.len := by
    unfold uniformPoint; field_simp
  have hp0 : uniformPoint tgt nt 0 = tgt.min := by
    unfold uniformPoint; simp
  rcases searchUniform_exact agree tgt.periodic nc nt v hnc hnt hv with ⟨hs, hno⟩ | ⟨j, hj, heq, hs⟩
  · have hno' : ∀ j, uniformPoint tgt nt j ≠ affineEdge agree cur tgt y := by
      intro j h
      exact hno j ((affine_uniform_iff agree cur tgt hc ht nc nt v j hnc hnt).1 h)
    have htr : transformEdge agree cur tgt y = affineEdge agree cur tgt y := by
      apply transformEdge_inner _ _ _ _ ht b1
      intro _
      exact lt_of_le_of_ne b2 (fun h => hno' nt (hpn.trans h.symm))
    rw [hs]
    refine ⟨by simp, ?_⟩
    simp only [true_iff]
    rintro ⟨j, _, hjj⟩
    rw [htr] at hjj
    exact hno' j hjj
  · have hja := (affine_uniform_iff agree cur tgt hc ht nc nt v j hnc hnt).2 heq
    rw [← hy] at hja
    have key : ∀ t, t = (if tgt.periodic && decide (j = nt) then 0 else j) →
        t ≤ nt ∧ (tgt.periodic = true → t < nt) ∧ uniformPoint tgt nt t = transformEdge agree cur tgt y := by
      intro t htt
      by_cases hper : tgt.periodic = true ∧ j = nt
      · have : t = 0 := by rw [htt]; simp [hper.1, hper.2]
        subst this
        refine ⟨Nat.zero_le _, fun _ => hnt, ?_⟩
        rw [hp0, transformEdge_max_periodic agree cur tgt y ht hper.1]
        rw [← hja, hper.2, hpn]
      · have : t = j := by
          rw [htt]
          by_cases hp : tgt.periodic = true
          · have : j ≠ nt := fun h => hper ⟨hp, h⟩
            simp [this]
          · simp [hp]
        subst this
        have hlt : tgt.periodic = true → t < nt := fun hp => lt_of_le_of_ne hj (fun h => hper ⟨hp, h⟩)
        refine ⟨hj, hlt, ?_⟩
        rw [transformEdge_inner _ _ _ _ ht b1, hja]
        intro hp
        rw [← hja]
        unfold uniformPoint
        have h3 : (t : ℝ) < nt := by exact_mod_cast hlt hp
        have : tgt.len * t / nt < tgt.len := by rw [div_lt_iff₀ hntr]; exact mul_lt_mul_of_pos_left h3 ht
        linarith
    rw [hs]
    refine ⟨fun t htt => key t (Option.some.inj htt).symm, ?_⟩
    constructor
    · intro h; cases h
    · intro h
      exfalso
      obtain ⟨k1, _, k3⟩ := key _ rfl
      exact h ⟨_, k1, k3⟩

/-- Instance: 4 cells facing 6 cells, point 2 of the first matches point 3 of the second. -/
example : searchUniform exactTruncDiv true false 4 6 2 = some 3 ∧ searchUniform exactTruncDiv false true 4 6 0 = some 0
    ∧ searchUniform exactTruncDiv true false 4 6 1 = none := by
  refine ⟨?_, ?_, ?_⟩ <;> simp [searchUniform, exactTruncDiv_eq]

/-- C10 (finding): with binary64 divisions the same code returns a wrong index. With 1 cell facing 93 cells, the last
point of the current edge (index 1) is reported to match index 92 of the target edge instead of its last point 93. -/
theorem c10_rounding_counterexample :
    searchUniform f64TruncDiv true false 1 93 1 = some 92 ∧
    searchUniform exactTruncDiv true false 1 93 1 = some 93 := by
  refine ⟨by decide +kernel, ?_⟩
  simp [searchUniform, exactTruncDiv_eq]

/-- The binary64 model on cases where the result is right: the counterexample is not an artefact of the model. -/
example : f64TruncDiv 3 4 6 = 4 ∧ f64TruncDiv 1 1 3 = 3 ∧ f64Div 1 3 = (6004799503160661, 54) ∧
    f64Div 1 10 = (7205759403792794, 56) ∧ f64Div 2 3 = (6004799503160661, 53) := by
  decide +kernel

theorem wrapUp_spec (n : ℕ) (hn : 0 < n) (k : ℕ) : ∀ i : ℤ, -(k * n : ℤ) ≤ i →
    0 ≤ wrapUp n k i ∧ (i < 0 → wrapUp n k i < n) ∧ (0 ≤ i → wrapUp n k i = i) ∧ (n : ℤ) ∣ wrapUp n k i - i := by
  induction k with
  | zero => intro i h; simp at h; exact ⟨by simpa [wrapUp] using h, by omega, fun _ => rfl, by simp [wrapUp]⟩
  | succ k ih =>
    intro i h
    unfold wrapUp
    by_cases hi : i < 0
    · rw [if_pos hi]
      obtain ⟨a, b, c, d⟩ := ih (i + n) (by push_cast at h; linarith [h, (by ring : ((k : ℤ) + 1) * n = k * n + n)])
      refine ⟨a, fun _ => ?_, by omega, ?_⟩
      · by_cases h2 : i + n < 0
        · exact b h2
        · rw [c (by omega)]; omega
      · have : wrapUp n k (i + n) - i = (wrapUp n k (i + n) - (i + n)) + n := by ring
        rw [this]; exact dvd_add d (dvd_refl _)
    · rw [if_neg hi]
      exact ⟨by omega, by omega, fun _ => rfl, by simp⟩

theorem wrapDown_spec (n : ℕ) (hn : 0 < n) (k : ℕ) : ∀ i : ℤ, 0 ≤ i → i < (k + 1) * n →
    0 ≤ wrapDown n k i ∧ wrapDown n k i < n ∧ (n : ℤ) ∣ wrapDown n k i - i := by
  induction k with
  | zero => intro i h0 h; simp at h; exact ⟨by simpa [wrapDown] using h0, by simpa [wrapDown] using h, by simp [wrapDown]⟩
  | succ k ih =>
    intro i h0 h
    unfold wrapDown
    by_cases hi : i ≥ n
    · rw [if_pos hi]
      obtain ⟨a, b, d⟩ := ih (i - n) (by omega) (by
        push_cast at h ⊢
        linarith [(by ring : ((k : ℤ) + 1 + 1) * n = (k + 1) * n + n)])
      refine ⟨a, b, ?_⟩
      have : wrapDown n k (i - n) - i = (wrapDown n k (i - n) - (i - n)) - n := by ring
      rw [this]; exact dvd_sub d (dvd_refl _)
    · rw [if_neg hi]
      exact ⟨h0, by omega, by simp⟩

/-- C10: an index of a periodic edge at most ten periods away from the range is replaced by the equivalent index of
the range. -/
theorem c10_wrap (n : ℕ) (hn : 0 < n) (i : ℤ) (h1 : -(10 * n : ℤ) ≤ i) (h2 : i < 11 * n) :
    wrap n i = i % n := by
  obtain ⟨a, b, c, d⟩ := wrapUp_spec n hn 10 i (by exact_mod_cast h1)
  have hlt : wrapUp n 10 i < (10 + 1) * n := by
    by_cases h : i < 0
    · have := b h; linarith [(by omega : (n : ℤ) ≤ 11 * n)]
    · rw [c (by omega)]; linarith
  obtain ⟨e, f, g⟩ := wrapDown_spec n hn 10 _ a (by exact_mod_cast hlt)
  unfold wrap
  have hd : (n : ℤ) ∣ wrapDown n 10 (wrapUp n 10 i) - i := by
    have : wrapDown n 10 (wrapUp n 10 i) - i = (wrapDown n 10 (wrapUp n 10 i) - wrapUp n 10 i) + (wrapUp n 10 i - i) := by ring
    rw [this]; exact dvd_add g d
  have h4 : wrapDown n 10 (wrapUp n 10 i) % n = i % n := Int.emod_eq_emod_iff_emod_sub_eq_zero.2 (Int.emod_eq_zero_of_dvd hd)
  rw [← h4, Int.emod_eq_of_lt e f]

/-- Limit of the loops: eleven periods below the range the index is left outside the range. -/
theorem c10_wrap_limit_counterexample : wrap 4 (-44) = -4 ∧ wrap 4 44 = 4 := by decide

/-! ### C11 -/

/-- The dichotomy ends for every range with at least two points, and with a range reduced to one point it does not. -/
theorem dichotomy_terminates (e : ℕ → ℝ) (agree : Bool) (c : ℝ) (lo hi : ℕ) (h : lo < hi) :
    ∃ l, dichotomy e agree c lo hi = some (l, l + 1) ∧ lo ≤ l ∧ l + 1 ≤ hi := by
  induction lo, hi using dichotomy.induct e agree c with
  | case1 lo => exact ⟨lo, by rw [dichotomy]; simp, le_refl _, le_refl _⟩
  | case2 lo hi h1 h2 mid hc ih =>
    obtain ⟨l, a, b, d⟩ := ih (by simp only [mid]; omega)
    refine ⟨l, ?_, by simp only [mid] at b; omega, d⟩
    rw [dichotomy, if_neg h1, dif_pos h2]; simp only; rw [if_pos hc]; exact a
  | case3 lo hi h1 h2 mid hc ih =>
    obtain ⟨l, a, b, d⟩ := ih (by simp only [mid]; omega)
    refine ⟨l, ?_, b, by simp only [mid] at d; omega⟩
    rw [dichotomy, if_neg h1, dif_pos h2]; simp only; rw [if_neg hc]; exact a
  | case4 lo hi h1 h2 => omega

/-- Loop invariant of the dichotomy, for any property `P` of the lower index and `Q` of the upper index that the branch
condition establishes. -/
theorem dichotomy_invariant (e : ℕ → ℝ) (agree : Bool) (c : ℝ) (n : ℕ) (P Q : ℕ → Prop)
    (hP : ∀ m, 0 < m → m < n → ((c > e m ∧ agree = true) ∨ (c ≤ e m ∧ agree = false)) → P m)
    (hQ : ∀ m, 0 < m → m < n → ¬ ((c > e m ∧ agree = true) ∨ (c ≤ e m ∧ agree = false)) → Q m)
    (lo hi l r : ℕ) (hn : hi ≤ n) (h1 : P lo) (h2 : Q hi) (h : dichotomy e agree c lo hi = some (l, r)) :
    P l ∧ Q r := by
  induction lo, hi using dichotomy.induct e agree c with
  | case1 lo => 
    rw [dichotomy] at h; simp at h
    rw [← h.1, ← h.2]; exact ⟨h1, h2⟩
  | case2 lo hi g1 g2 mid hc ih =>
    rw [dichotomy, if_neg g1, dif_pos g2] at h; simp only at h; rw [if_pos hc] at h
    exact ih hn (hP _ (by simp only [mid]; omega) (by simp only [mid]; omega) hc) h2 h
  | case3 lo hi g1 g2 mid hc ih =>
    rw [dichotomy, if_neg g1, dif_pos g2] at h; simp only at h; rw [if_neg hc] at h
    exact ih (by simp only [mid]; omega) h1 (hQ _ (by simp only [mid]; omega) (by simp only [mid]; omega) hc) h
  | case4 lo hi g1 g2 =>
    rw [dichotomy, if_neg g1, dif_neg g2] at h; cases h

theorem affineEdge_strict (agree : Bool) (cur tgt : Edge) (hc : 0 < cur.len) (ht : 0 < tgt.len) {x y : ℝ} (h : x < y) :
    (agree = true → affineEdge agree cur tgt x < affineEdge agree cur tgt y) ∧
    (agree = false → affineEdge agree cur tgt y < affineEdge agree cur tgt x) := by
  have hr : 0 < tgt.len / cur.len := div_pos ht hc
  unfold affineEdge
  constructor <;> intro ha <;> subst ha <;> simp <;> nlinarith

/-- C11: on a strictly increasing target grid `x 0 < ... < x n` covering the target edge, if one of its points is
transformed exactly to the current coordinate `c`, then the search ends and returns an index of the grid whose
transformed coordinate is exactly `c`; on a periodic target the index is in the half-open range. -/
theorem c11_finds_match (agree : Bool) (cur tgt : Edge) (hc : 0 < cur.len) (ht : 0 < tgt.len)
    (hper : tgt.periodic = true → cur.periodic = true)
    (x : ℕ → ℝ) (n : ℕ) (hn : 0 < n) (hx : ∀ i j, i < j → j ≤ n → x i < x j)
    (hx0 : x 0 = tgt.min) (hxn : x n = tgt.min + tgt.len) (c : ℝ)
    (hm : ∃ j ≤ n, transformEdge agree tgt cur (x j) = c) :
    ∃ i, searchNonUniform agree cur tgt x n c = some i ∧ i ≤ n ∧ (tgt.periodic = true → i < n) ∧
      transformEdge agree tgt cur (x i) = c := by
  set e := fun i => transformEdge agree tgt cur (x i) with he
  set b := fun i => affineEdge agree tgt cur (x i) with hb
  have b0 : agree = true → b 0 = cur.min := by
    intro ha; simp only [hb, hx0, ha, affineEdge]; simp
  have bn : agree = true → b n = cur.min + cur.len := by
    intro ha; simp only [hb, hxn, ha, affineEdge]; simp; field_simp
  have b0' : agree = false → b 0 = cur.min + cur.len := by
    intro ha; simp only [hb, hx0, ha, affineEdge]; simp
  have bn' : agree = false → b n = cur.min := by
    intro ha; simp only [hb, hxn, ha, affineEdge]; simp; field_simp; ring
  have binc : agree = true → ∀ i j, i < j → j ≤ n → b i < b j := fun ha i j hij hj =>
    (affineEdge_strict agree tgt cur ht hc (hx i j hij hj)).1 ha
  have bdec : agree = false → ∀ i j, i < j → j ≤ n → b j < b i := fun ha i j hij hj =>
    (affineEdge_strict agree tgt cur ht hc (hx i j hij hj)).2 ha
  have einner : ∀ i, 0 < i → i < n → e i = b i := by
    intro i h0 h1
    have hi1 : tgt.min < x i := by rw [← hx0]; exact hx 0 i h0 h1.le
    have hi2 : x i < tgt.min + tgt.len := by rw [← hxn]; exact hx i n h1 le_rfl
    obtain ⟨a1, a2⟩ := (affineEdge_bounds agree tgt cur ht hc).2 hi1 hi2
    exact transformEdge_inner _ _ _ _ hc a1.le (fun _ => a2)
  have emin : ∀ i, b i = cur.min → e i = cur.min := by
    intro i hi
    have : e i = b i := transformEdge_inner _ _ _ _ hc hi.ge (fun _ => by
      show b i < _
      rw [hi]; linarith)
    rw [this, hi]
  have emaxp : ∀ i, cur.periodic = true → b i = cur.min + cur.len → e i = cur.min := fun i hp hi =>
    transformEdge_max_periodic _ _ _ _ hc hp hi
  have emax : ∀ i, cur.periodic = false → e i = b i := by
    intro i hp
    simp only [he, hb, transformEdge_eq, hp]; simp
  obtain ⟨l, hd, -, hl⟩ := dichotomy_terminates e agree c 0 n hn
  -- the main point: one of the two candidates is the match
  have key : e l = c ∨ e (if tgt.periodic && decide (l + 1 = n) then 0 else l + 1) = c := by
    obtain ⟨j, hj, hjc⟩ := hm
    change e j = c at hjc
    cases ha : agree
    · -- decreasing
      have inv := dichotomy_invariant e agree c n (fun m => m = 0 ∨ c ≤ b m) (fun m => m = n ∨ b m < c)
        (by intro m h0 h1 hc'; right; rcases hc' with h | h
            · simp [ha] at h
            · rw [← einner m h0 h1]; exact h.1)
        (by intro m h0 h1 hc'; right
            rw [← einner m h0 h1]
            by_contra hcon
            exact hc' (Or.inr ⟨not_lt.1 hcon, ha⟩))
        0 n l (l + 1) le_rfl (Or.inl rfl) (Or.inl rfl) hd
      obtain ⟨i1, i2⟩ := inv
      have caseN : c = cur.min → e l = c ∨ e (if tgt.periodic && decide (l + 1 = n) then 0 else l + 1) = c := by
        intro hcm
        have : l + 1 = n := by
          rcases i2 with h | h
          · exact h
          · exfalso
            have : cur.min ≤ b (l + 1) := by
              rw [← bn' ha]
              rcases Nat.eq_or_lt_of_le hl with h5 | h5
              · rw [h5]
              · exact (bdec ha _ _ h5 le_rfl).le
            linarith
        right
        by_cases htp : tgt.periodic = true
        · simp only [htp, this, decide_true, Bool.and_self, if_true]
          rw [hcm]; exact emaxp 0 (hper htp) (b0' ha)
        · have htp' : tgt.periodic = false := by simpa using htp
          simp only [htp', Bool.false_and, Bool.false_eq_true, if_false, this]
          rw [hcm]; exact emin n (bn' ha)
      rcases Nat.eq_zero_or_pos j with hj0 | hj0
      · cases hcp : cur.periodic
        · have : c = b 0 := by rw [← hjc, hj0, emax 0 hcp]
          have hl0 : l = 0 := by
            rcases i1 with h | h
            · exact h
            · by_contra hne
              have := bdec ha 0 l (Nat.pos_of_ne_zero hne) (by omega)
              linarith
          left; rw [hl0, emax 0 hcp, this]
        · exact caseN (by rw [← hjc, hj0]; exact emaxp 0 hcp (b0' ha))
      · rcases Nat.eq_or_lt_of_le hj with hjn | hjn
        · exact caseN (by rw [← hjc, hjn]; exact emin n (bn' ha))
        · have hcb : c = b j := by rw [← hjc, einner j hj0 hjn]
          have h3 : l ≤ j := by
            rcases i1 with h | h
            · omega
            · by_contra hcon
              have := bdec ha j l (by omega) (by omega)
              linarith
          have h4 : j ≤ l := by
            rcases i2 with h | h
            · omega
            · by_contra hcon
              rcases Nat.eq_or_lt_of_le (show l + 1 ≤ j by omega) with h5 | h5
              · rw [h5] at h; linarith
              · have := bdec ha (l + 1) j h5 (by omega)
                linarith
          left; rw [show l = j by omega]; exact hjc
    · -- increasing
      have inv := dichotomy_invariant e agree c n (fun m => m = 0 ∨ b m < c) (fun m => m = n ∨ c ≤ b m)
        (by intro m h0 h1 hc'; right; rcases hc' with h | h
            · rw [← einner m h0 h1]; exact h.1
            · simp [ha] at h)
        (by intro m h0 h1 hc'; right
            rw [← einner m h0 h1]
            by_contra hcon
            exact hc' (Or.inl ⟨not_le.1 hcon, ha⟩))
        0 n l (l + 1) le_rfl (Or.inl rfl) (Or.inl rfl) hd
      obtain ⟨i1, i2⟩ := inv
      have case0 : c = cur.min → e l = c ∨ e (if tgt.periodic && decide (l + 1 = n) then 0 else l + 1) = c := by
        intro hcm
        have : l = 0 := by
          rcases i1 with h | h
          · exact h
          · by_contra hne
            have := binc ha 0 l (Nat.pos_of_ne_zero hne) (by omega)
            rw [b0 ha] at this
            linarith
        left; rw [this, hcm]; exact emin 0 (b0 ha)
      rcases Nat.eq_zero_or_pos j with hj0 | hj0
      · exact case0 (by rw [← hjc, hj0]; exact emin 0 (b0 ha))
      · rcases Nat.eq_or_lt_of_le hj with hjn | hjn
        · cases hcp : cur.periodic
          · have hcb : c = b n := by rw [← hjc, hjn, emax n hcp]
            have hln : l + 1 = n := by
              rcases i2 with h | h
              · exact h
              · by_contra hne
                have := binc ha (l + 1) n (by omega) le_rfl
                linarith
            have htp : tgt.periodic = false := by
              cases h : tgt.periodic
              · rfl
              · rw [hper h] at hcp; cases hcp
            right
            simp only [htp, Bool.false_and, Bool.false_eq_true, if_false, hln]
            rw [emax n hcp, hcb]
          · exact case0 (by rw [← hjc, hjn]; exact emaxp n hcp (bn ha))
        · have hcb : c = b j := by rw [← hjc, einner j hj0 hjn]
          have h3 : l < j := by
            rcases i1 with h | h
            · omega
            · by_contra hcon
              rcases Nat.eq_or_lt_of_le (show j ≤ l by omega) with h5 | h5
              · rw [← h5] at h; linarith
              · have := binc ha j l h5 (by omega)
                linarith
          have h4 : j ≤ l + 1 := by
            rcases i2 with h | h
            · omega
            · by_contra hcon
              have := binc ha (l + 1) j (by omega) (by omega)
              linarith
          have hjl : j = l + 1 := by omega
          right
          rw [if_neg (by simp; omega), ← hjl]; exact hjc
  -- conclusion
  set hi' := (if tgt.periodic && decide (l + 1 = n) then 0 else l + 1) with hhi
  have hhi_le : hi' ≤ n ∧ (tgt.periodic = true → hi' < n) := by
    rw [hhi]
    by_cases htp : tgt.periodic = true
    · by_cases hln : l + 1 = n
      · simp [htp, hln]; omega
      · simp [htp, hln]; omega
    · simp [htp]; omega
  obtain ⟨i, hi1, hi2, hi3, hi4⟩ : ∃ i, getTargetIdx agree cur tgt x n c = some i ∧ i ≤ n ∧ (tgt.periodic = true → i < n) ∧ e i = c := by
    unfold getTargetIdx
    simp only
    rw [hd]
    simp only
    by_cases hlt : |c - e l| < |c - e hi'|
    · refine ⟨l, ?_, by omega, fun _ => by omega, ?_⟩
      · rw [if_pos hlt]
      · rcases key with h | h
        · exact h
        · rw [h] at hlt; simp at hlt; exact absurd hlt (not_lt.2 (abs_nonneg _))
    · refine ⟨hi', ?_, hhi_le.1, hhi_le.2, ?_⟩
      · rw [if_neg hlt]
      · rcases key with h | h
        · rw [h] at hlt; simp at hlt
          have := sub_eq_zero.1 hlt; exact this.symm
        · exact h
  refine ⟨i, ?_, hi2, hi3, hi4⟩
  unfold searchNonUniform
  rw [hi1]
  change (if |c - e i| < _ then _ else _) = _
  rw [hi4, if_pos (by simp)]

/-- C11: whatever the grid, an index returned by the search is a point whose transformed coordinate is within the
tolerance of the current coordinate. -/
theorem c11_sound (agree : Bool) (cur tgt : Edge) (x : ℕ → ℝ) (n : ℕ) (c : ℝ) (i : ℕ)
    (h : searchNonUniform agree cur tgt x n c = some i) :
    i ≤ n ∧ |c - transformEdge agree tgt cur (x i)| < 1 / 10 ^ 14 := by
  unfold searchNonUniform at h
  cases hg : getTargetIdx agree cur tgt x n c with
  | none => rw [hg] at h; cases h
  | some k =>
    rw [hg] at h
    simp only at h
    split at h
    · rename_i hk
      have : k = i := Option.some.inj h
      subst this
      refine ⟨?_, hk⟩
      unfold getTargetIdx at hg
      simp only at hg
      cases hd : dichotomy (fun i => transformEdge agree tgt cur (x i)) agree c 0 n with
      | none => rw [hd] at hg; cases hg
      | some p =>
        obtain ⟨l, r⟩ := p
        rw [hd] at hg
        simp only at hg
        have hn : 0 < n := by
          by_contra h0
          rw [dichotomy, if_neg (by omega), dif_neg (by omega)] at hd; cases hd
        obtain ⟨l', h1, h2, h3⟩ := dichotomy_terminates _ agree c 0 n hn
        rw [h1] at hd
        simp at hd
        have hh := Option.some.inj hg
        rw [← hh]
        split_ifs <;> omega
    · cases h

/-- C11 (finding): on an edge whose index range holds a single point (zero cells) the loop never ends. -/
theorem c11_single_point_diverges (agree : Bool) (cur tgt : Edge) (x : ℕ → ℝ) (c : ℝ) :
    getTargetIdx agree cur tgt x 0 c = none := by
  unfold getTargetIdx
  simp only
  rw [dichotomy]
  simp

/-- Instance of `c11_finds_match`: the grid `0, 1, 4` facing the edge `[0, 2]` with opposite orientation; the
coordinate `3/2` is the image of the point `1`. -/
example : ∃ i, searchNonUniform false ⟨0, 2, false⟩ ⟨0, 4, false⟩ (fun i => (i : ℝ) ^ 2) 2 (3 / 2) = some i ∧ i ≤ 2 ∧
    ((⟨0, 4, false⟩ : Edge).periodic = true → i < 2) ∧ transformEdge false ⟨0, 4, false⟩ ⟨0, 2, false⟩ ((i : ℝ) ^ 2) = 3 / 2 := by
  apply c11_finds_match
  · norm_num
  · norm_num
  · simp
  · norm_num
  · intro i j hij _
    have : (i : ℝ) < j := by exact_mod_cast hij
    have : (0 : ℝ) ≤ i := by positivity
    gcongr
  · norm_num
  · norm_num
  · refine ⟨1, by norm_num, ?_⟩
    simp [transformEdge]; norm_num

end Verif.EdgeTransform
