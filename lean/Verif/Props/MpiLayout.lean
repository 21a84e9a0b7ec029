import Verif.Model.MpiLayout
import Verif.Props.Layout
import Verif.Props.Transpose
import Mathlib.Data.Nat.GCD.Basic

/-! Properties C01 and C02: `MPILayout::distribute_idx_range`. -/

namespace Verif.MpiLayout
open Verif.Layout

variable {τ : Type*} [DecidableEq τ]

/-- (proof device) the grid of ranks: the number of ranks along each dimension. -/
def grid (D : List τ) : IdxRange τ → ℕ → IdxRange τ
  | [], _ => []
  | d :: R, P =>
    if d.tag ∈ D then ⟨d.tag, 0, Nat.gcd P d.size⟩ :: grid D R (P / Nat.gcd P d.size)
    else ⟨d.tag, 0, 1⟩ :: grid D R P

/-- (proof device) the local range of the process at position `m` of the grid of ranks. -/
def localOf (D : List τ) : IdxRange τ → ℕ → (τ → ℕ) → IdxRange τ
  | [], _, _ => []
  | d :: R, P, m =>
    if d.tag ∈ D then
      ⟨d.tag, d.front + m d.tag * (d.size / Nat.gcd P d.size), d.size / Nat.gcd P d.size⟩ ::
        localOf D R (P / Nat.gcd P d.size) m
    else d :: localOf D R P m

theorem distribSize_cons (D : List τ) (d : Dim τ) (R : IdxRange τ) :
    distribSize D (d :: R) = (if d.tag ∈ D then d.size else 1) * distribSize D R := by
  unfold distribSize
  by_cases h : d.tag ∈ D <;> simp [h]

/-- The arithmetic fact that makes the nested divisibility test redundant. -/
theorem dvd_rest {P n m : ℕ} (hP : 0 < P) (h : P ∣ n * m) : P / Nat.gcd P n ∣ m := by
  have hg : 0 < Nat.gcd P n := Nat.gcd_pos_of_pos_left _ hP
  have hc : Nat.Coprime (P / Nat.gcd P n) (n / Nat.gcd P n) := Nat.coprime_div_gcd_div_gcd hg
  apply hc.dvd_of_dvd_mul_left
  have h1 : P / Nat.gcd P n * Nat.gcd P n ∣ n / Nat.gcd P n * m * Nat.gcd P n := by
    rw [Nat.div_mul_cancel (Nat.gcd_dvd_left _ _)]
    calc P ∣ n * m := h
      _ = n / Nat.gcd P n * Nat.gcd P n * m := by rw [Nat.div_mul_cancel (Nat.gcd_dvd_right _ _)]
      _ = _ := by ring
  exact Nat.dvd_of_mul_dvd_mul_right hg h1

theorem size_grid (D : List τ) (R : IdxRange τ) (P : ℕ) (hP : 0 < P) (h : P ∣ distribSize D R) :
    size (grid D R P) = P := by
  induction R generalizing P with
  | nil =>
    have : P = 1 := Nat.dvd_one.1 (by simpa [distribSize] using h)
    simp [grid, this]
  | cons d R ih =>
    rw [distribSize_cons] at h
    unfold grid
    split_ifs at h ⊢ with hd
    · have hg : 0 < Nat.gcd P d.size := Nat.gcd_pos_of_pos_left _ hP
      have hpos : 0 < P / Nat.gcd P d.size := Nat.div_pos (Nat.le_of_dvd hP (Nat.gcd_dvd_left _ _)) hg
      rw [size_cons, ih _ hpos (dvd_rest hP h)]
      exact Nat.mul_div_cancel' (Nat.gcd_dvd_left _ _)
    · rw [one_mul] at h
      rw [size_cons, ih P hP h]; simp

theorem tags_grid (D : List τ) (R : IdxRange τ) (P : ℕ) : tags (grid D R P) = tags R := by
  induction R generalizing P with
  | nil => rfl
  | cons d R ih =>
    unfold grid
    split_ifs <;> simp [tags] at ih ⊢ <;> exact ih _

theorem tags_localOf (D : List τ) (R : IdxRange τ) (P : ℕ) (m : τ → ℕ) : tags (localOf D R P m) = tags R := by
  induction R generalizing P with
  | nil => rfl
  | cons d R ih =>
    unfold localOf
    split_ifs <;> simp [tags] at ih ⊢ <;> exact ih _

theorem sizes_localOf (D : List τ) (R : IdxRange τ) (P : ℕ) (m m' : τ → ℕ) :
    (localOf D R P m).map Dim.size = (localOf D R P m').map Dim.size := by
  induction R generalizing P with
  | nil => rfl
  | cons d R ih =>
    unfold localOf
    split_ifs <;> simp <;> exact ih _

theorem whole_localOf (D : List τ) (R : IdxRange τ) (P : ℕ) (m : τ → ℕ) (d : Dim τ) (hd : d ∈ R) (hD : d.tag ∉ D) :
    d ∈ localOf D R P m := by
  induction R generalizing P with
  | nil => simp at hd
  | cons e R ih =>
    unfold localOf
    rcases List.mem_cons.1 hd with rfl | hd
    · simp [hD]
    · split_ifs <;> simp [ih _ hd]

/-- The recursion of `internal_distribute_idx_range` computes the local range of the grid position of the rank. -/
theorem internal_eq (D : List τ) (R : IdxRange τ) (hR : R ≠ []) (P : ℕ) (hP : 0 < P)
    (h : P ∣ distribSize D R) (m : τ → ℕ) (hm : InBox (grid D R P) m) :
    internalDistribute D R P (offset (grid D R P) m) = .ok (localOf D R P m) := by
  induction R generalizing P with
  | nil => exact absurd rfl hR
  | cons d R ih =>
    cases R with
    | nil =>
      rw [distribSize_cons] at h
      unfold internalDistribute grid localOf
      split_ifs at h ⊢ with hd h1
      · exfalso; apply h1
        exact Nat.mod_eq_zero_of_dvd (by simpa [distribSize] using h)
      · have hdv : P ∣ d.size := by simpa [distribSize] using h
        simp [grid, offset, localOf, Nat.gcd_eq_left hdv]
      · simp [localOf]
      · exfalso
        rename_i h2
        exact h2 (Nat.dvd_one.1 (by simpa [distribSize] using h))
    | cons d' R =>
      rw [distribSize_cons] at h
      unfold internalDistribute
      by_cases hd : d.tag ∈ D
      · have hg : 0 < Nat.gcd P d.size := Nat.gcd_pos_of_pos_left _ hP
        have hpos : 0 < P / Nat.gcd P d.size := Nat.div_pos (Nat.le_of_dvd hP (Nat.gcd_dvd_left _ _)) hg
        simp only [hd, if_true] at h
        have hdv := dvd_rest hP h
        have hG : grid D (d :: d' :: R) P
            = ⟨d.tag, 0, Nat.gcd P d.size⟩ :: grid D (d' :: R) (P / Nat.gcd P d.size) := by
          rw [grid]; simp [hd]
        have hL : localOf D (d :: d' :: R) P m
            = ⟨d.tag, d.front + m d.tag * (d.size / Nat.gcd P d.size), d.size / Nat.gcd P d.size⟩ ::
              localOf D (d' :: R) (P / Nat.gcd P d.size) m := by
          rw [localOf]; simp [hd]
        rw [hG] at hm ⊢
        rw [hL]
        rw [inBox_cons] at hm
        have ih := ih (by simp) _ hpos hdv hm.2
        have hlt := offset_lt _ _ hm.2
        have hs := size_grid D (d' :: R) _ hpos hdv
        rw [hs] at hlt
        simp only [hd, if_true, offset, hs, Nat.sub_zero]
        have e1 : (m d.tag * (P / Nat.gcd P d.size) + offset (grid D (d' :: R) (P / Nat.gcd P d.size)) m)
            / (P / Nat.gcd P d.size) = m d.tag := by
          rw [mul_comm, Nat.mul_add_div hpos, Nat.div_eq_of_lt hlt]; rfl
        have e2 : (m d.tag * (P / Nat.gcd P d.size) + offset (grid D (d' :: R) (P / Nat.gcd P d.size)) m)
            % (P / Nat.gcd P d.size) = offset (grid D (d' :: R) (P / Nat.gcd P d.size)) m := by
          rw [mul_comm, Nat.mul_add_mod, Nat.mod_eq_of_lt hlt]
        rw [e1, e2, ih]
      · simp only [hd, if_false, one_mul] at h
        have hG : grid D (d :: d' :: R) P = ⟨d.tag, 0, 1⟩ :: grid D (d' :: R) P := by
          rw [grid]; simp [hd]
        have hL : localOf D (d :: d' :: R) P m = d :: localOf D (d' :: R) P m := by
          rw [localOf]; simp [hd]
        rw [hG] at hm ⊢
        rw [hL]
        rw [inBox_cons] at hm
        have ih := ih (by simp) _ hP h hm.2
        have h0 : m d.tag = 0 := by have := hm.1.2; simp at this; exact this
        simp only [hd, if_false, offset, h0, Nat.sub_zero, zero_mul, zero_add]
        rw [ih]

/-- A point of the global range is in the local range at grid position `m` exactly when `m` is its block number. -/
theorem mem_localOf (D : List τ) (R : IdxRange τ) (hnd : (tags R).Nodup) (P : ℕ) (hP : 0 < P)
    (h : P ∣ distribSize D R) (x : τ → ℕ) (hx : InBox R x) :
    ∃ m, InBox (grid D R P) m ∧ InBox (localOf D R P m) x ∧
      ∀ m', InBox (grid D R P) m' → InBox (localOf D R P m') x → ∀ d ∈ R, m' d.tag = m d.tag := by
  induction R generalizing P with
  | nil => exact ⟨fun _ => 0, by simp [grid, InBox], by simp [localOf, InBox], by simp⟩
  | cons d R ih =>
    have hn : d.tag ∉ tags R ∧ (tags R).Nodup := by simpa [tags] using hnd
    rw [distribSize_cons] at h
    rw [inBox_cons] at hx
    by_cases hd : d.tag ∈ D
    · have hg : 0 < Nat.gcd P d.size := Nat.gcd_pos_of_pos_left _ hP
      have hpos : 0 < P / Nat.gcd P d.size := Nat.div_pos (Nat.le_of_dvd hP (Nat.gcd_dvd_left _ _)) hg
      simp only [hd, if_true] at h
      obtain ⟨m, hm1, hm2, hm3⟩ := ih hn.2 _ hpos (dvd_rest hP h) hx.2
      set g := Nat.gcd P d.size with hgdef
      set e := d.size / g with he
      have hge : g * e = d.size := Nat.mul_div_cancel' (Nat.gcd_dvd_right _ _)
      have hrel : x d.tag - d.front < g * e := by rw [hge]; omega
      have hepos : 0 < e := by
        rcases Nat.eq_zero_or_pos e with h0 | h0
        · rw [h0] at hrel; simp at hrel
        · exact h0
      have hq : (x d.tag - d.front) / e < g := (Nat.div_lt_iff_lt_mul hepos).2 hrel
      let m1 := Function.update m d.tag ((x d.tag - d.front) / e)
      have hag : ∀ f ∈ R, m1 f.tag = m f.tag := by
        intro f hf
        have hne : f.tag ≠ d.tag := by
          intro h
          exact hn.1 (by rw [← h]; exact List.mem_map_of_mem hf)
        simp [m1, Function.update_of_ne hne]
      have hloc : ∀ (R' : IdxRange τ) (P' : ℕ) (a b : τ → ℕ), (∀ f ∈ R', a f.tag = b f.tag) →
          localOf D R' P' a = localOf D R' P' b := by
        intro R'
        induction R' with
        | nil => intros; rfl
        | cons f R' ih' =>
          intro P' a b hab
          unfold localOf
          rw [hab f (by simp), ih' _ a b fun k hk => hab k (by simp [hk]), ih' _ a b fun k hk => hab k (by simp [hk])]
      have hG : grid D (d :: R) P = ⟨d.tag, 0, g⟩ :: grid D R (P / g) := by rw [grid]; simp [hd, hgdef]
      have hL : ∀ k, localOf D (d :: R) P k = ⟨d.tag, d.front + k d.tag * e, e⟩ :: localOf D R (P / g) k := by
        intro k; rw [localOf]; simp [hd, he, hgdef]
      have hdm := Nat.div_add_mod (x d.tag - d.front) e
      have hml := Nat.mod_lt (x d.tag - d.front) hepos
      refine ⟨m1, ?_, ?_, ?_⟩
      · rw [hG, inBox_cons]
        refine ⟨by simp [m1]; exact hq, ?_⟩
        intro f hf
        have hft : f.tag ∈ tags R := by rw [← tags_grid D R (P / g)]; exact List.mem_map_of_mem hf
        obtain ⟨f', hf', hff'⟩ := List.mem_map.1 hft
        rw [← hff', hag f' hf', hff']
        exact hm1 f hf
      · rw [hL, inBox_cons, hloc R _ m1 m hag]
        refine ⟨?_, hm2⟩
        simp only [m1, Function.update_self]
        rw [mul_comm]
        constructor
        · have := hx.1.1; omega
        · have := hx.1.1; omega
      · intro m' hm' hx' f hf
        rw [hG, inBox_cons] at hm'
        rw [hL, inBox_cons] at hx'
        rcases List.mem_cons.1 hf with rfl | hf
        · simp only [m1, Function.update_self]
          have h1 := hx'.1.1
          have h2 := hx'.1.2
          simp only at h1 h2
          symm
          apply Nat.div_eq_of_lt_le
          · omega
          · have : (m' f.tag + 1) * e = m' f.tag * e + e := by ring
            omega
        · rw [hag f hf]
          exact hm3 m' hm'.2 hx'.2 f hf
    · simp only [hd, if_false, one_mul] at h
      obtain ⟨m, hm1, hm2, hm3⟩ := ih hn.2 _ hP h hx.2
      let m1 := Function.update m d.tag 0
      have hag : ∀ f ∈ R, m1 f.tag = m f.tag := by
        intro f hf
        have hne : f.tag ≠ d.tag := by
          intro h
          exact hn.1 (by rw [← h]; exact List.mem_map_of_mem hf)
        simp [m1, Function.update_of_ne hne]
      have hloc : ∀ (R' : IdxRange τ) (P' : ℕ) (a b : τ → ℕ), (∀ f ∈ R', a f.tag = b f.tag) →
          localOf D R' P' a = localOf D R' P' b := by
        intro R'
        induction R' with
        | nil => intros; rfl
        | cons f R' ih' =>
          intro P' a b hab
          unfold localOf
          rw [hab f (by simp), ih' _ a b fun k hk => hab k (by simp [hk]), ih' _ a b fun k hk => hab k (by simp [hk])]
      have hG : grid D (d :: R) P = ⟨d.tag, 0, 1⟩ :: grid D R P := by rw [grid]; simp [hd]
      have hL : ∀ k, localOf D (d :: R) P k = d :: localOf D R P k := by
        intro k; rw [localOf]; simp [hd]
      refine ⟨m1, ?_, ?_, ?_⟩
      · rw [hG, inBox_cons]
        refine ⟨by simp [m1], ?_⟩
        intro f hf
        have hft : f.tag ∈ tags R := by rw [← tags_grid D R P]; exact List.mem_map_of_mem hf
        obtain ⟨f', hf', hff'⟩ := List.mem_map.1 hft
        rw [← hff', hag f' hf', hff']
        exact hm1 f hf
      · rw [hL, inBox_cons, hloc R _ m1 m hag]
        exact ⟨hx.1, hm2⟩
      · intro m' hm' hx' f hf
        rw [hG, inBox_cons] at hm'
        rw [hL, inBox_cons] at hx'
        rcases List.mem_cons.1 hf with rfl | hf
        · have := hm'.1.2
          simp at this
          simp [m1, this]
        · rw [hag f hf]
          exact hm3 m' hm'.2 hx'.2 f hf

theorem localOf_subset (D : List τ) (R : IdxRange τ) (P : ℕ) (m : τ → ℕ) (hm : InBox (grid D R P) m)
    (x : τ → ℕ) (hx : InBox (localOf D R P m) x) : InBox R x := by
  induction R generalizing P with
  | nil => simp [InBox]
  | cons d R ih =>
    by_cases hd : d.tag ∈ D
    · rw [grid, if_pos hd, inBox_cons] at hm
      rw [localOf, if_pos hd, inBox_cons] at hx
      rw [inBox_cons]
      refine ⟨?_, ih _ hm.2 hx.2⟩
      have h1 := hx.1.1
      have h2 := hx.1.2
      have h3 := hm.1.2
      simp only [zero_add] at h1 h2 h3
      have hge : Nat.gcd P d.size * (d.size / Nat.gcd P d.size) = d.size :=
        Nat.mul_div_cancel' (Nat.gcd_dvd_right _ _)
      have : (m d.tag + 1) * (d.size / Nat.gcd P d.size) ≤ d.size := by
        calc _ ≤ Nat.gcd P d.size * (d.size / Nat.gcd P d.size) := Nat.mul_le_mul_right _ h3
          _ = _ := hge
      rw [Nat.add_mul, one_mul] at this
      constructor
      · exact le_trans (Nat.le_add_right _ _) h1
      · omega
    · rw [grid, if_neg hd, inBox_cons] at hm
      rw [localOf, if_neg hd, inBox_cons] at hx
      rw [inBox_cons]
      exact ⟨hx.1, ih _ hm.2 hx.2⟩

/-- The position in the grid of ranks of each rank exists and determines the local range. -/
theorem distribute_eq (D : List τ) (R : IdxRange τ) (hR : R ≠ []) (hnd : (tags R).Nodup) (P : ℕ) (hP : 0 < P)
    (h : P ∣ distribSize D R) (r : ℕ) (hr : r < P) :
    ∃ m, InBox (grid D R P) m ∧ offset (grid D R P) m = r ∧ distribute D R P r = .ok (localOf D R P m) := by
  have hs := size_grid D R P hP h
  obtain ⟨m, hm, hmr⟩ := Transpose.exists_offset (grid D R P) (by rw [tags_grid]; exact hnd) r (by rw [hs]; exact hr)
  refine ⟨m, hm, hmr, ?_⟩
  unfold distribute
  rw [if_neg (by simp [Nat.mod_eq_zero_of_dvd h]), ← hmr]
  exact internal_eq D R hR P hP h m hm

/-- C01: if the communicator size `P` divides the number of points of the distributed dimensions, every rank gets a
local range, every global multi-index belongs to exactly one rank, local ranges are inside the global range, all ranks
have the same extents, and dimensions that are not distributed are left whole. -/
theorem c01_partition (D : List τ) (R : IdxRange τ) (hR : R ≠ []) (hnd : (tags R).Nodup) (P : ℕ) (hP : 0 < P)
    (hdiv : P ∣ ((R.filter (fun d => d.tag ∈ D)).map Dim.size).prod) :
    ∃ loc : ℕ → IdxRange τ,
      (∀ r < P, distribute D R P r = .ok (loc r)) ∧
      (∀ x, InBox R x → ∃! r, r < P ∧ InBox (loc r) x) ∧
      (∀ r < P, ∀ x, InBox (loc r) x → InBox R x) ∧
      (∀ r < P, tags (loc r) = tags R ∧ (loc r).map Dim.size = (loc 0).map Dim.size) ∧
      (∀ r < P, ∀ d ∈ R, d.tag ∉ D → d ∈ loc r) := by
  classical
  choose! m hm hmr hd using fun r hr => distribute_eq D R hR hnd P hP hdiv r hr
  have hs := size_grid D R P hP hdiv
  have hloc : ∀ (R' : IdxRange τ) (P' : ℕ) (a b : τ → ℕ), (∀ f ∈ R', a f.tag = b f.tag) →
      localOf D R' P' a = localOf D R' P' b := by
    intro R'
    induction R' with
    | nil => intros; rfl
    | cons f R' ih' =>
      intro P' a b hab
      unfold localOf
      rw [hab f (by simp), ih' _ a b fun k hk => hab k (by simp [hk]), ih' _ a b fun k hk => hab k (by simp [hk])]
  have htag : ∀ a b : τ → ℕ, (∀ d ∈ grid D R P, a d.tag = b d.tag) → ∀ d ∈ R, a d.tag = b d.tag := by
    intro a b hab d hd
    have : d.tag ∈ tags (grid D R P) := by rw [tags_grid]; exact List.mem_map_of_mem hd
    obtain ⟨e, he, hed⟩ := List.mem_map.1 this
    rw [← hed]; exact hab e he
  have htag' : ∀ a b : τ → ℕ, (∀ d ∈ R, a d.tag = b d.tag) → ∀ d ∈ grid D R P, a d.tag = b d.tag := by
    intro a b hab d hd
    have : d.tag ∈ tags R := by rw [← tags_grid D R P]; exact List.mem_map_of_mem hd
    obtain ⟨e, he, hed⟩ := List.mem_map.1 this
    rw [← hed]; exact hab e he
  refine ⟨fun r => localOf D R P (m r), hd, ?_, ?_, ?_, ?_⟩
  · intro x hx
    obtain ⟨m0, h1, h2, h3⟩ := mem_localOf D R hnd P hP hdiv x hx
    have hlt : offset (grid D R P) m0 < P := by have := offset_lt _ _ h1; omega
    refine ⟨offset (grid D R P) m0, ⟨hlt, ?_⟩, ?_⟩
    · have := offset_inj _ _ _ (hm _ hlt) h1 (hmr _ hlt)
      change InBox (localOf D R P (m _)) x
      rw [hloc R P _ m0 (htag _ _ this)]
      exact h2
    · rintro r ⟨hr, hrx⟩
      have := h3 (m r) (hm r hr) hrx
      rw [← hmr r hr]
      exact offset_congr _ _ _ (htag' _ _ this)
  · intro r hr x hx
    exact localOf_subset D R P (m r) (hm r hr) x hx
  · intro r _
    exact ⟨tags_localOf D R P _, sizes_localOf D R P _ _⟩
  · intro r _ d hdR hdD
    exact whole_localOf D R P _ d hdR hdD

/-- C02: the distribution raises an error exactly when the communicator size does not divide the number of points of the
distributed dimensions, and then it is the error of the outer test: the nested test and the assertion never fire. -/
theorem c02_error_iff (D : List τ) (R : IdxRange τ) (hR : R ≠ []) (hnd : (tags R).Nodup) (P : ℕ) (hP : 0 < P)
    (r : ℕ) (hr : r < P) :
    ((∃ e, distribute D R P r = .error e) ↔ ¬ P ∣ ((R.filter (fun d => d.tag ∈ D)).map Dim.size).prod) ∧
    distribute D R P r ≠ .error .nestedNotDivisible ∧ distribute D R P r ≠ .error .assertion := by
  rw [show ((R.filter (fun d => d.tag ∈ D)).map Dim.size).prod = distribSize D R from rfl]
  by_cases h : P ∣ distribSize D R
  · obtain ⟨m, _, _, hd⟩ := distribute_eq D R hR hnd P hP h r hr
    simp [hd, h]
  · have : distribute D R P r = .error .notDivisible := by
      unfold distribute
      rw [if_pos]
      intro h0
      exact h (Nat.dvd_of_mod_eq_zero h0)
    simp [this, h]

/-- Non-vacuity: 12 ranks over extents 4 (distributed), 5 (whole), 9 (distributed), fronts 10, 0, 3. The first dimension takes
4 ranks and the last one 3. -/
example : 12 ∣ distribSize [0, 2] [⟨0, 10, 4⟩, ⟨1, 0, 5⟩, ⟨2, 3, 9⟩] ∧
    distribute [0, 2] [⟨0, 10, 4⟩, ⟨1, 0, 5⟩, ⟨2, 3, 9⟩] 12 7 = .ok [⟨0, 12, 1⟩, ⟨1, 0, 5⟩, ⟨2, 6, 3⟩] := by
  decide

/-- Non-vacuity of the error branch. -/
example : distribute [0, 2] [⟨0, 10, 4⟩, ⟨1, 0, 5⟩, ⟨2, 3, 9⟩] 5 1 = .error .notDivisible := by decide

end Verif.MpiLayout
