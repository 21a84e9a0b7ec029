import Verif.Model.LagrangeEvaluator
import Verif.Props.Lagrange

/-! # C19: the Lagrange evaluator picks a valid stencil and interpolates -/

namespace Verif.LagrangeEvaluator

open Verif.Lagrange Polynomial

/-- Specification of the knot the stencil is built around: the nearest break point for an even degree, the left end of the
cell containing `x` for an odd degree. -/
def Bracket (D Nl : ℕ) (knot : ℕ → ℝ) (x : ℝ) (c : ℕ) : Prop :=
  c ≤ Nl ∧
  (D % 2 = 1 → knot c ≤ x ∧ ∀ k ≤ Nl, c < k → x ≤ knot k) ∧
  (D % 2 = 0 → ∀ k ≤ Nl, |x - knot c| ≤ |x - knot k|)

/-- Strictly increasing knots up to index `top`. -/
def Increasing (top : ℕ) (knot : ℕ → ℝ) : Prop := ∀ i j, i < j → j ≤ top → knot i < knot j

theorem Increasing.le {top : ℕ} {knot : ℕ → ℝ} (h : Increasing top knot) {i j : ℕ} (hij : i ≤ j) (hj : j ≤ top) :
    knot i ≤ knot j := by
  rcases Nat.eq_or_lt_of_le hij with rfl | hlt
  · exact le_rfl
  · exact (h i j hlt hj).le

theorem increasing_uniform (top : ℕ) (x0 dx : ℝ) (hdx : 0 < dx) : Increasing top (uniformNodes x0 dx) := by
  intro i j hij _
  have : (i : ℝ) < j := by exact_mod_cast hij
  simp only [uniformNodes]
  nlinarith

/-! ## getclosest -/

theorem c19_closest_uniform (D Nl : ℕ) (x0 dx x : ℝ) (hdx : 0 < dx)
    (h0 : uniformNodes x0 dx 0 ≤ x) (h1 : x ≤ uniformNodes x0 dx Nl) :
    Bracket D Nl (uniformNodes x0 dx) x (getclosestU D x0 dx x) := by
  simp only [uniformNodes] at h0 h1
  simp at h0
  set o := (x - x0) / dx with ho
  have hx : x = x0 + o * dx := by rw [ho]; field_simp; ring
  have ho0 : 0 ≤ o := div_nonneg (by linarith) hdx.le
  have hoN : o ≤ Nl := by rw [ho, div_le_iff₀ hdx]; linarith
  unfold getclosestU Bracket
  rcases Nat.mod_two_eq_zero_or_one D with hD | hD
  · rw [if_pos hD]
    simp only [hD, one_ne_zero, false_imp_iff, zero_ne_one, true_and, forall_true_left]
    have hfl := Nat.floor_le (show (0 : ℝ) ≤ o + 1 / 2 by linarith)
    have hfl2 := Nat.lt_floor_add_one (o + 1 / 2)
    set c := ⌊o + 1 / 2⌋₊
    refine ⟨?_, ?_⟩
    · by_contra hcon
      have : (Nl : ℝ) + 1 ≤ c := by exact_mod_cast not_le.1 hcon
      linarith
    · intro k _
      simp only [uniformNodes]
      rw [hx, show x0 + o * dx - (x0 + c * dx) = (o - c) * dx by ring,
        show x0 + o * dx - (x0 + k * dx) = (o - k) * dx by ring, abs_mul, abs_mul]
      apply mul_le_mul_of_nonneg_right _ (abs_nonneg _)
      rcases lt_trichotomy k c with hk | hk | hk
      · have : (k : ℝ) + 1 ≤ c := by exact_mod_cast hk
        rw [abs_le]; constructor <;> linarith [le_abs_self (o - k)]
      · rw [hk]
      · have : (c : ℝ) + 1 ≤ k := by exact_mod_cast hk
        rw [abs_le]; constructor <;> linarith [neg_abs_le (o - k)]
  · rw [if_neg (by omega)]
    simp only [hD, one_ne_zero, false_imp_iff, and_true, forall_true_left]
    have hfl := Nat.floor_le ho0
    have hfl2 := Nat.lt_floor_add_one o
    set c := ⌊o⌋₊
    refine ⟨?_, ?_, ?_⟩
    · have : (c : ℝ) ≤ Nl := hfl.trans hoN
      exact_mod_cast this
    · simp only [uniformNodes]; nlinarith
    · intro k _ hk
      have : (c : ℝ) + 1 ≤ k := by exact_mod_cast hk
      simp only [uniformNodes]; nlinarith

theorem searchCell_spec (knot : ℕ → ℝ) (x : ℝ) (a b : ℕ) (hab : a < b) (ha : knot a ≤ x) (hb : x ≤ knot b) :
    ∃ e, searchCell knot x a b = some e ∧ a ≤ e ∧ e < b ∧ knot e ≤ x ∧ x ≤ knot (e + 1) := by
  induction a, b using searchCell.induct knot x with
  | case1 a b e h hle =>
    exfalso
    have he : e = a := by simp only [e]; omega
    have hb' : b = a + 1 := by omega
    rw [he, ← hb'] at h
    rcases h with h | h <;> linarith
  | case2 a b e h hle hlt ih =>
    obtain ⟨e', h1, h2, h3, h4⟩ := ih (by simp only [e]; omega) ha hlt.le
    refine ⟨e', ?_, h2, by omega, h4⟩
    rw [searchCell]; rw [if_pos h, dif_neg hle, if_pos hlt]; exact h1
  | case3 a b e h hle hlt ih =>
    obtain ⟨e', h1, h2, h3, h4⟩ := ih (by simp only [e]; omega) (not_lt.1 hlt) hb
    refine ⟨e', ?_, by omega, h3, h4⟩
    rw [searchCell]; rw [if_pos h, dif_neg hle, if_neg hlt]; exact h1
  | case4 a b e h =>
    rw [not_or] at h
    refine ⟨e, ?_, by simp only [e]; omega, by simp only [e]; omega, not_lt.1 h.1, not_lt.1 h.2⟩
    rw [searchCell]; rw [if_neg (by rw [not_or]; exact h)]

/-- The dichotomy on a non-uniform grid terminates and finds the bracketing knot. -/
theorem c19_closest_non_uniform (D Nl : ℕ) (hNl : 0 < Nl) (knot : ℕ → ℝ) (hk : Increasing Nl knot) (x : ℝ)
    (h0 : knot 0 ≤ x) (h1 : x ≤ knot Nl) :
    ∃ c, getclosestNU D Nl knot x = some c ∧ Bracket D Nl knot x c := by
  obtain ⟨e, hs, _, heN, he0, he1⟩ := searchCell_spec knot x 0 Nl hNl h0 h1
  unfold getclosestNU
  rw [hs]
  refine ⟨_, rfl, ?_⟩
  have hlow : ∀ k, k < e → knot k < knot e := fun k hke => hk k e hke (by omega)
  have hhigh : ∀ k, e + 1 < k → k ≤ Nl → knot (e + 1) < knot k := fun k h h' => hk _ k h h'
  have hcell : knot e < knot (e + 1) := hk e (e + 1) (by omega) (by omega)
  rcases Nat.mod_two_eq_zero_or_one D with hD | hD
  · have hD' : (D + 1) % 2 = 1 := by omega
    simp only [hD', one_mul]
    refine ⟨by split_ifs <;> omega, fun h => by omega, fun _ k hkN => ?_⟩
    have hk' : k < e ∨ k = e ∨ k = e + 1 ∨ e + 1 < k := by omega
    split_ifs with hmid
    · rw [abs_of_nonpos (by linarith)]
      rcases hk' with h | h | h | h
      · have := hlow k h; rw [abs_of_nonneg (by linarith)]; linarith
      · rw [h, abs_of_nonneg (by linarith)]; linarith
      · rw [h]; linarith [neg_abs_le (x - knot (e + 1))]
      · have := hhigh k h hkN; rw [abs_of_nonpos (by linarith)]; linarith
    · rw [not_lt] at hmid
      rw [add_zero, abs_of_nonneg (by linarith)]
      rcases hk' with h | h | h | h
      · have := hlow k h; rw [abs_of_nonneg (by linarith)]; linarith
      · rw [h]; exact le_abs_self _
      · rw [h, abs_of_nonpos (by linarith)]; linarith
      · have := hhigh k h hkN; rw [abs_of_nonpos (by linarith)]; linarith
  · have hD' : (D + 1) % 2 = 0 := by omega
    simp only [hD', zero_mul, add_zero]
    refine ⟨by omega, fun _ => ⟨he0, fun k hkN hek => ?_⟩, fun h => by omega⟩
    rcases Nat.eq_or_lt_of_le (show e + 1 ≤ k from hek) with h | h
    · rw [← h]; exact he1
    · exact he1.trans (hhigh k h hkN).le

/-! ## find_stencil -/

theorem bracket_lower {D Nl : ℕ} {knot : ℕ → ℝ} {x : ℝ} {c : ℕ} (hk : Increasing Nl knot)
    (hb : Bracket D Nl knot x c) (i : ℕ) (hi : i + D / 2 ≤ c) (hD : 0 < D) : knot i ≤ x := by
  obtain ⟨hcN, hodd, heven⟩ := hb
  rcases Nat.mod_two_eq_zero_or_one D with h | h
  · have hic : i < c := by omega
    have hlt := hk i c hic hcN
    have := heven h i (by omega)
    by_contra hcon
    rw [not_le] at hcon
    rw [abs_of_nonpos (by linarith), abs_of_nonpos (by linarith)] at this
    linarith
  · exact (hk.le (by omega) hcN).trans (hodd h).1

theorem bracket_upper {D Nl : ℕ} {knot : ℕ → ℝ} {x : ℝ} {c : ℕ} (hk : Increasing Nl knot)
    (hb : Bracket D Nl knot x c) (i : ℕ) (hi : c + D ≤ i + D / 2) (hiN : i ≤ Nl) (hD : 0 < D) : x ≤ knot i := by
  obtain ⟨hcN, hodd, heven⟩ := hb
  rcases Nat.mod_two_eq_zero_or_one D with h | h
  · have hic : c < i := by omega
    have hlt := hk c i hic hiN
    have := heven h i hiN
    by_contra hcon
    rw [not_le] at hcon
    rw [abs_of_nonneg (by linarith), abs_of_nonneg (by linarith)] at this
    linarith
  · exact (hodd h).2 i hiN (by omega)

theorem step_eq {D Nl : ℕ} {knot : ℕ → ℝ} {x : ℝ} {c : ℕ} (hb : Bracket D Nl knot x c) :
    (-((D / 2 : ℕ) : ℤ) - ((D % 2 : ℕ) : ℤ) * (if knot c > x then 1 else 0)) = -((D / 2 : ℕ) : ℤ) := by
  rcases Nat.mod_two_eq_zero_or_one D with h | h
  · simp [h]
  · rw [if_neg (not_lt.2 (hb.2.1 h).1)]; simp

/-- Non-periodic case: the stencil lies in the break points and contains the point; it is centred on the bracketing
knot whenever the domain allows. -/
theorem c19_stencil_non_periodic (D Nl : ℕ) (hD : 0 < D) (hDN : D ≤ Nl) (knot : ℕ → ℝ) (hk : Increasing Nl knot)
    (x len : ℝ) (h0 : knot 0 ≤ x) (h1 : x ≤ knot Nl) (c : ℕ) (hb : Bracket D Nl knot x c) :
    ∃ s : ℕ, findStencil false D Nl len knot c x = ((s : ℤ), x) ∧ s + D ≤ Nl ∧ knot s ≤ x ∧ x ≤ knot (s + D) ∧
      (D / 2 ≤ c → c + (D - D / 2) ≤ Nl → s = c - D / 2) := by
  have hcN := hb.1
  unfold findStencil
  simp only [step_eq hb, Bool.false_eq_true, if_false]
  by_cases hlo : c < D / 2
  · refine ⟨0, ?_, by omega, h0, ?_, by omega⟩
    · rw [if_pos (by omega)]; rfl
    · rw [Nat.zero_add]
      exact bracket_upper hk hb D (by omega) hDN hD
  · rw [if_neg (by omega)]
    by_cases hhi : c - D / 2 > Nl - D
    · refine ⟨Nl - D, ?_, by omega, bracket_lower hk hb _ (by omega) hD, ?_, by omega⟩
      · rw [if_pos (by omega)]; simp; omega
      · rw [show Nl - D + D = Nl by omega]; exact h1
    · refine ⟨c - D / 2, ?_, by omega, bracket_lower hk hb _ (by omega) hD,
        bracket_upper hk hb _ (by omega) (by omega) hD, fun _ _ => rfl⟩
      rw [if_neg (by omega)]; congr 1; omega

/-- The `D` additional knots of the periodic bases repeat the first cells one period further. -/
def PeriodicKnots (D Nl : ℕ) (knot : ℕ → ℝ) : Prop :=
  ∀ i ≤ D, knot (Nl + i) = knot Nl + (knot i - knot 0)

/-- Periodic case: the stencil lies in the extended knots, contains the (possibly shifted) point and is centred on the
bracketing knot up to a period. -/
theorem c19_stencil_periodic (D Nl : ℕ) (hD : 0 < D) (hDN : D ≤ Nl) (knot : ℕ → ℝ) (hk : Increasing (Nl + D) knot)
    (hp : PeriodicKnots D Nl knot) (x : ℝ) (h0 : knot 0 ≤ x) (h1 : x ≤ knot Nl) (c : ℕ)
    (hb : Bracket D Nl knot x c) :
    ∃ (s : ℕ) (x' : ℝ), findStencil true D Nl (knot Nl - knot 0) knot c x = ((s : ℤ), x') ∧ s + D ≤ Nl + D ∧
      knot s ≤ x' ∧ x' ≤ knot (s + D) ∧
      ((x' = x ∧ s + D / 2 = c) ∨ (x' = x + (knot Nl - knot 0) ∧ s + D / 2 = c + Nl)) := by
  have hcN := hb.1
  have hk' : Increasing Nl knot := fun i j h h' => hk i j h (by omega)
  unfold findStencil
  simp only [step_eq hb, if_true]
  by_cases hlo : c < D / 2
  · refine ⟨c + Nl - D / 2, x + (knot Nl - knot 0), ?_, by omega, ?_, ?_, Or.inr ⟨rfl, by omega⟩⟩
    · rw [if_pos (by omega), if_pos (by omega)]; congr 1; push_cast; omega
    · have := hk.le (show c + Nl - D / 2 ≤ Nl by omega) (by omega)
      linarith
    · have hi : c + Nl - D / 2 + D = Nl + (c + (D - D / 2)) := by omega
      rw [hi, hp _ (by omega)]
      have := bracket_upper hk' hb (c + (D - D / 2)) (by omega) (by omega) hD
      linarith
  · refine ⟨c - D / 2, x, ?_, by omega, bracket_lower hk' hb _ (by omega) hD, ?_, Or.inl ⟨rfl, by omega⟩⟩
    · rw [if_neg (by omega), if_neg (by omega)]; congr 1; omega
    · by_cases hin : c - D / 2 + D ≤ Nl
      · exact bracket_upper hk' hb _ (by omega) hin hD
      · exact h1.trans (hk.le (by omega) (by omega))

/-! ## Evaluation -/

/-- Contract of `eval_basis` (proved by C17 for both kinds of grids): on a stencil starting at `s` and containing `x'` the
values are those of the Lagrange polynomials of the stencil at `x'` or at a stencil node within `tol` of `x'`. -/
def BasisOK (D top : ℕ) (tol : ℝ) (knot : ℕ → ℝ) (basis : ℤ → ℝ → ℕ → ℝ) : Prop :=
  ∀ (s : ℕ) (x' : ℝ), s + D ≤ top → knot s ≤ x' → x' ≤ knot (s + D) →
    ∃ y, (y = x' ∨ ∃ i ≤ D, y = knot (s + i) ∧ |x' - y| ≤ tol) ∧
      ∀ j ≤ D, basis s x' j = (Lagrange.basis (Finset.range (D + 1)) (fun i => knot (s + i)) j).eval y

theorem distinct_of_increasing {D top : ℕ} {knot : ℕ → ℝ} (hk : Increasing top knot) (s : ℕ) (hs : s + D ≤ top) :
    Distinct D (fun i => knot (s + i)) := by
  intro a ha b hb h
  simp at ha hb
  rcases lt_trichotomy a b with h' | h' | h'
  · exact absurd h (hk (s + a) (s + b) (by omega) (by omega)).ne
  · exact h'
  · exact absurd h (hk (s + b) (s + a) (by omega) (by omega)).ne'

theorem basisOK_uniform (periodic : Bool) (len eps : ℝ) (heps : 0 ≤ eps) (heps1 : eps < 1 / 2) (D top : ℕ)
    (x0 dx : ℝ) (hdx : 0 < dx) :
    BasisOK D top (eps * dx) (uniformNodes x0 dx)
      (fun s y j => evalBasisUniform periodic len eps D (uniformNodes x0 dx s.toNat) dx y j) := by
  intro s x' _ h0 h1
  have hnode : ∀ i, uniformNodes (uniformNodes x0 dx s) dx i = uniformNodes x0 dx (s + i) := by
    intro i; simp only [uniformNodes]; push_cast; ring
  obtain ⟨y, hy, hv⟩ := c17_values_uniform eps heps heps1 D (uniformNodes x0 dx s) dx x' len periodic hdx x'
    (by rw [if_neg (by rintro ⟨_, h⟩; linarith)]) h0 (by rw [hnode]; exact h1)
  refine ⟨y, ?_, ?_⟩
  · rcases hy with h | ⟨i, hi, h, hd⟩
    · exact Or.inl h
    · exact Or.inr ⟨i, hi, by rw [h, hnode], by rw [h]; exact hd⟩
  · intro j hj
    have := hv j hj
    rw [show uniformNodes (uniformNodes x0 dx s) dx = fun i => uniformNodes x0 dx (s + i) from funext hnode] at this
    simpa using this

theorem basisOK_non_uniform (eps : ℝ) (heps : 0 < eps) (D top : ℕ) (knot : ℕ → ℝ) (hk : Increasing top knot) :
    BasisOK D top eps knot (fun s y j => evalBasisNU eps D (fun i => knot (s.toNat + i)) y j) := by
  intro s x' hs _ _
  obtain ⟨y, hy, hv⟩ := c17_values_non_uniform eps heps D (fun i => knot (s + i)) (distinct_of_increasing hk s hs) x'
  refine ⟨y, ?_, fun j hj => by simpa using hv j hj⟩
  rcases hy with h | ⟨i, hi, h, hd⟩
  · exact Or.inl h
  · exact Or.inr ⟨i, hi, h, by rw [h]; exact hd.le⟩

/-- Consecutive knots are further apart than the node tolerance. -/
def Spaced (top : ℕ) (tol : ℝ) (knot : ℕ → ℝ) : Prop := ∀ i j, i < j → j ≤ top → tol < knot j - knot i

/-- On a stencil, when the point is a stencil node, the values are the Kronecker symbols. -/
theorem basis_at_knot {D top : ℕ} {tol : ℝ} {knot : ℕ → ℝ} {basis : ℤ → ℝ → ℕ → ℝ} (hk : Increasing top knot)
    (hok : BasisOK D top tol knot basis) (hsp : Spaced top tol knot) (s : ℕ) (hs : s + D ≤ top) (i : ℕ) (hi : i ≤ D)
    (j : ℕ) (hj : j ≤ D) : basis s (knot (s + i)) j = if j = i then 1 else 0 := by
  obtain ⟨y, hy, hv⟩ := hok s (knot (s + i)) hs (hk.le (by omega) (by omega)) (hk.le (by omega) (by omega))
  have hyi : y = knot (s + i) := by
    rcases hy with h | ⟨i', hi', h, hd⟩
    · exact h
    · rcases lt_trichotomy i i' with h' | h' | h'
      · have := hsp (s + i) (s + i') (by omega) (by omega)
        rw [h, abs_of_neg (by have := hk (s + i) (s + i') (by omega) (by omega); linarith)] at hd
        linarith
      · rw [h, h']
      · have := hsp (s + i') (s + i) (by omega) (by omega)
        rw [h, abs_of_pos (by have := hk (s + i') (s + i) (by omega) (by omega); linarith)] at hd
        linarith
  rw [hv j hj, hyi]
  exact basis_eval_node D (fun i => knot (s + i)) (distinct_of_increasing hk s hs) i j hi hj

theorem stencil_sum (D : ℕ) (coef : ℕ → ℝ) (b : ℕ → ℝ) (s : ℕ) :
    (List.range (D + 1)).foldl (fun y (i : ℕ) => y + coef ((s : ℤ) + (i : ℤ)).toNat * b i) 0
      = ∑ i ∈ Finset.range (D + 1), coef (s + i) * b i := by
  rw [foldl_sum (fun i => coef ((s : ℤ) + i).toNat * b i), zero_add]
  apply Finset.sum_congr rfl
  intro i _
  congr 2

/-- A knot inside a stencil is one of the stencil nodes. -/
theorem knot_in_stencil {top : ℕ} {knot : ℕ → ℝ} (hk : Increasing top knot) (s D k : ℕ) (hs : s + D ≤ top)
    (hkt : k ≤ top) (h0 : knot s ≤ knot k) (h1 : knot k ≤ knot (s + D)) : ∃ i ≤ D, k = s + i := by
  have hsk : s ≤ k := by
    by_contra h
    exact absurd h0 (not_le.2 (hk k s (by omega) (by omega)))
  have hkD : k ≤ s + D := by
    by_contra h
    exact absurd h1 (not_le.2 (hk (s + D) k (by omega) (by omega)))
  exact ⟨k - s, by omega, by omega⟩

theorem sum_kronecker (D i : ℕ) (hi : i ≤ D) (f b : ℕ → ℝ) (hb : ∀ j ≤ D, b j = if j = i then 1 else 0) :
    ∑ j ∈ Finset.range (D + 1), f j * b j = f i := by
  rw [Finset.sum_eq_single i]
  · rw [hb i hi, if_pos rfl, mul_one]
  · intro j hj hne
    rw [hb j (by simpa [Nat.lt_succ_iff] using hj), if_neg hne, mul_zero]
  · intro h; exact absurd (by simp; omega) h

/-- What a user relies on when evaluating non-periodic Lagrange interpolation, for a given evaluator. -/
def InterpolatesNonPeriodic (D Nl : ℕ) (tol : ℝ) (knot : ℕ → ℝ) (lower upper : ℝ → ℝ)
    (ev : (ℕ → ℝ) → ℝ → Option ℝ) : Prop :=
  -- the interpolant takes the given values at the break points
  (∀ coef, ∀ k ≤ Nl, ev coef (knot k) = some (coef k)) ∧
  -- polynomials up to the degree of the basis are reproduced (up to the node tolerance)
  (∀ p : ℝ[X], p.natDegree ≤ D → ∀ x, knot 0 ≤ x → x ≤ knot Nl →
    ∃ y, |x - y| ≤ tol ∧ ev (fun k => p.eval (knot k)) x = some (p.eval y)) ∧
  -- outside of the domain the extrapolation rules apply
  (∀ coef x, x < knot 0 → ev coef x = some (lower x)) ∧
  (∀ coef x, knot Nl < x → ev coef x = some (upper x)) ∧
  -- only the coefficients of the break points are read
  (∀ coef coef', (∀ k ≤ Nl, coef k = coef' k) → ∀ x, ev coef x = ev coef' x)

theorem eval_non_periodic (D Nl : ℕ) (hD : 0 < D) (hDN : D ≤ Nl) (tol : ℝ) (htol : 0 ≤ tol) (knot : ℕ → ℝ)
    (hk : Increasing Nl knot)
    (hsp : Spaced Nl tol knot) (closest : ℝ → Option ℕ)
    (hcl : ∀ x, knot 0 ≤ x → x ≤ knot Nl → ∃ c, closest x = some c ∧ Bracket D Nl knot x c)
    (basis : ℤ → ℝ → ℕ → ℝ) (hok : BasisOK D Nl tol knot basis) (lower upper : ℝ → ℝ) :
    InterpolatesNonPeriodic D Nl tol knot lower upper
      (fun coef x => eval false D Nl knot closest basis lower upper coef x) := by
  have hin : ∀ coef x, knot 0 ≤ x → x ≤ knot Nl → ∃ s : ℕ, s + D ≤ Nl ∧ knot s ≤ x ∧ x ≤ knot (s + D) ∧
      eval false D Nl knot closest basis lower upper coef x
        = some (∑ i ∈ Finset.range (D + 1), coef (s + i) * basis s x i) := by
    intro coef x h0 h1
    obtain ⟨c, hc, hb⟩ := hcl x h0 h1
    obtain ⟨s, hs, hsD, hx0, hx1, _⟩ := c19_stencil_non_periodic D Nl hD hDN knot hk x (knot Nl - knot 0) h0 h1 c hb
    refine ⟨s, hsD, hx0, hx1, ?_⟩
    unfold eval
    simp only [Bool.false_eq_true, if_false]
    rw [if_neg (not_lt.2 h0), if_neg (not_lt.2 h1)]
    unfold evalNoBc
    rw [hc, Option.map_some]
    simp only [hs]
    rw [stencil_sum D coef (basis s x) s]
  have hin' : ∀ coef coef' : ℕ → ℝ, (∀ k ≤ Nl, coef k = coef' k) → ∀ x, knot 0 ≤ x → x ≤ knot Nl →
      eval false D Nl knot closest basis lower upper coef x = eval false D Nl knot closest basis lower upper coef' x := by
    intro coef coef' hcc x h0 h1
    obtain ⟨c, hc, hb⟩ := hcl x h0 h1
    obtain ⟨s, hs, hsD, hx0, hx1, _⟩ := c19_stencil_non_periodic D Nl hD hDN knot hk x (knot Nl - knot 0) h0 h1 c hb
    unfold eval
    simp only [Bool.false_eq_true, if_false]
    rw [if_neg (not_lt.2 h0), if_neg (not_lt.2 h1), if_neg (not_lt.2 h0), if_neg (not_lt.2 h1)]
    unfold evalNoBc
    rw [hc, Option.map_some, Option.map_some]
    simp only [hs]
    rw [stencil_sum D coef (basis s x) s, stencil_sum D coef' (basis s x) s]
    have e : ∑ i ∈ Finset.range (D + 1), coef (s + i) * basis s x i = ∑ i ∈ Finset.range (D + 1), coef' (s + i) * basis s x i :=
      Finset.sum_congr rfl fun i hi => by rw [hcc (s + i) (by have := Finset.mem_range.1 hi; omega)]
    rw [e]
  refine ⟨?_, ?_, ?_, ?_, ?_⟩
  · intro coef k hkN
    obtain ⟨s, hsD, hx0, hx1, he⟩ := hin coef (knot k) (hk.le (by omega) hkN) (hk.le hkN le_rfl)
    obtain ⟨i, hi, rfl⟩ := knot_in_stencil hk s D k hsD hkN hx0 hx1
    simp only
    rw [he, sum_kronecker D i hi (fun j => coef (s + j)) _
      fun j hj => basis_at_knot hk hok hsp s hsD i hi j hj]
  · intro p hp x h0 h1
    obtain ⟨s, hsD, hx0, hx1, he⟩ := hin (fun k => p.eval (knot k)) x h0 h1
    obtain ⟨y, hy, hv⟩ := hok s x hsD hx0 hx1
    refine ⟨y, ?_, ?_⟩
    · rcases hy with h | ⟨_, _, _, hd⟩
      · rw [h, sub_self, abs_zero]; exact htol
      · exact hd
    · simp only
      rw [he]
      congr 1
      exact (c17_reproduction D (fun i => knot (s + i)) (distinct_of_increasing hk s hsD) y _ hv).2 p hp
  · intro coef x hx
    simp only [eval, Bool.false_eq_true, if_false, hx, if_true]
  · intro coef x hx
    have h0 : ¬ x < knot 0 := not_lt.2 ((hk.le (Nat.zero_le _) le_rfl).trans hx.le)
    simp only [eval, Bool.false_eq_true, if_false, h0, gt_iff_lt, hx, if_true]
  · intro coef coef' hcc x
    by_cases h0 : x < knot 0
    · simp only [eval, Bool.false_eq_true, if_false, h0, if_true]
    · by_cases h1 : x > knot Nl
      · simp only [eval, Bool.false_eq_true, if_false, h0, h1, if_true]
      · exact hin' coef coef' hcc x (not_lt.1 h0) (not_lt.1 h1)

/-- What a user relies on when evaluating periodic Lagrange interpolation with the coefficients made from `vals`. -/
def InterpolatesPeriodic (Nl : ℕ) (knot : ℕ → ℝ) (ev : (ℕ → ℝ) → ℝ → Option ℝ) (coefOf : (ℕ → ℝ) → ℕ → ℝ) : Prop :=
  ∀ vals : ℕ → ℝ,
    -- an evaluation never fails and is periodic over the whole line
    (∀ x, (ev (coefOf vals) x).isSome) ∧
    (∀ x (m : ℤ), ev (coefOf vals) (x + m * (knot Nl - knot 0)) = ev (coefOf vals) x) ∧
    -- it takes the given values at the grid points
    (∀ k < Nl, ev (coefOf vals) (knot k) = some (vals k)) ∧
    -- and constants are reproduced
    (∀ a, (∀ k, vals k = a) → ∀ x, ev (coefOf vals) x = some a)

theorem eval_periodic (D Nl : ℕ) (hD : 0 < D) (hDN : D < Nl) (tol : ℝ) (knot : ℕ → ℝ)
    (hk : Increasing (Nl + D) knot) (hp : PeriodicKnots D Nl knot)
    (hsp : Spaced (Nl + D) tol knot) (closest : ℝ → Option ℕ)
    (hcl : ∀ x, knot 0 ≤ x → x ≤ knot Nl → ∃ c, closest x = some c ∧ Bracket D Nl knot x c)
    (basis : ℤ → ℝ → ℕ → ℝ) (hok : BasisOK D (Nl + D) tol knot basis) (lower upper : ℝ → ℝ)
    (coefOf : (ℕ → ℝ) → ℕ → ℝ) (hcoef : ∀ vals, ∀ k ≤ Nl + D, coefOf vals k = vals (k % Nl)) :
    InterpolatesPeriodic Nl knot (fun coef x => eval true D Nl knot closest basis lower upper coef x) coefOf := by
  intro vals
  set L := knot Nl - knot 0 with hL
  have hLpos : 0 < L := sub_pos.2 (hk 0 Nl (by omega) (by omega))
  -- evaluation inside the period
  have hin : ∀ x, knot 0 ≤ x → x ≤ knot Nl → ∃ (s : ℕ) (x' : ℝ), s + D ≤ Nl + D ∧ knot s ≤ x' ∧ x' ≤ knot (s + D) ∧
      (x' = x ∨ x' = x + L) ∧
      evalNoBc true D Nl L knot closest basis (coefOf vals) x
        = some (∑ i ∈ Finset.range (D + 1), coefOf vals (s + i) * basis s x' i) := by
    intro x h0 h1
    obtain ⟨c, hc, hb⟩ := hcl x h0 h1
    obtain ⟨s, x', hs, hsD, hx0, hx1, hx'⟩ := c19_stencil_periodic D Nl hD hDN.le knot hk hp x h0 h1 c hb
    refine ⟨s, x', hsD, hx0, hx1, hx'.imp And.left And.left, ?_⟩
    unfold evalNoBc
    rw [hc, Option.map_some]
    simp only [hL, hs]
    rw [stencil_sum D _ (basis s x') s]
  have hknot : ∀ k ≤ Nl, evalNoBc true D Nl L knot closest basis (coefOf vals) (knot k) = some (vals (k % Nl)) := by
    intro k hkN
    obtain ⟨s, x', hsD, hx0, hx1, hx', he⟩ := hin (knot k) (hk.le (by omega) (by omega)) (hk.le hkN (by omega))
    have hk' : ∃ k' ≤ Nl + D, x' = knot k' ∧ k' % Nl = k % Nl := by
      rcases hx' with h | h
      · exact ⟨k, by omega, h, rfl⟩
      · by_cases hkD : k ≤ D
        · refine ⟨Nl + k, by omega, ?_, by simp⟩
          rw [h, hp k hkD, hL]; ring
        · exfalso
          -- the shifted point would be beyond all the knots
          have h2 := hk D k (by omega) (by omega)
          have h3 := hk.le (show s + D ≤ Nl + D from hsD) le_rfl
          rw [hp D le_rfl] at h3
          rw [h] at hx1
          linarith
    obtain ⟨k', hk't, rfl, hmod⟩ := hk'
    obtain ⟨i, hi, rfl⟩ := knot_in_stencil hk s D k' hsD hk't hx0 hx1
    rw [he, sum_kronecker D i hi (fun j => coefOf vals (s + j)) _
      fun j hj => basis_at_knot hk hok hsp s hsD i hi j hj, hcoef vals _ hk't, hmod]
  -- reduction of any point to the period
  have hwrap : ∀ x, eval true D Nl knot closest basis lower upper (coefOf vals) x
      = evalNoBc true D Nl L knot closest basis (coefOf vals) (x - (⌊(x - knot 0) / L⌋ : ℝ) * L) := by
    intro x
    unfold eval
    simp only [if_true, ← hL]
    split_ifs with h
    · rfl
    · rw [not_or, not_lt, not_lt] at h
      rcases lt_or_eq_of_le h.2 with hlt | heq
      · have : ⌊(x - knot 0) / L⌋ = 0 := by
          rw [Int.floor_eq_zero_iff]
          exact ⟨div_nonneg (by linarith [h.1]) hLpos.le, by rw [div_lt_one hLpos]; linarith⟩
        rw [this]; simp
      · have : ⌊(x - knot 0) / L⌋ = 1 := by
          rw [heq, ← hL, div_self hLpos.ne', Int.floor_one]
        rw [this, heq]
        have e1 : knot Nl - ((1 : ℤ) : ℝ) * L = knot 0 := by rw [hL]; push_cast; ring
        rw [e1, hknot Nl le_rfl, hknot 0 (by omega)]
        simp
  have hred : ∀ x, knot 0 ≤ x - (⌊(x - knot 0) / L⌋ : ℝ) * L ∧ x - (⌊(x - knot 0) / L⌋ : ℝ) * L ≤ knot Nl := by
    intro x
    have h1 := Int.floor_le ((x - knot 0) / L)
    have h2 := Int.lt_floor_add_one ((x - knot 0) / L)
    rw [le_div_iff₀ hLpos] at h1
    rw [div_lt_iff₀ hLpos] at h2
    constructor <;> nlinarith
  refine ⟨?_, ?_, ?_, ?_⟩
  · intro x
    simp only
    rw [hwrap]
    obtain ⟨s, x', _, _, _, _, he⟩ := hin _ (hred x).1 (hred x).2
    rw [he]; rfl
  · intro x m
    simp only
    rw [hwrap, hwrap]
    congr 1
    have : (x + m * L - knot 0) / L = (x - knot 0) / L + m := by field_simp; ring
    rw [this, Int.floor_add_intCast]
    push_cast; ring
  · intro k hkN
    simp only [eval, if_true]
    have h0 := hk.le (Nat.zero_le k) (by omega)
    have h1 := hk.le hkN.le (by omega)
    rw [if_neg (by rw [not_or]; exact ⟨not_lt.2 h0, not_lt.2 h1⟩), ← hL, hknot k hkN.le, Nat.mod_eq_of_lt hkN]
  · intro a ha x
    simp only
    rw [hwrap]
    obtain ⟨s, x', hsD, hx0, hx1, _, he⟩ := hin _ (hred x).1 (hred x).2
    obtain ⟨y, _, hv⟩ := hok s x' hsD hx0 hx1
    have hone := (c17_reproduction D (fun i => knot (s + i)) (distinct_of_increasing hk s hsD) y _ hv).1
    rw [he]
    congr 1
    have : ∀ i ∈ Finset.range (D + 1), coefOf vals (s + i) * basis s x' i = a * basis s x' i := by
      intro i hi
      rw [hcoef vals (s + i) (by simp at hi; omega), ha]
    rw [Finset.sum_congr rfl this, ← Finset.mul_sum, hone, mul_one]

/-! ## The builder -/

/-- Non-periodic builder: the coefficients are the values. Periodic builder: with at least `D + 1` interpolation points
the coefficient of knot `k` is the value at the point congruent to `k`, for all `Nl + D + 1` knots. -/
theorem c19_builder {V : Type*} (D Nl : ℕ) (vals : ℕ → V) :
    (∀ k ≤ Nl, buildCoeffs false D Nl vals k = some (vals k)) ∧
    (D + 1 ≤ Nl → ∀ k ≤ Nl + D, buildCoeffs true D Nl vals k = some (vals (k % Nl))) := by
  refine ⟨fun k hk => by simp [buildCoeffs]; omega, fun h k hk => ?_⟩
  unfold buildCoeffs
  simp only [if_true]
  split_ifs with h1 h2 h3
  · rw [Nat.mod_eq_of_lt h1]
  · congr 2
    rw [Nat.mod_eq_sub_mod (by omega), Nat.mod_eq_of_lt h3]
  · omega
  · omega

/-- The size check of the bases (`break_point_domain.size() >= D + 1`, i.e. `D ≤ Nl`) admits `Nl = D`, for which the
periodic builder reads the values beyond their index range. -/
theorem c19_builder_small_grid_counterexample {V : Type*} (D : ℕ) (vals : ℕ → V) :
    buildCoeffs true D D vals (D + D) = none := by
  simp [buildCoeffs]

/-! ## C19, complete statements -/

/-- The coefficients of all knots when the builder is within its index ranges. -/
def builtCoeffs (periodic : Bool) (D Nl : ℕ) (vals : ℕ → ℝ) (k : ℕ) : ℝ :=
  (buildCoeffs periodic D Nl vals k).getD 0

theorem c19_uniform_non_periodic (eps : ℝ) (heps : 0 ≤ eps) (heps1 : eps < 1 / 2) (D Nl : ℕ) (hD : 0 < D)
    (hDN : D ≤ Nl) (x0 dx : ℝ) (hdx : 0 < dx) (lower upper : ℝ → ℝ) :
    InterpolatesNonPeriodic D Nl (eps * dx) (uniformNodes x0 dx) lower upper
      (fun coef x => evalU false eps D Nl x0 dx lower upper coef x) := by
  apply eval_non_periodic D Nl hD hDN _ (by positivity) _ (increasing_uniform Nl x0 dx hdx)
  · intro i j hij _
    have : (i : ℝ) + 1 ≤ j := by exact_mod_cast hij
    simp only [uniformNodes]; nlinarith
  · intro x h0 h1
    exact ⟨_, rfl, c19_closest_uniform D Nl x0 dx x hdx h0 h1⟩
  · exact basisOK_uniform false _ eps heps heps1 D Nl x0 dx hdx

theorem c19_non_uniform_non_periodic (eps : ℝ) (heps : 0 < eps) (D Nl : ℕ) (hD : 0 < D) (hDN : D ≤ Nl)
    (knot : ℕ → ℝ) (hsp : Spaced Nl eps knot) (lower upper : ℝ → ℝ) :
    InterpolatesNonPeriodic D Nl eps knot lower upper
      (fun coef x => evalNU false eps D Nl knot lower upper coef x) := by
  have hk : Increasing Nl knot := fun i j h h' => by have := hsp i j h h'; linarith
  exact eval_non_periodic D Nl hD hDN _ heps.le _ hk hsp _
    (fun x h0 h1 => c19_closest_non_uniform D Nl (by omega) knot hk x h0 h1) _
    (basisOK_non_uniform eps heps D Nl knot hk) lower upper

theorem c19_uniform_periodic (eps : ℝ) (heps : 0 ≤ eps) (heps1 : eps < 1 / 2) (D Nl : ℕ) (hD : 0 < D)
    (hDN : D < Nl) (x0 dx : ℝ) (hdx : 0 < dx) (lower upper : ℝ → ℝ) :
    InterpolatesPeriodic Nl (uniformNodes x0 dx)
      (fun coef x => evalU true eps D Nl x0 dx lower upper coef x) (builtCoeffs true D Nl) := by
  apply eval_periodic D Nl hD hDN (eps * dx) _ (increasing_uniform _ x0 dx hdx)
  · intro i _; simp only [uniformNodes]; push_cast; ring
  · intro i j hij _
    have : (i : ℝ) + 1 ≤ j := by exact_mod_cast hij
    simp only [uniformNodes]; nlinarith
  · intro x h0 h1
    exact ⟨_, rfl, c19_closest_uniform D Nl x0 dx x hdx h0 h1⟩
  · exact basisOK_uniform true _ eps heps heps1 D _ x0 dx hdx
  · intro vals k hk
    rw [builtCoeffs, (c19_builder D Nl vals).2 hDN k hk]; rfl

/-- The knots of the periodic non-uniform basis, built from the coordinates of the break points. -/
theorem c19_non_uniform_periodic (eps : ℝ) (heps : 0 < eps) (D Nl : ℕ) (hD : 0 < D) (hDN : D < Nl)
    (coord : ℕ → ℝ) (hsp : Spaced Nl eps coord) (lower upper : ℝ → ℝ) :
    InterpolatesPeriodic Nl (knotsNU (Nl + 1) coord)
      (fun coef x => evalNU true eps D Nl (knotsNU (Nl + 1) coord) lower upper coef x) (builtCoeffs true D Nl) := by
  have hlow : ∀ k ≤ Nl, knotsNU (Nl + 1) coord k = coord k := fun k hk => by
    rw [knotsNU, if_pos (by omega)]
  have hhigh : ∀ i, knotsNU (Nl + 1) coord (Nl + i) = coord Nl + (coord i - coord 0) := by
    intro i
    unfold knotsNU
    split_ifs with h
    · obtain rfl : i = 0 := by omega
      simp
    · simp only [Nat.add_sub_cancel]
      rw [show Nl + i - (Nl + 1) + 1 = i by omega]
  have hspk : Spaced (Nl + D) eps (knotsNU (Nl + 1) coord) := by
    have hstep : ∀ i, i + 1 ≤ Nl + D → eps < knotsNU (Nl + 1) coord (i + 1) - knotsNU (Nl + 1) coord i := by
      intro i hi
      by_cases h : i + 1 ≤ Nl
      · rw [hlow _ h, hlow _ (by omega)]; exact hsp i (i + 1) (by omega) h
      · obtain ⟨m, rfl⟩ : ∃ m, i = Nl + m := ⟨i - Nl, by omega⟩
        rw [Nat.add_assoc, hhigh, hhigh]
        have := hsp m (m + 1) (by omega) (by omega)
        linarith
    intro i j hij hj
    induction j with
    | zero => omega
    | succ j ih =>
      have h1 := hstep j hj
      rcases Nat.eq_or_lt_of_le (show i ≤ j by omega) with h | h
      · rw [h]; exact h1
      · have := ih h (by omega); linarith
  have hk : Increasing (Nl + D) (knotsNU (Nl + 1) coord) := fun i j h h' => by have := hspk i j h h'; linarith
  apply eval_periodic D Nl hD hDN eps _ hk
  · intro i hi
    rw [hhigh, hlow Nl le_rfl, hlow i (by omega), hlow 0 (by omega)]
  · exact hspk
  · intro x h0 h1
    exact c19_closest_non_uniform D Nl (by omega) _ (fun i j h h' => hk i j h (by omega)) x h0 h1
  · exact basisOK_non_uniform eps heps D _ _ hk
  · intro vals k hk
    rw [builtCoeffs, (c19_builder D Nl vals).2 hDN k hk]; rfl

/-! ## Instances -/

/-- A non-uniform grid with 6 break points and a tolerance meeting the hypotheses. -/
example : Spaced 5 (1 / 2) (fun k => (k : ℝ) ^ 2) := by
  intro i j hij _
  have : (i : ℝ) + 1 ≤ j := by exact_mod_cast hij
  have hi : (0 : ℝ) ≤ i := Nat.cast_nonneg i
  simp only
  nlinarith

/-- Near the left boundary of a uniform grid of degree 3 the stencil is shifted to the first knot. -/
example : findStencil false 3 10 10 (uniformNodes 0 1) 0 (1 / 2) = (0, 1 / 2) := by
  norm_num [findStencil, uniformNodes]

/-- In the periodic case the same point gets the wrapped stencil 9, 10, 11, 12 and is shifted by a period. -/
example : findStencil true 3 10 10 (uniformNodes 0 1) 0 (1 / 2) = (9, 21 / 2) := by
  norm_num [findStencil, uniformNodes]

end Verif.LagrangeEvaluator
