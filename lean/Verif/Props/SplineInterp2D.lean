import Verif.Model.SplineInterp2D
import Verif.Props.SplineInterpAccuracy
import Verif.Props.SplineWhitney
import Mathlib.Tactic.Linarith
import Mathlib.Tactic.Ring

/-!
# C118: tensor-product splines are well posed and of order 4

Specification: a direction is `Standard` if it is periodic with odd degree at the break points, or has values at points inside the supports (for instance Greville points), or is Hermite with odd degree at the break points;
it is `Cubic` if it is of the first or the last kind with degree 3.
-/

namespace Verif.SplineInterp

open Finset Verif.BSpline Verif.SplineQuadrature

noncomputable section

/-! ## Well posed -/

/-- The directions of the theorem: every number of cells and all increasing break points. -/
inductive Standard : Direction → Prop
  | periodic (n e : ℕ) (b : ℕ → ℝ) (hn : 1 ≤ n) (hb : ∀ i < n, b i < b (i + 1)) : Standard (periodicDir n (2 * e + 1) b)
  | hermite (n e : ℕ) (b : ℕ → ℝ) (hn : 1 ≤ n) (hb : ∀ i < n, b i < b (i + 1)) : Standard (hermiteDir n (2 * e + 1) b)
  | points (n d : ℕ) (b : ℕ → ℝ) (q : ℕ → ℕ) (x : ℕ → ℝ) (hn : 1 ≤ n) (hd : 1 ≤ d) (hb : ∀ i < n, b i < b (i + 1)) (hq : ∀ i < n + d, q i < n ∧ x i ∈ Set.Icc (b (q i)) (b (q i + 1)))
      (hx : ∀ i, i + 1 < n + d → x i < x (i + 1)) (hleft : ∀ i, 1 ≤ i → i < n → b i < x (i + d)) (hright : ∀ i, i + 1 < n → x i < b (i + 1)) : Standard (pointsDir n d b q x)

theorem Standard.pos {X : Direction} (h : Standard X) : 0 < X.N := by
  cases h <;> simp only [periodicDir, hermiteDir, pointsDir] <;> omega

theorem hermite_rows (n e : ℕ) (b : ℕ → ℝ) (v c : ℕ → ℝ) :
    (∀ i < n + (2 * e + 1), (hermiteDir n (2 * e + 1) b).row i c = v i) ↔ HermiteInterpolant n (2 * e + 1) b v (fun k => v (n + k)) (fun k => v (n + e + k)) c := by
  have e2 : (2 * e + 1) / 2 = e := by omega
  simp only [Direction.row, hermiteDir, e2]
  constructor
  · intro h
    refine ⟨fun q hq => ?_, ?_, fun k h1 h2 => ?_, fun k h1 h2 => ?_⟩
    · have := h q (by omega)
      simp only [if_pos hq, if_pos hq.le] at this
      exact this
    · have := h n (by omega)
      simp only [lt_irrefl, if_false, if_true, le_refl] at this
      exact this
    · have := h (n + k) (by omega)
      simpa only [if_neg (show ¬ n + k < n by omega), if_neg (show n + k ≠ n by omega), if_neg (show ¬ n + k ≤ n by omega), if_pos (show n + k ≤ n + e by omega), Nat.add_sub_cancel_left] using this
    · have := h (n + e + k) (by omega)
      simpa only [if_neg (show ¬ n + e + k < n by omega), if_neg (show n + e + k ≠ n by omega), if_neg (show ¬ n + e + k ≤ n by omega), if_neg (show ¬ n + e + k ≤ n + e by omega),
        show n + e + k - n - e = k by omega] using this
  · rintro ⟨h1, h2, h3, h4⟩ i hi
    rcases lt_trichotomy i n with hin | rfl | hin
    · simp only [if_pos hin, if_pos hin.le]
      exact h1 i hin
    · simp only [lt_irrefl, if_false, if_true, le_refl]
      exact h2
    · by_cases hie : i ≤ n + e
      · simpa only [if_neg (show ¬ i < n by omega), if_neg (show i ≠ n by omega), if_neg (show ¬ i ≤ n by omega), if_pos hie, show n + (i - n) = i by omega] using h3 (i - n) (by omega) (by omega)
      · simpa only [if_neg (show ¬ i < n by omega), if_neg (show i ≠ n by omega), if_neg (show ¬ i ≤ n by omega), if_neg hie, show n + e + (i - n - e) = i by omega] using h4 (i - n - e) (by omega) (by omega)

/-- The one-dimensional problems. -/
theorem one_solution {X : Direction} (h : Standard X) (v : ℕ → ℝ) : ∃ c, (∀ i < X.N, X.row i c = v i) ∧ ∀ c', (∀ i < X.N, X.row i c' = v i) → ∀ j < X.N, c' j = c j := by
  cases h with
  | periodic n e b hn hb => exact c116_periodic_unique hn hb v
  | hermite n e b hn hb =>
    obtain ⟨c, h1, h2⟩ := c116_hermite_unique (e := e) hn hb v (fun k => v (n + k)) (fun k => v (n + e + k))
    exact ⟨c, (hermite_rows n e b v c).2 h1, fun c' hc' => h2 c' ((hermite_rows n e b v c').1 hc')⟩
  | points n d b q x hn hd hb hq hx hleft hright => exact c116_points_unique hn hd hb hq hx hleft hright v

theorem deriv2_nested (X Y : Direction) (q1 k1 : ℕ) (x1 : ℝ) (q2 k2 : ℕ) (x2 : ℝ) (c : ℕ → ℕ → ℝ) :
    deriv2 X Y q1 k1 x1 q2 k2 x2 c = derivAt X.t X.d X.N q1 k1 x1 (fun j => derivAt Y.t Y.d Y.N q2 k2 x2 (c j)) := by
  simp only [deriv2, derivAt, sum_mul]
  exact sum_congr rfl fun j _ => sum_congr rfl fun l _ => by ring

theorem derivAt_congr (t : ℤ → ℝ) (d N q k : ℕ) (x : ℝ) (hN : 0 < N) {c c' : ℕ → ℝ} (h : ∀ j < N, c j = c' j) : derivAt t d N q k x c = derivAt t d N q k x c' := by
  rw [derivAt, derivAt]
  exact sum_congr rfl fun j _ => by rw [h _ (Nat.mod_lt _ hN)]

/-- C118: solving one direction after the other is solving the two-dimensional problem. -/
theorem c118_sweeps {X Y : Direction} (hX : 0 < X.N) (v c : ℕ → ℕ → ℝ) : Sweeps X Y v c ↔ Interpolant2 X Y v c := by
  constructor
  · rintro ⟨w, h1, h2⟩ i hi l hl
    rw [deriv2_nested, ← h1 l hl i hi]
    exact derivAt_congr _ _ _ _ _ _ hX fun j hj => h2 j hj l hl
  · intro h
    refine ⟨fun j l => Y.row l (c j), fun l hl i hi => ?_, fun j _ l _ => rfl⟩
    rw [← h i hi l hl, deriv2_nested]
    rfl

/-- C118 (well posed): in all combinations of directions there is exactly one spline with given values, end derivatives and mixed corner derivatives. -/
theorem c118_unique {X Y : Direction} (hX : Standard X) (hY : Standard Y) (v : ℕ → ℕ → ℝ) : ∃ c, Interpolant2 X Y v c ∧ ∀ c', Interpolant2 X Y v c' → ∀ j < X.N, ∀ l < Y.N, c' j l = c j l := by
  choose w hw hwu using fun l => one_solution hX (fun i => v i l)
  choose c hc hcu using fun j => one_solution hY (fun l => w l j)
  refine ⟨c, (c118_sweeps hX.pos v c).1 ⟨fun j l => w l j, fun l _ i hi => hw l i hi, fun j _ l hl => hc j l hl⟩, fun c' h' j hj l hl => ?_⟩
  obtain ⟨w', h1, h2⟩ := (c118_sweeps hX.pos v c').2 h'
  exact hcu j (c' j) (fun l hl => by rw [h2 j hj l hl]; exact hwu l (fun j => w' j l) (h1 l hl) j hj) l hl

/-! ## Accuracy -/

theorem derivAt_sum (t : ℤ → ℝ) (d N q k : ℕ) (x : ℝ) (m : ℕ) (s : ℕ → ℝ) (E : ℕ → ℕ → ℝ) : derivAt t d N q k x (fun j => ∑ i ∈ range m, s i * E i j) = ∑ i ∈ range m, s i * derivAt t d N q k x (E i) := by
  simp only [derivAt, sum_mul, mul_sum]
  rw [sum_comm]
  exact sum_congr rfl fun i _ => sum_congr rfl fun j _ => by ring

/-- Every derivative of the spline is a combination of the data. -/
theorem weights {X : Direction} (h : Standard X) (q k : ℕ) (x : ℝ) : ∃ a : ℕ → ℝ, ∀ c, derivAt X.t X.d X.N q k x c = ∑ i ∈ range X.N, a i * X.row i c := by
  choose E hE hEu using fun i : ℕ => one_solution h (fun l => if l = i then 1 else 0)
  refine ⟨fun i => derivAt X.t X.d X.N q k x (E i), fun c => ?_⟩
  obtain ⟨c0, -, hu⟩ := one_solution h (fun i => X.row i c)
  have e1 := hu c fun i _ => rfl
  have e2 := hu (fun j => ∑ i ∈ range X.N, X.row i c * E i j) fun l hl => by
    have := derivAt_sum X.t X.d X.N (X.cell l) (X.order l) (X.pt l) X.N (fun i => X.row i c) E
    rw [Direction.row, this, ← sum_unit X.N l hl (fun i => X.row i c)]
    refine sum_congr rfl fun i _ => ?_
    have := hE i l hl
    rw [Direction.row] at this
    rw [this, unit]
  rw [derivAt_congr X.t X.d X.N q k x h.pos fun j hj => (e1 j hj).trans (e2 j hj).symm, derivAt_sum]
  exact sum_congr rfl fun i _ => mul_comm _ _

/-- The directions of the simulations with cubic splines: the domain `S` of the functions and their period `L` (nothing is asked if `L = 0`). -/
inductive Cubic : Direction → ℕ → (ℕ → ℝ) → Set ℝ → ℝ → Prop
  | periodic (n : ℕ) (b : ℕ → ℝ) (hn : 1 ≤ n) (hb : ∀ i < n, b i < b (i + 1)) : Cubic (periodicDir n 3 b) n b Set.univ (b n - b 0)
  | hermite (n : ℕ) (b : ℕ → ℝ) (hn : 1 ≤ n) (hb : ∀ i < n, b i < b (i + 1)) : Cubic (hermiteDir n 3 b) n b (Set.Icc (b 0) (b n)) 0

theorem Cubic.standard {X : Direction} {n : ℕ} {b : ℕ → ℝ} {S : Set ℝ} {L : ℝ} (h : Cubic X n b S L) : Standard X := by
  cases h with
  | periodic _ _ hn hb => exact .periodic n 1 b hn hb
  | hermite _ _ hn hb => exact .hermite n 1 b hn hb

theorem Cubic.points {X : Direction} {n : ℕ} {b : ℕ → ℝ} {S : Set ℝ} {L : ℝ} (h : Cubic X n b S L) : ∀ i < X.N, X.pt i ∈ S ∧ X.order i ≤ 1 := by
  cases h with
  | periodic _ _ hn hb => exact fun i _ => ⟨trivial, Nat.zero_le _⟩
  | hermite _ _ hn hb =>
    intro i hi
    have bm := b_mono hb
    simp only [hermiteDir] at hi ⊢
    norm_num
    split_ifs with h1 h2
    · exact ⟨⟨bm _ _ (Nat.zero_le _) h1, bm _ _ h1 le_rfl⟩, by omega⟩
    · exact ⟨⟨le_rfl, bm _ _ (Nat.zero_le _) le_rfl⟩, by omega⟩
    · exact ⟨⟨bm _ _ (Nat.zero_le _) le_rfl, le_rfl⟩, by omega⟩

/-- One direction. -/
theorem one_accuracy {X : Direction} {n : ℕ} {b : ℕ → ℝ} {S : Set ℝ} {L H : ℝ} (h : Cubic X n b S L) (hH : ∀ q < n, b (q + 1) - b q ≤ H) {q : ℕ} (hq : q < n) {x : ℝ} (hx : x ∈ Set.Icc (b q) (b (q + 1))) {k : ℕ} (hk : k ≤ 2)
    {a : ℕ → ℝ} (ha : ∀ c, derivAt X.t X.d X.N q k x c = ∑ i ∈ range X.N, a i * X.row i c)
    {G : ℕ → ℝ → ℝ} {M : ℝ} (hG : ∀ k < 4, ∀ x ∈ S, HasDerivWithinAt (G k) (G (k + 1) x) S x) (hper : ∀ x, G 0 (x + L) = G 0 x) (hM : ∀ x ∈ S, |G 4 x| ≤ M) :
    |G k x - ∑ i ∈ range X.N, a i * G (X.order i) (X.pt i)| ≤ 7 * M * H ^ (4 - k) := by
  obtain ⟨c, hc, -⟩ := one_solution h.standard fun i => G (X.order i) (X.pt i)
  have e : ∑ i ∈ range X.N, a i * G (X.order i) (X.pt i) = derivAt X.t X.d X.N q k x c := by
    rw [ha]
    exact sum_congr rfl fun i hi => by rw [hc i (mem_range.1 hi)]
  rw [e]
  cases h with
  | periodic _ _ hn hb =>
    have := c116_periodic_accuracy hn hb (G := G) (c := c) (fun q hq => hc q hq) (fun k hk x => (hG k hk x trivial).hasDerivAt Filter.univ_mem) hper (fun x => hM x trivial) hH q hq x hx
    interval_cases k
    · exact this.1
    · exact this.2.1
    · exact this.2.2
  | hermite _ _ hn hb =>
    have h1 := (hermite_rows n 1 b _ c).1 hc
    have := c116_hermite_accuracy hn hb (G := G) (c := c) h1 (fun q hq => by
      show G ((hermiteDir n 3 b).order q) ((hermiteDir n 3 b).pt q) = _
      simp only [hermiteDir, if_pos hq]) (by simp [hermiteDir]) (by simp [hermiteDir, show n + 1 + 1 - n - 1 = 1 by omega]) hG hM hH q hq x hx
    interval_cases k
    · exact this.1
    · exact this.2.1
    · exact this.2.2

/-- C118 (accuracy): the values and the derivatives, up to the second in each direction, of the cubic spline. `F i j` is the derivative of orders `i` and `j` of the function. -/
theorem c118_accuracy {X Y : Direction} {n1 n2 : ℕ} {b1 b2 : ℕ → ℝ} {S T : Set ℝ} {L1 L2 H1 H2 : ℝ} (hX : Cubic X n1 b1 S L1) (hY : Cubic Y n2 b2 T L2)
    (hH1 : ∀ q < n1, b1 (q + 1) - b1 q ≤ H1) (hH2 : ∀ q < n2, b2 (q + 1) - b2 q ≤ H2) {F : ℕ → ℕ → ℝ → ℝ → ℝ}
    (hF1 : ∀ i < 4, ∀ j ≤ 4, ∀ x ∈ S, ∀ y ∈ T, HasDerivWithinAt (fun x => F i j x y) (F (i + 1) j x y) S x)
    (hF2 : ∀ i ≤ 4, ∀ j < 4, ∀ x ∈ S, ∀ y ∈ T, HasDerivWithinAt (fun y => F i j x y) (F i (j + 1) x y) T y)
    (hp1 : ∀ j ≤ 4, ∀ x, ∀ y, F 0 j (x + L1) y = F 0 j x y) (hp2 : ∀ i ≤ 4, ∀ x, ∀ y, F i 0 x (y + L2) = F i 0 x y)
    {c : ℕ → ℕ → ℝ} (hc : Interpolant2 X Y (fun i l => F (X.order i) (Y.order l) (X.pt i) (Y.pt l)) c)
    {q1 q2 : ℕ} (hq1 : q1 < n1) (hq2 : q2 < n2) {x y : ℝ} (hx : x ∈ Set.Icc (b1 q1) (b1 (q1 + 1))) (hy : y ∈ Set.Icc (b2 q2) (b2 (q2 + 1))) {k l : ℕ} (hk : k ≤ 2) (hl : l ≤ 2)
    {M1 M2 M12 : ℝ} (hM1 : ∀ x ∈ S, ∀ y ∈ T, |F 4 l x y| ≤ M1) (hM2 : ∀ x ∈ S, ∀ y ∈ T, |F k 4 x y| ≤ M2) (hM12 : ∀ x ∈ S, ∀ y ∈ T, |F 4 4 x y| ≤ M12) :
    |F k l x y - deriv2 X Y q1 k x q2 l y c| ≤ 7 * M1 * H1 ^ (4 - k) + 7 * M2 * H2 ^ (4 - l) + 7 * (7 * M12 * H2 ^ (4 - l)) * H1 ^ (4 - k) := by
  obtain ⟨a, ha⟩ := weights hX.standard q1 k x
  obtain ⟨w, hw⟩ := weights hY.standard q2 l y
  have inS : x ∈ S := by
    cases hX with
    | periodic => trivial
    | hermite _ _ hn hb => exact ⟨(b_mono hb _ _ (Nat.zero_le _) hq1.le).trans hx.1, hx.2.trans (b_mono hb _ _ hq1 le_rfl)⟩
  have inT : y ∈ T := by
    cases hY with
    | periodic => trivial
    | hermite _ _ hn hb => exact ⟨(b_mono hb _ _ (Nat.zero_le _) hq2.le).trans hy.1, hy.2.trans (b_mono hb _ _ hq2 le_rfl)⟩
  have hd : deriv2 X Y q1 k x q2 l y c = ∑ i ∈ range X.N, a i * ∑ m ∈ range Y.N, w m * F (X.order i) (Y.order m) (X.pt i) (Y.pt m) := by
    rw [deriv2_nested, ha]
    refine sum_congr rfl fun i hi => ?_
    congr 1
    have : X.row i (fun j => derivAt Y.t Y.d Y.N q2 l y (c j)) = ∑ m ∈ range Y.N, w m * X.row i (fun j => Y.row m (c j)) := by
      rw [show (fun j => derivAt Y.t Y.d Y.N q2 l y (c j)) = fun j => ∑ m ∈ range Y.N, w m * Y.row m (c j) from funext fun j => hw (c j), Direction.row, derivAt_sum]
      rfl
    rw [this]
    refine sum_congr rfl fun m hm => ?_
    have := hc i (mem_range.1 hi) m (mem_range.1 hm)
    rw [deriv2_nested] at this
    congr 1
  -- the three parts
  have A := one_accuracy hX hH1 hq1 hx hk ha (G := fun i x => F i l x y) (M := M1) (fun i hi x' hx' => hF1 i hi l (by omega) x' hx' y inT) (fun x' => hp1 l (by omega) x' y) (fun x' hx' => hM1 x' hx' y inT)
  have B : ∀ i ≤ 4, ∀ x' ∈ S, ∀ M : ℝ, (∀ y' ∈ T, |F i 4 x' y'| ≤ M) → |F i l x' y - ∑ m ∈ range Y.N, w m * F i (Y.order m) x' (Y.pt m)| ≤ 7 * M * H2 ^ (4 - l) := fun i hi x' hx' M hM =>
    one_accuracy hY hH2 hq2 hy hl hw (G := fun j y => F i j x' y) (fun j hj y' hy' => hF2 i hi j hj x' hx' y' hy') (fun y' => hp2 i hi x' y') hM
  have C := one_accuracy hX hH1 hq1 hx hk ha (G := fun i x => F i l x y - ∑ m ∈ range Y.N, w m * F i (Y.order m) x (Y.pt m)) (M := 7 * M12 * H2 ^ (4 - l))
    (fun i hi x' hx' => by
      refine (hF1 i hi l (by omega) x' hx' y inT).sub (HasDerivWithinAt.fun_sum fun m hm => ?_)
      have hp := hY.points m (mem_range.1 hm)
      exact (hF1 i hi _ (by omega) x' hx' _ hp.1).const_mul _)
    (fun x' => by
      rw [hp1 l (by omega)]
      congr 1
      refine sum_congr rfl fun m hm => ?_
      rw [hp1 _ (by have := (hY.points m (mem_range.1 hm)).2; omega)])
    (fun x' hx' => B 4 le_rfl x' hx' M12 fun y' hy' => hM12 x' hx' y' hy')
  have B' := B k (by omega) x inS M2 fun y' hy' => hM2 x inS y' hy'
  beta_reduce at A C
  rw [hd]
  have split : F k l x y - ∑ i ∈ range X.N, a i * ∑ m ∈ range Y.N, w m * F (X.order i) (Y.order m) (X.pt i) (Y.pt m) =
      (F k l x y - ∑ i ∈ range X.N, a i * F (X.order i) l (X.pt i) y) + (F k l x y - ∑ m ∈ range Y.N, w m * F k (Y.order m) x (Y.pt m)) -
      (F k l x y - ∑ m ∈ range Y.N, w m * F k (Y.order m) x (Y.pt m) - ∑ i ∈ range X.N, a i * (F (X.order i) l (X.pt i) y - ∑ m ∈ range Y.N, w m * F (X.order i) (Y.order m) (X.pt i) (Y.pt m))) := by
    simp only [mul_sub, sum_sub_distrib]
    ring
  rw [split]
  refine (abs_sub _ _).trans (add_le_add ((abs_add_le _ _).trans (add_le_add A B')) C)

/-- C118 (the builder of the poloidal plane): at the Greville points in the radial direction and at the break points in the periodic one, any degree in the first and any odd degree in the second. -/
theorem c118_poloidal {n d : ℕ} {b : ℕ → ℝ} (hn : 1 ≤ n) (hd : 1 ≤ d) (hb : ∀ i < n, b i < b (i + 1)) {m e : ℕ} {b' : ℕ → ℝ} (hm : 1 ≤ m) (hb' : ∀ i < m, b' i < b' (i + 1)) :
    ∃ q : ℕ → ℕ, (∀ i < n + d, q i < n ∧ greville n d b i ∈ Set.Icc (b (q i)) (b (q i + 1))) ∧ ∀ v : ℕ → ℕ → ℝ, ∃ c, Interpolant2 (pointsDir n d b q (greville n d b)) (periodicDir m (2 * e + 1) b') v c ∧
      ∀ c', Interpolant2 (pointsDir n d b q (greville n d b)) (periodicDir m (2 * e + 1) b') v c' → ∀ j < n + d, ∀ l < m, c' j l = c j l := by
  obtain ⟨h1, h2, h3, h4⟩ := greville_points hn hd hb
  have : ∀ i, ∃ q, i < n + d → q < n ∧ greville n d b i ∈ Set.Icc (b q) (b (q + 1)) := fun i => by
    by_cases hi : i < n + d
    · obtain ⟨q, hq⟩ := h1 i hi
      exact ⟨q, fun _ => hq⟩
    · exact ⟨0, fun h => absurd h hi⟩
  choose q hq using this
  exact ⟨q, hq, fun v => c118_unique (.points n d b q _ hn hd hb hq h2 h3 h4) (.periodic m e b' hm hb') v⟩

/-- Instance: `sin x sin y`, periodic with 40 cells in `x`, with the derivatives given on the walls `y = 0` and `y = 1` of 10 cells. -/
example : ∃ c, ∀ q1 : ℕ, q1 < 40 → ∀ q2 : ℕ, q2 < 10 → ∀ x ∈ Set.Icc ((q1 : ℝ) * (2 * Real.pi / 40)) ((q1 + 1 : ℕ) * (2 * Real.pi / 40)), ∀ y ∈ Set.Icc ((q2 : ℝ) * (1 / 10)) ((q2 + 1 : ℕ) * (1 / 10)),
    |Real.cos x * Real.sin y - deriv2 (periodicDir 40 3 fun i => (i : ℝ) * (2 * Real.pi / 40)) (hermiteDir 10 3 fun i => (i : ℝ) * (1 / 10)) q1 1 x q2 0 y c| ≤
      7 * 1 * (2 * Real.pi / 40) ^ 3 + 7 * 1 * (1 / 10) ^ 4 + 7 * (7 * 1 * (1 / 10) ^ 4) * (2 * Real.pi / 40) ^ 3 := by
  have hpi := Real.pi_pos
  obtain ⟨F, hF⟩ : ∃ F : ℕ → ℕ → ℝ → ℝ → ℝ, F = fun (i j : ℕ) (x y : ℝ) => Real.sin (x + i * (Real.pi / 2)) * Real.sin (y + j * (Real.pi / 2)) := ⟨_, rfl⟩
  have hsin : ∀ (i : ℕ) (x : ℝ), HasDerivAt (fun x => Real.sin (x + i * (Real.pi / 2))) (Real.sin (x + (i + 1 : ℕ) * (Real.pi / 2))) x := fun i x => by
    have := ((hasDerivAt_id x).add_const ((i : ℝ) * (Real.pi / 2))).sin
    rw [show x + (i + 1 : ℕ) * (Real.pi / 2) = (x + i * (Real.pi / 2)) + Real.pi / 2 by push_cast; ring, Real.sin_add_pi_div_two]
    simpa using this
  have hbd : ∀ i j x y, |F i j x y| ≤ 1 := fun i j x y => by
    rw [hF]
    beta_reduce
    rw [abs_mul]
    exact mul_le_one₀ (Real.abs_sin_le_one _) (abs_nonneg _) (Real.abs_sin_le_one _)
  have hX : Cubic (periodicDir 40 3 fun i => (i : ℝ) * (2 * Real.pi / 40)) 40 (fun i => (i : ℝ) * (2 * Real.pi / 40)) Set.univ ((40 : ℕ) * (2 * Real.pi / 40) - (0 : ℕ) * (2 * Real.pi / 40)) :=
    .periodic 40 (fun i => (i : ℝ) * (2 * Real.pi / 40)) (by norm_num) fun i _ => by push_cast; nlinarith
  have hY : Cubic (hermiteDir 10 3 fun i => (i : ℝ) * (1 / 10)) 10 (fun i => (i : ℝ) * (1 / 10)) (Set.Icc ((0 : ℕ) * (1 / 10)) ((10 : ℕ) * (1 / 10))) 0 :=
    .hermite 10 (fun i => (i : ℝ) * (1 / 10)) (by norm_num) fun i _ => by push_cast; linarith
  obtain ⟨c, hc, -⟩ := c118_unique hX.standard hY.standard fun i l => F ((periodicDir 40 3 fun i => (i : ℝ) * (2 * Real.pi / 40)).order i) ((hermiteDir 10 3 fun i => (i : ℝ) * (1 / 10)).order l)
    ((periodicDir 40 3 fun i => (i : ℝ) * (2 * Real.pi / 40)).pt i) ((hermiteDir 10 3 fun i => (i : ℝ) * (1 / 10)).pt l)
  refine ⟨c, fun q1 h1 q2 h2 x hx y hy => ?_⟩
  have := c118_accuracy (H1 := 2 * Real.pi / 40) (H2 := 1 / 10) hX hY (fun q _ => by push_cast; linarith) (fun q _ => by push_cast; linarith) (F := F)
    (fun i _ j _ x _ y _ => by rw [hF]; exact ((hsin i x).mul_const _).hasDerivWithinAt) (fun i _ j _ x _ y _ => by rw [hF]; exact ((hsin j y).const_mul _).hasDerivWithinAt)
    (fun j _ x y => by
      rw [hF]
      beta_reduce
      rw [show x + ((40 : ℕ) * (2 * Real.pi / 40) - (0 : ℕ) * (2 * Real.pi / 40)) + (0 : ℕ) * (Real.pi / 2) = x + (0 : ℕ) * (Real.pi / 2) + 2 * Real.pi by push_cast; ring, Real.sin_add_two_pi])
    (fun i _ x y => by rw [add_zero]) hc h1 h2 hx hy (k := 1) (l := 0) (by norm_num) (by norm_num) (fun x _ y _ => hbd _ _ x y) (fun x _ y _ => hbd _ _ x y) (fun x _ y _ => hbd _ _ x y)
  have e : F 1 0 x y = Real.cos x * Real.sin y := by
    rw [hF]
    simp [Real.sin_add_pi_div_two]
  rw [e] at this
  exact this

end

end Verif.SplineInterp
