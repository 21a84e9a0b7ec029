import Verif.Model.Lagrange
import Mathlib.Data.Finset.Powerset
import Mathlib.Algebra.BigOperators.Group.List.Basic
import Mathlib.Algebra.BigOperators.Group.Finset.Basic
import Mathlib.Algebra.BigOperators.Ring.Finset
import Mathlib.Order.Interval.Finset.Nat
import Mathlib.Tactic.Ring
import Mathlib.Tactic.Linarith

/-! # The loop over combinations in the Lagrange derivatives visits every subset exactly once

Helper lemmas for C18. -/

namespace Verif.Lagrange

open Function

/-! ## Lexicographic successor on lists of ranks -/

/-- Lexicographic successor among the increasing lists bounded by `m` (proof device). -/
def next (m : ℕ) : List ℕ → Option (List ℕ)
  | [] => none
  | c :: cs => match next m cs with
    | some cs' => some (c :: cs')
    | none => if c + (cs.length + 1) = m then none else some ((c + 1) :: List.range' (c + 2) cs.length)

/-- `Runs m c L`: iterating `next` from `c` until it stops visits the lists `L` (proof device). -/
inductive Runs (m : ℕ) : List ℕ → List (List ℕ) → Prop
  | last {c} : next m c = none → Runs m c [c]
  | step {c c' L} : next m c = some c' → Runs m c' L → Runs m c (c :: L)

/-- All increasing lists of length `l` in `[lo, lo+g)`, in lexicographic order (proof device). -/
def lexAll : ℕ → ℕ → ℕ → List (List ℕ)
  | _, 0, _ => [[]]
  | 0, _ + 1, _ => []
  | g + 1, l + 1, lo => (lexAll g l (lo + 1)).map (lo :: ·) ++ lexAll g (l + 1) (lo + 1)

theorem lexAll_eq_nil (g l lo : ℕ) (h : g < l) : lexAll g l lo = [] := by
  induction g generalizing l lo with
  | zero => cases l with
    | zero => omega
    | succ l => rfl
  | succ g ih => cases l with
    | zero => omega
    | succ l => simp [lexAll, ih l _ (by omega), ih (l + 1) _ (by omega)]

theorem next_length {m : ℕ} : ∀ {c c' : List ℕ}, next m c = some c' → c'.length = c.length := by
  intro c
  induction c with
  | nil => intro c' h; simp [next] at h
  | cons a c ihc =>
    intro c' h
    simp only [next] at h
    split at h
    · rename_i cs' hcs'
      cases h; simp [ihc hcs']
    · split at h
      · simp at h
      · cases h; simp

theorem Runs.cons_none {m v : ℕ} {cs L} (h : Runs m cs L)
    (hv : v + (cs.length + 1) = m) : Runs m (v :: cs) (L.map (v :: ·)) := by
  induction h with
  | @last c h => exact Runs.last (by simp [next, h, hv])
  | @step c c' L h hr ih =>
    have hl := next_length h
    rw [← hl] at hv
    exact Runs.step (c' := v :: c') (by simp [next, h]) (ih hv)

theorem Runs.cons_some {m v : ℕ} {cs L L'} (h : Runs m cs L)
    (hv : v + (cs.length + 1) ≠ m)
    (hr : Runs m ((v + 1) :: List.range' (v + 2) cs.length) L') :
    Runs m (v :: cs) (L.map (v :: ·) ++ L') := by
  induction h with
  | @last c h =>
    exact Runs.step (by simp [next, h, hv]) hr
  | @step c c' L h _ ih =>
    have hl := next_length h
    rw [← hl] at hv hr
    exact Runs.step (c' := v :: c') (by simp [next, h]) (ih hv hr)

theorem runs_lexAll (m g l lo : ℕ) (hm : lo + g = m) (hl : l ≤ g) :
    Runs m (List.range' lo l) (lexAll g l lo) := by
  induction g generalizing l lo with
  | zero => obtain rfl : l = 0 := by omega
            exact Runs.last rfl
  | succ g ih =>
    cases l with
    | zero => exact Runs.last rfl
    | succ l =>
      have h1 := ih l (lo + 1) (by omega) (by omega)
      rw [List.range'_succ, lexAll]
      by_cases hlg : l = g
      · rw [lexAll_eq_nil g (l + 1) _ (by omega), List.append_nil]
        exact h1.cons_none (by simp; omega)
      · have h2 := ih (l + 1) (lo + 1) (by omega) (by omega)
        rw [List.range'_succ] at h2
        exact h1.cons_some (by simp; omega) (by simpa using h2)

/-! ## Sums over all combinations -/

theorem sum_lexAll (f : ℕ → ℝ) (g l lo : ℕ) :
    ((lexAll g l lo).map fun c => (c.map f).prod).sum
      = ∑ S ∈ (Finset.Ico lo (lo + g)).powersetCard l, ∏ k ∈ S, f k := by
  induction g generalizing l lo with
  | zero => cases l with
    | zero => simp [lexAll]
    | succ l => 
      have : (∅ : Finset ℕ).powersetCard (l + 1) = ∅ := Finset.powersetCard_eq_empty.2 (by simp)
      simp [lexAll, this]
  | succ g ih => cases l with
    | zero => simp [lexAll]
    | succ l =>
      have hI : Finset.Ico lo (lo + (g + 1)) = insert lo (Finset.Ico (lo + 1) (lo + 1 + g)) := by
        ext k; simp; omega
      have hn : lo ∉ Finset.Ico (lo + 1) (lo + 1 + g) := by simp
      rw [hI, Finset.powersetCard_succ_insert hn, Finset.sum_union]
      · rw [lexAll, List.map_append, List.sum_append, ih, add_comm]
        congr 1
        rw [List.map_map, Finset.sum_image]
        · rw [show ((fun c : List ℕ => (c.map f).prod) ∘ fun x => lo :: x)
              = fun c => f lo * (c.map f).prod from funext fun c => by simp,
            List.sum_map_mul_left, ih, Finset.mul_sum]
          apply Finset.sum_congr rfl
          intro S hS
          rw [Finset.prod_insert]
          intro h
          exact hn ((Finset.mem_powersetCard.1 hS).1 h)
        · intro S hS T hT h
          have hS' : lo ∉ S := fun h => hn ((Finset.mem_powersetCard.1 hS).1 h)
          have hT' : lo ∉ T := fun h => hn ((Finset.mem_powersetCard.1 hT).1 h)
          rw [← Finset.erase_insert hS', h, Finset.erase_insert hT']
      · rw [Finset.disjoint_left]
        intro S hS hT
        obtain ⟨T, _, rfl⟩ := Finset.mem_image.1 hT
        exact hn ((Finset.mem_powersetCard.1 hS).1 (Finset.mem_insert_self _ _))

/-! ## The array machine follows `next` -/

/-- The `r`-th natural number different from `j`. -/
def unrank (j r : ℕ) : ℕ := if r < j then r else r + 1

theorem skip_unrank (j r : ℕ) : skip j ((unrank j r : ℤ) + 1) = unrank j (r + 1) := by
  unfold skip unrank
  split_ifs <;> push_cast <;> omega

theorem maxVal_eq (D n j i : ℕ) (h : n ≤ D + i) : maxVal D n j i = unrank j (D + i - n) := by
  unfold maxVal unrank
  split_ifs <;> omega

theorem unrank_inj (j : ℕ) {r s : ℕ} (h : unrank j r = unrank j s) : r = s := by
  unfold unrank at h; split_ifs at h <;> omega

theorem foldl_fill (j i cnt : ℕ) (comb : ℕ → ℤ) (v : ℕ) (hv : comb i = unrank j v) (k : ℕ) :
    (List.range' (i + 1) cnt).foldl (fun c k => update c k (skip j (c (k - 1) + 1))) comb k
      = if i < k ∧ k < i + 1 + cnt then (unrank j (v + (k - i)) : ℤ) else comb k := by
  induction cnt generalizing k with
  | zero => simp; intro h1 h2; omega
  | succ cnt ih =>
    rw [List.range'_concat, List.foldl_append]
    simp only [List.foldl_cons, List.foldl_nil, Nat.one_mul]
    by_cases hk : k = i + 1 + cnt
    · subst hk
      rw [update_self, ih]
      rw [if_pos (show i < i + 1 + cnt ∧ i + 1 + cnt < i + 1 + (cnt + 1) by omega)]
      have hprev : (if i < i + 1 + cnt - 1 ∧ i + 1 + cnt - 1 < i + 1 + cnt then
          (unrank j (v + (i + 1 + cnt - 1 - i)) : ℤ) else comb (i + 1 + cnt - 1)) = unrank j (v + cnt) := by
        by_cases hc : cnt = 0
        · subst hc; simp [hv]
        · rw [if_pos (by omega)]; congr 2; omega
      rw [hprev, skip_unrank]
      congr 2; omega
    · rw [update_of_ne hk, ih]
      congr 1
      apply propext; omega

theorem bumpFill_apply (j n i : ℕ) (hi : i < n) (comb : ℕ → ℤ) (v : ℕ)
    (hv : skip j (comb i + 1) = unrank j v) (k : ℕ) (hk : k < n) :
    bumpFill j n i comb k = if k < i then comb k else (unrank j (v + (k - i)) : ℤ) := by
  unfold bumpFill
  rw [foldl_fill j i (n - 1 - i) _ v (by rw [update_self, hv])]
  by_cases h1 : k < i
  · rw [if_neg (by omega), if_pos h1, update_of_ne (by omega)]
  · rw [if_neg h1]
    by_cases h2 : k = i
    · subst h2; rw [if_neg (by omega), update_self, hv]; simp
    · rw [if_pos (by omega)]

/-- The array `comb` holds the list `c` of ranks. -/
def Rep (j : ℕ) (comb : ℕ → ℤ) (c : List ℕ) : Prop :=
  ∀ k (h : k < c.length), comb k = unrank j c[k]

theorem next_append_of_none (m : ℕ) (pre post : List ℕ) (v : ℕ) (hpost : next m post = none)
    (hv : v + (post.length + 1) ≠ m) :
    next m (pre ++ v :: post) = some (pre ++ (v + 1) :: List.range' (v + 2) post.length) := by
  induction pre with
  | nil => simp [next, hpost, hv]
  | cons a pre ih => simp only [List.cons_append, next, ih]

/-- Effect of the backward scan on the suffix of the list starting at position `i`. -/
theorem back_spec (D n j : ℕ) (hn : n ≤ D) (comb : ℕ → ℤ) (c : List ℕ) (hc : c.length = n)
    (hrep : Rep j comb c) (i : ℕ) (hi : i ≤ n) (hsuf : next D (c.drop i) = none) :
    (back D n j comb i = 0 ∧ next D c = none) ∨
    (∃ p v, back D n j comb i = p + 1 ∧ p < n ∧ comb p = unrank j v ∧
      next D c = some (c.take p ++ (v + 1) :: List.range' (v + 2) (n - p - 1))) := by
  induction i with
  | zero => left; exact ⟨rfl, by simpa using hsuf⟩
  | succ i ih =>
    have hlt : i < c.length := by omega
    have hdrop : c.drop i = c[i] :: c.drop (i + 1) := List.drop_eq_getElem_cons hlt
    have hci := hrep i hlt
    unfold back
    split_ifs with h
    · apply ih (by omega)
      rw [hdrop, next, hsuf]
      have : c[i] = D + i - n := by
        apply unrank_inj j
        rw [maxVal_eq D n j i (by omega), hci] at h
        exact_mod_cast h
      simp; omega
    · right
      refine ⟨i, c[i], rfl, by omega, hci, ?_⟩
      have hne : c[i] + ((c.drop (i + 1)).length + 1) ≠ D := by
        intro h'
        apply h
        rw [maxVal_eq D n j i (by omega), hci]
        simp at h'
        congr 2; omega
      have := next_append_of_none D (c.take i) (c.drop (i + 1)) c[i] hsuf hne
      rw [← hdrop, List.take_append_drop] at this
      rw [this]
      have hlen : (c.drop (i + 1)).length = n - i - 1 := by simp [hc]; omega
      rw [hlen]

theorem rep_bump (j n p v : ℕ) (comb : ℕ → ℤ) (c : List ℕ) (hc : c.length = n) (hp : p < n)
    (hrep : Rep j comb c) (hv : comb p = unrank j v) :
    Rep j (bumpFill j n p comb) (c.take p ++ (v + 1) :: List.range' (v + 2) (n - p - 1)) := by
  intro k hk
  simp only [List.length_append, List.length_take, List.length_cons, List.length_range', hc] at hk
  have hkn : k < n := by omega
  rw [bumpFill_apply j n p hp comb (v + 1) (by rw [hv, skip_unrank]) k hkn]
  split_ifs with h
  · rw [List.getElem_append_left (by simp; omega), List.getElem_take]
    exact hrep k (by omega)
  · rw [List.getElem_append_right (by simp; omega)]
    congr 2
    have hmin : min p c.length = p := by omega
    simp only [List.length_take, hmin]
    by_cases hkp : k = p
    · subst hkp; simp
    · rw [List.getElem_cons]
      rw [dif_neg (by omega), List.getElem_range']
      omega

theorem foldl_mul_eq (f : ℕ → ℝ) (n : ℕ) (a : ℝ) :
    (List.range n).foldl (fun d k => d * f k) a = a * ((List.range n).map f).prod := by
  induction n with
  | zero => simp
  | succ n ih => rw [List.range_succ, List.foldl_append, ih, List.map_append, List.prod_append]; simp; ring

/-- Value added to `factor` by one iteration in state `c`. -/
noncomputable def contrib (j : ℕ) (term : ℤ → ℝ) (c : List ℕ) : ℝ :=
  (c.map fun r => (term (unrank j r))⁻¹).prod

theorem divisor_eq (j : ℕ) (term : ℤ → ℝ) (comb : ℕ → ℤ) (c : List ℕ) (hrep : Rep j comb c) :
    1 / (List.range c.length).foldl (fun d k => d * term (comb k)) 1 = contrib j term c := by
  rw [foldl_mul_eq (fun k => term (comb k)), one_mul, contrib, one_div]
  have : (List.range c.length).map (fun k => term (comb k)) = c.map fun r => term (unrank j r) := by
    apply List.ext_getElem (by simp)
    intro k h1 h2
    simp only [List.getElem_map, List.getElem_range]
    rw [hrep k (by simpa using h1)]
  rw [this]
  clear this hrep
  induction c with
  | nil => simp
  | cons a c ih => simp only [List.map_cons, List.prod_cons, mul_inv, ih]

/-- One run of the loop, starting at a bump that leads to the state `c`. -/
theorem factorLoop_runs (D n j : ℕ) (hn : n ≤ D) (term : ℤ → ℝ) (c : List ℕ) (L : List (List ℕ))
    (hr : Runs D c L) :
    ∀ (comb : ℕ → ℤ) (i : ℕ) (factor : ℝ), c.length = n → Rep j (bumpFill j n i comb) c →
      ∀ fuel, L.length ≤ fuel →
      factorLoop D n j term fuel comb i factor = some (factor + (L.map (contrib j term)).sum) := by
  induction hr with
  | @last c h =>
    intro comb i factor hc hrep fuel hf
    obtain ⟨f, rfl⟩ : ∃ f, fuel = f + 1 := ⟨fuel - 1, by simp at hf; omega⟩
    have hb := back_spec D n j hn _ c hc hrep n le_rfl (by rw [← hc]; simp [next])
    rcases hb with ⟨hb, _⟩ | ⟨p, v, _, _, _, hnx⟩
    · simp only [factorLoop, hb]
      have hdiv := divisor_eq j term _ c hrep
      rw [hc] at hdiv
      rw [hdiv]; simp
    · rw [h] at hnx; cases hnx
  | @step c c' L h hr ih =>
    intro comb i factor hc hrep fuel hf
    obtain ⟨f, rfl⟩ : ∃ f, fuel = f + 1 := ⟨fuel - 1, by simp at hf; omega⟩
    have hb := back_spec D n j hn _ c hc hrep n le_rfl (by rw [← hc]; simp [next])
    rcases hb with ⟨_, hnx⟩ | ⟨p, v, hb, hp, hv, hnx⟩
    · rw [h] at hnx; cases hnx
    · simp only [factorLoop, hb]
      have hrep' := rep_bump j n p v _ c hc hp hrep hv
      rw [h] at hnx
      cases hnx
      have hdiv := divisor_eq j term _ c hrep
      rw [hc] at hdiv
      rw [hdiv, ih _ p _ (by simp [hc]; omega) hrep' f (by simp at hf; omega)]
      simp only [List.map_cons, List.sum_cons]; congr 1; ring

theorem rep_init (j n : ℕ) (hn : 0 < n) : Rep j (bumpFill j n 0 initComb) (List.range' 0 n) := by
  intro k hk
  have hk : k < n := by simpa using hk
  rw [bumpFill_apply j n 0 hn initComb 0 _ k hk]
  · simp
  · simp [initComb, skip, unrank]
    split_ifs <;> omega

/-- The sum accumulated by the loop is the sum over all `n`-element subsets of the nodes other than `j`;
the loop terminates (for any large enough fuel the result is the same). -/
theorem factorLoop_eq (D n j : ℕ) (hn : 0 < n) (hnD : n ≤ D) (hj : j ≤ D) (term : ℤ → ℝ) :
    ∃ F, ∀ fuel ≥ F, factorLoop D n j term fuel initComb 0 0
      = some (∑ S ∈ ((Finset.range (D + 1)).erase j).powersetCard n, ∏ k ∈ S, (term k)⁻¹) := by
  refine ⟨(lexAll D n 0).length, fun fuel hf => ?_⟩
  rw [factorLoop_runs D n j hnD term _ _ (runs_lexAll D D n 0 (by omega) hnD) initComb 0 0 (by simp)
    (rep_init j n hn) fuel hf, zero_add]
  congr 1
  have h := sum_lexAll (fun r => (term (unrank j r))⁻¹) D n 0
  rw [show (lexAll D n 0).map (contrib j term) = (lexAll D n 0).map fun c => (c.map fun r =>
    (term (unrank j r))⁻¹).prod from rfl, h]
  let emb : ℕ ↪ ℕ := ⟨unrank j, fun a b h => unrank_inj j h⟩
  have hemb : ∀ r, emb r = unrank j r := fun _ => rfl
  have himg : (Finset.Ico 0 (0 + D)).map emb = (Finset.range (D + 1)).erase j := by
    ext k
    simp only [Finset.mem_map, Finset.mem_Ico, hemb, Finset.mem_erase, Finset.mem_range]
    constructor
    · rintro ⟨r, hr, rfl⟩; unfold unrank; split_ifs <;> omega
    · rintro ⟨h1, h2⟩
      refine ⟨if k < j then k else k - 1, ?_, ?_⟩
      · split_ifs <;> omega
      · unfold unrank; split_ifs <;> omega
  rw [← himg, Finset.powersetCard_map, Finset.sum_map]
  apply Finset.sum_congr rfl
  intro S _
  change _ = ∏ k ∈ S.map emb, (term k)⁻¹
  rw [Finset.prod_map]
  rfl

end Verif.Lagrange
