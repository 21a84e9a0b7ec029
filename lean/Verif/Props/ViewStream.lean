import Verif.Model.ViewStream
import Mathlib.Tactic.NormNum
import Mathlib.Data.List.Basic

/-!
# C92: what is printed for a view determines the view
-/
namespace Verif.ViewStream

open Pdi (Out)

variable {E : Type*}

/-- Specification: a multi-index of a view. -/
def Valid (idx extents : List ℕ) : Prop := List.Forall₂ (· < ·) idx extents

/-- Specification: the printed elements are different for different elements and contain no bracket and no comma. -/
def Readable (pr : E → List Char) : Prop :=
  Function.Injective pr ∧ ∀ e, ∀ c ∈ pr e, c ≠ ',' ∧ c ≠ ']' ∧ c ≠ '['

theorem rows_ok (row : ℕ → Out (List Char)) (l : List ℕ) (h : ∀ i ∈ l, ∃ b, row i = .ok b) : ∃ b, streamRows row l = .ok b := by
  induction l with
  | nil => exact ⟨[], rfl⟩
  | cons a l ih =>
    obtain ⟨b, hb⟩ := h a (by simp)
    obtain ⟨c, hc⟩ := ih fun i hi => h i (by simp [hi])
    exact ⟨b ++ c, by simp [streamRows, hb, hc, Out.bind]⟩

/-- **C92** Printing a view whose dimensions are not empty always succeeds. -/
theorem c92_defined (pr : E → List Char) (extents : List ℕ) (s : List ℕ → E) (h : ∀ n ∈ extents, 0 < n) :
    ∃ b, stream pr extents s = .ok b := by
  induction extents generalizing s with
  | nil => exact ⟨[], rfl⟩
  | cons n es ih =>
    cases es with
    | nil =>
      have : n ≠ 0 := (h n (by simp)).ne'
      exact ⟨_, by rw [stream, streamLine, if_neg this]⟩
    | cons m es =>
      obtain ⟨b, hb⟩ := rows_ok (fun i0 => stream pr (m :: es) fun idx => s (i0 :: idx)) (List.range n)
        (fun i _ => ih _ fun k hk => h k (by simp [hk]))
      exact ⟨_, by rw [stream, hb]; rfl⟩

/-- **C92** (finding) A view with an empty last dimension (and no other empty one) cannot be printed: elements which do not exist are read. -/
theorem c92_empty (pr : E → List Char) (extents : List ℕ) (s : List ℕ → E) (h : ∀ n ∈ extents, 0 < n) : stream pr (extents ++ [0]) s = .ub := by
  induction extents generalizing s with
  | nil => rfl
  | cons n es ih =>
    have key : ∀ m es', es ++ [0] = m :: es' → stream pr (n :: (es ++ [0])) s = .ub := by
      intro m es' he
      rw [he, stream]
      obtain ⟨k, rfl⟩ : ∃ k, n = k + 1 := ⟨n - 1, by have := h n (by simp); omega⟩
      rw [List.range_succ_eq_map, streamRows]
      have := ih (fun idx => s (0 :: idx)) fun k hk => h k (by simp [hk])
      rw [he] at this
      rw [this]
      rfl
    cases es with
    | nil => exact key 0 [] rfl
    | cons m es => exact key m (es ++ [0]) rfl

theorem split_unique {P : Char → Prop} (a a' : List Char) (c c' : Char) (X X' : List Char) (ha : ∀ x ∈ a, ¬ P x) (ha' : ∀ x ∈ a', ¬ P x) (hc : P c) (hc' : P c')
    (h : a ++ c :: X = a' ++ c' :: X') : a = a' ∧ c = c' ∧ X = X' := by
  induction a generalizing a' with
  | nil =>
    cases a' with
    | nil => simpa using h
    | cons y a' =>
      simp only [List.nil_append, List.cons_append, List.cons.injEq] at h
      exact absurd (h.1 ▸ hc) (ha' y (by simp))
  | cons x a ih =>
    cases a' with
    | nil =>
      simp only [List.nil_append, List.cons_append, List.cons.injEq] at h
      exact absurd (h.1 ▸ hc') (ha x (by simp))
    | cons y a' =>
      simp only [List.cons_append, List.cons.injEq] at h
      obtain ⟨h1, h2, h3⟩ := ih a' (fun z hz => ha z (by simp [hz])) (fun z hz => ha' z (by simp [hz])) h.2
      exact ⟨by rw [h.1, h1], h2, h3⟩

/-- The body of a line, recursively: the elements at `i`, ..., `i + k`. -/
def body (pr : E → List Char) (s : ℕ → E) : ℕ → ℕ → List Char
  | i, 0 => pr (s i) ++ [']']
  | i, k + 1 => pr (s i) ++ ',' :: body pr s (i + 1) k

theorem body_eq (pr : E → List Char) (s : ℕ → E) (i k : ℕ) :
    (List.range k).flatMap (fun j => pr (s (i + j)) ++ [',']) ++ pr (s (i + k)) ++ [']'] = body pr s i k := by
  induction k generalizing i with
  | zero => simp [body]
  | succ k ih =>
    rw [List.range_succ_eq_map, List.flatMap_cons, List.flatMap_map, body, ← ih (i + 1)]
    have e : (fun j => pr (s (i + (j + 1))) ++ [',']) = fun j => pr (s (i + 1 + j)) ++ [','] := by
      funext j
      rw [show i + (j + 1) = i + 1 + j by omega]
    rw [show i + (k + 1) = i + 1 + k by omega]
    simp only [Nat.succ_eq_add_one, e, Nat.add_zero, List.append_assoc, List.singleton_append, List.cons_append, List.nil_append]

theorem body_unique (pr : E → List Char) (hp : Readable pr) (s s' : ℕ → E) (i k k' : ℕ) (X X' : List Char)
    (h : body pr s i k ++ X = body pr s' i k' ++ X') : k = k' ∧ X = X' ∧ ∀ j ≤ k, s (i + j) = s' (i + j) := by
  have hno : ∀ e, ∀ c ∈ pr e, ¬ (c = ',' ∨ c = ']') := fun e c hc => by
    have := hp.2 e c hc
    tauto
  induction k generalizing i k' with
  | zero =>
    cases k' with
    | zero =>
      simp only [body, List.append_assoc, List.singleton_append] at h
      obtain ⟨h1, -, h3⟩ := split_unique _ _ _ _ _ _ (hno _) (hno _) (.inr rfl) (.inr rfl) h
      exact ⟨rfl, h3, fun j hj => by
        have : j = 0 := by omega
        subst this; exact hp.1 h1⟩
    | succ k' =>
      simp only [body, List.append_assoc, List.singleton_append, List.cons_append] at h
      obtain ⟨-, h2, -⟩ := split_unique _ _ _ _ _ _ (hno _) (hno _) (.inr rfl) (.inl rfl) h
      exact absurd h2 (by decide)
  | succ k ih =>
    cases k' with
    | zero =>
      simp only [body, List.append_assoc, List.singleton_append, List.cons_append] at h
      obtain ⟨-, h2, -⟩ := split_unique _ _ _ _ _ _ (hno _) (hno _) (.inl rfl) (.inr rfl) h
      exact absurd h2 (by decide)
    | succ k' =>
      simp only [body, List.append_assoc, List.cons_append] at h
      obtain ⟨h1, -, h3⟩ := split_unique _ _ _ _ _ _ (hno _) (hno _) (.inl rfl) (.inl rfl) h
      obtain ⟨g1, g2, g3⟩ := ih (i + 1) k' h3
      refine ⟨by rw [g1], g2, fun j hj => ?_⟩
      cases j with
      | zero => exact hp.1 h1
      | succ j =>
        have := g3 j (by omega)
        have e : i + (j + 1) = i + 1 + j := by omega
        rw [e]; exact this

/-- Outputs followed by something are read back without ambiguity. -/
theorem stream_unique (pr : E → List Char) (hp : Readable pr) (es es' : List ℕ) (hlen : es.length = es'.length) (h0 : es ≠ [])
    (hpos : ∀ n ∈ es, 0 < n) (hpos' : ∀ n ∈ es', 0 < n) (s s' : List ℕ → E) (b b' X X' : List Char)
    (hb : stream pr es s = .ok b) (hb' : stream pr es' s' = .ok b') (h : b ++ X = b' ++ X') :
    es = es' ∧ X = X' ∧ (∀ idx, Valid idx es → s idx = s' idx) ∧ ∃ t, b = '[' :: t := by
  induction es generalizing es' s s' b b' X X' with
  | nil => exact absurd rfl h0
  | cons n es ih =>
    cases es with
    | nil =>
      obtain ⟨n', rfl⟩ : ∃ n', es' = [n'] := List.length_eq_one_iff.1 hlen.symm
      have hn : n ≠ 0 := (hpos n (by simp)).ne'
      have hn' : n' ≠ 0 := (hpos' n' (by simp)).ne'
      rw [stream, streamLine, if_neg hn] at hb
      rw [stream, streamLine, if_neg hn'] at hb'
      simp only [Out.ok.injEq] at hb hb'
      have e := body_eq pr (fun i => s [i]) 0 (n - 1)
      have e' := body_eq pr (fun i => s' [i]) 0 (n' - 1)
      simp only [Nat.zero_add] at e e'
      rw [e] at hb; rw [e'] at hb'
      subst hb hb'
      simp only [List.cons_append, List.cons.injEq, true_and] at h
      obtain ⟨h1, h2, h3⟩ := body_unique pr hp _ _ 0 _ _ _ _ h
      refine ⟨by have : n = n' := by omega
                 rw [this], h2, fun idx hi => ?_, _, rfl⟩
      unfold Valid at hi
      rw [List.forall₂_cons_right_iff] at hi
      obtain ⟨i, l, hin, hl, rfl⟩ := hi
      rw [List.forall₂_nil_right_iff] at hl
      subst hl
      have := h3 i (by omega)
      simpa using this
    | cons m es =>
      obtain ⟨n', m', es', rfl⟩ : ∃ n' m' l, es' = n' :: m' :: l := by
        match es', hlen with
        | n' :: m' :: l, _ => exact ⟨n', m', l, rfl⟩
      -- the rows
      have rows : ∀ (k k' i : ℕ) (B B' Y Y' : List Char),
          streamRows (fun i0 => stream pr (m :: es) fun idx => s (i0 :: idx)) ((List.range k).map (i + ·)) = .ok B →
          streamRows (fun i0 => stream pr (m' :: es') fun idx => s' (i0 :: idx)) ((List.range k').map (i + ·)) = .ok B' →
          B ++ ']' :: Y = B' ++ ']' :: Y' →
          k = k' ∧ Y = Y' ∧ (0 < k → m :: es = m' :: es') ∧ ∀ j < k, ∀ idx, Valid idx (m :: es) → s ((i + j) :: idx) = s' ((i + j) :: idx) := by
        have hd : ∀ (es0 : List ℕ) (s0 : List ℕ → E) (b0 : List Char), es0 ≠ [] → (∀ n ∈ es0, 0 < n) → stream pr es0 s0 = .ok b0 → ∃ t, b0 = '[' :: t := by
          intro es0 s0 b0 h0 hp0 hs0
          match es0, h0 with
          | [k], _ =>
            rw [stream, streamLine, if_neg (hp0 k (by simp)).ne'] at hs0
            simp only [Out.ok.injEq] at hs0
            exact ⟨_, hs0.symm⟩
          | k :: l :: es1, _ =>
            rw [stream] at hs0
            cases hr : streamRows (fun i0 => stream pr (l :: es1) fun idx => s0 (i0 :: idx)) (List.range k) with
            | ok c =>
              rw [hr] at hs0
              simp only [Out.bind, Out.ok.injEq] at hs0
              exact ⟨_, hs0.symm⟩
            | error => rw [hr] at hs0; simp [Out.bind] at hs0
            | ub => rw [hr] at hs0; simp [Out.bind] at hs0
        have step : ∀ (row : ℕ → Out (List Char)) (k i : ℕ) (B : List Char), streamRows row ((List.range (k + 1)).map (i + ·)) = .ok B →
            ∃ a c, row i = .ok a ∧ streamRows row ((List.range k).map (i + 1 + ·)) = .ok c ∧ B = a ++ c := by
          intro row k i B hB
          rw [List.range_succ_eq_map, List.map_cons, List.map_map, streamRows] at hB
          have e : ((i + ·) ∘ Nat.succ : ℕ → ℕ) = (i + 1 + ·) := by funext j; simp only [Function.comp]; omega
          rw [e, Nat.add_zero] at hB
          cases h1 : row i with
          | error => rw [h1] at hB; simp [Out.bind] at hB
          | ub => rw [h1] at hB; simp [Out.bind] at hB
          | ok a =>
            rw [h1] at hB
            simp only [Out.bind] at hB
            cases h2 : streamRows row ((List.range k).map (i + 1 + ·)) with
            | error => rw [h2] at hB; simp at hB
            | ub => rw [h2] at hB; simp at hB
            | ok c =>
              rw [h2] at hB
              simp only [Out.ok.injEq] at hB
              exact ⟨a, c, rfl, rfl, hB.symm⟩
        intro k
        induction k with
        | zero =>
          intro k' i B B' Y Y' hB hB' hY
          cases k' with
          | zero =>
            simp only [List.range_zero, List.map_nil, streamRows, Out.ok.injEq] at hB hB'
            subst hB hB'
            simp only [List.nil_append, List.cons.injEq, true_and] at hY
            exact ⟨rfl, hY, by simp, by simp⟩
          | succ k' =>
            obtain ⟨a', c', ha', hc', rfl⟩ := step _ k' i B' hB'
            obtain ⟨t, rfl⟩ := hd _ _ _ (by simp) (fun x hx => hpos' x (by simp [List.mem_cons.1 hx])) ha'
            simp only [List.range_zero, List.map_nil, streamRows, Out.ok.injEq] at hB
            subst hB
            simp only [List.nil_append, List.cons_append, List.cons.injEq] at hY
            exact absurd hY.1 (by decide)
        | succ k ihk =>
          intro k' i B B' Y Y' hB hB' hY
          obtain ⟨a, c, ha, hc, rfl⟩ := step _ k i B hB
          cases k' with
          | zero =>
            obtain ⟨t, rfl⟩ := hd _ _ _ (by simp) (fun x hx => hpos x (by simp [List.mem_cons.1 hx])) ha
            simp only [List.range_zero, List.map_nil, streamRows, Out.ok.injEq] at hB'
            subst hB'
            simp only [List.nil_append, List.cons_append, List.cons.injEq] at hY
            exact absurd hY.1 (by decide)
          | succ k' =>
            obtain ⟨a', c', ha', hc', rfl⟩ := step _ k' i B' hB'
            rw [List.append_assoc, List.append_assoc] at hY
            obtain ⟨g1, g2, g3, -⟩ := ih (m' :: es') (by simpa using hlen) (by simp) (fun x hx => hpos x (by simp [List.mem_cons.1 hx]))
              (fun x hx => hpos' x (by simp [List.mem_cons.1 hx])) _ _ _ _ _ _ ha ha' hY
            obtain ⟨f1, f2, -, f4⟩ := ihk k' (i + 1) c c' Y Y' hc hc' g2
            refine ⟨by rw [f1], f2, fun _ => g1, fun j hj idx hidx => ?_⟩
            cases j with
            | zero => exact g3 idx hidx
            | succ j =>
              have := f4 j (by omega) idx hidx
              have e : i + (j + 1) = i + 1 + j := by omega
              rw [e]; exact this
      rw [stream] at hb hb'
      cases h1 : streamRows (fun i0 => stream pr (m :: es) fun idx => s (i0 :: idx)) (List.range n) with
      | error => rw [h1] at hb; simp [Out.bind] at hb
      | ub => rw [h1] at hb; simp [Out.bind] at hb
      | ok B =>
        cases h2 : streamRows (fun i0 => stream pr (m' :: es') fun idx => s' (i0 :: idx)) (List.range n') with
        | error => rw [h2] at hb'; simp [Out.bind] at hb'
        | ub => rw [h2] at hb'; simp [Out.bind] at hb'
        | ok B' =>
          rw [h1] at hb
          rw [h2] at hb'
          simp only [Out.bind, Out.ok.injEq] at hb hb'
          subst hb hb'
          simp only [List.cons_append, List.append_assoc, List.singleton_append, List.cons.injEq, true_and] at h
          have z : ∀ k, (List.range k).map (0 + ·) = List.range k := fun k => by simp
          obtain ⟨g1, g2, g3, g4⟩ := rows n n' 0 B B' X X' (by rw [z]; exact h1) (by rw [z]; exact h2) h
          refine ⟨by rw [g1, g3 (hpos n (by simp))], g2, fun idx hi => ?_, _, rfl⟩
          unfold Valid at hi
          rw [List.forall₂_cons_right_iff] at hi
          obtain ⟨i, l, hin, hl, rfl⟩ := hi
          have := g4 i hin l hl
          simpa using this

/-- **C92** Two views of the same rank (any rank) without empty dimension which are printed identically have the same extents and the same elements: nothing
is lost although rows are printed without separator. -/
theorem c92_faithful (pr : E → List Char) (hp : Readable pr) (es es' : List ℕ) (hlen : es.length = es'.length) (h0 : es ≠ [])
    (hpos : ∀ n ∈ es, 0 < n) (hpos' : ∀ n ∈ es', 0 < n) (s s' : List ℕ → E) (h : stream pr es s = stream pr es' s') :
    es = es' ∧ ∀ idx, Valid idx es → s idx = s' idx := by
  obtain ⟨b, hb⟩ := c92_defined pr es s hpos
  obtain ⟨h1, -, h2, -⟩ := stream_unique pr hp es es' hlen h0 hpos hpos' s s' b b [] [] hb (h ▸ hb) rfl
  exact ⟨h1, h2⟩

/-- **C92** The output of a line is its elements in order, separated by commas, between brackets. -/
theorem c92_line (pr : E → List Char) (n : ℕ) (s : List ℕ → E) :
    stream pr [n + 1] s = .ok ('[' :: (((List.range (n + 1)).map fun i => pr (s [i])).intersperse [',']).flatten ++ [']']) := by
  rw [stream, streamLine, if_neg (by omega), Nat.add_sub_cancel]
  have key : ∀ n, ∀ g : ℕ → List Char, ((List.range n).flatMap fun i => g i ++ [',']) ++ g n = (((List.range (n + 1)).map g).intersperse [',']).flatten := by
    intro n
    induction n with
    | zero => intro g; simp
    | succ n ih =>
      intro g
      rw [List.range_succ_eq_map, List.range_succ_eq_map (n := n + 1), List.flatMap_cons, List.flatMap_map, List.map_cons, List.map_map]
      have := ih (g ∘ Nat.succ)
      rw [List.range_succ_eq_map, List.map_cons] at this ⊢
      rw [List.intersperse_cons₂]
      simp only [List.flatten_cons]
      rw [← this]
      simp
  rw [← key]
  simp

/-! ## Examples: the hypotheses are met -/

/-- Bits printed as one character. -/
example : Readable fun b : Bool => if b then ['1'] else ['0'] := by
  refine ⟨fun a b h => by cases a <;> cases b <;> simp_all, fun e c hc => ?_⟩
  cases e <;> simp_all

/-- A view of 2 by 2 bits. -/
example : stream (fun b : Bool => if b then ['1'] else ['0']) [2, 2] (fun idx => idx == [0, 1]) =
    .ok ['[', '[', '0', ',', '1', ']', '[', '0', ',', '0', ']', ']'] := rfl

end Verif.ViewStream
