import Verif.Model.MpiProgram
import Mathlib.Algebra.BigOperators.Group.Finset.Basic
import Mathlib.Algebra.Order.BigOperators.Group.Finset
import Mathlib.Data.Finset.Max
import Mathlib.Tactic.Ring
import Mathlib.Tactic.NormNum

/-! # Programs made of computations and collective calls: no deadlock, termination, one result -/
namespace Verif.MpiProgram
open Finset

variable {S M : Type*}

/-! ## Specification -/

/-- The collective calls of a process, in the order of its program. -/
def colls : List (Act S M) → List Lab
  | [] => []
  | .loc _ :: p => colls p
  | .coll lab _ _ :: p => lab :: colls p

/-- All the processes make the same number of collective calls, and the `k`-th calls match. -/
def Matched (P : ℕ) (prog : ℕ → List (Act S M)) : Prop :=
  ∀ q < P, ∀ r < P, List.Forall₂ (fun a b => Lab.compat a b = true) (colls (prog q)) (colls (prog r))

/-- The result of a program executed in lockstep: all processes make each action at the same time. -/
def lockstep [Inhabited M] (P : ℕ) : List (PAct S M) → (ℕ → S) → (ℕ → S)
  | [], σ => σ
  | .loc f :: p, σ => lockstep P p fun r => f r (σ r)
  | .coll _ give take :: p, σ => lockstep P p fun r => take r (fun q => if q < P then give q (σ q) else default) (σ r)

/-! ## Every process alone -/

/-- Run the computations up to the next collective call. -/
def skip : List (Act S M) → S → S × List (Act S M)
  | [], s => (s, [])
  | .loc f :: p, s => skip p (f s)
  | .coll l g t :: p, s => (s, .coll l g t :: p)

/-- One round: all the processes make their next collective call. -/
def advance [Inhabited M] (P : ℕ) (σ : ℕ → S × List (Act S M)) (r : ℕ) : S × List (Act S M) :=
  match (σ r).2 with
  | .coll _ _ take :: rest =>
    skip rest (take (fun q => if q < P then
      match (σ q).2 with
      | .coll _ give _ :: _ => give (σ q).1
      | _ => default
      else default) (σ r).1)
  | _ => σ r

/-- The state of the processes after `k` rounds. -/
def rounds [Inhabited M] (P : ℕ) (prog : ℕ → List (Act S M)) (init : ℕ → S) (k : ℕ) : ℕ → S × List (Act S M) :=
  (advance P)^[k] fun r => skip (prog r) (init r)

theorem rounds_succ [Inhabited M] (P : ℕ) (prog : ℕ → List (Act S M)) (init : ℕ → S) (k : ℕ) :
    rounds P prog init (k + 1) = advance P (rounds P prog init k) := Function.iterate_succ_apply' _ _ _

theorem skip_colls (p : List (Act S M)) (s : S) : colls (skip p s).2 = colls p := by
  induction p generalizing s with
  | nil => rfl
  | cons a p ih =>
    cases a with
    | loc f => exact ih _
    | coll l g t => rfl

theorem skip_shape (p : List (Act S M)) (s : S) :
    (skip p s).2 = [] ∨ ∃ l g t rest, (skip p s).2 = .coll l g t :: rest := by
  induction p generalizing s with
  | nil => left; rfl
  | cons a p ih =>
    cases a with
    | loc f => exact ih _
    | coll l g t => exact Or.inr ⟨l, g, t, p, rfl⟩

theorem skip_skip (p : List (Act S M)) (s : S) : skip (skip p s).2 (skip p s).1 = skip p s := by
  induction p generalizing s with
  | nil => rfl
  | cons a p ih =>
    cases a with
    | loc f => exact ih _
    | coll l g t => rfl

theorem rounds_shape [Inhabited M] (P : ℕ) (prog : ℕ → List (Act S M)) (init : ℕ → S) (k r : ℕ) :
    (rounds P prog init k r).2 = [] ∨ ∃ l g t rest, (rounds P prog init k r).2 = .coll l g t :: rest := by
  induction k with
  | zero => exact skip_shape _ _
  | succ j ihj =>
    rw [rounds_succ]
    unfold advance
    split
    · exact skip_shape _ _
    · exact ihj

theorem rounds_colls [Inhabited M] (P : ℕ) (prog : ℕ → List (Act S M)) (init : ℕ → S) (k r : ℕ) :
    colls (rounds P prog init k r).2 = (colls (prog r)).drop k := by
  induction k with
  | zero => exact skip_colls _ _
  | succ k ih =>
    rw [rounds_succ]
    unfold advance
    split
    · rename_i l g t rest h
      rw [skip_colls]
      rw [h] at ih
      simp only [colls] at ih
      rw [← List.drop_drop, ← ih]; rfl
    · rename_i h
      have h0 : colls (rounds P prog init k r).2 = [] := by
        rcases rounds_shape P prog init k r with h1 | ⟨l, g, t, rest, h1⟩
        · rw [h1]; rfl
        · exact absurd h1 (h _ _ _ _)
      rw [h0] at ih ⊢
      rw [← List.drop_drop, ← ih]; rfl

/-! ## Invariant of the runs -/

/-- The invariant: each process is in the round of the number of calls it has left; the calls recorded are those of the rounds; a process can only be in
round `k + 1` when all the processes have made their `k`-th call. -/
structure Inv [Inhabited M] (P : ℕ) (prog : ℕ → List (Act S M)) (init : ℕ → S) (c : Conf S M) : Prop where
  here : ∀ r, skip (c.pool r) (c.mem r) = rounds P prog init (c.cnt r) r
  logged : ∀ k q l m, c.log k q = some (l, m) → q < P ∧ ∃ g t rest, (rounds P prog init k q).2 = .coll l g t :: rest ∧ m = g (rounds P prog init k q).1
  past : ∀ r < P, ∀ k < c.cnt r, (∀ q < P, ∃ l m, c.log k q = some (l, m)) ∧
    ∀ q < P, ∀ q' < P, ∀ l m l' m', c.log k q = some (l, m) → c.log k q' = some (l', m') → l.compat l' = true
  future : ∀ q k l m, c.log k q = some (l, m) → k ≤ c.cnt q
  posted : ∀ q < P, ∀ l m, c.log (c.cnt q) q = some (l, m) → ∃ g t rest, c.pool q = .coll l g t :: rest

theorem inv_start [Inhabited M] (P : ℕ) (prog : ℕ → List (Act S M)) (init : ℕ → S) : Inv P prog init (start prog init) := by
  refine ⟨fun r => rfl, ?_, ?_, ?_, ?_⟩
  · intro k q l m h; simp [start] at h
  · intro r _ k hk; simp [start] at hk
  · intro q k l m h; simp [start] at h
  · intro q _ l m h; simp [start] at h

theorem inv_step [Inhabited M] (P : ℕ) (prog : ℕ → List (Act S M)) (init : ℕ → S) (c c' : Conf S M) (hi : Inv P prog init c) (h : Step P c c') :
    Inv P prog init c' := by
  cases h with
  | comp r f rest hr hp =>
    refine ⟨?_, hi.logged, hi.past, hi.future, ?_⟩
    · intro q
      by_cases hq : q = r
      · subst hq
        have := hi.here q
        rw [hp] at this
        simpa [skip] using this
      · simpa [hq] using hi.here q
    · intro q hq l m hl
      obtain ⟨g, t, rest', hp'⟩ := hi.posted q hq l m hl
      by_cases hqr : q = r
      · subst hqr; rw [hp] at hp'; simp at hp'
      · exact ⟨g, t, rest', by simpa [hqr] using hp'⟩
  | call r lab give take rest hr hp hn =>
    have hlog : ∀ k q l m, Function.update c.log (c.cnt r) (Function.update (c.log (c.cnt r)) r (some (lab, give (c.mem r)))) k q = some (l, m) →
        (k = c.cnt r ∧ q = r ∧ l = lab ∧ m = give (c.mem r)) ∨ c.log k q = some (l, m) := by
      intro k q l m h
      by_cases hk : k = c.cnt r
      · subst hk
        by_cases hq : q = r
        · subst hq; simp at h; exact Or.inl ⟨rfl, rfl, h.1.symm, h.2.symm⟩
        · simp [hq] at h; exact Or.inr h
      · simp [hk] at h; exact Or.inr h
    have hmono : ∀ k q l m, c.log k q = some (l, m) →
        Function.update c.log (c.cnt r) (Function.update (c.log (c.cnt r)) r (some (lab, give (c.mem r)))) k q = some (l, m) := by
      intro k q l m h
      by_cases hk : k = c.cnt r
      · subst hk
        by_cases hq : q = r
        · subst hq; rw [hn] at h; simp at h
        · simpa [hq] using h
      · simpa [hk] using h
    refine ⟨hi.here, ?_, ?_, ?_, ?_⟩
    · intro k q l m h
      rcases hlog k q l m h with ⟨rfl, rfl, rfl, rfl⟩ | h'
      · have := hi.here q
        rw [hp] at this
        simp only [skip] at this
        refine ⟨hr, give, take, rest, ?_, ?_⟩ <;> rw [← this]
      · exact hi.logged k q l m h'
    · intro q hq k hk
      obtain ⟨h1, h2⟩ := hi.past q hq k hk
      refine ⟨fun q' hq' => ?_, ?_⟩
      · obtain ⟨l, m, hl⟩ := h1 q' hq'; exact ⟨l, m, hmono _ _ _ _ hl⟩
      · intro a ha b hb l m l' m' hl hl'
        obtain ⟨la, ma, hla⟩ := h1 a ha
        obtain ⟨lb, mb, hlb⟩ := h1 b hb
        have e1 := hmono _ _ _ _ hla
        have e2 := hmono _ _ _ _ hlb
        have e3 : some (la, ma) = some (l, m) := e1.symm.trans hl
        have e4 : some (lb, mb) = some (l', m') := e2.symm.trans hl'
        simp only [Option.some.injEq, Prod.mk.injEq] at e3 e4
        rw [← e3.1, ← e4.1]
        exact h2 a ha b hb la ma lb mb hla hlb
    · intro q k l m h
      rcases hlog k q l m h with ⟨rfl, rfl, rfl, rfl⟩ | h'
      · exact le_refl _
      · exact hi.future q k l m h'
    · intro q hq l m h
      rcases hlog _ q l m h with ⟨-, rfl, rfl, rfl⟩ | h'
      · exact ⟨give, take, rest, hp⟩
      · exact hi.posted q hq l m h'
  | leave r lab give take rest hr hp hall hcomp =>
    have hround : rounds P prog init (c.cnt r) r = (c.mem r, .coll lab give take :: rest) := by
      have := hi.here r
      rw [hp] at this
      exact this.symm
    have hmsg : (contributions (c.log (c.cnt r)) : ℕ → M) = fun q => if q < P then
        match (rounds P prog init (c.cnt r) q).2 with
        | .coll _ give _ :: _ => give (rounds P prog init (c.cnt r) q).1
        | _ => default
        else default := by
      funext q
      unfold contributions
      split
      · rename_i l m hl
        obtain ⟨hq, g, t, rest', he, hm⟩ := hi.logged _ _ _ _ hl
        rw [if_pos hq, he, hm]
      · rename_i hl
        have : ¬ q < P := by
          intro hq
          obtain ⟨l, m, hlm⟩ := hall q hq
          rw [hl] at hlm; simp at hlm
        rw [if_neg this]
    refine ⟨?_, hi.logged, ?_, ?_, ?_⟩
    · intro q
      by_cases hq : q = r
      · subst hq
        simp only [Function.update_self]
        rw [rounds_succ]
        unfold advance
        rw [hround]
        simp only
        rw [hmsg]
      · simpa [hq] using hi.here q
    · intro q hq k hk
      by_cases hqr : q = r
      · subst hqr
        simp only [Function.update_self] at hk
        rcases Nat.lt_succ_iff_lt_or_eq.1 hk with h | h
        · exact hi.past q hq k h
        · subst h; exact ⟨hall, hcomp⟩
      · simp only [Function.update_of_ne hqr] at hk
        exact hi.past q hq k hk
    · intro q k l m h
      have := hi.future q k l m h
      by_cases hqr : q = r
      · subst hqr; simp only [Function.update_self]; omega
      · simpa [hqr] using this
    · intro q hq l m h
      by_cases hqr : q = r
      · subst hqr
        simp only [Function.update_self] at h
        have := hi.future q _ l m h
        omega
      · simp only [Function.update_of_ne hqr] at h ⊢
        exact hi.posted q hq l m h

theorem inv_run [Inhabited M] (P : ℕ) (prog : ℕ → List (Act S M)) (init : ℕ → S) (n : ℕ) (c : Conf S M) (h : Run P n (start prog init) c) :
    Inv P prog init c := by
  generalize ha : start prog init = a at h
  induction h with
  | zero c => subst ha; exact inv_start P prog init
  | succ _ hs ih => exact inv_step P prog init _ _ (ih ha) hs

/-! ## The theorems -/

/-- **C106** No deadlock: if the collective calls of the processes match, then in every state which can be reached, either all the processes have finished or one
of them can go on. -/
theorem c106_no_deadlock [Inhabited M] (P : ℕ) (prog : ℕ → List (Act S M)) (init : ℕ → S) (hm : Matched P prog) (n : ℕ) (c : Conf S M)
    (h : Run P n (start prog init) c) : Finished P c ∨ ∃ c', Step P c c' := by
  have hi := inv_run P prog init n c h
  by_contra hcon
  push Not at hcon
  obtain ⟨hnf, hno⟩ := hcon
  -- nobody can compute: each process is at a call or finished
  have hshape : ∀ r < P, c.pool r = [] ∨ ∃ l g t rest, c.pool r = .coll l g t :: rest := by
    intro r hr
    rcases hp : c.pool r with _ | ⟨a, p⟩
    · exact Or.inl rfl
    · cases a with
      | loc f => exact absurd (Step.comp c r f p hr hp) (hno _)
      | coll l g t => exact Or.inr ⟨l, g, t, p, rfl⟩
  have hhere : ∀ r < P, rounds P prog init (c.cnt r) r = (c.mem r, c.pool r) := by
    intro r hr
    rw [← hi.here r]
    rcases hshape r hr with h0 | ⟨l, g, t, rest, h0⟩ <;> rw [h0] <;> rfl
  have hposted : ∀ r < P, c.pool r ≠ [] → ∃ l m, c.log (c.cnt r) r = some (l, m) := by
    intro r hr hne
    rcases hshape r hr with h0 | ⟨l, g, t, rest, h0⟩
    · exact absurd h0 hne
    · rcases hl : c.log (c.cnt r) r with _ | ⟨l', m'⟩
      · exact absurd (Step.call c r l g t rest hr h0 hl) (hno _)
      · exact ⟨l', m', rfl⟩
  -- the slowest unfinished process
  obtain ⟨r0, hr0, hne0⟩ : ∃ r, r < P ∧ c.pool r ≠ [] := by
    by_contra hc
    push Not at hc
    exact hnf hc
  obtain ⟨r, ⟨hr, hne⟩, hmin⟩ : ∃ r, (r < P ∧ c.pool r ≠ []) ∧ ∀ q, q < P ∧ c.pool q ≠ [] → c.cnt r ≤ c.cnt q := by
    classical
    let T := (range P).filter fun q => c.pool q ≠ []
    have hT : T.Nonempty := ⟨r0, by simp [T, hr0, hne0]⟩
    obtain ⟨r, hr, hmin⟩ := T.exists_min_image c.cnt hT
    refine ⟨r, by simpa [T] using hr, fun q hq => hmin q (by simpa [T] using hq)⟩
  obtain ⟨l, g, t, rest, hp⟩ : ∃ l g t rest, c.pool r = .coll l g t :: rest := (hshape r hr).resolve_left hne
  -- number of calls of the processes
  have hlen : ∀ q < P, (colls (c.pool q)).length = (colls (prog r)).length - c.cnt q := by
    intro q hq
    have h1 := rounds_colls P prog init (c.cnt q) q
    rw [hhere q hq] at h1
    simp only at h1
    rw [h1, List.length_drop, (hm q hq r hr).length_eq]
  have hall : ∀ q < P, ∃ l m, c.log (c.cnt r) q = some (l, m) := by
    intro q hq
    by_cases hqe : c.pool q = []
    · have h2 := hlen q hq
      rw [hqe] at h2
      have h3 := hlen r hr
      rw [hp] at h3
      simp only [colls, List.length_nil, List.length_cons] at h2 h3
      exact (hi.past q hq (c.cnt r) (by omega)).1 q hq
    · rcases Nat.lt_or_ge (c.cnt r) (c.cnt q) with hlt | hge
      · exact (hi.past q hq _ hlt).1 q hq
      · have he : c.cnt q = c.cnt r := le_antisymm hge (hmin q ⟨hq, hqe⟩)
        obtain ⟨l, m, h⟩ := hposted q hq hqe
        exact ⟨l, m, he ▸ h⟩
  have hcomp : ∀ q < P, ∀ q' < P, ∀ l m l' m', c.log (c.cnt r) q = some (l, m) → c.log (c.cnt r) q' = some (l', m') → l.compat l' = true := by
    intro q hq q' hq' l m l' m' h1 h2
    obtain ⟨-, g1, t1, s1, e1, -⟩ := hi.logged _ _ _ _ h1
    obtain ⟨-, g2, t2, s2, e2, -⟩ := hi.logged _ _ _ _ h2
    have f1 := rounds_colls P prog init (c.cnt r) q
    have f2 := rounds_colls P prog init (c.cnt r) q'
    rw [e1] at f1
    rw [e2] at f2
    have hF := List.forall₂_drop (c.cnt r) (hm q hq q' hq')
    rw [← f1, ← f2] at hF
    simp only [colls, List.forall₂_cons] at hF
    exact hF.1
  exact hno _ (Step.leave c r l g t rest hr hp hall hcomp)

/-- **C106** Termination: a run of any program has at most `2 L + 1` steps per process, `L` being the number of its actions. -/
theorem c106_terminates [Inhabited M] (P : ℕ) (prog : ℕ → List (Act S M)) (init : ℕ → S) (n : ℕ) (c : Conf S M)
    (h : Run P n (start prog init) c) : n ≤ ∑ r ∈ range P, (2 * (prog r).length + 1) := by
  have key : ∀ (n : ℕ) (a c : Conf S M), Run P n a c →
      n + ∑ r ∈ range P, (2 * (c.pool r).length + if c.log (c.cnt r) r = none then 1 else 0)
        ≤ ∑ r ∈ range P, (2 * (a.pool r).length + if a.log (a.cnt r) r = none then 1 else 0) := by
    intro n a c h
    induction h with
    | zero c => simp
    | @succ n a b c _ hs ih =>
      refine le_trans ?_ ih
      have hdec : ∑ r ∈ range P, (2 * (c.pool r).length + if c.log (c.cnt r) r = none then 1 else 0)
          < ∑ r ∈ range P, (2 * (b.pool r).length + if b.log (b.cnt r) r = none then 1 else 0) := by
        cases hs with
        | comp r f rest hr hp =>
          refine Finset.sum_lt_sum (fun q hq => ?_) ⟨r, mem_range.2 hr, ?_⟩
          · by_cases hqr : q = r
            · subst hqr; simp only [Function.update_self, hp, List.length_cons]; omega
            · simp [hqr]
          · simp only [Function.update_self, hp, List.length_cons]; omega
        | call r lab give take rest hr hp hn =>
          refine Finset.sum_lt_sum (fun q hq => ?_) ⟨r, mem_range.2 hr, ?_⟩
          · by_cases hqr : q = r
            · subst hqr; simp [hn]
            · by_cases hk : b.cnt q = b.cnt r
              · simp [hk, hqr]
              · simp [hk]
          · simp [hn]
        | leave r lab give take rest hr hp hall hcomp =>
          obtain ⟨l, m, hl⟩ := hall r hr
          refine Finset.sum_lt_sum (fun q hq => ?_) ⟨r, mem_range.2 hr, ?_⟩
          · by_cases hqr : q = r
            · subst hqr
              simp only [Function.update_self, hp, List.length_cons]
              split_ifs <;> omega
            · simp [hqr]
          · simp only [Function.update_self, hp, List.length_cons]
            split_ifs <;> omega
      omega
  have := key n _ _ h
  simp only [start, if_true] at this
  omega

/-- The memory of process `r` at the end. -/
theorem finished_mem [Inhabited M] (P : ℕ) (prog : ℕ → List (Act S M)) (init : ℕ → S) (n : ℕ) (c : Conf S M)
    (h : Run P n (start prog init) c) (hf : Finished P c) (r : ℕ) (hr : r < P) :
    (c.mem r, []) = rounds P prog init (c.cnt r) r := by
  have hi := (inv_run P prog init n c h).here r
  rw [hf r hr] at hi
  exact hi

/-- **C106** The result does not depend on the interleaving: two complete runs leave the same memory in every process. (No hypothesis on the program: if
one complete run exists, the calls match.) -/
theorem c106_deterministic [Inhabited M] (P : ℕ) (prog : ℕ → List (Act S M)) (init : ℕ → S) (n n' : ℕ) (c c' : Conf S M)
    (h : Run P n (start prog init) c) (hf : Finished P c) (h' : Run P n' (start prog init) c') (hf' : Finished P c') :
    ∀ r < P, c.mem r = c'.mem r := by
  intro r hr
  have e := finished_mem P prog init n c h hf r hr
  have e' := finished_mem P prog init n' c' h' hf' r hr
  have hstay : ∀ a b, (rounds P prog init a r).2 = [] → rounds P prog init (a + b) r = rounds P prog init a r := by
    intro a b h0
    induction b with
    | zero => rfl
    | succ b ih =>
      rw [← Nat.add_assoc, rounds_succ]
      unfold advance
      rw [ih, h0]
  rcases Nat.le_total (c.cnt r) (c'.cnt r) with hle | hle
  · have := hstay (c.cnt r) (c'.cnt r - c.cnt r) (by rw [← e])
    rw [Nat.add_sub_cancel' hle, ← e, ← e'] at this
    exact (Prod.mk.inj this).1.symm
  · have := hstay (c'.cnt r) (c.cnt r - c'.cnt r) (by rw [← e'])
    rw [Nat.add_sub_cancel' hle, ← e, ← e'] at this
    exact (Prod.mk.inj this).1

/-- **C106** If the calls do not match, no run is complete: every run of the program ends in a deadlock (`c106_terminates`). -/
theorem c106_mismatch_deadlocks [Inhabited M] (P : ℕ) (prog : ℕ → List (Act S M)) (init : ℕ → S) (n : ℕ) (c : Conf S M)
    (h : Run P n (start prog init) c) (hf : Finished P c) : Matched P prog := by
  have hi := inv_run P prog init n c h
  have hlen : ∀ r < P, (colls (prog r)).length ≤ c.cnt r := by
    intro r hr
    have e := finished_mem P prog init n c h hf r hr
    have := rounds_colls P prog init (c.cnt r) r
    rw [← e] at this
    simp only [colls] at this
    exact List.drop_eq_nil_iff.1 this.symm
  have hhas : ∀ q < P, ∀ r < P, ∀ k < (colls (prog q)).length, ∃ a b, (colls (prog q))[k]? = some a ∧ (colls (prog r))[k]? = some b ∧ a.compat b = true := by
    intro q hq r hr k hk
    obtain ⟨h1, h2⟩ := hi.past q hq k (lt_of_lt_of_le hk (hlen q hq))
    obtain ⟨l, m, hl⟩ := h1 q hq
    obtain ⟨l', m', hl'⟩ := h1 r hr
    refine ⟨l, l', ?_, ?_, h2 q hq r hr _ _ _ _ hl hl'⟩
    · obtain ⟨-, g, t, rest, e, -⟩ := hi.logged _ _ _ _ hl
      have f := rounds_colls P prog init k q
      rw [e] at f
      have := congrArg (fun L => L[0]?) f
      simpa [colls] using this.symm
    · obtain ⟨-, g, t, rest, e, -⟩ := hi.logged _ _ _ _ hl'
      have f := rounds_colls P prog init k r
      rw [e] at f
      have := congrArg (fun L => L[0]?) f
      simpa [colls] using this.symm
  intro q hq r hr
  rw [List.forall₂_iff_get]
  have hle : ∀ q < P, ∀ r < P, (colls (prog q)).length ≤ (colls (prog r)).length := by
    intro q hq r hr
    by_contra hcon
    push Not at hcon
    obtain ⟨a, b, -, hb, -⟩ := hhas q hq r hr (colls (prog r)).length hcon
    simp at hb
  refine ⟨le_antisymm (hle q hq r hr) (hle r hr q hq), fun i h1 h2 => ?_⟩
  obtain ⟨a, b, ha, hb, hab⟩ := hhas q hq r hr i h1
  rw [List.getElem?_eq_getElem h1] at ha
  rw [List.getElem?_eq_getElem h2] at hb
  simp only [Option.some.injEq] at ha hb
  simp only [List.get_eq_getElem, ha, hb, hab]

/-- Lockstep execution and rounds. -/
theorem rounds_spmd [Inhabited M] (P : ℕ) (prog : List (PAct S M)) (init : ℕ → S) (r : ℕ) :
    rounds P (spmd prog) init (colls (spmd prog r)).length r = (lockstep P prog init r, []) := by
  have hn : ∀ (prog : List (PAct S M)) (q : ℕ), (colls (spmd prog q)).length = (colls (spmd prog r)).length := by
    intro prog q
    induction prog with
    | nil => rfl
    | cons a p ih =>
      cases a with
      | loc f => exact ih
      | coll lab g t =>
        show (colls (spmd p q)).length + 1 = (colls (spmd p r)).length + 1
        rw [ih]
  have key : ∀ (prog : List (PAct S M)) (σ : ℕ → S),
      (advance P)^[(colls (spmd prog r)).length] (fun q => skip (spmd prog q) (σ q)) r = (lockstep P prog σ r, []) := by
    intro prog
    induction prog with
    | nil => intro σ; rfl
    | cons a p ih =>
      intro σ
      cases a with
      | loc f => exact ih _
      | coll lab g t =>
        show (advance P)^[(colls (spmd p r)).length + 1] (fun q => skip (.coll (lab q) (g q) (t q) :: spmd p q) (σ q)) r = _
        rw [Function.iterate_succ_apply]
        have : (advance P fun q => skip (.coll (lab q) (g q) (t q) :: spmd p q) (σ q))
            = fun q => skip (spmd p q) (t q (fun q' => if q' < P then g q' (σ q') else default) (σ q)) := by
          funext q
          rfl
        rw [this]
        exact ih _
  exact key prog init

/-- **C106** A program that all the processes execute, with matching calls: every run can be completed, and every complete run leaves in each process the memory of the lockstep
execution. -/
theorem c106_spmd [Inhabited M] (P : ℕ) (prog : List (PAct S M)) (init : ℕ → S)
    (hlab : ∀ lab give take, PAct.coll lab give take ∈ prog → ∀ q < P, ∀ r < P, (lab q).compat (lab r) = true) :
    (∀ n c, Run P n (start (spmd prog) init) c →
      n ≤ P * (2 * prog.length + 1) ∧ (Finished P c ∨ ∃ c', Step P c c') ∧
      (Finished P c → ∀ r < P, c.mem r = lockstep P prog init r)) := by
  have hm : Matched P (spmd prog) := by
    intro q hq r hr
    induction prog with
    | nil => exact List.Forall₂.nil
    | cons a p ih =>
      have ih' := ih fun lab give take h => hlab lab give take (List.mem_cons_of_mem _ h)
      cases a with
      | loc f => exact ih'
      | coll lab g t => exact List.Forall₂.cons (hlab lab g t (List.mem_cons_self ..) q hq r hr) ih'
  intro n c h
  refine ⟨?_, c106_no_deadlock P _ init hm n c h, fun hf r hr => ?_⟩
  · have := c106_terminates P _ init n c h
    simpa [spmd] using this
  · have e := finished_mem P _ init n c h hf r hr
    have hlen : (colls (spmd prog r)).length ≤ c.cnt r := by
      have := rounds_colls P (spmd prog) init (c.cnt r) r
      rw [← e] at this
      simp only [colls] at this
      exact List.drop_eq_nil_iff.1 this.symm
    have hstay : ∀ b, rounds P (spmd prog) init ((colls (spmd prog r)).length + b) r = (lockstep P prog init r, []) := by
      intro b
      induction b with
      | zero => exact rounds_spmd P prog init r
      | succ b ih =>
        rw [← Nat.add_assoc, rounds_succ]
        unfold advance
        rw [ih]
    have := hstay (c.cnt r - (colls (spmd prog r)).length)
    rw [Nat.add_sub_cancel' hlen, ← e] at this
    exact (Prod.mk.inj this).1

theorem Run.trans [Inhabited M] {P n m : ℕ} {a b c : Conf S M} (h : Run P n a b) (h' : Run P m b c) : Run P (n + m) a c := by
  induction h' with
  | zero => exact h
  | succ _ hs ih => exact Run.succ (ih h) hs

/-- **C106** Complete runs exist: with matching calls every run, whatever the processes have done so far, can be continued to the end. -/
theorem c106_completes [Inhabited M] (P : ℕ) (prog : ℕ → List (Act S M)) (init : ℕ → S) (hm : Matched P prog) (n : ℕ) (c : Conf S M)
    (h : Run P n (start prog init) c) : ∃ n' c', Run P n' c c' ∧ Finished P c' := by
  obtain ⟨B, hB⟩ : ∃ B, B = ∑ r ∈ range P, (2 * (prog r).length + 1) := ⟨_, rfl⟩
  have key : ∀ k n c, B - n = k → Run P n (start prog init) c → ∃ n' c', Run P n' c c' ∧ Finished P c' := by
    intro k
    induction k with
    | zero =>
      intro n c hk h
      rcases c106_no_deadlock P prog init hm n c h with hf | ⟨c', hs⟩
      · exact ⟨0, c, Run.zero c, hf⟩
      · have := c106_terminates P prog init (n + 1) c' (Run.succ h hs)
        omega
    | succ k ih =>
      intro n c hk h
      rcases c106_no_deadlock P prog init hm n c h with hf | ⟨c', hs⟩
      · exact ⟨0, c, Run.zero c, hf⟩
      · obtain ⟨n', c'', h1, h2⟩ := ih (n + 1) c' (by omega) (Run.succ h hs)
        exact ⟨1 + n', c'', (Run.succ (Run.zero c) hs).trans h1, h2⟩
  exact key _ n c rfl h

/-- A program of two processes which exchange their numbers and keep the sum: its calls match. -/
example : ∃ n c, Run 2 n (start (S := ℕ) (M := ℕ) (spmd [.loc fun r s => s + r, .coll (fun _ => .allreduce 1) (fun _ s => s)
    fun _ m _ => m 0 + m 1]) fun _ => 10) c ∧ Finished 2 c ∧ c.mem 0 = 21 ∧ c.mem 1 = 21 := by
  obtain ⟨n, c, h, hf⟩ := c106_completes 2 (spmd [.loc fun r s => s + r, .coll (fun _ => .allreduce 1) (fun _ s => s)
    fun _ m _ => m 0 + m 1]) (fun _ => 10) (by intro q _ r _; exact List.Forall₂.cons rfl List.Forall₂.nil) 0 _ (Run.zero _)
  refine ⟨n, c, h, hf, ?_⟩
  have := (c106_spmd 2 [.loc fun r s => s + r, .coll (fun _ => .allreduce 1) (fun _ s => s) fun _ m _ => m 0 + m 1] (fun _ => 10)
    (by intro lab g t hm q _ r _; simp at hm; rw [hm.1]; rfl) n c h).2.2 hf
  exact ⟨this 0 (by norm_num), this 1 (by norm_num)⟩

/-- A collective call under `if (rank == 0)`: whatever the computations, no run is complete (`c106_mismatch_deadlocks` is not vacuous). -/
example (g : ℕ → ℕ) (t : (ℕ → ℕ) → ℕ → ℕ) (init : ℕ → ℕ) (n : ℕ) (c : Conf ℕ ℕ)
    (h : Run 2 n (start (fun r => if r = 0 then [.coll (.io 0) g t] else []) init) c) : ¬ Finished 2 c := by
  intro hf
  have := (c106_mismatch_deadlocks 2 _ init n c h hf 0 (by norm_num) 1 (by norm_num)).length_eq
  simp [colls] at this

/-- Different counts on the two sides of `MPI_Alltoall` also stop the program. -/
example (g : ℕ → ℕ) (t : (ℕ → ℕ) → ℕ → ℕ) (init : ℕ → ℕ) (n : ℕ) (c : Conf ℕ ℕ)
    (h : Run 2 n (start (fun r => [.coll (.alltoall (r + 1) 1) g t]) init) c) : ¬ Finished 2 c := by
  intro hf
  have := c106_mismatch_deadlocks 2 _ init n c h hf 1 (by norm_num) 0 (by norm_num)
  simp [colls, Lab.compat] at this

end Verif.MpiProgram
