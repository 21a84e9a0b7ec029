import Verif.Model.Layout
import Mathlib.Tactic.Ring
import Mathlib.Tactic.Linarith
import Mathlib.Data.List.Nodup
import Mathlib.Data.List.Perm.Basic
import Mathlib.Algebra.Order.BigOperators.Group.List

/-! Basic facts on index ranges and row-major offsets (used by C01-C04). -/

namespace Verif.Layout

variable {κ : Type*}

@[simp] theorem size_nil : size ([] : IdxRange κ) = 1 := rfl
@[simp] theorem size_cons (d : Dim κ) (R : IdxRange κ) : size (d :: R) = d.size * size R := rfl

theorem size_append (R S : IdxRange κ) : size (R ++ S) = size R * size S := by
  simp [size]

theorem offset_lt (R : IdxRange κ) (x : κ → ℕ) (h : InBox R x) : offset R x < size R := by
  induction R with
  | nil => simp [offset]
  | cons d R ih =>
    have hd := h d (by simp)
    have ih := ih fun e he => h e (by simp [he])
    simp only [offset, size_cons]
    have : (x d.tag - d.front) + 1 ≤ d.size := by omega
    calc (x d.tag - d.front) * size R + offset R x < (x d.tag - d.front) * size R + size R := by omega
      _ = ((x d.tag - d.front) + 1) * size R := by ring
      _ ≤ d.size * size R := Nat.mul_le_mul_right _ this

theorem offset_inj (R : IdxRange κ) (x y : κ → ℕ) (hx : InBox R x) (hy : InBox R y)
    (h : offset R x = offset R y) : ∀ d ∈ R, x d.tag = y d.tag := by
  induction R with
  | nil => simp
  | cons d R ih =>
    have hdx := hx d (by simp)
    have hdy := hy d (by simp)
    have hx' : InBox R x := fun e he => hx e (by simp [he])
    have hy' : InBox R y := fun e he => hy e (by simp [he])
    have lx := offset_lt R x hx'
    have ly := offset_lt R y hy'
    simp only [offset] at h
    have hpos : 0 < size R := by omega
    have h1 : (x d.tag - d.front) = (y d.tag - d.front) := by
      have e1 : ((x d.tag - d.front) * size R + offset R x) / size R = x d.tag - d.front := by
        rw [mul_comm, Nat.mul_add_div hpos, Nat.div_eq_of_lt lx]; rfl
      have e2 : ((y d.tag - d.front) * size R + offset R y) / size R = y d.tag - d.front := by
        rw [mul_comm, Nat.mul_add_div hpos, Nat.div_eq_of_lt ly]; rfl
      rw [← e1, ← e2, h]
    have h2 : offset R x = offset R y := by rw [h1] at h; omega
    intro e he
    rcases List.mem_cons.1 he with rfl | he
    · omega
    · exact ih hx' hy' h2 e he

theorem offset_congr (R : IdxRange κ) (x y : κ → ℕ) (h : ∀ d ∈ R, x d.tag = y d.tag) :
    offset R x = offset R y := by
  induction R with
  | nil => rfl
  | cons d R ih =>
    simp only [offset]
    rw [h d (by simp), ih fun e he => h e (by simp [he])]

theorem inBox_congr (R : IdxRange κ) (x y : κ → ℕ) (h : ∀ d ∈ R, x d.tag = y d.tag) (hx : InBox R x) :
    InBox R y := fun d hd => by rw [← h d hd]; exact hx d hd

theorem offset_append (R S : IdxRange κ) (x : κ → ℕ) :
    offset (R ++ S) x = offset R x * size S + offset S x := by
  induction R with
  | nil => simp [offset]
  | cons d R ih => simp only [List.cons_append, offset, ih, size_append]; ring

theorem inBox_append (R S : IdxRange κ) (x : κ → ℕ) :
    InBox (R ++ S) x ↔ InBox R x ∧ InBox S x := by
  simp only [InBox, List.mem_append, or_imp, forall_and]
  tauto

theorem inBox_cons (d : Dim κ) (R : IdxRange κ) (x : κ → ℕ) :
    InBox (d :: R) x ↔ (d.front ≤ x d.tag ∧ x d.tag < d.front + d.size) ∧ InBox R x := by
  simp [InBox]

theorem inBox_perm {R S : IdxRange κ} (h : R.Perm S) (x : κ → ℕ) : InBox R x ↔ InBox S x := by
  simp only [InBox, h.mem_iff]

theorem size_perm {R S : IdxRange κ} (h : R.Perm S) : size R = size S :=
  (h.map Dim.size).prod_eq

variable [DecidableEq κ]

theorem enum_inBox (R : IdxRange κ) (hR : (tags R).Nodup) : ∀ x ∈ enum R, InBox R x := by
  induction R with
  | nil => intro x _ d hd; simp at hd
  | cons d R ih =>
    intro x hx
    simp only [enum, List.mem_flatMap, List.mem_range, List.mem_map] at hx
    obtain ⟨i, hi, y, hy, rfl⟩ := hx
    have hn : d.tag ∉ tags R ∧ (tags R).Nodup := by simpa [tags] using hR
    have := ih hn.2 y hy
    intro e he
    rcases List.mem_cons.1 he with rfl | he
    · simp; omega
    · have hne : e.tag ≠ d.tag := by
        rintro h
        exact hn.1 (by rw [← h]; exact List.mem_map_of_mem he)
      rw [Function.update_of_ne hne]
      exact this e he

theorem exists_enum (R : IdxRange κ) (hR : (tags R).Nodup) (x : κ → ℕ) (hx : InBox R x) :
    ∃ y ∈ enum R, ∀ d ∈ R, y d.tag = x d.tag := by
  induction R with
  | nil => exact ⟨fun _ => 0, by simp [enum], by simp⟩
  | cons d R ih =>
    have hn : d.tag ∉ tags R ∧ (tags R).Nodup := by simpa [tags] using hR
    obtain ⟨y, hy, hyx⟩ := ih hn.2 fun e he => hx e (by simp [he])
    have hd := hx d (by simp)
    refine ⟨Function.update y d.tag (d.front + (x d.tag - d.front)), ?_, ?_⟩
    · simp only [enum, List.mem_flatMap, List.mem_range, List.mem_map]
      exact ⟨x d.tag - d.front, by omega, y, hy, rfl⟩
    · intro e he
      rcases List.mem_cons.1 he with rfl | he
      · simp; omega
      · have hne : e.tag ≠ d.tag := by
          rintro h
          exact hn.1 (by rw [← h]; exact List.mem_map_of_mem he)
        rw [Function.update_of_ne hne]
        exact hyx e he

theorem select_eq (R : IdxRange κ) (hR : (tags R).Nodup) (d : Dim κ) (hd : d ∈ R) : select R d.tag = d := by
  induction R with
  | nil => simp at hd
  | cons e R ih =>
    have hn : e.tag ∉ tags R ∧ (tags R).Nodup := by simpa [tags] using hR
    unfold select
    rw [List.find?_cons]
    rcases List.mem_cons.1 hd with rfl | hd'
    · simp
    · have hne : e.tag ≠ d.tag := by
        intro h
        exact hn.1 (by rw [h]; exact List.mem_map_of_mem hd')
      simp only [hne, decide_false]
      exact ih hn.2 hd'

theorem select_mem (R : IdxRange κ) (hR : (tags R).Nodup) (t : κ) (ht : t ∈ tags R) :
    select R t ∈ R ∧ (select R t).tag = t := by
  obtain ⟨d, hd, rfl⟩ := List.mem_map.1 ht
  rw [select_eq R hR d hd]
  exact ⟨hd, rfl⟩

theorem reorder_self (R : IdxRange κ) (hR : (tags R).Nodup) : reorder (tags R) R = R := by
  unfold reorder tags
  rw [List.map_map]
  conv_rhs => rw [← List.map_id R]
  apply List.map_congr_left
  intro d hd
  simp [select_eq R hR d hd]

theorem reorder_perm (R : IdxRange κ) (hR : (tags R).Nodup) (T : List κ) (hT : T.Perm (tags R)) :
    (reorder T R).Perm R := by
  have := (hT.map (select R))
  unfold reorder
  rw [show (tags R).map (select R) = R from reorder_self R hR] at this
  exact this

theorem tags_reorder (R : IdxRange κ) (hR : (tags R).Nodup) (T : List κ) (hT : ∀ t ∈ T, t ∈ tags R) :
    tags (reorder T R) = T := by
  unfold reorder tags
  rw [List.map_map]
  conv_rhs => rw [← List.map_id T]
  apply List.map_congr_left
  intro t ht
  exact (select_mem R hR t (hT t ht)).2

end Verif.Layout
