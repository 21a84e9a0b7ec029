import Verif.Model.Transpose
import Verif.Props.Layout

/-! Property C04: `transpose_layout` keeps the value at every multi-index. -/

namespace Verif.Transpose
open Verif.Layout

variable {κ α : Type*} [DecidableEq κ]

omit [DecidableEq κ] in
/-- Folding the copies over any list of in-range indices: the value at each visited index is the source value. -/
theorem foldl_copyAt (Rdst Rsrc : IdxRange κ) (hperm : Rdst.Perm Rsrc)
    (src : ℕ → α) (l : List (κ → ℕ)) (hl : ∀ x ∈ l, InBox Rsrc x) (dst : ℕ → α) (x : κ → ℕ) (hx : InBox Rsrc x)
    (h : (∃ y ∈ l, ∀ d ∈ Rsrc, y d.tag = x d.tag) ∨ dst (offset Rdst x) = src (offset Rsrc x)) :
    (l.foldl (copyAt Rdst Rsrc src) dst) (offset Rdst x) = src (offset Rsrc x) := by
  induction l generalizing dst with
  | nil =>
    rcases h with ⟨y, hy, _⟩ | h
    · simp at hy
    · exact h
  | cons a l ih =>
    simp only [List.foldl_cons]
    apply ih (fun y hy => hl y (by simp [hy]))
    by_cases hax : offset Rdst x = offset Rdst a
    · right
      have ha := hl a (by simp)
      have hh := offset_inj Rdst x a ((inBox_perm hperm x).2 hx) ((inBox_perm hperm a).2 ha) hax
      unfold copyAt
      rw [hax, Function.update_self]
      apply congrArg src
      apply offset_congr
      intro d hd
      exact (hh d (hperm.mem_iff.2 hd)).symm
    · rcases h with ⟨y, hy, hyx⟩ | h
      · rcases List.mem_cons.1 hy with rfl | hy
        · exfalso
          apply hax
          apply offset_congr
          intro d hd
          exact (hyx d (hperm.mem_iff.1 hd)).symm
        · exact Or.inl ⟨y, hy, hyx⟩
      · right
        unfold copyAt
        rw [Function.update_of_ne hax]
        exact h

omit [DecidableEq κ] in
theorem foldl_copyAt_outside (Rdst Rsrc : IdxRange κ) (hperm : Rdst.Perm Rsrc)
    (src : ℕ → α) (l : List (κ → ℕ)) (hl : ∀ x ∈ l, InBox Rsrc x) (dst : ℕ → α) (pos : ℕ) (hpos : size Rdst ≤ pos) :
    (l.foldl (copyAt Rdst Rsrc src) dst) pos = dst pos := by
  induction l generalizing dst with
  | nil => rfl
  | cons a l ih =>
    simp only [List.foldl_cons]
    rw [ih (fun y hy => hl y (by simp [hy]))]
    unfold copyAt
    rw [Function.update_of_ne]
    have := offset_lt Rdst a ((inBox_perm hperm a).2 (hl a (by simp)))
    omega

theorem visited_inBox (R : IdxRange κ) (hR : (tags R).Nodup) (sched : List (κ → ℕ))
    (hs : sched.Perm (enum (parallelRange R))) : ∀ x ∈ visited R sched, InBox R x := by
  unfold visited parallelRange at *
  split_ifs at * with h
  · intro x hx
    exact enum_inBox R hR x (hs.mem_iff.1 hx)
  · intro x hx
    simp only [List.mem_flatMap, List.mem_map] at hx
    obtain ⟨p, hp, s, hs', rfl⟩ := hx
    have hsplit : R = R.take 6 ++ R.drop 6 := (List.take_append_drop 6 R).symm
    have hnd : (tags (R.take 6) ++ tags (R.drop 6)).Nodup := by
      rw [tags, tags, ← List.map_append, List.take_append_drop]; exact hR
    rw [List.nodup_append] at hnd
    have hp' := enum_inBox _ hnd.1 p (hs.mem_iff.1 hp)
    have hs'' := enum_inBox _ hnd.2.1 s hs'
    rw [hsplit, inBox_append, ← hsplit]
    constructor
    · apply inBox_congr _ p _ _ hp'
      intro d hd
      have : d.tag ∈ tags (R.take 6) := List.mem_map_of_mem hd
      simp [joinIdx, this]
    · apply inBox_congr _ s _ _ hs''
      intro d hd
      have h1 : d.tag ∈ tags (R.drop 6) := List.mem_map_of_mem hd
      have : d.tag ∉ tags (R.take 6) := fun h2 => hnd.2.2 _ h2 _ h1 rfl
      simp [joinIdx, this]

theorem visited_covers (R : IdxRange κ) (hR : (tags R).Nodup) (sched : List (κ → ℕ))
    (hs : sched.Perm (enum (parallelRange R))) (x : κ → ℕ) (hx : InBox R x) :
    ∃ y ∈ visited R sched, ∀ d ∈ R, y d.tag = x d.tag := by
  unfold visited parallelRange at *
  split_ifs at * with h
  · obtain ⟨y, hy, hyx⟩ := exists_enum R hR x hx
    exact ⟨y, hs.mem_iff.2 hy, hyx⟩
  · have hsplit : R = R.take 6 ++ R.drop 6 := (List.take_append_drop 6 R).symm
    have hnd : (tags (R.take 6) ++ tags (R.drop 6)).Nodup := by
      rw [tags, tags, ← List.map_append, List.take_append_drop]; exact hR
    rw [List.nodup_append] at hnd
    have hx2 : InBox (R.take 6) x ∧ InBox (R.drop 6) x := by
      rw [← inBox_append, ← hsplit]; exact hx
    obtain ⟨p, hp, hpx⟩ := exists_enum _ hnd.1 x hx2.1
    obtain ⟨s, hs', hsx⟩ := exists_enum _ hnd.2.1 x hx2.2
    refine ⟨joinIdx (R.take 6) p s, ?_, ?_⟩
    · simp only [List.mem_flatMap, List.mem_map]
      exact ⟨p, hs.mem_iff.2 hp, s, hs', rfl⟩
    · intro d hd
      rw [hsplit, List.mem_append] at hd
      rcases hd with hd | hd
      · have : d.tag ∈ tags (R.take 6) := List.mem_map_of_mem hd
        simp only [joinIdx, this, if_true]
        exact hpx d hd
      · have h1 : d.tag ∈ tags (R.drop 6) := List.mem_map_of_mem hd
        have : d.tag ∉ tags (R.take 6) := fun h2 => hnd.2.2 _ h2 _ h1 rfl
        simp only [joinIdx, this, if_false]
        exact hsx d hd

/-- C04: for every number of dimensions, every reordering of the dimensions, every content and every execution order of the
parallel loop, the transposed field holds at every multi-index the value of the source field at that multi-index. -/
theorem c04_transpose_values (Rdst Rsrc : IdxRange κ) (hperm : Rdst.Perm Rsrc) (hR : (tags Rsrc).Nodup)
    (sched : List (κ → ℕ)) (hs : sched.Perm (enum (parallelRange Rsrc))) (dst src : ℕ → α)
    (x : κ → ℕ) (hx : InBox Rsrc x) :
    transposeLayout Rdst Rsrc sched dst src (offset Rdst x) = src (offset Rsrc x) :=
  foldl_copyAt Rdst Rsrc hperm src _ (visited_inBox Rsrc hR sched hs) dst x hx
    (Or.inl (visited_covers Rsrc hR sched hs x hx))

/-- C04: no memory outside the transposed field is written. -/
theorem c04_no_write_outside (Rdst Rsrc : IdxRange κ) (hperm : Rdst.Perm Rsrc) (hR : (tags Rsrc).Nodup)
    (sched : List (κ → ℕ)) (hs : sched.Perm (enum (parallelRange Rsrc))) (dst src : ℕ → α)
    (pos : ℕ) (hpos : size Rdst ≤ pos) :
    transposeLayout Rdst Rsrc sched dst src pos = dst pos :=
  foldl_copyAt_outside Rdst Rsrc hperm src _ (visited_inBox Rsrc hR sched hs) dst pos hpos

/-- Every memory position of a field belongs to a multi-index, so `c04_transpose_values` describes the whole
memory of the result. -/
theorem exists_offset (R : IdxRange κ) (hR : (tags R).Nodup) (pos : ℕ) (hpos : pos < size R) :
    ∃ x, InBox R x ∧ offset R x = pos := by
  induction R generalizing pos with
  | nil => exact ⟨fun _ => 0, by simp [InBox], by simp at hpos; simp [offset, hpos]⟩
  | cons d R ih =>
    have hn : d.tag ∉ tags R ∧ (tags R).Nodup := by simpa [tags] using hR
    rw [size_cons] at hpos
    have hp : 0 < size R := by
      rcases Nat.eq_zero_or_pos (size R) with h | h
      · rw [h] at hpos; simp at hpos
      · exact h
    obtain ⟨x, hx, hox⟩ := ih hn.2 (pos % size R) (Nat.mod_lt _ hp)
    have hq : pos / size R < d.size := (Nat.div_lt_iff_lt_mul hp).2 hpos
    have hag : ∀ e ∈ R, Function.update x d.tag (d.front + pos / size R) e.tag = x e.tag := by
      intro e he
      have hne : e.tag ≠ d.tag := by
        intro h
        exact hn.1 (by rw [← h]; exact List.mem_map_of_mem he)
      rw [Function.update_of_ne hne]
    refine ⟨Function.update x d.tag (d.front + pos / size R), ?_, ?_⟩
    · rw [inBox_cons]
      refine ⟨by simpa using hq, inBox_congr R x _ (fun e he => (hag e he).symm) hx⟩
    · simp only [offset, Function.update_self]
      rw [offset_congr R _ x hag, hox]
      have : d.front + pos / size R - d.front = pos / size R := Nat.add_sub_cancel_left ..
      rw [this, mul_comm]
      exact Nat.div_add_mod _ _

/-- A seven-dimensional instance (the split branch) and a transposed two-dimensional instance satisfy the hypotheses. -/
example : ∃ (Rsrc Rdst : IdxRange ℕ) (sched : List (ℕ → ℕ)), Rdst.Perm Rsrc ∧ Rdst ≠ Rsrc ∧ (tags Rsrc).Nodup ∧
    sched.Perm (enum (parallelRange Rsrc)) ∧ 7 ≤ Rsrc.length ∧ InBox Rsrc (fun _ => 1) :=
  ⟨(List.range 7).map fun i => ⟨i, 0, i + 2⟩, ((List.range 7).map fun i => ⟨i, 0, i + 2⟩).reverse, _,
    List.reverse_perm _, by decide, by decide, List.Perm.refl _, by simp, by
      intro d hd
      simp only [List.mem_map, List.mem_range] at hd
      obtain ⟨i, _, rfl⟩ := hd
      simp⟩

end Verif.Transpose
