import Verif.Model.MpiTranspose
import Verif.Props.MpiLayout

/-! Property C03: the all-to-all transposition delivers the right data to each rank. -/

namespace Verif.MpiTranspose
open Verif.Layout Verif.MpiLayout Verif.Transpose

variable {τ α : Type*} [DecidableEq τ]

section general
variable {κ : Type*} [DecidableEq κ]

theorem select_map (δ : κ → Dim κ) (hδ : ∀ t, (δ t).tag = t) (U : List κ) (t : κ) (ht : t ∈ U) :
    select (U.map δ) t = δ t := by
  induction U with
  | nil => simp at ht
  | cons a U ih =>
    unfold select
    rw [List.map_cons, List.find?_cons]
    by_cases h : a = t
    · subst h; simp [hδ]
    · simp only [hδ, h, decide_false]
      exact ih (by rcases List.mem_cons.1 ht with rfl | h'; exact absurd rfl h; exact h')

theorem reorder_map (δ : κ → Dim κ) (hδ : ∀ t, (δ t).tag = t) (U T : List κ) (hT : ∀ t ∈ T, t ∈ U) :
    reorder T (U.map δ) = T.map δ := by
  unfold reorder
  exact List.map_congr_left fun t ht => select_map δ hδ U t (hT t ht)

omit [DecidableEq κ] in
theorem tags_map (δ : κ → Dim κ) (hδ : ∀ t, (δ t).tag = t) (T : List κ) : tags (T.map δ) = T := by
  unfold tags
  rw [List.map_map]
  conv_rhs => rw [← List.map_id T]
  exact List.map_congr_left fun t _ => hδ t

omit [DecidableEq κ] in
theorem insertAt_perm (t : κ) (p : ℕ) (s : List κ) : (insertAt t p s).Perm (t :: s) := by
  induction s generalizing p with
  | nil => cases p <;> simp [insertAt]
  | cons a s ih =>
    cases p with
    | zero => simp [insertAt]
    | succ p => exact ((ih p).cons a).trans (List.Perm.swap _ _ _)

end general

theorem insertMpiTags_perm (D : List τ) (s : List (Ext τ)) :
    (insertMpiTags D s).Perm (D.map Ext.mpi ++ s) := by
  induction D generalizing s with
  | nil => simp [insertMpiTags]
  | cons d D ih =>
    unfold insertMpiTags
    refine (ih _).trans ?_
    refine ((insertAt_perm _ _ s).append_left _).trans ?_
    simp

/-- (proof device) the tags with the MPI tags inserted. -/
def expand (D : List τ) (T : List τ) : List (Ext τ) :=
  T.flatMap fun t => if t ∈ D then [.mpi t, .dim t] else [.dim t]

theorem expand_congr (A B T : List τ) (h : ∀ t ∈ T, (t ∈ A ↔ t ∈ B)) : expand A T = expand B T := by
  induction T with
  | nil => rfl
  | cons t T ih =>
    have h1 := h t (by simp)
    have h2 := ih fun s hs => h s (by simp [hs])
    simp only [expand, List.flatMap_cons] at h2 ⊢
    rw [h2]
    simp [h1]

theorem insert_expand (A T : List τ) (hT : T.Nodup) (d : τ) (hd : d ∈ T) (hA : d ∉ A) :
    insertAt (.mpi d) ((expand A T).idxOf (.dim d)) (expand A T) = expand (d :: A) T := by
  induction T with
  | nil => simp at hd
  | cons t T ih =>
    rw [List.nodup_cons] at hT
    by_cases htd : t = d
    · subst htd
      have hE : expand (t :: A) T = expand A T := by
        apply expand_congr
        intro s hs
        have : s ≠ t := fun h => hT.1 (h ▸ hs)
        simp [this]
      have h1 : expand A (t :: T) = .dim t :: expand A T := by simp [expand, hA]
      have h2 : expand (t :: A) (t :: T) = .mpi t :: .dim t :: expand (t :: A) T := by simp [expand]
      rw [h1, h2, hE]
      simp [insertAt]
    · have hd' : d ∈ T := by rcases List.mem_cons.1 hd with h | h; exact absurd h.symm htd; exact h
      have ih := ih hT.2 hd'
      by_cases htA : t ∈ A
      · have h1 : expand A (t :: T) = .mpi t :: .dim t :: expand A T := by simp [expand, htA]
        have h2 : expand (d :: A) (t :: T) = .mpi t :: .dim t :: expand (d :: A) T := by simp [expand, htA]
        rw [h1, h2, ← ih]
        rw [List.idxOf_cons_ne _ (by simp), List.idxOf_cons_ne _ (by simpa using htd)]
        simp [insertAt]
      · have h1 : expand A (t :: T) = .dim t :: expand A T := by simp [expand, htA]
        have h2 : expand (d :: A) (t :: T) = .dim t :: expand (d :: A) T := by simp [expand, htA, htd]
        rw [h1, h2, ← ih]
        rw [List.idxOf_cons_ne _ (by simpa using htd)]
        simp [insertAt]

theorem insertMpiTags_expand (D A T : List τ) (hT : T.Nodup) (hD : D.Nodup) (hDT : ∀ t ∈ D, t ∈ T) (hDA : ∀ t ∈ D, t ∉ A) :
    insertMpiTags D (expand A T) = expand (D ++ A) T := by
  induction D generalizing A with
  | nil => rfl
  | cons d D ih =>
    rw [List.nodup_cons] at hD
    unfold insertMpiTags
    rw [insert_expand A T hT d (hDT d (by simp)) (hDA d (by simp))]
    rw [ih (d :: A) hD.2 (fun t ht => hDT t (by simp [ht]))]
    · apply expand_congr
      intro t _
      simp; tauto
    · intro t ht
      have : t ≠ d := fun h => hD.1 (h ▸ ht)
      simp [this, hDA t (by simp [ht])]

theorem insertMpiTags_eq (D T : List τ) (hT : T.Nodup) (hD : D.Nodup) (hDT : ∀ t ∈ D, t ∈ T) :
    insertMpiTags D (T.map .dim) = expand D T := by
  have h0 : (T.map Ext.dim) = expand [] T := by
    clear hT hDT
    induction T with
    | nil => rfl
    | cons t T ih => simp only [List.map_cons, ih]; simp [expand]
  rw [h0, insertMpiTags_expand D [] T hT hD hDT (by simp)]
  simp

/-- Splitting a dimension of size `p*s` into an MPI dimension of size `p` and a local dimension of size `s` does not move the data. -/
theorem reinterpret (D T : List τ) (δ : Ext τ → Dim (Ext τ)) (hδ : ∀ e, (δ e).tag = e)
    (ρ : τ → Dim τ) (hρ : ∀ t, (ρ t).tag = t) (x : τ → ℕ) (z : Ext τ → ℕ)
    (h1 : ∀ t ∈ T, t ∈ D → (ρ t).size = (δ (.mpi t)).size * (δ (.dim t)).size ∧
      x t - (ρ t).front = (z (.mpi t) - (δ (.mpi t)).front) * (δ (.dim t)).size + (z (.dim t) - (δ (.dim t)).front))
    (h2 : ∀ t ∈ T, t ∉ D → (ρ t).size = (δ (.dim t)).size ∧ x t - (ρ t).front = z (.dim t) - (δ (.dim t)).front) :
    size (T.map ρ) = size ((expand D T).map δ) ∧ offset (T.map ρ) x = offset ((expand D T).map δ) z := by
  induction T with
  | nil => simp [expand, offset]
  | cons t T ih =>
    obtain ⟨ih1, ih2⟩ := ih (fun s hs => h1 s (by simp [hs])) (fun s hs => h2 s (by simp [hs]))
    by_cases hD : t ∈ D
    · have hE : expand D (t :: T) = .mpi t :: .dim t :: expand D T := by simp [expand, hD]
      obtain ⟨ha, hb⟩ := h1 t (by simp) hD
      rw [hE]
      simp only [List.map_cons, size_cons, offset, hρ, hδ, ih1, ih2, ha, hb]
      constructor <;> ring
    · have hE : expand D (t :: T) = .dim t :: expand D T := by simp [expand, hD]
      obtain ⟨ha, hb⟩ := h2 t (by simp) hD
      rw [hE]
      simp only [List.map_cons, size_cons, offset, hρ, hδ, ih1, ih2, ha, hb]
      constructor <;> trivial

theorem offset_rel {κ κ' : Type*} (R : List κ) (a : κ → Dim κ') (b : κ → Dim κ') (x y : κ' → ℕ)
    (h : ∀ t ∈ R, (a t).size = (b t).size ∧ x (a t).tag - (a t).front = y (b t).tag - (b t).front) :
    size (R.map a) = size (R.map b) ∧ offset (R.map a) x = offset (R.map b) y := by
  induction R with
  | nil => simp [offset]
  | cons t R ih =>
    obtain ⟨i1, i2⟩ := ih fun s hs => h s (by simp [hs])
    obtain ⟨h1, h2⟩ := h t (by simp)
    simp only [List.map_cons, size_cons, offset, i1, i2, h1, h2]
    exact ⟨trivial, trivial⟩

theorem grid_local (D : List τ) (R : IdxRange τ) (P : ℕ) (hP : 0 < P) (m : τ → ℕ) (hm : InBox (grid D R P) m) (d : Dim τ) (hd : d ∈ R) :
    ∃ p, ⟨d.tag, 0, p⟩ ∈ grid D R P ∧ p ∣ d.size ∧ 0 < p ∧ (d.tag ∉ D → p = 1) ∧
      ⟨d.tag, d.front + m d.tag * (d.size / p), d.size / p⟩ ∈ localOf D R P m := by
  induction R generalizing P with
  | nil => simp at hd
  | cons e R ih =>
    by_cases he : e.tag ∈ D
    · have hg : 0 < Nat.gcd P e.size := Nat.gcd_pos_of_pos_left _ hP
      have hpos : 0 < P / Nat.gcd P e.size := Nat.div_pos (Nat.le_of_dvd hP (Nat.gcd_dvd_left _ _)) hg
      rw [grid, if_pos he] at hm ⊢
      rw [localOf, if_pos he]
      rw [inBox_cons] at hm
      rcases List.mem_cons.1 hd with rfl | hd
      · exact ⟨Nat.gcd P d.size, by simp, Nat.gcd_dvd_right _ _, hg, fun h => absurd he h, by simp⟩
      · obtain ⟨p, h1, h2, h3, h4, h5⟩ := ih _ hpos hm.2 hd
        exact ⟨p, by simp [h1], h2, h3, h4, by simp [h5]⟩
    · rw [grid, if_neg he] at hm ⊢
      rw [localOf, if_neg he]
      rw [inBox_cons] at hm
      rcases List.mem_cons.1 hd with rfl | hd
      · have h0 : m d.tag = 0 := by have := hm.1.2; simp at this; exact this
        exact ⟨1, by simp, one_dvd _, Nat.one_pos, fun _ => rfl, by simp [h0]⟩
      · obtain ⟨p, h1, h2, h3, h4, h5⟩ := ih _ hP hm.2 hd
        exact ⟨p, by simp [h1], h2, h3, h4, by simp [h5]⟩

/-- What is required of a layout for the transposition to be meaningful: its tags are those of the global range, and
the distributed dimensions are listed in the order in which they appear in the tag order. -/
structure WF (L : MLayout τ) (G : IdxRange τ) (P : ℕ) : Prop where
  perm : L.order.Perm (tags G)
  ordered : L.distributed = L.order.filter (fun t => t ∈ L.distributed)
  divides : P ∣ distribSize L.distributed (reorder L.order G)

/-- (proof device) number of ranks along a dimension. -/
def pdim (L : MLayout τ) (G : IdxRange τ) (P : ℕ) (t : τ) : ℕ :=
  (select (grid L.distributed (reorder L.order G) P) t).size

section layoutFacts
variable {L : MLayout τ} {G : IdxRange τ} {P : ℕ}

theorem WF.nodup (h : WF L G P) (hG : (tags G).Nodup) : L.order.Nodup := h.perm.nodup_iff.2 hG

theorem tags_GL (h : WF L G P) (hG : (tags G).Nodup) : tags (reorder L.order G) = L.order :=
  tags_reorder G hG L.order fun _ ht => h.perm.mem_iff.1 ht

theorem mem_order (h : WF L G P) (d : Dim τ) (hd : d ∈ G) : d.tag ∈ L.order :=
  h.perm.mem_iff.2 (List.mem_map_of_mem hd)

theorem mem_GL (h : WF L G P) (hG : (tags G).Nodup) (d : Dim τ) (hd : d ∈ G) : d ∈ reorder L.order G :=
  (reorder_perm G hG L.order h.perm).mem_iff.2 hd

/-- Everything about one dimension of the local range at grid position `m`. -/
theorem dimFacts (h : WF L G P) (hG : (tags G).Nodup) (hP : 0 < P) (m : τ → ℕ)
    (hm : InBox (grid L.distributed (reorder L.order G) P) m) (d : Dim τ) (hd : d ∈ G) :
    select (grid L.distributed (reorder L.order G) P) d.tag = ⟨d.tag, 0, pdim L G P d.tag⟩ ∧
    pdim L G P d.tag ∣ d.size ∧ 0 < pdim L G P d.tag ∧ m d.tag < pdim L G P d.tag ∧
    (d.tag ∉ L.distributed → pdim L G P d.tag = 1) ∧
    select (localOf L.distributed (reorder L.order G) P m) d.tag
      = ⟨d.tag, d.front + m d.tag * (d.size / pdim L G P d.tag), d.size / pdim L G P d.tag⟩ := by
  obtain ⟨p, h1, h2, h3, h4, h5⟩ := grid_local L.distributed (reorder L.order G) P hP m hm d (mem_GL h hG d hd)
  have hnd : (tags (reorder L.order G)).Nodup := by rw [tags_GL h hG]; exact h.nodup hG
  have hs := select_eq _ (by rw [tags_grid]; exact hnd) _ h1
  have hl := select_eq _ (by rw [tags_localOf]; exact hnd) _ h5
  simp only at hs hl
  have hp : pdim L G P d.tag = p := by unfold pdim; rw [hs]
  rw [hp]
  refine ⟨hs, h2, h3, ?_, h4, hl⟩
  have := (hm _ h1).2
  simpa using this

theorem localRange_eq (h : WF L G P) (hG : (tags G).Nodup) (hne : G ≠ []) (hP : 0 < P) (m : τ → ℕ)
    (hm : InBox (grid L.distributed (reorder L.order G) P) m) :
    localRange L G P (offset (grid L.distributed (reorder L.order G) P) m)
      = localOf L.distributed (reorder L.order G) P m := by
  have hne' : reorder L.order G ≠ [] := by
    intro h0
    have := (reorder_perm G hG L.order h.perm).length_eq
    rw [h0] at this
    exact hne (List.length_eq_zero_iff.1 this.symm)
  unfold localRange distribute
  rw [if_neg (by simp [Nat.mod_eq_zero_of_dvd h.divides]), internal_eq _ _ hne' P hP h.divides m hm]

/-- The `MPI` dimensions in the order of the distributed pack number the ranks like the grid of ranks. -/
theorem mpi_offset_aux (T : List τ) (D : List τ) (p : τ → ℕ) (m : τ → ℕ) (hp : ∀ t ∈ T, t ∉ D → p t = 1 ∧ m t = 0)
    (z : Ext τ → ℕ) (hz : ∀ t, z (.mpi t) = m t) :
    size ((T.filter (fun t => t ∈ D)).map fun t => (⟨.mpi t, 0, p t⟩ : Dim (Ext τ))) = size (T.map fun t => (⟨t, 0, p t⟩ : Dim τ)) ∧
    offset ((T.filter (fun t => t ∈ D)).map fun t => (⟨.mpi t, 0, p t⟩ : Dim (Ext τ))) z = offset (T.map fun t => (⟨t, 0, p t⟩ : Dim τ)) m := by
  induction T with
  | nil => simp [offset]
  | cons t T ih =>
    obtain ⟨i1, i2⟩ := ih fun s hs => hp s (by simp [hs])
    by_cases hD : t ∈ D
    · rw [List.filter_cons_of_pos (by simpa using hD)]
      simp only [List.map_cons, size_cons, offset, i1, i2, hz]
      exact ⟨trivial, trivial⟩
    · rw [List.filter_cons_of_neg (by simpa using hD)]
      obtain ⟨h1, h2⟩ := hp t (by simp) hD
      simp only [List.map_cons, size_cons, offset, i1, i2, h1, h2]
      simp

theorem mpi_offset (h : WF L G P) (hG : (tags G).Nodup) (hP : 0 < P) (m : τ → ℕ)
    (hm : InBox (grid L.distributed (reorder L.order G) P) m) (z : Ext τ → ℕ) (hz : ∀ t, z (.mpi t) = m t) :
    size (L.distributed.map fun t => (⟨.mpi t, 0, pdim L G P t⟩ : Dim (Ext τ))) = P ∧
    offset (L.distributed.map fun t => (⟨.mpi t, 0, pdim L G P t⟩ : Dim (Ext τ))) z
      = offset (grid L.distributed (reorder L.order G) P) m := by
  have hgrid : grid L.distributed (reorder L.order G) P = L.order.map fun t => (⟨t, 0, pdim L G P t⟩ : Dim τ) := by
    have hnd : (tags (grid L.distributed (reorder L.order G) P)).Nodup := by
      rw [tags_grid, tags_GL h hG]; exact h.nodup hG
    conv_lhs => rw [← reorder_self _ hnd, tags_grid, tags_GL h hG]
    unfold reorder
    apply List.map_congr_left
    intro t ht
    obtain ⟨d, hd, rfl⟩ := List.mem_map.1 (h.perm.mem_iff.1 ht)
    exact (dimFacts h hG hP m hm d hd).1
  have haux := mpi_offset_aux L.order L.distributed (pdim L G P) m (by
    intro t ht htD
    obtain ⟨d, hd, rfl⟩ := List.mem_map.1 (h.perm.mem_iff.1 ht)
    obtain ⟨_, _, _, h4, h5, _⟩ := dimFacts h hG hP m hm d hd
    have := h5 htD
    exact ⟨this, by omega⟩) z hz
  rw [← h.ordered, ← hgrid] at haux
  exact ⟨by rw [haux.1, size_grid _ _ P hP h.divides], haux.2⟩

end layoutFacts

/-- (proof device) front of a plain dimension on the rank with grid positions `mi` (input layout), `mo` (output layout). -/
def phi (Lin Lout : MLayout τ) (G : IdxRange τ) (P : ℕ) (mi mo : τ → ℕ) (t : τ) : ℕ :=
  if t ∈ Lout.distributed then (select G t).front + mo t * ((select G t).size / pdim Lout G P t)
  else (select G t).front + mi t * ((select G t).size / pdim Lin G P t)

/-- (proof device) size of a plain dimension. -/
def sdim (Lin Lout : MLayout τ) (G : IdxRange τ) (P : ℕ) (t : τ) : ℕ :=
  if t ∈ Lout.distributed then (select G t).size / pdim Lout G P t else (select G t).size / pdim Lin G P t

/-- (proof device) descriptor of the extended dimensions on a rank. -/
def delta (Lin Lout : MLayout τ) (G : IdxRange τ) (P : ℕ) (mi mo : τ → ℕ) : Ext τ → Dim (Ext τ)
  | .mpi t => ⟨.mpi t, 0, if t ∈ Lout.distributed then pdim Lout G P t else pdim Lin G P t⟩
  | .dim t => ⟨.dim t, phi Lin Lout G P mi mo t, sdim Lin Lout G P t⟩

theorem delta_tag (Lin Lout : MLayout τ) (G : IdxRange τ) (P : ℕ) (mi mo : τ → ℕ) (e : Ext τ) :
    (delta Lin Lout G P mi mo e).tag = e := by cases e <;> rfl

section ranges
variable {Lin Lout : MLayout τ} {G : IdxRange τ} {P : ℕ}

theorem mpiRange_eq {L : MLayout τ} (h : WF L G P) (hG : (tags G).Nodup) (hne : G ≠ []) (hpos : ∀ d ∈ G, 0 < d.size) (hP : 0 < P)
    (m : τ → ℕ) (hm : InBox (grid L.distributed (reorder L.order G) P) m) (r : ℕ)
    (hr : offset (grid L.distributed (reorder L.order G) P) m = r) :
    mpiRange L G P r = L.distributed.map fun t => (⟨.mpi t, 0, pdim L G P t⟩ : Dim (Ext τ)) := by
  unfold mpiRange
  rw [← hr, localRange_eq h hG hne hP m hm]
  apply List.map_congr_left
  intro t ht
  have hto : t ∈ L.order := by rw [h.ordered] at ht; exact (List.mem_filter.1 ht).1
  obtain ⟨d, hd, rfl⟩ := List.mem_map.1 (h.perm.mem_iff.1 hto)
  obtain ⟨_, h2, h3, _, _, h6⟩ := dimFacts h hG hP m hm d hd
  rw [h6, select_eq G hG d hd]
  simp only
  rw [Nat.div_div_self h2 (by have := hpos d hd; omega)]

theorem order_perm (hin : WF Lin G P) (hout : WF Lout G P) : Lin.order.Perm Lout.order := hin.perm.trans hout.perm.symm

theorem dist_sub {L : MLayout τ} (h : WF L G P) : ∀ t ∈ L.distributed, t ∈ L.order := by
  intro t ht; rw [h.ordered] at ht; exact (List.mem_filter.1 ht).1

theorem dist_nodup {L : MLayout τ} (h : WF L G P) (hG : (tags G).Nodup) : L.distributed.Nodup := by
  rw [h.ordered]; exact (h.nodup hG).filter _

theorem plainDims_eq (hin : WF Lin G P) (hout : WF Lout G P) (hG : (tags G).Nodup) (hne : G ≠ []) (hP : 0 < P)
    (hdisj : ∀ t ∈ Lin.distributed, t ∉ Lout.distributed) (mi mo : τ → ℕ)
    (hmi : InBox (grid Lin.distributed (reorder Lin.order G) P) mi)
    (hmo : InBox (grid Lout.distributed (reorder Lout.order G) P) mo) (r : ℕ)
    (hri : offset (grid Lin.distributed (reorder Lin.order G) P) mi = r)
    (hro : offset (grid Lout.distributed (reorder Lout.order G) P) mo = r) :
    plainDims Lin Lout G P r =
      ((Lout.distributed ++ Lin.distributed ++ batchDims Lin Lout).map Ext.dim).map (delta Lin Lout G P mi mo) := by
  unfold plainDims
  have e1 : localRange Lin G P r = localOf Lin.distributed (reorder Lin.order G) P mi := by
    rw [← hri]; exact localRange_eq hin hG hne hP mi hmi
  have e2 : localRange Lout G P r = localOf Lout.distributed (reorder Lout.order G) P mo := by
    rw [← hro]; exact localRange_eq hout hG hne hP mo hmo
  rw [e1, e2]
  simp only [List.map_append, lift, reorder, List.map_map]
  congr 1
  · congr 1
    · apply List.map_congr_left
      intro t ht
      have hto := dist_sub hout t ht
      obtain ⟨d, hd, rfl⟩ := List.mem_map.1 (hout.perm.mem_iff.1 hto)
      obtain ⟨_, _, _, _, _, h6⟩ := dimFacts hout hG hP mo hmo d hd
      unfold reorder at h6
      simp [h6, delta, phi, sdim, ht, select_eq G hG d hd]
    · apply List.map_congr_left
      intro t ht
      have hto := dist_sub hin t ht
      obtain ⟨d, hd, rfl⟩ := List.mem_map.1 (hin.perm.mem_iff.1 hto)
      obtain ⟨_, _, _, _, _, h6⟩ := dimFacts hin hG hP mi hmi d hd
      unfold reorder at h6
      simp [h6, delta, phi, sdim, hdisj _ ht, select_eq G hG d hd]
  · apply List.map_congr_left
    intro t ht
    simp only [batchDims, List.mem_filter] at ht
    obtain ⟨⟨hto, hnout⟩, hnin⟩ := ht
    obtain ⟨d, hd, rfl⟩ := List.mem_map.1 (hin.perm.mem_iff.1 hto)
    obtain ⟨_, _, _, _, _, h6⟩ := dimFacts hin hG hP mi hmi d hd
    have hno : d.tag ∉ Lout.distributed := by simpa using hnout
    unfold reorder at h6
    simp [h6, delta, phi, sdim, hno, select_eq G hG d hd]

theorem mem_plain_tags (t : τ) (ht : t ∈ Lin.order) :
    Ext.dim t ∈ (Lout.distributed ++ Lin.distributed ++ batchDims Lin Lout).map Ext.dim := by
  simp only [List.mem_map, List.mem_append, batchDims, List.mem_filter]
  refine ⟨t, ?_, rfl⟩
  by_cases h1 : t ∈ Lout.distributed
  · exact Or.inl (Or.inl h1)
  · by_cases h2 : t ∈ Lin.distributed
    · exact Or.inl (Or.inr h2)
    · exact Or.inr ⟨⟨ht, by simpa using h1⟩, by simpa using h2⟩

/-- All four ranges of a rank in terms of one descriptor of the extended dimensions. -/
theorem ranges_eq (hin : WF Lin G P) (hout : WF Lout G P) (hG : (tags G).Nodup) (hne : G ≠ []) (hpos : ∀ d ∈ G, 0 < d.size) (hP : 0 < P)
    (hdisj : ∀ t ∈ Lin.distributed, t ∉ Lout.distributed) (mi mo : τ → ℕ)
    (hmi : InBox (grid Lin.distributed (reorder Lin.order G) P) mi)
    (hmo : InBox (grid Lout.distributed (reorder Lout.order G) P) mo) (r : ℕ)
    (hri : offset (grid Lin.distributed (reorder Lin.order G) P) mi = r)
    (hro : offset (grid Lout.distributed (reorder Lout.order G) P) mo = r) :
    inputMpiRange Lin Lout G P r = (expand Lout.distributed Lin.order).map (delta Lin Lout G P mi mo) ∧
    outputMpiRange Lin Lout G P r = (expand Lin.distributed Lout.order).map (delta Lin Lout G P mi mo) ∧
    inputAlltoallRange Lin Lout G P r
      = (Lout.distributed.map Ext.mpi ++ Lin.order.map Ext.dim).map (delta Lin Lout G P mi mo) ∧
    outputAlltoallRange Lin Lout G P r
      = (Lin.distributed.map Ext.mpi ++ Lin.order.map Ext.dim).map (delta Lin Lout G P mi mo) := by
  have hT := hin.nodup hG
  have hT' := hout.nodup hG
  have hop := order_perm hin hout
  have hdo : ∀ t ∈ Lout.distributed, t ∈ Lin.order := fun t ht => hop.mem_iff.2 (dist_sub hout t ht)
  have hdi : ∀ t ∈ Lin.distributed, t ∈ Lout.order := fun t ht => hop.mem_iff.1 (dist_sub hin t ht)
  have i1 := insertMpiTags_eq Lout.distributed Lin.order hT (dist_nodup hout hG) hdo
  have i2 := insertMpiTags_eq Lin.distributed Lout.order hT' (dist_nodup hin hG) hdi
  have p1 : (insertMpiTags Lout.distributed (Lin.order.map .dim)).Perm _ := insertMpiTags_perm _ _
  have p2 : (insertMpiTags Lin.distributed (Lout.order.map .dim)).Perm _ := insertMpiTags_perm _ _
  have hpl := plainDims_eq hin hout hG hne hP hdisj mi mo hmi hmo r hri hro
  have mo' : mpiRange Lout G P r = (Lout.distributed.map Ext.mpi).map (delta Lin Lout G P mi mo) := by
    rw [mpiRange_eq hout hG hne hpos hP mo hmo r hro, List.map_map]
    apply List.map_congr_left
    intro t ht
    simp [delta, ht]
  have mi' : mpiRange Lin G P r = (Lin.distributed.map Ext.mpi).map (delta Lin Lout G P mi mo) := by
    rw [mpiRange_eq hin hG hne hpos hP mi hmi r hri, List.map_map]
    apply List.map_congr_left
    intro t ht
    simp [delta, hdisj t ht]
  have A : inputMpiRange Lin Lout G P r = (expand Lout.distributed Lin.order).map (delta Lin Lout G P mi mo) := by
    unfold inputMpiRange
    rw [mo', hpl, ← List.map_append, reorder_map _ (delta_tag _ _ _ _ _ _), i1]
    intro e he
    rw [p1.mem_iff, List.mem_append] at he
    rw [List.mem_append]
    rcases he with he | he
    · exact Or.inl he
    · obtain ⟨t, ht, rfl⟩ := List.mem_map.1 he
      exact Or.inr (mem_plain_tags t ht)
  have B : outputMpiRange Lin Lout G P r = (expand Lin.distributed Lout.order).map (delta Lin Lout G P mi mo) := by
    unfold outputMpiRange
    rw [mi', hpl, ← List.map_append, reorder_map _ (delta_tag _ _ _ _ _ _), i2]
    intro e he
    rw [p2.mem_iff, List.mem_append] at he
    rw [List.mem_append]
    rcases he with he | he
    · exact Or.inl he
    · obtain ⟨t, ht, rfl⟩ := List.mem_map.1 he
      exact Or.inr (mem_plain_tags t (hop.mem_iff.2 ht))
  refine ⟨A, B, ?_, ?_⟩
  · unfold inputAlltoallRange
    rw [A, reorder_map _ (delta_tag _ _ _ _ _ _)]
    intro e he
    rw [← i1, p1.mem_iff]; exact he
  · unfold outputAlltoallRange
    rw [B, reorder_map _ (delta_tag _ _ _ _ _ _)]
    intro e he
    rw [← i2, p2.mem_iff, List.mem_append]
    rw [List.mem_append] at he
    rcases he with he | he
    · exact Or.inl he
    · obtain ⟨t, ht, rfl⟩ := List.mem_map.1 he
      exact Or.inr (List.mem_map_of_mem (hop.mem_iff.1 ht))

end ranges

omit [DecidableEq τ] in
theorem ext_nodup (A T : List τ) (hA : A.Nodup) (hT : T.Nodup) : (A.map Ext.mpi ++ T.map Ext.dim).Nodup := by
  rw [List.nodup_append]
  refine ⟨hA.map (by intro a b h; injection h), hT.map (by intro a b h; injection h), ?_⟩
  intro a ha b hb hab
  obtain ⟨s, _, rfl⟩ := List.mem_map.1 ha
  obtain ⟨t, _, rfl⟩ := List.mem_map.1 hb
  cases hab

/-- C03: let the send field of every rank `q` hold the values of a global field `F` on the local range of `q` in the input layout.
After `transpose_to`, the receive field of every rank `r` holds the values of `F` on the local range of `r` in the output layout.
For any number of dimensions, extents, tag orders, communicator size and order of the parallel copies. The layouts list their
distributed dimensions in the order of their tags (`WF`) and share none. -/
theorem c03_transpose_to (Lin Lout : MLayout τ) (G : IdxRange τ) (P : ℕ) (hP : 0 < P) (hne : G ≠ []) (hG : (tags G).Nodup)
    (hpos : ∀ d ∈ G, 0 < d.size) (hin : WF Lin G P) (hout : WF Lout G P)
    (hdisj : ∀ t ∈ Lin.distributed, t ∉ Lout.distributed)
    (schedIn schedOut : ℕ → List (Ext τ → ℕ))
    (hsi : ∀ q < P, (schedIn q).Perm (enum (parallelRange (inputMpiRange Lin Lout G P q))))
    (hso : ∀ r < P, (schedOut r).Perm (enum (parallelRange (outputAlltoallRange Lin Lout G P r))))
    (junk send recv : ℕ → ℕ → α) (F : (τ → ℕ) → α)
    (hsend : ∀ q < P, ∀ x, InBox (localRange Lin G P q) x → send q (offset (localRange Lin G P q) x) = F x) :
    ∀ r < P, ∀ x, InBox (localRange Lout G P r) x →
      transposeTo Lin Lout G P schedIn schedOut junk send recv r (offset (localRange Lout G P r) x) = F x := by
  intro r hr x hx
  have hne1 : reorder Lin.order G ≠ [] := by
    intro h0
    have := (reorder_perm G hG Lin.order hin.perm).length_eq
    rw [h0] at this
    exact hne (List.length_eq_zero_iff.1 this.symm)
  have hne2 : reorder Lout.order G ≠ [] := by
    intro h0
    have := (reorder_perm G hG Lout.order hout.perm).length_eq
    rw [h0] at this
    exact hne (List.length_eq_zero_iff.1 this.symm)
  have hnd1 : (tags (reorder Lin.order G)).Nodup := by rw [tags_GL hin hG]; exact hin.nodup hG
  have hnd2 : (tags (reorder Lout.order G)).Nodup := by rw [tags_GL hout hG]; exact hout.nodup hG
  -- grid positions
  obtain ⟨moR, hmoR, hroR, _⟩ := distribute_eq Lout.distributed _ hne2 hnd2 P hP hout.divides r hr
  obtain ⟨miR, hmiR, hriR, _⟩ := distribute_eq Lin.distributed _ hne1 hnd1 P hP hin.divides r hr
  have elocR : localRange Lout G P r = localOf Lout.distributed (reorder Lout.order G) P moR := by
    rw [← hroR]; exact localRange_eq hout hG hne hP moR hmoR
  have hxG : InBox (reorder Lin.order G) x := by
    rw [inBox_perm (reorder_perm G hG Lin.order hin.perm), ← inBox_perm (reorder_perm G hG Lout.order hout.perm)]
    rw [elocR] at hx
    exact localOf_subset _ _ _ _ hmoR x hx
  obtain ⟨miQ, hmiQ, hxQ, _⟩ := mem_localOf Lin.distributed _ hnd1 P hP hin.divides x hxG
  set q := offset (grid Lin.distributed (reorder Lin.order G) P) miQ with hq
  have hqP : q < P := by
    have := offset_lt _ _ hmiQ
    rw [size_grid _ _ P hP hin.divides] at this
    exact this
  obtain ⟨moQ, hmoQ, hroQ, _⟩ := distribute_eq Lout.distributed _ hne2 hnd2 P hP hout.divides q hqP
  have elocQ : localRange Lin G P q = localOf Lin.distributed (reorder Lin.order G) P miQ :=
    localRange_eq hin hG hne hP miQ hmiQ
  obtain ⟨R1, R2, R3, R4⟩ := ranges_eq hin hout hG hne hpos hP hdisj miR moR hmiR hmoR r hriR hroR
  obtain ⟨Q1, Q2, Q3, Q4⟩ := ranges_eq hin hout hG hne hpos hP hdisj miQ moQ hmiQ hmoQ q rfl hroQ
  -- relative indices
  let i : τ → ℕ := fun t => if t ∈ Lout.distributed then x t - phi Lin Lout G P miR moR t else x t - phi Lin Lout G P miQ moQ t
  let zr : Ext τ → ℕ := fun e => match e with
    | .mpi t => miQ t
    | .dim t => phi Lin Lout G P miR moR t + i t
  let zq : Ext τ → ℕ := fun e => match e with
    | .mpi t => moR t
    | .dim t => phi Lin Lout G P miQ moQ t + i t
  have key : ∀ d ∈ G, i d.tag < sdim Lin Lout G P d.tag ∧
      (d.tag ∈ Lin.distributed → (x d.tag - d.front = miQ d.tag * sdim Lin Lout G P d.tag + i d.tag) ∧
        d.size = pdim Lin G P d.tag * sdim Lin Lout G P d.tag) ∧
      (d.tag ∈ Lout.distributed → (x d.tag - d.front = moR d.tag * sdim Lin Lout G P d.tag + i d.tag) ∧
        d.size = pdim Lout G P d.tag * sdim Lin Lout G P d.tag) ∧
      (d.tag ∉ Lin.distributed → d.size / pdim Lout G P d.tag = sdim Lin Lout G P d.tag ∧
        x d.tag - (d.front + moR d.tag * (d.size / pdim Lout G P d.tag)) = i d.tag) ∧
      (d.tag ∉ Lout.distributed → d.size / pdim Lin G P d.tag = sdim Lin Lout G P d.tag ∧
        x d.tag - (d.front + miQ d.tag * (d.size / pdim Lin G P d.tag)) = i d.tag) ∧
      miQ d.tag < pdim Lin G P d.tag ∧ moR d.tag < pdim Lout G P d.tag := by
    intro d hd
    obtain ⟨_, a2, a3, a4, a5, a6⟩ := dimFacts hin hG hP miQ hmiQ d hd
    obtain ⟨_, b2, b3, b4, b5, b6⟩ := dimFacts hout hG hP moR hmoR d hd
    have hxr : InBox (localOf Lout.distributed (reorder Lout.order G) P moR) x := by rw [← elocR]; exact hx
    have c1 : (⟨d.tag, d.front + miQ d.tag * (d.size / pdim Lin G P d.tag), d.size / pdim Lin G P d.tag⟩ : Dim τ)
        ∈ localOf Lin.distributed (reorder Lin.order G) P miQ := by
      rw [← a6]
      exact (select_mem _ (by rw [tags_localOf]; exact hnd1) _ (by rw [tags_localOf, tags_GL hin hG]; exact mem_order hin d hd)).1
    have c2 : (⟨d.tag, d.front + moR d.tag * (d.size / pdim Lout G P d.tag), d.size / pdim Lout G P d.tag⟩ : Dim τ)
        ∈ localOf Lout.distributed (reorder Lout.order G) P moR := by
      rw [← b6]
      exact (select_mem _ (by rw [tags_localOf]; exact hnd2) _ (by rw [tags_localOf, tags_GL hout hG]; exact mem_order hout d hd)).1
    have d1 := hxQ _ c1
    have d2 := hxr _ c2
    simp only at d1 d2
    have sel := select_eq G hG d hd
    by_cases ho : d.tag ∈ Lout.distributed
    · have hi : d.tag ∉ Lin.distributed := fun h => hdisj _ h ho
      have ep := a5 hi
      have em : miQ d.tag = 0 := by omega
      simp only [i, sdim, phi, ho, hi, if_true, sel, ep, em]
      rw [ep, em] at d1
      simp only [Nat.div_one, zero_mul, add_zero] at d1 ⊢
      refine ⟨by omega, fun h => absurd h (by simp), fun _ => ⟨by omega, (Nat.mul_div_cancel' b2).symm⟩, fun _ => (by constructor <;> trivial), fun h => absurd trivial h, by omega, b4⟩
    · by_cases hi : d.tag ∈ Lin.distributed
      · have ep := b5 ho
        have em : moR d.tag = 0 := by omega
        simp only [i, sdim, phi, ho, hi, if_false, sel, ep, em]
        refine ⟨by omega, fun _ => ⟨by omega, (Nat.mul_div_cancel' a2).symm⟩, fun h => absurd h (by simp), fun h => absurd trivial h, fun _ => (by constructor <;> trivial), by omega, by omega⟩
      · have ep := b5 ho
        have em : moR d.tag = 0 := by omega
        have ep' := a5 hi
        have em' : miQ d.tag = 0 := by omega
        simp only [i, sdim, phi, ho, hi, if_false, sel, ep, em, ep', em']
        rw [ep, em] at d2
        simp only [Nat.div_one, zero_mul, add_zero] at d2 ⊢
        refine ⟨by omega, fun h => absurd h (by simp), fun h => absurd h (by simp), fun _ => (by constructor <;> trivial), fun _ => (by constructor <;> trivial), by omega, by omega⟩
  have keyT : ∀ t ∈ Lin.order, ∃ d ∈ G, d.tag = t := fun t ht => List.mem_map.1 (hin.perm.mem_iff.1 ht)
  have keyT' : ∀ t ∈ Lout.order, ∃ d ∈ G, d.tag = t := fun t ht => List.mem_map.1 (hout.perm.mem_iff.1 ht)
  -- receiver side: the local field is the split field
  have nonin : ∀ t, t ∈ Lin.distributed → t ∉ Lout.distributed := hdisj
  have stepR : offset (localRange Lout G P r) x = offset (outputMpiRange Lin Lout G P r) zr := by
    rw [R2, elocR]
    have hnl : (tags (localOf Lout.distributed (reorder Lout.order G) P moR)).Nodup := by rw [tags_localOf]; exact hnd2
    rw [← reorder_self _ hnl, tags_localOf, tags_GL hout hG]
    rw [show ∀ (T : List τ) (R : IdxRange τ), reorder T R = T.map (select R) from fun _ _ => rfl]
    rw [List.map_congr_left (g := fun t => (⟨t, (select G t).front + moR t * ((select G t).size / pdim Lout G P t), (select G t).size / pdim Lout G P t⟩ : Dim τ))]
    · refine (reinterpret Lin.distributed Lout.order _ (delta_tag Lin Lout G P miR moR) _ (fun _ => rfl) x zr ?_ ?_).2
      · intro t ht htD
        obtain ⟨d, hd, rfl⟩ := keyT' t ht
        obtain ⟨k1, k2, k3, k4, k5, k6, k7⟩ := key d hd
        have ho := hdisj _ htD
        obtain ⟨_, _, _, b4, b5, _⟩ := dimFacts hout hG hP moR hmoR d hd
        have ep := b5 ho
        have em : moR d.tag = 0 := by omega
        obtain ⟨kk, kk'⟩ := k2 htD
        simp only [delta, zr, select_eq G hG d hd, ho, if_false, ep, em, Nat.div_one, zero_mul, add_zero, Nat.sub_zero]
        exact ⟨kk', by rw [kk]; omega⟩
      · intro t ht htD
        obtain ⟨d, hd, rfl⟩ := keyT' t ht
        obtain ⟨k1, k2, k3, k4, k5, k6, k7⟩ := key d hd
        obtain ⟨kk, kk'⟩ := k4 htD
        simp only [delta, zr, select_eq G hG d hd]
        exact ⟨kk, by rw [kk']; omega⟩
    · intro t ht
      obtain ⟨d, hd, rfl⟩ := keyT' t ht
      rw [(dimFacts hout hG hP moR hmoR d hd).2.2.2.2.2, select_eq G hG d hd]
  -- sender side
  have stepQ : offset (localRange Lin G P q) x = offset (inputMpiRange Lin Lout G P q) zq := by
    rw [Q1, elocQ]
    have hnl : (tags (localOf Lin.distributed (reorder Lin.order G) P miQ)).Nodup := by rw [tags_localOf]; exact hnd1
    rw [← reorder_self _ hnl, tags_localOf, tags_GL hin hG]
    rw [show ∀ (T : List τ) (R : IdxRange τ), reorder T R = T.map (select R) from fun _ _ => rfl]
    rw [List.map_congr_left (g := fun t => (⟨t, (select G t).front + miQ t * ((select G t).size / pdim Lin G P t), (select G t).size / pdim Lin G P t⟩ : Dim τ))]
    · refine (reinterpret Lout.distributed Lin.order _ (delta_tag Lin Lout G P miQ moQ) _ (fun _ => rfl) x zq ?_ ?_).2
      · intro t ht htD
        obtain ⟨d, hd, rfl⟩ := keyT t ht
        obtain ⟨k1, k2, k3, k4, k5, k6, k7⟩ := key d hd
        have hi : d.tag ∉ Lin.distributed := fun h => hdisj _ h htD
        obtain ⟨_, _, _, b4, b5, _⟩ := dimFacts hin hG hP miQ hmiQ d hd
        have ep := b5 hi
        have em : miQ d.tag = 0 := by omega
        obtain ⟨kk, kk'⟩ := k3 htD
        simp only [delta, zq, select_eq G hG d hd, htD, if_true, ep, em, Nat.div_one, zero_mul, add_zero, Nat.sub_zero]
        exact ⟨kk', by rw [kk]; omega⟩
      · intro t ht htD
        obtain ⟨d, hd, rfl⟩ := keyT t ht
        obtain ⟨k1, k2, k3, k4, k5, k6, k7⟩ := key d hd
        obtain ⟨kk, kk'⟩ := k5 htD
        simp only [delta, zq, select_eq G hG d hd]
        exact ⟨kk, by rw [kk']; omega⟩
    · intro t ht
      obtain ⟨d, hd, rfl⟩ := keyT t ht
      rw [(dimFacts hin hG hP miQ hmiQ d hd).2.2.2.2.2, select_eq G hG d hd]
  -- boxes
  have boxT : ∀ (mi mo : τ → ℕ) (w : τ → ℕ) (z : Ext τ → ℕ), (∀ t, z (.dim t) = phi Lin Lout G P mi mo t + i t) →
      InBox ((Lin.order.map Ext.dim).map (delta Lin Lout G P mi mo)) z := by
    intro mi mo _ z hz e he
    simp only [List.map_map, List.mem_map, Function.comp] at he
    obtain ⟨t, ht, rfl⟩ := he
    obtain ⟨d, hd, rfl⟩ := keyT t ht
    have := (key d hd).1
    simp only [delta, hz]
    omega
  have boxRA : InBox (outputAlltoallRange Lin Lout G P r) zr := by
    rw [R4, List.map_append, inBox_append]
    refine ⟨?_, boxT _ _ (fun _ => 0) zr fun _ => rfl⟩
    intro e he
    simp only [List.map_map, List.mem_map, Function.comp] at he
    obtain ⟨t, ht, rfl⟩ := he
    obtain ⟨d, hd, rfl⟩ := keyT t (dist_sub hin t ht)
    have := (key d hd).2.2.2.2.2.1
    simp only [delta, zr, hdisj _ ht, if_false]
    omega
  have boxQA : InBox (inputAlltoallRange Lin Lout G P q) zq := by
    rw [Q3, List.map_append, inBox_append]
    refine ⟨?_, boxT _ _ (fun _ => 0) zq fun _ => rfl⟩
    intro e he
    simp only [List.map_map, List.mem_map, Function.comp] at he
    obtain ⟨t, ht, rfl⟩ := he
    obtain ⟨d, hd, rfl⟩ := keyT' t (dist_sub hout t ht)
    have := (key d hd).2.2.2.2.2.2
    simp only [delta, zq, ht, if_true]
    omega
  have hop := order_perm hin hout
  have permOut : (outputMpiRange Lin Lout G P r).Perm (outputAlltoallRange Lin Lout G P r) := by
    rw [R2, R4]
    apply List.Perm.map
    rw [← insertMpiTags_eq Lin.distributed Lout.order (hout.nodup hG) (dist_nodup hin hG) (fun t ht => hop.mem_iff.1 (dist_sub hin t ht))]
    exact (insertMpiTags_perm _ _).trans ((hop.symm.map _).append_left _)
  have permIn : (inputAlltoallRange Lin Lout G P q).Perm (inputMpiRange Lin Lout G P q) := by
    rw [Q1, Q3]
    apply List.Perm.map
    rw [← insertMpiTags_eq Lout.distributed Lin.order (hin.nodup hG) (dist_nodup hout hG) (fun t ht => hop.mem_iff.2 (dist_sub hout t ht))]
    exact (insertMpiTags_perm _ _).symm
  have ndRA : (tags (outputAlltoallRange Lin Lout G P r)).Nodup := by
    rw [R4, tags_map _ (delta_tag _ _ _ _ _ _)]
    exact ext_nodup _ _ (dist_nodup hin hG) (hin.nodup hG)
  have ndQ : (tags (inputMpiRange Lin Lout G P q)).Nodup := by
    have h1 : (tags (inputAlltoallRange Lin Lout G P q)).Nodup := by
      rw [Q3, tags_map _ (delta_tag _ _ _ _ _ _)]
      exact ext_nodup _ _ (dist_nodup hout hG) (hin.nodup hG)
    exact (permIn.map Dim.tag).nodup_iff.1 h1
  -- the tails of the two all-to-all ranges agree
  have tails := offset_rel (Lin.order.map Ext.dim) (delta Lin Lout G P miR moR) (delta Lin Lout G P miQ moQ) zr zq (by
    intro e he
    obtain ⟨t, _, rfl⟩ := List.mem_map.1 he
    refine ⟨rfl, ?_⟩
    simp only [delta, zr, zq]
    omega)
  set Tr := (Lin.order.map Ext.dim).map (delta Lin Lout G P miR moR) with hTr
  set Tq := (Lin.order.map Ext.dim).map (delta Lin Lout G P miQ moQ) with hTq
  have hmR : (Lin.distributed.map Ext.mpi).map (delta Lin Lout G P miR moR)
      = Lin.distributed.map fun t => (⟨.mpi t, 0, pdim Lin G P t⟩ : Dim (Ext τ)) := by
    rw [List.map_map]
    exact List.map_congr_left fun t ht => by simp [delta, hdisj t ht]
  have hmQ : (Lout.distributed.map Ext.mpi).map (delta Lin Lout G P miQ moQ)
      = Lout.distributed.map fun t => (⟨.mpi t, 0, pdim Lout G P t⟩ : Dim (Ext τ)) := by
    rw [List.map_map]
    exact List.map_congr_left fun t ht => by simp [delta, ht]
  obtain ⟨sR, oR⟩ := mpi_offset hin hG hP miQ hmiQ zr (fun _ => rfl)
  obtain ⟨sQ, oQ⟩ := mpi_offset hout hG hP moR hmoR zq (fun _ => rfl)
  have szR : size (outputAlltoallRange Lin Lout G P r) = P * size Tr := by
    rw [R4, List.map_append, size_append, hmR, sR]
  have szQ : size (inputAlltoallRange Lin Lout G P q) = P * size Tq := by
    rw [Q3, List.map_append, size_append, hmQ, sQ]
  have offR : offset (outputAlltoallRange Lin Lout G P r) zr = q * size Tr + offset Tr zr := by
    rw [R4, List.map_append, offset_append, hmR, oR]
  have offQ : offset (inputAlltoallRange Lin Lout G P q) zq = r * size Tq + offset Tq zq := by
    rw [Q3, List.map_append, offset_append, hmQ, oQ, hroR]
  have ltT : offset Tr zr < size Tr := offset_lt _ _ (boxT _ _ (fun _ => 0) zr fun _ => rfl)
  -- the value delivered by the all-to-all
  have hbuf : alltoall (fun q => size (inputAlltoallRange Lin Lout G P q) / P)
      (fun r => size (outputAlltoallRange Lin Lout G P r) / P) (sendBuffer Lin Lout G P schedIn junk send) r
      (offset (outputAlltoallRange Lin Lout G P r) zr) = F x := by
    unfold alltoall
    simp only
    rw [szR, Nat.mul_div_cancel_left _ hP, offR]
    have hTpos : 0 < size Tr := by omega
    have d1 : (q * size Tr + offset Tr zr) / size Tr = q := by
      rw [mul_comm, Nat.mul_add_div hTpos, Nat.div_eq_of_lt ltT]; rfl
    have d2 : (q * size Tr + offset Tr zr) % size Tr = offset Tr zr := by
      rw [mul_comm, Nat.mul_add_mod, Nat.mod_eq_of_lt ltT]
    rw [d1, d2, szQ, Nat.mul_div_cancel_left _ hP, tails.2, ← offQ]
    have hS : sendBuffer Lin Lout G P schedIn junk send q (offset (inputAlltoallRange Lin Lout G P q) zq)
        = send q (offset (inputMpiRange Lin Lout G P q) zq) := by
      unfold sendBuffer
      split_ifs with heq
      · rw [heq]
      · exact c04_transpose_values _ _ permIn ndQ _ (hsi q hqP) _ _ zq ((inBox_perm permIn zq).1 boxQA)
    rw [hS, ← stepQ]
    exact hsend q hqP x (by rw [elocQ]; exact hxQ)
  rw [stepR]
  unfold transposeTo
  split_ifs with heq
  · rw [← heq]; exact hbuf
  · rw [c04_transpose_values _ _ permOut ndRA _ (hso r hr) _ _ zr boxRA]
    exact hbuf

/-- The constructor of the transposer succeeds on every rank exactly when the communicator is not larger than the number of points of the
distributed dimensions of the first layout and its size divides the number of distributed points of both layouts. -/
theorem c03_constructor (L1 L2 : MLayout τ) (G : IdxRange τ) (P : ℕ) (hP : 0 < P) (hne : G ≠ []) (hG : (tags G).Nodup)
    (h1 : L1.order.Perm (tags G)) (h2 : L2.order.Perm (tags G)) (r : ℕ) (hr : r < P) :
    constructorThrows L1 L2 G P r = none ↔
      P ≤ distribSize L1.distributed (reorder L1.order G) ∧ P ∣ distribSize L1.distributed (reorder L1.order G) ∧
      P ∣ distribSize L2.distributed (reorder L2.order G) := by
  have aux : ∀ L : MLayout τ, L.order.Perm (tags G) →
      ((∃ e, distribute L.distributed (reorder L.order G) P r = .error e) ↔ ¬ P ∣ distribSize L.distributed (reorder L.order G)) := by
    intro L hL
    apply (c02_error_iff L.distributed (reorder L.order G) ?_ ?_ P hP r hr).1
    · intro h0
      have := (reorder_perm G hG L.order hL).length_eq
      rw [h0] at this
      exact hne (List.length_eq_zero_iff.1 this.symm)
    · rw [tags_reorder G hG L.order fun _ ht => hL.mem_iff.1 ht]
      exact hL.nodup_iff.2 hG
  have a1 := aux L1 h1
  have a2 := aux L2 h2
  unfold constructorThrows
  simp only
  split_ifs with c1 c2
  · simp; intro h; omega
  · simp; intro _ h; exact absurd (Nat.mod_eq_zero_of_dvd h) c2
  · have hd1 : P ∣ distribSize L1.distributed (reorder L1.order G) := Nat.dvd_of_mod_eq_zero (by simpa using c2)
    cases e1 : distribute L1.distributed (reorder L1.order G) P r with
    | error e => exact absurd hd1 (a1.1 ⟨e, e1⟩)
    | ok R1 =>
      cases e2 : distribute L2.distributed (reorder L2.order G) P r with
      | error e =>
        have := a2.1 ⟨e, e2⟩
        simp [this]
      | ok R2 =>
        have : P ∣ distribSize L2.distributed (reorder L2.order G) := by
          by_contra h
          obtain ⟨e, he⟩ := a2.2 h
          rw [e2] at he; cases he
        simp [this, hd1]; omega

/-- Non-vacuity: a 3D range `(x:4, y:3, z:6)` on 6 ranks, input distributed along `x,y` in order `(x,y,z)`, output
distributed along `z` in order `(z,x,y)`, meets the hypotheses. -/
example : ∃ (Lin Lout : MLayout ℕ) (G : IdxRange ℕ) (P : ℕ), P = 6 ∧ WF Lin G P ∧ WF Lout G P ∧ (tags G).Nodup ∧
    (∀ t ∈ Lin.distributed, t ∉ Lout.distributed) ∧ Lin.distributed.length = 2 :=
  ⟨⟨[0, 1, 2], [0, 1]⟩, ⟨[2, 0, 1], [2]⟩, [⟨0, 5, 4⟩, ⟨1, 0, 3⟩, ⟨2, 1, 6⟩], 6, rfl,
    ⟨by decide, by decide, by decide⟩, ⟨by decide, by decide, by decide⟩, by decide, by decide, rfl⟩

/-- Finding: the ordering hypothesis of `c03_transpose_to` is needed. With the tags in order `(x,y,z)` but the distributed dimensions listed as
`(y,x)`, the constructor accepts the layouts and the transposition delivers wrong data: 4 ranks, extents 2, 2, 4, field `F(x,y,z) = 100x+10y+z`,
rank 0 in the output layout (distributed along `z`). -/
theorem c03_order_mismatch_counterexample :
    ∃ (Lin Lout : MLayout ℕ) (G : IdxRange ℕ) (P : ℕ) (send : ℕ → ℕ → ℕ) (x : ℕ → ℕ),
      (∀ r < P, constructorThrows Lin Lout G P r = none) ∧
      Lin.order.Perm (tags G) ∧ Lout.order.Perm (tags G) ∧ (tags G).Nodup ∧
      (∀ t ∈ Lin.distributed, t ∉ Lout.distributed) ∧
      (∀ q < P, ∀ y, InBox (localRange Lin G P q) y → send q (offset (localRange Lin G P q) y) = 100 * y 0 + 10 * y 1 + y 2) ∧
      InBox (localRange Lout G P 0) x ∧
      transposeTo Lin Lout G P (fun q => enum (parallelRange (inputMpiRange Lin Lout G P q)))
        (fun r => enum (parallelRange (outputAlltoallRange Lin Lout G P r))) (fun _ _ => 0) send (fun _ _ => 0) 0
        (offset (localRange Lout G P 0) x) ≠ 100 * x 0 + 10 * x 1 + x 2 := by
  refine ⟨⟨[0, 1, 2], [1, 0]⟩, ⟨[2, 0, 1], [2]⟩, [⟨0, 0, 2⟩, ⟨1, 0, 2⟩, ⟨2, 0, 4⟩], 4,
    fun q p => 100 * (q / 2) + 10 * (q % 2) + p, fun t => if t = 1 then 1 else 0, by decide, by decide, by decide, by decide, by decide, ?_, ?_, by decide⟩
  · intro q hq y hy
    have h1 : ∀ q < 4, ∀ y ∈ enum (localRange (⟨[0, 1, 2], [1, 0]⟩ : MLayout ℕ) [⟨0, 0, 2⟩, ⟨1, 0, 2⟩, ⟨2, 0, 4⟩] 4 q),
        100 * (q / 2) + 10 * (q % 2) + offset (localRange (⟨[0, 1, 2], [1, 0]⟩ : MLayout ℕ) [⟨0, 0, 2⟩, ⟨1, 0, 2⟩, ⟨2, 0, 4⟩] 4 q) y
          = 100 * y 0 + 10 * y 1 + y 2 := by decide
    have h2 : ∀ q < 4, tags (localRange (⟨[0, 1, 2], [1, 0]⟩ : MLayout ℕ) [⟨0, 0, 2⟩, ⟨1, 0, 2⟩, ⟨2, 0, 4⟩] 4 q) = [0, 1, 2] := by decide
    obtain ⟨y', hy', hyy⟩ := exists_enum _ (by rw [h2 q hq]; decide) y hy
    have h3 := h1 q hq y' hy'
    have h4 : ∀ t ∈ [0, 1, 2], y' t = y t := by
      intro t ht
      rw [← h2 q hq] at ht
      obtain ⟨d, hd, rfl⟩ := List.mem_map.1 ht
      exact hyy d hd
    rw [h4 0 (by simp), h4 1 (by simp), h4 2 (by simp), offset_congr _ y' y hyy] at h3
    exact h3
  intro d hd
  have : localRange (⟨[2, 0, 1], [2]⟩ : MLayout ℕ) [⟨0, 0, 2⟩, ⟨1, 0, 2⟩, ⟨2, 0, 4⟩] 4 0 = [⟨2, 0, 1⟩, ⟨0, 0, 2⟩, ⟨1, 0, 2⟩] := by decide
  rw [this] at hd
  rcases List.mem_cons.1 hd with rfl | hd
  · decide
  rcases List.mem_cons.1 hd with rfl | hd
  · decide
  rcases List.mem_cons.1 hd with rfl | hd
  · decide
  · simp at hd

end Verif.MpiTranspose
