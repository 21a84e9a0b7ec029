import Verif.Model.MpiLandau
import Verif.Props.MpiProgram
import Verif.Props.MpiTranspose
import Verif.Props.Transpose
import Verif.Props.Moments
import Verif.Props.Pdi
import Mathlib.Tactic.Ring
import Mathlib.Tactic.Linarith

/-! # The distributed 2D2V simulation gives the result of the serial one, under every interleaving -/
namespace Verif.MpiTranspose
open Verif.Layout Verif.MpiLayout

/-- **C106** The counts of `MPI_Alltoall` match: what process `q` sends to each process is what process `r` expects from each process. -/
theorem c106_counts {τ : Type*} [DecidableEq τ] (Lin Lout : MLayout τ) (G : IdxRange τ) (P : ℕ) (hP : 0 < P) (hne : G ≠ []) (hG : (tags G).Nodup)
    (hpos : ∀ d ∈ G, 0 < d.size) (hin : WF Lin G P) (hout : WF Lout G P)
    (hdisj : ∀ t ∈ Lin.distributed, t ∉ Lout.distributed) (q r : ℕ) (hq : q < P) (hr : r < P) :
    size (inputAlltoallRange Lin Lout G P q) / P = size (outputAlltoallRange Lin Lout G P r) / P := by
  have hne1 : reorder Lin.order G ≠ [] := by
    intro h0
    have := (reorder_perm G hG Lin.order hin.perm).length_eq
    rw [h0] at this
    exact hne (List.length_eq_zero_iff.1 this.symm)
  have hne2 : reorder Lout.order G ≠ [] := by
    intro h0
    have := (reorder_perm G hG Lout.order hout.perm).length_eq
    rw [h0] at this
    exact hne (List.length_eq_zero_iff.1 this.symm)
  have hnd1 : (tags (reorder Lin.order G)).Nodup := by rw [tags_GL hin hG]; exact hin.nodup hG
  have hnd2 : (tags (reorder Lout.order G)).Nodup := by rw [tags_GL hout hG]; exact hout.nodup hG
  obtain ⟨moR, hmoR, hroR, _⟩ := distribute_eq Lout.distributed _ hne2 hnd2 P hP hout.divides r hr
  obtain ⟨miR, hmiR, hriR, _⟩ := distribute_eq Lin.distributed _ hne1 hnd1 P hP hin.divides r hr
  obtain ⟨moQ, hmoQ, hroQ, _⟩ := distribute_eq Lout.distributed _ hne2 hnd2 P hP hout.divides q hq
  obtain ⟨miQ, hmiQ, hriQ, _⟩ := distribute_eq Lin.distributed _ hne1 hnd1 P hP hin.divides q hq
  obtain ⟨-, -, -, R4⟩ := ranges_eq hin hout hG hne hpos hP hdisj miR moR hmiR hmoR r hriR hroR
  obtain ⟨-, -, Q3, -⟩ := ranges_eq hin hout hG hne hpos hP hdisj miQ moQ hmiQ hmoQ q hriQ hroQ
  have hmR : (Lin.distributed.map Ext.mpi).map (delta Lin Lout G P miR moR)
      = Lin.distributed.map fun t => (⟨.mpi t, 0, pdim Lin G P t⟩ : Dim (Ext τ)) := by
    rw [List.map_map]
    exact List.map_congr_left fun t ht => by simp [delta, hdisj t ht]
  have hmQ : (Lout.distributed.map Ext.mpi).map (delta Lin Lout G P miQ moQ)
      = Lout.distributed.map fun t => (⟨.mpi t, 0, pdim Lout G P t⟩ : Dim (Ext τ)) := by
    rw [List.map_map]
    exact List.map_congr_left fun t ht => by simp [delta, ht]
  obtain ⟨sR, -⟩ := mpi_offset hin hG hP miR hmiR (fun e => match e with | .mpi t => miR t | .dim _ => 0) (fun _ => rfl)
  obtain ⟨sQ, -⟩ := mpi_offset hout hG hP moQ hmoQ (fun e => match e with | .mpi t => moQ t | .dim _ => 0) (fun _ => rfl)
  have tails : size ((Lin.order.map Ext.dim).map (delta Lin Lout G P miQ moQ)) = size ((Lin.order.map Ext.dim).map (delta Lin Lout G P miR moR)) := by
    unfold size
    simp only [List.map_map]
    congr 1
  rw [Q3, R4, List.map_append, List.map_append, size_append, size_append, hmR, hmQ, sR, sQ, tails]

end Verif.MpiTranspose

namespace Verif.MpiLandau
open Verif.Layout Verif.MpiLayout Verif.Transpose Verif.MpiTranspose Verif.MpiProgram Verif.TimeLoops Finset

/-! ## Specification -/

/-- A line operator reads the line of `n` points only, and nothing else of its argument. -/
def LineOp {A : Type*} (n : ℕ) (op : ℕ → A → ℝ → (ℕ → ℝ) → ℕ → ℝ) : Prop :=
  ∀ s a dt (l l' : ℕ → ℝ), (∀ i < n, l i = l' i) → ∀ i < n, op s a dt l i = op s a dt l' i

/-- The parameters make sense: nothing is empty, the kinetic species come first, the four advections and the Poisson solver use only points of the grids, and either all the species are
kinetic or the Poisson solver ignores a constant charge (the FFT solver does, `QnSolver.c87_fft_background`; the constant charge of an adiabatic species is counted once per process, `Moments.c44_mpi_value`).
The construction of the transposition has not thrown an exception. -/
structure Valid (p : Params) : Prop where
  P_pos : 0 < p.P
  kin_pos : 0 < p.nkin
  kin_le : p.nkin ≤ p.nsp
  nx_pos : 0 < p.nx
  ny_pos : 0 < p.ny
  nvx_pos : 0 < p.nvx
  nvy_pos : 0 < p.nvy
  nbstep_pos : 0 < p.nbstep
  opX : LineOp p.nx p.opX
  opY : LineOp p.ny p.opY
  opVx : LineOp p.nvx p.opVx
  opVy : LineOp p.nvy p.opVy
  solver : ∀ ρ ρ' : ℕ → ℕ → ℝ, (∀ x < p.nx, ∀ y < p.ny, ρ x y = ρ' x y) → p.solver ρ = p.solver ρ'
  background : p.nsp = p.nkin ∨ ∀ (ρ : ℕ → ℕ → ℝ) (a : ℝ), p.solver (fun x y => ρ x y + a) = p.solver ρ
  built : constructorThrows x2D v2D p.glob p.P 0 = none

/-- Every parallel loop makes each of its iterations exactly once, in some order. -/
structure Fair (env : Env) : Prop where
  loop : ∀ r t R, (env.loop r t R).Perm (enum R)
  loopE : ∀ r t R, (env.loopE r t R).Perm (enum R)

variable {p : Params} {env : Env}

/-! ## The local ranges -/

theorem glob_ne : p.glob ≠ [] := by simp [Params.glob]
theorem glob_nodup : (tags p.glob).Nodup := by simp [Params.glob, tags]

theorem glob_pos (hv : Valid p) : ∀ d ∈ p.glob, 0 < d.size := by
  intro d hd
  simp only [Params.glob, List.mem_cons, List.not_mem_nil, or_false] at hd
  rcases hd with rfl | rfl | rfl | rfl | rfl
  · exact hv.kin_pos
  · exact hv.nx_pos
  · exact hv.ny_pos
  · exact hv.nvx_pos
  · exact hv.nvy_pos

theorem x2D_perm : x2D.order.Perm (tags p.glob) := List.Perm.refl _
theorem v2D_perm : v2D.order.Perm (tags p.glob) := by
  simp only [v2D, Params.glob, tags, List.map_cons, List.map_nil]
  decide

theorem wf (hv : Valid p) : WF x2D p.glob p.P ∧ WF v2D p.glob p.P := by
  have h := (c03_constructor x2D v2D p.glob p.P hv.P_pos glob_ne glob_nodup x2D_perm v2D_perm 0 hv.P_pos).1 hv.built
  exact ⟨⟨x2D_perm, by decide, h.2.1⟩, ⟨v2D_perm, by decide, h.2.2⟩⟩

/-- What is needed of the local ranges of a layout. -/
structure Ranges (L : MLayout Tag) (p : Params) : Prop where
  tags : ∀ r < p.P, tags (localRange L p.glob p.P r) = L.order
  part : ∀ x, InBox p.glob x → ∃! r, r < p.P ∧ InBox (localRange L p.glob p.P r) x
  sub : ∀ r < p.P, ∀ x, InBox (localRange L p.glob p.P r) x → InBox p.glob x
  whole : ∀ r < p.P, ∀ d ∈ p.glob, d.tag ∉ L.distributed → d ∈ localRange L p.glob p.P r

theorem ranges_of (hv : Valid p) (L : MLayout Tag) (h : WF L p.glob p.P) : Ranges L p := by
  have hne : reorder L.order p.glob ≠ [] := by
    intro h0
    have := (reorder_perm p.glob glob_nodup L.order h.perm).length_eq
    rw [h0] at this
    exact glob_ne (List.length_eq_zero_iff.1 this.symm)
  have hnd : (tags (reorder L.order p.glob)).Nodup := by rw [tags_GL h glob_nodup]; exact h.nodup glob_nodup
  obtain ⟨loc, hd, hpart, hsub, htag, hwhole⟩ := c01_partition L.distributed _ hne hnd p.P hv.P_pos h.divides
  have hloc : ∀ r < p.P, localRange L p.glob p.P r = loc r := by
    intro r hr
    unfold localRange
    rw [hd r hr]
  have hbox := fun x => inBox_perm (reorder_perm p.glob glob_nodup L.order h.perm) x
  refine ⟨?_, ?_, ?_, ?_⟩
  · intro r hr; rw [hloc r hr, (htag r hr).1, tags_GL h glob_nodup]
  · intro x hx
    obtain ⟨r, ⟨h1, h2⟩, h3⟩ := hpart x ((hbox x).2 hx)
    refine ⟨r, ⟨h1, by rw [hloc r h1]; exact h2⟩, fun q hq => h3 q ⟨hq.1, by rw [← hloc q hq.1]; exact hq.2⟩⟩
  · intro r hr x hx; rw [hloc r hr] at hx; exact (hbox x).1 (hsub r hr x hx)
  · intro r hr d hd hD
    rw [hloc r hr]
    exact hwhole r hr d ((reorder_perm p.glob glob_nodup L.order h.perm).mem_iff.2 hd) hD

theorem tag_all (L : MLayout Tag) (h : WF L p.glob p.P) (t : Tag) : t ∈ L.order := by
  rw [h.perm.mem_iff]; cases t <;> simp [Params.glob, tags]

/-- Two multi-indices which agree on the tags of a local range are equal. -/
theorem idx_ext {R : IdxRange Tag} (hR : ∀ t, t ∈ tags R) (x y : Tag → ℕ) (h : ∀ d ∈ R, x d.tag = y d.tag) : x = y := by
  funext t
  obtain ⟨d, hd, rfl⟩ := List.mem_map.1 (hR t)
  exact h d hd

theorem forEach_value {R : IdxRange Tag} (hR : ∀ t, t ∈ tags R) (hnd : (tags R).Nodup) (sched : List (Tag → ℕ)) (hs : sched.Perm (enum R))
    (g : (Tag → ℕ) → ℝ) (a : ℕ → ℝ) (x : Tag → ℕ) (hx : InBox R x) : Params.forEach R sched g a (offset R x) = g x := by
  have key : ∀ (l : List (Tag → ℕ)) (a : ℕ → ℝ), (∀ y ∈ l, InBox R y) → (x ∈ l ∨ a (offset R x) = g x) →
      l.foldl (fun a x => Function.update a (offset R x) (g x)) a (offset R x) = g x := by
    intro l
    induction l with
    | nil => intro a _ h; simpa using h
    | cons y l ih =>
      intro a hl h
      simp only [List.foldl_cons]
      apply ih _ fun z hz => hl z (List.mem_cons_of_mem _ hz)
      by_cases hyx : offset R y = offset R x
      · right
        have := idx_ext hR y x (offset_inj R y x (hl y (List.mem_cons_self ..)) hx hyx)
        rw [this, Function.update_self]
      · rcases h with h | h
        · rcases List.mem_cons.1 h with rfl | h
          · exact absurd rfl hyx
          · exact Or.inl h
        · right; rw [Function.update_of_ne (Ne.symm hyx)]; exact h
  obtain ⟨y, hy, hyx⟩ := exists_enum R hnd x hx
  have : y = x := idx_ext hR y x hyx
  exact key sched a (fun z hz => enum_inBox R hnd z (hs.mem_iff.1 hz)) (Or.inl (hs.mem_iff.2 (this ▸ hy)))

/-! ## Execution in lockstep -/

theorem lockstep_append {S M : Type*} [Inhabited M] (P : ℕ) (a b : List (PAct S M)) (σ : ℕ → S) :
    lockstep P (a ++ b) σ = lockstep P b (lockstep P a σ) := by
  induction a generalizing σ with
  | nil => rfl
  | cons h t ih => cases h <;> exact ih _

/-- The array `v`, stored in layout `L`, contains the values `F` in all the processes. -/
def Holds (p : Params) (L : MLayout Tag) (σ : ℕ → Mem) (v : Var) (F : (Tag → ℕ) → ℝ) : Prop :=
  ∀ r < p.P, ∀ x, InBox (localRange L p.glob p.P r) x → (σ r).arr v (offset (localRange L p.glob p.P r) x) = F x

/-- Only the arrays `ch` (and buffers) have changed. -/
def Frame (ch : List Var) (σ σ' : ℕ → Mem) : Prop :=
  ∀ r, (∀ v, v ∉ ch → (σ' r).arr v = (σ r).arr v) ∧ (σ' r).phi = (σ r).phi ∧ (σ' r).ex = (σ r).ex ∧ (σ' r).ey = (σ r).ey ∧
    (σ' r).events = (σ r).events

theorem Frame.trans {ch ch' ch'' : List Var} {a b c : ℕ → Mem} (h : Frame ch a b) (h' : Frame ch' b c) (h1 : ∀ v ∈ ch, v ∈ ch'') (h2 : ∀ v ∈ ch', v ∈ ch'') :
    Frame ch'' a c := by
  intro r
  obtain ⟨a1, a2, a3, a4, a5⟩ := h r
  obtain ⟨b1, b2, b3, b4, b5⟩ := h' r
  exact ⟨fun v hv => (b1 v fun h => hv (h2 v h)).trans (a1 v fun h => hv (h1 v h)), b2.trans a2, b3.trans a3, b4.trans a4, b5.trans a5⟩

theorem Holds.frame {L : MLayout Tag} {σ σ' : ℕ → Mem} {v : Var} {F : (Tag → ℕ) → ℝ} {ch : List Var} (h : Holds p L σ v F) (hf : Frame ch σ σ') (hv : v ∉ ch) :
    Holds p L σ' v F := by
  intro r hr x hx
  rw [(hf r).1 v hv]
  exact h r hr x hx

/-- A batched operator along an undistributed dimension of a layout. -/
theorem adv_holds (hv : Valid p) (hE : Fair env) (L : MLayout Tag) (hL : WF L p.glob p.P) {A : Type*} (op : ℕ → A → ℝ → (ℕ → ℝ) → ℕ → ℝ) (d : Tag) (n : ℕ)
    (hd : (⟨d, 0, n⟩ : Dim Tag) ∈ p.glob) (hD : d ∉ L.distributed) (hop : LineOp n op) (arg : ℕ → Mem → (Tag → ℕ) → A) (argG : (Tag → ℕ) → A) (v : Var) (dt : ℝ) (F : (Tag → ℕ) → ℝ)
    (σ : ℕ → Mem) (h : Holds p L σ v F) (ha : ∀ r < p.P, ∀ x, arg r (σ r) x = argG x) :
    let σ' : ℕ → Mem := lockstep p.P [(.loc fun r m => Params.bump (Params.setArr m v (Params.forEach (localRange L p.glob p.P r) (env.loop r m.tick (localRange L p.glob p.P r))
      (fun x => op (x .Sp) (arg r m x) dt (fun i => m.arr v (offset (localRange L p.glob p.P r) (Function.update x d i))) (x d)) (m.arr v))) : PAct Mem Msg)] σ
    Holds p L σ' v (fun x => op (x .Sp) (argG x) dt (fun i => F (Function.update x d i)) (x d)) ∧ Frame [v] σ σ' := by
  have hR := ranges_of hv L hL
  refine ⟨?_, ?_⟩
  · intro r hr x hx
    have ht := hR.tags r hr
    have hall : ∀ t, t ∈ tags (localRange L p.glob p.P r) := fun t => by rw [ht]; exact tag_all L hL t
    have hnd : (tags (localRange L p.glob p.P r)).Nodup := by rw [ht]; exact hL.nodup glob_nodup
    have hmem := hR.whole r hr _ hd hD
    simp only [lockstep, Params.bump, Params.setArr, Function.update_self]
    rw [forEach_value hall hnd _ (hE.loop _ _ _) _ _ x hx, ha r hr x]
    have hxd := hx _ hmem
    simp only at hxd
    refine hop _ _ _ _ _ (fun i hi => h r hr _ ?_) _ (by omega)
    intro e he
    by_cases hed : e.tag = d
    · have e1 : e = ⟨d, 0, n⟩ := by
        have := select_eq _ hnd e he
        have h2 := select_eq _ hnd _ hmem
        rw [hed] at this
        exact this.symm.trans h2
      subst e1
      simp only [Function.update_self]
      omega
    · rw [Function.update_of_ne hed]
      exact hx e he
  · intro r
    refine ⟨fun u hu => ?_, rfl, rfl, rfl, rfl⟩
    simp only [List.mem_singleton] at hu
    simp only [lockstep, Params.bump, Params.setArr, Function.update_of_ne hu]

/-- The transposition. -/
theorem transpose_holds (hv : Valid p) (hE : Fair env) (Lin Lout : MLayout Tag) (hin : WF Lin p.glob p.P) (hout : WF Lout p.glob p.P)
    (hdisj : ∀ t ∈ Lin.distributed, t ∉ Lout.distributed) (a b : Var) (F : (Tag → ℕ) → ℝ) (σ : ℕ → Mem) (h : Holds p Lin σ a F) :
    Holds p Lout (lockstep p.P (p.transpose env Lin Lout a b) σ) b F ∧ Frame [b] σ (lockstep p.P (p.transpose env Lin Lout a b) σ) := by
  refine ⟨?_, ?_⟩
  · intro r hr x hx
    have key : (lockstep p.P (p.transpose env Lin Lout a b) σ r).arr b
        = transposeTo Lin Lout p.glob p.P
          (fun q => if q < p.P then env.loopE q (σ q).tick (parallelRange (inputMpiRange Lin Lout p.glob p.P q)) else [])
          (fun r => env.loopE r ((σ r).tick + 1) (parallelRange (outputAlltoallRange Lin Lout p.glob p.P r)))
          (fun q => if q < p.P then env.junk q (σ q).tick else (default : Msg).2)
          (fun q => if q < p.P then (σ q).arr a else (default : Msg).2) (fun q => (σ q).arr b) r := by
      have hdel : (Params.deliver (size (outputAlltoallRange Lin Lout p.glob p.P r) / p.P) r fun q => if q < p.P then
            (size (inputAlltoallRange Lin Lout p.glob p.P q) / p.P,
              if inputAlltoallRange Lin Lout p.glob p.P q = inputMpiRange Lin Lout p.glob p.P q then (σ q).arr a
              else transposeLayout (inputAlltoallRange Lin Lout p.glob p.P q) (inputMpiRange Lin Lout p.glob p.P q)
                (env.loopE q (σ q).tick (parallelRange (inputMpiRange Lin Lout p.glob p.P q))) (env.junk q (σ q).tick) ((σ q).arr a))
            else (default : Msg))
          = alltoall (fun q => size (inputAlltoallRange Lin Lout p.glob p.P q) / p.P)
            (fun r => size (outputAlltoallRange Lin Lout p.glob p.P r) / p.P)
            (sendBuffer Lin Lout p.glob p.P
              (fun q => if q < p.P then env.loopE q (σ q).tick (parallelRange (inputMpiRange Lin Lout p.glob p.P q)) else [])
              (fun q => if q < p.P then env.junk q (σ q).tick else (default : Msg).2)
              (fun q => if q < p.P then (σ q).arr a else (default : Msg).2)) r := by
        funext pos
        unfold Params.deliver alltoall sendBuffer
        simp only
        by_cases hq : pos / (size (outputAlltoallRange Lin Lout p.glob p.P r) / p.P) < p.P
        · simp only [hq, if_true]
        · simp only [hq, if_false]
          split_ifs
          · rfl
          · have hvis : ∀ R : IdxRange (Ext Tag), visited R [] = [] := by intro R; unfold visited; split_ifs <;> rfl
            unfold transposeLayout
            rw [hvis]
            rfl
      simp only [Params.transpose, lockstep, Params.bump, Params.setArr, Function.update_self]
      unfold transposeTo
      simp only
      rw [← hdel]
    rw [key]
    refine c03_transpose_to Lin Lout p.glob p.P hv.P_pos glob_ne glob_nodup (glob_pos hv) hin hout hdisj _ _ ?_ ?_ _ _ _ F ?_ r hr x hx
    · intro q hq; simp only [hq, if_true]; exact hE.loopE _ _ _
    · intro q hq; exact hE.loopE _ _ _
    · intro q hq y hy; simp only [hq, if_true]; exact h q hq y hy
  · intro r
    refine ⟨fun u hu => ?_, rfl, rfl, rfl, rfl⟩
    simp only [List.mem_singleton] at hu
    simp only [Params.transpose, lockstep, Params.bump, Params.setArr, Function.update_of_ne hu]

theorem advSpace_holds (hv : Valid p) (hE : Fair env) (op : ℕ → ℕ → ℝ → (ℕ → ℝ) → ℕ → ℝ) (d vd : Tag) (n : ℕ)
    (hd : (⟨d, 0, n⟩ : Dim Tag) ∈ p.glob) (hD : d ∉ v2D.distributed) (hop : LineOp n op) (v : Var) (dt : ℝ) (F : (Tag → ℕ) → ℝ) (σ : ℕ → Mem) (h : Holds p v2D σ v F) :
    Holds p v2D (lockstep p.P [p.advSpace env op d vd v dt] σ) v (Params.advSpaceG op d vd F dt) ∧ Frame [v] σ (lockstep p.P [p.advSpace env op d vd v dt] σ) :=
  adv_holds hv hE v2D (wf hv).2 op d n hd hD hop (fun _ _ x => x vd) (fun x => x vd) v dt F σ h (fun _ _ _ => rfl)

theorem advVel_holds (hv : Valid p) (hE : Fair env) (op : ℕ → ℝ → ℝ → (ℕ → ℝ) → ℕ → ℝ) (d : Tag) (n : ℕ)
    (hd : (⟨d, 0, n⟩ : Dim Tag) ∈ p.glob) (hD : d ∉ x2D.distributed) (hop : LineOp n op) (e : Mem → ℕ → ℕ → ℝ) (eG : ℕ → ℕ → ℝ) (v : Var) (dt : ℝ) (F : (Tag → ℕ) → ℝ) (σ : ℕ → Mem)
    (h : Holds p x2D σ v F) (he : ∀ r < p.P, e (σ r) = eG) :
    Holds p x2D (lockstep p.P [p.advVel env op d e v dt] σ) v (Params.advVelG op d F eG dt) ∧ Frame [v] σ (lockstep p.P [p.advVel env op d e v dt] σ) :=
  adv_holds hv hE x2D (wf hv).1 op d n hd hD hop (fun _ m x => e m (x .X) (x .Y)) (fun x => eG (x .X) (x .Y)) v dt F σ h (fun r hr x => by rw [he r hr])

/-- The Vlasov solver. -/
theorem vlasov_holds (hv : Valid p) (hE : Fair env) (v : Var) (hvt : v ≠ .tmp) (dt : ℝ) (F : (Tag → ℕ) → ℝ) (e : (ℕ → ℕ → ℝ) × (ℕ → ℕ → ℝ)) (σ : ℕ → Mem)
    (h : Holds p v2D σ v F) (he : ∀ r < p.P, (σ r).ex = e.1 ∧ (σ r).ey = e.2) :
    Holds p v2D (lockstep p.P (p.vlasov env v dt) σ) v (p.vlasovG F e dt) ∧ Frame [v, .tmp] σ (lockstep p.P (p.vlasov env v dt) σ) := by
  obtain ⟨wx, wv⟩ := wf hv
  have step1 := fun F σ h dt => advSpace_holds hv hE p.opX .X .Vx p.nx (by simp [Params.glob]) (by decide) hv.opX v dt F σ h
  have step2 := fun F σ h dt => advSpace_holds hv hE p.opY .Y .Vy p.ny (by simp [Params.glob]) (by decide) hv.opY v dt F σ h
  have step3 := fun F σ (hex : ∀ r < p.P, (σ r).ex = e.1) h dt => advVel_holds hv hE p.opVx .Vx p.nvx (by simp [Params.glob]) (by decide) hv.opVx Mem.ex e.1 .tmp dt F σ h hex
  have step4 := fun F σ (hey : ∀ r < p.P, (σ r).ey = e.2) h dt => advVel_holds hv hE p.opVy .Vy p.nvy (by simp [Params.glob]) (by decide) hv.opVy Mem.ey e.2 .tmp dt F σ h hey
  obtain ⟨h1, f1⟩ := step1 F σ h (dt / 2)
  obtain ⟨h2, f2⟩ := step2 _ _ h1 (dt / 2)
  have g2 := f1.trans f2 (ch'' := [v, .tmp]) (by simp) (by simp)
  obtain ⟨h3, f3⟩ := transpose_holds hv hE v2D x2D wv wx (by decide) v .tmp _ _ h2
  have g3 := g2.trans f3 (ch'' := [v, .tmp]) (by simp) (by simp)
  obtain ⟨h4, f4⟩ := step3 _ _ (fun r hr => (g3 r).2.2.1.trans (he r hr).1) h3 (dt / 2)
  have g4 := g3.trans f4 (ch'' := [v, .tmp]) (by simp) (by simp)
  obtain ⟨h5, f5⟩ := step4 _ _ (fun r hr => (g4 r).2.2.2.1.trans (he r hr).2) h4 dt
  have g5 := g4.trans f5 (ch'' := [v, .tmp]) (by simp) (by simp)
  obtain ⟨h6, f6⟩ := step3 _ _ (fun r hr => (g5 r).2.2.1.trans (he r hr).1) h5 (dt / 2)
  have g6 := g5.trans f6 (ch'' := [v, .tmp]) (by simp) (by simp)
  obtain ⟨h7, f7⟩ := transpose_holds hv hE x2D v2D wx wv (by decide) .tmp v _ _ h6
  have g7 := g6.trans f7 (ch'' := [v, .tmp]) (by simp) (by simp)
  obtain ⟨h8, f8⟩ := step2 _ _ h7 (dt / 2)
  have g8 := g7.trans f8 (ch'' := [v, .tmp]) (by simp) (by simp)
  obtain ⟨h9, f9⟩ := step1 _ _ h8 (dt / 2)
  have g9 := g8.trans f9 (ch'' := [v, .tmp]) (by simp) (by simp)
  have hp : p.vlasov env v dt = [p.advSpace env p.opX .X .Vx v (dt / 2)] ++ ([p.advSpace env p.opY .Y .Vy v (dt / 2)] ++ (p.transpose env v2D x2D v .tmp ++
      ([p.advVel env p.opVx .Vx Mem.ex .tmp (dt / 2)] ++ ([p.advVel env p.opVy .Vy Mem.ey .tmp dt] ++ ([p.advVel env p.opVx .Vx Mem.ex .tmp (dt / 2)] ++
      (p.transpose env x2D v2D .tmp v ++ ([p.advSpace env p.opY .Y .Vy v (dt / 2)] ++ [p.advSpace env p.opX .X .Vx v (dt / 2)]))))))) := by
    simp only [Params.vlasov, List.append_assoc, List.cons_append, List.nil_append]
  rw [hp]
  simp only [lockstep_append]
  exact ⟨h9, g9⟩

/-! ## Charge density -/

theorem sum_div_mod (a b : ℕ) (h : ℕ → ℕ → ℝ) : ∑ k ∈ range (a * b), h (k / b) (k % b) = ∑ i ∈ range a, ∑ j ∈ range b, h i j := by
  induction a with
  | zero => simp
  | succ a ih =>
    rw [Nat.succ_mul, sum_range_add, ih, sum_range_succ]
    congr 1
    refine sum_congr rfl fun j hj => ?_
    have hj' := mem_range.1 hj
    have hb : 0 < b := by omega
    rw [show a * b + j = j + b * a by ring, Nat.add_mul_div_left _ _ hb, Nat.add_mul_mod_self_left, Nat.div_eq_of_lt hj', Nat.mod_eq_of_lt hj', Nat.zero_add]

theorem sum_window (n f s : ℕ) (h : f + s ≤ n) (g : ℕ → ℝ) : ∑ i ∈ range s, g (f + i) = ∑ v ∈ range n, if f ≤ v ∧ v < f + s then g v else 0 := by
  rw [← sum_filter]
  refine sum_bij' (fun i _ => f + i) (fun v _ => v - f) ?_ ?_ ?_ ?_ ?_
  · intro i hi; simp at hi ⊢; omega
  · intro v hv; simp at hv ⊢; omega
  · intro i hi; simp
  · intro v hv; simp at hv; omega
  · intro i hi; rfl

/-- The box of process `q` in the `V2DSplit` layout. -/
theorem box_iff (hv : Valid p) (q : ℕ) (hq : q < p.P) (s x y vx vy : ℕ) : InBox (p.rv q) (Params.mkIdx s x y vx vy) ↔
      (s < p.nkin ∧ x < p.nx ∧ y < p.ny) ∧
      ((select (p.rv q) .Vx).front ≤ vx ∧ vx < (select (p.rv q) .Vx).front + (select (p.rv q) .Vx).size) ∧
      ((select (p.rv q) .Vy).front ≤ vy ∧ vy < (select (p.rv q) .Vy).front + (select (p.rv q) .Vy).size) := by
  obtain ⟨-, wv⟩ := wf hv
  have hR := ranges_of hv v2D wv
  have hnd : (tags (p.rv q)).Nodup := by rw [Params.rv, hR.tags q hq]; exact wv.nodup glob_nodup
  have hsel : ∀ t, select (p.rv q) t ∈ p.rv q ∧ (select (p.rv q) t).tag = t := by
    intro t
    exact select_mem _ hnd t (by rw [Params.rv, hR.tags q hq]; exact tag_all v2D wv t)
  have w1 := hR.whole q hq ⟨.Sp, 0, p.nkin⟩ (by simp [Params.glob]) (by simp [v2D])
  have w2 := hR.whole q hq ⟨.X, 0, p.nx⟩ (by simp [Params.glob]) (by simp [v2D])
  have w3 := hR.whole q hq ⟨.Y, 0, p.ny⟩ (by simp [Params.glob]) (by simp [v2D])
  have hw1 := select_eq _ hnd _ w1
  have hw2 := select_eq _ hnd _ w2
  have hw3 := select_eq _ hnd _ w3
  simp only at hw1 hw2 hw3
  constructor
  · intro hb
    have h1 := hb _ (hsel .Vx).1
    have h2 := hb _ (hsel .Vy).1
    rw [(hsel .Vx).2] at h1
    rw [(hsel .Vy).2] at h2
    have h3 := (hb _ w1).2
    have h4 := (hb _ w2).2
    have h5 := (hb _ w3).2
    simp only [Params.mkIdx, Nat.zero_add] at h3 h4 h5
    exact ⟨⟨h3, h4, h5⟩, h1, h2⟩
  · rintro ⟨⟨h3, h4, h5⟩, h1, h2⟩ d hd
    have hs := select_eq _ hnd d hd
    rcases ht : d.tag with _ | _ | _ | _ | _ <;> rw [ht] at hs <;> rw [← hs]
    · rw [hw1]; simpa [Params.mkIdx] using h3
    · rw [hw2]; simpa [Params.mkIdx] using h4
    · rw [hw3]; simpa [Params.mkIdx] using h5
    · exact h1
    · exact h2

/-- The velocity points of the processes are those of the global range, each one once. -/
theorem sum_velocities (hv : Valid p) (h : ℕ → ℕ → ℝ) :
    ∑ q ∈ range p.P, ∑ i ∈ range (select (p.rv q) .Vx).size, ∑ j ∈ range (select (p.rv q) .Vy).size, h ((select (p.rv q) .Vx).front + i) ((select (p.rv q) .Vy).front + j)
      = ∑ i ∈ range p.nvx, ∑ j ∈ range p.nvy, h i j := by
  obtain ⟨-, wv⟩ := wf hv
  have hR := ranges_of hv v2D wv
  have hbox : ∀ q < p.P, ∀ vx vy, InBox (p.rv q) (Params.mkIdx 0 0 0 vx vy) ↔
      ((select (p.rv q) .Vx).front ≤ vx ∧ vx < (select (p.rv q) .Vx).front + (select (p.rv q) .Vx).size) ∧
      ((select (p.rv q) .Vy).front ≤ vy ∧ vy < (select (p.rv q) .Vy).front + (select (p.rv q) .Vy).size) := by
    intro q hq vx vy
    rw [box_iff hv q hq]
    exact ⟨fun h => h.2, fun h => ⟨⟨hv.kin_pos, hv.nx_pos, hv.ny_pos⟩, h⟩⟩
  have hglob : ∀ vx vy, InBox p.glob (Params.mkIdx 0 0 0 vx vy) ↔ vx < p.nvx ∧ vy < p.nvy := by
    intro vx vy
    have := hv.kin_pos; have := hv.nx_pos; have := hv.ny_pos
    simp [InBox, Params.glob, Params.mkIdx]
    tauto
  -- fits
  have hfit : ∀ q < p.P, (select (p.rv q) .Vx).size ≠ 0 → (select (p.rv q) .Vy).size ≠ 0 →
      (select (p.rv q) .Vx).front + (select (p.rv q) .Vx).size ≤ p.nvx ∧ (select (p.rv q) .Vy).front + (select (p.rv q) .Vy).size ≤ p.nvy := by
    intro q hq h1 h2
    have hb := (hbox q hq ((select (p.rv q) .Vx).front + ((select (p.rv q) .Vx).size - 1)) ((select (p.rv q) .Vy).front + ((select (p.rv q) .Vy).size - 1))).2 ⟨by omega, by omega⟩
    have := (hglob _ _).1 (hR.sub q hq _ hb)
    omega
  classical
  have hterm : ∀ q ∈ range p.P, ∑ i ∈ range (select (p.rv q) .Vx).size, ∑ j ∈ range (select (p.rv q) .Vy).size, h ((select (p.rv q) .Vx).front + i) ((select (p.rv q) .Vy).front + j)
      = ∑ i ∈ range p.nvx, ∑ j ∈ range p.nvy, if InBox (p.rv q) (Params.mkIdx 0 0 0 i j) then h i j else 0 := by
    intro q hq
    have hq' := mem_range.1 hq
    simp only [hbox q hq']
    by_cases h1 : (select (p.rv q) .Vx).size = 0
    · simp only [h1, range_zero, sum_empty]
      symm
      refine sum_eq_zero fun i _ => sum_eq_zero fun j _ => if_neg (by omega)
    by_cases h2 : (select (p.rv q) .Vy).size = 0
    · simp only [h2, range_zero, sum_empty, sum_const_zero]
      symm
      refine sum_eq_zero fun i _ => sum_eq_zero fun j _ => if_neg (by omega)
    obtain ⟨f1, f2⟩ := hfit q hq' h1 h2
    rw [sum_window p.nvx _ _ f1 (fun i => ∑ j ∈ range (select (p.rv q) .Vy).size, h i ((select (p.rv q) .Vy).front + j))]
    refine sum_congr rfl fun i _ => ?_
    rw [sum_window p.nvy _ _ f2 (fun j => h i j)]
    by_cases hi : (select (p.rv q) .Vx).front ≤ i ∧ i < (select (p.rv q) .Vx).front + (select (p.rv q) .Vx).size
    · rw [if_pos hi]
      exact sum_congr rfl fun j _ => by simp only [hi, true_and, and_true]
    · rw [if_neg hi]
      symm
      exact sum_eq_zero fun j _ => if_neg fun h => hi h.1
  rw [sum_congr rfl hterm, sum_comm]
  refine sum_congr rfl fun i hi => ?_
  rw [sum_comm]
  refine sum_congr rfl fun j hj => ?_
  obtain ⟨r, ⟨h1, h2⟩, h3⟩ := hR.part _ ((hglob i j).2 ⟨mem_range.1 hi, mem_range.1 hj⟩)
  rw [sum_eq_single r]
  · exact if_pos h2
  · intro q hq hqr
    exact if_neg fun hb => hqr (h3 q ⟨mem_range.1 hq, hb⟩)
  · intro hr; exact absurd (mem_range.2 h1) hr

/-- The sum of the charge densities of the processes. -/
theorem sum_localRho (hv : Valid p) (v : Var) (F : (Tag → ℕ) → ℝ) (σ : ℕ → Mem) (h : Holds p v2D σ v F) (x y : ℕ) (hx : x < p.nx) (hy : y < p.ny) :
    ∑ q ∈ range p.P, p.localRho q ((σ q).arr v) x y
      = Moments.kineticCharge p.nkin p.charge (p.nvx * p.nvy) (fun k => p.w (k / p.nvy) (k % p.nvy)) (fun s k => F (Params.mkIdx s x y (k / p.nvy) (k % p.nvy)))
        + p.P * Moments.adiabaticCharge p.nsp p.nkin p.charge := by
  have hloc : ∀ q ∈ range p.P, p.localRho q ((σ q).arr v) x y
      = (∑ s ∈ range p.nkin, p.charge s * ∑ i ∈ range (select (p.rv q) .Vx).size, ∑ j ∈ range (select (p.rv q) .Vy).size,
          (fun vx vy => p.w vx vy * F (Params.mkIdx s x y vx vy)) ((select (p.rv q) .Vx).front + i) ((select (p.rv q) .Vy).front + j))
        + Moments.adiabaticCharge p.nsp p.nkin p.charge := by
    intro q hq
    have hq' := mem_range.1 hq
    unfold Params.localRho
    simp only
    rw [Moments.c44_xyvxvy _ _ _ _ _ _ hv.kin_pos hv.kin_le]
    refine congrArg (· + Moments.adiabaticCharge p.nsp p.nkin p.charge) ?_
    unfold Moments.kineticCharge
    refine sum_congr rfl fun s hs => ?_
    refine congrArg (p.charge s * ·) ?_
    rw [sum_div_mod (select (p.rv q) .Vx).size (select (p.rv q) .Vy).size fun i j =>
      p.w ((select (p.rv q) .Vx).front + i) ((select (p.rv q) .Vy).front + j) *
        (σ q).arr v (offset (p.rv q) (Params.mkIdx s x y ((select (p.rv q) .Vx).front + i) ((select (p.rv q) .Vy).front + j)))]
    refine sum_congr rfl fun i hi => sum_congr rfl fun j hj => ?_
    refine congrArg (p.w ((select (p.rv q) .Vx).front + i) ((select (p.rv q) .Vy).front + j) * ·) ?_
    refine h q hq' _ ((box_iff hv q hq' _ _ _ _ _).2 ⟨⟨mem_range.1 hs, hx, hy⟩, ?_, ?_⟩)
    · have := mem_range.1 hi; omega
    · have := mem_range.1 hj; omega
  rw [sum_congr rfl hloc, sum_add_distrib]
  congr 1
  · rw [sum_comm]
    unfold Moments.kineticCharge
    refine sum_congr rfl fun s _ => ?_
    rw [← mul_sum, sum_velocities hv fun vx vy => p.w vx vy * F (Params.mkIdx s x y vx vy)]
    rw [sum_div_mod p.nvx p.nvy fun i j => p.w i j * F (Params.mkIdx s x y i j)]
  · simp

/-- The Poisson solver: every process gets the potential and the field of the serial simulation. -/
theorem poisson_holds (hv : Valid p) (v : Var) (F : (Tag → ℕ) → ℝ) (σ : ℕ → Mem) (h : Holds p v2D σ v F) :
    ∀ r, (lockstep p.P (p.poisson v) σ r).arr = (σ r).arr ∧ (lockstep p.P (p.poisson v) σ r).events = (σ r).events ∧
      (lockstep p.P (p.poisson v) σ r).phi = (p.poissonG F).1 ∧ (lockstep p.P (p.poisson v) σ r).ex = (p.poissonG F).2.1 ∧
      (lockstep p.P (p.poisson v) σ r).ey = (p.poissonG F).2.2 := by
  intro r
  have key : p.solver (fun x y => ∑ q ∈ range p.P, (if q < p.P then ((0, fun pos => p.localRho q ((σ q).arr v) (pos / p.ny) (pos % p.ny)) : Msg) else default).2 (x * p.ny + y))
      = p.poissonG F := by
    have e1 : ∀ x < p.nx, ∀ y < p.ny,
        ∑ q ∈ range p.P, (if q < p.P then ((0, fun pos => p.localRho q ((σ q).arr v) (pos / p.ny) (pos % p.ny)) : Msg) else default).2 (x * p.ny + y)
          = Moments.kineticCharge p.nkin p.charge (p.nvx * p.nvy) (fun k => p.w (k / p.nvy) (k % p.nvy)) (fun s k => F (Params.mkIdx s x y (k / p.nvy) (k % p.nvy)))
            + p.P * Moments.adiabaticCharge p.nsp p.nkin p.charge := by
      intro x hx y hy
      rw [← sum_localRho hv v F σ h x y hx hy]
      refine sum_congr rfl fun q hq => ?_
      rw [if_pos (mem_range.1 hq)]
      have hd : (x * p.ny + y) / p.ny = x := by
        rw [Nat.mul_comm, Nat.mul_add_div hv.ny_pos, Nat.div_eq_of_lt hy, Nat.add_zero]
      have hm : (x * p.ny + y) % p.ny = y := by
        rw [Nat.mul_comm, Nat.mul_add_mod, Nat.mod_eq_of_lt hy]
      simp only [hd, hm]
    rw [hv.solver _ _ e1]
    unfold Params.poissonG
    simp only [Moments.c44_xyvxvy _ _ _ _ _ _ hv.kin_pos hv.kin_le]
    rcases hv.background with hb | hb
    · have : Moments.adiabaticCharge p.nsp p.nkin p.charge = 0 := by
        unfold Moments.adiabaticCharge
        rw [if_neg (by omega)]
      simp only [this, mul_zero, add_zero]
    · rw [hb, hb]
  simp only [Params.poisson, lockstep, Params.bump]
  rw [key]
  exact ⟨trivial, trivial, rfl, rfl, rfl⟩

/-! ## Events and time loop -/

/-- The event `ev` of process `r` has the content of the event `sev` of the serial simulation: same name, iteration, time and potential, and the local part of the distribution function
in the output layout. -/
def SameEvent (p : Params) (r : ℕ) (ev : Event (ℕ → ℝ) (ℕ → ℕ → ℝ)) (sev : Event ((Tag → ℕ) → ℝ) (ℕ → ℕ → ℝ)) : Prop :=
  ev.name = sev.name ∧ ev.iter = sev.iter ∧ ev.time = sev.time ∧ ev.phi = sev.phi ∧
    ∀ x, InBox (p.rv r) x → ev.density (offset (reorder [.Sp, .X, .Y, .Vx, .Vy] (p.rv r)) x) = sev.density x

theorem event_holds (hv : Valid p) (hE : Fair env) (name : EvName) (iter : ℕ) (time : ℝ) (F : (Tag → ℕ) → ℝ) (phi : ℕ → ℕ → ℝ) (σ : ℕ → Mem) (h : Holds p v2D σ .fv F) :
    ∀ r, (∀ v, v ≠ .out → (lockstep p.P (p.event env name iter time) σ r).arr v = (σ r).arr v) ∧
      (lockstep p.P (p.event env name iter time) σ r).ex = (σ r).ex ∧ (lockstep p.P (p.event env name iter time) σ r).ey = (σ r).ey ∧
      (lockstep p.P (p.event env name iter time) σ r).phi = (σ r).phi ∧
      ∃ ev, (lockstep p.P (p.event env name iter time) σ r).events = (σ r).events ++ [ev] ∧ (r < p.P → (σ r).phi = phi → SameEvent p r ev ⟨name, iter, time, F, phi⟩) := by
  intro r
  have hio : ∀ (σ : ℕ → Mem), lockstep p.P (if iter % p.nbstep = 0 then
      [(.coll (fun _ => .io (iter / p.nbstep)) (fun _ m => (0, m.arr .out)) fun _ _ m => m : PAct Mem Msg)] else []) σ = σ := by
    intro σ
    split_ifs <;> rfl
  unfold Params.event
  rw [lockstep_append, hio]
  simp only [lockstep, Params.bump, Params.setArr]
  refine ⟨fun v hvo => by rw [Function.update_of_ne hvo], trivial, trivial, trivial, _, rfl, fun hr hphi => ?_⟩
  refine ⟨rfl, rfl, rfl, hphi, fun x hx => ?_⟩
  have wv := (wf hv).2
  have ht := (ranges_of hv v2D wv).tags r hr
  have hnd : (tags (p.rv r)).Nodup := by rw [Params.rv, ht]; exact wv.nodup glob_nodup
  simp only
  rw [c04_transpose_values _ _ (reorder_perm (p.rv r) hnd _ (by rw [Params.rv, ht]; decide)) hnd _ (hE.loop _ _ _) _ _ x hx]
  exact h r hr x hx

/-- The time loop. -/
theorem loop_holds (hv : Valid p) (hE : Fair env) (dt : ℝ) (n iter : ℕ) (F : (Tag → ℕ) → ℝ) (slog : List (Event ((Tag → ℕ) → ℝ) (ℕ → ℕ → ℝ))) (σ : ℕ → Mem)
    (h : Holds p v2D σ .fv F) (hlog : ∀ r < p.P, List.Forall₂ (SameEvent p r) (σ r).events slog) :
    Holds p v2D (lockstep p.P (p.loop env dt n iter) σ) .fv (predCorrXYVxVyLoop p.vlasovG p.poissonG dt n iter F slog).1 ∧
      ∀ r < p.P, List.Forall₂ (SameEvent p r) (lockstep p.P (p.loop env dt n iter) σ r).events (predCorrXYVxVyLoop p.vlasovG p.poissonG dt n iter F slog).2 := by
  induction n generalizing iter F slog σ with
  | zero =>
    unfold Params.loop
    rw [lockstep_append]
    obtain ⟨σ1, hσ1⟩ : ∃ s, s = lockstep p.P (p.poisson .fv) σ := ⟨_, rfl⟩
    have p1 := poisson_holds hv .fv F σ h
    rw [← hσ1] at p1 ⊢
    have h1 : Holds p v2D σ1 .fv F := fun r hr x hx => by rw [(p1 r).1]; exact h r hr x hx
    have e1 := event_holds hv hE .lastIteration iter (iter * dt) F (p.poissonG F).1 σ1 h1
    unfold predCorrXYVxVyLoop
    simp only
    refine ⟨fun r hr x hx => by rw [(e1 r).1 _ (by decide)]; exact h1 r hr x hx, fun r hr => ?_⟩
    obtain ⟨ev, he, hs⟩ := (e1 r).2.2.2.2
    rw [he, (p1 r).2.1]
    exact List.rel_append (hlog r hr) (List.Forall₂.cons (hs hr (p1 r).2.2.1) List.Forall₂.nil)
  | succ n ih =>
    unfold Params.loop
    simp only [lockstep_append]
    obtain ⟨σ1, hσ1⟩ : ∃ s, s = lockstep p.P (p.poisson .fv) σ := ⟨_, rfl⟩
    have p1 := poisson_holds hv .fv F σ h
    rw [← hσ1] at p1 ⊢
    have h1 : Holds p v2D σ1 .fv F := fun r hr x hx => by rw [(p1 r).1]; exact h r hr x hx
    have e1 := event_holds hv hE .iteration iter (iter * dt) F (p.poissonG F).1 σ1 h1
    obtain ⟨σ2, hσ2⟩ : ∃ s, s = lockstep p.P (p.event env .iteration iter (iter * dt)) σ1 := ⟨_, rfl⟩
    rw [← hσ2] at e1 ⊢
    have h2 : Holds p v2D σ2 .fv F := fun r hr x hx => by rw [(e1 r).1 _ (by decide)]; exact h1 r hr x hx
    obtain ⟨σ3, hσ3⟩ : ∃ s, s = lockstep p.P [(.loc fun _ m => Params.bump (Params.setArr m .half (m.arr .fv)) : PAct Mem Msg)] σ2 := ⟨_, rfl⟩
    rw [← hσ3]
    have a3 : ∀ r, (σ3 r).arr = Function.update (σ2 r).arr .half ((σ2 r).arr .fv) ∧ (σ3 r).ex = (σ2 r).ex ∧ (σ3 r).ey = (σ2 r).ey ∧ (σ3 r).events = (σ2 r).events := by
      intro r; rw [hσ3]; exact ⟨rfl, rfl, rfl, rfl⟩
    have h3 : Holds p v2D σ3 .fv F := fun r hr x hx => by
      rw [(a3 r).1, Function.update_of_ne (by decide)]; exact h2 r hr x hx
    have k3 : Holds p v2D σ3 .half F := fun r hr x hx => by
      rw [(a3 r).1, Function.update_self]; exact h2 r hr x hx
    have x3 : ∀ r < p.P, (σ3 r).ex = (p.poissonG F).2.1 ∧ (σ3 r).ey = (p.poissonG F).2.2 := by
      intro r _
      rw [(a3 r).2.1, (a3 r).2.2.1, (e1 r).2.1, (e1 r).2.2.1]
      exact ⟨(p1 r).2.2.2.1, (p1 r).2.2.2.2⟩
    obtain ⟨k4, f4⟩ := vlasov_holds hv hE .half (by decide) (dt / 2) F (p.poissonG F).2 σ3 k3 x3
    obtain ⟨σ4, hσ4⟩ : ∃ s, s = lockstep p.P (p.vlasov env .half (dt / 2)) σ3 := ⟨_, rfl⟩
    rw [← hσ4] at k4 f4 ⊢
    have h4 : Holds p v2D σ4 .fv F := h3.frame f4 (by decide)
    have p5 := poisson_holds hv .half _ σ4 k4
    obtain ⟨σ5, hσ5⟩ : ∃ s, s = lockstep p.P (p.poisson .half) σ4 := ⟨_, rfl⟩
    rw [← hσ5] at p5 ⊢
    have h5 : Holds p v2D σ5 .fv F := fun r hr x hx => by rw [(p5 r).1]; exact h4 r hr x hx
    obtain ⟨h6, f6⟩ := vlasov_holds hv hE .fv (by decide) dt F (p.poissonG (p.vlasovG F (p.poissonG F).2 (dt / 2))).2 σ5 h5 fun r _ => ⟨(p5 r).2.2.2.1, (p5 r).2.2.2.2⟩
    obtain ⟨σ6, hσ6⟩ : ∃ s, s = lockstep p.P (p.vlasov env .fv dt) σ5 := ⟨_, rfl⟩
    rw [← hσ6] at h6 f6 ⊢
    rw [predCorrXYVxVyLoop]
    refine ih (iter + 1) _ _ σ6 h6 fun r hr => ?_
    obtain ⟨ev, he, hs⟩ := (e1 r).2.2.2.2
    rw [(f6 r).2.2.2.2, (p5 r).2.1, (f4 r).2.2.2.2, (a3 r).2.2.2, he, (p1 r).2.1]
    exact List.rel_append (hlog r hr) (List.Forall₂.cons (hs hr (p1 r).2.2.1) List.Forall₂.nil)

/-! ## The collective calls match -/

/-- The calls of a program match between the processes. -/
def LabOk (P : ℕ) (l : List (PAct Mem Msg)) : Prop :=
  ∀ lab give take, PAct.coll lab give take ∈ l → ∀ q < P, ∀ r < P, (lab q).compat (lab r) = true

theorem LabOk.append {P : ℕ} {a b : List (PAct Mem Msg)} (ha : LabOk P a) (hb : LabOk P b) : LabOk P (a ++ b) := by
  intro lab g t h
  rcases List.mem_append.1 h with h | h
  · exact ha lab g t h
  · exact hb lab g t h

theorem labOk_loc {P : ℕ} (f : ℕ → Mem → Mem) : LabOk P [.loc f] := by
  intro lab g t h; simp at h

theorem labOk_transpose (hv : Valid p) (Lin Lout : MLayout Tag) (hin : WF Lin p.glob p.P) (hout : WF Lout p.glob p.P)
    (hdisj : ∀ t ∈ Lin.distributed, t ∉ Lout.distributed) (a b : Var) : LabOk p.P (p.transpose env Lin Lout a b) := by
  intro lab g t h q hq r hr
  simp only [Params.transpose, List.mem_cons, List.not_mem_nil, or_false, reduceCtorEq, false_or, PAct.coll.injEq] at h
  rw [h.1]
  simp only [Lab.compat, beq_iff_eq]
  exact c106_counts Lin Lout p.glob p.P hv.P_pos glob_ne glob_nodup (glob_pos hv) hin hout hdisj q r hq hr

theorem labOk_poisson (v : Var) : LabOk p.P (p.poisson v) := by
  intro lab g t h q hq r hr
  simp only [Params.poisson, List.mem_cons, List.not_mem_nil, or_false, reduceCtorEq, false_or, PAct.coll.injEq] at h
  rw [h.1]
  simp [Lab.compat]

theorem labOk_event (name : EvName) (iter : ℕ) (time : ℝ) : LabOk p.P (p.event env name iter time) := by
  unfold Params.event
  refine (labOk_loc _).append ?_
  intro lab g t h q hq r hr
  split_ifs at h
  · simp only [List.mem_cons, List.not_mem_nil, or_false, PAct.coll.injEq] at h
    rw [h.1]
    simp [Lab.compat]
  · simp at h

theorem labOk_vlasov (hv : Valid p) (v : Var) (dt : ℝ) : LabOk p.P (p.vlasov env v dt) := by
  obtain ⟨wx, wv⟩ := wf hv
  unfold Params.vlasov
  refine ((((LabOk.append (a := [_]) (b := [_]) (labOk_loc _) (labOk_loc _)).append (labOk_transpose hv _ _ wv wx (by decide) _ _)).append
    (LabOk.append (a := [_]) (b := [_, _]) (labOk_loc _) (LabOk.append (a := [_]) (b := [_]) (labOk_loc _) (labOk_loc _)))).append
    (labOk_transpose hv _ _ wx wv (by decide) _ _)).append (LabOk.append (a := [_]) (b := [_]) (labOk_loc _) (labOk_loc _))

theorem labOk_loop (hv : Valid p) (dt : ℝ) (n iter : ℕ) : LabOk p.P (p.loop env dt n iter) := by
  induction n generalizing iter with
  | zero => exact (labOk_poisson _).append (labOk_event _ _ _)
  | succ n ih =>
    exact ((((((labOk_poisson _).append (labOk_event _ _ _)).append (labOk_loc _)).append (labOk_vlasov hv _ _)).append (labOk_poisson _)).append
      (labOk_vlasov hv _ _)).append (ih _)

theorem labOk_main (hv : Valid p) (dt : ℝ) (steps : ℕ) : LabOk p.P (p.main env dt steps) := by
  obtain ⟨wx, wv⟩ := wf hv
  exact (labOk_transpose hv _ _ wx wv (by decide) _ _).append (labOk_loop hv _ _ _)

/-! ## The theorems -/

/-- **C106** The construction of the transposition throws an exception on all processes or on none: no process waits for one that has stopped. -/
theorem c106_constructor (p : Params) (hP : 0 < p.P) (q r : ℕ) (hq : q < p.P) (hr : r < p.P) :
    (constructorThrows x2D v2D p.glob p.P q = none ↔ constructorThrows x2D v2D p.glob p.P r = none) ∧
    (constructorThrows x2D v2D p.glob p.P r = none ↔ p.P ≤ p.nx * p.ny ∧ p.P ∣ p.nx * p.ny ∧ p.P ∣ p.nvx * p.nvy) := by
  have h := fun r hr => c03_constructor x2D v2D p.glob p.P hP glob_ne glob_nodup x2D_perm v2D_perm r hr
  have e1 : distribSize x2D.distributed (reorder x2D.order p.glob) = p.nx * p.ny := by
    simp [distribSize, x2D, reorder, Params.glob, select]
  have e2 : distribSize v2D.distributed (reorder v2D.order p.glob) = p.nvx * p.nvy := by
    simp [distribSize, v2D, reorder, Params.glob, select]
  rw [h q hq, h r hr, e1, e2]
  exact ⟨Iff.rfl, Iff.rfl⟩

/-- **C106** The distributed 2D2V simulation. Whatever the number of processes (for which the construction succeeds), the interleaving of the processes, the orders of the parallel loops and the initial content of
buffers: the program never deadlocks, it ends after a bounded number of steps, and at the end every process has the values of the serial simulation on its part of the grid, and has emitted the events of the serial
simulation, with the potential of the serial simulation and its part of the distribution function. -/
theorem c106_landau (hv : Valid p) (hE : Fair env) (dt : ℝ) (steps : ℕ) (F : (Tag → ℕ) → ℝ) (init : ℕ → Mem)
    (hinit : ∀ r < p.P, ∀ x, InBox (p.rx r) x → (init r).arr .fx (offset (p.rx r) x) = F x) (hev : ∀ r < p.P, (init r).events = [])
    (n : ℕ) (c : Conf Mem Msg) (hrun : Run p.P n (start (spmd (p.main env dt steps)) init) c) :
    (Finished p.P c ∨ ∃ c', Step p.P c c') ∧
    n ≤ p.P * (2 * (p.main env dt steps).length + 1) ∧
    (Finished p.P c → ∀ r < p.P,
      (∀ x, InBox (p.rv r) x → (c.mem r).arr .fv (offset (p.rv r) x) = (p.serial F dt steps).1 x) ∧
      List.Forall₂ (SameEvent p r) (c.mem r).events (p.serial F dt steps).2) := by
  obtain ⟨h1, h2, h3⟩ := c106_spmd p.P (p.main env dt steps) init (labOk_main hv dt steps) n c hrun
  refine ⟨h2, h1, fun hf r hr => ?_⟩
  obtain ⟨wx, wv⟩ := wf hv
  obtain ⟨t1, t2⟩ := transpose_holds hv hE x2D v2D wx wv (by decide) .fx .fv F init hinit
  have hl := loop_holds hv hE dt steps 0 F [] _ t1 fun r hr => by rw [(t2 r).2.2.2.2, hev r hr]; exact List.Forall₂.nil
  rw [← lockstep_append] at hl
  rw [h3 hf r hr]
  exact ⟨hl.1 r hr, hl.2 r hr⟩

theorem writeAll_congr (T : List Tag) (R : IdxRange Tag) (loc loc' : ℕ → IdxRange Tag) (buf : ℕ → ℕ → ℝ) (l : List ℕ) (h : ∀ r ∈ l, loc r = loc' r) (ds : List ℕ → ℝ) :
    Pdi.writeAll T R loc buf l ds = Pdi.writeAll T R loc' buf l ds := by
  unfold Pdi.writeAll
  induction l generalizing ds with
  | nil => rfl
  | cons r l ih =>
    simp only [Pdi.Out.forAll]
    have hw : Pdi.writeRank T R loc buf r ds = Pdi.writeRank T R loc' buf r ds := by
      unfold Pdi.writeRank
      rw [h r (List.mem_cons_self ..)]
    rw [hw]
    cases Pdi.writeRank T R loc' buf r ds with
    | ok a => exact ih (fun q hq => h q (List.mem_cons_of_mem _ hq)) a
    | error => rfl
    | ub => rfl

/-- **C106** The files: for each event, when the processes have written their parts in the dataset of the file, in any order, the dataset contains the distribution function of the event of the serial simulation
at every point of the grid. -/
theorem c106_files (hv : Valid p) (hE : Fair env) (dt : ℝ) (steps : ℕ) (F : (Tag → ℕ) → ℝ) (init : ℕ → Mem)
    (hinit : ∀ r < p.P, ∀ x, InBox (p.rx r) x → (init r).arr .fx (offset (p.rx r) x) = F x) (hev : ∀ r < p.P, (init r).events = [])
    (n : ℕ) (c : Conf Mem Msg) (hrun : Run p.P n (start (spmd (p.main env dt steps)) init) c) (hf : Finished p.P c)
    (i : ℕ) (sev : Event ((Tag → ℕ) → ℝ) (ℕ → ℕ → ℝ)) (hi : (p.serial F dt steps).2[i]? = some sev) (ranks : List ℕ) (hranks : ∀ r, r ∈ ranks ↔ r < p.P) (ds : List ℕ → ℝ) :
    ∃ buf : ℕ → ℕ → ℝ, (∀ r < p.P, ∃ ev, (c.mem r).events[i]? = some ev ∧ buf r = ev.density ∧ ev.iter = sev.iter ∧ ev.phi = sev.phi) ∧
      ∃ ds', Pdi.writeAll [.Sp, .X, .Y, .Vx, .Vy] (reorder v2D.order p.glob) p.rv buf ranks ds = .ok ds' ∧
        ∀ x, InBox p.glob x → ds' ([Tag.Sp, .X, .Y, .Vx, .Vy].map x) = sev.density x := by
  obtain ⟨-, -, hfin⟩ := c106_landau hv hE dt steps F init hinit hev n c hrun
  have hfin := hfin hf
  have hget : ∀ r, ∃ ev : Event (ℕ → ℝ) (ℕ → ℕ → ℝ), r < p.P → (c.mem r).events[i]? = some ev ∧ SameEvent p r ev sev := by
    intro r
    by_cases hr : r < p.P
    · have h2 := (hfin r hr).2
      rw [List.forall₂_iff_get] at h2
      obtain ⟨hlen, hall⟩ := h2
      obtain ⟨hi', he⟩ := List.getElem?_eq_some_iff.1 hi
      have hi2 : i < (c.mem r).events.length := by rw [hlen]; exact hi'
      refine ⟨(c.mem r).events[i], fun _ => ⟨List.getElem?_eq_getElem hi2, ?_⟩⟩
      have := hall i hi2 hi'
      simp only [List.get_eq_getElem] at this
      rw [he] at this
      exact this
    · exact ⟨⟨.iteration, 0, 0, fun _ => 0, fun _ _ => 0⟩, fun h => absurd h hr⟩
  choose ev hevr using hget
  refine ⟨fun r => (ev r).density, fun r hr => ⟨ev r, (hevr r hr).1, rfl, (hevr r hr).2.2.1, (hevr r hr).2.2.2.2.1⟩, ?_⟩
  obtain ⟨-, wv⟩ := wf hv
  have hne : reorder v2D.order p.glob ≠ [] := by simp [reorder, v2D]
  have hperm := reorder_perm p.glob glob_nodup v2D.order wv.perm
  have hnd : (tags (reorder v2D.order p.glob)).Nodup := by rw [tags_GL wv glob_nodup]; exact wv.nodup glob_nodup
  obtain ⟨loc, hloc, hfile⟩ := Pdi.c90_file v2D.distributed (reorder v2D.order p.glob) hne hnd p.P hv.P_pos wv.divides
    (by
      intro d hd
      have hd' := hperm.mem_iff.1 hd
      simp only [Params.glob, List.mem_cons, List.not_mem_nil, or_false] at hd'
      rcases hd' with rfl | rfl | rfl | rfl | rfl <;> rfl)
    (fun d hd => glob_pos hv d (hperm.mem_iff.1 hd)) [.Sp, .X, .Y, .Vx, .Vy] (by rw [tags_GL wv glob_nodup]; decide)
  have hrv : ∀ r < p.P, p.rv r = loc r := by
    intro r hr
    unfold Params.rv localRange
    rw [hloc r hr]
  have hbuf : ∀ r < p.P, ∀ x, InBox (loc r) x → (ev r).density (offset (reorder [.Sp, .X, .Y, .Vx, .Vy] (loc r)) x) = sev.density x := by
    intro r hr x hx
    obtain ⟨-, -, -, -, -, hd⟩ := hevr r hr
    have e := hrv r hr
    have hx' : InBox (p.rv r) x := by rw [e]; exact hx
    have := hd x hx'
    rw [e] at this
    exact this
  obtain ⟨ds', h1, h2⟩ := hfile sev.density (fun r => (ev r).density)
    hbuf ranks hranks ds
  refine ⟨ds', ?_, fun x hx => h2 x ((inBox_perm hperm x).2 hx)⟩
  rw [← h1]
  exact writeAll_congr _ _ p.rv loc _ ranks (fun r hr => hrv r ((hranks r).1 hr)) ds

/-- **C106** The number of processes does not change the result: two distributed simulations with different numbers of processes have the same value at every point of the grid, on the processes which hold it. -/
theorem c106_same_on_any_number {p p' : Params} {env env' : Env} (hv : Valid p) (hv' : Valid p') (hE : Fair env) (hE' : Fair env') (hsame : { p' with P := p.P } = p) (dt : ℝ) (steps : ℕ)
    (F : (Tag → ℕ) → ℝ) (init init' : ℕ → Mem)
    (hinit : ∀ r < p.P, ∀ x, InBox (p.rx r) x → (init r).arr .fx (offset (p.rx r) x) = F x) (hev : ∀ r < p.P, (init r).events = [])
    (hinit' : ∀ r < p'.P, ∀ x, InBox (p'.rx r) x → (init' r).arr .fx (offset (p'.rx r) x) = F x) (hev' : ∀ r < p'.P, (init' r).events = [])
    (n n' : ℕ) (c c' : Conf Mem Msg) (hrun : Run p.P n (start (spmd (p.main env dt steps)) init) c) (hf : Finished p.P c)
    (hrun' : Run p'.P n' (start (spmd (p'.main env' dt steps)) init') c') (hf' : Finished p'.P c')
    (r r' : ℕ) (hr : r < p.P) (hr' : r' < p'.P) (x : Tag → ℕ) (hx : InBox (p.rv r) x) (hx' : InBox (p'.rv r') x) :
    (c.mem r).arr .fv (offset (p.rv r) x) = (c'.mem r').arr .fv (offset (p'.rv r') x) := by
  rw [((c106_landau hv hE dt steps F init hinit hev n c hrun).2.2 hf r hr).1 x hx,
    ((c106_landau hv' hE' dt steps F init' hinit' hev' n' c' hrun').2.2 hf' r' hr').1 x hx', ← hsame]
  rfl

/-! ## Non-vacuity: two processes, two points in every dimension -/

/-- A small simulation on 2 processes: each advection turns the lines by one point when the field or the time step is not zero. -/
noncomputable def small (P : ℕ) : Params where
  P := P
  nkin := 1
  nsp := 2
  nx := 2
  ny := 2
  nvx := 2
  nvy := 2
  opX := fun _ a dt l i => l ((i + 1) % 2) + a * dt
  opY := fun _ a dt l i => l ((i + 1) % 2) * (1 + a * dt)
  opVx := fun _ e dt l i => l i + e * dt * l ((i + 1) % 2)
  opVy := fun _ e dt l i => l i - e * dt * l ((i + 1) % 2)
  charge := fun s => if s = 0 then 1 else -1
  w := fun _ _ => 1 / 4
  solver := fun ρ => (fun x y => if x < 2 ∧ y < 2 then ρ x y - ρ 0 0 else 0, fun _ y => if y < 2 then ρ 1 y - ρ 0 y else 0, fun x _ => if x < 2 then ρ x 1 - ρ x 0 else 0)
  nbstep := 2

theorem small_valid (P : ℕ) (hP : 0 < P) (hb : constructorThrows x2D v2D (small P).glob P 0 = none) : Valid (small P) := by
  have hmod : ∀ i, (i + 1) % 2 < 2 := fun i => Nat.mod_lt _ (by norm_num)
  refine ⟨hP, by norm_num [small], by norm_num [small], by norm_num [small], by norm_num [small], by norm_num [small], by norm_num [small], by norm_num [small], ?_, ?_, ?_, ?_, ?_, Or.inr ?_, hb⟩
  · intro s a dt l l' h i hi; simp only [small]; rw [h _ (hmod i)]
  · intro s a dt l l' h i hi; simp only [small]; rw [h _ (hmod i)]
  · intro s a dt l l' h i hi; simp only [small]; rw [h _ (hmod i), h i hi]
  · intro s a dt l l' h i hi; simp only [small]; rw [h _ (hmod i), h i hi]
  · intro ρ ρ' h
    simp only [small] at h ⊢
    refine Prod.ext ?_ (Prod.ext ?_ ?_)
    · funext x y
      simp only
      split_ifs with hxy
      · rw [h x hxy.1 y hxy.2, h 0 (by norm_num) 0 (by norm_num)]
      · rfl
    · funext x y
      simp only
      split_ifs with hy
      · rw [h 1 (by norm_num) y hy, h 0 (by norm_num) y hy]
      · rfl
    · funext x y
      simp only
      split_ifs with hx
      · rw [h x hx 1 (by norm_num), h x hx 0 (by norm_num)]
      · rfl
  · intro ρ a
    simp only [small]
    refine Prod.ext ?_ (Prod.ext ?_ ?_) <;> funext x y <;> simp

/-- The loops in row major order. -/
def rowMajorEnv : Env := ⟨fun _ _ R => enum R, fun _ _ R => enum R, fun _ _ _ => 7⟩

theorem rowMajorEnv_fair : Fair rowMajorEnv := ⟨fun _ _ _ => List.Perm.refl _, fun _ _ _ => List.Perm.refl _⟩

example : Valid (small 2) := small_valid 2 (by norm_num) (by simp only [small, Params.glob]; decide)
example : Valid (small 4) := small_valid 4 (by norm_num) (by simp only [small, Params.glob]; decide)
/-- Three processes: the construction throws (on all of them). -/
example : ∀ r < 3, constructorThrows x2D v2D (small 3).glob 3 r ≠ none := by simp only [small, Params.glob]; decide

/-- Complete runs of the small simulation exist, from memories whose array contains given values. -/
example : ∃ (init : ℕ → Mem) (n : ℕ) (c : Conf Mem Msg), (∀ r < 2, ∀ x, InBox ((small 2).rx r) x → (init r).arr .fx (offset ((small 2).rx r) x) = 5) ∧
    Run 2 n (start (spmd ((small 2).main rowMajorEnv (1 / 2) 3)) init) c ∧ Finished 2 c := by
  have hv : Valid (small 2) := small_valid 2 (by norm_num) (by simp only [small, Params.glob]; decide)
  let m0 : Mem := ⟨fun _ _ => 5, fun _ => 0, fun _ => 0, fun _ _ => 0, fun _ _ => 0, fun _ _ => 0, fun _ _ => 0, [], 0⟩
  obtain ⟨n, c, h1, h2⟩ := c106_completes (M := Msg) 2 (spmd ((small 2).main rowMajorEnv (1 / 2) 3)) (fun _ => m0) (by
    have hl : LabOk 2 ((small 2).main rowMajorEnv (1 / 2) 3) := labOk_main hv (1 / 2) 3
    intro q hq r hr
    generalize (small 2).main rowMajorEnv (1 / 2) 3 = l at hl
    induction l with
    | nil => exact List.Forall₂.nil
    | cons a l ih =>
      have ih' := ih fun lab g t h => hl lab g t (List.mem_cons_of_mem _ h)
      cases a with
      | loc f => exact ih'
      | coll lab g t => exact List.Forall₂.cons (hl lab g t (List.mem_cons_self ..) q hq r hr) ih') 0 _ (Run.zero _)
  exact ⟨fun _ => m0, n, c, fun _ _ _ _ => rfl, h1, h2⟩

end Verif.MpiLandau
