import Verif.Model.OrthoTransforms
import Verif.Props.TensorIndex
import Mathlib.LinearAlgebra.Matrix.Determinant.Basic
import Mathlib.LinearAlgebra.Matrix.SchurComplement
import Mathlib.Tactic.Ring
import Mathlib.Tactic.NormNum

/-!
# C62: combined orthogonal coordinate transforms
-/

namespace Verif.OrthoTransforms

open Verif.Tensor Verif.TypeSeq

universe u
variable {T : Type u} [DecidableEq T]

/-! ### Specification: determinant of a matrix indexed by tags -/

/-- Determinant of the matrix `M` with the rows and columns listed in this order. -/
noncomputable def detOf (rows cols : List T) (h : rows.length = cols.length) (M : T → T → ℝ) : ℝ :=
  Matrix.det (Matrix.of fun i j : Fin rows.length => M (rows[i]) (cols[j.val]'(h ▸ j.isLt)))

theorem detOf_congr {rows cols : List T} (h : rows.length = cols.length) {M N : T → T → ℝ}
    (hMN : ∀ r ∈ rows, ∀ a ∈ cols, M r a = N r a) : detOf rows cols h M = detOf rows cols h N := by
  unfold detOf
  congr 1
  ext i j
  exact hMN _ (List.getElem_mem _) _ (List.getElem_mem _)

theorem detOf_transpose {rows cols : List T} (h : rows.length = cols.length) (M : T → T → ℝ) :
    detOf rows cols h M = detOf cols rows h.symm (fun a r => M r a) := by
  unfold detOf
  rw [← Matrix.det_transpose, ← Matrix.det_submatrix_equiv_self (finCongr h.symm)]
  congr 1

theorem detOf_append {r1 c1 r2 c2 : List T} (h1 : r1.length = c1.length) (h2 : r2.length = c2.length)
    (h : (r1 ++ r2).length = (c1 ++ c2).length) (M : T → T → ℝ)
    (hz : ∀ r ∈ r2, ∀ a ∈ c1, M r a = 0) :
    detOf (r1 ++ r2) (c1 ++ c2) h M = detOf r1 c1 h1 M * detOf r2 c2 h2 M := by
  unfold detOf
  let e : Fin r1.length ⊕ Fin r2.length ≃ Fin (r1 ++ r2).length := finSumFinEquiv.trans (finCongr (by simp))
  rw [← Matrix.det_submatrix_equiv_self e, ← Matrix.det_fromBlocks_zero₂₁ _
    (Matrix.of fun (i : Fin r1.length) (j : Fin r2.length) => M r1[i] (c2[j.val]'(h2 ▸ j.isLt)))]
  congr 1
  ext i j
  rcases i with i | i <;> rcases j with j | j
  · have : j.val < c1.length := h1 ▸ j.isLt
    simp [e, List.getElem_append, this]
  · have : i.val < c1.length := h1 ▸ i.isLt
    simp [e, List.getElem_append, h1, this]
  · have : j.val < c1.length := h1 ▸ j.isLt
    simp [e, List.getElem_append, this, hz]
  · simp [e, List.getElem_append, h1]

theorem exists_perm {l l' : List T} (hp : l'.Perm l) (hn : l.Nodup) :
    ∃ σ : Equiv.Perm (Fin l.length), l' = List.ofFn (l.get ∘ σ) := by
  have hlen := hp.length_eq
  have hn' : l'.Nodup := hp.nodup_iff.2 hn
  let g : Fin l.length → Fin l.length := fun i =>
    ⟨l.idxOf (l'[i.val]'(by rw [hlen]; exact i.isLt)), List.idxOf_lt_length_iff.2 (hp.mem_iff.1 (List.getElem_mem _))⟩
  have hg : Function.Injective g := by
    intro i j hij
    have h1 : l.idxOf (l'[i.val]'(by rw [hlen]; exact i.isLt)) = l.idxOf (l'[j.val]'(by rw [hlen]; exact j.isLt)) := congrArg Fin.val hij
    have h2 := (List.idxOf_inj (hp.mem_iff.1 (List.getElem_mem _))).1 h1
    exact Fin.ext ((List.Nodup.getElem_inj_iff hn').1 h2)
  refine ⟨Equiv.ofBijective g (Finite.injective_iff_bijective.1 hg), ?_⟩
  apply List.ext_getElem
  · simp [hlen]
  · intro i h1 h2
    simp [g]

theorem parity_perm {l l' : List T} (hp : l'.Perm l) (hn : l.Nodup) :
    ∃ σ : Equiv.Perm (Fin l.length), l' = List.ofFn (l.get ∘ σ) ∧ parity l' l = some (Equiv.Perm.sign σ : ℤ) := by
  obtain ⟨σ, hσ⟩ := exists_perm hp hn
  refine ⟨σ, hσ, ?_⟩
  have := c38_sign l.get (List.nodup_iff_injective_get.1 hn) σ
  rw [← hσ] at this
  simpa using this

theorem detOf_rows_perm {l l' cols : List T} (hp : l'.Perm l) (hn : l.Nodup) (h : l.length = cols.length)
    (h' : l'.length = cols.length) (M : T → T → ℝ) :
    ∃ v : ℤ, parity l' l = some v ∧ (v = 1 ∨ v = -1) ∧ detOf l' cols h' M = v * detOf l cols h M := by
  obtain ⟨σ, hσ, hpar⟩ := parity_perm hp hn
  refine ⟨_, hpar, ?_, ?_⟩
  · rcases Int.units_eq_one_or (Equiv.Perm.sign σ) with h | h <;> simp [h]
  · subst hσ
    unfold detOf
    rw [← Matrix.det_permute σ]
    rw [← Matrix.det_submatrix_equiv_self (finCongr (by simp : l.length = (List.ofFn (l.get ∘ σ)).length))]
    congr 1
    ext i j
    simp

theorem detOf_cols_perm {rows l l' : List T} (hp : l'.Perm l) (hn : l.Nodup) (h : rows.length = l.length)
    (h' : rows.length = l'.length) (M : T → T → ℝ) :
    ∃ v : ℤ, parity l' l = some v ∧ (v = 1 ∨ v = -1) ∧ detOf rows l' h' M = v * detOf rows l h M := by
  obtain ⟨v, h1, h2, h3⟩ := detOf_rows_perm hp hn h.symm h'.symm (fun a r => M r a)
  refine ⟨v, h1, h2, ?_⟩
  rw [detOf_transpose h', detOf_transpose h, h3]

/-! ### The Jacobian matrix is block diagonal -/

/-- What it means to combine the transforms `ts` into a transform from `args` to `res`: the static assertions on the tags
and the use of pairwise different dimensions. -/
structure Combined (cov : T → T) (args res : List T) (ts : List (Transform T)) : Prop where
  hargs : args.Perm (ts.flatMap (·.args))
  hres : res.Perm (ts.flatMap (·.res))
  nargs : args.Nodup
  nres : res.Nodup
  ncov : (args.map cov).Nodup
  hcov : ∀ a ∈ args, ∀ a' ∈ args, cov a = cov a' → a = a'

theorem valid2 (s1 s2 : List T) (e : List T) :
    validElement [s1, s2] e = true ↔ ∃ x ∈ s1, ∃ y ∈ s2, e = [x, y] := by
  match e with
  | [] => simp [validElement]
  | [_] => simp [validElement]
  | [x, y] => simp [validElement]
  | _ :: _ :: _ :: _ => simp [validElement]

theorem sub_of_size {s1 s2 S1 S2 : List T} (n1 : s1.Nodup) (n2 : s2.Nodup) 
    (h1 : s1 ⊆ S1) (h2 : s2 ⊆ S2) (h : ¬ size [s1, s2] < size [S1, S2]) (e : List T)
    (he : validElement [S1, S2] e = true) : validElement [s1, s2] e = true := by
  rw [valid2] at he ⊢
  obtain ⟨x, hx, y, hy, rfl⟩ := he
  have l1 : s1.length ≤ S1.length := (List.subperm_of_subset n1 h1).length_le
  have l2 : s2.length ≤ S2.length := (List.subperm_of_subset n2 h2).length_le
  have p1 : 0 < S1.length := List.length_pos_of_mem hx
  have p2 : 0 < S2.length := List.length_pos_of_mem hy
  simp only [size, List.map_cons, List.map_nil, List.prod_cons, List.prod_nil, mul_one, not_lt] at h
  have e1 : S1.length ≤ s1.length := by
    by_contra hh
    push Not at hh
    have : s1.length * s2.length < S1.length * S2.length :=
      lt_of_le_of_lt (Nat.mul_le_mul_left _ l2) (Nat.mul_lt_mul_of_pos_right hh p2)
    omega
  have e2 : S2.length ≤ s2.length := by
    by_contra hh
    push Not at hh
    have : s1.length * s2.length < S1.length * S2.length :=
      lt_of_le_of_lt (Nat.mul_le_mul_right _ l1) (Nat.mul_lt_mul_of_pos_left hh p1)
    omega
  have q1 : s1.Perm S1 := (List.subperm_of_subset n1 h1).perm_of_length_le e1
  have q2 : s2.Perm S2 := (List.subperm_of_subset n2 h2).perm_of_length_le e2
  exact ⟨x, q1.mem_iff.2 hx, y, q2.mem_iff.2 hy, rfl⟩

theorem mem_flatMap_unique {f : Transform T → List T} {ts : List (Transform T)} (h : (ts.flatMap f).Nodup) {i j : ℕ}
    (hi : i < ts.length) (hj : j < ts.length) {x : T} (hxi : x ∈ f ts[i]) (hxj : x ∈ f ts[j]) : i = j := by
  rw [List.nodup_flatMap] at h
  by_contra hij
  have hp := List.pairwise_iff_getElem.1 h.2
  rcases Nat.lt_or_gt_of_ne hij with hlt | hlt
  · exact hp i j hi hj hlt hxi hxj
  · exact hp j i hj hi hlt hxj hxi

theorem assigned (cov : T → T) (args res : List T) (nres : res.Nodup) (ncov : (args.map cov).Nodup)
    (c : T → ℝ) (ts : List (Transform T)) (hr : ∀ t ∈ ts, t.res ⊆ res ∧ t.res.Nodup)
    (ha : ∀ t ∈ ts, t.args ⊆ args ∧ (t.args.map cov).Nodup) (m0 : Storage ℝ)
    (hd : (ts.flatMap (·.res)).Nodup) :
    ∃ m, ts.foldlM (fun m t => assignElements [res, args.map cov] (t.sets cov) m (t.mat c)) m0 = some m ∧
      (∀ r ∈ res, ∀ a ∈ args.map cov,
        (∀ t ∈ ts, ¬ (r ∈ t.res ∧ a ∈ t.args.map cov)) → get [res, args.map cov] m [r, a] = get [res, args.map cov] m0 [r, a]) ∧
      ∀ t ∈ ts, ∀ r ∈ t.res, ∀ a ∈ t.args.map cov, get [res, args.map cov] m [r, a] = get (t.sets cov) (t.mat c) [r, a] := by
  induction ts generalizing m0 with
  | nil => exact ⟨m0, rfl, fun _ _ _ _ _ => rfl, by simp⟩
  | cons t ts ih =>
    have hr1 := hr t (by simp)
    have ha1 := ha t (by simp)
    obtain ⟨m1, e1, g1⟩ := c36_assign_elements [res, args.map cov] (t.sets cov) m0 (t.mat c)
      (by simp [nres, ncov]) (by simp [Transform.sets, hr1.2, ha1.2]) (by
        split
        · intro e he
          rw [Transform.sets, valid2] at he
          obtain ⟨x, hx, y, hy, rfl⟩ := he
          exact (valid2 _ _ _).2 ⟨x, hr1.1 hx, y, (List.map_subset _ ha1.1) hy, rfl⟩
        · next h =>
          intro e he
          exact sub_of_size hr1.2 ha1.2 hr1.1 (List.map_subset _ ha1.1) h e he)
    rw [List.flatMap_cons, List.nodup_append] at hd
    obtain ⟨m2, e2, g2, g3⟩ := ih (fun t ht => hr t (by simp [ht])) (fun t ht => ha t (by simp [ht])) m1 hd.2.1
    refine ⟨m2, by simp [List.foldlM_cons, e1, e2], fun r hr' a ha' h => ?_, fun t' ht' r hr' a ha' => ?_⟩
    · rw [g2 r hr' a ha' (fun t ht => h t (by simp [ht])), g1 _ ((valid2 _ _ _).2 ⟨r, hr', a, ha', rfl⟩), if_neg]
      rw [Transform.sets, valid2]
      rintro ⟨x, hx, y, hy, hxy⟩
      simp only [List.cons.injEq, and_true] at hxy
      exact h t (by simp) ⟨hxy.1 ▸ hx, hxy.2 ▸ hy⟩
    · rcases List.mem_cons.1 ht' with rfl | ht''
      · have hra := hr1.1 hr'
        have haa := (List.map_subset cov ha1.1) ha'
        rw [g2 r hra a haa, g1 _ ((valid2 _ _ _).2 ⟨r, hra, a, haa, rfl⟩), if_pos]
        · rw [Transform.sets, valid2]; exact ⟨r, hr', a, ha', rfl⟩
        · rintro t ht ⟨h1, _⟩
          exact hd.2.2 r hr' r (List.mem_flatMap.2 ⟨t, ht, h1⟩) rfl
      · exact g3 t' ht'' r hr' a ha'

/-- C62: `jacobian_matrix` exists for every combination of transforms over different dimensions, in whatever order the tags
of the argument and of the result are listed; it contains the Jacobian matrix of every transform, and zero between the
dimensions of different transforms. -/
theorem c62_jacobian_matrix (cov : T → T) (args res : List T) (ts : List (Transform T)) (c : T → ℝ)
    (h : Combined cov args res ts) :
    ∃ m, jacobianMatrix cov args res ts c = some m ∧
      (∀ t ∈ ts, ∀ r ∈ t.res, ∀ a ∈ t.args,
        get [res, args.map cov] m [r, cov a] = get (t.sets cov) (t.mat c) [r, cov a]) ∧
      (∀ i j (hi : i < ts.length) (hj : j < ts.length), i ≠ j → ∀ r ∈ ts[i].res, ∀ a ∈ ts[j].args,
        get [res, args.map cov] m [r, cov a] = 0) := by
  have sub_r : ∀ t ∈ ts, t.res ⊆ res := fun t ht x hx => h.hres.mem_iff.2 (List.mem_flatMap.2 ⟨t, ht, hx⟩)
  have sub_a : ∀ t ∈ ts, t.args ⊆ args := fun t ht x hx => h.hargs.mem_iff.2 (List.mem_flatMap.2 ⟨t, ht, hx⟩)
  have nr := h.hres.nodup_iff.1 h.nres
  have na := h.hargs.nodup_iff.1 h.nargs
  have nr' : ∀ t ∈ ts, t.res.Nodup := (List.nodup_flatMap.1 nr).1
  have na' : ∀ t ∈ ts, t.args.Nodup := (List.nodup_flatMap.1 na).1
  have nc : ∀ t ∈ ts, (t.args.map cov).Nodup := fun t ht =>
    List.Nodup.map_on (fun x hx y hy e => h.hcov x (sub_a t ht hx) y (sub_a t ht hy) e) (na' t ht)
  obtain ⟨m, e, g0, g1⟩ := assigned cov args res h.nres h.ncov c ts (fun t ht => ⟨sub_r t ht, nr' t ht⟩)
    (fun t ht => ⟨sub_a t ht, nc t ht⟩) (fun _ => 0) nr
  refine ⟨m, e, fun t ht r hr a ha => g1 t ht r hr _ (List.mem_map_of_mem ha), ?_⟩
  intro i j hi hj hij r hr a ha
  have haa := sub_a _ (List.getElem_mem hj) ha
  rw [g0 r (sub_r _ (List.getElem_mem hi) hr) _ (List.mem_map_of_mem haa)]
  · rfl
  · rintro t ht ⟨h1, h2⟩
    obtain ⟨k, hk, rfl⟩ := List.getElem_of_mem ht
    have e1 : k = i := mem_flatMap_unique nr hk hi h1 hr
    obtain ⟨a', ha', hcov⟩ := List.mem_map.1 h2
    have e2 : a' = a := h.hcov a' (sub_a _ (List.getElem_mem hk) ha') a haa hcov
    subst e2
    exact hij (e1 ▸ mem_flatMap_unique na hk hj ha' ha)

theorem det_blocks (ts : List (Transform T)) (M : T → T → ℝ) (hlen : ∀ t ∈ ts, t.res.length = t.args.length)
    (h : (ts.flatMap (·.res)).length = (ts.flatMap (·.args)).length)
    (hz : ∀ i j (hi : i < ts.length) (hj : j < ts.length), i ≠ j → ∀ r ∈ ts[i].res, ∀ a ∈ ts[j].args, M r a = 0)
    (d : Transform T → ℝ) (hd : ∀ t (ht : t ∈ ts), detOf t.res t.args (hlen t ht) M = d t) :
    detOf (ts.flatMap (·.res)) (ts.flatMap (·.args)) h M = (ts.map d).prod := by
  induction ts with
  | nil => exact Matrix.det_fin_zero
  | cons t ts ih =>
    have h2 : (ts.flatMap (·.res)).length = (ts.flatMap (·.args)).length := by
      have := hlen t (by simp)
      simp only [List.flatMap_cons, List.length_append] at h
      omega
    have := detOf_append (hlen t (by simp)) h2 (by simpa using h) M (by
      intro r hr a ha
      obtain ⟨t', ht', hr'⟩ := List.mem_flatMap.1 hr
      obtain ⟨k, hk, rfl⟩ := List.getElem_of_mem ht'
      exact hz (k + 1) 0 (by simpa using hk) (by simp) (by simp) r (by simpa using hr') a (by simpa using ha))
    simp only [List.flatMap_cons, List.map_cons, List.prod_cons]
    rw [this, hd t (by simp), ih (fun t ht => hlen t (by simp [ht])) h2 (fun i j hi hj hij r hr a ha =>
      hz (i + 1) (j + 1) (by simpa using hi) (by simpa using hj) (by simpa using hij) r (by simpa using hr) a (by simpa using ha))
      (fun t ht => hd t (by simp [ht]))]

theorem cat_flatMap (ts : List (Transform T)) (h2 : 2 ≤ ts.length) :
    cat (ts.map (·.res)) = some (ts.flatMap (·.res)) := by
  match ts, h2 with
  | a :: b :: rest, _ =>
    have := c56_cat a.res b.res (rest.map (·.res))
    simpa [List.flatMap] using this

/-- C62: `jacobian` is the determinant of `jacobian_matrix` up to the parity of the order in which the tags of the
*argument* are listed: that parity is not taken into account by the code. -/
theorem c62_jacobian (cov : T → T) (args res : List T) (ts : List (Transform T)) (c : T → ℝ)
    (h : Combined cov args res ts) (h2 : 2 ≤ ts.length) (hlen : ∀ t ∈ ts, t.res.length = t.args.length)
    (hl : res.length = args.length)
    (hjac : ∀ t (ht : t ∈ ts), t.jac c =
      detOf t.res t.args (hlen t ht) (fun r a => get (t.sets cov) (t.mat c) [r, cov a])) :
    ∃ m J, jacobianMatrix cov args res ts c = some m ∧ jacobian res ts c = some J ∧
      ∃ v : ℤ, parity args (ts.flatMap (·.args)) = some v ∧ (v = 1 ∨ v = -1) ∧
        J = v * detOf res args hl (fun r a => get [res, args.map cov] m [r, cov a]) := by
  obtain ⟨m, em, hb, hz⟩ := c62_jacobian_matrix cov args res ts c h
  set M : T → T → ℝ := fun r a => get [res, args.map cov] m [r, cov a] with hM
  have hlen2 : (ts.flatMap (·.res)).length = (ts.flatMap (·.args)).length := by
    rw [← h.hres.length_eq, ← h.hargs.length_eq, hl]
  have hmid : (ts.flatMap (·.res)).length = args.length := by rw [hlen2, h.hargs.length_eq]
  have hdet := det_blocks ts M hlen hlen2 hz (fun t => t.jac c) (fun t ht => by
    rw [hjac t ht]
    exact detOf_congr _ (fun r hr a ha => hb t ht r hr a ha))
  obtain ⟨v, hv, hv1, hvd⟩ := detOf_cols_perm h.hargs (h.hargs.nodup_iff.1 h.nargs) hlen2 hmid M
  obtain ⟨w, hw, hw1, hwd⟩ := detOf_rows_perm h.hres (h.hres.nodup_iff.1 h.nres) hmid hl M
  refine ⟨m, (ts.map fun t => t.jac c).prod * (w : ℝ), em, ?_, v, hv, hv1, ?_⟩
  · simp [jacobian, cat_flatMap ts h2, hw]
  · rw [hwd, hvd, hdet]
    rcases hv1 with rfl | rfl <;> push_cast <;> ring

/-- C62: when the tags of the argument are listed in the order of the transforms, `jacobian` is the determinant of
`jacobian_matrix`. -/
theorem c62_jacobian_aligned (cov : T → T) (res : List T) (ts : List (Transform T)) (c : T → ℝ)
    (h : Combined cov (ts.flatMap (·.args)) res ts) (h2 : 2 ≤ ts.length) (hlen : ∀ t ∈ ts, t.res.length = t.args.length)
    (hl : res.length = (ts.flatMap (·.args)).length)
    (hjac : ∀ t (ht : t ∈ ts), t.jac c =
      detOf t.res t.args (hlen t ht) (fun r a => get (t.sets cov) (t.mat c) [r, cov a])) :
    ∃ m, jacobianMatrix cov (ts.flatMap (·.args)) res ts c = some m ∧ jacobian res ts c =
      some (detOf res (ts.flatMap (·.args)) hl (fun r a => get [res, (ts.flatMap (·.args)).map cov] m [r, cov a])) := by
  obtain ⟨m, J, h1, h3, v, hv, _, hJ⟩ := c62_jacobian cov _ res ts c h h2 hlen hl hjac
  have : parity (ts.flatMap (·.args)) (ts.flatMap (·.args)) = some 1 := by
    have := c38_sign (ts.flatMap (·.args)).get (List.nodup_iff_injective_get.1 h.nargs) 1
    have e : List.ofFn (ts.flatMap (·.args)).get = ts.flatMap (·.args) := List.ofFn_get _
    rw [Equiv.Perm.coe_one, Function.comp_id, e] at this
    simpa using this
  rw [this] at hv
  cases hv
  exact ⟨m, h1, by rw [h3, hJ]; simp⟩

/-- C62: it is the opposite of the determinant as soon as the tags of the argument are an odd rearrangement of those of the
transforms (and the determinant is not zero). -/
theorem c62_jacobian_wrong_sign (cov : T → T) (args res : List T) (ts : List (Transform T)) (c : T → ℝ)
    (h : Combined cov args res ts) (h2 : 2 ≤ ts.length) (hlen : ∀ t ∈ ts, t.res.length = t.args.length)
    (hl : res.length = args.length)
    (hjac : ∀ t (ht : t ∈ ts), t.jac c =
      detOf t.res t.args (hlen t ht) (fun r a => get (t.sets cov) (t.mat c) [r, cov a]))
    (hodd : parity args (ts.flatMap (·.args)) = some (-1)) :
    ∃ m, jacobianMatrix cov args res ts c = some m ∧ jacobian res ts c =
      some (-detOf res args hl (fun r a => get [res, args.map cov] m [r, cov a])) := by
  obtain ⟨m, J, h1, h3, v, hv, _, hJ⟩ := c62_jacobian cov args res ts c h h2 hlen hl hjac
  rw [hodd] at hv
  cases hv
  exact ⟨m, h1, by rw [h3, hJ]; simp⟩

/-- The dimensions of the examples: a Cartesian pair mapped to another one. -/
inductive Tag | x | y | x2 | y2
  deriving DecidableEq

/-- Two independent linear transforms `x ↦ x2` and `y ↦ y2`. -/
def exTs : List (Transform Tag) := [linear .x .x2 0 0 2, linear .y .y2 0 1 3]

theorem exCombined (args res : List Tag) (ha : args.Perm [.x, .y]) (hr : res.Perm [.x2, .y2]) : Combined id args res exTs where
  hargs := ha
  hres := hr
  nargs := ha.nodup_iff.2 (by decide)
  nres := hr.nodup_iff.2 (by decide)
  ncov := by rw [List.map_id]; exact ha.nodup_iff.2 (by decide)
  hcov := fun _ _ _ _ e => e

theorem exJac (t : Transform Tag) (ht : t ∈ exTs) (c : Tag → ℝ) (h : t.res.length = t.args.length) : t.jac c =
    detOf t.res t.args h (fun r a => get (t.sets id) (t.mat c) [r, id a]) := by
  simp only [exTs, List.mem_cons, List.not_mem_nil, or_false] at ht
  rcases ht with rfl | rfl
  · have : Unique (Fin (linear Tag.x Tag.x2 0 0 2).res.length) := inferInstanceAs (Unique (Fin 1))
    simp [detOf, linear, Matrix.det_unique, Tensor.get]
    rfl
  · have : Unique (Fin (linear Tag.y Tag.y2 0 1 3).res.length) := inferInstanceAs (Unique (Fin 1))
    simp [detOf, linear, Matrix.det_unique, Tensor.get]
    rfl

/-- C62, a case in which the sign is right: argument `(x, y)`, result `(y2, x2)`. -/
example (c : Tag → ℝ) : ∃ m, jacobianMatrix id [.x, .y] [.y2, .x2] exTs c = some m ∧ jacobian [.y2, .x2] exTs c =
    some (detOf [Tag.y2, .x2] [Tag.x, .y] rfl (fun r a => get [[Tag.y2, .x2], [Tag.x, .y]] m [r, a])) :=
  by
  have := c62_jacobian_aligned id [Tag.y2, .x2] exTs c (exCombined _ _ (List.Perm.refl _) (List.Perm.swap _ _ _)) (by decide)
    (fun t ht => by simp only [exTs, List.mem_cons, List.not_mem_nil, or_false] at ht; rcases ht with rfl | rfl <;> rfl) rfl
    (fun t ht => exJac t ht c _)
  exact this

/-- C62, a case in which the sign is wrong: argument `(y, x)`, result `(x2, y2)`: `jacobian` is 6 and the determinant is -6. -/
theorem c62_jacobian_wrong_sign_witness (c : Tag → ℝ) :
    jacobian [.x2, .y2] exTs c = some 6 ∧
    ∃ m, jacobianMatrix id [.y, .x] [.x2, .y2] exTs c = some m ∧
      detOf [Tag.x2, .y2] [Tag.y, .x] rfl (fun r a => get [[Tag.x2, .y2], [Tag.y, .x]] m [r, a]) = -6 := by
  have hp : parity [Tag.x2, Tag.y2] [Tag.x2, Tag.y2] = some 1 := by decide +kernel
  have hJ : jacobian [.x2, .y2] exTs c = some 6 := by
    have hcat : cat (exTs.map (·.res)) = some [Tag.x2, Tag.y2] := cat_flatMap exTs (by decide)
    rw [jacobian, hcat, Option.bind_some, hp]
    simp [exTs, linear]
    norm_num
  refine ⟨hJ, ?_⟩
  obtain ⟨m, h1, h3⟩ := c62_jacobian_wrong_sign id [.y, .x] [.x2, .y2] exTs c
    (exCombined _ _ (List.Perm.swap _ _ _) (List.Perm.refl _)) (by decide)
    (fun t ht => by simp only [exTs, List.mem_cons, List.not_mem_nil, or_false] at ht; rcases ht with rfl | rfl <;> rfl) rfl
    (fun t ht => exJac t ht c _) (by
      have : parity [Tag.y, Tag.x] [Tag.x, Tag.y] = some (-1) := by decide +kernel
      exact this)
  refine ⟨m, h1, ?_⟩
  rw [hJ, Option.some.injEq] at h3
  have h4 : detOf [Tag.x2, .y2] [Tag.y, .x] rfl (fun r a => get [[Tag.x2, .y2], [Tag.y, .x]] m [r, a]) =
    detOf [Tag.x2, .y2] [Tag.y, .x] rfl (fun r a => get [[Tag.x2, .y2], [Tag.y, .x].map id] m [r, id a]) := rfl
  rw [h4]
  linarith

/-! ### Application, components, inverse -/

/-- C62: every coordinate of the result is that of the transform it belongs to. -/
theorem c62_apply (ts : List (Transform T)) (c : T → ℝ) (hd : (ts.flatMap (·.res)).Nodup) (t : Transform T) (ht : t ∈ ts)
    (tag : T) (htag : tag ∈ t.res) : apply ts c tag = some (t.op c tag) := by
  unfold apply
  cases hf : ts.find? fun t => decide (tag ∈ t.res) with
  | none => exact absurd htag (by simpa using List.find?_eq_none.1 hf t ht)
  | some t' =>
    have h1 : tag ∈ t'.res := by simpa using List.find?_some hf
    obtain ⟨i, hi, e1⟩ := List.getElem_of_mem ht
    obtain ⟨j, hj, e2⟩ := List.getElem_of_mem (List.mem_of_find?_eq_some hf)
    have hij : i = j := mem_flatMap_unique hd hi hj (by rw [e1]; exact htag) (by rw [e2]; exact h1)
    subst hij
    rw [← e1, ← e2]; rfl

/-- C62: applied to the coordinate of one transform, the result is that of this transform. -/
theorem c62_apply_part (ts : List (Transform T)) (c : T → ℝ) (hd : (ts.flatMap (·.args)).Nodup) (t : Transform T) (ht : t ∈ ts)
    (hne : t.args ≠ []) : applyPart ts t.args c = some (t.op c) := by
  unfold applyPart findByArgs
  cases hf : ts.find? fun t' => decide (t'.args = t.args) with
  | none => exact absurd (rfl : t.args = t.args) (by have := List.find?_eq_none.1 hf t ht; simp at this)
  | some t' =>
    have h1 : t'.args = t.args := by simpa using List.find?_some hf
    obtain ⟨a, ha⟩ := List.exists_mem_of_ne_nil _ hne
    obtain ⟨i, hi, e1⟩ := List.getElem_of_mem ht
    obtain ⟨j, hj, e2⟩ := List.getElem_of_mem (List.mem_of_find?_eq_some hf)
    have hij : i = j := mem_flatMap_unique hd hi hj (by rw [e1]; exact ha) (by rw [e2, h1]; exact ha)
    subst hij
    rw [← e1, ← e2]; rfl

/-- C62: for Cartesian argument dimensions `jacobian_component` is the component of the matrix: that of the transform, or
zero between different transforms. -/
theorem c62_component_cartesian (args res : List T) (ts : List (Transform T)) (c : T → ℝ) (h : Combined id args res ts)
    (i j : ℕ) (hi : i < ts.length) (hj : j < ts.length) (r a : T) (hr : r ∈ ts[i].res) (ha : a ∈ ts[j].args) :
    jacobianComponent id args res ts c r a = some (if i = j then ts[i].comp c r a else 0) := by
  have nr := h.hres.nodup_iff.1 h.nres
  have na := h.hargs.nodup_iff.1 h.nargs
  have hra : r ∈ res := h.hres.mem_iff.2 (List.mem_flatMap.2 ⟨_, List.getElem_mem hi, hr⟩)
  have haa : a ∈ args := h.hargs.mem_iff.2 (List.mem_flatMap.2 ⟨_, List.getElem_mem hj, ha⟩)
  have hfind : (ts.find? fun t => decide (a ∈ t.args)) = some ts[j] := by
    cases hf : ts.find? fun t => decide (a ∈ t.args) with
    | none => exact absurd ha (by simpa using List.find?_eq_none.1 hf _ (List.getElem_mem hj))
    | some t' =>
      have h1 : a ∈ t'.args := by simpa using List.find?_some hf
      obtain ⟨k, hk, e2⟩ := List.getElem_of_mem (List.mem_of_find?_eq_some hf)
      have : j = k := mem_flatMap_unique na hj hk ha (by rw [e2]; exact h1)
      subst this
      rw [e2]
  unfold jacobianComponent
  rw [if_pos ⟨hra, by simpa using haa⟩, hfind]
  by_cases hij : i = j
  · subst hij; simp [hr]
  · have : r ∉ ts[j].res := fun hh => hij (mem_flatMap_unique nr hi hj hr hh)
    simp [hij, this]

example (c : Tag → ℝ) : jacobianComponent id [.y, .x] [.x2, .y2] exTs c .y2 .y = some 3 ∧
    jacobianComponent id [.y, .x] [.x2, .y2] exTs c .y2 .x = some 0 := by
  have hc := exCombined [.y, .x] [.x2, .y2] (List.Perm.swap _ _ _) (List.Perm.refl _)
  exact ⟨c62_component_cartesian _ _ exTs c hc 1 1 (by decide) (by decide) .y2 .y (by simp [exTs, linear]) (by simp [exTs, linear]),
    c62_component_cartesian _ _ exTs c hc 1 0 (by decide) (by decide) .y2 .x (by simp [exTs, linear]) (by simp [exTs, linear])⟩

/-- C62: for a curvilinear argument dimension (whose covariant tag is a different tag) no component can be computed: the
covariant tag is searched among the contravariant tags of the transforms and the call does not compile. -/
theorem c62_component_curvilinear (cov : T → T) (args res : List T) (ts : List (Transform T)) (c : T → ℝ) (r a : T)
    (h : ∀ t ∈ ts, cov a ∉ t.args) : jacobianComponent cov args res ts c r (cov a) = none := by
  unfold jacobianComponent
  have : (ts.find? fun t => decide (cov a ∈ t.args)) = none := by
    rw [List.find?_eq_none]; simpa using h
  rw [this]; simp

example (c : ℕ → ℝ) : jacobianComponent (· + 10) [1, 2] [3, 4] [linear 1 3 0 0 2, linear 2 4 0 0 2] c 3 11 = none :=
  c62_component_curvilinear (· + 10) [1, 2] [3, 4] _ c 3 1 (by simp [linear])

/-- C62: the inverse mapping undoes the mapping: if `inv t` inverts each transform, the inverse of the combination applied to
the result gives back every argument coordinate. `read` is the coordinate holding the results. -/
theorem c62_inverse (inv : Transform T → Transform T) (ts : List (Transform T)) (c read : T → ℝ)
    (hd : (ts.flatMap (·.args)).Nodup)
    (hres : ∀ t ∈ ts, (inv t).res = t.args)
    (hinv : ∀ t ∈ ts, (∀ r ∈ t.res, read r = t.op c r) → ∀ a ∈ t.args, (inv t).op read a = c a)
    (hdr : (ts.flatMap (·.res)).Nodup)
    (hread : ∀ r v, apply ts c r = some v → read r = v) (t : Transform T) (ht : t ∈ ts) (a : T) (ha : a ∈ t.args) :
    apply (inverse inv ts) read a = some (c a) := by
  have hd' : ((inverse inv ts).flatMap (·.res)).Nodup := by
    have : (inverse inv ts).flatMap (·.res) = ts.flatMap (·.args) := by
      rw [inverse, List.flatMap_map]
      exact List.flatMap_congr hres
    rw [this]; exact hd
  rw [c62_apply (inverse inv ts) read hd' (inv t) (List.mem_map_of_mem ht) a (by rw [hres t ht]; exact ha)]
  rw [hinv t ht (fun r hr => hread r _ (c62_apply ts c hdr t ht r hr)) a ha]

/-! ### Identity change of coordinates -/

/-- C62: the identity change copies the coordinates position by position, and its inverse copies them back. -/
theorem c62_identity_apply (args res : List T) (hl : args.length = res.length) (hr : res.Nodup) (ha : args.Nodup) (c : T → ℝ) :
    (∀ i (hi : i < res.length), identityOp args res c res[i] = some (c (args[i]'(hl ▸ hi)))) ∧
    ∀ d : T → ℝ, (∀ r v, identityOp args res c r = some v → d r = v) →
      ∀ a ∈ args, identityOp res args d a = some (c a) := by
  have h1 : ∀ i (hi : i < res.length), identityOp args res c res[i] = some (c (args[i]'(hl ▸ hi))) := by
    intro i hi
    have : i < args.length := hl ▸ hi
    simp [identityOp, hr.idxOf_getElem i hi, List.getElem?_eq_getElem this]
  refine ⟨h1, fun d hd a ham => ?_⟩
  obtain ⟨i, hi, rfl⟩ := List.getElem_of_mem ham
  have hi' : i < res.length := hl ▸ hi
  simp [identityOp, ha.idxOf_getElem i hi, List.getElem?_eq_getElem hi', hd _ _ (h1 i hi')]

/-- C62: the Jacobian matrix of the identity change has ones between tags of the same position and zeros elsewhere, as
`jacobian_component` says. -/
theorem c62_identity_matrix (cov : T → T) (args res : List T) (hl : args.length = res.length) (hr : res.Nodup)
    (hc : (args.map cov).Nodup) (i j : ℕ) (hi : i < res.length) (hj : j < args.length) :
    get [res, args.map cov] (identityMat cov args res) [res[i], cov args[j]] = (if i = j then 1 else 0) ∧
    identityComp cov args res res[i] (cov args[j]) = if i = j then 1 else 0 := by
  have key : ∀ (l : List (T × T)) (m0 : Storage ℝ), (∀ p ∈ l, p.1 ∈ res ∧ p.2 ∈ args.map cov) →
      get [res, args.map cov] (l.foldl (fun m p => Tensor.set [res, args.map cov] m [p.1, p.2] 1) m0) [res[i], cov args[j]] =
        if (res[i], cov args[j]) ∈ l then 1 else get [res, args.map cov] m0 [res[i], cov args[j]] := by
    intro l
    induction l with
    | nil => simp
    | cons p l ih =>
      intro m0 hp
      have hp1 := hp p (by simp)
      rw [List.foldl_cons, ih _ (fun q hq => hp q (by simp [hq]))]
      have hgs := c36_get_set [res, args.map cov] m0 [p.1, p.2] [res[i], cov args[j]] 1
        ((valid2 _ _ _).2 ⟨p.1, hp1.1, p.2, hp1.2, rfl⟩)
        ((valid2 _ _ _).2 ⟨_, List.getElem_mem _, _, List.mem_map_of_mem (List.getElem_mem _), rfl⟩)
      rw [hgs]
      by_cases h1 : (res[i], cov args[j]) = p
      · subst h1; simp
      · have h2 : ¬ ([res[i], cov args[j]] = [p.1, p.2]) := by
          intro hh
          simp only [List.cons.injEq, and_true] at hh
          exact h1 (Prod.ext hh.1 hh.2)
        simp [h1, h2]
  constructor
  · rw [identityMat, key _ _ (fun p hp => List.of_mem_zip hp)]
    have hmem : (res[i], cov args[j]) ∈ List.zip res (args.map cov) ↔ i = j := by
      constructor
      · intro hm
        obtain ⟨k, hk, hkk⟩ := List.getElem_of_mem hm
        simp only [List.getElem_zip, Prod.mk.injEq] at hkk
        have e1 := (List.Nodup.getElem_inj_iff hr).1 hkk.1
        have e2 : k = j := by
          have hj2 : j < (args.map cov).length := by simpa using hj
          have : (args.map cov)[k]'(by simp at hk ⊢; omega) = (args.map cov)[j] := by simpa using hkk.2
          exact (List.Nodup.getElem_inj_iff hc).1 this
        omega
      · rintro rfl
        have hk : i < (List.zip res (args.map cov)).length := by simp; omega
        have : (res[i], cov args[i]) = (List.zip res (args.map cov))[i] := by simp
        rw [this]; exact List.getElem_mem _
    simp [hmem, Tensor.get]
  · have h2 : (args.map cov).idxOf (cov args[j]) = j := by
      have hj2 : j < (args.map cov).length := by simpa using hj
      have := hc.idxOf_getElem j hj2
      simpa using this
    rw [identityComp, hr.idxOf_getElem i hi, h2]

example : get [[5, 6], [11, 12]] (identityMat (· + 10) [1, 2] [5, 6]) [6, 12] = 1 :=
  (c62_identity_matrix (· + 10) [1, 2] [5, 6] rfl (by decide) (by decide) 1 1 (by decide) (by decide)).1

/-- C62: the identity can be one of the combined transforms: the Jacobian 1 that it declares is the determinant of the matrix that it fills, and its components are those of the matrix. -/
theorem c62_identity_transform (cov : T → T) (args res : List T) (hl : args.length = res.length) (hr : res.Nodup) (hc : (args.map cov).Nodup) (c : T → ℝ) :
    (identity cov args res).jac c = detOf res args hl.symm (fun r a => get ((identity cov args res).sets cov) ((identity cov args res).mat c) [r, cov a]) ∧
    (∀ r ∈ res, ∀ a ∈ args, (identity cov args res).comp c r (cov a) = get ((identity cov args res).sets cov) ((identity cov args res).mat c) [r, cov a]) ∧
    ∀ i (hi : i < res.length), (identity cov args res).op c res[i] = c (args[i]'(hl ▸ hi)) := by
  refine ⟨?_, ?_, ?_⟩
  · have : (Matrix.of fun i j : Fin res.length => get ((identity cov args res).sets cov) ((identity cov args res).mat c) [res[i], cov (args[j.val]'(hl.symm ▸ j.isLt))]) = 1 := by
      ext i j
      have := (c62_identity_matrix cov args res hl hr hc i j i.isLt (by omega)).1
      rw [Matrix.one_apply, Matrix.of_apply]
      simp only [Fin.ext_iff]
      exact this
    unfold detOf
    rw [this, Matrix.det_one]
    rfl
  · intro r hr' a ha
    obtain ⟨i, hi, rfl⟩ := List.mem_iff_getElem.1 hr'
    obtain ⟨j, hj, rfl⟩ := List.mem_iff_getElem.1 ha
    have := c62_identity_matrix cov args res hl hr hc i j hi hj
    exact this.2.trans this.1.symm
  · intro i hi
    have h1 : args[i]? = some (args[i]'(hl ▸ hi)) := List.getElem?_eq_getElem _
    simp [identity, identityOp, hr.idxOf_getElem i hi, h1]

example : (identity (· + 10) [1, 2] [5, 6]).jac (fun _ : ℕ => 3) = 1 ∧ (identity (· + 10) [1, 2] [5, 6]).op (fun n : ℕ => (n : ℝ)) 6 = ((2 : ℕ) : ℝ) :=
  ⟨rfl, (c62_identity_transform (· + 10) [1, 2] [5, 6] rfl (by decide) (by decide) (fun n : ℕ => (n : ℝ))).2.2 1 (by decide)⟩

end Verif.OrthoTransforms
