import Verif.Lemmas.GroupClusters

/-! # Properties: grouping clusters by geometry (C61) -/

namespace ED.Props

open ED.Geometry

/-- Each element is counted for one representative. -/
private theorem sum_sizes {α β : Type} (R : α → β → Prop) [∀ a b, Decidable (R a b)] (D : List α) (O : List β)
    (h : ∀ o ∈ O, D.countP (fun d => decide (R d o)) = 1) :
    (D.map fun d => O.countP fun o => decide (R d o)).sum = O.length := by
  induction O with
  | nil => simp
  | cons o O ih =>
    have e : (D.map fun d => (o :: O).countP fun o => decide (R d o)).sum =
        (D.map fun d => O.countP fun o => decide (R d o)).sum + D.countP fun d => decide (R d o) := by
      clear h ih
      induction D with
      | nil => simp
      | cons d D ih =>
        simp only [List.map_cons, List.sum_cons, List.countP_cons] at ih ⊢
        rw [ih]
        omega
    rw [e, ih fun o ho => h o (List.mem_cons_of_mem _ ho), h o (List.mem_cons_self ..), List.length_cons]

private theorem count_one {α : Type} {R : α → Prop} [DecidablePred R] {D : List α}
    (hp : D.Pairwise fun a b => ¬ (R a ∧ R b)) (hc : ∃ d ∈ D, R d) : D.countP (fun d => decide (R d)) = 1 := by
  induction D with
  | nil => obtain ⟨d, hd, -⟩ := hc; exact absurd hd (by simp)
  | cons d D ih =>
    rw [List.pairwise_cons] at hp
    rw [List.countP_cons]
    by_cases hd : R d
    · have : D.countP (fun d => decide (R d)) = 0 := by
        rw [List.countP_eq_zero]
        intro b hb
        have := hp.1 b hb
        simpa using fun h => this ⟨hd, h⟩
      rw [this]
      simp [hd]
    · obtain ⟨e, he, hr⟩ := hc
      rcases List.mem_cons.1 he with rfl | he
      · exact absurd hr hd
      · rw [ih hp.2 ⟨e, he, hr⟩]
        simp [hd]

open Classical in
/-- C61. Lists of clusters with sorted sites, one list per order. For each order the representatives are some of
its clusters, not equal to each other up to the symmetries and translations; each cluster of the order is equal
up to these to a representative; the multiplicities are the sizes of the groups and add up to the number of
clusters. The matrix has a one where the cluster belongs to the representative and zeros elsewhere; each column
has exactly one one. -/
theorem C61_grouping_partial {orders : List (List Geometry)} {Ls : List (List (List (ℤ × ℤ)))}
    (hL : List.Forall₂ (List.Forall₂ IsCluster) orders Ls) (hne : orders ≠ []) (sym : Bool) :
    ∃ distinct mult C, reduceByGeometry orders sym = .ok (distinct, mult, C) ∧
      distinct.length = orders.length ∧ mult.length = orders.length ∧
      C.rows = distinct.flatten.length ∧ C.cols = orders.flatten.length ∧
      (∀ k (hk : k < Ls.length) (hd : k < distinct.length) (hm : k < mult.length), ∃ reps,
        List.Forall₂ IsCluster distinct[k] reps ∧ reps.Sublist Ls[k] ∧
        (reps.Pairwise fun a b => ¬ Equivalent sym a.toFinset b.toFinset) ∧
        (∀ o ∈ Ls[k], ∃ d ∈ reps, Equivalent sym d.toFinset o.toFinset) ∧
        mult[k] = reps.map (fun d => Ls[k].countP fun o => decide (Equivalent sym d.toFinset o.toFinset)) ∧
        mult[k].sum = Ls[k].length) ∧
      (∀ k (hk : k < distinct.length) a (ha : a < distinct[k].length) m (hm : m < orders.length) b
        (hb : b < orders[m].length), ∀ d o, distinct[k][a].HasSites d → orders[m][b].HasSites o →
        C.e (startOf distinct k + a) (startOf orders m + b) =
          if k = m ∧ Equivalent sym d.toFinset o.toFinset then 1 else 0) ∧
      ∀ j < C.cols, ∃! i, i < C.rows ∧ C.e i j = 1 := by
  obtain ⟨st, Ds, Cs, h1, h2⟩ := reduceByGeometry_ok (sym := sym) hL hne
  have hO : orders.length = Ls.length := hL.length_eq
  have hDl : st.1.length = Ds.length := h2.geoms.length_eq
  have eO : ∀ m, startOf orders m = startOf Ls m := by
    intro m
    unfold startOf
    rw [forall2_lengths hL]
  have eD : ∀ m, startOf st.1 m = startOf Ds m := by
    intro m
    unfold startOf
    rw [forall2_lengths h2.geoms]
  have hDn : ∀ k (hk : k < Ds.length) (hk' : k < st.1.length), st.1[k].length = Ds[k].length := fun k hk hk' =>
    ((List.forall₂_iff_get.1 h2.geoms).2 k hk' hk).length_eq
  have hOn : ∀ k (hk : k < Ls.length) (hk' : k < orders.length), orders[k].length = Ls[k].length :=
    fun k hk hk' => ((List.forall₂_iff_get.1 hL).2 k hk' hk).length_eq
  have hfl : Ds.flatten.length = st.1.flatten.length := by
    rw [List.length_flatten, List.length_flatten, forall2_lengths h2.geoms]
  have hflO : Ls.flatten.length = orders.flatten.length := by
    rw [List.length_flatten, List.length_flatten, forall2_lengths hL]
  have cover : ∀ k (hk : k < Ls.length) (hd : k < Ds.length), ∀ o ∈ Ls[k], ∃ d ∈ Ds[k],
      Equivalent sym d.toFinset o.toFinset := by
    intro k hk hd o ho
    obtain ⟨c, -, a, ha, -, hae⟩ := forall2_left (h2.assigned k hk) ho
    exact ⟨_, List.getElem_mem ha, hae⟩
  refine ⟨_, _, _, h1, ?_, ?_, ?_, rfl, ?_, ?_, ?_⟩
  · rw [hDl, h2.lenD, hO]
  · rw [h2.lenM, hO]
  · rw [← hfl]
    exact h2.total
  · intro k hk hd hm
    have hk' : k < Ds.length := by rw [h2.lenD]; exact hk
    have hg := h2.grouped k hk
    refine ⟨Ds[k], (List.forall₂_iff_get.1 h2.geoms).2 k hd hk', hg.sublist, hg.distinct, cover k hk hk',
      hg.sizes, ?_⟩
    rw [hg.sizes]
    refine sum_sizes (fun d o : List (ℤ × ℤ) => Equivalent sym d.toFinset o.toFinset) _ _ ?_
    intro o ho
    refine count_one ?_ (cover k hk hk' o ho)
    refine hg.distinct.imp ?_
    rintro a b hab ⟨h3, h4⟩
    exact hab (h3.trans h4.symm)
  · intro k hk a ha m hm b hb d o hd ho
    have hk' : k < Ds.length := hDl ▸ hk
    have hm' : m < Ls.length := hO ▸ hm
    have ha' : a < Ds[k].length := by rw [← hDn k hk' hk]; exact ha
    have hb' : b < Ls[m].length := by rw [← hOn m hm' hm]; exact hb
    have e1 : d = Ds[k][a] := HasSites.unique hd
      ((List.forall₂_iff_get.1 ((List.forall₂_iff_get.1 h2.geoms).2 k hk hk')).2 a ha ha').2
    have e2 : o = Ls[m][b] := HasSites.unique ho
      ((List.forall₂_iff_get.1 ((List.forall₂_iff_get.1 hL).2 m hm hm')).2 b hb hb').2
    subst e1 e2
    simp only
    rw [eD, eO]
    have := h2.entry hk' ha' hm' hb'
    by_cases hc : k = m ∧ Equivalent sym Ds[k][a].toFinset Ls[m][b].toFinset
    · rw [if_pos (this.2 hc), if_pos hc]
    · rw [if_neg fun h => hc (this.1 h), if_neg hc]
  · intro j hj
    simp only at hj ⊢
    rw [← hflO] at hj
    obtain ⟨m, b, hm, hb, rfl⟩ := exists_startOf Ls hj
    have hmD : m < Ds.length := by rw [h2.lenD]; exact hm
    obtain ⟨d, hd, hde⟩ := cover m hm hmD _ (List.getElem_mem hb)
    obtain ⟨a, ha, rfl⟩ := List.mem_iff_getElem.1 hd
    have he := (h2.entry hmD ha hm hb).2 ⟨rfl, hde⟩
    refine ⟨startOf Ds m + a, ⟨?_, by rw [if_pos he]⟩, ?_⟩
    · rw [h2.total, ← startOf_length]
      have h3 := startOf_succ Ds hmD
      have h4 := startOf_mono Ds (k := m + 1) (m := Ds.length) hmD le_rfl
      omega
    · rintro i ⟨-, hi⟩
      by_cases hc : st.2.2.1[startOf Ls m + b]? = some i
      · rw [he] at hc
        exact (Option.some.inj hc).symm
      · rw [if_neg hc] at hi
        exact absurd hi (by norm_num)

/-- Clusters whose sites are not in the same order are not recognised: two horizontal pairs of neighbours, listed
from the left and from the right, are grouped separately. -/
theorem C61_unsorted_violated {g h : Geometry} (hg : g.HasSites [(0, 0), (1, 0)]) (hh : h.HasSites [(1, 0), (0, 0)]) :
    ∃ C, reduceByGeometry [[g, h]] false = .ok ([[g, h]], [[1, 1]], C) := by
  have e : g.isequalAdjacency h = .ok false ∧ h.isequalAdjacency g = .ok false := by
    constructor
    · rw [hg.isequalAdjacency hh]
      congr 1
      rw [decide_eq_false_iff_not]
      rintro ⟨v, hv⟩
      simp only [shift, List.map_cons, List.map_nil, List.cons.injEq, Prod.ext_iff, Prod.fst_add, Prod.snd_add] at hv
      omega
    · rw [hh.isequalAdjacency hg]
      congr 1
      rw [decide_eq_false_iff_not]
      rintro ⟨v, hv⟩
      simp only [shift, List.map_cons, List.map_nil, List.cons.injEq, Prod.ext_iff, Prod.fst_add, Prod.snd_add] at hv
      omega
  unfold reduceByGeometry
  simp only [List.isEmpty_cons, Bool.false_eq_true, if_false]
  simp [List.foldlM_cons, groupOrder, groupCluster, symmPartners, anyEqual, pyFilter, e.2, bind, Except.bind, pure,
    Except.pure]

/-- A horizontal and a vertical pair and a second horizontal one, with and without symmetry. -/
example : ∃ a b c : Geometry, a.IsCluster [(0, 0), (1, 0)] ∧ b.IsCluster [(0, 1), (0, 0)] ∧
    c.IsCluster [(3, 7), (4, 7)] ∧
    ∃ distinct mult C, reduceByGeometry [[a, b, c]] true = .ok (distinct, mult, C) ∧ mult = [[3]] := by
  have mk : ∀ l : List (ℤ × ℤ), Snake l → ∃ g : Geometry, g.IsCluster l := fun l hl =>
    ⟨_, hl, hasSites_iff.2 (SameData.refl _)⟩
  obtain ⟨a, ha⟩ := mk [(0, 0), (1, 0)] ⟨by decide, 0, by simp, by simp, by simp [siteKey]; decide⟩
  obtain ⟨b, hb⟩ := mk [(0, 1), (0, 0)] ⟨by decide, 1, by simp, by simp, by simp [siteKey]; decide⟩
  obtain ⟨c, hc⟩ := mk [(3, 7), (4, 7)] ⟨by decide, 7, by simp, by simp, by simp [siteKey]; decide⟩
  refine ⟨a, b, c, ha, hb, hc, ?_⟩
  obtain ⟨distinct, mult, C, h1, h2, h3, h4, h5, h6, -⟩ := C61_grouping_partial (orders := [[a, b, c]])
    (Ls := [[[(0, 0), (1, 0)], [(0, 1), (0, 0)], [(3, 7), (4, 7)]]])
    (.cons (.cons ha (.cons hb (.cons hc .nil))) .nil) (by simp) true
  refine ⟨distinct, mult, C, h1, ?_⟩
  obtain ⟨reps, r1, r2, r3, r4, r5, r6⟩ := h6 0 (by simp) (by simp [h2]) (by simp [h3])
  have hE : ∀ x ∈ [[((0 : ℤ), (0 : ℤ)), (1, 0)], [(0, 1), (0, 0)], [(3, 7), (4, 7)]],
      Equivalent true [((0 : ℤ), (0 : ℤ)), (1, 0)].toFinset x.toFinset := by
    intro x hx
    rw [equivalent_iff]
    simp only [List.mem_cons, List.not_mem_nil, or_false] at hx
    rcases hx with rfl | rfl | rfl
    · exact ⟨(false, false, false), (0, 0), by simp, by decide⟩
    · exact ⟨(true, false, false), (0, 0), by simp, by decide⟩
    · exact ⟨(false, false, false), (3, 7), by simp, by decide⟩
  have hlen : reps.length = 1 := by
    have hpos : reps ≠ [] := by
      rintro rfl
      obtain ⟨d, hd, -⟩ := r4 [(0, 0), (1, 0)] (by simp)
      exact absurd hd (by simp)
    match reps, hpos with
    | [d], _ => rfl
    | d :: e :: rest, _ =>
      exfalso
      rw [List.pairwise_cons] at r3
      exact r3.1 e (List.mem_cons_self ..) ((hE d (r2.subset (by simp))).symm.trans (hE e (r2.subset (by simp))))
  have hm0 : mult[0]'(by simp [h3]) = [3] := by
    match reps, hlen with
    | [d], _ =>
      rw [r5] at r6 ⊢
      simp only [List.map_cons, List.map_nil, List.sum_cons, List.sum_nil, add_zero] at r6 ⊢
      rw [r6]
      rfl
  match mult, h3 with
  | [m], _ => simpa using hm0

end ED.Props
