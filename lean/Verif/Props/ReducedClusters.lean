import Verif.Lemmas.ClusterFill

/-! # Properties: the matrix of reduced subclusters (C62) -/

namespace ED.Props

open ED.Geometry

/-- C62, `get_reduced_subclusters`. The parent is a cluster of the square lattice, connected or not. The
representatives are connected subsets of the parent, sorted by number of sites (`inds[n - 1] ≤ i < inds[n]` for `n`
sites); each connected subset is equal to exactly one of them up to translations and symmetries of the square. The
entry `(i, j)` of the matrix is the number of connected proper subsets of `S` which are equal to representative `j`
up to these, where `S` is any set equal to representative `i`. -/
theorem C62_reduced {parent : Geometry} {P : List (ℤ × ℤ)} (h : parent.HasSites P) (hP : P.Nodup) (hne : P ≠ []) :
    ∃ reps M inds, reducedSubclusters parent = .ok (reps, M, inds) ∧
      M.rows = reps.length ∧ M.cols = reps.length ∧
      (∀ i (hi : i < reps.length), ∃ l, reps[i].IsCluster l ∧ (∀ p ∈ l, p ∈ P) ∧
        ConnectedSites squareLattice l.toFinset ∧ inds.getD (l.length - 1) 0 ≤ i ∧ i < inds.getD l.length 0) ∧
      (∀ S : Finset (ℤ × ℤ), (∀ p ∈ S, p ∈ P) → ConnectedSites squareLattice S →
        ∃! i : ℕ, ∃ hi : i < reps.length, ∃ l, reps[i].HasSites l ∧ Equivalent true l.toFinset S) ∧
      ∀ i (hi : i < reps.length) j (hj : j < reps.length), ∀ l m, reps[i].HasSites l → reps[j].HasSites m →
        ∀ S, Equivalent true l.toFinset S → M.e i j = subsetCount true S m.toFinset := by
  obtain ⟨reps, M, inds, Ds, h1, h2⟩ := reducedSubclusters_ok (parent_cluster hP h) hne
  have hlen := h2.geoms.length_eq
  have get : ∀ i (hi : i < reps.length), reps[i].IsCluster (Ds.flatten[i]'(hlen ▸ hi)) := by
    intro i hi
    exact (List.forall₂_iff_get.1 h2.geoms).2 i hi (hlen ▸ hi)
  refine ⟨reps, M, inds, h1, h2.rows.trans hlen.symm, h2.cols.trans hlen.symm, ?_, ?_, ?_⟩
  · intro i hi
    have hi' : i < Ds.flatten.length := hlen ▸ hi
    obtain ⟨-, c, d⟩ := h2.elem (List.getElem_mem hi')
    refine ⟨_, get i hi, d, c, ?_⟩
    rw [h2.inds]
    obtain ⟨k, x, hk, hx, rfl⟩ := exists_startOf Ds hi'
    rw [flatten_startOf Ds hk hx]
    obtain ⟨-, e, -⟩ := h2.sound k hk _ (List.getElem_mem hx)
    have hs := startOf_succ Ds hk
    unfold startOf at *
    rw [e, startIndices_getD _ (by omega), startIndices_getD _ (by omega), Nat.add_sub_cancel, hs]
    omega
  · intro S hS hc
    obtain ⟨d, hd, he⟩ := h2.complete S hS hc
    obtain ⟨i, hi, rfl⟩ := List.mem_iff_getElem.1 hd
    refine ⟨i, ⟨hlen ▸ hi, _, (get i _).2, he⟩, ?_⟩
    rintro j ⟨hj, m, hm, hem⟩
    rw [HasSites.unique hm (get j hj).2] at hem
    exact h2.index_unique (hlen ▸ hj) hi (hem.trans he.symm)
  · intro i hi j hj l m hl hm S hS
    rw [h2.entry i (hlen ▸ hi) j (hlen ▸ hj), HasSites.unique hl (get i hi).2] at *
    rw [HasSites.unique hm (get j hj).2, subsetCount_congr hS (Equivalent.refl true _)]

/-- C62, `get_all_clusters_with_subclusters` with symmetry. The clusters are those of `get_all_clusters`; the entry
`(i, j)` of the matrix is the number of connected proper subsets of cluster `i` which are equal to cluster `j` up to
translations and symmetries of the square. -/
theorem C62_all_partial (N : ℕ) :
    ∃ clusters mult A inds, allClusters N (1, 0) (0, 1) true = .ok (clusters, mult, inds) ∧
      allClustersWithSubclusters N (1, 0) (0, 1) true = .ok (clusters, mult, A, inds) ∧
      A.rows = clusters.length ∧ A.cols = clusters.length ∧
      ∀ i (hi : i < clusters.length) j (hj : j < clusters.length), ∀ l m, clusters[i].HasSites l →
        clusters[j].HasSites m → A.e i j = subsetCount true l.toFinset m.toFinset := by
  obtain ⟨st, Ls, A, h1, h2, h3, h4, h5, h6⟩ := allClustersWithSubclusters_ok N
  have hF := h3.flatten.1
  have hlen := hF.length_eq
  have e1 : realPt (1, 0) = (1, 0) := by simp [realPt]
  have e2 : realPt (0, 1) = (0, 1) := by simp [realPt]
  rw [e1, e2] at h1 h2
  refine ⟨_, _, A, _, h1, h2, h4.trans hlen.symm, h5.trans hlen.symm, ?_⟩
  intro i hi j hj l m hl hm
  have hi' : i < Ls.flatten.length := hlen ▸ hi
  have hj' : j < Ls.flatten.length := hlen ▸ hj
  rw [h6 i hi' j hj', HasSites.unique hl ((List.forall₂_iff_get.1 hF).2 i hi hi').2,
    HasSites.unique hm ((List.forall₂_iff_get.1 hF).2 j hj hj').2]
  rfl

/-- The corner with three sites. -/
private def corner : Finset (ℤ × ℤ) := {(0, 0), (1, 0), (1, 1)}

private theorem pair_connected {p q : ℤ × ℤ} (h : squareLattice.Adj p q) : ConnectedSites squareLattice {q, p} :=
  (connected_singleton squareLattice p).insert (by simp) h

private theorem corner_connected : ConnectedSites squareLattice corner := by
  have h1 := pair_connected (p := (1, 1)) (q := (1, 0)) (by rw [square_adj]; simp)
  exact h1.insert (p := (1, 0)) (q := (0, 0)) (by simp) (by rw [square_adj]; simp)

/-- The sets of one horizontal or vertical pair in the corner. -/
private theorem corner_pairs (R : Finset (ℤ × ℤ)) (hR : R = {(0, 0), (1, 0)} ∨ R = {(1, 0), (1, 1)}) :
    subsetCount false corner R = 1 := by
  unfold subsetCount
  rw [Set.ncard_eq_one]
  refine ⟨R, ?_⟩
  ext T
  simp only [Set.mem_setOf_eq, Set.mem_singleton_iff]
  constructor
  · rintro ⟨h1, -, h3⟩
    obtain ⟨w, rfl⟩ := h3
    have hs := h1.1
    rcases hR with rfl | rfl <;>
    · have ha := hs (Finset.mem_image_of_mem _ (Finset.mem_insert_self _ _))
      have hb := hs (Finset.mem_image_of_mem _ (Finset.mem_insert_of_mem (Finset.mem_singleton_self _)))
      simp only [corner, Finset.mem_insert, Finset.mem_singleton, Prod.ext_iff, Prod.fst_add, Prod.snd_add] at ha hb
      have hw : w = 0 := by
        rw [Prod.ext_iff]
        simp only [Prod.fst_zero, Prod.snd_zero]
        omega
      subst hw
      simp
  · rintro rfl
    refine ⟨?_, ?_, Equivalent.refl false _⟩
    · rcases hR with rfl | rfl <;> decide
    · rcases hR with rfl | rfl
      · exact pair_connected (by rw [square_adj]; simp)
      · exact pair_connected (by rw [square_adj]; simp)

/-- The two pairs are equal up to a symmetry of the square, but not up to a translation. -/
private theorem pairs_equivalent :
    Equivalent true ({(0, 0), (1, 0)} : Finset (ℤ × ℤ)) {(1, 0), (1, 1)} ∧
      ¬ Equivalent false ({(0, 0), (1, 0)} : Finset (ℤ × ℤ)) {(1, 0), (1, 1)} := by
  constructor
  · rw [equivalent_iff]
    exact ⟨(true, false, false), (1, 0), by simp, by decide⟩
  · rintro ⟨w, hw⟩
    have ha : ((0, 0) + w : ℤ × ℤ) ∈ ({(1, 0), (1, 1)} : Finset (ℤ × ℤ)) := by
      rw [hw]; exact Finset.mem_image_of_mem _ (by simp)
    have hb : ((1, 0) + w : ℤ × ℤ) ∈ ({(1, 0), (1, 1)} : Finset (ℤ × ℤ)) := by
      rw [hw]; exact Finset.mem_image_of_mem (· + w) (a := (1, 0)) (by simp)
    simp only [Finset.mem_insert, Finset.mem_singleton, Prod.ext_iff, Prod.fst_add, Prod.snd_add] at ha hb
    omega

/-- The loop of `get_all_clusters_with_subclusters` keeps an entry which gets no contribution. -/
private theorem fold_zero {sym : Bool} {full : List Geometry} {Fs : List (List (List (ℤ × ℤ)))}
    (hF : List.Forall₂ IsCluster full Fs.flatten)
    (cF : ∀ k (h : k < Fs.length), ∀ l ∈ Fs[k], l.toFinset.card = k + 1) {i j : ℕ} (hi : i < Fs.flatten.length)
    (hj : j < Fs.flatten.length) {cs : List Geometry} {Qs : List (List (ℤ × ℤ))}
    (hQ : List.Forall₂ IsCluster cs Qs)
    (hz : ∀ t (h : t < cs.length) (h' : t < Qs.length), ∀ reps M inds Ds,
      reducedSubclusters cs[t] = .ok (reps, M, inds) → ReducedRel Qs[t] reps M inds Ds →
        contribution sym Ds.flatten Fs.flatten M i j = 0) :
    ∀ A : Arr ℝ, A.rows = Fs.flatten.length → A.cols = Fs.flatten.length → A.e i j = 0 →
      ∃ A', cs.foldlM (addSubclusters full (startIndices Fs) sym) A = .ok A' ∧ A'.e i j = 0 := by
  induction hQ with
  | nil => exact fun A _ _ h => ⟨A, rfl, h⟩
  | @cons c Q cs Qs hc hcs ih =>
    intro A hr hcol h0
    obtain ⟨reps, M, inds, Ds, A1, h1, h2, h3, h4, h5, h6⟩ := addSubclusters_ok (sym := sym) hF cF A hr hcol hc
    obtain ⟨A2, g1, g2⟩ := ih (fun t h h' => hz (t + 1) (by simpa using h) (by simpa using h')) A1
      (h4.trans hr) (h5.trans hcol) (by
        rw [h6 i hi j hj, h0, hz 0 (by simp) (by simp) reps M inds Ds h1 h2]
        simp)
    refine ⟨A2, ?_, g2⟩
    rw [List.foldlM_cons, h3]
    exact g1

/-- Without symmetry the matrix is wrong from three sites on. The corner with three sites contains one horizontal and
one vertical pair of neighbours. Both pairs are in the list of clusters, but the subclusters are always reduced with the
symmetries of the square, so only one of the pairs is kept and the entry of the other one is zero. -/
theorem C62_no_symmetry_violated :
    ∃ clusters mult A inds, allClustersWithSubclusters 3 (1, 0) (0, 1) false = .ok (clusters, mult, A, inds) ∧
      ∃ i, ∃ hi : i < clusters.length, ∃ j, ∃ hj : j < clusters.length, ∃ l m, clusters[i].HasSites l ∧
        clusters[j].HasSites m ∧ subsetCount false l.toFinset m.toFinset = 1 ∧ A.e i j = 0 := by
  obtain ⟨st, Ls, h1, h2, h3⟩ := allClusters_ok 3 (1, 0) (0, 1) false
  have hn : Ls.length = 2 + 1 := h3
  have hF := h2.flatten.1
  have hlen := hF.length_eq
  have hsl := lastOrder h2 hn
  generalize hcs : (st.1.flatten.take (st.2.2.getD (st.2.2.length - 1) 0)).drop
    (st.2.2.getD (st.2.2.length - 2) 0) = cs at hsl
  have find : ∀ k (hk : k < Ls.length) (S : Finset (ℤ × ℤ)), S.card = k + 1 → ConnectedSites squareLattice S →
      ∃ t, ∃ ht : t < Ls[k].length, Equivalent false S Ls[k][t].toFinset := by
    intro k hk S hS hc
    obtain ⟨l, hl, he⟩ := (h2.levels k hk).complete (by simp) S hS hc
    obtain ⟨t, ht, rfl⟩ := List.mem_iff_getElem.1 hl
    exact ⟨t, ht, he⟩
  obtain ⟨t, ht, hte⟩ := find 2 (by omega) corner (by decide) corner_connected
  obtain ⟨x, hx, hxe⟩ := find 1 (by omega) {(0, 0), (1, 0)} (by decide)
    (pair_connected (by rw [square_adj]; simp))
  obtain ⟨y, hy, hye⟩ := find 1 (by omega) {(1, 0), (1, 1)} (by decide)
    (pair_connected (by rw [square_adj]; simp))
  have ht' : t < cs.length := by rw [hsl.length_eq]; exact ht
  have gt : cs[t].IsCluster Ls[2][t] := (List.forall₂_iff_get.1 hsl).2 t ht' ht
  -- one of the pairs is not among the representatives of the corner
  obtain ⟨reps, M, inds, Ds, r1, r2⟩ := reducedSubclusters_ok (parent_cluster gt.1.nodup gt.2) gt.1.ne_nil
  have hpair : ∃ R : Finset (ℤ × ℤ), (R = {(0, 0), (1, 0)} ∨ R = {(1, 0), (1, 1)}) ∧
      ∃ z, ∃ hz : z < Ls[1].length, Equivalent false R Ls[1][z].toFinset ∧
        ∀ g ∈ reps, ∀ d, g.HasSites d → ¬ Equivalent false d.toFinset Ls[1][z].toFinset := by
    by_contra hno
    push Not at hno
    obtain ⟨g, hg, d, hd, hde⟩ := hno _ (Or.inl rfl) x hx hxe
    obtain ⟨g', hg', e, he, hee⟩ := hno _ (Or.inr rfl) y hy hye
    obtain ⟨a, ha, rfl⟩ := List.mem_iff_getElem.1 hg
    obtain ⟨b, hb, rfl⟩ := List.mem_iff_getElem.1 hg'
    have hl := r2.geoms.length_eq
    have ed := HasSites.unique hd ((List.forall₂_iff_get.1 r2.geoms).2 a ha (hl ▸ ha)).2
    have ee := HasSites.unique he ((List.forall₂_iff_get.1 r2.geoms).2 b hb (hl ▸ hb)).2
    simp only [List.get_eq_getElem] at ed ee
    have k1 := hxe.trans hde.symm
    have k2 := hye.trans hee.symm
    rw [ed] at k1
    rw [ee] at k2
    have hab := r2.index_unique (hl ▸ ha) (hl ▸ hb)
      ((equivalent_false_true k1).symm.trans (pairs_equivalent.1.trans (equivalent_false_true k2)))
    subst hab
    exact pairs_equivalent.2 (k1.trans k2.symm)
  obtain ⟨R, hR, z, hz, hRz, hzno⟩ := hpair
  have hi := startOf_lt Ls (show 2 < Ls.length by omega) ht
  have hj := startOf_lt Ls (show 1 < Ls.length by omega) hz
  have ei := flatten_startOf Ls (show 2 < Ls.length by omega) ht hi
  have ej := flatten_startOf Ls (show 1 < Ls.length by omega) hz hj
  obtain ⟨A, a1, a2⟩ := fold_zero (sym := false) hF h2.cards hi hj hsl (by
    intro t' hc hQ reps' M' inds' Ds' q1 q2
    unfold contribution
    apply Finset.sum_eq_zero
    intro a _
    by_cases hs : Same false Ds'.flatten Ls.flatten a (startOf Ls 2 + t)
    · obtain ⟨ha, _, hae⟩ := hs
      rw [ei] at hae
      -- the cluster is the corner itself
      obtain ⟨s1, s2, s3⟩ := q2.elem (List.getElem_mem ha)
      have hDQ : Ds'.flatten[a].toFinset = Ls[2][t'].toFinset := by
        apply Finset.eq_of_subset_of_card_le
        · intro p hp
          exact List.mem_toFinset.2 (s3 p (List.mem_toFinset.1 hp))
        · rw [h2.cards 2 (by omega) _ (List.getElem_mem hQ), ← hae.card,
            h2.cards 2 (by omega) _ (List.getElem_mem ht)]
      have htt : t' = t := by
        rw [hDQ] at hae
        have hpw := (h2.levels 2 (by omega)).distinct
        rw [List.pairwise_iff_getElem] at hpw
        rcases Nat.lt_trichotomy t' t with hlt | rfl | hlt
        · exact absurd hae (hpw t' t hQ ht hlt)
        · rfl
        · exact absurd hae.symm (hpw t t' ht hQ hlt)
      subst htt
      rw [r1] at q1
      injection q1 with q1
      injection q1 with q1 _
      subst q1
      rw [Finset.sum_eq_zero, mul_zero]
      intro b _
      rw [if_neg, mul_zero]
      rintro ⟨hb, _, hbe⟩
      rw [ej] at hbe
      have hl := q2.geoms.length_eq
      have hb' : b < reps.length := hl ▸ hb
      exact hzno _ (List.getElem_mem hb') _ ((List.forall₂_iff_get.1 q2.geoms).2 b hb' hb).2 hbe
    · rw [if_neg hs, zero_mul])
    (Arr.zeros st.1.flatten.length st.1.flatten.length) hlen hlen rfl
  have e1 : realPt (1, 0) = (1, 0) := by simp [realPt]
  have e2 : realPt (0, 1) = (0, 1) := by simp [realPt]
  rw [e1, e2] at h1
  refine ⟨st.1.flatten, st.2.1.flatten, A, st.2.2, ?_, _, hlen ▸ hi, _, hlen ▸ hj, _, _,
    ((List.forall₂_iff_get.1 hF).2 _ (hlen ▸ hi) hi).2, ((List.forall₂_iff_get.1 hF).2 _ (hlen ▸ hj) hj).2, ?_, a2⟩
  · unfold allClustersWithSubclusters
    rw [h1]
    simp only [bind, Except.bind]
    rw [hcs]
    have e : addSubclusters st.1.flatten st.2.2 false = addSubclusters st.1.flatten (startIndices Ls) false := by
      rw [h2.inds]
    rw [e, a1]
    rfl
  · simp only [List.get_eq_getElem]
    rw [ei, ej, ← subsetCount_congr hte hRz]
    exact corner_pairs R hR

/-- The matrix of the clusters with up to two sites: the pair contains two single sites. -/
example : ∃ clusters mult A inds, allClustersWithSubclusters 2 (1, 0) (0, 1) true = .ok (clusters, mult, A, inds) ∧
    ∃ i, ∃ _ : i < clusters.length, ∃ j, ∃ _ : j < clusters.length, A.e i j = 2 := by
  obtain ⟨c, m, A, inds, h1, h2, -, -, h5⟩ := C62_all_partial 2
  obtain ⟨c', m', inds', k1, k2⟩ := C58_square 2 true
  rw [h1] at k1
  simp only [Except.ok.injEq, Prod.mk.injEq] at k1
  obtain ⟨rfl, rfl, rfl⟩ := k1
  obtain ⟨i, ⟨hi, l, hl, hle⟩, -⟩ := k2 {(0, 0), (1, 0)} (by decide) (pair_connected (by rw [square_adj]; simp))
  obtain ⟨j, ⟨hj, n, hn, hne⟩, -⟩ := k2 {(0, 0)} (by decide) (connected_singleton _ _)
  refine ⟨c, m, A, inds, h2, i, hi, j, hj, ?_⟩
  rw [h5 i hi j hj l n hl hn, ← subsetCount_congr hle hne]
  have e : {T : Finset (ℤ × ℤ) | T ⊂ {(0, 0), (1, 0)} ∧ ConnectedSites squareLattice T ∧
      Equivalent true {(0, 0)} T} = {{(0, 0)}, {(1, 0)}} := by
    ext T
    simp only [Set.mem_setOf_eq, Set.mem_insert_iff, Set.mem_singleton_iff]
    constructor
    · rintro ⟨h1, -, h3⟩
      have hc := h3.card
      rw [Finset.card_singleton] at hc
      obtain ⟨p, rfl⟩ := Finset.card_eq_one.1 (by omega : T.card = 1)
      have hp := h1.1 (Finset.mem_singleton_self p)
      simpa using hp
    · rintro (rfl | rfl)
      · exact ⟨by decide, connected_singleton _ _, Equivalent.refl true _⟩
      · exact ⟨by decide, connected_singleton _ _, equivalent_iff.2 ⟨(false, false, false), (1, 0), by simp, by decide⟩⟩
  unfold subsetCount
  rw [e, Set.ncard_pair (by decide)]
  norm_num

/-- The corner as a parent. -/
example : ∃ parent reps M inds,
    createNonPeriodic (realSites [(0, 0), (1, 0), (1, 1)]).1 (realSites [(0, 0), (1, 0), (1, 1)]).2 none none =
      .ok parent ∧ reducedSubclusters parent = .ok (reps, M, inds) ∧
    ∃! i : ℕ, ∃ hi : i < reps.length, ∃ l, reps[i].HasSites l ∧ Equivalent true l.toFinset {(0, 0), (1, 0)} := by
  obtain ⟨parent, hc, -⟩ := C44_adjacency [(0, 0), (1, 0), (1, 1)]
  obtain ⟨reps, M, inds, h1, -, -, -, h2, -⟩ := C62_reduced (parent := parent) (P := [(0, 0), (1, 0), (1, 1)])
    ⟨parent, hc, SameData.refl _⟩ (by decide) (by simp)
  exact ⟨parent, reps, M, inds, hc, h1, h2 _ (by simp) (pair_connected (by rw [square_adj]; simp))⟩

end ED.Props
