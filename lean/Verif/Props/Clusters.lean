import Verif.Lemmas.ClusterAll

/-! # Properties: enumeration of clusters (C57, C58, C59) -/

namespace ED.Props

open ED.Geometry

/-- The neighbours on the square lattice are the sites at distance one. -/
theorem square_adj (p q : ℤ × ℤ) : squareLattice.Adj p q ↔ |q.1 - p.1| + |q.2 - p.2| = 1 := by
  obtain ⟨a, b⟩ := p
  obtain ⟨c, d⟩ := q
  simp only [squareLattice, latticeGraph, Prod.mk_add_mk, Prod.mk_sub_mk, Prod.mk.injEq, ne_eq]
  constructor
  · rintro ⟨-, ⟨rfl, rfl⟩ | ⟨rfl, rfl⟩ | ⟨rfl, rfl⟩ | ⟨rfl, rfl⟩⟩ <;> simp
  · intro h
    rcases abs_cases (c - a) with ⟨h1, h2⟩ | ⟨h1, h2⟩ <;> rcases abs_cases (d - b) with ⟨h3, h4⟩ | ⟨h3, h4⟩ <;>
      omega

/-- The square lattice has the symmetries of the square. -/
theorem square_symmetric : SymmetricGraph squareLattice := by
  intro s p q h
  rw [square_adj] at *
  obtain ⟨a, b, c⟩ := s
  cases a <;> cases b <;> cases c <;> simp only [squareMap, if_true, Bool.false_eq_true, if_false] <;>
    rcases abs_cases (q.1 - p.1) with ⟨h1, h2⟩ | ⟨h1, h2⟩ <;>
    rcases abs_cases (q.2 - p.2) with ⟨h3, h4⟩ | ⟨h3, h4⟩ <;> (simp only [abs]; omega)

/-- C57. Clusters are found for every maximum order, integer vectors and both settings. The list is cut into
the orders by the indices; every cluster of order `k + 1` is a connected set of `k + 1` distinct sites in sorted
order, and different clusters of the list are not equal up to translations (and symmetries of the square). -/
theorem C57_sound (N : ℕ) (lv1 lv2 : ℤ × ℤ) (sym : Bool) :
    ∃ clusters mult inds, allClusters N (lv1.1, lv1.2) (lv2.1, lv2.2) sym = .ok (clusters, mult, inds) ∧
      inds.length = max N 1 + 1 ∧ inds[0]? = some 0 ∧ inds[max N 1]? = some clusters.length ∧
      mult.length = clusters.length ∧
      (∀ k < max N 1, ∀ g ∈ ofOrder clusters inds k, ∃ l, g.IsCluster l ∧ l.length = k + 1 ∧
        ConnectedSites (latticeGraph lv1 lv2) l.toFinset) ∧
      ∀ i j (hi : i < clusters.length) (hj : j < clusters.length), i ≠ j →
        ∀ l m, clusters[i].HasSites l → clusters[j].HasSites m → ¬ Equivalent sym l.toFinset m.toFinset := by
  obtain ⟨st, Ls, h1, h2, h3⟩ := allClusters_ok N lv1 lv2 sym
  obtain ⟨h4, h5⟩ := h2.flatten
  refine ⟨_, _, _, h1, ?_, ?_, ?_, ?_, ?_, ?_⟩
  · rw [h2.inds, startIndices_length, h3]
  · rw [h2.inds]
    simp [startIndices]
  · rw [h2.inds, ← h3, h4.length_eq, List.length_flatten]
    simp [startIndices, List.take_of_length_le]
  · rw [h2.mults, h4.length_eq]
    simp [List.length_flatten, Function.comp_def]
  · intro k hk g hg
    obtain ⟨h6, -⟩ := h2.ofOrder (k := k) (by omega)
    obtain ⟨l, hl, hgl⟩ := forall2_left h6 hg
    obtain ⟨h7, h8, h9⟩ := (h2.levels k (by omega)).sound l hl
    exact ⟨l, hgl, h8, h9⟩
  · intro i j hi hj hij l m hl hm
    have hi' : i < Ls.flatten.length := h4.length_eq ▸ hi
    have hj' : j < Ls.flatten.length := h4.length_eq ▸ hj
    have e1 : l = Ls.flatten[i] := HasSites.unique hl ((List.forall₂_iff_get.1 h4).2 i hi hi').2
    have e2 : m = Ls.flatten[j] := HasSites.unique hm ((List.forall₂_iff_get.1 h4).2 j hj hj').2
    rw [e1, e2]
    rw [List.pairwise_iff_getElem] at h5
    rcases Nat.lt_or_gt_of_ne hij with h | h
    · exact h5 i j hi' hj' h
    · exact fun e => h5 j i hj' hi' h e.symm

/-- Four sites, with symmetry. -/
example : ∃ clusters mult inds, allClusters 4 (((1 : ℤ) : ℝ), ((0 : ℤ) : ℝ)) (((0 : ℤ) : ℝ), ((1 : ℤ) : ℝ)) true =
      .ok (clusters, mult, inds) ∧ inds.length = 5 ∧
      ∀ g ∈ ofOrder clusters inds 3, ∃ l, g.IsCluster l ∧ l.length = 4 ∧
        ConnectedSites squareLattice l.toFinset := by
  obtain ⟨c, m, i, h1, h2, -, -, -, h3, -⟩ := C57_sound 4 (1, 0) (0, 1) true
  exact ⟨c, m, i, h1, h2, h3 3 (by norm_num)⟩

/-- C58. Every connected set of at most `N` sites is equal, up to a translation (and a symmetry of the square),
to exactly one cluster of the list, and this one belongs to the order with this number of sites. -/
theorem C58_complete (N : ℕ) (lv1 lv2 : ℤ × ℤ) (sym : Bool)
    (hs : sym = true → SymmetricGraph (latticeGraph lv1 lv2)) :
    ∃ clusters mult inds, allClusters N (lv1.1, lv1.2) (lv2.1, lv2.2) sym = .ok (clusters, mult, inds) ∧
      ∀ k < max N 1, ∀ S : Finset (ℤ × ℤ), S.card = k + 1 → ConnectedSites (latticeGraph lv1 lv2) S →
        ∃ g ∈ ofOrder clusters inds k, ∃ l, g.IsCluster l ∧ Equivalent sym S l.toFinset ∧
          ∃! i : ℕ, ∃ h : i < clusters.length, ∃ m, clusters[i].HasSites m ∧ Equivalent sym S m.toFinset := by
  obtain ⟨st, Ls, h1, h2, h3⟩ := allClusters_ok N lv1 lv2 sym
  obtain ⟨c, m, i, g1, -, -, -, -, -, g2⟩ := C57_sound N lv1 lv2 sym
  obtain ⟨h4, h5⟩ := h2.flatten
  have e := g1.symm.trans h1
  simp only [Except.ok.injEq, Prod.mk.injEq] at e
  obtain ⟨rfl, rfl, rfl⟩ := e
  refine ⟨_, _, _, h1, ?_⟩
  intro k hk S hS hcon
  obtain ⟨h6, -⟩ := h2.ofOrder (k := k) (by omega)
  obtain ⟨l, hl, he⟩ := (h2.levels k (by omega)).complete hs S hS hcon
  obtain ⟨g, hg, hgl⟩ := forall2_right h6 hl
  refine ⟨g, hg, l, hgl, he, ?_⟩
  have hgm : g ∈ st.1.flatten := List.mem_of_mem_take (List.mem_of_mem_drop hg)
  obtain ⟨i, hi, rfl⟩ := List.mem_iff_getElem.1 hgm
  refine ⟨i, ⟨hi, l, hgl.2, he⟩, ?_⟩
  rintro j ⟨hj, m, hm, hem⟩
  by_contra hne
  exact g2 j i hj hi hne m l hm hgl.2 (hem.symm.trans he)

/-- C58 for the square lattice, with and without symmetry. -/
theorem C58_square (N : ℕ) (sym : Bool) :
    ∃ clusters mult inds, allClusters N (1, 0) (0, 1) sym = .ok (clusters, mult, inds) ∧
      ∀ S : Finset (ℤ × ℤ), S.card ≤ N → ConnectedSites squareLattice S →
        ∃! i : ℕ, ∃ h : i < clusters.length, ∃ m, clusters[i].HasSites m ∧ Equivalent sym S m.toFinset := by
  obtain ⟨c, m, i, h1, h2⟩ := C58_complete N (1, 0) (0, 1) sym fun _ => square_symmetric
  refine ⟨c, m, i, by simpa using h1, ?_⟩
  intro S hS hcon
  have hp : 0 < S.card := Finset.card_pos.2 hcon.nonempty
  obtain ⟨g, -, l, -, -, h⟩ := h2 (S.card - 1) (by omega) S (by omega) hcon
  exact h

/-- The corner with three sites is found at every maximum order from three on. -/
example (N : ℕ) (hN : 3 ≤ N) : ∃ clusters mult inds, allClusters N (1, 0) (0, 1) true = .ok (clusters, mult, inds) ∧
    ∃! i : ℕ, ∃ h : i < clusters.length, ∃ m, clusters[i].HasSites m ∧
      Equivalent true {(0, 0), (1, 0), (1, 1)} m.toFinset := by
  obtain ⟨c, m, i, h1, h2⟩ := C58_square N true
  refine ⟨c, m, i, h1, h2 _ ?_ ?_⟩
  · exact le_trans (by decide) hN
  · have h0 := connected_singleton squareLattice ((1, 0) : ℤ × ℤ)
    have h1 := h0.insert (p := (1, 0)) (q := (1, 1)) (by simp) (by rw [square_adj]; norm_num)
    have h2 := h1.insert (p := (1, 0)) (q := (0, 0)) (by simp) (by rw [square_adj]; norm_num)
    convert h2 using 1
    decide

/-- C59. With symmetry, the multiplicity of a cluster is the number of the shapes of its images under the
symmetries of the square, and it divides eight. Without symmetry it is one. -/
theorem C59_multiplicity (N : ℕ) (lv1 lv2 : ℤ × ℤ) (sym : Bool) :
    ∃ clusters mult inds, allClusters N (lv1.1, lv1.2) (lv2.1, lv2.2) sym = .ok (clusters, mult, inds) ∧
      List.Forall₂ (fun g n => ∃ l, g.IsCluster l ∧
        n = if sym then (imageShapes l.toFinset).ncard else 1) clusters mult ∧
      ∀ n ∈ mult, n ∣ 8 := by
  obtain ⟨st, Ls, h1, h2, h3⟩ := allClusters_ok N lv1 lv2 sym
  obtain ⟨h4, h5⟩ := h2.flatten
  have hn : ∀ l : List (ℤ × ℤ), Snake l → (partnersOf sym l).length =
      if sym then (imageShapes l.toFinset).ncard else 1 := by
    intro l hl
    cases sym
    · rfl
    · rw [(ncard_shapesOf hl true).2, shapesOf_true, if_pos rfl]
  have hm : st.2.1.flatten = Ls.flatten.map fun l => (partnersOf sym l).length := by
    rw [h2.mults, List.map_flatten]
  refine ⟨_, _, _, h1, ?_, ?_⟩
  · rw [hm, List.forall₂_map_right_iff]
    refine h4.imp ?_
    intro g l hg
    exact ⟨l, hg, hn l hg.1⟩
  · intro n hnm
    rw [hm] at hnm
    obtain ⟨l, hl, rfl⟩ := List.mem_map.1 hnm
    obtain ⟨g, -, hg⟩ := forall2_right h4 hl
    rw [hn l hg.1]
    cases sym
    · exact one_dvd 8
    · exact imageShapes_dvd _

/-- C59. The multiplicities of order `k + 1` add up to the number of connected shapes with `k + 1` sites; there
are finitely many. Without symmetry, this is the number of clusters. -/
theorem C59_sum (N : ℕ) (lv1 lv2 : ℤ × ℤ) (sym : Bool)
    (hs : sym = true → SymmetricGraph (latticeGraph lv1 lv2)) :
    ∃ clusters mult inds, allClusters N (lv1.1, lv1.2) (lv2.1, lv2.2) sym = .ok (clusters, mult, inds) ∧
      ∀ k < max N 1, (connectedShapes (latticeGraph lv1 lv2) (k + 1)).Finite ∧
        (ofOrder mult inds k).sum = (connectedShapes (latticeGraph lv1 lv2) (k + 1)).ncard ∧
        (sym = false → (ofOrder clusters inds k).length =
          (connectedShapes (latticeGraph lv1 lv2) (k + 1)).ncard) := by
  obtain ⟨st, Ls, h1, h2, h3⟩ := allClusters_ok N lv1 lv2 sym
  refine ⟨_, _, _, h1, ?_⟩
  intro k hk
  obtain ⟨h4, h5⟩ := h2.ofOrder (k := k) (by omega)
  obtain ⟨h6, h7⟩ := (h2.levels k (by omega)).sum hs
  refine ⟨h6, by rw [h5, h7], ?_⟩
  rintro rfl
  rw [← h7, h4.length_eq]
  simp [partnersOf]

/-- The cluster with two sites has two images. -/
example : (imageShapes {(0, 0), (1, 0)}).ncard = 2 := by
  have h1 : imageShapes {(0, 0), (1, 0)} = {shape {(0, 0), (1, 0)}, shape {(0, 0), (0, 1)}} := by
    ext c
    constructor
    · rintro ⟨s, rfl⟩
      have : ∀ s : Bool × Bool × Bool, (∃ v ∈ [((0 : ℤ), (0 : ℤ)), (1, 0), (0, 1)],
          (({(0, 0), (1, 0)} : Finset (ℤ × ℤ)).image (squareMap s)).image (· + v) = {(0, 0), (1, 0)}) ∨
          ∃ v ∈ [((0 : ℤ), (0 : ℤ)), (1, 0), (0, 1)],
          (({(0, 0), (1, 0)} : Finset (ℤ × ℤ)).image (squareMap s)).image (· + v) = {(0, 0), (0, 1)} := by
        decide
      rcases this s with ⟨v, -, h⟩ | ⟨v, -, h⟩
      · exact Or.inl (shape_eq.2 ⟨v, h.symm⟩)
      · exact Or.inr (shape_eq.2 ⟨v, h.symm⟩)
    · rintro (rfl | rfl)
      · exact ⟨(false, false, false), congrArg shape (by decide)⟩
      · exact ⟨(true, false, false), congrArg shape (by decide)⟩
  rw [h1, Set.ncard_pair]
  intro h
  obtain ⟨v, hv⟩ := shape_eq.1 h
  have a : ((0, 0) : ℤ × ℤ) + v ∈ ({(0, 0), (0, 1)} : Finset (ℤ × ℤ)) := by rw [hv]; simp
  have b : ((1, 0) : ℤ × ℤ) + v ∈ ({(0, 0), (0, 1)} : Finset (ℤ × ℤ)) := by rw [hv]; simp
  simp only [Finset.mem_insert, Finset.mem_singleton, Prod.ext_iff, Prod.fst_add, Prod.snd_add] at a b
  omega

end ED.Props
