import Verif.Lemmas.SubAll
import Verif.Props.Clusters
import Verif.Props.Geometry

/-! # Properties: subclusters of a cluster (C60) -/

namespace ED.Props

open ED.Geometry

/-- Every finite cluster with distinct integer sites is a parent, with the neighbours of the square lattice. -/
theorem parent_cluster {g : Geometry} {P : List (ℤ × ℤ)} (hP : P.Nodup) (h : g.HasSites P) :
    g.IsParent P squareLattice := by
  obtain ⟨c, hc, hs⟩ := h
  obtain ⟨c', hc', -, hx, hy, -, hadj⟩ := C44_adjacency P
  rw [hc] at hc'
  injection hc' with e
  subst e
  refine ⟨hs.xlocs.trans hx, hs.ylocs.trans hy, hP, ?_⟩
  intro i j hi hj
  have hr : i < g.adjacency.rows ∧ j < g.adjacency.cols := by
    have h1 := (hasSites_iff (g := g) (l := P)).1 ⟨c, hc, hs⟩
    rw [h1.adjacency.1, h1.adjacency.2.1]
    simp only [cluster, neighbors, diff, ED.len_fst]
    exact ⟨hi, hj⟩
  rw [hs.adjacency.2.2 i hr.1 j hr.2, (hadj i j P[i] P[j] (by simp [hi]) (by simp [hj])).1, square_adj]
  split_ifs with h
  · simp only [true_iff]
    rcases h with ⟨h1, h2⟩ | ⟨h1, h2⟩
    · rw [abs_sub_comm, h1, h2, sub_self, abs_zero, add_zero]
    · rw [h1, sub_self, abs_zero, zero_add, abs_sub_comm, h2]
  · simp only [zero_ne_one, false_iff]
    intro hsum
    apply h
    rw [abs_sub_comm, abs_sub_comm (P[j].2)] at hsum
    have h1 := abs_nonneg (P[i].1 - P[j].1)
    have h2 := abs_nonneg (P[i].2 - P[j].2)
    rcases (by omega : |P[i].1 - P[j].1| = 1 ∧ |P[i].2 - P[j].2| = 0 ∨
      |P[i].1 - P[j].1| = 0 ∧ |P[i].2 - P[j].2| = 1) with ⟨h3, h4⟩ | ⟨h3, h4⟩
    · exact Or.inl ⟨h3, sub_eq_zero.1 (abs_eq_zero.1 h4)⟩
    · exact Or.inr ⟨sub_eq_zero.1 (abs_eq_zero.1 h3), h4⟩

/-- C60. The subclusters of a parent: those in list number `k` are connected sets of `k + 1` sites of the
parent, every connected set of sites of the parent appears exactly once, the indices of a subcluster are, in
growing order, those of its connected proper subsets, and the matrix has the entry one there and zero
elsewhere. -/
theorem C60_subclusters {parent : Geometry} {P : List (ℤ × ℤ)} {G : SimpleGraph (ℤ × ℤ)}
    (hp : parent.IsParent P G) (hne : P ≠ []) :
    ∃ orders indices M, allSubclusters parent = .ok (orders, indices, M) ∧
      (∀ k (hk : k < orders.length), ∀ g ∈ orders[k], ∃ l, g.IsCluster l ∧ l.length = k + 1 ∧
        (∀ p ∈ l, p ∈ P) ∧ ConnectedSites G l.toFinset) ∧
      (∀ S : Finset (ℤ × ℤ), (∀ p ∈ S, p ∈ P) → ConnectedSites G S →
        ∃! i : ℕ, ∃ h : i < orders.flatten.length, ∃ l, orders.flatten[i].HasSites l ∧ l.toFinset = S) ∧
      indices.length = orders.flatten.length ∧
      M.rows = orders.flatten.length ∧ M.cols = orders.flatten.length ∧
      ∀ i (hi : i < orders.flatten.length) (hi' : i < indices.length),
        indices[i].Pairwise (· < ·) ∧ (∀ j ∈ indices[i], j < orders.flatten.length) ∧
        ∀ j (hj : j < orders.flatten.length), ∀ l m, orders.flatten[i].HasSites l →
          orders.flatten[j].HasSites m →
          (j ∈ indices[i] ↔ m.toFinset ⊂ l.toFinset) ∧
          (m.toFinset ⊂ l.toFinset → M.e i j = 1) ∧ (¬ m.toFinset ⊂ l.toFinset → M.e i j = 0) := by
  obtain ⟨gs, Ls, known, h1, h2, h3, h4⟩ := allSubclusters_ok hp hne
  have hfl : List.Forall₂ IsCluster gs.flatten Ls.flatten := List.rel_flatten h2
  have get : ∀ i (hi : i < gs.flatten.length) l, gs.flatten[i].HasSites l →
      ∃ hi' : i < Ls.flatten.length, l = Ls.flatten[i] := by
    intro i hi l hl
    have hi' : i < Ls.flatten.length := hfl.length_eq ▸ hi
    exact ⟨hi', HasSites.unique hl ((List.forall₂_iff_get.1 hfl).2 i hi hi').2⟩
  have hlen := hfl.length_eq
  refine ⟨_, _, _, h1, ?_, ?_, ?_, rfl, rfl, ?_⟩
  · intro k hk g hg
    have hk' : k < Ls.length := h2.length_eq ▸ hk
    obtain ⟨l, hl, hgl⟩ := forall2_left ((List.forall₂_iff_get.1 h2).2 k hk hk') hg
    obtain ⟨-, a2, a3, a4⟩ := (h3.levels k hk').sound l hl
    exact ⟨l, hgl, a2, a4, a3⟩
  · intro S hP hc
    obtain ⟨l, hl, hlS⟩ := h4 S hP hc
    obtain ⟨i, hi, rfl⟩ := List.mem_iff_getElem.1 hl
    have hi' : i < gs.flatten.length := hlen ▸ hi
    refine ⟨i, ⟨hi', _, ((List.forall₂_iff_get.1 hfl).2 i hi' hi).2, hlS⟩, ?_⟩
    rintro j ⟨hj, m, hm, hmS⟩
    obtain ⟨hj', rfl⟩ := get j hj m hm
    have e : Ls.flatten[j] = Ls.flatten[i] :=
      (levels_elem h3.levels (List.getElem_mem hj')).1.eq_of_toFinset
        (levels_elem h3.levels (List.getElem_mem hi)).1 (by rw [hmS]; exact hlS.symm)
    exact ((levels_nodup h3.levels).getElem_inj_iff).1 e
  · rw [h3.length, hlen]
  · intro i hi hi'
    have hiL : i < Ls.flatten.length := hlen ▸ hi
    have eg : known.getD i [] = known[i] := by simp [List.getD_eq_getElem?_getD, hi']
    have hsub := h3.subs i hiL
    rw [eg] at hsub
    refine ⟨h3.sorted _ (List.getElem_mem hi'), ?_, ?_⟩
    · intro j hj
      obtain ⟨hj', -⟩ := (hsub j).1 hj
      rw [hlen]
      exact hj'
    · intro j hj l m hl hm
      obtain ⟨-, rfl⟩ := get i hi l hl
      obtain ⟨hj', rfl⟩ := get j hj m hm
      have hiff : j ∈ known[i] ↔ Ls.flatten[j].toFinset ⊂ Ls.flatten[i].toFinset := by
        rw [hsub j]
        exact ⟨fun ⟨_, h⟩ => h, fun h => ⟨hj', h⟩⟩
      refine ⟨hiff, ?_, ?_⟩
      · intro h
        simp only
        rw [eg, if_pos (hiff.2 h)]
      · intro h
        simp only
        rw [eg, if_neg fun h' => h (hiff.1 h')]

/-- The corner with three sites: the subset of the two end sites is not connected and not listed, the other two
pairs are. -/
example : ∃ parent orders indices M,
    createNonPeriodic (realSites [(0, 0), (1, 0), (1, 1)]).1 (realSites [(0, 0), (1, 0), (1, 1)]).2 none none =
      .ok parent ∧ allSubclusters parent = .ok (orders, indices, M) ∧
    (∃! i : ℕ, ∃ h : i < orders.flatten.length, ∃ l, orders.flatten[i].HasSites l ∧
      l.toFinset = {(1, 0), (1, 1)}) ∧
    ¬ ∃ i : ℕ, ∃ h : i < orders.flatten.length, ∃ l, orders.flatten[i].HasSites l ∧
      l.toFinset = {(0, 0), (1, 1)} := by
  obtain ⟨parent, hc, -⟩ := C44_adjacency [(0, 0), (1, 0), (1, 1)]
  have hp := parent_cluster (g := parent) (P := [(0, 0), (1, 0), (1, 1)]) (by decide)
    ⟨parent, hc, SameData.refl _⟩
  obtain ⟨orders, indices, M, h1, h2, h3, -⟩ := C60_subclusters hp (by simp)
  refine ⟨parent, orders, indices, M, hc, h1, h3 _ ?_ ?_, ?_⟩
  · intro p hp
    simp only [Finset.mem_insert, Finset.mem_singleton] at hp
    rcases hp with rfl | rfl <;> simp
  · have h0 := connected_singleton squareLattice ((1, 1) : ℤ × ℤ)
    exact h0.insert (p := (1, 1)) (q := (1, 0)) (by simp) (by rw [square_adj]; norm_num)
  · rintro ⟨i, hi, l, hl, hlS⟩
    have hm := List.getElem_mem hi
    obtain ⟨gs, hgs, hg⟩ := List.mem_flatten.1 hm
    obtain ⟨k, hk, rfl⟩ := List.mem_iff_getElem.1 hgs
    obtain ⟨m, hm1, -, -, hcon⟩ := h2 k hk _ hg
    rw [HasSites.unique hm1.2 hl, hlS] at hcon
    obtain ⟨p, hp, q, hq, hqn, hadj⟩ := hcon.boundary (T := {(0, 0)}) (by simp) (by
      rw [Finset.ssubset_iff_subset_ne]
      decide)
    rw [Finset.mem_singleton] at hp
    subst hp
    simp only [Finset.mem_insert, Finset.mem_singleton] at hq hqn
    rcases hq with rfl | rfl
    · exact hqn rfl
    · rw [square_adj] at hadj
      norm_num at hadj

end ED.Props
