import Verif.Lemmas.Geometry

/-!
# Finite clusters and relabelling of sites (C44, C45)
-/

namespace ED.Props

open ED ED.Geometry

private theorem getD_real (l : List ℤ) (i : ℕ) (k : ℤ) (h : l[i]? = some k) :
    (realList l).getD i 0 = (k : ℝ) := by
  rw [realList, List.getD_eq_getElem?_getD, List.getElem?_map, h]
  rfl

private theorem getD_fst {sites : List (ℤ × ℤ)} {i : ℕ} {p : ℤ × ℤ} (h : sites[i]? = some p) :
    (realSites sites).1.getD i 0 = (p.1 : ℝ) :=
  getD_real _ i _ (by rw [List.getElem?_map, h]; rfl)

private theorem getD_snd {sites : List (ℤ × ℤ)} {i : ℕ} {p : ℤ × ℤ} (h : sites[i]? = some p) :
    (realSites sites).2.getD i 0 = (p.2 : ℝ) :=
  getD_real _ i _ (by rw [List.getElem?_map, h]; rfl)

private theorem len_fst (sites : List (ℤ × ℤ)) : (realSites sites).1.length = sites.length := by
  simp [realSites, realList]

private theorem len_snd (sites : List (ℤ × ℤ)) : (realSites sites).2.length = sites.length := by
  simp [realSites, realList]

/-- C44: for every list of integer sites the constructor succeeds (its result passes the validation); two
sites are adjacent exactly if they differ by one in one coordinate and agree in the other, distances are
coordinate differences and all phases are one. -/
theorem C44_adjacency (sites : List (ℤ × ℤ)) :
    ∃ g, createNonPeriodic (realSites sites).1 (realSites sites).2 none none = .ok g ∧
      g.lattice = none ∧ g.xlocs = (realSites sites).1 ∧ g.ylocs = (realSites sites).2 ∧
      g.WellFormed ∧
      ∀ (i j : ℕ) (p q : ℤ × ℤ), sites[i]? = some p → sites[j]? = some q →
        g.adjacency.e i j =
          (if (|p.1 - q.1| = 1 ∧ p.2 = q.2) ∨ (p.1 = q.1 ∧ |p.2 - q.2| = 1) then 1 else 0) ∧
        g.xdist.e i j = ((p.1 - q.1 : ℤ) : ℝ) ∧ g.ydist.e i j = ((p.2 - q.2 : ℤ) : ℝ) ∧
        g.phase.e i j = 1 := by
  refine ⟨_, createNonPeriodic_ok _ _ (by rw [len_fst, len_snd]), rfl, rfl, rfl,
    cluster_wellFormed _ _ (by rw [len_fst, len_snd]), ?_⟩
  intro i j p q hp hq
  have hx : (cluster (realSites sites).1 (realSites sites).2).xdist.e i j = ((p.1 - q.1 : ℤ) : ℝ) := by
    simp only [cluster, diff]
    rw [getD_fst hp, getD_fst hq]
    push_cast
    rfl
  have hy : (cluster (realSites sites).1 (realSites sites).2).ydist.e i j = ((p.2 - q.2 : ℤ) : ℝ) := by
    simp only [cluster]
    rw [getD_snd hp, getD_snd hq]
    push_cast
    rfl
  refine ⟨?_, hx, hy, rfl⟩
  have e : (cluster (realSites sites).1 (realSites sites).2).adjacency.e i j =
      (neighbors ⟨1, 1, fun _ _ => ((p.1 - q.1 : ℤ) : ℝ)⟩ ⟨1, 1, fun _ _ => ((p.2 - q.2 : ℤ) : ℝ)⟩).e 0 0 :=
    neighbors_congr hx hy
  rw [e]
  simp only [neighbors, round_int_one, round_int_zero]
  apply if_congr _ rfl rfl
  rw [sub_eq_zero, sub_eq_zero, and_comm (a := |p.2 - q.2| = 1)]

/-- C44: the adjacency matrix of a finite cluster, whatever its coordinates, is symmetric with entries
zero and one and zero diagonal, and the distances are antisymmetric. -/
theorem C44_simple_graph {xs ys : List ℝ} {g : Geometry}
    (h : createNonPeriodic xs ys none none = .ok g) :
    ∀ i < xs.length, ∀ j < xs.length,
      (g.adjacency.e i j = 0 ∨ g.adjacency.e i j = 1) ∧ g.adjacency.e i j = g.adjacency.e j i ∧
      g.adjacency.e i i = 0 ∧ g.xdist.e i j = -g.xdist.e j i ∧ g.ydist.e i j = -g.ydist.e j i := by
  have hl : xs.length ≤ ys.length := by
    by_contra hc
    rw [createNonPeriodic_short xs ys none none (not_le.1 hc)] at h
    exact absurd h (by simp)
  rw [createNonPeriodic_ok xs ys hl] at h
  injection h with h
  subst h
  intro i hi j hj
  have hv := neighbors_valid (diff xs)
    ⟨xs.length, xs.length, fun i j => ys.getD i 0 - ys.getD j 0⟩ xs.length rfl rfl
    (fun i _ j _ => abs_sub_comm _ _) (fun i _ j _ => abs_sub_comm _ _)
  refine ⟨hv.2.1 i hi j hj, hv.1.2.2 i hi j hj, ?_, ?_, ?_⟩
  · simp only [cluster, neighbors, diff, sub_self, abs_zero, zero_sub]
    have h1 : npRound 0 (-1 : ℝ) = -1 := by
      have := npRound_int (K := ℝ) 0 (-1)
      simpa using this
    rw [h1]
    simp
  · simp only [cluster, diff]
    ring
  · simp only [cluster]
    ring

/-- C44: an adjacency matrix given by the user is accepted exactly if it is a symmetric matrix of zeros
and ones with one row and column per site; anything else raises `ValueError`. -/
theorem C44_given_adjacency (xs ys : List ℝ) (h : xs.length = ys.length) (A : Arr ℝ) :
    (A.rows = xs.length ∧ A.cols = xs.length ∧ (∀ i < xs.length, ∀ j < xs.length,
        A.e i j = A.e j i ∧ (A.e i j = 0 ∨ A.e i j = 1)) →
      ∃ g, createNonPeriodic xs ys (some A) none = .ok g ∧ g.adjacency = A) ∧
    (¬ (A.rows = xs.length ∧ A.cols = xs.length ∧ (∀ i < xs.length, ∀ j < xs.length,
        A.e i j = A.e j i ∧ (A.e i j = 0 ∨ A.e i j = 1))) →
      createNonPeriodic xs ys (some A) none = .error .value) := by
  have key : validAdjacency A xs.length ↔ (A.rows = xs.length ∧ A.cols = xs.length ∧
      (∀ i < xs.length, ∀ j < xs.length, A.e i j = A.e j i ∧ (A.e i j = 0 ∨ A.e i j = 1))) := by
    constructor
    · rintro ⟨h1, h2, h3, h4⟩
      exact ⟨h3, h4, fun i hi j hj => ⟨h1.2.2 i (h3 ▸ hi) j (h4 ▸ hj), h2 i (h3 ▸ hi) j (h4 ▸ hj)⟩⟩
    · rintro ⟨h3, h4, h⟩
      exact ⟨⟨h3.trans h4.symm, h4.trans h3.symm, fun i hi j hj => (h i (h3 ▸ hi) j (h4 ▸ hj)).1⟩,
        fun i hi j hj => (h i (h3 ▸ hi) j (h4 ▸ hj)).2, h3, h4⟩
  constructor
  · intro hA
    refine ⟨⟨none, xs, ys, diff xs, ⟨xs.length, xs.length, fun i j => ys.getD i 0 - ys.getD j 0⟩, A,
          ⟨xs.length, xs.length, fun _ _ => 1⟩⟩, ?_, rfl⟩
    unfold createNonPeriodic init siteDistance
    simp only
    rw [if_pos h.le]
    simp only [bind, Except.bind, pure, Except.pure, Option.getD_none, Option.getD_some]
    rw [if_pos]
    · rfl
    · exact ⟨key.2 hA, onesPhase_valid _⟩
  · intro hA
    unfold createNonPeriodic init siteDistance
    simp only
    rw [if_pos h.le]
    simp only [bind, Except.bind, pure, Except.pure, Option.getD_none, Option.getD_some]
    rw [if_neg]
    · rfl
    · exact fun hc => hA (key.1 hc.1)

/-- The two-by-two plaquette with an extra site diagonally across: adjacency of neighbours only. -/
example : ∃ g, createNonPeriodic (realSites [(0, 0), (1, 0), (1, 1), (3, 2)]).1
    (realSites [(0, 0), (1, 0), (1, 1), (3, 2)]).2 none none = .ok g ∧
      g.adjacency.e 0 1 = 1 ∧ g.adjacency.e 0 2 = 0 ∧ g.adjacency.e 1 2 = 1 ∧ g.adjacency.e 2 3 = 0 ∧
      g.xdist.e 3 0 = 3 := by
  obtain ⟨g, hg, _, _, _, _, h⟩ := C44_adjacency [(0, 0), (1, 0), (1, 1), (3, 2)]
  refine ⟨g, hg, ?_, ?_, ?_, ?_, ?_⟩
  · rw [(h 0 1 (0, 0) (1, 0) rfl rfl).1]; norm_num
  · rw [(h 0 2 (0, 0) (1, 1) rfl rfl).1]; norm_num
  · rw [(h 1 2 (1, 0) (1, 1) rfl rfl).1]; norm_num
  · rw [(h 2 3 (1, 1) (3, 2) rfl rfl).1]; norm_num
  · rw [(h 3 0 (3, 2) (0, 0) rfl rfl).2.1]; norm_num

/-- C45: permuting the sites by a permutation moves the coordinates and the rows and columns of all
matrices together. -/
theorem C45_entries {g : Geometry} (hg : g.WellFormed) {perm : List ℕ}
    (hp : perm.Perm (List.range g.nsites)) :
    ∃ g', g.permuteSites perm = .ok g' ∧ g'.WellFormed ∧ g'.nsites = g.nsites ∧
      g'.lattice = g.lattice ∧
      (∀ k s : ℕ, perm[k]? = some s → g'.xlocs[k]? = g.xlocs[s]? ∧ g'.ylocs[k]? = g.ylocs[s]?) ∧
      ∀ i j a b : ℕ, perm[i]? = some a → perm[j]? = some b →
        g'.adjacency.e i j = g.adjacency.e a b ∧ g'.phase.e i j = g.phase.e a b ∧
        g'.xdist.e i j = g.xdist.e a b ∧ g'.ydist.e i j = g.ydist.e a b := by
  obtain ⟨g', hg', hr⟩ := permuteSites_ok hg hp
  have hlen : perm.length = g.nsites := by rw [hp.length_eq, List.length_range]
  refine ⟨g', hg', hr.wellFormed, ?_, hr.lattice, ?_, ?_⟩
  · rw [nsites, hr.xlocs, List.length_map, hlen]
  · intro k s hk
    have hs : s < g.xlocs.length := List.mem_range.1 ((hp.mem_iff).1 (List.mem_of_getElem? hk))
    have hs' : s < g.ylocs.length := hg.ylocs ▸ hs
    rw [hr.xlocs, hr.ylocs, List.getElem?_map, List.getElem?_map, hk]
    simp [List.getD_eq_getElem?_getD, hs, hs']
  · intro i j a b hi hj
    have li : i < perm.length := (List.getElem?_eq_some_iff.1 hi).1
    have lj : j < perm.length := (List.getElem?_eq_some_iff.1 hj).1
    have ei : perm.getD i 0 = a := by rw [List.getD_eq_getElem?_getD, hi]; rfl
    have ej : perm.getD j 0 = b := by rw [List.getD_eq_getElem?_getD, hj]; rfl
    have mat : ∀ {α : Type} {M M' : Arr α}, M'.Equal (relabel perm M) → M'.e i j = M.e a b := by
      intro α M M' h
      rw [h.2.2 i (by rw [h.1]; exact li) j (by rw [h.2.1]; exact lj)]
      simp only [relabel]
      rw [ei, ej]
    exact ⟨mat hr.adjacency, mat hr.phase, mat hr.xdist, mat hr.ydist⟩

/-- C45: permuting by `p` and then by `q` is permuting by the composition `k ↦ p[q[k]]`. -/
theorem C45_compose {g : Geometry} (hg : g.WellFormed) {p q r : List ℕ}
    (hp : p.Perm (List.range g.nsites)) (hq : q.Perm (List.range g.nsites)) (hr : r.length = q.length)
    (hc : ∀ k s : ℕ, q[k]? = some s → r[k]? = p[s]?) :
    ∃ g1 g2 g3, g.permuteSites p = .ok g1 ∧ g1.permuteSites q = .ok g2 ∧
      g.permuteSites r = .ok g3 ∧ g2.SameData g3 := by
  obtain ⟨g1, h1, e1⟩ := permuteSites_ok hg hp
  have hlen : p.length = g.nsites := by rw [hp.length_eq, List.length_range]
  have hn : g1.nsites = g.nsites := by rw [nsites, e1.xlocs, List.length_map, hlen]
  obtain ⟨g2, h2, e2⟩ := permuteSites_ok e1.wellFormed (hn ▸ hq)
  have hql : ∀ a ∈ q, a < p.length := fun a ha => hlen ▸ List.mem_range.1 ((hq.mem_iff).1 ha)
  have e12 := e1.comp e2 hql
  have er : r = q.map fun a => p.getD a 0 := by
    apply List.ext_getElem
    · simp [hr]
    · intro k hk hk'
      have hkq : k < q.length := hr ▸ hk
      have := hc k q[k] (List.getElem?_eq_getElem hkq)
      rw [List.getElem?_eq_getElem hk] at this
      rw [List.getElem_map, List.getD_eq_getElem?_getD, ← this]
      rfl
  have hrp : r.Perm (List.range g.nsites) := by
    have h3 : (q.map fun a => p.getD a 0).Perm ((List.range g.nsites).map fun a => p.getD a 0) :=
      hq.map _
    have h4 : ((List.range g.nsites).map fun a => p.getD a 0) = p := by
      apply List.ext_getElem
      · simp [hlen]
      · intro i _ h2
        simp [List.getD_eq_getElem?_getD, h2]
    rw [er]
    rw [h4] at h3
    exact h3.trans hp
  obtain ⟨g3, h3, e3⟩ := permuteSites_ok hg hrp
  refine ⟨g1, g2, g3, h1, h2, h3, ?_⟩
  rw [← er] at e12
  exact e12.unique e3

/-- C45: permuting by the inverse restores the geometry. -/
theorem C45_inverse {g : Geometry} (hg : g.WellFormed) {p q : List ℕ}
    (hp : p.Perm (List.range g.nsites)) (hq : q.Perm (List.range g.nsites))
    (hc : ∀ k s : ℕ, q[k]? = some s → p[s]? = some k) :
    ∃ g1 g2, g.permuteSites p = .ok g1 ∧ g1.permuteSites q = .ok g2 ∧ g2.SameData g := by
  have hlen : q.length = g.nsites := by rw [hq.length_eq, List.length_range]
  obtain ⟨g1, g2, g3, h1, h2, h3, h4⟩ := C45_compose hg (r := List.range g.nsites) hp hq
    (by rw [List.length_range, hlen]) (fun k s hk => by
      rw [hc k s hk]
      have : k < g.nsites := hlen ▸ (List.getElem?_eq_some_iff.1 hk).1
      simp [this])
  obtain ⟨g4, h5, h6⟩ := permuteSites_ok hg (List.Perm.refl (List.range g.nsites))
  rw [h3] at h5
  injection h5 with h5
  subst h5
  exact ⟨g1, g2, h1, h2, h4.trans (h6.id hg)⟩

/-- C45: a list of indices that is not a permutation of the sites is rejected. -/
theorem C45_reject (g : Geometry) (perm : List ℕ) (hp : ¬ perm.Perm (List.range g.nsites)) :
    g.permuteSites perm = .error .value :=
  permuteSites_error g perm hp

/-- Relabelling an L-shaped cluster by a rotation of the three sites and back. -/
example : ∃ g g1 g2, createNonPeriodic (realSites [(0, 0), (1, 0), (1, 5)]).1
      (realSites [(0, 0), (1, 0), (1, 5)]).2 none none = .ok g ∧
    g.permuteSites [1, 2, 0] = .ok g1 ∧ g1.permuteSites [2, 0, 1] = .ok g2 ∧ g2.SameData g ∧
    g.permuteSites [1, 2, 2] = .error .value := by
  obtain ⟨g, hg, _, hx, _, hw, _⟩ := C44_adjacency [(0, 0), (1, 0), (1, 5)]
  have hn : g.nsites = 3 := by rw [nsites, hx]; rfl
  obtain ⟨g1, g2, h1, h2, h3⟩ := C45_inverse hw (p := [1, 2, 0]) (q := [2, 0, 1])
    (by rw [hn]; decide) (by rw [hn]; decide) (by
      intro k s hk
      rcases k with _ | _ | _ | k
      · simp at hk; subst hk; rfl
      · simp at hk; subst hk; rfl
      · simp at hk; subst hk; rfl
      · simp at hk)
  exact ⟨g, g1, g2, hg, h1, h2, h3, C45_reject g _ (by rw [hn]; decide)⟩

end ED.Props
