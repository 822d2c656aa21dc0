import Verif.Lemmas.SortSites
import Mathlib.Tactic.IntervalCases

/-!
# Sorting of sites (C46)
-/

namespace ED.Props

open ED ED.Geometry Classical

/-- C46: in every mode the result is a permutation of the sites. -/
theorem C46_permutation {g : Geometry} {mode : String} {p : List ℕ}
    (h : g.sortingPermutation mode = .ok p) : p.Perm (List.range g.nsites) :=
  sortingPermutation_perm h

/-- C46: sorting is idempotent in every mode: the sorting permutation of a sorted geometry is the
identity, and sorting it again changes nothing. -/
theorem C46_idempotent {g g' : Geometry} (hg : g.WellFormed) {mode : String}
    (h : g.sorted mode = .ok g') :
    g'.sortingPermutation mode = .ok (List.range g.nsites) ∧
      ∃ g'', g'.sorted mode = .ok g'' ∧ g''.SameData g' := by
  unfold Geometry.sorted at h
  cases hp : g.sortingPermutation mode with
  | error e => rw [hp] at h; exact absurd h (by simp [bind, Except.bind])
  | ok p =>
    rw [hp] at h
    simp only [bind, Except.bind] at h
    obtain ⟨g1, h1, hr⟩ := permuteSites_ok hg (sortingPermutation_perm hp)
    rw [h1] at h
    injection h with h
    subst h
    have hid := sortingPermutation_idem hg hp hr
    refine ⟨hid, ?_⟩
    have hn : g1.nsites = g.nsites := by
      rw [nsites, hr.xlocs, List.length_map, (sortingPermutation_perm hp).length_eq, List.length_range]
    obtain ⟨g2, h2, hr2⟩ := permuteSites_ok hr.wellFormed (List.Perm.refl (List.range g1.nsites))
    refine ⟨g2, ?_, hr2.id hr.wellFormed⟩
    unfold Geometry.sorted
    rw [hid, ← hn]
    exact h2

/-- C46: sorting an integer cluster gives the cluster of the same sites listed row by row: from the top
(mode `bottom_right`: from the bottom), each row from left to right (mode `top_alternating`: every second
row from right to left). -/
theorem C46_order {sites : List (ℤ × ℤ)} {mode : String}
    (hm : mode = "top_alternating" ∨ mode = "top_left" ∨ mode = "bottom_right") {top : ℤ}
    (ht : ∃ p ∈ sites, p.2 = top) (hmax : ∀ p ∈ sites, p.2 ≤ top) :
    ∃ g g' sorted h, createNonPeriodic (realSites sites).1 (realSites sites).2 none none = .ok g ∧
      g.sorted mode = .ok g' ∧ sorted.Perm sites ∧
      sorted.Pairwise (fun p q => siteKey mode top p ≤ siteKey mode top q) ∧
      createNonPeriodic (realSites sorted).1 (realSites sorted).2 none none = .ok h ∧ g'.SameData h := by
  obtain ⟨g', h1, h2⟩ := sorted_sites hm ht hmax
  have := keyTotal mode top
  have := keyTrans mode top
  exact ⟨_, g', _, _, create_sites sites, h1, List.perm_insertionSort _ _,
    List.pairwise_insertionSort (fun p q => siteKey mode top p ≤ siteKey mode top q) sites,
    create_sites _, h2⟩

/-- C46: two lists of the same integer sites become identical after sorting by coordinates. -/
theorem C46_canonical_partial {sites sites' : List (ℤ × ℤ)} (hs : sites.Perm sites') (hne : sites ≠ [])
    {mode : String} (hm : mode = "top_alternating" ∨ mode = "top_left" ∨ mode = "bottom_right") :
    ∃ g g' s s', createNonPeriodic (realSites sites).1 (realSites sites).2 none none = .ok g ∧
      createNonPeriodic (realSites sites').1 (realSites sites').2 none none = .ok g' ∧
      g.sorted mode = .ok s ∧ g'.sorted mode = .ok s' ∧ s.SameData s' := by
  obtain ⟨top, ht, hmax⟩ := max_site sites hne
  obtain ⟨s, h1, h2⟩ := sorted_sites hm ht hmax
  obtain ⟨s', h3, h4⟩ := sorted_sites (sites := sites') hm
    (by obtain ⟨p, hp, e⟩ := ht; exact ⟨p, hs.mem_iff.1 hp, e⟩) (fun p hp => hmax p (hs.mem_iff.2 hp))
  refine ⟨_, _, s, s', create_sites sites, create_sites sites', h1, h3, ?_⟩
  have := keyTotal mode top
  have := keyTrans mode top
  have e : (sites.insertionSort fun p q => siteKey mode top p ≤ siteKey mode top q) =
      sites'.insertionSort fun p q => siteKey mode top p ≤ siteKey mode top q := by
    apply List.Perm.eq_of_pairwise (le := fun p q => siteKey mode top p ≤ siteKey mode top q)
    · intro a b _ _ h1 h2
      exact siteKey_injective mode top (le_antisymm h1 h2)
    · exact List.pairwise_insertionSort (fun p q => siteKey mode top p ≤ siteKey mode top q) sites
    · exact List.pairwise_insertionSort (fun p q => siteKey mode top p ≤ siteKey mode top q) sites'
    · exact (List.perm_insertionSort _ _).trans (hs.trans (List.perm_insertionSort _ _).symm)
  rw [← e] at h4
  exact h2.trans h4.symm

/-- C46: two integer clusters that are translates of each other, listed in any order, become translates
site by site after sorting by coordinates, with equal distances, adjacency and phases. -/
theorem C46_translate_partial {sites sites' : List (ℤ × ℤ)} (v : ℤ × ℤ)
    (hs : sites'.Perm (sites.map (· + v))) (hne : sites ≠ []) {mode : String}
    (hm : mode = "top_alternating" ∨ mode = "top_left" ∨ mode = "bottom_right") :
    ∃ g g' s s', createNonPeriodic (realSites sites).1 (realSites sites).2 none none = .ok g ∧
      createNonPeriodic (realSites sites').1 (realSites sites').2 none none = .ok g' ∧
      g.sorted mode = .ok s ∧ g'.sorted mode = .ok s' ∧
      s'.xlocs = s.xlocs.map (· + (v.1 : ℝ)) ∧ s'.ylocs = s.ylocs.map (· + (v.2 : ℝ)) ∧
      s'.xdist.Equal s.xdist ∧ s'.ydist.Equal s.ydist ∧ s'.adjacency.Equal s.adjacency ∧
      s'.phase.Equal s.phase := by
  obtain ⟨top, ht, hmax⟩ := max_site sites hne
  obtain ⟨s, h1, h2⟩ := sorted_sites hm ht hmax
  have hne' : sites.map (· + v) ≠ [] := by simpa using hne
  obtain ⟨g0, g1, s0, s1, a0, a1, b0, b1, hsame⟩ := C46_canonical_partial hs.symm hne' hm
  obtain ⟨s', h3, h4⟩ := sorted_sites (sites := sites.map (· + v)) (top := top + v.2) hm
    (by
      obtain ⟨p, hp, rfl⟩ := ht
      exact ⟨p + v, List.mem_map.2 ⟨p, hp, rfl⟩, rfl⟩)
    (by
      intro p hp
      obtain ⟨q, hq, rfl⟩ := List.mem_map.1 hp
      exact add_le_add_left (hmax q hq) _)
  rw [create_sites] at a0 a1
  injection a0 with a0
  injection a1 with a1
  subst a0 a1
  rw [h3] at b0
  injection b0 with b0
  subst b0
  have e : ((sites.map (· + v)).insertionSort fun p q =>
        siteKey mode (top + v.2) p ≤ siteKey mode (top + v.2) q) =
      (sites.insertionSort fun p q => siteKey mode top p ≤ siteKey mode top q).map (· + v) := by
    rw [List.map_insertionSort (fun p q => siteKey mode top p ≤ siteKey mode top q)
      (fun p q => siteKey mode (top + v.2) p ≤ siteKey mode (top + v.2) q)]
    intro a _ b _
    exact (siteKey_translate mode top v a b).symm
  rw [e] at h4
  have h5 := hsame.symm.trans h4
  set l := sites.insertionSort fun p q => siteKey mode top p ≤ siteKey mode top q with hl
  have hf : (realSites (l.map (· + v))).1 = (realSites l).1.map (· + (v.1 : ℝ)) := by
    simp only [realSites, realList, List.map_map]
    apply List.map_congr_left
    intro p _
    simp
  have hg : (realSites (l.map (· + v))).2 = (realSites l).2.map (· + (v.2 : ℝ)) := by
    simp only [realSites, realList, List.map_map]
    apply List.map_congr_left
    intro p _
    simp
  have gd : ∀ (m : List ℝ) (c : ℝ) (i j : ℕ), i < m.length → j < m.length →
      (m.map (· + c)).getD i 0 - (m.map (· + c)).getD j 0 = m.getD i 0 - m.getD j 0 := by
    intro m c i j hi hj
    simp [List.getD_eq_getElem?_getD, hi, hj]
  have ex : ∀ i < l.length, ∀ j < l.length,
      (cluster (realSites (l.map (· + v))).1 (realSites (l.map (· + v))).2).xdist.e i j =
        (cluster (realSites l).1 (realSites l).2).xdist.e i j := by
    intro i hi j hj
    simp only [cluster, diff]
    rw [hf]
    exact gd _ _ i j (by rw [len_fst]; exact hi) (by rw [len_fst]; exact hj)
  have ey : ∀ i < l.length, ∀ j < l.length,
      (cluster (realSites (l.map (· + v))).1 (realSites (l.map (· + v))).2).ydist.e i j =
        (cluster (realSites l).1 (realSites l).2).ydist.e i j := by
    intro i hi j hj
    simp only [cluster]
    rw [hg]
    exact gd _ _ i j (by rw [len_snd]; exact hi) (by rw [len_snd]; exact hj)
  have hlen : (realSites (l.map (· + v))).1.length = (realSites l).1.length := by
    rw [len_fst, len_fst, List.length_map]
  have hlen' : (realSites (l.map (· + v))).1.length = l.length := by
    rw [len_fst, List.length_map]
  have EX : (cluster (realSites (l.map (· + v))).1 (realSites (l.map (· + v))).2).xdist.Equal
      (cluster (realSites l).1 (realSites l).2).xdist :=
    ⟨hlen, hlen, fun i hi j hj => ex i (hlen' ▸ hi) j (hlen' ▸ hj)⟩
  have EY : (cluster (realSites (l.map (· + v))).1 (realSites (l.map (· + v))).2).ydist.Equal
      (cluster (realSites l).1 (realSites l).2).ydist :=
    ⟨hlen, hlen, fun i hi j hj => ey i (hlen' ▸ hi) j (hlen' ▸ hj)⟩
  have EA : (cluster (realSites (l.map (· + v))).1 (realSites (l.map (· + v))).2).adjacency.Equal
      (cluster (realSites l).1 (realSites l).2).adjacency :=
    ⟨hlen, hlen, fun i hi j hj =>
      neighbors_congr (ex i (hlen' ▸ hi) j (hlen' ▸ hj)) (ey i (hlen' ▸ hi) j (hlen' ▸ hj))⟩
  have EP : (cluster (realSites (l.map (· + v))).1 (realSites (l.map (· + v))).2).phase.Equal
      (cluster (realSites l).1 (realSites l).2).phase := ⟨hlen, hlen, fun _ _ _ _ => rfl⟩
  refine ⟨_, _, s, s1, create_sites sites, create_sites sites', h1, b1, ?_, ?_, ?_, ?_, ?_, ?_⟩
  · rw [h5.xlocs, h2.xlocs]
    exact hf
  · rw [h5.ylocs, h2.ylocs]
    exact hg
  · exact (h5.xdist.trans EX).trans h2.xdist.symm
  · exact (h5.ydist.trans EY).trans h2.ydist.symm
  · exact (h5.adjacency.trans EA).trans h2.adjacency.symm
  · exact (h5.phase.trans EP).trans h2.phase.symm

/-- C46: unknown modes are rejected, and the empty cluster cannot be sorted in the modes
`top_alternating` (maximum of an empty array) and `adjacency` (index of an empty list). -/
theorem C46_rejects (g : Geometry) :
    (∀ mode, mode ≠ "top_alternating" → mode ≠ "top_left" → mode ≠ "bottom_right" →
      mode ≠ "adjacency" → g.sortingPermutation mode = .error .value) ∧
    (g.ylocs = [] → g.sortingPermutation "top_alternating" = .error .value) ∧
    (g.nsites = 0 → g.sortingPermutation "adjacency" = .error .index) := by
  refine ⟨fun mode h1 h2 h3 h4 => ?_, fun h => ?_, fun h => ?_⟩
  · unfold sortingPermutation
    simp only
    rw [if_neg h1, if_neg h2, if_neg h3, if_neg h4]
  · unfold sortingPermutation
    simp only
    rw [if_pos trivial, h]
    rfl
  · unfold sortingPermutation
    simp (decide := true) only [if_false, if_true]
    rw [if_pos h]

/-- Two sites in a row. -/
private theorem pair_adjacency (a b : ℤ × ℤ) :
    (cluster (realSites [a, b]).1 (realSites [a, b]).2).sortingPermutation "adjacency" = .ok [0, 1] := by
  set g := cluster (realSites [a, b]).1 (realSites [a, b]).2 with hg
  have hn : g.nsites = 2 := rfl
  have hv := (neighbors_valid g.xdist g.ydist 2 rfl rfl (fun i _ j _ => abs_sub_comm _ _)
    (fun i _ j _ => abs_sub_comm _ _))
  have hd : g.adjacency.e 0 0 = g.adjacency.e 1 1 := by
    apply neighbors_congr
    · simp [hg, cluster, diff]
    · simp [hg, cluster]
  have hB : g.adjacency.Equal (relabel [1, 0] g.adjacency) := by
    refine ⟨rfl, rfl, ?_⟩
    intro i hi j hj
    have hi' : i < 2 := hi
    have hj' : j < 2 := hj
    interval_cases i <;> interval_cases j
    · exact hd
    · exact hv.1.2.2 0 (Nat.zero_lt_two) 1 (Nat.one_lt_two)
    · exact hv.1.2.2 1 (Nat.one_lt_two) 0 (Nat.zero_lt_two)
    · exact hd.symm
  have hk : ∀ k, walkCount g.adjacency k 0 = walkCount g.adjacency k 1 := fun k =>
    walkCount_relabel (perm := [1, 0]) rfl (by decide) hB k 0 (by decide)
  unfold sortingPermutation
  simp (decide := true) only [if_false, if_true]
  rw [hn, if_neg (by decide)]
  have : lexsort 2 ((List.range 2).map fun k => walkCount g.adjacency k) = [0, 1] := by
    apply lexsort_id
    intro i j hij hj
    have h0 : i = 0 := by omega
    have h1 : j = 1 := by omega
    subst h0 h1
    rw [lexLE_congr _ (fun k => walkCount g.adjacency k) 0 1 1 1 fun k _ => ⟨hk k, rfl⟩]
    rcases lexLE_total ((List.range 2).map fun k => walkCount g.adjacency k) 1 1 with h | h <;> exact h
  rw [this]

/-- C46 fails in mode `adjacency`: the two orders of the same two neighbouring sites stay different
after sorting. -/
theorem C46_adjacency_violated :
    ∃ (sites sites' : List (ℤ × ℤ)) (g g' s s' : Geometry), sites.Perm sites' ∧ sites.Nodup ∧
      createNonPeriodic (realSites sites).1 (realSites sites).2 none none = .ok g ∧
      createNonPeriodic (realSites sites').1 (realSites sites').2 none none = .ok g' ∧
      g.sorted "adjacency" = .ok s ∧ g'.sorted "adjacency" = .ok s' ∧ ¬ s.SameData s' := by
  have key : ∀ a b : ℤ × ℤ, ∃ s, (cluster (realSites [a, b]).1 (realSites [a, b]).2).sorted "adjacency" =
      .ok s ∧ s.SameData (cluster (realSites [a, b]).1 (realSites [a, b]).2) := by
    intro a b
    have hw := cluster_wellFormed (realSites [a, b]).1 (realSites [a, b]).2 (by rw [len_fst, len_snd])
    obtain ⟨s, h1, h2⟩ := permuteSites_ok hw (List.Perm.refl _)
    refine ⟨s, ?_, h2.id hw⟩
    unfold Geometry.sorted
    rw [pair_adjacency a b]
    exact h1
  obtain ⟨s, h1, h2⟩ := key (0, 0) (1, 0)
  obtain ⟨s', h3, h4⟩ := key (1, 0) (0, 0)
  refine ⟨[(0, 0), (1, 0)], [(1, 0), (0, 0)], _, _, s, s', by decide, by decide, create_sites _,
    create_sites _, h1, h3, ?_⟩
  intro h
  have h5 := (h2.symm.trans (h.trans h4)).xlocs
  simp [cluster, realSites, realList] at h5

/-- A snake through two rows: the upper row from left to right, the lower one from right to left. -/
example : ∃ g s, createNonPeriodic (realSites [(0, 0), (1, 1), (1, 0), (0, 1)]).1
      (realSites [(0, 0), (1, 1), (1, 0), (0, 1)]).2 none none = .ok g ∧
    g.sorted "top_alternating" = .ok s ∧ s.xlocs = [0, 1, 1, 0] ∧ s.ylocs = [1, 1, 0, 0] := by
  obtain ⟨g, g', l, h, h1, h2, h3, h4, h5, h6⟩ := C46_order
    (sites := [(0, 0), (1, 1), (1, 0), (0, 1)]) (mode := "top_alternating") (top := 1) (Or.inl rfl)
    ⟨(1, 1), by decide, rfl⟩ (by decide)
  have hl : l = [(0, 1), (1, 1), (1, 0), (0, 0)] := by
    apply List.Perm.eq_of_pairwise
      (le := fun p q => siteKey "top_alternating" 1 p ≤ siteKey "top_alternating" 1 q)
    · intro a b _ _ h1 h2
      exact siteKey_injective _ _ (le_antisymm h1 h2)
    · exact h4
    · decide +kernel
    · exact h3.trans (by decide)
  subst hl
  rw [create_sites] at h5
  injection h5 with h5
  subst h5
  refine ⟨g, g', h1, h2, ?_, ?_⟩
  · rw [h6.xlocs]
    simp [cluster, realSites, realList]
  · rw [h6.ylocs]
    simp [cluster, realSites, realList]

/-- The L-shaped cluster and its copy moved by two columns and one row and listed backwards. -/
example : ∃ s s' g g' : Geometry,
    createNonPeriodic (realSites [(0, 0), (1, 0), (1, 1)]).1 (realSites [(0, 0), (1, 0), (1, 1)]).2
      none none = .ok g ∧
    createNonPeriodic (realSites [(3, 2), (3, 1), (2, 1)]).1 (realSites [(3, 2), (3, 1), (2, 1)]).2
      none none = .ok g' ∧
    g.sorted "top_alternating" = .ok s ∧ g'.sorted "top_alternating" = .ok s' ∧
    s'.adjacency.Equal s.adjacency := by
  obtain ⟨g, g', s, s', h1, h2, h3, h4, _, _, _, _, h5, _⟩ := C46_translate_partial
    (sites := [(0, 0), (1, 0), (1, 1)]) (sites' := [(3, 2), (3, 1), (2, 1)]) (2, 1) (by decide)
    (by decide) (mode := "top_alternating") (Or.inl rfl)
  exact ⟨s, s', g, g', h1, h2, h3, h4, h5⟩

/-- Sorting the sorted cluster again in mode `adjacency`. -/
example (g g' : Geometry) (hg : g.WellFormed) (h : g.sorted "adjacency" = .ok g') :
    g'.sortingPermutation "adjacency" = .ok (List.range g.nsites) := (C46_idempotent hg h).1

end ED.Props
