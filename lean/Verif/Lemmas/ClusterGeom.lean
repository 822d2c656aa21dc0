import Verif.Lemmas.SortSites
import Verif.Spec.Clusters
import Verif.Model.Clusters

/-! # Sorted integer clusters -/

namespace ED

open ED.Geometry Classical

/-- The order of the sites of a cluster whose top row is `top`. -/
def snakeLE (top : ℤ) (p q : ℤ × ℤ) : Prop :=
  siteKey "top_alternating" top p ≤ siteKey "top_alternating" top q

instance (top : ℤ) : Std.Total (snakeLE top) := ⟨fun _ _ => le_total _ _⟩
instance (top : ℤ) : IsTrans (ℤ × ℤ) (snakeLE top) := ⟨fun _ _ _ h1 h2 => h1.trans h2⟩

theorem snakeLE_antisymm {top : ℤ} {p q : ℤ × ℤ} (h1 : snakeLE top p q) (h2 : snakeLE top q p) : p = q :=
  siteKey_injective _ _ (le_antisymm h1 h2)

/-- Height of the top row. -/
noncomputable def topOf (l : List (ℤ × ℤ)) : ℤ := if h : l ≠ [] then (max_site l h).choose else 0

theorem topOf_mem {l : List (ℤ × ℤ)} (h : l ≠ []) : ∃ p ∈ l, p.2 = topOf l := by
  unfold topOf
  rw [dif_pos h]
  exact (max_site l h).choose_spec.1

theorem le_topOf {l : List (ℤ × ℤ)} {p : ℤ × ℤ} (hp : p ∈ l) : p.2 ≤ topOf l := by
  have h : l ≠ [] := List.ne_nil_of_mem hp
  unfold topOf
  rw [dif_pos h]
  exact (max_site l h).choose_spec.2 p hp

theorem topOf_unique {l : List (ℤ × ℤ)} {top : ℤ} (h1 : ∃ p ∈ l, p.2 = top) (h2 : ∀ p ∈ l, p.2 ≤ top) :
    topOf l = top := by
  obtain ⟨p, hp, rfl⟩ := h1
  obtain ⟨q, hq, e⟩ := topOf_mem (List.ne_nil_of_mem hp)
  exact le_antisymm (e ▸ h2 q hq) (le_topOf hp)

theorem topOf_perm {l m : List (ℤ × ℤ)} (h : l.Perm m) : topOf l = topOf m := by
  by_cases hl : l = []
  · subst hl
    rw [List.nil_perm.1 h]
  · apply topOf_unique
    · obtain ⟨p, hp, e⟩ := topOf_mem (fun hm : m = [] => hl (by subst hm; exact List.perm_nil.1 h))
      exact ⟨p, h.mem_iff.2 hp, e⟩
    · exact fun p hp => le_topOf (h.mem_iff.1 hp)

/-- The sites in the order of sorted clusters. -/
noncomputable def snakeSort (l : List (ℤ × ℤ)) : List (ℤ × ℤ) := l.insertionSort (snakeLE (topOf l))

theorem snakeSort_perm (l : List (ℤ × ℤ)) : (snakeSort l).Perm l := List.perm_insertionSort _ _

theorem snakeSort_snake {l : List (ℤ × ℤ)} (h : l ≠ []) (hn : l.Nodup) : Snake (snakeSort l) := by
  refine ⟨(snakeSort_perm l).nodup_iff.2 hn, topOf l, ?_, ?_, ?_⟩
  · obtain ⟨p, hp, e⟩ := topOf_mem h
    exact ⟨p, (snakeSort_perm l).mem_iff.2 hp, e⟩
  · exact fun p hp => le_topOf ((snakeSort_perm l).mem_iff.1 hp)
  · exact List.pairwise_insertionSort (snakeLE (topOf l)) l

theorem Snake.ne_nil {l : List (ℤ × ℤ)} (h : Snake l) : l ≠ [] := by
  obtain ⟨_, _, ⟨p, hp, _⟩, _⟩ := h
  exact List.ne_nil_of_mem hp

theorem Snake.nodup {l : List (ℤ × ℤ)} (h : Snake l) : l.Nodup := h.1

theorem Snake.pairwise {l : List (ℤ × ℤ)} (h : Snake l) : l.Pairwise (snakeLE (topOf l)) := by
  obtain ⟨_, top, h1, h2, h3⟩ := h
  rw [topOf_unique h1 h2]
  exact h3

theorem Snake.unique {l m : List (ℤ × ℤ)} (hl : Snake l) (hm : Snake m) (h : l.Perm m) : l = m := by
  apply List.Perm.eq_of_pairwise (le := snakeLE (topOf l))
  · intro a b _ _ h1 h2
    exact snakeLE_antisymm h1 h2
  · exact hl.pairwise
  · rw [topOf_perm h]
    exact hm.pairwise
  · exact h

theorem Snake.eq_of_toFinset {l m : List (ℤ × ℤ)} (hl : Snake l) (hm : Snake m)
    (h : l.toFinset = m.toFinset) : l = m :=
  hl.unique hm (List.perm_of_nodup_nodup_toFinset_eq hl.nodup hm.nodup h)

theorem snakeSort_eq {l m : List (ℤ × ℤ)} (hm : Snake m) (h : l.Perm m) : snakeSort l = m := by
  have hne : l ≠ [] := fun e => hm.ne_nil (List.nil_perm.1 (e ▸ h))
  exact (snakeSort_snake hne (h.nodup_iff.2 hm.nodup)).unique hm ((snakeSort_perm l).trans h)

/-- The sites moved by `v`. -/
def shift (v : ℤ × ℤ) (l : List (ℤ × ℤ)) : List (ℤ × ℤ) := l.map (· + v)

theorem shift_shift (v w : ℤ × ℤ) (l : List (ℤ × ℤ)) : shift w (shift v l) = shift (v + w) l := by
  simp [shift, Function.comp_def, add_assoc]

theorem shift_zero (l : List (ℤ × ℤ)) : shift 0 l = l := by
  simp [shift]

theorem Snake.shift {l : List (ℤ × ℤ)} (h : Snake l) (v : ℤ × ℤ) : Snake (shift v l) := by
  obtain ⟨hn, top, ⟨p, hp, h1⟩, h2, h3⟩ := h
  refine ⟨hn.map (add_left_injective v), top + v.2, ⟨p + v, List.mem_map.2 ⟨p, hp, rfl⟩, by simp [h1]⟩, ?_, ?_⟩
  · intro q hq
    obtain ⟨r, hr, rfl⟩ := List.mem_map.1 hq
    exact add_le_add_left (h2 r hr) _
  · unfold ED.shift
    rw [List.pairwise_map]
    exact h3.imp fun hab => (siteKey_translate _ _ v _ _).2 hab

theorem toFinset_shift (v : ℤ × ℤ) (l : List (ℤ × ℤ)) : (shift v l).toFinset = l.toFinset.image (· + v) := by
  ext p
  simp only [shift, List.mem_toFinset, List.mem_map, Finset.mem_image]

theorem translate_iff {l m : List (ℤ × ℤ)} (hl : Snake l) (hm : Snake m) :
    Translate l.toFinset m.toFinset ↔ ∃ v, m = shift v l := by
  constructor
  · rintro ⟨v, hv⟩
    refine ⟨v, ?_⟩
    rw [← toFinset_shift] at hv
    exact hm.eq_of_toFinset (hl.shift v) hv
  · rintro ⟨v, rfl⟩
    exact ⟨v, toFinset_shift v l⟩

/-- An integer site as a point of the plane. -/
def realPt (p : ℤ × ℤ) : ℝ × ℝ := ((p.1 : ℝ), (p.2 : ℝ))

theorem realPt_injective : Function.Injective realPt := by
  intro p q h
  have h1 := congrArg Prod.fst h
  have h2 := congrArg Prod.snd h
  simp only [realPt, Int.cast_inj] at h1 h2
  exact Prod.ext h1 h2

theorem realSites_eq (l : List (ℤ × ℤ)) :
    (realSites l).1 = (l.map realPt).map Prod.fst ∧ (realSites l).2 = (l.map realPt).map Prod.snd := by
  simp [realSites, realList, realPt, Function.comp_def]

theorem realSites_append (l : List (ℤ × ℤ)) (q : ℤ × ℤ) :
    (realSites l).1 ++ [((q.1 : ℤ) : ℝ)] = (realSites (l ++ [q])).1 ∧
    (realSites l).2 ++ [((q.2 : ℤ) : ℝ)] = (realSites (l ++ [q])).2 := by
  simp [realSites, realList]

namespace Geometry

theorem hasSites_iff {g : Geometry} {l : List (ℤ × ℤ)} :
    g.HasSites l ↔ g.SameData (cluster (realSites l).1 (realSites l).2) := by
  unfold HasSites
  rw [create_sites]
  constructor
  · rintro ⟨h, e, hs⟩
    injection e with e
    exact e ▸ hs
  · exact fun h => ⟨_, rfl, h⟩

theorem HasSites.coords {g : Geometry} {l : List (ℤ × ℤ)} (h : g.HasSites l) : g.coords = l.map realPt := by
  rw [hasSites_iff] at h
  unfold Geometry.coords
  rw [h.xlocs, h.ylocs]
  simp only [cluster]
  rw [(realSites_eq l).1, (realSites_eq l).2]
  exact (List.zip_of_prod rfl rfl).symm

theorem createSorted_ok {l : List (ℤ × ℤ)} (h : l ≠ []) (hn : l.Nodup) :
    ∃ g, createSorted (realSites l).1 (realSites l).2 = .ok g ∧ g.IsCluster (snakeSort l) := by
  obtain ⟨g', h1, h2⟩ := sorted_sites (sites := l) (mode := "top_alternating") (Or.inl rfl) (topOf_mem h)
    (fun p hp => le_topOf hp)
  have e : snakeSort l = l.insertionSort fun p q =>
      siteKey "top_alternating" (topOf l) p ≤ siteKey "top_alternating" (topOf l) q := by
    unfold snakeSort snakeLE
    congr!
  rw [← e] at h2
  refine ⟨g', ?_, snakeSort_snake h hn, hasSites_iff.2 h2⟩
  unfold createSorted
  rw [create_sites]
  exact h1

theorem IsCluster.addSite {g : Geometry} {l : List (ℤ × ℤ)} (h : g.IsCluster l) {q : ℤ × ℤ} (hq : q ∉ l) :
    ∃ g', g.addSite (realPt q) = .ok g' ∧ g'.IsCluster (snakeSort (l ++ [q])) := by
  have hd := hasSites_iff.1 h.2
  unfold Geometry.addSite
  rw [hd.xlocs, hd.ylocs]
  simp only [cluster, realPt]
  rw [(realSites_append l q).1, (realSites_append l q).2]
  refine createSorted_ok (by simp) ?_
  rw [List.nodup_append]
  refine ⟨h.1.nodup, List.nodup_singleton _, ?_⟩
  intro a ha b hb e
  rw [List.mem_singleton] at hb
  subst hb
  subst e
  exact hq ha

theorem IsCluster.coords_mem {g : Geometry} {l : List (ℤ × ℤ)} (h : g.HasSites l) (q : ℤ × ℤ) :
    realPt q ∈ g.coords ↔ q ∈ l := by
  rw [h.coords, List.mem_map_of_injective realPt_injective]

private theorem dist_shift (l : List (ℤ × ℤ)) (v : ℤ × ℤ) :
    (cluster (realSites l).1 (realSites l).2).xdist.Equal
      (cluster (realSites (shift v l)).1 (realSites (shift v l)).2).xdist ∧
    (cluster (realSites l).1 (realSites l).2).ydist.Equal
      (cluster (realSites (shift v l)).1 (realSites (shift v l)).2).ydist ∧
    (cluster (realSites l).1 (realSites l).2).adjacency.Equal
      (cluster (realSites (shift v l)).1 (realSites (shift v l)).2).adjacency := by
  have hlen : (realSites l).1.length = (realSites (shift v l)).1.length := by
    rw [len_fst, len_fst, shift, List.length_map]
  have get : ∀ i < l.length, (shift v l).getD i (0, 0) = l.getD i (0, 0) + v := by
    intro i hi
    simp [shift, List.getD_eq_getElem?_getD, hi]
  have ex : ∀ i < l.length, ∀ j < l.length,
      (cluster (realSites l).1 (realSites l).2).xdist.e i j =
        (cluster (realSites (shift v l)).1 (realSites (shift v l)).2).xdist.e i j := by
    intro i hi j hj
    simp only [cluster, diff]
    rw [getD_fst, getD_fst, getD_fst, getD_fst, get i hi, get j hj]
    simp
  have ey : ∀ i < l.length, ∀ j < l.length,
      (cluster (realSites l).1 (realSites l).2).ydist.e i j =
        (cluster (realSites (shift v l)).1 (realSites (shift v l)).2).ydist.e i j := by
    intro i hi j hj
    simp only [cluster]
    rw [getD_snd, getD_snd, getD_snd, getD_snd, get i hi, get j hj]
    simp
  have hlt : ∀ {i}, i < (realSites l).1.length → i < l.length := fun hi => by rwa [len_fst] at hi
  exact ⟨⟨hlen, hlen, fun i hi j hj => ex i (hlt hi) j (hlt hj)⟩,
    ⟨hlen, hlen, fun i hi j hj => ey i (hlt hi) j (hlt hj)⟩,
    ⟨hlen, hlen, fun i hi j hj => neighbors_congr (ex i (hlt hi) j (hlt hj)) (ey i (hlt hi) j (hlt hj))⟩⟩

/-- Clusters with equal distances are translates of each other. -/
theorem HasSites.isequalAdjacency {g h : Geometry} {l m : List (ℤ × ℤ)} (hg : g.HasSites l)
    (hh : h.HasSites m) : g.isequalAdjacency h = .ok (decide (∃ v, m = shift v l)) := by
  rw [hasSites_iff] at hg hh
  have hlat : latticeEq g.lattice h.lattice = .ok true := by
    rw [hg.lattice, hh.lattice]
    rfl
  unfold Geometry.isequalAdjacency
  by_cases hv : ∃ v, m = shift v l
  · rw [decide_eq_true hv]
    obtain ⟨v, rfl⟩ := hv
    obtain ⟨h1, h2, h3⟩ := dist_shift l v
    rw [if_pos ⟨(hg.xdist.trans h1).trans hh.xdist.symm, (hg.ydist.trans h2).trans hh.ydist.symm,
      (hg.adjacency.trans h3).trans hh.adjacency.symm⟩, hlat]
  · rw [decide_eq_false hv, if_neg]
    rintro ⟨h1, h2, -⟩
    have h1 := (hg.xdist.symm.trans h1).trans hh.xdist
    have h2 := (hg.ydist.symm.trans h2).trans hh.ydist
    have hlen : l.length = m.length := by
      have := h1.1
      simp only [cluster, diff] at this
      rwa [len_fst, len_fst] at this
    apply hv
    refine ⟨m.getD 0 (0, 0) - l.getD 0 (0, 0), ?_⟩
    apply List.ext_getElem
    · simp [shift, hlen]
    · intro i hi hi'
      have hil : i < l.length := by rw [hlen]; exact hi
      have h0l : 0 < l.length := by omega
      have ex := h1.2.2 i (by simpa only [cluster, diff, len_fst] using hil) 0
        (by simpa only [cluster, diff, len_fst] using h0l)
      have ey := h2.2.2 i (by simpa only [cluster, diff, len_fst] using hil) 0
        (by simpa only [cluster, diff, len_fst] using h0l)
      simp only [cluster, diff] at ex ey
      rw [getD_fst, getD_fst, getD_fst, getD_fst, ← Int.cast_sub, ← Int.cast_sub, Int.cast_inj] at ex
      rw [getD_snd, getD_snd, getD_snd, getD_snd, ← Int.cast_sub, ← Int.cast_sub, Int.cast_inj] at ey
      have gl : l.getD i (0, 0) = l[i] := by simp [List.getD_eq_getElem?_getD, hil]
      have gm : m.getD i (0, 0) = m[i] := by simp [List.getD_eq_getElem?_getD, hi]
      rw [gl, gm] at ex ey
      simp only [shift, List.getElem_map]
      apply Prod.ext
      · simp only [Prod.fst_add, Prod.fst_sub]
        linarith
      · simp only [Prod.snd_add, Prod.snd_sub]
        linarith

/-- Equality of clusters. -/
theorem HasSites.isequal {g h : Geometry} {l m : List (ℤ × ℤ)} (hg : g.HasSites l)
    (hh : h.HasSites m) : g.isequal h = .ok (decide (l = m)) := by
  have cg := hg.coords
  have ch := hh.coords
  rw [hasSites_iff] at hg hh
  have hlat : latticeEq g.lattice h.lattice = .ok true := by
    rw [hg.lattice, hh.lattice]
    rfl
  unfold Geometry.isequal
  by_cases hv : l = m
  · rw [decide_eq_true hv]
    subst hv
    rw [if_pos ⟨hg.xlocs.trans hh.xlocs.symm, hg.ylocs.trans hh.ylocs.symm, hg.xdist.trans hh.xdist.symm,
      hg.ydist.trans hh.ydist.symm, hg.adjacency.trans hh.adjacency.symm⟩, hlat]
  · rw [decide_eq_false hv, if_neg]
    rintro ⟨h1, h2, -⟩
    apply hv
    apply (List.map_injective_iff.2 realPt_injective)
    rw [← cg, ← ch]
    unfold Geometry.coords
    rw [h1, h2]

end Geometry

end ED
