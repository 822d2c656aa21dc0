import Verif.Lemmas.SubAll
import Verif.Lemmas.GroupClusters
import Verif.Props.Subclusters

/-! # Reduced subclusters -/

namespace ED

open ED.Geometry Classical

theorem equivalent_false_true {sym : Bool} {S T : Finset (ℤ × ℤ)} (h : Equivalent sym S T) :
    Equivalent true S T := by
  rw [equivalent_iff] at *
  obtain ⟨s, w, -, h⟩ := h
  exact ⟨s, w, by simp, h⟩

theorem subsetCount_finite (sym : Bool) (S R : Finset (ℤ × ℤ)) :
    {T : Finset (ℤ × ℤ) | T ⊂ S ∧ ConnectedSites squareLattice T ∧ Equivalent sym R T}.Finite := by
  refine Set.Finite.subset (Finset.finite_toSet S.powerset) ?_
  rintro T ⟨h, -⟩
  exact Finset.mem_coe.2 (Finset.mem_powerset.2 h.1)

theorem subsetCount_le {sym : Bool} {S S' : Finset (ℤ × ℤ)} (h : Equivalent sym S S') (R : Finset (ℤ × ℤ)) :
    subsetCount sym S R ≤ subsetCount sym S' R := by
  obtain ⟨s, w, hs, rfl⟩ := equivalent_iff.1 h
  have hinj : Function.Injective fun p => squareMap s p + w := fun a b e =>
    squareMap_injective s (add_right_cancel e)
  unfold subsetCount
  refine Set.ncard_le_ncard_of_injOn (fun T => T.image fun p => squareMap s p + w) ?_ ?_
    (subsetCount_finite sym _ R)
  · rintro T ⟨h1, h2, h3⟩
    refine ⟨(Finset.image_ssubset_image hinj).2 h1, ?_, ?_⟩
    · exact h2.image _ fun p q hpq => adj_map (lv1 := (1, 0)) (lv2 := (0, 1)) (sym := sym)
        (fun _ => Props.square_symmetric) hs w hpq
    · exact h3.trans (equivalent_iff.2 ⟨s, w, hs, rfl⟩)
  · intro T _ T' _ e
    exact Finset.image_injective hinj e

theorem subsetCount_congr {sym : Bool} {S S' R R' : Finset (ℤ × ℤ)} (h : Equivalent sym S S')
    (h' : Equivalent sym R R') : subsetCount sym S R = subsetCount sym S' R' := by
  have e : ∀ S : Finset (ℤ × ℤ), subsetCount sym S R = subsetCount sym S R' := by
    intro S
    unfold subsetCount
    congr 1
    ext T
    simp only [Set.mem_setOf_eq]
    exact ⟨fun ⟨a, b, c⟩ => ⟨a, b, h'.symm.trans c⟩, fun ⟨a, b, c⟩ => ⟨a, b, h'.trans c⟩⟩
  rw [← e]
  exact le_antisymm (subsetCount_le h R) (subsetCount_le h.symm R)

/-- The sum over the clusters of the list counts the subsets. -/
theorem sum_subsets {P : List (ℤ × ℤ)} {Ls : List (List (List (ℤ × ℤ)))} {known : List (List ℕ)}
    (h : SubInv P squareLattice Ls known) (ha : AllFound P squareLattice Ls) {S : Finset (ℤ × ℤ)}
    (hS : ∀ p ∈ S, p ∈ P) (R : Finset (ℤ × ℤ)) :
    (∑ y ∈ Finset.range Ls.flatten.length, (if (Ls.flatten.getD y []).toFinset ⊂ S then (1 : ℝ) else 0) *
      (if Equivalent true R (Ls.flatten.getD y []).toFinset then 1 else 0)) = subsetCount true S R := by
  have e : ∀ y ∈ Finset.range Ls.flatten.length, (if (Ls.flatten.getD y []).toFinset ⊂ S then (1 : ℝ) else 0) *
      (if Equivalent true R (Ls.flatten.getD y []).toFinset then 1 else 0) =
      if (Ls.flatten.getD y []).toFinset ⊂ S ∧ Equivalent true R (Ls.flatten.getD y []).toFinset then 1 else 0 := by
    intro y _
    by_cases h1 : (Ls.flatten.getD y []).toFinset ⊂ S
    · by_cases h2 : Equivalent true R (Ls.flatten.getD y []).toFinset
      · rw [if_pos h1, if_pos h2, if_pos ⟨h1, h2⟩, one_mul]
      · rw [if_neg h2, if_neg (show ¬ (_ ∧ _) from fun h => h2 h.2), mul_zero]
    · rw [if_neg h1, if_neg (show ¬ (_ ∧ _) from fun h => h1 h.1), zero_mul]
  rw [Finset.sum_congr rfl e, Finset.sum_boole]
  congr 1
  unfold subsetCount
  rw [← Set.ncard_coe_finset]
  have get : ∀ y < Ls.flatten.length, ∃ hy : y < Ls.flatten.length, Ls.flatten.getD y [] = Ls.flatten[y] := by
    intro y hy
    exact ⟨hy, by rw [List.getD_eq_getElem?_getD, List.getElem?_eq_getElem hy, Option.getD_some]⟩
  refine Set.ncard_congr (fun y _ => (Ls.flatten.getD y []).toFinset) ?_ ?_ ?_
  · intro y hy
    simp only [Finset.coe_filter, Finset.mem_range, Set.mem_setOf_eq] at hy
    obtain ⟨hy1, e⟩ := get y hy.1
    refine ⟨hy.2.1, ?_, hy.2.2⟩
    rw [e]
    exact (levels_elem h.levels (List.getElem_mem hy1)).2.2.1
  · intro y z hy hz hyz
    simp only [Finset.coe_filter, Finset.mem_range, Set.mem_setOf_eq] at hy hz
    obtain ⟨hy1, e1⟩ := get y hy.1
    obtain ⟨hz1, e2⟩ := get z hz.1
    rw [e1, e2] at hyz
    have := (levels_elem h.levels (List.getElem_mem hy1)).1.eq_of_toFinset
      (levels_elem h.levels (List.getElem_mem hz1)).1 hyz
    exact ((levels_nodup h.levels).getElem_inj_iff).1 this
  · rintro T ⟨h1, h2, h3⟩
    obtain ⟨l, hl, rfl⟩ := ha T (fun p hp => hS p (h1.1 hp)) h2
    obtain ⟨y, hy, rfl⟩ := List.mem_iff_getElem.1 hl
    obtain ⟨_, e'⟩ := get y hy
    refine ⟨y, ?_, by rw [e']⟩
    simp only [Finset.coe_filter, Finset.mem_range, Set.mem_setOf_eq]
    exact ⟨hy, by rw [e']; exact ⟨h1, h3⟩⟩

/-- The result of `get_reduced_subclusters` described by lists of sites: `Ds` are the representatives of the
orders. -/
structure ReducedRel (P : List (ℤ × ℤ)) (reps : List Geometry) (M : Arr ℝ) (inds : List ℕ)
    (Ds : List (List (List (ℤ × ℤ)))) : Prop where
  geoms : List.Forall₂ IsCluster reps Ds.flatten
  inds : inds = startIndices Ds
  sound : ∀ k (h : k < Ds.length), ∀ d ∈ Ds[k], Snake d ∧ d.length = k + 1 ∧
    ConnectedSites squareLattice d.toFinset ∧ ∀ p ∈ d, p ∈ P
  distinct : Ds.flatten.Pairwise fun a b => ¬ Equivalent true a.toFinset b.toFinset
  complete : ∀ S : Finset (ℤ × ℤ), (∀ p ∈ S, p ∈ P) → ConnectedSites squareLattice S →
    ∃ d ∈ Ds.flatten, Equivalent true d.toFinset S
  rows : M.rows = Ds.flatten.length
  cols : M.cols = Ds.flatten.length
  entry : ∀ i (hi : i < Ds.flatten.length) j (hj : j < Ds.flatten.length),
    M.e i j = subsetCount true Ds.flatten[i].toFinset Ds.flatten[j].toFinset

theorem pairwise_orders {sym : Bool} {Ds : List (List (List (ℤ × ℤ)))}
    (hc : ∀ k (h : k < Ds.length), ∀ d ∈ Ds[k], d.toFinset.card = k + 1)
    (hd : ∀ k (h : k < Ds.length), Ds[k].Pairwise fun a b => ¬ Equivalent sym a.toFinset b.toFinset) :
    Ds.flatten.Pairwise fun a b => ¬ Equivalent sym a.toFinset b.toFinset := by
  rw [List.pairwise_flatten]
  constructor
  · intro ls hls
    obtain ⟨k, hk, rfl⟩ := List.mem_iff_getElem.1 hls
    exact hd k hk
  · rw [List.pairwise_iff_getElem]
    intro i j hi hj hij a ha b hb he
    have h1 := hc i hi a ha
    have h2 := hc j hj b hb
    have := he.card
    omega

theorem edgeIndices_eq (Ds : List (List (List (ℤ × ℤ)))) : ∀ gs : List (List Geometry),
    gs.map List.length = Ds.map List.length → edgeIndices (gs.map List.length) = startIndices Ds := by
  intro gs h
  rw [h]
  clear h gs
  unfold edgeIndices
  apply List.ext_getElem
  · simp [startIndices]
  · intro i h1 h2
    rw [List.getElem_scanl]
    simp [startIndices, List.sum_eq_foldl]

theorem reducedSubclusters_ok {parent : Geometry} {P : List (ℤ × ℤ)} (hp : parent.IsParent P squareLattice)
    (hne : P ≠ []) : ∃ reps M inds Ds, reducedSubclusters parent = .ok (reps, M, inds) ∧
      ReducedRel P reps M inds Ds := by
  obtain ⟨gs, Ls, known, h1, h2, h3, h4⟩ := allSubclusters_ok hp hne
  have hgs : gs ≠ [] := by
    rintro rfl
    cases h2
    obtain ⟨p, hpP⟩ := List.exists_mem_of_ne_nil P hne
    obtain ⟨l, hl, -⟩ := h4 {p} (by simpa using hpP) (connected_singleton _ p)
    exact absurd hl (by simp)
  obtain ⟨st, Ds, Cs, r1, r2⟩ := reduceByGeometry_ok (sym := true) h2 hgs
  have hn : gs.flatten.length = Ls.flatten.length := by
    rw [List.length_flatten, List.length_flatten, forall2_lengths h2]
  have hD : ∀ k (h : k < Ds.length), ∀ d ∈ Ds[k], Snake d ∧ d.length = k + 1 ∧
      ConnectedSites squareLattice d.toFinset ∧ ∀ p ∈ d, p ∈ P := by
    intro k hk d hd
    have hk' : k < Ls.length := by rw [← r2.lenD]; exact hk
    exact (h3.levels k hk').sound d ((r2.grouped k hk').sublist.subset hd)
  have hDc : ∀ k (h : k < Ds.length), ∀ d ∈ Ds[k], d.toFinset.card = k + 1 := by
    intro k hk d hd
    obtain ⟨a, b, -⟩ := hD k hk d hd
    rw [List.toFinset_card_of_nodup a.nodup, b]
  have hpw := pairwise_orders (sym := true) hDc fun k hk => (r2.grouped k (by rw [← r2.lenD]; exact hk)).distinct
  -- entries of the reduction matrix
  have hC : ∀ i (hi : i < Ds.flatten.length) j (hj : j < Ls.flatten.length),
      st.2.2.1[j]? = some i ↔ Equivalent true Ds.flatten[i].toFinset Ls.flatten[j].toFinset := by
    intro i hi j hj
    obtain ⟨k, a, hk, ha, rfl⟩ := exists_startOf Ds hi
    obtain ⟨m, b, hm, hb, rfl⟩ := exists_startOf Ls hj
    have e1 : Ds.flatten[startOf Ds k + a] = Ds[k][a] :=
      Option.some.inj ((List.getElem?_eq_getElem hi).symm.trans (getElem_startOf Ds hk ha))
    have e2 : Ls.flatten[startOf Ls m + b] = Ls[m][b] :=
      Option.some.inj ((List.getElem?_eq_getElem hj).symm.trans (getElem_startOf Ls hm hb))
    rw [r2.entry hk ha hm hb, e1, e2]
    refine ⟨fun h => h.2, fun h => ⟨?_, h⟩⟩
    have c1 := hDc k hk _ (List.getElem_mem ha)
    obtain ⟨s1, s2, -⟩ := (h3.levels m hm).sound _ (List.getElem_mem hb)
    have c2 := h.card
    rw [List.toFinset_card_of_nodup s1.nodup, s2, c1] at c2
    omega
  have hCD : ∀ i (hi : i < Ds.flatten.length), Ds.flatten[i] ∈ Ls.flatten := by
    intro i hi
    obtain ⟨k, a, hk, ha, rfl⟩ := exists_startOf Ds hi
    have e1 : Ds.flatten[startOf Ds k + a] = Ds[k][a] :=
      Option.some.inj ((List.getElem?_eq_getElem hi).symm.trans (getElem_startOf Ds hk ha))
    rw [e1]
    have hk' : k < Ls.length := by rw [← r2.lenD]; exact hk
    exact List.mem_flatten.2 ⟨_, List.getElem_mem hk', (r2.grouped k hk').sublist.subset (List.getElem_mem ha)⟩
  refine ⟨st.1.flatten, ⟨st.2.2.2, st.2.2.2, fun i j => ∑ k ∈ Finset.range st.2.2.2,
      (if i = k then 1 / ∑ x ∈ Finset.range gs.flatten.length, (if st.2.2.1[x]? = some i then (1 : ℝ) else 0) else 0) *
        ∑ x ∈ Finset.range gs.flatten.length, (if st.2.2.1[x]? = some k then 1 else 0) *
          ∑ y ∈ Finset.range gs.flatten.length, (if y ∈ known.getD x [] then 1 else 0) *
            (if st.2.2.1[y]? = some j then 1 else 0)⟩, edgeIndices (st.1.map List.length), Ds, ?_, ?_⟩
  · unfold reducedSubclusters
    rw [h1]
    simp only [bind, Except.bind]
    rw [r1]
    simp [Arr.dot, Arr.transpose, diagArr, pure, Except.pure]
  · refine ⟨List.rel_flatten r2.geoms, edgeIndices_eq Ds _ (forall2_lengths r2.geoms), hD, hpw, ?_, r2.total, r2.total,
      ?_⟩
    · intro S hS hc
      obtain ⟨l, hl, rfl⟩ := h4 S hS hc
      obtain ⟨j, hj, rfl⟩ := List.mem_iff_getElem.1 hl
      obtain ⟨m, b, hm, hb, rfl⟩ := exists_startOf Ls hj
      have e2 : Ls.flatten[startOf Ls m + b] = Ls[m][b] :=
        Option.some.inj ((List.getElem?_eq_getElem hj).symm.trans (getElem_startOf Ls hm hb))
      obtain ⟨c, -, a, ha, -, hae⟩ := forall2_left (r2.assigned m hm) (List.getElem_mem hb)
      rw [e2]
      exact ⟨_, List.mem_flatten.2 ⟨_, List.getElem_mem _, List.getElem_mem ha⟩, hae⟩
    · intro i hi j hj
      simp only
      rw [r2.total, Finset.sum_eq_single i (fun k _ hk => by rw [if_neg (Ne.symm hk), zero_mul])
        (fun h => absurd (Finset.mem_range.2 hi) h), if_pos rfl, hn]
      -- the inner sums
      have inner : ∀ x ∈ Finset.range Ls.flatten.length,
          (if st.2.2.1[x]? = some i then (1 : ℝ) else 0) * ∑ y ∈ Finset.range Ls.flatten.length,
            (if y ∈ known.getD x [] then (1 : ℝ) else 0) * (if st.2.2.1[y]? = some j then 1 else 0) =
          (if st.2.2.1[x]? = some i then (1 : ℝ) else 0) *
            subsetCount true Ds.flatten[i].toFinset Ds.flatten[j].toFinset := by
        intro x hx
        rw [Finset.mem_range] at hx
        by_cases hxi : st.2.2.1[x]? = some i
        · rw [if_pos hxi, one_mul, one_mul]
          have heq := (hC i hi x hx).1 hxi
          rw [subsetCount_congr heq (Equivalent.refl true Ds.flatten[j].toFinset),
            ← sum_subsets h3 h4 (S := Ls.flatten[x].toFinset) (fun p hp =>
              (levels_elem h3.levels (List.getElem_mem hx)).2.2.2 p (List.mem_toFinset.1 hp))]
          apply Finset.sum_congr rfl
          intro y hy
          rw [Finset.mem_range] at hy
          have eg : Ls.flatten.getD y [] = Ls.flatten[y] := by
            rw [List.getD_eq_getElem?_getD, List.getElem?_eq_getElem hy, Option.getD_some]
          rw [eg]
          congr 1
          · refine if_congr ?_ rfl rfl
            rw [h3.subs x hx y]
            exact ⟨fun ⟨_, h⟩ => h, fun h => ⟨hy, h⟩⟩
          · exact if_congr (hC j hj y hy) rfl rfl
        · rw [if_neg hxi, zero_mul, zero_mul]
      rw [Finset.sum_congr rfl inner, ← Finset.sum_mul, ← mul_assoc, one_div, inv_mul_cancel₀, one_mul]
      obtain ⟨x, hx, hxe⟩ := List.mem_iff_getElem.1 (hCD i hi)
      have hxi : st.2.2.1[x]? = some i := (hC i hi x hx).2 (by rw [hxe]; exact Equivalent.refl true _)
      apply ne_of_gt
      refine Finset.sum_pos' (fun y _ => by split_ifs <;> norm_num) ⟨x, Finset.mem_range.2 hx, ?_⟩
      rw [if_pos hxi]
      norm_num

end ED
