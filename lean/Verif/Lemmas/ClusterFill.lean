import Verif.Lemmas.ClusterMatrix

/-! # Filling the matrix of subclusters -/

namespace ED

open ED.Geometry Classical

/-- A copy of `S` is a part of `P`. -/
def HasCopy (P : List (ℤ × ℤ)) (S : Finset (ℤ × ℤ)) : Prop :=
  ∃ T : Finset (ℤ × ℤ), (∀ p ∈ T, p ∈ P) ∧ ConnectedSites squareLattice T ∧ Equivalent true T S

theorem ReducedRel.elem {P : List (ℤ × ℤ)} {reps : List Geometry} {M : Arr ℝ} {inds : List ℕ}
    {Ds : List (List (List (ℤ × ℤ)))} (h : ReducedRel P reps M inds Ds) {d : List (ℤ × ℤ)} (hd : d ∈ Ds.flatten) :
    Snake d ∧ ConnectedSites squareLattice d.toFinset ∧ ∀ p ∈ d, p ∈ P := by
  obtain ⟨ls, hls, hl⟩ := List.mem_flatten.1 hd
  obtain ⟨k, hk, rfl⟩ := List.mem_iff_getElem.1 hls
  obtain ⟨h1, -, h3, h4⟩ := h.sound k hk d hl
  exact ⟨h1, h3, h4⟩

theorem ReducedRel.index_unique {P : List (ℤ × ℤ)} {reps : List Geometry} {M : Arr ℝ} {inds : List ℕ}
    {Ds : List (List (List (ℤ × ℤ)))} (h : ReducedRel P reps M inds Ds) {a b : ℕ} (ha : a < Ds.flatten.length)
    (hb : b < Ds.flatten.length) (he : Equivalent true Ds.flatten[a].toFinset Ds.flatten[b].toFinset) : a = b := by
  by_contra hne
  have hd := h.distinct
  rw [List.pairwise_iff_getElem] at hd
  rcases Nat.lt_or_gt_of_ne hne with hlt | hlt
  · exact hd a b ha hb hlt he
  · exact hd b a hb ha hlt he.symm

theorem contribution_true {P : List (ℤ × ℤ)} {reps : List Geometry} {M : Arr ℝ} {inds : List ℕ}
    {Ds : List (List (List (ℤ × ℤ)))} (h : ReducedRel P reps M inds Ds) {F : List (List (ℤ × ℤ))} {i j : ℕ}
    (hi : i < F.length) (hj : j < F.length) :
    contribution true Ds.flatten F M i j =
      if HasCopy P F[i].toFinset then (subsetCount true F[i].toFinset F[j].toFinset : ℝ) else 0 := by
  unfold contribution
  by_cases hin : HasCopy P F[i].toFinset
  · rw [if_pos hin]
    obtain ⟨T, hT, hTc, hTe⟩ := hin
    obtain ⟨d, hd, hde⟩ := h.complete T hT hTc
    obtain ⟨a, ha, rfl⟩ := List.mem_iff_getElem.1 hd
    have hae : Equivalent true Ds.flatten[a].toFinset F[i].toFinset := hde.trans hTe
    rw [Finset.sum_eq_single a, if_pos ⟨ha, hi, hae⟩, one_mul]
    · rw [← subsetCount_congr hae (Equivalent.refl true F[j].toFinset)]
      by_cases hex : ∃ b, Same true Ds.flatten F b j
      · obtain ⟨b, hb, _, hbe⟩ := hex
        rw [Finset.sum_eq_single b, if_pos ⟨hb, hj, hbe⟩, mul_one, h.entry a ha b hb,
          subsetCount_congr (Equivalent.refl true _) hbe]
        · rintro b' - hne
          rw [if_neg, mul_zero]
          rintro ⟨hb', _, hbe'⟩
          exact hne (h.index_unique hb' hb (hbe'.trans hbe.symm))
        · exact fun hb' => absurd (Finset.mem_range.2 hb) hb'
      · rw [Finset.sum_eq_zero fun b _ => by rw [if_neg fun hb => hex ⟨b, hb⟩, mul_zero]]
        symm
        rw [Nat.cast_eq_zero]
        unfold subsetCount
        rw [Set.ncard_eq_zero (subsetCount_finite true _ _)]
        rw [Set.eq_empty_iff_forall_notMem]
        rintro U ⟨h1, h2, h3⟩
        have hUP : ∀ p ∈ U, p ∈ P := fun p hp =>
          (h.elem (List.getElem_mem ha)).2.2 p (List.mem_toFinset.1 (h1.1 hp))
        obtain ⟨e, he, hee⟩ := h.complete U hUP h2
        obtain ⟨b, hb, rfl⟩ := List.mem_iff_getElem.1 he
        exact hex ⟨b, hb, hj, hee.trans h3.symm⟩
    · rintro a' - hne
      rw [if_neg, zero_mul]
      rintro ⟨ha', _, hae'⟩
      exact hne (h.index_unique ha' ha (hae'.trans hae.symm))
    · exact fun ha' => absurd (Finset.mem_range.2 ha) ha'
  · rw [if_neg hin]
    apply Finset.sum_eq_zero
    intro a _
    rw [if_neg, zero_mul]
    rintro ⟨ha, _, he⟩
    obtain ⟨-, h2, h3⟩ := h.elem (List.getElem_mem ha)
    exact hin ⟨_, fun p hp => h3 p (List.mem_toFinset.1 hp), h2, he⟩

/-- The matrix after the clusters `Ps`. -/
def Filled (F Ps : List (List (ℤ × ℤ))) (A : Arr ℝ) : Prop :=
  A.rows = F.length ∧ A.cols = F.length ∧ ∀ i (hi : i < F.length) j (hj : j < F.length),
    A.e i j = if ∃ P ∈ Ps, HasCopy P F[i].toFinset then (subsetCount true F[i].toFinset F[j].toFinset : ℝ) else 0

theorem fill_fold {full : List Geometry} {Fs : List (List (List (ℤ × ℤ)))}
    (hF : List.Forall₂ IsCluster full Fs.flatten)
    (cF : ∀ k (h : k < Fs.length), ∀ l ∈ Fs[k], l.toFinset.card = k + 1) {cs : List Geometry}
    {Qs : List (List (ℤ × ℤ))} (hQ : List.Forall₂ IsCluster cs Qs) :
    ∀ {Ps : List (List (ℤ × ℤ))} {A : Arr ℝ}, Filled Fs.flatten Ps A →
      ∃ A', cs.foldlM (addSubclusters full (startIndices Fs) true) A = .ok A' ∧
        Filled Fs.flatten (Ps ++ Qs) A' := by
  induction hQ with
  | nil => exact fun {Ps A} h => ⟨A, rfl, by rw [List.append_nil]; exact h⟩
  | @cons c Q cs Qs hc hcs ih =>
    intro Ps A h
    obtain ⟨reps, M, inds, Ds, A1, h1, h2, h3, h4, h5, h6⟩ := addSubclusters_ok (sym := true) hF cF A h.1 h.2.1 hc
    have hstep : Filled Fs.flatten (Ps ++ [Q]) A1 := by
      refine ⟨h4.trans h.1, h5.trans h.2.1, ?_⟩
      intro i hi j hj
      rw [h6 i hi j hj, contribution_true h2 hi hj]
      by_cases hold : ∃ P ∈ Ps, HasCopy P Fs.flatten[i].toFinset
      · have hnew : ∃ P ∈ Ps ++ [Q], HasCopy P Fs.flatten[i].toFinset := by
          obtain ⟨P, hP, hin⟩ := hold
          exact ⟨P, by simp [hP], hin⟩
        have hA : ∀ k (hk : k < Fs.flatten.length), A.e i k =
            (subsetCount true Fs.flatten[i].toFinset Fs.flatten[k].toFinset : ℝ) := by
          intro k hk
          rw [h.2.2 i hi k hk, if_pos hold]
        rw [if_pos hnew, hA j hj]
        by_cases hs : 0 < ∑ k ∈ Finset.range Fs.flatten.length, A.e i k
        · rw [if_pos hs]
          ring
        · rw [if_neg hs]
          have h0 : ∑ k ∈ Finset.range Fs.flatten.length, A.e i k = 0 := by
            refine le_antisymm (not_lt.1 hs) (Finset.sum_nonneg ?_)
            intro k hk
            rw [hA k (Finset.mem_range.1 hk)]
            exact Nat.cast_nonneg _
          have := (Finset.sum_eq_zero_iff_of_nonneg (fun k hk => by
            rw [hA k (Finset.mem_range.1 hk)]; exact Nat.cast_nonneg _)).1 h0 j (Finset.mem_range.2 hj)
          rw [hA j hj] at this
          rw [this]
          simp
      · have hA : ∀ k (hk : k < Fs.flatten.length), A.e i k = 0 := by
          intro k hk
          rw [h.2.2 i hi k hk, if_neg hold]
        rw [hA j hj, Finset.sum_eq_zero (fun k hk => hA k (Finset.mem_range.1 hk)), if_neg (lt_irrefl _), zero_add,
          sub_zero, one_mul]
        refine ite_iff ?_ _ _
        constructor
        · exact fun hin => ⟨Q, by simp, hin⟩
        · rintro ⟨P, hP, hin⟩
          rcases List.mem_append.1 hP with hP | hP
          · exact absurd ⟨P, hP, hin⟩ hold
          · rw [List.mem_singleton] at hP
            exact hP ▸ hin
    obtain ⟨A2, g1, g2⟩ := ih hstep
    refine ⟨A2, ?_, by rw [List.append_assoc] at g2; exact g2⟩
    rw [List.foldlM_cons, h3]
    exact g1

/-- A connected set of sites can be enlarged by one site. -/
theorem ConnectedSites.enlarge {S : Finset (ℤ × ℤ)} (h : ConnectedSites squareLattice S) :
    ∃ q ∉ S, ConnectedSites squareLattice (Insert.insert q S) := by
  obtain ⟨p, hp, hmax⟩ := S.exists_max_image (fun p => p.1) h.nonempty
  refine ⟨(p.1 + 1, p.2), ?_, h.insert hp ?_⟩
  · intro hq
    have := hmax _ hq
    simp only at this
    omega
  · rw [Props.square_adj]
    simp

theorem ConnectedSites.extend {S : Finset (ℤ × ℤ)} (h : ConnectedSites squareLattice S) {n : ℕ} (hn : S.card ≤ n) :
    ∃ T, S ⊆ T ∧ T.card = n ∧ ConnectedSites squareLattice T := by
  induction n, hn using Nat.le_induction with
  | base => exact ⟨S, subset_rfl, rfl, h⟩
  | succ n _ ih =>
    obtain ⟨T, h1, h2, h3⟩ := ih
    obtain ⟨q, hq, h4⟩ := h3.enlarge
    exact ⟨_, h1.trans (Finset.subset_insert q T), by rw [Finset.card_insert_of_notMem hq, h2], h4⟩

theorem hasCopy_of_subset {S T : Finset (ℤ × ℤ)} {P : List (ℤ × ℤ)} (hST : S ⊆ T)
    (hS : ConnectedSites squareLattice S) (h : Equivalent true T P.toFinset) : HasCopy P S := by
  obtain ⟨s, w, hs, he⟩ := equivalent_iff.1 h
  refine ⟨S.image fun p => squareMap s p + w, ?_, ?_, ?_⟩
  · intro p hp
    rw [← List.mem_toFinset, he]
    exact Finset.image_subset_image hST hp
  · exact hS.image _ fun p q hpq => adj_map (lv1 := (1, 0)) (lv2 := (0, 1)) (sym := true)
      (fun _ => Props.square_symmetric) hs w hpq
  · exact (equivalent_iff.2 ⟨s, w, hs, rfl⟩ : Equivalent true S _).symm

theorem AllRel.cards {G : SimpleGraph (ℤ × ℤ)} {sym : Bool}
    {st : List (List Geometry) × List (List ℕ) × List ℕ} {Ls : List (List (List (ℤ × ℤ)))}
    (h : AllRel G sym st Ls) : ∀ k (hk : k < Ls.length), ∀ l ∈ Ls[k], l.toFinset.card = k + 1 := by
  intro k hk l hl
  obtain ⟨h1, h2, -⟩ := (h.levels k hk).sound l hl
  rw [List.toFinset_card_of_nodup h1.nodup, h2]

/-- The clusters of the last order. -/
theorem lastOrder {G : SimpleGraph (ℤ × ℤ)} {sym : Bool}
    {st : List (List Geometry) × List (List ℕ) × List ℕ} {Ls : List (List (List (ℤ × ℤ)))}
    (h : AllRel G sym st Ls) {n : ℕ} (hn : Ls.length = n + 1) :
    List.Forall₂ IsCluster ((st.1.flatten.take (st.2.2.getD (st.2.2.length - 1) 0)).drop
      (st.2.2.getD (st.2.2.length - 2) 0)) (Ls[n]'(by omega)) := by
  have hl : st.2.2.length = n + 2 := by rw [h.inds, startIndices_length, hn]
  rw [hl]
  exact (h.ofOrder (k := n) (by omega)).1

theorem allClustersWithSubclusters_ok (N : ℕ) :
    ∃ (st : List (List Geometry) × List (List ℕ) × List ℕ) (Ls : List (List (List (ℤ × ℤ)))) (A : Arr ℝ),
      allClusters N (realPt (1, 0)) (realPt (0, 1)) true = .ok (st.1.flatten, st.2.1.flatten, st.2.2) ∧
      allClustersWithSubclusters N (realPt (1, 0)) (realPt (0, 1)) true =
        .ok (st.1.flatten, st.2.1.flatten, A, st.2.2) ∧
      AllRel squareLattice true st Ls ∧ A.rows = Ls.flatten.length ∧ A.cols = Ls.flatten.length ∧
      ∀ i (hi : i < Ls.flatten.length) j (hj : j < Ls.flatten.length),
        A.e i j = subsetCount true Ls.flatten[i].toFinset Ls.flatten[j].toFinset := by
  obtain ⟨st, Ls, h1, h2, h3⟩ := allClusters_ok N (1, 0) (0, 1) true
  obtain ⟨n, hn⟩ : ∃ n, Ls.length = n + 1 := ⟨Ls.length - 1, by omega⟩
  have hF := h2.flatten.1
  obtain ⟨A, a1, a2⟩ := fill_fold hF h2.cards (lastOrder h2 hn) (Ps := [])
    (A := Arr.zeros st.1.flatten.length st.1.flatten.length)
    ⟨hF.length_eq, hF.length_eq, fun i _ j _ => by rw [if_neg (by simp)]; rfl⟩
  refine ⟨st, Ls, A, h1, ?_, h2, a2.1, a2.2.1, ?_⟩
  · unfold allClustersWithSubclusters
    rw [h1]
    simp only [bind, Except.bind]
    have e : addSubclusters st.1.flatten st.2.2 true = addSubclusters st.1.flatten (startIndices Ls) true := by
      rw [h2.inds]
    rw [e, a1]
    rfl
  · intro i hi j hj
    rw [a2.2.2 i hi j hj, if_pos]
    rw [List.nil_append]
    obtain ⟨k, x, hk, hx, rfl⟩ := exists_startOf Ls hi
    rw [flatten_startOf Ls hk hx]
    have hc := h2.cards k hk _ (List.getElem_mem hx)
    have hcon := ((h2.levels k hk).sound _ (List.getElem_mem hx)).2.2
    obtain ⟨T, t1, t2, t3⟩ := ConnectedSites.extend hcon (n := n + 1) (by omega)
    obtain ⟨l, hl, he⟩ := (h2.levels n (by omega)).complete (fun _ => Props.square_symmetric) T t2 t3
    exact ⟨l, hl, hasCopy_of_subset t1 hcon he⟩

end ED
