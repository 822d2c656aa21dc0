import Verif.Lemmas.ClusterSum

/-! # Properties: the linked cluster expansion on the square lattice, end to end (C105) -/

namespace ED.Props

open ED.Geometry

/-- C105, the weights of the expansion. A property of clusters which does not change under translations and the
symmetries of the square has weights; they are unique, and they have the same symmetries. -/
theorem C105_weights (p : Finset (ℤ × ℤ) → List ℕ → ℝ) (hp : ∀ S T, Equivalent true S T → p S = p T) :
    ∃ w, IsClusterWeight p w ∧ ∀ w', IsClusterWeight p w' → ∀ S T, ConnectedSites squareLattice S →
      Equivalent true S T → w' (shape T) = w (shape S) := by
  obtain ⟨w, hw⟩ := exists_weight hp
  refine ⟨w, hw, ?_⟩
  intro w' hw' S T hS he
  funext idx
  exact (weight_equivalent hp hw hw' idx _ S T rfl hS he).symm

/-- C105. The clusters of the square lattice up to the order `N`, their multiplicities and the matrix of the
subclusters are found, and with them the expansion of every property of clusters which does not change under
translations and the symmetries of the square runs. The returned weights are those of the clusters; the
contribution of each order is the sum of the weights of all shapes of connected clusters with this number of
sites, and the total is the sum over the orders. -/
theorem C105_expansion (N : ℕ) (p : Finset (ℤ × ℤ) → List ℕ → ℝ) (hp : ∀ S T, Equivalent true S T → p S = p T)
    (w : Shape → List ℕ → ℝ) (hw : IsClusterWeight p w) (t : List ℕ) (ht : 1 ∉ t) (nsites : ℕ) :
    ∃ clusters mult A inds, allClustersWithSubclusters N (1, 0) (0, 1) true = .ok (clusters, mult, A, inds) ∧
      ∀ P, IsPropertyTable p clusters t P →
      ∃ total ords W, getNlceExpVal P A.table (mult.map fun m : ℕ => (m : ℝ)) inds nsites = .ok (total, ords, W) ∧
        total.shape = t ∧ ords.shape = max N 1 :: t ∧ W.shape = P.shape ∧
        ∀ idx, Inside idx t →
          (∀ i (h : i < clusters.length) l, clusters[i].HasSites l →
            W.data (i :: idx) = w (shape l.toFinset) idx) ∧
          (∀ k < max N 1, ords.data (k :: idx) =
            (∑ᶠ c ∈ connectedShapes squareLattice (k + 1), w c idx) / nsites) ∧
          total.data idx =
            (∑ k ∈ Finset.range (max N 1), ∑ᶠ c ∈ connectedShapes squareLattice (k + 1), w c idx) / nsites := by
  obtain ⟨st, Ls, A, h1, h2, h3, h4, h5, h6⟩ := allClustersWithSubclusters_ok N
  have hLs : Ls.length = max N 1 := by
    obtain ⟨st', Ls', e1, e2, e3⟩ := allClusters_ok N (1, 0) (0, 1) true
    have e := e1.symm.trans h1
    simp only [Except.ok.injEq, Prod.mk.injEq] at e
    have a := congrArg List.length e.2.2
    rw [e2.inds, h3.inds, startIndices_length, startIndices_length] at a
    omega
  have hF := h3.flatten.1
  have hlen := hF.length_eq
  have hn : 0 < Ls.flatten.length := by
    obtain ⟨l, hl, -⟩ := (h3.levels 0 (by omega)).complete (fun _ => square_symmetric) {(0, 0)} rfl
      (connected_singleton _ _)
    exact List.length_pos_of_mem (List.mem_flatten.2 ⟨_, List.getElem_mem _, hl⟩)
  have hmult : st.2.1.flatten = Ls.flatten.map fun l => (partnersOf true l).length := by
    rw [h3.mults, List.map_flatten]
  refine ⟨st.1.flatten, st.2.1.flatten, A, st.2.2, by simpa [realPt] using h2, ?_⟩
  rintro P ⟨hPs, hPd⟩
  have hsite : ∀ i (hi : i < Ls.flatten.length) l, (st.1.flatten[i]'(hlen ▸ hi)).HasSites l → l = Ls.flatten[i] := by
    intro i hi l hl
    exact HasSites.unique hl ((List.forall₂_iff_get.1 hF).2 i (hlen ▸ hi) hi).2
  have hconn : ∀ i (hi : i < Ls.flatten.length), ConnectedSites squareLattice Ls.flatten[i].toFinset := by
    intro i hi
    obtain ⟨k, x, hk, hx, rfl⟩ := exists_startOf Ls hi
    rw [flatten_startOf Ls hk hx]
    exact ((h3.levels k hk).sound _ (List.getElem_mem hx)).2.2
  have hval : ∀ i (hi : i < Ls.flatten.length) idx, Inside idx t → P.data (i :: idx) = p Ls.flatten[i].toFinset idx := by
    intro i hi idx hidx
    exact hPd i (hlen ▸ hi) _ ((List.forall₂_iff_get.1 hF).2 i (hlen ▸ hi) hi).2 idx hidx
  have hinv : ∀ idx S T, ConnectedSites squareLattice S → Equivalent true S T →
      w (shape S) idx = w (shape T) idx := fun idx S T hS he => weight_equivalent hp hw hw idx _ S T rfl hS he
  rw [hlen] at hPs
  obtain ⟨total, ords, W, hrun, r1, r2, r3, r4, r5, r6⟩ := nlce_run P A.table Ls.flatten.length 0 t ht hn hPs
    (by rw [Arr.table, h4, h5]) (st.2.1.flatten.map fun m : ℕ => (m : ℝ)) (by rw [hmult, List.length_map, List.length_map]) st.2.2 nsites
  have hcut : st.2.2.length - 1 = max N 1 := by rw [h3.inds, startIndices_length, hLs]; omega
  rw [hcut] at r2 r6
  simp only [List.replicate_zero, List.nil_append] at r2 r4 r5 r6
  -- the weights
  have hW : ∀ idx, Inside idx t → ∀ i (hi : i < Ls.flatten.length),
      W.data (i :: idx) = w (shape Ls.flatten[i].toFinset) idx := by
    intro idx hidx i
    induction i using Nat.strong_induction_on with
    | _ i ih =>
      intro hi
      have hsum := sum_subs_list h3 hi (fun T => w (shape T) idx) (hinv idx)
        (fun j => if hj : j < Ls.flatten.length then
          (subsetCount true Ls.flatten[i].toFinset Ls.flatten[j].toFinset : ℝ) *
            w (shape Ls.flatten[j].toFinset) idx else 0) (fun j hj => by rw [dif_pos hj])
      have hlow : ∑ j ∈ Finset.range Ls.flatten.length, (if hj : j < Ls.flatten.length then
          (subsetCount true Ls.flatten[i].toFinset Ls.flatten[j].toFinset : ℝ) *
            w (shape Ls.flatten[j].toFinset) idx else 0) =
          ∑ j ∈ Finset.range i, A.table.data [i, j] * W.data (j :: idx) := by
        rw [← Finset.sum_range_add_sum_Ico _ hi.le]
        have hz : ∑ j ∈ Finset.Ico i Ls.flatten.length, (if hj : j < Ls.flatten.length then
          (subsetCount true Ls.flatten[i].toFinset Ls.flatten[j].toFinset : ℝ) *
            w (shape Ls.flatten[j].toFinset) idx else 0) = 0 := by
          refine Finset.sum_eq_zero fun j hj => ?_
          rw [Finset.mem_Ico] at hj
          rw [dif_pos hj.2, subsetCount_lower h3 hi hj.2 hj.1, Nat.cast_zero, zero_mul]
        rw [hz, add_zero]
        refine Finset.sum_congr rfl fun j hj => ?_
        rw [Finset.mem_range] at hj
        have hj' : j < Ls.flatten.length := by omega
        rw [dif_pos hj', ih j hj hj']
        congr 1
        exact (h6 i hi j hj').symm
      rw [r4 i hi idx hidx, hval i hi idx hidx, hw _ (hconn i hi) idx, ← hlow, ← hsum]
      unfold subs
      ring
  -- the orders
  have hget : ∀ k ≤ Ls.length, st.2.2.getD k 0 = startOf Ls k := by
    intro k hk
    rw [h3.inds, startIndices_getD Ls hk]
    rfl
  have hle : ∀ k ≤ Ls.length, startOf Ls k ≤ Ls.flatten.length := by
    intro k hk
    rw [← startOf_length Ls]
    exact startOf_mono Ls hk le_rfl
  have hord : ∀ idx, Inside idx t → ∀ k < max N 1,
      ∑ c ∈ Finset.Ico (startOf Ls k) (startOf Ls (k + 1)),
        (st.2.1.flatten.map fun m : ℕ => (m : ℝ)).getD c 0 * W.data (c :: idx) =
      ∑ᶠ c ∈ connectedShapes squareLattice (k + 1), w c idx := by
    intro idx hidx k hk
    have hk' : k < Ls.length := by omega
    rw [(h3.levels k hk').finsum (fun c => w c idx) (hinv idx), Finset.sum_Ico_eq_sum_range, startOf_succ Ls hk',
      Nat.add_sub_cancel_left]
    symm
    refine sum_map_getElem _ _ _ ?_
    intro x hx
    have hlt := startOf_lt Ls hk' hx
    rw [hW idx hidx _ hlt, flatten_startOf Ls hk' hx]
    congr 1
    rw [List.getD_eq_getElem?_getD, hmult, List.getElem?_map, List.getElem?_map, List.getElem?_eq_getElem hlt,
      flatten_startOf Ls hk' hx]
    rfl
  refine ⟨total, ords, W, hrun, r1, r2, r3, ?_⟩
  intro idx hidx
  refine ⟨?_, ?_, ?_⟩
  · intro i hi l hl
    have hi' : i < Ls.flatten.length := hlen ▸ hi
    rw [hW idx hidx i hi', hsite i hi' l hl]
  · intro k hk
    rw [r6 k hk idx hidx, hget k (by omega), hget (k + 1) (by omega), min_eq_right (hle k (by omega)),
      min_eq_right (hle (k + 1) (by omega)), hord idx hidx k hk]
  · rw [r5 idx hidx, ← Finset.sum_congr rfl fun k hk => hord idx hidx k (Finset.mem_range.1 hk)]
    congr 1
    have h7 := (sum_Ico_telescope (fun c => (st.2.1.flatten.map fun m : ℕ => (m : ℝ)).getD c 0 * W.data (c :: idx))
      (startOf Ls) (max N 1) fun k hk => startOf_mono Ls (Nat.le_succ k) (by omega)).2
    rw [h7, ← hLs, startOf_length]
    have h0 : startOf Ls 0 = 0 := rfl
    rw [h0, Finset.range_eq_Ico]

/-! ## Sites and bonds: the expansion is exact from the second order on -/

/-- The number of pairs of neighbouring sites in a finite set. -/
def bondCount (S : Finset (ℤ × ℤ)) : ℕ :=
  ((S ×ˢ S).filter fun e => e.2 = e.1 + (1, 0) ∨ e.2 = e.1 + (0, 1)).card

theorem connected_pair {p q : ℤ × ℤ} (h : q = p + (1, 0) ∨ q = p + (0, 1)) :
    ConnectedSites squareLattice {p, q} := by
  have h0 := (connected_singleton squareLattice p).insert (p := p) (q := q) (by simp) (by
    rw [square_adj]
    rcases h with rfl | rfl <;> simp)
  rw [Finset.pair_comm]
  exact h0

theorem pair_of_connected {T : Finset (ℤ × ℤ)} (h : ConnectedSites squareLattice T) (hc : T.card = 2) :
    ∃ p q, (q = p + (1, 0) ∨ q = p + (0, 1)) ∧ T = {p, q} := by
  obtain ⟨x, y, hxy, rfl⟩ := Finset.card_eq_two.1 hc
  obtain ⟨a, ha, b, hb, hb', hab⟩ := h.boundary (T := {x}) (Finset.singleton_nonempty x) (by
    rw [Finset.ssubset_iff_subset_ne]
    refine ⟨by simp, fun e => hxy ?_⟩
    have : y ∈ ({x} : Finset (ℤ × ℤ)) := by rw [e]; simp
    exact (Finset.mem_singleton.1 this).symm)
  rw [Finset.mem_singleton] at ha hb'
  subst ha
  have hby : b = y := by
    rcases Finset.mem_insert.1 hb with h | h
    · exact absurd h hb'
    · exact Finset.mem_singleton.1 h
  subst hby
  obtain ⟨-, h1 | h1 | h1 | h1⟩ := hab
  · exact ⟨a, b, Or.inl h1, rfl⟩
  · exact ⟨b, a, Or.inl (by rw [h1]; abel), Finset.pair_comm ..⟩
  · exact ⟨a, b, Or.inr h1, rfl⟩
  · exact ⟨b, a, Or.inr (by rw [h1]; abel), Finset.pair_comm ..⟩

theorem pair_injective {p q p' q' : ℤ × ℤ} (h : q = p + (1, 0) ∨ q = p + (0, 1))
    (h' : q' = p' + (1, 0) ∨ q' = p' + (0, 1)) (e : ({p, q} : Finset (ℤ × ℤ)) = {p', q'}) : (p, q) = (p', q') := by
  have h1 : p ∈ ({p', q'} : Finset (ℤ × ℤ)) := by rw [← e]; simp
  have h2 : q ∈ ({p', q'} : Finset (ℤ × ℤ)) := by rw [← e]; simp
  simp only [Finset.mem_insert, Finset.mem_singleton] at h1 h2
  obtain ⟨a, b⟩ := p
  obtain ⟨a', b'⟩ := p'
  rcases h with rfl | rfl <;> rcases h' with rfl | rfl <;>
    simp only [Prod.mk_add_mk, Prod.mk.injEq] at * <;> omega

open Classical in
/-- The bonds are the connected pairs. -/
theorem bondCount_eq (S : Finset (ℤ × ℤ)) : bondCount S =
    ((S.powerset.filter (ConnectedSites squareLattice)).filter fun T => T.card = 2).card := by
  unfold bondCount
  refine Finset.card_bij (fun e _ => {e.1, e.2}) ?_ ?_ ?_
  · rintro ⟨p, q⟩ h
    simp only [Finset.mem_filter, Finset.mem_product] at h
    simp only [Finset.mem_filter, Finset.mem_powerset]
    refine ⟨⟨by simp [Finset.insert_subset_iff, h.1], connected_pair h.2⟩, Finset.card_pair ?_⟩
    rintro rfl
    rcases h.2 with h | h <;> simp [Prod.ext_iff] at h
  · rintro ⟨p, q⟩ h ⟨p', q'⟩ h' e
    exact pair_injective (Finset.mem_filter.1 h).2 (Finset.mem_filter.1 h').2 e
  · intro T hT
    simp only [Finset.mem_filter, Finset.mem_powerset] at hT
    obtain ⟨p, q, h, rfl⟩ := pair_of_connected hT.1.2 hT.2
    refine ⟨(p, q), ?_, rfl⟩
    have hsub := hT.1.1
    simp only [Finset.insert_subset_iff, Finset.singleton_subset_iff] at hsub
    simp [hsub, h]

theorem bondCount_le {S T : Finset (ℤ × ℤ)} (h : Equivalent true S T) : bondCount S ≤ bondCount T := by
  rw [bondCount_eq, bondCount_eq]
  obtain ⟨s, w, hs, rfl⟩ := equivalent_iff.1 h
  have hinj : Function.Injective fun p => squareMap s p + w := fun a b e =>
    squareMap_injective s (add_right_cancel e)
  refine Finset.card_le_card_of_injOn (fun U => U.image fun p => squareMap s p + w) ?_
    (Finset.image_injective hinj).injOn
  intro U hU
  simp only [Finset.coe_filter, Finset.mem_filter, Finset.mem_powerset, Set.mem_setOf_eq] at hU ⊢
  have he : Equivalent true U (U.image fun p => squareMap s p + w) := equivalent_iff.2 ⟨s, w, hs, rfl⟩
  exact ⟨⟨Finset.image_subset_image hU.1.1, he.connected hU.1.2⟩, he.card.trans hU.2⟩

theorem bondCount_equivalent {S T : Finset (ℤ × ℤ)} (h : Equivalent true S T) : bondCount S = bondCount T :=
  le_antisymm (bondCount_le h) (bondCount_le h.symm)

theorem out_equivalent (S : Finset (ℤ × ℤ)) : Equivalent true (Quotient.out (shape S)) S :=
  equivalent_of_translate (shape_eq.1 (Quotient.out_eq (shape S)))

/-- The weights of a sum over the sites and the bonds. -/
noncomputable def bondWeight (a b : ℝ) (c : Shape) : List ℕ → ℝ := fun _ =>
  if (Quotient.out c).card = 1 then a else if (Quotient.out c).card = 2 then b else 0

theorem bondWeight_shape (a b : ℝ) (S : Finset (ℤ × ℤ)) (idx : List ℕ) :
    bondWeight a b (shape S) idx = if S.card = 1 then a else if S.card = 2 then b else 0 := by
  unfold bondWeight
  rw [(out_equivalent S).card]

open Classical in
theorem bondWeight_isClusterWeight (a b : ℝ) :
    IsClusterWeight (fun S _ => a * S.card + b * bondCount S) (bondWeight a b) := by
  intro S hS idx
  have hsplit : ∑ T ∈ S.powerset with ConnectedSites squareLattice T, bondWeight a b (shape T) idx =
      bondWeight a b (shape S) idx +
        ∑ T ∈ S.ssubsets with ConnectedSites squareLattice T, bondWeight a b (shape T) idx := by
    have : S.powerset.filter (ConnectedSites squareLattice) =
        insert S (S.ssubsets.filter (ConnectedSites squareLattice)) := by
      ext T
      simp only [Finset.mem_filter, Finset.mem_powerset, Finset.mem_insert, Finset.mem_ssubsets]
      constructor
      · rintro ⟨h1, h2⟩
        rcases eq_or_ssubset_of_subset h1 with h | h
        · exact Or.inl h
        · exact Or.inr ⟨h, h2⟩
      · rintro (rfl | ⟨h1, h2⟩)
        · exact ⟨subset_rfl, hS⟩
        · exact ⟨h1.1, h2⟩
    rw [this, Finset.sum_insert (by simp)]
  rw [← hsplit]
  change a * (S.card : ℝ) + b * (bondCount S : ℝ) = _
  have h1 : ∀ T ∈ S.powerset.filter (ConnectedSites squareLattice), bondWeight a b (shape T) idx =
      (if T.card = 1 then a else 0) + if T.card = 2 then b else 0 := by
    intro T _
    rw [bondWeight_shape]
    by_cases h : T.card = 1
    · simp [h]
    · simp [h]
  rw [Finset.sum_congr rfl h1, Finset.sum_add_distrib, ← Finset.sum_filter, ← Finset.sum_filter, Finset.sum_const,
    Finset.sum_const, nsmul_eq_mul, nsmul_eq_mul, mul_comm a, mul_comm b]
  congr 3
  · symm
    rw [← Finset.card_image_of_injective S (Finset.singleton_injective)]
    congr 1
    ext T
    simp only [Finset.mem_filter, Finset.mem_powerset, Finset.mem_image, Finset.card_eq_one]
    constructor
    · rintro ⟨⟨h1, -⟩, p, rfl⟩
      exact ⟨p, by simpa using h1, rfl⟩
    · rintro ⟨p, hp, rfl⟩
      exact ⟨⟨by simpa using hp, connected_singleton _ p⟩, p, rfl⟩
  · exact bondCount_eq S


/-- The sum of the weights of the shapes with one, two, and more sites. -/
theorem bondWeight_sum (a b : ℝ) (idx : List ℕ) (k : ℕ) :
    ∑ᶠ c ∈ connectedShapes squareLattice (k + 1), bondWeight a b c idx =
      if k = 0 then a else if k = 1 then 2 * b else 0 := by
  have hconst : ∀ c ∈ connectedShapes squareLattice (k + 1), bondWeight a b c idx =
      if k = 0 then a else if k = 1 then b else 0 := by
    rintro c ⟨S, h1, -, rfl⟩
    rw [bondWeight_shape, h1]
    simp
  rw [finsum_mem_congr rfl hconst]
  rcases k with _ | _ | k
  · have : connectedShapes squareLattice (0 + 1) = {shape {(0, 0)}} := by
      ext c
      simp only [Set.mem_singleton_iff]
      constructor
      · rintro ⟨S, h1, -, rfl⟩
        obtain ⟨p, rfl⟩ := Finset.card_eq_one.1 h1
        exact shape_eq.2 ⟨-p, by simp⟩
      · rintro rfl
        exact ⟨_, rfl, connected_singleton _ _, rfl⟩
    rw [this]
    simp
  · have : connectedShapes squareLattice (0 + 1 + 1) = {shape {(0, 0), (1, 0)}, shape {(0, 0), (0, 1)}} := by
      ext c
      simp only [Set.mem_insert_iff, Set.mem_singleton_iff]
      constructor
      · rintro ⟨S, h1, h2, rfl⟩
        obtain ⟨p, q, rfl | rfl, rfl⟩ := pair_of_connected h2 h1
        · exact Or.inl (shape_eq.2 ⟨-p, by simp [Finset.image_insert]; rfl⟩)
        · exact Or.inr (shape_eq.2 ⟨-p, by simp [Finset.image_insert]; rfl⟩)
      · rintro (rfl | rfl)
        · exact ⟨_, rfl, connected_pair (Or.inl (by simp)), rfl⟩
        · exact ⟨_, rfl, connected_pair (Or.inr (by simp)), rfl⟩
    have hne : shape {(0, 0), (1, 0)} ≠ shape {(0, 0), (0, 1)} := by
      intro h
      obtain ⟨v, hv⟩ := shape_eq.1 h
      have a : ((0, 0) : ℤ × ℤ) + v ∈ ({(0, 0), (0, 1)} : Finset (ℤ × ℤ)) := by rw [hv]; simp
      have b : ((1, 0) : ℤ × ℤ) + v ∈ ({(0, 0), (0, 1)} : Finset (ℤ × ℤ)) := by rw [hv]; simp
      simp only [Finset.mem_insert, Finset.mem_singleton, Prod.ext_iff, Prod.fst_add, Prod.snd_add] at a b
      omega
    rw [this, finsum_mem_pair hne]
    simp [two_mul]
  · simp

/-- C105 for a property which is `a` for every site plus `b` for every bond: from the second order on, the
expansion returns the value per site of the infinite lattice, where each site has two bonds. -/
theorem C105_bonds (N : ℕ) (hN : 2 ≤ N) (a b : ℝ) :
    ∃ clusters mult A inds, allClustersWithSubclusters N (1, 0) (0, 1) true = .ok (clusters, mult, A, inds) ∧
      ∀ P, IsPropertyTable (fun S _ => a * S.card + b * bondCount S) clusters [] P →
      ∃ total ords W, getNlceExpVal P A.table (mult.map fun m : ℕ => (m : ℝ)) inds 1 = .ok (total, ords, W) ∧
        total.data [] = a + 2 * b := by
  obtain ⟨c, m, A, inds, h1, h2⟩ := C105_expansion N (fun S _ => a * S.card + b * bondCount S) (by
    intro S T h
    funext
    rw [h.card, bondCount_equivalent h]) (bondWeight a b) (bondWeight_isClusterWeight a b) [] (by simp) 1
  refine ⟨c, m, A, inds, h1, ?_⟩
  intro P hP
  obtain ⟨total, ords, W, h3, -, -, -, h4⟩ := h2 P hP
  refine ⟨total, ords, W, h3, ?_⟩
  rw [(h4 [] List.Forall₂.nil).2.2, Finset.sum_congr rfl fun k _ => bondWeight_sum a b [] k]
  obtain ⟨n, rfl⟩ : ∃ n, N = n + 2 := ⟨N - 2, by omega⟩
  rw [max_eq_left (by omega), Finset.sum_range_succ', Finset.sum_range_succ', Finset.sum_eq_zero (by simp)]
  simp [add_comm]

open Classical in
/-- The table of a property can always be filled. -/
theorem exists_propertyTable (p : Finset (ℤ × ℤ) → List ℕ → ℝ) (clusters : List Geometry) (t : List ℕ) :
    ∃ P, IsPropertyTable p clusters t P := by
  refine ⟨⟨clusters.length :: t, fun idx => if h : ∃ l, ∃ hi : idx.headD 0 < clusters.length,
    (clusters[idx.headD 0]'hi).HasSites l then p h.choose.toFinset idx.tail else 0⟩, rfl, ?_⟩
  intro i hi l hl idx _
  have h : ∃ l, ∃ hi : (i :: idx).headD 0 < clusters.length, (clusters[(i :: idx).headD 0]'hi).HasSites l :=
    ⟨l, hi, hl⟩
  change (if h : ∃ l, ∃ hi : (i :: idx).headD 0 < clusters.length, (clusters[(i :: idx).headD 0]'hi).HasSites l
    then p h.choose.toFinset idx else 0) = _
  rw [dif_pos h]
  obtain ⟨hi', hl'⟩ := h.choose_spec
  rw [HasSites.unique hl' hl]

/-- One per site and minus three per bond, with clusters of up to four sites. -/
example : ∃ clusters mult A inds P total ords W,
    allClustersWithSubclusters 4 (1, 0) (0, 1) true = .ok (clusters, mult, A, inds) ∧
    IsPropertyTable (fun S _ => 1 * S.card + (-3) * bondCount S) clusters [] P ∧
    getNlceExpVal P A.table (mult.map fun m : ℕ => (m : ℝ)) inds 1 = .ok (total, ords, W) ∧ total.data [] = -5 := by
  obtain ⟨c, m, A, inds, h1, h2⟩ := C105_bonds 4 (by norm_num) 1 (-3)
  obtain ⟨P, hP⟩ := exists_propertyTable (fun S _ => 1 * (S.card : ℝ) + (-3) * bondCount S) c []
  obtain ⟨total, ords, W, h3, h4⟩ := h2 P hP
  exact ⟨c, m, A, inds, P, total, ords, W, h1, hP, h3, by rw [h4]; norm_num⟩

end ED.Props
