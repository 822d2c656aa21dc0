import Verif.Lemmas.SubEnum

/-! # All subclusters of a cluster -/

namespace ED

open ED.Geometry Classical

theorem mapM_known (known : List (List ℕ)) (direct : List ℕ) (h : ∀ c ∈ direct, c < known.length) :
    direct.mapM (knownIndices known) = .ok (direct.map fun c => known.getD c []) := by
  induction direct with
  | nil => rfl
  | cons c direct ih =>
    have hc := h c (List.mem_cons_self ..)
    rw [List.mapM_cons, ih fun d hd => h d (List.mem_cons_of_mem _ hd)]
    unfold knownIndices
    rw [List.getElem?_eq_getElem hc]
    simp [bind, Except.bind, pure, Except.pure, List.getD_eq_getElem?_getD, hc]

theorem subIndices_ok (known : List (List ℕ)) (offset : ℕ) (contained : List ℕ)
    (h : ∀ c ∈ contained, c + offset < known.length) :
    ∃ r, subIndices known offset contained = .ok r ∧ r.Pairwise (· < ·) ∧
      ∀ j, j ∈ r ↔ ∃ c ∈ contained, j = c + offset ∨ j ∈ known.getD (c + offset) [] := by
  unfold subIndices
  simp only
  by_cases hc : contained = []
  · rw [if_pos hc]
    refine ⟨[], rfl, List.Pairwise.nil, ?_⟩
    intro j
    simp [hc]
  · rw [if_neg hc]
    rw [mapM_known known]
    · simp only [bind, Except.bind]
      refine ⟨_, rfl, ?_, ?_⟩
      · have h1 := List.pairwise_insertionSort (· ≤ ·) (contained.map (· + offset) ++
          ((contained.map (· + offset)).map fun c => known.getD c []).flatten).dedup
        have h2 : (((contained.map (· + offset) ++
          ((contained.map (· + offset)).map fun c => known.getD c []).flatten).dedup).insertionSort (· ≤ ·)).Nodup :=
          (List.perm_insertionSort _ _).nodup_iff.2 (List.nodup_dedup _)
        refine (h1.and h2).imp ?_
        rintro a b ⟨hab, hne⟩
        exact lt_of_le_of_ne hab hne
      · intro j
        rw [(List.perm_insertionSort _ _).mem_iff, List.mem_dedup, List.mem_append, List.mem_map,
          List.mem_flatten]
        constructor
        · rintro (⟨c, hc, rfl⟩ | ⟨l, hl, hj⟩)
          · exact ⟨c, hc, Or.inl rfl⟩
          · simp only [List.map_map, List.mem_map, Function.comp_apply] at hl
            obtain ⟨c, hc, rfl⟩ := hl
            exact ⟨c, hc, Or.inr hj⟩
        · rintro ⟨c, hc, rfl | hj⟩
          · exact Or.inl ⟨c, hc, rfl⟩
          · refine Or.inr ⟨_, ?_, hj⟩
            simp only [List.map_map, List.mem_map, Function.comp_apply]
            exact ⟨c, hc, rfl⟩
    · intro c hc
      obtain ⟨d, hd, rfl⟩ := List.mem_map.1 hc
      exact h d hd

theorem indices_fold (known ext : List (List ℕ)) (offset : ℕ) (contained : List (List ℕ))
    (h : ∀ cs ∈ contained, ∀ c ∈ cs, c + offset < known.length) :
    ∃ rs, (contained.foldlM (fun known c => do
        pure (known ++ [← subIndices known offset c]) : List (List ℕ) → List ℕ → Res (List (List ℕ)))
        (known ++ ext)) = .ok (known ++ ext ++ rs) ∧
      List.Forall₂ (fun cs r => r.Pairwise (· < ·) ∧
        ∀ j, j ∈ r ↔ ∃ c ∈ cs, j = c + offset ∨ j ∈ known.getD (c + offset) []) contained rs := by
  induction contained generalizing ext with
  | nil => exact ⟨[], by simp [pure, Except.pure], .nil⟩
  | cons cs contained ih =>
    have hcs := h cs (List.mem_cons_self ..)
    obtain ⟨r, h1, h2, h3⟩ := subIndices_ok (known ++ ext) offset cs
      (fun c hc => (hcs c hc).trans_le (by simp))
    obtain ⟨rs, h4, h5⟩ := ih (ext ++ [r]) fun cs hcs => h cs (List.mem_cons_of_mem _ hcs)
    refine ⟨r :: rs, ?_, .cons ⟨h2, ?_⟩ h5⟩
    · rw [List.foldlM_cons, h1]
      simp only [bind, Except.bind, pure, Except.pure] at h4 ⊢
      rw [← List.append_assoc] at h4
      rw [h4]
      simp
    · intro j
      rw [h3]
      have e : ∀ c ∈ cs, (known ++ ext).getD (c + offset) [] = known.getD (c + offset) [] := by
        intro c hc
        rw [List.getD_eq_getElem?_getD, List.getD_eq_getElem?_getD, List.getElem?_append_left (hcs c hc)]
      constructor
      · rintro ⟨c, hc, hj⟩
        exact ⟨c, hc, e c hc ▸ hj⟩
      · rintro ⟨c, hc, hj⟩
        exact ⟨c, hc, (e c hc).symm ▸ hj⟩

/-- The lists of the orders and the indices of the subclusters found so far. -/
structure SubInv (P : List (ℤ × ℤ)) (G : SimpleGraph (ℤ × ℤ)) (Ls : List (List (List (ℤ × ℤ))))
    (known : List (List ℕ)) : Prop where
  levels : ∀ k (h : k < Ls.length), SubLevel P G (k + 1) Ls[k]
  length : known.length = Ls.flatten.length
  sorted : ∀ r ∈ known, r.Pairwise (· < ·)
  subs : ∀ i (hi : i < Ls.flatten.length) j, j ∈ known.getD i [] ↔
    ∃ hj : j < Ls.flatten.length, Ls.flatten[j].toFinset ⊂ Ls.flatten[i].toFinset

theorem levels_elem {P : List (ℤ × ℤ)} {G : SimpleGraph (ℤ × ℤ)} {Ls : List (List (List (ℤ × ℤ)))}
    (h : ∀ k (h : k < Ls.length), SubLevel P G (k + 1) Ls[k]) {l : List (ℤ × ℤ)} (hl : l ∈ Ls.flatten) :
    Snake l ∧ l.toFinset.card ≤ Ls.length ∧ ConnectedSites G l.toFinset ∧ ∀ p ∈ l, p ∈ P := by
  obtain ⟨ls, hls, hl⟩ := List.mem_flatten.1 hl
  obtain ⟨k, hk, rfl⟩ := List.mem_iff_getElem.1 hls
  obtain ⟨h1, h2, h3, h4⟩ := (h k hk).sound l hl
  refine ⟨h1, ?_, h3, h4⟩
  rw [List.toFinset_card_of_nodup h1.nodup, h2]
  omega

theorem levels_nodup {P : List (ℤ × ℤ)} {G : SimpleGraph (ℤ × ℤ)} {Ls : List (List (List (ℤ × ℤ)))}
    (h : ∀ k (h : k < Ls.length), SubLevel P G (k + 1) Ls[k]) : Ls.flatten.Nodup := by
  unfold List.Nodup
  rw [List.pairwise_flatten]
  constructor
  · intro ls hls
    obtain ⟨k, hk, rfl⟩ := List.mem_iff_getElem.1 hls
    exact (h k hk).nodup
  · rw [List.pairwise_iff_getElem]
    rintro i j hi hj hij a ha b hb rfl
    have h1 := ((h i hi).sound a ha).2.1
    have h2 := ((h j hj).sound a hb).2.1
    omega

theorem SubInv.step {P : List (ℤ × ℤ)} {G : SimpleGraph (ℤ × ℤ)} {Ls : List (List (List (ℤ × ℤ)))}
    {known : List (List ℕ)} (h : SubInv P G Ls known) {A last next : List (List (ℤ × ℤ))}
    (hflat : Ls.flatten = A ++ last) (hlast : SubLevel P G Ls.length last)
    (hnext : SubLevel P G (Ls.length + 1) next) {contained : List (List ℕ)}
    (hlen : contained.length = next.length)
    (hcont : ∀ i (hi : i < next.length) (hi' : i < contained.length) c,
      c ∈ contained[i] ↔ ∃ hc : c < last.length, last[c].toFinset ⊆ next[i].toFinset) :
    ∃ known', (contained.foldlM (fun known c => do
        pure (known ++ [← subIndices known A.length c]) : List (List ℕ) → List ℕ → Res (List (List ℕ)))
        known) = .ok known' ∧ SubInv P G (Ls ++ [next]) known' := by
  have hcl : ∀ cs ∈ contained, ∀ c ∈ cs, c < last.length := by
    intro cs hcs c hc
    obtain ⟨i, hi, rfl⟩ := List.mem_iff_getElem.1 hcs
    obtain ⟨h1, -⟩ := (hcont i (hlen ▸ hi) hi c).1 hc
    exact h1
  have hk : ∀ cs ∈ contained, ∀ c ∈ cs, c + A.length < known.length := by
    intro cs hcs c hc
    have := hcl cs hcs c hc
    rw [h.length, hflat, List.length_append]
    omega
  obtain ⟨rs, h1, h2⟩ := indices_fold known [] A.length contained hk
  rw [List.append_nil] at h1
  refine ⟨known ++ rs, h1, ?_⟩
  have hrs : rs.length = next.length := by rw [← h2.length_eq, hlen]
  have hlv : ∀ k (hk : k < (Ls ++ [next]).length), SubLevel P G (k + 1) (Ls ++ [next])[k] := by
    intro k hk
    rw [List.length_append, List.length_singleton] at hk
    rcases Nat.lt_succ_iff_lt_or_eq.1 hk with hk | hk
    · rw [List.getElem_append_left hk]
      exact h.levels k hk
    · subst hk
      rw [List.getElem_append_right le_rfl]
      simpa using hnext
  have hfl : (Ls ++ [next]).flatten = Ls.flatten ++ next := by simp
  have hnd := levels_nodup hlv
  have ncard : ∀ l ∈ next, l.toFinset.card = Ls.length + 1 := by
    intro l hl
    obtain ⟨h3, h4, -⟩ := hnext.sound l hl
    rw [List.toFinset_card_of_nodup h3.nodup, h4]
  have lcard : ∀ l ∈ last, l.toFinset.card = Ls.length := by
    intro l hl
    obtain ⟨h3, h4, -⟩ := hlast.sound l hl
    rw [List.toFinset_card_of_nodup h3.nodup, h4]
  refine ⟨hlv, ?_, ?_, ?_⟩
  · rw [hfl, List.length_append, List.length_append, h.length, hrs]
  · intro r hr
    rcases List.mem_append.1 hr with hr | hr
    · exact h.sorted r hr
    · obtain ⟨cs, -, h3⟩ := forall2_right h2 hr
      exact h3.1
  · rw [hfl] at hnd ⊢
    intro i hi j
    rw [List.length_append] at hi
    by_cases hi1 : i < Ls.flatten.length
    · have e1 : (known ++ rs).getD i [] = known.getD i [] := by
        rw [List.getD_eq_getElem?_getD, List.getD_eq_getElem?_getD,
          List.getElem?_append_left (by rw [h.length]; exact hi1)]
      rw [e1, h.subs i hi1, List.getElem_append_left hi1]
      constructor
      · rintro ⟨hj, hs⟩
        exact ⟨by rw [List.length_append]; omega, by rw [List.getElem_append_left hj]; exact hs⟩
      · rintro ⟨hj, hs⟩
        by_cases hj1 : j < Ls.flatten.length
        · rw [List.getElem_append_left hj1] at hs
          exact ⟨hj1, hs⟩
        · exfalso
          rw [List.getElem_append_right (by omega)] at hs
          have c1 := ncard _ (List.getElem_mem (l := next) (n := j - Ls.flatten.length)
            (by rw [List.length_append] at hj; omega))
          have c2 := (levels_elem h.levels (List.getElem_mem hi1)).2.1
          have c3 := Finset.card_lt_card hs
          omega
    · have hi2 : i - Ls.flatten.length < next.length := by omega
      have hi3 : i - Ls.flatten.length < contained.length := by omega
      have hi4 : i - Ls.flatten.length < rs.length := by omega
      have e1 : (known ++ rs).getD i [] = rs[i - Ls.flatten.length] := by
        rw [List.getD_eq_getElem?_getD, List.getElem?_append_right (by rw [h.length]; omega), h.length,
          List.getElem?_eq_getElem hi4]
        rfl
      obtain ⟨-, hr⟩ := (List.forall₂_iff_get.1 h2).2 (i - Ls.flatten.length) hi3 hi4
      simp only [List.get_eq_getElem] at hr
      rw [e1, hr, List.getElem_append_right (by omega)]
      have hAl : ∀ c (hc : c < last.length), ∃ hc' : c + A.length < Ls.flatten.length,
          Ls.flatten[c + A.length] = last[c] := by
        intro c hc
        have hc' : c + A.length < Ls.flatten.length := by rw [hflat, List.length_append]; omega
        refine ⟨hc', ?_⟩
        simp only [hflat]
        rw [List.getElem_append_right (by omega)]
        simp
      constructor
      · rintro ⟨c, hc, hj⟩
        obtain ⟨hc1, hsub⟩ := (hcont _ hi2 hi3 c).1 hc
        have hss : last[c].toFinset ⊂ next[i - Ls.flatten.length].toFinset := by
          refine Finset.ssubset_iff_subset_ne.2 ⟨hsub, fun e => ?_⟩
          have c1 := ncard _ (List.getElem_mem hi2)
          have c2 := lcard _ (List.getElem_mem hc1)
          rw [e] at c2
          omega
        obtain ⟨hc2, hc3⟩ := hAl c hc1
        rcases hj with rfl | hj
        · refine ⟨by rw [List.length_append]; omega, ?_⟩
          rw [List.getElem_append_left hc2, hc3]
          exact hss
        · obtain ⟨hj1, hj2⟩ := (h.subs _ hc2 j).1 hj
          refine ⟨by rw [List.length_append]; omega, ?_⟩
          rw [List.getElem_append_left hj1]
          rw [hc3] at hj2
          exact hj2.trans hss
      · rintro ⟨hj, hs⟩
        by_cases hj1 : j < Ls.flatten.length
        · rw [List.getElem_append_left hj1] at hs
          obtain ⟨a1, a2, a3, a4⟩ := levels_elem h.levels (List.getElem_mem hj1)
          obtain ⟨b1, -, b3, b4⟩ := hnext.sound _ (List.getElem_mem hi2)
          obtain ⟨U, u1, u2, u3, u4⟩ := a3.between b3 hs.1 a2 (by rw [ncard _ (List.getElem_mem hi2)]; omega)
          obtain ⟨m, hm, hmU⟩ := hlast.complete U u4
            (fun p hp => b4 p (List.mem_toFinset.1 (u3 hp))) u1
          obtain ⟨c, hc, rfl⟩ := List.mem_iff_getElem.1 hm
          obtain ⟨hc2, hc3⟩ := hAl c hc
          refine ⟨c, (hcont _ hi2 hi3 c).2 ⟨hc, by rw [hmU]; exact u3⟩, ?_⟩
          by_cases hTU : Ls.flatten[j].toFinset = U
          · left
            have e : Ls.flatten[j] = Ls.flatten[c + A.length] := by
              rw [hc3]
              exact a1.eq_of_toFinset (hlast.sound _ hm).1 (by rw [hTU, hmU])
            exact ((levels_nodup h.levels).getElem_inj_iff).1 e
          · right
            rw [h.subs _ hc2]
            refine ⟨hj1, ?_⟩
            rw [hc3, hmU]
            exact Finset.ssubset_iff_subset_ne.2 ⟨u2, hTU⟩
        · exfalso
          rw [List.getElem_append_right (by omega)] at hs
          have c1 := ncard _ (List.getElem_mem (l := next) (n := j - Ls.flatten.length)
            (by rw [List.length_append] at hj; omega))
          have c2 := ncard _ (List.getElem_mem hi2)
          have c3 := Finset.card_lt_card hs
          omega

/-- Orders of which all are found. -/
def AllFound (P : List (ℤ × ℤ)) (G : SimpleGraph (ℤ × ℤ)) (Ls : List (List (List (ℤ × ℤ)))) : Prop :=
  ∀ S : Finset (ℤ × ℤ), (∀ p ∈ S, p ∈ P) → ConnectedSites G S → ∃ l ∈ Ls.flatten, l.toFinset = S

theorem found_small {P : List (ℤ × ℤ)} {G : SimpleGraph (ℤ × ℤ)} {Ls : List (List (List (ℤ × ℤ)))}
    (h : ∀ k (h : k < Ls.length), SubLevel P G (k + 1) Ls[k]) {S : Finset (ℤ × ℤ)} (hS : S.card ≤ Ls.length)
    (hP : ∀ p ∈ S, p ∈ P) (hc : ConnectedSites G S) : ∃ l ∈ Ls.flatten, l.toFinset = S := by
  have hpos := Finset.card_pos.2 hc.nonempty
  obtain ⟨l, hl, e⟩ := (h (S.card - 1) (by omega)).complete S (by omega) hP hc
  exact ⟨l, List.mem_flatten.2 ⟨_, List.getElem_mem _, hl⟩, e⟩

theorem subclusterLoop_ok {parent : Geometry} {P : List (ℤ × ℤ)} {G : SimpleGraph (ℤ × ℤ)}
    (hp : parent.IsParent P G) (fuel : ℕ) : ∀ (gs : List (List Geometry)) (Ls : List (List (List (ℤ × ℤ))))
      (known : List (List ℕ)) (A last next : List (List (ℤ × ℤ))) (gnext : List Geometry)
      (contained : List (List ℕ)), List.Forall₂ (List.Forall₂ IsCluster) gs Ls → SubInv P G Ls known →
      Ls.flatten = A ++ last → SubLevel P G Ls.length last → SubLevel P G (Ls.length + 1) next →
      List.Forall₂ IsCluster gnext next → contained.length = next.length →
      (∀ i (hi : i < next.length) (hi' : i < contained.length) c,
        c ∈ contained[i] ↔ ∃ hc : c < last.length, last[c].toFinset ⊆ next[i].toFinset) →
      fuel + Ls.length = P.length →
      ∃ gs' Ls' known', subclusterLoop parent fuel gnext contained gs known Ls.flatten.length A.length =
          .ok (gs', known') ∧
        List.Forall₂ (List.Forall₂ IsCluster) gs' Ls' ∧ SubInv P G Ls' known' ∧ AllFound P G Ls' ∧
        ∃ rest, Ls' = Ls ++ rest := by
  induction fuel with
  | zero =>
    intro gs Ls known A last next gnext contained h1 h2 h3 h4 h5 h6 h7 h8 h9
    refine ⟨gs, Ls, known, rfl, h1, h2, ?_, [], by simp⟩
    intro S hP hc
    refine found_small h2.levels ?_ hP hc
    rw [Nat.zero_add] at h9
    rw [h9, ← List.toFinset_card_of_nodup hp.nodup]
    exact Finset.card_le_card fun p hpS => List.mem_toFinset.2 (hP p hpS)
  | succ fuel ih =>
    intro gs Ls known A last next gnext contained h1 h2 h3 h4 h5 h6 h7 h8 h9
    unfold subclusterLoop
    by_cases he : gnext.isEmpty
    · rw [if_pos he]
      refine ⟨gs, Ls, known, rfl, h1, h2, ?_, [], by simp⟩
      intro S hP hc
      by_cases hS : S.card ≤ Ls.length
      · exact found_small h2.levels hS hP hc
      · exfalso
        obtain ⟨p, hpS⟩ := hc.nonempty
        obtain ⟨U, u1, u2, u3, u4⟩ := (connected_singleton G p).between hc (by simpa using hpS)
          (k := Ls.length + 1) (by simp) (by omega)
        obtain ⟨l, hl, -⟩ := h5.complete U u4 (fun q hq => hP q (u3 hq)) u1
        rw [List.isEmpty_iff] at he
        subst he
        cases h6
        exact absurd hl (by simp)
    · rw [if_neg he]
      obtain ⟨known', k1, k2⟩ := h2.step h3 h4 h5 h7 h8
      rw [k1]
      simp only [bind, Except.bind]
      obtain ⟨r, ab, r1, r2, r3⟩ := subclustersNextOrder_ok hp h6 fun l hl => (h5.sound l hl).2.2.2
      rw [r1]
      simp only
      obtain ⟨n1, n2⟩ := h5.next (by omega) r3
      obtain ⟨gs', Ls', known'', e1, e2, e3, e4, rest, e5⟩ := ih (gs ++ [gnext]) (Ls ++ [next]) known' Ls.flatten next ab.1 r.1 r.2
        (List.rel_append h1 (.cons h6 .nil)) k2 (by simp)
        (by simpa using h5) (by simpa using n1) r2.1 (by rw [r2.2, r3.length])
        (by
          intro i hi hi' c
          have := r2.2
          simp only [this]
          exact n2 i hi _ c)
        (by simp; omega)
      refine ⟨gs', Ls', known'', ?_, e2, e3, e4, next :: rest, by rw [e5]; simp⟩
      rw [← e1]
      congr 1
      rw [List.flatten_append, List.length_append, h6.length_eq]
      simp

theorem allSubclusters_ok {parent : Geometry} {P : List (ℤ × ℤ)} {G : SimpleGraph (ℤ × ℤ)}
    (hp : parent.IsParent P G) (hne : P ≠ []) :
    ∃ gs Ls known, allSubclusters parent = .ok (gs, known,
        ⟨gs.flatten.length, gs.flatten.length, fun i j => if j ∈ known.getD i [] then 1 else 0⟩) ∧
      List.Forall₂ (List.Forall₂ IsCluster) gs Ls ∧ SubInv P G Ls known ∧ AllFound P G Ls := by
  obtain ⟨first, f1, f2, f3⟩ := subclustersFirst_ok hp
  obtain ⟨gs, Ls, known, h1, h2, h3, h4, rest, h5⟩ := subclusterLoop_ok hp P.length [] [] [] [] [] (P.map fun p => [p])
    first.1 first.2 .nil
    ⟨fun k h => absurd h (by simp), rfl, by simp, fun i h => absurd h (by simp)⟩ rfl
    ⟨by simp, List.nodup_nil, fun S hS _ hc => by
      have := Finset.card_pos.2 hc.nonempty
      simp only [List.length_nil] at hS
      omega⟩ (SubLevel.first hp.nodup G) f2 (by rw [f3]; simp)
    (by
      intro i hi hi' c
      simp only [f3]
      simp) (by simp)
  refine ⟨gs, Ls, known, ?_, h2, h3, h4⟩
  unfold allSubclusters
  rw [f1]
  simp only [bind, Except.bind]
  rw [hp.nsites]
  simp only [List.flatten_nil, List.length_nil] at h1
  rw [h1]
  simp only
  have hgs : gs.isEmpty = false := by
    cases gs with
    | nil =>
      exfalso
      cases h2
      obtain ⟨p, hpP⟩ := List.exists_mem_of_ne_nil P hne
      obtain ⟨l, hl, -⟩ := h4 {p} (by simpa using hpP) (connected_singleton G p)
      exact absurd hl (by simp)
    | cons => rfl
  rw [hgs]
  simp [pure, Except.pure, List.length_flatten]

end ED
