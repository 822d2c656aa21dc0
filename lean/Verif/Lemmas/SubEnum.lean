import Verif.Lemmas.ClusterAll

/-! # Enumeration of subclusters -/

namespace ED

open ED.Geometry Classical

/-! ## Collecting pairs by their first component -/

section Collect

variable {α : Type}

/-- Add the pair `(x, c)`: the number `c` is added to the list of `x`. -/
noncomputable def collectStep (st : List α × List (List ℕ)) (xc : α × ℕ) : List α × List (List ℕ) :=
  match st.1.findIdx? fun y => decide (y = xc.1) with
  | none => (st.1 ++ [xc.1], st.2 ++ [[xc.2]])
  | some i => (st.1, st.2.modify i (· ++ [xc.2]))

/-- The keys are different, and the list of each one holds the numbers given with it. -/
structure Collected (st : List α × List (List ℕ)) (cands : List (α × ℕ)) : Prop where
  nodup : st.1.Nodup
  mem : ∀ x, x ∈ st.1 ↔ ∃ c, (x, c) ∈ cands
  length : st.2.length = st.1.length
  numbers : ∀ i (h : i < st.1.length) (h' : i < st.2.length) c, c ∈ st.2[i] ↔ (st.1[i], c) ∈ cands
  nonempty : ∀ i (h : i < st.2.length), st.2[i] ≠ []

theorem Collected.step {st : List α × List (List ℕ)} {cands : List (α × ℕ)} (h : Collected st cands)
    (xc : α × ℕ) : Collected (collectStep st xc) (cands ++ [xc]) := by
  obtain ⟨x, c⟩ := xc
  unfold collectStep
  cases hf : st.1.findIdx? fun y => decide (y = x) with
  | none =>
    have hx : x ∉ st.1 := by
      intro hx
      rw [List.findIdx?_eq_none_iff] at hf
      have := hf x hx
      simp at this
    simp only
    refine ⟨?_, ?_, ?_, ?_, ?_⟩
    · rw [List.nodup_append]
      refine ⟨h.nodup, List.nodup_singleton _, ?_⟩
      rintro a ha b hb rfl
      rw [List.mem_singleton] at hb
      exact hx (hb ▸ ha)
    · intro y
      rw [List.mem_append, h.mem, List.mem_singleton]
      constructor
      · rintro (⟨d, hd⟩ | rfl)
        · exact ⟨d, List.mem_append_left _ hd⟩
        · exact ⟨c, by simp⟩
      · rintro ⟨d, hd⟩
        rcases List.mem_append.1 hd with hd | hd
        · exact Or.inl ⟨d, hd⟩
        · rw [List.mem_singleton] at hd
          exact Or.inr (congrArg Prod.fst hd)
    · simp [h.length]
    · intro i hi hi' d
      simp only [List.length_append, List.length_singleton] at hi
      rcases Nat.lt_succ_iff_lt_or_eq.1 hi with hi1 | hi1
      · rw [List.getElem_append_left (by rw [h.length]; exact hi1), List.getElem_append_left hi1,
          h.numbers i hi1, List.mem_append, List.mem_singleton]
        constructor
        · exact Or.inl
        · rintro (hd | hd)
          · exact hd
          · exact absurd (List.getElem_mem hi1) (by rw [(Prod.mk.inj hd).1]; exact hx)
      · subst hi1
        rw [List.getElem_append_right (by rw [h.length]), List.getElem_append_right le_rfl]
        simp only [h.length, Nat.sub_self, List.getElem_cons_zero, List.mem_singleton, List.mem_append,
          Prod.mk.injEq, true_and]
        constructor
        · exact Or.inr
        · rintro (hd | hd)
          · exact absurd ((h.mem x).2 ⟨d, hd⟩) hx
          · exact hd
    · intro i hi
      simp only [List.length_append, List.length_singleton] at hi
      rcases Nat.lt_succ_iff_lt_or_eq.1 hi with hi1 | hi1
      · rw [List.getElem_append_left hi1]
        exact h.nonempty i hi1
      · subst hi1
        rw [List.getElem_append_right le_rfl]
        simp
  | some i =>
    rw [List.findIdx?_eq_some_iff_getElem] at hf
    obtain ⟨hi, hix, -⟩ := hf
    have hix : st.1[i] = x := by simpa using hix
    simp only
    refine ⟨h.nodup, ?_, ?_, ?_, ?_⟩
    · intro y
      rw [h.mem]
      constructor
      · rintro ⟨d, hd⟩
        exact ⟨d, List.mem_append_left _ hd⟩
      · rintro ⟨d, hd⟩
        rcases List.mem_append.1 hd with hd | hd
        · exact ⟨d, hd⟩
        · rw [List.mem_singleton] at hd
          rw [← h.mem, (Prod.mk.inj hd).1]
          exact hix ▸ List.getElem_mem hi
    · simp [h.length]
    · intro j hj hj' d
      have hj2 : j < st.2.length := by rw [h.length]; exact hj
      simp only [List.getElem_modify]
      by_cases hij : i = j
      · subst hij
        rw [if_pos rfl, List.mem_append, List.mem_singleton, h.numbers i hj hj2, List.mem_append,
          List.mem_singleton, hix]
        simp
      · rw [if_neg hij, h.numbers j hj hj2, List.mem_append, List.mem_singleton]
        constructor
        · exact Or.inl
        · rintro (hd | hd)
          · exact hd
          · have : st.1[i] = st.1[j] := by rw [hix, (Prod.mk.inj hd).1]
            exact absurd ((h.nodup.getElem_inj_iff).1 this) hij
    · intro j hj
      have hj2 : j < st.2.length := by simpa using hj
      simp only [List.getElem_modify]
      by_cases hij : i = j
      · rw [if_pos hij]
        simp
      · rw [if_neg hij]
        exact h.nonempty j hj2

theorem collected_foldl (cands : List (α × ℕ)) : Collected (cands.foldl collectStep ([], [])) cands := by
  induction cands using List.reverseRecOn with
  | nil =>
    exact ⟨List.nodup_nil, by simp, rfl, fun i h => absurd h (by simp), fun i h => absurd h (by simp)⟩
  | append_singleton cands xc ih =>
    rw [List.foldl_append]
    exact ih.step xc

end Collect

/-! ## One order -/

theorem Geometry.IsParent.nsites {g : Geometry} {P : List (ℤ × ℤ)} {G : SimpleGraph (ℤ × ℤ)}
    (h : g.IsParent P G) : g.nsites = P.length := by
  unfold Geometry.nsites
  rw [h.xlocs, len_fst]

theorem Geometry.IsParent.coords {g : Geometry} {P : List (ℤ × ℤ)} {G : SimpleGraph (ℤ × ℤ)}
    (h : g.IsParent P G) : g.coords = P.map realPt := by
  unfold Geometry.coords
  rw [h.xlocs, h.ylocs, (realSites_eq P).1, (realSites_eq P).2]
  exact (List.zip_of_prod rfl rfl).symm

/-- The state of the loops. -/
def SubRel (st : List Geometry × List (List ℕ)) (ab : List (List (ℤ × ℤ)) × List (List ℕ)) : Prop :=
  List.Forall₂ IsCluster st.1 ab.1 ∧ st.2 = ab.2

theorem trySite_ok {parent g : Geometry} {P l : List (ℤ × ℤ)} {G : SimpleGraph (ℤ × ℤ)}
    (hp : parent.IsParent P G) (hg : g.IsCluster l) (c : ℕ) {jj kk : ℕ} (hj : jj < P.length)
    (hk : kk < P.length) {st : List Geometry × List (List ℕ)} {ab : List (List (ℤ × ℤ)) × List (List ℕ)}
    (h : SubRel st ab) :
    ∃ st', trySite parent g c jj st kk = .ok st' ∧
      SubRel st' (if G.Adj P[jj] P[kk] ∧ P[kk] ∉ l then collectStep ab (snakeSort (l ++ [P[kk]]), c) else ab) := by
  unfold trySite
  simp only
  have hq : (parent.xlocs.getD kk 0, parent.ylocs.getD kk 0) = realPt P[kk] := by
    rw [hp.xlocs, hp.ylocs, getD_fst, getD_snd]
    simp [realPt, List.getD_eq_getElem?_getD, hk]
  rw [hq]
  have hiff : parent.adjacency.e jj kk = 1 ∧ realPt P[kk] ∉ g.coords ↔ G.Adj P[jj] P[kk] ∧ P[kk] ∉ l := by
    rw [hp.adjacency jj kk hj hk, IsCluster.coords_mem hg.2]
  by_cases hc : G.Adj P[jj] P[kk] ∧ P[kk] ∉ l
  · rw [if_pos hc, if_pos (hiff.2 hc)]
    obtain ⟨new, h1, h2⟩ := hg.addSite hc.2
    rw [h1]
    simp only [bind, Except.bind]
    obtain ⟨r, h3, h4⟩ := pyFilter_zipIdx (p := fun g => new.isequal g)
      (Q := fun m => m = snakeSort (l ++ [P[kk]])) h.1
      (fun a b _ hab => (HasSites.isequal h2.2 hab.2).trans (by congr 1; exact decide_eq_decide.2 eq_comm)) 0
    rw [h3]
    simp only
    unfold collectStep
    simp only
    have h4 : r.head?.map Prod.snd =
        ab.1.findIdx? fun y => @decide (y = snakeSort (l ++ [P[kk]])) (propDecidable _) := by
      rw [h4]
      simp only [Nat.add_zero, Option.map_id']
    cases hf : ab.1.findIdx? fun y => @decide (y = snakeSort (l ++ [P[kk]])) (propDecidable _) with
    | none =>
      rw [hf] at h4
      have : r.head? = none := by simpa using h4
      rw [this]
      exact ⟨_, rfl, List.rel_append h.1 (.cons h2 .nil), by rw [h.2]⟩
    | some i =>
      rw [hf] at h4
      cases hr : r.head? with
      | none => rw [hr] at h4; simp at h4
      | some gi =>
        rw [hr] at h4
        have : gi.2 = i := by simpa using h4
        exact ⟨_, rfl, h.1, by rw [h.2, this]⟩
  · rw [if_neg hc, if_neg fun h => hc (hiff.1 h)]
    exact ⟨st, rfl, h⟩

/-- The new clusters, with the numbers of the clusters from which they are made. -/
noncomputable def subGrow (P : List (ℤ × ℤ)) (G : SimpleGraph (ℤ × ℤ)) (lc : List (ℤ × ℤ) × ℕ) :
    List (List (ℤ × ℤ) × ℕ) :=
  lc.1.flatMap fun p => P.filterMap fun q =>
    if G.Adj p q ∧ q ∉ lc.1 then some (snakeSort (lc.1 ++ [q]), lc.2) else none

theorem mem_subGrow {P : List (ℤ × ℤ)} {G : SimpleGraph (ℤ × ℤ)} {lc x : List (ℤ × ℤ) × ℕ} :
    x ∈ subGrow P G lc ↔ ∃ p ∈ lc.1, ∃ q ∈ P, G.Adj p q ∧ q ∉ lc.1 ∧ x = (snakeSort (lc.1 ++ [q]), lc.2) := by
  unfold subGrow
  simp only [List.mem_flatMap, List.mem_filterMap, Option.ite_none_right_eq_some, Option.some.injEq]
  constructor
  · rintro ⟨p, hp, q, hq, ⟨h1, h2⟩, rfl⟩
    exact ⟨p, hp, q, hq, h1, h2, rfl⟩
  · rintro ⟨p, hp, q, hq, h1, h2, rfl⟩
    exact ⟨p, hp, q, hq, ⟨h1, h2⟩, rfl⟩

theorem range_forall2 (P : List (ℤ × ℤ)) :
    List.Forall₂ (fun (k : ℕ) q => P[k]? = some q) (List.range P.length) P := by
  rw [List.forall₂_iff_get]
  refine ⟨by simp, ?_⟩
  intro i h1 h2
  simp [h2]

theorem zipIdx_forall2 {α β : Type} {R : α → β → Prop} {a : List α} {b : List β} (h : List.Forall₂ R a b)
    (k : ℕ) : List.Forall₂ (fun x y => R x.1 y.1 ∧ x.2 = y.2) (a.zipIdx k) (b.zipIdx k) := by
  induction h generalizing k with
  | nil => exact .nil
  | cons h _ ih => exact .cons ⟨h, rfl⟩ (ih _)

theorem subclustersNextOrder_ok {parent : Geometry} {P : List (ℤ × ℤ)} {G : SimpleGraph (ℤ × ℤ)}
    (hp : parent.IsParent P G) {gs : List Geometry} {ls : List (List (ℤ × ℤ))}
    (h : List.Forall₂ IsCluster gs ls) (hsub : ∀ l ∈ ls, ∀ p ∈ l, p ∈ P) :
    ∃ st ab, subclustersNextOrder parent (some gs) = .ok st ∧ SubRel st ab ∧
      Collected ab (ls.zipIdx.flatMap (subGrow P G)) := by
  suffices hh : ∃ st, subclustersNextOrder parent (some gs) = .ok st ∧
      SubRel st ((ls.zipIdx.flatMap (subGrow P G)).foldl collectStep ([], [])) by
    obtain ⟨st, h1, h2⟩ := hh
    exact ⟨st, _, h1, h2, collected_foldl _⟩
  have e : (ls.zipIdx.flatMap (subGrow P G)).foldl collectStep ([], []) =
      ls.zipIdx.foldl (fun acc lc => lc.1.foldl (fun acc p => P.foldl (fun acc q =>
        if G.Adj p q ∧ q ∉ lc.1 then collectStep acc (snakeSort (lc.1 ++ [q]), lc.2) else acc) acc) acc)
        ([], []) := by
    unfold subGrow
    rw [List.foldl_flatMap]
    congr 1
    funext acc lc
    rw [List.foldl_flatMap]
    congr 1
    funext acc p
    rw [List.foldl_filterMap]
    congr 1
    funext acc q
    by_cases hm : G.Adj p q ∧ q ∉ lc.1
    · simp only [if_pos hm]
    · simp only [if_neg hm]
  rw [e]
  unfold subclustersNextOrder
  simp only
  refine foldlM_refine SubRel (zipIdx_forall2 h 0) ?_ ⟨.nil, rfl⟩
  rintro st ab ⟨g, c⟩ ⟨l, c'⟩ hmem ⟨hg, rfl⟩ hst
  simp only at hg
  have hl : l ∈ ls := by
    have := List.mem_zipIdx' hmem
    exact this.2 ▸ List.getElem_mem _
  simp only
  rw [hg.2.coords]
  refine foldlM_refine SubRel (forall2_map_self realPt l) ?_ hst
  rintro st ab _ p hpl rfl hst
  have hpP := hsub l hl p hpl
  have hf : ∃ jj, ∃ hj : jj < P.length, (parent.coords.findIdx? fun c => decide (c = realPt p)) = some jj ∧
      P[jj] = p := by
    rw [hp.coords]
    cases hf : (P.map realPt).findIdx? fun c => decide (c = realPt p) with
    | none =>
      rw [List.findIdx?_eq_none_iff] at hf
      have := hf (realPt p) (List.mem_map_of_mem hpP)
      simp at this
    | some jj =>
      rw [List.findIdx?_eq_some_iff_getElem] at hf
      obtain ⟨hj, hjp, -⟩ := hf
      refine ⟨jj, by simpa using hj, rfl, ?_⟩
      have : realPt (P[jj]'(by simpa using hj)) = realPt p := by simpa using hjp
      exact realPt_injective this
  obtain ⟨jj, hj, h1, h2⟩ := hf
  rw [h1]
  simp only
  rw [hp.nsites]
  refine foldlM_refine SubRel (range_forall2 P) ?_ hst
  intro st ab kk q _ hkq hst
  rw [List.getElem?_eq_some_iff] at hkq
  obtain ⟨hk, rfl⟩ := hkq
  subst h2
  exact trySite_ok hp hg c hj hk hst

theorem subclustersFirst_ok {parent : Geometry} {P : List (ℤ × ℤ)} {G : SimpleGraph (ℤ × ℤ)}
    (hp : parent.IsParent P G) :
    ∃ st, subclustersNextOrder parent none = .ok st ∧ List.Forall₂ IsCluster st.1 (P.map fun p => [p]) ∧
      st.2 = P.map fun _ => [] := by
  unfold subclustersNextOrder
  simp only
  have key : ∀ ks qs, List.Forall₂ (fun (k : ℕ) q => P[k]? = some q) ks qs →
      ∃ gs, (ks.mapM fun ii => createNonPeriodic [parent.xlocs.getD ii 0] [parent.ylocs.getD ii 0] none none) =
        .ok gs ∧ List.Forall₂ IsCluster gs (qs.map fun p => [p]) := by
    intro ks qs h
    induction h with
    | nil => exact ⟨[], rfl, .nil⟩
    | @cons k q ks qs hkq _ ih =>
      obtain ⟨gs, h1, h2⟩ := ih
      have hq : parent.xlocs.getD k 0 = (q.1 : ℝ) ∧ parent.ylocs.getD k 0 = (q.2 : ℝ) := by
        rw [hp.xlocs, hp.ylocs, getD_fst, getD_snd]
        simp [List.getD_eq_getElem?_getD, hkq]
      have hc := create_sites [q]
      have e : (realSites [q]).1 = [(q.1 : ℝ)] ∧ (realSites [q]).2 = [(q.2 : ℝ)] := by
        simp [realSites, realList]
      refine ⟨cluster [(q.1 : ℝ)] [(q.2 : ℝ)] :: gs, ?_, ?_⟩
      · rw [List.mapM_cons, hq.1, hq.2, ← e.1, ← e.2, hc]
        simp only [bind, Except.bind]
        rw [h1]
        rfl
      · refine .cons ⟨⟨List.nodup_singleton _, q.2, by simp, by simp, List.pairwise_singleton ..⟩, ?_⟩ h2
        rw [hasSites_iff, e.1, e.2]
        exact SameData.refl _
  rw [hp.nsites]
  obtain ⟨gs, h1, h2⟩ := key _ _ (range_forall2 P)
  rw [h1]
  refine ⟨_, rfl, h2, ?_⟩
  simp only
  have hl := h2.length_eq
  rw [List.length_map] at hl
  rw [List.map_const', List.map_const', hl]

/-- What the list of subclusters of one order satisfies. -/
structure SubLevel (P : List (ℤ × ℤ)) (G : SimpleGraph (ℤ × ℤ)) (n : ℕ) (ls : List (List (ℤ × ℤ))) : Prop where
  sound : ∀ l ∈ ls, Snake l ∧ l.length = n ∧ ConnectedSites G l.toFinset ∧ ∀ p ∈ l, p ∈ P
  nodup : ls.Nodup
  complete : ∀ S : Finset (ℤ × ℤ), S.card = n → (∀ p ∈ S, p ∈ P) → ConnectedSites G S → ∃ l ∈ ls, l.toFinset = S

theorem SubLevel.next {P : List (ℤ × ℤ)} {G : SimpleGraph (ℤ × ℤ)} {n : ℕ} (hn : 1 ≤ n)
    {ls : List (List (ℤ × ℤ))} (h : SubLevel P G n ls) {ab : List (List (ℤ × ℤ)) × List (List ℕ)}
    (hc : Collected ab (ls.zipIdx.flatMap (subGrow P G))) :
    SubLevel P G (n + 1) ab.1 ∧ ∀ i (hi : i < ab.1.length) (hi' : i < ab.2.length) c,
      c ∈ ab.2[i] ↔ ∃ hc : c < ls.length, ls[c].toFinset ⊆ ab.1[i].toFinset := by
  have cand : ∀ x c, (x, c) ∈ ls.zipIdx.flatMap (subGrow P G) → ∃ hc : c < ls.length, ∃ p ∈ ls[c],
      ∃ q ∈ P, G.Adj p q ∧ q ∉ ls[c] ∧ x = snakeSort (ls[c] ++ [q]) := by
    intro x c hx
    obtain ⟨⟨l, d⟩, hl, hx⟩ := List.mem_flatMap.1 hx
    obtain ⟨p, hp, q, hq, h1, h2, h3⟩ := mem_subGrow.1 hx
    obtain ⟨h4, h5⟩ := List.mem_zipIdx' hl
    simp only [Prod.mk.injEq] at h3
    simp only at hp h2
    obtain ⟨h3, rfl⟩ := h3
    exact ⟨h4, p, h5 ▸ hp, q, hq, h1, h5 ▸ h2, h5 ▸ h3⟩
  have snd : ∀ x ∈ ab.1, Snake x ∧ x.length = n + 1 ∧ ConnectedSites G x.toFinset ∧ ∀ p ∈ x, p ∈ P := by
    intro x hx
    obtain ⟨c, hx⟩ := (hc.mem x).1 hx
    obtain ⟨hcl, p, hp, q, hq, h1, h2, rfl⟩ := cand x c hx
    obtain ⟨h3, h4, h5, h6⟩ := h.sound _ (List.getElem_mem hcl)
    refine ⟨snakeSort_snake (by simp) (nodup_added h3.nodup h2), ?_, ?_, ?_⟩
    · rw [(snakeSort_perm _).length_eq, List.length_append, h4, List.length_singleton]
    · rw [toFinset_added]
      exact h5.insert (p := p) (by simpa using hp) h1
    · intro r hr
      have : r ∈ ls[c] ++ [q] := (snakeSort_perm _).mem_iff.1 hr
      rcases List.mem_append.1 this with hr | hr
      · exact h6 r hr
      · rw [List.mem_singleton] at hr
        exact hr ▸ hq
  have make : ∀ c (hcl : c < ls.length) (S : Finset (ℤ × ℤ)), S.card = n + 1 → (∀ p ∈ S, p ∈ P) →
      ConnectedSites G S → ls[c].toFinset ⊆ S →
      ∃ x, (x, c) ∈ ls.zipIdx.flatMap (subGrow P G) ∧ x.toFinset = S := by
    intro c hcl S hS hP hcon hsub
    obtain ⟨h3, h4, h5, h6⟩ := h.sound _ (List.getElem_mem hcl)
    have hcard : ls[c].toFinset.card = n := by rw [List.toFinset_card_of_nodup h3.nodup, h4]
    have hss : ls[c].toFinset ⊂ S := by
      refine Finset.ssubset_iff_subset_ne.2 ⟨hsub, ?_⟩
      rintro e
      rw [e] at hcard
      omega
    obtain ⟨p, hp, q, hq, hqn, hadj⟩ := hcon.boundary h5.nonempty hss
    refine ⟨snakeSort (ls[c] ++ [q]), ?_, ?_⟩
    · refine List.mem_flatMap.2 ⟨(ls[c], c), ?_, ?_⟩
      · rw [List.mem_zipIdx_iff_getElem?]
        simp [hcl]
      · exact mem_subGrow.2 ⟨p, by simpa using hp, q, hP q hq, hadj, by simpa using hqn, rfl⟩
    · rw [toFinset_added]
      apply Finset.eq_of_subset_of_card_le
      · exact Finset.insert_subset hq hsub
      · rw [Finset.card_insert_of_notMem hqn, hS, hcard]
  refine ⟨⟨snd, hc.nodup, ?_⟩, ?_⟩
  · intro S hS hP hcon
    obtain ⟨v, hv, hrem⟩ := hcon.remove (by omega)
    obtain ⟨l, hl, hlS⟩ := h.complete (S.erase v) (by rw [Finset.card_erase_of_mem hv, hS]; rfl)
      (fun p hp => hP p (Finset.mem_of_mem_erase hp)) hrem
    obtain ⟨c, hcl, rfl⟩ := List.mem_iff_getElem.1 hl
    obtain ⟨x, hx, hxS⟩ := make c hcl S hS hP hcon (by rw [hlS]; exact Finset.erase_subset _ _)
    exact ⟨x, (hc.mem x).2 ⟨c, hx⟩, hxS⟩
  · intro i hi hi' c
    rw [hc.numbers i hi hi']
    constructor
    · intro hx
      obtain ⟨hcl, p, hp, q, hq, h1, h2, h3⟩ := cand _ c hx
      refine ⟨hcl, ?_⟩
      rw [h3, toFinset_added]
      exact Finset.subset_insert _ _
    · rintro ⟨hcl, hsub⟩
      obtain ⟨h3, h4, h5, h6⟩ := snd _ (List.getElem_mem hi)
      obtain ⟨x, hx, hxS⟩ := make c hcl ab.1[i].toFinset (by rw [List.toFinset_card_of_nodup h3.nodup, h4])
        (fun p hp => h6 p (List.mem_toFinset.1 hp)) h5 hsub
      have hxs := (snd x ((hc.mem x).2 ⟨c, hx⟩)).1
      have := hxs.eq_of_toFinset h3 hxS
      exact this ▸ hx

theorem SubLevel.first {P : List (ℤ × ℤ)} (hP : P.Nodup) (G : SimpleGraph (ℤ × ℤ)) :
    SubLevel P G 1 (P.map fun p => [p]) := by
  refine ⟨?_, ?_, ?_⟩
  · intro l hl
    obtain ⟨p, hp, rfl⟩ := List.mem_map.1 hl
    refine ⟨⟨List.nodup_singleton _, p.2, by simp, by simp, List.pairwise_singleton ..⟩, rfl, ?_, ?_⟩
    · exact connected_singleton G _
    · intro q hq
      rw [List.mem_singleton] at hq
      exact hq ▸ hp
  · exact hP.map fun a b h => by simpa using h
  · intro S hS hSP _
    obtain ⟨p, rfl⟩ := Finset.card_eq_one.1 hS
    exact ⟨[p], List.mem_map.2 ⟨p, hSP p (by simp), rfl⟩, by simp⟩

/-- Connected subsets can be enlarged inside a connected set. -/
theorem ConnectedSites.between {G : SimpleGraph (ℤ × ℤ)} {T S : Finset (ℤ × ℤ)} (hT : ConnectedSites G T)
    (hS : ConnectedSites G S) (hTS : T ⊆ S) {k : ℕ} (h1 : T.card ≤ k) (h2 : k ≤ S.card) :
    ∃ U, ConnectedSites G U ∧ T ⊆ U ∧ U ⊆ S ∧ U.card = k := by
  induction k, h1 using Nat.le_induction with
  | base => exact ⟨T, hT, subset_rfl, hTS, rfl⟩
  | succ k hk ih =>
    obtain ⟨U, hU, hTU, hUS, hc⟩ := ih (by omega)
    have hss : U ⊂ S := by
      refine Finset.ssubset_iff_subset_ne.2 ⟨hUS, ?_⟩
      rintro rfl
      omega
    obtain ⟨p, hp, q, hq, hqn, hadj⟩ := hS.boundary hU.nonempty hss
    refine ⟨Insert.insert q U, hU.insert hp hadj, hTU.trans (Finset.subset_insert _ _),
      Finset.insert_subset hq hUS, ?_⟩
    rw [Finset.card_insert_of_notMem hqn, hc]

end ED
