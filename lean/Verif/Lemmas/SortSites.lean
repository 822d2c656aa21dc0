import Verif.Lemmas.Sorting

/-! # Sorting of integer sites -/

namespace ED

open ED ED.Geometry Classical

/-- The sorting modes by coordinates. -/
def CoordMode (mode : String) : Prop :=
  mode = "top_alternating" ∨ mode = "top_left" ∨ mode = "bottom_right"

theorem max_site (sites : List (ℤ × ℤ)) (h : sites ≠ []) :
    ∃ top : ℤ, (∃ p ∈ sites, p.2 = top) ∧ ∀ p ∈ sites, p.2 ≤ top := by
  induction sites with
  | nil => exact absurd rfl h
  | cons a l ih =>
    by_cases hl : l = []
    · subst hl
      exact ⟨a.2, ⟨a, by simp, rfl⟩, by simp⟩
    · obtain ⟨t, ⟨p, hp, rfl⟩, ht⟩ := ih hl
      rcases le_total a.2 p.2 with h1 | h1
      · refine ⟨p.2, ⟨p, List.mem_cons_of_mem _ hp, rfl⟩, ?_⟩
        intro q hq
        rcases List.mem_cons.1 hq with rfl | hq
        · exact h1
        · exact ht q hq
      · refine ⟨a.2, ⟨a, List.mem_cons_self .., rfl⟩, ?_⟩
        intro q hq
        rcases List.mem_cons.1 hq with rfl | hq
        · exact le_rfl
        · exact (ht q hq).trans h1

theorem siteKey_injective (mode : String) (top : ℤ) : Function.Injective (siteKey mode top) := by
  intro p q h
  unfold siteKey at h
  have h' := toLex.injective h
  have h1 := congrArg Prod.fst h'
  have h2 := congrArg Prod.snd h'
  simp only at h1 h2
  have e2 : p.2 = q.2 := by
    split_ifs at h1 with hm
    · exact h1
    · exact neg_injective h1
  rw [e2] at h2
  have e1 : p.1 = q.1 := by
    split_ifs at h2 with hm
    · exact neg_injective h2
    · exact h2
  exact Prod.ext e1 e2

theorem siteKey_le (mode : String) (top : ℤ) (p q : ℤ × ℤ) :
    siteKey mode top p ≤ siteKey mode top q ↔
      (if mode = "bottom_right" then p.2 else -p.2) < (if mode = "bottom_right" then q.2 else -q.2) ∨
      (p.2 = q.2 ∧ (if mode = "top_alternating" ∧ ¬ Even (p.2 - top) then -p.1 else p.1) ≤
        (if mode = "top_alternating" ∧ ¬ Even (q.2 - top) then -q.1 else q.1)) := by
  unfold siteKey
  rw [Prod.Lex.toLex_le_toLex]
  apply or_congr Iff.rfl
  apply and_congr _ Iff.rfl
  simp only
  split_ifs
  · exact Iff.rfl
  · exact neg_inj

theorem keyTotal (mode : String) (top : ℤ) :
    Std.Total fun p q : ℤ × ℤ => siteKey mode top p ≤ siteKey mode top q := ⟨fun _ _ => le_total _ _⟩

theorem keyTrans (mode : String) (top : ℤ) :
    IsTrans (ℤ × ℤ) fun p q : ℤ × ℤ => siteKey mode top p ≤ siteKey mode top q :=
  ⟨fun _ _ _ h1 h2 => h1.trans h2⟩

theorem getD_fst (sites : List (ℤ × ℤ)) (i : ℕ) :
    (realSites sites).1.getD i 0 = ((sites.getD i (0, 0)).1 : ℝ) := by
  simp only [realSites, realList, List.getD_eq_getElem?_getD, List.getElem?_map]
  cases sites[i]? <;> simp

theorem getD_snd (sites : List (ℤ × ℤ)) (i : ℕ) :
    (realSites sites).2.getD i 0 = ((sites.getD i (0, 0)).2 : ℝ) := by
  simp only [realSites, realList, List.getD_eq_getElem?_getD, List.getElem?_map]
  cases sites[i]? <;> simp

theorem range_getD (sites : List (ℤ × ℤ)) :
    ((List.range sites.length).map fun k => sites.getD k (0, 0)) = sites := by
  apply List.ext_getElem
  · simp
  · intro i _ h2
    simp [List.getD_eq_getElem?_getD, h2]

theorem len_fst (sites : List (ℤ × ℤ)) : (realSites sites).1.length = sites.length := by
  simp [realSites, realList]

theorem len_snd (sites : List (ℤ × ℤ)) : (realSites sites).2.length = sites.length := by
  simp [realSites, realList]

theorem rowSign_int (k : ℤ) : rowSign (k : ℝ) = if Even k then 1 else -1 := by
  unfold rowSign
  rw [Int.floor_intCast]

/-- The sorting permutation of an integer cluster. -/
theorem perm_sites {sites : List (ℤ × ℤ)} {mode : String} (hm : CoordMode mode) {top : ℤ}
    (ht : ∃ p ∈ sites, p.2 = top) (hmax : ∀ p ∈ sites, p.2 ≤ top) :
    ∃ perm, (cluster (realSites sites).1 (realSites sites).2).sortingPermutation mode = .ok perm ∧
      (perm.map fun k => sites.getD k (0, 0)) =
        sites.insertionSort fun p q => siteKey mode top p ≤ siteKey mode top q := by
  have hn : (cluster (realSites sites).1 (realSites sites).2).nsites = sites.length := len_fst sites
  -- the two orders agree
  have fin : ∀ keys : List (ℕ → ℝ),
      (∀ i < sites.length, ∀ j < sites.length, lexLE keys i j ↔
        siteKey mode top (sites.getD i (0, 0)) ≤ siteKey mode top (sites.getD j (0, 0))) →
      ((lexsort sites.length keys).map fun k => sites.getD k (0, 0)) =
        sites.insertionSort fun p q => siteKey mode top p ≤ siteKey mode top q := by
    intro keys hk
    unfold lexsort
    rw [List.map_insertionSort (lexLE keys) (fun p q => siteKey mode top p ≤ siteKey mode top q)
      (fun k => sites.getD k (0, 0)) _
      (fun i hi j hj => hk i (List.mem_range.1 hi) j (List.mem_range.1 hj)), range_getD]
  unfold sortingPermutation
  simp only
  rcases hm with rfl | rfl | rfl
  · rw [if_pos rfl]
    have hmax' : npMax (realSites sites).2 = .ok (top : ℝ) := by
      apply npMax_unique
      · obtain ⟨p, hp, rfl⟩ := ht
        exact List.mem_map.2 ⟨p.2, List.mem_map.2 ⟨p, hp, rfl⟩, rfl⟩
      · intro x hx
        obtain ⟨k, hk, rfl⟩ := List.mem_map.1 hx
        obtain ⟨p, hp, rfl⟩ := List.mem_map.1 hk
        exact_mod_cast hmax p hp
    have hint : ∀ v ∈ (realSites sites).2, v - (top : ℝ) = (⌊v - (top : ℝ)⌋ : ℝ) := by
      intro v hv
      obtain ⟨k, _, rfl⟩ := List.mem_map.1 hv
      rw [← Int.cast_sub, Int.floor_intCast]
    refine ⟨lexsort sites.length [fun i => (realSites sites).1.getD i 0 *
      ((realSites sites).2.map fun v => rowSign (v - top)).getD i 0,
      fun i => -(realSites sites).2.getD i 0], ?_, fin _ ?_⟩
    · change ((npMax (realSites sites).2).bind fun m => _) = _
      rw [hmax']
      simp only [Except.bind]
      change (((realSites sites).2.mapM fun v => signPower (v - top)).bind fun s => _) = _
      rw [signs_ok _ _ hint]
      simp only [Except.bind, pure, Except.pure, hn]
      rfl
    · intro i hi j hj
      have gets : ∀ i, i < sites.length → ((realSites sites).2.map fun v => rowSign (v - top)).getD i 0 =
          if Even ((sites.getD i (0, 0)).2 - top) then 1 else -1 := by
        intro i hi
        have h0 : i < (realSites sites).2.length := by rw [len_snd]; exact hi
        have h1 := getD_snd sites i
        rw [List.getD_eq_getElem?_getD, List.getElem?_eq_getElem h0, Option.getD_some] at h1
        rw [List.getD_eq_getElem?_getD, List.getElem?_map, List.getElem?_eq_getElem h0, Option.map_some,
          Option.getD_some, h1, ← Int.cast_sub, rowSign_int]
      rw [lexLE_two, siteKey_le, gets i hi, gets j hj, getD_fst, getD_fst, getD_snd, getD_snd]
      simp (decide := true) only [if_false, true_and]
      apply or_congr
      · rw [neg_lt_neg_iff, neg_lt_neg_iff, Int.cast_lt]
      · rw [neg_inj, Int.cast_inj]
        apply and_congr_right
        intro he
        rw [he]
        by_cases hv : Even ((sites.getD j (0, 0)).2 - top)
        · simp only [hv, if_true, not_true, if_false, mul_one, Int.cast_le]
        · simp only [hv, not_false_eq_true, if_true, if_false, mul_neg, mul_one, neg_le_neg_iff,
            Int.cast_le]
  · rw [if_neg (by decide), if_pos rfl]
    refine ⟨_, rfl, ?_⟩
    rw [hn]
    apply fin
    intro i hi j hj
    rw [lexLE_two, siteKey_le]
    simp only [cluster]
    rw [getD_fst, getD_fst, getD_snd, getD_snd]
    simp (decide := true) only [if_false, false_and]
    rw [neg_lt_neg_iff, neg_lt_neg_iff, Int.cast_lt, neg_inj, Int.cast_inj, Int.cast_le]
  · rw [if_neg (by decide), if_neg (by decide), if_pos rfl]
    refine ⟨_, rfl, ?_⟩
    rw [hn]
    apply fin
    intro i hi j hj
    rw [lexLE_two, siteKey_le]
    simp only [cluster]
    rw [getD_fst, getD_fst, getD_snd, getD_snd]
    simp (decide := true) only [if_true, if_false, false_and]
    rw [Int.cast_lt, Int.cast_inj, Int.cast_le]

/-- The sorted cluster. -/
theorem sorted_sites {sites : List (ℤ × ℤ)} {mode : String} (hm : CoordMode mode) {top : ℤ}
    (ht : ∃ p ∈ sites, p.2 = top) (hmax : ∀ p ∈ sites, p.2 ≤ top) :
    ∃ g', (cluster (realSites sites).1 (realSites sites).2).sorted mode = .ok g' ∧
      g'.SameData (cluster
        (realSites (sites.insertionSort fun p q => siteKey mode top p ≤ siteKey mode top q)).1
        (realSites (sites.insertionSort fun p q => siteKey mode top p ≤ siteKey mode top q)).2) := by
  obtain ⟨perm, hp, he⟩ := perm_sites hm ht hmax
  have hw := cluster_wellFormed (realSites sites).1 (realSites sites).2 (by rw [len_fst, len_snd])
  obtain ⟨g', hg', hr⟩ := permuteSites_ok hw (sortingPermutation_perm hp)
  refine ⟨g', ?_, ?_⟩
  · unfold Geometry.sorted
    rw [hp]
    exact hg'
  · have := relabelled_cluster hr
    rw [← he]
    convert this using 2
    · simp only [realSites, realList, List.map_map]
      refine List.map_congr_left fun k _ => ?_
      have := getD_fst sites k
      simp only [realSites, realList, List.map_map] at this
      exact this.symm
    · simp only [realSites, realList, List.map_map]
      refine List.map_congr_left fun k _ => ?_
      have := getD_snd sites k
      simp only [realSites, realList, List.map_map] at this
      exact this.symm

theorem create_sites (sites : List (ℤ × ℤ)) :
    createNonPeriodic (realSites sites).1 (realSites sites).2 none none =
      .ok (cluster (realSites sites).1 (realSites sites).2) :=
  createNonPeriodic_ok _ _ (by rw [len_fst, len_snd])

/-- Order and translation. -/
theorem siteKey_translate (mode : String) (top : ℤ) (v p q : ℤ × ℤ) :
    siteKey mode (top + v.2) (p + v) ≤ siteKey mode (top + v.2) (q + v) ↔
      siteKey mode top p ≤ siteKey mode top q := by
  rw [siteKey_le, siteKey_le]
  simp only [Prod.fst_add, Prod.snd_add, add_sub_add_right_eq_sub]
  apply or_congr
  · split_ifs
    · exact add_lt_add_iff_right _
    · rw [neg_lt_neg_iff, neg_lt_neg_iff]
      exact add_lt_add_iff_right _
  · rw [add_left_inj]
    apply and_congr_right
    intro he
    rw [he]
    split_ifs
    · rw [neg_le_neg_iff, neg_le_neg_iff]
      exact add_le_add_iff_right _
    · exact add_le_add_iff_right _

end ED
