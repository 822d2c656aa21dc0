import Verif.Lemmas.ClusterSymm
import Verif.Lemmas.ClusterGraph

/-! # Enumeration of clusters -/

namespace ED

open ED.Geometry Classical

/-- The vectors that are added to sites. -/
def vects (lv1 lv2 : ℤ × ℤ) : List (ℤ × ℤ) := [lv1, -lv1, lv2, -lv2]

theorem vectList_eq (lv1 lv2 : ℤ × ℤ) :
    vectList (realPt lv1) (realPt lv2) = (vects lv1 lv2).map realPt := by
  simp [vectList, vects, realPt]

theorem adj_iff {lv1 lv2 p q : ℤ × ℤ} :
    (latticeGraph lv1 lv2).Adj p q ↔ p ≠ q ∧ ∃ v ∈ vects lv1 lv2, q = p + v := by
  simp [latticeGraph, vects, sub_eq_add_neg]

/-- A cluster `c` in the list is a translate of a partner of the new cluster `x`. -/
def Known (sym : Bool) (c x : List (ℤ × ℤ)) : Prop := ∃ cn ∈ partnersOf sym x, Tr cn c

/-- The new clusters from one cluster. -/
noncomputable def grow (lv1 lv2 : ℤ × ℤ) (l : List (ℤ × ℤ)) : List (List (ℤ × ℤ)) :=
  l.flatMap fun p => (vects lv1 lv2).filterMap fun v =>
    if p + v ∈ l then none else some (snakeSort (l ++ [p + v]))

/-- The clusters of the next order. -/
noncomputable def nextOrder (lv1 lv2 : ℤ × ℤ) (sym : Bool) (ls : List (List (ℤ × ℤ))) : List (List (ℤ × ℤ)) :=
  dedupBy (Known sym) [] (ls.flatMap (grow lv1 lv2))

/-- The state of the loops represents a list of clusters. -/
def StateRel (sym : Bool) (st : List Geometry × List ℕ) (ls : List (List (ℤ × ℤ))) : Prop :=
  List.Forall₂ IsCluster st.1 ls ∧ st.2 = ls.map fun l => (partnersOf sym l).length

theorem tryVector_ok {sym : Bool} {g : Geometry} {l : List (ℤ × ℤ)} (hg : g.IsCluster l) (p v : ℤ × ℤ)
    {st : List Geometry × List ℕ} {ls : List (List (ℤ × ℤ))} (h : StateRel sym st ls) :
    ∃ st', tryVector sym g (realPt p) st (realPt v) = .ok st' ∧
      StateRel sym st' (if p + v ∈ l then ls else
        if ∃ c ∈ ls, Known sym c (snakeSort (l ++ [p + v])) then ls else ls ++ [snakeSort (l ++ [p + v])]) := by
  have hq : ((realPt p).1 + (realPt v).1, (realPt p).2 + (realPt v).2) = realPt (p + v) := by
    simp [realPt]
  unfold tryVector
  simp only
  rw [hq]
  by_cases hm : p + v ∈ l
  · rw [if_pos hm, if_pos ((IsCluster.coords_mem hg.2 _).2 hm)]
    exact ⟨st, rfl, h⟩
  · rw [if_neg hm, if_neg fun h' => hm ((IsCluster.coords_mem hg.2 _).1 h')]
    obtain ⟨new, h1, h2⟩ := hg.addSite hm
    obtain ⟨ps, h3, h4⟩ := symmPartners_ok h2 sym
    rw [h1]
    simp only [bind, Except.bind]
    rw [h3]
    simp only
    obtain ⟨r, h5, h6⟩ := pyFilter_forall2 (p := fun c => anyEqual ps c)
      (Q := fun c => Known sym c (snakeSort (l ++ [p + v]))) h.1 (fun a b _ hab => (anyEqual_ok h4 hab).trans (by congr 1; exact decide_eq_decide.2 Iff.rfl))
    rw [h5]
    simp only [pure, Except.pure]
    refine ⟨_, rfl, ?_⟩
    rw [h6]
    by_cases hk : ∃ c ∈ ls, Known sym c (snakeSort (l ++ [p + v]))
    · rw [if_pos hk, decide_eq_true hk, if_neg (by simp)]
      exact h
    · rw [if_neg hk, decide_eq_false hk, if_pos (by simp)]
      refine ⟨List.rel_append h.1 (.cons h2 .nil), ?_⟩
      simp only
      rw [h.2, List.map_append, List.map_singleton, h4.length_eq]

theorem forall2_map_self {α β : Type} (f : β → α) (l : List β) :
    List.Forall₂ (fun a b => a = f b) (l.map f) l := by
  induction l with
  | nil => exact .nil
  | cons a l ih => exact .cons rfl ih

theorem clustersNextOrder_ok {sym : Bool} (lv1 lv2 : ℤ × ℤ) {gs : List Geometry}
    {ls : List (List (ℤ × ℤ))} (h : List.Forall₂ IsCluster gs ls) :
    ∃ st, clustersNextOrder (some gs) (realPt lv1) (realPt lv2) sym = .ok st ∧
      StateRel sym st (nextOrder lv1 lv2 sym ls) := by
  unfold clustersNextOrder
  simp only
  have e : nextOrder lv1 lv2 sym ls = ls.foldl (fun acc l => l.foldl (fun acc p => (vects lv1 lv2).foldl
      (fun acc v => if p + v ∈ l then acc else
        if ∃ c ∈ acc, Known sym c (snakeSort (l ++ [p + v])) then acc
        else acc ++ [snakeSort (l ++ [p + v])]) acc) acc) [] := by
    unfold nextOrder dedupBy grow
    rw [List.foldl_flatMap]
    congr 1
    funext acc l
    rw [List.foldl_flatMap]
    congr 1
    funext acc p
    rw [List.foldl_filterMap]
    congr 1
    funext acc v
    by_cases hm : p + v ∈ l
    · simp only [if_pos hm]
    · simp only [if_neg hm]
  rw [e]
  refine foldlM_refine (StateRel sym) h ?_ ⟨.nil, rfl⟩
  intro st ls g l _ hg hst
  rw [hg.2.coords]
  refine foldlM_refine (StateRel sym) (forall2_map_self realPt l) ?_ hst
  rintro st ls _ p - rfl hst
  rw [vectList_eq]
  refine foldlM_refine (StateRel sym) (forall2_map_self realPt (vects lv1 lv2)) ?_ hst
  rintro st ls _ v - rfl hst
  exact tryVector_ok hg p v hst

theorem clustersFirst_ok (sym : Bool) (lv1 lv2 : ℝ × ℝ) :
    ∃ st, clustersNextOrder none lv1 lv2 sym = .ok st ∧ List.Forall₂ IsCluster st.1 [[(0, 0)]] ∧ st.2 = [1] := by
  have e : ([0] : List ℝ) = (realSites [(0, 0)]).1 ∧ ([0] : List ℝ) = (realSites [(0, 0)]).2 := by
    simp [realSites, realList]
  have hc := create_sites [(0, 0)]
  rw [← e.1, ← e.2] at hc
  refine ⟨([cluster [0] [0]], [1]), ?_, ?_, rfl⟩
  · unfold clustersNextOrder
    rw [hc]
    rfl
  · refine .cons ⟨⟨List.nodup_singleton _, 0, by simp, by simp, List.pairwise_singleton ..⟩, ?_⟩ .nil
    rw [hasSites_iff, ← e.1, ← e.2]
    exact SameData.refl _

/-! ## Soundness and completeness of one order -/

theorem equivalent_iff {sym : Bool} {S T : Finset (ℤ × ℤ)} :
    Equivalent sym S T ↔ ∃ s w, (sym = false → s = (false, false, false)) ∧
      T = S.image fun p => squareMap s p + w := by
  unfold Equivalent Translate
  cases sym
  · simp only [Bool.false_eq_true, if_false, forall_const]
    constructor
    · rintro ⟨w, rfl⟩
      exact ⟨_, w, rfl, rfl⟩
    · rintro ⟨s, w, rfl, rfl⟩
      exact ⟨w, rfl⟩
  · simp only [if_true]
    constructor
    · rintro ⟨s, w, rfl⟩
      refine ⟨s, w, by simp, ?_⟩
      rw [Finset.image_image]
      rfl
    · rintro ⟨s, w, -, rfl⟩
      refine ⟨s, w, ?_⟩
      rw [Finset.image_image]
      rfl

/-- What the list of clusters of one order satisfies. -/
structure Level (G : SimpleGraph (ℤ × ℤ)) (sym : Bool) (n : ℕ) (ls : List (List (ℤ × ℤ))) : Prop where
  sound : ∀ l ∈ ls, Snake l ∧ l.length = n ∧ ConnectedSites G l.toFinset
  distinct : ls.Pairwise fun a b => ¬ Equivalent sym a.toFinset b.toFinset
  complete : (sym = true → SymmetricGraph G) → ∀ S : Finset (ℤ × ℤ), S.card = n → ConnectedSites G S →
    ∃ l ∈ ls, Equivalent sym S l.toFinset

theorem adj_translate {lv1 lv2 p q : ℤ × ℤ} (w : ℤ × ℤ) (h : (latticeGraph lv1 lv2).Adj p q) :
    (latticeGraph lv1 lv2).Adj (p + w) (q + w) := by
  rw [adj_iff] at *
  obtain ⟨h1, v, hv, rfl⟩ := h
  exact ⟨fun e => h1 (add_right_cancel e), v, hv, by abel⟩

theorem adj_map {lv1 lv2 p q : ℤ × ℤ} {sym : Bool} (hs : sym = true → SymmetricGraph (latticeGraph lv1 lv2))
    {s : Bool × Bool × Bool} (hsym : sym = false → s = (false, false, false)) (w : ℤ × ℤ)
    (h : (latticeGraph lv1 lv2).Adj p q) :
    (latticeGraph lv1 lv2).Adj (squareMap s p + w) (squareMap s q + w) := by
  apply adj_translate
  cases sym
  · rw [hsym rfl]
    exact h
  · exact hs rfl s p q h

theorem mem_grow {lv1 lv2 : ℤ × ℤ} {l c : List (ℤ × ℤ)} :
    c ∈ grow lv1 lv2 l ↔ ∃ p ∈ l, ∃ v ∈ vects lv1 lv2, p + v ∉ l ∧ c = snakeSort (l ++ [p + v]) := by
  unfold grow
  simp only [List.mem_flatMap, List.mem_filterMap, Option.ite_none_left_eq_some, Option.some.injEq]
  constructor
  · rintro ⟨p, hp, v, hv, h1, h2⟩
    exact ⟨p, hp, v, hv, h1, h2.symm⟩
  · rintro ⟨p, hp, v, hv, h1, h2⟩
    exact ⟨p, hp, v, hv, h1, h2.symm⟩

theorem toFinset_added (l : List (ℤ × ℤ)) (q : ℤ × ℤ) :
    (snakeSort (l ++ [q])).toFinset = insert q l.toFinset := by
  rw [toFinset_snakeSort]
  ext x
  simp [or_comm]

theorem nodup_added {l : List (ℤ × ℤ)} (h : l.Nodup) {q : ℤ × ℤ} (hq : q ∉ l) : (l ++ [q]).Nodup := by
  rw [List.nodup_append]
  refine ⟨h, List.nodup_singleton _, ?_⟩
  intro a ha b hb e
  rw [List.mem_singleton] at hb
  subst hb
  subst e
  exact hq ha

theorem Level.next {lv1 lv2 : ℤ × ℤ} {sym : Bool} {n : ℕ} (hn : 1 ≤ n) {ls : List (List (ℤ × ℤ))}
    (h : Level (latticeGraph lv1 lv2) sym n ls) :
    Level (latticeGraph lv1 lv2) sym (n + 1) (nextOrder lv1 lv2 sym ls) := by
  have cand : ∀ c ∈ ls.flatMap (grow lv1 lv2), Snake c ∧ c.length = n + 1 ∧
      ConnectedSites (latticeGraph lv1 lv2) c.toFinset := by
    intro c hc
    obtain ⟨l, hl, hc⟩ := List.mem_flatMap.1 hc
    obtain ⟨p, hp, v, hv, hm, rfl⟩ := mem_grow.1 hc
    obtain ⟨h1, h2, h3⟩ := h.sound l hl
    refine ⟨snakeSort_snake (by simp) (nodup_added h1.nodup hm), ?_, ?_⟩
    · rw [(snakeSort_perm _).length_eq, List.length_append, h2, List.length_singleton]
    · rw [toFinset_added]
      refine h3.insert (p := p) (by simpa using hp) ?_
      rw [adj_iff]
      exact ⟨fun e => hm (e ▸ hp), v, hv, rfl⟩
  have mem : ∀ c ∈ nextOrder lv1 lv2 sym ls, c ∈ ls.flatMap (grow lv1 lv2) := by
    intro c hc
    rcases dedupBy_mem hc with hc | hc
    · exact absurd hc (by simp)
    · exact hc
  refine ⟨fun c hc => cand c (mem c hc), ?_, ?_⟩
  · have := dedupBy_pairwise (R := Known sym) (acc := []) (xs := ls.flatMap (grow lv1 lv2)) List.Pairwise.nil
    refine List.Pairwise.imp_of_mem ?_ this
    intro a b ha hb hab he
    apply hab
    unfold Known
    rw [partnersOf_iff (cand b (mem b hb)).1 (cand a (mem a ha)).1]
    exact he.symm
  · intro hs S hS hcon
    obtain ⟨v, hv, hrem⟩ := hcon.remove (by omega)
    have hcard : (S.erase v).card = n := by rw [Finset.card_erase_of_mem hv, hS]; rfl
    obtain ⟨l, hl, heq⟩ := h.complete hs _ hcard hrem
    obtain ⟨s, w, hsym, hlS⟩ := equivalent_iff.1 heq
    obtain ⟨p, hp, q, hq, hqe, hadj⟩ := hcon.boundary (T := S.erase v)
      (by rw [← Finset.card_pos]; omega) (Finset.erase_ssubset hv)
    have hqv : q = v := by
      by_contra hne
      exact hqe (Finset.mem_erase.2 ⟨hne, hq⟩)
    subst hqv
    have hadj' := adj_map hs hsym w hadj
    have hpl : squareMap s p + w ∈ l := by
      rw [← List.mem_toFinset, hlS]
      exact Finset.mem_image_of_mem _ hp
    have hql : squareMap s q + w ∉ l := by
      rw [← List.mem_toFinset, hlS, Finset.mem_image]
      rintro ⟨x, hx, e⟩
      have := squareMap_injective s (add_right_cancel e)
      subst this
      exact hqe hx
    obtain ⟨-, u, hu, he⟩ := adj_iff.1 hadj'
    have hc : snakeSort (l ++ [squareMap s q + w]) ∈ ls.flatMap (grow lv1 lv2) :=
      List.mem_flatMap.2 ⟨l, hl, mem_grow.2 ⟨_, hpl, u, hu, he ▸ hql, by rw [he]⟩⟩
    have hce : Equivalent sym S (snakeSort (l ++ [squareMap s q + w])).toFinset := by
      rw [equivalent_iff]
      refine ⟨s, w, hsym, ?_⟩
      rw [toFinset_added, hlS]
      conv_rhs => rw [← Finset.insert_erase hv, Finset.image_insert]
    -- every candidate is known in the end
    have hrefl : ∀ x ∈ ls.flatMap (grow lv1 lv2), Known sym x x := by
      intro x hx
      unfold Known
      rw [partnersOf_iff (cand x hx).1 (cand x hx).1]
      exact Equivalent.refl sym _
    obtain ⟨y, hy, hk⟩ := dedupBy_cover_of (R := Known sym) (acc := []) hrefl hc
    refine ⟨y, hy, hce.trans ?_⟩
    unfold Known at hk
    rwa [partnersOf_iff (cand _ hc).1 (cand y (mem y hy)).1] at hk

theorem Level.first (G : SimpleGraph (ℤ × ℤ)) (sym : Bool) : Level G sym 1 [[(0, 0)]] := by
  refine ⟨?_, List.pairwise_singleton .., ?_⟩
  · intro l hl
    rw [List.mem_singleton] at hl
    subst hl
    refine ⟨⟨List.nodup_singleton _, 0, by simp, by simp, List.pairwise_singleton ..⟩, rfl, ?_⟩
    exact connected_singleton G _
  · intro _ S hS _
    obtain ⟨p, rfl⟩ := Finset.card_eq_one.1 hS
    refine ⟨_, List.mem_singleton.2 rfl, ?_⟩
    rw [equivalent_iff]
    refine ⟨(false, false, false), -p, fun _ => rfl, ?_⟩
    rw [Finset.image_singleton]
    simp [squareMap_id]

end ED
