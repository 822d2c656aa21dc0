import Verif.Lemmas.ClusterAll

/-! # Grouping of clusters -/

namespace ED

open ED.Geometry Classical

/-- The groups of one order: `D` are the representatives and `M` the sizes of the groups. -/
structure Grouped (sym : Bool) (O D : List (List (ℤ × ℤ))) (M : List ℕ) : Prop where
  sublist : D.Sublist O
  distinct : D.Pairwise fun a b => ¬ Equivalent sym a.toFinset b.toFinset
  sizes : M = D.map fun d => O.countP fun o => decide (Equivalent sym d.toFinset o.toFinset)

/-- The columns of the clusters `O`: each one belongs to an equivalent representative. -/
def Assigned (sym : Bool) (before : ℕ) (O D : List (List (ℤ × ℤ))) (cols : List ℕ) : Prop :=
  List.Forall₂ (fun o c => ∃ a, ∃ h : a < D.length, c = before + a ∧ Equivalent sym D[a].toFinset o.toFinset)
    O cols

theorem Assigned.append {sym : Bool} {before : ℕ} {O D : List (List (ℤ × ℤ))} {cols : List ℕ}
    (h : Assigned sym before O D cols) (E : List (List (ℤ × ℤ))) : Assigned sym before O (D ++ E) cols := by
  refine List.Forall₂.imp ?_ h
  rintro o c ⟨a, ha, h1, h2⟩
  exact ⟨a, by rw [List.length_append]; omega, h1, by rw [List.getElem_append_left ha]; exact h2⟩

/-- The state of the loop over one order, after the clusters `O`. -/
def GroupInv (sym : Bool) (before : ℕ) (cols0 : List ℕ) (O : List (List (ℤ × ℤ)))
    (st : List Geometry × List ℕ × List ℕ) : Prop :=
  ∃ D new, List.Forall₂ IsCluster st.1 D ∧ Grouped sym O D st.2.1 ∧ st.2.2 = cols0 ++ new ∧
    Assigned sym before O D new

theorem groupCluster_ok {sym : Bool} {before : ℕ} {cols0 : List ℕ} {O : List (List (ℤ × ℤ))}
    {st : List Geometry × List ℕ × List ℕ} (hO : ∀ o ∈ O, Snake o) (h : GroupInv sym before cols0 O st)
    {g : Geometry} {l : List (ℤ × ℤ)} (hg : g.IsCluster l) :
    ∃ st', groupCluster sym before st g = .ok st' ∧ GroupInv sym before cols0 (O ++ [l]) st' := by
  obtain ⟨D, new, h1, h2, h3, h4⟩ := h
  have hD : ∀ d ∈ D, Snake d := fun d hd => hO d (h2.sublist.subset hd)
  obtain ⟨ps, p1, p2⟩ := symmPartners_ok hg sym
  unfold groupCluster
  rw [p1]
  simp only [bind, Except.bind]
  obtain ⟨r, r1, r2⟩ := pyFilter_zipIdx (p := fun g => anyEqual ps g)
    (Q := fun d => Equivalent sym l.toFinset d.toFinset) h1
    (fun a b hb hab => (anyEqual_ok p2 hab).trans
      (by congr 1; exact decide_eq_decide.2 (partnersOf_iff hg.1 (hD b hb) sym))) 0
  rw [r1]
  simp only
  have r2 : r.head?.map Prod.snd = D.findIdx? fun d => decide (Equivalent sym l.toFinset d.toFinset) := by
    rw [r2]
    simp only [Nat.add_zero, Option.map_id']
  have cnt : ∀ d, (O ++ [l]).countP (fun o => decide (Equivalent sym d o.toFinset)) =
      O.countP (fun o => decide (Equivalent sym d o.toFinset)) +
        if Equivalent sym d l.toFinset then 1 else 0 := by
    intro d
    rw [List.countP_append, List.countP_singleton]
    simp only [decide_eq_true_eq]
  cases hf : D.findIdx? fun d => decide (Equivalent sym l.toFinset d.toFinset) with
  | none =>
    rw [hf] at r2
    have hr : r.head? = none := by simpa using r2
    rw [hr]
    have hno : ∀ d ∈ D, ¬ Equivalent sym l.toFinset d.toFinset := by
      intro d hd
      rw [List.findIdx?_eq_none_iff] at hf
      simpa using hf d hd
    have hnoO : ∀ o ∈ O, ¬ Equivalent sym l.toFinset o.toFinset := by
      intro o ho he
      obtain ⟨c, -, a, ha, -, hae⟩ := forall2_left h4 ho
      exact hno _ (List.getElem_mem ha) (he.trans hae.symm)
    refine ⟨_, rfl, D ++ [l], new ++ [before + D.length], List.rel_append h1 (.cons hg .nil), ?_, ?_, ?_⟩
    · refine ⟨List.Sublist.append h2.sublist (List.Sublist.refl _), ?_, ?_⟩
      · rw [List.pairwise_append]
        refine ⟨h2.distinct, List.pairwise_singleton .., ?_⟩
        intro a ha b hb he
        rw [List.mem_singleton] at hb
        subst hb
        exact hno a ha he.symm
      · simp only
        rw [h2.sizes, List.map_append, List.map_singleton, cnt, if_pos (Equivalent.refl sym _)]
        congr 1
        · apply List.map_congr_left
          intro d hd
          rw [cnt, if_neg fun he => hno d hd he.symm]
          rfl
        · congr 1
          have : O.countP (fun o => decide (Equivalent sym l.toFinset o.toFinset)) = 0 := by
            rw [List.countP_eq_zero]
            intro o ho
            simpa using hnoO o ho
          rw [this]
    · simp only
      rw [h3, h1.length_eq, List.append_assoc]
    · refine List.rel_append (h4.append [l]) (.cons ⟨D.length, by simp, rfl, ?_⟩ .nil)
      rw [List.getElem_append_right le_rfl]
      simp only [Nat.sub_self, List.getElem_cons_zero]
      exact Equivalent.refl sym _
  | some i =>
    rw [hf] at r2
    cases hr : r.head? with
    | none => rw [hr] at r2; simp at r2
    | some gj =>
      rw [hr] at r2
      have hgj : gj.2 = i := by simpa using r2
      rw [List.findIdx?_eq_some_iff_getElem] at hf
      obtain ⟨hi, hie, -⟩ := hf
      have hie : Equivalent sym l.toFinset D[i].toFinset := by simpa using hie
      have hother : ∀ j (hj : j < D.length), Equivalent sym D[j].toFinset l.toFinset → j = i := by
        intro j hj he
        by_contra hne
        have hd := h2.distinct
        rw [List.pairwise_iff_getElem] at hd
        rcases Nat.lt_or_gt_of_ne hne with hlt | hlt
        · exact hd j i hj hi hlt (he.trans hie)
        · exact hd i j hi hj hlt (he.trans hie).symm
      refine ⟨_, rfl, D, new ++ [i + before], h1, ⟨h2.sublist.trans (List.sublist_append_left _ _),
        h2.distinct, ?_⟩, ?_, ?_⟩
      · simp only
        rw [h2.sizes, hgj]
        apply List.ext_getElem
        · simp
        · intro j hj hj'
          have hjD : j < D.length := by simpa using hj'
          rw [List.getElem_modify]
          simp only [List.getElem_map]
          rw [cnt]
          by_cases hij : i = j
          · subst hij
            rw [if_pos rfl, if_pos hie.symm]
          · rw [if_neg hij, if_neg fun he => hij (hother j hjD he).symm]
            rfl
      · simp only
        rw [h3, hgj, List.append_assoc]
      · exact List.rel_append h4 (.cons ⟨i, hi, by omega, hie.symm⟩ .nil)

theorem groupLoop_ok {sym : Bool} {before : ℕ} {cols0 : List ℕ} {gs : List Geometry} {ls : List (List (ℤ × ℤ))}
    (hgs : List.Forall₂ IsCluster gs ls) : ∀ {O : List (List (ℤ × ℤ))}
    {st : List Geometry × List ℕ × List ℕ} (_ : ∀ o ∈ O, Snake o) (_ : GroupInv sym before cols0 O st),
    ∃ st', gs.foldlM (groupCluster sym before) st = .ok st' ∧ GroupInv sym before cols0 (O ++ ls) st' := by
  induction hgs with
  | nil =>
    intro O st _ h
    exact ⟨st, rfl, by simpa using h⟩
  | @cons g l gs ls hg _ ih =>
    intro O st hO h
    obtain ⟨st1, h1, h2⟩ := groupCluster_ok hO h hg
    obtain ⟨st2, h3, h4⟩ := ih (O := O ++ [l]) (by
      intro o ho
      rcases List.mem_append.1 ho with ho | ho
      · exact hO o ho
      · rw [List.mem_singleton] at ho
        exact ho ▸ hg.1) h2
    refine ⟨st2, ?_, by simpa using h4⟩
    rw [List.foldlM_cons, h1]
    exact h3

theorem startOf_length {α : Type} (Ls : List (List α)) : startOf Ls Ls.length = Ls.flatten.length := by
  unfold startOf
  rw [List.take_of_length_le (by simp), List.length_flatten]

theorem startOf_append {α : Type} (Ls : List (List α)) (x : List α) {k : ℕ} (hk : k ≤ Ls.length) :
    startOf (Ls ++ [x]) k = startOf Ls k := by
  unfold startOf
  rw [List.map_append, List.take_append_of_le_length (by simpa using hk)]

theorem startOf_succ {α : Type} (Ls : List (List α)) {k : ℕ} (hk : k < Ls.length) :
    startOf Ls (k + 1) = startOf Ls k + Ls[k].length := by
  unfold startOf
  rw [List.sum_take_succ _ _ (by simpa using hk), List.getElem_map]

theorem startOf_mono {α : Type} (Ls : List (List α)) {k m : ℕ} (h : k ≤ m) (hm : m ≤ Ls.length) :
    startOf Ls k ≤ startOf Ls m := by
  induction m, h using Nat.le_induction with
  | base => exact le_rfl
  | succ m _ ih =>
    rw [startOf_succ _ (by omega)]
    exact (ih (by omega)).trans (Nat.le_add_right _ _)

theorem startOf_inj {α : Type} (Ls : List (List α)) {k m a b : ℕ} (hk : k < Ls.length) (hm : m < Ls.length)
    (ha : a < Ls[k].length) (hb : b < Ls[m].length) (h : startOf Ls k + a = startOf Ls m + b) :
    k = m ∧ a = b := by
  rcases Nat.lt_trichotomy k m with hlt | rfl | hlt
  · have h1 := startOf_mono Ls (k := k + 1) (m := m) hlt (by omega)
    rw [startOf_succ _ hk] at h1
    omega
  · exact ⟨rfl, by omega⟩
  · have h1 := startOf_mono Ls (k := m + 1) (m := k) hlt (by omega)
    rw [startOf_succ _ hm] at h1
    omega

theorem getElem_startOf {α : Type} (Ls : List (List α)) {k a : ℕ} (hk : k < Ls.length) (ha : a < Ls[k].length) :
    Ls.flatten[startOf Ls k + a]? = some Ls[k][a] := by
  have h1 := List.drop_take_succ_flatten_eq_getElem Ls k hk
  have h2 : Ls[k][a]? = some Ls[k][a] := by simp [ha]
  rw [← h2, ← h1, List.getElem?_drop, List.getElem?_take_of_lt]
  · rfl
  · have := startOf_succ Ls hk
    unfold startOf at this
    rw [this]
    omega

theorem exists_startOf {α : Type} (Ls : List (List α)) {i : ℕ} (hi : i < Ls.flatten.length) :
    ∃ k a, ∃ hk : k < Ls.length, ∃ _ : a < Ls[k].length, i = startOf Ls k + a := by
  have key : ∀ m ≤ Ls.length, i < startOf Ls m → ∃ k a, ∃ hk : k < Ls.length, ∃ _ : a < Ls[k].length,
      i = startOf Ls k + a := by
    intro m
    induction m with
    | zero => intro _ h; exact absurd h (by simp [startOf])
    | succ m ih =>
      intro hm h
      by_cases hlt : i < startOf Ls m
      · exact ih (by omega) hlt
      · rw [startOf_succ _ (by omega)] at h
        exact ⟨m, i - startOf Ls m, by omega, by omega, by omega⟩
  exact key Ls.length le_rfl (by rw [startOf_length]; exact hi)

/-- The state of the loop over the orders. -/
structure ReduceInv (sym : Bool) (Os : List (List (List (ℤ × ℤ))))
    (st : List (List Geometry) × List (List ℕ) × List ℕ × ℕ) (Ds : List (List (List (ℤ × ℤ))))
    (Cs : List (List ℕ)) : Prop where
  geoms : List.Forall₂ (List.Forall₂ IsCluster) st.1 Ds
  lenD : Ds.length = Os.length
  lenM : st.2.1.length = Os.length
  lenC : Cs.length = Os.length
  grouped : ∀ k (h : k < Os.length), Grouped sym Os[k] (Ds[k]'(lenD ▸ h)) (st.2.1[k]'(lenM ▸ h))
  assigned : ∀ k (h : k < Os.length), Assigned sym (startOf Ds k) Os[k] (Ds[k]'(lenD ▸ h)) (Cs[k]'(lenC ▸ h))
  cols : st.2.2.1 = Cs.flatten
  total : st.2.2.2 = Ds.flatten.length

theorem groupOrder_ok {sym : Bool} {Os : List (List (List (ℤ × ℤ)))}
    {st : List (List Geometry) × List (List ℕ) × List ℕ × ℕ} {Ds : List (List (List (ℤ × ℤ)))}
    {Cs : List (List ℕ)} (h : ReduceInv sym Os st Ds Cs) {gs : List Geometry} {ls : List (List (ℤ × ℤ))}
    (hgs : List.Forall₂ IsCluster gs ls) :
    ∃ st' Ds' Cs', groupOrder sym st gs = .ok st' ∧ ReduceInv sym (Os ++ [ls]) st' Ds' Cs' := by
  obtain ⟨r, h1, D, new, h2, h3, h4, h5⟩ := groupLoop_ok (sym := sym) (before := st.2.2.2)
    (cols0 := st.2.2.1) hgs (O := []) (st := ([], [], st.2.2.1)) (by simp)
    ⟨[], [], .nil, ⟨List.Sublist.refl _, List.Pairwise.nil, rfl⟩, by simp, .nil⟩
  rw [List.nil_append] at h3 h5
  refine ⟨(st.1 ++ [r.1], st.2.1 ++ [r.2.1], r.2.2, st.2.2.2 + r.1.length), Ds ++ [D], Cs ++ [new], ?_, ?_⟩
  · unfold groupOrder
    simp only [bind, Except.bind]
    rw [h1]
    rfl
  · refine ⟨List.rel_append h.geoms (.cons h2 .nil), by simp [h.lenD], by simp [h.lenM], by simp [h.lenC],
      ?_, ?_, ?_, ?_⟩
    · intro k hk
      rw [List.length_append, List.length_singleton] at hk
      rcases Nat.lt_succ_iff_lt_or_eq.1 hk with hk | hk
      · rw [List.getElem_append_left hk]
        simp only
        rw [List.getElem_append_left (by rw [h.lenD]; exact hk), List.getElem_append_left (by rw [h.lenM]; exact hk)]
        exact h.grouped k hk
      · subst hk
        rw [List.getElem_append_right le_rfl]
        simp only
        rw [List.getElem_append_right (by rw [h.lenD]), List.getElem_append_right (by rw [h.lenM])]
        simpa using h3
    · intro k hk
      rw [List.length_append, List.length_singleton] at hk
      rw [startOf_append _ _ (by rw [h.lenD]; omega)]
      rcases Nat.lt_succ_iff_lt_or_eq.1 hk with hk | hk
      · rw [List.getElem_append_left hk, List.getElem_append_left (by rw [h.lenD]; exact hk),
          List.getElem_append_left (by rw [h.lenC]; exact hk)]
        exact h.assigned k hk
      · subst hk
        rw [List.getElem_append_right le_rfl, List.getElem_append_right (by rw [h.lenD]),
          List.getElem_append_right (by rw [h.lenC])]
        have : startOf Ds Os.length = st.2.2.2 := by
          rw [← h.lenD, startOf_length, h.total]
        rw [this]
        simpa using h5
    · simp only
      rw [h4, h.cols, List.flatten_append]
      simp
    · simp only
      rw [h.total, h2.length_eq, List.flatten_append]
      simp

theorem reduceLoop_ok {sym : Bool} {orders : List (List Geometry)} {Ls : List (List (List (ℤ × ℤ)))}
    (hgs : List.Forall₂ (List.Forall₂ IsCluster) orders Ls) : ∀ {Os : List (List (List (ℤ × ℤ)))}
    {st : List (List Geometry) × List (List ℕ) × List ℕ × ℕ} {Ds : List (List (List (ℤ × ℤ)))}
    {Cs : List (List ℕ)} (_ : ReduceInv sym Os st Ds Cs),
    ∃ st' Ds' Cs', orders.foldlM (groupOrder sym) st = .ok st' ∧ ReduceInv sym (Os ++ Ls) st' Ds' Cs' := by
  induction hgs with
  | nil =>
    intro Os st Ds Cs h
    exact ⟨st, Ds, Cs, rfl, by simpa using h⟩
  | @cons g l gs ls hg _ ih =>
    intro Os st Ds Cs h
    obtain ⟨st1, Ds1, Cs1, h1, h2⟩ := groupOrder_ok h hg
    obtain ⟨st2, Ds2, Cs2, h3, h4⟩ := ih h2
    refine ⟨st2, Ds2, Cs2, ?_, by simpa using h4⟩
    rw [List.foldlM_cons, h1]
    exact h3

theorem reduceByGeometry_ok {sym : Bool} {orders : List (List Geometry)} {Ls : List (List (List (ℤ × ℤ)))}
    (hgs : List.Forall₂ (List.Forall₂ IsCluster) orders Ls) (hne : orders ≠ []) :
    ∃ st Ds Cs, reduceByGeometry orders sym = .ok (st.1, st.2.1,
        ⟨st.2.2.2, orders.flatten.length, fun i j => if st.2.2.1[j]? = some i then 1 else 0⟩) ∧
      ReduceInv sym Ls st Ds Cs := by
  obtain ⟨st, Ds, Cs, h1, h2⟩ := reduceLoop_ok (sym := sym) hgs (Os := []) (st := ([], [], [], 0)) (Ds := [])
    (Cs := []) ⟨.nil, rfl, rfl, rfl, fun k h => absurd h (by simp), fun k h => absurd h (by simp), rfl, rfl⟩
  rw [List.nil_append] at h2
  refine ⟨st, Ds, Cs, ?_, h2⟩
  unfold reduceByGeometry
  rw [if_neg (by simpa using hne)]
  simp only [bind, Except.bind, pure, Except.pure]
  rw [h1, List.length_flatten]

/-- The entries of the matrix. -/
theorem ReduceInv.entry {sym : Bool} {Os : List (List (List (ℤ × ℤ)))}
    {st : List (List Geometry) × List (List ℕ) × List ℕ × ℕ} {Ds : List (List (List (ℤ × ℤ)))}
    {Cs : List (List ℕ)} (h : ReduceInv sym Os st Ds Cs) {k m a b : ℕ} (hk : k < Ds.length)
    (ha : a < Ds[k].length) (hm : m < Os.length) (hb : b < Os[m].length) :
    st.2.2.1[startOf Os m + b]? = some (startOf Ds k + a) ↔
      k = m ∧ Equivalent sym Ds[k][a].toFinset Os[m][b].toFinset := by
  have hlen : Cs.map List.length = Os.map List.length := by
    apply List.ext_getElem
    · simp [h.lenC]
    · intro i hi hi'
      have hi2 : i < Os.length := by simpa using hi'
      simp only [List.getElem_map]
      exact (h.assigned i hi2).length_eq.symm
  have hs : startOf Os m = startOf Cs m := by
    unfold startOf
    rw [hlen]
  have hmC : m < Cs.length := by rw [h.lenC]; exact hm
  have hmD : m < Ds.length := by rw [h.lenD]; exact hm
  have hbC : b < Cs[m].length := by rw [← (h.assigned m hm).length_eq]; exact hb
  rw [h.cols, hs, getElem_startOf Cs hmC hbC, Option.some.injEq]
  obtain ⟨a', ha', h1, h2⟩ := (List.forall₂_iff_get.1 (h.assigned m hm)).2 b hb hbC
  simp only [List.get_eq_getElem] at h1 h2
  rw [h1]
  constructor
  · intro e
    obtain ⟨rfl, rfl⟩ := startOf_inj Ds hmD hk ha' ha e
    exact ⟨rfl, h2⟩
  · rintro ⟨rfl, he⟩
    congr 1
    by_contra hne
    have hd := (h.grouped k hm).distinct
    rw [List.pairwise_iff_getElem] at hd
    rcases Nat.lt_or_gt_of_ne hne with hlt | hlt
    · exact hd a' a ha' ha hlt (h2.trans he.symm)
    · exact hd a a' ha ha' hlt (he.trans h2.symm)

end ED
