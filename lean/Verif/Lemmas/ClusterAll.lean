import Verif.Lemmas.ClusterEnum
import Mathlib.Algebra.BigOperators.Group.List.Lemmas
import Mathlib.Data.Set.Card
import Mathlib.Combinatorics.Enumerative.DoubleCounting

/-! # The list of all clusters, and the number of clusters -/

namespace ED

open ED.Geometry Classical

theorem forall2_left {α β : Type} {R : α → β → Prop} {a : List α} {b : List β} (h : List.Forall₂ R a b) {x : α}
    (hx : x ∈ a) : ∃ y ∈ b, R x y := by
  induction h with
  | nil => exact absurd hx (by simp)
  | cons h _ ih =>
    rcases List.mem_cons.1 hx with rfl | hx
    · exact ⟨_, List.mem_cons_self .., h⟩
    · obtain ⟨y, hy, hr⟩ := ih hx
      exact ⟨y, List.mem_cons_of_mem _ hy, hr⟩

theorem forall2_right {α β : Type} {R : α → β → Prop} {a : List α} {b : List β} (h : List.Forall₂ R a b) {y : β}
    (hy : y ∈ b) : ∃ x ∈ a, R x y := forall2_left h.flip hy

/-- The starting indices of the orders. -/
def startIndices (Ls : List (List (List (ℤ × ℤ)))) : List ℕ :=
  (List.range (Ls.length + 1)).map fun i => ((Ls.map List.length).take i).sum

theorem startIndices_length (Ls : List (List (List (ℤ × ℤ)))) : (startIndices Ls).length = Ls.length + 1 := by
  simp [startIndices]

theorem startIndices_getD (Ls : List (List (List (ℤ × ℤ)))) {k : ℕ} (hk : k ≤ Ls.length) :
    (startIndices Ls).getD k 0 = ((Ls.map List.length).take k).sum := by
  unfold startIndices
  rw [List.getD_eq_getElem?_getD, List.getElem?_eq_getElem (by simp; omega)]
  simp

theorem startIndices_append (Ls : List (List (List (ℤ × ℤ)))) (x : List (List (ℤ × ℤ))) :
    startIndices (Ls ++ [x]) = startIndices Ls ++ [x.length + (startIndices Ls).getD Ls.length 0] := by
  rw [startIndices_getD _ le_rfl]
  unfold startIndices
  rw [List.length_append, List.length_singleton, List.range_succ, List.map_append, List.map_singleton]
  congr 1
  · apply List.map_congr_left
    intro i hi
    rw [List.mem_range] at hi
    rw [List.map_append, List.take_append_of_le_length (by simp; omega)]
  · rw [List.map_append, List.take_of_length_le (by simp), List.take_of_length_le (by simp), List.sum_append,
      List.map_singleton, List.sum_singleton, add_comm]

/-- The state of the loop over the orders represents the lists `Ls` of clusters. -/
structure AllRel (G : SimpleGraph (ℤ × ℤ)) (sym : Bool)
    (st : List (List Geometry) × List (List ℕ) × List ℕ) (Ls : List (List (List (ℤ × ℤ)))) : Prop where
  geoms : List.Forall₂ (List.Forall₂ IsCluster) st.1 Ls
  mults : st.2.1 = Ls.map fun ls => ls.map fun l => (partnersOf sym l).length
  inds : st.2.2 = startIndices Ls
  levels : ∀ k (h : k < Ls.length), Level G sym (k + 1) Ls[k]

theorem partners_first (sym : Bool) : (partnersOf sym [((0 : ℤ), (0 : ℤ))]).length = 1 := by
  have hs : Snake [((0 : ℤ), (0 : ℤ))] :=
    ⟨List.nodup_singleton _, 0, by simp, by simp, List.pairwise_singleton ..⟩
  unfold partnersOf
  cases sym
  · rfl
  · simp only [if_true]
    have h1 : [((0 : ℤ), (0 : ℤ))] ∈ partners [((0 : ℤ), (0 : ℤ))] :=
      (dedupBy_prefix _ _ _).subset (List.mem_singleton.2 rfl)
    have h2 : ∀ c ∈ partners [((0 : ℤ), (0 : ℤ))], c = [(0, 0)] := by
      intro c hc
      obtain ⟨s, rfl⟩ := partners_form hs hc
      have : [((0 : ℤ), (0 : ℤ))].map (squareMap s) = [(0, 0)] := by
        obtain ⟨a, b, c⟩ := s
        cases a <;> cases b <;> cases c <;> simp [squareMap]
      rw [this]
      exact snakeSort_eq hs (List.Perm.refl _)
    have h3 : partners [((0 : ℤ), (0 : ℤ))] = List.replicate (partners [((0 : ℤ), (0 : ℤ))]).length [(0, 0)] :=
      List.eq_replicate_iff.2 ⟨rfl, h2⟩
    have h4 := partners_pairwise [((0 : ℤ), (0 : ℤ))]
    rw [h3, List.pairwise_replicate] at h4
    have h5 := List.length_pos_of_mem h1
    rcases h4 with h4 | h4
    · omega
    · exact absurd (Tr.refl _) h4

theorem allClusters_ok (N : ℕ) (lv1 lv2 : ℤ × ℤ) (sym : Bool) :
    ∃ (st : List (List Geometry) × List (List ℕ) × List ℕ) (Ls : List (List (List (ℤ × ℤ)))),
      allClusters N (realPt lv1) (realPt lv2) sym = .ok (st.1.flatten, st.2.1.flatten, st.2.2) ∧
      AllRel (latticeGraph lv1 lv2) sym st Ls ∧ Ls.length = max N 1 := by
  obtain ⟨first, h1, h2, h3⟩ := clustersFirst_ok sym (realPt lv1) (realPt lv2)
  have key : ∀ n, ∃ (st : List (List Geometry) × List (List ℕ) × List ℕ) (Ls : List (List (List (ℤ × ℤ)))),
      (List.range n).foldlM
        (fun (st : List (List Geometry) × List (List ℕ) × List ℕ) (k : ℕ) => do
          let r ← clustersNextOrder (some (st.1.getD k [])) (realPt lv1) (realPt lv2) sym
          pure (st.1 ++ [r.1], st.2.1 ++ [r.2], st.2.2 ++ [r.1.length + st.2.2.getD (k + 1) 0]))
        ([first.1], [first.2], [0, first.1.length]) = (.ok st : Res _) ∧
      AllRel (latticeGraph lv1 lv2) sym st Ls ∧ Ls.length = n + 1 := by
    intro n
    induction n with
    | zero =>
      refine ⟨_, [[[(0, 0)]]], rfl, ⟨.cons h2 .nil, ?_, ?_, ?_⟩, rfl⟩
      · simp [h3, partners_first]
      · simp [startIndices, h2.length_eq, List.range_succ]
      · intro k hk
        have : k = 0 := by simpa using hk
        subst this
        exact Level.first _ _
    | succ n ih =>
      obtain ⟨st, Ls, ih1, ih2, ih3⟩ := ih
      have hn : n < Ls.length := by omega
      have hn' : n < st.1.length := by rw [ih2.geoms.length_eq]; exact hn
      have hg : List.Forall₂ IsCluster (st.1.getD n []) Ls[n] := by
        rw [List.getD_eq_getElem?_getD, List.getElem?_eq_getElem hn']
        exact List.forall₂_iff_get.1 ih2.geoms |>.2 n hn' hn
      obtain ⟨r, h4, h5⟩ := clustersNextOrder_ok (sym := sym) lv1 lv2 hg
      refine ⟨(st.1 ++ [r.1], st.2.1 ++ [r.2], st.2.2 ++ [r.1.length + st.2.2.getD (n + 1) 0]),
        Ls ++ [nextOrder lv1 lv2 sym Ls[n]], ?_, ⟨?_, ?_, ?_, ?_⟩, ?_⟩
      · rw [List.range_succ, List.foldlM_append, ih1]
        simp only [bind, Except.bind, List.foldlM_cons, List.foldlM_nil, pure, Except.pure]
        rw [h4]
      · exact List.rel_append ih2.geoms (.cons h5.1 .nil)
      · simp only [List.map_append, List.map_singleton]
        rw [ih2.mults, h5.2]
      · rw [startIndices_append, ih2.inds, h5.1.length_eq, ih3]
      · intro k hk
        rw [List.length_append, List.length_singleton] at hk
        rcases Nat.lt_succ_iff_lt_or_eq.1 hk with h | h
        · rw [List.getElem_append_left h]
          exact ih2.levels k h
        · subst h
          rw [List.getElem_append_right le_rfl]
          simp only [Nat.sub_self, List.getElem_cons_zero]
          have := (ih2.levels n hn).next (by omega)
          rw [ih3]
          exact this
      · rw [List.length_append, ih3, List.length_singleton]
  obtain ⟨st, Ls, h4, h5, h6⟩ := key (N - 1)
  refine ⟨st, Ls, ?_, h5, by omega⟩
  unfold allClusters
  rw [h1]
  simp only [bind, Except.bind] at h4 ⊢
  rw [h4]
  rfl

theorem forall2_lengths {α β : Type} {R : α → β → Prop} {a : List (List α)} {b : List (List β)}
    (h : List.Forall₂ (List.Forall₂ R) a b) : a.map List.length = b.map List.length := by
  induction h with
  | nil => rfl
  | cons h _ ih => simp [h.length_eq, ih]

/-- The slice of the flattened list is the list of the order. -/
theorem ofOrder_flatten {α : Type} (gs : List (List α)) (Ls : List (List (List (ℤ × ℤ))))
    (h : gs.map List.length = Ls.map List.length) {k : ℕ} (hk : k < gs.length) :
    ofOrder gs.flatten (startIndices Ls) k = gs[k] := by
  have hl : gs.length = Ls.length := by simpa using congrArg List.length h
  unfold ofOrder
  rw [startIndices_getD _ (by omega), startIndices_getD _ (by omega), ← h]
  exact List.drop_take_succ_flatten_eq_getElem gs k hk

theorem HasSites.unique {g : Geometry} {l m : List (ℤ × ℤ)} (hl : g.HasSites l) (hm : g.HasSites m) : l = m := by
  have := hl.coords.symm.trans hm.coords
  exact List.map_injective_iff.2 realPt_injective this

theorem AllRel.flatten {G : SimpleGraph (ℤ × ℤ)} {sym : Bool}
    {st : List (List Geometry) × List (List ℕ) × List ℕ} {Ls : List (List (List (ℤ × ℤ)))}
    (h : AllRel G sym st Ls) : List.Forall₂ IsCluster st.1.flatten Ls.flatten ∧
      Ls.flatten.Pairwise fun a b => ¬ Equivalent sym a.toFinset b.toFinset := by
  constructor
  · exact List.rel_flatten h.geoms
  · rw [List.pairwise_flatten]
    constructor
    · intro ls hls
      obtain ⟨k, hk, rfl⟩ := List.mem_iff_getElem.1 hls
      exact (h.levels k hk).distinct
    · rw [List.pairwise_iff_getElem]
      intro i j hi hj hij a ha b hb he
      obtain ⟨a1, a2, -⟩ := (h.levels i hi).sound a ha
      obtain ⟨b1, b2, -⟩ := (h.levels j hj).sound b hb
      have := he.card
      rw [List.toFinset_card_of_nodup a1.nodup, List.toFinset_card_of_nodup b1.nodup] at this
      omega

theorem AllRel.ofOrder {G : SimpleGraph (ℤ × ℤ)} {sym : Bool}
    {st : List (List Geometry) × List (List ℕ) × List ℕ} {Ls : List (List (List (ℤ × ℤ)))}
    (h : AllRel G sym st Ls) {k : ℕ} (hk : k < Ls.length) :
    List.Forall₂ IsCluster (ofOrder st.1.flatten st.2.2 k) Ls[k] ∧
      ED.ofOrder st.2.1.flatten st.2.2 k = Ls[k].map fun l => (partnersOf sym l).length := by
  have hl := h.geoms.length_eq
  constructor
  · rw [h.inds, ofOrder_flatten _ _ (forall2_lengths h.geoms) (by omega)]
    exact List.forall₂_iff_get.1 h.geoms |>.2 k (by omega) hk
  · rw [h.inds, ofOrder_flatten _ _ (by rw [h.mults]; simp) (by rw [h.mults]; simpa using hk)]
    simp only [h.mults, List.getElem_map]

/-! ## Numbers of shapes -/

theorem shape_eq {S T : Finset (ℤ × ℤ)} : shape S = shape T ↔ Translate S T := by
  exact Quotient.eq (r := (⟨Translate, Translate.refl, Translate.symm, Translate.trans⟩ :
    Setoid (Finset (ℤ × ℤ))))

theorem imageShapes_iff {S T : Finset (ℤ × ℤ)} : shape T ∈ imageShapes S ↔ Equivalent true S T := by
  unfold imageShapes Equivalent
  simp only [Set.mem_range, shape_eq, if_true]

/-- The shapes that a cluster of the list stands for. -/
def shapesOf (sym : Bool) (S : Finset (ℤ × ℤ)) : Set Shape := {c | ∃ T, shape T = c ∧ Equivalent sym S T}

theorem shapesOf_true (S : Finset (ℤ × ℤ)) : shapesOf true S = imageShapes S := by
  ext c
  constructor
  · rintro ⟨T, rfl, h⟩
    exact imageShapes_iff.2 h
  · intro h
    obtain ⟨T, rfl⟩ := Quotient.exists_rep c
    exact ⟨T, rfl, imageShapes_iff.1 h⟩

theorem ncard_shapesOf {l : List (ℤ × ℤ)} (h : Snake l) (sym : Bool) :
    (shapesOf sym l.toFinset).Finite ∧ (partnersOf sym l).length = (shapesOf sym l.toFinset).ncard := by
  have hsn : ∀ c ∈ partnersOf sym l, Snake c := by
    intro c hc
    unfold partnersOf at hc
    cases sym
    · simp only [Bool.false_eq_true, if_false, List.mem_singleton] at hc
      exact hc ▸ h
    · exact partners_snake h hc
  have hpw : (partnersOf sym l).Pairwise fun a b => ¬ Tr a b := by
    unfold partnersOf
    cases sym
    · exact List.pairwise_singleton ..
    · exact partners_pairwise l
  have hnd : ((partnersOf sym l).map fun c => shape c.toFinset).Nodup := by
    rw [List.Nodup, List.pairwise_map]
    refine List.Pairwise.imp_of_mem ?_ hpw
    intro a b ha hb hab he
    exact hab ((tr_iff (hsn a ha) (hsn b hb)).2 (shape_eq.1 he))
  have he : shapesOf sym l.toFinset = {c | c ∈ (partnersOf sym l).map fun c => shape c.toFinset} := by
    ext c
    simp only [Set.mem_setOf_eq, List.mem_map]
    constructor
    · rintro ⟨T, rfl, hT⟩
      have hne : T.toList ≠ [] := by
        intro e
        rw [Finset.toList_eq_nil] at e
        have := hT.card
        rw [e, Finset.card_empty, List.toFinset_card_of_nodup h.nodup] at this
        exact h.ne_nil (List.length_eq_zero_iff.1 this.symm)
      have hm := snakeSort_snake hne T.nodup_toList
      have hTm : (snakeSort T.toList).toFinset = T := by rw [toFinset_snakeSort, Finset.toList_toFinset]
      have := (partnersOf_iff h hm sym).2 (by rw [hTm]; exact hT)
      obtain ⟨c, hc, htr⟩ := this
      refine ⟨c, hc, shape_eq.2 ?_⟩
      rw [← hTm]
      exact (tr_iff (hsn c hc) hm).1 htr
    · rintro ⟨c, hc, rfl⟩
      exact ⟨_, rfl, (partnersOf_iff h (hsn c hc) sym).1 ⟨c, hc, Tr.refl c⟩⟩
  have he' : {c | c ∈ (partnersOf sym l).map fun c => shape c.toFinset} =
      (((partnersOf sym l).map fun c => shape c.toFinset).toFinset : Set Shape) := by
    ext c
    simp
  rw [he, he']
  refine ⟨Finset.finite_toSet _, ?_⟩
  rw [Set.ncard_coe_finset, List.toFinset_card_of_nodup hnd, List.length_map]

theorem shapesOf_disjoint {sym : Bool} {S T : Finset (ℤ × ℤ)} (h : ¬ Equivalent sym S T) :
    Disjoint (shapesOf sym S) (shapesOf sym T) := by
  rw [Set.disjoint_left]
  rintro c ⟨A, rfl, hA⟩ ⟨B, hB, hB'⟩
  apply h
  refine (hA.trans ?_).trans hB'.symm
  have ht := (shape_eq.1 hB).symm
  unfold Equivalent
  cases sym
  · exact ht
  · refine ⟨(false, false, false), ?_⟩
    convert ht
    exact Finset.image_id

/-- The multiplicities add up to the number of shapes. -/
theorem Level.sum {lv1 lv2 : ℤ × ℤ} {sym : Bool}
    (hs : sym = true → SymmetricGraph (latticeGraph lv1 lv2)) {n : ℕ} {ls : List (List (ℤ × ℤ))}
    (h : Level (latticeGraph lv1 lv2) sym n ls) :
    (connectedShapes (latticeGraph lv1 lv2) n).Finite ∧
    (ls.map fun l => (partnersOf sym l).length).sum = (connectedShapes (latticeGraph lv1 lv2) n).ncard := by
  have e : connectedShapes (latticeGraph lv1 lv2) n = {c | ∃ l ∈ ls, c ∈ shapesOf sym l.toFinset} := by
    ext c
    constructor
    · rintro ⟨S, h1, h2, rfl⟩
      obtain ⟨l, hl, hle⟩ := h.complete hs S h1 h2
      exact ⟨l, hl, S, rfl, hle.symm⟩
    · rintro ⟨l, hl, T, rfl, hT⟩
      obtain ⟨h1, h2, h3⟩ := h.sound l hl
      refine ⟨T, ?_, ?_, rfl⟩
      · rw [hT.card, List.toFinset_card_of_nodup h1.nodup, h2]
      · obtain ⟨s, w, hsym, rfl⟩ := equivalent_iff.1 hT
        exact h3.image _ fun p q hpq => adj_map hs hsym w hpq
  rw [e]
  have hsn : ∀ l ∈ ls, Snake l := fun l hl => (h.sound l hl).1
  have hd := h.distinct
  clear e h
  induction ls with
  | nil => simp
  | cons l ls ih =>
    rw [List.pairwise_cons] at hd
    obtain ⟨ih1, ih2⟩ := ih (fun m hm => hsn m (List.mem_cons_of_mem _ hm)) hd.2
    obtain ⟨h1, h2⟩ := ncard_shapesOf (hsn l (List.mem_cons_self ..)) sym
    have hu : {c | ∃ m ∈ l :: ls, c ∈ shapesOf sym m.toFinset} =
        shapesOf sym l.toFinset ∪ {c | ∃ m ∈ ls, c ∈ shapesOf sym m.toFinset} := by
      ext c
      simp
    rw [hu]
    refine ⟨h1.union ih1, ?_⟩
    rw [Set.ncard_union_eq ?_ h1 ih1, List.map_cons, List.sum_cons, h2, ih2]
    rw [Set.disjoint_left]
    rintro c hc ⟨m, hm, hc'⟩
    exact Set.disjoint_left.1 (shapesOf_disjoint (hd.1 m hm)) hc hc'

/-! ## The number of images divides eight -/

/-- The code of the composition. -/
def codeMul (s t : Bool × Bool × Bool) : Bool × Bool × Bool :=
  (xor s.1 t.1, if s.1 then (xor s.2.1 t.2.2, xor s.2.2 t.2.1) else (xor s.2.1 t.2.1, xor s.2.2 t.2.2))

/-- The code of the inverse. -/
def codeInv (s : Bool × Bool × Bool) : Bool × Bool × Bool := (s.1, if s.1 then (s.2.2, s.2.1) else s.2)

theorem squareMap_codeMul (s t : Bool × Bool × Bool) (p : ℤ × ℤ) :
    squareMap (codeMul s t) p = squareMap s (squareMap t p) := by
  obtain ⟨a, b, c⟩ := s
  obtain ⟨a', b', c'⟩ := t
  cases a <;> cases b <;> cases c <;> cases a' <;> cases b' <;> cases c' <;> simp [squareMap, codeMul]

theorem codeInv_mul (s t : Bool × Bool × Bool) : codeMul (codeInv s) (codeMul s t) = t := by
  revert s t
  decide

theorem code_mul_inv (s t : Bool × Bool × Bool) : codeMul s (codeMul (codeInv s) t) = t := by
  revert s t
  decide

theorem code_one (s : Bool × Bool × Bool) : codeMul s (false, false, false) = s := by
  revert s
  decide

theorem code_inv_self (s : Bool × Bool × Bool) : codeMul (codeInv s) s = (false, false, false) := by
  revert s
  decide

theorem shape_codeMul {S T : Finset (ℤ × ℤ)} (s : Bool × Bool × Bool) (h : shape S = shape T) :
    shape (S.image (squareMap s)) = shape (T.image (squareMap s)) :=
  shape_eq.2 ((shape_eq.1 h).map s)

theorem image_codeMul (S : Finset (ℤ × ℤ)) (s t : Bool × Bool × Bool) :
    S.image (squareMap (codeMul s t)) = (S.image (squareMap t)).image (squareMap s) := by
  rw [Finset.image_image]
  congr 1
  funext p
  exact squareMap_codeMul s t p

theorem imageShapes_dvd (S : Finset (ℤ × ℤ)) : (imageShapes S).ncard ∣ 8 := by
  set Φ : Bool × Bool × Bool → Shape := fun s => shape (S.image (squareMap s)) with hΦ
  have hn : (imageShapes S).ncard = (Finset.univ.image Φ).card := by
    have : imageShapes S = ((Finset.univ.image Φ : Finset Shape) : Set Shape) := by
      ext c
      simp [imageShapes, hΦ]
    rw [this, Set.ncard_coe_finset]
  have hfib : ∀ c ∈ Finset.univ.image Φ, (Finset.univ.filter fun s => Φ s = c).card =
      (Finset.univ.filter fun s => Φ s = Φ (false, false, false)).card := by
    intro c hc
    obtain ⟨s, -, rfl⟩ := Finset.mem_image.1 hc
    symm
    refine Finset.card_nbij' (codeMul s) (codeMul (codeInv s)) ?_ ?_ ?_ ?_
    · intro t ht
      simp only [Finset.coe_filter, Finset.mem_univ, true_and, Set.mem_setOf_eq] at ht ⊢
      have := shape_codeMul s ht
      simp only [hΦ]
      rw [image_codeMul, this, ← image_codeMul]
      rw [code_one]
    · intro t ht
      simp only [Finset.coe_filter, Finset.mem_univ, true_and, Set.mem_setOf_eq] at ht ⊢
      have := shape_codeMul (codeInv s) ht
      simp only [hΦ]
      rw [image_codeMul, this, ← image_codeMul]
      rw [code_inv_self]
    · intro t _
      exact codeInv_mul s t
    · intro t _
      exact code_mul_inv s t
  have h8 : (Finset.univ : Finset (Bool × Bool × Bool)).card = 8 := rfl
  rw [hn, ← h8, Finset.card_eq_sum_card_image Φ, Finset.sum_congr rfl hfib, Finset.sum_const, smul_eq_mul]
  exact Dvd.intro _ rfl

end ED
