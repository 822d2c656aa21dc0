import Verif.Lemmas.ClusterFill
import Verif.Spec.ClusterSum
import Verif.Props.Nlce
import Mathlib.Algebra.BigOperators.Finprod

/-! # Sums over shapes of clusters -/

namespace ED

open ED.Geometry Classical

/-- The connected proper subsets. -/
noncomputable def subs (S : Finset (ℤ × ℤ)) : Finset (Finset (ℤ × ℤ)) :=
  S.ssubsets.filter (ConnectedSites squareLattice)

theorem mem_subs {S T : Finset (ℤ × ℤ)} : T ∈ subs S ↔ T ⊂ S ∧ ConnectedSites squareLattice T := by
  simp [subs]

theorem Equivalent.connected {S T : Finset (ℤ × ℤ)} (h : Equivalent true S T)
    (hS : ConnectedSites squareLattice S) : ConnectedSites squareLattice T := by
  obtain ⟨s, w, hs, rfl⟩ := equivalent_iff.1 h
  exact hS.image _ fun p q hpq => adj_map (lv1 := (1, 0)) (lv2 := (0, 1)) (sym := true)
    (fun _ => Props.square_symmetric) hs w hpq

/-- Sums over the connected proper subsets of equivalent sets. -/
theorem sum_subs {S T : Finset (ℤ × ℤ)} (h : Equivalent true S T) (g g' : Finset (ℤ × ℤ) → ℝ)
    (hg : ∀ U V, U ⊂ S → ConnectedSites squareLattice U → Equivalent true U V → g U = g' V) :
    ∑ U ∈ subs S, g U = ∑ V ∈ subs T, g' V := by
  obtain ⟨s, w, hs, rfl⟩ := equivalent_iff.1 h
  have hinj : Function.Injective fun p => squareMap s p + w := fun a b e =>
    squareMap_injective s (add_right_cancel e)
  have heq : ∀ U : Finset (ℤ × ℤ), Equivalent true U (U.image fun p => squareMap s p + w) :=
    fun U => equivalent_iff.2 ⟨s, w, hs, rfl⟩
  refine Finset.sum_bij (fun U _ => U.image fun p => squareMap s p + w) ?_ ?_ ?_ ?_
  · intro U hU
    rw [mem_subs] at *
    exact ⟨(Finset.image_ssubset_image hinj).2 hU.1, (heq U).connected hU.2⟩
  · intro U _ V _ e
    exact Finset.image_injective hinj e
  · intro V hV
    rw [mem_subs] at hV
    obtain ⟨U, -, rfl⟩ := Finset.subset_image_iff.1 hV.1.1
    exact ⟨U, mem_subs.2 ⟨(Finset.image_ssubset_image hinj).1 hV.1, (heq U).symm.connected hV.2⟩, rfl⟩
  · intro U hU
    rw [mem_subs] at hU
    exact hg U _ hU.1 hU.2 (heq U)

theorem equivalent_of_translate {S T : Finset (ℤ × ℤ)} (h : Translate S T) : Equivalent true S T :=
  equivalent_false_true (sym := false) (by unfold Equivalent; exact h)

/-- The weights of equivalent sets are equal. -/
theorem weight_equivalent {p : Finset (ℤ × ℤ) → List ℕ → ℝ} {w w' : Shape → List ℕ → ℝ}
    (hp : ∀ S T, Equivalent true S T → p S = p T) (hw : IsClusterWeight p w) (hw' : IsClusterWeight p w') (idx : List ℕ) :
    ∀ n S T, S.card = n → ConnectedSites squareLattice S → Equivalent true S T → w (shape S) idx = w' (shape T) idx := by
  intro n
  induction n using Nat.strong_induction_on with
  | _ n ih =>
    intro S T hn hS he
    have h1 := hw S hS idx
    have h2 := hw' T (he.connected hS) idx
    rw [hp S T he] at h1
    have h3 := sum_subs he (fun U => w (shape U) idx) (fun U => w' (shape U) idx) (by
      intro U V hU hUc hUV
      exact ih _ (hn ▸ Finset.card_lt_card hU) U V rfl hUc hUV)
    unfold subs at h3
    linarith

/-- The weights by recursion on the number of sites. -/
noncomputable def weightOf (p : Finset (ℤ × ℤ) → List ℕ → ℝ) (idx : List ℕ) (S : Finset (ℤ × ℤ)) : ℝ :=
  p S idx - ∑ T ∈ (subs S).attach, weightOf p idx T.1
termination_by S.card
decreasing_by exact Finset.card_lt_card (mem_subs.1 T.2).1

theorem weightOf_eq (p : Finset (ℤ × ℤ) → List ℕ → ℝ) (idx : List ℕ) (S : Finset (ℤ × ℤ)) :
    weightOf p idx S = p S idx - ∑ T ∈ subs S, weightOf p idx T := by
  rw [weightOf, Finset.sum_attach (subs S) (fun T => weightOf p idx T)]

theorem weightOf_equivalent {p : Finset (ℤ × ℤ) → List ℕ → ℝ}
    (hp : ∀ S T, Equivalent true S T → p S = p T) (idx : List ℕ) :
    ∀ n S T, S.card = n → Equivalent true S T → weightOf p idx S = weightOf p idx T := by
  intro n
  induction n using Nat.strong_induction_on with
  | _ n ih =>
    intro S T hn he
    rw [weightOf_eq p idx S, weightOf_eq p idx T, hp S T he, sum_subs he (weightOf p idx) (weightOf p idx)]
    intro U V hU _ hUV
    exact ih _ (hn ▸ Finset.card_lt_card hU) U V rfl hUV

theorem exists_weight {p : Finset (ℤ × ℤ) → List ℕ → ℝ} (hp : ∀ S T, Equivalent true S T → p S = p T) :
    ∃ w, IsClusterWeight p w := by
  refine ⟨fun c idx => weightOf p idx (Quotient.out c), ?_⟩
  have key : ∀ S idx, weightOf p idx (Quotient.out (shape S)) = weightOf p idx S := by
    intro S idx
    refine weightOf_equivalent hp idx _ _ _ rfl (equivalent_of_translate (shape_eq.1 ?_))
    exact Quotient.out_eq (shape S)
  intro S _ idx
  simp only [key]
  rw [weightOf_eq p idx S]
  unfold subs
  ring

/-- Sums over the connected shapes with `n` sites. -/
theorem Level.finsum {sym : Bool} {n : ℕ} {ls : List (List (ℤ × ℤ))} (h : Level squareLattice sym n ls)
    (F : Shape → ℝ) (hF : ∀ S T, ConnectedSites squareLattice S → Equivalent true S T → F (shape S) = F (shape T)) :
    ∑ᶠ c ∈ connectedShapes squareLattice n, F c =
      (ls.map fun l => ((partnersOf sym l).length : ℝ) * F (shape l.toFinset)).sum := by
  have hs : sym = true → SymmetricGraph (latticeGraph (1, 0) (0, 1)) := fun _ => Props.square_symmetric
  have e : connectedShapes squareLattice n = {c | ∃ l ∈ ls, c ∈ shapesOf sym l.toFinset} := by
    ext c
    constructor
    · rintro ⟨S, h1, h2, rfl⟩
      obtain ⟨l, hl, hle⟩ := h.complete hs S h1 h2
      exact ⟨l, hl, S, rfl, hle.symm⟩
    · rintro ⟨l, hl, T, rfl, hT⟩
      obtain ⟨h1, h2, h3⟩ := h.sound l hl
      refine ⟨T, ?_, ?_, rfl⟩
      · rw [hT.card, List.toFinset_card_of_nodup h1.nodup, h2]
      · exact (equivalent_false_true hT).connected h3
  rw [e]
  have hsn : ∀ l ∈ ls, Snake l ∧ ConnectedSites squareLattice l.toFinset :=
    fun l hl => ⟨(h.sound l hl).1, (h.sound l hl).2.2⟩
  have hd := h.distinct
  clear e h
  suffices H : {c | ∃ l ∈ ls, c ∈ shapesOf sym l.toFinset}.Finite ∧
      ∑ᶠ c ∈ {c | ∃ l ∈ ls, c ∈ shapesOf sym l.toFinset}, F c =
      (ls.map fun l => ((partnersOf sym l).length : ℝ) * F (shape l.toFinset)).sum from H.2
  induction ls with
  | nil => simp
  | cons l ls ih =>
    rw [List.pairwise_cons] at hd
    obtain ⟨ih1, ih2⟩ := ih (fun m hm => hsn m (List.mem_cons_of_mem _ hm)) hd.2
    obtain ⟨h0, h0'⟩ := hsn l (List.mem_cons_self ..)
    obtain ⟨h1, h2⟩ := ncard_shapesOf h0 sym
    have hu : {c | ∃ m ∈ l :: ls, c ∈ shapesOf sym m.toFinset} =
        shapesOf sym l.toFinset ∪ {c | ∃ m ∈ ls, c ∈ shapesOf sym m.toFinset} := by
      ext c
      simp
    rw [hu]
    refine ⟨h1.union ih1, ?_⟩
    rw [finsum_mem_union ?_ h1 ih1, List.map_cons, List.sum_cons, ih2, h2]
    · congr 1
      rw [finsum_mem_congr rfl (g := fun _ => F (shape l.toFinset)) (by
        rintro c ⟨T, rfl, hT⟩
        exact (hF _ _ h0' (equivalent_false_true hT)).symm)]
      rw [finsum_mem_eq_finite_toFinset_sum _ h1, Finset.sum_const, nsmul_eq_mul, Set.ncard_eq_toFinset_card _ h1]
    · rw [Set.disjoint_left]
      rintro c hc ⟨m, hm, hc'⟩
      exact Set.disjoint_left.1 (shapesOf_disjoint (hd.1 m hm)) hc hc'

theorem sum_map_getElem {α : Type} (f : α → ℝ) (F : ℕ → ℝ) (l : List α) (h : ∀ i (hi : i < l.length), F i = f l[i]) :
    (l.map f).sum = ∑ i ∈ Finset.range l.length, F i := by
  induction l generalizing F with
  | nil => rfl
  | cons a l ih =>
    rw [List.map_cons, List.sum_cons, List.length_cons, Finset.sum_range_succ', ih (fun i => F (i + 1)), h 0 (by simp)]
    · rw [add_comm]
      rfl
    · intro i hi
      exact h (i + 1) (by simpa using hi)

/-- The sum over the connected proper subsets is a sum over the clusters of the list. -/
theorem sum_subs_list {st : List (List Geometry) × List (List ℕ) × List ℕ} {Ls : List (List (List (ℤ × ℤ)))}
    (h : AllRel squareLattice true st Ls) {i : ℕ} (hi : i < Ls.flatten.length) (f : Finset (ℤ × ℤ) → ℝ)
    (hf : ∀ S T, ConnectedSites squareLattice S → Equivalent true S T → f S = f T) (F : ℕ → ℝ)
    (hF : ∀ j (hj : j < Ls.flatten.length), F j = subsetCount true Ls.flatten[i].toFinset Ls.flatten[j].toFinset *
      f Ls.flatten[j].toFinset) :
    ∑ T ∈ subs Ls.flatten[i].toFinset, f T = ∑ j ∈ Finset.range Ls.flatten.length, F j := by
  have hex : ∀ T ∈ subs Ls.flatten[i].toFinset, ∃ j, ∃ hj : j < Ls.flatten.length,
      Equivalent true Ls.flatten[j].toFinset T := by
    intro T hT
    rw [mem_subs] at hT
    obtain ⟨k, x, hk, hx, rfl⟩ := exists_startOf Ls hi
    rw [flatten_startOf Ls hk hx] at hT
    have hc := h.cards k hk _ (List.getElem_mem hx)
    have hlt := Finset.card_lt_card hT.1
    have hpos := Finset.card_pos.2 hT.2.nonempty
    obtain ⟨l, hl, he⟩ := (h.levels (T.card - 1) (by omega)).complete (fun _ => Props.square_symmetric) T
      (by omega) hT.2
    have : l ∈ Ls.flatten := List.mem_flatten.2 ⟨_, List.getElem_mem _, hl⟩
    obtain ⟨j, hj, rfl⟩ := List.mem_iff_getElem.1 this
    exact ⟨j, hj, he.symm⟩
  have huniq : ∀ a b (ha : a < Ls.flatten.length) (hb : b < Ls.flatten.length),
      Equivalent true Ls.flatten[a].toFinset Ls.flatten[b].toFinset → a = b := by
    intro a b ha hb he
    by_contra hne
    have hd := h.flatten.2
    rw [List.pairwise_iff_getElem] at hd
    rcases Nat.lt_or_gt_of_ne hne with hlt | hlt
    · exact hd a b ha hb hlt he
    · exact hd b a hb ha hlt he.symm
  let J : Finset (ℤ × ℤ) → ℕ := fun T =>
    if h : ∃ j, ∃ hj : j < Ls.flatten.length, Equivalent true Ls.flatten[j].toFinset T then h.choose else 0
  have hJ : ∀ T ∈ subs Ls.flatten[i].toFinset, ∃ hj : J T < Ls.flatten.length,
      Equivalent true Ls.flatten[J T].toFinset T := by
    intro T hT
    have := hex T hT
    simp only [J, dif_pos this]
    exact this.choose_spec
  rw [← Finset.sum_fiberwise_of_maps_to (s := subs Ls.flatten[i].toFinset) (t := Finset.range Ls.flatten.length)
    (g := J) (fun T hT => Finset.mem_range.2 (hJ T hT).1)]
  refine Finset.sum_congr rfl ?_
  intro j hj
  rw [Finset.mem_range] at hj
  have hset : (subs Ls.flatten[i].toFinset).filter (fun T => J T = j) =
      (subs Ls.flatten[i].toFinset).filter fun T => Equivalent true Ls.flatten[j].toFinset T := by
    apply Finset.filter_congr
    intro T hT
    obtain ⟨h1, h2⟩ := hJ T hT
    constructor
    · rintro rfl
      exact h2
    · intro h3
      exact huniq _ _ h1 hj (h2.trans h3.symm)
  have hcard : ((subs Ls.flatten[i].toFinset).filter fun T => Equivalent true Ls.flatten[j].toFinset T).card =
      subsetCount true Ls.flatten[i].toFinset Ls.flatten[j].toFinset := by
    unfold subsetCount
    rw [← Set.ncard_coe_finset]
    congr 1
    ext T
    simp [mem_subs, and_assoc]
  rw [hset, hF j hj, ← hcard, ← nsmul_eq_mul, ← Finset.sum_const]
  refine Finset.sum_congr rfl ?_
  intro T hT
  rw [Finset.mem_filter, mem_subs] at hT
  exact hf _ _ hT.1.2 hT.2.symm

theorem subsetCount_lower {st : List (List Geometry) × List (List ℕ) × List ℕ} {Ls : List (List (List (ℤ × ℤ)))}
    (h : AllRel squareLattice true st Ls) {i j : ℕ} (hi : i < Ls.flatten.length) (hj : j < Ls.flatten.length)
    (hij : i ≤ j) : subsetCount true Ls.flatten[i].toFinset Ls.flatten[j].toFinset = 0 := by
  unfold subsetCount
  rw [Set.ncard_eq_zero (subsetCount_finite true _ _), Set.eq_empty_iff_forall_notMem]
  rintro T ⟨h1, -, h3⟩
  have hlt := Finset.card_lt_card h1
  rw [h3.card] at hlt
  obtain ⟨k, x, hk, hx, rfl⟩ := exists_startOf Ls hi
  obtain ⟨m, y, hm, hy, rfl⟩ := exists_startOf Ls hj
  rw [flatten_startOf Ls hk hx, flatten_startOf Ls hm hy, h.cards k hk _ (List.getElem_mem hx),
    h.cards m hm _ (List.getElem_mem hy)] at hlt
  have h4 := startOf_mono Ls (k := m + 1) (m := k) (by omega) hk.le
  have h5 := startOf_succ Ls hm
  omega

end ED
