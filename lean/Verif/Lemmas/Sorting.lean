import Verif.Lemmas.Geometry
import Mathlib.Data.List.Sort
import Mathlib.Algebra.BigOperators.Group.List.Basic

/-! # Lexicographic sorting of the sites -/

namespace ED

open Geometry Classical

namespace Geometry

theorem lexLE_append (keys : List (ℕ → ℝ)) (f : ℕ → ℝ) (i j : ℕ) :
    lexLE (keys ++ [f]) i j ↔ f i < f j ∨ (f i = f j ∧ lexLE keys i j) := by
  unfold lexLE
  rw [List.foldl_append]
  rfl

theorem lexLE_total (keys : List (ℕ → ℝ)) (i j : ℕ) : lexLE keys i j ∨ lexLE keys j i := by
  induction keys using List.reverseRecOn with
  | nil => exact Or.inl trivial
  | append_singleton keys f ih =>
    simp only [lexLE_append]
    rcases lt_trichotomy (f i) (f j) with h | h | h
    · exact Or.inl (Or.inl h)
    · rcases ih with k | k
      · exact Or.inl (Or.inr ⟨h, k⟩)
      · exact Or.inr (Or.inr ⟨h.symm, k⟩)
    · exact Or.inr (Or.inl h)

theorem lexLE_trans (keys : List (ℕ → ℝ)) {i j k : ℕ} (h1 : lexLE keys i j) (h2 : lexLE keys j k) :
    lexLE keys i k := by
  induction keys using List.reverseRecOn with
  | nil => exact trivial
  | append_singleton keys f ih =>
    simp only [lexLE_append] at *
    rcases h1 with h1 | ⟨h1, a⟩ <;> rcases h2 with h2 | ⟨h2, b⟩
    · exact Or.inl (h1.trans h2)
    · exact Or.inl (h2 ▸ h1)
    · exact Or.inl (h1 ▸ h2)
    · exact Or.inr ⟨h1.trans h2, ih a b⟩

instance (keys : List (ℕ → ℝ)) : Std.Total (lexLE keys) := ⟨lexLE_total keys⟩
instance (keys : List (ℕ → ℝ)) : IsTrans ℕ (lexLE keys) := ⟨fun _ _ _ => lexLE_trans keys⟩

/-- The comparison only depends on the values of the keys. -/
theorem lexLE_congr {n : ℕ} (F G : ℕ → ℕ → ℝ) (i j i' j' : ℕ)
    (h : ∀ k < n, F k i = G k i' ∧ F k j = G k j') :
    lexLE ((List.range n).map F) i j ↔ lexLE ((List.range n).map G) i' j' := by
  induction n with
  | zero => exact Iff.rfl
  | succ n ih =>
    rw [List.range_succ, List.map_append, List.map_append, List.map_singleton, List.map_singleton,
      lexLE_append, lexLE_append, ih fun k hk => h k (Nat.lt_succ_of_lt hk),
      (h n (Nat.lt_succ_self n)).1, (h n (Nat.lt_succ_self n)).2]

theorem lexsort_perm (n : ℕ) (keys : List (ℕ → ℝ)) : (lexsort n keys).Perm (List.range n) :=
  List.perm_insertionSort _ _

theorem lexsort_pairwise (n : ℕ) (keys : List (ℕ → ℝ)) : (lexsort n keys).Pairwise (lexLE keys) :=
  List.pairwise_insertionSort _ _

/-- If the keys are in order the permutation is the identity. -/
theorem lexsort_id (n : ℕ) (keys : List (ℕ → ℝ)) (h : ∀ i j, i < j → j < n → lexLE keys i j) :
    lexsort n keys = List.range n := by
  apply List.Pairwise.insertionSort_eq
  rw [List.pairwise_iff_getElem]
  intro i j hi hj hij
  rw [List.getElem_range, List.getElem_range]
  exact h i j hij (by simpa using hj)

theorem sum_perm {perm : List ℕ} {n : ℕ} (hp : perm.Perm (List.range n)) (f : ℕ → ℝ) :
    ∑ l ∈ Finset.range n, f (perm.getD l 0) = ∑ l ∈ Finset.range n, f l := by
  have hl : perm.length = n := by rw [hp.length_eq, List.length_range]
  have h1 : (perm.map f).sum = ((List.range n).map f).sum := (hp.map f).sum_eq
  have h2 : perm.map f = (List.range n).map fun l => f (perm.getD l 0) := by
    apply List.ext_getElem
    · simp [hl]
    · intro i h1 h2
      have : i < perm.length := by simpa using h1
      simp [List.getD_eq_getElem?_getD, this]
  rw [h2] at h1
  exact h1

theorem walkPower_relabel {A B : Arr ℝ} {perm : List ℕ} (hA : A.cols = perm.length)
    (hp : perm.Perm (List.range perm.length)) (hB : B.Equal (relabel perm A)) (k : ℕ) :
    ∀ i < perm.length, ∀ j < perm.length,
      walkCount.power B k i j = walkCount.power A k (perm.getD i 0) (perm.getD j 0) := by
  have entry : ∀ i < perm.length, ∀ j < perm.length, B.e i j = A.e (perm.getD i 0) (perm.getD j 0) :=
    fun i hi j hj => hB.2.2 i (by rw [hB.1]; exact hi) j (by rw [hB.2.1]; exact hj)
  induction k with
  | zero => exact entry
  | succ k ih =>
    intro i hi j hj
    simp only [walkCount.power]
    have hc : B.cols = perm.length := hB.2.1
    rw [hc, hA, ← sum_perm hp fun l => walkCount.power A k (perm.getD i 0) l * A.e l (perm.getD j 0)]
    apply Finset.sum_congr rfl
    intro l hl
    rw [ih i hi l (Finset.mem_range.1 hl), entry l (Finset.mem_range.1 hl) j hj]

theorem walkCount_relabel {A B : Arr ℝ} {perm : List ℕ} (hA : A.cols = perm.length)
    (hp : perm.Perm (List.range perm.length)) (hB : B.Equal (relabel perm A)) (k i : ℕ)
    (hi : i < perm.length) : walkCount B k i = walkCount A k (perm.getD i 0) := by
  unfold walkCount
  have hc : B.cols = perm.length := hB.2.1
  rw [hc, hA, ← sum_perm hp fun l => walkCount.power A k (perm.getD i 0) l]
  exact Finset.sum_congr rfl fun l hl =>
    walkPower_relabel hA hp hB k i hi l (Finset.mem_range.1 hl)

/-- The maximum of a list. -/
theorem npMax_ok (l : List ℝ) (h : l ≠ []) :
    ∃ m, npMax l = .ok m ∧ m ∈ l ∧ ∀ x ∈ l, x ≤ m := by
  cases l with
  | nil => exact absurd rfl h
  | cons a l =>
    refine ⟨l.foldl max a, rfl, ?_⟩
    clear h
    induction l generalizing a with
    | nil => simp
    | cons b l ih =>
      obtain ⟨h1, h2⟩ := ih (max a b)
      rw [List.foldl_cons]
      constructor
      · rcases List.mem_cons.1 h1 with h | h
        · rw [h]
          rcases max_choice a b with k | k <;> rw [k] <;> simp
        · exact List.mem_cons_of_mem _ (List.mem_cons_of_mem _ h)
      · intro x hx
        have h3 := h2 (max a b) (List.mem_cons_self ..)
        rcases List.mem_cons.1 hx with rfl | hx
        · exact (le_max_left _ _).trans h3
        · rcases List.mem_cons.1 hx with rfl | hx
          · exact (le_max_right _ _).trans h3
          · exact h2 x (List.mem_cons_of_mem _ hx)

theorem npMax_unique {l : List ℝ} {m : ℝ} (h1 : m ∈ l) (h2 : ∀ x ∈ l, x ≤ m) : npMax l = .ok m := by
  obtain ⟨m', h, h3, h4⟩ := npMax_ok l (List.ne_nil_of_mem h1)
  rw [h, le_antisymm (h2 m' h3) (h4 m h1)]

/-- The sign of a row. -/
noncomputable def rowSign (v : ℝ) : ℝ := if Even ⌊v⌋ then 1 else -1

theorem signs_ok (l : List ℝ) (m : ℝ) (h : ∀ v ∈ l, v - m = (⌊v - m⌋ : ℝ)) :
    (l.mapM fun v => signPower (v - m)) = .ok (l.map fun v => rowSign (v - m)) := by
  induction l with
  | nil => rfl
  | cons a l ih =>
    rw [List.mapM_cons, ih fun v hv => h v (List.mem_cons_of_mem _ hv)]
    unfold signPower
    rw [if_pos (h a (List.mem_cons_self ..))]
    rfl

theorem signs_of_ok {l : List ℝ} {m : ℝ} {s : List ℝ}
    (h : (l.mapM fun v => signPower (v - m)) = .ok s) : ∀ v ∈ l, v - m = (⌊v - m⌋ : ℝ) := by
  induction l generalizing s with
  | nil => simp
  | cons a l ih =>
    rw [List.mapM_cons] at h
    by_cases ha : a - m = (⌊a - m⌋ : ℝ)
    · cases hm : (l.mapM fun v => signPower (v - m)) with
      | error e =>
        rw [hm] at h
        unfold signPower at h
        rw [if_pos ha] at h
        exact absurd h (by simp [bind, Except.bind])
      | ok t =>
        intro v hv
        rcases List.mem_cons.1 hv with rfl | hv
        · exact ha
        · exact ih hm v hv
    · unfold signPower at h
      rw [if_neg ha] at h
      exact absurd h (by simp [bind, Except.bind])

/-- The sorting permutation is always a permutation of the sites. -/
theorem sortingPermutation_perm {g : Geometry} {mode : String} {p : List ℕ}
    (h : g.sortingPermutation mode = .ok p) : p.Perm (List.range g.nsites) := by
  unfold sortingPermutation at h
  simp only at h
  split_ifs at h with h1 h2 h3 h4 h5
  · cases hm : npMax g.ylocs with
    | error e => rw [hm] at h; exact absurd h (by simp [bind, Except.bind])
    | ok m =>
      rw [hm] at h
      simp only [bind, Except.bind] at h
      cases hs : (g.ylocs.mapM fun v => signPower (v - m)) with
      | error e => rw [hs] at h; exact absurd h (by simp)
      | ok s =>
        rw [hs] at h
        simp only [pure, Except.pure, Except.ok.injEq] at h
        rw [← h]
        exact lexsort_perm _ _
  all_goals
    injection h with h
    rw [← h]
    exact lexsort_perm _ _

/-- A list permuted by a list of positions. -/
theorem perm_map_getD (l : List ℝ) {p : List ℕ} (hp : p.Perm (List.range l.length)) :
    (p.map fun k => l.getD k 0).Perm l := by
  have h := hp.map fun k => l.getD k 0
  have e : ((List.range l.length).map fun k => l.getD k 0) = l := by
    apply List.ext_getElem
    · simp
    · intro i _ h2
      simp [List.getD_eq_getElem?_getD, h2]
  rwa [e] at h

theorem getD_map_getD (l : List ℝ) (p : List ℕ) (i : ℕ) (hi : i < p.length) :
    (p.map fun k => l.getD k 0).getD i 0 = l.getD (p.getD i 0) 0 := by
  rw [List.getD_eq_getElem?_getD, List.getElem?_map, List.getElem?_eq_getElem hi,
    List.getD_eq_getElem?_getD (l := p), List.getElem?_eq_getElem hi]
  rfl

theorem pairwise_getD {r : ℕ → ℕ → Prop} {p : List ℕ} (h : p.Pairwise r) (i j : ℕ) (hij : i < j)
    (hj : j < p.length) : r (p.getD i 0) (p.getD j 0) := by
  have hi := hij.trans hj
  rw [List.getD_eq_getElem?_getD, List.getD_eq_getElem?_getD, List.getElem?_eq_getElem hi,
    List.getElem?_eq_getElem hj]
  exact (List.pairwise_iff_getElem.1 h) i j hi hj hij

theorem lexLE_two (f f' : ℕ → ℝ) (i j : ℕ) :
    lexLE [f, f'] i j ↔ f' i < f' j ∨ (f' i = f' j ∧ f i ≤ f j) := by
  have : lexLE [f, f'] i j ↔ f' i < f' j ∨ (f' i = f' j ∧ (f i < f j ∨ (f i = f j ∧ True))) := Iff.rfl
  rw [this, and_true, ← le_iff_lt_or_eq]

/-- Sorting a sorted geometry changes nothing. -/
theorem sortingPermutation_idem {g g' : Geometry} (hg : g.WellFormed) {mode : String} {p : List ℕ}
    (h : g.sortingPermutation mode = .ok p) (hr : Relabelled g p g') :
    g'.sortingPermutation mode = .ok (List.range g.nsites) := by
  have hp := sortingPermutation_perm h
  have hlen : p.length = g.nsites := by rw [hp.length_eq, List.length_range]
  have hn : g'.nsites = g.nsites := by rw [nsites, hr.xlocs, List.length_map, hlen]
  have hx : ∀ i < g.nsites, g'.xlocs.getD i 0 = g.xlocs.getD (p.getD i 0) 0 := fun i hi => by
    rw [hr.xlocs, getD_map_getD _ _ _ (hlen ▸ hi)]
  have hy : ∀ i < g.nsites, g'.ylocs.getD i 0 = g.ylocs.getD (p.getD i 0) 0 := fun i hi => by
    rw [hr.ylocs, getD_map_getD _ _ _ (hlen ▸ hi)]
  have hyp : g'.ylocs.Perm g.ylocs := by
    rw [hr.ylocs]
    exact perm_map_getD _ (by rw [hg.ylocs]; exact hp)
  unfold sortingPermutation at h ⊢
  simp only at h ⊢
  split_ifs at h with h1 h2 h3 h4 h5
  · rw [if_pos h1]
    cases hm : npMax g.ylocs with
    | error e => rw [hm] at h; exact absurd h (by simp [bind, Except.bind])
    | ok m =>
      have hne : g.ylocs ≠ [] := by
        rintro h0
        rw [h0] at hm
        exact absurd hm (by simp [npMax])
      obtain ⟨m', hm', hm1, hm2⟩ := npMax_ok _ hne
      rw [hm] at hm'
      injection hm' with hm'
      subst hm'
      rw [hm] at h
      rw [npMax_unique (hyp.mem_iff.2 hm1) fun x hx => hm2 x (hyp.mem_iff.1 hx)]
      simp only [bind, Except.bind] at h ⊢
      cases hs : (g.ylocs.mapM fun v => signPower (v - m)) with
      | error e => rw [hs] at h; exact absurd h (by simp)
      | ok s =>
        have hint := signs_of_ok hs
        rw [signs_ok _ _ hint] at hs
        injection hs with hs
        subst hs
        rw [signs_ok _ _ hint] at h
        rw [signs_ok _ _ fun v hv => hint v (hyp.mem_iff.1 hv)]
        simp only [pure, Except.pure, Except.ok.injEq] at h ⊢
        have gets : ∀ (l : List ℝ) i, i < l.length →
            (l.map fun v => rowSign (v - m)).getD i 0 = rowSign (l.getD i 0 - m) := by
          intro l i hi
          simp [List.getD_eq_getElem?_getD, hi]
        rw [hn]
        apply lexsort_id
        intro i j hij hj
        have hpw := pairwise_getD (by rw [← h]; exact lexsort_pairwise _ _ :
          p.Pairwise (lexLE _)) i j hij (hlen ▸ hj)
        have mem : ∀ i < g.nsites, p.getD i 0 < g.ylocs.length := by
          intro i hi
          rw [hg.ylocs]
          have : p.getD i 0 ∈ p := by
            rw [List.getD_eq_getElem?_getD, List.getElem?_eq_getElem (hlen ▸ hi)]
            exact List.getElem_mem _
          exact List.mem_range.1 (hp.mem_iff.1 this)
        have hl' : g'.ylocs.length = g.nsites := by rw [hyp.length_eq, hg.ylocs]; rfl
        rw [lexLE_two] at hpw ⊢
        rw [gets _ _ (mem i (hij.trans hj)), gets _ _ (mem j hj)] at hpw
        rw [gets _ _ (hl' ▸ hij.trans hj), gets _ _ (hl' ▸ hj), hx i (hij.trans hj), hx j hj,
          hy i (hij.trans hj), hy j hj]
        exact hpw
  · rw [if_neg h1, if_pos h2, hn]
    injection h with h
    congr 1
    apply lexsort_id
    intro i j hij hj
    have hpw := pairwise_getD (by rw [← h]; exact lexsort_pairwise _ _ :
          p.Pairwise (lexLE _)) i j hij (hlen ▸ hj)
    rw [lexLE_two] at hpw ⊢
    rw [hx i (hij.trans hj), hx j hj, hy i (hij.trans hj), hy j hj]
    exact hpw
  · rw [if_neg h1, if_neg h2, if_pos h3, hn]
    injection h with h
    congr 1
    apply lexsort_id
    intro i j hij hj
    have hpw := pairwise_getD (by rw [← h]; exact lexsort_pairwise _ _ :
          p.Pairwise (lexLE _)) i j hij (hlen ▸ hj)
    rw [lexLE_two] at hpw ⊢
    rw [hx i (hij.trans hj), hx j hj, hy i (hij.trans hj), hy j hj]
    exact hpw
  · rw [if_neg h1, if_neg h2, if_neg h3, if_pos h4, if_neg (by rw [hn]; exact h5), hn]
    injection h with h
    congr 1
    apply lexsort_id
    intro i j hij hj
    have hpw := pairwise_getD (by rw [← h]; exact lexsort_pairwise _ _ :
          p.Pairwise (lexLE _)) i j hij (hlen ▸ hj)
    refine (lexLE_congr _ _ _ _ _ _ fun k _ => ⟨?_, ?_⟩).2 hpw
    · exact walkCount_relabel (by rw [hg.adjacency.2, hlen]; rfl) (by rw [hlen]; exact hp)
        hr.adjacency k i (by rw [hlen]; exact hij.trans hj)
    · exact walkCount_relabel (by rw [hg.adjacency.2, hlen]; rfl) (by rw [hlen]; exact hp)
        hr.adjacency k j (by rw [hlen]; exact hj)

end Geometry

end ED
