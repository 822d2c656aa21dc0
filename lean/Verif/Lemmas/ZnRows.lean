import Verif.Lemmas.ZnEntries
import Mathlib.Algebra.BigOperators.Field

/-! # Cyclic projectors: the selected rows -/

namespace ED

open scoped BigOperators Matrix
open Classical

variable {d : ℕ}

theorem firstNonzero_eq {r : Fin d → ℂ} {c : Fin d} :
    firstNonzero r = some c ↔ r c ≠ 0 ∧ ∀ j < c, r j = 0 := by
  unfold firstNonzero
  rw [List.find?_eq_some_iff_getElem]
  constructor
  · rintro ⟨h1, i, hi, e, h2⟩
    have hc : (⟨i, by simpa using hi⟩ : Fin d) = c := by simpa using e
    refine ⟨by simpa using h1, fun j hj => ?_⟩
    have hji : j.val < i := by
      rw [← hc] at hj
      exact hj
    have := h2 j.val hji
    simpa using this
  · rintro ⟨h1, h2⟩
    refine ⟨by simpa using h1, c.val, by simp, by simp, fun j hj => ?_⟩
    have := h2 ⟨j, by omega⟩ hj
    simp [this]

/-- Searching for a condition that holds at `c` and nowhere before. -/
theorem find_finRange {p : Fin d → Prop} [DecidablePred p] {c : Fin d} (hc : p c) (hlt : ∀ i < c, ¬ p i) :
    (List.finRange d).find? (fun i => decide (p i)) = some c := by
  rw [List.find?_eq_some_iff_getElem]
  refine ⟨by simpa using hc, c.val, by simp, by simp, fun j hj => ?_⟩
  have := hlt ⟨j, by omega⟩ hj
  simpa using this

theorem filterMap_if {α β : Type} (l : List α) (p : α → Prop) (f : α → β) :
    l.filterMap (fun a => if p a then some (f a) else none) = (l.filter fun a => decide (p a)).map f := by
  induction l with
  | nil => rfl
  | cons a l ih =>
    by_cases h : p a
    · simp only [List.filterMap_cons, if_pos h]
      rw [List.filter_cons_of_pos (by simpa using h), List.map_cons, ih]
    · simp only [List.filterMap_cons, if_neg h]
      rw [List.filter_cons_of_neg (by simpa using h), ih]

/-- What is assumed of the operator and of the computed projectors `A k`. -/
structure ZnData (U : Matrix (Fin d) (Fin d) ℂ) (σ : Equiv.Perm (Fin d)) (u : Fin d → ℂ) (n : ℕ)
    (A : ℕ → Matrix (Fin d) (Fin d) ℂ) (δ : ℝ) : Prop where
  mono : Mono U σ u
  pos : n ≠ 0
  pow : U ^ n = 1
  off : ∀ k i j, ¬ σ.SameCycle i j → A k i j = 0
  near : ∀ k < n, ∀ i j, σ.SameCycle i j → ‖A k i j - exactProj U n k i j‖ ≤ n / (cyc σ i).card * δ
  nonneg : 0 ≤ δ
  small : (n : ℝ) * δ < (10 : ℝ) ^ (-10 : ℤ)

namespace ZnData

variable {U : Matrix (Fin d) (Fin d) ℂ} {σ : Equiv.Perm (Fin d)} {u : Fin d → ℂ} {n : ℕ}
  {A : ℕ → Matrix (Fin d) (Fin d) ℂ} {δ : ℝ} (h : ZnData U σ u n A δ)

include h

theorem delta_lt : δ < (10 : ℝ) ^ (-10 : ℤ) := by
  have h1 : (1 : ℝ) ≤ n := by exact_mod_cast Nat.one_le_iff_ne_zero.2 h.pos
  have := h.small
  nlinarith [h.nonneg]

theorem delta_le : δ ≤ 1 / 9 := by
  have := h.delta_lt
  refine this.le.trans ?_
  norm_num

theorem ratio_ge (i : Fin d) : (1 : ℝ) ≤ n / (cyc σ i).card := by
  rw [← hits_eq h.pos (perm_pow_one h.mono h.pow) (Equiv.Perm.SameCycle.refl σ i)]
  have : 0 < hits σ n i i := by
    unfold hits
    refine Finset.card_pos.2 ⟨0, ?_⟩
    rw [Finset.mem_filter]
    exact ⟨Finset.mem_range.2 (Nat.pos_of_ne_zero h.pos), rfl⟩
  exact_mod_cast this

theorem ratio_le (i : Fin d) : (n : ℝ) / (cyc σ i).card ≤ n := by
  apply div_le_self (by positivity)
  exact_mod_cast card_cyc_pos σ i

/-- The row of the unnormalised projector after removing small entries. -/
noncomputable def row (_ : ZnData U σ u n A δ) (k : ℕ) (i : Fin d) : Fin d → ℂ := dropSmall (A k i)

theorem exact_norm {k : ℕ} {i j : Fin d} (hnz : exactProj U n k i i ≠ 0) (hc : σ.SameCycle i j) :
    ‖exactProj U n k i j‖ = n / (cyc σ i).card := by
  rw [exact_norm_right h.mono h.pos h.pow k i hc, exact_diag h.mono h.pos h.pow k i hnz, norm_div,
    Complex.norm_natCast, Complex.norm_natCast]

theorem row_off {k : ℕ} {i j : Fin d} (hc : ¬ σ.SameCycle i j) : h.row k i j = 0 := by
  unfold row dropSmall
  rw [h.off k i j hc]
  simp

theorem row_zero {k : ℕ} (hk : k < n) {i : Fin d} (hnz : exactProj U n k i i = 0) (j : Fin d) : h.row k i j = 0 := by
  by_cases hc : σ.SameCycle i j
  · unfold row dropSmall
    rw [if_pos]
    have h1 := h.near k hk i j hc
    have h2 : exactProj U n k i j = 0 := by
      rw [← norm_eq_zero, exact_norm_right h.mono h.pos h.pow k i hc, hnz, norm_zero]
    rw [h2, sub_zero] at h1
    refine lt_of_le_of_lt (h1.trans ?_) h.small
    exact mul_le_mul_of_nonneg_right (h.ratio_le i) h.nonneg
  · exact h.row_off hc

theorem row_keep {k : ℕ} (hk : k < n) {i j : Fin d} (hnz : exactProj U n k i i ≠ 0) (hc : σ.SameCycle i j) :
    h.row k i j = A k i j ∧ h.row k i j ≠ 0 := by
  have h1 := h.near k hk i j hc
  have h2 := h.exact_norm hnz hc
  have h3 := norm_sub_norm_le (exactProj U n k i j) (A k i j)
  rw [norm_sub_rev] at h3
  have h4 := h.ratio_ge i
  have hlow : (1 : ℝ) / 2 ≤ ‖A k i j‖ := by
    have := h.delta_le
    nlinarith [h.nonneg]
  have hns : ¬ ‖A k i j‖ < (10 : ℝ) ^ (-10 : ℤ) := by
    push Not
    refine le_trans ?_ hlow
    norm_num
  have e : h.row k i j = A k i j := by
    unfold row dropSmall
    rw [if_neg hns]
  refine ⟨e, ?_⟩
  rw [e]
  intro h0
  rw [h0, norm_zero] at hlow
  norm_num at hlow

theorem row_ne {k : ℕ} (hk : k < n) {i j : Fin d} :
    h.row k i j ≠ 0 ↔ exactProj U n k i i ≠ 0 ∧ σ.SameCycle i j := by
  constructor
  · intro hne
    refine ⟨fun h0 => hne (h.row_zero hk h0 j), ?_⟩
    by_contra hc
    exact hne (h.row_off hc)
  · rintro ⟨h1, h2⟩
    exact (h.row_keep hk h1 h2).2

/-- The exact row, a phase on the cycle. -/
noncomputable def phases (_ : ZnData U σ u n A δ) (k : ℕ) (i : Fin d) : Fin d → ℂ :=
  fun j => exactProj U n k i j / ((n / (cyc σ i).card : ℝ) : ℂ)

theorem flat {k : ℕ} (hk : k < n) {i : Fin d} (hnz : exactProj U n k i i ≠ 0) :
    Flat (h.row k i) (h.phases k i) (cyc σ i) (n / (cyc σ i).card) δ := by
  have hpos : (0 : ℝ) < n / (cyc σ i).card := lt_of_lt_of_le one_pos (h.ratio_ge i)
  refine ⟨hpos, ⟨i, self_mem_cyc σ i⟩, fun j hj => h.row_off fun hc => hj (mem_cyc.2 hc), fun j hj => ?_,
    fun j hj => ?_⟩
  · unfold phases
    rw [norm_div, h.exact_norm hnz (mem_cyc.1 hj), Complex.norm_real, Real.norm_of_nonneg hpos.le,
      div_self hpos.ne']
  · rw [(h.row_keep hk hnz (mem_cyc.1 hj)).1]
    unfold phases
    rw [mul_div_cancel₀]
    · exact h.near k hk i j (mem_cyc.1 hj)
    · exact_mod_cast hpos.ne'

/-- The rows that are kept: the first state of each cycle on which the projector does not vanish. -/
def Kept (_ : ZnData U σ u n A δ) (k : ℕ) (c : Fin d) : Prop :=
  exactProj U n k c c ≠ 0 ∧ ∀ j ∈ cyc σ c, c ≤ j

theorem first_row {k : ℕ} (hk : k < n) {i c : Fin d} :
    firstNonzero (h.row k i) = some c ↔
      exactProj U n k i i ≠ 0 ∧ σ.SameCycle i c ∧ ∀ j ∈ cyc σ c, c ≤ j := by
  rw [firstNonzero_eq, h.row_ne hk]
  constructor
  · rintro ⟨⟨h1, h2⟩, h3⟩
    refine ⟨h1, h2, fun j hj => ?_⟩
    by_contra hlt
    push Not at hlt
    have hne := (h.row_ne hk (i := i) (j := j)).2 ⟨h1, h2.trans (mem_cyc.1 hj)⟩
    exact hne (h3 j hlt)
  · rintro ⟨h1, h2, h3⟩
    refine ⟨⟨h1, h2⟩, fun j hj => ?_⟩
    by_contra hne
    have := (h.row_ne hk).1 hne
    exact absurd hj (not_lt.2 (h3 j (mem_cyc.2 (h2.symm.trans this.2))))

/-- The rows returned. -/
theorem reduced {k : ℕ} (hk : k < n) :
    reduceSymmProjector (List.ofFn fun i j => A k i j) =
      ((List.finRange d).filter fun c => decide (h.Kept k c)).map fun c => normalizeRow (h.row k c) := by
  unfold reduceSymmProjector
  simp only
  have hnoz : ((List.ofFn fun i j => A k i j).map dropSmall).filter (fun r => decide (∃ j, r j ≠ 0)) =
      ((List.finRange d).filter fun i => decide (exactProj U n k i i ≠ 0)).map (h.row k) := by
    rw [List.ofFn_eq_map, List.map_map, List.filter_map]
    congr 1
    refine List.filter_congr fun i _ => ?_
    simp only [Function.comp]
    rw [decide_eq_decide]
    constructor
    · rintro ⟨j, hj⟩
      exact ((h.row_ne hk).1 hj).1
    · intro hnz
      exact ⟨i, (h.row_ne hk).2 ⟨hnz, Equiv.Perm.SameCycle.refl _ _⟩⟩
  rw [hnoz]
  have hu : uniqueRows (((List.finRange d).filter fun i => decide (exactProj U n k i i ≠ 0)).map (h.row k)) =
      ((List.finRange d).filter fun c => decide (h.Kept k c)).map (h.row k) := by
    unfold uniqueRows
    rw [← filterMap_if]
    refine List.filterMap_congr fun c _ => ?_
    rw [List.find?_map, List.find?_filter]
    by_cases hc : h.Kept k c
    · rw [if_pos hc]
      have : (List.finRange d).find? (fun a => decide (decide (exactProj U n k a a ≠ 0) = true ∧
          ((fun r => decide (firstNonzero r = some c)) ∘ h.row k) a = true)) = some c := by
        refine find_finRange (p := fun a => decide (exactProj U n k a a ≠ 0) = true ∧
          ((fun r => decide (firstNonzero r = some c)) ∘ h.row k) a = true) (c := c) ?_ ?_
        · simp only [Function.comp, decide_eq_true_eq]
          exact ⟨hc.1, (h.first_row hk).2 ⟨hc.1, Equiv.Perm.SameCycle.refl _ _, hc.2⟩⟩
        · rintro i hi ⟨-, hf⟩
          simp only [Function.comp, decide_eq_true_eq] at hf
          obtain ⟨-, h2, h3⟩ := (h.first_row hk).1 hf
          exact absurd hi (not_lt.2 (h3 i (mem_cyc.2 h2.symm)))
      rw [this]
      rfl
    · rw [if_neg hc]
      have : (List.finRange d).find? (fun a => decide (decide (exactProj U n k a a ≠ 0) = true ∧
          ((fun r => decide (firstNonzero r = some c)) ∘ h.row k) a = true)) = none := by
        rw [List.find?_eq_none]
        intro i _ hi
        simp only [Function.comp, decide_eq_true_eq] at hi
        obtain ⟨h1, h2, h3⟩ := (h.first_row hk).1 hi.2
        exact hc ⟨by rw [exact_diag_const h.mono h.pos h.pow k h2]; exact h1, h3⟩
      rw [this]
      rfl
  rw [hu, List.map_map]
  rfl

/-- How many representations occur on a cycle. -/
theorem count_reps (c : Fin d) :
    ((Finset.range n).filter fun k => exactProj U n k c c ≠ 0).card = (cyc σ c).card := by
  have hs := congrFun (congrFun (exactProj_sum (U := U) h.pos) c) c
  rw [Matrix.sum_apply, Matrix.smul_apply, Matrix.one_apply_eq, smul_eq_mul, mul_one] at hs
  have e : ∀ k ∈ Finset.range n, exactProj U n k c c =
      if exactProj U n k c c ≠ 0 then (n : ℂ) / (cyc σ c).card else 0 := by
    intro k _
    split_ifs with h0
    · exact exact_diag h.mono h.pos h.pow k c h0
    · push Not at h0; exact h0
  rw [Finset.sum_congr rfl e, ← Finset.sum_filter, Finset.sum_const, nsmul_eq_mul] at hs
  have hn : (n : ℂ) ≠ 0 := by exact_mod_cast h.pos
  have hc : ((cyc σ c).card : ℂ) ≠ 0 := by exact_mod_cast (card_cyc_pos σ c).ne'
  field_simp at hs
  exact_mod_cast hs

theorem count_states : ∑ c ∈ Finset.univ.filter (fun c => ∀ j ∈ cyc σ c, c ≤ j), (cyc σ c).card = d := by
  have hlow : ∀ i : Fin d, ∃ c, σ.SameCycle i c ∧ ∀ j ∈ cyc σ c, c ≤ j := by
    intro i
    refine ⟨(cyc σ i).min' ⟨i, self_mem_cyc σ i⟩, mem_cyc.1 (Finset.min'_mem _ _), fun j hj => ?_⟩
    have hm := mem_cyc.1 (Finset.min'_mem (cyc σ i) ⟨i, self_mem_cyc σ i⟩)
    rw [← cyc_eq hm] at hj
    exact Finset.min'_le _ _ hj
  choose low hl1 hl2 using hlow
  have := Finset.card_eq_sum_card_fiberwise (f := low) (s := Finset.univ)
    (t := Finset.univ.filter fun c => ∀ j ∈ cyc σ c, c ≤ j) (fun i _ => by
      rw [Finset.mem_coe, Finset.mem_filter]
      exact ⟨Finset.mem_univ _, hl2 i⟩)
  rw [Finset.card_univ, Fintype.card_fin] at this
  conv_rhs => rw [this]
  refine Finset.sum_congr rfl fun c hc => ?_
  congr 1
  ext i
  rw [Finset.mem_filter, mem_cyc]
  have hcmin := (Finset.mem_filter.1 hc).2
  constructor
  · intro hi
    refine ⟨Finset.mem_univ _, ?_⟩
    have h3 : σ.SameCycle c (low i) := hi.trans (hl1 i)
    exact le_antisymm (hl2 i c (mem_cyc.2 h3.symm)) (hcmin _ (mem_cyc.2 h3))
  · rintro ⟨-, rfl⟩
    exact (hl1 i).symm

theorem total :
    (((List.range n).map fun k => reduceSymmProjector (List.ofFn fun i j => A k i j)).map List.length).sum = d := by
  rw [List.map_map]
  have e : ∀ k ∈ List.range n,
      (List.length ∘ fun k => reduceSymmProjector (List.ofFn fun i j => A k i j)) k =
        (Finset.univ.filter fun c => h.Kept k c).card := by
    intro k hk
    simp only [Function.comp]
    rw [h.reduced (List.mem_range.1 hk), List.length_map]
    rw [← List.toFinset_card_of_nodup ((List.nodup_finRange d).filter _)]
    congr 1
    ext c
    simp
  rw [List.map_congr_left e]
  have hsum : ((List.range n).map fun k => (Finset.univ.filter fun c => h.Kept k c).card).sum =
      ∑ k ∈ Finset.range n, (Finset.univ.filter fun c => h.Kept k c).card := by
    rw [Finset.sum_range]
    rw [← List.sum_ofFn, List.ofFn_eq_map]
    congr 1
    rw [← List.map_coe_finRange_eq_range, List.map_map]
    rfl
  rw [hsum]
  simp only [Finset.card_filter]
  rw [Finset.sum_comm]
  conv_rhs => rw [← h.count_states]
  rw [Finset.sum_filter]
  refine Finset.sum_congr rfl fun c _ => ?_
  by_cases hc : ∀ j ∈ cyc σ c, c ≤ j
  · rw [if_pos hc, ← h.count_reps c, Finset.card_filter]
    refine Finset.sum_congr rfl fun k _ => ?_
    by_cases h0 : exactProj U n k c c ≠ 0
    · rw [if_pos ⟨h0, hc⟩, if_pos h0]
    · rw [if_neg (fun hh => h0 hh.1), if_neg h0]
  · rw [if_neg hc]
    exact Finset.sum_eq_zero fun k _ => if_neg fun hh => hc hh.2

/-! ## Scalar products -/

theorem inner_disjoint {k k' : ℕ} {c c' : Fin d} (hne : ¬ σ.SameCycle c c') :
    rowInner (normalizeRow (h.row k c)) (normalizeRow (h.row k' c')) = 0 := by
  unfold rowInner
  refine Finset.sum_eq_zero fun j _ => ?_
  by_cases hj : σ.SameCycle c j
  · have : normalizeRow (h.row k' c') j = 0 := by
      unfold normalizeRow
      rw [h.row_off (fun hc => hne (hj.trans hc.symm)), mul_zero]
    rw [this, map_zero, mul_zero]
  · have : normalizeRow (h.row k c) j = 0 := by
      unfold normalizeRow
      rw [h.row_off hj, mul_zero]
    rw [this, zero_mul]

theorem inner_self {k : ℕ} (hk : k < n) {c : Fin d} (hc : h.Kept k c) :
    rowInner (normalizeRow (h.row k c)) (normalizeRow (h.row k c)) = 1 :=
  (h.flat hk hc.1).normalize_norm h.nonneg (lt_of_le_of_lt h.delta_le (by norm_num))

theorem kept_unique {k k' : ℕ} {c c' : Fin d} (hc : h.Kept k c) (hc' : h.Kept k' c') (hs : σ.SameCycle c c') :
    c = c' :=
  le_antisymm (hc.2 _ (mem_cyc.2 hs)) (hc'.2 _ (mem_cyc.2 hs.symm))

theorem inner_small {k k' : ℕ} (hk : k < n) (hk' : k' < n) (hne : k ≠ k') {c c' : Fin d} (hc : h.Kept k c)
    (hc' : h.Kept k' c') :
    ‖rowInner (normalizeRow (h.row k c)) (normalizeRow (h.row k' c'))‖ ≤ 7 * δ := by
  by_cases hs : σ.SameCycle c c'
  swap
  · rw [h.inner_disjoint hs, norm_zero]
    linarith [h.nonneg]
  obtain rfl := h.kept_unique hc hc' hs
  have f1 := h.flat hk hc.1
  have f2 := h.flat hk' hc'.1
  have hcard : (0 : ℝ) < (cyc σ c).card := by exact_mod_cast card_cyc_pos σ c
  have hzero : ∑ j ∈ cyc σ c, h.phases k c j * (starRingEnd ℂ) (h.phases k' c j) / (cyc σ c).card = 0 := by
    have h0 := congrFun (congrFun (exactProj_orth (U := U) h.pos h.pow hk hk' hne) c) c
    rw [Matrix.mul_apply, Matrix.zero_apply, ← Finset.sum_subset (Finset.subset_univ (cyc σ c))] at h0
    · rw [← Finset.sum_div]
      have e : ∀ j ∈ cyc σ c, h.phases k c j * (starRingEnd ℂ) (h.phases k' c j) =
          (((n / (cyc σ c).card : ℝ) : ℂ)⁻¹) ^ 2 * (exactProj U n k c j * exactProj U n k' j c) := by
        intro j _
        unfold phases
        rw [map_div₀, Complex.conj_ofReal, exact_conj h.mono h.pos h.pow]
        ring
      rw [Finset.sum_congr rfl e, ← Finset.mul_sum, h0, mul_zero, zero_div]
    · intro j _ hj
      rw [exact_zero h.mono (fun hc => hj (mem_cyc.2 hc)), zero_mul]
  have hin : rowInner (normalizeRow (h.row k c)) (normalizeRow (h.row k' c)) =
      ∑ j ∈ cyc σ c, (normalizeRow (h.row k c) j * (starRingEnd ℂ) (normalizeRow (h.row k' c) j) -
        h.phases k c j * (starRingEnd ℂ) (h.phases k' c j) / (cyc σ c).card) := by
    rw [Finset.sum_sub_distrib, hzero, sub_zero]
    unfold rowInner
    refine (Finset.sum_subset (Finset.subset_univ _) fun j _ hj => ?_).symm
    rw [f1.normalize_off hj, zero_mul]
  rw [hin]
  refine (norm_sum_le _ _).trans ?_
  refine (Finset.sum_le_sum fun j hj => f1.mul_near f2 h.nonneg h.delta_le hj hj).trans ?_
  rw [Finset.sum_const, nsmul_eq_mul, mul_div_cancel₀ _ hcard.ne']

/-- The rows are eigenvectors. -/
theorem eigen {k : ℕ} (hk : k < n) {c : Fin d} (hc : h.Kept k c) (j : Fin d) :
    ‖(∑ i, normalizeRow (h.row k c) i * U i j) - omega n k * normalizeRow (h.row k c) j‖ ≤ 6 * δ := by
  obtain ⟨j, rfl⟩ := σ.surjective j
  have f := h.flat hk hc.1
  have hsum : ∑ i, normalizeRow (h.row k c) i * U i (σ j) = normalizeRow (h.row k c) j * u j := by
    rw [Finset.sum_eq_single j]
    · rw [h.mono.entry, if_pos rfl]
    · intro b _ hb
      rw [h.mono.entry, if_neg (fun hh => hb (σ.injective hh).symm), mul_zero]
    · exact fun hh => absurd (Finset.mem_univ _) hh
  rw [hsum]
  have hcard : (1 : ℝ) ≤ (cyc σ c).card := by exact_mod_cast card_cyc_pos σ c
  have hsq : (1 : ℝ) ≤ Real.sqrt (cyc σ c).card := by rwa [Real.one_le_sqrt]
  have hδ := h.nonneg
  by_cases hj : j ∈ cyc σ c
  · have hj' : σ j ∈ cyc σ c := mem_cyc.2 ((mem_cyc.1 hj).trans ⟨1, by simp⟩)
    have a1 := f.normalize_near h.nonneg (h.delta_le.trans (by norm_num)) hj
    have a2 := f.normalize_near h.nonneg (h.delta_le.trans (by norm_num)) hj'
    set D := Real.sqrt (cyc σ c).card with hD
    have hex : h.phases k c j * u j = omega n k * h.phases k c (σ j) := by
      unfold phases
      rw [div_mul_eq_mul_div, exact_right h.mono h.pos h.pow, mul_div_assoc]
    have hsplit : normalizeRow (h.row k c) j * u j - omega n k * normalizeRow (h.row k c) (σ j) =
        (normalizeRow (h.row k c) j - h.phases k c j / (D : ℝ)) * u j -
          omega n k * (normalizeRow (h.row k c) (σ j) - h.phases k c (σ j) / (D : ℝ)) := by
      have : h.phases k c j / (D : ℝ) * u j = omega n k * (h.phases k c (σ j) / (D : ℝ)) := by
        rw [div_mul_eq_mul_div, hex, mul_div_assoc]
      rw [sub_mul, mul_sub, this]
      ring
    rw [hsplit]
    refine (norm_sub_le _ _).trans ?_
    rw [norm_mul, norm_mul, h.mono.norm, omega_norm, mul_one, one_mul]
    have hD' : 3 * δ / D ≤ 3 * δ := div_le_self (by positivity) hsq
    linarith
  · have hj' : σ j ∉ cyc σ c := fun hh => hj (mem_cyc.2 ((mem_cyc.1 hh).trans (Equiv.Perm.SameCycle.symm ⟨1, by simp⟩)))
    rw [f.normalize_off hj, f.normalize_off hj']
    simp only [zero_mul, mul_zero, sub_zero, norm_zero]
    linarith

/-- The projectors add up to the identity. -/
theorem resolution (i j : Fin d) :
    ‖(∑ k ∈ Finset.range n, ∑ c ∈ Finset.univ.filter (fun c => h.Kept k c),
      normalizeRow (h.row k c) j * (starRingEnd ℂ) (normalizeRow (h.row k c) i)) -
      if i = j then 1 else 0‖ ≤ 7 * δ := by
  have hδ := h.nonneg
  by_cases hs : σ.SameCycle i j
  swap
  · have hne : i ≠ j := fun e => hs (e ▸ Equiv.Perm.SameCycle.refl _ _)
    rw [if_neg hne, sub_zero, Finset.sum_eq_zero, norm_zero]
    · linarith
    · intro k hk
      refine Finset.sum_eq_zero fun c hc => ?_
      have hc' := (Finset.mem_filter.1 hc).2
      have f := h.flat (Finset.mem_range.1 hk) hc'.1
      by_cases hi : i ∈ cyc σ c
      · rw [f.normalize_off (j := j) (fun hj => hs ((mem_cyc.1 hi).symm.trans (mem_cyc.1 hj))), zero_mul]
      · rw [f.normalize_off hi, map_zero, mul_zero]
  -- the first state of the cycle
  obtain ⟨m, hm1, hm2⟩ : ∃ m, σ.SameCycle i m ∧ ∀ j ∈ cyc σ m, m ≤ j := by
    refine ⟨(cyc σ i).min' ⟨i, self_mem_cyc σ i⟩, mem_cyc.1 (Finset.min'_mem _ _), fun j hj => ?_⟩
    have hm := mem_cyc.1 (Finset.min'_mem (cyc σ i) ⟨i, self_mem_cyc σ i⟩)
    rw [← cyc_eq hm] at hj
    exact Finset.min'_le _ _ hj
  have hinner : ∀ k ∈ Finset.range n, ∑ c ∈ Finset.univ.filter (fun c => h.Kept k c),
      normalizeRow (h.row k c) j * (starRingEnd ℂ) (normalizeRow (h.row k c) i) =
      if exactProj U n k m m ≠ 0 then normalizeRow (h.row k m) j * (starRingEnd ℂ) (normalizeRow (h.row k m) i)
      else 0 := by
    intro k hk
    have hoff : ∀ c, h.Kept k c → c ≠ m →
        normalizeRow (h.row k c) j * (starRingEnd ℂ) (normalizeRow (h.row k c) i) = 0 := by
      intro c hc hcm
      have f := h.flat (Finset.mem_range.1 hk) hc.1
      rw [f.normalize_off (j := i), map_zero, mul_zero]
      intro hi
      have : σ.SameCycle c m := (mem_cyc.1 hi).trans hm1
      exact hcm (le_antisymm (hc.2 m (mem_cyc.2 this)) (hm2 c (mem_cyc.2 this.symm)))
    split_ifs with h0
    · have hmk : h.Kept k m := ⟨h0, hm2⟩
      rw [Finset.sum_eq_single_of_mem m (Finset.mem_filter.2 ⟨Finset.mem_univ _, hmk⟩)]
      intro c hc hcm
      exact hoff c (Finset.mem_filter.1 hc).2 hcm
    · refine Finset.sum_eq_zero fun c hc => hoff c (Finset.mem_filter.1 hc).2 ?_
      rintro rfl
      exact h0 (Finset.mem_filter.1 hc).2.1
  rw [Finset.sum_congr rfl hinner, ← Finset.sum_filter]
  have hcard : (0 : ℝ) < (cyc σ m).card := by exact_mod_cast card_cyc_pos σ m
  have hcardC : ((cyc σ m).card : ℂ) ≠ 0 := by exact_mod_cast hcard.ne'
  have hnC : (n : ℂ) ≠ 0 := by exact_mod_cast h.pos
  have hexact : ∑ k ∈ (Finset.range n).filter (fun k => exactProj U n k m m ≠ 0),
      h.phases k m j * (starRingEnd ℂ) (h.phases k m i) / (cyc σ m).card = if i = j then 1 else 0 := by
    have e : ∀ k, h.phases k m j * (starRingEnd ℂ) (h.phases k m i) / (cyc σ m).card = exactProj U n k i j / n := by
      intro k
      unfold phases
      rw [map_div₀, Complex.conj_ofReal, exact_conj h.mono h.pos h.pow]
      have hmul := exact_mul h.mono h.pos h.pow k (i := i) (j := j) (m := m) hm1
      rw [cyc_eq hm1] at hmul
      push_cast
      field_simp
      linear_combination hmul
    rw [Finset.sum_congr rfl fun k _ => e k]
    have hall : ∑ k ∈ (Finset.range n).filter (fun k => exactProj U n k m m ≠ 0), exactProj U n k i j / n =
        ∑ k ∈ Finset.range n, exactProj U n k i j / n := by
      refine Finset.sum_subset (Finset.filter_subset _ _) fun k hk hk' => ?_
      have h0 : exactProj U n k m m = 0 := by
        by_contra h0
        exact hk' (Finset.mem_filter.2 ⟨hk, h0⟩)
      have h1 : exactProj U n k i i = 0 := by
        rw [← exact_diag_const h.mono h.pos h.pow k hm1]
        exact h0
      have : exactProj U n k i j = 0 := by
        rw [← norm_eq_zero, exact_norm_right h.mono h.pos h.pow k i hs, h1, norm_zero]
      rw [this, zero_div]
    rw [hall, ← Finset.sum_div]
    have := congrFun (congrFun (exactProj_sum (U := U) h.pos) i) j
    rw [Matrix.sum_apply, Matrix.smul_apply, smul_eq_mul, Matrix.one_apply] at this
    rw [this]
    split_ifs
    · rw [mul_one, div_self hnC]
    · simp
  rw [← hexact, ← Finset.sum_sub_distrib]
  refine (norm_sum_le _ _).trans ?_
  refine (Finset.sum_le_sum (g := fun _ => 7 * δ / (cyc σ m).card) fun k hk => ?_).trans ?_
  · obtain ⟨hk1, hk2⟩ := Finset.mem_filter.1 hk
    have f := h.flat (Finset.mem_range.1 hk1) hk2
    exact f.mul_near f h.nonneg h.delta_le (mem_cyc.2 (hm1.symm.trans hs)) (mem_cyc.2 hm1.symm)
  · rw [Finset.sum_const, nsmul_eq_mul, h.count_reps m, mul_div_cancel₀ _ hcard.ne']

end ZnData

end ED
