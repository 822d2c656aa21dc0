import Verif.Lemmas.ReduceSvd

/-! # The reduction for one-dimensional representations -/

namespace ED

open scoped BigOperators Matrix
open Classical

variable {d : ℕ}

/-- A projector whose rows for related states agree up to a phase. -/
structure LineData (K : Matrix (Fin d) (Fin d) ℂ) (rel : Fin d → Fin d → ℂ) (c : ℂ) : Prop extends BlockData K rel c where
  rows : ∀ i i', rel i i' ≠ 0 → ∃ t : ℂ, ‖t‖ = 1 ∧ ∀ j, K i' j = t * K i j

namespace LineData

open BlockData

variable {K : Matrix (Fin d) (Fin d) ℂ} {rel : Fin d → Fin d → ℂ} {c : ℂ} (h : LineData K rel c)
include h

theorem flat {i j : Fin d} (hij : rel i j ≠ 0) : ‖K i j‖ = ‖K i i‖ := by
  obtain ⟨t, ht, hr⟩ := h.rows i j hij
  rw [← h.entry_conj, hr i, norm_star, norm_mul, ht, one_mul]

theorem diag {i j : Fin d} (hij : rel i j ≠ 0) : K j j = K i i := by
  obtain ⟨t, ht, hr⟩ := h.rows i j hij
  have ht' : t * star t = 1 := by
    have := Complex.mul_conj t
    rw [Complex.normSq_eq_norm_sq, ht] at this
    simpa using this
  rw [hr j, ← h.entry_conj j i, hr i, star_mul', h.entry_conj i i, ← mul_assoc, ht', one_mul]

theorem rank_one {i j : Fin d} (k : Fin d) (hij : rel i j ≠ 0) : K i j * K j k = K j j * K i k := by
  obtain ⟨t, ht, hr⟩ := h.rows i j hij
  rw [hr j, hr k]
  ring

theorem row_ne {i j : Fin d} : K i j ≠ 0 ↔ K i i ≠ 0 ∧ rel i j ≠ 0 := by
  constructor
  · intro hne
    have hr : rel i j ≠ 0 := fun h0 => hne (h.off i j h0)
    refine ⟨fun h0 => hne ?_, hr⟩
    rw [← norm_eq_zero, h.flat hr, h0, norm_zero]
  · rintro ⟨h1, h2⟩ h0
    apply h1
    rw [← norm_eq_zero, ← h.flat h2, h0, norm_zero]

theorem first_row {i x : Fin d} :
    firstNonzero (K i) = some x ↔ K i i ≠ 0 ∧ First rel x ∧ rel x i ≠ 0 := by
  rw [firstNonzero_eq, h.row_ne, ← h.first_rel, firstNonzero_eq]
  constructor
  · rintro ⟨⟨h1, h2⟩, h3⟩
    refine ⟨h1, h2, fun j hj => ?_⟩
    by_contra hne
    exact h.row_ne.2 ⟨h1, hne⟩ (h3 j hj)
  · rintro ⟨h1, h2, h3⟩
    exact ⟨⟨h1, h2⟩, fun j hj => h.off i j (h3 j hj)⟩

/-- The rows returned. -/
theorem reduced : reduceSymmProjector (List.ofFn fun i j => K i j) =
    (List.finRange d).flatMap fun x => if First rel x ∧ K x x ≠ 0 then [normalizeRow fun j => K x j] else [] := by
  unfold reduceSymmProjector
  simp only
  have hnoz : ((List.ofFn fun i j => K i j).map dropSmall).filter (fun r => decide (∃ j, r j ≠ 0)) =
      ((List.finRange d).filter fun i => decide (K i i ≠ 0)).map fun i j => K i j := by
    rw [List.ofFn_eq_map, List.map_map, List.filter_map]
    have e : ∀ i, (dropSmall ∘ fun i j => K i j) i = fun j => K i j := fun i => h.drop i
    rw [funext e]
    congr 1
    refine List.filter_congr fun i _ => ?_
    simp only [Function.comp]
    rw [decide_eq_decide]
    exact ⟨fun ⟨j, hj⟩ => (h.row_ne.1 hj).1, fun hi => ⟨i, hi⟩⟩
  rw [hnoz]
  unfold uniqueRows
  have hu : ∀ x : Fin d, (((List.finRange d).filter fun i => decide (K i i ≠ 0)).map fun i j => K i j).find?
      (fun r => decide (firstNonzero r = some x)) = if First rel x ∧ K x x ≠ 0 then some fun j => K x j else none := by
    intro x
    rw [List.find?_map, List.find?_filter]
    by_cases hc : First rel x ∧ K x x ≠ 0
    · rw [if_pos hc]
      have : (List.finRange d).find? (fun a => decide (decide (K a a ≠ 0) = true ∧
          ((fun r => decide (firstNonzero r = some x)) ∘ fun i j => K i j) a = true)) = some x := by
        refine find_finRange (p := fun a => decide (K a a ≠ 0) = true ∧
          ((fun r => decide (firstNonzero r = some x)) ∘ fun i j => K i j) a = true) (c := x) ?_ ?_
        · simp only [Function.comp, decide_eq_true_eq]
          exact ⟨hc.2, h.first_row.2 ⟨hc.2, hc.1, h.refl x⟩⟩
        · rintro i hi ⟨-, hf⟩
          simp only [Function.comp, decide_eq_true_eq] at hf
          obtain ⟨-, h2, h3⟩ := h.first_row.1 hf
          exact h3 (h2 i hi)
      rw [this]
      rfl
    · rw [if_neg hc]
      have : (List.finRange d).find? (fun a => decide (decide (K a a ≠ 0) = true ∧
          ((fun r => decide (firstNonzero r = some x)) ∘ fun i j => K i j) a = true)) = none := by
        rw [List.find?_eq_none]
        intro i _ hi
        simp only [Function.comp, decide_eq_true_eq] at hi
        obtain ⟨h1, h2, h3⟩ := h.first_row.1 hi.2
        exact hc ⟨h2, by rw [← h.diag h3]; exact h1⟩
      rw [this]
      rfl
  rw [List.filterMap_congr fun x _ => hu x]
  induction List.finRange d with
  | nil => rfl
  | cons x l ih =>
    rw [List.flatMap_cons, ← ih]
    by_cases hc : First rel x ∧ K x x ≠ 0
    · simp only [List.filterMap_cons, if_pos hc]
      rfl
    · simp only [List.filterMap_cons, if_neg hc]
      rfl

theorem row_norm (i : Fin d) : ((rnorm (fun j => K i j) ^ 2 : ℝ) : ℂ) = c * K i i := by
  rw [← rowInner_rnorm]
  unfold rowInner
  rw [← h.sq_entry i i]
  refine Finset.sum_congr rfl fun j _ => ?_
  rw [← h.entry_conj i j]
  rfl

/-- The reduction of one-dimensional representations is exact. -/
theorem reduce_approx {ε η : ℝ} (hε : 0 ≤ ε) (hη : 0 ≤ η) :
    ∃ O, Approx ε η (reduceSymmProjector (List.ofFn fun i j => K i j)) (c⁻¹ • K) O := by
  refine ⟨(List.finRange d).toFinset.biUnion (dom rel), ?_⟩
  rw [← h.part_sum, h.reduced]
  refine Approx.flatMap hη _ _ _ _ (fun x _ => ?_) ?_
  · by_cases hc : First rel x ∧ K x x ≠ 0
    · rw [if_pos hc]
      have hne : rnorm (fun j => K x j) ≠ 0 := by
        intro h0
        have := h.row_norm x
        rw [h0] at this
        simp [h.ne, hc.2] at this
      have hd : ∀ j, j ∉ dom rel x → normalizeRow (fun j => K x j) j = 0 := by
        intro j hj
        rw [normalizeRow_eq]
        simp only
        rw [h.off x j, mul_zero]
        by_contra hr
        apply hj
        unfold dom
        rw [Finset.mem_filter]
        exact ⟨Finset.mem_univ _, hc.1, hr⟩
      have hs : ∀ i j, (starRingEnd ℂ) (normalizeRow (fun j => K x j) i) * normalizeRow (fun j => K x j) j =
          part K rel c x i j := by
        intro i j
        by_cases hi : rel x i ≠ 0
        · by_cases hj : rel x j ≠ 0
          · unfold part
            rw [if_pos ⟨hc.1, hi, hj⟩, normalizeRow_eq]
            simp only [map_mul, Complex.conj_ofReal]
            have e1 : (starRingEnd ℂ) (K x i) = K i x := h.entry_conj x i
            rw [e1]
            have e2 := h.rank_one j (h.symm _ _ hi)
            have e3 := h.row_norm x
            have hne' : ((rnorm fun j => K x j : ℝ) : ℂ) ≠ 0 := by exact_mod_cast hne
            push_cast at e3 ⊢
            have hcc := h.ne
            rw [show ((rnorm fun j => K x j : ℝ) : ℂ)⁻¹ * K i x * (((rnorm fun j => K x j : ℝ) : ℂ)⁻¹ * K x j) =
              (K i x * K x j) / ((rnorm fun j => K x j : ℝ) : ℂ) ^ 2 by field_simp, e2, e3]
            have := hc.2
            field_simp
          · rw [hd j (by unfold dom; rw [Finset.mem_filter]; exact fun hm => hj hm.2.2), mul_zero]
            unfold part
            rw [if_neg fun hm => hj hm.2.2]
        · rw [hd i (by unfold dom; rw [Finset.mem_filter]; exact fun hm => hi hm.2.2), map_zero, zero_mul]
          unfold part
          rw [if_neg fun hm => hi hm.2.1]
      have hu := normalizeRow_unit hne
      refine ⟨by simpa using hu, ?_, ⟨[normalizeRow fun j => K x j], ?_, by simpa using hu, by simp, ?_, ?_⟩, ?_⟩
      · intro r hr j hj
        rw [List.mem_singleton] at hr
        rw [hr]
        exact hd j hj
      · rw [List.forall₂_same]
        intro r _
        rw [sub_self]
        unfold rnorm
        simpa using hε
      · intro r hr j hj
        rw [List.mem_singleton] at hr
        rw [hr]
        exact hd j hj
      · intro i j
        simpa using hs i j
      · intro i j
        simp only [List.map_cons, List.map_nil, List.sum_cons, List.sum_nil, add_zero]
        rw [hs, sub_self, norm_zero]
        exact hη
    · rw [if_neg hc]
      have h0 : part K rel c x = 0 := by
        ext i j
        unfold part
        rw [Matrix.zero_apply]
        split_ifs with hm
        · have hx : K x x = 0 := by
            by_contra hne
            exact hc ⟨hm.1, hne⟩
          have : K i j = 0 := by
            by_contra hne
            have := (h.row_ne.1 hne).1
            rw [h.diag hm.2.1] at this
            exact this hx
          rw [this, mul_zero]
        · rfl
      rw [h0]
      exact ⟨by simp, by simp, ⟨[], by simp, by simp, by simp, by simp, by simp⟩, fun i j => by simpa using hη⟩
  · exact List.Pairwise.imp (fun hab => h.dom_disjoint hab) (List.nodup_finRange d)

end LineData

end ED
