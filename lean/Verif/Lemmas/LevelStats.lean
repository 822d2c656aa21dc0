import Verif.Model.LevelStats
import Mathlib.Data.List.Sort
import Mathlib.Data.List.GetD
import Mathlib.Tactic.Positivity
import Mathlib.Tactic.FieldSimp
import Mathlib.Tactic.Linarith

/-! # Lemmas: quotients of level spacings -/

namespace ED

/-- The smaller of two neighbouring spacings divided by the larger one, zero if both vanish. -/
noncomputable def spacingRatio (a b c : ℝ) : ℝ := min (b - a) (c - b) / max (b - a) (c - b)

theorem spacingRatio_mem {a b c : ℝ} (h1 : a ≤ b) (h2 : b ≤ c) : 0 ≤ spacingRatio a b c ∧ spacingRatio a b c ≤ 1 := by
  have h3 : 0 ≤ min (b - a) (c - b) := le_min (by linarith) (by linarith)
  have h4 : min (b - a) (c - b) ≤ max (b - a) (c - b) := min_le_max
  exact ⟨div_nonneg h3 (h3.trans h4), div_le_one_of_le₀ h4 (h3.trans h4)⟩

theorem ratio_num {x y : ℝ} (hx : 0 ≤ x) (hy : 0 ≤ y) :
    (Num.min (Num.div (.fin y) (.fin x)) (Num.div (.fin 1) (Num.div (.fin y) (.fin x)))).nanToZero = .fin (min x y / max x y) := by
  rcases hx.eq_or_lt with rfl | hx
  · rcases hy.eq_or_lt with rfl | hy
    · simp [Num.div, Num.nanToZero, Num.min]
    · simp [Num.div, Num.nanToZero, Num.min, hy.ne', hy, hy.le]
  · rcases hy.eq_or_lt with rfl | hy
    · simp [Num.div, Num.nanToZero, Num.min, hx.ne', hx.le]
    · have h1 : y / x ≠ 0 := (div_pos hy hx).ne'
      simp only [Num.div, hx.ne', if_false, h1, Num.min, Num.nanToZero, Num.fin.injEq]
      rcases le_total x y with h | h
      · rw [min_eq_left h, max_eq_right h, one_div_div, min_eq_right]
        rw [div_le_div_iff₀ hy hx]
        exact mul_le_mul h h hx.le hy.le
      · rw [min_eq_right h, max_eq_left h, one_div_div, min_eq_left]
        rw [div_le_div_iff₀ hx hy]
        exact mul_le_mul h h hy.le hx.le

theorem levelRatios_eq {w : List ℝ} (hw : w.Pairwise (· ≤ ·)) :
    levelRatios w = (List.range (w.length - 2)).map fun k => .fin (spacingRatio (w.getD k 0) (w.getD (k + 1) 0) (w.getD (k + 2) 0)) := by
  refine List.ext_getElem ?_ fun k h1 h2 => ?_
  · simp only [levelRatios, List.length_map, List.length_zipWith, List.length_tail, List.length_range]
    omega
  · rw [List.length_map, List.length_range] at h2
    have k0 : k < w.length := by omega
    have k1 : k + 1 < w.length := by omega
    have k2 : k + 2 < w.length := by omega
    have s1 : w[k] ≤ w[k + 1] := List.pairwise_iff_getElem.1 hw k (k + 1) k0 k1 (by omega)
    have s2 : w[k + 1] ≤ w[k + 2] := List.pairwise_iff_getElem.1 hw (k + 1) (k + 2) k1 k2 (by omega)
    simp only [levelRatios, List.getElem_map, List.getElem_zipWith, List.getElem_tail, List.getElem_range]
    rw [ratio_num (sub_nonneg.2 s1) (sub_nonneg.2 s2), List.getD_eq_getElem _ _ k0, List.getD_eq_getElem _ _ k1, List.getD_eq_getElem _ _ k2]
    rfl

theorem allFin_map (l : List ℝ) : Num.allFin (l.map Num.fin) = some l := by
  induction l with
  | nil => rfl
  | cons x l ih => rw [List.map_cons, Num.allFin, ih]; rfl

theorem foldl_add_fin (l : List ℝ) (a : ℝ) : (l.map Num.fin).foldl Num.add (.fin a) = .fin (a + l.sum) := by
  induction l generalizing a with
  | nil => simp
  | cons x l ih => rw [List.map_cons, List.foldl_cons, Num.add, ih, List.sum_cons, add_assoc]

theorem ratioMean_map {l : List ℝ} (hl : l ≠ []) : ratioMean (l.map Num.fin) = .fin (l.sum / l.length) := by
  have : (l.length : ℝ) ≠ 0 := by exact_mod_cast (List.length_pos_iff.2 hl).ne'
  rw [ratioMean, foldl_add_fin, zero_add, List.length_map, Num.div, if_neg this]

theorem foldl_min_spec (x : ℝ) (xs : List ℝ) : xs.foldl min x ∈ x :: xs ∧ ∀ y ∈ x :: xs, xs.foldl min x ≤ y := by
  induction xs generalizing x with
  | nil => simp
  | cons z xs ih =>
    rw [List.foldl_cons]
    obtain ⟨h1, h2⟩ := ih (min x z)
    constructor
    · rcases List.mem_cons.1 h1 with h | h
      · rw [h]
        rcases min_choice x z with h | h <;> rw [h] <;> simp
      · simp [h]
    · intro y hy
      have h3 := h2 _ (List.mem_cons_self ..)
      rcases List.mem_cons.1 hy with rfl | hy
      · exact h3.trans (min_le_left _ _)
      · rcases List.mem_cons.1 hy with rfl | hy
        · exact h3.trans (min_le_right _ _)
        · exact h2 y (List.mem_cons_of_mem _ hy)

theorem foldl_max_spec (x : ℝ) (xs : List ℝ) : xs.foldl max x ∈ x :: xs ∧ ∀ y ∈ x :: xs, y ≤ xs.foldl max x := by
  induction xs generalizing x with
  | nil => simp
  | cons z xs ih =>
    rw [List.foldl_cons]
    obtain ⟨h1, h2⟩ := ih (max x z)
    constructor
    · rcases List.mem_cons.1 h1 with h | h
      · rw [h]
        rcases max_choice x z with h | h <;> rw [h] <;> simp
      · simp [h]
    · intro y hy
      have h3 := h2 _ (List.mem_cons_self ..)
      rcases List.mem_cons.1 hy with rfl | hy
      · exact (le_max_left _ _).trans h3
      · rcases List.mem_cons.1 hy with rfl | hy
        · exact (le_max_right _ _).trans h3
        · exact h2 y (List.mem_cons_of_mem _ hy)

theorem histEdges_perm (bins : ℕ) {x y : ℝ} {xs ys : List ℝ} (h : (x :: xs).Perm (y :: ys)) : histEdges bins x xs = histEdges bins y ys := by
  have h1 : xs.foldl min x = ys.foldl min y :=
    le_antisymm ((foldl_min_spec x xs).2 _ (h.mem_iff.2 (foldl_min_spec y ys).1)) ((foldl_min_spec y ys).2 _ (h.mem_iff.1 (foldl_min_spec x xs).1))
  have h2 : xs.foldl max x = ys.foldl max y :=
    le_antisymm ((foldl_max_spec y ys).2 _ (h.mem_iff.1 (foldl_max_spec x xs).1)) ((foldl_max_spec x xs).2 _ (h.mem_iff.2 (foldl_max_spec y ys).1))
  unfold histEdges
  rw [h1, h2]

theorem ratioHist_perm {l l' : List ℝ} (h : l.Perm l') : ratioHist (l.map Num.fin) = ratioHist (l'.map Num.fin) := by
  unfold ratioHist
  rw [allFin_map, allFin_map]
  cases l with
  | nil => rw [h.nil_eq]
  | cons x xs =>
    cases l' with
    | nil => exact absurd h.eq_nil (by simp)
    | cons y ys =>
      simp only [histEdges_perm 30 h, h.length_eq]
      congr 2
      refine List.map_congr_left fun i _ => ?_
      rw [(h.filter _).length_eq]

theorem histEdges_form (bins : ℕ) (x : ℝ) (xs : List ℝ) : ∃ lo hi : ℝ, lo < hi ∧ (∀ y ∈ x :: xs, lo ≤ y ∧ y ≤ hi) ∧
    ((lo ∈ x :: xs ∧ hi ∈ x :: xs) ∨ (hi - lo = 1 ∧ ∀ y ∈ x :: xs, y = (lo + hi) / 2)) ∧
    histEdges bins x xs = (List.range (bins + 1)).map fun i : ℕ => lo + (hi - lo) * i / bins := by
  have h1 := (foldl_min_spec x xs).2
  have h2 := (foldl_max_spec x xs).2
  by_cases h : xs.foldl min x = xs.foldl max x
  · refine ⟨xs.foldl min x - 1 / 2, xs.foldl max x + 1 / 2, by linarith, fun y hy => ⟨?_, ?_⟩, Or.inr ⟨by linarith, fun y hy => ?_⟩, ?_⟩
    · have := h1 y hy; linarith
    · have := h2 y hy; linarith
    · have := h1 y hy; have := h2 y hy; linarith
    · unfold histEdges
      simp only [if_pos h]
  · refine ⟨xs.foldl min x, xs.foldl max x, lt_of_le_of_ne ?_ h, fun y hy => ⟨h1 y hy, h2 y hy⟩, Or.inl ⟨(foldl_min_spec x xs).1, (foldl_max_spec x xs).1⟩, ?_⟩
    · exact (h1 x (List.mem_cons_self ..)).trans (h2 x (List.mem_cons_self ..))
    · unfold histEdges
      simp only [if_neg h]

theorem histEdges_spec {bins : ℕ} (hb : 0 < bins) (x : ℝ) (xs : List ℝ) : (histEdges bins x xs).length = bins + 1 ∧ (histEdges bins x xs).Pairwise (· < ·) ∧
    ∀ y ∈ x :: xs, (histEdges bins x xs).getD 0 0 ≤ y ∧ y ≤ (histEdges bins x xs).getD bins 0 := by
  obtain ⟨lo, hi, h1, h2, -, h3⟩ := histEdges_form bins x xs
  have hb' : (0 : ℝ) < bins := by exact_mod_cast hb
  rw [h3]
  refine ⟨by simp, ?_, fun y hy => ?_⟩
  · refine (List.pairwise_map).2 (List.pairwise_lt_range.imp fun {i j} hij => ?_)
    have hij' : (i : ℝ) < j := by exact_mod_cast hij
    have : (hi - lo) * i / bins < (hi - lo) * j / bins := by
      apply div_lt_div_of_pos_right _ hb'
      exact mul_lt_mul_of_pos_left hij' (by linarith)
    linarith
  · have e1 : ((List.range (bins + 1)).map fun i : ℕ => lo + (hi - lo) * i / bins).getD 0 0 = lo := by
      rw [List.getD_eq_getElem _ _ (by simp), List.getElem_map, List.getElem_range]
      simp
    have e2 : ((List.range (bins + 1)).map fun i : ℕ => lo + (hi - lo) * i / bins).getD bins 0 = hi := by
      rw [List.getD_eq_getElem _ _ (by simp), List.getElem_map, List.getElem_range]
      field_simp
      ring
    rw [e1, e2]
    exact h2 y hy

/-! ## Other units and another zero of energy -/

theorem spacingRatio_scale {c e x y z : ℝ} (hc : 0 < c) : spacingRatio (c * x + e) (c * y + e) (c * z + e) = spacingRatio x y z := by
  unfold spacingRatio
  rw [show c * y + e - (c * x + e) = c * (y - x) by ring, show c * z + e - (c * y + e) = c * (z - y) by ring,
    ← mul_min_of_nonneg _ _ hc.le, ← mul_max_of_nonneg _ _ hc.le, mul_div_mul_left _ _ hc.ne']

theorem spacingRatio_neg (x y z : ℝ) : spacingRatio (-z) (-y) (-x) = spacingRatio x y z := by
  unfold spacingRatio
  rw [show -y - -z = z - y by ring, show -x - -y = y - x by ring, min_comm, max_comm]

theorem levelRatios_scale {w : List ℝ} (hw : w.Pairwise (· ≤ ·)) {c : ℝ} (hc : 0 < c) (e : ℝ) : levelRatios (w.map fun x => c * x + e) = levelRatios w := by
  have hw' : (w.map fun x => c * x + e).Pairwise (· ≤ ·) := List.pairwise_map.2 (hw.imp fun h => by nlinarith)
  rw [levelRatios_eq hw, levelRatios_eq hw', List.length_map]
  refine List.map_congr_left fun k hk => ?_
  have hk' := List.mem_range.1 hk
  have g : ∀ j < w.length, (w.map fun x => c * x + e).getD j 0 = c * w.getD j 0 + e := fun j hj => by
    rw [List.getD_eq_getElem _ _ (by simpa using hj), List.getElem_map, List.getD_eq_getElem _ _ hj]
  rw [g _ (by omega), g _ (by omega), g _ (by omega), spacingRatio_scale hc]

theorem levelRatios_neg {w : List ℝ} (hw : w.Pairwise (· ≤ ·)) : levelRatios (w.map fun x => -x).reverse = (levelRatios w).reverse := by
  have hw' : (w.map fun x => -x).reverse.Pairwise (· ≤ ·) :=
    List.pairwise_reverse.2 (List.pairwise_map.2 (hw.imp fun h => neg_le_neg h))
  rw [levelRatios_eq hw, levelRatios_eq hw', List.length_reverse, List.length_map]
  have g : ∀ j < w.length, (w.map fun x => -x).reverse.getD j 0 = -w.getD (w.length - 1 - j) 0 := fun j hj => by
    rw [List.getD_eq_getElem _ _ (by simpa using hj), List.getElem_reverse, List.getElem_map, List.getD_eq_getElem _ _ (by omega)]
    simp
  refine List.ext_getElem (by simp) fun k h1 h2 => ?_
  rw [List.length_map, List.length_range] at h1
  rw [List.getElem_reverse, List.getElem_map, List.getElem_map, List.getElem_range, List.getElem_range, g _ (by omega), g _ (by omega), g _ (by omega),
    spacingRatio_neg, List.length_map, List.length_range]
  congr 3 <;> omega

end ED
