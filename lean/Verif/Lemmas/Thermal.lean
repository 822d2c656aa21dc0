import Verif.Model.Thermal
import Verif.Spec.Thermal
import Verif.Lemmas.Gives
import Mathlib.Algebra.Order.BigOperators.Group.Finset

/-! # Helper lemmas: thermal weights and averages -/

namespace ED

open scoped BigOperators
open Matrix

/-! ### Rounding -/

theorem rint_eq_zero_iff {K : Type*} [Field K] [LinearOrder K] [IsStrictOrderedRing K] [FloorRing K]
    (x : K) : rint x = 0 ↔ |x| ≤ 1 / 2 := by
  have h1 := Int.floor_le x
  have h2 := Int.lt_floor_add_one x
  constructor
  · intro h
    unfold rint at h
    split_ifs at h with c1 c2 c3
    · rw [h] at c1 h1; push_cast at *
      rw [abs_le]; constructor <;> linarith
    · have : ⌊x⌋ = -1 := by omega
      rw [this] at c2 h2; push_cast at *
      rw [abs_le]; constructor <;> linarith
    · rw [h] at h1 c1 c2; push_cast at *
      rw [abs_le]; constructor <;> linarith
    · have : ⌊x⌋ = -1 := by omega
      rw [this] at c1 c2 h2; push_cast at *
      rw [abs_le]; constructor <;> linarith
  · intro h
    rw [abs_le] at h
    have hf : ⌊x⌋ = 0 ∨ ⌊x⌋ = -1 := by
      have a : ((-2 : ℤ) : K) < ⌊x⌋ := by push_cast; linarith
      have b : (⌊x⌋ : K) < ((1 : ℤ) : K) := by push_cast; linarith
      rw [Int.cast_lt] at a b
      omega
    unfold rint
    rcases hf with hf | hf
    · rw [hf]; push_cast
      split_ifs with c1 c2 c3
      · rfl
      · exfalso; linarith
      · rfl
      · exact absurd (by simp) c3
    · rw [hf]; push_cast
      split_ifs with c1 c2 c3
      · exfalso; rw [hf] at h1; push_cast at h1; linarith
      · rfl
      · exact absurd c3 (by decide)
      · rfl

theorem npRound_eq_zero_iff {K : Type*} [Field K] [LinearOrder K] [IsStrictOrderedRing K]
    [FloorRing K] (d : ℕ) (x : K) : npRound d x = 0 ↔ |x| ≤ 1 / 2 * (1 / 10 ^ d) := by
  have hp : (0 : K) < 10 ^ d := by positivity
  unfold npRound
  rw [div_eq_zero_iff, or_iff_left hp.ne', Int.cast_eq_zero, rint_eq_zero_iff, abs_mul,
    abs_of_pos hp, mul_one_div, le_div_iff₀ hp]

/-! ### Expectation values -/

variable {ι : Type} [Fintype ι] [Basis ι] {M : ℕ}

theorem list_range_map {β : Type*} (n : ℕ) (f : ℕ → β) :
    (List.range n).map f = List.ofFn fun i : Fin n => f i := by
  apply List.ext_getElem <;> simp

theorem getExpVals_is {V O : Mat} {Vm : Matrix ι (Fin M) ℂ} {Om : Matrix ι ι ℂ} (hV : V.Is Vm)
    (hO : O.Is Om) :
    getExpVals V O = .ok (List.ofFn fun k => (expect Om (colOf Vm k)).re) := by
  obtain ⟨X, hX, hXi⟩ := hO.mul hV
  have hc : V.cols = M := by simpa using hV.2.1
  unfold getExpVals
  rw [hX]
  change (if X.rows = V.rows then _ else _) = _
  rw [if_pos (hXi.1.trans hV.1.symm), hc, list_range_map]
  change Except.ok _ = Except.ok _
  congr 2
  funext k
  rw [hV.1, Basis.sum_range (ι := ι)]
  congr 1
  unfold expect
  simp only [dotProduct, mulVec]
  refine Finset.sum_congr rfl fun i _ => ?_
  have e1 := hV.2.2 i k
  have e2 := hXi.2.2 i k
  change V.e _ k = _ at e1
  change X.e _ k = _ at e2
  rw [e1, e2, Matrix.mul_apply]
  rfl

theorem takeCols_is {V : Mat} {Vm : Matrix ι (Fin M) ℂ} (hV : V.Is Vm) {n : ℕ} (hn : n ≤ M) :
    (V.takeCols n).Is (Vm.submatrix id (Fin.castLE hn)) := by
  have hc : V.cols = M := by simpa using hV.2.1
  refine ⟨hV.1, by simp [Mat.takeCols, hc, hn], fun i j => ?_⟩
  exact hV.2.2 i (Fin.castLE hn j)

theorem sum_ofFn' {n : ℕ} (f : Fin n → ℝ) : (List.ofFn f).sum = ∑ i, f i := List.sum_ofFn

/-! ### Weights -/

/-- Number of levels that round to the lowest energy. -/
noncomputable def nLow {m : ℕ} (E : Fin (m + 1) → ℝ) : ℕ :=
  (Finset.univ.filter fun k => |E k - E 0| ≤ 1 / 2 * (1 / 10 ^ 13 : ℝ)).card

theorem nLow_pos {m : ℕ} (E : Fin (m + 1) → ℝ) : 0 < nLow E :=
  Finset.card_pos.2 ⟨0, by simp⟩

theorem nLow_le {m : ℕ} (E : Fin (m + 1) → ℝ) : nLow E ≤ m + 1 := by
  unfold nLow
  exact (Finset.card_le_univ _).trans (by simp)

/-- The weights the library computes. -/
noncomputable def wt {m : ℕ} (T : ℝ) (E : Fin (m + 1) → ℝ) (k : Fin (m + 1)) : ℝ :=
  if T = 0 then (if (k : ℕ) < nLow E then 1 else 0) else Real.exp (-(1 / T) * (E k - E 0))

theorem filter_ofFn_length {α : Type*} {n : ℕ} (f : Fin n → α) (p : α → Prop) [DecidablePred p] :
    ((List.ofFn f).filter (p ·)).length = (Finset.univ.filter fun i => p (f i)).card := by
  induction n with
  | zero => simp
  | succ n ih =>
    rw [List.ofFn_succ, List.filter_cons, Fin.card_filter_univ_succ]
    by_cases h : p (f 0)
    · simp [h, ih]
    · simp [h, ih]

theorem replicate_ofFn (n M : ℕ) (h : n ≤ M) :
    List.replicate n (1 : ℝ) ++ List.replicate (M - n) 0 =
      List.ofFn fun k : Fin M => if (k : ℕ) < n then (1 : ℝ) else 0 := by
  apply List.ext_getElem
  · simp [h]
  · intro i h1 h2
    by_cases hi : i < n
    · simp [List.getElem_append, hi]
    · simp [List.getElem_append, hi]

theorem thermalWeights_noffset {m : ℕ} (E : Fin m → ℝ) (T : ℝ) (hT : T ≠ 0) :
    thermalWeights (List.ofFn E) T false =
      .ok (List.ofFn fun k => Real.exp (-(1 / T) * E k), ∑ k, Real.exp (-(1 / T) * E k)) := by
  unfold thermalWeights
  simp only [Bool.false_eq_true, if_false]
  change (if T ≠ 0 then _ else _) = _
  rw [if_pos hT]
  simp only [List.map_ofFn]
  change Except.ok _ = _
  rw [sum_ofFn']
  rfl

theorem thermalWeights_noffset_zero {m : ℕ} (E : Fin m → ℝ) :
    thermalWeights (List.ofFn E) 0 false =
      .ok (List.ofFn fun k : Fin m => if (k : ℕ) <
          (Finset.univ.filter fun k => |E k| ≤ 1 / 2 * (1 / 10 ^ 13 : ℝ)).card then (1 : ℝ) else 0,
        ((Finset.univ.filter fun k => |E k| ≤ 1 / 2 * (1 / 10 ^ 13 : ℝ)).card : ℝ)) := by
  unfold thermalWeights
  simp only [Bool.false_eq_true, if_false]
  change (if (0 : ℝ) ≠ 0 then _ else _) = _
  rw [if_neg (by simp)]
  have e : ((List.ofFn E).filter (npRound 13 · = 0)).length =
      (Finset.univ.filter fun k => |E k| ≤ 1 / 2 * (1 / 10 ^ 13 : ℝ)).card := by
    rw [filter_ofFn_length]
    simp only [npRound_eq_zero_iff]
  simp only [e, List.length_ofFn]
  rw [replicate_ofFn _ _ ((Finset.card_le_univ _).trans (by simp))]
  rfl

theorem thermalWeights_off {m : ℕ} (E : Fin (m + 1) → ℝ) (T : ℝ) :
    thermalWeights (List.ofFn E) T true = thermalWeights (List.ofFn fun k => E k - E 0) T false := by
  unfold thermalWeights
  simp only [Bool.false_eq_true, if_false, if_true]
  rw [List.ofFn_succ]
  simp only [List.map_cons, List.map_ofFn]
  rw [List.ofFn_succ (f := fun k => E k - E 0)]
  rfl

theorem thermalWeights_is {m : ℕ} (E : Fin (m + 1) → ℝ) (T : ℝ) :
    thermalWeights (List.ofFn E) T true = .ok (List.ofFn (wt T E), ∑ k, wt T E k) := by
  rw [thermalWeights_off]
  by_cases hT : T = 0
  · subst hT
    rw [thermalWeights_noffset_zero]
    have h1 : ∀ k, wt 0 E k = if (k : ℕ) < nLow E then 1 else 0 := fun k => by simp [wt]
    change Except.ok (List.ofFn fun k : Fin (m + 1) => if (k : ℕ) < nLow E then (1 : ℝ) else 0,
      (nLow E : ℝ)) = _
    have h2 : ∑ k, wt 0 E k = (nLow E : ℝ) := by
      simp only [h1, Finset.sum_boole, Fin.card_filter_val_lt]
      rw [min_eq_right (nLow_le E)]
    rw [h2, funext h1]
  · rw [thermalWeights_noffset _ _ hT]
    simp [wt, hT]

theorem wt_nonneg {m : ℕ} (T : ℝ) (E : Fin (m + 1) → ℝ) (k : Fin (m + 1)) : 0 ≤ wt T E k := by
  unfold wt; split_ifs <;> positivity

theorem wt_zero_pos {m : ℕ} (T : ℝ) (E : Fin (m + 1) → ℝ) : 0 < wt T E 0 := by
  unfold wt
  have := nLow_pos E
  split_ifs with h h'
  · positivity
  · simp at h'; omega
  · positivity

theorem wt_sum_pos {m : ℕ} (T : ℝ) (E : Fin (m + 1) → ℝ) : 0 < ∑ k, wt T E k :=
  Finset.sum_pos' (fun k _ => wt_nonneg T E k) ⟨0, Finset.mem_univ _, wt_zero_pos T E⟩

theorem sum_castLE {n M : ℕ} (h : n ≤ M) (f : Fin M → ℝ) :
    ∑ k : Fin n, f (Fin.castLE h k) = ∑ k : Fin M, (if (k : ℕ) < n then 1 else 0) * f k := by
  simp only [ite_mul, one_mul, zero_mul]
  rw [← Finset.sum_filter]
  refine Finset.sum_bij (fun k _ => Fin.castLE h k) ?_ ?_ ?_ ?_
  · intro k _; simp
  · intro a _ b _ hab; exact Fin.castLE_injective h hab
  · intro b hb
    exact ⟨⟨b, by simpa using hb⟩, Finset.mem_univ _, by ext; simp⟩
  · intro k _; rfl

theorem zipWith_ofFn {α β γ : Type*} {n : ℕ} (g : α → β → γ) (f : Fin n → α) (h : Fin n → β) :
    List.zipWith g (List.ofFn f) (List.ofFn h) = List.ofFn fun k => g (f k) (h k) := by
  apply List.ext_getElem
  · simp
  · intro i h1 h2
    simp only [List.getElem_zipWith, List.getElem_ofFn]

/-- The thermal average as the library computes it, for every list of energies. -/
theorem expValsThermal_is {m : ℕ} {V O : Mat} {Vm : Matrix ι (Fin (m + 1)) ℂ} {Om : Matrix ι ι ℂ}
    (hV : V.Is Vm) (hO : O.Is Om) (E : Fin (m + 1) → ℝ) (T : ℝ) :
    expValsThermal V O (List.ofFn E) T =
      .ok ((∑ k, wt T E k * (expect Om (colOf Vm k)).re) / ∑ k, wt T E k) := by
  unfold expValsThermal
  rw [thermalWeights_is]
  change (if T ≠ 0 then _ else _) = _
  by_cases hT : T = 0
  · rw [if_neg (by simp [hT])]
    have hn : ((List.ofFn (wt T E)).filter (fun x => decide (x ≠ 0))).length = nLow E := by
      rw [filter_ofFn_length (p := fun x : ℝ => x ≠ 0)]
      have : (fun i => wt T E i ≠ 0) = fun i : Fin (m + 1) => (i : ℕ) < nLow E := by
        funext i; simp [wt, hT]
      simp only [this, Fin.card_filter_val_lt]
      exact min_eq_right (nLow_le E)
    change (getExpVals (V.takeCols ((List.ofFn (wt T E)).filter _).length) O >>= _) = _
    rw [hn, getExpVals_is (takeCols_is hV (nLow_le E)) hO]
    change Except.ok _ = _
    congr 2
    rw [sum_ofFn']
    have := sum_castLE (nLow_le E) (fun k => (expect Om (colOf Vm k)).re)
    simp only [wt, hT, if_true]
    exact this
  · rw [if_pos hT, getExpVals_is hV hO]
    change (npMul1 _ (List.ofFn (wt T E)) >>= _) = _
    have : npMul1 (List.ofFn fun k => (expect Om (colOf Vm k)).re) (List.ofFn (wt T E)) =
        .ok (List.ofFn fun k => (expect Om (colOf Vm k)).re * wt T E k) := by
      unfold npMul1
      rw [if_pos (by simp)]
      change Except.ok _ = _
      congr 1
      exact zipWith_ofFn _ _ _
    rw [this]
    change Except.ok _ = _
    congr 2
    rw [sum_ofFn']
    exact Finset.sum_congr rfl fun k _ => mul_comm _ _

/-! ### Comparison with the canonical ensemble -/

theorem mono_low {m : ℕ} {E : Fin (m + 1) → ℝ} (hm : Monotone E) (k : Fin (m + 1)) :
    (k : ℕ) < nLow E ↔ |E k - E 0| ≤ 1 / 2 * (1 / 10 ^ 13 : ℝ) := by
  set S := Finset.univ.filter fun k => |E k - E 0| ≤ 1 / 2 * (1 / 10 ^ 13 : ℝ) with hS
  have habs : ∀ k, |E k - E 0| = E k - E 0 := fun k => abs_of_nonneg (sub_nonneg.2 (hm (Fin.zero_le k)))
  have hdown : ∀ i j, i ≤ j → j ∈ S → i ∈ S := by
    intro i j hij hj
    simp only [hS, Finset.mem_filter, Finset.mem_univ, true_and, habs] at hj ⊢
    linarith [hm hij]
  have hmem : ∀ k, k ∈ S ↔ |E k - E 0| ≤ 1 / 2 * (1 / 10 ^ 13 : ℝ) := fun k => by simp [hS]
  rw [← hmem]
  change (k : ℕ) < S.card ↔ _
  constructor
  · intro h
    by_contra hk
    have : S ⊆ Finset.Iio k := by
      intro j hj
      rw [Finset.mem_Iio]
      by_contra hjk
      exact hk (hdown k j (not_lt.1 hjk) hj)
    have := Finset.card_le_card this
    simp at this
    omega
  · intro h
    have : Finset.Iic k ⊆ S := fun j hj => hdown j k (Finset.mem_Iic.1 hj) h
    have := Finset.card_le_card this
    simp at this
    omega

theorem wt_zero_eq {m : ℕ} {E : Fin (m + 1) → ℝ} (hm : Monotone E) (hg : Gapped E)
    (k : Fin (m + 1)) : wt 0 E k = boltz 0 E k := by
  unfold wt boltz
  rw [if_pos rfl, if_pos rfl]
  have hiff : (k : ℕ) < nLow E ↔ ∀ l, E k ≤ E l := by
    refine (mono_low hm k).trans ⟨?_, ?_⟩
    · intro h l
      rcases hg k 0 with h' | h'
      · rw [h']; exact hm (Fin.zero_le l)
      · linarith
    · intro h
      have : E k = E 0 := le_antisymm (h 0) (hm (Fin.zero_le k))
      rw [this]; simp
  by_cases h : (k : ℕ) < nLow E
  · rw [if_pos h, if_pos (hiff.1 h)]
  · rw [if_neg h, if_neg (fun h' => h (hiff.2 h'))]

theorem wt_ne_eq {m : ℕ} {T : ℝ} (hT : T ≠ 0) (E : Fin (m + 1) → ℝ) (k : Fin (m + 1)) :
    wt T E k = Real.exp (E 0 / T) * boltz T E k := by
  unfold wt boltz
  rw [if_neg hT, if_neg hT, ← Real.exp_add]
  congr 1
  field_simp
  ring

theorem canonical_wt {m : ℕ} (T : ℝ) {E : Fin (m + 1) → ℝ} (h : T ≠ 0 ∨ (Monotone E ∧ Gapped E))
    (v : Fin (m + 1) → ℝ) : (∑ k, wt T E k * v k) / ∑ k, wt T E k = canonical T E v := by
  unfold canonical
  by_cases hT : T = 0
  · subst hT
    obtain ⟨h1, h2⟩ := h.resolve_left (by simp)
    simp only [wt_zero_eq h1 h2]
  · simp only [wt_ne_eq hT, mul_assoc, ← Finset.mul_sum]
    rw [mul_div_mul_left _ _ (Real.exp_pos _).ne']

end ED
