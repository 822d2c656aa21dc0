import Verif.Lemmas.Thermal
import Mathlib.Algebra.BigOperators.Field
import Mathlib.Data.Matrix.Block
import Mathlib.Data.Fintype.Sigma

/-! # Helper lemmas: combining sectors -/

namespace ED

open scoped BigOperators
open Matrix

theorem mapM_ofFn {α β : Type} {n : ℕ} (f : Fin n → α) (g : α → Res β) (h : Fin n → β)
    (hg : ∀ i, g (f i) = .ok (h i)) : (List.ofFn f).mapM g = .ok (List.ofFn h) := by
  induction n with
  | zero => simp; rfl
  | succ n ih =>
    rw [List.ofFn_succ, List.ofFn_succ, List.mapM_cons, hg, ih _ _ (fun i => hg i.succ)]
    rfl

theorem npMin_ofFn {m : ℕ} (f : Fin (m + 1) → ℝ) :
    ∃ k, npMin (List.ofFn f) = .ok (f k) ∧ ∀ l, f k ≤ f l := by
  obtain ⟨k, _, hk⟩ := Finset.exists_min_image Finset.univ f ⟨0, Finset.mem_univ _⟩
  refine ⟨k, ?_, fun l => hk l (Finset.mem_univ _)⟩
  unfold npMin
  have : (List.ofFn f).min? = some (f k) := by
    rw [List.min?_eq_some_iff]
    refine ⟨List.mem_ofFn.2 ⟨k, rfl⟩, fun b hb => ?_⟩
    obtain ⟨l, rfl⟩ := List.mem_ofFn.1 hb
    exact hk l (Finset.mem_univ _)
  rw [this]

variable {r : ℕ} {m : Fin (r + 1) → ℕ}

/-- Weight of a level of sector `i` relative to the lowest energy of all sectors. -/
noncomputable def wtS (T e : ℝ) (x : ℝ) : ℝ :=
  if T = 0 then (if |x - e| ≤ 1 / 2 * (1 / 10 ^ 13 : ℝ) then 1 else 0)
  else Real.exp (-(1 / T) * (x - e))

theorem partition_is (E : ∀ i, Fin (m i + 1) → ℝ) (T : ℝ) :
    ∃ i₀ k₀, (∀ i k, E i₀ k₀ ≤ E i k) ∧
      partitionFnSectors (List.ofFn fun i => List.ofFn (E i)) T =
        .ok (List.ofFn fun i => ∑ k, wtS T (E i₀ k₀) (E i k)) := by
  choose km h1 h2 using fun i => npMin_ofFn (E i)
  obtain ⟨i₀, h3, h4⟩ := npMin_ofFn fun i => E i (km i)
  refine ⟨i₀, km i₀, fun i k => (h4 i).trans (h2 i k), ?_⟩
  unfold partitionFnSectors
  rw [mapM_ofFn _ _ (fun i => E i (km i)) h1]
  change (npMin (List.ofFn fun i => E i (km i)) >>= _) = _
  rw [h3]
  change List.mapM _ _ = _
  refine mapM_ofFn _ _ _ fun i => ?_
  rw [List.map_ofFn]
  by_cases hT : T = 0
  · subst hT
    rw [thermalWeights_noffset_zero]
    change Except.ok _ = Except.ok _
    simp only [wtS, if_true, Finset.sum_boole]
    rfl
  · rw [thermalWeights_noffset _ _ hT]
    change Except.ok _ = Except.ok _
    simp only [wtS, hT, if_false]
    rfl

theorem wtS_boltz {E : ∀ i, Fin (m i + 1) → ℝ} {T : ℝ}
    (hg : T ≠ 0 ∨ Gapped fun p : Σ i, Fin (m i + 1) => E p.1 p.2) {i₀ : Fin (r + 1)}
    {k₀ : Fin (m i₀ + 1)} (h0 : ∀ i k, E i₀ k₀ ≤ E i k) (p : Σ i, Fin (m i + 1)) :
    wtS T (E i₀ k₀) (E p.1 p.2) = (if T = 0 then 1 else Real.exp (E i₀ k₀ / T)) *
      boltz T (fun p : Σ i, Fin (m i + 1) => E p.1 p.2) p := by
  unfold wtS boltz
  by_cases hT : T = 0
  · have hg' := hg.resolve_left (by simp [hT])
    simp only [hT, if_true, one_mul]
    have : |E p.1 p.2 - E i₀ k₀| ≤ 1 / 2 * (1 / 10 ^ 13 : ℝ) ↔
        ∀ l : Σ i, Fin (m i + 1), E p.1 p.2 ≤ E l.1 l.2 := by
      constructor
      · intro h l
        rcases hg' p ⟨i₀, k₀⟩ with h' | h'
        · change E p.1 p.2 = E i₀ k₀ at h'
          rw [h']; exact h0 _ _
        · change _ < |E p.1 p.2 - E i₀ k₀| at h'
          linarith
      · intro h
        have : E p.1 p.2 = E i₀ k₀ := le_antisymm (h ⟨i₀, k₀⟩) (h0 _ _)
        rw [this]; simp
    by_cases hc : |E p.1 p.2 - E i₀ k₀| ≤ 1 / 2 * (1 / 10 ^ 13 : ℝ)
    · rw [if_pos hc, if_pos (this.1 hc)]
    · rw [if_neg hc, if_neg fun h => hc (this.2 h)]
  · simp only [hT, if_false]
    rw [← Real.exp_add]
    congr 1
    field_simp
    ring

theorem boltz_nonneg {κ : Type*} (T : ℝ) (E : κ → ℝ) (k : κ) : 0 ≤ boltz T E k := by
  unfold boltz; split_ifs <;> positivity

theorem boltz_sum_pos {κ : Type*} [Fintype κ] [Nonempty κ] (T : ℝ) (E : κ → ℝ) :
    0 < ∑ k, boltz T E k := by
  obtain ⟨k, _, hk⟩ := Finset.exists_min_image Finset.univ E ⟨Classical.arbitrary κ, Finset.mem_univ _⟩
  refine Finset.sum_pos' (fun k _ => boltz_nonneg T E k) ⟨k, Finset.mem_univ _, ?_⟩
  unfold boltz
  split_ifs with h1 h2
  · exact one_pos
  · exact absurd (fun l => hk l (Finset.mem_univ _)) h2
  · positivity

theorem sector_mul (E : ∀ i, Fin (m i + 1) → ℝ) (T : ℝ) (v : ∀ i, Fin (m i + 1) → ℝ)
    (i : Fin (r + 1)) :
    canonical T (E i) (v i) *
        ∑ k, boltz T (fun p : Σ i, Fin (m i + 1) => E p.1 p.2) ⟨i, k⟩ =
      ∑ k, boltz T (fun p : Σ i, Fin (m i + 1) => E p.1 p.2) ⟨i, k⟩ * v i k := by
  classical
  by_cases hT : T = 0
  · subst hT
    by_cases hmin : ∃ k, ∀ l : Σ i, Fin (m i + 1), E i k ≤ E l.1 l.2
    · obtain ⟨k₀, hk₀⟩ := hmin
      have : ∀ k, boltz 0 (fun p : Σ i, Fin (m i + 1) => E p.1 p.2) ⟨i, k⟩ = boltz 0 (E i) k := by
        intro k
        unfold boltz
        simp only [if_true]
        have : (∀ l : Σ i, Fin (m i + 1), E i k ≤ E l.1 l.2) ↔ ∀ l, E i k ≤ E i l :=
          ⟨fun h l => h ⟨i, l⟩, fun h l => (h k₀).trans (hk₀ l)⟩
        by_cases hc : ∀ l, E i k ≤ E i l
        · rw [if_pos hc, if_pos (this.2 hc)]
        · rw [if_neg hc, if_neg fun h => hc (this.1 h)]
      simp only [this]
      unfold canonical
      rw [div_mul_cancel₀ _ (boltz_sum_pos 0 (E i)).ne']
    · have : ∀ k, boltz 0 (fun p : Σ i, Fin (m i + 1) => E p.1 p.2) ⟨i, k⟩ = 0 := by
        intro k
        unfold boltz
        rw [if_pos rfl, if_neg fun h => hmin ⟨k, h⟩]
      simp [this]
  · have : ∀ k, boltz T (fun p : Σ i, Fin (m i + 1) => E p.1 p.2) ⟨i, k⟩ = boltz T (E i) k := by
      intro k; simp [boltz, hT]
    simp only [this]
    unfold canonical
    rw [div_mul_cancel₀ _ (boltz_sum_pos T (E i)).ne']

theorem combine_is (E : ∀ i, Fin (m i + 1) → ℝ) (T : ℝ) (v : ∀ i, Fin (m i + 1) → ℝ)
    (hg : T ≠ 0 ∨ Gapped fun p : Σ i, Fin (m i + 1) => E p.1 p.2) :
    thermalAvgCombine (List.ofFn fun i => canonical T (E i) (v i))
        (List.ofFn fun i => List.ofFn (E i)) T =
      .ok (canonical T (fun p : Σ i, Fin (m i + 1) => E p.1 p.2) fun p => v p.1 p.2) := by
  obtain ⟨i₀, k₀, h0, hz⟩ := partition_is E T
  unfold thermalAvgCombine
  rw [hz]
  change (npMul1 _ _ >>= _) = _
  unfold npMul1
  rw [if_pos (by simp), zipWith_ofFn]
  change Except.ok _ = Except.ok _
  congr 1
  rw [sum_ofFn', sum_ofFn']
  have hc : (0 : ℝ) < if T = 0 then 1 else Real.exp (E i₀ k₀ / T) := by split_ifs <;> positivity
  have hw : ∀ i k, wtS T (E i₀ k₀) (E i k) = (if T = 0 then 1 else Real.exp (E i₀ k₀ / T)) *
      boltz T (fun p : Σ i, Fin (m i + 1) => E p.1 p.2) ⟨i, k⟩ :=
    fun i k => wtS_boltz hg h0 ⟨i, k⟩
  simp only [hw, ← Finset.mul_sum]
  simp only [mul_left_comm _ (if T = 0 then (1 : ℝ) else _), ← Finset.mul_sum]
  rw [mul_div_mul_left _ _ hc.ne']
  unfold canonical
  rw [Fintype.sum_sigma, Fintype.sum_sigma]
  congr 1
  exact Finset.sum_congr rfl fun i _ => sector_mul E T v i

theorem canonical_equiv {κ κ' : Type*} [Fintype κ] [Fintype κ'] (e : κ ≃ κ') (T : ℝ)
    (E v : κ' → ℝ) : canonical T (E ∘ e) (v ∘ e) = canonical T E v := by
  have hb : ∀ k, boltz T (E ∘ e) k = boltz T E (e k) := by
    intro k
    unfold boltz
    have : (∀ l, (E ∘ e) k ≤ (E ∘ e) l) ↔ ∀ l, E (e k) ≤ E l :=
      ⟨fun h l => by simpa using h (e.symm l), fun h l => h (e l)⟩
    by_cases hc : ∀ l, E (e k) ≤ E l
    · rw [if_pos (this.2 hc), if_pos hc]; rfl
    · rw [if_neg fun h => hc (this.1 h), if_neg hc]; rfl
  unfold canonical
  simp only [hb, Function.comp]
  rw [Equiv.sum_comp e fun k => boltz T E k * v k, Equiv.sum_comp e fun k => boltz T E k]

theorem expect_eq {ι κ : Type*} [Fintype ι] (O : Matrix ι ι ℂ) (V : Matrix ι κ ℂ) (k : κ) :
    expect O (colOf V k) = (Vᴴ * (O * V)) k k := by
  unfold expect
  rw [Matrix.mul_apply]
  rfl

theorem expect_block {s : Type*} [Fintype s] [DecidableEq s] {ι κ : s → Type*} [∀ i, Fintype (ι i)]
    (O : ∀ i, Matrix (ι i) (ι i) ℂ) (V : ∀ i, Matrix (ι i) (κ i) ℂ) (p : Σ i, κ i) :
    expect (blockDiagonal' O) (colOf (blockDiagonal' V) p) = expect (O p.1) (colOf (V p.1) p.2) := by
  rw [expect_eq, expect_eq, blockDiagonal'_conjTranspose, ← blockDiagonal'_mul, ← blockDiagonal'_mul]
  exact blockDiagonal'_apply_eq _ _ _ _

end ED
