import Verif.Lemmas.TransRows
import Mathlib.Algebra.BigOperators.Fin

/-! # Two commuting translations: the sectors of the second translation -/

namespace ED

open scoped BigOperators Matrix
open Classical

variable {d : ℕ}

theorem list_range_sum {M : Type} [AddCommMonoid M] (f : ℕ → M) (n : ℕ) :
    ((List.range n).map f).sum = ∑ k ∈ Finset.range n, f k := by
  induction n with
  | zero => simp
  | succ n ih => rw [List.range_succ, List.map_append, List.sum_append, ih, Finset.sum_range_succ]; simp

theorem list_sum_comb {α : Type} {r : ℕ} (l : List α) (C : Fin r → Fin r → ℂ) (f : α → Fin r → Fin r → ℂ) :
    (l.map fun s => ∑ a, ∑ b, C a b * f s a b).sum = ∑ a, ∑ b, C a b * (l.map fun s => f s a b).sum := by
  induction l with
  | nil => simp
  | cons x l ih =>
    simp only [List.map_cons, List.sum_cons, ih, mul_add, Finset.sum_add_distrib]

namespace ZnData

variable {U V : Matrix (Fin d) (Fin d) ℂ} {σ ρ : Equiv.Perm (Fin d)} {u v : Fin d → ℂ} {n : ℕ}
  {A : ℕ → Matrix (Fin d) (Fin d) ℂ} {δ : ℝ} (h : ZnData U σ u n A δ)

/-- The second translation in a sector of the first one. -/
theorem sub_data (s : Second U V ρ v) {n2 : ℕ} (hn2 : n2 ≠ 0) (hV : V ^ n2 = 1) {ε δ' : ℝ} (hε : 0 ≤ ε)
    (hx : ∀ k < n2, ∀ l < n2, ‖znTable n2 k l - omega n2 k ^ l‖ ≤ ε)
    (hδ' : (1 + ε) * (1 + 7 * δ) ^ n2 - 1 ≤ δ') (hsmall : (n2 : ℝ) * δ' < (10 : ℝ) ^ (-10 : ℤ)) {k : ℕ} (hk : k < n)
    {τ : Equiv.Perm (Fin (h.sector k).length)}
    (hτ : ∀ a, σ.SameCycle (ρ (h.sectorRep k a)) (h.sectorRep k (τ a))) :
    ZnData (Reps.moveMat h k ρ v (h.sectorRep k) τ) τ (fun a => Reps.movePhase h k ρ v (h.sectorRep k a) (h.sectorRep k (τ a)))
      n2 (fun k2 => approxProj (restrictOp (h.sector k) V) n2 (znTable n2 k2)) δ' := by
  have R := h.reps hk
  refine znData_near (R.moveMat_mono s hτ) (v := fun a => restrictOp (h.sector k) V a (τ a)) (fun a b => ?_)
    (η := 7 * δ) (by linarith [h.nonneg]) (fun a => ?_) hn2 (R.moveMat_pow s hτ hV) hε hx hδ' hsmall
  · split_ifs with hb
    · rw [hb]
    · unfold restrictOp
      rw [Reps.restrict_entry s, h.sector_row, h.sector_row]
      exact R.restrict_off s hτ hb
  · unfold restrictOp
    rw [Reps.restrict_entry s, h.sector_row, h.sector_row]
    exact R.restrict_near s hτ a

theorem second_row (s : Second U V ρ v) {k : ℕ} (hk : k < n) {τ : Equiv.Perm (Fin (h.sector k).length)}
    (hτ : ∀ a, σ.SameCycle (ρ (h.sectorRep k a)) (h.sectorRep k (τ a))) (a : Fin (h.sector k).length) (j : Fin d) :
    ‖(∑ i, (h.sector k)[a] i * V i j) - ∑ b, Reps.moveMat h k ρ v (h.sectorRep k) τ a b * (h.sector k)[b] j‖ ≤ 6 * δ ∧
      ((∑ i, (h.sector k)[a] i * V i j) - ∑ b, Reps.moveMat h k ρ v (h.sectorRep k) τ a b * (h.sector k)[b] j ≠ 0 →
        σ.SameCycle (h.sectorRep k (τ a)) j) := by
  obtain ⟨j, rfl⟩ := ρ.surjective j
  have R := h.reps hk
  have hδ := h.nonneg
  have e1 : ∑ i, (h.sector k)[a] i * V i (ρ j) = (h.sector k)[a] j * v j := by
    rw [Finset.sum_eq_single j]
    · rw [s.mono.entry, if_pos rfl]
    · intro b _ hb
      rw [s.mono.entry, if_neg (fun hh => hb (ρ.injective hh).symm), mul_zero]
    · exact fun hh => absurd (Finset.mem_univ _) hh
  set w := Reps.movePhase h k ρ v (h.sectorRep k a) (h.sectorRep k (τ a)) with hw
  have e2 : ∑ b, Reps.moveMat h k ρ v (h.sectorRep k) τ a b * (h.sector k)[b] (ρ j) = w * (h.sector k)[τ a] (ρ j) := by
    rw [Finset.sum_eq_single (τ a)]
    · rw [(R.moveMat_mono s hτ).entry, if_pos rfl]
    · intro b _ hb
      rw [(R.moveMat_mono s hτ).entry, if_neg hb, zero_mul]
    · exact fun hh => absurd (Finset.mem_univ _) hh
  rw [e1, e2]
  by_cases hj : σ.SameCycle (h.sectorRep k a) j
  · have hj' : σ.SameCycle (h.sectorRep k (τ a)) (ρ j) := (hτ a).symm.trans ((s.sameCycle h.mono).2 hj)
    refine ⟨?_, fun _ => hj'⟩
    rw [h.sector_row, h.sector_row]
    have f1 := h.flat hk (R.kept a).1
    have f2 := h.flat hk (R.kept (τ a)).1
    have a1 := f1.normalize_near hδ (h.delta_le.trans (by norm_num)) (mem_cyc.2 hj)
    have a2 := f2.normalize_near hδ (h.delta_le.trans (by norm_num)) (mem_cyc.2 hj')
    have hcard : (cyc σ (h.sectorRep k (τ a))).card = (cyc σ (h.sectorRep k a)).card := by
      rw [← cyc_eq (hτ a), s.card h.mono]
    rw [hcard] at a2
    have hc1 : (1 : ℝ) ≤ (cyc σ (h.sectorRep k a)).card := by exact_mod_cast card_cyc_pos σ _
    have hsq : (1 : ℝ) ≤ Real.sqrt (cyc σ (h.sectorRep k a)).card := by rwa [Real.one_le_sqrt]
    set D := Real.sqrt (cyc σ (h.sectorRep k a)).card with hD
    have hmv := Reps.phases_move (h := h) (k := k) s (hτ a) j
    have hs : normalizeRow (h.row k (h.sectorRep k a)) j * v j - w * normalizeRow (h.row k (h.sectorRep k (τ a))) (ρ j) =
        (normalizeRow (h.row k (h.sectorRep k a)) j - h.phases k (h.sectorRep k a) j / (D : ℝ)) * v j -
          w * (normalizeRow (h.row k (h.sectorRep k (τ a))) (ρ j) - h.phases k (h.sectorRep k (τ a)) (ρ j) / (D : ℝ)) := by
      have : h.phases k (h.sectorRep k a) j / (D : ℝ) * v j = w * (h.phases k (h.sectorRep k (τ a)) (ρ j) / (D : ℝ)) := by
        rw [div_mul_eq_mul_div, hmv, mul_div_assoc]
      rw [sub_mul, mul_sub, this]
      ring
    rw [hs]
    refine (norm_sub_le _ _).trans ?_
    have hwn : ‖w‖ = 1 := Reps.movePhase_norm s (R.kept a).1 (hτ a)
    rw [norm_mul, norm_mul, s.mono.norm, hwn, mul_one, one_mul]
    have hD' : 3 * δ / D ≤ 3 * δ := div_le_self (by positivity) hsq
    linarith
  · have hj' : ¬ σ.SameCycle (h.sectorRep k (τ a)) (ρ j) := fun hc => hj ((s.sameCycle h.mono).1 ((hτ a).trans hc))
    rw [h.sector_off hk hj, h.sector_off hk hj', zero_mul, mul_zero, sub_zero]
    refine ⟨by rw [norm_zero]; linarith, fun hh => absurd rfl hh⟩

/-- A combination of rows that is an eigenvector in the sector is an eigenvector of the second translation. -/
theorem comb_second (s : Second U V ρ v) {k : ℕ} (hk : k < n) {τ : Equiv.Perm (Fin (h.sector k).length)}
    (hτ : ∀ a, σ.SameCycle (ρ (h.sectorRep k a)) (h.sectorRep k (τ a))) {t : Fin (h.sector k).length → ℂ}
    (ht : ∀ a, ‖t a‖ ≤ 1) {ω : ℂ} {ε : ℝ} (hε : 0 ≤ ε)
    (he : ∀ b, ‖(∑ a, t a * Reps.moveMat h k ρ v (h.sectorRep k) τ a b) - ω * t b‖ ≤ ε) (j : Fin d) :
    ‖(∑ i, (∑ a, t a * (h.sector k)[a] i) * V i j) - ω * ∑ a, t a * (h.sector k)[a] j‖ ≤ 6 * δ + ε := by
  set M := Reps.moveMat h k ρ v (h.sectorRep k) τ with hM
  have hδ := h.nonneg
  have e : (∑ i, (∑ a, t a * (h.sector k)[a] i) * V i j) - ω * ∑ a, t a * (h.sector k)[a] j =
      (∑ a, t a * ((∑ i, (h.sector k)[a] i * V i j) - ∑ b, M a b * (h.sector k)[b] j)) +
        ∑ b, ((∑ a, t a * M a b) - ω * t b) * (h.sector k)[b] j := by
    simp only [mul_sub, sub_mul, Finset.sum_sub_distrib, Finset.sum_mul, Finset.mul_sum]
    rw [Finset.sum_comm]
    have x1 : ∑ a, ∑ i, t a * (h.sector k)[a] i * V i j = ∑ a, ∑ i, t a * ((h.sector k)[a] i * V i j) :=
      Finset.sum_congr rfl fun a _ => Finset.sum_congr rfl fun i _ => by ring
    have x2 : ∑ a, ∑ b, t a * (M a b * (h.sector k)[b] j) = ∑ b, ∑ a, t a * M a b * (h.sector k)[b] j := by
      rw [Finset.sum_comm]
      exact Finset.sum_congr rfl fun a _ => Finset.sum_congr rfl fun i _ => by ring
    have x3 : ∑ a, ω * (t a * (h.sector k)[a] j) = ∑ a, ω * t a * (h.sector k)[a] j :=
      Finset.sum_congr rfl fun a _ => by ring
    rw [x1, x2, x3]
    ring
  rw [e]
  refine (norm_add_le _ _).trans (add_le_add ?_ ?_)
  · refine norm_sum_single (by linarith) (fun a b ha hb => ?_) fun a => ?_
    · have h1 := (h.second_row s hk hτ a j).2 (right_ne_zero_of_mul ha)
      have h2 := (h.second_row s hk hτ b j).2 (right_ne_zero_of_mul hb)
      exact τ.injective ((h.reps hk).same (h1.trans h2.symm))
    · rw [norm_mul]
      calc _ ≤ 1 * (6 * δ) := mul_le_mul (ht a) (h.second_row s hk hτ a j).1 (norm_nonneg _) zero_le_one
        _ = _ := one_mul _
  · refine norm_sum_single hε (fun a b ha hb => ?_) fun b => ?_
    · exact h.sector_same hk (right_ne_zero_of_mul ha) (right_ne_zero_of_mul hb)
    · rw [norm_mul]
      have h1 : ‖(h.sector k)[b] j‖ ≤ 1 := unit_le (by rw [h.sector_inner hk, if_pos rfl]) j
      calc _ ≤ ε * 1 := mul_le_mul (he b) h1 (norm_nonneg _) hε
        _ = _ := mul_one _

/-- The rows of the first translation resolve the identity. -/
theorem sector_resolution (i j : Fin d) :
    ‖(∑ k ∈ Finset.range n, ∑ a : Fin (h.sector k).length, (starRingEnd ℂ) ((h.sector k)[a] i) * (h.sector k)[a] j) - if i = j then 1 else 0‖ ≤ 7 * δ := by
  have := h.good.resolution i j
  rw [projs_sector, List.map_map, list_range_sum] at this
  have e : ∀ k, ∑ a : Fin (h.sector k).length, (starRingEnd ℂ) ((h.sector k)[a] i) * (h.sector k)[a] j =
      ((fun P : Rows d => (P.map fun r => (starRingEnd ℂ) (r i) * r j).sum) ∘ h.sector) k := by
    intro k
    exact Fin.sum_univ_fun_getElem (h.sector k) fun r => (starRingEnd ℂ) (r i) * r j
  rw [Finset.sum_congr rfl fun k _ => e k]
  exact this

/-- The combined rows resolve the identity. -/
theorem comb_resolution (subs : (k : ℕ) → List (Rows (h.sector k).length)) {ε : ℝ} (hε : 0 ≤ ε)
    (hsub : ∀ k < n, ∀ a b, ‖((subs k).map fun S => (S.map fun t => (starRingEnd ℂ) (t a) * t b).sum).sum -
      if a = b then 1 else 0‖ ≤ ε) (i j : Fin d) :
    ‖(∑ k ∈ Finset.range n, ((subs k).map fun S => (S.map fun t => (starRingEnd ℂ) (∑ a, t a * (h.sector k)[a] i) *
      ∑ a, t a * (h.sector k)[a] j).sum).sum) - if i = j then 1 else 0‖ ≤ 7 * δ + ε * (1 + 7 * δ) := by
  have hδ := h.nonneg
  set G : (k : ℕ) → Fin (h.sector k).length → Fin (h.sector k).length → ℂ := fun k a b =>
    ((subs k).map fun S => (S.map fun t => (starRingEnd ℂ) (t a) * t b).sum).sum with hG
  have e1 : ∀ k, ((subs k).map fun S => (S.map fun t => (starRingEnd ℂ) (∑ a, t a * (h.sector k)[a] i) *
      ∑ a, t a * (h.sector k)[a] j).sum).sum =
      ∑ a : Fin (h.sector k).length, ∑ b : Fin (h.sector k).length, ((starRingEnd ℂ) ((h.sector k)[a] i) * (h.sector k)[b] j) * G k a b := by
    intro k
    rw [hG]
    dsimp only
    rw [← list_sum_comb]
    congr 1
    refine List.map_congr_left fun S _ => ?_
    rw [← list_sum_comb]
    congr 1
    refine List.map_congr_left fun t _ => ?_
    rw [map_sum, Finset.sum_mul_sum]
    refine Finset.sum_congr rfl fun a _ => Finset.sum_congr rfl fun b _ => ?_
    rw [map_mul]
    ring
  have e2 : ∀ k, ∑ a : Fin (h.sector k).length, ∑ b : Fin (h.sector k).length, ((starRingEnd ℂ) ((h.sector k)[a] i) * (h.sector k)[b] j) * G k a b =
      (∑ a : Fin (h.sector k).length, (starRingEnd ℂ) ((h.sector k)[a] i) * (h.sector k)[a] j) +
        ∑ a : Fin (h.sector k).length, ∑ b : Fin (h.sector k).length, ((starRingEnd ℂ) ((h.sector k)[a] i) * (h.sector k)[b] j) * (G k a b - if a = b then 1 else 0) := by
    intro k
    rw [← Finset.sum_add_distrib]
    refine Finset.sum_congr rfl fun a _ => ?_
    simp only [mul_sub, Finset.sum_sub_distrib, mul_ite, mul_one, mul_zero, Finset.sum_ite_eq, Finset.mem_univ, if_true]
    ring
  rw [Finset.sum_congr rfl fun k _ => (e1 k).trans (e2 k), Finset.sum_add_distrib, add_sub_right_comm]
  refine (norm_add_le _ _).trans (add_le_add (h.sector_resolution i j) ?_)
  -- weight of a column in a sector
  have hw : ∀ k ∈ Finset.range n, ∀ i : Fin d, (∑ a : Fin (h.sector k).length, ‖(h.sector k)[a] i‖) ^ 2 = ∑ a : Fin (h.sector k).length, ‖(h.sector k)[a] i‖ ^ 2 := by
    intro k hk i
    by_cases hex : ∃ a : Fin (h.sector k).length, (h.sector k)[a] i ≠ 0
    · obtain ⟨a, ha⟩ := hex
      have hz : ∀ b : Fin (h.sector k).length, b ≠ a → (h.sector k)[b] i = 0 := by
        intro b hb
        by_contra h0
        exact hb (h.sector_same (Finset.mem_range.1 hk) h0 ha)
      rw [Finset.sum_eq_single a, Finset.sum_eq_single a]
      · intro b _ hb
        rw [hz b hb, norm_zero]
        norm_num
      · exact fun hh => absurd (Finset.mem_univ _) hh
      · intro b _ hb
        rw [hz b hb, norm_zero]
      · exact fun hh => absurd (Finset.mem_univ _) hh
    · push Not at hex
      rw [Finset.sum_eq_zero fun a _ => by rw [hex a, norm_zero], Finset.sum_eq_zero fun a _ => by
        rw [hex a, norm_zero]; norm_num]
      norm_num
  have hs : ∀ i : Fin d, ∑ k ∈ Finset.range n, ∑ a : Fin (h.sector k).length, ‖(h.sector k)[a] i‖ ^ 2 ≤ 1 + 7 * δ := by
    intro i
    have h1 := h.sector_resolution i i
    rw [if_pos rfl] at h1
    have h2 : (∑ k ∈ Finset.range n, ∑ a : Fin (h.sector k).length, (starRingEnd ℂ) ((h.sector k)[a] i) * (h.sector k)[a] i) =
        ((∑ k ∈ Finset.range n, ∑ a : Fin (h.sector k).length, ‖(h.sector k)[a] i‖ ^ 2 : ℝ) : ℂ) := by
      rw [Complex.ofReal_sum]
      refine Finset.sum_congr rfl fun k _ => ?_
      rw [Complex.ofReal_sum]
      refine Finset.sum_congr rfl fun a _ => ?_
      rw [mul_comm, Complex.mul_conj, Complex.normSq_eq_norm_sq]
    rw [h2, ← Complex.ofReal_one, ← Complex.ofReal_sub, Complex.norm_real, Real.norm_eq_abs] at h1
    linarith [(abs_le.1 h1).2]
  have hk : ∀ k ∈ Finset.range n, ‖∑ a : Fin (h.sector k).length, ∑ b : Fin (h.sector k).length, ((starRingEnd ℂ) ((h.sector k)[a] i) * (h.sector k)[b] j) *
      (G k a b - if a = b then 1 else 0)‖ ≤
      ε * ((∑ a : Fin (h.sector k).length, ‖(h.sector k)[a] i‖ ^ 2 + ∑ a : Fin (h.sector k).length, ‖(h.sector k)[a] j‖ ^ 2) / 2) := by
    intro k hk
    rw [← hw k hk i, ← hw k hk j]
    set x := ∑ a : Fin (h.sector k).length, ‖(h.sector k)[a] i‖
    set y := ∑ a : Fin (h.sector k).length, ‖(h.sector k)[a] j‖
    have hxy : ‖∑ a : Fin (h.sector k).length, ∑ b : Fin (h.sector k).length, ((starRingEnd ℂ) ((h.sector k)[a] i) * (h.sector k)[b] j) *
        (G k a b - if a = b then 1 else 0)‖ ≤ ε * (x * y) := by
      refine (norm_sum_le _ _).trans ?_
      rw [Finset.sum_mul_sum, Finset.mul_sum]
      refine Finset.sum_le_sum fun a _ => (norm_sum_le _ _).trans ?_
      rw [Finset.mul_sum]
      refine Finset.sum_le_sum fun b _ => ?_
      rw [norm_mul, norm_mul, RCLike.norm_conj, mul_comm]
      exact mul_le_mul_of_nonneg_right (hsub k (Finset.mem_range.1 hk) a b) (by positivity)
    refine hxy.trans (mul_le_mul_of_nonneg_left ?_ hε)
    nlinarith [sq_nonneg (x - y)]
  refine (norm_sum_le _ _).trans ((Finset.sum_le_sum hk).trans ?_)
  rw [← Finset.mul_sum, ← Finset.sum_div, Finset.sum_add_distrib]
  refine mul_le_mul_of_nonneg_left ?_ hε
  linarith [hs i, hs j]

end ZnData

end ED
