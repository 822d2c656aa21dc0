import Verif.Lemmas.TransExact

/-! # Two commuting translations: the rows of the combined projectors -/

namespace ED

open scoped BigOperators Matrix
open Classical

variable {d : ℕ}

/-- A sum in which at most one term is not zero. -/
theorem norm_sum_single {r : ℕ} {f : Fin r → ℂ} {ε : ℝ} (hε : 0 ≤ ε) (h1 : ∀ a b, f a ≠ 0 → f b ≠ 0 → a = b)
    (h2 : ∀ a, ‖f a‖ ≤ ε) : ‖∑ a, f a‖ ≤ ε := by
  by_cases h : ∃ a, f a ≠ 0
  · obtain ⟨a, ha⟩ := h
    rw [Finset.sum_eq_single a]
    · exact h2 a
    · intro b _ hb
      by_contra h0
      exact hb (h1 b a h0 ha)
    · exact fun hh => absurd (Finset.mem_univ _) hh
  · push Not at h
    rw [Finset.sum_eq_zero fun a _ => h a, norm_zero]
    exact hε

theorem rowInner_self (s : Fin d → ℂ) : rowInner s s = ((∑ a, ‖s a‖ ^ 2 : ℝ) : ℂ) := by
  unfold rowInner
  rw [Complex.ofReal_sum]
  refine Finset.sum_congr rfl fun a _ => ?_
  rw [Complex.mul_conj, Complex.normSq_eq_norm_sq]

theorem unit_sum {s : Fin d → ℂ} (h : rowInner s s = 1) : ∑ a, ‖s a‖ ^ 2 = 1 := by
  rw [rowInner_self] at h
  exact_mod_cast h

theorem unit_le {s : Fin d → ℂ} (h : rowInner s s = 1) (a : Fin d) : ‖s a‖ ≤ 1 := by
  have h1 := unit_sum h
  have h2 : ‖s a‖ ^ 2 ≤ ∑ a, ‖s a‖ ^ 2 :=
    Finset.single_le_sum (f := fun a => ‖s a‖ ^ 2) (fun _ _ => sq_nonneg _) (Finset.mem_univ a)
  rw [h1] at h2
  nlinarith [norm_nonneg (s a)]

/-- The scalar product of combinations of rows. -/
theorem rowInner_comb {r r' : ℕ} (P : Fin r → Fin d → ℂ) (Q : Fin r' → Fin d → ℂ) (s : Fin r → ℂ) (t : Fin r' → ℂ) :
    rowInner (fun j => ∑ a, s a * P a j) (fun j => ∑ b, t b * Q b j) =
      ∑ a, ∑ b, s a * (starRingEnd ℂ) (t b) * rowInner (P a) (Q b) := by
  unfold rowInner
  simp only [map_sum, map_mul, Finset.sum_mul_sum]
  rw [Finset.sum_comm]
  refine Finset.sum_congr rfl fun a _ => ?_
  rw [Finset.sum_comm]
  refine Finset.sum_congr rfl fun b _ => ?_
  rw [Finset.mul_sum]
  refine Finset.sum_congr rfl fun j _ => ?_
  ring

namespace ZnData

variable {U : Matrix (Fin d) (Fin d) ℂ} {σ : Equiv.Perm (Fin d)} {u : Fin d → ℂ} {n : ℕ}
  {A : ℕ → Matrix (Fin d) (Fin d) ℂ} {δ : ℝ} (h : ZnData U σ u n A δ)

/-- One of the projectors. -/
noncomputable def sector (h : ZnData U σ u n A δ) (k : ℕ) : Rows d :=
  ((List.finRange d).filter fun c => decide (h.Kept k c)).map fun c => normalizeRow (h.row k c)

theorem projs_sector : h.projs = (List.range n).map h.sector := rfl

theorem sector_get? {k : ℕ} (hk : k < n) : h.projs[k]? = some (h.sector k) := by
  rw [projs_sector, List.getElem?_map, List.getElem?_range hk]
  rfl

theorem sector_len (k : ℕ) : (h.sector k).length = ((List.finRange d).filter fun c => decide (h.Kept k c)).length := by
  unfold sector
  rw [List.length_map]

/-- The state that a row belongs to. -/
noncomputable def sectorRep (h : ZnData U σ u n A δ) (k : ℕ) (a : Fin (h.sector k).length) : Fin d :=
  ((List.finRange d).filter fun c => decide (h.Kept k c))[a.val]'(by rw [← h.sector_len]; exact a.isLt)

theorem sector_row (k : ℕ) (a : Fin (h.sector k).length) :
    (h.sector k)[a] = normalizeRow (h.row k (h.sectorRep k a)) := by
  rw [Fin.getElem_fin]
  unfold sectorRep
  simp only [sector, List.getElem_map]

theorem reps {k : ℕ} (hk : k < n) : Reps h k (h.sectorRep k) where
  lt := hk
  inj := by
    intro a b hab
    unfold sectorRep at hab
    have hnd : ((List.finRange d).filter fun c => decide (h.Kept k c)).Nodup := (List.nodup_finRange d).filter _
    exact Fin.ext ((List.Nodup.getElem_inj_iff hnd).1 hab)
  kept := by
    intro a
    have hm : ∀ c ∈ (List.finRange d).filter fun c => decide (h.Kept k c), h.Kept k c := fun c hc => by
      simpa using (List.mem_filter.1 hc).2
    exact hm _ (List.getElem_mem _)
  surj := by
    intro c hc
    have hm : c ∈ (List.finRange d).filter fun c => decide (h.Kept k c) :=
      List.mem_filter.2 ⟨List.mem_finRange c, by simpa using hc⟩
    obtain ⟨i, hi, e⟩ := List.mem_iff_getElem.1 hm
    exact ⟨⟨i, by rw [h.sector_len]; exact hi⟩, e⟩

theorem sector_off {k : ℕ} (hk : k < n) {a : Fin (h.sector k).length} {j : Fin d}
    (hj : ¬ σ.SameCycle (h.sectorRep k a) j) : (h.sector k)[a] j = 0 := by
  rw [h.sector_row]
  exact (h.reps hk).normalize_off a hj

/-- The rows with an entry in a given column. -/
theorem sector_same {k : ℕ} (hk : k < n) {a b : Fin (h.sector k).length} {j : Fin d} (ha : (h.sector k)[a] j ≠ 0)
    (hb : (h.sector k)[b] j ≠ 0) : a = b := by
  by_contra hne
  have h1 : σ.SameCycle (h.sectorRep k a) j := by
    by_contra hc
    exact ha (h.sector_off hk hc)
  have h2 : σ.SameCycle (h.sectorRep k b) j := by
    by_contra hc
    exact hb (h.sector_off hk hc)
  exact hne ((h.reps hk).same (h1.trans h2.symm))

theorem sector_inner {k : ℕ} (hk : k < n) (a b : Fin (h.sector k).length) :
    rowInner (h.sector k)[a] (h.sector k)[b] = if a = b then 1 else 0 := by
  have := h.good.orthonormal (h.sector k) (List.mem_iff_getElem?.2 ⟨k, h.sector_get? hk⟩) a b a.isLt b.isLt
  simpa [Fin.ext_iff] using this

theorem sector_eigen {k : ℕ} (hk : k < n) (a : Fin (h.sector k).length) (j : Fin d) :
    ‖(∑ i, (h.sector k)[a] i * U i j) - Complex.exp (-Complex.I * (2 * Real.pi * k / n)) * (h.sector k)[a] j‖ ≤ 7 * δ :=
  h.good.eigen k _ (h.sector_get? hk) _ (List.getElem_mem _) j

theorem sector_move {k : ℕ} (hk : k < n) (a : Fin (h.sector k).length) (j : Fin d)
    (hj : ¬ σ.SameCycle (h.sectorRep k a) j) : ∑ i, (h.sector k)[a] i * U i j = 0 := by
  obtain ⟨j, rfl⟩ := σ.surjective j
  rw [Finset.sum_eq_single j]
  · rw [h.sector_off hk, zero_mul]
    exact fun hc => hj (hc.trans ⟨1, by simp⟩)
  · intro b _ hb
    rw [h.mono.entry, if_neg (fun hh => hb (σ.injective hh).symm), mul_zero]
  · exact fun hh => absurd (Finset.mem_univ _) hh

/-- A combination of rows is an eigenvector of the first translation. -/
theorem comb_eigen {k : ℕ} (hk : k < n) {s : Fin (h.sector k).length → ℂ} (hs : ∀ a, ‖s a‖ ≤ 1) (j : Fin d) :
    ‖(∑ i, (∑ a, s a * (h.sector k)[a] i) * U i j) -
      Complex.exp (-Complex.I * (2 * Real.pi * k / n)) * ∑ a, s a * (h.sector k)[a] j‖ ≤ 7 * δ := by
  set ω := Complex.exp (-Complex.I * (2 * Real.pi * k / n)) with hω
  have e : (∑ i, (∑ a, s a * (h.sector k)[a] i) * U i j) - ω * ∑ a, s a * (h.sector k)[a] j =
      ∑ a, s a * ((∑ i, (h.sector k)[a] i * U i j) - ω * (h.sector k)[a] j) := by
    simp only [mul_sub, Finset.sum_sub_distrib, Finset.sum_mul, Finset.mul_sum]
    rw [Finset.sum_comm]
    congr 1
    · refine Finset.sum_congr rfl fun a _ => Finset.sum_congr rfl fun i _ => by ring
    · refine Finset.sum_congr rfl fun a _ => by ring
  rw [e]
  have hz : ∀ a, s a * ((∑ i, (h.sector k)[a] i * U i j) - ω * (h.sector k)[a] j) ≠ 0 →
      σ.SameCycle (h.sectorRep k a) j := by
    intro a ha
    by_contra hc
    apply ha
    rw [h.sector_move hk a j hc, h.sector_off hk hc, mul_zero, sub_zero, mul_zero]
  refine norm_sum_single (by linarith [h.nonneg]) (fun a b ha hb => ?_) fun a => ?_
  · exact (h.reps hk).same ((hz a ha).trans (hz b hb).symm)
  · rw [norm_mul]
    have := h.sector_eigen hk a j
    calc _ ≤ 1 * (7 * δ) := mul_le_mul (hs a) this (norm_nonneg _) zero_le_one
      _ = _ := one_mul _

theorem comb_inner {k : ℕ} (hk : k < n) (s t : Fin (h.sector k).length → ℂ) :
    rowInner (fun j => ∑ a, s a * (h.sector k)[a] j) (fun j => ∑ a, t a * (h.sector k)[a] j) = rowInner s t := by
  rw [rowInner_comb (fun a => (h.sector k)[a]) (fun a => (h.sector k)[a])]
  unfold rowInner
  refine Finset.sum_congr rfl fun a _ => ?_
  rw [Finset.sum_eq_single a]
  · have := h.sector_inner hk a a
    unfold rowInner at this
    rw [this, if_pos rfl, mul_one]
  · intro b _ hb
    have := h.sector_inner hk a b
    unfold rowInner at this
    rw [this, if_neg (Ne.symm hb), mul_zero]
  · exact fun hh => absurd (Finset.mem_univ _) hh

theorem comb_across {k l : ℕ} (hk : k < n) (hl : l < n) (hkl : k ≠ l) {s : Fin (h.sector k).length → ℂ}
    {t : Fin (h.sector l).length → ℂ} (hs : rowInner s s = 1) (ht : rowInner t t = 1) :
    ‖rowInner (fun j => ∑ a, s a * (h.sector k)[a] j) (fun j => ∑ a, t a * (h.sector l)[a] j)‖ ≤ 7 * δ := by
  rw [rowInner_comb (fun a => (h.sector k)[a]) (fun a => (h.sector l)[a])]
  have hδ := h.nonneg
  have hterm : ∀ a b, ‖s a * (starRingEnd ℂ) (t b) * rowInner (h.sector k)[a] (h.sector l)[b]‖ ≤
      (if h.sectorRep k a = h.sectorRep l b then (‖s a‖ ^ 2 + ‖t b‖ ^ 2) / 2 else 0) * (7 * δ) := by
    intro a b
    by_cases he : h.sectorRep k a = h.sectorRep l b
    · rw [if_pos he, norm_mul, norm_mul, RCLike.norm_conj]
      have h1 := h.good.across k l _ _ (h.sector_get? hk) (h.sector_get? hl) hkl (h.sector k)[a] (List.getElem_mem _)
        (h.sector l)[b] (List.getElem_mem _)
      refine mul_le_mul ?_ h1 (norm_nonneg _) (by positivity)
      nlinarith [sq_nonneg (‖s a‖ - ‖t b‖)]
    · rw [if_neg he, h.sector_row, h.sector_row, h.inner_disjoint, mul_zero, norm_zero, zero_mul]
      intro hc
      exact he (h.kept_unique ((h.reps hk).kept a) ((h.reps hl).kept b) hc)
  refine (norm_sum_le _ _).trans ?_
  refine (Finset.sum_le_sum fun a _ => (norm_sum_le _ _).trans (Finset.sum_le_sum fun b _ => hterm a b)).trans ?_
  simp only [← Finset.sum_mul]
  have hle : ∑ a, ∑ b, (if h.sectorRep k a = h.sectorRep l b then (‖s a‖ ^ 2 + ‖t b‖ ^ 2) / 2 else 0) ≤ 1 := by
    have split : ∀ a b, (if h.sectorRep k a = h.sectorRep l b then (‖s a‖ ^ 2 + ‖t b‖ ^ 2) / 2 else 0) =
        (if h.sectorRep k a = h.sectorRep l b then ‖s a‖ ^ 2 / 2 else 0) +
          (if h.sectorRep k a = h.sectorRep l b then ‖t b‖ ^ 2 / 2 else 0) := by
      intro a b
      split_ifs
      · ring
      · ring
    simp only [split, Finset.sum_add_distrib]
    have one : ∀ {p q : ℕ} (f : Fin p → Fin d) (g : Fin q → Fin d) (x : Fin p → ℝ), Function.Injective g → (∀ a, 0 ≤ x a) →
        ∑ a, x a = 1 → ∑ a, ∑ b, (if f a = g b then x a / 2 else 0) ≤ 1 / 2 := by
      intro p q f g x hg hx hsum
      have : ∀ a, ∑ b, (if f a = g b then x a / 2 else 0) ≤ x a / 2 := by
        intro a
        by_cases hb : ∃ b, f a = g b
        · obtain ⟨b, hb⟩ := hb
          rw [Finset.sum_eq_single b]
          · rw [if_pos hb]
          · intro b' _ hne
            rw [if_neg]
            intro hb'
            exact hne (hg (hb'.symm.trans hb))
          · exact fun hh => absurd (Finset.mem_univ _) hh
        · push Not at hb
          rw [Finset.sum_eq_zero fun b _ => if_neg (hb b)]
          linarith [hx a]
      refine (Finset.sum_le_sum fun a _ => this a).trans ?_
      rw [← Finset.sum_div, hsum]
    have h1 := one (h.sectorRep k) (h.sectorRep l) (fun a => ‖s a‖ ^ 2) (h.reps hl).inj (fun _ => sq_nonneg _) (unit_sum hs)
    have h2 := one (h.sectorRep l) (h.sectorRep k) (fun a => ‖t a‖ ^ 2) (h.reps hk).inj (fun _ => sq_nonneg _) (unit_sum ht)
    have h3 : ∑ a, ∑ b, (if h.sectorRep k a = h.sectorRep l b then ‖t b‖ ^ 2 / 2 else 0) ≤ 1 / 2 := by
      rw [Finset.sum_comm]
      refine le_trans (le_of_eq ?_) h2
      exact Finset.sum_congr rfl fun b _ => Finset.sum_congr rfl fun a _ => if_congr eq_comm rfl rfl
    linarith
  calc _ ≤ 1 * (7 * δ) := mul_le_mul_of_nonneg_right hle (by linarith)
    _ = _ := one_mul _

end ZnData

end ED
