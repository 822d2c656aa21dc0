import Verif.Lemmas.Select
import Verif.Lemmas.Gives
import Verif.Spec.SectorThermo

/-! # Sectors of basis states with the same label -/

namespace ED

open Matrix

/-- A projector that selects at least one state, as a matrix. -/
theorem Mat.Selects.is {n b : ℕ} {P : Mat} {p : Conf n b → Prop} (h : P.Selects (b ^ n) fun j => ∀ t : Conf n b, idx t = j → p t)
    (hne : ∃ t, p t) : ∃ (d : ℕ) (sel : Fin (d + 1) → Conf n b), Function.Injective sel ∧ (∀ t, p t ↔ ∃ r, sel r = t) ∧
      P.Is (Matrix.of fun r t => if t = sel r then (1 : ℂ) else 0 : Matrix (Fin (d + 1)) (Conf n b) ℂ) := by
  obtain ⟨hc, sel, hmono, hrange, he⟩ := h
  have surj : ∀ j : Fin (b ^ n), ∃ t : Conf n b, idx t = j := fun j => by
    obtain ⟨t, ht⟩ := Basis.surj (ι := Conf n b) j (by simpa using j.isLt)
    exact ⟨t, ht⟩
  choose conf hconf using surj
  have hp : ∀ t : Conf n b, p t ↔ ∃ r, idx t = sel r := by
    intro t
    have hlt : idx t < b ^ n := by simpa using idx_lt t
    have := Set.ext_iff.1 hrange ⟨idx t, hlt⟩
    simp only [Set.mem_range, Set.mem_setOf_eq] at this
    constructor
    · intro h
      obtain ⟨r, hr⟩ := this.2 fun t' ht' => by rw [idx_injective ht']; exact h
      exact ⟨r, by rw [hr]⟩
    · rintro ⟨r, hr⟩
      exact this.1 ⟨r, Fin.ext hr.symm⟩ t rfl
  obtain ⟨d, hd⟩ : ∃ d, P.rows = d + 1 := by
    obtain ⟨t, ht⟩ := hne
    obtain ⟨r, -⟩ := (hp t).1 ht
    exact ⟨P.rows - 1, by have := r.2; omega⟩
  refine ⟨d, fun r => conf (sel (Fin.cast hd.symm r)), fun r r' hr => ?_, fun t => ?_, by simp [hd], by simp [hc], fun r t => ?_⟩
  · have h1 := hconf (sel (Fin.cast hd.symm r))
    have h2 := hconf (sel (Fin.cast hd.symm r'))
    simp only at hr
    rw [hr, h2] at h1
    exact (Fin.cast_injective _ (hmono.injective (Fin.ext h1))).symm
  · rw [hp]
    constructor
    · rintro ⟨r, hr⟩
      exact ⟨Fin.cast hd r, idx_injective (by rw [hconf]; simpa using hr.symm)⟩
    · rintro ⟨r, hr⟩
      exact ⟨_, by rw [← hr, hconf]⟩
  · have hlt : idx t < b ^ n := by simpa using idx_lt t
    have := he (Fin.cast hd.symm r) ⟨idx t, hlt⟩
    rw [num_conf, of_apply]
    refine this.trans (if_congr ?_ rfl rfl)
    rw [Fin.ext_iff]
    constructor
    · intro h
      exact idx_injective (by rw [hconf]; exact h)
    · intro h
      exact (congrArg idx h).trans (hconf _)

/-- Projectors on the states with the same label, one for each label that occurs, are sectors of every Hamiltonian that
does not connect states with different labels. -/
theorem sectors_of_labels {n b : ℕ} {α : Type} (lab : Conf n b → α) (L : List (α × Mat)) (hnd : (L.map Prod.fst).Nodup)
    (hmem : ∀ a, a ∈ L.map Prod.fst ↔ ∃ t, lab t = a)
    (hsel : ∀ s ∈ L, s.2.Selects (b ^ n) fun j => ∀ t : Conf n b, idx t = j → lab t = s.1)
    {r : ℕ} (hr : L.length = r + 1) {H : Op n b} (hH : ∀ t t', lab t ≠ lab t' → H t t' = 0) :
    ∃ (d : Fin (r + 1) → ℕ) (P : ∀ i, Matrix (Fin (d i + 1)) (Conf n b) ℂ),
      (∀ i : Fin (r + 1), (L[(i : ℕ)]'(by have := i.2; omega)).2.Is (P i)) ∧ IsSectors P H := by
  have hl : ∀ i : Fin (r + 1), (i : ℕ) < L.length := fun i => by have := i.2; omega
  have key := fun i : Fin (r + 1) => Mat.Selects.is (hsel (L[(i : ℕ)]'(hl i)) (List.getElem_mem _))
    ((hmem _).1 (List.mem_map_of_mem (List.getElem_mem _)))
  choose d sel hinj hrange hIs using key
  have hlab : ∀ (i : Fin (r + 1)) (r), lab (sel i r) = (L[(i : ℕ)]'(hl i)).1 := fun i r => (hrange i _).2 ⟨r, rfl⟩
  have hne : ∀ i j : Fin (r + 1), i ≠ j → (L[(i : ℕ)]'(hl i)).1 ≠ (L[(j : ℕ)]'(hl j)).1 := by
    intro i j hij h
    refine hij (Fin.ext ((List.Nodup.getElem_inj_iff hnd (hi := by simpa using hl i) (hj := by simpa using hl j)).1 ?_))
    rw [List.getElem_map, List.getElem_map, h]
  refine ⟨d, _, hIs, ?_, ?_, ?_, ?_⟩
  · intro i
    ext x y
    rw [mul_apply, Finset.sum_eq_single (sel i x)]
    · simp only [of_apply, conjTranspose_apply, if_true, one_mul, one_apply, (hinj i).eq_iff]
      split_ifs <;> simp
    · intro t _ ht
      simp [ht]
    · simp
  · intro i j hij
    ext x y
    rw [mul_apply, Matrix.zero_apply]
    refine Finset.sum_eq_zero fun t _ => ?_
    simp only [of_apply, conjTranspose_apply]
    by_cases h1 : t = sel i x
    · by_cases h2 : t = sel j y
      · exact absurd ((hlab i x).symm.trans ((congrArg lab (h1.symm.trans h2)).trans (hlab j y))) (hne i j hij)
      · simp [h2]
    · simp [h1]
  · ext t t'
    rw [Matrix.sum_apply, one_apply]
    simp only [mul_apply, conjTranspose_apply, of_apply]
    obtain ⟨s, hs, e⟩ := List.mem_map.1 ((hmem (lab t)).2 ⟨t, rfl⟩)
    obtain ⟨k, hk, rfl⟩ := List.getElem_of_mem hs
    obtain ⟨x, hx⟩ := (hrange ⟨k, by omega⟩ t).1 e.symm
    have hne' : ∀ j y, (⟨k, by omega⟩ : Fin (r + 1)) ≠ j → t ≠ sel j y := by
      intro j y hj ht
      refine hne _ _ hj ?_
      rw [← hlab j y, ← ht]
      exact e
    rw [Finset.sum_eq_single ⟨k, by omega⟩]
    · rw [Finset.sum_eq_single x]
      · simp only [hx, if_true, star_one, one_mul]
        exact if_congr eq_comm rfl rfl
      · intro y _ hy
        have : t ≠ sel ⟨k, by omega⟩ y := fun h => hy (hinj _ (hx.trans h)).symm
        simp [this]
      · simp
    · intro j _ hj
      refine Finset.sum_eq_zero fun y _ => ?_
      simp [hne' j y hj.symm]
    · simp
  · intro i j hij
    ext x y
    rw [Matrix.zero_apply, mul_apply]
    refine Finset.sum_eq_zero fun t _ => ?_
    simp only [of_apply, conjTranspose_apply]
    by_cases h2 : t = sel j y
    · rw [mul_apply, Finset.sum_eq_single (sel i x), hH _ t, mul_zero, zero_mul]
      · rw [h2, hlab, hlab]
        exact hne i j hij
      · intro t' _ ht'
        simp [ht']
      · simp
    · simp [h2]

end ED
