import Verif.Lemmas.ZnRows
import Verif.Lemmas.Round

/-! # Cyclic projectors: the table of characters and the list returned -/

namespace ED

open Classical
open scoped BigOperators

/-! ## The table of characters -/

theorem rint_eq_of {x : ℝ} {m : ℤ} (h : |x - m| < 1 / 2) : rint x = m := by
  have h1 := abs_rint_sub x
  have h2 : |((rint x - m : ℤ) : ℝ)| < 1 := by
    push_cast
    calc |(rint x : ℝ) - m| = |((rint x : ℝ) - x) + (x - m)| := by congr 1; ring
      _ ≤ |(rint x : ℝ) - x| + |x - m| := abs_add_le _ _
      _ < 1 := by linarith
  rw [← Int.cast_abs] at h2
  have h3 : |rint x - m| < 1 := by exact_mod_cast h2
  rw [Int.abs_lt_one_iff] at h3
  omega

theorem omega_symm (n k l : ℕ) : omega n k ^ l = omega n l ^ k := by
  rw [omega_eq_pow n k, omega_eq_pow n l, ← pow_mul, ← pow_mul, mul_comm]

theorem table_arg (n k l : ℕ) :
    Complex.exp (-2 * Real.pi * Complex.I / n * l * k) = omega n k ^ l := by
  unfold omega
  rw [← Complex.exp_nat_mul]
  congr 1
  ring

theorem table_near (n k l : ℕ) : ‖znTable n k l - omega n k ^ l‖ ≤ 1 / 10 ^ 14 := by
  unfold znTable
  rw [table_arg]
  set z := omega n k ^ l
  simp only
  have h1 := abs_npRound_sub 14 z.re
  have h2 := abs_npRound_sub 14 z.im
  refine (Complex.norm_le_abs_re_add_abs_im _).trans ?_
  simp only [Complex.sub_re, Complex.sub_im]
  calc _ ≤ (1 : ℝ) / 2 / 10 ^ 14 + 1 / 2 / 10 ^ 14 := add_le_add h1 h2
    _ = 1 / 10 ^ 14 := by ring

/-- Products of powers of two roots of unity. -/
theorem orth_sum {n : ℕ} (hn : n ≠ 0) {i j : ℕ} (hi : i < n) (hj : j < n) :
    ∑ k ∈ Finset.range n, omega n i ^ k * (starRingEnd ℂ) (omega n j ^ k) = if i = j then (n : ℂ) else 0 := by
  have e : ∀ k ∈ Finset.range n, omega n i ^ k * (starRingEnd ℂ) (omega n j ^ k) =
      (omega n i * (starRingEnd ℂ) (omega n j)) ^ k := by
    intro k _
    rw [map_pow, mul_pow]
  rw [Finset.sum_congr rfl e]
  split_ifs with h
  · subst h
    rw [mul_comm, omega_conj]
    simp
  · have hne : omega n i * (starRingEnd ℂ) (omega n j) ≠ 1 := by
      intro h1
      apply h
      apply omega_inj hn hi hj
      calc omega n i = omega n i * ((starRingEnd ℂ) (omega n j) * omega n j) := by rw [omega_conj, mul_one]
        _ = omega n j := by rw [← mul_assoc, h1, one_mul]
    have hpow : (omega n i * (starRingEnd ℂ) (omega n j)) ^ n = 1 := by
      rw [mul_pow, ← map_pow, omega_pow_n hn, omega_pow_n hn, map_one, mul_one]
    have := mul_neg_geom_sum (omega n i * (starRingEnd ℂ) (omega n j)) n
    rw [hpow, sub_self] at this
    rcases mul_eq_zero.1 this with h2 | h2
    · exact absurd (sub_eq_zero.1 h2).symm hne
    · exact h2

theorem orth_near {n : ℕ} (hn : n ≠ 0) (hn' : n < 10 ^ 4) {i j : ℕ} (hi : i < n) (hj : j < n)
    {f g : ℕ → ℂ} (hf : ∀ k < n, ‖f k - omega n i ^ k‖ ≤ 1 / 10 ^ 14)
    (hg : ∀ k < n, ‖g k - omega n j ^ k‖ ≤ 1 / 10 ^ 14) :
    |(∑ k ∈ Finset.range n, f k * (starRingEnd ℂ) (g k)).re - ((if i = j then (n : ℤ) else 0 : ℤ) : ℝ)| < 1 / 2 := by
  have hex := orth_sum hn hi hj
  have hre : (((if i = j then (n : ℤ) else 0 : ℤ) : ℝ)) =
      (∑ k ∈ Finset.range n, omega n i ^ k * (starRingEnd ℂ) (omega n j ^ k)).re := by
    rw [hex]
    split_ifs <;> simp
  rw [hre, ← Complex.sub_re, ← Finset.sum_sub_distrib]
  refine lt_of_le_of_lt (Complex.abs_re_le_norm _) ?_
  refine lt_of_le_of_lt (norm_sum_le _ _) ?_
  have hterm : ∀ k ∈ Finset.range n, ‖f k * (starRingEnd ℂ) (g k) -
      omega n i ^ k * (starRingEnd ℂ) (omega n j ^ k)‖ ≤ 3 / 10 ^ 14 := by
    intro k hk
    have h1 := hf k (Finset.mem_range.1 hk)
    have h2 := hg k (Finset.mem_range.1 hk)
    have hs : f k * (starRingEnd ℂ) (g k) - omega n i ^ k * (starRingEnd ℂ) (omega n j ^ k) =
        f k * (starRingEnd ℂ) (g k - omega n j ^ k) + (f k - omega n i ^ k) * (starRingEnd ℂ) (omega n j ^ k) := by
      rw [map_sub]
      ring
    have hfn : ‖f k‖ ≤ 2 := by
      have := norm_sub_norm_le (f k) (omega n i ^ k)
      rw [norm_pow, omega_norm, one_pow] at this
      have h3 : (1 : ℝ) / 10 ^ 14 ≤ 1 := by norm_num
      linarith
    rw [hs]
    refine (norm_add_le _ _).trans ?_
    rw [norm_mul, norm_mul, RCLike.norm_conj, RCLike.norm_conj, norm_pow, omega_norm, one_pow, mul_one]
    have h4 : ‖f k‖ * ‖g k - omega n j ^ k‖ ≤ 2 * (1 / 10 ^ 14) :=
      mul_le_mul hfn h2 (norm_nonneg _) (by norm_num)
    have h5 : (3 : ℝ) / 10 ^ 14 = 2 * (1 / 10 ^ 14) + 1 / 10 ^ 14 := by ring
    rw [h5]
    linarith
  refine lt_of_le_of_lt (Finset.sum_le_sum hterm) ?_
  rw [Finset.sum_const, Finset.card_range, nsmul_eq_mul]
  have hc : (n : ℝ) ≤ 10 ^ 4 := by exact_mod_cast hn'.le
  calc (n : ℝ) * (3 / 10 ^ 14) ≤ 10 ^ 4 * (3 / 10 ^ 14) := by gcongr
    _ < 1 / 2 := by norm_num

theorem rows_table {n k l : ℕ} (hk : k < n) (hl : l < n) : tableOf (znRows n) k l = znTable n k l := by
  unfold tableOf znRows
  simp [List.getD_eq_getElem?_getD, hk, hl]

theorem classes_eq {A : Type} [Monoid A] (U : A) {n : ℕ} (hn : n ≠ 0) :
    znClasses U n = (List.range n).map fun l => [U ^ l] := by
  obtain ⟨m, rfl⟩ := Nat.exists_eq_succ_of_ne_zero hn
  unfold znClasses
  rw [List.range_succ_eq_map, List.map_cons, List.map_map]
  simp only [Nat.succ_sub_one, pow_zero, List.singleton_append]
  rfl

theorem zn_valid {A : Type} [Monoid A] (U : A) {n : ℕ} (hn : n ≠ 0) (hn' : n < 10 ^ 4) :
    validateCharTable (znRows n).length (tableOf (znRows n)) (fun c => ((znClasses U n).getD c []).length) := by
  have hlen : (znRows n).length = n := by simp [znRows]
  have hsz : ∀ c < n, ((znClasses U n).getD c []).length = 1 := by
    intro c hc
    rw [classes_eq U hn]
    simp [List.getD_eq_getElem?_getD, hc]
  have horder : ∑ c ∈ Finset.range n, ((znClasses U n).getD c []).length = n := by
    rw [Finset.sum_congr rfl fun c hc => hsz c (Finset.mem_range.1 hc)]
    simp
  rw [hlen]
  refine ⟨fun i hi j hj => ?_, fun i hi j hj => ?_⟩
  · simp only
    rw [horder, hsz i hi]
    have hsum : ∑ k ∈ Finset.range n, tableOf (znRows n) k i * (starRingEnd ℂ) (tableOf (znRows n) k j) =
        ∑ k ∈ Finset.range n, znTable n k i * (starRingEnd ℂ) (znTable n k j) :=
      Finset.sum_congr rfl fun k hk => by
        rw [rows_table (Finset.mem_range.1 hk) hi, rows_table (Finset.mem_range.1 hk) hj]
    rw [hsum]
    have := rint_eq_of (orth_near hn hn' hi hj (f := fun k => znTable n k i) (g := fun k => znTable n k j)
      (fun k _ => by rw [← omega_symm]; exact table_near n k i)
      (fun k _ => by rw [← omega_symm]; exact table_near n k j))
    rw [this]
    unfold orderOver
    simp
  · simp only
    rw [horder]
    have hsum : ∑ c ∈ Finset.range n, tableOf (znRows n) i c * (starRingEnd ℂ) (tableOf (znRows n) j c) *
        ((((znClasses U n).getD c []).length : ℕ) : ℂ) =
        ∑ c ∈ Finset.range n, znTable n i c * (starRingEnd ℂ) (znTable n j c) :=
      Finset.sum_congr rfl fun c hc => by
        rw [rows_table hi (Finset.mem_range.1 hc), rows_table hj (Finset.mem_range.1 hc), hsz c (Finset.mem_range.1 hc)]
        simp
    rw [hsum]
    have := rint_eq_of (orth_near hn hn' hi hj (f := fun c => znTable n i c) (g := fun c => znTable n j c)
      (fun c _ => table_near n i c) (fun c _ => table_near n j c))
    rw [this]

theorem full_eq {d : ℕ} (U : Matrix (Fin d) (Fin d) ℂ) {n : ℕ} (hn : n ≠ 0) (k : ℕ) :
    symmProjFull ((List.range n).map (znTable n k)) (znClasses U n) = approxProj U n (znTable n k) := by
  unfold symmProjFull approxProj
  rw [classes_eq U hn, List.map_map, List.zip_map', List.map_map, Finset.sum_range, ← List.sum_ofFn,
    List.ofFn_eq_map]
  rw [← List.map_coe_finRange_eq_range, List.map_map]
  congr 1
  refine List.map_congr_left fun l _ => ?_
  simp

/-! ## The result -/

/-- What the projectors satisfy, with tolerance `ε` for the relations between different projectors. -/
structure ZnGood {d : ℕ} (U : Matrix (Fin d) (Fin d) ℂ) (n : ℕ) (ε : ℝ) (projs : List (Rows d)) : Prop where
  length : projs.length = n
  total : (projs.map List.length).sum = d
  orthonormal : ∀ P ∈ projs, ∀ (a b : ℕ) (ha : a < P.length) (hb : b < P.length),
    rowInner P[a] P[b] = if a = b then 1 else 0
  across : ∀ (k l : ℕ) (P Q : Rows d), projs[k]? = some P → projs[l]? = some Q → k ≠ l →
    ∀ r ∈ P, ∀ s ∈ Q, ‖rowInner r s‖ ≤ ε
  eigen : ∀ (k : ℕ) (P : Rows d), projs[k]? = some P → ∀ r ∈ P, ∀ j,
    ‖(∑ i, r i * U i j) - Complex.exp (-Complex.I * (2 * Real.pi * k / n)) * r j‖ ≤ ε
  resolution : ∀ i j : Fin d,
    ‖(projs.map fun P => (P.map fun r => (starRingEnd ℂ) (r i) * r j).sum).sum - if i = j then 1 else 0‖ ≤ ε


namespace ZnData

variable {d : ℕ} {U : Matrix (Fin d) (Fin d) ℂ} {σ : Equiv.Perm (Fin d)} {u : Fin d → ℂ} {n : ℕ}
  {A : ℕ → Matrix (Fin d) (Fin d) ℂ} {δ : ℝ} (h : ZnData U σ u n A δ)

/-- The list of projectors. -/
noncomputable def projs (h : ZnData U σ u n A δ) : List (Rows d) :=
  (List.range n).map fun k =>
    ((List.finRange d).filter fun c => decide (h.Kept k c)).map fun c => normalizeRow (h.row k c)

theorem projs_eq :
    h.projs = (List.range n).map fun k => reduceSymmProjector (List.ofFn fun i j => A k i j) :=
  List.map_congr_left fun k hk => (h.reduced (List.mem_range.1 hk)).symm

theorem projs_get (k : ℕ) (P : Rows d) (hP : h.projs[k]? = some P) : k < n ∧
    P = ((List.finRange d).filter fun c => decide (h.Kept k c)).map fun c => normalizeRow (h.row k c) := by
  unfold projs at hP
  rw [List.getElem?_map] at hP
  by_cases hk : k < n
  · rw [List.getElem?_range hk] at hP
    exact ⟨hk, by simpa using hP.symm⟩
  · rw [List.getElem?_eq_none (by simp; omega)] at hP
    simp at hP

theorem projs_mem (k : ℕ) (P : Rows d) (hP : h.projs[k]? = some P) : ∀ r ∈ P,
    ∃ c, h.Kept k c ∧ r = normalizeRow (h.row k c) := by
  intro r hr
  rw [(h.projs_get k P hP).2] at hr
  obtain ⟨c, hc, rfl⟩ := List.mem_map.1 hr
  exact ⟨c, by simpa using hc, rfl⟩

theorem good : ZnGood U n (7 * δ) h.projs := by
  have htot : (h.projs.map List.length).sum = d := by
    rw [h.projs_eq]
    exact h.total
  have hget := h.projs_get
  have hmem := h.projs_mem
  have hδ0 := h.nonneg
  refine ⟨?_, htot, ?_, ?_, ?_, ?_⟩
  · simp [projs]
  · intro P hP a b ha hb
    obtain ⟨k, hk⟩ := List.mem_iff_getElem?.1 hP
    obtain ⟨hkn, hPe⟩ := hget k P hk
    subst hPe
    simp only [List.getElem_map]
    set L := (List.finRange d).filter fun c => decide (h.Kept k c) with hL
    have hnd : L.Nodup := (List.nodup_finRange d).filter _
    have hLm : ∀ (a : ℕ) (ha : a < L.length), h.Kept k L[a] := by
      intro a ha
      have hm : ∀ c ∈ L, h.Kept k c := fun c hc => by
        rw [hL] at hc
        simpa using (List.mem_filter.1 hc).2
      exact hm _ (List.getElem_mem ha)
    have ha' : a < L.length := by simpa using ha
    have hb' : b < L.length := by simpa using hb
    split_ifs with hab
    · subst hab
      exact h.inner_self hkn (hLm a ha')
    · refine h.inner_disjoint fun hs => hab ?_
      exact (List.Nodup.getElem_inj_iff hnd).1 (h.kept_unique (hLm a ha') (hLm b hb') hs)
  · intro k l P Q hP hQ hkl r hr s hs
    obtain ⟨c, hc, rfl⟩ := hmem k P hP r hr
    obtain ⟨c', hc', rfl⟩ := hmem l Q hQ s hs
    exact h.inner_small (hget k P hP).1 (hget l Q hQ).1 hkl hc hc'
  · intro k P hP r hr j
    obtain ⟨c, hc, rfl⟩ := hmem k P hP r hr
    have hω : Complex.exp (-Complex.I * (2 * Real.pi * k / n)) = omega n k := by
      unfold omega
      congr 1
      ring
    rw [hω]
    exact (h.eigen (hget k P hP).1 hc j).trans (by linarith)
  · intro i j
    have hsum : (h.projs.map fun P => (P.map fun r => (starRingEnd ℂ) (r i) * r j).sum).sum =
        ∑ k ∈ Finset.range n, ∑ c ∈ Finset.univ.filter (fun c => h.Kept k c),
          normalizeRow (h.row k c) j * (starRingEnd ℂ) (normalizeRow (h.row k c) i) := by
      rw [projs, List.map_map, Finset.sum_range, ← List.sum_ofFn, List.ofFn_eq_map, ← List.map_coe_finRange_eq_range,
        List.map_map]
      congr 1
      refine List.map_congr_left fun k _ => ?_
      simp only [Function.comp]
      rw [List.map_map]
      have hnd : ((List.finRange d).filter fun c => decide (h.Kept k c)).Nodup := (List.nodup_finRange d).filter _
      have hset : (Finset.univ.filter fun c => h.Kept k c) =
          ((List.finRange d).filter fun c => decide (h.Kept k c)).toFinset := by
        ext c
        simp
      rw [hset, List.sum_toFinset _ hnd]
      congr 1
      exact List.map_congr_left fun c _ => mul_comm _ _
    rw [hsum]
    exact h.resolution i j


end ZnData

/-- What `getZnProjectors` returns. -/
theorem zn_ok {d : ℕ} {U W : Matrix (Fin d) (Fin d) ℂ} {σ : Equiv.Perm (Fin d)} {u : Fin d → ℂ} {n : ℕ} {δ : ℝ}
    (h : ZnData U σ u n (fun k => approxProj W n (znTable n k)) δ) (hn' : n < 10 ^ 4) :
    getZnProjectors W n = .ok (h.projs, (List.range n).map fun k : ℕ => 2 * Real.pi * (k : ℝ) / (n : ℝ)) := by
  have hn := h.pos
  unfold getZnProjectors
  rw [if_neg hn]
  have hsym : getSymmetryProjectors (znRows n) (znClasses W n) =
      .ok ((List.range n).map fun k => approxProj W n (znTable n k)) := by
    unfold getSymmetryProjectors
    rw [if_pos (zn_valid W hn hn')]
    congr 1
    unfold znRows
    rw [List.map_map]
    exact List.map_congr_left fun k _ => full_eq W hn k
  rw [hsym]
  simp only [bind, Except.bind]
  have hmm : ((List.range n).map fun k => approxProj W n (znTable n k)).map
      (fun p => reduceSymmProjector (List.ofFn fun i j => p i j)) = h.projs := by
    rw [List.map_map, h.projs_eq]
    rfl
  rw [hmm, if_neg (by simpa using h.good.total)]
  rfl

/-- The data of an operator of which the powers are known exactly. -/
theorem znData_of {d : ℕ} {U : Matrix (Fin d) (Fin d) ℂ} {σ : Equiv.Perm (Fin d)} {u : Fin d → ℂ}
    (hm : Mono U σ u) {n : ℕ} (hn : n ≠ 0) (hn' : n < 10 ^ 4) (hpow : U ^ n = 1) {δ : ℝ} (hδ0 : 0 ≤ δ)
    (hδ1 : δ ≤ 1 / 10 ^ 14) (hx : ∀ k < n, ∀ l < n, ‖znTable n k l - omega n k ^ l‖ ≤ δ) :
    ZnData U σ u n (fun k => approxProj U n (znTable n k)) δ := by
  refine ⟨hm, hn, hpow, fun k i j hc => approx_zero hm _ hc,
    fun k hk i j hc => approx_error hm hn hpow (hx k hk) hc, hδ0, ?_⟩
  have hc : (n : ℝ) < 10 ^ 4 := by exact_mod_cast hn'
  have hp : (0 : ℝ) ≤ n := by positivity
  calc (n : ℝ) * δ ≤ n * (1 / 10 ^ 14) := mul_le_mul_of_nonneg_left hδ1 hp
    _ < 10 ^ 4 * (1 / 10 ^ 14) := mul_lt_mul_of_pos_right hc (by norm_num)
    _ = (10 : ℝ) ^ (-10 : ℤ) := by norm_num

end ED
