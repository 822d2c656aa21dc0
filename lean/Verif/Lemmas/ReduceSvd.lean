import Verif.Lemmas.ReduceApprox
import Verif.Lemmas.SvdRank
import Verif.Lemmas.ZnRows
import Mathlib.Algebra.BigOperators.Fin

/-! # The reduction with singular vectors -/

namespace ED

open scoped BigOperators Matrix
open Classical

variable {d : ℕ}

/-- A vector on a list of columns as a row. -/
noncomputable def lift (cols : List (Fin d)) (x : Fin cols.length → ℂ) : Fin d → ℂ :=
  fun j => if h : cols.idxOf j < cols.length then x ⟨cols.idxOf j, h⟩ else 0

theorem lift_get {cols : List (Fin d)} (hn : cols.Nodup) (x : Fin cols.length → ℂ) (b : Fin cols.length) :
    lift cols x cols[b] = x b := by
  unfold lift
  have : cols.idxOf cols[b] = b.val := by
    rw [Fin.getElem_fin]
    exact hn.idxOf_getElem b.val b.isLt
  rw [dif_pos (by rw [this]; exact b.isLt)]
  congr 1
  exact Fin.ext this

theorem lift_off {cols : List (Fin d)} (x : Fin cols.length → ℂ) {j : Fin d} (h : j ∉ cols) : lift cols x j = 0 := by
  unfold lift
  rw [dif_neg (by rw [List.idxOf_lt_length_iff]; exact h)]

theorem sum_cols {M : Type} [AddCommMonoid M] {cols : List (Fin d)} (hn : cols.Nodup) (F : Fin d → M) (h : ∀ j, j ∉ cols → F j = 0) :
    ∑ j, F j = ∑ b : Fin cols.length, F cols[b] := by
  have h1 : ∑ b : Fin cols.length, F cols[b] = (cols.map F).sum := by
    simp only [Fin.getElem_fin]
    exact Fin.sum_univ_fun_getElem cols F
  rw [h1, ← List.sum_toFinset F hn]
  refine (Finset.sum_subset (Finset.subset_univ _) fun j _ hj => h j (by simpa using hj)).symm

theorem lift_inner {cols : List (Fin d)} (hn : cols.Nodup) (x y : Fin cols.length → ℂ) :
    rowInner (lift cols x) (lift cols y) = ∑ b, x b * (starRingEnd ℂ) (y b) := by
  unfold rowInner
  rw [sum_cols hn _ fun j hj => by rw [lift_off x hj, zero_mul]]
  exact Finset.sum_congr rfl fun b _ => by rw [lift_get hn, lift_get hn]

/-- Rounding to 15 decimals changes a real vector on few columns little. -/
theorem round_near {cols : List (Fin d)} (hn : cols.Nodup) (hl : cols.length ≤ 72) (x : Fin cols.length → ℂ)
    (hx : ∀ b, (x b).im = 0) :
    rnorm (lift cols (fun b => ((npRound 15 (x b).re : ℝ) : ℂ)) - lift cols x) ≤ 1 / 2 / 10 ^ 14 := by
  rw [rnorm_eq]
  apply Real.sqrt_le_iff.2
  refine ⟨by positivity, ?_⟩
  rw [sum_cols hn _ fun j hj => by rw [Pi.sub_apply, lift_off _ hj, lift_off _ hj]; simp]
  have hb : ∀ b ∈ (Finset.univ : Finset (Fin cols.length)),
      ‖(lift cols (fun b => ((npRound 15 (x b).re : ℝ) : ℂ)) - lift cols x) cols[b]‖ ^ 2 ≤ ((1 : ℝ) / 2 / 10 ^ 15) ^ 2 := by
    intro b _
    rw [Pi.sub_apply, lift_get hn, lift_get hn]
    have e : x b = (((x b).re : ℝ) : ℂ) := Complex.ext rfl (by rw [hx b, Complex.ofReal_im])
    have : ‖((npRound 15 (x b).re : ℝ) : ℂ) - x b‖ ≤ 1 / 2 / 10 ^ 15 := by
      conv_lhs => rw [e]
      rw [Complex.ofReal_re, ← Complex.ofReal_sub, Complex.norm_real]
      exact abs_npRound_sub 15 (x b).re
    exact pow_le_pow_left₀ (norm_nonneg _) this 2
  refine (Finset.sum_le_card_nsmul _ _ _ hb).trans ?_
  rw [Finset.card_univ, Fintype.card_fin, nsmul_eq_mul]
  have : (cols.length : ℝ) ≤ 72 := by exact_mod_cast hl
  nlinarith

theorem near_sum {ε : ℝ} {rows vs : Rows d} (h : List.Forall₂ (fun r v => rnorm (r - v) ≤ ε) rows vs)
    (hr : ∀ r ∈ rows, rowInner r r = 1) (hv : ∀ v ∈ vs, rowInner v v = 1) (i j : Fin d) :
    ‖(rows.map fun r => (starRingEnd ℂ) (r i) * r j).sum - (vs.map fun v => (starRingEnd ℂ) (v i) * v j).sum‖ ≤
      rows.length * (2 * ε) := by
  induction h with
  | nil => simp
  | @cons r v rows vs h1 _ ih =>
    have ih := ih (fun r hr' => hr r (List.mem_cons_of_mem _ hr')) fun v hv' => hv v (List.mem_cons_of_mem _ hv')
    simp only [List.map_cons, List.sum_cons, List.length_cons]
    have a := (entry_le_rnorm (r - v) i).trans h1
    have b := (entry_le_rnorm (r - v) j).trans h1
    have c := (entry_le_rnorm r j).trans_eq (rnorm_one (hr r List.mem_cons_self))
    have e := (entry_le_rnorm v i).trans_eq (rnorm_one (hv v List.mem_cons_self))
    rw [Pi.sub_apply] at a b
    have key : ‖(starRingEnd ℂ) (r i) * r j - (starRingEnd ℂ) (v i) * v j‖ ≤ 2 * ε := by
      have e1 : (starRingEnd ℂ) (r i) * r j - (starRingEnd ℂ) (v i) * v j =
          (starRingEnd ℂ) (r i - v i) * r j + (starRingEnd ℂ) (v i) * (r j - v j) := by
        rw [map_sub]
        ring
      rw [e1]
      refine (norm_add_le _ _).trans ?_
      rw [norm_mul, norm_mul, RCLike.norm_conj, RCLike.norm_conj]
      have h2 : ‖r i - v i‖ * ‖r j‖ ≤ ε * 1 := mul_le_mul a c (norm_nonneg _) ((norm_nonneg _).trans a)
      have h3 : ‖v i‖ * ‖r j - v j‖ ≤ 1 * ε := mul_le_mul e b (norm_nonneg _) zero_le_one
      linarith
    have e2 : ∀ x y z w : ℂ, x + y - (z + w) = (x - z) + (y - w) := fun x y z w => by ring
    rw [e2]
    refine (norm_add_le _ _).trans ?_
    push_cast
    linarith

/-- What is assumed of an unnormalised projector and of the matrix of related states. -/
structure BlockData (K : Matrix (Fin d) (Fin d) ℂ) (rel : Fin d → Fin d → ℂ) (c : ℂ) : Prop where
  refl : ∀ i, rel i i ≠ 0
  symm : ∀ i j, rel i j ≠ 0 → rel j i ≠ 0
  trans : ∀ i j k, rel i j ≠ 0 → rel j k ≠ 0 → rel i k ≠ 0
  off : ∀ i j, rel i j = 0 → K i j = 0
  herm : Kᴴ = K
  sq : K * K = c • K
  ne : c ≠ 0
  real : ∀ i j, (K i j).im = 0
  gap : ∀ i j, K i j = 0 ∨ (10 : ℝ) ^ (-10 : ℤ) ≤ ‖K i j‖
  small : ∀ i, (Finset.univ.filter fun j => rel i j ≠ 0).card ≤ 72

namespace BlockData

variable {K : Matrix (Fin d) (Fin d) ℂ} {rel : Fin d → Fin d → ℂ} {c : ℂ}

/-- The first state of a set of related states. -/
def First (rel : Fin d → Fin d → ℂ) (x : Fin d) : Prop := ∀ j < x, rel x j = 0

/-- The states related to a given one. -/
noncomputable def cols (rel : Fin d → Fin d → ℂ) (x : Fin d) : List (Fin d) :=
  (List.finRange d).filter fun j => rel x j ≠ 0

theorem cols_nodup (x : Fin d) : (cols rel x).Nodup := (List.nodup_finRange d).filter _

theorem mem_cols {x j : Fin d} : j ∈ cols rel x ↔ rel x j ≠ 0 := by
  unfold cols
  simp

/-- The part of the projection on one set of related states. -/
noncomputable def part (K : Matrix (Fin d) (Fin d) ℂ) (rel : Fin d → Fin d → ℂ) (c : ℂ) (x : Fin d) :
    Matrix (Fin d) (Fin d) ℂ :=
  fun i j => if First rel x ∧ rel x i ≠ 0 ∧ rel x j ≠ 0 then c⁻¹ * K i j else 0

/-- The set of states belonging to a part. -/
noncomputable def dom (rel : Fin d → Fin d → ℂ) (x : Fin d) : Finset (Fin d) :=
  Finset.univ.filter fun j => First rel x ∧ rel x j ≠ 0

variable (h : BlockData K rel c)
include h

theorem dom_disjoint {x y : Fin d} (hxy : x ≠ y) : Disjoint (dom rel x) (dom rel y) := by
  rw [Finset.disjoint_left]
  intro j hj hj'
  unfold dom at hj hj'
  rw [Finset.mem_filter] at hj hj'
  have hr := h.trans _ _ _ hj.2.2 (h.symm _ _ hj'.2.2)
  rcases lt_or_gt_of_ne hxy with hlt | hlt
  · exact h.symm _ _ hr (hj'.2.1 x hlt)
  · exact hr (hj.2.1 y hlt)

theorem exists_first (i : Fin d) : ∃ x, First rel x ∧ rel x i ≠ 0 := by
  obtain ⟨x, hx, hmin⟩ := (Finset.univ.filter fun x => rel x i ≠ 0).exists_min_image id
    ⟨i, by simpa using h.refl i⟩
  rw [Finset.mem_filter] at hx
  refine ⟨x, fun j hj => ?_, hx.2⟩
  by_contra hne
  have := hmin j (by
    rw [Finset.mem_filter]
    exact ⟨Finset.mem_univ _, h.trans _ _ _ (h.symm _ _ hne) hx.2⟩)
  exact absurd hj (not_lt.2 this)

theorem first_unique {x y i : Fin d} (hx : First rel x) (hy : First rel y) (hxi : rel x i ≠ 0) (hyi : rel y i ≠ 0) :
    x = y := by
  by_contra hne
  have := h.dom_disjoint hne
  rw [Finset.disjoint_left] at this
  exact this (a := i) (by unfold dom; simp [hx, hxi]) (by unfold dom; simp [hy, hyi])

theorem part_sum : ((List.finRange d).map (part K rel c)).sum = c⁻¹ • K := by
  have e : ((List.finRange d).map (part K rel c)).sum = ∑ x, part K rel c x := by
    rw [← List.sum_toFinset _ (List.nodup_finRange d), List.toFinset_finRange]
  rw [e]
  ext i j
  rw [Matrix.sum_apply, Matrix.smul_apply, smul_eq_mul]
  obtain ⟨x, hx, hxi⟩ := h.exists_first i
  rw [Finset.sum_eq_single x]
  · unfold part
    by_cases hj : rel x j = 0
    · rw [if_neg (fun hc => hc.2.2 hj)]
      rw [h.off i j, mul_zero]
      by_contra hij
      exact h.trans _ _ _ hxi hij hj
    · rw [if_pos ⟨hx, hxi, hj⟩]
  · intro y _ hy
    unfold part
    rw [if_neg]
    rintro ⟨h1, h2, _⟩
    exact hy (h.first_unique h1 hx h2 hxi)
  · exact fun hh => absurd (Finset.mem_univ _) hh

theorem drop (i : Fin d) : dropSmall (K i) = K i := by
  funext j
  unfold dropSmall
  rcases h.gap i j with h0 | h1
  · rw [h0]
    simp
  · rw [if_neg (not_lt.2 h1)]

theorem first_rel {i x : Fin d} : firstNonzero (rel i) = some x ↔ First rel x ∧ rel x i ≠ 0 := by
  rw [firstNonzero_eq]
  constructor
  · rintro ⟨h1, h2⟩
    refine ⟨fun j hj => ?_, h.symm _ _ h1⟩
    by_contra hne
    exact h.trans _ _ _ h1 hne (h2 j hj)
  · rintro ⟨h1, h2⟩
    refine ⟨h.symm _ _ h2, fun j hj => ?_⟩
    by_contra hne
    exact h.trans _ _ _ h2 hne (h1 j hj)

/-- The rows of the projector used for one set of related states. -/
noncomputable def rowsOf (_ : BlockData K rel c) (x : Fin d) : List (Fin d) :=
  (List.finRange d).filter fun i => (∃ j, K i j ≠ 0) ∧ First rel x ∧ rel x i ≠ 0

theorem group_eq (x : Fin d) :
    ((((List.ofFn fun i j => K i j).map dropSmall).zip (List.ofFn rel)).filter fun r => decide (∃ j, r.1 j ≠ 0)).filter
      (fun r => decide (firstNonzero r.2 = some x)) = (h.rowsOf x).map fun i => (K i, rel i) := by
  have e : ((List.ofFn fun i j => K i j).map dropSmall).zip (List.ofFn rel) =
      (List.finRange d).map fun i => (K i, rel i) := by
    rw [List.ofFn_eq_map, List.ofFn_eq_map, List.map_map, List.zip_map', ]
    refine List.map_congr_left fun i _ => ?_
    simp only [Function.comp]
    rw [h.drop]
  rw [e, List.filter_filter, List.filter_map]
  congr 1
  unfold rowsOf
  refine List.filter_congr fun i _ => ?_
  simp only [Function.comp]
  rw [← Bool.decide_and, decide_eq_decide, h.first_rel]
  exact and_comm

theorem cols_eq {x i : Fin d} (hi : rel x i ≠ 0) : ((List.finRange d).filter fun j => decide (rel i j ≠ 0)) = cols rel x := by
  unfold cols
  refine List.filter_congr fun j _ => ?_
  rw [decide_eq_decide]
  exact ⟨fun hij => h.trans _ _ _ hi hij, fun hxj => h.trans _ _ _ (h.symm _ _ hi) hxj⟩

theorem rows_cover {x : Fin d} (hx : First rel x) {i j : Fin d} (hj : rel x j ≠ 0) (hi : i ∉ h.rowsOf x) : K i j = 0 := by
  by_contra hne
  apply hi
  unfold rowsOf
  rw [List.mem_filter]
  refine ⟨List.mem_finRange i, ?_⟩
  rw [decide_eq_true_eq]
  refine ⟨⟨j, hne⟩, hx, ?_⟩
  have : rel i j ≠ 0 := fun h0 => hne (h.off i j h0)
  exact h.trans _ _ _ hj (h.symm _ _ this)

theorem rows_nodup (x : Fin d) : (h.rowsOf x).Nodup := (List.nodup_finRange d).filter _

theorem entry_conj (i j : Fin d) : star (K i j) = K j i := by
  conv_rhs => rw [← h.herm]
  rfl

theorem sq_entry (i k : Fin d) : ∑ j, K i j * K j k = c * K i k := by
  have := congrFun (congrFun h.sq i) k
  rwa [Matrix.mul_apply, Matrix.smul_apply, smul_eq_mul] at this

/-- The matrix handed to the decomposition. -/
theorem gram {x : Fin d} (hx : First rel x) (j k : Fin (cols rel x).length) :
    ((sectorMat ((h.rowsOf x).map fun i j => K i j) (cols rel x))ᴴ * sectorMat ((h.rowsOf x).map fun i j => K i j) (cols rel x)) j k =
      c * K (cols rel x)[j] (cols rel x)[k] := by
  rw [Matrix.mul_apply]
  have hj : rel x (cols rel x)[j] ≠ 0 := mem_cols.1 (List.getElem_mem j.isLt)
  have e : ∀ a : Fin (List.map (fun i j => K i j) (h.rowsOf x)).length,
      (sectorMat ((h.rowsOf x).map fun i j => K i j) (cols rel x))ᴴ j a * sectorMat ((h.rowsOf x).map fun i j => K i j) (cols rel x) a k =
      K (cols rel x)[j] ((h.rowsOf x)[a.val]'(a.isLt.trans_eq (List.length_map _))) *
        K ((h.rowsOf x)[a.val]'(a.isLt.trans_eq (List.length_map _))) (cols rel x)[k] := by
    intro a
    rw [Matrix.conjTranspose_apply]
    unfold sectorMat
    simp only [Fin.getElem_fin]
    rw [List.getElem_map]
    rw [h.entry_conj]
  rw [Finset.sum_congr rfl fun a _ => e a, ← h.sq_entry]
  rw [sum_cols (h.rows_nodup x) (fun i => K (cols rel x)[j] i * K i (cols rel x)[k])
    (fun i hi => by rw [← h.entry_conj, h.rows_cover hx hj hi, star_zero, zero_mul])]
  refine Fintype.sum_equiv (finCongr (by simp)) _ _ fun a => ?_
  simp only [Fin.getElem_fin, finCongr_apply, Fin.val_cast]

/-- One set of related states. -/
theorem sector {svd : Svd} (hs : svd.Correct) {x : Fin d} (hx : First rel x) :
    Approx (1 / 10 ^ 14) (1 / 10 ^ 11) ((sectorBasis svd ((h.rowsOf x).map fun i j => K i j) (cols rel x)).map normalizeRow)
      (part K rel c x) (dom rel x) := by
  have hn : (cols rel x).Nodup := cols_nodup x
  set M := sectorMat ((h.rowsOf x).map fun i j => K i j) (cols rel x) with hM
  set V := svd _ _ M with hV
  have hR : RightSingular M V := hs _ _ M
  set E : Matrix (Fin (cols rel x).length) (Fin (cols rel x).length) ℂ :=
    fun j k => c⁻¹ * K (cols rel x)[j] (cols rel x)[k] with hE
  have hmem : ∀ b : Fin (cols rel x).length, rel x (cols rel x)[b] ≠ 0 := fun b =>
    mem_cols.1 (List.getElem_mem b.isLt)
  have hlen : (cols rel x).length ≤ 72 := by
    refine le_trans (le_of_eq ?_) (h.small x)
    rw [← List.toFinset_card_of_nodup hn]
    congr 1
    ext j
    rw [List.mem_toFinset, mem_cols]
    simp
  have hEE : E * E = E := by
    ext j k
    rw [Matrix.mul_apply]
    have := h.sq_entry (cols rel x)[j] (cols rel x)[k]
    rw [sum_cols hn _ (fun i hi => by
      rw [h.off _ i, zero_mul]
      by_contra hne
      exact hi (mem_cols.2 (h.trans _ _ _ (hmem j) hne)))] at this
    rw [hE]
    simp only
    have e : ∀ b : Fin (cols rel x).length, c⁻¹ * K (cols rel x)[j] (cols rel x)[b] * (c⁻¹ * K (cols rel x)[b] (cols rel x)[k]) =
        c⁻¹ * c⁻¹ * (K (cols rel x)[j] (cols rel x)[b] * K (cols rel x)[b] (cols rel x)[k]) := fun b => by ring
    rw [Finset.sum_congr rfl fun b _ => e b, ← Finset.mul_sum, this]
    have := h.ne
    field_simp
  have hg : Mᴴ * M = (c * c) • E := by
    ext j k
    rw [h.gram hx j k, Matrix.smul_apply, hE, smul_eq_mul]
    have := h.ne
    field_simp
  obtain ⟨hrk, hsum⟩ := hR.split (mul_ne_zero h.ne h.ne) hEE hg
  have hreal : ∀ a b, (V a b).im = 0 := hR.real fun a b => by
    rw [hM]
    unfold sectorMat
    simp only [Fin.getElem_fin]
    rw [List.getElem_map]
    exact h.real _ _
  set idx := (List.finRange (cols rel x).length).take M.rank with hidx
  have hrows : (sectorBasis svd ((h.rowsOf x).map fun i j => K i j) (cols rel x)).map normalizeRow =
      idx.map fun a => normalizeRow (lift (cols rel x) fun b => ((npRound 15 (V a b).re : ℝ) : ℂ)) := by
    unfold sectorBasis
    rw [List.map_map]
    rfl
  have hunit : ∀ a, rowInner (lift (cols rel x) (V a)) (lift (cols rel x) (V a)) = 1 := by
    intro a
    rw [lift_inner hn]
    have := congrFun (congrFun hR.unitary a) a
    rwa [Matrix.mul_apply, Matrix.one_apply_eq] at this
  have hnear : ∀ a, rnorm (lift (cols rel x) (fun b => ((npRound 15 (V a b).re : ℝ) : ℂ))) ≠ 0 ∧
      rnorm (normalizeRow (lift (cols rel x) fun b => ((npRound 15 (V a b).re : ℝ) : ℂ)) - lift (cols rel x) (V a)) ≤
        1 / 10 ^ 14 := by
    intro a
    have := normalizeRow_near (rnorm_one (hunit a)) (round_near hn hlen (V a) (hreal a)) (by norm_num)
    refine ⟨this.1, this.2.trans_eq (by ring)⟩
  have hvs : List.Forall₂ (fun r v => rnorm (r - v) ≤ 1 / 10 ^ 14)
      (idx.map fun a => normalizeRow (lift (cols rel x) fun b => ((npRound 15 (V a b).re : ℝ) : ℂ)))
      (idx.map fun a => lift (cols rel x) (V a)) := by
    rw [List.forall₂_map_left_iff, List.forall₂_map_right_iff]
    exact List.forall₂_same.2 fun a _ => (hnear a).2
  have hu1 : ∀ r ∈ (idx.map fun a => normalizeRow (lift (cols rel x) fun b => ((npRound 15 (V a b).re : ℝ) : ℂ))),
      rowInner r r = 1 := by
    intro r hr
    obtain ⟨a, -, rfl⟩ := List.mem_map.1 hr
    exact normalizeRow_unit (hnear a).1
  have hu2 : ∀ v ∈ idx.map fun a => lift (cols rel x) (V a), rowInner v v = 1 := by
    intro v hv
    obtain ⟨a, -, rfl⟩ := List.mem_map.1 hv
    exact hunit a
  have hdom : ∀ j, j ∉ dom rel x → j ∉ cols rel x := by
    intro j hj hc
    apply hj
    unfold dom
    rw [Finset.mem_filter]
    exact ⟨Finset.mem_univ _, hx, mem_cols.1 hc⟩
  have hE5 : ∀ i j, ((idx.map fun a => lift (cols rel x) (V a)).map fun v => (starRingEnd ℂ) (v i) * v j).sum =
      part K rel c x i j := by
    intro i j
    rw [List.map_map]
    by_cases hij : rel x i ≠ 0 ∧ rel x j ≠ 0
    · obtain ⟨p, hp, rfl⟩ := List.mem_iff_getElem.1 (mem_cols.2 hij.1)
      obtain ⟨q, hq, rfl⟩ := List.mem_iff_getElem.1 (mem_cols.2 hij.2)
      have ep := fun a => lift_get hn (V a) ⟨p, hp⟩
      have eq := fun a => lift_get hn (V a) ⟨q, hq⟩
      simp only [Fin.getElem_fin] at ep eq
      simp only [Function.comp_def, ep, eq]
      unfold part
      rw [if_pos ⟨hx, hij⟩]
      have := hsum ⟨p, hp⟩ ⟨q, hq⟩
      rw [hE] at this
      simp only [Fin.getElem_fin] at this
      rw [← this]
      have hnd : idx.Nodup := (List.nodup_finRange _).sublist (List.take_sublist _ _)
      rw [← List.sum_toFinset _ hnd, ← Finset.sum_filter]
      refine Finset.sum_congr ?_ fun a _ => rfl
      ext a
      rw [List.mem_toFinset, Finset.mem_filter, hidx, List.mem_take_iff_getElem]
      constructor
      · rintro ⟨n, hn', rfl⟩
        refine ⟨Finset.mem_univ _, ?_⟩
        simp only [List.getElem_finRange, Fin.val_cast]
        omega
      · rintro ⟨-, ha⟩
        refine ⟨a.val, ?_, ?_⟩
        · rw [List.length_finRange]
          omega
        · simp
    · rw [list_sum_zero]
      · unfold part
        rw [if_neg (fun hc => hij hc.2)]
      · intro a _
        simp only [Function.comp]
        rw [not_and_or, not_not, not_not] at hij
        rcases hij with h0 | h0
        · rw [lift_off (V a) (j := i) (fun hc => mem_cols.1 hc h0), map_zero, zero_mul]
        · rw [lift_off (V a) (j := j) (fun hc => mem_cols.1 hc h0), mul_zero]
  rw [hrows]
  refine ⟨hu1, ?_, ⟨_, hvs, hu2, ?_, ?_, hE5⟩, ?_⟩
  · intro r hr j hj
    obtain ⟨a, -, rfl⟩ := List.mem_map.1 hr
    rw [normalizeRow_eq]
    simp only
    rw [lift_off _ (hdom j hj), mul_zero]
  · rw [List.pairwise_map]
    have hnd : idx.Nodup := (List.nodup_finRange _).sublist (List.take_sublist _ _)
    refine List.Pairwise.imp (R := fun a b => a ≠ b) ?_ hnd
    intro a b hab
    rw [lift_inner hn]
    have := congrFun (congrFun hR.unitary a) b
    rwa [Matrix.mul_apply, Matrix.one_apply_ne hab] at this
  · intro v hv j hj
    obtain ⟨a, -, rfl⟩ := List.mem_map.1 hv
    exact lift_off _ (hdom j hj)
  · intro i j
    rw [← hE5]
    refine (near_sum hvs hu1 hu2 i j).trans ?_
    have h1 : (idx.map fun a => normalizeRow (lift (cols rel x) fun b => ((npRound 15 (V a b).re : ℝ) : ℂ))).length ≤ 72 := by
      rw [List.length_map, hidx, List.length_take, List.length_finRange]
      omega
    have h2 : ((idx.map fun a => normalizeRow (lift (cols rel x) fun b => ((npRound 15 (V a b).re : ℝ) : ℂ))).length : ℝ) ≤ 72 := by
      exact_mod_cast h1
    nlinarith

/-- The reduction with singular vectors. -/
theorem reduceBySvd_approx {svd : Svd} (hs : svd.Correct) :
    ∃ O, Approx (1 / 10 ^ 14) (1 / 10 ^ 11) (reduceBySvd svd (List.ofFn fun i j => K i j) (List.ofFn rel)) (c⁻¹ • K) O := by
  refine ⟨(List.finRange d).toFinset.biUnion (dom rel), ?_⟩
  rw [← h.part_sum]
  unfold reduceBySvd
  simp only
  rw [List.map_flatMap]
  refine Approx.flatMap (η := 1 / 10 ^ 11) (by positivity) _ _ _ _ (fun x _ => ?_) ?_
  · rw [h.group_eq x]
    unfold sectorRows
    rw [List.head?_map]
    cases hr : (h.rowsOf x).head? with
    | none =>
      simp only [Option.map_none, List.map_nil]
      rw [List.head?_eq_none_iff] at hr
      have h0 : part K rel c x = 0 := by
        ext i j
        unfold part
        rw [Matrix.zero_apply]
        split_ifs with hc
        · rw [h.rows_cover hc.1 hc.2.2 (by rw [hr]; simp), mul_zero]
        · rfl
      rw [h0]
      exact ⟨by simp, by simp, ⟨[], by simp, by simp, by simp, by simp, by simp⟩, fun i j => by simp⟩
    | some i =>
      simp only [Option.map_some]
      have hi : i ∈ h.rowsOf x := List.mem_of_head? hr
      unfold rowsOf at hi
      rw [List.mem_filter, decide_eq_true_eq] at hi
      have e1 : ((h.rowsOf x).map fun i => (K i, rel i)).map Prod.fst = (h.rowsOf x).map fun i j => K i j := by
        rw [List.map_map]
        rfl
      rw [h.cols_eq hi.2.2.2, e1]
      exact h.sector hs hi.2.2.1
  · exact List.Pairwise.imp (fun hab => h.dom_disjoint hab) (List.nodup_finRange d)

end BlockData

end ED
