import Verif.Lemmas.PositiveAverage
import Verif.Lemmas.ChainConnected
import Verif.Lemmas.ParticleHole
import Verif.Lemmas.SpinRotation

/-! # Helper lemmas: exchange of neighbouring spins one half -/

namespace ED

open Matrix
open scoped BigOperators

variable {n : ℕ}

/-- The transverse part of the product of two spins exchanges antiparallel spins. -/
theorem exchange_entries {i j : Fin n} (hij : i ≠ j) (s t : Conf n 2) :
    (siteOp (sxM 1) i * siteOp (sxM 1) j + siteOp (syM 1) i * siteOp (syM 1) j : Op n 2) s t = if Moves2 i j s t then 1 / 2 else 0 := by
  wlog hl : j < i generalizing i j
  · have := this hij.symm (lt_of_le_of_ne (not_lt.1 hl) hij)
    rw [siteOp_comm hij, siteOp_comm hij, this]
    refine if_congr ⟨fun h => ?_, fun h => ?_⟩ rfl rfl
    · exact ⟨fun k a b => h.1 k b a, h.2.2.1, h.2.1, h.2.2.2.symm⟩
    · exact ⟨fun k a b => h.1 k b a, h.2.2.1, h.2.1, h.2.2.2.symm⟩
  rw [siteOp_eq_bop, siteOp_eq_bop, siteOp_eq_bop, siteOp_eq_bop, bop_mul_gt hl, bop_mul_gt hl, Matrix.add_apply, bop2_apply hl, bop2_apply hl]
  have hk : (∀ k, k ≠ j → k ≠ i → s k = t k) ↔ ∀ k, k ≠ i → k ≠ j → s k = t k := ⟨fun h k a b => h k b a, fun h k a b => h k b a⟩
  unfold Moves2
  simp only [hk]
  by_cases hc : ∀ k, k ≠ i → k ≠ j → s k = t k
  · rw [if_pos hc, if_pos hc]
    simp only [eq_true hc, true_and]
    generalize s i = x
    generalize t i = y
    generalize s j = z
    generalize t j = w
    have x00 : sxM 1 0 0 = 0 := by simp [sxM, spM, smM]
    have x11 : sxM 1 1 1 = 0 := by simp [sxM, spM, smM]
    have x01 : sxM 1 0 1 = 1 / 2 := by simp [sxM, spM, smM]
    have x10 : sxM 1 1 0 = 1 / 2 := by simp [sxM, spM, smM]
    have y00 : syM 1 0 0 = 0 := by simp [syM, spM, smM]
    have y11 : syM 1 1 1 = 0 := by simp [syM, spM, smM]
    have y01 : syM 1 0 1 = Complex.I / 2 := by simp [syM, spM, smM]; ring
    have y10 : syM 1 1 0 = -(Complex.I / 2) := by simp [syM, spM, smM]; ring
    have hI : Complex.I / 2 * (Complex.I / 2) = -(1 / 4) := by rw [div_mul_div_comm, Complex.I_mul_I]; norm_num
    have h2 : ∀ a : Fin 2, a = 0 ∨ a = 1 := by decide
    rcases h2 x with rfl | rfl <;> rcases h2 y with rfl | rfl <;> rcases h2 z with rfl | rfl <;> rcases h2 w with rfl | rfl <;>
      simp [x00, x11, x01, x10, y00, y11, y01, y10, hI] <;> norm_num
  · simp [hc]

/-- Signs of two states that differ by the exchange of two spins. -/
theorem occSign_moves {χ : Fin n → ℤ} (hχ : ∀ i, χ i * χ i = 1) {p q : Fin n} (hpq : p ≠ q) {s t : Conf n 2} (h : Moves2 p q s t) :
    occSign χ s * star (occSign χ t) = ((χ p * χ q : ℤ) : ℂ) := by
  rw [star_occSign]
  unfold occSign
  have h2 : ∀ a : Fin 2, a = 0 ∨ a = 1 := by decide
  have key : ∀ k, s k ≠ t k → ((if s k = 1 then (χ k : ℂ) else 1) * if t k = 1 then (χ k : ℂ) else 1) = χ k := fun k hk => by
    rcases h2 (s k) with e | e <;> rcases h2 (t k) with e' | e' <;> rw [e, e'] at hk ⊢ <;> simp at hk ⊢
  rw [← Finset.prod_mul_distrib, Finset.prod_eq_mul p q hpq]
  · rw [key p h.2.1, key q h.2.2.1, Int.cast_mul]
  · intro k _ hk
    rw [h.1 k hk.1 hk.2]
    split_ifs
    · exact_mod_cast hχ k
    · rw [one_mul]
  · intro h'
    exact absurd (Finset.mem_univ p) h'
  · intro h'
    exact absurd (Finset.mem_univ q) h'

theorem siteOp_diag (i : Fin n) : ∃ f, (siteOp (szM 1) i : Op n 2) = diagonal f := by
  refine ⟨fun s => szM 1 (s i) (s i), ?_⟩
  ext s t
  by_cases e : s = t
  · subst e
    rw [diagonal_apply_eq, siteOp, of_apply]
    exact if_pos (show AgreeOff i s s from fun _ _ => rfl)
  · rw [diagonal_apply_ne _ e, siteOp, of_apply]
    split_ifs with h
    · have : s i ≠ t i := fun e' => e (funext fun k => by
        by_cases hk : k = i
        · rw [hk, e']
        · exact h k hk)
      rw [szM, diagonal_apply_ne _ this]
    · rfl

/-- Weights of the exchanges. -/
noncomputable def exchangeWeight (J : Fin n → Fin n → ℝ) (s t : Conf n 2) : ℝ :=
  ∑ i, ∑ j, if j < i ∧ Moves2 i j s t then |J i j| else 0

theorem exchange_gauged (J : Fin n → Fin n → ℝ) (jz : Fin n → Fin n → ℂ) (hz : Fin n → ℂ) {χ : Fin n → ℤ} (hχ : ∀ i, χ i * χ i = 1)
    (hJ : ∀ i j, j < i → J i j = -(|J i j| * ((χ i * χ j : ℤ) : ℝ))) :
    Gauged (heis (sxM 1) (syM 1) (szM 1) (fun i j => (J i j : ℂ)) (fun i j => (J i j : ℂ)) jz (fun _ => 0) (fun _ => 0) hz : Op n 2)
      (occSign χ) (exchangeWeight J) := by
  refine ⟨fun s => ?_, fun s t => ?_, fun s t hst => ?_⟩
  · have h : Complex.normSq (occSign χ s) = occSign χ s * star (occSign χ s) := by rw [Complex.star_def, Complex.mul_conj]
    rw [star_occSign, occSign_self hχ] at h
    exact_mod_cast h
  · refine Finset.sum_nonneg fun i _ => Finset.sum_nonneg fun j _ => ?_
    split_ifs
    · exact abs_nonneg _
    · exact le_rfl
  · have hz0 : ∀ i : Fin n, (siteOp (szM 1) i : Op n 2) s t = 0 := fun i => by
      obtain ⟨f, hf⟩ := siteOp_diag i
      rw [hf, diagonal_apply_ne _ hst]
    have hzz : ∀ i j : Fin n, (siteOp (szM 1) i * siteOp (szM 1) j : Op n 2) s t = 0 := fun i j => by
      obtain ⟨f, hf⟩ := siteOp_diag i
      obtain ⟨g, hg⟩ := siteOp_diag j
      rw [hf, hg, diagonal_mul_diagonal, diagonal_apply_ne _ hst]
    have hfield : (∑ i, ((0 : ℂ) • siteOp (sxM 1) i + (0 : ℂ) • siteOp (syM 1) i + hz i • siteOp (szM 1) i) : Op n 2) s t = 0 := by
      rw [Matrix.sum_apply]
      refine Finset.sum_eq_zero fun i _ => ?_
      rw [zero_smul, zero_smul, zero_add, zero_add, Matrix.smul_apply, hz0, smul_zero]
    rw [heis, Matrix.sub_apply, hfield, sub_zero, Matrix.sum_apply, exchangeWeight, Complex.ofReal_sum, Finset.sum_mul, ← Finset.sum_neg_distrib]
    refine Finset.sum_congr rfl fun i _ => ?_
    rw [Matrix.sum_apply, Complex.ofReal_sum, Finset.sum_mul, ← Finset.sum_neg_distrib]
    refine Finset.sum_congr rfl fun j _ => ?_
    by_cases hl : j < i
    · rw [if_pos hl, ← smul_add, Matrix.add_apply, Matrix.smul_apply, Matrix.smul_apply, exchange_entries hl.ne', hzz, smul_zero, add_zero]
      by_cases hm : Moves2 i j s t
      · rw [if_pos hm, if_pos ⟨hl, hm⟩, occSign_moves hχ hl.ne' hm, smul_eq_mul]
        have := hJ i j hl
        conv_lhs => rw [this]
        push_cast
        ring
      · rw [if_neg hm, if_neg fun h => hm h.2]
        simp
    · rw [if_neg hl, if_neg fun h => hl h.1]
      simp

/-- Exchanging the spins of two coupled sites has a positive weight. -/
theorem exchangeWeight_pos {J : Fin n → Fin n → ℝ} {i j : Fin n} (h : (j < i ∧ J i j ≠ 0) ∨ (i < j ∧ J j i ≠ 0)) {s t : Conf n 2} (hm : Moves2 i j s t) :
    0 < exchangeWeight J s t := by
  wlog hl : j < i generalizing i j
  · refine this (i := j) (j := i) h.symm ⟨fun k a b => hm.1 k b a, hm.2.2.1, hm.2.1, hm.2.2.2.symm⟩ ?_
    rcases h with h | h
    · exact absurd h.1 hl
    · exact h.1
  have hJ : J i j ≠ 0 := h.elim (fun h => h.2) fun h => absurd h.1 (not_lt.2 hl.le)
  have hnn : ∀ i j, 0 ≤ if j < i ∧ Moves2 i j s t then |J i j| else 0 := fun i j => by
    split_ifs
    · exact abs_nonneg _
    · exact le_rfl
  refine Finset.sum_pos' (fun i _ => Finset.sum_nonneg fun j _ => hnn i j) ⟨i, Finset.mem_univ i, ?_⟩
  refine Finset.sum_pos' (fun j _ => hnn i j) ⟨j, Finset.mem_univ j, ?_⟩
  rw [if_pos ⟨hl, hm⟩]
  exact abs_pos.2 hJ

/-- One spin up at the given site. -/
def oneUp (i : Fin n) : Conf n 2 := Pi.single i 1

theorem oneUp_moves {i j : Fin n} (h : i ≠ j) : Moves2 i j (oneUp i) (oneUp j) := by
  unfold oneUp
  refine ⟨fun k a b => ?_, ?_, ?_, ?_⟩
  · rw [Pi.single_eq_of_ne a, Pi.single_eq_of_ne b]
  · rw [Pi.single_eq_same, Pi.single_eq_of_ne h]
    decide
  · rw [Pi.single_eq_same, Pi.single_eq_of_ne h.symm]
    decide
  · rw [Pi.single_eq_same, Pi.single_eq_of_ne h]
    decide

/-- A single spin that is up can be carried along coupled sites. -/
theorem oneUp_path {J : Fin n → Fin n → ℝ} {i j : Fin n} (h : Relation.ReflTransGen (fun i j => (j < i ∧ J i j ≠ 0) ∨ (i < j ∧ J j i ≠ 0)) i j) :
    Relation.ReflTransGen (fun s t => s ≠ t ∧ 0 < exchangeWeight J s t) (oneUp i) (oneUp j) := by
  induction h with
  | refl => exact .refl
  | @tail b c _ h ih =>
    have hne : b ≠ c := by
      rintro rfl
      rcases h with h | h <;> exact lt_irrefl _ h.1
    exact ih.tail ⟨(oneUp_moves hne).ne, exchangeWeight_pos h (oneUp_moves hne)⟩

/-- The sign of the transverse correlations. -/
theorem exchange_sign (J : Fin n → Fin n → ℝ) (jz : Fin n → Fin n → ℂ) (hz : Fin n → ℂ) {χ : Fin n → ℤ} (hχ : ∀ i, χ i * χ i = 1)
    (hJ : ∀ i j, j < i → J i j = -(|J i j| * ((χ i * χ j : ℤ) : ℝ))) {H : Op n 2} (hH : H.IsHermitian)
    (e : H = heis (sxM 1) (syM 1) (szM 1) (fun i j => (J i j : ℂ)) (fun i j => (J i j : ℂ)) jz (fun _ => 0) (fun _ => 0) hz)
    {i j : Fin n} (hij : i ≠ j) {T : ℝ} (hT : 0 < T) :
    0 ≤ thermalAvg H (((χ i * χ j : ℤ) : ℂ) • (siteOp (sxM 1) i * siteOp (sxM 1) j + siteOp (syM 1) i * siteOp (syM 1) j)) T ∧
      (Relation.ReflTransGen (fun i j => (j < i ∧ J i j ≠ 0) ∨ (i < j ∧ J j i ≠ 0)) i j →
        0 < thermalAvg H (((χ i * χ j : ℤ) : ℂ) • (siteOp (sxM 1) i * siteOp (sxM 1) j + siteOp (syM 1) i * siteOp (syM 1) j)) T) := by
  have hG := exchange_gauged J jz hz hχ hJ
  rw [← e] at hG
  have key := hG.average hH hT (O := ((χ i * χ j : ℤ) : ℂ) • (siteOp (sxM 1) i * siteOp (sxM 1) j + siteOp (syM 1) i * siteOp (syM 1) j))
    (o := fun s t => if Moves2 i j s t then 1 / 2 else 0) (fun s t => by
      rw [Matrix.smul_apply, exchange_entries hij]
      by_cases hm : Moves2 i j s t
      · rw [if_pos hm, if_pos hm, occSign_moves hχ hij hm]
        push_cast
        simp only [smul_eq_mul]
        ring
      · rw [if_neg hm, if_neg hm]
        simp) (fun s t => by split_ifs <;> norm_num)
  refine ⟨key.1, fun h => key.2 ⟨oneUp i, oneUp j, oneUp_path h, ?_⟩⟩
  rw [if_pos (oneUp_moves hij).symm]
  norm_num

/-! ## Turning all spins -/

theorem thermalAvg_conj {ι : Type} [Fintype ι] [DecidableEq ι] {H W : Matrix ι ι ℂ} (h : W * Wᴴ = 1) (hW : W * H * Wᴴ = H) (O : Matrix ι ι ℂ) (T : ℝ) :
    thermalAvg H (W * O * Wᴴ) T = thermalAvg H O T := by
  have h' : Wᴴ * W = 1 := mul_eq_one_comm.1 h
  have hc : Wᴴ * boltzOp H T = boltzOp H T * Wᴴ := by
    unfold boltzOp
    refine exp_semiconj ?_
    rw [Matrix.mul_smul, Matrix.smul_mul]
    congr 1
    conv_lhs => rw [← hW]
    rw [← Matrix.mul_assoc, ← Matrix.mul_assoc, h', Matrix.one_mul]
  rw [thermalAvg_ratio, thermalAvg_ratio, ← Matrix.mul_assoc, trace_mul_comm, ← Matrix.mul_assoc, ← Matrix.mul_assoc, hc, Matrix.mul_assoc (boltzOp H T), h',
    Matrix.mul_one]

variable {b : ℕ}

/-- Correlations along two directions that are exchanged by a rotation of all spins. -/
theorem thermalAvg_rotate {H : Op n b} {U X Y : Matrix (Fin b) (Fin b) ℂ} (hU : U * Uᴴ = 1) (hH : everywhere n U * H * (everywhere n U)ᴴ = H)
    (hX : U * X * Uᴴ = Y ∨ U * X * Uᴴ = -Y) (i j : Fin n) (T : ℝ) :
    thermalAvg H (siteOp X i * siteOp X j) T = thermalAvg H (siteOp Y i * siteOp Y j) T := by
  have hW := everywhere_unitary (n := n) hU
  have hW' : (everywhere n U)ᴴ * everywhere n U = 1 := mul_eq_one_comm.1 hW
  rw [← thermalAvg_conj hW hH (siteOp X i * siteOp X j), conj_mul2 hW', everywhere_conj hU, everywhere_conj hU]
  rcases hX with e | e
  · rw [e]
  · have hn : ∀ k : Fin n, siteOp (-Y) k = -siteOp Y k := fun k => by
      ext s t
      simp only [siteOp, of_apply, Matrix.neg_apply]
      split_ifs <;> simp
    rw [e, hn, hn, neg_mul_neg]

end ED
