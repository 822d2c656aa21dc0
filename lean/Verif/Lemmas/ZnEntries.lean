import Verif.Lemmas.ZnAlg
import Verif.Model.Zn

/-! # Cyclic projectors: entries and rounding -/

namespace ED

open scoped BigOperators Matrix
open Classical

variable {d : ℕ}

/-- The states that the symmetry relates to a state. -/
noncomputable def cyc (σ : Equiv.Perm (Fin d)) (i : Fin d) : Finset (Fin d) :=
  Finset.univ.filter fun j => σ.SameCycle i j

theorem mem_cyc {σ : Equiv.Perm (Fin d)} {i j : Fin d} : j ∈ cyc σ i ↔ σ.SameCycle i j := by
  simp [cyc]

theorem self_mem_cyc (σ : Equiv.Perm (Fin d)) (i : Fin d) : i ∈ cyc σ i := mem_cyc.2 (Equiv.Perm.SameCycle.refl _ _)

theorem card_cyc_pos (σ : Equiv.Perm (Fin d)) (i : Fin d) : 0 < (cyc σ i).card :=
  Finset.card_pos.2 ⟨i, self_mem_cyc σ i⟩

theorem cyc_eq {σ : Equiv.Perm (Fin d)} {i j : Fin d} (h : σ.SameCycle i j) : cyc σ i = cyc σ j := by
  ext x
  rw [mem_cyc, mem_cyc]
  exact ⟨fun hx => h.symm.trans hx, fun hx => h.trans hx⟩

/-- A function that does not change under the permutation is constant on cycles. -/
theorem const_on_cycle {α : Type} {σ : Equiv.Perm (Fin d)} {F : Fin d → α} (hF : ∀ j, F (σ j) = F j)
    {i j : Fin d} (h : σ.SameCycle i j) : F j = F i := by
  obtain ⟨k, -, -, hk⟩ := h.exists_pow_eq''
  have : ∀ l : ℕ, F ((σ ^ l) i) = F i := by
    intro l
    induction l with
    | zero => rfl
    | succ l ih => rw [pow_succ', Equiv.Perm.mul_apply, hF, ih]
  rw [← hk, this]

section Entries

variable {U : Matrix (Fin d) (Fin d) ℂ} {σ : Equiv.Perm (Fin d)} {u : Fin d → ℂ} {n : ℕ}

theorem pow_entry_zero (hm : Mono U σ u) {i j : Fin d} (h : ¬ σ.SameCycle i j) (l : ℕ) : (U ^ l) i j = 0 := by
  obtain ⟨a, ha⟩ := hm.pow l
  rw [ha.entry, if_neg]
  rintro rfl
  exact h ⟨l, by simp⟩

theorem exact_zero (hm : Mono U σ u) {i j : Fin d} (h : ¬ σ.SameCycle i j) (k : ℕ) : exactProj U n k i j = 0 := by
  unfold exactProj
  rw [Matrix.sum_apply]
  refine Finset.sum_eq_zero fun l _ => ?_
  rw [Matrix.smul_apply, pow_entry_zero hm h, smul_zero]

theorem exact_right (hm : Mono U σ u) (hn : n ≠ 0) (hU : U ^ n = 1) (k : ℕ) (i j : Fin d) :
    exactProj U n k i j * u j = omega n k * exactProj U n k i (σ j) := by
  rw [← hm.entry_mul, exactProj_right hn hU, Matrix.smul_apply, smul_eq_mul]

theorem exact_left (hm : Mono U σ u) (hn : n ≠ 0) (hU : U ^ n = 1) (k : ℕ) (i j : Fin d) :
    u i * exactProj U n k (σ i) j = omega n k * exactProj U n k i j := by
  rw [← hm.mul_entry, exactProj_left hn hU, Matrix.smul_apply, smul_eq_mul]

theorem exact_norm_right (hm : Mono U σ u) (hn : n ≠ 0) (hU : U ^ n = 1) (k : ℕ) (i : Fin d) {j : Fin d}
    (h : σ.SameCycle i j) : ‖exactProj U n k i j‖ = ‖exactProj U n k i i‖ := by
  refine const_on_cycle (F := fun j => ‖exactProj U n k i j‖) (fun j => ?_) h
  have := congrArg norm (exact_right hm hn hU k i j)
  rw [norm_mul, norm_mul, hm.norm, omega_norm, mul_one, one_mul] at this
  exact this.symm

theorem exact_diag_const (hm : Mono U σ u) (hn : n ≠ 0) (hU : U ^ n = 1) (k : ℕ) {i j : Fin d}
    (h : σ.SameCycle i j) : exactProj U n k j j = exactProj U n k i i := by
  refine const_on_cycle (F := fun j => exactProj U n k j j) (fun j => ?_) h
  have h1 := exact_right hm hn hU k (σ j) j
  have h2 := exact_left hm hn hU k j j
  have hu := hm.ne_zero j
  have hω : omega n k ≠ 0 := by
    intro h0
    have := omega_norm n k
    rw [h0] at this
    simp at this
  have : omega n k * exactProj U n k (σ j) (σ j) = omega n k * exactProj U n k j j := by
    rw [← h1, ← h2, mul_comm]
  exact mul_left_cancel₀ hω this

theorem exact_conj (hm : Mono U σ u) (hn : n ≠ 0) (hU : U ^ n = 1) (k : ℕ) (i j : Fin d) :
    (starRingEnd ℂ) (exactProj U n k i j) = exactProj U n k j i := by
  conv_rhs => rw [← exactProj_star hm hn hU k, Matrix.conjTranspose_apply]
  rfl

/-- The products of entries along a cycle. -/
theorem exact_mul (hm : Mono U σ u) (hn : n ≠ 0) (hU : U ^ n = 1) (k : ℕ) {i j m : Fin d}
    (h : σ.SameCycle i m) :
    ((cyc σ i).card : ℂ) * (exactProj U n k i m * exactProj U n k m j) = n * exactProj U n k i j := by
  have hconst : ∀ m', σ.SameCycle i m' → exactProj U n k i m' * exactProj U n k m' j =
      exactProj U n k i i * exactProj U n k i j := fun m' hm' => by
    refine const_on_cycle (F := fun m' => exactProj U n k i m' * exactProj U n k m' j) (fun m' => ?_) hm'
    have h1 := exact_right hm hn hU k i m'
    have h2 := exact_left hm hn hU k m' j
    have hu := hm.ne_zero m'
    have hω : omega n k ≠ 0 := by
      intro h0
      have := omega_norm n k
      rw [h0] at this
      simp at this
    apply mul_left_cancel₀ (mul_ne_zero hω hu)
    calc omega n k * u m' * (exactProj U n k i (σ m') * exactProj U n k (σ m') j)
        = (omega n k * exactProj U n k i (σ m')) * (u m' * exactProj U n k (σ m') j) := by ring
      _ = _ := by rw [← h1, h2]; ring
  have hsq := congrFun (congrFun (exactProj_sq (U := U) hn hU k) i) j
  rw [Matrix.mul_apply, Matrix.smul_apply, smul_eq_mul] at hsq
  rw [← hsq, ← Finset.sum_subset (Finset.subset_univ (cyc σ i))]
  · rw [Finset.sum_congr rfl fun m' hm' => hconst m' (mem_cyc.1 hm'), Finset.sum_const, nsmul_eq_mul,
      hconst m h]
  · intro m' _ hm'
    rw [exact_zero hm (fun h => hm' (mem_cyc.2 h)), zero_mul]

/-- The diagonal entries. -/
theorem exact_diag (hm : Mono U σ u) (hn : n ≠ 0) (hU : U ^ n = 1) (k : ℕ) (i : Fin d)
    (h : exactProj U n k i i ≠ 0) : exactProj U n k i i = (n : ℂ) / (cyc σ i).card := by
  have h1 := exact_mul hm hn hU k (j := i) (Equiv.Perm.SameCycle.refl σ i)
  have hc : ((cyc σ i).card : ℂ) ≠ 0 := by exact_mod_cast (card_cyc_pos σ i).ne'
  rw [eq_div_iff hc]
  apply mul_right_cancel₀ h
  rw [← h1]
  ring

/-- The number of powers that move `i` to `j`. -/
noncomputable def hits (σ : Equiv.Perm (Fin d)) (n : ℕ) (i j : Fin d) : ℕ :=
  ((Finset.range n).filter fun l => (σ ^ l) i = j).card

theorem hits_eq (hn : n ≠ 0) (hσ : σ ^ n = 1) {i j : Fin d} (h : σ.SameCycle i j) :
    (hits σ n i j : ℝ) = n / (cyc σ i).card := by
  set W : Matrix (Fin d) (Fin d) ℂ := Matrix.of fun i j => if j = σ i then 1 else 0 with hW
  have hmW : Mono W σ fun _ => 1 := ⟨fun i => by simp, fun i j => rfl⟩
  have hpow : ∀ (l : ℕ) (i j : Fin d), (W ^ l) i j = if (σ ^ l) i = j then 1 else 0 := by
    intro l
    induction l with
    | zero => intro i j; rw [pow_zero, pow_zero, Matrix.one_apply]; rfl
    | succ l ih =>
      intro i j
      rw [pow_succ' W, hmW.mul_entry, ih, one_mul, pow_succ σ, Equiv.Perm.mul_apply]
  have hWn : W ^ n = 1 := by
    ext i j
    rw [hpow, hσ, Matrix.one_apply]
    rfl
  have hent : ∀ i j, exactProj W n 0 i j = (hits σ n i j : ℂ) := by
    intro i j
    unfold exactProj hits
    have hω : omega n 0 = 1 := by unfold omega; simp
    rw [Matrix.sum_apply, Finset.card_filter, Nat.cast_sum]
    refine Finset.sum_congr rfl fun l _ => ?_
    rw [Matrix.smul_apply, hpow, hω, map_one, one_pow, one_smul]
    push_cast
    rfl
  have hpos : 0 < hits σ n i i := by
    unfold hits
    refine Finset.card_pos.2 ⟨0, ?_⟩
    rw [Finset.mem_filter]
    exact ⟨Finset.mem_range.2 (by omega), rfl⟩
  have hne : exactProj W n 0 i i ≠ 0 := by
    rw [hent]
    exact_mod_cast hpos.ne'
  have h1 := exact_diag hmW hn hWn 0 i hne
  have h2 := exact_norm_right hmW hn hWn 0 i h
  rw [h1, hent] at h2
  have h3 : ‖((n : ℂ) / (cyc σ i).card)‖ = n / (cyc σ i).card := by
    rw [norm_div, Complex.norm_natCast, Complex.norm_natCast]
  rw [h3, Complex.norm_natCast] at h2
  exact h2

/-- The unnormalised projector computed with the given characters. -/
noncomputable def approxProj (U : Matrix (Fin d) (Fin d) ℂ) (n : ℕ) (x : ℕ → ℂ) : Matrix (Fin d) (Fin d) ℂ :=
  ∑ l ∈ Finset.range n, (starRingEnd ℂ) (x l) • U ^ l

theorem approx_zero (hm : Mono U σ u) (x : ℕ → ℂ) {i j : Fin d} (h : ¬ σ.SameCycle i j) :
    approxProj U n x i j = 0 := by
  unfold approxProj
  rw [Matrix.sum_apply]
  refine Finset.sum_eq_zero fun l _ => ?_
  rw [Matrix.smul_apply, pow_entry_zero hm h, smul_zero]

theorem perm_pow_one (hm : Mono U σ u) (hU : U ^ n = 1) : σ ^ n = 1 := by
  obtain ⟨a, ha⟩ := hm.pow n
  ext i
  have := ha.entry i ((σ ^ n) i)
  rw [hU, if_pos rfl, Matrix.one_apply] at this
  by_contra hne
  rw [if_neg] at this
  · exact ha.ne_zero i this.symm
  · intro he
    apply hne
    rw [Equiv.Perm.one_apply]
    exact congrArg Fin.val he.symm

theorem approx_error (hm : Mono U σ u) (hn : n ≠ 0) (hU : U ^ n = 1) {x : ℕ → ℂ} {δ : ℝ} {k : ℕ}
    (hx : ∀ l < n, ‖x l - omega n k ^ l‖ ≤ δ) {i j : Fin d} (h : σ.SameCycle i j) :
    ‖approxProj U n x i j - exactProj U n k i j‖ ≤ n / (cyc σ i).card * δ := by
  rw [← hits_eq hn (perm_pow_one hm hU) h]
  unfold approxProj exactProj
  rw [Matrix.sum_apply, Matrix.sum_apply, ← Finset.sum_sub_distrib]
  refine (norm_sum_le _ _).trans ?_
  have hterm : ∀ l ∈ Finset.range n, ‖((starRingEnd ℂ) (x l) • U ^ l) i j -
      ((starRingEnd ℂ) (omega n k) ^ l • U ^ l) i j‖ ≤ if (σ ^ l) i = j then δ else 0 := by
    intro l hl
    obtain ⟨a, ha⟩ := hm.pow l
    rw [Matrix.smul_apply, Matrix.smul_apply, ← sub_smul, norm_smul, ha.entry]
    by_cases e : (σ ^ l) i = j
    · rw [if_pos e.symm, if_pos e, ha.norm, mul_one, ← map_pow, ← map_sub, RCLike.norm_conj]
      exact hx l (Finset.mem_range.1 hl)
    · rw [if_neg (fun h => e h.symm), if_neg e, norm_zero, mul_zero]
  refine (Finset.sum_le_sum hterm).trans ?_
  rw [← Finset.sum_filter, Finset.sum_const, nsmul_eq_mul]
  rfl

end Entries

/-! ## Normalisation of a row -/

theorem sum_re {d : ℕ} (r : Fin d → ℂ) : ∑ i, (r i * (starRingEnd ℂ) (r i)).re = ∑ i, ‖r i‖ ^ 2 := by
  refine Finset.sum_congr rfl fun i _ => ?_
  rw [Complex.mul_conj, Complex.ofReal_re, Complex.normSq_eq_norm_sq]

/-- A row whose entries on `O` are close to `c` times a phase. -/
structure Flat (r e : Fin d → ℂ) (O : Finset (Fin d)) (c δ : ℝ) : Prop where
  pos : 0 < c
  some : O.Nonempty
  off : ∀ j, j ∉ O → r j = 0
  phase : ∀ j ∈ O, ‖e j‖ = 1
  near : ∀ j ∈ O, ‖r j - c * e j‖ ≤ c * δ

namespace Flat

variable {r e : Fin d → ℂ} {O : Finset (Fin d)} {c δ : ℝ}

theorem norm_bounds (h : Flat r e O c δ) {j : Fin d} (hj : j ∈ O) : c * (1 - δ) ≤ ‖r j‖ ∧ ‖r j‖ ≤ c * (1 + δ) := by
  have hce : ‖(c : ℂ) * e j‖ = c := by
    rw [norm_mul, h.phase j hj, mul_one, Complex.norm_real, Real.norm_of_nonneg h.pos.le]
  have h1 := norm_sub_norm_le ((c : ℂ) * e j) (r j)
  have h2 := norm_sub_norm_le (r j) ((c : ℂ) * e j)
  have h3 := h.near j hj
  rw [norm_sub_rev] at h1
  constructor
  · nlinarith
  · nlinarith

theorem sqrt_bounds (h : Flat r e O c δ) (hδ0 : 0 ≤ δ) (hδ : δ ≤ 1) :
    c * (1 - δ) * Real.sqrt O.card ≤ Real.sqrt (∑ i, ‖r i‖ ^ 2) ∧
      Real.sqrt (∑ i, ‖r i‖ ^ 2) ≤ c * (1 + δ) * Real.sqrt O.card := by
  have hsum : ∑ i, ‖r i‖ ^ 2 = ∑ i ∈ O, ‖r i‖ ^ 2 := by
    refine (Finset.sum_subset (Finset.subset_univ O) fun j _ hj => ?_).symm
    rw [h.off j hj]
    simp
  have hc := h.pos
  have l0 : 0 ≤ c * (1 - δ) := by nlinarith
  have u0 : 0 ≤ c * (1 + δ) := by nlinarith
  rw [hsum]
  constructor
  · rw [← Real.sqrt_sq l0, ← Real.sqrt_mul (sq_nonneg _)]
    apply Real.sqrt_le_sqrt
    calc (c * (1 - δ)) ^ 2 * (O.card : ℝ) = ∑ i ∈ O, (c * (1 - δ)) ^ 2 := by
          rw [Finset.sum_const, nsmul_eq_mul, mul_comm]
      _ ≤ _ := Finset.sum_le_sum fun i hi => by
          have := (h.norm_bounds hi).1
          gcongr
  · rw [← Real.sqrt_sq u0, ← Real.sqrt_mul (sq_nonneg _)]
    apply Real.sqrt_le_sqrt
    calc _ ≤ ∑ i ∈ O, (c * (1 + δ)) ^ 2 := Finset.sum_le_sum fun i hi => by
          have := (h.norm_bounds hi).2
          gcongr
      _ = _ := by rw [Finset.sum_const, nsmul_eq_mul, mul_comm]

theorem sqrt_pos (h : Flat r e O c δ) (hδ0 : 0 ≤ δ) (hδ : δ < 1) : 0 < Real.sqrt (∑ i, ‖r i‖ ^ 2) := by
  have := (h.sqrt_bounds hδ0 hδ.le).1
  have hO : 0 < Real.sqrt O.card := Real.sqrt_pos.2 (by exact_mod_cast Finset.card_pos.2 h.some)
  have hc := h.pos
  have : 0 < c * (1 - δ) * Real.sqrt O.card := by
    have : 0 < 1 - δ := by linarith
    positivity
  linarith

theorem normalize_off (h : Flat r e O c δ) {j : Fin d} (hj : j ∉ O) : normalizeRow r j = 0 := by
  unfold normalizeRow
  rw [h.off j hj, mul_zero]

theorem normalize_near (h : Flat r e O c δ) (hδ0 : 0 ≤ δ) (hδ : δ ≤ 1 / 3) {j : Fin d} (hj : j ∈ O) :
    ‖normalizeRow r j - e j / (Real.sqrt O.card : ℝ)‖ ≤ 3 * δ / Real.sqrt O.card := by
  set N := Real.sqrt (∑ i, ‖r i‖ ^ 2) with hN
  set D := Real.sqrt (O.card : ℝ) with hD
  have hO : 0 < D := Real.sqrt_pos.2 (by exact_mod_cast Finset.card_pos.2 h.some)
  have hNpos : 0 < N := h.sqrt_pos hδ0 (by linarith)
  obtain ⟨b1, b2⟩ := h.sqrt_bounds hδ0 (by linarith)
  rw [← hN, ← hD] at b1 b2
  have hc := h.pos
  have hrow : normalizeRow r j = ((N⁻¹ : ℝ) : ℂ) * r j := by
    unfold normalizeRow
    rw [sum_re]
  have hsplit : normalizeRow r j - e j / (D : ℝ) =
      ((N⁻¹ : ℝ) : ℂ) * (r j - c * e j) + ((c * N⁻¹ - D⁻¹ : ℝ) : ℂ) * e j := by
    rw [hrow]
    push_cast
    ring
  rw [hsplit]
  refine (norm_add_le _ _).trans ?_
  rw [norm_mul, norm_mul, h.phase j hj, mul_one, Complex.norm_real, Complex.norm_real,
    Real.norm_of_nonneg (inv_nonneg.2 hNpos.le), Real.norm_eq_abs]
  have t1 : N⁻¹ * ‖r j - c * e j‖ ≤ N⁻¹ * (c * δ) :=
    mul_le_mul_of_nonneg_left (h.near j hj) (inv_nonneg.2 hNpos.le)
  have q : N⁻¹ * c ≤ (D * (1 - δ))⁻¹ := by
    rw [inv_mul_le_iff₀ hNpos, ← div_eq_mul_inv, le_div_iff₀ (by nlinarith)]
    nlinarith
  have q' : (D * (1 + δ))⁻¹ ≤ N⁻¹ * c := by
    rw [inv_le_iff_one_le_mul₀ (by nlinarith),
      show N⁻¹ * c * (D * (1 + δ)) = c * (1 + δ) * D / N by rw [div_eq_inv_mul]; ring, le_div_iff₀ hNpos]
    linarith
  have e1 : (D * (1 - δ))⁻¹ - D⁻¹ ≤ 3 / 2 * δ / D := by
    have : (D * (1 - δ))⁻¹ - D⁻¹ = δ / (1 - δ) / D := by
      have : 1 - δ ≠ 0 := by linarith
      field_simp
      ring
    rw [this]
    apply div_le_div_of_nonneg_right _ hO.le
    rw [div_le_iff₀ (by linarith)]
    nlinarith
  have e2 : D⁻¹ - (D * (1 + δ))⁻¹ ≤ 3 / 2 * δ / D := by
    have : D⁻¹ - (D * (1 + δ))⁻¹ = δ / (1 + δ) / D := by
      have : 1 + δ ≠ 0 := by linarith
      field_simp
      ring
    rw [this]
    apply div_le_div_of_nonneg_right _ hO.le
    rw [div_le_iff₀ (by linarith)]
    nlinarith
  have e3 : (D * (1 - δ))⁻¹ * δ ≤ 3 / 2 * δ / D := by
    rw [mul_inv, mul_assoc, ← div_eq_inv_mul]
    apply div_le_div_of_nonneg_right _ hO.le
    rw [inv_mul_le_iff₀ (by linarith)]
    nlinarith
  have t2 : |c * N⁻¹ - D⁻¹| ≤ 3 / 2 * δ / D := by
    rw [abs_le, mul_comm c]
    constructor <;> linarith
  have t3 : N⁻¹ * (c * δ) ≤ 3 / 2 * δ / D := by
    rw [← mul_assoc]
    exact (mul_le_mul_of_nonneg_right q hδ0).trans e3
  calc _ ≤ 3 / 2 * δ / D + 3 / 2 * δ / D := by linarith
    _ = 3 * δ / D := by ring

theorem normalize_norm (h : Flat r e O c δ) (hδ0 : 0 ≤ δ) (hδ : δ < 1) :
    rowInner (normalizeRow r) (normalizeRow r) = 1 := by
  unfold rowInner normalizeRow
  rw [sum_re]
  set N := Real.sqrt (∑ i, ‖r i‖ ^ 2) with hN
  have hNpos : 0 < N := h.sqrt_pos hδ0 hδ
  have : ∀ j, ((N⁻¹ : ℝ) : ℂ) * r j * (starRingEnd ℂ) (((N⁻¹ : ℝ) : ℂ) * r j) = ((N⁻¹ ^ 2 * ‖r j‖ ^ 2 : ℝ) : ℂ) := by
    intro j
    rw [Complex.mul_conj, Complex.normSq_eq_norm_sq, norm_mul, Complex.norm_real,
      Real.norm_of_nonneg (inv_nonneg.2 hNpos.le), mul_pow]
  rw [Finset.sum_congr rfl fun j _ => this j, ← Complex.ofReal_sum, ← Finset.mul_sum]
  have hs : ∑ i, ‖r i‖ ^ 2 = N ^ 2 := by
    rw [hN, Real.sq_sqrt]
    exact Finset.sum_nonneg fun i _ => sq_nonneg _
  rw [hs, ← mul_pow, inv_mul_cancel₀ hNpos.ne']
  simp

/-- The entries of the normalised row have norm close to `1 / √|O|`. -/
theorem normalize_le (h : Flat r e O c δ) (hδ0 : 0 ≤ δ) (hδ : δ ≤ 1 / 3) {j : Fin d} (hj : j ∈ O) :
    ‖normalizeRow r j‖ ≤ (1 + 3 * δ) / Real.sqrt O.card := by
  have hO : 0 < Real.sqrt (O.card : ℝ) := Real.sqrt_pos.2 (by exact_mod_cast Finset.card_pos.2 h.some)
  have h1 := h.normalize_near hδ0 hδ hj
  have h2 := norm_sub_norm_le (normalizeRow r j) (e j / (Real.sqrt O.card : ℝ))
  rw [norm_div, h.phase j hj, Complex.norm_real, Real.norm_of_nonneg hO.le] at h2
  have : (1 + 3 * δ) / Real.sqrt O.card = 1 / Real.sqrt O.card + 3 * δ / Real.sqrt O.card := by ring
  linarith

/-- Products of entries of two normalised rows with equally many entries. -/
theorem mul_near_two {r' e' : Fin d → ℂ} {O' : Finset (Fin d)} {c' : ℝ} (h : Flat r e O c δ) (h' : Flat r' e' O' c' δ)
    (hcard : O'.card = O.card) (hδ0 : 0 ≤ δ) (hδ : δ ≤ 1 / 9) {i j : Fin d} (hi : i ∈ O) (hj : j ∈ O') :
    ‖normalizeRow r i * (starRingEnd ℂ) (normalizeRow r' j) - e i * (starRingEnd ℂ) (e' j) / O.card‖ ≤
      7 * δ / O.card := by
  have hO : 0 < Real.sqrt (O.card : ℝ) := Real.sqrt_pos.2 (by exact_mod_cast Finset.card_pos.2 h.some)
  set D := Real.sqrt (O.card : ℝ) with hD
  have hDD : D * D = O.card := Real.mul_self_sqrt (by positivity)
  have hsplit : normalizeRow r i * (starRingEnd ℂ) (normalizeRow r' j) - e i * (starRingEnd ℂ) (e' j) / O.card =
      normalizeRow r i * (starRingEnd ℂ) (normalizeRow r' j - e' j / (D : ℝ)) +
        (normalizeRow r i - e i / (D : ℝ)) * ((starRingEnd ℂ) (e' j) / (D : ℝ)) := by
    have : ((O.card : ℕ) : ℂ) = ((D : ℝ) : ℂ) * ((D : ℝ) : ℂ) := by
      rw [← Complex.ofReal_mul, hDD]
      simp
    rw [this, map_sub, map_div₀, Complex.conj_ofReal]
    have hD0 : ((D : ℝ) : ℂ) ≠ 0 := by exact_mod_cast hO.ne'
    field_simp
    ring
  rw [hsplit]
  refine (norm_add_le _ _).trans ?_
  rw [norm_mul, norm_mul, RCLike.norm_conj, norm_div, RCLike.norm_conj, h'.phase j hj, Complex.norm_real,
    Real.norm_of_nonneg hO.le]
  have a1 := h.normalize_le hδ0 (by linarith) hi
  have a2 := h'.normalize_near hδ0 (by linarith) hj
  have a3 := h.normalize_near hδ0 (by linarith) hi
  rw [hcard] at a2
  rw [← hD] at a1 a2 a3
  calc _ ≤ (1 + 3 * δ) / D * (3 * δ / D) + 3 * δ / D * (1 / D) := by
        gcongr
    _ = (6 * δ + 9 * δ * δ) / (O.card : ℝ) := by
        rw [← hDD]
        field_simp
        ring
    _ ≤ 7 * δ / O.card := by
        apply div_le_div_of_nonneg_right _ (by positivity)
        nlinarith

/-- Products of entries of two normalised rows. -/
theorem mul_near {r' e' : Fin d → ℂ} {c' : ℝ} (h : Flat r e O c δ) (h' : Flat r' e' O c' δ) (hδ0 : 0 ≤ δ)
    (hδ : δ ≤ 1 / 9) {i j : Fin d} (hi : i ∈ O) (hj : j ∈ O) :
    ‖normalizeRow r i * (starRingEnd ℂ) (normalizeRow r' j) - e i * (starRingEnd ℂ) (e' j) / O.card‖ ≤
      7 * δ / O.card :=
  h.mul_near_two h' rfl hδ0 hδ hi hj

end Flat

end ED
