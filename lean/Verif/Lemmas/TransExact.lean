import Verif.Lemmas.ZnResult
import Verif.Model.Translation

/-! # Two commuting translations: the second one restricted to a sector of the first one -/

namespace ED

open scoped BigOperators Matrix
open Classical

variable {d : ℕ}

/-! ## Powers of an operator with one entry in each row -/

/-- Entry of a power. -/
noncomputable def monoPow (σ : Equiv.Perm (Fin d)) (u : Fin d → ℂ) : ℕ → Fin d → ℂ
  | 0, _ => 1
  | l + 1, i => u i * monoPow σ u l (σ i)

theorem monoPow_entry {W : Matrix (Fin d) (Fin d) ℂ} {σ : Equiv.Perm (Fin d)} {u : Fin d → ℂ}
    (h : ∀ i j, W i j = if j = σ i then u i else 0) (l : ℕ) (i j : Fin d) :
    (W ^ l) i j = if (σ ^ l) i = j then monoPow σ u l i else 0 := by
  induction l generalizing i j with
  | zero =>
    rw [pow_zero, pow_zero, Matrix.one_apply]
    rfl
  | succ l ih =>
    rw [pow_succ' W, Matrix.mul_apply, Finset.sum_eq_single (σ i)]
    · rw [h, if_pos rfl, ih, pow_succ σ, Equiv.Perm.mul_apply, mul_ite, mul_zero]
      rfl
    · intro b _ hb
      rw [h, if_neg hb, zero_mul]
    · exact fun hh => absurd (Finset.mem_univ _) hh

theorem monoPow_norm {σ : Equiv.Perm (Fin d)} {u : Fin d → ℂ} (hu : ∀ i, ‖u i‖ = 1) (l : ℕ) (i : Fin d) :
    ‖monoPow σ u l i‖ = 1 := by
  induction l generalizing i with
  | zero => simp [monoPow]
  | succ l ih => rw [monoPow, norm_mul, hu, ih, one_mul]

theorem monoPow_near {σ : Equiv.Perm (Fin d)} {u v : Fin d → ℂ} (hu : ∀ i, ‖u i‖ = 1) {η : ℝ} (hη : 0 ≤ η)
    (hv : ∀ i, ‖v i - u i‖ ≤ η) (l : ℕ) (i : Fin d) :
    ‖monoPow σ v l i - monoPow σ u l i‖ ≤ (1 + η) ^ l - 1 := by
  induction l generalizing i with
  | zero => simp [monoPow]
  | succ l ih =>
    have hs : monoPow σ v (l + 1) i - monoPow σ u (l + 1) i =
        v i * (monoPow σ v l (σ i) - monoPow σ u l (σ i)) + (v i - u i) * monoPow σ u l (σ i) := by
      simp only [monoPow]
      ring
    rw [hs]
    refine (norm_add_le _ _).trans ?_
    rw [norm_mul, norm_mul, monoPow_norm hu, mul_one]
    have h1 : ‖v i‖ ≤ 1 + η := by
      have := norm_sub_norm_le (v i) (u i)
      rw [hu] at this
      linarith [hv i]
    have h2 := ih (σ i)
    have h3 : ‖v i‖ * ‖monoPow σ v l (σ i) - monoPow σ u l (σ i)‖ ≤ (1 + η) * ((1 + η) ^ l - 1) :=
      mul_le_mul h1 h2 (norm_nonneg _) (by linarith)
    have h4 := hv i
    rw [pow_succ]
    linarith

/-- The data for an operator that is known approximately. -/
theorem znData_near {U W : Matrix (Fin d) (Fin d) ℂ} {σ : Equiv.Perm (Fin d)} {u v : Fin d → ℂ} (hm : Mono U σ u)
    (hW : ∀ i j, W i j = if j = σ i then v i else 0) {η : ℝ} (hη : 0 ≤ η) (hv : ∀ i, ‖v i - u i‖ ≤ η) {n : ℕ}
    (hn : n ≠ 0) (hpow : U ^ n = 1) {δ δ' : ℝ} (hδ0 : 0 ≤ δ)
    (hx : ∀ k < n, ∀ l < n, ‖znTable n k l - omega n k ^ l‖ ≤ δ)
    (hδ' : (1 + δ) * (1 + η) ^ n - 1 ≤ δ') (hsmall : (n : ℝ) * δ' < (10 : ℝ) ^ (-10 : ℤ)) :
    ZnData U σ u n (fun k => approxProj W n (znTable n k)) δ' := by
  have hpos : 0 ≤ δ' := by
    refine le_trans ?_ hδ'
    have : 1 ≤ (1 + η) ^ n := one_le_pow₀ (by linarith)
    nlinarith
  refine ⟨hm, hn, hpow, fun k i j hc => ?_, fun k hk i j hc => ?_, hpos, hsmall⟩
  · unfold approxProj
    rw [Matrix.sum_apply]
    refine Finset.sum_eq_zero fun l _ => ?_
    rw [Matrix.smul_apply, monoPow_entry hW, if_neg, smul_zero]
    rintro rfl
    exact hc ⟨l, by simp⟩
  · rw [← hits_eq hn (perm_pow_one hm hpow) hc]
    unfold approxProj exactProj
    rw [Matrix.sum_apply, Matrix.sum_apply, ← Finset.sum_sub_distrib]
    refine (norm_sum_le _ _).trans ?_
    have hterm : ∀ l ∈ Finset.range n, ‖((starRingEnd ℂ) (znTable n k l) • W ^ l) i j -
        ((starRingEnd ℂ) (omega n k) ^ l • U ^ l) i j‖ ≤ if (σ ^ l) i = j then δ' else 0 := by
      intro l hl
      have hl := Finset.mem_range.1 hl
      rw [Matrix.smul_apply, Matrix.smul_apply, monoPow_entry hW, monoPow_entry hm.entry]
      by_cases e : (σ ^ l) i = j
      · rw [if_pos e, if_pos e, if_pos e, smul_eq_mul, smul_eq_mul, ← map_pow]
        have hs : (starRingEnd ℂ) (znTable n k l) * monoPow σ v l i - (starRingEnd ℂ) (omega n k ^ l) * monoPow σ u l i =
            (starRingEnd ℂ) (znTable n k l) * (monoPow σ v l i - monoPow σ u l i) +
              (starRingEnd ℂ) (znTable n k l - omega n k ^ l) * monoPow σ u l i := by
          rw [map_sub]
          ring
        rw [hs]
        refine (norm_add_le _ _).trans ?_
        rw [norm_mul, norm_mul, RCLike.norm_conj, RCLike.norm_conj, monoPow_norm hm.norm, mul_one]
        have h1 := hx k hk l hl
        have h2 : ‖znTable n k l‖ ≤ 1 + δ := by
          have := norm_sub_norm_le (znTable n k l) (omega n k ^ l)
          rw [norm_pow, omega_norm, one_pow] at this
          linarith
        have h3 : ‖znTable n k l‖ * ‖monoPow σ v l i - monoPow σ u l i‖ ≤ (1 + δ) * ((1 + η) ^ l - 1) :=
          mul_le_mul h2 (monoPow_near hm.norm hη hv l i) (norm_nonneg _) (by linarith)
        have h4 : (1 + η) ^ l ≤ (1 + η) ^ n := pow_le_pow_right₀ (by linarith) hl.le
        have h5 : (1 + δ) * (1 + η) ^ l ≤ (1 + δ) * (1 + η) ^ n := mul_le_mul_of_nonneg_left h4 (by linarith)
        linarith
      · rw [if_neg e, if_neg e, if_neg e, smul_zero, smul_zero, sub_zero, norm_zero]
    refine (Finset.sum_le_sum hterm).trans ?_
    rw [← Finset.sum_filter, Finset.sum_const, nsmul_eq_mul]
    rfl

/-! ## The second translation in a sector -/

/-- The kept states, numbered. -/
structure Reps {U : Matrix (Fin d) (Fin d) ℂ} {σ : Equiv.Perm (Fin d)} {u : Fin d → ℂ} {n : ℕ}
    {A : ℕ → Matrix (Fin d) (Fin d) ℂ} {δ : ℝ} (h : ZnData U σ u n A δ) (k : ℕ) {r : ℕ} (rep : Fin r → Fin d) : Prop where
  lt : k < n
  inj : Function.Injective rep
  kept : ∀ a, h.Kept k (rep a)
  surj : ∀ c, h.Kept k c → ∃ a, rep a = c

/-- The second translation. -/
structure Second (U : Matrix (Fin d) (Fin d) ℂ) (V : Matrix (Fin d) (Fin d) ℂ) (ρ : Equiv.Perm (Fin d)) (v : Fin d → ℂ)
    : Prop where
  mono : Mono V ρ v
  comm : U * V = V * U

namespace Second

variable {U V : Matrix (Fin d) (Fin d) ℂ} {σ ρ : Equiv.Perm (Fin d)} {u v : Fin d → ℂ} {n : ℕ}

theorem proj_comm (s : Second U V ρ v) (k : ℕ) : exactProj U n k * V = V * exactProj U n k := by
  unfold exactProj
  rw [Finset.sum_mul, Finset.mul_sum]
  refine Finset.sum_congr rfl fun l _ => ?_
  have : Commute U V := s.comm
  rw [Matrix.smul_mul, Matrix.mul_smul, (this.pow_left l).eq]

theorem proj_entry (s : Second U V ρ v) (k : ℕ) (i j : Fin d) :
    exactProj U n k i j * v j = v i * exactProj U n k (ρ i) (ρ j) := by
  rw [← s.mono.entry_mul, s.proj_comm, s.mono.mul_entry]

theorem proj_diag (s : Second U V ρ v) (k : ℕ) (i : Fin d) :
    exactProj U n k (ρ i) (ρ i) = exactProj U n k i i := by
  have := s.proj_entry (n := n) k i i
  rw [mul_comm] at this
  exact (mul_left_cancel₀ (s.mono.ne_zero i) this).symm

theorem perm_comm (s : Second U V ρ v) (hm : Mono U σ u) : σ * ρ = ρ * σ := by
  ext i
  have h1 := congrFun (congrFun s.comm i) (ρ (σ i))
  rw [hm.mul_entry, s.mono.entry, if_pos rfl, s.mono.mul_entry, hm.entry] at h1
  by_contra hne
  rw [if_neg, mul_zero] at h1
  · exact mul_ne_zero (hm.ne_zero i) (s.mono.ne_zero _) h1
  · intro e
    exact hne (congrArg Fin.val e.symm)

theorem sameCycle (s : Second U V ρ v) (hm : Mono U σ u) {i j : Fin d} :
    σ.SameCycle (ρ i) (ρ j) ↔ σ.SameCycle i j := by
  have h := Equiv.Perm.sameCycle_conj (f := σ) (g := ρ) (x := ρ i) (y := ρ j)
  rw [← s.perm_comm hm, mul_inv_cancel_right] at h
  simpa using h

theorem card (s : Second U V ρ v) (hm : Mono U σ u) (i : Fin d) : (cyc σ (ρ i)).card = (cyc σ i).card := by
  refine (Finset.card_bij (fun j _ => ρ j) (fun j hj => ?_) (fun a _ b _ hab => ρ.injective hab) fun b hb => ?_).symm
  · exact mem_cyc.2 ((s.sameCycle hm).2 (mem_cyc.1 hj))
  · refine ⟨ρ.symm b, mem_cyc.2 ?_, by simp⟩
    rw [← s.sameCycle hm]
    simpa using mem_cyc.1 hb

end Second

namespace Reps

variable {U V : Matrix (Fin d) (Fin d) ℂ} {σ ρ : Equiv.Perm (Fin d)} {u v : Fin d → ℂ} {n : ℕ}
  {A : ℕ → Matrix (Fin d) (Fin d) ℂ} {δ : ℝ} {h : ZnData U σ u n A δ} {k r : ℕ} {rep : Fin r → Fin d}

/-- Two kept states of the same cycle are equal. -/
theorem same (R : Reps h k rep) {a b : Fin r} (hc : σ.SameCycle (rep a) (rep b)) : a = b :=
  R.inj (h.kept_unique (R.kept a) (R.kept b) hc)

theorem exists_rep (R : Reps h k rep) {i : Fin d} (hi : exactProj U n k i i ≠ 0) :
    ∃ a, σ.SameCycle i (rep a) := by
  obtain ⟨m, hm1, hm2⟩ : ∃ m, σ.SameCycle i m ∧ ∀ j ∈ cyc σ m, m ≤ j := by
    refine ⟨(cyc σ i).min' ⟨i, self_mem_cyc σ i⟩, mem_cyc.1 (Finset.min'_mem _ _), fun j hj => ?_⟩
    have hm := mem_cyc.1 (Finset.min'_mem (cyc σ i) ⟨i, self_mem_cyc σ i⟩)
    rw [← cyc_eq hm] at hj
    exact Finset.min'_le _ _ hj
  obtain ⟨a, ha⟩ := R.surj m ⟨by rw [exact_diag_const h.mono h.pos h.pow k hm1]; exact hi, hm2⟩
  exact ⟨a, ha ▸ hm1⟩

/-- The exact rows. -/
noncomputable def exactRow (h : ZnData U σ u n A δ) (k : ℕ) (c : Fin d) : Fin d → ℂ :=
  fun j => h.phases k c j / (Real.sqrt (cyc σ c).card : ℝ)

theorem exactRow_off {c j : Fin d} (hc : ¬ σ.SameCycle c j) : exactRow h k c j = 0 := by
  unfold exactRow ZnData.phases
  rw [exact_zero h.mono hc, zero_div, zero_div]

theorem phases_off {c j : Fin d} (hc : ¬ σ.SameCycle c j) : h.phases k c j = 0 := by
  unfold ZnData.phases
  rw [exact_zero h.mono hc, zero_div]

/-- Where the second translation takes the cycles. -/
theorem exists_move (R : Reps h k rep) (s : Second U V ρ v) :
    ∃ τ : Equiv.Perm (Fin r), ∀ a, σ.SameCycle (ρ (rep a)) (rep (τ a)) := by
  have : ∀ a, ∃ b, σ.SameCycle (ρ (rep a)) (rep b) := fun a =>
    R.exists_rep (by rw [s.proj_diag]; exact (R.kept a).1)
  choose f hf using this
  have hinj : Function.Injective f := by
    intro a b hab
    have h1 := hf a
    rw [hab] at h1
    exact R.same ((s.sameCycle h.mono).1 (h1.trans (hf b).symm))
  exact ⟨Equiv.ofBijective f (Finite.injective_iff_bijective.1 hinj), hf⟩

/-- The phase that the second translation gives to a row. -/
noncomputable def movePhase (_ : ZnData U σ u n A δ) (k : ℕ) (ρ : Equiv.Perm (Fin d)) (v : Fin d → ℂ) (c m : Fin d) : ℂ :=
  v c * (exactProj U n k (ρ c) m * ((cyc σ c).card / n))

theorem movePhase_norm (s : Second U V ρ v) {c m : Fin d} (hc : exactProj U n k c c ≠ 0)
    (hm : σ.SameCycle (ρ c) m) : ‖movePhase h k ρ v c m‖ = 1 := by
  unfold movePhase
  have h1 := h.exact_norm (k := k) (by rw [s.proj_diag]; exact hc) hm
  rw [norm_mul, norm_mul, s.mono.norm, one_mul, h1, norm_div, Complex.norm_natCast, Complex.norm_natCast,
    s.card h.mono]
  have : (n : ℝ) ≠ 0 := by exact_mod_cast h.pos
  have : ((cyc σ c).card : ℝ) ≠ 0 := by exact_mod_cast (card_cyc_pos σ c).ne'
  field_simp

theorem phases_move (s : Second U V ρ v) {c m : Fin d} (hm : σ.SameCycle (ρ c) m) (j : Fin d) :
    h.phases k c j * v j = movePhase h k ρ v c m * h.phases k m (ρ j) := by
  have h1 := s.proj_entry (n := n) k c j
  have h2 := exact_mul h.mono h.pos h.pow k (j := ρ j) hm
  have hcard : (cyc σ m).card = (cyc σ c).card := by rw [← cyc_eq hm, s.card h.mono]
  have hn : (n : ℂ) ≠ 0 := by exact_mod_cast h.pos
  have hc : ((cyc σ c).card : ℂ) ≠ 0 := by exact_mod_cast (card_cyc_pos σ c).ne'
  rw [s.card h.mono] at h2
  unfold ZnData.phases movePhase
  rw [hcard]
  push_cast
  rw [div_mul_eq_mul_div, h1]
  field_simp
  linear_combination (-(v c)) * h2

theorem phases_norm (R : Reps h k rep) (a : Fin r) {j : Fin d} (hj : σ.SameCycle (rep a) j) :
    ‖h.phases k (rep a) j‖ = 1 :=
  (h.flat R.lt (R.kept a).1).phase j (mem_cyc.2 hj)

theorem phases_sum (R : Reps h k rep) (a b : Fin r) :
    ∑ j, h.phases k (rep a) j * (starRingEnd ℂ) (h.phases k (rep b) j) / (cyc σ (rep a)).card = if a = b then 1 else 0 := by
  split_ifs with hab
  · subst hab
    rw [← Finset.sum_subset (Finset.subset_univ (cyc σ (rep a)))]
    · have e : ∀ j ∈ cyc σ (rep a), h.phases k (rep a) j * (starRingEnd ℂ) (h.phases k (rep a) j) /
          ((cyc σ (rep a)).card : ℂ) = 1 / (cyc σ (rep a)).card := by
        intro j hj
        rw [Complex.mul_conj, Complex.normSq_eq_norm_sq, R.phases_norm a (mem_cyc.1 hj)]
        simp
      rw [Finset.sum_congr rfl e, Finset.sum_const, nsmul_eq_mul, mul_one_div, div_self]
      exact_mod_cast (card_cyc_pos σ _).ne'
    · intro j _ hj
      rw [phases_off fun hc => hj (mem_cyc.2 hc), zero_mul, zero_div]
  · refine Finset.sum_eq_zero fun j _ => ?_
    by_cases hj : σ.SameCycle (rep a) j
    · rw [phases_off (c := rep b) fun hb => hab (R.same (hj.trans hb.symm)), map_zero, mul_zero, zero_div]
    · rw [phases_off hj, zero_mul, zero_div]

/-- The exact rows as a matrix. -/
noncomputable def exactMat (h : ZnData U σ u n A δ) (k : ℕ) (rep : Fin r → Fin d) : Matrix (Fin r) (Fin d) ℂ :=
  Matrix.of fun a j => exactRow h k (rep a) j

theorem exactMat_unit (R : Reps h k rep) : exactMat h k rep * (exactMat h k rep)ᴴ = 1 := by
  ext a b
  rw [Matrix.mul_apply, Matrix.one_apply, ← R.phases_sum a b]
  refine Finset.sum_congr rfl fun j _ => ?_
  rw [Matrix.conjTranspose_apply]
  unfold exactMat exactRow
  simp only [Matrix.of_apply]
  rw [← starRingEnd_apply, map_div₀, Complex.conj_ofReal]
  by_cases hab : a = b
  · subst hab
    rw [div_mul_div_comm, ← Complex.ofReal_mul, Real.mul_self_sqrt (by positivity)]
    simp
  · by_cases hj : σ.SameCycle (rep a) j
    · rw [phases_off (c := rep b) fun hb => hab (R.same (hj.trans hb.symm))]
      simp
    · rw [phases_off hj]
      simp

/-- The exact form of the second translation in the sector. -/
noncomputable def moveMat (h : ZnData U σ u n A δ) (k : ℕ) (ρ : Equiv.Perm (Fin d)) (v : Fin d → ℂ) (rep : Fin r → Fin d)
    (τ : Equiv.Perm (Fin r)) : Matrix (Fin r) (Fin r) ℂ :=
  Matrix.of fun a b => if b = τ a then movePhase h k ρ v (rep a) (rep (τ a)) else 0

theorem moveMat_mono (R : Reps h k rep) (s : Second U V ρ v) {τ : Equiv.Perm (Fin r)}
    (hτ : ∀ a, σ.SameCycle (ρ (rep a)) (rep (τ a))) :
    Mono (moveMat h k ρ v rep τ) τ fun a => movePhase h k ρ v (rep a) (rep (τ a)) :=
  ⟨fun a => movePhase_norm s (R.kept a).1 (hτ a), fun _ _ => rfl⟩

theorem exactMat_move (s : Second U V ρ v) {τ : Equiv.Perm (Fin r)}
    (hτ : ∀ a, σ.SameCycle (ρ (rep a)) (rep (τ a))) :
    exactMat h k rep * V = moveMat h k ρ v rep τ * exactMat h k rep := by
  ext a j
  obtain ⟨j, rfl⟩ := ρ.surjective j
  rw [Matrix.mul_apply, Finset.sum_eq_single j, Matrix.mul_apply, Finset.sum_eq_single (τ a)]
  · rw [s.mono.entry, if_pos rfl]
    unfold exactMat exactRow moveMat
    simp only [Matrix.of_apply, if_true]
    rw [div_mul_eq_mul_div, phases_move s (hτ a), mul_div_assoc, ← cyc_eq (hτ a), s.card h.mono]
  · intro b _ hb
    unfold moveMat
    rw [Matrix.of_apply, if_neg hb, zero_mul]
  · exact fun hh => absurd (Finset.mem_univ _) hh
  · intro b _ hb
    rw [s.mono.entry, if_neg (fun hh => hb (ρ.injective hh).symm), mul_zero]
  · exact fun hh => absurd (Finset.mem_univ _) hh

theorem moveMat_pow (R : Reps h k rep) (s : Second U V ρ v) {τ : Equiv.Perm (Fin r)}
    (hτ : ∀ a, σ.SameCycle (ρ (rep a)) (rep (τ a))) {n2 : ℕ} (hV : V ^ n2 = 1) : moveMat h k ρ v rep τ ^ n2 = 1 := by
  have hp : ∀ l : ℕ, moveMat h k ρ v rep τ ^ l * exactMat h k rep = exactMat h k rep * V ^ l := by
    intro l
    induction l with
    | zero => simp
    | succ l ih => rw [pow_succ, Matrix.mul_assoc, ← exactMat_move s hτ, ← Matrix.mul_assoc, ih, Matrix.mul_assoc, pow_succ]
  calc moveMat h k ρ v rep τ ^ n2 = moveMat h k ρ v rep τ ^ n2 * (exactMat h k rep * (exactMat h k rep)ᴴ) := by
        rw [R.exactMat_unit, Matrix.mul_one]
    _ = 1 := by rw [← Matrix.mul_assoc, hp, hV, Matrix.mul_one, R.exactMat_unit]

/-! ## The restricted operator that is computed -/

/-- The entries of the second translation between the computed rows. -/
theorem restrict_entry (s : Second U V ρ v) (x y : Fin d → ℂ) :
    ∑ j, (∑ i, x i * V i j) * (starRingEnd ℂ) (y j) = ∑ i, x i * v i * (starRingEnd ℂ) (y (ρ i)) := by
  rw [← Equiv.sum_comp ρ]
  refine Finset.sum_congr rfl fun j _ => ?_
  congr 1
  rw [Finset.sum_eq_single j]
  · rw [s.mono.entry, if_pos rfl]
  · intro b _ hb
    rw [s.mono.entry, if_neg (fun hh => hb (ρ.injective hh).symm), mul_zero]
  · exact fun hh => absurd (Finset.mem_univ _) hh

theorem normalize_off (R : Reps h k rep) (a : Fin r) {j : Fin d} (hj : ¬ σ.SameCycle (rep a) j) :
    normalizeRow (h.row k (rep a)) j = 0 :=
  (h.flat R.lt (R.kept a).1).normalize_off fun hc => hj (mem_cyc.1 hc)

theorem restrict_off (R : Reps h k rep) (s : Second U V ρ v) {τ : Equiv.Perm (Fin r)}
    (hτ : ∀ a, σ.SameCycle (ρ (rep a)) (rep (τ a))) {a b : Fin r} (hb : b ≠ τ a) :
    ∑ i, normalizeRow (h.row k (rep a)) i * v i * (starRingEnd ℂ) (normalizeRow (h.row k (rep b)) (ρ i)) = 0 := by
  refine Finset.sum_eq_zero fun i _ => ?_
  by_cases hi : σ.SameCycle (rep a) i
  · rw [R.normalize_off b, map_zero, mul_zero]
    intro hc
    apply hb
    refine R.same (hc.trans ?_)
    exact ((s.sameCycle h.mono).2 hi).symm.trans (hτ a)
  · rw [R.normalize_off a hi, zero_mul, zero_mul]

theorem restrict_near (R : Reps h k rep) (s : Second U V ρ v) {τ : Equiv.Perm (Fin r)}
    (hτ : ∀ a, σ.SameCycle (ρ (rep a)) (rep (τ a))) (a : Fin r) :
    ‖(∑ i, normalizeRow (h.row k (rep a)) i * v i * (starRingEnd ℂ) (normalizeRow (h.row k (rep (τ a))) (ρ i))) -
      movePhase h k ρ v (rep a) (rep (τ a))‖ ≤ 7 * δ := by
  set w := movePhase h k ρ v (rep a) (rep (τ a)) with hw
  have hcard : (cyc σ (rep (τ a))).card = (cyc σ (rep a)).card := by rw [← cyc_eq (hτ a), s.card h.mono]
  have hpos : (0 : ℝ) < (cyc σ (rep a)).card := by exact_mod_cast card_cyc_pos σ _
  have hsum : ∑ i ∈ cyc σ (rep a), h.phases k (rep a) i * v i * (starRingEnd ℂ) (h.phases k (rep (τ a)) (ρ i)) /
      (cyc σ (rep a)).card = w := by
    have e : ∀ i ∈ cyc σ (rep a), h.phases k (rep a) i * v i * (starRingEnd ℂ) (h.phases k (rep (τ a)) (ρ i)) /
        ((cyc σ (rep a)).card : ℂ) = w / (cyc σ (rep a)).card := by
      intro i hi
      rw [phases_move s (hτ a), mul_assoc, Complex.mul_conj, Complex.normSq_eq_norm_sq, R.phases_norm]
      · simp [hw]
      · exact (hτ a).symm.trans ((s.sameCycle h.mono).2 (mem_cyc.1 hi))
    rw [Finset.sum_congr rfl e, Finset.sum_const, nsmul_eq_mul, mul_div_cancel₀]
    exact_mod_cast hpos.ne'
  have hres : ∑ i, normalizeRow (h.row k (rep a)) i * v i * (starRingEnd ℂ) (normalizeRow (h.row k (rep (τ a))) (ρ i)) =
      ∑ i ∈ cyc σ (rep a), normalizeRow (h.row k (rep a)) i * v i * (starRingEnd ℂ) (normalizeRow (h.row k (rep (τ a))) (ρ i)) := by
    refine (Finset.sum_subset (Finset.subset_univ _) fun i _ hi => ?_).symm
    rw [R.normalize_off a fun hc => hi (mem_cyc.2 hc), zero_mul, zero_mul]
  rw [hres, ← hsum, ← Finset.sum_sub_distrib]
  refine (norm_sum_le _ _).trans ?_
  refine (Finset.sum_le_sum (g := fun _ => 7 * δ / (cyc σ (rep a)).card) fun i hi => ?_).trans ?_
  · have f1 := h.flat R.lt (R.kept a).1
    have f2 := h.flat R.lt (R.kept (τ a)).1
    have hi' : ρ i ∈ cyc σ (rep (τ a)) := mem_cyc.2 ((hτ a).symm.trans ((s.sameCycle h.mono).2 (mem_cyc.1 hi)))
    have := f1.mul_near_two f2 hcard h.nonneg h.delta_le hi hi'
    have hs : normalizeRow (h.row k (rep a)) i * v i * (starRingEnd ℂ) (normalizeRow (h.row k (rep (τ a))) (ρ i)) -
        h.phases k (rep a) i * v i * (starRingEnd ℂ) (h.phases k (rep (τ a)) (ρ i)) / (cyc σ (rep a)).card =
        v i * (normalizeRow (h.row k (rep a)) i * (starRingEnd ℂ) (normalizeRow (h.row k (rep (τ a))) (ρ i)) -
          h.phases k (rep a) i * (starRingEnd ℂ) (h.phases k (rep (τ a)) (ρ i)) / (cyc σ (rep a)).card) := by
      ring
    rw [hs, norm_mul, s.mono.norm, one_mul]
    exact this
  · rw [Finset.sum_const, nsmul_eq_mul, mul_div_cancel₀ _ hpos.ne']

end Reps

end ED
