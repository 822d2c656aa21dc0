import Verif.Lemmas.NearSectors
import Verif.Lemmas.TransSub

/-! # Rows of the projectors of a cyclic symmetry and exact eigenvectors -/

namespace ED

open Matrix Spec

variable {d : ℕ}

/-- The rows are close to orthonormal simultaneous eigenvectors of the symmetries. -/
def NearEigen (Q : Rows d) (syms : List (Matrix (Fin d) (Fin d) ℂ × ℂ)) (κ : ℝ) : Prop :=
  ∃ (m : ℕ) (X : Matrix (Fin m) (Fin d) ℂ), NearRows Q X κ ∧ X * Xᴴ = 1 ∧ ∀ s ∈ syms, X * s.1 = s.2 • X

theorem NearEigen.mono {Q : Rows d} {syms : List (Matrix (Fin d) (Fin d) ℂ × ℂ)} {κ κ' : ℝ} (h : NearEigen Q syms κ) (hk : κ ≤ κ') :
    NearEigen Q syms κ' := by
  obtain ⟨m, X, h1, h2⟩ := h
  exact ⟨m, X, h1.mono hk, h2⟩

theorem Mono.unitary' {U : Matrix (Fin d) (Fin d) ℂ} {σ : Equiv.Perm (Fin d)} {u : Fin d → ℂ} (h : Mono U σ u) : U * Uᴴ = 1 :=
  mul_eq_one_comm.1 h.unitary

namespace ZnData

variable {U V : Matrix (Fin d) (Fin d) ℂ} {σ ρ : Equiv.Perm (Fin d)} {u v : Fin d → ℂ} {n : ℕ}
  {A : ℕ → Matrix (Fin d) (Fin d) ℂ} {δ : ℝ} (h : ZnData U σ u n A δ)

include h

theorem near_sector {k : ℕ} (hk : k < n) : NearRows (h.sector k) (Reps.exactMat h k (h.sectorRep k)) (3 * δ) := by
  have hδ := h.nonneg
  have R := h.reps hk
  have hget : ∀ (a : Fin (h.sector k).length) (j : Fin d),
      (h.sector k).getD a 0 j - Reps.exactMat h k (h.sectorRep k) a j =
        normalizeRow (h.row k (h.sectorRep k a)) j - Reps.exactRow h k (h.sectorRep k a) j := by
    intro a j
    rw [getD_get _ _ a.2, ← h.sector_row]
    rfl
  have hoff : ∀ (a : Fin (h.sector k).length) (j : Fin d), ¬ σ.SameCycle (h.sectorRep k a) j →
      (h.sector k).getD a 0 j - Reps.exactMat h k (h.sectorRep k) a j = 0 := by
    intro a j hc
    rw [hget, R.normalize_off a hc, Reps.exactRow_off hc, sub_zero]
  refine nearRows_disjoint (by linarith) rfl (fun a b j ha hb => ?_) fun a => ?_
  · have h1 : σ.SameCycle (h.sectorRep k a) j := by
      by_contra hc
      exact ha (hoff a j hc)
    have h2 : σ.SameCycle (h.sectorRep k b) j := by
      by_contra hc
      exact hb (hoff b j hc)
    exact R.same (h1.trans h2.symm)
  · have f := h.flat hk (R.kept a).1
    have hpos : (0 : ℝ) < (cyc σ (h.sectorRep k a)).card := by exact_mod_cast card_cyc_pos σ _
    rw [rnorm_eq]
    refine Real.sqrt_le_iff.2 ⟨by linarith, ?_⟩
    rw [← Finset.sum_subset (Finset.subset_univ (cyc σ (h.sectorRep k a)))]
    · refine (Finset.sum_le_sum (g := fun _ => (3 * δ) ^ 2 / (cyc σ (h.sectorRep k a)).card) fun j hj => ?_).trans ?_
      · have := f.normalize_near hδ (by linarith [h.delta_le]) hj
        rw [hget]
        unfold Reps.exactRow
        calc _ ≤ (3 * δ / Real.sqrt (cyc σ (h.sectorRep k a)).card) ^ 2 := pow_le_pow_left₀ (norm_nonneg _) this 2
          _ = _ := by rw [div_pow, Real.sq_sqrt hpos.le]
      · rw [Finset.sum_const, nsmul_eq_mul, mul_div_cancel₀ _ hpos.ne']
    · intro j _ hj
      rw [hoff a j fun hc => hj (mem_cyc.2 hc)]
      simp

theorem exactMat_eigen (k : ℕ) {r : ℕ} (rep : Fin r → Fin d) :
    Reps.exactMat h k rep * U = omega n k • Reps.exactMat h k rep := by
  ext a j
  obtain ⟨j, rfl⟩ := σ.surjective j
  rw [Matrix.mul_apply, Finset.sum_eq_single j _ fun hh => absurd (Finset.mem_univ _) hh, h.mono.entry, if_pos rfl,
    Matrix.smul_apply, smul_eq_mul]
  swap
  · intro b _ hb
    rw [h.mono.entry, if_neg (fun hh => hb (σ.injective hh).symm), mul_zero]
  have := exact_right h.mono h.pos h.pow k (rep a) j
  unfold Reps.exactMat Reps.exactRow phases
  simp only [of_apply]
  rw [div_mul_eq_mul_div, div_mul_eq_mul_div, this]
  ring

theorem near_eigen {k : ℕ} (hk : k < n) : NearEigen (h.sector k) [(U, omega n k)] (3 * δ) := by
  refine ⟨_, _, h.near_sector hk, (h.reps hk).exactMat_unit, fun s hs => ?_⟩
  rw [List.mem_singleton] at hs
  subst hs
  exact h.exactMat_eigen k _

/-- Rows of a second symmetry in a sector of the first one. -/
theorem near_eigen_mul {k : ℕ} (hk : k < n) (s : Second U V ρ v) {τ : Equiv.Perm (Fin (h.sector k).length)}
    (hτ : ∀ a, σ.SameCycle (ρ (h.sectorRep k a)) (h.sectorRep k (τ a))) {w : Fin (h.sector k).length → ℂ} {n2 : ℕ}
    {A' : ℕ → Matrix (Fin (h.sector k).length) (Fin (h.sector k).length) ℂ} {δ' : ℝ}
    (hd : ZnData (Reps.moveMat h k ρ v (h.sectorRep k) τ) τ w n2 A' δ') {p : ℕ} (hp : p < n2) :
    NearEigen (mulRows (h.sector k) (hd.sector p)) [(U, omega n k), (V, omega n2 p)] (3 * δ * (1 + 3 * δ') + 3 * δ') := by
  have hX := (h.reps hk).exactMat_unit
  have hY := (hd.reps hp).exactMat_unit
  refine ⟨_, _, NearRows.mul (by linarith [h.nonneg]) hX hY (h.near_sector hk) (hd.near_sector hp), ?_, fun t ht => ?_⟩
  · rw [conjTranspose_mul, Matrix.mul_assoc, ← Matrix.mul_assoc _ _ (Reps.exactMat hd p (hd.sectorRep p))ᴴ, hX, Matrix.one_mul, hY]
  · simp only [List.mem_cons, List.not_mem_nil, or_false] at ht
    rcases ht with rfl | rfl
    · rw [Matrix.mul_assoc, h.exactMat_eigen, Matrix.mul_smul]
    · rw [Matrix.mul_assoc, Reps.exactMat_move s hτ, ← Matrix.mul_assoc, hd.exactMat_eigen, Matrix.smul_mul]

end ZnData

end ED
