import Verif.Lemmas.Kramers
import Verif.Props.Snapshots

/-! # Property C143: reversal of time -/

namespace ED.Props

open Matrix

/-- There are no fields. -/
def NoFields (F : Spins) : Prop := ∀ i : Fin F.nsites, F.hx i = 0 ∧ F.hy i = 0 ∧ F.hz i = 0

theorem heis_reverse (F : Spins) (h0 : NoFields F) : spinHam F * reverseSpins F.nsites F.twoS = reverseSpins F.nsites F.twoS * (spinHam F)ᵀ := by
  set R := reverseSpins F.nsites F.twoS
  have key : ∀ {X : Matrix (Fin (F.twoS + 1)) (Fin (F.twoS + 1)) ℂ}, X * reverseSite F.twoS = -(reverseSite F.twoS * Xᵀ) → ∀ (z : ℂ) (i j : Fin F.nsites),
      i ≠ j → z • (siteOp X i * siteOp X j) * R = R * (z • (siteOp X i * siteOp X j))ᵀ := by
    intro X hX z i j hij
    rw [transpose_smul, Matrix.smul_mul, Matrix.mul_smul, transpose_mul, Matrix.mul_assoc, reverseSpins_site hX j, Matrix.mul_neg, ← Matrix.mul_assoc,
      reverseSpins_site hX i, Matrix.neg_mul, neg_neg, Matrix.mul_assoc, ← transpose_mul, ← transpose_mul, siteOp_comm hij]
  have e : spinHam F = ∑ i : Fin F.nsites, ∑ j : Fin F.nsites, if j < i then
      (2 * F.jx i j) • (siteOp (sxM F.twoS) i * siteOp (sxM F.twoS) j) + (2 * F.jy i j) • (siteOp (syM F.twoS) i * siteOp (syM F.twoS) j) +
        (2 * F.jz i j) • (siteOp (szM F.twoS) i * siteOp (szM F.twoS) j) else 0 := by
    unfold spinHam heis
    refine sub_eq_self.2 (Finset.sum_eq_zero fun i _ => ?_)
    beta_reduce
    rw [(h0 i).1, (h0 i).2.1, (h0 i).2.2, zero_smul, zero_smul, zero_smul, add_zero, add_zero]
  rw [e, Matrix.sum_mul, transpose_sum, Matrix.mul_sum]
  refine Finset.sum_congr rfl fun i _ => ?_
  rw [Matrix.sum_mul, transpose_sum, Matrix.mul_sum]
  refine Finset.sum_congr rfl fun j _ => ?_
  split_ifs with h
  · have hij : i ≠ j := ne_of_gt h
    rw [Matrix.add_mul, Matrix.add_mul, key (reverse_sx _) _ i j hij, key (reverse_sy _) _ i j hij, key (reverse_sz _) _ i j hij, transpose_add, transpose_add,
      Matrix.mul_add, Matrix.mul_add]
  · rw [Matrix.zero_mul, transpose_zero, Matrix.mul_zero]

open Classical in
/-- C143 (degeneracy): without fields, every energy of an odd number of spins one half, three halves and so on occurs an even number of
times. -/
theorem C143_degenerate (S : EigSolvers) (hS : EigContract S) (F : Spins) (hr : RealCouplings F) (h0 : NoFields F) (hodd : _root_.Odd (F.twoS * F.nsites)) :
    ∃ A w M, F.createH none = .ok A ∧ diagList S A = .ok (w, M) ∧ w.length = (F.twoS + 1) ^ F.nsites ∧ ∀ e : ℝ, Even (w.count e) := by
  obtain ⟨A, hA, hAi⟩ := spin_createH F (.inr fun i _ => h0 i)
  obtain ⟨k, E, M, V, p0, p1, p2, p3, p4, p5⟩ := diagList_ok S hS hAi (spins_hermitian hr)
  refine ⟨A, _, M, hA, p0, ?_, fun e => ?_⟩
  · rw [List.length_ofFn]
    have h := congrArg trace p2
    rw [trace_mul_comm, p3, trace_one, trace_one] at h
    have h' : Fintype.card (Conf F.nsites (F.twoS + 1)) = Fintype.card (Fin (k + 1)) := by exact_mod_cast h
    simpa using h'.symm
  · rw [count_ofFn]
    have h := even_level (reverseSpins_unitary F.nsites F.twoS) ?_ (heis_reverse F h0) p2 p3 p4 e
    · rw [Fintype.card_subtype] at h
      convert h
    rw [reverseSpins_transpose, hodd.neg_one_pow, neg_one_smul]

theorem sigmas_reverse (a : Fin 3) : sigmas a * reverseSite 1 = -(reverseSite 1 * (sigmas a)ᵀ) := by
  ext i j
  rw [Matrix.neg_apply, entry_reverseSite, reverseSite_entry, transpose_apply]
  fin_cases a <;> fin_cases i <;> fin_cases j <;> simp [sigmas, sigmaX, sigmaY, sigmaZ, Fin.rev]

/-- C143 (no magnetization): without fields, the average of every component of every spin one half vanishes, at every temperature. -/
theorem C143_no_magnetization (S : EigSolvers) (hS : EigContract S) (F : Spins) (h1 : F.twoS = 1) (hr : RealCouplings F) (h0 : NoFields F) :
    ∃ A w M, F.createH none = .ok A ∧ diagList S A = .ok (w, M) ∧ ∀ a, SiteAverages F w M (pauliMats a) fun _ _ => 0 := by
  obtain ⟨n, b, jx, jy, jz, hx, hy, hz⟩ := F
  simp only at h1
  subst h1
  set F : Spins := ⟨n, 1, jx, jy, jz, hx, hy, hz⟩ with hF
  obtain ⟨A, hA, hAi⟩ := spin_createH F (.inl rfl)
  obtain ⟨k, E, M, V, p0, p1, p2, p3, p4, p5⟩ := diagList_ok S hS hAi (spins_hermitian hr)
  refine ⟨A, _, M, hA, p0, fun a temps hT => ?_⟩
  refine ((averages_all F p1 p5 (pauliMats_is a) (pauliMats_is a)).1 rfl temps hT).trans ?_
  have : ∀ (i : Fin n) (T : ℝ), (canonical T E fun k => (expect (siteOp (sigmas a) i : Op n 2) (colOf V k)).re) = 0 := fun i T =>
    average_reversed (spins_hermitian hr) (reverseSpins_unitary n 1) (heis_reverse F h0) (reverseSpins_site (sigmas_reverse a) i) p2 p3 p4 T
  simp only [F] at this ⊢
  simp only [this]

/-- Three spins on a ring, with couplings in different directions. -/
noncomputable def threeSpins (d : ℕ) : Spins := ⟨3, d, fun i j => i + j, fun _ _ => -2, fun i j => i * j, fun _ => 0, fun _ => 0, fun _ => 0⟩

theorem threeSpins_real (d : ℕ) : RealCouplings (threeSpins d) := by
  refine ⟨fun i j => ?_, fun i j => ?_, fun i j => ?_, fun i => ?_, fun i => ?_, fun i => ?_⟩ <;> simp [threeSpins]

open Classical in
example (S : EigSolvers) (hS : EigContract S) : ∃ A w M, (threeSpins 3).createH none = .ok A ∧ diagList S A = .ok (w, M) ∧ w.length = 64 ∧
    ∀ e : ℝ, Even (w.count e) :=
  C143_degenerate S hS (threeSpins 3) (threeSpins_real 3) (fun _ => ⟨rfl, rfl, rfl⟩) (by decide : _root_.Odd (3 * 3))

example (S : EigSolvers) (hS : EigContract S) : ∃ A w M, (threeSpins 1).createH none = .ok A ∧ diagList S A = .ok (w, M) ∧
    ∀ a, SiteAverages (threeSpins 1) w M (pauliMats a) fun _ _ => 0 :=
  C143_no_magnetization S hS (threeSpins 1) rfl (threeSpins_real 1) fun _ => ⟨rfl, rfl, rfl⟩

end ED.Props
