import Verif.Lemmas.SpinAlg

/-!
# Properties C13, C15, C31-C37, C75, C76: spin models

Vocabulary (`Verif/Spec/Spin.lean`): digit `0` of a configuration is spin up, `siteOp A i` acts with
the 2x2 matrix `A` on site `i`, `sigmaX/Y/Z`, `spinVal` (±1), `upVal` (0/1), `flipAll`, `spinH`.
-/

namespace ED.Props

open ED Matrix
open scoped BigOperators

/-! ## C31, C32: spin matrices of any spin -/

/-- C31 (what holds): for every spin `d/2` the returned matrices satisfy the angular momentum algebra
with `i` replaced by `-i`: `[Sx, Sy] = -i Sz` and cyclic, and `[Sz, S±] = ∓ S±`. The documented
algebra fails, see `C31_violated`. -/
theorem C31_algebra_partial (d : ℕ) :
    ∃ Sp Sm Sx Sy Sz : Matrix (Fin (d + 1)) (Fin (d + 1)) ℂ,
      (getSplus d).Is Sp ∧ (getSminus d).Is Sm ∧ Gives (getSx d) Sx ∧ Gives (getSy d) Sy ∧
      (getSz d).Is Sz ∧
      Sx * Sy - Sy * Sx = (-Complex.I) • Sz ∧ Sy * Sz - Sz * Sy = (-Complex.I) • Sx ∧
      Sz * Sx - Sx * Sz = (-Complex.I) • Sy ∧
      Sz * Sp - Sp * Sz = -Sp ∧ Sz * Sm - Sm * Sz = Sm := by
  obtain ⟨h1, h2, h3⟩ := su2_alg (sp_sm_comm d) (sz_sp d) (sz_sm d)
  exact ⟨_, _, _, _, _, getSplus_is d, getSminus_is d, getSx_gives d, getSy_gives d, getSz_is d,
    h1, h2, h3, sz_sp d, sz_sm d⟩

/-- C31 fails for every spin: `[Sx, Sy] ≠ i Sz`, and `S+` does not raise `Sz`. -/
theorem C31_violated (d : ℕ) (hd : 1 ≤ d) :
    ∃ Sp Sx Sy Sz : Matrix (Fin (d + 1)) (Fin (d + 1)) ℂ,
      (getSplus d).Is Sp ∧ Gives (getSx d) Sx ∧ Gives (getSy d) Sy ∧ (getSz d).Is Sz ∧
      Sx * Sy - Sy * Sx ≠ Complex.I • Sz ∧ Sz * Sp - Sp * Sz ≠ Sp := by
  obtain ⟨h1, -, -⟩ := su2_alg (sp_sm_comm d) (sz_sp d) (sz_sm d)
  refine ⟨_, _, _, _, getSplus_is d, getSx_gives d, getSy_gives d, getSz_is d, ?_, ?_⟩
  · intro e
    rw [e] at h1
    have := congrFun (congrFun h1 0) 0
    simp only [Matrix.smul_apply, szM, diagonal_apply_eq, smul_eq_mul] at this
    have hd' : (d : ℂ) ≠ 0 := by exact_mod_cast (by omega : d ≠ 0)
    have hI := Complex.I_ne_zero
    have h0 : Complex.I * (d : ℂ) = 0 := by
      push_cast at this
      simp only [Fin.val_zero, Nat.cast_zero, sub_zero] at this
      linear_combination this
    rcases mul_eq_zero.1 h0 with h | h
    · exact hI h
    · exact hd' h
  · intro e
    have h2 := sz_sp d
    rw [e] at h2
    have := congrFun (congrFun h2 ⟨1, by omega⟩) ⟨0, by omega⟩
    rw [Matrix.neg_apply, spM, of_apply, if_pos rfl] at this
    have h3 : ((Real.sqrt ((((0 : ℕ) : ℝ) + 1) * (d - ((0 : ℕ) : ℝ))) : ℝ) : ℂ) = 0 := by
      linear_combination (1 / 2 : ℂ) * this
    rw [Complex.ofReal_eq_zero, Real.sqrt_eq_zero'] at h3
    have : (1 : ℝ) ≤ d := by exact_mod_cast hd
    simp at h3
    linarith

/-- C32: `Sx`, `Sy`, `Sz` are Hermitian, `S-` is the adjoint of `S+`, `[S+, S-] = -2 Sz` is diagonal
and the total spin is `s (s + 1)`, for every spin `s = d/2`. -/
theorem C32_total_spin (d : ℕ) :
    ∃ Sp Sm Sx Sy Sz : Matrix (Fin (d + 1)) (Fin (d + 1)) ℂ,
      (getSplus d).Is Sp ∧ (getSminus d).Is Sm ∧ Gives (getSx d) Sx ∧ Gives (getSy d) Sy ∧
      (getSz d).Is Sz ∧
      Sxᴴ = Sx ∧ Syᴴ = Sy ∧ Szᴴ = Sz ∧ Spᴴ = Sm ∧
      Sp * Sm - Sm * Sp = (-2 : ℂ) • Sz ∧
      Sz = Matrix.diagonal (fun k : Fin (d + 1) => ((d : ℂ) / 2 - ((k : ℕ) : ℂ))) ∧
      Sx * Sx + Sy * Sy + Sz * Sz = ((d / 2 : ℂ) * (d / 2 + 1)) • 1 :=
  ⟨_, _, _, _, _, getSplus_is d, getSminus_is d, getSx_gives d, getSy_gives d, getSz_is d,
    sxM_star d, syM_star d, szM_star d, smM_star d, sp_sm_comm d, by
      simp only [szM]; congr 1; funext k; push_cast; rfl, su2_casimir d⟩

example : ∃ Sx Sy Sz : Matrix (Fin 3) (Fin 3) ℂ,
    Gives (getSx 2) Sx ∧ Gives (getSy 2) Sy ∧ (getSz 2).Is Sz ∧
      Sx * Sx + Sy * Sy + Sz * Sz = (2 : ℂ) • 1 := by
  obtain ⟨_, _, Sx, Sy, Sz, _, _, h1, h2, h3, _, _, _, _, _, _, h⟩ := C32_total_spin 2
  refine ⟨Sx, Sy, Sz, h1, h2, h3, h.trans ?_⟩
  norm_num

/-! ## C75: the spin-1/2 Hamiltonian -/

/-- C75 (what holds): for spin 1/2 the Hamiltonian, projected or not, is the documented one with the
sign of `hy` reversed. The full claim fails, see `C75_hy_violated`. -/
theorem C75_hamiltonian_partial (F : Spins) (h : F.twoS = 1) :
    Gives (F.createH none) (spinH (fun i j => F.jx i j) (fun i j => F.jy i j) (fun i j => F.jz i j)
      (fun i => F.hx i) (fun i => -F.hy i) (fun i => F.hz i) : Op F.nsites 2) ∧
    ∀ (k : ℕ) (P : Mat) (Pm : Matrix (Fin k) (Conf F.nsites 2) ℂ), P.Is Pm →
      Gives (F.createH (some P)) (Pm * (spinH (fun i j => F.jx i j) (fun i j => F.jy i j)
        (fun i j => F.jz i j) (fun i => F.hx i) (fun i => -F.hy i) (fun i => F.hz i)) * Pmᴴ) := by
  obtain ⟨n, d, jx, jy, jz, hx, hy, hz⟩ := F
  simp only at h
  subst h
  constructor
  · have := spin_createH ⟨n, 1, jx, jy, jz, hx, hy, hz⟩ (Or.inl rfl)
    rw [heis_half] at this
    exact this
  · intro k P Pm hP
    have := spin_createH_proj ⟨n, 1, jx, jy, jz, hx, hy, hz⟩ (Or.inl rfl) hP
    rw [heis_half] at this
    exact this

/-- C75 fails: one spin in a field along y gets the Hamiltonian of the opposite field. -/
theorem C75_hy_violated (b : ℝ) (hb : b ≠ 0) :
    ∃ H : Op 1 2, Gives (Spins.createH ⟨1, 1, fun _ _ => 0, fun _ _ => 0, fun _ _ => 0, fun _ => 0,
        fun _ => b, fun _ => 0⟩ none) H ∧
      H ≠ spinH (fun _ _ => 0) (fun _ _ => 0) (fun _ _ => 0) (fun _ => 0) (fun _ => b) (fun _ => 0) := by
  refine ⟨_, (C75_hamiltonian_partial ⟨1, 1, fun _ _ => 0, fun _ _ => 0, fun _ _ => 0, fun _ => 0,
        fun _ => b, fun _ => 0⟩ rfl).1, fun e => ?_⟩
  have := congrFun (congrFun e (fun _ => 0)) (fun _ => 1)
  simp [spinH, siteOp, AgreeOff, sigmaY] at this
  have hI := Complex.I_ne_zero
  have hb' : (b : ℂ) ≠ 0 := by exact_mod_cast hb
  have h0 : (b : ℂ) * Complex.I = 0 := by linear_combination -this
  rcases mul_eq_zero.1 h0 with h | h
  · exact hb' h
  · exact hI h

/-! ## C33: Hermiticity -/

/-- C33 (what holds): with real couplings and fields the Hamiltonian is Hermitian; for spins other
than 1/2 this needs all fields but those on the last site to vanish (otherwise it cannot be built, see
`C33_higher_spin_field_fails`). The full claim, for every coupling the constructor accepts, fails:
`C33_twisted_violated`. -/
theorem C33_hermitian_partial (F : Spins)
    (hok : F.twoS = 1 ∨ ∀ i : Fin F.nsites, (i : ℕ) + 1 < F.nsites → F.hx i = 0 ∧ F.hy i = 0 ∧ F.hz i = 0)
    (hjx : ∀ i j : Fin F.nsites, star (F.jx i j) = F.jx i j)
    (hjy : ∀ i j : Fin F.nsites, star (F.jy i j) = F.jy i j)
    (hjz : ∀ i j : Fin F.nsites, star (F.jz i j) = F.jz i j)
    (hhx : ∀ i : Fin F.nsites, star (F.hx i) = F.hx i)
    (hhy : ∀ i : Fin F.nsites, star (F.hy i) = F.hy i)
    (hhz : ∀ i : Fin F.nsites, star (F.hz i) = F.hz i) :
    (∃ H : Op F.nsites (F.twoS + 1), Gives (F.createH none) H ∧ Hᴴ = H) ∧
    ∀ (k : ℕ) (P : Mat) (Pm : Matrix (Fin k) (Conf F.nsites (F.twoS + 1)) ℂ), P.Is Pm →
      ∃ H : Matrix (Fin k) (Fin k) ℂ, Gives (F.createH (some P)) H ∧ Hᴴ = H := by
  have hs := heis_star (sxM_star F.twoS) (syM_star F.twoS) (szM_star F.twoS) (n := F.nsites)
    (fun i j => F.jx i j) (fun i j => F.jy i j) (fun i j => F.jz i j)
    (fun i => F.hx i) (fun i => F.hy i) (fun i => F.hz i)
  simp only [hjx, hjy, hjz, hhx, hhy, hhz] at hs
  refine ⟨⟨_, spin_createH F hok, hs⟩, fun k P Pm hP => ⟨_, spin_createH_proj F hok hP, ?_⟩⟩
  rw [conjTranspose_mul, conjTranspose_mul, conjTranspose_conjTranspose, hs, Matrix.mul_assoc]

/-- C33 fails: a real coupling on a two-site geometry with a twisted (complex) phase on its bond
gives a Hamiltonian that is not Hermitian. The phases `phase[0,1] = -i`, `phase[1,0] = i` are
Hermitian conjugates of each other. -/
theorem C33_twisted_violated (j : ℝ) (hj : j ≠ 0) :
    ∃ F : Spins, Spins.init 2 1 (fun a b => if a = b then 0 else 1)
        (fun a b => if a = 1 ∧ b = 0 then Complex.I else if a = 0 ∧ b = 1 then -Complex.I else 1)
        (.scalar 0) (.scalar 0) (.scalar j) (.scalar 0) (.scalar 0) (.scalar 0) false = .ok F ∧
      ∃ H : Op 2 2, Gives (F.createH none) H ∧ Hᴴ ≠ H := by
  refine ⟨⟨2, 1, _, _, _, _, _, _⟩, rfl, ?_⟩
  refine ⟨_, (C75_hamiltonian_partial ⟨2, 1, _, _, _, _, _, _⟩ rfl).1, fun e => ?_⟩
  have := congrFun (congrFun e (fun _ => 0)) (fun _ => 0)
  rw [conjTranspose_apply] at this
  simp only [Complex.ofReal_zero, zero_mul] at this
  rw [spinH_ising, diagonal_apply_eq] at this
  simp [Fin.sum_univ_two, spinVal] at this
  have hI := Complex.I_ne_zero
  have hj' : (j : ℂ) ≠ 0 := by exact_mod_cast hj
  have h0 : (j : ℂ) * Complex.I = 0 := by linear_combination -this
  rcases mul_eq_zero.1 h0 with h | h
  · exact hj' h
  · exact hI h

/-- C33: for spin one or more a field on the first of several sites makes building the Hamiltonian
raise (the single-site operators have the wrong size, C07). -/
theorem C33_higher_spin_field_fails (F : Spins) (hs : F.twoS ≠ 1) (hn : 2 ≤ F.nsites)
    (hx : F.hx 0 ≠ 0) : F.createH none = .error .shape := by
  obtain ⟨n, d, jx, jy, jz, fx, fy, fz⟩ := F
  simp only at hs hn hx
  obtain ⟨n, rfl⟩ : ∃ m, n = m + 2 := ⟨n - 2, by omega⟩
  unfold Spins.createH
  simp only
  rw [List.range_succ_eq_map, List.foldlM_cons]
  have h1 : ∀ P : Mat, P.cols = (d + 1) ^ (n + 2) → ∀ acc, Spins.fieldTerm ⟨n + 2, d, jx, jy, jz, fx, fy, fz⟩ P (fx 0) (getSx d) 0 acc
      = .error .shape := by
    intro P hP acc
    unfold Spins.fieldTerm
    rw [if_pos hx]
    obtain ⟨o, ho, ho'⟩ := getSx_gives d
    rw [ho]
    have hr : o.rows = d + 1 := by simpa using ho'.1
    have hg : getSingleSiteOp (Spins.sys ⟨n + 2, d, jx, jy, jz, fx, fy, fz⟩) 0 0 o "boson" =
        .ok (((Mat.eye ((d + 1) ^ ((n + 2) * 0 + 0))).kron o).kron
          (Mat.eye (2 ^ ((n + 2) * 1 - ((n + 2) * 0 + 0) - 1)))) := by
      unfold getSingleSiteOp
      simp only [show ¬ ("boson" = "fermion") by decide, if_false, if_true]
      exact if_pos (show (n + 2) * 0 + 0 < (n + 2) * 1 by omega)
    change (getSingleSiteOp (Spins.sys ⟨n + 2, d, jx, jy, jz, fx, fy, fz⟩) 0 0 o "boson" >>=
      fun a => spinSandwich (fx 0) P a >>= fun b => acc.sub b) = _
    rw [hg]
    change (spinSandwich _ _ _ >>= _) = _
    unfold spinSandwich
    have hm : ∀ A B : Mat, A.cols ≠ B.rows → A.mul B = .error .shape := fun A B h => if_neg h
    rw [hm]
    · rfl
    · simp only [Mat.smul, hP, Mat.kron, Mat.eye, hr]
      have e : (n + 2) * 1 - ((n + 2) * 0 + 0) - 1 = n + 1 := by omega
      rw [e]
      simp only [Nat.mul_zero, Nat.add_zero, pow_zero, one_mul, pow_succ (d + 1) (n + 1)]
      intro h
      rw [mul_comm] at h
      have := Nat.eq_of_mul_eq_mul_left (by omega) h
      have := Nat.pow_left_injective (n := n + 1) (by omega) this
      omega
  simp only [Option.getD_none]
  rw [h1 _ rfl]
  rfl

/-- Instance of C33: a spin-1/2 chain built from real numbers on a three-site ring. -/
example (j hx hy : ℝ) : ∃ F : Spins, Spins.init 3 1 (fun a b => if a = b then 0 else 1) (fun _ _ => 1)
      (.scalar j) (.scalar j) (.scalar j) (.scalar hx) (.scalar hy) (.scalar 0) false = .ok F ∧
    ∃ H : Op 3 2, Gives (F.createH none) H ∧ Hᴴ = H := by
  refine ⟨⟨3, 1, _, _, _, _, _, _⟩, rfl, ?_⟩
  refine (C33_hermitian_partial ⟨3, 1, _, _, _, _, _, _⟩ (Or.inl rfl) ?_ ?_ ?_ ?_ ?_ ?_).1 <;> intros <;>
    simp [apply_ite (starRingEnd ℂ)]

/-! ## C34, C35: diagonal Hamiltonians -/

/-- C34: with only `jz` and `hz` the spin-1/2 Hamiltonian is diagonal with the classical energy. -/
theorem C34_ising (F : Spins) (h : F.twoS = 1)
    (hjx : ∀ i j : Fin F.nsites, F.jx i j = 0) (hjy : ∀ i j : Fin F.nsites, F.jy i j = 0)
    (hhx : ∀ i : Fin F.nsites, F.hx i = 0) (hhy : ∀ i : Fin F.nsites, F.hy i = 0) :
    Gives (F.createH none) (Matrix.diagonal fun t : Conf F.nsites 2 =>
      1 / 2 * (∑ i : Fin F.nsites, ∑ j : Fin F.nsites,
          if j < i then F.jz i j * (spinVal t i * spinVal t j) else 0) -
        1 / 2 * ∑ i : Fin F.nsites, F.hz i * spinVal t i) := by
  have := (C75_hamiltonian_partial F h).1
  simp only [hjx, hjy, hhx, hhy] at this
  rw [spinH_ising] at this
  exact this

/-- C35: with the Rydberg detuning correction and a symmetric real `jz` without diagonal, the energy
of a configuration is `2 Σ_{i>j} J_ij n_i n_j - Σ_i hz_i n_i` up to a constant. -/
theorem C35_rydberg (F : Spins) (h : F.twoS = 1)
    (hjx : ∀ i j : Fin F.nsites, F.jx i j = 0) (hjy : ∀ i j : Fin F.nsites, F.jy i j = 0)
    (hhx : ∀ i : Fin F.nsites, F.hx i = 0) (hhy : ∀ i : Fin F.nsites, F.hy i = 0)
    (hreal : ∀ i j : Fin F.nsites, (F.jz i j).im = 0)
    (hsym : ∀ i j : Fin F.nsites, F.jz i j = F.jz j i) (hdiag : ∀ i : Fin F.nsites, F.jz i i = 0) :
    ∃ c : ℂ, Gives (F.withRydDetunes.createH none) (Matrix.diagonal fun t : Conf F.nsites 2 =>
      2 * (∑ i : Fin F.nsites, ∑ j : Fin F.nsites,
          if j < i then F.jz i j * (upVal t i * upVal t j) else 0) -
        (∑ i : Fin F.nsites, F.hz i * upVal t i) + c) := by
  have hdet : ∀ i : Fin F.nsites, rydbergDetunes F.nsites F.jz i = -∑ j : Fin F.nsites, F.jz i j := by
    intro i
    have e : ∀ ii : ℕ, -2 * (1 / 2 * ∑ jj ∈ Finset.range F.nsites, F.jz ii jj) =
        -∑ j : Fin F.nsites, F.jz ii j := by
      intro ii
      rw [Fin.sum_univ_eq_sum_range (fun j => F.jz ii j)]
      ring
    have him : ∀ ii : Fin F.nsites, (-∑ j : Fin F.nsites, F.jz ii j).im = 0 := by
      intro ii
      rw [Complex.neg_im, Complex.im_sum]
      simp [hreal]
    unfold rydbergDetunes
    simp only [e]
    split_ifs
    · rfl
    · apply Complex.ext
      · simp
      · rw [Complex.ofReal_im, him]
  have hH := C34_ising F.withRydDetunes h hjx hjy hhx hhy
  refine ⟨-(1 / 2) * (∑ i : Fin F.nsites, ∑ j : Fin F.nsites, if j < i then F.jz i j else 0) +
    1 / 2 * ∑ i : Fin F.nsites, F.hz i, hH.of_eq ?_⟩
  congr 1
  funext t
  change Conf F.nsites 2 at t
  change 1 / 2 * (∑ i : Fin F.nsites, ∑ j : Fin F.nsites,
          if j < i then F.jz i j * (spinVal t i * spinVal t j) else 0) -
        1 / 2 * (∑ i : Fin F.nsites, (F.hz i + rydbergDetunes F.nsites F.jz i) * spinVal t i) = _
  have hs : ∀ i, spinVal t i = 2 * upVal t i - 1 := by
    intro i
    unfold spinVal upVal
    split_ifs <;> norm_num
  simp only [hs, hdet]
  -- twice the double sum over i > j of a symmetric zero-diagonal array
  have hdouble : ∀ g : Fin F.nsites → ℂ,
      (∑ i : Fin F.nsites, ∑ j : Fin F.nsites, if j < i then F.jz i j * (g i + g j) else 0) =
        ∑ i : Fin F.nsites, g i * ∑ j : Fin F.nsites, F.jz i j := by
    intro g
    have e1 : (∑ i : Fin F.nsites, ∑ j : Fin F.nsites, if j < i then F.jz i j * (g i + g j) else 0) =
        (∑ i : Fin F.nsites, ∑ j : Fin F.nsites, if j < i then F.jz i j * g i else 0) +
        ∑ i : Fin F.nsites, ∑ j : Fin F.nsites, if j < i then F.jz i j * g j else 0 := by
      rw [← Finset.sum_add_distrib]
      refine Finset.sum_congr rfl fun i _ => ?_
      rw [← Finset.sum_add_distrib]
      refine Finset.sum_congr rfl fun j _ => ?_
      split_ifs
      · ring
      · ring
    rw [e1]
    conv_lhs => arg 2; rw [Finset.sum_comm]
    rw [← Finset.sum_add_distrib]
    refine Finset.sum_congr rfl fun i _ => ?_
    rw [← Finset.sum_add_distrib, Finset.mul_sum]
    refine Finset.sum_congr rfl fun j _ => ?_
    rcases lt_trichotomy i j with h | h | h
    · rw [if_neg h.not_gt, if_pos h, hsym j i]; ring
    · subst h; simp [hdiag]
    · rw [if_pos h, if_neg h.not_gt]; ring
  have h1 := hdouble (fun i => upVal t i)
  have h2 := hdouble (fun _ => 1 / 2)
  have e3 : (∑ i : Fin F.nsites, ∑ j : Fin F.nsites,
      if j < i then F.jz i j * ((2 * upVal t i - 1) * (2 * upVal t j - 1)) else 0) =
      4 * (∑ i : Fin F.nsites, ∑ j : Fin F.nsites,
          if j < i then F.jz i j * (upVal t i * upVal t j) else 0) -
      2 * (∑ i : Fin F.nsites, ∑ j : Fin F.nsites,
          if j < i then F.jz i j * (upVal t i + upVal t j) else 0) +
      ∑ i : Fin F.nsites, ∑ j : Fin F.nsites, if j < i then F.jz i j else 0 := by
    simp only [Finset.mul_sum, ← Finset.sum_add_distrib, ← Finset.sum_sub_distrib]
    refine Finset.sum_congr rfl fun i _ => Finset.sum_congr rfl fun j _ => ?_
    split_ifs <;> ring
  have e4 : (∑ i : Fin F.nsites, (F.hz i + -∑ j : Fin F.nsites, F.jz i j) * (2 * upVal t i - 1)) =
      2 * (∑ i : Fin F.nsites, F.hz i * upVal t i) - (∑ i : Fin F.nsites, F.hz i) -
      2 * (∑ i : Fin F.nsites, upVal t i * ∑ j : Fin F.nsites, F.jz i j) +
      2 * ∑ i : Fin F.nsites, 1 / 2 * ∑ j : Fin F.nsites, F.jz i j := by
    rw [Finset.mul_sum, Finset.mul_sum, Finset.mul_sum (s := Finset.univ) (a := (2 : ℂ))
      (f := fun i : Fin F.nsites => 1 / 2 * ∑ j : Fin F.nsites, F.jz i j),
      ← Finset.sum_sub_distrib, ← Finset.sum_sub_distrib, ← Finset.sum_add_distrib]
    refine Finset.sum_congr rfl fun i _ => ?_
    ring
  have e5 : (∑ i : Fin F.nsites, ∑ j : Fin F.nsites, if j < i then F.jz i j * (1 / 2 + 1 / 2) else 0) =
      ∑ i : Fin F.nsites, ∑ j : Fin F.nsites, if j < i then F.jz i j else 0 := by
    refine Finset.sum_congr rfl fun i _ => Finset.sum_congr rfl fun j _ => ?_
    split_ifs <;> ring
  rw [e3, e4]
  rw [e5] at h2
  rw [h1, ← h2]
  ring

/-- Instance of C34, C35: nearest-neighbour interaction on a three-site ring. -/
example (V : ℝ) : ∃ c : ℂ, Gives ((Spins.withRydDetunes ⟨3, 1, fun _ _ => 0, fun _ _ => 0,
      fun a b => if a = b then 0 else (V : ℂ), fun _ => 0, fun _ => 0, fun _ => 0⟩).createH none)
    (Matrix.diagonal fun t : Conf 3 2 => 2 * (∑ i : Fin 3, ∑ j : Fin 3,
        if j < i then (if (i : ℕ) = j then (0 : ℂ) else V) * (upVal t i * upVal t j) else 0) -
      (∑ i : Fin 3, 0 * upVal t i) + c) :=
  C35_rydberg ⟨3, 1, fun _ _ => 0, fun _ _ => 0,
      fun a b => if a = b then 0 else (V : ℂ), fun _ => 0, fun _ => 0, fun _ => 0⟩ rfl
    (fun _ _ => rfl) (fun _ _ => rfl) (fun _ => rfl) (fun _ => rfl)
    (fun i j => by simp only; split_ifs <;> simp) (fun i j => by simp only [eq_comm]) (fun i => by simp)

/-! ## C36: the spin-flip operator -/

/-- C36: the operator maps every configuration to the one with all spins reversed and is its own
inverse. -/
theorem C36_flip (n : ℕ) : ∃ X : Op n 2, (swapUpDownOp (2 ^ n)).Is X ∧
    (∀ t : Conf n 2, X.mulVec (ket t) = ket (flipAll t)) ∧ X * X = 1 ∧ Xᴴ = X := by
  have hc : (relMat (flipPerm (n := n)))ᴴ = relMat flipPerm := by rw [relMat_conj]; rfl
  refine ⟨_, swapUpDown_is n, relMat_mulVec _, ?_, hc⟩
  have := (relMat_unitary (flipPerm (n := n))).1
  rwa [hc] at this

/-- C36: it commutes with every spin-1/2 Hamiltonian whose fields along y and z vanish. -/
theorem C36_flip_commutes (F : Spins) (h : F.twoS = 1) (hhy : ∀ i : Fin F.nsites, F.hy i = 0)
    (hhz : ∀ i : Fin F.nsites, F.hz i = 0) :
    ∃ X H : Op F.nsites 2, (swapUpDownOp (2 ^ F.nsites)).Is X ∧ Gives (F.createH none) H ∧
      X * H = H * X := by
  refine ⟨_, _, swapUpDown_is _, (C75_hamiltonian_partial F h).1, ?_⟩
  refine commute_of_conj (relMat_unitary _).1 ?_
  simp only [hhy, hhz]
  unfold spinH
  rw [mul_sub, sub_mul]
  have hU := (relMat_unitary (flipPerm (n := F.nsites))).1
  congr 1
  · rw [Finset.mul_sum, Finset.sum_mul]
    refine Finset.sum_congr rfl fun i _ => ?_
    rw [Finset.mul_sum, Finset.sum_mul]
    refine Finset.sum_congr rfl fun j _ => ?_
    split_ifs
    · simp only [mul_smul_comm, smul_mul_assoc, mul_add, add_mul, conj_mul2 hU, flip_siteOp, flip_X,
        flip_Y, flip_Z, siteOp_smul, smul_smul]
      norm_num
    · simp
  · rw [Finset.mul_sum, Finset.sum_mul]
    refine Finset.sum_congr rfl fun i _ => ?_
    simp only [neg_zero, zero_smul, add_zero, mul_smul_comm, smul_mul_assoc, flip_siteOp, flip_X]

/-- Instance: a transverse-field chain; the flip exchanges up-down-down and down-up-up. -/
example : ∃ X : Op 3 2, (swapUpDownOp 8).Is X ∧ X.mulVec (ket ![0, 1, 1]) = ket ![1, 0, 0] := by
  obtain ⟨X, h1, h2, _⟩ := C36_flip 3
  exact ⟨X, h1, (h2 _).trans (congrArg ket (by decide))⟩

example (j hx : ℂ) : ∃ X H : Op 4 2, (swapUpDownOp (2 ^ 4)).Is X ∧
    Gives (Spins.createH ⟨4, 1, fun _ _ => 0, fun _ _ => 0, fun _ _ => j, fun _ => hx, fun _ => 0,
      fun _ => 0⟩ none) H ∧ X * H = H * X :=
  C36_flip_commutes ⟨4, 1, fun _ _ => 0, fun _ _ => 0, fun _ _ => j, fun _ => hx, fun _ => 0,
      fun _ => 0⟩ rfl (fun _ => rfl) (fun _ => rfl)

/-! ## C13, C15 for spins -/

/-- C13 (spins): if couplings and fields are invariant under a site permutation, the operator built
from its cycles commutes with the spin-1/2 Hamiltonian. -/
theorem C13_spins (F : Spins) (h : F.twoS = 1) (π : Equiv.Perm (Fin F.nsites))
    (cycles : List (List (Fin F.nsites))) (hc : CyclesOf cycles π)
    (sx : ∀ i j : Fin F.nsites, F.jx i j = F.jx j i)
    (sy : ∀ i j : Fin F.nsites, F.jy i j = F.jy j i)
    (sz : ∀ i j : Fin F.nsites, F.jz i j = F.jz j i)
    (ix : ∀ i j : Fin F.nsites, F.jx (π i) (π j) = F.jx i j)
    (iy : ∀ i j : Fin F.nsites, F.jy (π i) (π j) = F.jy i j)
    (iz : ∀ i j : Fin F.nsites, F.jz (π i) (π j) = F.jz i j)
    (fx : ∀ i : Fin F.nsites, F.hx (π i) = F.hx i) (fy : ∀ i : Fin F.nsites, F.hy (π i) = F.hy i)
    (fz : ∀ i : Fin F.nsites, F.hz (π i) = F.hz i) :
    ∃ (v : Val) (U H : Op F.nsites 2),
      getXformOp 1 (spinSwapOp ⟨F.nsites, 1, 2⟩) (siteNumbers cycles) = .ok v ∧ v.Is U ∧
      Gives (F.createH none) H ∧ U * H = H * U := by
  obtain ⟨v, U, h1, h2, h3⟩ := spin_xform cycles π hc
  obtain ⟨n, d, jx, jy, jz, hx, hy, hz⟩ := F
  simp only at h
  subst h
  refine ⟨v, U, _, h1, h2, spin_createH _ (Or.inl rfl), ?_⟩
  have hU := movesLabels_rel h3
  subst hU
  refine commute_of_conj (relMat_unitary _).1 ?_
  exact conj_heis (relMat_unitary _).1 (conj_siteOp π _) (conj_siteOp π _) (conj_siteOp π _)
    sx sy sz ix iy iz fx fy fz

/-- Instance: rotating a three-site ring. -/
example (j b : ℂ) : ∃ (v : Val) (U H : Op 3 2),
    getXformOp 1 (spinSwapOp ⟨3, 1, 2⟩) [[0, 1, 2]] = .ok v ∧ v.Is U ∧
    Gives (Spins.createH ⟨3, 1, fun a b => if a = b then 0 else j, fun _ _ => 0, fun _ _ => 0,
      fun _ => 0, fun _ => b, fun _ => 0⟩ none) H ∧ U * H = H * U := by
  refine C13_spins ⟨3, 1, fun a b => if a = b then 0 else j, fun _ _ => 0, fun _ _ => 0,
      fun _ => 0, fun _ => b, fun _ => 0⟩ rfl (List.formPerm [0, 1, 2]) [[0, 1, 2]] ?_
      (fun a b => by simp only [eq_comm]) (fun _ _ => rfl) (fun _ _ => rfl) (fun a b => ?_)
      (fun _ _ => rfl) (fun _ _ => rfl) (fun _ => rfl) (fun _ => rfl) (fun _ => rfl)
  · refine ⟨show ([[0, 1, 2]] : List (List (Fin 3))).flatten.Nodup by decide, ?_, ?_⟩
    · intro c hc k hk
      obtain rfl : c = [0, 1, 2] := by simpa using hc
      exact List.formPerm_apply_getElem _ (show ([0, 1, 2] : List (Fin 3)).Nodup by decide) _ _
    · exact show ∀ i : Fin 3, (∀ c ∈ [[0, 1, 2]], i ∉ c) → List.formPerm [0, 1, 2] i = i by decide
  · simp only [← Fin.ext_iff, EmbeddingLike.apply_eq_iff_eq]

/-- C15 (spins): the label of site `i` in the row of configuration `t` is 1 exactly when the spin is
up; equivalently it is one half plus the diagonal element of that site's `Sz`. Rows differ. -/
theorem C15_spin_labels (n : ℕ) :
    (spinStateVects n).rows = 2 ^ n ∧ (spinStateVects n).cols = n ∧
    (∀ (t : Conf n 2) (i : Fin n), (spinStateVects n).e (idx t) i = upVal t i) ∧
    (∀ i : Fin n, ∃ M, getSingleSiteOp ⟨n, 1, 2⟩ i 0 (getSz 1) "boson" = .ok M ∧
      ∀ t : Conf n 2, (spinStateVects n).e (idx t) i = M.e (idx t) (idx t) + 1 / 2) ∧
    (∀ r r' : Fin (2 ^ n), (∀ i : Fin n, (spinStateVects n).e r i = (spinStateVects n).e r' i) →
      r = r') := by
  have hlab : ∀ (t : Conf n 2) (i : Fin n), (spinStateVects n).e (idx t) i = upVal t i := by
    intro t i
    simp only [spinStateVects, labelColumn_apply, upVal]
  refine ⟨rfl, rfl, hlab, fun i => ?_, ?_⟩
  · obtain ⟨M, h1, h2⟩ := spin_single i (getSz_is 1)
    refine ⟨M, h1, fun t => ?_⟩
    have := h2.2.2 t t
    rw [num_conf] at this
    rw [hlab, this, szM_one, siteOp_smul, siteOp_Z]
    simp only [Matrix.smul_apply, diagonal_apply_eq, spinVal, upVal, smul_eq_mul]
    split_ifs <;> norm_num
  · intro r r' h
    have hr : ∀ r : Fin (2 ^ n), ∃ t : Conf n 2, idx t = r := fun r =>
      Basis.surj (ι := Conf n 2) r (by simpa using r.2)
    obtain ⟨t, ht⟩ := hr r
    obtain ⟨t', ht'⟩ := hr r'
    apply Fin.ext
    rw [← ht, ← ht']
    congr 1
    funext i
    have := h i
    rw [← ht, ← ht', hlab, hlab, upVal, upVal] at this
    generalize t i = x at *
    generalize t' i = y at *
    fin_cases x <;> fin_cases y <;> simp_all

example : (spinStateVects 3).e (idx (![0, 1, 0] : Conf 3 2)) 2 = 1 ∧ (spinStateVects 3).e (idx (![0, 1, 0] : Conf 3 2)) 1 = 0 :=
  ⟨((C15_spin_labels 3).2.2.1 ![0, 1, 0] (2 : Fin 3)).trans (by simp [upVal]),
   ((C15_spin_labels 3).2.2.1 ![0, 1, 0] (1 : Fin 3)).trans (by simp [upVal])⟩

/-! ## C37: special states -/

/-- The configuration with a single up spin at site `k`. -/
def oneUp {n : ℕ} (k : Fin n) : Conf n 2 := fun i => if i = k then 0 else 1

/-- The alternating configuration with the first spin up. -/
def alternating (n : ℕ) : Conf n 2 := fun i => ⟨(i : ℕ) % 2, Nat.mod_lt _ (by norm_num)⟩

theorem idx_oneUp {n : ℕ} (k : Fin n) : idx (oneUp k) = 2 ^ n - 2 ^ (n - 1 - (k : ℕ)) - 1 := by
  have h := idx_flip (oneUp k)
  have h2 : idx (flipAll (oneUp k)) = 2 ^ (n - 1 - (k : ℕ)) := by
    rw [idx, Finset.sum_eq_single k]
    · simp [flipAll, oneUp]
    · intro i _ hi
      simp [flipAll, oneUp, hi]
    · simp
  omega

theorem unitColumn_ok {n r : ℕ} (h : r < n) :
    unitColumn n r = .ok ⟨n, 1, fun i _ => if i = r then 1 else 0⟩ := if_pos h

theorem idx_zero (n : ℕ) : idx (fun _ : Fin n => (0 : Fin 2)) = 0 := by simp [idx]

theorem idx_ones (n : ℕ) : idx (fun _ : Fin n => (1 : Fin 2)) = 2 ^ n - 1 := by
  have h := idx_flip (fun _ : Fin n => (0 : Fin 2))
  rw [idx_zero, add_zero] at h
  exact h

theorem afm1_eq {n xsites : ℕ} {l2r : Bool} (h : (xsites % 2 ≠ 0 ∨ l2r = false) ∧ n > 1) :
    afm1Ind n xsites l2r = idx (alternating n) := by
  have := idx_alt n
  unfold afm1Ind
  rw [if_pos h]
  change 3 * (idx (alternating n) + 1) = _ at this
  split_ifs at this ⊢ with h1 h2 <;> omega

/-- What `find_special_states` returns for two or more sites, except for the second
antiferromagnetic state. If the antiferromagnetic states are available (`xsites` odd or the default
numbering) AFM1 is the alternating configuration. C37 in full would also say that AFM2 is the other
alternating configuration; that fails, see `C37_afm2_violated`. -/
theorem C37_special_states_partial (n xsites : ℕ) (l2r : Bool) (hn : 2 ≤ n) :
    ∃ R, findSpecialStates n xsites l2r = .ok R ∧
      (∀ t : Conf n 2, R.allUp.e (idx t) 0 = ket (fun _ => (0 : Fin 2)) t) ∧
      (∀ t : Conf n 2, R.allDn.e (idx t) 0 = ket (fun _ => (1 : Fin 2)) t) ∧
      ((xsites % 2 = 1 ∨ l2r = false) →
        ∀ t : Conf n 2, R.afm1.e (idx t) 0 = ket (alternating n) t) ∧
      (¬ (xsites % 2 = 1 ∨ l2r = false) →
        (∀ t : Conf n 2, R.afm1.e (idx t) 0 = ket (fun _ => (0 : Fin 2)) t) ∧
        (∀ t : Conf n 2, R.afm2.e (idx t) 0 = ket (fun _ => (1 : Fin 2)) t)) ∧
      (∀ t : Conf n 2, R.allPlus.e (idx t) 0 = ((1 / Real.sqrt (2 ^ n) : ℝ) : ℂ)) ∧
      (∀ t : Conf n 2, R.allMinus.e (idx t) 0 =
        ((1 / Real.sqrt (2 ^ n) : ℝ) : ℂ) * ∏ i, spinVal t i) ∧
      (∀ t : Conf n 2, R.symmExc.e (idx t) 0 =
        ∑ k : Fin n, ((1 / Real.sqrt n : ℝ) : ℂ) * ket (oneUp k) t) := by
  have hpos : 0 < 2 ^ n := by positivity
  have h1 : afm1Ind n xsites l2r < 2 ^ n := by
    by_cases h : (xsites % 2 ≠ 0 ∨ l2r = false) ∧ n > 1
    · rw [afm1_eq h]; exact idx_lt _
    · unfold afm1Ind; rw [if_neg h]; exact hpos
  have h2 : afm2Ind n xsites l2r < 2 ^ n := by
    unfold afm2Ind
    split_ifs with h
    · have h3 := idx_alt n
      rw [afm1_eq h]
      change 3 * (idx (alternating n) + 1) = _ at h3
      have : 2 ^ 2 ≤ 2 ^ n := Nat.pow_le_pow_right (by norm_num) hn
      split_ifs at h3 <;> omega
    · omega
  obtain ⟨hr, hc, hz⟩ := allsite_apply (n := n) pauliZ_loc
  have hm : ∀ B : Mat, B.rows = 2 ^ n → (allsiteOp n pauliZ).mul B = .ok ⟨(allsiteOp n pauliZ).rows,
      B.cols, fun i j => ∑ k ∈ Finset.range (allsiteOp n pauliZ).cols, (allsiteOp n pauliZ).e i k * B.e k j⟩ :=
    fun B hB => if_pos (hc.trans hB.symm)
  have key : findSpecialStates n xsites l2r = .ok ⟨⟨2 ^ n, 1, fun i _ => if i = 0 then 1 else 0⟩,
      ⟨2 ^ n, 1, fun i _ => if i = 2 ^ n - 1 then 1 else 0⟩,
      ⟨2 ^ n, 1, fun i _ => if i = afm1Ind n xsites l2r then 1 else 0⟩,
      ⟨2 ^ n, 1, fun i _ => if i = afm2Ind n xsites l2r then 1 else 0⟩,
      ⟨2 ^ n, 1, fun _ _ => ((1 / Real.sqrt ((2 ^ n : ℕ) : ℝ) : ℝ) : ℂ)⟩,
      ⟨(allsiteOp n pauliZ).rows, 1, fun i _ => ∑ k ∈ Finset.range (allsiteOp n pauliZ).cols,
        (allsiteOp n pauliZ).e i k * ((1 / Real.sqrt ((2 ^ n : ℕ) : ℝ) : ℝ) : ℂ)⟩,
      ⟨2 ^ n, 1, fun i _ => if ∃ k < n, i = 2 ^ n - 2 ^ k - 1 then
        ((1 / Real.sqrt (n : ℝ) : ℝ) : ℂ) else 0⟩⟩ := by
    unfold findSpecialStates
    simp only
    rw [unitColumn_ok hpos, unitColumn_ok (show 2 ^ n - 1 < 2 ^ n by omega), unitColumn_ok h1,
      unitColumn_ok h2]
    change (Mat.mul _ _ >>= _) = _
    rw [hm _ rfl]
    rfl
  have hket : ∀ (c t : Conf n 2), (if idx t = idx c then (1 : ℂ) else 0) = ket c t := by
    intro c t
    unfold ket
    refine if_congr ⟨fun h => idx_injective h, fun h => by rw [h]⟩ rfl rfl
  have hcond : ∀ {p : Prop}, (xsites % 2 = 1 ∨ p) ↔ (xsites % 2 ≠ 0 ∨ p) := by
    intro p
    have : xsites % 2 = 1 ↔ xsites % 2 ≠ 0 := by omega
    rw [this]
  refine ⟨_, key, ?_, ?_, ?_, ?_, ?_, ?_, ?_⟩
  · intro t
    simp only
    rw [← hket, idx_zero]
  · intro t
    simp only
    rw [← hket, idx_ones]
  · intro h t
    simp only
    rw [afm1_eq ⟨hcond.1 h, by omega⟩, hket]
  · intro h
    constructor
    · intro t
      simp only
      have e : afm1Ind n xsites l2r = 0 := by
        unfold afm1Ind
        rw [if_neg fun h' => h (hcond.2 h'.1)]
      rw [e, ← hket, idx_zero]
    · intro t
      simp only
      have e : afm2Ind n xsites l2r = 2 ^ n - 1 := by
        unfold afm2Ind
        rw [if_neg fun h' => h (hcond.2 h'.1)]
      rw [e, ← hket, idx_ones]
  · intro t; simp
  · intro t
    simp only
    rw [hc]
    have := Basis.sum_range (ι := Conf n 2) (fun k => (allsiteOp n pauliZ).e (idx t) k *
      ((1 / Real.sqrt ((2 ^ n : ℕ) : ℝ) : ℝ) : ℂ))
    rw [show Fintype.card (Conf n 2) = 2 ^ n by simp] at this
    rw [this]
    simp only [num_conf, hz]
    rw [← Finset.sum_mul, Finset.sum_eq_single t, mul_comm]
    · congr 1
      · simp
      · refine Finset.prod_congr rfl fun i _ => ?_
        simp only [pauliZ, Mat.lit2, spinVal]
        generalize t i = x
        fin_cases x <;> simp
    · intro s _ hs
      obtain ⟨i, hi⟩ : ∃ i, t i ≠ s i := by
        by_contra hcon
        push Not at hcon
        exact hs (funext fun i => (hcon i).symm)
      refine Finset.prod_eq_zero (Finset.mem_univ i) ?_
      simp only [pauliZ, Mat.lit2]
      generalize t i = x at *
      generalize s i = y at *
      fin_cases x <;> fin_cases y <;> simp_all
    · simp
  · intro t
    simp only
    have e : (∃ k < n, idx t = 2 ^ n - 2 ^ k - 1) ↔ ∃ k : Fin n, t = oneUp k := by
      constructor
      · rintro ⟨k, hk, h⟩
        refine ⟨⟨n - 1 - k, by omega⟩, idx_injective ?_⟩
        rw [idx_oneUp, h]
        simp only
        rw [show n - 1 - (n - 1 - k) = k by omega]
      · rintro ⟨k, rfl⟩
        exact ⟨n - 1 - k, by have := k.2; omega, idx_oneUp k⟩
    simp only [e]
    split_ifs with h
    · obtain ⟨k, rfl⟩ := h
      rw [Finset.sum_eq_single k]
      · simp [ket]
      · intro j _ hj
        rw [ket, if_neg, mul_zero]
        intro he
        have := congrFun he k
        simp [oneUp, hj.symm] at this
      · simp
    · rw [Finset.sum_eq_zero]
      intro k _
      rw [ket, if_neg (fun he => h ⟨k, he⟩), mul_zero]

/-- C37 fails for every size: the state returned as AFM2 is not the second alternating
configuration; for two sites it is the all-down state. -/
theorem C37_afm2_violated (n xsites : ℕ) (l2r : Bool) (hn : 2 ≤ n)
    (h : xsites % 2 = 1 ∨ l2r = false) :
    ∃ R, findSpecialStates n xsites l2r = .ok R ∧
      R.afm2.e (idx (flipAll (alternating n))) 0 = 0 := by
  have hcond : (xsites % 2 ≠ 0 ∨ l2r = false) ∧ n > 1 := ⟨h.imp (by omega) id, by omega⟩
  have hpos : 0 < 2 ^ n := by positivity
  have h1 : afm1Ind n xsites l2r < 2 ^ n := by rw [afm1_eq hcond]; exact idx_lt _
  have h3 := idx_alt n
  change 3 * (idx (alternating n) + 1) = _ at h3
  have hp : 2 ^ 2 ≤ 2 ^ n := Nat.pow_le_pow_right (by norm_num) hn
  have e2 : afm2Ind n xsites l2r = 2 ^ n - idx (alternating n) := by
    unfold afm2Ind; rw [if_pos hcond, afm1_eq hcond]
  have h2 : afm2Ind n xsites l2r < 2 ^ n := by
    rw [e2]
    split_ifs at h3 <;> omega
  obtain ⟨hr, hc, hz⟩ := allsite_apply (n := n) pauliZ_loc
  have hm : ∀ B : Mat, B.rows = 2 ^ n → (allsiteOp n pauliZ).mul B = .ok ⟨(allsiteOp n pauliZ).rows,
      B.cols, fun i j => ∑ k ∈ Finset.range (allsiteOp n pauliZ).cols, (allsiteOp n pauliZ).e i k * B.e k j⟩ :=
    fun B hB => if_pos (hc.trans hB.symm)
  refine ⟨⟨⟨2 ^ n, 1, fun i _ => if i = 0 then 1 else 0⟩,
      ⟨2 ^ n, 1, fun i _ => if i = 2 ^ n - 1 then 1 else 0⟩,
      ⟨2 ^ n, 1, fun i _ => if i = afm1Ind n xsites l2r then 1 else 0⟩,
      ⟨2 ^ n, 1, fun i _ => if i = afm2Ind n xsites l2r then 1 else 0⟩,
      ⟨2 ^ n, 1, fun _ _ => ((1 / Real.sqrt ((2 ^ n : ℕ) : ℝ) : ℝ) : ℂ)⟩,
      ⟨(allsiteOp n pauliZ).rows, 1, fun i _ => ∑ k ∈ Finset.range (allsiteOp n pauliZ).cols,
        (allsiteOp n pauliZ).e i k * ((1 / Real.sqrt ((2 ^ n : ℕ) : ℝ) : ℝ) : ℂ)⟩,
      ⟨2 ^ n, 1, fun i _ => if ∃ k < n, i = 2 ^ n - 2 ^ k - 1 then
        ((1 / Real.sqrt (n : ℝ) : ℝ) : ℂ) else 0⟩⟩, ?_, ?_⟩
  · unfold findSpecialStates
    simp only
    rw [unitColumn_ok hpos, unitColumn_ok (show 2 ^ n - 1 < 2 ^ n by omega), unitColumn_ok h1,
      unitColumn_ok h2]
    change (Mat.mul _ _ >>= _) = _
    rw [hm _ rfl]
    rfl
  · simp only
    have h4 := idx_flip (alternating n)
    rw [if_neg]
    rw [e2]
    omega

/-- C37: the "AllMinus" state is the product of single-spin states with `σx = -1`, "AllPlus" with
`σx = +1`. -/
theorem C37_plus_minus (n xsites : ℕ) (l2r : Bool) (hn : 2 ≤ n) :
    ∃ R, findSpecialStates n xsites l2r = .ok R ∧ ∀ i : Fin n,
      (siteOp sigmaX i).mulVec (fun t : Conf n 2 => R.allPlus.e (idx t) 0) =
        (fun t => R.allPlus.e (idx t) 0) ∧
      (siteOp sigmaX i).mulVec (fun t : Conf n 2 => R.allMinus.e (idx t) 0) =
        (fun t => -R.allMinus.e (idx t) 0) := by
  obtain ⟨R, h1, _, _, _, _, h2, h3, _⟩ := C37_special_states_partial n xsites l2r hn
  refine ⟨R, h1, fun i => ?_⟩
  have key : ∀ (f : Conf n 2 → ℂ) (t : Conf n 2),
      (siteOp sigmaX i).mulVec f t = f (Function.update t i (1 - t i)) := by
    intro f t
    rw [Matrix.mulVec, dotProduct, Finset.sum_eq_single (Function.update t i (1 - t i))]
    · have h : AgreeOff i t (Function.update t i (1 - t i)) := by
        intro j hj; rw [Function.update_of_ne hj]
      rw [siteOp, of_apply, if_pos h, Function.update_self, sigmaX, of_apply, if_neg, one_mul]
      generalize t i = x
      revert x; decide
    · intro s _ hs
      rw [siteOp, of_apply]
      split_ifs with h
      · rw [sigmaX, of_apply]
        split_ifs with h'
        · simp
        · exfalso
          apply hs
          funext j
          by_cases hj : j = i
          · subst hj
            rw [Function.update_self]
            generalize t j = x at *
            generalize s j = y at *
            fin_cases x <;> fin_cases y <;> simp_all
          · rw [Function.update_of_ne hj, h j hj]
      · simp
    · simp
  constructor
  · funext t
    rw [key]
    simp only [h2]
  · funext t
    rw [key]
    simp only [h3]
    rw [← mul_neg]
    congr 1
    rw [← Finset.mul_prod_erase _ _ (Finset.mem_univ i), ← Finset.mul_prod_erase _ _ (Finset.mem_univ i),
      ← neg_mul]
    congr 1
    · simp only [spinVal, Function.update_self]
      generalize t i = x
      fin_cases x <;> simp
    · refine Finset.prod_congr rfl fun j hj => ?_
      simp only [spinVal, Function.update_of_ne (Finset.ne_of_mem_erase hj)]

example : ∃ R, findSpecialStates 4 2 false = .ok R ∧ R.afm1.e (idx (![0, 1, 0, 1] : Conf 4 2)) 0 = 1 := by
  obtain ⟨R, h1, _, _, h2, _⟩ := C37_special_states_partial 4 2 false (by norm_num)
  refine ⟨R, h1, (h2 (Or.inr rfl) _).trans ?_⟩
  rw [ket, if_pos]
  decide

/-! ## C76: the pair operator -/

/-- C76: with the connection flags `A` of the pairs `x > y` (read row by row from an adjacency
array), the returned object is diagonal and counts the connected pairs of up spins. -/
theorem C76_pair_counts (n : ℕ) (A : ℕ → ℕ → ℤ) :
    ∃ v, npairsOp n ((List.range n).flatMap fun y =>
        (List.range n).filterMap fun x => if x > y then some (A y x) else none) = .ok v ∧
      v.Is (Matrix.diagonal fun t : Conf n 2 =>
        ∑ y : Fin n, ∑ x : Fin n, if y < x ∧ A y x = 1 then upVal t x * upVal t y else 0) := by
  set pairs := (List.range n).flatMap fun y =>
    (List.range n).filterMap fun x => if x > y then some (x, y) else none with hp
  have hconn : ((List.range n).flatMap fun y =>
        (List.range n).filterMap fun x => if x > y then some (A y x) else none) =
      pairs.map fun p => A p.2 p.1 := by
    rw [hp, List.map_flatMap]
    congr 1
    funext y
    rw [List.map_filterMap]
    congr 1
    funext x
    split_ifs <;> rfl
  rw [hconn]
  unfold npairsOp
  simp only
  rw [← hp, if_neg (by simp)]
  have hzip : pairs.zip (pairs.map fun p => A p.2 p.1) = pairs.map fun p => (p, A p.2 p.1) := by
    generalize pairs = l
    induction l with
    | nil => rfl
    | cons a l ih => simp [ih]
  rw [hzip, List.filter_map, List.foldlM_map]
  set l := pairs.filter ((fun p : (ℕ × ℕ) × ℤ => decide (p.2 = 1)) ∘ fun p => (p, A p.2 p.1)) with hl
  have hmem : ∀ p ∈ l, p.1 < n ∧ p.2 < n ∧ p.2 < p.1 ∧ A p.2 p.1 = 1 := by
    intro p hp'
    rw [hl, List.mem_filter, hp, List.mem_flatMap] at hp'
    obtain ⟨⟨y, hy, hx⟩, hA⟩ := hp'
    rw [List.mem_filterMap] at hx
    obtain ⟨x, hx, he⟩ := hx
    split_ifs at he with hxy
    · simp only [Option.some.injEq] at he
      subst he
      exact ⟨List.mem_range.1 hx, List.mem_range.1 hy, hxy, by simpa using hA⟩
  let T : ℕ × ℕ → Op n 2 := fun p => if h : p.1 < n ∧ p.2 < n then
    Matrix.diagonal (fun t => upVal t ⟨p.1, h.1⟩ * upVal t ⟨p.2, h.2⟩) else 0
  have hT : ∀ p ∈ l, Gives (getTwoSiteOp ⟨n, 1, 2⟩ p.1 0 p.2 0 nrOp nrOp "boson") (T p) := by
    intro p hp'
    obtain ⟨h1, h2, h3, _⟩ := hmem p hp'
    have hne : (⟨p.1, h1⟩ : Fin n) ≠ ⟨p.2, h2⟩ := fun e => by
      have := congrArg Fin.val e
      simp only at this
      omega
    refine (spin_two hne nrOp_is nrOp_is).of_eq ?_
    simp only [T]
    rw [dif_pos ⟨h1, h2⟩, siteOp_nr, siteOp_nr, diagonal_mul_diagonal]
  have hsum : (l.map T).sum = Matrix.diagonal fun t : Conf n 2 =>
        ∑ y : Fin n, ∑ x : Fin n, if y < x ∧ A y x = 1 then upVal t x * upVal t y else 0 := by
    have e1 : (l.map T).sum = ∑ y : Fin n, ∑ x : Fin n, if y < x ∧ A y x = 1 then T (x, y) else 0 := by
      have e2 : (l.map T).sum = (pairs.map fun p => if A p.2 p.1 = 1 then T p else 0).sum := by
        rw [hl]
        generalize pairs = l'
        induction l' with
        | nil => rfl
        | cons a l' ih =>
          rw [List.filter_cons]
          by_cases h : A a.2 a.1 = 1
          · simp [h, ih]
          · simp [h, ih]
      rw [e2, hp, List.map_flatMap, List.flatMap_def, List.sum_flatten, List.map_map, sum_map_range]
      refine Finset.sum_congr rfl fun y _ => ?_
      simp only [Function.comp]
      rw [List.map_filterMap]
      have e3 : ∀ l' : List ℕ, (l'.filterMap fun x => Option.map
          (fun p : ℕ × ℕ => if A p.2 p.1 = 1 then T p else 0)
            (if x > (y : ℕ) then some (x, (y : ℕ)) else none)).sum =
          (l'.map fun x => if (y : ℕ) < x ∧ A y x = 1 then T (x, y) else 0).sum := by
        intro l'
        induction l' with
        | nil => rfl
        | cons a l' ih =>
          rw [List.filterMap_cons, List.map_cons, List.sum_cons, ← ih]
          by_cases h : (y : ℕ) < a
          · simp [h]
          · simp [h]
      rw [e3, sum_map_range]
      rfl
    rw [e1, ← diag_sum]
    refine Finset.sum_congr rfl fun y _ => ?_
    rw [← diag_sum]
    refine Finset.sum_congr rfl fun x _ => ?_
    by_cases h : y < x ∧ A y x = 1
    · simp only [if_pos h, T]
      rw [dif_pos ⟨x.2, y.2⟩]
    · simp [h]
  by_cases hnil : l = []
  · rw [hnil]
    refine ⟨_, rfl, ?_⟩
    rw [← hsum, hnil]
    simp [Val.Is]
  · obtain ⟨M, h1, h2⟩ := val_fold_zero l hnil
      (fun p => getTwoSiteOp ⟨n, 1, 2⟩ p.1 0 p.2 0 nrOp nrOp "boson") T hT
    refine ⟨_, h1, ?_⟩
    rw [← hsum]
    exact h2

/-- Instance: a four-site open chain. -/
example : ∃ v, npairsOp 4 [1, 0, 0, 1, 0, 1] = .ok v ∧ v.Is (Matrix.diagonal fun t : Conf 4 2 =>
    ∑ y : Fin 4, ∑ x : Fin 4, if y < x ∧ (if (x : ℕ) = y + 1 then (1 : ℤ) else 0) = 1 then
      upVal t x * upVal t y else 0) :=
  C76_pair_counts 4 fun y x => if x = y + 1 then 1 else 0

end ED.Props
