import Verif.Lemmas.FermiMoments
import Verif.Props.Independent
import Verif.Props.Laws

/-! # Property C144: sums of energies and of their squares, and the behaviour at high temperatures -/

namespace ED.Props

open Matrix Topology
open Filter (Tendsto atTop)

/-! ## Specification -/

/-- The mean and the variance of all energies, and the first correction to energy and specific heat at high temperatures. -/
structure Moments (A : Mat) (w : List ℝ) (M : Mat) (dim : ℕ) (mean var : ℝ) : Prop where
  length : w.length = dim
  sum : w.sum = dim * mean
  squares : (w.map fun e => (e - mean) ^ 2).sum = dim * var
  hot : ∃ e s c : ℝ → ℝ, (∀ T, 0 < T → thermoAt M A w T = .ok (e T, s T, c T)) ∧
    Tendsto (fun T => T * (e T - mean)) atTop (𝓝 (-var)) ∧ Tendsto (fun T => T ^ 2 * c T) atTop (𝓝 var)

/-- The mean square of a component of a spin: a third of `s (s + 1)`. -/
noncomputable def spinSq (F : Spins) : ℝ := (F.twoS / 2 : ℝ) * (F.twoS / 2 + 1) / 3

/-- The variance of the energies of spins. -/
noncomputable def spinVariance (F : Spins) : ℝ :=
  (∑ i : Fin F.nsites, ∑ j : Fin F.nsites, if j < i then (4 * spinSq F ^ 2) * ((F.jx i j).re ^ 2 + (F.jy i j).re ^ 2 + (F.jz i j).re ^ 2) else 0) +
    ∑ i : Fin F.nsites, spinSq F * ((F.hx i).re ^ 2 + (F.hy i).re ^ 2 + (F.hz i).re ^ 2)

/-- The potential of a mode, with the interaction of a particle with itself. -/
noncomputable def levelAt (F : Fermions) (i : Fin F.nsites) (s : Fin F.nspecies) : ℝ := (F.pots i s).re - (F.mus s).re + (F.usSame i i s).re

/-- The interaction of particles of one species at two sites. -/
noncomputable def sameAt (F : Fermions) (i j : Fin F.nsites) (s : Fin F.nspecies) : ℝ :=
  if j < i then (F.usSame i j s).re else if i < j then (F.usSame j i s).re else 0

/-- The mean of the energies of fermions: every mode is occupied half of the time. -/
noncomputable def fermionMean (F : Fermions) : ℝ :=
  (∑ i : Fin F.nsites, (F.us i).re / 4) + (∑ i : Fin F.nsites, ∑ s : Fin F.nspecies, levelAt F i s / 2) +
    ∑ i : Fin F.nsites, ∑ j : Fin F.nsites, ∑ s : Fin F.nspecies, if j < i then sameAt F i j s / 4 else 0

/-- The variance of the energies of fermions: fluctuations of single modes, of pairs, and hopping. -/
noncomputable def fermionVariance (F : Fermions) : ℝ :=
  (∑ i : Fin F.nsites, ∑ s : Fin F.nspecies,
    (levelAt F i s / 2 + (if (s : ℕ) < 2 then (F.us i).re / 4 else 0) + ∑ j, sameAt F i j s / 4) ^ 2) +
  (∑ i : Fin F.nsites, (F.us i).re ^ 2 / 16) +
  ∑ i : Fin F.nsites, ∑ j : Fin F.nsites, ∑ s : Fin F.nspecies, if j < i then
    sameAt F i j s ^ 2 / 16 + ((F.ts i j s).re * (|F.xdist i j| + |F.ydist i j|)) ^ 2 / 2 else 0

/-! ## Proofs -/

theorem boltz_slope (e : ℝ) : Tendsto (fun T : ℝ => T * (Real.exp (-e / T) - 1)) atTop (𝓝 (-e)) := by
  have h1 : HasDerivAt (fun x : ℝ => Real.exp (-e * x)) (-e) 0 := by
    have := ((hasDerivAt_id (0 : ℝ)).const_mul (-e)).exp
    simpa using this
  have h2 := (hasDerivAt_iff_tendsto_slope.1 h1).comp (tendsto_inv_atTop_nhdsGT_zero.mono_right (nhdsWithin_mono 0 fun x hx => ne_of_gt hx))
  refine h2.congr' ?_
  filter_upwards [Filter.eventually_gt_atTop 0] with T hT
  simp only [Function.comp, slope_def_field, mul_zero, Real.exp_zero, sub_zero]
  rw [div_inv_eq_mul, mul_comm, ← div_eq_mul_inv]

section

variable {κ : Type} [Fintype κ] [Nonempty κ]

theorem energy_slope (E : κ → ℝ) {m v : ℝ} (h1 : ∑ k, E k = Fintype.card κ * m) (h2 : ∑ k, (E k - m) ^ 2 = Fintype.card κ * v) :
    Tendsto (fun T => T * (canonical T E E - m)) atTop (𝓝 (-v)) := by
  have hN : (Fintype.card κ : ℝ) ≠ 0 := Nat.cast_ne_zero.2 Fintype.card_ne_zero
  have hs : ∑ k, (E k - m) = 0 := by rw [Finset.sum_sub_distrib, h1]; simp
  have a1 := tendsto_finset_sum Finset.univ fun k _ => (boltz_slope (E k)).const_mul (E k - m)
  have a2 := tendsto_finset_sum (Finset.univ : Finset κ) fun k _ => boltz_high (E k)
  have a3 := a1.div a2 (by simp)
  have e : (∑ k, (E k - m) * -E k) / ∑ k : κ, (1 : ℝ) = -v := by
    have : ∑ k, (E k - m) * -E k = -(∑ k, (E k - m) ^ 2) - m * ∑ k, (E k - m) := by
      rw [Finset.mul_sum, ← Finset.sum_neg_distrib, ← Finset.sum_sub_distrib]
      exact Finset.sum_congr rfl fun k _ => by ring
    rw [this, hs, h2, mul_zero, sub_zero, Finset.sum_const, Finset.card_univ, nsmul_eq_mul, mul_one]
    field_simp
  rw [e] at a3
  refine a3.congr' ?_
  filter_upwards [Filter.eventually_gt_atTop 0] with T hT
  have hZ : ∑ k, Real.exp (-E k / T) ≠ 0 := (Finset.sum_pos (fun k _ => Real.exp_pos _) Finset.univ_nonempty).ne'
  rw [Pi.div_apply, canonical_ne hT.ne', div_eq_iff hZ, mul_assoc, sub_mul, div_mul_cancel₀ _ hZ, Finset.mul_sum, ← Finset.sum_sub_distrib, Finset.mul_sum]
  have : ∑ k, T * (E k - m) = 0 := by rw [← Finset.mul_sum, hs, mul_zero]
  rw [← sub_zero (∑ k, T * _), ← this, ← Finset.sum_sub_distrib]
  exact Finset.sum_congr rfl fun k _ => by ring

theorem heat_slope (E : κ → ℝ) {m v : ℝ} (h1 : ∑ k, E k = Fintype.card κ * m) (h2 : ∑ k, (E k - m) ^ 2 = Fintype.card κ * v) :
    Tendsto (fun T => T ^ 2 * levelsHeat T E) atTop (𝓝 v) := by
  have hN : (Fintype.card κ : ℝ) ≠ 0 := Nat.cast_ne_zero.2 Fintype.card_ne_zero
  have a := (canonical_high E fun k => E k ^ 2).sub ((canonical_high E E).pow 2)
  have e : (∑ k, E k ^ 2) / (Fintype.card κ : ℝ) - ((∑ k, E k) / Fintype.card κ) ^ 2 = v := by
    have : ∑ k, (E k - m) ^ 2 = ∑ k, E k ^ 2 - 2 * m * ∑ k, E k + Fintype.card κ * m ^ 2 := by
      rw [Finset.mul_sum, ← Finset.sum_sub_distrib, ← nsmul_eq_mul, ← Finset.card_univ, ← Finset.sum_const, ← Finset.sum_add_distrib]
      exact Finset.sum_congr rfl fun k _ => by ring
    rw [h2, h1] at this
    have h3 : ∑ k, E k ^ 2 = Fintype.card κ * v + Fintype.card κ * m ^ 2 := by linear_combination -this
    rw [h1, h3]
    field_simp
    ring
  rw [e] at a
  refine a.congr' ?_
  filter_upwards [Filter.eventually_gt_atTop 0] with T hT
  unfold levelsHeat
  field_simp

end

variable {ι : Type} [Fintype ι] [Basis ι] [DecidableEq ι]

theorem moments_of_traces {A M : Mat} {H : Matrix ι ι ℂ} (hA : A.Is H) {m : ℕ} {E : Fin (m + 1) → ℝ} {V : Matrix ι (Fin (m + 1)) ℂ} (hM : M.Is V)
    (h3 : Vᴴ * V = 1) (h4 : V * Vᴴ = 1) (h5 : H * V = V * diagonal (fun k => (E k : ℂ))) {mean var : ℝ}
    (t1 : trace H = ((Fintype.card ι * mean : ℝ) : ℂ)) (t2 : trace (H * H) = ((Fintype.card ι * (mean ^ 2 + var) : ℝ) : ℂ)) :
    Moments A (List.ofFn E) M (Fintype.card ι) mean var := by
  have hc := card_levels h3 h4
  have s1 : ∑ k, E k = Fintype.card ι * mean := by rw [sum_laws h3 h4 h5, t1, Complex.ofReal_re]
  have h6 : H * H * V = V * diagonal fun k => ((E k ^ 2 : ℝ) : ℂ) := by
    rw [Matrix.mul_assoc, h5, ← Matrix.mul_assoc, h5, Matrix.mul_assoc, diagonal_mul_diagonal]
    congr 2
    funext k
    push_cast
    ring
  have s2 : ∑ k, E k ^ 2 = Fintype.card ι * (mean ^ 2 + var) := by rw [sum_laws h3 h4 h6, t2, Complex.ofReal_re]
  have s3 : ∑ k, (E k - mean) ^ 2 = Fintype.card ι * var := by
    have : ∑ k, (E k - mean) ^ 2 = ∑ k, E k ^ 2 - 2 * mean * ∑ k, E k + ((m + 1 : ℕ) : ℝ) * mean ^ 2 := by
      rw [Finset.sum_congr rfl fun k _ => show (E k - mean) ^ 2 = E k ^ 2 - 2 * mean * E k + mean ^ 2 by ring, Finset.sum_add_distrib, Finset.sum_sub_distrib,
        ← Finset.mul_sum, Finset.sum_const, Finset.card_univ, Fintype.card_fin, nsmul_eq_mul]
    rw [this, s1, s2, ← hc]
    ring
  refine ⟨by rw [List.length_ofFn, hc], by rw [List.sum_ofFn, s1], by rw [List.map_ofFn, List.sum_ofFn]; exact s3,
    fun T => canonical T E E, fun T => levelsEntropy T E, fun T => levelsHeat T E, fun T hT => levels_thermoAt hA hM h3 h5 hT.ne', ?_, ?_⟩
  · exact energy_slope E (by rw [s1, hc, Fintype.card_fin]) (by rw [s3, hc, Fintype.card_fin])
  · exact heat_slope E (by rw [s1, hc, Fintype.card_fin]) (by rw [s3, hc, Fintype.card_fin])

theorem real_of_star {z : ℂ} (h : star z = z) : z = (z.re : ℂ) := (Complex.conj_eq_iff_re.1 h).symm

/-- C144 (spins): the mean of the energies vanishes, the variance is the sum of the squares of couplings and fields. -/
theorem C144_spins (S : EigSolvers) (hS : EigContract S) (F : Spins) (hF : F.Ok) (hr : RealCouplings F) :
    ∃ A w M, F.createH none = .ok A ∧ diagList S A = .ok (w, M) ∧ Moments A w M ((F.twoS + 1) ^ F.nsites) 0 (spinVariance F) := by
  obtain ⟨A, hA, hAi⟩ := spin_createH F hF
  obtain ⟨k, E, M, V, p0, p1, p2, p3, p4, p5⟩ := diagList_ok S hS hAi (spins_hermitian hr)
  refine ⟨A, _, M, hA, p0, ?_⟩
  have hd : Fintype.card (Conf F.nsites (F.twoS + 1)) = (F.twoS + 1) ^ F.nsites := by simp
  rw [← hd]
  refine moments_of_traces hAi p1 p2 p3 p4 ?_ ?_
  · refine (heis_trace F.twoS ![fun i j => F.jx i j, fun i j => F.jy i j, fun i j => F.jz i j] ![fun i => F.hx i, fun i => F.hy i, fun i => F.hz i]).trans ?_
    simp
  · refine (heis_trace_sq F.twoS ![fun i j => F.jx i j, fun i j => F.jy i j, fun i j => F.jz i j]
      ![fun i => F.hx i, fun i => F.hy i, fun i => F.hz i]).trans ?_
    have hm : meanSq F.twoS = spinSq F := by unfold meanSq spinSq; ring
    rw [hd, hm, mul_comm, spinVariance, zero_pow two_ne_zero, zero_add]
    push_cast
    congr 1
    rw [Finset.mul_sum, Finset.mul_sum]
    congr 1
    · refine Finset.sum_congr rfl fun i _ => ?_
      rw [Finset.mul_sum]
      refine Finset.sum_congr rfl fun j _ => ?_
      split_ifs with hij
      · rw [Fin.sum_univ_three]
        simp only [Matrix.cons_val_zero, Matrix.cons_val_one, Matrix.cons_val]
        push_cast
        rw [← real_of_star (hr.jx i j), ← real_of_star (hr.jy i j), ← real_of_star (hr.jz i j)]
        ring
      · simp
    · refine Finset.sum_congr rfl fun i _ => ?_
      rw [Fin.sum_univ_three]
      simp only [Matrix.cons_val_zero, Matrix.cons_val_one, Matrix.cons_val]
      rw [← real_of_star (hr.hx i), ← real_of_star (hr.hy i), ← real_of_star (hr.hz i)]

/-- C144 (fermions): the mean of the energies is the energy of particles that occupy every mode half of the time; the variance is a sum of
squares of the parameters. -/
theorem C144_fermions (S : EigSolvers) (hS : EigContract S) (F : Fermions) (hI : InterOk F) (hr : RealParams F) :
    ∃ A w M, F.createH none = .ok A ∧ diagList S A = .ok (w, M) ∧ Moments A w M (2 ^ (F.nsites * F.nspecies)) (fermionMean F) (fermionVariance F) := by
  obtain ⟨A, hA, hAi⟩ := createH_gives hI
  obtain ⟨k, E, M, V, p0, p1, p2, p3, p4, p5⟩ := diagList_ok S hS hAi (fermions_hermitian hI hr)
  refine ⟨A, _, M, hA, p0, ?_⟩
  have hd : Fintype.card (Conf (F.nsites * F.nspecies) 2) = 2 ^ (F.nsites * F.nspecies) := by simp
  rw [← hd]
  have hm : meanLevel (fun i : Fin F.nsites => F.us i) (fun i j (s : Fin F.nspecies) => F.usSame i j s) (fun i s => F.pots i s - F.mus s) = (fermionMean F : ℂ) := by
    unfold meanLevel fermionMean
    push_cast
    congr 1
    · congr 1
      · exact Finset.sum_congr rfl fun i _ => by rw [← real_of_star (hr.us i)]
      · refine Finset.sum_congr rfl fun i _ => Finset.sum_congr rfl fun s _ => ?_
        unfold levelAt
        push_cast
        rw [← real_of_star (hr.pots i s), ← real_of_star (hr.mus s), ← real_of_star (hr.same i i s)]
    · refine Finset.sum_congr rfl fun i _ => Finset.sum_congr rfl fun j _ => Finset.sum_congr rfl fun s _ => ?_
      split_ifs with hij
      · rw [sameAt, if_pos hij]
        push_cast
        rw [← real_of_star (hr.same i j s)]
      · simp
  have hl : ∀ i s, halfLevel (fun i : Fin F.nsites => F.us i) (fun i j (s : Fin F.nspecies) => F.usSame i j s) (fun i s => F.pots i s - F.mus s) i s =
      ((levelAt F i s / 2 + (if (s : ℕ) < 2 then (F.us i).re / 4 else 0) + ∑ j, sameAt F i j s / 4 : ℝ) : ℂ) := by
    intro i s
    unfold halfLevel levelAt
    push_cast
    rw [← real_of_star (hr.pots i s), ← real_of_star (hr.mus s), ← real_of_star (hr.same i i s)]
    congr 1
    · congr 1
      split_ifs
      · push_cast
        rw [← real_of_star (hr.us i)]
      · rfl
    · refine Finset.sum_congr rfl fun j _ => ?_
      unfold sameAt
      rcases lt_trichotomy j i with h | h | h
      · rw [if_pos h, if_neg (not_lt.2 h.le), if_pos h, ← real_of_star (hr.same i j s), add_zero]
      · simp [h]
      · rw [if_neg (not_lt.2 h.le), if_pos h, if_neg (not_lt.2 h.le), if_pos h, ← real_of_star (hr.same j i s), zero_add]
  refine moments_of_traces hAi p1 p2 p3 p4 ?_ ?_
  · refine (hubbard_trace _ _ _ (fun i j s => F.ts i j s * hopWeight F i j) hI).trans ?_
    rw [hm, hd, mul_comm]
    push_cast
    rfl
  · refine (hubbard_trace_sq _ _ _ (fun i j s => F.ts i j s * hopWeight F i j) hI).trans ?_
    simp only [hm, hl]
    rw [hd, mul_comm]
    push_cast
    congr 1
    rw [fermionVariance, add_assoc, add_assoc]
    push_cast
    congr 1
    rw [add_assoc]
    congr 1
    congr 1
    · exact Finset.sum_congr rfl fun i _ => by rw [← real_of_star (hr.us i)]; ring
    · refine Finset.sum_congr rfl fun i _ => Finset.sum_congr rfl fun j _ => Finset.sum_congr rfl fun s _ => ?_
      split_ifs with hij
      · rw [sameAt, if_pos hij, hopWeight]
        push_cast
        rw [← real_of_star (hr.same i j s), ← real_of_star (hr.ts i j s)]
        ring
      · simp

/-- Two spins one half: energies `-3/2` and three times `1/2`. -/
example (S : EigSolvers) (hS : EigContract S) : ∃ A w M, Spins.createH ⟨2, 1, fun _ _ => 1, fun _ _ => 1, fun _ _ => 1, fun _ => 0, fun _ => 0, fun _ => 0⟩ none = .ok A ∧
    diagList S A = .ok (w, M) ∧ Moments A w M 4 0 (3 / 4) := by
  obtain ⟨A, w, M, h1, h2, h3⟩ := C144_spins S hS ⟨2, 1, fun _ _ => 1, fun _ _ => 1, fun _ _ => 1, fun _ => 0, fun _ => 0, fun _ => 0⟩ (.inl rfl)
    ⟨by simp, by simp, by simp, by simp, by simp, by simp⟩
  refine ⟨A, w, M, h1, h2, ?_⟩
  convert h3 using 1
  · simp
  · simp [spinVariance, spinSq, Fin.sum_univ_two]
    norm_num

/-- The Hubbard model on two sites at half filling. -/
example (S : EigSolvers) (hS : EigContract S) :
    ∃ A w M, Fermions.createH ⟨2, 2, fun _ _ _ => 1, fun _ => 4, fun _ _ _ => 0, fun _ => 2, fun _ _ => 0, fun _ _ => 1, fun _ _ => 0⟩ none = .ok A ∧
      diagList S A = .ok (w, M) ∧ Moments A w M 16 (-2) 3 := by
  obtain ⟨A, w, M, h1, h2, h3⟩ := C144_fermions S hS ⟨2, 2, fun _ _ _ => 1, fun _ => 4, fun _ _ _ => 0, fun _ => 2, fun _ _ => 0, fun _ _ => 1, fun _ _ => 0⟩ (.inl le_rfl)
    ⟨by simp, by simp, by simp, by simp, by simp⟩
  refine ⟨A, w, M, h1, h2, ?_⟩
  convert h3 using 1
  · simp
  · simp [fermionMean, levelAt, sameAt, Fin.sum_univ_two]
    norm_num
  · simp [fermionVariance, levelAt, sameAt, Fin.sum_univ_two]
    rw [show (Finset.univ.filter fun x : Fin 2 => x = 0).card = 1 from rfl]
    norm_num

end ED.Props
