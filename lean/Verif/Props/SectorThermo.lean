import Verif.Spec.SectorThermo
import Verif.Props.Thermo
import Verif.Lemmas.SpinCluster

/-! # Property C111: thermodynamics from sectors -/

namespace ED.Props

open Matrix

section

variable {ι : Type} [Fintype ι] [DecidableEq ι] {r : ℕ} {d m : Fin (r + 1) → ℕ}
  {P : ∀ i, Matrix (Fin (d i + 1)) ι ℂ} {H : Matrix ι ι ℂ}

theorem _root_.ED.IsSectors.conj (h : IsSectors P H) (i : Fin (r + 1)) :
    H * (P i)ᴴ = (P i)ᴴ * (P i * H * (P i)ᴴ) := by
  have e : H * (P i)ᴴ = (∑ j, (P j)ᴴ * P j) * (H * (P i)ᴴ) := by rw [h.complete, Matrix.one_mul]
  rw [e, Matrix.sum_mul, Finset.sum_eq_single i]
  · simp only [Matrix.mul_assoc]
  · intro j _ hj
    have := h.block j i hj
    rw [Matrix.mul_assoc] at this
    rw [Matrix.mul_assoc, this, Matrix.mul_zero]
  · simp

/-- The eigenvectors of all sectors. -/
def sectorVects (P : ∀ i, Matrix (Fin (d i + 1)) ι ℂ) (V : ∀ i, Matrix (Fin (d i + 1)) (Fin (m i + 1)) ℂ) :
    Matrix ι (Σ i, Fin (m i + 1)) ℂ := Matrix.of fun x p => ((P p.1)ᴴ * V p.1) x p.2

theorem sectorVects_eig (h : IsSectors P H) {V : ∀ i, Matrix (Fin (d i + 1)) (Fin (m i + 1)) ℂ}
    {E : ∀ i, Fin (m i + 1) → ℝ} (h1 : ∀ i, (V i)ᴴ * V i = 1) (h2 : ∀ i, V i * (V i)ᴴ = 1)
    (h3 : ∀ i, P i * H * (P i)ᴴ * V i = V i * diagonal fun k => (E i k : ℂ)) :
    (sectorVects P V)ᴴ * sectorVects P V = 1 ∧ sectorVects P V * (sectorVects P V)ᴴ = 1 ∧
    H * sectorVects P V = sectorVects P V * diagonal fun p => (E p.1 p.2 : ℂ) := by
  refine ⟨?_, ?_, ?_⟩
  · ext ⟨i, k⟩ ⟨j, l⟩
    have e : ((sectorVects P V)ᴴ * sectorVects P V) ⟨i, k⟩ ⟨j, l⟩ = (((P i)ᴴ * V i)ᴴ * ((P j)ᴴ * V j)) k l := rfl
    rw [e, conjTranspose_mul, conjTranspose_conjTranspose, Matrix.mul_assoc, ← Matrix.mul_assoc (P i)]
    by_cases hij : i = j
    · subst hij
      rw [h.normal, Matrix.one_mul, h1, one_apply, one_apply]
      simp
    · rw [h.orthogonal i j hij, Matrix.zero_mul, Matrix.mul_zero, one_apply_ne (fun e => hij (congrArg Sigma.fst e))]
      rfl
  · rw [← h.complete]
    ext x y
    rw [Matrix.mul_apply, Fintype.sum_sigma, Matrix.sum_apply]
    refine Finset.sum_congr rfl fun i _ => ?_
    have e : (∑ k, sectorVects P V x ⟨i, k⟩ * (sectorVects P V)ᴴ ⟨i, k⟩ y) = (((P i)ᴴ * V i) * ((P i)ᴴ * V i)ᴴ) x y := rfl
    rw [e, conjTranspose_mul, conjTranspose_conjTranspose, Matrix.mul_assoc, ← Matrix.mul_assoc (V i), h2, Matrix.one_mul]
  · ext x ⟨i, k⟩
    have e : (H * sectorVects P V) x ⟨i, k⟩ = (H * ((P i)ᴴ * V i)) x k := rfl
    rw [e, ← Matrix.mul_assoc, h.conj, Matrix.mul_assoc, h3, ← Matrix.mul_assoc, mul_diagonal, mul_diagonal]
    rfl

theorem expect_sector (O : Matrix ι ι ℂ) (V : ∀ i, Matrix (Fin (d i + 1)) (Fin (m i + 1)) ℂ) (p : Σ i, Fin (m i + 1)) :
    expect O (colOf (sectorVects P V) p) = expect (P p.1 * O * (P p.1)ᴴ) (colOf (V p.1) p.2) := by
  have gen : ∀ {α β : Type} [Fintype α] [Fintype β] (O : Matrix α α ℂ) (V : Matrix α β ℂ) (k : β),
      expect O (colOf V k) = (Vᴴ * (O * V)) k k := by
    intro α β _ _ O V k
    unfold expect colOf
    simp only [Matrix.mul_apply, dotProduct, conjTranspose_apply, Pi.star_apply, mulVec]
  have e : expect O (colOf (sectorVects P V) p) = expect O (colOf ((P p.1)ᴴ * V p.1) p.2) := rfl
  rw [e, gen, gen, conjTranspose_mul, conjTranspose_conjTranspose]
  simp only [Matrix.mul_assoc]

variable [Nonempty ι]

/-- What the solver gives for all sectors. -/
theorem sector_diag (S : EigSolvers) (hS : EigContract S) (hH : H.IsHermitian) (h : IsSectors P H)
    (A : Fin (r + 1) → Mat) (hA : ∀ i, (A i).Is (P i * H * (P i)ᴴ)) :
    ∃ (m : Fin (r + 1) → ℕ) (E : ∀ i, Fin (m i + 1) → ℝ) (M : Fin (r + 1) → Mat)
      (V : ∀ i, Matrix (Fin (d i + 1)) (Fin (m i + 1)) ℂ),
      (∀ i, diagList S (A i) = .ok (List.ofFn (E i), M i)) ∧ (∀ i, (M i).Is (V i)) ∧ (∀ i, (V i)ᴴ * V i = 1) ∧
      (∀ i, V i * (V i)ᴴ = 1) ∧ ∀ i, P i * H * (P i)ᴴ * V i = V i * diagonal fun k => (E i k : ℂ) := by
  have hh : ∀ i, (P i * H * (P i)ᴴ).IsHermitian := by
    intro i
    unfold Matrix.IsHermitian
    rw [conjTranspose_mul, conjTranspose_mul, conjTranspose_conjTranspose, hH, Matrix.mul_assoc]
  choose m E M V h1 h2 h3 h4 h5 _ using fun i => diagList_ok S hS (hA i) (hh i)
  exact ⟨m, E, M, V, h1, h2, h3, h4, h5⟩

/-- C111, averages: diagonalize the Hamiltonian in each sector, average an operator in each sector, and combine the
averages. The result is the trace of the operator with the density matrix of the whole Hamiltonian, although the
operator may connect different sectors. -/
theorem C111_average (S : EigSolvers) (hS : EigContract S) (hH : H.IsHermitian) (h : IsSectors P H)
    (A : Fin (r + 1) → Mat) (hA : ∀ i, (A i).Is (P i * H * (P i)ᴴ)) :
    ∃ (w : Fin (r + 1) → List ℝ) (M : Fin (r + 1) → Mat), (∀ i, diagList S (A i) = .ok (w i, M i)) ∧
      ∀ (O : Matrix ι ι ℂ) (B : Fin (r + 1) → Mat), (∀ i, (B i).Is (P i * O * (P i)ᴴ)) → ∀ T : ℝ, T ≠ 0 →
        ∃ a, (∀ i, expValsThermal (M i) (B i) (w i) T = .ok (a i)) ∧
          thermalAvgCombine (List.ofFn a) (List.ofFn w) T = .ok (thermalAvg H O T) := by
  obtain ⟨m, E, M, V, h1, h2, h3, h4, h5⟩ := sector_diag S hS hH h A hA
  refine ⟨_, M, h1, fun O B hB T hT => ?_⟩
  obtain ⟨a, a1, a2⟩ := C21_combine (fun i => h2 i) (fun i => hB i) E T (Or.inl hT)
  obtain ⟨q1, q2, q3⟩ := sectorVects_eig h h3 h4 h5
  refine ⟨a, a1, ?_⟩
  rw [a2, thermalAvg_eig q1 q2 q3 O hT]
  simp only [expect_sector]

theorem sector_square (h : IsSectors P H) (i : Fin (r + 1)) :
    P i * H * (P i)ᴴ * (P i * H * (P i)ᴴ) = P i * (H * H) * (P i)ᴴ := by
  have := h.conj i
  have e : P i * (H * H) * (P i)ᴴ = P i * H * (H * (P i)ᴴ) := by simp only [Matrix.mul_assoc]
  rw [e, this]
  simp only [Matrix.mul_assoc]

/-- The specific heat of a Hermitian matrix. -/
theorem hasDerivAt_thermalAvg (hH : H.IsHermitian) {T : ℝ} (hT : T ≠ 0) :
    HasDerivAt (thermalAvg H H) (1 / T ^ 2 * (thermalAvg H (H * H) T - thermalAvg H H T ^ 2)) T := by
  obtain ⟨V, E, h3, h4, h5⟩ := exists_eig hH
  have ha : ∀ T ≠ 0, thermalAvg H H T = canonical T E E := by
    intro T hT
    rw [thermalAvg_eig h3 h4 h5 H hT]
    congr 1
    funext k
    rw [expect_eig h3 h5, Complex.ofReal_re]
  have ha2 : ∀ T ≠ 0, thermalAvg H (H * H) T = canonical T E fun k => E k ^ 2 := by
    intro T hT
    rw [thermalAvg_eig h3 h4 h5 _ hT]
    congr 1
    funext k
    rw [expect_eig_sq h3 h5, Complex.ofReal_re]
  rw [ha T hT, ha2 T hT]
  refine (hasDerivAt_energy E hT).congr_of_eventuallyEq ?_
  filter_upwards [isOpen_ne.mem_nhds hT] with T hT
  exact ha T hT

/-- C111: the script which adds up the sectors gives the energy, the entropy and the specific heat per site of the
whole system. `e` and `e2` are the averages of the Hamiltonian and its square in each sector. -/
theorem C111_thermodynamics (S : EigSolvers) (hS : EigContract S) (hH : H.IsHermitian) (h : IsSectors P H)
    (A : Fin (r + 1) → Mat) (hA : ∀ i, (A i).Is (P i * H * (P i)ᴴ)) :
    ∃ (w : Fin (r + 1) → List ℝ) (M A2 : Fin (r + 1) → Mat), (∀ i, diagList S (A i) = .ok (w i, M i)) ∧
      (∀ i, (A i).mul (A i) = .ok (A2 i)) ∧
      ∀ T : ℝ, 0 < T → ∃ e e2, (∀ i, expValsThermal (M i) (A i) (w i) T = .ok (e i)) ∧
        (∀ i, expValsThermal (M i) (A2 i) (w i) T = .ok (e2 i)) ∧
        ∀ nsites : ℕ, 0 < nsites → ∃ c, sectorThermo nsites (List.ofFn e) (List.ofFn e2) (List.ofFn w) T =
            .ok (thermalAvg H H T / nsites, vonNeumann (gibbs H T) / nsites, c / nsites) ∧
          HasDerivAt (thermalAvg H H) c T := by
  obtain ⟨m, E, M, V, h1, h2, h3, h4, h5⟩ := sector_diag S hS hH h A hA
  choose A2 b1 b2 using fun i => (hA i).mul (hA i)
  simp only [sector_square h] at b2
  refine ⟨_, M, A2, h1, b1, fun T hT => ?_⟩
  obtain ⟨q1, q2, q3⟩ := sectorVects_eig h h3 h4 h5
  have avg : ∀ (O : Matrix ι ι ℂ) (B : Fin (r + 1) → Mat), (∀ i, (B i).Is (P i * O * (P i)ᴴ)) →
        ∃ a, (∀ i, expValsThermal (M i) (B i) (List.ofFn (E i)) T = .ok (a i)) ∧
          thermalAvgCombine (List.ofFn a) (List.ofFn fun i => List.ofFn (E i)) T = .ok (thermalAvg H O T) := by
    intro O B hB
    obtain ⟨a, a1, a2⟩ := C21_combine (fun i => h2 i) (fun i => hB i) E T (Or.inl hT.ne')
    refine ⟨a, a1, ?_⟩
    rw [a2, thermalAvg_eig q1 q2 q3 O hT.ne']
    simp only [expect_sector]
  obtain ⟨e, a1, a2⟩ := avg H A hA
  obtain ⟨e2, a3, a4⟩ := avg (H * H) A2 b2
  refine ⟨e, e2, a1, a3, fun n hn => ⟨_, ?_, hasDerivAt_thermalAvg hH hT.ne'⟩⟩
  have hn' : (n : ℝ) ≠ 0 := by exact_mod_cast hn.ne'
  have hZ : (((List.ofFn fun i => List.ofFn (E i)).flatten).map fun x => Real.exp (-x / T)).sum = partitionFn H T := by
    rw [partitionFn_eig q1 q2 q3, Fintype.sum_sigma, List.map_flatten, List.sum_flatten, List.map_ofFn, List.map_ofFn,
      List.sum_ofFn]
    refine Finset.sum_congr rfl fun i _ => ?_
    simp only [Function.comp_apply]
    rw [List.map_ofFn, List.sum_ofFn]
    rfl
  unfold sectorThermo
  rw [a2, a4]
  simp only [bind, Except.bind, pure, Except.pure]
  rw [hZ, vonNeumann_hermitian hH]
  congr 3
  · field_simp
  · field_simp

/-- The average over the sectors of a number for each sector. -/
theorem combine_const {E : ∀ i, Fin (m i + 1) → ℝ} {T : ℝ} (hT : T ≠ 0) (c : Fin (r + 1) → ℝ) :
    thermalAvgCombine (List.ofFn c) (List.ofFn fun i => List.ofFn (E i)) T =
      .ok ((∑ i, (∑ k, Real.exp (-E i k / T)) * c i) / ∑ i, ∑ k, Real.exp (-E i k / T)) := by
  have hc : ∀ i, canonical T (E i) (fun _ => c i) = c i := by
    intro i
    have hpos : 0 < ∑ k, Real.exp (-E i k / T) := Finset.sum_pos (fun k _ => Real.exp_pos _) Finset.univ_nonempty
    rw [canonical_ne hT, ← Finset.sum_mul, mul_div_assoc, mul_comm, div_mul_cancel₀]
    exact hpos.ne'
  have := combine_is E T (fun i _ => c i) (Or.inl hT)
  simp only [hc] at this
  rw [this, canonical_ne hT, Fintype.sum_sigma, Fintype.sum_sigma]
  simp only [Finset.sum_mul]

/-- C111 fails for the entropy and the specific heat of `measure_hubbard.py`, which are averaged over the sectors like
expectation values. The entropy is too small for every Hamiltonian with at least two sectors, and the specific heat
is too small whenever two sectors have different energies. Only the energy is right. -/
theorem C111_hubbard_violated (S : EigSolvers) (hS : EigContract S) (hH : H.IsHermitian) (h : IsSectors P H)
    (A : Fin (r + 1) → Mat) (hA : ∀ i, (A i).Is (P i * H * (P i)ᴴ)) :
    ∃ (w : Fin (r + 1) → List ℝ) (M : Fin (r + 1) → Mat), (∀ i, diagList S (A i) = .ok (w i, M i)) ∧
      ∀ T : ℝ, 0 < T → ∃ x : Fin (r + 1) → ℝ × ℝ × ℝ, (∀ i, thermoAt (M i) (A i) (w i) T = .ok (x i)) ∧
        ∃ e s c c', hubbardThermo (List.ofFn x) (List.ofFn w) T = .ok (e, s, c) ∧ e = thermalAvg H H T ∧
          (1 ≤ r → s < vonNeumann (gibbs H T)) ∧ HasDerivAt (thermalAvg H H) c' T ∧
          ((∃ i j, (x i).1 ≠ (x j).1) → c < c') := by
  obtain ⟨m, E, M, V, h1, h2, h3, h4, h5⟩ := sector_diag S hS hH h A hA
  choose A2 b1 b2 using fun i => (hA i).mul (hA i)
  simp only [sector_square h] at b2
  refine ⟨_, M, h1, fun T hT => ?_⟩
  obtain ⟨q1, q2, q3⟩ := sectorVects_eig h h3 h4 h5
  have avg : ∀ (O : Matrix ι ι ℂ) (B : Fin (r + 1) → Mat), (∀ i, (B i).Is (P i * O * (P i)ᴴ)) →
        ∃ a, (∀ i, expValsThermal (M i) (B i) (List.ofFn (E i)) T = .ok (a i)) ∧
          thermalAvgCombine (List.ofFn a) (List.ofFn fun i => List.ofFn (E i)) T = .ok (thermalAvg H O T) := by
    intro O B hB
    obtain ⟨a, a1, a2⟩ := C21_combine (fun i => h2 i) (fun i => hB i) E T (Or.inl hT.ne')
    refine ⟨a, a1, ?_⟩
    rw [a2, thermalAvg_eig q1 q2 q3 O hT.ne']
    simp only [expect_sector]
  obtain ⟨e, a1, a2⟩ := avg H A hA
  obtain ⟨e2, a3, a4⟩ := avg (H * H) A2 b2
  set z : Fin (r + 1) → ℝ := fun i => ∑ k, Real.exp (-E i k / T) with hz
  have zpos : ∀ i, 0 < z i := fun i => Finset.sum_pos (fun k _ => Real.exp_pos _) Finset.univ_nonempty
  have Zpos : 0 < ∑ i, z i := Finset.sum_pos (fun i _ => zpos i) Finset.univ_nonempty
  have hZ : partitionFn H T = ∑ i, z i := by rw [partitionFn_eig q1 q2 q3, Fintype.sum_sigma]
  have hEn : thermalAvg H H T = (∑ i, z i * e i) / ∑ i, z i := by
    rw [combine_const hT.ne'] at a2
    injection a2 with a2
    exact a2.symm
  have hE2 : thermalAvg H (H * H) T = (∑ i, z i * e2 i) / ∑ i, z i := by
    rw [combine_const hT.ne'] at a4
    injection a4 with a4
    exact a4.symm
  refine ⟨fun i => (e i, Real.log (z i) + e i / T, 1 / T ^ 2 * (e2 i - e i ^ 2)), fun i => ?_, _,
    (∑ i, z i * (Real.log (z i) + e i / T)) / ∑ i, z i, (∑ i, z i * (1 / T ^ 2 * (e2 i - e i ^ 2))) / ∑ i, z i, _,
    ?_, rfl, ?_, hasDerivAt_thermalAvg hH hT.ne', ?_⟩
  · have q3 : ((List.ofFn (E i)).map fun e => Real.exp (-e / T)).sum = z i := by
      rw [List.map_ofFn, List.sum_ofFn]
      rfl
    unfold thermoAt
    simp only [a1 i, b1 i, a3 i, q3, bind, Except.bind, pure, Except.pure]
  · unfold hubbardThermo
    simp only [List.map_ofFn, Function.comp_def]
    rw [a2, combine_const hT.ne', combine_const hT.ne']
    rfl
  · intro hr
    rw [vonNeumann_hermitian hH, hEn, hZ, div_div, mul_comm (∑ i, z i) T, ← div_div, div_lt_iff₀ Zpos, add_mul]
    have e1 : (∑ i, z i * e i) / T / (∑ i, z i) * ∑ i, z i = ∑ i, z i * (e i / T) := by
      rw [div_mul_cancel₀ _ Zpos.ne', Finset.sum_div]
      exact Finset.sum_congr rfl fun i _ => by ring
    rw [e1, Finset.mul_sum, ← Finset.sum_add_distrib]
    refine Finset.sum_lt_sum_of_nonempty Finset.univ_nonempty fun i _ => ?_
    rw [mul_add]
    have hlt : z i < ∑ i, z i := by
      obtain ⟨j, hj⟩ : ∃ j : Fin (r + 1), j ≠ i := by
        have : Nontrivial (Fin (r + 1)) := Fin.nontrivial_iff_two_le.2 (by omega)
        exact exists_ne i
      exact Finset.single_lt_sum hj (Finset.mem_univ i) (Finset.mem_univ j) (zpos j) fun k _ _ => (zpos k).le
    have := Real.log_lt_log (zpos i) hlt
    have := mul_lt_mul_of_pos_left this (zpos i)
    linarith
  · rintro ⟨i, j, hij⟩
    simp only at hij
    rw [hE2, hEn]
    have e1 : ∑ i, z i * (1 / T ^ 2 * (e2 i - e i ^ 2)) = 1 / T ^ 2 * (∑ i, z i * e2 i - ∑ i, z i * e i ^ 2) := by
      rw [mul_sub, Finset.mul_sum, Finset.mul_sum, ← Finset.sum_sub_distrib]
      exact Finset.sum_congr rfl fun i _ => by ring
    rw [e1, mul_div_assoc, sub_div]
    refine mul_lt_mul_of_pos_left (sub_lt_sub_left ?_ _) (by positivity)
    set μ := (∑ i, z i * e i) / ∑ i, z i with hμ
    have hμ' : ∑ i, z i * e i = μ * ∑ i, z i := by rw [hμ, div_mul_cancel₀ _ Zpos.ne']
    have hvar : ∑ i, z i * (e i - μ) ^ 2 = ∑ i, z i * e i ^ 2 - μ ^ 2 * ∑ i, z i := by
      have e3 : ∑ i, z i * (e i - μ) ^ 2 = ∑ i, z i * e i ^ 2 - 2 * μ * ∑ i, z i * e i + μ ^ 2 * ∑ i, z i := by
        rw [Finset.mul_sum, Finset.mul_sum, ← Finset.sum_sub_distrib, ← Finset.sum_add_distrib]
        exact Finset.sum_congr rfl fun i _ => by ring
      rw [e3, hμ']
      ring
    have hpos : 0 < ∑ i, z i * (e i - μ) ^ 2 := by
      obtain ⟨k, hk⟩ : ∃ k, e k ≠ μ := by
        by_contra hc
        push Not at hc
        exact hij ((hc i).trans (hc j).symm)
      refine Finset.sum_pos' (fun i _ => mul_nonneg (zpos i).le (sq_nonneg _)) ⟨k, Finset.mem_univ _, ?_⟩
      exact mul_pos (zpos k) (lt_of_le_of_ne (sq_nonneg _) (Ne.symm (pow_ne_zero 2 (sub_ne_zero.2 hk))))
    rw [lt_div_iff₀ Zpos]
    linarith

end

/-- A Hamiltonian with two sectors of one state each. -/
example : IsSectors (κ := Fin 2) (τ := fun _ => Fin 1) (fun i => Matrix.of fun _ j => if i = j then (1 : ℂ) else 0)
    !![(1 : ℂ), 0; 0, 2] := by
  refine ⟨fun i => ?_, fun i j h => ?_, ?_, fun i j h => ?_⟩
  · ext a b
    fin_cases i <;> fin_cases a <;> fin_cases b <;> simp [Matrix.mul_apply]
  · ext a b
    fin_cases i <;> fin_cases j <;> fin_cases a <;> fin_cases b <;> simp_all [Matrix.mul_apply]
  · ext a b
    fin_cases a <;> fin_cases b <;> simp [Matrix.mul_apply, Matrix.sum_apply, Fin.sum_univ_two]
  · ext a b
    fin_cases i <;> fin_cases j <;> fin_cases a <;> fin_cases b <;> simp_all [Matrix.mul_apply, Fin.sum_univ_two]

end ED.Props
