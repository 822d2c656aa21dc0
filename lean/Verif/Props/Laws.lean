import Verif.Lemmas.Laws
import Verif.Props.Thermo
import Verif.Props.ParticleHole

/-! # Property C133: the laws of thermodynamics hold for energy, entropy and specific heat of the scripts -/

namespace ED.Props

open Matrix Topology
open Filter (Tendsto atTop)

theorem count_ofFn {n : ℕ} (E : Fin n → ℝ) (a : ℝ) : (List.ofFn E).count a = (Finset.univ.filter fun k => E k = a).card := by
  rw [Finset.card_filter]
  induction n with
  | zero => simp
  | succ n ih =>
    rw [List.ofFn_succ, List.count_cons, ih, Fin.sum_univ_succ, add_comm]
    simp

variable {ι : Type} [Fintype ι] [Basis ι] [DecidableEq ι] [Nonempty ι]

theorem thermoAt_levels {A M : Mat} {H : Matrix ι ι ℂ} {m : ℕ} {E : Fin (m + 1) → ℝ} {V : Matrix ι (Fin (m + 1)) ℂ} (hA : A.Is H) (h2 : M.Is V)
    (h3 : Vᴴ * V = 1) (h5 : H * V = V * diagonal (fun k => (E k : ℂ))) {T : ℝ} (hT : T ≠ 0) :
    thermoAt M A (List.ofFn E) T = .ok (canonical T E E, levelEntropy E T, levelHeat E T) := by
  obtain ⟨B, hB, hB'⟩ := hA.mul hA
  have q1 : expValsThermal M A (List.ofFn E) T = .ok (canonical T E E) := by
    rw [C19_canonical h2 hA E T (Or.inl hT)]
    simp only [expect_eig h3 h5, Complex.ofReal_re]
  have q2 : expValsThermal M B (List.ofFn E) T = .ok (canonical T E fun k => E k ^ 2) := by
    rw [C19_canonical h2 hB' E T (Or.inl hT)]
    simp only [expect_eig_sq h3 h5, Complex.ofReal_re]
  have q3 : ((List.ofFn E).map fun e => Real.exp (-e / T)).sum = ∑ k, Real.exp (-E k / T) := by
    rw [List.map_ofFn, List.sum_ofFn]
    rfl
  unfold thermoAt
  simp only [q1, hB, q2, q3, bind, Except.bind, pure, Except.pure]
  rfl

omit [DecidableEq ι] [Nonempty ι] [Basis ι] in
theorem card_levels {m : ℕ} {V : Matrix ι (Fin (m + 1)) ℂ} [DecidableEq ι] (h3 : Vᴴ * V = 1) (h4 : V * Vᴴ = 1) : Fintype.card ι = m + 1 := by
  have h := trace_mul_comm V Vᴴ
  rw [h3, h4, trace_one, trace_one, Fintype.card_fin] at h
  exact_mod_cast h

omit [Nonempty ι] [Basis ι] in
theorem sum_laws {H : Matrix ι ι ℂ} {m : ℕ} {E : Fin (m + 1) → ℝ} {V : Matrix ι (Fin (m + 1)) ℂ} (h3 : Vᴴ * V = 1) (h4 : V * Vᴴ = 1)
    (h5 : H * V = V * diagonal (fun k => (E k : ℂ))) : ∑ k, E k = (trace H).re := by
  have hD : H = V * (diagonal (fun k => (E k : ℂ)) * Vᴴ) := by rw [← Matrix.mul_assoc, ← h5, Matrix.mul_assoc, h4, Matrix.mul_one]
  rw [hD, trace_mul_comm, Matrix.mul_assoc, h3, Matrix.mul_one, trace_diagonal, ← Complex.ofReal_sum, Complex.ofReal_re]

/-- C133: energy, entropy and specific heat of the scripts as functions of temperature. The specific heat is not negative; energy and
entropy do not fall with temperature; the entropy is between zero and the logarithm of the number of states. At low temperatures
the energy is the smallest eigenvalue and the entropy the logarithm of its multiplicity. At high temperatures the energy is the mean
of all eigenvalues and the entropy the logarithm of the number of states. -/
theorem C133_laws (S : EigSolvers) (hS : EigContract S) (A : Mat) (H : Matrix ι ι ℂ) (hA : A.Is H) (hH : H.IsHermitian) :
    ∃ w M, ∃ e s c : ℝ → ℝ, diagList S A = .ok (w, M) ∧ (∀ T, 0 < T → thermoAt M A w T = .ok (e T, s T, c T)) ∧
      (∀ T, 0 < T → 0 ≤ c T) ∧ MonotoneOn e (Set.Ioi 0) ∧ MonotoneOn s (Set.Ioi 0) ∧
      (∀ T, 0 < T → 0 ≤ s T ∧ s T ≤ Real.log (Fintype.card ι)) ∧
      (∃ E0, (∀ x ∈ w, E0 ≤ x) ∧ Tendsto e (𝓝[>] 0) (𝓝 E0) ∧ Tendsto s (𝓝[>] 0) (𝓝 (Real.log (w.count E0))) ∧ 0 < w.count E0) ∧
      Tendsto e atTop (𝓝 ((trace H).re / Fintype.card ι)) ∧ Tendsto s atTop (𝓝 (Real.log (Fintype.card ι))) := by
  obtain ⟨m, E, M, V, h1, h2, h3, h4, h5, h6⟩ := diagList_ok S hS hA hH
  have hcard := card_levels h3 h4
  have hmin : ∀ k, E 0 ≤ E k := fun k => h6 (Fin.zero_le k)
  have hcount := count_ofFn E (E 0)
  refine ⟨_, M, fun T => canonical T E E, levelEntropy E, levelHeat E, h1, fun T hT => thermoAt_levels hA h2 h3 h5 hT.ne',
    fun T hT => levelHeat_nonneg E hT.ne', energy_monotone E, entropy_monotone E, fun T hT => ⟨levelEntropy_nonneg E hT, ?_⟩,
    ⟨E 0, ?_, ?_, ?_, ?_⟩, ?_, ?_⟩
  · rw [hcard]
    have := levelEntropy_le E hT
    rwa [Fintype.card_fin] at this
  · intro x hx
    obtain ⟨k, rfl⟩ := (List.mem_ofFn' E x).1 hx
    exact hmin k
  · have := canonical_limit E E
    rwa [energy_zero E hmin] at this
  · rw [hcount]
    exact levelEntropy_zero E hmin
  · rw [List.count_pos_iff]
    exact (List.mem_ofFn' E _).2 ⟨0, rfl⟩
  · rw [← sum_laws h3 h4 h5, hcard]
    have := canonical_high E E
    rwa [Fintype.card_fin] at this
  · rw [hcard]
    have := levelEntropy_high E
    rwa [Fintype.card_fin] at this

/-- Two coupled states meet the hypotheses. -/
example : ∃ A : Mat, A.Is !![(1 : ℂ), Complex.I; -Complex.I, 2] ∧ (!![(1 : ℂ), Complex.I; -Complex.I, 2] : Matrix (Fin 2) (Fin 2) ℂ).IsHermitian := by
  refine ⟨⟨2, 2, fun i j => if h : i < 2 ∧ j < 2 then !![(1 : ℂ), Complex.I; -Complex.I, 2] ⟨i, h.1⟩ ⟨j, h.2⟩ else 0⟩, ⟨rfl, rfl, fun i j => ?_⟩, ?_⟩
  · have h : Basis.num i < 2 ∧ Basis.num j < 2 := ⟨i.2, j.2⟩
    simp only [dif_pos h]
    rfl
  · ext i j
    fin_cases i <;> fin_cases j <;> simp

end ED.Props
