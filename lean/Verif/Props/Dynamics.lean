import Verif.Props.Thermal
import Verif.Spec.Evolution
import Mathlib.Analysis.SpecialFunctions.ExpDeriv

/-! # Property C22: time evolution after a quench -/

namespace ED.Props

open scoped BigOperators
open Matrix

variable {ι : Type} [Fintype ι] [Basis ι] [DecidableEq ι] {M : ℕ}

/-- The state that `quench_time_evolve` computes, as a matrix expression. -/
noncomputable def evState (Vm : Matrix ι (Fin M) ℂ) (E : Fin M → ℝ) (t : ℝ) (ψ : ι → ℂ) : ι → ℂ :=
  (Vm * (diagonal fun m => Complex.exp (-Complex.I * ((t * E m : ℝ) : ℂ))) * Vmᴴ) *ᵥ ψ

theorem evState_apply (Vm : Matrix ι (Fin M) ℂ) (E : Fin M → ℝ) (t : ℝ) (ψ : ι → ℂ) (i : ι) :
    evState Vm E t ψ i =
      ∑ m, Vm i m * (Complex.exp (-Complex.I * ((t * E m : ℝ) : ℂ)) * (Vmᴴ *ᵥ ψ) m) := by
  unfold evState
  rw [← mulVec_mulVec, ← mulVec_mulVec]
  change ∑ m, Vm i m * ((diagonal _ *ᵥ (Vmᴴ *ᵥ ψ)) m) = _
  simp only [mulVec_diagonal]

theorem quench_full {K : ℕ} {init V : Mat} {Vm : Matrix ι (Fin M) ℂ} {Ψ : Matrix ι (Fin K) ℂ}
    (hV : V.Is Vm) (hi : init.Is Ψ) (E : Fin M → ℝ) (times : List ℝ) :
    ∃ full : ND ℂ, full.shape = [Fintype.card ι, times.length, K] ∧
      (∀ (i : ι) (t : Fin times.length) (k : Fin K),
        full.data [Basis.num i, t, k] = evState Vm E times[t] (colOf Ψ k) i) ∧
      quenchTimeEvolve init V (List.ofFn E) times =
        .ok (if full.squeeze.shape.length = 1 then full.squeeze.expand1 else full.squeeze) := by
  obtain ⟨C, hC, hCi⟩ := hV.dagger.mul hi
  obtain ⟨D, hD, -⟩ := hV.mul hCi
  refine ⟨⟨[V.rows, times.length, init.cols], fun idx =>
      ∑ m ∈ Finset.range V.cols, V.e (idx.getD 0 0) m *
        (Complex.exp (-Complex.I * ((times.getD (idx.getD 1 0) 0 * (List.ofFn E).getD m 0 : ℝ) : ℂ)) *
          C.e m (idx.getD 2 0))⟩, ?_, ?_, ?_⟩
  · have h1 := hV.1
    have h2 := hi.2.1
    simp only [Fintype.card_fin] at h2
    simp only [h1, h2]
  · intro i t k
    have hc : V.cols = Fintype.card (Fin M) := hV.2.1
    simp only [hc]
    rw [Basis.sum_range (ι := Fin M)]
    rw [evState_apply]
    refine Finset.sum_congr rfl fun m _ => ?_
    have e1 := hV.2.2 i m
    have e2 := hCi.2.2 m k
    have e3 : (Basis.num m) = (m : ℕ) := rfl
    have e4 : (Basis.num k) = (k : ℕ) := rfl
    rw [e4] at e2
    simp only [List.getD_cons_zero, List.getD_cons_succ]
    rw [e1, e2, e3]
    simp only [List.getD_eq_getElem?_getD, List.getElem?_ofFn, Fin.is_lt, dite_true,
      Option.getD_some, Fin.eta, List.getElem?_eq_getElem t.2]
    rfl
  · unfold quenchTimeEvolve
    rw [hC]
    change (V.mul C >>= _) = _
    rw [hD]
    change (if (List.ofFn E).length ≠ C.rows then _ else _) = _
    rw [if_neg (by rw [hCi.1]; simp)]
    rfl

/-- For one initial state and dimension at least two the returned array has one column per time. -/
theorem quench_one {init V : Mat} {Vm : Matrix ι (Fin M) ℂ} {ψ : ι → ℂ} (hd : 2 ≤ Fintype.card ι)
    (hV : V.Is Vm) (hi : init.Is (Matrix.of fun i (_ : Fin 1) => ψ i)) (E : Fin M → ℝ)
    (times : List ℝ) :
    GivesStates (quenchTimeEvolve init V (List.ofFn E) times) times.length
      (fun t => evState Vm E times[t] ψ) := by
  obtain ⟨full, hs, hf, hq⟩ := quench_full hV hi E times
  have h1 : Fintype.card ι ≠ 1 := by omega
  refine ⟨_, hq, ?_, fun i t => ?_⟩
  · by_cases ht : times.length = 1
    · have : full.squeeze.shape = [Fintype.card ι] := by
        simp [ND.squeeze, hs, ht, h1]
      rw [if_pos (by rw [this]; rfl)]
      simp [ND.expand1, this, ht]
    · have : full.squeeze.shape = [Fintype.card ι, times.length] := by
        simp [ND.squeeze, hs, ht, h1]
      rw [if_neg (by rw [this]; simp), this]
  · refine Eq.trans ?_ (show full.data [Basis.num i, t, (0 : Fin 1)] = _ from hf i t 0)
    by_cases ht : times.length = 1
    · have : full.squeeze.shape = [Fintype.card ι] := by
        simp [ND.squeeze, hs, ht, h1]
      rw [if_pos (by rw [this]; rfl)]
      have ht0 : (t : ℕ) = 0 := by omega
      simp [ND.expand1, ND.squeeze, hs, unsqueeze, h1, ht, ht0]
    · have : full.squeeze.shape = [Fintype.card ι, times.length] := by
        simp [ND.squeeze, hs, ht, h1]
      rw [if_neg (by rw [this]; simp)]
      simp [ND.squeeze, hs, unsqueeze, h1, ht]

/-! ## C22 -/

theorem evState_overlap {Vm : Matrix ι (Fin M) ℂ} (h1 : Vmᴴ * Vm = 1) (h2 : Vm * Vmᴴ = 1)
    (E : Fin M → ℝ) (t : ℝ) (ψ φ : ι → ℂ) :
    star (evState Vm E t ψ) ⬝ᵥ evState Vm E t φ = star ψ ⬝ᵥ φ := by
  unfold evState
  rw [star_mulVec, dotProduct_mulVec, vecMul_vecMul, ← dotProduct_mulVec]
  have : (Vm * (diagonal fun m => Complex.exp (-Complex.I * ((t * E m : ℝ) : ℂ))) * Vmᴴ)ᴴ *
      (Vm * (diagonal fun m => Complex.exp (-Complex.I * ((t * E m : ℝ) : ℂ))) * Vmᴴ) = 1 := by
    simp only [conjTranspose_mul, conjTranspose_conjTranspose, diagonal_conjTranspose]
    calc _ = Vm * (diagonal (star fun m => Complex.exp (-Complex.I * ((t * E m : ℝ) : ℂ))) *
          (Vmᴴ * Vm) * (diagonal fun m => Complex.exp (-Complex.I * ((t * E m : ℝ) : ℂ)))) * Vmᴴ := by
            simp only [Matrix.mul_assoc]
      _ = 1 := by
        rw [h1, Matrix.mul_one, diagonal_mul_diagonal]
        have : (fun i => (star fun m => Complex.exp (-Complex.I * ((t * E m : ℝ) : ℂ))) i *
            Complex.exp (-Complex.I * ((t * E i : ℝ) : ℂ))) = fun _ => 1 := by
          funext m
          rw [Pi.star_apply, ← starRingEnd_apply, ← Complex.exp_conj, ← Complex.exp_add]
          simp
        rw [this, diagonal_one, Matrix.mul_one, h2]
  rw [this, one_mulVec]

/-- C22. Let the columns of `V` be a complete orthonormal set of eigenvectors of `H`, and the
dimension be at least two. There is a one-parameter family `ev t` of maps on states such that
`quench_time_evolve` returns `ev t ψ` for every initial state and every list of times, `ev` preserves
overlaps (so norms), satisfies `ev 0 = id` and the group law, conserves energy and solves
`i dψ/dt = H ψ`. Missing from the full claim: dimension one, see `C22_dimension_one_fails`. -/
theorem C22_evolution_partial {V : Mat} {Vm : Matrix ι (Fin M) ℂ} {H : Matrix ι ι ℂ} (E : Fin M → ℝ)
    (hd : 2 ≤ Fintype.card ι) (hV : V.Is Vm) (h1 : Vmᴴ * Vm = 1) (h2 : Vm * Vmᴴ = 1)
    (hH : H * Vm = Vm * diagonal fun m => ((E m : ℝ) : ℂ)) :
    ∃ ev : ℝ → (ι → ℂ) → ι → ℂ,
      (∀ (init : Mat) (ψ : ι → ℂ) (times : List ℝ), init.Is (Matrix.of fun i (_ : Fin 1) => ψ i) →
        GivesStates (quenchTimeEvolve init V (List.ofFn E) times) times.length
          fun t => ev times[t] ψ) ∧
      (∀ ψ, ev 0 ψ = ψ) ∧
      (∀ t ψ φ, star (ev t ψ) ⬝ᵥ ev t φ = star ψ ⬝ᵥ φ) ∧
      (∀ s t ψ, ev s (ev t ψ) = ev (s + t) ψ) ∧
      (∀ t ψ, expect H (ev t ψ) = expect H ψ) ∧
      (∀ t ψ i, HasDerivAt (fun s => ev s ψ i) (-Complex.I * (H *ᵥ ev t ψ) i) t) := by
  refine ⟨evState Vm E, fun init ψ times hi => quench_one hd hV hi E times, fun ψ => ?_,
    fun t ψ φ => evState_overlap h1 h2 E t ψ φ, fun s t ψ => ?_, fun t ψ => ?_, fun t ψ i => ?_⟩
  · unfold evState
    simp [h2]
  · unfold evState
    rw [mulVec_mulVec]
    congr 1
    calc _ = Vm * ((diagonal fun m => Complex.exp (-Complex.I * ((s * E m : ℝ) : ℂ))) * (Vmᴴ * Vm) *
          (diagonal fun m => Complex.exp (-Complex.I * ((t * E m : ℝ) : ℂ)))) * Vmᴴ := by
            simp only [Matrix.mul_assoc]
      _ = _ := by
        rw [h1, Matrix.mul_one, diagonal_mul_diagonal]
        congr 3
        funext m
        rw [← Complex.exp_add]
        congr 1
        push_cast
        ring
  · have hcomm : H *ᵥ evState Vm E t ψ = evState Vm E t (H *ᵥ ψ) := by
      unfold evState
      rw [mulVec_mulVec, mulVec_mulVec]
      congr 1
      have hH' : H = Vm * (diagonal fun m => ((E m : ℝ) : ℂ)) * Vmᴴ := by
        rw [← hH, Matrix.mul_assoc, h2, Matrix.mul_one]
      have hH2 : Vmᴴ * H = (diagonal fun m => ((E m : ℝ) : ℂ)) * Vmᴴ := by
        rw [hH', ← Matrix.mul_assoc, ← Matrix.mul_assoc, h1, Matrix.one_mul]
      rw [← Matrix.mul_assoc, ← Matrix.mul_assoc, hH, Matrix.mul_assoc _ Vmᴴ, hH2]
      rw [← Matrix.mul_assoc, Matrix.mul_assoc Vm, Matrix.mul_assoc Vm, diagonal_mul_diagonal,
        Matrix.mul_assoc Vm, diagonal_mul_diagonal]
      simp only [mul_comm, ← Matrix.mul_assoc]
    unfold expect
    rw [hcomm, evState_overlap h1 h2]
  · have e1 : (H *ᵥ evState Vm E t ψ) i = ∑ m, Vm i m * (((E m : ℝ) : ℂ) *
        (Complex.exp (-Complex.I * ((t * E m : ℝ) : ℂ)) * (Vmᴴ *ᵥ ψ) m)) := by
      unfold evState
      rw [mulVec_mulVec, ← Matrix.mul_assoc, ← Matrix.mul_assoc, hH, ← mulVec_mulVec,
        ← mulVec_mulVec, ← mulVec_mulVec]
      change ∑ m, Vm i m * ((diagonal _ *ᵥ _) m) = _
      simp only [mulVec_diagonal]
    rw [e1, Finset.mul_sum]
    simp only [evState_apply]
    refine HasDerivAt.fun_sum fun m _ => ?_
    have e2 : HasDerivAt (fun s : ℝ => Complex.exp (-Complex.I * ((s * E m : ℝ) : ℂ)))
        (Complex.exp (-Complex.I * ((t * E m : ℝ) : ℂ)) * (-Complex.I * (E m : ℂ))) t := by
      have e3 : HasDerivAt (fun s : ℝ => -Complex.I * ((s * E m : ℝ) : ℂ)) (-Complex.I * (E m : ℂ)) t := by
        have := ((hasDerivAt_id t).mul_const (E m)).ofReal_comp.const_mul (-Complex.I)
        simpa using this
      exact e3.cexp
    have e4 := (e2.mul_const ((Vmᴴ *ᵥ ψ) m)).const_mul (Vm i m)
    refine e4.congr_deriv ?_
    ring

/-- C22: several initial states evolve independently; the array has one more axis. -/
theorem C22_many_states {K : ℕ} {init V : Mat} {Vm : Matrix ι (Fin M) ℂ} {Ψ : Matrix ι (Fin K) ℂ}
    (E : Fin M → ℝ) (times : List ℝ) (hd : 2 ≤ Fintype.card ι) (hK : 2 ≤ K) (ht : 2 ≤ times.length)
    (hV : V.Is Vm) (hi : init.Is Ψ) :
    ∃ a, quenchTimeEvolve init V (List.ofFn E) times = .ok a ∧
      a.shape = [Fintype.card ι, times.length, K] ∧
      ∀ (i : ι) (t : Fin times.length) (k : Fin K) (init₁ : Mat),
        init₁.Is (Matrix.of fun i (_ : Fin 1) => Ψ i k) →
        ∃ b, quenchTimeEvolve init₁ V (List.ofFn E) times = .ok b ∧
          a.data [Basis.num i, t, k] = b.data [Basis.num i, t] := by
  obtain ⟨full, hs, hf, hq⟩ := quench_full hV hi E times
  have c1 : Fintype.card ι ≠ 1 := by omega
  have c2 : times.length ≠ 1 := by omega
  have c3 : K ≠ 1 := by omega
  have : full.squeeze.shape = [Fintype.card ι, times.length, K] := by
    simp [ND.squeeze, hs, c1, c2, c3]
  rw [if_neg (by rw [this]; simp)] at hq
  refine ⟨_, hq, this, fun i t k init₁ h₁ => ?_⟩
  obtain ⟨b, hb, -, hb'⟩ := quench_one hd hV h₁ E times
  refine ⟨b, hb, ?_⟩
  rw [hb' i t]
  refine Eq.trans ?_ (hf i t k)
  simp [ND.squeeze, hs, unsqueeze, c1, c2, c3]

/-- C22: the norms of the evolved states are all that of the initial state. -/
theorem C22_norms {init V : Mat} {Vm : Matrix ι (Fin M) ℂ} {ψ : ι → ℂ} (E : Fin M → ℝ) (times : List ℝ)
    (hd : 2 ≤ Fintype.card ι) (hV : V.Is Vm) (h1 : Vmᴴ * Vm = 1) (h2 : Vm * Vmᴴ = 1)
    (hi : init.Is (Matrix.of fun i (_ : Fin 1) => ψ i)) :
    ∃ a, quenchTimeEvolve init V (List.ofFn E) times = .ok a ∧ a.shape = [Fintype.card ι, times.length] ∧
      getNorms init = [norm2 ψ] ∧
      getNorms ⟨Fintype.card ι, times.length, fun i t => a.data [i, t]⟩ = List.replicate times.length (norm2 ψ) := by
  obtain ⟨a, a1, a2, a3⟩ := quench_one hd hV hi E times
  refine ⟨a, a1, a2, ?_, ?_⟩
  · rw [C18_norms hi, List.ofFn_succ, List.ofFn_zero]
    rfl
  · have hs : (⟨Fintype.card ι, times.length, fun i t => a.data [i, t]⟩ : Mat).Is
        (Matrix.of fun i (t : Fin times.length) => evState Vm E times[t] ψ i) :=
      ⟨rfl, by simp, fun i t => a3 i t⟩
    rw [C18_norms hs, List.ofFn_eq_map, List.eq_replicate_iff]
    refine ⟨by simp, fun x hx => ?_⟩
    obtain ⟨t, -, rfl⟩ := List.mem_map.1 hx
    have key : ∀ φ : ι → ℂ, ((norm2 φ : ℝ) : ℂ) = star φ ⬝ᵥ φ := fun φ => by
      rw [← expect_one φ, expect, one_mulVec]
    have := evState_overlap h1 h2 E times[t] ψ ψ
    rw [← key, ← key] at this
    exact_mod_cast this

/-- C22 fails in dimension one: `np.squeeze` removes the axis of the basis states, so the array for
two or more times has one row per time instead of one column per time. -/
theorem C22_dimension_one_fails (init V : Mat) (z v : ℂ)
    (hV : V.Is (Matrix.of fun (_ _ : Fin 1) => v)) (hi : init.Is (Matrix.of fun (_ _ : Fin 1) => z))
    (E : Fin 1 → ℝ) (times : List ℝ) (ht : 2 ≤ times.length) :
    ∃ a, quenchTimeEvolve init V (List.ofFn E) times = .ok a ∧ a.shape = [times.length, 1] := by
  obtain ⟨full, hs, hf, hq⟩ := quench_full hV hi E times
  have c2 : times.length ≠ 1 := by omega
  have : full.squeeze.shape = [times.length] := by
    simp [ND.squeeze, hs, c2]
  rw [if_pos (by rw [this]; rfl)] at hq
  exact ⟨_, hq, by simp [ND.expand1, this]⟩

/-- Hypotheses of `C22_evolution_partial` are met by the Pauli matrix x and its eigenvectors. -/
example : ∃ (Vm H : Matrix (Fin 2) (Fin 2) ℂ) (E : Fin 2 → ℝ), Vmᴴ * Vm = 1 ∧ Vm * Vmᴴ = 1 ∧
    (H * Vm = Vm * diagonal fun m => ((E m : ℝ) : ℂ)) ∧ H 0 1 = 1 ∧ H 0 0 = 0 := by
  have h2 : ((Real.sqrt 2 : ℝ) : ℂ) * ((Real.sqrt 2 : ℝ) : ℂ) = 2 := by
    rw [← Complex.ofReal_mul, Real.mul_self_sqrt (by norm_num)]; simp
  have h0 : ((Real.sqrt 2 : ℝ) : ℂ) ≠ 0 := by
    intro h; rw [h] at h2; simp at h2
  refine ⟨!![1 / (Real.sqrt 2 : ℝ), 1 / (Real.sqrt 2 : ℝ); -1 / (Real.sqrt 2 : ℝ), 1 / (Real.sqrt 2 : ℝ)],
    !![0, 1; 1, 0], ![-1, 1], ?_, ?_, ?_, rfl, rfl⟩
  · ext i j
    fin_cases i <;> fin_cases j <;> simp [Matrix.mul_apply, Fin.sum_univ_two] <;> field_simp <;>
      simp [pow_two, h2] <;> norm_num
  · ext i j
    fin_cases i <;> fin_cases j <;> simp [Matrix.mul_apply, Fin.sum_univ_two] <;> field_simp <;>
      simp [pow_two, h2] <;> norm_num
  · ext i j
    fin_cases i <;> fin_cases j <;> simp [Matrix.mul_apply, Fin.sum_univ_two, neg_div]

end ED.Props
