import Verif.Props.Thermal

/-! # Properties C23, C24, C77, C78: response functions and conductivity -/

namespace ED.Props

open scoped BigOperators
open Matrix

variable {m : ℕ}

theorem shiftEnergies_is (E : Fin (m + 1) → ℝ) :
    shiftEnergies (List.ofFn E) = .ok (List.ofFn fun k => E k - E 0) := by
  have h : List.ofFn E = E 0 :: List.ofFn fun i => E (Fin.succ i) := List.ofFn_succ
  have h' : (List.ofFn fun k => E k - E 0) = (List.ofFn E).map (· - E 0) := by
    rw [List.map_ofFn]; rfl
  rw [h', h]
  rfl

theorem getD_ofFn {n : ℕ} (f : Fin n → ℝ) (i : Fin n) : (List.ofFn f).getD i 0 = f i := by
  simp

theorem lorentz_neg (w eta a : ℝ) : lorentz (-w) eta a = lorentz w eta a := by
  simp [lorentz]

theorem lorentz_amp (w eta a : ℝ) : lorentz w eta a = a * lorentz w eta 1 := by
  unfold lorentz; ring

/-- The entries of a returned array, as a matrix with rows and columns `0 … m`. -/
def ent (A : Mat) (i j : Fin (m + 1)) : ℂ := A.e i j

theorem resp_shape {A B : Mat} {X Y : Matrix (Fin (m + 1)) (Fin (m + 1)) ℂ} (hA : A.Is X) (hB : B.Is Y)
    (E : Fin (m + 1) → ℝ) : respShapes A B (List.ofFn fun k => E k - E 0).length := by
  have := hA.1; have := hA.2.1; have := hB.1; have := hB.2.1
  simp_all [respShapes]

theorem zsum_pos (E : Fin (m + 1) → ℝ) (b : ℝ) : 0 < ∑ k, Real.exp (-b * (E k - E 0)) :=
  Finset.sum_pos (fun _ _ => Real.exp_pos _) ⟨0, Finset.mem_univ _⟩

theorem retarded_zero {A B : Mat} {X Y : Matrix (Fin (m + 1)) (Fin (m + 1)) ℂ} (hA : A.Is X)
    (hB : B.Is Y) (E : Fin (m + 1) → ℝ) :
    responseRetarded A B (List.ofFn E) 0 "boson" = .ok fun w eta =>
      Real.pi * (∑ i, lorentz (w + -(E i - E 0)) eta ((X 0 i * Y i 0).re) +
        ∑ i, lorentz (w + (E i - E 0)) eta ((-1 * (X i 0 * Y 0 i)).re)) := by
  unfold responseRetarded
  rw [if_pos rfl, shiftEnergies_is]
  change (if ¬ respShapes A B _ then _ else _) = _
  rw [if_neg (not_not.2 (resp_shape hA hB E))]
  simp only [ne_eq, not_true_eq_false, if_false]
  change Except.ok _ = Except.ok _
  congr 1
  funext w eta
  simp only [div_one, List.length_ofFn, Finset.sum_range, getD_ofFn]
  congr 2
  · refine Finset.sum_congr rfl fun i _ => ?_
    have h1 : A.e 0 i = X 0 i := hA.2.2 0 i
    have h2 : B.e i 0 = Y i 0 := hB.2.2 i 0
    rw [h1, h2]
  · refine Finset.sum_congr rfl fun i _ => ?_
    have h1 : A.e i 0 = X i 0 := hA.2.2 i 0
    have h2 : B.e 0 i = Y 0 i := hB.2.2 0 i
    rw [h1, h2]
    norm_num

theorem retarded_pos {A B : Mat} {X Y : Matrix (Fin (m + 1)) (Fin (m + 1)) ℂ} (hA : A.Is X)
    (hB : B.Is Y) (E : Fin (m + 1) → ℝ) {T : ℝ} (hT : T ≠ 0) :
    responseRetarded A B (List.ofFn E) T "boson" = .ok fun w eta =>
      Real.pi / (∑ k, Real.exp (-(1 / T) * (E k - E 0))) * ∑ i, ∑ j,
        (1 + -1 * Real.exp (1 / T * (E i - E j))) *
          lorentz (w + (E i - E j)) eta
            ((X i j * Y j i).re * Real.exp (-(1 / T) * (E j - E 0))) := by
  unfold responseRetarded
  rw [if_pos rfl, shiftEnergies_is]
  change (if ¬ respShapes A B _ then _ else _) = _
  rw [if_neg (not_not.2 (resp_shape hA hB E)), if_pos hT]
  change Except.ok _ = Except.ok _
  congr 1
  funext w eta
  simp only [List.length_ofFn, Finset.sum_range, getD_ofFn, List.map_ofFn, sum_ofFn']
  congr 1
  refine Finset.sum_congr rfl fun i _ => Finset.sum_congr rfl fun j _ => ?_
  have h1 : A.e i j = X i j := hA.2.2 i j
  have h2 : B.e j i = Y j i := hB.2.2 j i
  rw [h1, h2, Complex.re_mul_ofReal, sub_sub_sub_cancel_right]

/-! ## C23 -/

theorem herm_norm {X : Matrix (Fin (m + 1)) (Fin (m + 1)) ℂ} (hX : X.IsHermitian)
    (i j : Fin (m + 1)) : ‖X i j‖ = ‖X j i‖ := by
  rw [← hX.apply j i, norm_star]

theorem herm_mul {X : Matrix (Fin (m + 1)) (Fin (m + 1)) ℂ} (hX : X.IsHermitian) (i j : Fin (m + 1)) :
    X i j * X j i = ((‖X i j‖ ^ 2 : ℝ) : ℂ) := by
  rw [← hX.apply j i, ← starRingEnd_apply, Complex.mul_conj']
  push_cast; rfl

/-- C23 (what holds): at zero temperature the imaginary part of the bosonic retarded response of an
operator to itself is odd in frequency (for every operator, Hermitian or not). The full claim, for every temperature, fails: see
`C23_finite_temperature_violated`. -/
theorem C23_odd_partial {A : Mat} {X : Matrix (Fin (m + 1)) (Fin (m + 1)) ℂ} (hA : A.Is X)
    (E : Fin (m + 1) → ℝ) :
    ∃ f, responseRetarded A A (List.ofFn E) 0 "boson" = .ok f ∧ ∀ w eta, f (-w) eta = -f w eta := by
  refine ⟨_, retarded_zero hA hA E, fun w eta => ?_⟩
  rw [← mul_neg, neg_add, add_comm]
  congr 2
  · rw [← Finset.sum_neg_distrib]
    refine Finset.sum_congr rfl fun i _ => ?_
    rw [mul_comm (X i 0), lorentz_amp _ _ (-1 * _ : ℂ).re, lorentz_amp _ _ (_ * _ : ℂ).re,
      ← lorentz_neg (w + -(E i - E 0)), neg_add, neg_neg, neg_one_mul, Complex.neg_re]
    ring
  · rw [← Finset.sum_neg_distrib]
    refine Finset.sum_congr rfl fun i _ => ?_
    rw [mul_comm (X i 0), lorentz_amp _ _ (-1 * _ : ℂ).re, lorentz_amp _ _ (_ * _ : ℂ).re,
      ← lorentz_neg (w + (E i - E 0)), neg_add, neg_one_mul, Complex.neg_re]
    ring

/-- C23 fails at every positive temperature: for two levels with any gap and the operator that
flips between them, the returned function is negative at zero frequency, so it is not odd (the
Boltzmann factor and the exponential `1 - exp(β(E_n - E_m))` carry opposite signs). -/
theorem C23_finite_temperature_violated (A : Mat) (hA : A.Is !![(0 : ℂ), 1; 1, 0]) (gap T eta : ℝ)
    (hg : 0 < gap) (hT : 0 < T) (he : 0 < eta) :
    ∃ f, responseRetarded A A (List.ofFn ![0, gap]) T "boson" = .ok f ∧ f 0 eta < 0 ∧
      ¬ ∀ w, f (-w) eta = -f w eta := by
  obtain ⟨X, hX⟩ : ∃ X : Matrix (Fin 2) (Fin 2) ℂ, X = !![(0 : ℂ), 1; 1, 0] := ⟨_, rfl⟩
  have h00 : X 0 0 = 0 := by rw [hX]; rfl
  have h01 : X 0 1 = 1 := by rw [hX]; rfl
  have h10 : X 1 0 = 1 := by rw [hX]; rfl
  have h11 : X 1 1 = 0 := by rw [hX]; rfl
  rw [← hX] at hA
  have h := retarded_pos (m := 1) hA hA ![0, gap] hT.ne'
  generalize hf : (fun w eta => _ : ℝ → ℝ → ℝ) = f at h
  refine ⟨f, h, ?_⟩
  have key : f 0 eta < 0 := by
    rw [← hf]
    refine mul_neg_of_pos_of_neg (div_pos Real.pi_pos (zsum_pos (m := 1) _ _)) ?_
    have hb : 0 < 1 / T * gap := by positivity
    have hl : 0 < lorentz gap eta 1 := by
      unfold lorentz
      have := Real.pi_pos
      positivity
    simp only [Nat.reduceAdd, Fin.sum_univ_two, lorentz_amp _ _ ((_ : ℝ) * _), h00, h01, h10, h11]
    simp only [Matrix.cons_val_zero, Matrix.cons_val_one, Matrix.cons_val_fin_one, sub_self, zero_sub, sub_zero, zero_add, mul_zero, mul_one,
      Complex.zero_re, Complex.one_re, zero_mul, add_zero, lorentz_neg, Real.exp_zero, mul_neg,
      neg_mul, one_mul, neg_zero]
    have hx := Real.add_one_lt_exp hb.ne'
    have hexp : Real.exp (-(1 / T * gap)) = (Real.exp (1 / T * gap))⁻¹ := Real.exp_neg _
    rw [hexp]
    set x := Real.exp (1 / T * gap)
    have hx1 : 1 < x := by linarith
    have hx0 : x⁻¹ < 1 := inv_lt_one_of_one_lt₀ hx1
    have hxp : 0 < x⁻¹ := inv_pos.2 (by linarith)
    have : (1 + -x⁻¹) * (x⁻¹) < x - 1 := by
      have hxx : x⁻¹ * x = 1 := inv_mul_cancel₀ (by linarith)
      nlinarith
    nlinarith
  refine ⟨key, fun hodd => ?_⟩
  have := hodd 0
  rw [neg_zero] at this
  linarith

/-- Hypotheses of `C23_finite_temperature_violated`. -/
example : (Mat.lit2 0 1 1 0).Is !![(0 : ℂ), 1; 1, 0] :=
  ⟨rfl, rfl, fun i j => by fin_cases i <;> fin_cases j <;> rfl⟩

/-! ## C77: the time-ordered response -/

/-- The Lorentzian with a complex amplitude, as in `get_response_fn_time_ordered`. -/
noncomputable def lorC (x eta : ℝ) : ℂ := (eta / Real.pi) / ((eta ^ 2 + x ^ 2 : ℝ) : ℂ)

theorem lorC_neg (x eta : ℝ) : lorC (-x) eta = lorC x eta := by simp [lorC]

theorem timeOrdered_pos {A B : Mat} {X Y : Matrix (Fin (m + 1)) (Fin (m + 1)) ℂ} (hA : A.Is X)
    (hB : B.Is Y) (E : Fin (m + 1) → ℝ) {T : ℝ} (hT : T ≠ 0) :
    responseTimeOrdered A B (List.ofFn E) T = .ok fun w eta =>
      ((Real.pi / (∑ k, Real.exp (-(1 / T) * (E k - E 0))) : ℝ) : ℂ) * ((∑ i, ∑ j,
        (X i j * Y j i * (Real.exp (-(1 / T) * (E j - E 0)) : ℝ)) * lorC (E i - E j - w) eta) -
        ∑ i, ∑ j,
        (X j i * Y i j * (Real.exp (-(1 / T) * (E j - E 0)) : ℝ)) * lorC (E i - E j + w) eta) := by
  unfold responseTimeOrdered
  rw [shiftEnergies_is]
  change (if ¬ respShapes A B _ then _ else _) = _
  rw [if_neg (not_not.2 (resp_shape hA hB E)), if_pos hT]
  change Except.ok _ = Except.ok _
  congr 1
  funext w eta
  simp only [List.length_ofFn, Finset.sum_range, getD_ofFn, List.map_ofFn, sum_ofFn']
  congr 2
  · refine Finset.sum_congr rfl fun i _ => Finset.sum_congr rfl fun j _ => ?_
    have h1 : A.e i j = X i j := hA.2.2 i j
    have h2 : B.e j i = Y j i := hB.2.2 j i
    rw [h1, h2, sub_sub_sub_cancel_right, lorC]
    ring
  · refine Finset.sum_congr rfl fun i _ => Finset.sum_congr rfl fun j _ => ?_
    have h1 : A.e j i = X j i := hA.2.2 j i
    have h2 : B.e i j = Y i j := hB.2.2 i j
    rw [h1, h2, sub_sub_sub_cancel_right, ← lorC_neg, lorC, neg_add']
    ring

theorem timeOrdered_zero {A B : Mat} {X Y : Matrix (Fin (m + 1)) (Fin (m + 1)) ℂ} (hA : A.Is X)
    (hB : B.Is Y) (E : Fin (m + 1) → ℝ) :
    responseTimeOrdered A B (List.ofFn E) 0 = .ok fun w eta =>
      (Real.pi : ℂ) * ((∑ i, (X i 0 * Y 0 i) * lorC (E i - E 0 - |w|) eta) -
        ∑ i, (X 0 i * Y i 0) * lorC (E i - E 0 + |w|) eta) := by
  unfold responseTimeOrdered
  rw [shiftEnergies_is]
  change (if ¬ respShapes A B _ then _ else _) = _
  rw [if_neg (not_not.2 (resp_shape hA hB E))]
  simp only [ne_eq, not_true_eq_false, if_false]
  change Except.ok _ = Except.ok _
  congr 1
  funext w eta
  simp only [List.length_ofFn, Finset.sum_range, getD_ofFn, div_one]
  congr 2
  · refine Finset.sum_congr rfl fun i _ => ?_
    have h1 : A.e i 0 = X i 0 := hA.2.2 i 0
    have h2 : B.e 0 i = Y 0 i := hB.2.2 0 i
    rw [h1, h2, lorC]
    ring
  · refine Finset.sum_congr rfl fun i _ => ?_
    have h1 : A.e 0 i = X 0 i := hA.2.2 0 i
    have h2 : B.e i 0 = Y i 0 := hB.2.2 i 0
    rw [h1, h2, ← lorC_neg, lorC, neg_add']
    ring

/-- C77 (what holds): the time-ordered response is even in frequency at zero temperature. The full
claim, for every temperature, fails: see `C77_finite_temperature_violated`. -/
theorem C77_even_partial {A B : Mat} {X Y : Matrix (Fin (m + 1)) (Fin (m + 1)) ℂ} (hA : A.Is X)
    (hB : B.Is Y) (E : Fin (m + 1) → ℝ) :
    ∃ f, responseTimeOrdered A B (List.ofFn E) 0 = .ok f ∧ ∀ w eta, f (-w) eta = f w eta :=
  ⟨_, timeOrdered_zero hA hB E, fun w eta => by simp only [abs_neg]⟩

/-- C77 fails at every non-zero temperature: for a response of an operator to itself the returned
function is odd in frequency. -/
theorem C77_finite_temperature_odd {A : Mat} {X : Matrix (Fin (m + 1)) (Fin (m + 1)) ℂ} (hA : A.Is X)
    (E : Fin (m + 1) → ℝ) {T : ℝ} (hT : T ≠ 0) :
    ∃ f, responseTimeOrdered A A (List.ofFn E) T = .ok f ∧ ∀ w eta, f (-w) eta = -f w eta := by
  refine ⟨_, timeOrdered_pos hA hA E hT, fun w eta => ?_⟩
  rw [← mul_neg, neg_sub]
  congr 2
  · refine Finset.sum_congr rfl fun i _ => Finset.sum_congr rfl fun j _ => ?_
    rw [sub_neg_eq_add, mul_comm (X i j)]
  · refine Finset.sum_congr rfl fun i _ => Finset.sum_congr rfl fun j _ => ?_
    rw [← sub_eq_add_neg, mul_comm (X i j)]

/-- C77 fails: the two-level system with the flip operator has, at every positive temperature, an odd
response that is not zero, hence not even. -/
theorem C77_finite_temperature_violated (A : Mat) (hA : A.Is !![(0 : ℂ), 1; 1, 0]) (gap T eta : ℝ)
    (hg : 0 < gap) (hT : 0 < T) (he : 0 < eta) :
    ∃ f, responseTimeOrdered A A (List.ofFn ![0, gap]) T = .ok f ∧
      ¬ ∀ w, f (-w) eta = f w eta := by
  obtain ⟨X, hX⟩ : ∃ X : Matrix (Fin 2) (Fin 2) ℂ, X = !![(0 : ℂ), 1; 1, 0] := ⟨_, rfl⟩
  have h00 : X 0 0 = 0 := by rw [hX]; rfl
  have h01 : X 0 1 = 1 := by rw [hX]; rfl
  have h10 : X 1 0 = 1 := by rw [hX]; rfl
  have h11 : X 1 1 = 0 := by rw [hX]; rfl
  rw [← hX] at hA
  obtain ⟨f, hf, hodd⟩ := C77_finite_temperature_odd (m := 1) hA ![0, gap] hT.ne'
  refine ⟨f, hf, fun heven => ?_⟩
  have hz : f gap eta = 0 := by
    have h1 := hodd gap eta
    rw [heven gap] at h1
    exact self_eq_neg.1 h1
  have h := timeOrdered_pos (m := 1) hA hA ![0, gap] hT.ne'
  rw [hf] at h
  injection h with h
  rw [h] at hz
  have hzp := zsum_pos (m := 1) ![0, gap] (1 / T)
  rcases mul_eq_zero.1 hz with hz | hz
  · rw [Complex.ofReal_eq_zero] at hz
    exact (div_pos Real.pi_pos hzp).ne' hz
  · simp only [Nat.reduceAdd, Fin.sum_univ_two, h00, h01, h10, h11] at hz
    simp only [Matrix.cons_val_zero, Matrix.cons_val_one, Matrix.cons_val_fin_one, sub_self,
      zero_sub, sub_zero, mul_zero, zero_mul, zero_add, mul_one, one_mul, add_zero, Real.exp_zero,
      Complex.ofReal_one, neg_add_cancel] at hz
    have e1 : lorC (-gap - gap) eta = lorC (gap + gap) eta := by
      rw [← lorC_neg, neg_sub, sub_neg_eq_add]
    rw [e1] at hz
    have e2 : (Real.exp (-(1 / T) * gap) : ℂ) * lorC (gap + gap) eta + lorC 0 eta -
        ((Real.exp (-(1 / T) * gap) : ℂ) * lorC 0 eta + lorC (gap + gap) eta) =
        (1 - (Real.exp (-(1 / T) * gap) : ℂ)) * (lorC 0 eta - lorC (gap + gap) eta) := by ring
    rw [e2] at hz
    have hexp : Real.exp (-(1 / T) * gap) < 1 := by
      rw [Real.exp_lt_one_iff]
      have : 0 < 1 / T * gap := by positivity
      linarith
    rcases mul_eq_zero.1 hz with hz | hz
    · have : (1 : ℂ) = (Real.exp (-(1 / T) * gap) : ℝ) := sub_eq_zero.1 hz
      rw [← Complex.ofReal_one] at this
      have := Complex.ofReal_injective this
      linarith
    · have hr : ∀ x, lorC x eta = ((eta / Real.pi / (eta ^ 2 + x ^ 2) : ℝ) : ℂ) := by
        intro x; unfold lorC; push_cast; rfl
      rw [hr, hr, sub_eq_zero] at hz
      have hz := Complex.ofReal_injective hz
      have hep : 0 < eta / Real.pi := div_pos he Real.pi_pos
      rw [div_eq_div_iff (by positivity) (by positivity)] at hz
      have := mul_left_cancel₀ hep.ne' hz
      nlinarith

/-! ## C24: conductivity -/

theorem cond_shape {J : Mat} {X : Matrix (Fin (m + 1)) (Fin (m + 1)) ℂ} (hJ : J.Is X)
    (E : Fin (m + 1) → ℝ) : J.rows = (List.ofFn fun k => E k - E 0).length ∧
      J.cols = (List.ofFn fun k => E k - E 0).length := by
  have := hJ.1; have := hJ.2.1
  simp_all

theorem optical_pos {J : Mat} {X : Matrix (Fin (m + 1)) (Fin (m + 1)) ℂ} (hJ : J.Is X) (nsites : ℕ)
    (E : Fin (m + 1) → ℝ) {T : ℝ} (hT : T ≠ 0) :
    opticalCond nsites J (List.ofFn E) T = .ok fun wo eta =>
      Real.pi / (∑ k, Real.exp (-(1 / T) * (E k - E 0))) / nsites * ∑ i, ∑ j,
        if (10 : ℝ) ^ (-16 : ℤ) < ‖X i j‖ then
          (1 - Real.exp (-(1 / T) * (E i - E j))) *
            lorentz (E i - E j - wo) eta (‖X i j‖ ^ 2 * Real.exp (-(1 / T) * (E j - E 0))) / wo
        else 0 := by
  unfold opticalCond
  rw [shiftEnergies_is]
  change (if ¬ (_ ∧ _) then _ else _) = _
  rw [if_neg (not_not.2 (cond_shape hJ E)), if_pos hT]
  change Except.ok _ = Except.ok _
  congr 1
  funext w eta
  simp only [List.length_ofFn, Finset.sum_range, getD_ofFn, List.map_ofFn, sum_ofFn']
  congr 1
  refine Finset.sum_congr rfl fun i _ => Finset.sum_congr rfl fun j _ => ?_
  have h1 : J.e i j = X i j := hJ.2.2 i j
  rw [h1, sub_sub_sub_cancel_right]

theorem optical_zero {J : Mat} {X : Matrix (Fin (m + 1)) (Fin (m + 1)) ℂ} (hJ : J.Is X) (nsites : ℕ)
    (E : Fin (m + 1) → ℝ) :
    opticalCond nsites J (List.ofFn E) 0 = .ok fun wo eta =>
      Real.pi / 1 / nsites * ∑ i, if (10 : ℝ) ^ (-16 : ℤ) < ‖X i 0‖ then
          (if E i - E 0 = 0 then 0
            else lorentz (E i - E 0 - |wo|) eta (‖X i 0‖ ^ 2) / (E i - E 0))
        else 0 := by
  unfold opticalCond
  rw [shiftEnergies_is]
  change (if ¬ (_ ∧ _) then _ else _) = _
  rw [if_neg (not_not.2 (cond_shape hJ E))]
  simp only [ne_eq, not_true_eq_false, if_false]
  change Except.ok _ = Except.ok _
  congr 1
  funext w eta
  simp only [List.length_ofFn, Finset.sum_range, getD_ofFn]
  congr 1
  refine Finset.sum_congr rfl fun i _ => ?_
  have h1 : J.e i 0 = X i 0 := hJ.2.2 i 0
  rw [h1]

/-- C24: for a Hermitian current operator the optical conductivity is even in frequency, at every
temperature (the finite-temperature function is not defined at zero frequency). -/
theorem C24_even {J : Mat} {X : Matrix (Fin (m + 1)) (Fin (m + 1)) ℂ} (hJ : J.Is X)
    (hX : X.IsHermitian) (nsites : ℕ) (E : Fin (m + 1) → ℝ) (T : ℝ) :
    ∃ f, opticalCond nsites J (List.ofFn E) T = .ok f ∧
      ∀ w eta, w ≠ 0 → f (-w) eta = f w eta := by
  by_cases hT : T = 0
  · subst hT
    exact ⟨_, optical_zero hJ nsites E, fun w eta _ => by simp only [abs_neg]⟩
  · refine ⟨_, optical_pos hJ nsites E hT, fun w eta _ => ?_⟩
    congr 1
    rw [Finset.sum_comm]
    refine Finset.sum_congr rfl fun i _ => Finset.sum_congr rfl fun j _ => ?_
    rw [herm_norm hX j i]
    split_ifs
    · have e1 : (1 - Real.exp (-(1 / T) * (E j - E i))) * Real.exp (-(1 / T) * (E i - E 0)) =
          -((1 - Real.exp (-(1 / T) * (E i - E j))) * Real.exp (-(1 / T) * (E j - E 0))) := by
        rw [sub_mul, sub_mul, ← Real.exp_add, ← Real.exp_add, one_mul, one_mul, neg_sub]
        congr 2 <;> ring
      rw [lorentz_amp _ _ (_ * _), lorentz_amp _ _ (‖X i j‖ ^ 2 * _),
        ← lorentz_neg (E j - E i - -w), show -(E j - E i - -w) = E i - E j - w by ring]
      calc _ = ((1 - Real.exp (-(1 / T) * (E j - E i))) * Real.exp (-(1 / T) * (E i - E 0))) *
            (‖X i j‖ ^ 2 * lorentz (E i - E j - w) eta 1) / -w := by ring
        _ = _ := by rw [e1, div_neg]; ring
    · rfl

theorem integral_pos {J : Mat} {X : Matrix (Fin (m + 1)) (Fin (m + 1)) ℂ} (hJ : J.Is X) (nsites : ℕ)
    (E : Fin (m + 1) → ℝ) {T : ℝ} (hT : T ≠ 0) :
    integrateConductivity nsites J (List.ofFn E) T = .ok
      (Real.pi / (∑ k, Real.exp (-(1 / T) * (E k - E 0))) / nsites * ∑ i, ∑ j,
        ‖X i j‖ ^ 2 * Real.exp (-(1 / T) * (E j - E 0)) *
          (if E i - E j = 0 then 0 else (1 - Real.exp (-(1 / T) * (E i - E j))) / (E i - E j))) := by
  unfold integrateConductivity
  rw [shiftEnergies_is]
  change (if ¬ (_ ∧ _) then _ else _) = _
  rw [if_neg (not_not.2 (cond_shape hJ E)), if_pos hT]
  change Except.ok _ = Except.ok _
  simp only [List.length_ofFn, Finset.sum_range, getD_ofFn, List.map_ofFn, sum_ofFn',
    sub_sub_sub_cancel_right]
  congr 2
  refine Finset.sum_congr rfl fun i _ => Finset.sum_congr rfl fun j _ => ?_
  have h1 : J.e i j = X i j := hJ.2.2 i j
  rw [h1]

theorem integral_zero {J : Mat} {X : Matrix (Fin (m + 1)) (Fin (m + 1)) ℂ} (hJ : J.Is X) (nsites : ℕ)
    (E : Fin (m + 1) → ℝ) :
    integrateConductivity nsites J (List.ofFn E) 0 = .ok
      (2 * (Real.pi / nsites * ∑ i, ‖X i 0‖ ^ 2 *
        (if E i - E 0 = 0 then 0 else 1 / (E i - E 0)))) := by
  unfold integrateConductivity
  rw [shiftEnergies_is]
  change (if ¬ (_ ∧ _) then _ else _) = _
  rw [if_neg (not_not.2 (cond_shape hJ E))]
  simp only [ne_eq, not_true_eq_false, if_false]
  change Except.ok _ = Except.ok _
  simp only [List.length_ofFn, Finset.sum_range, getD_ofFn]
  congr 3
  refine Finset.sum_congr rfl fun i _ => ?_
  have h1 : J.e i 0 = X i 0 := hJ.2.2 i 0
  rw [h1]

/-- C24: the integrated conductivity is non-negative at every temperature `T ≥ 0`, for sorted
energies (at `T > 0` they need not be sorted). -/
theorem C24_integral_nonneg {J : Mat} {X : Matrix (Fin (m + 1)) (Fin (m + 1)) ℂ} (hJ : J.Is X)
    (nsites : ℕ) (E : Fin (m + 1) → ℝ) (T : ℝ) (hT : 0 < T ∨ (T = 0 ∧ Monotone E)) :
    ∃ x, integrateConductivity nsites J (List.ofFn E) T = .ok x ∧ 0 ≤ x := by
  rcases hT with hT | ⟨rfl, hm⟩
  · refine ⟨_, integral_pos hJ nsites E hT.ne', ?_⟩
    have := (zsum_pos E (1 / T)).le
    have := Real.pi_pos
    refine mul_nonneg (by positivity) (Finset.sum_nonneg fun i _ => Finset.sum_nonneg fun j _ => ?_)
    refine mul_nonneg (by positivity) ?_
    split_ifs with h
    · exact le_rfl
    · have hb : 0 < 1 / T := by positivity
      rcases lt_or_gt_of_ne h with h | h
      · refine div_nonneg_of_nonpos ?_ h.le
        have : 1 ≤ Real.exp (-(1 / T) * (E i - E j)) := Real.one_le_exp (by nlinarith)
        linarith
      · refine div_nonneg ?_ h.le
        have : Real.exp (-(1 / T) * (E i - E j)) ≤ 1 := Real.exp_le_one_iff.2 (by nlinarith)
        linarith
  · refine ⟨_, integral_zero hJ nsites E, ?_⟩
    have := Real.pi_pos
    refine mul_nonneg (by norm_num) (mul_nonneg (by positivity) (Finset.sum_nonneg fun i _ => ?_))
    refine mul_nonneg (by positivity) ?_
    split_ifs with h
    · exact le_rfl
    · exact div_nonneg (by norm_num) (sub_nonneg.2 (hm (Fin.zero_le i)))

/-! ## C78: the integrated conductivity at zero temperature is the limit -/

/-- C78 (what holds): if the ground state is not degenerate, the zero-temperature value is the limit
of the values for `T → 0` from above. The full claim (also for degenerate ground states) fails: see
`C78_degenerate_violated`. -/
theorem C78_limit_partial {J : Mat} {X : Matrix (Fin (m + 1)) (Fin (m + 1)) ℂ} (hJ : J.Is X)
    (hX : X.IsHermitian) (nsites : ℕ) (E : Fin (m + 1) → ℝ) (hE : ∀ k, k ≠ 0 → E 0 < E k) :
    ∃ f : ℝ → ℝ, (∀ T, integrateConductivity nsites J (List.ofFn E) T = .ok (f T)) ∧
      Filter.Tendsto f (nhdsWithin 0 (Set.Ioi 0)) (nhds (f 0)) := by
  classical
  set f₁ : ℝ → ℝ := fun T => Real.pi / (∑ k, Real.exp (-(1 / T) * (E k - E 0))) / nsites * ∑ i, ∑ j,
        ‖X i j‖ ^ 2 * Real.exp (-(1 / T) * (E j - E 0)) *
          (if E i - E j = 0 then 0 else (1 - Real.exp (-(1 / T) * (E i - E j))) / (E i - E j)) with hf₁
  set x₀ : ℝ := 2 * (Real.pi / nsites * ∑ i, ‖X i 0‖ ^ 2 *
        (if E i - E 0 = 0 then 0 else 1 / (E i - E 0))) with hx₀
  refine ⟨fun T => if T = 0 then x₀ else f₁ T, fun T => ?_, ?_⟩
  · by_cases hT : T = 0
    · subst hT; rw [integral_zero hJ]; simp [hx₀]
    · rw [integral_pos hJ _ _ hT]; simp [hT, hf₁]
  · change Filter.Tendsto _ _ (nhds (if (0 : ℝ) = 0 then x₀ else f₁ 0))
    rw [if_pos rfl]
    have hev : ∀ᶠ T in nhdsWithin (0 : ℝ) (Set.Ioi 0), (if T = 0 then x₀ else f₁ T) = f₁ T := by
      filter_upwards [self_mem_nhdsWithin] with T hT
      rw [if_neg (Set.mem_Ioi.1 hT).ne']
    rw [Filter.tendsto_congr' hev]
    have hw : ∀ k, Filter.Tendsto (fun T => Real.exp (-(1 / T) * (E k - E 0)))
        (nhdsWithin 0 (Set.Ioi 0)) (nhds (if k = 0 then 1 else 0)) := by
      intro k
      by_cases hk : k = 0
      · subst hk; simp
      · rw [if_neg hk]
        refine Real.tendsto_exp_atBot.comp ?_
        have h3 : Filter.Tendsto (fun T : ℝ => T⁻¹ * (E k - E 0)) (nhdsWithin 0 (Set.Ioi 0))
            Filter.atTop := tendsto_inv_nhdsGT_zero.atTop_mul_const (sub_pos.2 (hE k hk))
        refine (Filter.tendsto_neg_atTop_atBot.comp h3).congr fun T => ?_
        simp
    have hz : Filter.Tendsto (fun T => ∑ k, Real.exp (-(1 / T) * (E k - E 0)))
        (nhdsWithin 0 (Set.Ioi 0)) (nhds 1) := by
      have := tendsto_finsetSum Finset.univ fun k _ => hw k
      simpa using this
    have hterm : ∀ i j T, ‖X i j‖ ^ 2 * Real.exp (-(1 / T) * (E j - E 0)) *
          (if E i - E j = 0 then 0 else (1 - Real.exp (-(1 / T) * (E i - E j))) / (E i - E j)) =
        ‖X i j‖ ^ 2 * (if E i - E j = 0 then 0 else (Real.exp (-(1 / T) * (E j - E 0)) -
          Real.exp (-(1 / T) * (E i - E 0))) / (E i - E j)) := by
      intro i j T
      split_ifs with h
      · ring
      · have : Real.exp (-(1 / T) * (E i - E 0)) =
            Real.exp (-(1 / T) * (E j - E 0)) * Real.exp (-(1 / T) * (E i - E j)) := by
          rw [← Real.exp_add]; congr 1; ring
        rw [this]; ring
    have hsum : Filter.Tendsto (fun T => ∑ i, ∑ j, ‖X i j‖ ^ 2 * Real.exp (-(1 / T) * (E j - E 0)) *
          (if E i - E j = 0 then 0 else (1 - Real.exp (-(1 / T) * (E i - E j))) / (E i - E j)))
        (nhdsWithin 0 (Set.Ioi 0)) (nhds (∑ i, ∑ j, ‖X i j‖ ^ 2 * (if E i - E j = 0 then 0 else
          ((if j = 0 then 1 else 0) - (if i = 0 then 1 else 0)) / (E i - E j)))) := by
      simp only [hterm]
      refine tendsto_finsetSum _ fun i _ => tendsto_finsetSum _ fun j _ => ?_
      refine Filter.Tendsto.const_mul _ ?_
      by_cases h : E i - E j = 0
      · simp only [h, if_true]; exact tendsto_const_nhds
      · simp only [h, if_false]
        exact ((hw j).sub (hw i)).div_const (E i - E j)
    have hlim := ((tendsto_const_nhds (x := Real.pi)).div hz one_ne_zero).div_const (nsites : ℝ) |>.mul hsum
    have hval : Real.pi / 1 / nsites * ∑ i, ∑ j, ‖X i j‖ ^ 2 * (if E i - E j = 0 then 0 else
          ((if j = 0 then 1 else 0) - (if i = 0 then 1 else 0)) / (E i - E j)) = x₀ := by
      have h1 : ∀ i j, ‖X i j‖ ^ 2 * (if E i - E j = 0 then 0 else
          ((if j = 0 then 1 else 0) - (if i = 0 then (1 : ℝ) else 0)) / (E i - E j)) =
          (if j = 0 then ‖X i j‖ ^ 2 * (if E i - E j = 0 then 0 else 1 / (E i - E j)) else 0) +
          (if i = 0 then ‖X j i‖ ^ 2 * (if E j - E i = 0 then 0 else 1 / (E j - E i)) else 0) := by
        intro i j
        have e1 : E j - E i = -(E i - E j) := by ring
        rw [herm_norm hX j i, e1]
        simp only [neg_eq_zero, div_neg]
        by_cases h : E i - E j = 0
        · simp [h]
        · simp only [h, if_false]
          split_ifs <;> ring
      simp only [h1, Finset.sum_add_distrib]
      have h2 : ∑ i : Fin (m + 1), ∑ j : Fin (m + 1), (if i = 0 then
          ‖X j i‖ ^ 2 * (if E j - E i = 0 then 0 else 1 / (E j - E i)) else 0) =
          ∑ i : Fin (m + 1), ∑ j : Fin (m + 1), (if j = 0 then
          ‖X i j‖ ^ 2 * (if E i - E j = 0 then 0 else 1 / (E i - E j)) else 0) := Finset.sum_comm
      rw [h2]
      simp only [Finset.sum_ite_eq', Finset.mem_univ, if_true, hx₀]
      ring
    rw [← hval]
    exact hlim

/-- The flip operator between the second and third of three levels. -/
def flip12 : Mat := ⟨3, 3, fun i j => if (i = 1 ∧ j = 2) ∨ (i = 2 ∧ j = 1) then 1 else 0⟩

/-- C78 fails: with two degenerate ground states, the current connecting only the second of them to
an excited state, the zero-temperature value is `0` although the value at every positive temperature is bounded
below by a positive constant for small temperatures: the limit is `π / nsites`. -/
theorem C78_degenerate_violated (nsites : ℕ) (hn : 0 < nsites) :
    ∃ f : ℝ → ℝ, (∀ T, integrateConductivity nsites flip12 (List.ofFn ![0, 0, 1]) T = .ok (f T)) ∧
      f 0 = 0 ∧ Filter.Tendsto f (nhdsWithin 0 (Set.Ioi 0)) (nhds (Real.pi / nsites)) ∧
      Real.pi / nsites ≠ 0 := by
  obtain ⟨X, hX⟩ : ∃ X : Matrix (Fin 3) (Fin 3) ℂ, X = Matrix.of fun i j : Fin 3 => flip12.e i j := ⟨_, rfl⟩
  have hJ : flip12.Is X := ⟨rfl, rfl, fun i j => by rw [hX]; rfl⟩
  have hn' : (nsites : ℝ) ≠ 0 := by positivity
  have e00 : ‖X 0 0‖ = 0 := by rw [hX]; simp [flip12]
  have e01 : ‖X 0 1‖ = 0 := by rw [hX]; simp [flip12]
  have e02 : ‖X 0 2‖ = 0 := by rw [hX]; simp [flip12]
  have e10 : ‖X 1 0‖ = 0 := by rw [hX]; simp [flip12]
  have e20 : ‖X 2 0‖ = 0 := by rw [hX]; simp [flip12]
  have e11 : ‖X 1 1‖ = 0 := by rw [hX]; simp [flip12]
  have e22 : ‖X 2 2‖ = 0 := by rw [hX]; simp [flip12]
  have e12 : ‖X 1 2‖ = 1 := by rw [hX]; simp [flip12]
  have e21 : ‖X 2 1‖ = 1 := by rw [hX]; simp [flip12]
  refine ⟨fun T => if T = 0 then 0 else Real.pi / (2 + Real.exp (-(1 / T))) / nsites *
    (2 * (1 - Real.exp (-(1 / T)))), fun T => ?_, by simp, ?_, ?_⟩
  · by_cases hT : T = 0
    · subst hT
      rw [integral_zero (m := 2) hJ]
      simp only [Nat.reduceAdd, Fin.sum_univ_three, e00, e10, e20]
      simp
    · rw [integral_pos (m := 2) hJ _ _ hT]
      simp only [Nat.reduceAdd, Fin.sum_univ_three, e00, e01, e02, e10, e20, e11, e22, e12, e21]
      simp only [Matrix.cons_val_zero, Matrix.cons_val_one, Matrix.cons_val, sub_self, sub_zero,
        zero_sub, mul_zero, Real.exp_zero, hT, if_false]
      congr 1
      have h1 : Real.exp (-(1 / T) * 1) * Real.exp (-(1 / T) * -1) = 1 := by
        rw [← Real.exp_add]; simp
      norm_num
      have h2 : Real.exp (-T⁻¹) * Real.exp T⁻¹ = 1 := by rw [← Real.exp_add]; simp
      have h3 : Real.exp (-T⁻¹) * -(1 - Real.exp T⁻¹) = 1 - Real.exp (-T⁻¹) := by
        linear_combination h2
      left
      linear_combination h3
  · have hev : ∀ᶠ T in nhdsWithin (0 : ℝ) (Set.Ioi 0), (if T = 0 then 0 else
        Real.pi / (2 + Real.exp (-(1 / T))) / nsites * (2 * (1 - Real.exp (-(1 / T))))) =
        Real.pi / (2 + Real.exp (-(1 / T))) / nsites * (2 * (1 - Real.exp (-(1 / T)))) := by
      filter_upwards [self_mem_nhdsWithin] with T hT
      rw [if_neg (Set.mem_Ioi.1 hT).ne']
    rw [Filter.tendsto_congr' hev]
    have he : Filter.Tendsto (fun T : ℝ => Real.exp (-(1 / T))) (nhdsWithin 0 (Set.Ioi 0)) (nhds 0) := by
      refine Real.tendsto_exp_atBot.comp ?_
      refine (Filter.tendsto_neg_atTop_atBot.comp tendsto_inv_nhdsGT_zero).congr fun T => ?_
      simp
    have h1 := ((tendsto_const_nhds (x := Real.pi)).div (he.const_add 2) (by norm_num)).div_const
      (nsites : ℝ) |>.mul ((he.const_sub 1).const_mul 2)
    have h2 : Real.pi / (2 + 0) / nsites * (2 * (1 - 0)) = Real.pi / nsites := by ring
    rw [h2] at h1
    exact h1
  · exact div_ne_zero Real.pi_ne_zero hn'

end ED.Props
