import Verif.Spec.Modes
import Verif.Lemmas.SpinLevels
import Verif.Props.Response
import Verif.Props.Larmor
import Verif.Props.FreeFermions
import Verif.Props.Multiplets
import Mathlib.Analysis.SpecialFunctions.Integrals.Basic
import Mathlib.Analysis.SpecialFunctions.ImproperIntegrals

/-! # Properties C128, C129, C130: sharp modes, total weight and sign of response functions -/

namespace ED.Props

open scoped BigOperators
open Matrix

variable {m : ℕ}

theorem exchange_zero {A B : Mat} {X Y : Matrix (Fin (m + 1)) (Fin (m + 1)) ℂ} (hA : A.Is X) (hB : B.Is Y)
    (E : Fin (m + 1) → ℝ) {fmt : String} {s : ℝ} (hs : Exchange fmt s) :
    responseRetarded A B (List.ofFn E) 0 fmt = .ok fun w eta =>
      Real.pi * (∑ i, lorentz (w + -(E i - E 0)) eta ((X 0 i * Y i 0).re) +
        ∑ i, lorentz (w + (E i - E 0)) eta (((s : ℂ) * (X i 0 * Y 0 i)).re)) := by
  have key : ∀ g : Res ℝ, g = .ok s → (do
      let factor ← g
      let es ← shiftEnergies (List.ofFn E)
      if ¬ respShapes A B es.length then .error .shape
      else
        let n := es.length
        let E := fun i => es.getD i 0
        if (0 : ℝ) ≠ 0 then
          let beta := 1 / (0 : ℝ)
          let z := (es.map fun e => Real.exp (-beta * e)).sum
          pure fun w eta => Real.pi / z * ∑ i ∈ Finset.range n, ∑ j ∈ Finset.range n,
            (1 + factor * Real.exp (beta * (E i - E j))) *
              lorentz (w + (E i - E j)) eta ((A.e i j * B.e j i * (Real.exp (-beta * E j) : ℝ)).re)
        else
          pure fun w eta => Real.pi / 1 *
            (∑ i ∈ Finset.range n, lorentz (w + -E i) eta ((A.e 0 i * B.e i 0).re) +
             ∑ i ∈ Finset.range n, lorentz (w + E i) eta ((factor * (A.e i 0 * B.e 0 i)).re)) : Res (ℝ → ℝ → ℝ)) = .ok fun w eta =>
      Real.pi * (∑ i, lorentz (w + -(E i - E 0)) eta ((X 0 i * Y i 0).re) +
        ∑ i, lorentz (w + (E i - E 0)) eta (((s : ℂ) * (X i 0 * Y 0 i)).re)) := by
    rintro _ rfl
    rw [shiftEnergies_is]
    change (if ¬ respShapes A B _ then _ else _) = _
    rw [if_neg (not_not.2 (resp_shape hA hB E))]
    simp only [ne_eq, not_true_eq_false, if_false]
    change Except.ok _ = Except.ok _
    congr 1
    funext w eta
    simp only [div_one, List.length_ofFn, Finset.sum_range, getD_ofFn]
    congr 2
    · refine Finset.sum_congr rfl fun i _ => ?_
      have h1 : A.e 0 i = X 0 i := hA.2.2 0 i
      have h2 : B.e i 0 = Y i 0 := hB.2.2 i 0
      rw [h1, h2]
    · refine Finset.sum_congr rfl fun i _ => ?_
      have h1 : A.e i 0 = X i 0 := hA.2.2 i 0
      have h2 : B.e 0 i = Y 0 i := hB.2.2 0 i
      rw [h1, h2]
  exact key _ (by cases hs <;> rfl)

theorem exchange_pos {A B : Mat} {X Y : Matrix (Fin (m + 1)) (Fin (m + 1)) ℂ} (hA : A.Is X) (hB : B.Is Y)
    (E : Fin (m + 1) → ℝ) {T : ℝ} (hT : T ≠ 0) {fmt : String} {s : ℝ} (hs : Exchange fmt s) :
    responseRetarded A B (List.ofFn E) T fmt = .ok fun w eta =>
      Real.pi / (∑ k, Real.exp (-(1 / T) * (E k - E 0))) * ∑ i, ∑ j,
        (1 + s * Real.exp (1 / T * (E i - E j))) *
          lorentz (w + (E i - E j)) eta
            ((X i j * Y j i).re * Real.exp (-(1 / T) * (E j - E 0))) := by
  have key : ∀ g : Res ℝ, g = .ok s → (do
      let factor ← g
      let es ← shiftEnergies (List.ofFn E)
      if ¬ respShapes A B es.length then .error .shape
      else
        let n := es.length
        let E := fun i => es.getD i 0
        if T ≠ 0 then
          let beta := 1 / T
          let z := (es.map fun e => Real.exp (-beta * e)).sum
          pure fun w eta => Real.pi / z * ∑ i ∈ Finset.range n, ∑ j ∈ Finset.range n,
            (1 + factor * Real.exp (beta * (E i - E j))) *
              lorentz (w + (E i - E j)) eta ((A.e i j * B.e j i * (Real.exp (-beta * E j) : ℝ)).re)
        else
          pure fun w eta => Real.pi / 1 *
            (∑ i ∈ Finset.range n, lorentz (w + -E i) eta ((A.e 0 i * B.e i 0).re) +
             ∑ i ∈ Finset.range n, lorentz (w + E i) eta ((factor * (A.e i 0 * B.e 0 i)).re)) : Res (ℝ → ℝ → ℝ)) = .ok fun w eta =>
      Real.pi / (∑ k, Real.exp (-(1 / T) * (E k - E 0))) * ∑ i, ∑ j,
        (1 + s * Real.exp (1 / T * (E i - E j))) *
          lorentz (w + (E i - E j)) eta
            ((X i j * Y j i).re * Real.exp (-(1 / T) * (E j - E 0))) := by
    rintro _ rfl
    rw [shiftEnergies_is]
    change (if ¬ respShapes A B _ then _ else _) = _
    rw [if_neg (not_not.2 (resp_shape hA hB E)), if_pos hT]
    change Except.ok _ = Except.ok _
    congr 1
    funext w eta
    simp only [List.length_ofFn, Finset.sum_range, getD_ofFn, List.map_ofFn, sum_ofFn']
    congr 1
    refine Finset.sum_congr rfl fun i _ => Finset.sum_congr rfl fun j _ => ?_
    have h1 : A.e i j = X i j := hA.2.2 i j
    have h2 : B.e j i = Y j i := hB.2.2 j i
    rw [h1, h2, Complex.re_mul_ofReal, sub_sub_sub_cancel_right]
  exact key _ (by cases hs <;> rfl)

theorem pi_lorentz (w eta a : ℝ) : Real.pi * lorentz w eta a = peak eta w * a := by
  unfold lorentz peak
  have := Real.pi_pos.ne'
  field_simp

/-! ## The matrix elements between eigenstates -/

section levels

variable {ι : Type} [Fintype ι] [DecidableEq ι] {H X Y : Matrix ι ι ℂ} {V : Matrix ι (Fin (m + 1)) ℂ} {E : Fin (m + 1) → ℝ}

theorem expect_diag (O : Matrix ι ι ℂ) (k : Fin (m + 1)) : expect O (colOf V k) = (Vᴴ * (O * V)) k k := by
  unfold expect colOf
  simp only [Matrix.mul_apply, dotProduct, conjTranspose_apply, Pi.star_apply, mulVec]

theorem elems_mul (h2 : V * Vᴴ = 1) (A B : Matrix ι ι ℂ) :
    Vᴴ * (A * V) * (Vᴴ * (B * V)) = Vᴴ * (A * B * V) := by
  calc Vᴴ * (A * V) * (Vᴴ * (B * V)) = Vᴴ * (A * ((V * Vᴴ) * (B * V))) := by simp only [Matrix.mul_assoc]
    _ = _ := by rw [h2, Matrix.one_mul]; simp only [Matrix.mul_assoc]

theorem expect_bracket (h2 : V * Vᴴ = 1) (s : ℝ) (k : Fin (m + 1)) :
    (expect (bracket s X Y) (colOf V k)).re =
      ∑ i, ((Vᴴ * (X * V)) k i * (Vᴴ * (Y * V)) i k).re + s * ∑ i, ((Vᴴ * (X * V)) i k * (Vᴴ * (Y * V)) k i).re := by
  rw [expect_diag, bracket, Matrix.add_mul, Matrix.mul_add, Matrix.smul_mul, Matrix.mul_smul, ← elems_mul h2, ← elems_mul h2,
    Matrix.add_apply, Matrix.smul_apply, Matrix.mul_apply, Matrix.mul_apply, Complex.add_re, Complex.re_sum, smul_eq_mul,
    Complex.re_ofReal_mul, Complex.re_sum]
  congr 2
  exact Finset.sum_congr rfl fun i _ => by rw [mul_comm]

/-- Only pairs of levels whose energies differ by `x` are connected. -/
theorem elems_shift (h1 : Vᴴ * V = 1) (h2 : V * Vᴴ = 1) (h3 : H * V = V * diagonal fun k => (E k : ℂ)) {x : ℝ} (hx : Shifts H X x)
    (i j : Fin (m + 1)) : (Vᴴ * (X * V)) i j = 0 ∨ E i - E j = x := by
  have h4 : Vᴴ * H = (diagonal fun i => (E i : ℂ)) * Vᴴ := by
    have := congrArg (fun A => Vᴴ * A * Vᴴ) h3
    rw [← Matrix.mul_assoc Vᴴ V, h1, Matrix.one_mul, Matrix.mul_assoc, Matrix.mul_assoc, h2, Matrix.mul_one] at this
    exact this
  have e : (diagonal fun i => (E i : ℂ)) * (Vᴴ * (X * V)) = (Vᴴ * (X * V)) * (diagonal fun i => (E i : ℂ)) + (x : ℂ) • (Vᴴ * (X * V)) := by
    rw [← Matrix.mul_assoc, ← h4]
    calc Vᴴ * H * (X * V) = Vᴴ * (H * X * V) := by simp only [Matrix.mul_assoc]
      _ = Vᴴ * (X * (H * V)) + (x : ℂ) • (Vᴴ * (X * V)) := by
        rw [hx, Matrix.add_mul, Matrix.mul_add, Matrix.smul_mul, Matrix.mul_smul, Matrix.mul_assoc X H V]
      _ = _ := by rw [h3]; simp only [Matrix.mul_assoc]
  have := congrFun (congrFun e i) j
  rw [diagonal_mul, Matrix.add_apply, mul_diagonal, Matrix.smul_apply, smul_eq_mul] at this
  have h : ((E i - E j - x : ℝ) : ℂ) * (Vᴴ * (X * V)) i j = 0 := by
    push_cast
    linear_combination this
  rcases mul_eq_zero.1 h with h | h
  · right
    have := Complex.ofReal_eq_zero.1 h
    linarith
  · exact Or.inl h

/-- The response at zero temperature. -/
theorem mode_zero {A B : Mat} (hA : A.Is (Vᴴ * (X * V))) (hB : B.Is (Vᴴ * (Y * V))) (h1 : Vᴴ * V = 1) (h2 : V * Vᴴ = 1)
    (h3 : H * V = V * diagonal fun k => (E k : ℂ)) {x : ℝ} (hx : Shifts H X x) {fmt : String} {s : ℝ} (hs : Exchange fmt s) :
    responseRetarded A B (List.ofFn E) 0 fmt = .ok fun w eta => peak eta (w + x) * (expect (bracket s X Y) (colOf V 0)).re := by
  rw [exchange_zero hA hB E hs]
  congr 1
  funext w eta
  rw [mul_add, Finset.mul_sum, Finset.mul_sum, expect_bracket h2, mul_add, Finset.mul_sum, Finset.mul_sum, Finset.mul_sum]
  congr 1
  · refine Finset.sum_congr rfl fun i _ => ?_
    rw [pi_lorentz]
    rcases elems_shift h1 h2 h3 hx 0 i with h | h
    · rw [h]; simp
    · rw [← h, neg_sub]
  · refine Finset.sum_congr rfl fun i _ => ?_
    rw [pi_lorentz, Complex.re_ofReal_mul]
    rcases elems_shift h1 h2 h3 hx i 0 with h | h
    · rw [h]; simp
    · rw [← h]

/-- The response at a finite temperature. -/
theorem mode_pos {A B : Mat} (hA : A.Is (Vᴴ * (X * V))) (hB : B.Is (Vᴴ * (Y * V))) (h1 : Vᴴ * V = 1) (h2 : V * Vᴴ = 1)
    (h3 : H * V = V * diagonal fun k => (E k : ℂ)) {x : ℝ} (hx : Shifts H X x) {fmt : String} {s : ℝ} (hs : Exchange fmt s) {T : ℝ}
    (hT : T ≠ 0) :
    responseRetarded A B (List.ofFn E) T fmt =
      .ok fun w eta => Real.exp (x / T) * (peak eta (w + x) * thermalAvg H (bracket s X Y) T) := by
  rw [exchange_pos hA hB E hT hs]
  congr 1
  funext w eta
  rw [thermalAvg_eig h1 h2 h3 _ hT]
  unfold canonical boltz
  simp only [if_neg hT]
  have hz : ∑ k, Real.exp (-(1 / T) * (E k - E 0)) = Real.exp (E 0 / T) * ∑ k, Real.exp (-E k / T) := by
    rw [Finset.mul_sum]
    refine Finset.sum_congr rfl fun k _ => ?_
    rw [← Real.exp_add]
    congr 1
    field_simp
    ring
  set P : Fin (m + 1) → Fin (m + 1) → ℝ := fun i j => ((Vᴴ * (X * V)) i j * (Vᴴ * (Y * V)) j i).re with hP
  have hZ : (0 : ℝ) < ∑ k, Real.exp (-E k / T) := Finset.sum_pos (fun _ _ => Real.exp_pos _) ⟨0, Finset.mem_univ _⟩
  have hn : ∑ k, Real.exp (-E k / T) * (expect (bracket s X Y) (colOf V k)).re =
      ∑ i, ∑ j, (Real.exp (-x / T) + s) * (Real.exp (-E j / T) * P i j) := by
    have e1 : ∀ k, (expect (bracket s X Y) (colOf V k)).re = ∑ j, P k j + s * ∑ i, P i k := fun k => expect_bracket h2 s k
    simp only [e1, mul_add, add_mul, Finset.sum_add_distrib]
    congr 1
    · refine Finset.sum_congr rfl fun i _ => ?_
      rw [Finset.mul_sum]
      refine Finset.sum_congr rfl fun j _ => ?_
      rcases elems_shift h1 h2 h3 hx i j with h | h
      · simp [hP, h]
      · rw [← mul_assoc, ← Real.exp_add]
        congr 2
        rw [← h]
        ring
    · rw [Finset.sum_comm]
      refine Finset.sum_congr rfl fun i _ => ?_
      rw [Finset.mul_sum, Finset.mul_sum]
      exact Finset.sum_congr rfl fun j _ => by ring
  rw [hz, hn]
  have hl : ∀ i j, Real.pi * ((1 + s * Real.exp (1 / T * (E i - E j))) * lorentz (w + (E i - E j)) eta
      (P i j * Real.exp (-(1 / T) * (E j - E 0)))) =
      Real.exp (E 0 / T) * (Real.exp (x / T) * peak eta (w + x) * ((Real.exp (-x / T) + s) * (Real.exp (-E j / T) * P i j))) := by
    intro i j
    rw [mul_left_comm, pi_lorentz]
    rcases elems_shift h1 h2 h3 hx i j with h | h
    · simp [hP, h]
    · rw [h]
      have e1 : Real.exp (-(1 / T) * (E j - E 0)) = Real.exp (E 0 / T) * Real.exp (-E j / T) := by
        rw [← Real.exp_add]; congr 1; field_simp; ring
      have e2 : Real.exp (x / T) * Real.exp (-x / T) = 1 := by rw [← Real.exp_add, neg_div, add_neg_cancel, Real.exp_zero]
      rw [e1, show 1 / T * x = x / T by ring]
      linear_combination (-peak eta (w + x) * Real.exp (E 0 / T) * Real.exp (-E j / T) * P i j) * e2
  have hsum : Real.pi * ∑ i, ∑ j, (1 + s * Real.exp (1 / T * (E i - E j))) * lorentz (w + (E i - E j)) eta
      (P i j * Real.exp (-(1 / T) * (E j - E 0))) =
      Real.exp (E 0 / T) * (Real.exp (x / T) * peak eta (w + x) * ∑ i, ∑ j, (Real.exp (-x / T) + s) * (Real.exp (-E j / T) * P i j)) := by
    simp only [Finset.mul_sum, hl]
  rw [div_mul_eq_mul_div, hsum, mul_div_mul_left _ _ (Real.exp_pos _).ne', ← mul_assoc, mul_div_assoc]

end levels

/-! ## C128: operators that change the energy by a fixed amount -/

/-- C128 (what holds): at zero temperature the response of an operator that changes the energy by `x` is a single peak at frequency `-x`.
Its weight is the average of the commutator (or anticommutator) in the first eigenstate. The full claim, for every temperature, fails: see
`C128_thermal` and `C128_finite_temperature_violated`. -/
theorem C128_mode_partial (S : EigSolvers) (hS : EigContract S) {ι : Type} [Fintype ι] [DecidableEq ι] [Basis ι] [Nonempty ι]
    {A O P : Mat} {H X Y : Matrix ι ι ℂ} (hA : A.Is H) (hH : H.IsHermitian) (hO : O.Is X) (hP : P.Is Y) {x : ℝ} (hx : Shifts H X x)
    {fmt : String} {s : ℝ} (hs : Exchange fmt s) :
    ∃ (w : List ℝ) (M Oe Pe : Mat) (r : ℝ), diagList S A = .ok (w, M) ∧ getMatrixElems M O = .ok Oe ∧ getMatrixElems M P = .ok Pe ∧
      (∀ K : Mat, K.Is (bracket s X Y) → ∃ l, getExpVals M K = .ok (r :: l)) ∧
      ∃ f, responseRetarded Oe Pe w 0 fmt = .ok f ∧ ∀ ω η, f ω η = peak η (ω + x) * r := by
  obtain ⟨m, E, M, V, d1, d2, d3, d4, d5, -⟩ := diagList_ok S hS hA hH
  obtain ⟨Oe, o1, o2⟩ := (C18_matrix_elements d2 hO).1
  obtain ⟨Pe, p1, p2⟩ := (C18_matrix_elements d2 hP).1
  refine ⟨_, M, Oe, Pe, (expect (bracket s X Y) (colOf V 0)).re, d1, o1, p1, fun K hK => ?_, _, mode_zero o2 p2 d3 d4 d5 hx hs,
    fun _ _ => rfl⟩
  rw [getExpVals_is d2 hK, List.ofFn_succ]
  exact ⟨_, rfl⟩

/-- C128 (violation): at a temperature `T` the returned function is the correct one, a peak whose weight is the thermal average of the
commutator (or anticommutator), times `exp(x / T)`. -/
theorem C128_thermal (S : EigSolvers) (hS : EigContract S) {ι : Type} [Fintype ι] [DecidableEq ι] [Basis ι] [Nonempty ι]
    {A O P : Mat} {H X Y : Matrix ι ι ℂ} (hA : A.Is H) (hH : H.IsHermitian) (hO : O.Is X) (hP : P.Is Y) {x : ℝ} (hx : Shifts H X x)
    {fmt : String} {s : ℝ} (hs : Exchange fmt s) {T : ℝ} (hT : T ≠ 0) :
    ∃ (w : List ℝ) (M Oe Pe : Mat), diagList S A = .ok (w, M) ∧ getMatrixElems M O = .ok Oe ∧ getMatrixElems M P = .ok Pe ∧
      ∃ f, responseRetarded Oe Pe w T fmt = .ok f ∧
        ∀ ω η, f ω η = Real.exp (x / T) * (peak η (ω + x) * thermalAvg H (bracket s X Y) T) := by
  obtain ⟨m, E, M, V, d1, d2, d3, d4, d5, -⟩ := diagList_ok S hS hA hH
  obtain ⟨Oe, o1, o2⟩ := (C18_matrix_elements d2 hO).1
  obtain ⟨Pe, p1, p2⟩ := (C18_matrix_elements d2 hP).1
  exact ⟨_, M, Oe, Pe, d1, o1, p1, _, mode_pos o2 p2 d3 d4 d5 hx hs hT, fun _ _ => rfl⟩

/-! ### Spins in a uniform field -/

theorem loc_plus : pauliPlus.loc 2 = (1 / 2 : ℂ) • (sigmaX + Complex.I • sigmaY) := by
  ext i j
  fin_cases i <;> fin_cases j <;> norm_num [pauliPlus, Mat.loc, Mat.lit2, sigmaX, sigmaY]

theorem loc_minus : pauliMinus.loc 2 = (1 / 2 : ℂ) • (sigmaX - Complex.I • sigmaY) := by
  ext i j
  fin_cases i <;> fin_cases j <;> norm_num [pauliMinus, Mat.loc, Mat.lit2, sigmaX, sigmaY]

theorem is_of_loc' {o : Mat} {A : Matrix (Fin 2) (Fin 2) ℂ} (h : o.IsLoc 2) (h' : o.loc 2 = A) : o.Is A :=
  ⟨by simpa using h.1, by simpa using h.2, fun i j => by rw [← h']; rfl⟩

theorem bracket_swap {ι : Type*} [Fintype ι] (X Y : Matrix ι ι ℂ) : bracket (-1) Y X = -bracket (-1) X Y := by
  unfold bracket
  simp only [Complex.ofReal_neg, Complex.ofReal_one, neg_one_smul]
  abel

/-- The raising and lowering operators of the total spin. -/
theorem spin_modes (F : Spins) {c : ℝ} (hF : UniformField F 0 0 c) (xs ys : ℕ → ℝ) :
    ∃ (H P M Z : Op F.nsites 2) (Pm Mm : Mat), Gives (F.createH none) H ∧ H.IsHermitian ∧
      getSumOpQ F.sys xs ys 0 0 0 pauliPlus "boson" = .ok (.mat Pm) ∧ Pm.Is P ∧
      getSumOpQ F.sys xs ys 0 0 0 pauliMinus "boson" = .ok (.mat Mm) ∧ Mm.Is M ∧
      Gives (getSumOp F.sys pauliZ 0 "boson") Z ∧ Shifts H P (-c) ∧ Shifts H M c ∧ bracket (-1) P M = Z ∧ bracket (-1) M P = -Z := by
  obtain ⟨H, X, Y, Z, gH, gx, gy, gz, c1, c2, c3⟩ := larmor_operators F hF.half hF.sites
    (fun i hi j hj => hF.isotropic i hi j (hj.trans hi)) hF.field
  have hH : H.IsHermitian := larmor_hermitian hF gH
  obtain ⟨n, d, jx, jy, jz, hx, hy, hz⟩ := F
  obtain rfl : d = 1 := hF.half
  have hn : 0 < n := hF.sites
  obtain ⟨px, py, pz⟩ := pauli_sums hn
  have ex : X = ∑ k, siteOp sigmaX k := gives_unique gx px
  have ey : Y = ∑ k, siteOp sigmaY k := gives_unique gy py
  obtain ⟨X', Y', Z', gx', gy', gz', q1, q2, q3⟩ := C96_total_spin hn
  obtain rfl : X = X' := gives_unique gx gx'
  obtain rfl : Y = Y' := gives_unique gy gy'
  obtain rfl : Z = Z' := gives_unique gz gz'
  have q : X * Y - Y * X = (2 * Complex.I) • Z := by
    have h' := congrArg (fun M => (4 : ℂ) • M) q1
    simp only [Matrix.smul_mul, Matrix.mul_smul, smul_sub, smul_smul] at h'
    norm_num at h'
    rw [h']
    congr 1
    ring
  obtain ⟨Pm, p1, p2⟩ := gives_sumOpQ (S := ⟨n, 1, 2⟩) hn (fun i => (siteOp ((1 / 2 : ℂ) • (sigmaX + Complex.I • sigmaY)) i : Op n 2))
    xs ys 0 0 fun i => spin_single i (is_of_loc' pauliPlus_loc loc_plus)
  obtain ⟨Mm, m1, m2⟩ := gives_sumOpQ (S := ⟨n, 1, 2⟩) hn (fun i => (siteOp ((1 / 2 : ℂ) • (sigmaX - Complex.I • sigmaY)) i : Op n 2))
    xs ys 0 0 fun i => spin_single i (is_of_loc' pauliMinus_loc loc_minus)
  have eP : (∑ i : Fin n, Complex.exp (Complex.I * xs i * (0 : ℝ) + Complex.I * ys i * (0 : ℝ)) •
      (siteOp ((1 / 2 : ℂ) • (sigmaX + Complex.I • sigmaY)) i : Op n 2)) = (1 / 2 : ℂ) • (X + Complex.I • Y) := by
    rw [ex, ey, Finset.smul_sum, ← Finset.sum_add_distrib, Finset.smul_sum]
    refine Finset.sum_congr rfl fun i _ => ?_
    rw [siteOp_smul, siteOp_add', siteOp_smul]
    simp
  have eM : (∑ i : Fin n, Complex.exp (Complex.I * xs i * (0 : ℝ) + Complex.I * ys i * (0 : ℝ)) •
      (siteOp ((1 / 2 : ℂ) • (sigmaX - Complex.I • sigmaY)) i : Op n 2)) = (1 / 2 : ℂ) • (X - Complex.I • Y) := by
    rw [ex, ey, Finset.smul_sum, ← Finset.sum_sub_distrib, Finset.smul_sum]
    refine Finset.sum_congr rfl fun i _ => ?_
    rw [siteOp_smul, siteOp_sub', siteOp_smul]
    simp
  rw [eP] at p2
  rw [eM] at m2
  have hI : Complex.I * Complex.I = -1 := Complex.I_mul_I
  have inv : ∀ A B : Op n 2, Complex.I • A = B → A = -(Complex.I • B) := by
    rintro A _ rfl
    rw [smul_smul, hI, neg_one_smul, neg_neg]
  have d1 : H * X = X * H + -(Complex.I • ((c : ℂ) • Y)) := by
    rw [← sub_eq_iff_eq_add']
    exact inv _ _ (by rw [c1]; simp)
  have d2 : H * Y = Y * H + Complex.I • ((c : ℂ) • X) := by
    rw [← sub_eq_iff_eq_add']
    rw [inv _ _ c2]
    simp
  have hb : bracket (-1) ((1 / 2 : ℂ) • (X + Complex.I • Y)) ((1 / 2 : ℂ) • (X - Complex.I • Y)) = Z := by
    have e : bracket (-1) ((1 / 2 : ℂ) • (X + Complex.I • Y)) ((1 / 2 : ℂ) • (X - Complex.I • Y)) =
        (-(Complex.I / 2)) • (X * Y - Y * X) := by
      unfold bracket
      simp only [Matrix.smul_mul, Matrix.mul_smul, Matrix.add_mul, Matrix.mul_add, Matrix.sub_mul, Matrix.mul_sub, Complex.ofReal_neg,
        Complex.ofReal_one]
      module
    rw [e, q, smul_smul, show -(Complex.I / 2) * (2 * Complex.I) = 1 by linear_combination -hI, one_smul]
  refine ⟨H, (1 / 2 : ℂ) • (X + Complex.I • Y), (1 / 2 : ℂ) • (X - Complex.I • Y), Z, Pm, Mm, gH, hH, p1, p2, m1, m2, gz, ?_, ?_, ?_, ?_⟩
  · unfold Shifts
    rw [Matrix.mul_smul, Matrix.mul_add, Matrix.mul_smul, d1, d2, Matrix.smul_mul, Matrix.add_mul, Matrix.smul_mul]
    simp only [smul_add, smul_smul, smul_neg, hI, Complex.ofReal_neg, ← mul_assoc]
    module
  · unfold Shifts
    rw [Matrix.mul_smul, Matrix.mul_sub, Matrix.mul_smul, d1, d2, Matrix.smul_mul, Matrix.sub_mul, Matrix.smul_mul]
    simp only [smul_add, smul_sub, smul_smul, smul_neg, hI, ← mul_assoc]
    module
  · rw [← hb]
  · rw [← hb, bracket_swap]

/-- C128 (what holds): the modes of the total spin. For spins 1/2 with isotropic couplings in the field `c` along z, at zero temperature the
response of the raising to the lowering operator of the total spin is a peak at frequency `c` (the Larmor frequency) with the weight of the
magnetization, whatever the couplings; the response of the lowering to the raising operator is the opposite peak at `-c`. -/
theorem C128_spins_partial (S : EigSolvers) (hS : EigContract S) (F : Spins) {c : ℝ} (hF : UniformField F 0 0 c) (xs ys : ℕ → ℝ) :
    ∃ (A P M Z : Mat) (w : List ℝ) (V Pe Me : Mat) (mz : ℝ) (l : List ℝ), F.createH none = .ok A ∧ diagList S A = .ok (w, V) ∧
      getSumOpQ F.sys xs ys 0 0 0 pauliPlus "boson" = .ok (.mat P) ∧ getSumOpQ F.sys xs ys 0 0 0 pauliMinus "boson" = .ok (.mat M) ∧
      getMatrixElems V P = .ok Pe ∧ getMatrixElems V M = .ok Me ∧
      getSumOp F.sys pauliZ 0 "boson" = .ok Z ∧ getExpVals V Z = .ok (mz :: l) ∧
      (∃ f, responseRetarded Pe Me w 0 "boson" = .ok f ∧ ∀ ω η, f ω η = peak η (ω - c) * mz) ∧
      ∃ f, responseRetarded Me Pe w 0 "boson" = .ok f ∧ ∀ ω η, f ω η = -(peak η (ω + c) * mz) := by
  obtain ⟨H, P, M, Z, Pm, Mm, ⟨A, a1, a2⟩, hH, p1, p2, m1, m2, ⟨Zm, z1, z2⟩, s1, s2, b1, b2⟩ := spin_modes F hF xs ys
  haveI : Nonempty (Conf F.nsites 2) := ⟨fun _ => 0⟩
  obtain ⟨m, E, V, Vm, d1, d2, d3, d4, d5, -⟩ := diagList_ok S hS a2 hH
  obtain ⟨Pe, pe, pe'⟩ := (C18_matrix_elements d2 p2).1
  obtain ⟨Me, me, me'⟩ := (C18_matrix_elements d2 m2).1
  have hz := getExpVals_is d2 z2
  rw [List.ofFn_succ] at hz
  refine ⟨A, Pm, Mm, Zm, _, V, Pe, Me, _, _, a1, d1, p1, m1, pe, me, z1, hz, ⟨_, mode_zero pe' me' d3 d4 d5 s1 .boson, fun ω η => ?_⟩,
    _, mode_zero me' pe' d3 d4 d5 s2 .boson, fun ω η => ?_⟩
  · rw [b1, sub_eq_add_neg]
  · rw [b2]
    simp [expect, Matrix.neg_mulVec]

/-- C128 (violation), for the total spin: at the temperature `T` the peak at the Larmor frequency has the thermal magnetization times
`exp(-c / T)`, the opposite peak has it times `exp(c / T)`. -/
theorem C128_spins_thermal (S : EigSolvers) (hS : EigContract S) (F : Spins) {c : ℝ} (hF : UniformField F 0 0 c) (xs ys : ℕ → ℝ) :
    ∃ (A P M Z : Mat) (w : List ℝ) (V Pe Me : Mat), F.createH none = .ok A ∧ diagList S A = .ok (w, V) ∧
      getSumOpQ F.sys xs ys 0 0 0 pauliPlus "boson" = .ok (.mat P) ∧ getSumOpQ F.sys xs ys 0 0 0 pauliMinus "boson" = .ok (.mat M) ∧
      getMatrixElems V P = .ok Pe ∧ getMatrixElems V M = .ok Me ∧
      getSumOp F.sys pauliZ 0 "boson" = .ok Z ∧ ∀ T : ℝ, T ≠ 0 → ∃ mz, expValsThermal V Z w T = .ok mz ∧
      (∃ f, responseRetarded Pe Me w T "boson" = .ok f ∧ ∀ ω η, f ω η = Real.exp (-c / T) * (peak η (ω - c) * mz)) ∧
      ∃ f, responseRetarded Me Pe w T "boson" = .ok f ∧ ∀ ω η, f ω η = -(Real.exp (c / T) * (peak η (ω + c) * mz)) := by
  obtain ⟨H, P, M, Z, Pm, Mm, ⟨A, a1, a2⟩, hH, p1, p2, m1, m2, ⟨Zm, z1, z2⟩, s1, s2, b1, b2⟩ := spin_modes F hF xs ys
  haveI : Nonempty (Conf F.nsites 2) := ⟨fun _ => 0⟩
  obtain ⟨m, E, V, Vm, d1, d2, d3, d4, d5, -⟩ := diagList_ok S hS a2 hH
  obtain ⟨Pe, pe, pe'⟩ := (C18_matrix_elements d2 p2).1
  obtain ⟨Me, me, me'⟩ := (C18_matrix_elements d2 m2).1
  refine ⟨A, Pm, Mm, Zm, _, V, Pe, Me, a1, d1, p1, m1, pe, me, z1, fun T hT => ⟨thermalAvg H Z T, ?_,
    ⟨_, mode_pos pe' me' d3 d4 d5 s1 .boson hT, fun ω η => ?_⟩, _, mode_pos me' pe' d3 d4 d5 s2 .boson hT, fun ω η => ?_⟩⟩
  · rw [C19_canonical d2 z2 E T (Or.inl hT), thermalAvg_eig d3 d4 d5 Z hT]
  · rw [b1, sub_eq_add_neg]
  · rw [b2]
    have : thermalAvg H (-Z) T = -thermalAvg H Z T := by simp [thermalAvg]
    rw [this]
    ring

/-! ### Pairs on a bipartite lattice -/

/-- C128 (what holds): the pair mode of the Hubbard model. On a bipartite lattice the staggered sum of the operators that create a pair on a
site changes the energy by `Δ`, so its response to any operator at zero temperature is a single peak at `-Δ`. -/
theorem C128_pairs_partial (S : EigSolvers) (hS : EigContract S) (F : Fermions) {Δ : ℝ} (h : F.PairSymmetric Δ) (hr : RealParams F)
    (c : Fin F.nsites → Bool) (hc : Colours F c) :
    ∃ (A : Mat) (L : Fin F.nsites → Op (F.nsites * F.nspecies) 2), F.createH none = .ok A ∧
      (∀ i : Fin F.nsites, Gives (getTwoSiteOp F.sys i 0 i 1 cdagOp cdagOp "fermion") (L i)) ∧
      ∀ (O P : Mat) (Y : Op (F.nsites * F.nspecies) 2), O.Is (∑ i, (if c i then 1 else -1 : ℂ) • L i) → P.Is Y →
        ∃ (w : List ℝ) (M Oe Pe : Mat) (r : ℝ), diagList S A = .ok (w, M) ∧ getMatrixElems M O = .ok Oe ∧ getMatrixElems M P = .ok Pe ∧
          (∀ K : Mat, K.Is (bracket (-1) (∑ i, (if c i then 1 else -1 : ℂ) • L i) Y) → ∃ l, getExpVals M K = .ok (r :: l)) ∧
          ∃ f, responseRetarded Oe Pe w 0 "boson" = .ok f ∧ ∀ ω η, f ω η = peak η (ω + Δ) * r := by
  obtain ⟨H, L, ⟨A, a1, a2⟩, gL, hx⟩ := C124_commutes F h c hc
  have h2 : 2 ≤ F.nspecies := h.species.ge
  have hH : H.IsHermitian := by
    rw [gives_unique ⟨A, a1, a2⟩ (createH_gives (Or.inl h2))]
    exact hubH_hermitian F h2 hr
  exact ⟨A, L, a1, gL, fun O P Y hO hP => C128_mode_partial S hS a2 hH hO hP hx .boson⟩

/-! ### Levels of fermions without interactions -/

variable {κ : Type} [Fintype κ] [DecidableEq κ] {F : Fermions} {t : Fin F.nsites → Fin F.nsites → Fin F.nspecies → ℝ}
  {v : Fin F.nsites → Fin F.nspecies → ℝ}

/-- The operator that removes a particle from a level. -/
theorem level_shift {h : Fin F.nspecies → Matrix (Fin F.nsites) (Fin F.nsites) ℂ} (hh : ∀ s, (h s).IsHermitian) (s : Fin F.nspecies)
    {φ : Matrix (Fin F.nsites) κ ℂ} {ε : κ → ℝ} (hφ : IsEigenbasis (h s) φ ε) (k : κ) :
    Shifts (secondQuant (modeMat h) : Op (F.nsites * F.nspecies) 2) (∑ i, star (φ i k) • annih (mode i s)) (-ε k) ∧
      bracket 1 (∑ i, star (φ i k) • annih (mode i s) : Op (F.nsites * F.nspecies) 2)
        (∑ i, star (φ i k) • annih (mode i s) : Op (F.nsites * F.nspecies) 2)ᴴ = 1 := by
  have hst : (∑ i, star (φ i k) • annih (mode i s) : Op (F.nsites * F.nspecies) 2)ᴴ = ∑ i, φ i k • create (mode i s) := by
    rw [conjTranspose_sum]
    refine Finset.sum_congr rfl fun i _ => ?_
    rw [conjTranspose_smul, star_star, annih_star]
  have hst' : (∑ i, φ i k • create (mode i s) : Op (F.nsites * F.nspecies) 2)ᴴ = ∑ i, star (φ i k) • annih (mode i s) := by
    rw [← hst, conjTranspose_conjTranspose]
  have hH := secondQuant_star (modeMat_star hh)
  constructor
  · have key : secondQuant (modeMat h) * (∑ i, φ i k • create (mode i s) : Op (F.nsites * F.nspecies) 2) =
        (∑ i, φ i k • create (mode i s) : Op (F.nsites * F.nspecies) 2) * secondQuant (modeMat h) +
          (ε k : ℂ) • (∑ i, φ i k • create (mode i s) : Op (F.nsites * F.nspecies) 2) := by
      simp only [Finset.mul_sum, Finset.sum_mul, mul_smul_comm, smul_mul_assoc, secondQuant_create, smul_add, Finset.sum_add_distrib]
      congr 1
      have e : ∀ i : Fin F.nsites, (∑ p, modeMat h p (mode i s) • create p : Op (F.nsites * F.nspecies) 2) =
          ∑ j, h s j i • create (mode j s) := by
        intro i
        rw [sum_modes, Finset.sum_eq_single s]
        · refine Finset.sum_congr rfl fun j _ => ?_
          rw [modeMat_mode, if_pos rfl]
        · intro s' _ hs'
          refine Finset.sum_eq_zero fun j _ => ?_
          rw [modeMat_mode, if_neg hs', zero_smul]
        · simp
      simp only [e, Finset.smul_sum, smul_smul]
      rw [Finset.sum_comm]
      refine Finset.sum_congr rfl fun j _ => ?_
      rw [← Finset.sum_smul]
      congr 1
      have := congrFun (congrFun hφ.eigen j) k
      rw [mul_diagonal, mul_apply] at this
      rw [mul_comm (ε k : ℂ), ← this]
      exact Finset.sum_congr rfl fun i _ => mul_comm _ _
    have := congrArg conjTranspose key
    rw [conjTranspose_mul, conjTranspose_add, conjTranspose_mul, conjTranspose_smul, hst', hH.eq, show star (ε k : ℂ) = ε k from Complex.conj_ofReal _] at this
    unfold Shifts
    rw [this]
    push_cast
    module
  · unfold bracket
    rw [hst, Complex.ofReal_one, one_smul]
    have e : ∀ i j : Fin F.nsites, (annih (mode i s) * create (mode j s) + create (mode j s) * annih (mode i s) : Op (F.nsites * F.nspecies) 2) =
        if i = j then 1 else 0 := by
      intro i j
      rw [car1]
      refine if_congr ⟨fun h => ?_, fun h => by rw [h]⟩ rfl rfl
      have := congrArg (modeEquiv F.nsites F.nspecies).symm h
      rw [modeEquiv_symm, modeEquiv_symm] at this
      exact (Prod.mk.inj this).2
    have e2 : (∑ i, star (φ i k) • annih (mode i s) : Op (F.nsites * F.nspecies) 2) * (∑ j, φ j k • create (mode j s)) +
        (∑ j, φ j k • create (mode j s)) * (∑ i, star (φ i k) • annih (mode i s)) =
        ∑ i, ∑ j, (star (φ i k) * φ j k) • (if i = j then (1 : Op (F.nsites * F.nspecies) 2) else 0) := by
      simp only [← e, smul_add, Finset.sum_add_distrib]
      rw [Finset.sum_mul_sum, Finset.sum_mul_sum]
      congr 1
      · exact Finset.sum_congr rfl fun i _ => Finset.sum_congr rfl fun j _ => by rw [smul_mul_smul_comm]
      · rw [Finset.sum_comm]
        exact Finset.sum_congr rfl fun i _ => Finset.sum_congr rfl fun j _ => by rw [smul_mul_smul_comm, mul_comm (φ j k)]
    rw [e2]
    simp only [smul_ite, smul_zero, Finset.sum_ite_eq, Finset.mem_univ, if_true]
    rw [← Finset.sum_smul]
    have := congrFun (congrFun hφ.ortho k) k
    rw [mul_apply, one_apply_eq] at this
    simp only [conjTranspose_apply] at this
    rw [this, one_smul]

/-- The response of a level: at zero temperature a peak of weight one at the energy of the level, at a temperature `T` that peak times
`exp(-ε / T)`. -/
theorem level_response (S : EigSolvers) (hS : EigContract S) (hF : NonInteracting F t v) (s : Fin F.nspecies)
    {φ : Matrix (Fin F.nsites) κ ℂ} {ε : κ → ℝ} (hφ : IsEigenbasis (bands t v s) φ ε) (k : κ) :
    ∃ (A : Mat) (w : List ℝ) (M : Mat) (c : Fin F.nsites → Op (F.nsites * F.nspecies) 2), F.createH none = .ok A ∧
      diagList S A = .ok (w, M) ∧ (∀ i : Fin F.nsites, Gives (getSingleSiteOp F.sys i s cOp "fermion") (c i)) ∧
      ∀ C : Mat, C.Is (∑ i, star (φ i k) • c i) → ∃ Ce, getMatrixElems M C = .ok Ce ∧
        (∃ f, responseRetarded Ce Ce.dagger w 0 "fermion" = .ok f ∧ ∀ ω η, f ω η = peak η (ω - ε k)) ∧
        ∀ T : ℝ, T ≠ 0 → ∃ f, responseRetarded Ce Ce.dagger w T "fermion" = .ok f ∧
          ∀ ω η, f ω η = Real.exp (-ε k / T) * peak η (ω - ε k) := by
  obtain ⟨A, a1, a2⟩ := hF.gives
  have hh : ∀ s, (bands t v s).IsHermitian := fun s => oneParticle_star fun i j => hF.symm i j s
  have hH := secondQuant_star (modeMat_star hh)
  obtain ⟨m, E, M, V, d1, d2, d3, d4, d5, -⟩ := diagList_ok S hS a2 hH
  obtain ⟨s1, s2⟩ := level_shift hh s hφ k
  refine ⟨A, _, M, fun i => annih (mode i s), a1, d1, fun i => ?_, fun C hC => ?_⟩
  · have := gives_single_fermion (S := F.sys) rfl i s cOp_loc
    rwa [show fop (mode i s) (cOp.loc 2) = (annih (mode i s) : Op (F.nsites * F.nspecies) 2) from fop_cl _] at this
  · obtain ⟨Ce, c1, c2⟩ := (C18_matrix_elements d2 hC).1
    have c3 := c2.dagger
    rw [conjTranspose_mul, conjTranspose_conjTranspose, conjTranspose_mul, Matrix.mul_assoc] at c3
    refine ⟨Ce, c1, ⟨_, mode_zero c2 c3 d3 d4 d5 s1 .fermion, fun ω η => ?_⟩, fun T hT =>
      ⟨_, mode_pos c2 c3 d3 d4 d5 s1 .fermion hT, fun ω η => ?_⟩⟩
    · rw [s2, expect_diag, Matrix.one_mul, d3, one_apply_eq, Complex.one_re, mul_one, sub_eq_add_neg]
    · rw [s2, thermalAvg_re, cAvg_one hH, Complex.one_re, mul_one, sub_eq_add_neg]

/-- C128 (what holds): the spectral function of a level. Without interactions, at zero temperature the response of the operator that
removes a particle from a level (as a fermion operator) is a peak of weight one at the energy of the level. -/
theorem C128_level_partial (S : EigSolvers) (hS : EigContract S) (hF : NonInteracting F t v) (s : Fin F.nspecies)
    {φ : Matrix (Fin F.nsites) κ ℂ} {ε : κ → ℝ} (hφ : IsEigenbasis (bands t v s) φ ε) (k : κ) :
    ∃ (A : Mat) (w : List ℝ) (M : Mat) (c : Fin F.nsites → Op (F.nsites * F.nspecies) 2), F.createH none = .ok A ∧
      diagList S A = .ok (w, M) ∧ (∀ i : Fin F.nsites, Gives (getSingleSiteOp F.sys i s cOp "fermion") (c i)) ∧
      ∀ C : Mat, C.Is (∑ i, star (φ i k) • c i) → ∃ Ce, getMatrixElems M C = .ok Ce ∧
        ∃ f, responseRetarded Ce Ce.dagger w 0 "fermion" = .ok f ∧ ∀ ω η, f ω η = peak η (ω - ε k) := by
  obtain ⟨A, w, M, c, h1, h2, h3, h4⟩ := level_response S hS hF s hφ k
  exact ⟨A, w, M, c, h1, h2, h3, fun C hC => let ⟨Ce, g1, g2, _⟩ := h4 C hC; ⟨Ce, g1, g2⟩⟩

/-- C128 (violation): at the temperature `T` the returned spectral function of a level of energy `ε` is `exp(-ε / T)` times the correct
one, which does not depend on the temperature. -/
theorem C128_level_thermal (S : EigSolvers) (hS : EigContract S) (hF : NonInteracting F t v) (s : Fin F.nspecies)
    {φ : Matrix (Fin F.nsites) κ ℂ} {ε : κ → ℝ} (hφ : IsEigenbasis (bands t v s) φ ε) (k : κ) {T : ℝ} (hT : T ≠ 0) :
    ∃ (A : Mat) (w : List ℝ) (M : Mat) (c : Fin F.nsites → Op (F.nsites * F.nspecies) 2), F.createH none = .ok A ∧
      diagList S A = .ok (w, M) ∧ (∀ i : Fin F.nsites, Gives (getSingleSiteOp F.sys i s cOp "fermion") (c i)) ∧
      ∀ C : Mat, C.Is (∑ i, star (φ i k) • c i) → ∃ Ce, getMatrixElems M C = .ok Ce ∧
        ∃ f, responseRetarded Ce Ce.dagger w T "fermion" = .ok f ∧ ∀ ω η, f ω η = Real.exp (-ε k / T) * peak η (ω - ε k) := by
  obtain ⟨A, w, M, c, h1, h2, h3, h4⟩ := level_response S hS hF s hφ k
  exact ⟨A, w, M, c, h1, h2, h3, fun C hC => let ⟨Ce, g1, _, g2⟩ := h4 C hC; ⟨Ce, g1, g2 T hT⟩⟩

/-- One site with the potential one, for one species. -/
def oneLevel : Fermions := ⟨1, 1, fun _ _ _ => 0, fun _ => 0, fun _ _ _ => 0, fun _ => 0, fun _ _ => 1, fun _ _ => 0, fun _ _ => 0⟩

theorem oneLevel_free : NonInteracting oneLevel (fun _ _ _ => 0) (fun _ _ => 1) :=
  ⟨fun _ => rfl, fun _ _ _ => rfl, fun _ _ _ _ => by simp [oneLevel], fun _ _ _ => rfl, fun _ _ => by simp [oneLevel]⟩

theorem oneLevel_basis : IsEigenbasis (oneParticle (n := 1) (fun _ _ => 0) fun _ => 1) (1 : Matrix (Fin 1) (Fin 1) ℂ) (fun _ => 1) := by
  refine ⟨by simp, by simp, ?_⟩
  rw [Matrix.one_mul, Matrix.mul_one]
  ext i j
  obtain rfl : i = j := Subsingleton.elim i j
  simp [oneParticle]

/-- The spectral function of one level at a temperature `T`. -/
theorem oneLevel_response (S : EigSolvers) (hS : EigContract S) {T : ℝ} (hT : T ≠ 0) :
    ∃ (A C : Mat) (w : List ℝ) (M Ce : Mat), oneLevel.createH none = .ok A ∧ diagList S A = .ok (w, M) ∧
      getSingleSiteOp oneLevel.sys 0 0 cOp "fermion" = .ok C ∧ getMatrixElems M C = .ok Ce ∧
      (∃ f, responseRetarded Ce Ce.dagger w 0 "fermion" = .ok f ∧ ∀ ω η, f ω η = peak η (ω - 1)) ∧
      ∃ f, responseRetarded Ce Ce.dagger w T "fermion" = .ok f ∧ ∀ ω η, f ω η = Real.exp (-1 / T) * peak η (ω - 1) := by
  obtain ⟨A, w, M, c, h1, h2, h3, h4⟩ := level_response S hS oneLevel_free (0 : Fin 1) oneLevel_basis 0
  obtain ⟨C, g1, g2⟩ := h3 (0 : Fin 1)
  obtain ⟨Ce, e1, e2, e3⟩ := h4 C (by
    refine (congrArg _ ?_).mp g2
    exact ((Fin.sum_univ_one (M := Op (1 * 1) 2) fun i => star ((1 : Matrix (Fin 1) (Fin 1) ℂ) i 0) • c i).trans (by simp; rfl)).symm)
  exact ⟨A, C, w, M, Ce, h1, h2, g1, e1, e2, e3 T hT⟩

/-- C128 (violation): the spectral function of a single level of energy one, at any nonzero temperature, is not the peak that it is at
zero temperature, at any frequency. -/
theorem C128_finite_temperature_violated (S : EigSolvers) (hS : EigContract S) {T : ℝ} (hT : T ≠ 0) :
    ∃ (A C : Mat) (w : List ℝ) (M Ce : Mat), oneLevel.createH none = .ok A ∧ diagList S A = .ok (w, M) ∧
      getSingleSiteOp oneLevel.sys 0 0 cOp "fermion" = .ok C ∧ getMatrixElems M C = .ok Ce ∧
      ∃ f, responseRetarded Ce Ce.dagger w T "fermion" = .ok f ∧ ∀ ω η, 0 < η → f ω η ≠ peak η (ω - 1) := by
  obtain ⟨A, C, w, M, Ce, h1, h2, h3, h4, -, f, f1, f2⟩ := oneLevel_response S hS hT
  refine ⟨A, C, w, M, Ce, h1, h2, h3, h4, f, f1, fun ω η hη h => ?_⟩
  rw [f2] at h
  have hp : 0 < peak η (ω - 1) := by
    unfold peak
    positivity
  have : Real.exp (-1 / T) = 1 := mul_right_cancel₀ hp.ne' (h.trans (one_mul _).symm)
  rw [Real.exp_eq_one_iff] at this
  have := (div_eq_zero_iff.1 this).resolve_right hT
  norm_num at this

/-! ## C129: the total weight -/

theorem peak_integral {η : ℝ} (hη : 0 < η) (x : ℝ) :
    MeasureTheory.Integrable (fun ω => peak η (ω + x)) ∧ ∫ ω, peak η (ω + x) = Real.pi := by
  have h1 : (fun ω => peak η (ω + x)) = fun ω => (fun y => (fun z => 1 / η * (1 + z ^ 2)⁻¹) (y / η)) (ω + x) := by
    funext ω
    unfold peak
    have : η ^ 2 + (ω + x) ^ 2 ≠ 0 := by positivity
    simp only
    field_simp
  rw [h1]
  constructor
  · exact ((integrable_inv_one_add_sq.const_mul (1 / η)).comp_div hη.ne').comp_add_right x
  · rw [MeasureTheory.integral_add_right_eq_self (fun y => (fun z => 1 / η * (1 + z ^ 2)⁻¹) (y / η)) x,
      MeasureTheory.Measure.integral_comp_div (fun z => 1 / η * (1 + z ^ 2)⁻¹) η, MeasureTheory.integral_const_mul,
      integral_univ_inv_one_add_sq, abs_of_pos hη, smul_eq_mul]
    field_simp

/-- C129 (what holds): at zero temperature the integral of the response over all frequencies is `π` times the average of the commutator
(or anticommutator) in the first eigenstate, for any two operators and any broadening. The full claim, for every temperature, fails: see
`C129_finite_temperature_violated`. -/
theorem C129_weight_partial (S : EigSolvers) (hS : EigContract S) {ι : Type} [Fintype ι] [DecidableEq ι] [Basis ι] [Nonempty ι]
    {A O P : Mat} {H X Y : Matrix ι ι ℂ} (hA : A.Is H) (hH : H.IsHermitian) (hO : O.Is X) (hP : P.Is Y)
    {fmt : String} {s : ℝ} (hs : Exchange fmt s) :
    ∃ (w : List ℝ) (M Oe Pe : Mat) (r : ℝ), diagList S A = .ok (w, M) ∧ getMatrixElems M O = .ok Oe ∧ getMatrixElems M P = .ok Pe ∧
      (∀ K : Mat, K.Is (bracket s X Y) → ∃ l, getExpVals M K = .ok (r :: l)) ∧
      ∃ f, responseRetarded Oe Pe w 0 fmt = .ok f ∧
        ∀ η, 0 < η → MeasureTheory.Integrable (fun ω => f ω η) ∧ ∫ ω, f ω η = Real.pi * r := by
  obtain ⟨m, E, M, V, d1, d2, d3, d4, d5, -⟩ := diagList_ok S hS hA hH
  obtain ⟨Oe, o1, o2⟩ := (C18_matrix_elements d2 hO).1
  obtain ⟨Pe, p1, p2⟩ := (C18_matrix_elements d2 hP).1
  refine ⟨_, M, Oe, Pe, (expect (bracket s X Y) (colOf V 0)).re, d1, o1, p1, fun K hK => ?_, _, exchange_zero o2 p2 E hs,
    fun η hη => ?_⟩
  · rw [getExpVals_is d2 hK, List.ofFn_succ]
    exact ⟨_, rfl⟩
  · simp only [mul_add, Finset.mul_sum, pi_lorentz]
    have i1 : ∀ i : Fin (m + 1), MeasureTheory.Integrable fun ω => peak η (ω + -(E i - E 0)) *
        ((Vᴴ * (X * V)) 0 i * (Vᴴ * (Y * V)) i 0).re := fun i => (peak_integral hη _).1.mul_const _
    have i2 : ∀ i : Fin (m + 1), MeasureTheory.Integrable fun ω => peak η (ω + (E i - E 0)) *
        ((s : ℂ) * ((Vᴴ * (X * V)) i 0 * (Vᴴ * (Y * V)) 0 i)).re := fun i => (peak_integral hη _).1.mul_const _
    have j1 := MeasureTheory.integrable_finset_sum Finset.univ fun i _ => i1 i
    have j2 := MeasureTheory.integrable_finset_sum Finset.univ fun i _ => i2 i
    refine ⟨j1.add j2, ?_⟩
    rw [MeasureTheory.integral_add j1 j2, MeasureTheory.integral_finset_sum _ fun i _ => i1 i,
      MeasureTheory.integral_finset_sum _ fun i _ => i2 i, expect_bracket d4, mul_add, Finset.mul_sum, Finset.mul_sum, Finset.mul_sum]
    simp only [MeasureTheory.integral_mul_const, (peak_integral hη _).2, Complex.re_ofReal_mul]

/-- C129 (violation): for a single level of energy one and its operator, whose anticommutator with its adjoint is one, the total weight at
a temperature `T` is `π exp(-1 / T)`. -/
theorem C129_finite_temperature_violated (S : EigSolvers) (hS : EigContract S) {T : ℝ} (hT : T ≠ 0) :
    ∃ (A C : Mat) (w : List ℝ) (M Ce : Mat) (c : Op 1 2), oneLevel.createH none = .ok A ∧ diagList S A = .ok (w, M) ∧
      getSingleSiteOp oneLevel.sys 0 0 cOp "fermion" = .ok C ∧ getMatrixElems M C = .ok Ce ∧ C.Is c ∧ bracket 1 c cᴴ = 1 ∧
      ∃ f, responseRetarded Ce Ce.dagger w T "fermion" = .ok f ∧
        ∀ η, 0 < η → ∫ ω, f ω η = Real.pi * Real.exp (-1 / T) ∧ ∫ ω, f ω η ≠ Real.pi * 1 := by
  obtain ⟨A, C, w, M, Ce, h1, h2, h3, h4, -, f, f1, f2⟩ := oneLevel_response S hS hT
  have g : Gives (getSingleSiteOp oneLevel.sys (0 : Fin 1) (0 : Fin 1) cOp "fermion") (annih (mode (0 : Fin 1) (0 : Fin 1)) : Op (1 * 1) 2) :=
    (congrArg (Gives _) (fop_cl _)).mp (gives_single_fermion (S := oneLevel.sys) rfl (0 : Fin 1) (0 : Fin 1) cOp_loc)
  obtain ⟨C', g1, g2⟩ := g
  obtain rfl : C = C' := Except.ok.inj (h3.symm.trans g1)
  refine ⟨A, C, w, M, Ce, annih (mode (0 : Fin 1) (0 : Fin 1)), h1, h2, h3, h4, g2, ?_, f, f1, fun η hη => ?_⟩
  · unfold bracket
    rw [annih_star, Complex.ofReal_one, one_smul, car1, if_pos rfl]
  · have e : ∫ ω, f ω η = Real.pi * Real.exp (-1 / T) := by
      simp only [f2]
      rw [MeasureTheory.integral_const_mul]
      have := (peak_integral hη (-1)).2
      simp only [← sub_eq_add_neg] at this
      rw [this, mul_comm]
    refine ⟨e, fun h => ?_⟩
    rw [e] at h
    have := mul_left_cancel₀ Real.pi_pos.ne' h
    rw [Real.exp_eq_one_iff] at this
    have := (div_eq_zero_iff.1 this).resolve_right hT
    norm_num at this

/-! ## C130: spectral functions are not negative -/

theorem lorentz_nonneg {w eta a : ℝ} (he : 0 ≤ eta) (ha : 0 ≤ a) : 0 ≤ lorentz w eta a := by
  unfold lorentz
  have := Real.pi_pos
  positivity

theorem star_mul_re (z : ℂ) : (z * star z).re = ‖z‖ ^ 2 := by
  rw [Complex.star_def, Complex.mul_conj', ← Complex.ofReal_pow, Complex.ofReal_re]

/-- C130: the spectral function of any operator (its response to its adjoint, with the sign for fermions) is not negative, at any
temperature. -/
theorem C130_spectral_nonneg {A : Mat} {X : Matrix (Fin (m + 1)) (Fin (m + 1)) ℂ} (hA : A.Is X) (E : Fin (m + 1) → ℝ) (T : ℝ) :
    ∃ f, responseRetarded A A.dagger (List.ofFn E) T "fermion" = .ok f ∧ ∀ ω η, 0 ≤ η → 0 ≤ f ω η := by
  by_cases hT : T = 0
  · subst hT
    refine ⟨_, exchange_zero hA hA.dagger E .fermion, fun ω η hη => ?_⟩
    refine mul_nonneg Real.pi_pos.le (add_nonneg (Finset.sum_nonneg fun i _ => lorentz_nonneg hη ?_)
      (Finset.sum_nonneg fun i _ => lorentz_nonneg hη ?_))
    · rw [conjTranspose_apply, star_mul_re]
      positivity
    · rw [conjTranspose_apply, Complex.ofReal_one, one_mul, star_mul_re]
      positivity
  · refine ⟨_, exchange_pos hA hA.dagger E hT .fermion, fun ω η hη => ?_⟩
    refine mul_nonneg (div_pos Real.pi_pos (zsum_pos E _)).le
      (Finset.sum_nonneg fun i _ => Finset.sum_nonneg fun j _ => mul_nonneg ?_ (lorentz_nonneg hη ?_))
    · have := Real.exp_pos (1 / T * (E i - E j))
      linarith
    · rw [conjTranspose_apply, star_mul_re]
      have := Real.exp_pos (-(1 / T) * (E j - E 0))
      positivity

/-! ## C131: absorption is not negative -/

/-- C131 (what holds): at zero temperature a system absorbs energy: the response of a Hermitian operator to itself is not negative at
positive frequencies. The full claim, for every temperature, fails: see `C131_finite_temperature_violated`. -/
theorem C131_absorption_partial {A : Mat} {X : Matrix (Fin (m + 1)) (Fin (m + 1)) ℂ} (hA : A.Is X) (hX : X.IsHermitian)
    {E : Fin (m + 1) → ℝ} (hE : Monotone E) :
    ∃ f, responseRetarded A A (List.ofFn E) 0 "boson" = .ok f ∧ ∀ ω η, 0 ≤ ω → 0 < η → 0 ≤ f ω η := by
  refine ⟨_, retarded_zero hA hA E, fun ω η hω hη => ?_⟩
  rw [← Finset.sum_add_distrib]
  refine mul_nonneg Real.pi_pos.le (Finset.sum_nonneg fun i _ => ?_)
  have hg : 0 ≤ E i - E 0 := sub_nonneg.2 (hE (Fin.zero_le i))
  rw [herm_mul hX, herm_mul hX, herm_norm hX i 0, neg_one_mul, Complex.neg_re, Complex.ofReal_re, lorentz_amp, lorentz_amp _ _ (-_), neg_mul,
    ← sub_eq_add_neg, ← mul_sub]
  refine mul_nonneg (by positivity) (sub_nonneg.2 ?_)
  unfold lorentz
  have hp := Real.pi_pos
  refine div_le_div_of_nonneg_left (by positivity) (by positivity) ?_
  nlinarith [mul_nonneg hω hg]

/-- C131 (violation): for two levels with any gap and the operator that flips between them, at any positive temperature there are positive
frequencies with a negative response. -/
theorem C131_finite_temperature_violated (A : Mat) (hA : A.Is !![(0 : ℂ), 1; 1, 0]) (gap T eta : ℝ) (hg : 0 < gap) (hT : 0 < T)
    (he : 0 < eta) :
    ∃ f, responseRetarded A A (List.ofFn ![0, gap]) T "boson" = .ok f ∧ ∃ ω, 0 < ω ∧ f ω eta < 0 := by
  obtain ⟨f, h1, h2, -⟩ := C23_finite_temperature_violated A hA gap T eta hg hT he
  refine ⟨f, h1, ?_⟩
  have hc : Continuous fun w => f w eta := by
    rw [retarded_pos (m := 1) hA hA ![0, gap] hT.ne'] at h1
    have := Except.ok.inj h1
    rw [← this]
    refine continuous_const.mul (continuous_finset_sum _ fun i _ => continuous_finset_sum _ fun j _ => continuous_const.mul ?_)
    unfold lorentz
    refine continuous_const.div (by fun_prop) fun w => ?_
    positivity
  have hev : ∀ᶠ w in nhdsWithin 0 (Set.Ioi (0 : ℝ)), f w eta < 0 :=
    (hc.continuousAt.eventually (gt_mem_nhds h2)).filter_mono nhdsWithin_le_nhds
  obtain ⟨ω, w1, w2⟩ := (hev.and self_mem_nhdsWithin).exists
  exact ⟨ω, w2, w1⟩

/-! ## Cases that meet the hypotheses -/

/-- Four spins with Heisenberg couplings between all pairs in a field along z. -/
example : UniformField ⟨4, 1, fun _ _ => 1, fun _ _ => 1, fun _ _ => 1, fun _ => 0, fun _ => 0, fun _ => ((3 : ℝ) : ℂ)⟩ 0 0 3 :=
  ⟨rfl, by decide, fun _ _ _ _ => ⟨rfl, rfl⟩, fun _ _ _ _ => star_one _, fun _ _ => ⟨by simp, by simp, rfl⟩⟩

/-- An operator that raises the energy by two, between the levels of energies zero and two. -/
example : Shifts (!![0, 0; 0, 2] : Matrix (Fin 2) (Fin 2) ℂ) !![0, 0; 1, 0] 2 := by
  unfold Shifts
  ext i j
  fin_cases i <;> fin_cases j <;> simp

/-- A Hermitian operator with complex entries between three levels. -/
example : (!![0, Complex.I, 1; -Complex.I, 0, 0; 1, 0, 2] : Matrix (Fin 3) (Fin 3) ℂ).IsHermitian ∧ Monotone (![0, 1, 1] : Fin 3 → ℝ) := by
  constructor
  · ext i j
    fin_cases i <;> fin_cases j <;> simp
  · intro i j hij
    fin_cases i <;> fin_cases j <;> simp_all

end ED.Props
