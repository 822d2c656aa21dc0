import Verif.Spec.Larmor
import Verif.Props.Dynamics
import Verif.Props.Pauli
import Verif.Props.Thermo
import Verif.Props.JordanWigner
import Verif.Props.Constructors
import Verif.Lemmas.SquareModel
import Mathlib.Analysis.Calculus.MeanValue
import Mathlib.Analysis.Calculus.Deriv.Star
import Mathlib.Analysis.SpecialFunctions.Trigonometric.Deriv

/-! # Property C125: precession of the total spin in a uniform field -/

namespace ED.Props

open Matrix Geometry

/-- Ehrenfest's theorem. -/
theorem expect_deriv {ι : Type} [Fintype ι] {H O : Matrix ι ι ℂ} (hH : H.IsHermitian) {f : ℝ → ι → ℂ}
    (hf : ∀ t i, HasDerivAt (fun s => f s i) (-Complex.I * (H *ᵥ f t) i) t) (t : ℝ) :
    HasDerivAt (fun s => expect O (f s)) (Complex.I * expect (H * O - O * H) (f t)) t := by
  have h1 : ∀ i, HasDerivAt (fun s => star (f s i)) (star (-Complex.I * (H *ᵥ f t) i)) t := fun i => (hf t i).star
  have h2 : ∀ i, HasDerivAt (fun s => (O *ᵥ f s) i) (∑ j, O i j * (-Complex.I * (H *ᵥ f t) j)) t := fun i =>
    HasDerivAt.fun_sum fun j _ => (hf t j).const_mul (O i j)
  have h3 : HasDerivAt (fun s => ∑ i, star (f s i) * (O *ᵥ f s) i)
      (∑ i, (star (-Complex.I * (H *ᵥ f t) i) * (O *ᵥ f t) i + star (f t i) * ∑ j, O i j * (-Complex.I * (H *ᵥ f t) j))) t :=
    HasDerivAt.fun_sum fun i _ => (h1 i).mul (h2 i)
  refine h3.congr_deriv ?_
  have e1 : ∑ i, star (-Complex.I * (H *ᵥ f t) i) * (O *ᵥ f t) i = Complex.I * expect (H * O) (f t) := by
    have : star (H *ᵥ f t) ⬝ᵥ (O *ᵥ f t) = expect (H * O) (f t) := by
      rw [star_mulVec, hH.eq, ← dotProduct_mulVec, mulVec_mulVec]
      rfl
    rw [← this, dotProduct, Finset.mul_sum]
    refine Finset.sum_congr rfl fun i _ => ?_
    simp [mul_assoc]
  have e2 : ∑ i, star (f t i) * ∑ j, O i j * (-Complex.I * (H *ᵥ f t) j) = -Complex.I * expect (O * H) (f t) := by
    have : star (f t) ⬝ᵥ (O *ᵥ (H *ᵥ f t)) = expect (O * H) (f t) := by
      rw [mulVec_mulVec]
      rfl
    rw [← this, dotProduct, Finset.mul_sum]
    refine Finset.sum_congr rfl fun i _ => ?_
    rw [mulVec, dotProduct, Pi.star_apply, Finset.mul_sum, Finset.mul_sum, Finset.mul_sum]
    exact Finset.sum_congr rfl fun j _ => by ring
  rw [Finset.sum_add_distrib, e1, e2]
  have e3 : expect (H * O - O * H) (f t) = expect (H * O) (f t) - expect (O * H) (f t) := by
    simp [expect, Matrix.sub_mulVec, dotProduct_sub]
  rw [e3]
  ring

/-- Averages of Hermitian operators in states that are held by the columns of an array. -/
theorem expVals_states {ι : Type} [Fintype ι] [Basis ι] {a : ND ℂ} {times : List ℝ} {f : ℝ → ι → ℂ}
    (hs : a.shape = [Fintype.card ι, times.length]) (ha : ∀ (i : ι) (t : Fin times.length), a.data [Basis.num i, t] = f times[t] i)
    {O : Mat} {Om : Matrix ι ι ℂ} (hO : O.Is Om) :
    getExpVals a.asMat O = .ok (times.map fun t => (expect Om (f t)).re) := by
  have hV : a.asMat.Is (Matrix.of fun (i : ι) (t : Fin times.length) => f times[t] i) := by
    refine ⟨?_, ?_, fun i t => ha i t⟩
    · simp [ND.asMat, hs]
    · simp [ND.asMat, hs]
  rw [getExpVals_is hV hO]
  congr 1
  have : ∀ t : Fin times.length, colOf (Matrix.of fun (i : ι) (t : Fin times.length) => f times[t] i) t = f times[t] := fun t => rfl
  simp only [this]
  refine List.ext_getElem (by simp) fun n h1 h2 => ?_
  simp

/-- Everything about the model: the Hamiltonian and the total spin. -/
theorem larmor_operators (F : Spins) (h : F.twoS = 1) (hn : 0 < F.nsites)
    (hj : ∀ i < F.nsites, ∀ j < i, F.jx i j = F.jy i j ∧ F.jy i j = F.jz i j) {a b c : ℂ}
    (hf : ∀ i < F.nsites, F.hx i = a ∧ F.hy i = b ∧ F.hz i = c) :
    ∃ H X Y Z : Op F.nsites 2, Gives (F.createH none) H ∧ Gives (getSumOp F.sys pauliX 0 "boson") X ∧
      Gives (getSumOp F.sys pauliY 0 "boson") Y ∧ Gives (getSumOp F.sys pauliZ 0 "boson") Z ∧
      Complex.I • (H * X - X * H) = c • Y + b • Z ∧ Complex.I • (H * Y - Y * H) = a • Z - c • X ∧
      Complex.I • (H * Z - Z * H) = -(b • X) - a • Y := by
  obtain ⟨n, d, jx, jy, jz, hx, hy, hz⟩ := F
  obtain rfl : d = 1 := h
  obtain ⟨X, Y, Z, gx, gy, gz, q1, q2, q3⟩ := C96_total_spin hn
  obtain ⟨H0, X', Y', Z', g0, gx', gy', gz', c1, c2, c3⟩ := C99_isotropic ⟨n, 1, jx, jy, jz, fun _ => 0, fun _ => 0, fun _ => 0⟩ rfl hn hj
    (fun _ _ => ⟨rfl, rfl, rfl⟩)
  obtain rfl : X = X' := gives_unique gx gx'
  obtain rfl : Y = Y' := gives_unique gy gy'
  obtain rfl : Z = Z' := gives_unique gz gz'
  obtain ⟨px, py, pz⟩ := pauli_sums hn
  have ex : X = ∑ k, siteOp sigmaX k := gives_unique gx px
  have ey : Y = ∑ k, siteOp sigmaY k := gives_unique gy py
  have ez : Z = ∑ k, siteOp sigmaZ k := gives_unique gz pz
  have e0 : H0 = _ := gives_unique g0 (C75_hamiltonian_partial ⟨n, 1, jx, jy, jz, fun _ => 0, fun _ => 0, fun _ => 0⟩ rfl).1
  have hH : Gives ((⟨n, 1, jx, jy, jz, hx, hy, hz⟩ : Spins).createH none) (H0 - (1 / 2 : ℂ) • (a • X - b • Y + c • Z) : Op n 2) := by
    have := (C75_hamiltonian_partial ⟨n, 1, jx, jy, jz, hx, hy, hz⟩ rfl).1
    refine (congrArg (Gives _) ?_).mp this
    rw [e0, ex, ey, ez]
    unfold spinH
    rw [sub_sub]
    congr 1
    simp only [zero_smul, neg_zero, add_zero, smul_zero, Finset.sum_const_zero, zero_add, Finset.smul_sum]
    rw [← Finset.sum_sub_distrib, ← Finset.sum_add_distrib, Finset.smul_sum]
    refine Finset.sum_congr rfl fun i _ => ?_
    obtain ⟨f1, f2, f3⟩ := hf i i.2
    have f1' : hx i = a := f1
    have f2' : hy i = b := f2
    have f3' : hz i = c := f3
    rw [f1', f2', f3', neg_smul, sub_eq_add_neg]
  have hI : Complex.I * Complex.I = -1 := Complex.I_mul_I
  have two : ∀ A B C : Op n 2, ((1 / 2 : ℂ) • A) * ((1 / 2 : ℂ) • B) - ((1 / 2 : ℂ) • B) * ((1 / 2 : ℂ) • A) =
      Complex.I • ((1 / 2 : ℂ) • C) → A * B - B * A = (2 * Complex.I) • C := by
    intro A B C h
    have h' := congrArg (fun M => (4 : ℂ) • M) h
    simp only [Matrix.smul_mul, Matrix.mul_smul, smul_sub, smul_smul] at h'
    norm_num at h'
    rw [h']
    congr 1
    ring
  have r1 := two _ _ _ q1
  have r2 := two _ _ _ q2
  have r3 := two _ _ _ q3
  have split : ∀ T : Op n 2, H0 * T = T * H0 → (H0 - (1 / 2 : ℂ) • (a • X - b • Y + c • Z)) * T - T * (H0 - (1 / 2 : ℂ) • (a • X - b • Y + c • Z)) =
      -((1 / 2 : ℂ) • (a • (X * T - T * X) - b • (Y * T - T * Y) + c • (Z * T - T * Z))) := by
    intro T hT
    simp only [Matrix.sub_mul, Matrix.mul_sub, Matrix.smul_mul, Matrix.mul_smul, Matrix.add_mul, Matrix.mul_add, hT]
    module
  have n1 : Y * X - X * Y = -((2 * Complex.I) • Z) := by rw [← r1]; abel
  have n2 : Z * Y - Y * Z = -((2 * Complex.I) • X) := by rw [← r2]; abel
  have n3 : X * Z - Z * X = -((2 * Complex.I) • Y) := by rw [← r3]; abel
  have i2 : Complex.I * (1 / 2) * (2 * Complex.I) = -1 := by linear_combination hI
  refine ⟨_, X, Y, Z, hH, gx, gy, gz, ?_, ?_, ?_⟩
  · rw [split X c1, n1, r3, sub_self]
    simp only [smul_zero, zero_sub, smul_neg, neg_neg, smul_add, smul_smul]
    rw [show Complex.I * (1 / 2 * (b * (2 * Complex.I))) = -b by linear_combination b * hI,
      show Complex.I * (1 / 2 * (c * (2 * Complex.I))) = -c by linear_combination c * hI]
    module
  · rw [split Y c2, n2, r1, sub_self]
    simp only [smul_zero, sub_zero, smul_neg, neg_neg, smul_add, smul_smul]
    rw [show Complex.I * (1 / 2 * (a * (2 * Complex.I))) = -a by linear_combination a * hI,
      show Complex.I * (1 / 2 * (c * (2 * Complex.I))) = -c by linear_combination c * hI]
    module
  · rw [split Z c3, n3, r2, sub_self]
    simp only [smul_zero, add_zero, smul_neg, neg_neg, smul_sub, smul_smul]
    rw [show Complex.I * (1 / 2 * (a * (2 * Complex.I))) = -a by linear_combination a * hI,
      show Complex.I * (1 / 2 * (b * (2 * Complex.I))) = -b by linear_combination b * hI]
    module

theorem larmor_hermitian {F : Spins} {a b c : ℝ} (hF : UniformField F a b c) {H : Op F.nsites 2} (gH : Gives (F.createH none) H) :
    H.IsHermitian := by
  obtain ⟨n, d, jx, jy, jz, hx, hy, hz⟩ := F
  obtain rfl : d = 1 := hF.half
  have r2 : ∀ i j : Fin n, star (jy i j) = jy i j := fun i j => by
    have := hF.real i i.2 j j.2
    have e : jx i j = jy i j := (hF.isotropic i i.2 j j.2).1
    rw [← e]
    exact this
  have r3 : ∀ i j : Fin n, star (jz i j) = jz i j := fun i j => by
    have e : jy i j = jz i j := (hF.isotropic i i.2 j j.2).2
    rw [← e]
    exact r2 i j
  have f : ∀ i : Fin n, hx i = a ∧ hy i = b ∧ hz i = c := fun i => hF.field i i.2
  obtain ⟨⟨H', g1, g3⟩, -⟩ := C33_hermitian_partial ⟨n, 1, jx, jy, jz, hx, hy, hz⟩ (Or.inl rfl) (fun i j => hF.real i i.2 j j.2)
    (fun i j => r2 i j) (fun i j => r3 i j) (fun i => by have := (f i).1; simp [this])
    (fun i => by have := (f i).2.1; simp [this]) (fun i => by have := (f i).2.2; simp [this])
  rw [gives_unique gH g1]
  exact g3

/-- Evolution of the averages of the total spin in the field `(a, b, c)`. -/
theorem larmor_motion (S : EigSolvers) (hS : EigContract S) (F : Spins) {a b c : ℝ} (hF : UniformField F a b c) :
    ∃ (A X Y Z : Mat) (w : List ℝ) (M : Mat), F.createH none = .ok A ∧ diagList S A = .ok (w, M) ∧
      getSumOp F.sys pauliX 0 "boson" = .ok X ∧ getSumOp F.sys pauliY 0 "boson" = .ok Y ∧
      getSumOp F.sys pauliZ 0 "boson" = .ok Z ∧
      ∀ (init : Mat) (ψ : Conf F.nsites 2 → ℂ), init.Is (Matrix.of fun i (_ : Fin 1) => ψ i) →
        ∃ s : Fin 3 → ℝ → ℝ, Precesses ![a, -b, c] s ∧
          getExpVals init X = .ok [s 0 0] ∧ getExpVals init Y = .ok [s 1 0] ∧ getExpVals init Z = .ok [s 2 0] ∧
          ∀ times : List ℝ, ∃ ev, quenchTimeEvolve init M w times = .ok ev ∧
            getExpVals ev.asMat X = .ok (times.map (s 0)) ∧ getExpVals ev.asMat Y = .ok (times.map (s 1)) ∧
            getExpVals ev.asMat Z = .ok (times.map (s 2)) := by
  obtain ⟨H, X, Y, Z, ⟨A, hA, hAi⟩, ⟨Xm, gx, gxi⟩, ⟨Ym, gy, gyi⟩, ⟨Zm, gz, gzi⟩, c1, c2, c3⟩ := larmor_operators F hF.half hF.sites
    (fun i hi j hj => hF.isotropic i hi j (hj.trans hi)) hF.field
  have hH : H.IsHermitian := larmor_hermitian hF ⟨A, hA, hAi⟩
  have hd : 2 ≤ Fintype.card (Conf F.nsites 2) := by
    have := hF.sites
    rw [Fintype.card_fun, Fintype.card_fin, Fintype.card_fin]
    exact Nat.le_self_pow (by omega) 2
  haveI : Nonempty (Conf F.nsites 2) := ⟨fun _ => 0⟩
  obtain ⟨m, E, M, V, d1, d2, d3, d4, d5, -⟩ := diagList_ok S hS hAi hH
  obtain ⟨ev, v1, v2, -, -, -, v6⟩ := C22_evolution_partial E hd d2 d3 d4 d5
  refine ⟨A, Xm, Ym, Zm, List.ofFn E, M, hA, d1, gx, gy, gz, fun init ψ hi => ?_⟩
  refine ⟨![fun t => (expect X (ev t ψ)).re, fun t => (expect Y (ev t ψ)).re, fun t => (expect Z (ev t ψ)).re], fun t => ?_, ?_, ?_, ?_,
    fun times => ?_⟩
  · have der : ∀ O : Op F.nsites 2, HasDerivAt (fun s => (expect O (ev s ψ)).re) (expect (Complex.I • (H * O - O * H)) (ev t ψ)).re t := by
      intro O
      have := expect_deriv (O := O) hH (f := fun s => ev s ψ) (fun t i => v6 t ψ i) t
      have h2 := (Complex.reCLM.hasFDerivAt (x := expect O (ev t ψ))).comp_hasDerivAt t this
      refine h2.congr_deriv ?_
      simp [expect, Matrix.smul_mulVec]
    have lin : ∀ (p q : ℝ) (P Q : Op F.nsites 2) (φ : Conf F.nsites 2 → ℂ), (expect ((p : ℂ) • P + (q : ℂ) • Q) φ).re = p * (expect P φ).re + q * (expect Q φ).re := by
      intro p q P Q φ
      simp [expect, Matrix.smul_mulVec, Matrix.add_mulVec, dotProduct_add]
    refine ⟨(der X).congr_deriv ?_, (der Y).congr_deriv ?_, (der Z).congr_deriv ?_⟩
    · rw [c1, lin]
      simp
      ring
    · rw [c2, show ((a : ℂ) • Z - (c : ℂ) • X) = (a : ℂ) • Z + ((-c : ℝ) : ℂ) • X by push_cast; module, lin]
      simp
      ring
    · rw [c3, show (-((b : ℂ) • X) - (a : ℂ) • Y) = ((-b : ℝ) : ℂ) • X + ((-a : ℝ) : ℂ) • Y by push_cast; module, lin]
      simp
      ring
  · rw [getExpVals_is hi gxi]
    simp [v2]
    rfl
  · rw [getExpVals_is hi gyi]
    simp [v2]
    rfl
  · rw [getExpVals_is hi gzi]
    simp [v2]
    rfl
  · obtain ⟨a, a1, a2, a3⟩ := v1 init ψ times hi
    refine ⟨a, a1, ?_, ?_, ?_⟩
    · exact expVals_states (f := fun t => ev t ψ) a2 a3 gxi
    · exact expVals_states (f := fun t => ev t ψ) a2 a3 gyi
    · exact expVals_states (f := fun t => ev t ψ) a2 a3 gzi

theorem rotation_solution {k : ℝ} {u v : ℝ → ℝ} (hu : ∀ t, HasDerivAt u (k * v t) t) (hv : ∀ t, HasDerivAt v (-(k * u t)) t) (t : ℝ) :
    u t = Real.cos (k * t) * u 0 + Real.sin (k * t) * v 0 ∧ v t = Real.cos (k * t) * v 0 - Real.sin (k * t) * u 0 := by
  have hc : ∀ t, HasDerivAt (fun s => Real.cos (k * s)) (-(k * Real.sin (k * t))) t := fun t =>
    (((hasDerivAt_id t).const_mul k).cos).congr_deriv (by simp; ring)
  have hs : ∀ t, HasDerivAt (fun s => Real.sin (k * s)) (k * Real.cos (k * t)) t := fun t =>
    (((hasDerivAt_id t).const_mul k).sin).congr_deriv (by simp; ring)
  have const : ∀ f : ℝ → ℝ, (∀ t, HasDerivAt f 0 t) → f t = f 0 := fun f hf =>
    is_const_of_deriv_eq_zero (fun t => (hf t).differentiableAt) (fun t => (hf t).deriv) t 0
  have e1 := const (fun s => Real.cos (k * s) * u s - Real.sin (k * s) * v s) fun s =>
    (((hc s).mul (hu s)).sub ((hs s).mul (hv s))).congr_deriv (by ring)
  have e2 := const (fun s => Real.sin (k * s) * u s + Real.cos (k * s) * v s) fun s =>
    (((hs s).mul (hu s)).add ((hc s).mul (hv s))).congr_deriv (by ring)
  simp only [mul_zero, Real.cos_zero, Real.sin_zero, one_mul, zero_mul, sub_zero, zero_add] at e1 e2
  have h1 := Real.cos_sq_add_sin_sq (k * t)
  constructor
  · linear_combination Real.cos (k * t) * e1 + Real.sin (k * t) * e2 - u t * h1
  · linear_combination Real.cos (k * t) * e2 - Real.sin (k * t) * e1 - v t * h1

/-- C125 (what holds): in a uniform field without a component along y the averages of the total spin precess about the field, for any
isotropic couplings, any initial state and any list of times. The full claim fails, see `C125_y_violated`. -/
theorem C125_precession_partial (S : EigSolvers) (hS : EigContract S) (F : Spins) {a c : ℝ} (hF : UniformField F a 0 c) :
    ∃ (A X Y Z : Mat) (w : List ℝ) (M : Mat), F.createH none = .ok A ∧ diagList S A = .ok (w, M) ∧
      getSumOp F.sys pauliX 0 "boson" = .ok X ∧ getSumOp F.sys pauliY 0 "boson" = .ok Y ∧
      getSumOp F.sys pauliZ 0 "boson" = .ok Z ∧
      ∀ (init : Mat) (ψ : Conf F.nsites 2 → ℂ), init.Is (Matrix.of fun i (_ : Fin 1) => ψ i) →
        ∃ s : Fin 3 → ℝ → ℝ, Precesses ![a, 0, c] s ∧
          getExpVals init X = .ok [s 0 0] ∧ getExpVals init Y = .ok [s 1 0] ∧ getExpVals init Z = .ok [s 2 0] ∧
          ∀ times : List ℝ, ∃ ev, quenchTimeEvolve init M w times = .ok ev ∧
            getExpVals ev.asMat X = .ok (times.map (s 0)) ∧ getExpVals ev.asMat Y = .ok (times.map (s 1)) ∧
            getExpVals ev.asMat Z = .ok (times.map (s 2)) := by
  have := larmor_motion S hS F hF
  rwa [neg_zero] at this

/-- C125: in a field along z the components of the total spin across the field rotate with the frequency `c` and the component along the
field is constant. -/
theorem C125_larmor (S : EigSolvers) (hS : EigContract S) (F : Spins) {c : ℝ} (hF : UniformField F 0 0 c) :
    ∃ (A X Y Z : Mat) (w : List ℝ) (M : Mat), F.createH none = .ok A ∧ diagList S A = .ok (w, M) ∧
      getSumOp F.sys pauliX 0 "boson" = .ok X ∧ getSumOp F.sys pauliY 0 "boson" = .ok Y ∧
      getSumOp F.sys pauliZ 0 "boson" = .ok Z ∧
      ∀ (init : Mat) (ψ : Conf F.nsites 2 → ℂ), init.Is (Matrix.of fun i (_ : Fin 1) => ψ i) →
        ∃ x y z : ℝ, getExpVals init X = .ok [x] ∧ getExpVals init Y = .ok [y] ∧ getExpVals init Z = .ok [z] ∧
          ∀ times : List ℝ, ∃ ev, quenchTimeEvolve init M w times = .ok ev ∧
            getExpVals ev.asMat X = .ok (times.map fun t => Real.cos (c * t) * x + Real.sin (c * t) * y) ∧
            getExpVals ev.asMat Y = .ok (times.map fun t => Real.cos (c * t) * y - Real.sin (c * t) * x) ∧
            getExpVals ev.asMat Z = .ok (times.map fun _ => z) := by
  obtain ⟨A, X, Y, Z, w, M, h1, h2, h3, h4, h5, h6⟩ := C125_precession_partial S hS F hF
  refine ⟨A, X, Y, Z, w, M, h1, h2, h3, h4, h5, fun init ψ hi => ?_⟩
  obtain ⟨s, p, i1, i2, i3, i4⟩ := h6 init ψ hi
  refine ⟨s 0 0, s 1 0, s 2 0, i1, i2, i3, fun times => ?_⟩
  obtain ⟨ev, e1, e2, e3, e4⟩ := i4 times
  have sol := rotation_solution (k := c) (u := s 0) (v := s 1) (fun t => (p t).1.congr_deriv (by simp; ring))
    (fun t => (p t).2.1.congr_deriv (by simp; ring))
  have sz : ∀ t, s 2 t = s 2 0 := fun t => is_const_of_deriv_eq_zero (fun t => (p t).2.2.differentiableAt)
    (fun t => by rw [(p t).2.2.deriv]; simp) t 0
  refine ⟨ev, e1, e2.trans ?_, e3.trans ?_, e4.trans ?_⟩
  · exact congrArg Except.ok (List.map_congr_left fun t _ => (sol t).1)
  · exact congrArg Except.ok (List.map_congr_left fun t _ => (sol t).2)
  · exact congrArg Except.ok (List.map_congr_left fun t _ => sz t)

/-- C125 (violation): in a field along y the total spin precesses in the opposite sense. -/
theorem C125_y_reversed (S : EigSolvers) (hS : EigContract S) (F : Spins) {b : ℝ} (hF : UniformField F 0 b 0) :
    ∃ (A X Y Z : Mat) (w : List ℝ) (M : Mat), F.createH none = .ok A ∧ diagList S A = .ok (w, M) ∧
      getSumOp F.sys pauliX 0 "boson" = .ok X ∧ getSumOp F.sys pauliY 0 "boson" = .ok Y ∧
      getSumOp F.sys pauliZ 0 "boson" = .ok Z ∧
      ∀ (init : Mat) (ψ : Conf F.nsites 2 → ℂ), init.Is (Matrix.of fun i (_ : Fin 1) => ψ i) →
        ∃ s : Fin 3 → ℝ → ℝ, Precesses ![0, -b, 0] s ∧
          getExpVals init X = .ok [s 0 0] ∧ getExpVals init Y = .ok [s 1 0] ∧ getExpVals init Z = .ok [s 2 0] ∧
          ∀ times : List ℝ, ∃ ev, quenchTimeEvolve init M w times = .ok ev ∧
            getExpVals ev.asMat X = .ok (times.map (s 0)) ∧ getExpVals ev.asMat Y = .ok (times.map (s 1)) ∧
            getExpVals ev.asMat Z = .ok (times.map (s 2)) :=
  larmor_motion S hS F hF

/-- One spin in a field along y. -/
def spinInY : Spins := ⟨1, 1, fun _ _ => 0, fun _ _ => 0, fun _ _ => 0, fun _ => 0, fun _ => 1, fun _ => 0⟩

theorem spinInY_field : UniformField spinInY 0 1 0 :=
  ⟨rfl, by decide, fun _ _ _ _ => ⟨rfl, rfl⟩, fun _ _ _ _ => star_zero _, fun _ _ => ⟨by simp [spinInY], by simp [spinInY], by simp [spinInY]⟩⟩

/-- The state with the spin up. -/
def spinUp : Mat := ⟨2, 1, fun i _ => if i = 0 then 1 else 0⟩

/-- C125 (violation): a spin that points along z in the unit field along y turns towards the positive x direction; every precession
about the given field turns it towards the negative one. -/
theorem C125_y_violated (S : EigSolvers) (hS : EigContract S) :
    (∃ (A X Z : Mat) (w : List ℝ) (M : Mat) (ev : ND ℂ), spinInY.createH none = .ok A ∧ diagList S A = .ok (w, M) ∧
      getSumOp spinInY.sys pauliX 0 "boson" = .ok X ∧ getSumOp spinInY.sys pauliZ 0 "boson" = .ok Z ∧
      getExpVals spinUp X = .ok [0] ∧ getExpVals spinUp Z = .ok [1] ∧
      quenchTimeEvolve spinUp M w [Real.pi / 2] = .ok ev ∧ getExpVals ev.asMat X = .ok [1]) ∧
    ∀ s, Precesses ![0, 1, 0] s → s 0 0 = 0 → s 2 0 = 1 → s 0 (Real.pi / 2) = -1 := by
  constructor
  · obtain ⟨A, X, Y, Z, w, M, h1, h2, h3, h4, h5, h6⟩ := C125_y_reversed S hS spinInY spinInY_field
    have hi : spinUp.Is (Matrix.of fun (i : Conf 1 2) (_ : Fin 1) => if i 0 = 0 then (1 : ℂ) else 0) := by
      refine ⟨by simp [spinUp, Fintype.card_fun], by simp [spinUp], fun i j => ?_⟩
      have e : Basis.num i = (i 0 : ℕ) := by
        show ∑ k : Fin 1, (i k : ℕ) * 2 ^ (1 - 1 - (k : ℕ)) = _
        simp
      show (if Basis.num i = 0 then (1 : ℂ) else 0) = if i 0 = 0 then 1 else 0
      rw [e]
      exact if_congr Fin.val_eq_zero_iff rfl rfl
    obtain ⟨s, p, i1, i2, i3, i4⟩ := h6 spinUp _ hi
    obtain ⟨ev, e1, e2, -, -⟩ := i4 [Real.pi / 2]
    obtain ⟨px, -, pz⟩ := pauli_sums (n := 1) one_pos
    have val : ∀ (O : Mat) (T : Matrix (Fin 2) (Fin 2) ℂ) (o : Mat) (r : ℝ), getSumOp spinInY.sys o 0 "boson" = .ok O →
        Gives (getSumOp ⟨1, 1, 2⟩ o 0 "boson") (∑ k, siteOp T k : Op 1 2) → getExpVals spinUp O = .ok [r] → r = (T 0 0).re := by
      rintro O T o r g ⟨O', g', gi⟩ hr
      obtain rfl : O = O' := Except.ok.inj (g.symm.trans g')
      rw [getExpVals_is hi gi] at hr
      have h1 := Except.ok.inj hr
      rw [List.ofFn_succ, List.ofFn_zero] at h1
      have h2 := (List.cons.inj h1).1
      rw [← h2]
      congr 1
      have hag : ∀ s t : Conf 1 2, AgreeOff 0 s t := fun s t k hk => absurd (Subsingleton.elim k 0) hk
      have hsum : ∀ f : Conf 1 2 → ℂ, ∑ t, f t = f (fun _ => 0) + f (fun _ => 1) := by
        intro f
        rw [← (Equiv.funUnique (Fin 1) (Fin 2)).symm.sum_comp f, Fin.sum_univ_two]
        rfl
      have ent : ∀ s t : Conf 1 2, (∑ k, siteOp T k : Op 1 2) s t = T (s 0) (t 0) := by
        intro s t
        rw [Fin.sum_univ_one, siteOp, Matrix.of_apply, if_pos (hag s t)]
      have ex : expect (∑ k, siteOp T k : Op 1 2) (colOf (Matrix.of fun (i : Conf 1 2) (_ : Fin 1) => if i 0 = 0 then (1 : ℂ) else 0) 0) =
          ∑ s : Conf 1 2, star (if s 0 = 0 then (1 : ℂ) else 0) * ∑ t : Conf 1 2, (∑ k, siteOp T k : Op 1 2) s t * (if t 0 = 0 then 1 else 0) := rfl
      rw [ex, hsum, hsum, hsum]
      simp only [ent]
      simp
    have x0 : s 0 0 = 0 := by
      rw [val X _ _ _ h3 px i1]
      simp [sigmaX]
    have z0 : s 2 0 = 1 := by
      rw [val Z _ _ _ h5 pz i3]
      simp [sigmaZ]
    refine ⟨A, X, Z, w, M, ev, h1, h2, h3, h5, by rw [i1, x0], by rw [i3, z0], e1, ?_⟩
    rw [e2]
    have sol := rotation_solution (k := 1) (u := s 0) (v := s 2) (fun t => (p t).1.congr_deriv (by simp))
      (fun t => (p t).2.2.congr_deriv (by simp))
    simp [(sol (Real.pi / 2)).1, x0, z0]
  · intro s p x0 z0
    have sol := rotation_solution (k := -1) (u := s 0) (v := s 2) (fun t => (p t).1.congr_deriv (by simp))
      (fun t => (p t).2.2.congr_deriv (by simp))
    rw [(sol (Real.pi / 2)).1, x0, z0]
    simp

/-- C125: the model of the example on pairs: spins on a rectangle, open or periodic, in a field along z. -/
theorem C125_lattice (S : EigSolvers) (hS : EigContract S) {nx ny : ℕ} (hx : 0 < nx) (hy : 0 < ny) (harea : nx * ny < 10 ^ 14)
    {o1 o2 : Bool} (h1 : nx = 1 → o1 = true) (h2 : ny = 1 → o2 = true) (j c : ℝ) :
    ∃ g F A X Y Z w M, createSquare nx ny 0 0 o1 o2 = .ok g ∧
      Spins.init g.nsites 1 (fun a b => (g.adjacency.e a b : ℂ)) g.phase.e (.scalar j) (.scalar j) (.scalar j) (.scalar 0) (.scalar 0)
        (.scalar c) false = .ok F ∧ F.createH none = .ok A ∧ diagList S A = .ok (w, M) ∧
      getSumOp F.sys pauliX 0 "boson" = .ok X ∧ getSumOp F.sys pauliY 0 "boson" = .ok Y ∧
      getSumOp F.sys pauliZ 0 "boson" = .ok Z ∧
      ∀ (init : Mat) (ψ : Conf F.nsites 2 → ℂ), init.Is (Matrix.of fun i (_ : Fin 1) => ψ i) →
        ∃ x y z : ℝ, getExpVals init X = .ok [x] ∧ getExpVals init Y = .ok [y] ∧ getExpVals init Z = .ok [z] ∧
          ∀ times : List ℝ, ∃ ev, quenchTimeEvolve init M w times = .ok ev ∧
            getExpVals ev.asMat X = .ok (times.map fun t => Real.cos (c * t) * x + Real.sin (c * t) * y) ∧
            getExpVals ev.asMat Y = .ok (times.map fun t => Real.cos (c * t) * y - Real.sin (c * t) * x) ∧
            getExpVals ev.asMat Z = .ok (times.map fun _ => z) := by
  obtain ⟨g, hg, hN, -⟩ := C50_square nx ny hx hy 0 0 o1 o2 h1 h2
  obtain ⟨-, hph, -⟩ := square_facts hx hy harea h1 h2 hg
  obtain ⟨A, X, Y, Z, w, M, h⟩ := C125_larmor S hS ⟨g.nsites, 1, fun a b => (j : ℂ) * (g.adjacency.e a b : ℂ) * g.phase.e a b,
    fun a b => (j : ℂ) * (g.adjacency.e a b : ℂ) * g.phase.e a b, fun a b => (j : ℂ) * (g.adjacency.e a b : ℂ) * g.phase.e a b,
    fun _ => ((0 : ℝ) : ℂ), fun _ => ((0 : ℝ) : ℂ), fun _ => (c : ℂ)⟩ (c := c)
    ⟨rfl, by rw [hN]; positivity, fun _ _ _ _ => ⟨rfl, rfl⟩, fun a _ b _ => by simp [hph], fun _ _ => ⟨rfl, rfl, rfl⟩⟩
  exact ⟨g, _, A, X, Y, Z, w, M, hg, rfl, h⟩

/-- Four spins with Heisenberg couplings between all pairs, in a field along z, from the state with all spins along x. -/
example (S : EigSolvers) (hS : EigContract S) :=
  C125_larmor S hS ⟨4, 1, fun _ _ => 1, fun _ _ => 1, fun _ _ => 1, fun _ => 0, fun _ => 0, fun _ => ((3 : ℝ) : ℂ)⟩ (c := 3)
    ⟨rfl, by decide, fun _ _ _ _ => ⟨rfl, rfl⟩, fun _ _ _ _ => star_one _, fun _ _ => ⟨by simp, by simp, rfl⟩⟩

/-- A field in the plane of x and z. -/
example (S : EigSolvers) (hS : EigContract S) :=
  C125_precession_partial S hS ⟨4, 1, fun _ _ => 1, fun _ _ => 1, fun _ _ => 1, fun _ => ((2 : ℝ) : ℂ), fun _ => 0, fun _ => ((3 : ℝ) : ℂ)⟩
    (a := 2) (c := 3)
    ⟨rfl, by decide, fun _ _ _ _ => ⟨rfl, rfl⟩, fun _ _ _ _ => star_one _, fun _ _ => ⟨rfl, by simp, rfl⟩⟩

end ED.Props
