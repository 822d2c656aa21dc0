import Verif.Props.Greens
import Verif.Lemmas.Round

/-! # Properties C88–C95: transforms of Green's functions and hydrodynamic response -/

namespace ED.Props

open scoped BigOperators
open Filter Topology MeasureTheory

/-! ## C88: free level, imaginary time and frequency -/

theorem fermion_phase {beta w : ℝ} (hb : 0 < beta) (k : ℤ) (hw : w = (2 * k + 1) * Real.pi / beta) :
    Complex.exp (Complex.I * (w : ℂ) * (beta : ℂ)) = -1 := by
  have : Complex.I * (w : ℂ) * (beta : ℂ) = k * (2 * Real.pi * Complex.I) + Real.pi * Complex.I := by
    have : w * beta = (2 * k + 1) * Real.pi := by rw [hw]; field_simp
    have h : (w : ℂ) * (beta : ℂ) = (2 * k + 1) * Real.pi := by exact_mod_cast congrArg Complex.ofReal this
    linear_combination Complex.I * h
  rw [this, Complex.exp_add, Complex.exp_int_mul_two_pi_mul_I, one_mul, Complex.exp_pi_mul_I]

theorem boson_phase {beta w : ℝ} (hb : 0 < beta) (k : ℤ) (hw : w = 2 * k * Real.pi / beta) :
    Complex.exp (Complex.I * (w : ℂ) * (beta : ℂ)) = 1 := by
  have : Complex.I * (w : ℂ) * (beta : ℂ) = k * (2 * Real.pi * Complex.I) := by
    have : w * beta = 2 * k * Real.pi := by rw [hw]; field_simp
    have h : (w : ℂ) * (beta : ℂ) = 2 * k * Real.pi := by exact_mod_cast congrArg Complex.ofReal this
    linear_combination Complex.I * h
  rw [this, Complex.exp_int_mul_two_pi_mul_I]

/-- C88: the imaginary-frequency function of a free level is, at each returned frequency, the integral
over one period of the imaginary-time function against `exp(i ω τ)`. -/
theorem C88_fourier (epsilon beta maxFrq : ℝ) (hb : 0 < beta) :
    ∃ (G : ℝ → ℝ) (g : List ℂ) (l : List ℝ),
      (∀ tau, noninteractingTau tau epsilon beta "fermion" = .ok (G tau)) ∧
      noninteractingImagfrq maxFrq epsilon beta "fermion" = .ok (g, l) ∧
      getMatsubaraFrqs beta maxFrq "fermion" = .ok l ∧
      g = l.map fun w : ℝ =>
        ∫ tau in (0 : ℝ)..beta, Complex.exp (Complex.I * (w : ℂ) * (tau : ℂ)) * (G tau : ℂ) := by
  obtain ⟨⟨l, hl, -, hmem⟩, -⟩ := C70_matsubara beta maxFrq hb
  set f : ℝ := 1 / (1 + Real.exp (beta * epsilon)) with hf
  refine ⟨fun tau => -Real.exp (-epsilon * tau) *
    ((1 - f) * heaviside0 tau - f * heaviside0 (-1 * tau)), _, l, fun tau => rfl, by
      unfold noninteractingImagfrq; rw [if_pos rfl, hl]; rfl, hl, ?_⟩
  refine List.map_congr_left fun w hw => ?_
  obtain ⟨⟨k, hk⟩, -⟩ := (hmem w).1 hw
  have hpi := Real.pi_pos
  have hw0 : w ≠ 0 := by
    intro h
    rw [h] at hk
    have : ((2 * k + 1 : ℤ) : ℝ) * Real.pi / beta = 0 := by push_cast; exact hk.symm
    rw [div_eq_zero_iff, mul_eq_zero, Int.cast_eq_zero] at this
    rcases this with (h | h) | h
    · omega
    · exact hpi.ne' h
    · exact hb.ne' h
  set c : ℂ := Complex.I * (w : ℂ) - (epsilon : ℂ) with hc
  have hc0 : c ≠ 0 := by
    intro h
    have := congrArg Complex.im h
    simp [hc] at this
    exact hw0 this
  have hint : (∫ tau in (0 : ℝ)..beta, Complex.exp (Complex.I * (w : ℂ) * (tau : ℂ)) *
      ((-Real.exp (-epsilon * tau) * ((1 - f) * heaviside0 tau - f * heaviside0 (-1 * tau)) : ℝ) : ℂ)) =
      ∫ tau in (0 : ℝ)..beta, (-(1 - f) : ℂ) * Complex.exp (c * tau) := by
    refine intervalIntegral.integral_congr_ae (Eventually.of_forall fun tau ht => ?_)
    rw [Set.uIoc_of_le hb.le] at ht
    have h1 : heaviside0 tau = 1 := if_pos ht.1
    have h2 : heaviside0 (-1 * tau) = 0 := if_neg (by have := ht.1; linarith)
    have h3 : Complex.exp (c * tau) = Complex.exp (Complex.I * (w : ℂ) * (tau : ℂ)) *
        Complex.exp (-(epsilon : ℂ) * tau) := by
      rw [hc, ← Complex.exp_add]
      ring_nf
    rw [h1, h2, h3]
    push_cast
    ring
  rw [hint, intervalIntegral.integral_const_mul, integral_exp_mul_complex hc0]
  have he : Complex.exp (c * beta) = -((Real.exp (-(beta * epsilon)) : ℝ) : ℂ) := by
    rw [hc, sub_mul, sub_eq_add_neg, Complex.exp_add, fermion_phase hb k hk]
    push_cast
    ring_nf
  have hfe : (1 - f) * (Real.exp (-(beta * epsilon)) + 1) = 1 := by
    have := Real.exp_pos (beta * epsilon)
    rw [hf, Real.exp_neg]
    field_simp
    ring
  have hfc : (1 - (f : ℂ)) * (((Real.exp (-(beta * epsilon)) : ℝ) : ℂ) + 1) = 1 := by
    exact_mod_cast congrArg Complex.ofReal hfe
  rw [he, Complex.ofReal_zero, mul_zero, Complex.exp_zero, eq_comm, ← mul_div_assoc]
  congr 1
  linear_combination hfc

/-! ## C89: spectral function of a broadened level -/

/-- C89: the spectral function of a broadened level is positive, symmetric about the level and has
integral `2π`. -/
theorem C89_spectral (epsilon eta : ℝ) (he : 0 < eta) :
    (∀ w, 0 < spectralFn w epsilon eta) ∧
    (∀ x, spectralFn (epsilon + x) epsilon eta = spectralFn (epsilon - x) epsilon eta) ∧
    ∫ w, spectralFn w epsilon eta = 2 * Real.pi := by
  have hpi := Real.pi_pos
  refine ⟨fun w => ?_, fun x => ?_, ?_⟩
  · unfold spectralFn
    positivity
  · unfold spectralFn
    congr 3
    ring
  · have h1 : ∀ w, spectralFn w epsilon eta =
        (fun y => (fun x => 2 / eta * (1 + x ^ 2)⁻¹) (y / eta)) (w - epsilon) := by
      intro w
      unfold spectralFn
      have : eta ^ 2 + (w - epsilon) ^ 2 ≠ 0 := by positivity
      simp only
      field_simp
    simp_rw [h1]
    rw [integral_sub_right_eq_self (fun y => (fun x => 2 / eta * (1 + x ^ 2)⁻¹) (y / eta)) epsilon,
      Measure.integral_comp_div (fun x => 2 / eta * (1 + x ^ 2)⁻¹) eta, integral_const_mul,
      integral_univ_inv_one_add_sq, abs_of_pos he, smul_eq_mul]
    field_simp

/-! ## C90: imaginary-time function from Matsubara data -/

theorem imagfrqFt_map (taus l : List ℝ) (F : ℝ → ℂ) (beta : ℝ) :
    imagfrqFt taus l (l.map F) beta = .ok (taus.map fun t : ℝ =>
      (l.map fun w : ℝ => F w * Complex.exp (-Complex.I * (w : ℂ) * (t : ℂ))).sum / (beta : ℂ)) := by
  unfold imagfrqFt
  rw [if_pos (by simp)]
  congr 1
  refine List.map_congr_left fun t _ => ?_
  rw [List.zipWith_map_left, List.zipWith_self]

theorem sum_shift (l : List ℝ) (F : ℝ → ℂ) (beta t : ℝ) (s : ℂ)
    (h : ∀ w ∈ l, Complex.exp (-Complex.I * (w : ℂ) * (beta : ℂ)) = s) :
    (l.map fun w : ℝ => F w * Complex.exp (-Complex.I * (w : ℂ) * ((t + beta : ℝ) : ℂ))).sum =
      s * (l.map fun w : ℝ => F w * Complex.exp (-Complex.I * (w : ℂ) * (t : ℂ))).sum := by
  rw [← List.sum_map_mul_left]
  congr 1
  refine List.map_congr_left fun w hw => ?_
  rw [Complex.ofReal_add, mul_add, Complex.exp_add, h w hw]
  ring

theorem perm_neg {l : List ℝ} (hs : l.Pairwise (· < ·)) (h : ∀ x, x ∈ l ↔ -x ∈ l) :
    (l.map fun x => -x).Perm l := by
  have hnd : l.Nodup := hs.imp fun h => h.ne
  refine (List.perm_ext_iff_of_nodup (hnd.map neg_injective) hnd).2 fun x => ?_
  rw [h x, List.mem_map]
  constructor
  · rintro ⟨y, hy, rfl⟩; simpa using hy
  · intro hx; exact ⟨-x, hx, neg_neg x⟩

theorem sum_real {l : List ℝ} (hp : (l.map fun x => -x).Perm l) (F : ℝ → ℂ)
    (hF : ∀ w, F (-w) = (starRingEnd ℂ) (F w)) (t : ℝ) :
    (starRingEnd ℂ) (l.map fun w : ℝ => F w * Complex.exp (-Complex.I * (w : ℂ) * (t : ℂ))).sum =
      (l.map fun w : ℝ => F w * Complex.exp (-Complex.I * (w : ℂ) * (t : ℂ))).sum := by
  rw [map_list_sum, List.map_map, ← (hp.map _).sum_eq, List.map_map]
  congr 1
  refine List.map_congr_left fun w _ => ?_
  simp only [Function.comp_apply, map_mul, ← Complex.exp_conj, map_neg, Complex.conj_I,
    Complex.conj_ofReal, hF, Complex.conj_conj]
  push_cast
  ring_nf

/-- C90: the imaginary-time function computed from data on the frequencies of the library is
antiperiodic for fermions and periodic for bosons, and real when the data at `-ω` are the conjugate of
the data at `ω`. -/
theorem C90_from_matsubara (beta maxFrq : ℝ) (hb : 0 < beta) (hm : 0 < maxFrq) (F : ℝ → ℂ) :
    (∃ (l : List ℝ) (G : ℝ → ℂ), getMatsubaraFrqs beta maxFrq "fermion" = .ok l ∧
      (∀ taus, imagfrqFt taus l (l.map F) beta = .ok (taus.map G)) ∧
      (∀ tau, G (tau + beta) = -G tau) ∧
      ((∀ w, F (-w) = (starRingEnd ℂ) (F w)) → ∀ tau, (G tau).im = 0)) ∧
    ∃ (l : List ℝ) (G : ℝ → ℂ), getMatsubaraFrqs beta maxFrq "boson" = .ok l ∧
      (∀ taus, imagfrqFt taus l (l.map F) beta = .ok (taus.map G)) ∧
      (∀ tau, G (tau + beta) = G tau) ∧
      ((∀ w, F (-w) = (starRingEnd ℂ) (F w)) → ∀ tau, (G tau).im = 0) := by
  obtain ⟨⟨l, hl, hs, hmem⟩, hbos⟩ := C70_matsubara beta maxFrq hb
  obtain ⟨l', hl', hs', hmem'⟩ := hbos hm
  constructor
  · refine ⟨l, _, hl, fun taus => imagfrqFt_map taus l F beta, fun tau => ?_, fun hF tau => ?_⟩
    · rw [sum_shift l F beta tau (-1)]
      · ring
      · intro w hw
        obtain ⟨⟨k, hk⟩, -⟩ := (hmem w).1 hw
        rw [neg_mul, neg_mul, Complex.exp_neg, fermion_phase hb k hk]
        norm_num
    · have hp : (l.map fun x => -x).Perm l := by
        refine perm_neg hs fun x => ?_
        rw [hmem, hmem, abs_neg]
        refine and_congr_left fun _ => ⟨?_, ?_⟩
        · rintro ⟨k, rfl⟩; exact ⟨-k - 1, by push_cast; ring⟩
        · rintro ⟨k, hk⟩; exact ⟨-k - 1, by push_cast; linear_combination -hk⟩
      apply Complex.conj_eq_iff_im.1
      rw [map_div₀, sum_real hp F hF, Complex.conj_ofReal]
  · refine ⟨l', _, hl', fun taus => imagfrqFt_map taus l' F beta, fun tau => ?_, fun hF tau => ?_⟩
    · rw [sum_shift l' F beta tau 1]
      · ring
      · intro w hw
        obtain ⟨⟨k, hk⟩, -⟩ := (hmem' w).1 hw
        rw [neg_mul, neg_mul, Complex.exp_neg, boson_phase hb k hk]
        norm_num
    · have hp : (l'.map fun x => -x).Perm l' := by
        refine perm_neg hs' fun x => ?_
        rw [hmem', hmem', abs_neg]
        refine and_congr_left fun _ => ⟨?_, ?_⟩
        · rintro ⟨k, rfl⟩; exact ⟨-k, by push_cast; ring⟩
        · rintro ⟨k, hk⟩; exact ⟨-k, by push_cast; linear_combination -hk⟩
      apply Complex.conj_eq_iff_im.1
      rw [map_div₀, sum_real hp F hF, Complex.conj_ofReal]

example : ∀ w : ℝ, (fun w : ℝ => 1 / (Complex.I * (w : ℂ) - 2)) (-w) =
    (starRingEnd ℂ) ((fun w : ℝ => 1 / (Complex.I * (w : ℂ) - 2)) w) := by
  intro w
  simp [Complex.conj_ofNat]

/-! ## C91: hydrodynamic susceptibility -/

/-- The denominator of the hydrodynamic susceptibility with relaxation rate `Γ` and damping `γ`. -/
theorem hydro_denominator (r g : ℝ) (hr : 0 < r) (hg : 0 < g) (w : ℂ) (hw : 0 ≤ w.im) :
    1 - Complex.I * w / (r : ℂ) - w ^ 2 / ((g : ℂ) * (r : ℂ)) ≠ 0 := by
  intro h
  have hre := congrArg Complex.re h
  have him := congrArg Complex.im h
  have hrc : (r : ℂ) ≠ 0 := by exact_mod_cast hr.ne'
  have hgc : (g : ℂ) ≠ 0 := by exact_mod_cast hg.ne'
  have h2 : (g : ℂ) * r - Complex.I * w * g - w ^ 2 = 0 := by
    have := congrArg (· * ((g : ℂ) * r)) h
    simp only [zero_mul] at this
    rw [← this]
    field_simp
  have hre := congrArg Complex.re h2
  have him := congrArg Complex.im h2
  simp [pow_two] at hre him
  have hx : w.re * (g + 2 * w.im) = 0 := by linarith
  rcases mul_eq_zero.1 hx with h0 | h0
  · rw [h0] at hre
    nlinarith [mul_pos hg hr, mul_nonneg hw hg.le, mul_nonneg hw hw]
  · linarith

theorem hydro_denominator' (r : ℝ) (hr : 0 < r) (w : ℂ) (hw : 0 ≤ w.im) :
    1 - Complex.I * w / (r : ℂ) ≠ 0 := by
  intro h
  have hrc : (r : ℂ) ≠ 0 := by exact_mod_cast hr.ne'
  have h2 : (r : ℂ) - Complex.I * w = 0 := by
    have := congrArg (· * (r : ℂ)) h
    simp only [zero_mul] at this
    rw [← this]
    field_simp
  have hre := congrArg Complex.re h2
  simp at hre
  linarith

/-- C91: with positive diffusion rate (and damping) the hydrodynamic susceptibility has no pole in the
closed upper half plane, is the static susceptibility at zero frequency, satisfies
`chi(-ω) = conj chi(ω)` at real frequencies, and its imaginary part there has the sign of `ω chi0`. -/
theorem C91_hydro (k chi0 d0 d2 : ℝ) (gamma : Option ℝ) (hr : 0 < d0 * k ^ 2 + d2 * k ^ 4)
    (hg : ∀ g ∈ gamma, 0 < g) (hc : 0 < chi0) :
    (∀ w : ℂ, 0 ≤ w.im → ∃ D : ℂ, D ≠ 0 ∧ chiHydro w k chi0 d0 d2 gamma * D = chi0 ∧
      DifferentiableAt ℂ (fun z => chiHydro z k chi0 d0 d2 gamma) w) ∧
    chiHydro 0 k chi0 d0 d2 gamma = chi0 ∧
    (∀ w : ℝ, chiHydro ((-w : ℝ) : ℂ) k chi0 d0 d2 gamma =
      (starRingEnd ℂ) (chiHydro (w : ℂ) k chi0 d0 d2 gamma)) ∧
    ∀ w : ℝ, 0 < w → 0 < (chiHydro (w : ℂ) k chi0 d0 d2 gamma).im := by
  set r := d0 * k ^ 2 + d2 * k ^ 4 with hrdef
  have im_pos : ∀ (a b : ℝ), 0 < b → 0 < ((chi0 : ℂ) / ((a : ℂ) - Complex.I * (b : ℂ))).im := by
    intro a b hb
    have hn : 0 < Complex.normSq ((a : ℂ) - Complex.I * (b : ℂ)) := by
      rw [Complex.normSq_pos]
      intro h
      have := congrArg Complex.im h
      simp at this
      linarith
    rw [Complex.div_im]
    simp only [Complex.ofReal_im, Complex.ofReal_re, zero_mul, zero_div, zero_sub, Complex.sub_im,
      Complex.mul_im, Complex.I_re, Complex.I_im, one_mul, zero_add, mul_zero]
    rw [← neg_div, mul_neg, neg_neg]
    exact div_pos (mul_pos hc hb) hn
  cases gamma with
  | none =>
    have hdef : ∀ z, chiHydro z k chi0 d0 d2 none = (chi0 : ℂ) / (1 - Complex.I * z / (r : ℂ)) :=
      fun z => rfl
    refine ⟨fun w hw => ⟨1 - Complex.I * w / (r : ℂ), hydro_denominator' r hr w hw, ?_, ?_⟩, ?_,
      fun w => ?_, fun w hw => ?_⟩
    · rw [hdef, div_mul_cancel₀ _ (hydro_denominator' r hr w hw)]
    · simp_rw [hdef]
      exact (differentiableAt_const _).fun_div (by fun_prop) (hydro_denominator' r hr w hw)
    · rw [hdef]; simp
    · rw [hdef, hdef, map_div₀]
      simp [Complex.conj_ofReal]
    · rw [hdef]
      have := im_pos 1 (w / r) (by positivity)
      rw [show (1 : ℂ) - Complex.I * (w : ℂ) / (r : ℂ) = ((1 : ℝ) : ℂ) - Complex.I * ((w / r : ℝ) : ℂ) by
        push_cast; ring]
      exact this
  | some g =>
    have hg : 0 < g := hg g rfl
    have hdef : ∀ z, chiHydro z k chi0 d0 d2 (some g) =
      (chi0 : ℂ) / (1 - Complex.I * z / (r : ℂ) - z ^ 2 / ((g : ℂ) * (r : ℂ))) := fun z => rfl
    refine ⟨fun w hw => ⟨1 - Complex.I * w / (r : ℂ) - w ^ 2 / ((g : ℂ) * (r : ℂ)),
      hydro_denominator r g hr hg w hw, ?_, ?_⟩, ?_, fun w => ?_, fun w hw => ?_⟩
    · rw [hdef, div_mul_cancel₀ _ (hydro_denominator r g hr hg w hw)]
    · simp_rw [hdef]
      exact (differentiableAt_const _).fun_div (by fun_prop) (hydro_denominator r g hr hg w hw)
    · rw [hdef]; simp
    · rw [hdef, hdef, map_div₀]
      simp [Complex.conj_ofReal]
    · rw [hdef]
      have := im_pos (1 - w ^ 2 / (g * r)) (w / r) (by positivity)
      rw [show (1 : ℂ) - Complex.I * (w : ℂ) / (r : ℂ) - (w : ℂ) ^ 2 / ((g : ℂ) * (r : ℂ)) =
        ((1 - w ^ 2 / (g * r) : ℝ) : ℂ) - Complex.I * ((w / r : ℝ) : ℂ) by push_cast; ring]
      exact this

example : 0 < (1 : ℝ) * 2 ^ 2 + 1 * 2 ^ 4 ∧ ∀ g ∈ (some 3 : Option ℝ), 0 < g :=
  ⟨by norm_num, fun g hg => by obtain rfl := Option.some.inj hg; norm_num⟩

/-! ## C92: the field that is switched off -/

/-- C92: the field amplitude is the transform, with the sign convention of the observable response, of
a field that is switched on slowly and off at time zero. -/
theorem C92_snap_off (w ho eta : ℝ) (he : 0 < eta) :
    fieldSnapOff w ho eta = ∫ t in Set.Iic (0 : ℝ),
      Complex.exp (Complex.I * (w : ℂ) * (t : ℂ)) * ((ho * Real.exp (eta * t) : ℝ) : ℂ) := by
  have h1 : ∀ t : ℝ, Complex.exp (Complex.I * (w : ℂ) * (t : ℂ)) * ((ho * Real.exp (eta * t) : ℝ) : ℂ) =
      (ho : ℂ) * Complex.exp ((Complex.I * (w : ℂ) + (eta : ℂ)) * (t : ℂ)) := by
    intro t
    rw [add_mul, Complex.exp_add]
    push_cast
    ring
  simp_rw [h1]
  rw [integral_const_mul, integral_exp_mul_complex_Iic (by simpa using he)]
  unfold fieldSnapOff
  simp [div_eq_mul_inv]

/-! ## C94: sum rules for functions computed from a spectral function -/

theorem trapz_conj (y : List ℂ) (x : List ℝ) :
    (starRingEnd ℂ) (trapz y x) = trapz (y.map (starRingEnd ℂ)) x := by
  unfold trapz
  rw [map_sum]
  refine Finset.sum_congr rfl fun i _ => ?_
  have : ∀ j, (y.map (starRingEnd ℂ)).getD j 0 = (starRingEnd ℂ) (y.getD j 0) := by
    intro j
    rw [List.getD_eq_getElem?_getD, List.getD_eq_getElem?_getD, List.getElem?_map]
    cases y[j]? <;> simp
  rw [this, this, map_div₀, map_mul, map_add, Complex.conj_ofReal, Complex.conj_ofNat]

/-- C94: the imaginary-frequency function computed from a real spectral function at `-ω` is the complex
conjugate of the one at `ω`. -/
theorem C94_conjugate (mats omegas spectral : List ℝ) (hl : spectral.length = omegas.length) :
    ∃ g : ℝ → ℂ, imagfrqFromSpectral mats omegas spectral = .ok (mats.map g) ∧
      imagfrqFromSpectral (mats.map fun w => -w) omegas spectral =
        .ok (mats.map fun w => (starRingEnd ℂ) (g w)) := by
  refine ⟨_, by unfold imagfrqFromSpectral; rw [if_pos hl], ?_⟩
  unfold imagfrqFromSpectral
  rw [if_pos hl, List.map_map]
  congr 1
  refine List.map_congr_left fun w _ => ?_
  simp only [Function.comp_apply]
  rw [map_div₀, trapz_conj, List.map_zipWith]
  congr 2
  · congr 1
    funext a o
    simp [Complex.conj_ofReal]
  · simp [Complex.conj_ofReal, Complex.conj_ofNat]

/-- C94: sum rule. For fermions the values at `0` and `β` add up, for bosons they differ, by minus the
trapezoidal integral of the spectral function over `2π`. -/
theorem C94_sum_rule_partial (beta : ℝ) (omegas spectral : List ℝ) (hl : spectral.length = omegas.length) :
    (∃ a b : ℂ, imagtimeFromSpectral [0, beta] beta omegas spectral "fermion" = .ok [a, b] ∧
      a + b = -trapz (spectral.map fun x : ℝ => (x : ℂ)) omegas / (2 * Real.pi)) ∧
    ((∀ o ∈ omegas, beta * o ≠ 0) →
      ∃ a b : ℂ, imagtimeFromSpectral [0, beta] beta omegas spectral "boson" = .ok [a, b] ∧
      a - b = -trapz (spectral.map fun x : ℝ => (x : ℂ)) omegas / (2 * Real.pi)) := by
  have key : ∀ (fac : ℝ), (∀ o ∈ omegas, 1 + fac * Real.exp (-beta * o) ≠ 0) →
      trapz (List.zipWith (fun a o : ℝ =>
        ((a * Real.exp (-(o * 0)) / (1 + fac * Real.exp (-beta * o)) : ℝ) : ℂ)) spectral omegas) omegas +
      fac * trapz (List.zipWith (fun a o : ℝ =>
        ((a * Real.exp (-(o * beta)) / (1 + fac * Real.exp (-beta * o)) : ℝ) : ℂ)) spectral omegas) omegas
      = trapz (spectral.map fun x : ℝ => (x : ℂ)) omegas := by
    intro fac hfac
    unfold trapz
    rw [Finset.mul_sum, ← Finset.sum_add_distrib]
    refine Finset.sum_congr rfl fun i hi => ?_
    have hi := Finset.mem_range.1 hi
    have hpt : ∀ j, j < omegas.length → ((spectral.getD j 0 * Real.exp (-(omegas.getD j 0 * 0)) /
        (1 + fac * Real.exp (-beta * omegas.getD j 0)) : ℝ) : ℂ) + fac *
        ((spectral.getD j 0 * Real.exp (-(omegas.getD j 0 * beta)) /
        (1 + fac * Real.exp (-beta * omegas.getD j 0)) : ℝ) : ℂ) =
        (spectral.map fun x : ℝ => (x : ℂ)).getD j 0 := by
      intro j hj
      have hmem : omegas.getD j 0 ∈ omegas := by
        rw [List.getD_eq_getElem?_getD, List.getElem?_eq_getElem hj, Option.getD_some]
        exact List.getElem_mem hj
      have hne := hfac _ hmem
      have hs : (spectral.map fun x : ℝ => (x : ℂ)).getD j 0 = ((spectral.getD j 0 : ℝ) : ℂ) := by
        rw [List.getD_eq_getElem?_getD, List.getD_eq_getElem?_getD, List.getElem?_map]
        cases spectral[j]? <;> simp
      rw [hs]
      have : spectral.getD j 0 * Real.exp (-(omegas.getD j 0 * 0)) /
        (1 + fac * Real.exp (-beta * omegas.getD j 0)) + fac *
        (spectral.getD j 0 * Real.exp (-(omegas.getD j 0 * beta)) /
        (1 + fac * Real.exp (-beta * omegas.getD j 0))) = spectral.getD j 0 := by
        rw [mul_zero, neg_zero, Real.exp_zero,
          show -(omegas.getD j 0 * beta) = -beta * omegas.getD j 0 by ring, mul_one, ← mul_div_assoc,
          ← add_div, div_eq_iff hne]
        ring
      exact_mod_cast congrArg Complex.ofReal this
    rw [getD_zipWith _ _ _ 0 0 _ _ hl (by omega), getD_zipWith _ _ _ 0 0 _ _ hl (by omega),
      getD_zipWith _ _ _ 0 0 _ _ hl (by omega), getD_zipWith _ _ _ 0 0 _ _ hl (by omega),
      ← hpt i (by omega), ← hpt (i + 1) (by omega)]
    ring
  constructor
  · refine ⟨_, _, by unfold imagtimeFromSpectral; exact if_pos hl, ?_⟩
    have := key 1 fun o _ => by have := Real.exp_pos (-beta * o); positivity
    rw [← this]
    push_cast
    ring
  · intro hne
    refine ⟨_, _, by unfold imagtimeFromSpectral; exact if_pos hl, ?_⟩
    have := key (-1) fun o ho => by
      intro h
      have h1 : Real.exp (-beta * o) = 1 := by linarith
      rw [Real.exp_eq_one_iff] at h1
      exact hne o ho (by linarith)
    rw [← this]
    push_cast
    ring

/-! ## C93: imaginary-frequency function from imaginary-time samples -/

/-- C93 (what holds): if `β` is a multiple of `10^-14` and no sample lies within `10^-14` outside the
interval, the transform is the trapezoidal integral over exactly the samples with `0 ≤ τ ≤ β`. The full
statement is for every `β`; it fails, see `C93_dropped_sample_violated`. -/
theorem C93_window_partial (mats taus : List ℝ) (F : ℝ → ℂ) (beta : ℝ) (m : ℤ)
    (hm : beta = m / 10 ^ 14) (hne : taus ≠ [])
    (hout : ∀ t ∈ taus, t ≤ -1 / 10 ^ 14 ∨ (0 ≤ t ∧ t ≤ beta) ∨ beta + 1 / 10 ^ 14 ≤ t) :
    imagtimeFt mats taus (taus.map F) beta = .ok (mats.map fun w : ℝ =>
      trapz ((taus.filter fun t => 0 ≤ t ∧ t ≤ beta).map fun t : ℝ =>
          F t * Complex.exp (Complex.I * (w : ℂ) * (t : ℂ)))
        (taus.filter fun t => 0 ≤ t ∧ t ≤ beta)) := by
  have hround : ∀ t ∈ taus, (0 ≤ npRound 14 t ∧ npRound 14 t ≤ beta ↔ 0 ≤ t ∧ t ≤ beta) := by
    intro t ht
    have hp : (0 : ℝ) < 1 / 10 ^ 14 := by positivity
    have hn : (-1 : ℝ) / 10 ^ 14 = -(1 / 10 ^ 14) := by ring
    rcases hout t ht with h | ⟨h1, h2⟩ | h
    · have e3 : npRound 14 t ≤ -1 / 10 ^ 14 := by
        have := npRound_le (d := 14) (x := t) (m := -1) (by simpa using h)
        simpa using this
      constructor <;> rintro ⟨h', -⟩ <;> linarith
    · refine ⟨fun _ => ⟨h1, h2⟩, fun _ => ⟨?_, ?_⟩⟩
      · have := le_npRound (d := 14) (x := t) (m := 0) (by simpa using h1)
        simpa using this
      · rw [hm] at h2 ⊢
        exact npRound_le h2
    · have e4 : beta + 1 / 10 ^ 14 ≤ npRound 14 t := by
        have hb : beta + 1 / 10 ^ 14 = ((m + 1 : ℤ) : ℝ) / 10 ^ 14 := by rw [hm]; push_cast; ring
        rw [hb] at h ⊢
        exact le_npRound h
      constructor <;> rintro ⟨-, h'⟩ <;> linarith
  have hzip : taus.zip (taus.map F) = taus.map fun t => (t, F t) := by
    rw [List.zip_map_right, List.zip_eq_zipWith, List.zipWith_self, List.map_map]
    rfl
  have hfil : (taus.map fun t => (t, F t)).filter
      (fun p => decide (0 ≤ npRound 14 p.1 ∧ npRound 14 p.1 ≤ beta)) =
      (taus.filter fun t => decide (0 ≤ t ∧ t ≤ beta)).map fun t => (t, F t) := by
    rw [List.filter_map]
    congr 1
    refine List.filter_congr fun t ht => ?_
    simp only [Function.comp_apply]
    exact decide_eq_decide.2 (hround t ht)
  have hsame : ¬((∃ t ∈ taus, beta < npRound 14 t) ∨ (∃ t ∈ taus, npRound 14 t < 0)) →
      (taus.filter fun t => decide (0 ≤ t ∧ t ≤ beta)) = taus := by
    intro h
    push Not at h
    refine List.filter_eq_self.2 fun t ht => ?_
    exact decide_eq_true ((hround t ht).1 ⟨h.2 t ht, h.1 t ht⟩)
  unfold imagtimeFt
  rw [if_neg hne, if_pos (by simp), hzip]
  simp only
  congr 1
  refine List.map_congr_left fun w _ => ?_
  by_cases h : (∃ t ∈ taus, beta < npRound 14 t) ∨ (∃ t ∈ taus, npRound 14 t < 0)
  · rw [if_pos h, hfil, List.map_map, List.map_map]
    congr 1
    exact (List.map_id _)
  · rw [if_neg h, hsame h, List.map_map, List.map_map]
    congr 1
    exact (List.map_id _)

example : (2 : ℝ) = ((2 * 10 ^ 14 : ℤ) : ℝ) / 10 ^ 14 ∧
    ∀ t ∈ [(-1 : ℝ), 0, 1, 2, 3], t ≤ -1 / 10 ^ 14 ∨ (0 ≤ t ∧ t ≤ 2) ∨ 2 + 1 / 10 ^ 14 ≤ t := by
  refine ⟨by norm_num, ?_⟩
  intro t ht
  simp only [List.mem_cons, List.not_mem_nil, or_false] at ht
  rcases ht with rfl | rfl | rfl | rfl | rfl <;> norm_num

/-- C93 fails: for `β = 2/3` the sample at `τ = β` is dropped because rounding to fourteen decimals
makes it exceed `β`, so the transform of a constant on the grid `0, β` is zero instead of `β`. -/
theorem C93_dropped_sample_violated :
    imagtimeFt [0] [0, 2 / 3] [1, 1] (2 / 3) = .ok [0] ∧
    trapz [1 * Complex.exp (Complex.I * (0 : ℝ) * (0 : ℝ)),
      1 * Complex.exp (Complex.I * (0 : ℝ) * ((2 / 3 : ℝ) : ℂ))] [0, 2 / 3] = 2 / 3 := by
  have hfl : ⌊(2 / 3 : ℝ) * 10 ^ 14⌋ = 66666666666666 := by
    rw [Int.floor_eq_iff]
    norm_num
  have hr : npRound 14 (2 / 3 : ℝ) = 66666666666667 / 10 ^ 14 := by
    unfold npRound rint
    rw [hfl]
    norm_num
  have h0 : npRound 14 (0 : ℝ) = 0 := by
    rw [npRound_eq_zero_iff]
    norm_num
  constructor
  · unfold imagtimeFt
    rw [if_neg (by simp), if_pos (by simp)]
    simp only
    rw [if_pos (Or.inl ⟨2 / 3, by simp, by rw [hr]; norm_num⟩)]
    have hfil : (([0, 2 / 3] : List ℝ).zip ([1, 1] : List ℂ)).filter
        (fun p => decide (0 ≤ npRound 14 p.1 ∧ npRound 14 p.1 ≤ 2 / 3)) = [(0, 1)] := by
      simp only [List.zip_cons_cons, List.zip_nil_right]
      rw [List.filter_cons_of_pos (by rw [h0]; norm_num), List.filter_cons_of_neg]
      · rfl
      · rw [hr]; norm_num
    rw [hfil]
    simp [trapz]
  · simp [trapz, Finset.sum_range_one]
    norm_num

/-- C93: for real samples the value at `-ω` is the complex conjugate of the value at `ω`. -/
theorem C93_conjugate (mats taus : List ℝ) (g : List ℝ) (beta : ℝ) (hne : taus ≠ [])
    (hl : g.length = taus.length) :
    ∃ G : ℝ → ℂ, imagtimeFt mats taus (g.map fun x : ℝ => (x : ℂ)) beta = .ok (mats.map G) ∧
      imagtimeFt (mats.map fun w => -w) taus (g.map fun x : ℝ => (x : ℂ)) beta =
        .ok (mats.map fun w => (starRingEnd ℂ) (G w)) := by
  have hreal : ∀ p ∈ taus.zip (g.map fun x : ℝ => (x : ℂ)), (starRingEnd ℂ) p.2 = p.2 := by
    intro p hp
    have := (List.of_mem_zip hp).2
    obtain ⟨x, -, hx⟩ := List.mem_map.1 this
    rw [← hx, Complex.conj_ofReal]
  have key : ∀ (S : List (ℝ × ℂ)), (∀ p ∈ S, (starRingEnd ℂ) p.2 = p.2) → ∀ w : ℝ,
      trapz (S.map fun p => p.2 * Complex.exp (Complex.I * ((-w : ℝ) : ℂ) * (p.1 : ℂ)))
        (S.map fun p => p.1) = (starRingEnd ℂ) (trapz (S.map fun p => p.2 *
          Complex.exp (Complex.I * (w : ℂ) * (p.1 : ℂ))) (S.map fun p => p.1)) := by
    intro S hS w
    rw [trapz_conj, List.map_map]
    congr 1
    refine List.map_congr_left fun p hp => ?_
    simp only [Function.comp_apply, map_mul, hS p hp, ← Complex.exp_conj, Complex.conj_I,
      Complex.conj_ofReal]
    push_cast
    ring_nf
  refine ⟨_, by unfold imagtimeFt; rw [if_neg hne, if_pos (by simpa using hl)], ?_⟩
  unfold imagtimeFt
  rw [if_neg hne, if_pos (by simpa using hl)]
  simp only
  rw [List.map_map]
  congr 1
  refine List.map_congr_left fun w _ => ?_
  refine key _ ?_ w
  intro p hp
  split_ifs at hp with h
  · exact hreal p (List.mem_of_mem_filter hp)
  · exact hreal p hp

/-! ## C95: real-time response is real -/

theorem trapz_reflect (n : ℕ) (x : ℕ → ℝ) (y : ℕ → ℂ) (hx : ∀ i < n, x (n - 1 - i) = -x i)
    (hy : ∀ i < n, y (n - 1 - i) = (starRingEnd ℂ) (y i)) :
    (starRingEnd ℂ) (∑ i ∈ Finset.range (n - 1), ((x (i + 1) - x i : ℝ) : ℂ) * (y (i + 1) + y i) / 2) =
      ∑ i ∈ Finset.range (n - 1), ((x (i + 1) - x i : ℝ) : ℂ) * (y (i + 1) + y i) / 2 := by
  rw [map_sum, ← Finset.sum_range_reflect]
  refine Finset.sum_congr rfl fun i hi => ?_
  have hi := Finset.mem_range.1 hi
  have e1 : n - 1 - 1 - i + 1 = n - 1 - i := by omega
  have e2 : n - 1 - 1 - i = n - 1 - (i + 1) := by omega
  rw [e1, e2, hx i (by omega), hx (i + 1) (by omega), hy i (by omega), hy (i + 1) (by omega), map_div₀,
    map_mul, map_add, Complex.conj_conj, Complex.conj_conj, Complex.conj_ofReal, Complex.conj_ofNat]
  push_cast
  ring

theorem trapz_real (ws : List ℝ) (F : ℝ → ℂ) (hF : ∀ w, F (-w) = (starRingEnd ℂ) (F w))
    (hs : ws.reverse = ws.map fun w => -w) : (trapz (ws.map F) ws).im = 0 := by
  apply Complex.conj_eq_iff_im.1
  have hx : ∀ i < ws.length, ws.getD (ws.length - 1 - i) 0 = -ws.getD i 0 := by
    intro i hi
    have h1 : ws.reverse[i]? = some (ws[ws.length - 1 - i]) := by
      rw [List.getElem?_reverse hi, List.getElem?_eq_getElem (by omega)]
    rw [hs, List.getElem?_map, List.getElem?_eq_getElem hi, Option.map_some] at h1
    rw [List.getD_eq_getElem?_getD, List.getD_eq_getElem?_getD, List.getElem?_eq_getElem (by omega),
      List.getElem?_eq_getElem hi, Option.getD_some, Option.getD_some]
    exact (Option.some.inj h1).symm
  have hget : ∀ i < ws.length, (ws.map F).getD i 0 = F (ws.getD i 0) := by
    intro i hi
    simp [List.getD_eq_getElem?_getD, hi]
  unfold trapz
  refine trapz_reflect ws.length (fun i => ws.getD i 0) (fun i => (ws.map F).getD i 0) hx fun i hi => ?_
  rw [hget _ (by omega), hget _ hi, hx i hi, hF]

/-- C95: on a frequency grid symmetric about zero, a susceptibility (and a field amplitude) whose value
at `-ω` is the conjugate of the value at `ω` gives a real response function and observable at every
time. -/
theorem C95_real (t : ℝ) (ws : List ℝ) (hs : ws.reverse = ws.map fun w => -w) (chi field : ℝ → ℂ)
    (hc : ∀ w, chi (-w) = (starRingEnd ℂ) (chi w))
    (hf : ∀ w, field (-w) = (starRingEnd ℂ) (field w)) :
    (phiT t ws (ws.map chi)).im = 0 ∧ (obsKt t ws (ws.map chi) (ws.map field)).im = 0 := by
  have hpi : (1 / (2 * Real.pi : ℂ)) = ((1 / (2 * Real.pi) : ℝ) : ℂ) := by push_cast; rfl
  have hsym : ∀ F : ℝ → ℂ, (∀ w, F (-w) = (starRingEnd ℂ) (F w)) → ∀ w : ℝ,
      F (-w) * Complex.exp (-Complex.I * ((-w : ℝ) : ℂ) * (t : ℂ)) =
        (starRingEnd ℂ) (F w * Complex.exp (-Complex.I * (w : ℂ) * (t : ℂ))) := by
    intro F hF w
    rw [map_mul, hF, ← Complex.exp_conj]
    simp only [map_mul, map_neg, Complex.conj_I, Complex.conj_ofReal]
    push_cast
    ring_nf
  constructor
  · unfold phiT
    rw [hpi, Complex.im_ofReal_mul, List.zipWith_map_left,
      List.zipWith_self]
    rw [trapz_real ws (fun w : ℝ => chi w * Complex.exp (-Complex.I * (w : ℂ) * (t : ℂ)))
      (hsym chi hc) hs, mul_zero]
  · unfold obsKt
    rw [hpi, Complex.im_ofReal_mul, List.zipWith_map_left, List.zipWith_map_right, List.zipWith_self,
      List.zipWith_map_left, List.zipWith_self]
    rw [trapz_real ws (fun w : ℝ => chi w * field w * Complex.exp (-Complex.I * (w : ℂ) * (t : ℂ)))
      (hsym (fun w => chi w * field w) fun w => by rw [hc, hf, map_mul]) hs, mul_zero]

example : ([-2, 0, 2] : List ℝ).reverse = ([-2, 0, 2] : List ℝ).map fun w => -w := by
  simp

end ED.Props
