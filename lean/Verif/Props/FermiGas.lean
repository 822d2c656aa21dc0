import Verif.Lemmas.FermiLattice
import Mathlib.Analysis.Calculus.Deriv.Inv
import Mathlib.Analysis.SpecialFunctions.Pow.Deriv
import Mathlib.Analysis.SpecialFunctions.Trigonometric.Deriv

/-! # Properties C63–C69, C82, C83, C85, C86: the non-interacting Fermi gas -/

namespace ED.Props

open scoped BigOperators
open Filter Topology

/-! ## C63: the Fermi function -/

theorem fermi_mem (beta : InvTemp) (mu e : ℝ) : 0 ≤ fermi beta mu e ∧ fermi beta mu e ≤ 1 := by
  cases beta with
  | fin b =>
    have : 0 < Real.exp (b * (e - mu)) := Real.exp_pos _
    simp only [fermi]
    exact ⟨by positivity, by rw [div_le_one (by positivity)]; linarith⟩
  | inf =>
    simp only [fermi]
    split_ifs <;> norm_num

/-- C63: bounds, particle-hole symmetry, monotonicity, and the zero-temperature limit. -/
theorem C63_fermi :
    (∀ beta mu e, 0 ≤ fermi beta mu e ∧ fermi beta mu e ≤ 1) ∧
    (∀ b mu x, fermi (.fin b) mu (mu + x) + fermi (.fin b) mu (mu - x) = 1) ∧
    (∀ beta, beta.Nonneg → ∀ mu e e', e ≤ e' → fermi beta mu e' ≤ fermi beta mu e) ∧
    (∀ beta, beta.Nonneg → ∀ mu mu' e, mu ≤ mu' → fermi beta mu e ≤ fermi beta mu' e) ∧
    (∀ mu e, e ≠ mu → Tendsto (fun b => fermi (.fin b) mu e) atTop (𝓝 (fermi .inf mu e))) ∧
    (∀ mu e, fermi (.fin 0) mu e = 1 / 2) ∧
    (∀ mu e, fermi .inf mu e = if e ≤ mu then 1 else 0) := by
  have key : ∀ b : ℝ, 0 ≤ b → ∀ x y : ℝ, x ≤ y →
      1 / (Real.exp (b * y) + 1) ≤ 1 / (Real.exp (b * x) + 1) := by
    intro b hb x y hxy
    have := Real.exp_le_exp.2 (mul_le_mul_of_nonneg_left hxy hb)
    have h0 := Real.exp_pos (b * x)
    gcongr
  refine ⟨fermi_mem, fun b mu x => ?_, fun beta hb mu e e' h => ?_, fun beta hb mu mu' e h => ?_,
    fun mu e h => ?_, fun mu e => ?_, fun mu e => ?_⟩
  · simp only [fermi, add_sub_cancel_left, sub_sub_cancel_left, mul_neg, Real.exp_neg]
    have := Real.exp_pos (b * x)
    field_simp
    ring
  · cases beta with
    | fin b => exact key b hb _ _ (by linarith)
    | inf =>
      simp only [fermi]
      split_ifs <;> first | (exfalso; linarith) | norm_num
  · cases beta with
    | fin b => exact key b hb _ _ (by linarith)
    | inf =>
      simp only [fermi]
      split_ifs <;> first | (exfalso; linarith) | norm_num
  · simp only [fermi]
    rcases lt_or_gt_of_ne h with h | h
    · rw [if_pos (by linarith)]
      have h1 : Tendsto (fun b : ℝ => b * (e - mu)) atTop atBot :=
        tendsto_id.atTop_mul_const_of_neg (by linarith)
      have h2 := (Real.tendsto_exp_atBot.comp h1).add_const 1
      have h3 := h2.inv₀ (by norm_num)
      simpa [Function.comp_def] using h3
    · rw [if_neg (by linarith)]
      have h1 : Tendsto (fun b : ℝ => b * (e - mu)) atTop atTop :=
        tendsto_id.atTop_mul_const (by linarith)
      have h2 := tendsto_atTop_add_const_right atTop 1 (Real.tendsto_exp_atTop.comp h1)
      have h3 := h2.inv_tendsto_atTop
      simpa [Function.comp_def, Pi.inv_def] using h3
  · simp [fermi]; norm_num
  · simp only [fermi, sub_nonpos]

example : (InvTemp.fin 2).Nonneg ∧ InvTemp.inf.Nonneg ∧ fermi .inf 0 1 ≠ fermi .inf 0 (-1) :=
  ⟨by norm_num [InvTemp.Nonneg], trivial, by norm_num [fermi]⟩

/-! ## C64: derivatives -/

theorem hasDerivAt_logistic (x : ℝ) :
    HasDerivAt (fun x => 1 / (Real.exp x + 1))
      (-(1 / (Real.exp x + 1)) * (1 - 1 / (Real.exp x + 1))) x := by
  have h : Real.exp x + 1 ≠ 0 := by have := Real.exp_pos x; positivity
  have := ((Real.hasDerivAt_exp x).add_const 1).inv h
  simp only [one_div]
  refine this.congr_deriv ?_
  field_simp
  ring

/-- C64: at finite inverse temperature the three returned numbers are the derivatives of the Fermi
function with respect to chemical potential, energy and inverse temperature. -/
theorem C64_derivatives (b mu e eta : ℝ) :
    ∃ dmu de dbeta : ℝ, fermiDerivatives (.fin b) mu e eta = (some dmu, some de, some dbeta) ∧
      HasDerivAt (fun m => fermi (.fin b) m e) dmu mu ∧
      HasDerivAt (fun x => fermi (.fin b) mu x) de e ∧
      HasDerivAt (fun c => fermi (.fin c) mu e) dbeta b := by
  refine ⟨-b * (-fermi (.fin b) mu e * (1 - fermi (.fin b) mu e)),
    b * (-fermi (.fin b) mu e * (1 - fermi (.fin b) mu e)),
    (e - mu) * (-fermi (.fin b) mu e * (1 - fermi (.fin b) mu e)), rfl, ?_, ?_, ?_⟩
  · have h1 : HasDerivAt (fun m => b * (e - m)) (-b) mu := by
      simpa using ((hasDerivAt_id mu).const_sub e).const_mul b
    refine ((hasDerivAt_logistic (b * (e - mu))).comp mu h1).congr_deriv ?_
    simp only [fermi]
    ring
  · have h1 : HasDerivAt (fun x => b * (x - mu)) b e := by
      simpa using ((hasDerivAt_id e).sub_const mu).const_mul b
    refine ((hasDerivAt_logistic (b * (e - mu))).comp e h1).congr_deriv ?_
    simp only [fermi]
    ring
  · have h1 : HasDerivAt (fun c => c * (e - mu)) (e - mu) b := by
      simpa using (hasDerivAt_id b).mul_const (e - mu)
    refine ((hasDerivAt_logistic (b * (e - mu))).comp b h1).congr_deriv ?_
    simp only [fermi]
    ring

/-! ## C65: allowed wavevectors -/

/-- `l` lists, increasingly and once each, the wavevectors in `[a, a + 2π)` that satisfy periodic
boundary conditions on `n` sites. -/
def IsAllowed (l : List ℝ) (n : ℕ) (a : ℝ) : Prop :=
  l.Pairwise (· < ·) ∧ l.length = n ∧
    ∀ k, k ∈ l ↔ a ≤ k ∧ k < a + 2 * Real.pi ∧ Complex.exp (Complex.I * (k * n : ℝ)) = 1

theorem exp_kn (k : ℝ) (n : ℕ) :
    Complex.exp (Complex.I * (k * n : ℝ)) = 1 ↔ ∃ m : ℤ, k * n = 2 * Real.pi * m := by
  rw [Complex.exp_eq_one_iff]
  constructor
  · rintro ⟨m, hm⟩
    refine ⟨m, ?_⟩
    have : ((k * n : ℝ) : ℂ) = ((2 * Real.pi * m : ℝ) : ℂ) := by
      have hI := Complex.I_ne_zero
      apply mul_left_cancel₀ hI
      rw [hm]; push_cast; ring
    exact_mod_cast this
  · rintro ⟨m, hm⟩
    exact ⟨m, by rw [hm]; push_cast; ring⟩

theorem allowed_positive {n : ℕ} (hn : n ≠ 0) :
    IsAllowed ((List.range n).map fun j => kval n j) n 0 := by
  have hpos : (0 : ℝ) < n := by exact_mod_cast Nat.pos_of_ne_zero hn
  have hpi := Real.pi_pos
  refine ⟨?_, by simp, fun k => ?_⟩
  · rw [List.pairwise_map]
    refine List.Pairwise.imp ?_ List.pairwise_lt_range
    intro a b hab
    unfold kval
    have : (a : ℝ) < b := by exact_mod_cast hab
    gcongr
  · rw [exp_kn]
    simp only [List.mem_map, List.mem_range, zero_add]
    constructor
    · rintro ⟨j, hj, rfl⟩
      have hj' : (j : ℝ) < n := by exact_mod_cast hj
      refine ⟨by unfold kval; positivity, ?_, j, ?_⟩
      · unfold kval
        rw [div_mul_eq_mul_div, div_lt_iff₀ hpos]
        nlinarith
      · unfold kval
        push_cast
        field_simp
    · rintro ⟨h1, h2, m, hm⟩
      have hk : k = 2 * Real.pi * m / n := by rw [← hm]; field_simp
      have hm0 : 0 ≤ m := by
        have : 0 ≤ 2 * Real.pi * (m : ℝ) := by rw [← hm]; positivity
        have : 0 ≤ (m : ℝ) := by
          by_contra h
          push Not at h
          nlinarith
        exact_mod_cast this
      have hmn : m < n := by
        have : 2 * Real.pi * (m : ℝ) < 2 * Real.pi * n := by rw [← hm]; nlinarith
        have : (m : ℝ) < n := by nlinarith
        exact_mod_cast this
      refine ⟨m.toNat, by omega, ?_⟩
      unfold kval
      have : ((m.toNat : ℕ) : ℝ) = m := by
        have : ((m.toNat : ℕ) : ℤ) = m := Int.toNat_of_nonneg hm0
        exact_mod_cast this
      rw [this, hk]
      ring

theorem allowed_balanced {n : ℕ} (hn : n ≠ 0) {l : List ℝ} (hs : l.Pairwise (· ≤ ·))
    (hp : l.Perm ((List.range n).map fun j => bal (kval n j))) : IsAllowed l n (-Real.pi) := by
  have hpos : (0 : ℝ) < n := by exact_mod_cast Nat.pos_of_ne_zero hn
  have hpi := Real.pi_pos
  obtain ⟨h1, h2, h3⟩ := allowed_positive hn
  have hkv : ∀ j, j < n → 0 ≤ kval n j ∧ kval n j < 0 + 2 * Real.pi ∧
      Complex.exp (Complex.I * (kval n j * n : ℝ)) = 1 := fun j hj =>
    (h3 _).1 (List.mem_map_of_mem (List.mem_range.2 hj))
  have hnd : ((List.range n).map fun j => bal (kval n j)).Nodup := by
    refine List.Nodup.map_on ?_ List.nodup_range
    intro i hi j hj hij
    have hi' := hkv i (List.mem_range.1 hi)
    have hj' := hkv j (List.mem_range.1 hj)
    have hk : kval n i = kval n j := by
      unfold bal at hij
      split_ifs at hij <;> linarith [hi'.1, hi'.2.1, hj'.1, hj'.2.1]
    unfold kval at hk
    have h2 : (2 * Real.pi / n : ℝ) ≠ 0 := by positivity
    exact_mod_cast mul_left_cancel₀ h2 hk
  refine ⟨?_, by rw [hp.length_eq]; simp, fun k => ?_⟩
  · have hnd' : l.Nodup := hp.nodup_iff.2 hnd
    exact (hs.and hnd').imp fun ⟨a, b⟩ => lt_of_le_of_ne a b
  · rw [hp.mem_iff]
    simp only [List.mem_map, List.mem_range]
    constructor
    · rintro ⟨j, hj, rfl⟩
      obtain ⟨a, b, c⟩ := hkv j hj
      unfold bal
      split_ifs with h
      · refine ⟨by linarith, by linarith, ?_⟩
        rw [exp_kn] at c ⊢
        obtain ⟨m, hm⟩ := c
        exact ⟨m - n, by push_cast; linear_combination hm⟩
      · push Not at h
        exact ⟨by linarith, by linarith, c⟩
    · rintro ⟨a, b, c⟩
      by_cases h : 0 ≤ k
      · obtain ⟨j, hj, hjk⟩ := List.mem_map.1 ((h3 k).2 ⟨h, by linarith, c⟩)
        refine ⟨j, List.mem_range.1 hj, ?_⟩
        rw [hjk]
        unfold bal
        rw [if_neg (by simp only [ge_iff_le, not_le]; linarith)]
      · push Not at h
        have c' : Complex.exp (Complex.I * ((k + 2 * Real.pi) * n : ℝ)) = 1 := by
          rw [exp_kn] at c ⊢
          obtain ⟨m, hm⟩ := c
          exact ⟨m + n, by push_cast; linear_combination hm⟩
        obtain ⟨j, hj, hjk⟩ := List.mem_map.1 ((h3 _).2 ⟨by linarith, by linarith, c'⟩)
        refine ⟨j, List.mem_range.1 hj, ?_⟩
        rw [hjk]
        unfold bal
        rw [if_pos (by simp only [ge_iff_le]; linarith)]
        ring

/-- C65: the grid consists of all pairs of allowed wavevectors, those in `[-π, π)` for the balanced
mode and those in `[0, 2π)` for the positive mode; other modes and empty lattices are rejected. -/
theorem C65_wavevectors (nx ny : ℕ) :
    (nx ≠ 0 → ny ≠ 0 → ∀ mode a, (mode = "balanced" ∧ a = -Real.pi) ∨ (mode = "positive" ∧ a = 0) →
      ∃ kxs kys, IsAllowed kxs nx a ∧ IsAllowed kys ny a ∧ getAllowedKvects nx ny mode =
        .ok (kys.flatMap fun ky => kxs.map fun kx => (kx, ky), 2 * Real.pi / nx, 2 * Real.pi / ny)) ∧
    (∀ mode, mode ≠ "balanced" → mode ≠ "positive" → nx ≠ 0 → ny ≠ 0 →
      getAllowedKvects nx ny mode = .error .generic) ∧
    (∀ mode, nx = 0 ∨ ny = 0 → getAllowedKvects nx ny mode = .error .zeroDiv) := by
  refine ⟨fun hx hy mode a h => ?_, fun mode h1 h2 hx hy => ?_, fun mode h => ?_⟩
  · rcases h with ⟨rfl, rfl⟩ | ⟨rfl, rfl⟩
    · obtain ⟨lx, hlx, sx, px⟩ := kAxis_balanced hx
      obtain ⟨ly, hly, sy, py⟩ := kAxis_balanced hy
      refine ⟨lx, ly, allowed_balanced hx sx px, allowed_balanced hy sy py, ?_⟩
      unfold getAllowedKvects
      simp [hx, hy, hlx, hly]
      rfl
    · refine ⟨_, _, allowed_positive hx, allowed_positive hy, ?_⟩
      unfold getAllowedKvects
      rw [kAxis_positive hx, kAxis_positive hy, if_neg (by tauto)]
      rfl
  · unfold getAllowedKvects
    simp [hx, hy, kAxis, h1, h2]
    rfl
  · unfold getAllowedKvects
    rw [if_pos h]
    rfl

/-! ## C66: Green's functions in momentum space -/

/-- Step function with value one at zero. -/
noncomputable def theta (t : ℝ) : ℝ := if 0 ≤ t then 1 else 0

theorem heaviside1_eq (t : ℝ) : heaviside1 t = theta t := by
  unfold heaviside1 theta
  by_cases h : t < 0
  · rw [if_pos h, if_neg (not_le.2 h)]
  · rw [if_neg h, if_pos (not_lt.1 h)]

/-- C66: greater and lesser functions are those of free evolution with the Fermi occupation, and the
other three follow from them. -/
theorem C66_identities (beta : InvTemp) (mu ek t : ℝ) :
    ∃ gg gl gr ga gt : ℂ, ∃ dg dl dr da dt,
      kspaceGfn beta mu ek t "greater" = .ok (gg, dg) ∧
      kspaceGfn beta mu ek t "lesser" = .ok (gl, dl) ∧
      kspaceGfn beta mu ek t "retarded" = .ok (gr, dr) ∧
      kspaceGfn beta mu ek t "advanced" = .ok (ga, da) ∧
      kspaceGfn beta mu ek t "time-ordered" = .ok (gt, dt) ∧
      gg = -Complex.I * Complex.exp (-Complex.I * (((ek - mu) * t : ℝ) : ℂ)) *
        (1 - (fermi beta mu ek : ℝ)) ∧
      gl = Complex.I * Complex.exp (-Complex.I * (((ek - mu) * t : ℝ) : ℂ)) * (fermi beta mu ek : ℝ) ∧
      gr = (theta t : ℝ) * (gg - gl) ∧ ga = -((theta (-t) : ℝ) : ℂ) * (gg - gl) ∧
      gt = (theta t : ℝ) * gg + (theta (-t) : ℝ) * gl := by
  refine ⟨_, _, _, _, _, _, _, _, _, _, rfl, rfl, rfl, rfl, rfl, rfl, rfl, ?_, ?_, ?_⟩
  all_goals simp only [heaviside1_eq]; ring

theorem hasDerivAt_phase (ek t mu : ℝ) :
    HasDerivAt (fun m : ℝ => Complex.exp (-Complex.I * (((ek - m) * t : ℝ) : ℂ)))
      (Complex.I * t * Complex.exp (-Complex.I * (((ek - mu) * t : ℝ) : ℂ))) mu := by
  have h1 : HasDerivAt (fun m : ℝ => ((((ek - m) * t : ℝ)) : ℂ)) ((-t : ℝ) : ℂ) mu := by
    have h : HasDerivAt (fun m : ℝ => (ek - m) * t) (-t) mu := by
      simpa using ((hasDerivAt_id mu).const_sub ek).mul_const t
    exact h.ofReal_comp
  exact ((h1.const_mul (-Complex.I)).cexp).congr_deriv (by push_cast; ring)

/-- C66 (what holds): for the greater, lesser, retarded and advanced functions at finite inverse
temperature the second returned number is the derivative with respect to the chemical potential. For
the time-ordered function it is not, see `C66_time_ordered_violated`. -/
theorem C66_derivative_partial (b mu ek t : ℝ) (type : String)
    (h : type = "greater" ∨ type = "lesser" ∨ type = "retarded" ∨ type = "advanced") :
    ∃ (g : ℝ → ℂ) (d : ℝ → ℂ), (∀ m, kspaceGfn (.fin b) m ek t type = .ok (g m, some (d m))) ∧
      HasDerivAt g (d mu) mu := by
  have hp := hasDerivAt_phase ek t mu
  obtain ⟨dmu, de, db, hd, hdm, -, -⟩ := C64_derivatives b mu ek (1 / 10)
  have hdm' := hdm.ofReal_comp
  have hdv : ∀ m, (fermiDerivatives (.fin b) m ek (1 / 10)).1 =
      some (-b * (-fermi (.fin b) m ek * (1 - fermi (.fin b) m ek))) := fun m => rfl
  have hdmu : dmu = -b * (-fermi (.fin b) mu ek * (1 - fermi (.fin b) mu ek)) := by
    have := hdv mu
    rw [hd] at this
    exact Option.some.inj this
  rcases h with rfl | rfl | rfl | rfl
  · refine ⟨_, _, fun m => rfl, ?_⟩
    refine ((hp.const_mul (-Complex.I)).mul (hdm'.const_sub 1)).congr_deriv ?_
    rw [hdmu]
    linear_combination (-(t : ℂ) * Complex.exp (-Complex.I * (((ek - mu) * t : ℝ) : ℂ)) *
      (1 - (fermi (.fin b) mu ek : ℝ))) * Complex.I_sq
  · refine ⟨_, _, fun m => rfl, ?_⟩
    refine ((hp.const_mul Complex.I).mul hdm').congr_deriv ?_
    rw [hdmu]
    linear_combination ((t : ℂ) * Complex.exp (-Complex.I * (((ek - mu) * t : ℝ) : ℂ)) *
      ((fermi (.fin b) mu ek : ℝ))) * Complex.I_sq
  · refine ⟨_, _, fun m => rfl, ?_⟩
    refine (hp.const_mul (-Complex.I * (heaviside1 t : ℝ))).congr_deriv ?_
    linear_combination (-(t : ℂ) * (heaviside1 t : ℝ) *
      Complex.exp (-Complex.I * (((ek - mu) * t : ℝ) : ℂ))) * Complex.I_sq
  · refine ⟨_, _, fun m => rfl, ?_⟩
    refine (hp.const_mul (Complex.I * (heaviside1 (-t) : ℝ))).congr_deriv ?_
    linear_combination ((t : ℂ) * (heaviside1 (-t) : ℝ) *
      Complex.exp (-Complex.I * (((ek - mu) * t : ℝ) : ℂ))) * Complex.I_sq

/-- C66 fails for the time-ordered function: zero is returned as the derivative, which is wrong at
equal times for every non-zero inverse temperature. -/
theorem C66_time_ordered_violated (b mu ek : ℝ) (hb : b ≠ 0) :
    ∃ g : ℝ → ℂ, (∀ m, kspaceGfn (.fin b) m ek 0 "time-ordered" = .ok (g m, some 0)) ∧
      ¬ HasDerivAt g 0 mu := by
  obtain ⟨dmu, de, db, hd, hdm, -, -⟩ := C64_derivatives b mu ek (1 / 10)
  have hdm' := hdm.ofReal_comp
  have hdmu : dmu = -b * (-fermi (.fin b) mu ek * (1 - fermi (.fin b) mu ek)) := by
    have h : (fermiDerivatives (.fin b) mu ek (1 / 10)).1 =
      some (-b * (-fermi (.fin b) mu ek * (1 - fermi (.fin b) mu ek))) := rfl
    rw [hd] at h
    exact Option.some.inj h
  refine ⟨_, fun m => rfl, fun h => ?_⟩
  have h2 : HasDerivAt (fun m : ℝ => -Complex.I * Complex.exp (-Complex.I * (((ek - m) * 0 : ℝ) : ℂ)) *
      (((heaviside1 0 : ℝ) : ℂ) * (1 - ((fermi (.fin b) m ek : ℝ) : ℂ)) -
        ((heaviside1 (-0) : ℝ) : ℂ) * ((fermi (.fin b) m ek : ℝ) : ℂ))) (2 * Complex.I * dmu) mu := by
    have h3 : HasDerivAt (fun m : ℝ => -Complex.I * (1 - 2 * ((fermi (.fin b) m ek : ℝ) : ℂ)))
        (2 * Complex.I * dmu) mu :=
      ((((hdm'.const_mul 2).const_sub 1)).const_mul (-Complex.I)).congr_deriv (by ring)
    refine h3.congr_of_eventuallyEq (Eventually.of_forall fun m => ?_)
    simp [heaviside1]
    ring
  have h4 := h.unique h2
  have hf : fermi (.fin b) mu ek ≠ 0 ∧ 1 - fermi (.fin b) mu ek ≠ 0 := by
    simp only [fermi]
    have := Real.exp_pos (b * (ek - mu))
    refine ⟨by positivity, ?_⟩
    rw [one_sub_div (by positivity)]
    rw [add_sub_cancel_right]
    positivity
  have : dmu ≠ 0 := by
    rw [hdmu]
    have := hf.1; have := hf.2
    simp [*]
  have h5 : (2 * Complex.I * dmu : ℂ) ≠ 0 := by
    have : (dmu : ℂ) ≠ 0 := by exact_mod_cast this
    simp [this]
  exact h5 h4.symm

end ED.Props
