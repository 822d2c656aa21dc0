import Verif.Model.Greens
import Verif.Lemmas.Thermal
import Mathlib.Analysis.SpecialFunctions.Integrals.Basic
import Mathlib.MeasureTheory.Integral.IntervalIntegral.FundThmCalculus
import Mathlib.Analysis.SpecialFunctions.ImproperIntegrals
import Mathlib.Analysis.SpecialFunctions.Complex.Log
import Mathlib.MeasureTheory.Measure.Haar.NormedSpace

/-! # Properties C70–C72, C88–C91: Green's functions -/

namespace ED.Props

open scoped BigOperators
open Filter Topology

/-! ## C70: Matsubara frequencies -/

theorem mem_npArange {s e d x : ℝ} (hd : 0 < d) :
    x ∈ npArange s e d ↔ ∃ i : ℕ, x = s + i * d ∧ x < e := by
  unfold npArange
  simp only [List.mem_map, List.mem_range, Nat.lt_ceil]
  constructor
  · rintro ⟨i, hi, rfl⟩
    refine ⟨i, rfl, ?_⟩
    rw [lt_div_iff₀ hd] at hi
    linarith
  · rintro ⟨i, rfl, h⟩
    refine ⟨i, ?_, rfl⟩
    rw [lt_div_iff₀ hd]
    linarith

theorem nodup_npArange {s e d : ℝ} (hd : 0 < d) : (npArange s e d).Nodup := by
  unfold npArange
  refine List.Nodup.map ?_ List.nodup_range
  intro i j h
  simp only [add_right_inj] at h
  exact_mod_cast mul_right_cancel₀ hd.ne' h

theorem sort_strict {l : List ℝ} (h : l.Nodup) : (l.insertionSort (· ≤ ·)).Pairwise (· < ·) := by
  have h1 : (l.insertionSort (· ≤ ·)).Pairwise (· ≤ ·) := List.pairwise_insertionSort _ _
  have h2 : (l.insertionSort (· ≤ ·)).Nodup := (List.perm_insertionSort _ l).nodup_iff.2 h
  exact (h1.and h2).imp fun ⟨a, b⟩ => lt_of_le_of_ne a b

/-- C70: the fermionic frequencies are exactly the odd multiples of `π/β` of modulus below the cutoff,
the bosonic ones exactly the even multiples, in increasing order without repetition. -/
theorem C70_matsubara (beta maxFrq : ℝ) (hb : 0 < beta) :
    (∃ l, getMatsubaraFrqs beta maxFrq "fermion" = .ok l ∧ l.Pairwise (· < ·) ∧
      ∀ x, x ∈ l ↔ (∃ k : ℤ, x = (2 * k + 1) * Real.pi / beta) ∧ |x| < maxFrq) ∧
    (0 < maxFrq → ∃ l, getMatsubaraFrqs beta maxFrq "boson" = .ok l ∧ l.Pairwise (· < ·) ∧
      ∀ x, x ∈ l ↔ (∃ k : ℤ, x = 2 * k * Real.pi / beta) ∧ |x| < maxFrq) := by
  have hpi := Real.pi_pos
  have hd : 0 < 2 * Real.pi / beta := by positivity
  constructor
  · set pos := npArange (Real.pi / beta) maxFrq (2 * Real.pi / beta) with hpos
    have hp : ∀ x, x ∈ pos ↔ ∃ i : ℕ, x = (2 * i + 1) * Real.pi / beta ∧ x < maxFrq := by
      intro x
      rw [hpos, mem_npArange hd]
      refine exists_congr fun i => and_congr_left fun _ => ?_
      rw [show Real.pi / beta + i * (2 * Real.pi / beta) = (2 * i + 1) * Real.pi / beta by ring]
    have hp0 : ∀ x ∈ pos, 0 < x := by
      intro x hx
      obtain ⟨i, rfl, -⟩ := (hp x).1 hx
      positivity
    refine ⟨(pos.map (fun x => -x) ++ pos).insertionSort (· ≤ ·), ?_, sort_strict ?_, fun x => ?_⟩
    · unfold getMatsubaraFrqs
      rw [if_pos (Or.inl rfl), if_neg hb.ne']
      simp [hpos]
    · rw [List.nodup_append]
      refine ⟨(nodup_npArange hd).map neg_injective, nodup_npArange hd, ?_⟩
      rintro a ha b hb' rfl
      obtain ⟨y, hy, rfl⟩ := List.mem_map.1 ha
      linarith [hp0 _ hy, hp0 _ hb']
    · rw [(List.perm_insertionSort _ _).mem_iff, List.mem_append, List.mem_map]
      constructor
      · rintro (⟨y, hy, rfl⟩ | hx)
        · obtain ⟨i, rfl, hlt⟩ := (hp y).1 hy
          refine ⟨⟨-i - 1, by push_cast; ring⟩, ?_⟩
          rw [abs_neg, abs_of_pos (hp0 _ hy)]; exact hlt
        · obtain ⟨i, rfl, hlt⟩ := (hp x).1 hx
          refine ⟨⟨i, by push_cast; ring⟩, ?_⟩
          rw [abs_of_pos (hp0 _ hx)]; exact hlt
      · rintro ⟨⟨k, rfl⟩, hlt⟩
        rcases le_or_gt 0 k with hk | hk
        · right
          refine (hp _).2 ⟨k.toNat, ?_, lt_of_le_of_lt (le_abs_self _) hlt⟩
          have : ((k.toNat : ℕ) : ℝ) = k := by
            have : ((k.toNat : ℕ) : ℤ) = k := Int.toNat_of_nonneg hk
            exact_mod_cast this
          rw [this]
        · left
          refine ⟨-((2 * k + 1) * Real.pi / beta), (hp _).2 ⟨(-k - 1).toNat, ?_,
            lt_of_le_of_lt (neg_le_abs _) hlt⟩, neg_neg _⟩
          have : (((-k - 1).toNat : ℕ) : ℝ) = -k - 1 := by
            have : (((-k - 1).toNat : ℕ) : ℤ) = -k - 1 := Int.toNat_of_nonneg (by omega)
            exact_mod_cast this
          rw [this]
          ring
  · intro hmax
    set pos := npArange (2 * Real.pi / beta) maxFrq (2 * Real.pi / beta) with hpos
    have hp : ∀ x, x ∈ pos ↔ ∃ i : ℕ, x = 2 * (i + 1) * Real.pi / beta ∧ x < maxFrq := by
      intro x
      rw [hpos, mem_npArange hd]
      refine exists_congr fun i => and_congr_left fun _ => ?_
      rw [show 2 * Real.pi / beta + i * (2 * Real.pi / beta) = 2 * (i + 1) * Real.pi / beta by ring]
    have hp0 : ∀ x ∈ pos, 0 < x := by
      intro x hx
      obtain ⟨i, rfl, -⟩ := (hp x).1 hx
      positivity
    refine ⟨(pos.map (fun x => -x) ++ pos ++ [0]).insertionSort (· ≤ ·), ?_, sort_strict ?_,
      fun x => ?_⟩
    · unfold getMatsubaraFrqs
      rw [if_pos (Or.inr rfl), if_neg hb.ne']
      simp [hpos]
    · rw [List.nodup_append, List.nodup_append]
      refine ⟨⟨(nodup_npArange hd).map neg_injective, nodup_npArange hd, ?_⟩, by simp, ?_⟩
      · rintro a ha b hb' rfl
        obtain ⟨y, hy, rfl⟩ := List.mem_map.1 ha
        linarith [hp0 _ hy, hp0 _ hb']
      · rintro a ha b hb' rfl
        rw [List.mem_singleton] at hb'
        rw [List.mem_append, List.mem_map] at ha
        rcases ha with ⟨y, hy, rfl⟩ | ha
        · linarith [hp0 _ hy]
        · linarith [hp0 _ ha]
    · rw [(List.perm_insertionSort _ _).mem_iff, List.mem_append, List.mem_append, List.mem_map,
        List.mem_singleton]
      constructor
      · rintro ((⟨y, hy, rfl⟩ | hx) | rfl)
        · obtain ⟨i, rfl, hlt⟩ := (hp y).1 hy
          refine ⟨⟨-i - 1, by push_cast; ring⟩, ?_⟩
          rw [abs_neg, abs_of_pos (hp0 _ hy)]; exact hlt
        · obtain ⟨i, rfl, hlt⟩ := (hp x).1 hx
          refine ⟨⟨i + 1, by push_cast; ring⟩, ?_⟩
          rw [abs_of_pos (hp0 _ hx)]; exact hlt
        · exact ⟨⟨0, by simp⟩, by simpa using hmax⟩
      · rintro ⟨⟨k, rfl⟩, hlt⟩
        rcases lt_trichotomy k 0 with hk | hk | hk
        · left; left
          refine ⟨-(2 * k * Real.pi / beta), (hp _).2 ⟨(-k - 1).toNat, ?_,
            lt_of_le_of_lt (neg_le_abs _) hlt⟩, neg_neg _⟩
          have : (((-k - 1).toNat : ℕ) : ℝ) = -k - 1 := by
            have : (((-k - 1).toNat : ℕ) : ℤ) = -k - 1 := Int.toNat_of_nonneg (by omega)
            exact_mod_cast this
          rw [this]
          ring
        · right; subst hk; simp
        · left; right
          refine (hp _).2 ⟨(k - 1).toNat, ?_, lt_of_le_of_lt (le_abs_self _) hlt⟩
          have : (((k - 1).toNat : ℕ) : ℝ) = k - 1 := by
            have : (((k - 1).toNat : ℕ) : ℤ) = k - 1 := Int.toNat_of_nonneg (by omega)
            exact_mod_cast this
          rw [this]
          ring

/-- Other formats are rejected. -/
theorem C70_format (beta maxFrq : ℝ) (f : String) (h1 : f ≠ "fermion") (h2 : f ≠ "boson") :
    getMatsubaraFrqs beta maxFrq f = .error .generic := by
  unfold getMatsubaraFrqs
  rw [if_neg (by tauto)]

/-! ## C71: kernels -/

theorem trapz_weights (n : ℕ) (x : ℕ → ℝ) (y : ℕ → ℂ) (hn : 2 ≤ n) :
    ∑ i ∈ Finset.range (n - 1), ((x (i + 1) - x i : ℝ) : ℂ) * (y (i + 1) + y i) / 2 =
    ∑ i ∈ Finset.range n, y i * (((if i = n - 1 then 1 / 2 * (x (n - 1) - x (n - 2))
      else if i = 0 then 1 / 2 * (x 1 - x 0) else 1 / 2 * (x (i + 1) - x (i - 1)) : ℝ)) : ℂ) := by
  obtain ⟨m, rfl⟩ : ∃ m, n = m + 2 := ⟨n - 2, by omega⟩
  rw [show m + 2 - 1 = m + 1 by omega, show m + 2 - 2 = m by omega, Finset.sum_range_succ _ (m + 1)]
  rw [if_pos rfl]
  have h1 : ∀ i ∈ Finset.range (m + 1), y i * (((if i = m + 1 then 1 / 2 * (x (m + 1) - x m)
      else if i = 0 then 1 / 2 * (x 1 - x 0) else 1 / 2 * (x (i + 1) - x (i - 1)) : ℝ)) : ℂ) =
      y i * ((1 / 2 * (x (i + 1) - x (if i = 0 then i else i - 1)) : ℝ) : ℂ) := by
    intro i hi
    have := Finset.mem_range.1 hi
    rw [if_neg (by omega)]
    by_cases h0 : i = 0
    · subst h0; simp
    · rw [if_neg h0, if_neg h0]
  rw [Finset.sum_congr rfl h1]
  clear h1
  induction m with
  | zero => simp; ring
  | succ m ih =>
    rw [Finset.sum_range_succ, ih (by omega), Finset.sum_range_succ _ (m + 1)]
    simp
    ring

theorem getD_zipWith {α β γ : Type} (f : α → β → γ) (l : List α) (m : List β) (a : α) (b : β) (c : γ)
    (i : ℕ) (h : l.length = m.length) (hi : i < l.length) :
    (List.zipWith f l m).getD i c = f (l.getD i a) (m.getD i b) := by
  have hi' : i < m.length := h ▸ hi
  simp [List.getD_eq_getElem?_getD, List.getElem?_zipWith, hi, hi']

theorem sum_zipWith (f : ℂ → ℝ → ℂ) (l : List ℂ) (m : List ℝ) (h : l.length = m.length) :
    (List.zipWith f l m).sum = ∑ i ∈ Finset.range l.length, f (l.getD i 0) (m.getD i 0) := by
  induction l generalizing m with
  | nil => simp
  | cons a l ih =>
    cases m with
    | nil => simp at h
    | cons b m =>
      rw [List.zipWith_cons_cons, List.sum_cons, ih m (by simpa using h), List.length_cons,
        Finset.sum_range_succ']
      simp [add_comm]

/-- The denominators of the imaginary-frequency transform do not vanish. -/
def FrqRegular (mats omegas : List ℝ) : Prop := ∀ w ∈ mats, ∀ o ∈ omegas, w ≠ 0 ∨ o ≠ 0

/-- The denominators of the imaginary-time transform do not vanish. -/
def TimeRegular (format : String) (beta : ℝ) (omegas : List ℝ) : Prop :=
  format = "fermion" ∨ (format = "boson" ∧ ∀ o ∈ omegas, beta * o ≠ 0)

/-- C71: applying the imaginary-frequency kernel to a sampled spectral function gives the direct
trapezoidal transform, on every grid of at least two points. -/
theorem C71_imagfrq_kernel (mats omegas spectral : List ℝ) (hn : 2 ≤ omegas.length)
    (hl : spectral.length = omegas.length) (_hreg : FrqRegular mats omegas) :
    ∃ K g, imagfrqKernel mats omegas = .ok K ∧ imagfrqFromSpectral mats omegas spectral = .ok g ∧
      kernelDot K spectral = g := by
  have hd : frqDiffs omegas = .ok ((List.range omegas.length).map fun i =>
      if i = omegas.length - 1 then
        1 / 2 * (omegas.getD (omegas.length - 1) 0 - omegas.getD (omegas.length - 2) 0)
      else if i = 0 then 1 / 2 * (omegas.getD 1 0 - omegas.getD 0 0)
      else 1 / 2 * (omegas.getD (i + 1) 0 - omegas.getD (i - 1) 0)) := by
    unfold frqDiffs
    simp only
    rw [if_neg (by omega)]
  refine ⟨_, _, by unfold imagfrqKernel; rw [hd]; rfl, by unfold imagfrqFromSpectral; rw [if_pos hl], ?_⟩
  unfold kernelDot
  rw [List.map_map]
  refine List.map_congr_left fun w _ => ?_
  simp only [Function.comp_apply]
  rw [sum_zipWith _ _ _ (by simp [hl])]
  have htr : trapz (List.zipWith (fun a o : ℝ => (a : ℂ) / (Complex.I * (w : ℂ) - (o : ℂ))) spectral
      omegas) omegas = ∑ i ∈ Finset.range (omegas.length - 1),
        ((omegas.getD (i + 1) 0 - omegas.getD i 0 : ℝ) : ℂ) *
        (((spectral.getD (i + 1) 0 : ℝ) : ℂ) / (Complex.I * (w : ℂ) - ((omegas.getD (i + 1) 0 : ℝ) : ℂ)) +
          ((spectral.getD i 0 : ℝ) : ℂ) / (Complex.I * (w : ℂ) - ((omegas.getD i 0 : ℝ) : ℂ))) / 2 := by
    unfold trapz
    refine Finset.sum_congr rfl fun i hi => ?_
    have hi := Finset.mem_range.1 hi
    rw [getD_zipWith _ _ _ 0 0 _ _ hl (by omega), getD_zipWith _ _ _ 0 0 _ _ hl (by omega)]
  rw [htr, trapz_weights omegas.length (fun i => omegas.getD i 0) (fun i => ((spectral.getD i 0 : ℝ) : ℂ) /
    (Complex.I * (w : ℂ) - ((omegas.getD i 0 : ℝ) : ℂ))) hn, Finset.sum_div]
  rw [List.length_zipWith, List.length_map, List.length_range, min_self]
  refine Finset.sum_congr rfl fun i hi => ?_
  have hi := Finset.mem_range.1 hi
  rw [getD_zipWith _ _ _ 0 0 _ _ (by simp) hi]
  have : ∀ f : ℕ → ℝ, ((List.range omegas.length).map f).getD i 0 = f i := fun f => by
    simp [List.getD_eq_getElem?_getD, hi]
  rw [this]
  ring

/-- C71: the same for the imaginary-time kernel, for both statistics. -/
theorem C71_imagtime_kernel (taus : List ℝ) (beta : ℝ) (omegas spectral : List ℝ) (format : String)
    (hn : 2 ≤ omegas.length) (hl : spectral.length = omegas.length)
    (hreg : TimeRegular format beta omegas) :
    ∃ K g, imagtimeKernel taus beta omegas format = .ok K ∧
      imagtimeFromSpectral taus beta omegas spectral format = .ok g ∧ kernelDot K spectral = g := by
  obtain ⟨fac, hfac⟩ : ∃ fac, statFactor format = .ok fac := by
    rcases hreg with rfl | ⟨rfl, -⟩
    · exact ⟨1, rfl⟩
    · exact ⟨-1, rfl⟩
  have hd : frqDiffs omegas = .ok ((List.range omegas.length).map fun i =>
      if i = omegas.length - 1 then
        1 / 2 * (omegas.getD (omegas.length - 1) 0 - omegas.getD (omegas.length - 2) 0)
      else if i = 0 then 1 / 2 * (omegas.getD 1 0 - omegas.getD 0 0)
      else 1 / 2 * (omegas.getD (i + 1) 0 - omegas.getD (i - 1) 0)) := by
    unfold frqDiffs
    simp only
    rw [if_neg (by omega)]
  refine ⟨_, _, by unfold imagtimeKernel; rw [hfac, hd]; rfl, by
    unfold imagtimeFromSpectral; rw [hfac]; exact if_pos hl, ?_⟩
  unfold kernelDot
  rw [List.map_map]
  refine List.map_congr_left fun t _ => ?_
  simp only [Function.comp_apply]
  rw [sum_zipWith _ _ _ (by simp [hl])]
  have htr : trapz (List.zipWith (fun a o : ℝ =>
        ((a * Real.exp (-(o * t)) / (1 + fac * Real.exp (-beta * o)) : ℝ) : ℂ)) spectral omegas)
        omegas = ∑ i ∈ Finset.range (omegas.length - 1),
        ((omegas.getD (i + 1) 0 - omegas.getD i 0 : ℝ) : ℂ) *
        (((spectral.getD (i + 1) 0 * Real.exp (-(omegas.getD (i + 1) 0 * t)) /
          (1 + fac * Real.exp (-beta * omegas.getD (i + 1) 0)) : ℝ) : ℂ) +
          ((spectral.getD i 0 * Real.exp (-(omegas.getD i 0 * t)) /
          (1 + fac * Real.exp (-beta * omegas.getD i 0)) : ℝ) : ℂ)) / 2 := by
    unfold trapz
    refine Finset.sum_congr rfl fun i hi => ?_
    have hi := Finset.mem_range.1 hi
    rw [getD_zipWith _ _ _ 0 0 _ _ hl (by omega), getD_zipWith _ _ _ 0 0 _ _ hl (by omega)]
  rw [htr, trapz_weights omegas.length (fun i => omegas.getD i 0) (fun i =>
    ((spectral.getD i 0 * Real.exp (-(omegas.getD i 0 * t)) /
          (1 + fac * Real.exp (-beta * omegas.getD i 0)) : ℝ) : ℂ)) hn, ← Finset.sum_neg_distrib,
    Finset.sum_div]
  rw [List.length_zipWith, List.length_map, List.length_range, min_self]
  refine Finset.sum_congr rfl fun i hi => ?_
  have hi := Finset.mem_range.1 hi
  rw [getD_zipWith _ _ _ 0 0 _ _ (by simp) hi]
  have : ∀ f : ℕ → ℝ, ((List.range omegas.length).map f).getD i 0 = f i := fun f => by
    simp [List.getD_eq_getElem?_getD, hi]
  rw [this]
  simp only [neg_mul]
  push_cast
  ring

example : FrqRegular [1, 3] [0, 1 / 2, 2] ∧ TimeRegular "boson" 1 [1, 2] ∧
    2 ≤ ([0, 1 / 2, 2] : List ℝ).length := by
  refine ⟨?_, Or.inr ⟨rfl, ?_⟩, by simp⟩
  · intro w hw o _
    left
    rcases List.mem_pair.1 hw with rfl | rfl <;> norm_num
  · intro o ho
    rcases List.mem_pair.1 ho with rfl | rfl <;> norm_num

/-! ## C72: imaginary-time Green's function of a free level -/

/-- C72: antiperiodicity, sign, and the jump at zero. -/
theorem C72_antiperiodic (epsilon beta : ℝ) :
    ∃ G : ℝ → ℝ, (∀ tau, noninteractingTau tau epsilon beta "fermion" = .ok (G tau)) ∧
      (∀ tau, -beta < tau → tau < 0 → G (tau + beta) = -G tau) ∧ (∀ tau, 0 < tau → G tau < 0) ∧
      (∀ tau, tau < 0 → 0 < G tau) ∧
      ∃ gp gm, Tendsto G (𝓝[>] 0) (𝓝 gp) ∧ Tendsto G (𝓝[<] 0) (𝓝 gm) ∧ gp - gm = -1 := by
  set f : ℝ := 1 / (1 + Real.exp (beta * epsilon)) with hf
  have hexp := Real.exp_pos (beta * epsilon)
  have hf0 : 0 < f := by positivity
  have hf1 : 0 < 1 - f := by
    rw [hf, one_sub_div (by positivity), add_sub_cancel_left]
    positivity
  set G : ℝ → ℝ := fun tau => -Real.exp (-epsilon * tau) *
    ((1 - f) * heaviside0 tau - f * heaviside0 (-1 * tau)) with hG
  have gpos : ∀ tau, 0 < tau → G tau = -(1 - f) * Real.exp (-epsilon * tau) := by
    intro tau h
    simp only [hG, heaviside0]
    rw [if_pos h, if_neg (by linarith)]
    ring
  have gneg : ∀ tau, tau < 0 → G tau = f * Real.exp (-epsilon * tau) := by
    intro tau h
    simp only [hG, heaviside0]
    rw [if_neg (by linarith), if_pos (by linarith)]
    ring
  refine ⟨G, fun tau => rfl, fun tau h1 h2 => ?_, fun tau h => ?_, fun tau h => ?_, -(1 - f), f, ?_, ?_,
    by ring⟩
  · rw [gpos _ (by linarith), gneg _ h2]
    have : (1 - f) * Real.exp (-epsilon * beta) = f := by
      rw [hf, one_sub_div (by positivity), add_sub_cancel_left,
        show -epsilon * beta = -(beta * epsilon) by ring, Real.exp_neg]
      field_simp
    rw [mul_add, Real.exp_add]
    linear_combination -Real.exp (-epsilon * tau) * this
  · rw [gpos _ h]
    have := Real.exp_pos (-epsilon * tau)
    nlinarith
  · rw [gneg _ h]
    have := Real.exp_pos (-epsilon * tau)
    positivity
  · have h : Tendsto (fun tau => -(1 - f) * Real.exp (-epsilon * tau)) (𝓝[>] 0) (𝓝 (-(1 - f))) := by
      have hc : Continuous fun tau => -(1 - f) * Real.exp (-epsilon * tau) := by fun_prop
      have := (hc.tendsto 0).mono_left (nhdsWithin_le_nhds (s := Set.Ioi 0))
      simpa using this
    exact h.congr' (eventually_nhdsWithin_of_forall fun tau ht => (gpos tau ht).symm)
  · have h : Tendsto (fun tau => f * Real.exp (-epsilon * tau)) (𝓝[<] 0) (𝓝 f) := by
      have hc : Continuous fun tau => f * Real.exp (-epsilon * tau) := by fun_prop
      have := (hc.tendsto 0).mono_left (nhdsWithin_le_nhds (s := Set.Iio 0))
      simpa using this
    exact h.congr' (eventually_nhdsWithin_of_forall fun tau ht => (gneg tau ht).symm)

end ED.Props
