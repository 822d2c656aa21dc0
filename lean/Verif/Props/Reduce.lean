import Verif.Props.PointGroups
import Verif.Lemmas.ReduceGroup
import Verif.Lemmas.SvdExists
import Verif.Lemmas.TorusRep
import Mathlib.NumberTheory.Zsqrtd.Basic

/-!
# Symmetry adapted bases of the point groups (C103)
-/

namespace ED.Props

open scoped BigOperators Matrix
open Spec GroupAlg

variable {d : ℕ}

theorem gap_int (m : ℕ) (F f : ℕ → ℤ) :
    (∑ x ∈ Finset.range m, Int.castRingHom ℂ (F x) * (f x : ℂ)) = 0 ∨
      (10 : ℝ) ^ (-10 : ℤ) ≤ ‖(Int.castRingHom ℂ 1)⁻¹ * ∑ x ∈ Finset.range m, Int.castRingHom ℂ (F x) * (f x : ℂ)‖ := by
  have e : (∑ x ∈ Finset.range m, Int.castRingHom ℂ (F x) * (f x : ℂ)) = ((∑ x ∈ Finset.range m, F x * f x : ℤ) : ℂ) := by
    push_cast
    rfl
  rw [e]
  by_cases h0 : ∑ x ∈ Finset.range m, F x * f x = 0
  · left
    rw [h0, Int.cast_zero]
  · right
    rw [map_one, inv_one, one_mul, Complex.norm_intCast]
    have h1 : (1 : ℤ) ≤ |∑ x ∈ Finset.range m, F x * f x| := Int.one_le_abs h0
    have h2 : (1 : ℝ) ≤ |((∑ x ∈ Finset.range m, F x * f x : ℤ) : ℝ)| := by exact_mod_cast h1
    refine le_trans ?_ h2
    norm_num

/-- A number `a + b √5` that is not zero is not small. -/
theorem root5_gap (z : ℤ√5) (ha : |z.re| ≤ 20) (hb : |z.im| ≤ 20) : root5 z = 0 ∨ 1 / 100 ≤ ‖root5 z‖ := by
  by_cases h0 : z = 0
  · left
    rw [h0, map_zero]
  · right
    have hn : z.norm ≠ 0 := by
      rw [Ne, Zsqrtd.norm_eq_zero (fun n hn => ?_)]
      · exact h0
      · have h1 : |n| ≤ 2 := by
          by_contra h
          push Not at h
          have := abs_mul_abs_self n
          nlinarith
        have := abs_le.1 h1
        obtain ⟨h2, h3⟩ := this
        interval_cases n <;> omega
    have h5 : Real.sqrt 5 ≤ 3 := by
      rw [Real.sqrt_le_left (by norm_num)]
      norm_num
    have h50 := Real.sqrt_nonneg 5
    have h55 : Real.sqrt 5 * Real.sqrt 5 = 5 := Real.mul_self_sqrt (by norm_num)
    have e : root5 z = (((z.re : ℝ) + z.im * Real.sqrt 5 : ℝ) : ℂ) := by
      rw [root5_apply]
      push_cast
      rfl
    rw [e, Complex.norm_real, Real.norm_eq_abs]
    have hprod : ((z.re : ℝ) + z.im * Real.sqrt 5) * ((z.re : ℝ) - z.im * Real.sqrt 5) = ((z.norm : ℤ) : ℝ) := by
      rw [Zsqrtd.norm_def]
      push_cast
      linear_combination -(z.im : ℝ) * z.im * h55
    have h1 : (1 : ℝ) ≤ |((z.norm : ℤ) : ℝ)| := by exact_mod_cast Int.one_le_abs hn
    rw [← hprod, abs_mul] at h1
    have ha' : |(z.re : ℝ)| ≤ 20 := by exact_mod_cast ha
    have hb' : |(z.im : ℝ)| ≤ 20 := by exact_mod_cast hb
    have h2 : |(z.re : ℝ) - z.im * Real.sqrt 5| ≤ 80 := by
      refine (abs_sub _ _).trans ?_
      rw [abs_mul, abs_of_nonneg h50]
      nlinarith [abs_nonneg (z.im : ℝ)]
    have h3 := abs_nonneg ((z.re : ℝ) + z.im * Real.sqrt 5)
    nlinarith

theorem gap_root5 (F : ℕ → ℤ√5) (f : ℕ → ℤ) (hf : ∀ x, |f x| ≤ 1)
    (h1 : ∑ x ∈ Finset.range 10, |(F x).re| ≤ 20) (h2 : ∑ x ∈ Finset.range 10, |(F x).im| ≤ 20) :
    (∑ x ∈ Finset.range 10, root5 (F x) * (f x : ℂ)) = 0 ∨
      (10 : ℝ) ^ (-10 : ℤ) ≤ ‖(root5 2)⁻¹ * ∑ x ∈ Finset.range 10, root5 (F x) * (f x : ℂ)‖ := by
  have e : (∑ x ∈ Finset.range 10, root5 (F x) * (f x : ℂ)) = root5 (∑ x ∈ Finset.range 10, F x * (f x : ℤ√5)) := by
    rw [map_sum]
    refine Finset.sum_congr rfl fun x _ => ?_
    rw [map_mul, map_intCast]
  have hre : (∑ x ∈ Finset.range 10, F x * (f x : ℤ√5)).re = ∑ x ∈ Finset.range 10, (F x).re * f x := by
    generalize Finset.range 10 = s
    induction s using Finset.induction_on with
    | empty => rfl
    | insert a s ha ih =>
      rw [Finset.sum_insert ha, Finset.sum_insert ha, Zsqrtd.re_add, ih]
      simp
  have him : (∑ x ∈ Finset.range 10, F x * (f x : ℤ√5)).im = ∑ x ∈ Finset.range 10, (F x).im * f x := by
    generalize Finset.range 10 = s
    induction s using Finset.induction_on with
    | empty => rfl
    | insert a s ha ih =>
      rw [Finset.sum_insert ha, Finset.sum_insert ha, Zsqrtd.im_add, ih]
      simp
  have hb : ∀ g : ℕ → ℤ, ∑ x ∈ Finset.range 10, |g x| ≤ 20 → |∑ x ∈ Finset.range 10, g x * f x| ≤ 20 := by
    intro g hg
    refine (Finset.abs_sum_le_sum_abs _ _).trans ((Finset.sum_le_sum fun x _ => ?_).trans hg)
    rw [abs_mul]
    exact mul_le_of_le_one_right (abs_nonneg _) (hf x)
  rw [e]
  rcases root5_gap (∑ x ∈ Finset.range 10, F x * (f x : ℤ√5)) (by rw [hre]; exact hb _ h1) (by rw [him]; exact hb _ h2)
    with h0 | h0
  · exact Or.inl h0
  · right
    rw [norm_mul, norm_inv, root5_two]
    have : ‖(2 : ℂ)‖ = 2 := by simp
    rw [this]
    refine le_trans ?_ (mul_le_mul_of_nonneg_left h0 (by norm_num))
    norm_num

private theorem dih_signed {n : ℕ} {R S : Matrix (Fin d) (Fin d) ℂ} (hR : SignedPermutation R)
    (hS : SignedPermutation S) (x : ℕ) : SignedPermutation (dihRho n R S x) := by
  unfold dihRho
  exact SignedPermutation.mul (SignedPermutation.pow hR _) (SignedPermutation.pow hS _)

/-- Operators that commute with all group elements commute with the projectors. -/
theorem proj_commute {K : Type} [CommRing K] {T : Tables K} {F : ℕ → ℕ → K} {φ : K →+* ℂ}
    {ρ : ℕ → Matrix (Fin d) (Fin d) ℂ} {table : List (List ℂ)} {classes : List (List (Matrix (Fin d) (Fin d) ℂ))}
    (h : T.Rep F φ ρ table classes) {H : Matrix (Fin d) (Fin d) ℂ} (hH : ∀ x, H * ρ x = ρ x * H) :
    AllCommute (table.map fun chars => symmProjFull chars classes) H := by
  intro p hp
  obtain ⟨i, hi, rfl⟩ := List.mem_iff_getElem.1 hp
  rw [h.get i hi]
  unfold GroupAlg.E
  rw [Matrix.mul_smul, Matrix.smul_mul, Finset.mul_sum, Finset.sum_mul]
  congr 1
  refine Finset.sum_congr rfl fun x _ => ?_
  rw [Matrix.mul_smul, Matrix.smul_mul, hH]

private theorem dih_reduce {K : Type} [CommRing K] (φ : K →+* ℂ)
    (hφ : ∀ k, (starRingEnd ℂ) (φ k) = φ k) {n : ℕ} (codes : List (List ℕ))
    (rows : List (List K)) (dims : List ℕ) (s : K) (hs : φ s ≠ 0)
    (hB : (dihTables n codes rows dims s).Base fun i x => coef (rows.getD i []) codes x)
    (ho : ∀ i < rows.length, ∀ j < rows.length, i ≠ j →
      (dihTables n codes rows dims s).Orth (fun i x => coef (rows.getD i []) codes x) i j)
    (hi : ∀ i < rows.length,
      (dihTables n codes rows dims s).Idem (fun i x => coef (rows.getD i []) codes x) i)
    (hc : (dihTables n codes rows dims s).Complete fun i x => coef (rows.getD i []) codes x)
    (hV : (dihTables n codes rows dims s).Valid)
    (hD : (dihTables n codes rows dims s).Red (fun i x => coef (rows.getD i []) codes x) φ)
    {svd : Svd} (hsvd : svd.Correct)
    {R S : Matrix (Fin d) (Fin d) ℂ} (h : Dihedral n R S) (hR : SignedPermutation R) (hS : SignedPermutation S)
    (table : List (List ℂ)) (classes : List (List (Matrix (Fin d) (Fin d) ℂ)))
    (ht : table = rows.map fun r => r.map fun k => φ k / φ s)
    (hcl : classes = codes.map (List.map (dihRho n R S))) :
    ∃ P projs, getSymmetryProjectors table classes = .ok P ∧ getReducedProjectors svd table classes = .ok projs ∧
      Reduces (2 * n) dims P projs ∧ ∀ H, H * R = R * H → H * S = S * H → AllCommute P H := by
  have hr : (dihTables n codes rows dims s).Rep (fun i x => coef (rows.getD i []) codes x) φ
      (dihRho n R S) table classes :=
    ⟨hB, hφ, hs, fun x _ y _ => dihRho_mul h x y, by simp [dihRho], ht, hcl⟩
  obtain ⟨projs, h1, h2⟩ := hr.reduces hD (fun x _ => dih_signed hR hS x) hsvd hV ho hi hc
  refine ⟨_, projs, hr.validate hV, h1, h2, fun H hHR hHS => proj_commute hr fun x => ?_⟩
  unfold dihRho
  have e1 : Commute H R := hHR
  have e2 : Commute H S := hHS
  exact (e1.pow_right _).mul_right (e2.pow_right _)

/-- C103 for the group of the rectangle. -/
theorem C103_D2_partial {svd : Svd} (hsvd : svd.Correct) {R S : Matrix (Fin d) (Fin d) ℂ} (h : Dihedral 2 R S)
    (hR : SignedPermutation R) (hS : SignedPermutation S) :
    ∃ P projs, getD2Projectors R S = .ok P ∧ reducedD2 svd R S = .ok projs ∧ Reduces 4 [1, 1, 1, 1] P projs ∧
      ∀ H, H * R = R * H → H * S = S * H → AllCommute P H :=
  dih_reduce (Int.castRingHom ℂ) int_conj [[0], [2], [1], [3]]
    [[1, 1, 1, 1], [1, 1, -1, -1], [1, -1, 1, -1], [1, -1, -1, 1]] [1, 1, 1, 1] 1 (by simp)
    ⟨by decide +kernel, by decide +kernel, by decide +kernel, by decide +kernel, by decide +kernel⟩
    (by decide +kernel) (by decide +kernel) (by decide +kernel)
    (by unfold Tables.Valid; decide +kernel)
    ⟨by decide +kernel, by decide +kernel, by decide +kernel, by decide +kernel, by decide +kernel,
      by decide +kernel, by decide +kernel, fun _ _ f _ => gap_int _ _ f, by decide +kernel⟩ hsvd h hR hS _ _
    (by simp [d2Table]) (by simp [d2Classes, dihRho])

/-- C103 for the group of the triangle. -/
theorem C103_D3_partial {svd : Svd} (hsvd : svd.Correct) {R S : Matrix (Fin d) (Fin d) ℂ} (h : Dihedral 3 R S)
    (hR : SignedPermutation R) (hS : SignedPermutation S) :
    ∃ P projs, getD3Projectors R S = .ok P ∧ reducedD3 svd R S = .ok projs ∧ Reduces 6 [1, 1, 2] P projs ∧
      ∀ H, H * R = R * H → H * S = S * H → AllCommute P H :=
  dih_reduce (Int.castRingHom ℂ) int_conj [[0], [2, 4], [1, 3, 5]]
    [[1, 1, 1], [1, 1, -1], [2, -1, 0]] [1, 1, 2] 1 (by simp)
    ⟨by decide +kernel, by decide +kernel, by decide +kernel, by decide +kernel, by decide +kernel⟩
    (by decide +kernel) (by decide +kernel) (by decide +kernel)
    (by unfold Tables.Valid; decide +kernel)
    ⟨by decide +kernel, by decide +kernel, by decide +kernel, by decide +kernel, by decide +kernel,
      by decide +kernel, by decide +kernel, fun _ _ f _ => gap_int _ _ f, by decide +kernel⟩ hsvd h hR hS _ _
    (by simp [d3Table]) (by simp [d3Classes, dihRho])

/-- C103 for the group of the square. -/
theorem C103_D4_partial {svd : Svd} (hsvd : svd.Correct) {R S : Matrix (Fin d) (Fin d) ℂ} (h : Dihedral 4 R S)
    (hR : SignedPermutation R) (hS : SignedPermutation S) :
    ∃ P projs, getD4Projectors R S = .ok P ∧ reducedD4 svd R S = .ok projs ∧ Reduces 8 [1, 1, 1, 1, 2] P projs ∧
      ∀ H, H * R = R * H → H * S = S * H → AllCommute P H :=
  dih_reduce (Int.castRingHom ℂ) int_conj [[0], [2, 6], [4], [1, 5], [3, 7]]
    [[1, 1, 1, 1, 1], [1, 1, 1, -1, -1], [1, -1, 1, 1, -1], [1, -1, 1, -1, 1], [2, 0, -2, 0, 0]]
    [1, 1, 1, 1, 2] 1 (by simp)
    ⟨by decide +kernel, by decide +kernel, by decide +kernel, by decide +kernel, by decide +kernel⟩
    (by decide +kernel) (by decide +kernel) (by decide +kernel)
    (by unfold Tables.Valid; decide +kernel)
    ⟨by decide +kernel, by decide +kernel, by decide +kernel, by decide +kernel, by decide +kernel,
      by decide +kernel, by decide +kernel, fun _ _ f _ => gap_int _ _ f, by decide +kernel⟩ hsvd h hR hS _ _
    (by simp [d4Table]) (by simp [d4Classes, dihRho])

/-- C103 for the group of the pentagon. -/
theorem C103_D5_partial {svd : Svd} (hsvd : svd.Correct) {R S : Matrix (Fin d) (Fin d) ℂ} (h : Dihedral 5 R S)
    (hR : SignedPermutation R) (hS : SignedPermutation S) :
    ∃ P projs, getD5Projectors R S = .ok P ∧ reducedD5 svd R S = .ok projs ∧ Reduces 10 [1, 1, 2, 2] P projs ∧
      ∀ H, H * R = R * H → H * S = S * H → AllCommute P H :=
  dih_reduce root5 root5_conj [[0], [1, 3, 5, 7, 9], [2, 8], [4, 6]]
    [[2, 2, 2, 2], [2, -2, 2, 2], [4, 0, ⟨-1, -1⟩, ⟨-1, 1⟩], [4, 0, ⟨-1, 1⟩, ⟨-1, -1⟩]]
    [1, 1, 2, 2] 2 (by rw [root5_two]; exact two_ne_zero)
    ⟨by decide +kernel, by decide +kernel, by decide +kernel, by decide +kernel, by decide +kernel⟩
    (by decide +kernel) (by decide +kernel) (by decide +kernel)
    (by unfold Tables.Valid; decide +kernel)
    ⟨by decide +kernel, by decide +kernel, by decide +kernel, by decide +kernel, by decide +kernel,
      by decide +kernel, by decide +kernel,
      fun i hi f hf => by
        have h1 : ∀ i < 4, ∑ x ∈ Finset.range 10, |(coef (([[2, 2, 2, 2], [2, -2, 2, 2], [4, 0, ⟨-1, -1⟩, ⟨-1, 1⟩],
            [4, 0, ⟨-1, 1⟩, ⟨-1, -1⟩]] : List (List (ℤ√5))).getD i []) [[0], [1, 3, 5, 7, 9], [2, 8], [4, 6]] x).re| ≤ 20 := by
          decide +kernel
        have h2 : ∀ i < 4, ∑ x ∈ Finset.range 10, |(coef (([[2, 2, 2, 2], [2, -2, 2, 2], [4, 0, ⟨-1, -1⟩, ⟨-1, 1⟩],
            [4, 0, ⟨-1, 1⟩, ⟨-1, -1⟩]] : List (List (ℤ√5))).getD i []) [[0], [1, 3, 5, 7, 9], [2, 8], [4, 6]] x).im| ≤ 20 := by
          decide +kernel
        exact gap_root5 _ f hf (h1 i hi) (h2 i hi), by decide +kernel⟩ hsvd h hR hS _ _
    (by
      have h4 : (4 : ℂ) / 2 = 2 := by norm_num
      simp only [d5Table, List.map_cons, List.map_nil, root5_two, root5_four, map_zero, map_neg,
        root5_mk, neg_div, zero_div, div_self (two_ne_zero' ℂ), h4]
      push_cast
      simp only [List.cons.injEq, and_true, true_and]
      refine ⟨⟨?_, ?_⟩, ?_, ?_⟩ <;> ring)
    (by simp [d5Classes, dihRho])

/-- C103 for the group of the hexagon. -/
theorem C103_D6_partial {svd : Svd} (hsvd : svd.Correct) {R S : Matrix (Fin d) (Fin d) ℂ} (h : Dihedral 6 R S)
    (hR : SignedPermutation R) (hS : SignedPermutation S) :
    ∃ P projs, getD6Projectors R S = .ok P ∧ reducedD6 svd R S = .ok projs ∧
      Reduces 12 [1, 1, 1, 1, 2, 2] P projs ∧ ∀ H, H * R = R * H → H * S = S * H → AllCommute P H :=
  dih_reduce (Int.castRingHom ℂ) int_conj [[0], [6], [3, 7, 11], [1, 5, 9], [4, 8], [2, 10]]
    [[1, 1, 1, 1, 1, 1], [1, 1, -1, -1, 1, 1], [1, -1, -1, 1, 1, -1], [1, -1, 1, -1, 1, -1],
      [2, 2, 0, 0, -1, -1], [2, -2, 0, 0, -1, 1]] [1, 1, 1, 1, 2, 2] 1 (by simp)
    ⟨by decide +kernel, by decide +kernel, by decide +kernel, by decide +kernel, by decide +kernel⟩
    (by decide +kernel) (by decide +kernel) (by decide +kernel)
    (by unfold Tables.Valid; decide +kernel)
    ⟨by decide +kernel, by decide +kernel, by decide +kernel, by decide +kernel, by decide +kernel,
      by decide +kernel, by decide +kernel, fun _ _ f _ => gap_int _ _ f, by decide +kernel⟩ hsvd h hR hS _ _
    (by simp [d6Table]) (by simp [d6Classes, dihRho])

private theorem torus_red (o : Bool) : (torusTables o).Red torusF (Int.castRingHom ℂ) := by
  cases o <;>
  exact ⟨by decide +kernel, by decide +kernel, by decide +kernel, by decide +kernel, by decide +kernel,
      by decide +kernel, by decide +kernel, fun _ _ f _ => gap_int _ _ f, by decide +kernel⟩

private theorem torus_reduce {o : Bool} {svd : Svd} (hsvd : svd.Correct) {R S X Y : Matrix (Fin d) (Fin d) ℂ}
    (h : TorusRel o R S X Y)
    (hR : SignedPermutation R) (hS : SignedPermutation S) (hX : SignedPermutation X) (hY : SignedPermutation Y) :
    ∃ P projs, getC4VAnd3by3 R S X Y = .ok P ∧ reducedTorus svd R S X Y = .ok projs ∧
      Reduces 72 [1, 1, 1, 1, 2, 4, 4, 4, 4] P projs ∧
      ∀ H, H * R = R * H → H * S = S * H → H * X = X * H → H * Y = Y * H → AllCommute P H := by
  have hρ : ∀ x, x < (torusTables o).m → SignedPermutation (torusRho R S X Y x) := fun x _ => by
    unfold torusRho
    exact SignedPermutation.mul (SignedPermutation.mul (SignedPermutation.mul (SignedPermutation.pow hX _)
      (SignedPermutation.pow hY _)) (SignedPermutation.pow hR _)) (SignedPermutation.pow hS _)
  obtain ⟨projs, h1, h2⟩ := (torus_rep h).reduces (torus_red o) hρ hsvd (torus_valid o)
    (fun i hi j hj => torus_orth o i j hi hj) (fun i hi => torus_idem o i hi) (torus_complete o)
  refine ⟨_, projs, (torus_rep h).validate (torus_valid o), h1, h2,
    fun H e1 e2 e3 e4 => proj_commute (torus_rep h) fun x => ?_⟩
  unfold torusRho
  have e1 : Commute H R := e1
  have e2 : Commute H S := e2
  have e3 : Commute H X := e3
  have e4 : Commute H Y := e4
  exact (((e3.pow_right _).mul_right (e4.pow_right _)).mul_right (e1.pow_right _)).mul_right (e2.pow_right _)

/-- C103 for the symmetry group of the 3x3 torus, rotating counter-clockwise. -/
theorem C103_torus_partial {svd : Svd} (hsvd : svd.Correct) {R S X Y : Matrix (Fin d) (Fin d) ℂ} (h : Torus3 R S X Y)
    (hR : SignedPermutation R) (hS : SignedPermutation S) (hX : SignedPermutation X) (hY : SignedPermutation Y) :
    ∃ P projs, getC4VAnd3by3 R S X Y = .ok P ∧ reducedTorus svd R S X Y = .ok projs ∧
      Reduces 72 [1, 1, 1, 1, 2, 4, 4, 4, 4] P projs ∧
      ∀ H, H * R = R * H → H * S = S * H → H * X = X * H → H * Y = Y * H → AllCommute P H :=
  torus_reduce hsvd (torusRel_ccw h) hR hS hX hY

/-- C103 for the symmetry group of the 3x3 torus, rotating clockwise. -/
theorem C103_torus_clockwise_partial {svd : Svd} (hsvd : svd.Correct) {R S X Y : Matrix (Fin d) (Fin d) ℂ}
    (h : Torus3cw R S X Y)
    (hR : SignedPermutation R) (hS : SignedPermutation S) (hX : SignedPermutation X) (hY : SignedPermutation Y) :
    ∃ P projs, getC4VAnd3by3 R S X Y = .ok P ∧ reducedTorus svd R S X Y = .ok projs ∧
      Reduces 72 [1, 1, 1, 1, 2, 4, 4, 4, 4] P projs ∧
      ∀ H, H * R = R * H → H * S = S * H → H * X = X * H → H * Y = Y * H → AllCommute P H :=
  torus_reduce hsvd (torusRel_cw h) hR hS hX hY

/-! ## Examples: permutations of sites -/

/-- The operator that permutes basis states. -/
private def permMat (σ : Equiv.Perm (Fin d)) : Matrix (Fin d) (Fin d) ℂ := fun i j => if j = σ i then 1 else 0

private theorem permMat_signed (σ : Equiv.Perm (Fin d)) : SignedPermutation (permMat σ) :=
  ⟨σ, fun _ => 1, fun _ => Or.inl rfl, fun _ _ => rfl⟩

private theorem permMat_mul (σ τ : Equiv.Perm (Fin d)) : permMat σ * permMat τ = permMat (τ * σ) := by
  ext i j
  rw [Matrix.mul_apply, Finset.sum_eq_single (σ i)]
  · change (if σ i = σ i then (1 : ℂ) else 0) * (if j = τ (σ i) then 1 else 0) = if j = τ (σ i) then 1 else 0
    rw [if_pos rfl, one_mul]
  · intro b _ hb
    simp [permMat, hb]
  · exact fun h => absurd (Finset.mem_univ _) h

private theorem permMat_one : permMat (1 : Equiv.Perm (Fin d)) = 1 := by
  ext i j
  simp [permMat, Matrix.one_apply, eq_comm]

private theorem permMat_pow (σ : Equiv.Perm (Fin d)) (k : ℕ) : permMat σ ^ k = permMat (σ ^ k) := by
  induction k with
  | zero => rw [pow_zero, pow_zero, permMat_one]
  | succ k ih => rw [pow_succ, ih, permMat_mul, pow_succ']

private theorem permMat_dihedral {n : ℕ} {σ τ : Equiv.Perm (Fin d)} (h1 : σ ^ n = 1) (h2 : τ * τ = 1)
    (h3 : τ * (σ * τ) = σ ^ (n - 1)) : Dihedral n (permMat σ) (permMat τ) := by
  refine ⟨?_, ?_, ?_⟩
  · rw [permMat_pow, h1, permMat_one]
  · rw [permMat_mul, h2, permMat_one]
  · rw [permMat_mul, permMat_mul, permMat_pow, h3]

/-- Rotation and reflection of a ring of four sites by 180 degrees, in the group of the rectangle. -/
example : ∃ svd P projs, getD2Projectors (permMat (d := 4) (finRotate 4 ^ 2)) (permMat Fin.revPerm) = .ok P ∧
    reducedD2 svd (permMat (d := 4) (finRotate 4 ^ 2)) (permMat Fin.revPerm) = .ok projs ∧
    Reduces 4 [1, 1, 1, 1] P projs := by
  obtain ⟨svd, hsvd⟩ := svd_exists
  obtain ⟨P, projs, h1, h2, h3, -⟩ := C103_D2_partial hsvd
    (permMat_dihedral (σ := (finRotate 4 : Equiv.Perm (Fin 4)) ^ 2) (τ := Fin.revPerm) (by decide) (by decide) (by decide))
    (permMat_signed _) (permMat_signed _)
  exact ⟨svd, P, projs, h1, h2, h3⟩

/-- Three sites on a triangle. -/
example : ∃ svd P projs, getD3Projectors (permMat (d := 3) (finRotate 3)) (permMat Fin.revPerm) = .ok P ∧
    reducedD3 svd (permMat (d := 3) (finRotate 3)) (permMat Fin.revPerm) = .ok projs ∧
    Reduces 6 [1, 1, 2] P projs := by
  obtain ⟨svd, hsvd⟩ := svd_exists
  obtain ⟨P, projs, h1, h2, h3, -⟩ := C103_D3_partial hsvd
    (permMat_dihedral (σ := (finRotate 3 : Equiv.Perm (Fin 3))) (τ := Fin.revPerm) (by decide) (by decide) (by decide))
    (permMat_signed _) (permMat_signed _)
  exact ⟨svd, P, projs, h1, h2, h3⟩

/-- Four sites on a square. -/
example : ∃ svd P projs, getD4Projectors (permMat (d := 4) (finRotate 4)) (permMat Fin.revPerm) = .ok P ∧
    reducedD4 svd (permMat (d := 4) (finRotate 4)) (permMat Fin.revPerm) = .ok projs ∧
    Reduces 8 [1, 1, 1, 1, 2] P projs := by
  obtain ⟨svd, hsvd⟩ := svd_exists
  obtain ⟨P, projs, h1, h2, h3, -⟩ := C103_D4_partial hsvd
    (permMat_dihedral (σ := (finRotate 4 : Equiv.Perm (Fin 4))) (τ := Fin.revPerm) (by decide) (by decide) (by decide))
    (permMat_signed _) (permMat_signed _)
  exact ⟨svd, P, projs, h1, h2, h3⟩

/-- Five sites on a pentagon. -/
example : ∃ svd P projs, getD5Projectors (permMat (d := 5) (finRotate 5)) (permMat Fin.revPerm) = .ok P ∧
    reducedD5 svd (permMat (d := 5) (finRotate 5)) (permMat Fin.revPerm) = .ok projs ∧
    Reduces 10 [1, 1, 2, 2] P projs := by
  obtain ⟨svd, hsvd⟩ := svd_exists
  obtain ⟨P, projs, h1, h2, h3, -⟩ := C103_D5_partial hsvd
    (permMat_dihedral (σ := (finRotate 5 : Equiv.Perm (Fin 5))) (τ := Fin.revPerm) (by decide) (by decide) (by decide))
    (permMat_signed _) (permMat_signed _)
  exact ⟨svd, P, projs, h1, h2, h3⟩

/-- Six sites on a hexagon. -/
example : ∃ svd P projs, getD6Projectors (permMat (d := 6) (finRotate 6)) (permMat Fin.revPerm) = .ok P ∧
    reducedD6 svd (permMat (d := 6) (finRotate 6)) (permMat Fin.revPerm) = .ok projs ∧
    Reduces 12 [1, 1, 1, 1, 2, 2] P projs := by
  obtain ⟨svd, hsvd⟩ := svd_exists
  obtain ⟨P, projs, h1, h2, h3, -⟩ := C103_D6_partial hsvd
    (permMat_dihedral (σ := (finRotate 6 : Equiv.Perm (Fin 6))) (τ := Fin.revPerm) (by decide) (by decide) (by decide))
    (permMat_signed _) (permMat_signed _)
  exact ⟨svd, P, projs, h1, h2, h3⟩

/-- The sites of the 3x3 torus, numbered `3 x + y`. -/
private def site (x y : ℕ) : Fin 9 := ⟨3 * (x % 3) + y % 3, by omega⟩

private def rotC : Equiv.Perm (Fin 9) :=
  ⟨fun i => site (i % 3) (2 * (i / 3)), fun i => site (2 * (i % 3)) (i / 3), by decide, by decide⟩

private def refX : Equiv.Perm (Fin 9) :=
  ⟨fun i => site (2 * (i / 3)) (i % 3), fun i => site (2 * (i / 3)) (i % 3), by decide, by decide⟩

private def trX : Equiv.Perm (Fin 9) :=
  ⟨fun i => site (i / 3 + 1) (i % 3), fun i => site (i / 3 + 2) (i % 3), by decide, by decide⟩

private def trY : Equiv.Perm (Fin 9) :=
  ⟨fun i => site (i / 3) (i % 3 + 1), fun i => site (i / 3) (i % 3 + 2), by decide, by decide⟩

private theorem torus9 : Torus3 (permMat rotC) (permMat refX) (permMat trX) (permMat trY) := by
  refine ⟨permMat_dihedral (by decide) (by decide) (by decide), ?_, ?_, ?_, ?_, ?_, ?_, ?_⟩ <;>
    simp only [permMat_pow, permMat_mul, ← permMat_one] <;> congr 1 <;> decide

private theorem torus9cw : Torus3cw (permMat rotC⁻¹) (permMat refX) (permMat trX) (permMat trY) := by
  refine ⟨permMat_dihedral (by decide) (by decide) (by decide), ?_, ?_, ?_, ?_, ?_, ?_, ?_⟩ <;>
    simp only [permMat_pow, permMat_mul, ← permMat_one] <;> congr 1 <;> decide

example : ∃ svd P projs, getC4VAnd3by3 (permMat rotC) (permMat refX) (permMat trX) (permMat trY) = .ok P ∧
    reducedTorus svd (permMat rotC) (permMat refX) (permMat trX) (permMat trY) = .ok projs ∧
    Reduces 72 [1, 1, 1, 1, 2, 4, 4, 4, 4] P projs := by
  obtain ⟨svd, hsvd⟩ := svd_exists
  obtain ⟨P, projs, h1, h2, h3, -⟩ := C103_torus_partial hsvd torus9 (permMat_signed _) (permMat_signed _)
    (permMat_signed _) (permMat_signed _)
  exact ⟨svd, P, projs, h1, h2, h3⟩

example : ∃ svd P projs, getC4VAnd3by3 (permMat rotC⁻¹) (permMat refX) (permMat trX) (permMat trY) = .ok P ∧
    reducedTorus svd (permMat rotC⁻¹) (permMat refX) (permMat trX) (permMat trY) = .ok projs ∧
    Reduces 72 [1, 1, 1, 1, 2, 4, 4, 4, 4] P projs := by
  obtain ⟨svd, hsvd⟩ := svd_exists
  obtain ⟨P, projs, h1, h2, h3, -⟩ := C103_torus_clockwise_partial hsvd torus9cw (permMat_signed _) (permMat_signed _)
    (permMat_signed _) (permMat_signed _)
  exact ⟨svd, P, projs, h1, h2, h3⟩

/-! ## Complex operators -/

/-- The rows of `reduce_symm_projector` are real for representations of dimension larger than one. -/
theorem reduceBySvd_real (svd : Svd) (p related : Rows d) : ∀ r ∈ reduceBySvd svd p related, ∀ j, (r j).im = 0 := by
  intro r hr j
  unfold reduceBySvd at hr
  obtain ⟨q, hq, rfl⟩ := List.mem_map.1 hr
  obtain ⟨c, -, hc⟩ := List.mem_flatMap.1 hq
  unfold sectorRows at hc
  have key : ∀ rows cols, q ∈ sectorBasis svd rows cols → ∀ j, (q j).im = 0 := by
    intro rows cols hm j
    unfold sectorBasis at hm
    obtain ⟨a, -, rfl⟩ := List.mem_map.1 hm
    dsimp only
    split_ifs
    · exact Complex.ofReal_im _
    · exact Complex.zero_im
  have hq' : ∀ j, (q j).im = 0 := by
    split at hc
    · cases hc
    · exact key _ _ hc
  unfold normalizeRow
  simp [hq' j]

private noncomputable def phaseR : Matrix (Fin 3) (Fin 3) ℂ := !![0, 1, 0; 0, 0, -Complex.I; Complex.I, 0, 0]

private noncomputable def phaseS : Matrix (Fin 3) (Fin 3) ℂ := !![0, 1, 0; 1, 0, 0; 0, 0, 1]

private theorem phaseR_sq : phaseR ^ 2 = !![0, 0, -Complex.I; 1, 0, 0; 0, Complex.I, 0] := by
  rw [sq]
  ext i j
  fin_cases i <;> fin_cases j <;> simp [phaseR, Matrix.mul_apply, Fin.sum_univ_three]

private theorem phase_dihedral : Dihedral 3 phaseR phaseS := by
  refine ⟨?_, ?_, ?_⟩
  · rw [pow_succ, phaseR_sq]
    ext i j
    fin_cases i <;> fin_cases j <;> simp [phaseR, Matrix.mul_apply, Fin.sum_univ_three]
  · ext i j
    fin_cases i <;> fin_cases j <;> simp [phaseS, Matrix.mul_apply, Fin.sum_univ_three]
  · rw [show 3 - 1 = 2 from rfl, phaseR_sq]
    ext i j
    fin_cases i <;> fin_cases j <;> simp [phaseR, phaseS, Matrix.mul_apply, Fin.sum_univ_three]

/-- C103 for operators that permute basis states up to complex phases: the projectors are those of a
decomposition, but the rows that belong to the representation of dimension two are not a basis of its
component, whatever singular vectors are found, because their imaginary parts are dropped. -/
theorem C103_complex_violated : ∃ R S : Matrix (Fin 3) (Fin 3) ℂ, Dihedral 3 R S ∧ PhasePermutation R ∧
    PhasePermutation S ∧ ∃ P, getD3Projectors R S = .ok P ∧ Decomposes 6 [1, 1, 2] P ∧
      ∀ svd : Svd, ¬ ∃ projs, reducedD3 svd R S = .ok projs ∧ Reduces 6 [1, 1, 2] P projs := by
  obtain ⟨P, h1, h2, -⟩ := C41_D3 phase_dihedral
  refine ⟨phaseR, phaseS, phase_dihedral, ?_, ?_, P, h1, h2, ?_⟩
  · refine ⟨finRotate 3, ![1, -Complex.I, Complex.I], ?_, ?_⟩
    · intro i
      fin_cases i <;> simp
    · intro i j
      fin_cases i <;> fin_cases j <;> simp (decide := true) [phaseR]
  · refine ⟨Equiv.swap 0 1, ![1, 1, 1], ?_, ?_⟩
    · intro i
      fin_cases i <;> simp
    · intro i j
      fin_cases i <;> fin_cases j <;> simp (decide := true) [phaseS]
  · rintro svd ⟨projs, h3, h4⟩
    have hP : P[2]? = some (symmProjFull [2, -1, 0] (d3Classes phaseR phaseS)) := by
      unfold getD3Projectors getSymmetryProjectors at h1
      split_ifs at h1
      cases h1
      rfl
    have hQ : projs[2]? = some (reduceBySvd svd (List.ofFn fun i j => symmProjFull [2, -1, 0]
        (d3Classes phaseR phaseS) i j) (statesRelated (d3Classes phaseR phaseS))) := by
      unfold reducedD3 getReducedProjectors at h3
      simp only [bind, Except.bind, pure, Except.pure] at h3
      split at h3
      · cases h3
      · split at h3
        · cases h3
        · cases h3
          simp [d3Table, reduceProjector]
    have h5 := h4.range 2 2 _ _ hQ hP rfl 0 2
    have hp : symmProjFull [2, -1, 0] (d3Classes phaseR phaseS) 0 2 = Complex.I := by
      have hr : phaseR 0 2 = 0 := by simp [phaseR]
      simp [symmProjFull, d3Classes, phaseR_sq, hr]
    rw [hp] at h5
    have hre : ∀ l : Rows 3, (∀ r ∈ l, ∀ j, (r j).im = 0) →
        ((l.map fun r => (starRingEnd ℂ) (r 0) * r 2).sum).im = 0 := by
      intro l hl
      induction l with
      | nil => simp
      | cons r l ih =>
        rw [List.map_cons, List.sum_cons, Complex.add_im, ih fun r' hr' => hl r' (List.mem_cons_of_mem _ hr')]
        have h0 := hl r List.mem_cons_self 0
        have h2 := hl r List.mem_cons_self 2
        simp [h0, h2]
    have h6 := hre _ (reduceBySvd_real svd (List.ofFn fun i j => symmProjFull [2, -1, 0] (d3Classes phaseR phaseS) i j)
      (statesRelated (d3Classes phaseR phaseS)))
    have h7 := (Complex.abs_im_le_norm _).trans h5
    rw [Complex.sub_im, h6] at h7
    have h8 : (((2 : ℕ) : ℂ) / ((6 : ℕ) : ℂ) * Complex.I).im = 1 / 3 := by
      have : ((2 : ℕ) : ℂ) / ((6 : ℕ) : ℂ) = ((1 / 3 : ℝ) : ℂ) := by push_cast; norm_num
      rw [this, Complex.im_ofReal_mul]; simp
    rw [h8] at h7
    norm_num at h7

end ED.Props
