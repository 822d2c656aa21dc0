import Verif.Lemmas.PointGroups
import Verif.Lemmas.Heptagon
import Mathlib.NumberTheory.Zsqrtd.Basic
import Mathlib.Data.Matrix.Mul
import Mathlib.LinearAlgebra.Matrix.Notation
import Mathlib.Tactic.IntervalCases

/-!
# Point group projectors decompose every representation (C41, C43) and table validation (C42)
-/

namespace ED.Props

open scoped BigOperators
open Spec GroupAlg

variable {A : Type} [Ring A] [Algebra ℂ A]

/-- Data of a dihedral group. -/
def dihTables {K : Type} [CommRing K] (n : ℕ) (codes : List (List ℕ)) (rows : List (List K))
    (dims : List ℕ) (s : K) : Tables K := ⟨2 * n, dihMul n, dihLdiv n, codes, rows, dims, s⟩

private theorem dih_commute {K : Type} [CommRing K] {φ : K →+* ℂ} {n : ℕ} (hn : 1 < n)
    {codes : List (List ℕ)} {rows : List (List K)} {dims : List ℕ} {s : K} {R S : A}
    {table : List (List ℂ)} {classes : List (List A)}
    (hr : (dihTables n codes rows dims s).Rep (fun i x => coef (rows.getD i []) codes x) φ
      (dihRho n R S) table classes)
    (hinv : ∀ x < 2 * n, dihMul n (dihMul n x 2) (2 * (n - 1)) = x ∧
      dihMul n (dihMul n x (2 * (n - 1))) 2 = x ∧ dihMul n (dihMul n x 1) 1 = x)
    (hK : ∀ i < rows.length, ∀ x < 2 * n,
      coef (rows.getD i []) codes (dihLdiv n 2 (dihMul n x 2)) = coef (rows.getD i []) codes x ∧
      coef (rows.getD i []) codes (dihLdiv n 1 (dihMul n x 1)) = coef (rows.getD i []) codes x) :
    AllCommute (table.map fun chars => symmProjFull chars classes) R ∧
      AllCommute (table.map fun chars => symmProjFull chars classes) S := by
  constructor
  · have := hr.commute 2
      (2 * (n - 1)) (by change 2 < 2 * n; omega) (by change _ < 2 * n; omega)
      (fun x hx => ⟨(hinv x hx).1, (hinv x hx).2.1⟩) (fun i hi x hx => (hK i hi x hx).1)
    have h2 : dihRho n R S 2 = R := by simp [dihRho, Nat.mod_eq_of_lt hn]
    rwa [h2] at this
  · have := hr.commute 1 1
      (by change 1 < 2 * n; omega) (by change 1 < 2 * n; omega)
      (fun x hx => ⟨(hinv x hx).2.2, (hinv x hx).2.2⟩) (fun i hi x hx => (hK i hi x hx).2)
    have h2 : dihRho n R S 1 = S := by simp [dihRho]
    rwa [h2] at this

private theorem dih_gen {K : Type} [CommRing K] (φ : K →+* ℂ)
    (hφ : ∀ k, (starRingEnd ℂ) (φ k) = φ k) {n : ℕ} (hn : 1 < n) (codes : List (List ℕ))
    (rows : List (List K)) (dims : List ℕ) (s : K) (hs : φ s ≠ 0)
    (hB : (dihTables n codes rows dims s).Base fun i x => coef (rows.getD i []) codes x)
    (ho : ∀ i < rows.length, ∀ j < rows.length, i ≠ j →
      (dihTables n codes rows dims s).Orth (fun i x => coef (rows.getD i []) codes x) i j)
    (hi : ∀ i < rows.length,
      (dihTables n codes rows dims s).Idem (fun i x => coef (rows.getD i []) codes x) i)
    (hc : (dihTables n codes rows dims s).Complete fun i x => coef (rows.getD i []) codes x)
    (hV : (dihTables n codes rows dims s).Valid)
    (hinv : ∀ x < 2 * n, dihMul n (dihMul n x 2) (2 * (n - 1)) = x ∧
      dihMul n (dihMul n x (2 * (n - 1))) 2 = x ∧ dihMul n (dihMul n x 1) 1 = x)
    (hK : ∀ i < rows.length, ∀ x < 2 * n,
      coef (rows.getD i []) codes (dihLdiv n 2 (dihMul n x 2)) = coef (rows.getD i []) codes x ∧
      coef (rows.getD i []) codes (dihLdiv n 1 (dihMul n x 1)) = coef (rows.getD i []) codes x)
    {R S : A} (h : Dihedral n R S) (table : List (List ℂ)) (classes : List (List A))
    (ht : table = rows.map fun r => r.map fun k => φ k / φ s)
    (hcl : classes = codes.map (List.map (dihRho n R S))) :
    ∃ P, getSymmetryProjectors table classes = .ok P ∧ Decomposes (2 * n) dims P ∧
      AllCommute P R ∧ AllCommute P S := by
  have hr : (dihTables n codes rows dims s).Rep (fun i x => coef (rows.getD i []) codes x) φ
      (dihRho n R S) table classes :=
    ⟨hB, hφ, hs, fun x _ y _ => dihRho_mul h x y, by simp [dihRho], ht, hcl⟩
  exact ⟨_, hr.validate hV, hr.decomposes ho hi hc, dih_commute hn hr hinv hK⟩

theorem int_conj (k : ℤ) :
    (starRingEnd ℂ) (Int.castRingHom ℂ k) = Int.castRingHom ℂ k := by simp

theorem sqrt5_sq : ((Real.sqrt 5 : ℝ) : ℂ) * ((Real.sqrt 5 : ℝ) : ℂ) = ((5 : ℤ) : ℂ) := by
  rw [← Complex.ofReal_mul, Real.mul_self_sqrt (by norm_num)]
  norm_num

/-- The numbers `a + b √5`. -/
noncomputable def root5 : ℤ√5 →+* ℂ := Zsqrtd.lift ⟨((Real.sqrt 5 : ℝ) : ℂ), sqrt5_sq⟩

theorem root5_apply (k : ℤ√5) : root5 k = k.re + k.im * ((Real.sqrt 5 : ℝ) : ℂ) := rfl

theorem root5_mk (a b : ℤ) : root5 ⟨a, b⟩ = a + b * ((Real.sqrt 5 : ℝ) : ℂ) := rfl

theorem root5_two : root5 2 = 2 := map_ofNat root5 2

theorem root5_four : root5 4 = 4 := map_ofNat root5 4

theorem root5_conj (k : ℤ√5) : (starRingEnd ℂ) (root5 k) = root5 k := by
  simp [root5_apply]

/-- C41 for the group of the rectangle. -/
theorem C41_D2 {R S : A} (h : Dihedral 2 R S) : ∃ P, getD2Projectors R S = .ok P ∧
    Decomposes 4 [1, 1, 1, 1] P ∧ AllCommute P R ∧ AllCommute P S :=
  dih_gen (Int.castRingHom ℂ) int_conj (by norm_num) [[0], [2], [1], [3]]
    [[1, 1, 1, 1], [1, 1, -1, -1], [1, -1, 1, -1], [1, -1, -1, 1]] [1, 1, 1, 1] 1 (by simp)
    ⟨by decide +kernel, by decide +kernel, by decide +kernel, by decide +kernel, by decide +kernel⟩
    (by decide +kernel) (by decide +kernel) (by decide +kernel)
    (by unfold Tables.Valid; decide +kernel) (by decide +kernel) (by decide +kernel) h _ _
    (by simp [d2Table]) (by simp [d2Classes, dihRho])

/-- C41 for the group of the triangle. -/
theorem C41_D3 {R S : A} (h : Dihedral 3 R S) : ∃ P, getD3Projectors R S = .ok P ∧
    Decomposes 6 [1, 1, 2] P ∧ AllCommute P R ∧ AllCommute P S :=
  dih_gen (Int.castRingHom ℂ) int_conj (by norm_num) [[0], [2, 4], [1, 3, 5]]
    [[1, 1, 1], [1, 1, -1], [2, -1, 0]] [1, 1, 2] 1 (by simp)
    ⟨by decide +kernel, by decide +kernel, by decide +kernel, by decide +kernel, by decide +kernel⟩
    (by decide +kernel) (by decide +kernel) (by decide +kernel)
    (by unfold Tables.Valid; decide +kernel) (by decide +kernel) (by decide +kernel) h _ _
    (by simp [d3Table]) (by simp [d3Classes, dihRho])

/-- C41 for the group of the square. -/
theorem C41_D4 {R S : A} (h : Dihedral 4 R S) : ∃ P, getD4Projectors R S = .ok P ∧
    Decomposes 8 [1, 1, 1, 1, 2] P ∧ AllCommute P R ∧ AllCommute P S :=
  dih_gen (Int.castRingHom ℂ) int_conj (by norm_num) [[0], [2, 6], [4], [1, 5], [3, 7]]
    [[1, 1, 1, 1, 1], [1, 1, 1, -1, -1], [1, -1, 1, 1, -1], [1, -1, 1, -1, 1], [2, 0, -2, 0, 0]]
    [1, 1, 1, 1, 2] 1 (by simp)
    ⟨by decide +kernel, by decide +kernel, by decide +kernel, by decide +kernel, by decide +kernel⟩
    (by decide +kernel) (by decide +kernel) (by decide +kernel)
    (by unfold Tables.Valid; decide +kernel) (by decide +kernel) (by decide +kernel) h _ _
    (by simp [d4Table]) (by simp [d4Classes, dihRho])

/-- C41 for the group of the pentagon. -/
theorem C41_D5 {R S : A} (h : Dihedral 5 R S) : ∃ P, getD5Projectors R S = .ok P ∧
    Decomposes 10 [1, 1, 2, 2] P ∧ AllCommute P R ∧ AllCommute P S :=
  dih_gen root5 root5_conj (by norm_num) [[0], [1, 3, 5, 7, 9], [2, 8], [4, 6]]
    [[2, 2, 2, 2], [2, -2, 2, 2], [4, 0, ⟨-1, -1⟩, ⟨-1, 1⟩], [4, 0, ⟨-1, 1⟩, ⟨-1, -1⟩]]
    [1, 1, 2, 2] 2 (by rw [root5_two]; exact two_ne_zero)
    ⟨by decide +kernel, by decide +kernel, by decide +kernel, by decide +kernel, by decide +kernel⟩
    (by decide +kernel) (by decide +kernel) (by decide +kernel)
    (by unfold Tables.Valid; decide +kernel) (by decide +kernel) (by decide +kernel) h _ _
    (by
      have h4 : (4 : ℂ) / 2 = 2 := by norm_num
      simp only [d5Table, List.map_cons, List.map_nil, root5_two, root5_four, map_zero, map_neg,
        root5_mk, neg_div, zero_div, div_self (two_ne_zero' ℂ), h4]
      push_cast
      simp only [List.cons.injEq, and_true, true_and]
      refine ⟨⟨?_, ?_⟩, ?_, ?_⟩ <;> ring)
    (by simp [d5Classes, dihRho])

/-- C41 for the group of the hexagon. -/
theorem C41_D6 {R S : A} (h : Dihedral 6 R S) : ∃ P, getD6Projectors R S = .ok P ∧
    Decomposes 12 [1, 1, 1, 1, 2, 2] P ∧ AllCommute P R ∧ AllCommute P S :=
  dih_gen (Int.castRingHom ℂ) int_conj (by norm_num) [[0], [6], [3, 7, 11], [1, 5, 9], [4, 8], [2, 10]]
    [[1, 1, 1, 1, 1, 1], [1, 1, -1, -1, 1, 1], [1, -1, -1, 1, 1, -1], [1, -1, 1, -1, 1, -1],
      [2, 2, 0, 0, -1, -1], [2, -2, 0, 0, -1, 1]] [1, 1, 1, 1, 2, 2] 1 (by simp)
    ⟨by decide +kernel, by decide +kernel, by decide +kernel, by decide +kernel, by decide +kernel⟩
    (by decide +kernel) (by decide +kernel) (by decide +kernel)
    (by unfold Tables.Valid; decide +kernel) (by decide +kernel) (by decide +kernel) h _ _
    (by simp [d6Table]) (by simp [d6Classes, dihRho])

/-- The rotation by `2π/n` of the plane in the basis of its eigenvectors. -/
private noncomputable def planeRot (n : ℕ) : Matrix (Fin 2) (Fin 2) ℂ :=
  !![Complex.exp (2 * Real.pi * Complex.I / n), 0;
    0, Complex.exp (2 * Real.pi * Complex.I / n) ^ (n - 1)]

/-- Rotations and reflections of the plane are a representation of the dihedral group. -/
private theorem plane_dihedral (n : ℕ) (hn : 0 < n) : Dihedral n (planeRot n) !![0, 1; 1, 0] := by
  have h1 : Complex.exp (2 * Real.pi * Complex.I / n) ^ n = 1 := by
    rw [← Complex.exp_nat_mul, mul_div_cancel₀ _ (by exact_mod_cast hn.ne'),
      Complex.exp_two_pi_mul_I]
  unfold planeRot
  generalize Complex.exp (2 * Real.pi * Complex.I / n) = z at h1
  have hp : ∀ k, (!![z, 0; 0, z ^ (n - 1)] : Matrix (Fin 2) (Fin 2) ℂ) ^ k =
      !![z ^ k, 0; 0, (z ^ (n - 1)) ^ k] := by
    intro k
    induction k with
    | zero => simp [Matrix.one_fin_two]
    | succ k ih => rw [pow_succ, ih]; simp [pow_succ]
  refine ⟨?_, ?_, ?_⟩
  · rw [hp, h1, ← pow_mul, mul_comm, pow_mul, h1]
    simp [Matrix.one_fin_two]
  · simp [Matrix.one_fin_two]
  · have h2 : (z ^ (n - 1)) ^ (n - 1) = z := by
      have h3 : z * z ^ (n - 1) = 1 := by rw [← pow_succ', Nat.sub_add_cancel hn, h1]
      have h4 : z ^ (n - 1) * (z ^ (n - 1)) ^ (n - 1) = 1 := by
        rw [← pow_succ', Nat.sub_add_cancel hn, ← pow_mul, mul_comm, pow_mul, h1, one_pow]
      calc (z ^ (n - 1)) ^ (n - 1) = z * z ^ (n - 1) * (z ^ (n - 1)) ^ (n - 1) := by rw [h3, one_mul]
        _ = z * (z ^ (n - 1) * (z ^ (n - 1)) ^ (n - 1)) := by ring
        _ = z := by rw [h4, mul_one]
    rw [hp, h2]
    simp

example : ∃ P, getD2Projectors (A := Matrix (Fin 2) (Fin 2) ℂ) (planeRot 2) !![0, 1; 1, 0] = .ok P ∧
    Decomposes 4 [1, 1, 1, 1] P := by
  obtain ⟨P, h1, h2, -⟩ := C41_D2 (plane_dihedral 2 (by norm_num))
  exact ⟨P, h1, h2⟩

example : ∃ P, getD3Projectors (A := Matrix (Fin 2) (Fin 2) ℂ) (planeRot 3) !![0, 1; 1, 0] = .ok P ∧
    Decomposes 6 [1, 1, 2] P := by
  obtain ⟨P, h1, h2, -⟩ := C41_D3 (plane_dihedral 3 (by norm_num))
  exact ⟨P, h1, h2⟩

example : ∃ P, getD4Projectors (A := Matrix (Fin 2) (Fin 2) ℂ) (planeRot 4) !![0, 1; 1, 0] = .ok P ∧
    Decomposes 8 [1, 1, 1, 1, 2] P := by
  obtain ⟨P, h1, h2, -⟩ := C41_D4 (plane_dihedral 4 (by norm_num))
  exact ⟨P, h1, h2⟩

example : ∃ P, getD5Projectors (A := Matrix (Fin 2) (Fin 2) ℂ) (planeRot 5) !![0, 1; 1, 0] = .ok P ∧
    Decomposes 10 [1, 1, 2, 2] P := by
  obtain ⟨P, h1, h2, -⟩ := C41_D5 (plane_dihedral 5 (by norm_num))
  exact ⟨P, h1, h2⟩

example : ∃ P, getD6Projectors (A := Matrix (Fin 2) (Fin 2) ℂ) (planeRot 6) !![0, 1; 1, 0] = .ok P ∧
    Decomposes 12 [1, 1, 1, 1, 2, 2] P := by
  obtain ⟨P, h1, h2, -⟩ := C41_D6 (plane_dihedral 6 (by norm_num))
  exact ⟨P, h1, h2⟩

/-- Characters of `getD7Projectors` in exact arithmetic. -/
private def d7Rows : List (List Hept) :=
  [[1, 1, 1, 1, 1], [1, -1, 1, 1, 1], [2, 0, ⟨0, 1, 0⟩, ⟨0, 0, 1⟩, ⟨-1, -1, -1⟩],
    [2, 0, ⟨0, 0, 1⟩, ⟨-1, -1, -1⟩, ⟨0, 1, 0⟩], [2, 0, ⟨-1, -1, -1⟩, ⟨0, 1, 0⟩, ⟨0, 0, 1⟩]]

private def d7Codes : List (List ℕ) := [[0], [1, 3, 5, 7, 9, 11, 13], [2, 12], [6, 8], [4, 10]]

private theorem d7Table_eq : d7Table =
    d7Rows.map fun r => r.map fun k => Hept.toComplex k / Hept.toComplex 1 := by
  have hA : Hept.toComplex ⟨0, 1, 0⟩ = ((2 * Real.cos (2 * Real.pi / 7) : ℝ) : ℂ) := by
    change ((((0 : ℤ) : ℝ) + ((1 : ℤ) : ℝ) * heptA + ((0 : ℤ) : ℝ) * heptB : ℝ) : ℂ) = _
    simp [heptA]
  have hB : Hept.toComplex ⟨0, 0, 1⟩ = ((2 * Real.cos (4 * Real.pi / 7) : ℝ) : ℂ) := by
    change ((((0 : ℤ) : ℝ) + ((0 : ℤ) : ℝ) * heptA + ((1 : ℤ) : ℝ) * heptB : ℝ) : ℂ) = _
    simp [heptB]
  have hC : Hept.toComplex ⟨-1, -1, -1⟩ = ((2 * Real.cos (6 * Real.pi / 7) : ℝ) : ℂ) := by
    have : heptC = -1 - heptA - heptB := by linarith [hept_sum]
    change ((((-1 : ℤ) : ℝ) + ((-1 : ℤ) : ℝ) * heptA + ((-1 : ℤ) : ℝ) * heptB : ℝ) : ℂ) = _
    rw [← heptC, this]
    push_cast; ring
  have h2 : Hept.toComplex 2 = 2 := map_ofNat _ 2
  simp only [d7Table, d7Rows, List.map_cons, List.map_nil, hA, hB, hC, h2, map_one, map_neg,
    map_zero, div_one]

private theorem d7_rep {R S : A} (h : Dihedral 7 R S) :
    (dihTables 7 d7Codes d7Rows [1, 1, 2, 2, 2] 1).Rep
      (fun i x => coef (d7Rows.getD i []) d7Codes x) Hept.toComplex (dihRho 7 R S) d7Table
      (d7Classes R S) :=
  ⟨⟨by decide +kernel, by decide +kernel, by decide +kernel, by decide +kernel, by decide +kernel⟩,
    Hept.conj, by simp [dihTables], fun x _ y _ => dihRho_mul h x y, by simp [dihRho],
    d7Table_eq, by simp [d7Classes, d7Codes, dihTables, dihRho]⟩

/-- C41 for the group of the heptagon, the part that holds: the table is accepted, the operators
commute with the group, sum to the identity with the weights of their dimensions, and the two
belonging to one-dimensional representations are proportional to idempotents and orthogonal to all
others. Missing: orthogonality of the three operators of the two-dimensional representations, which
fails (`C41_D7_violated`). -/
theorem C41_D7_partial {R S : A} (h : Dihedral 7 R S) : ∃ P, getD7Projectors R S = .ok P ∧
    P.length = 5 ∧ AllCommute P R ∧ AllCommute P S ∧
    (List.zipWith (fun d p => ((d : ℕ) : ℂ) • p) [1, 1, 2, 2, 2] P).sum = ((14 : ℕ) : ℂ) • (1 : A) ∧
    ∀ i j (hi : i < P.length) (hj : j < P.length), i < 2 →
      (i ≠ j → P[i] * P[j] = 0 ∧ P[j] * P[i] = 0) ∧ P[i] * P[i] = ((14 : ℕ) : ℂ) • P[i] := by
  have hr := d7_rep h
  have hV : (dihTables 7 d7Codes d7Rows [1, 1, 2, 2, 2] 1).Valid := by
    unfold Tables.Valid; decide +kernel
  have hc : (dihTables 7 d7Codes d7Rows [1, 1, 2, 2, 2] 1).Complete
      (fun i x => coef (d7Rows.getD i []) d7Codes x) := by decide +kernel
  have ho : ∀ i < 2, ∀ j < 5, i ≠ j →
      (dihTables 7 d7Codes d7Rows [1, 1, 2, 2, 2] 1).Orth
        (fun i x => coef (d7Rows.getD i []) d7Codes x) i j ∧
      (dihTables 7 d7Codes d7Rows [1, 1, 2, 2, 2] 1).Orth
        (fun i x => coef (d7Rows.getD i []) d7Codes x) j i := by decide +kernel
  have hid : ∀ i < 2, (dihTables 7 d7Codes d7Rows [1, 1, 2, 2, 2] 1).Idem
        (fun i x => coef (d7Rows.getD i []) d7Codes x) i := by decide +kernel
  have hcom := dih_commute (by norm_num) hr (by decide +kernel) (by decide +kernel)
  refine ⟨_, hr.validate hV, hr.length, hcom.1, hcom.2, hr.complete hc, fun i j hi hj h2 => ⟨?_, ?_⟩⟩
  · intro hij
    have hj' : j < 5 := by rw [hr.length] at hj; exact hj
    exact ⟨hr.orth i j (ho i h2 j hj' hij).1 hi hj, hr.orth j i (ho i h2 j hj' hij).2 hj hi⟩
  · have := hr.idem i (hid i h2) hi (by change i < 5; omega)
    have h1 : ((dihTables 7 d7Codes d7Rows [1, 1, 2, 2, 2] 1).dims[i]'(by change i < 5; omega)) = 1 := by
      interval_cases i <;> rfl
    rw [h1, Nat.cast_one, one_smul] at this
    exact this

example : ∃ P, getD7Projectors (A := Matrix (Fin 2) (Fin 2) ℂ) (planeRot 7) !![0, 1; 1, 0] = .ok P ∧
    P.length = 5 := by
  obtain ⟨P, h1, h2, -⟩ := C41_D7_partial (plane_dihedral 7 (by norm_num))
  exact ⟨P, h1, h2⟩

/-- A seventh root of unity. -/
private noncomputable def zeta7 : ℂ := Complex.exp (((2 * Real.pi / 7 : ℝ) : ℂ) * Complex.I)

private theorem zeta7_pow (k : ℕ) :
    zeta7 ^ k = Complex.exp (((k * (2 * Real.pi / 7) : ℝ) : ℂ) * Complex.I) := by
  unfold zeta7
  rw [← Complex.exp_nat_mul]
  congr 1
  push_cast; ring

private theorem zeta7_seven : zeta7 ^ 7 = 1 := by
  rw [zeta7_pow]
  have : (((7 : ℕ) * (2 * Real.pi / 7) : ℝ) : ℂ) * Complex.I = 2 * Real.pi * Complex.I := by
    push_cast; ring
  rw [this, Complex.exp_two_pi_mul_I]

private theorem zeta7_cos (k : ℕ) (hk : k ≤ 7) :
    zeta7 ^ k + zeta7 ^ (7 - k) = ((2 * Real.cos (k * (2 * Real.pi / 7)) : ℝ) : ℂ) := by
  have h1 : zeta7 ^ (7 - k) = Complex.exp (-((k * (2 * Real.pi / 7) : ℝ) : ℂ) * Complex.I) := by
    have h2 : zeta7 ^ k * zeta7 ^ (7 - k) = 1 := by
      rw [← pow_add, Nat.add_sub_cancel' hk, zeta7_seven]
    rw [zeta7_pow k] at h2
    rw [neg_mul, Complex.exp_neg]
    exact (eq_inv_of_mul_eq_one_right h2)
  rw [h1, zeta7_pow]
  push_cast
  rw [Complex.two_cos]

/-- The rotation by `2π/7` and a reflection in the plane, in the basis of the two eigenvectors of the
rotation. -/
private noncomputable def rot7 : Matrix (Fin 2) (Fin 2) ℂ := !![zeta7, 0; 0, zeta7 ^ 6]

private noncomputable def refl7 : Matrix (Fin 2) (Fin 2) ℂ := !![0, 1; 1, 0]

private theorem rot7_pow (k : ℕ) : rot7 ^ k = !![zeta7 ^ k, 0; 0, (zeta7 ^ 6) ^ k] := by
  induction k with
  | zero => simp [Matrix.one_fin_two]
  | succ k ih => rw [pow_succ, ih, rot7]; simp [pow_succ]

private theorem rot7_dihedral : Dihedral 7 rot7 refl7 := by
  have h6 : (zeta7 ^ 6) ^ 6 = zeta7 := by
    rw [← pow_mul, show 6 * 6 = 7 * 5 + 1 by norm_num, pow_add, pow_mul, zeta7_seven]; simp
  refine ⟨?_, ?_, ?_⟩
  · rw [rot7_pow, zeta7_seven, ← pow_mul, show 6 * 7 = 7 * 6 by norm_num, pow_mul, zeta7_seven]
    simp [Matrix.one_fin_two]
  · simp [refl7, Matrix.one_fin_two]
  · rw [rot7_pow, h6]
    simp [refl7, rot7]

private theorem d7_entry (p q r : ℝ) :
    symmProjFull [2, 0, (p : ℂ), (q : ℂ), (r : ℂ)] (d7Classes rot7 refl7) 0 0 =
      ((2 + p * heptA + q * heptC + r * heptB : ℝ) : ℂ) ∧
    symmProjFull [2, 0, (p : ℂ), (q : ℂ), (r : ℂ)] (d7Classes rot7 refl7) 0 1 = 0 := by
  have c1 : zeta7 + zeta7 ^ 6 = (heptA : ℂ) := by
    have := zeta7_cos 1 (by norm_num)
    simp only [pow_one, Nat.cast_one, one_mul] at this
    exact this
  have c2 : zeta7 ^ 2 + zeta7 ^ 5 = (heptB : ℂ) := by
    have := zeta7_cos 2 (by norm_num)
    rw [this, heptB]
    congr 3; push_cast; ring
  have c3 : zeta7 ^ 3 + zeta7 ^ 4 = (heptC : ℂ) := by
    have := zeta7_cos 3 (by norm_num)
    rw [this, heptC]
    congr 3; push_cast; ring
  have hr : rot7 0 0 = zeta7 ∧ rot7 0 1 = 0 := ⟨rfl, rfl⟩
  constructor
  · simp only [symmProjFull, d7Classes, List.map_cons, List.map_nil, List.sum_cons, List.sum_nil,
      List.zip_cons_cons, List.zip_nil_left, rot7_pow, map_zero, zero_smul, Matrix.add_apply,
      Matrix.smul_apply, Complex.conj_ofReal, hr, map_ofNat, smul_eq_mul, Matrix.zero_apply,
      Matrix.one_apply_eq, add_zero]
    simp only [Matrix.of_apply, Matrix.cons_val', Matrix.cons_val_zero, Matrix.cons_val_fin_one]
    rw [c1, c2, c3]
    push_cast; ring
  · simp only [symmProjFull, d7Classes, List.map_cons, List.map_nil, List.sum_cons, List.sum_nil,
      List.zip_cons_cons, List.zip_nil_left, rot7_pow, map_zero, zero_smul, Matrix.add_apply,
      Matrix.smul_apply, hr, smul_eq_mul, Matrix.zero_apply, add_zero]
    simp

/-- C41 fails for `getD7Projectors`: the columns of the character table belong to the classes of
`R`, `R^2`, `R^3` in this order, but the classes are listed as `R`, `R^3`, `R^2`. In the
representation by rotations and reflections of the plane the operators of two different irreducible
representations have a product that is not zero. The table is nevertheless accepted. -/
theorem C41_D7_violated : ∃ R S : Matrix (Fin 2) (Fin 2) ℂ, Dihedral 7 R S ∧
    ∃ P, getD7Projectors R S = .ok P ∧ ¬ Decomposes 14 [1, 1, 2, 2, 2] P := by
  refine ⟨rot7, refl7, rot7_dihedral, ?_⟩
  obtain ⟨P, hP, hlen, -⟩ := C41_D7_partial rot7_dihedral
  refine ⟨P, hP, fun hD => ?_⟩
  have h1 := hD.orth 2 3 (by omega) (by omega) (by norm_num)
  have hP' := (d7_rep rot7_dihedral).validate (by unfold Tables.Valid; decide +kernel)
  have hPe : P = d7Table.map fun chars => symmProjFull chars (d7Classes rot7 refl7) := by
    have := hP.symm.trans hP'
    exact Except.ok.inj this
  subst hPe
  have hC : heptC = -1 - heptA - heptB := by linarith [hept_sum]
  have e2 := d7_entry heptA heptB heptC
  have e3 := d7_entry heptB heptC heptA
  have h2 := congrFun (congrFun h1 0) 0
  change ((symmProjFull [2, 0, (heptA : ℂ), (heptB : ℂ), (heptC : ℂ)] (d7Classes rot7 refl7)) *
    (symmProjFull [2, 0, (heptB : ℂ), (heptC : ℂ), (heptA : ℂ)] (d7Classes rot7 refl7))) 0 0 = 0 at h2
  rw [Matrix.mul_apply, Fin.sum_univ_two, e2.1, e2.2, e3.1, zero_mul, add_zero,
    ← Complex.ofReal_mul, Complex.ofReal_eq_zero] at h2
  have ha := heptA_pos
  have hb : -1 < heptB := by
    have : Real.cos (2 * Real.pi / 3) < Real.cos (4 * Real.pi / 7) :=
      Real.cos_lt_cos_of_nonneg_of_le_pi (by linarith [Real.pi_pos]) (by linarith [Real.pi_pos])
        (by linarith [Real.pi_pos])
    have h3 : Real.cos (2 * Real.pi / 3) = -(1 / 2) := by
      rw [show 2 * Real.pi / 3 = Real.pi - Real.pi / 3 by ring, Real.cos_pi_sub,
        Real.cos_pi_div_three]
    unfold heptB
    linarith
  have hc : -2 ≤ heptC := by
    unfold heptC
    linarith [Real.neg_one_le_cos (6 * Real.pi / 7)]
  have s1 := heptA_sq
  have s2 := heptB_sq
  have s3 := heptAB
  have s4 := heptAC
  have v2 : 2 + heptA * heptA + heptB * heptC + heptC * heptB = 4 + 2 * heptA + 3 * heptB := by
    have : heptB * heptC = heptA + heptB := by
      rw [hC] at s2 ⊢; rw [hC] at s3; linear_combination -s3 - s2
    linear_combination s1 + 2 * this
  have v3 : 2 + heptB * heptA + heptC * heptC + heptA * heptB = 4 + 3 * heptA + 2 * heptC := by
    have : heptC * heptC = 2 + heptA := by
      rw [hC] at s2 s3 ⊢; linear_combination s1 + 2 * s3 + s2
    linear_combination 2 * s3 + this
  rw [v2, v3] at h2
  rcases mul_eq_zero.1 h2 with h | h <;> linarith

end ED.Props
