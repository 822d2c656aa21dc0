import Verif.Lemmas.GroupAlg
import Verif.Lemmas.Round
import Verif.Model.Symmetry
import Verif.Spec.Decomposition
import Mathlib.Tactic.NormNum
import Mathlib.Tactic.FieldSimp
import Mathlib.Algebra.BigOperators.Field

/-!
# From identities between character tables to decompositions
-/

namespace ED

open scoped BigOperators
open GroupAlg Spec

variable {A : Type} [Ring A] [Algebra ℂ A]

/-- The data of a finite group, its classes and characters in a ring `K` with exact arithmetic. The
characters are `φ (rows i c) / s`. -/
structure Tables (K : Type) [CommRing K] where
  m : ℕ
  mul : ℕ → ℕ → ℕ
  ldiv : ℕ → ℕ → ℕ
  codes : List (List ℕ)
  rows : List (List K)
  dims : List ℕ
  s : K

/-- The multiplication table is a group law and `F i x` is the value of the `i`-th character on the
element `x`. -/
structure Tables.Base {K : Type} [CommRing K] (T : Tables K) (F : ℕ → ℕ → K) : Prop where
  table : TableOK T.m T.mul T.ldiv
  pos : 0 < T.m
  codes : ∀ l ∈ T.codes, ∀ x ∈ l, x < T.m
  len : T.rows.length = T.dims.length
  value : ∀ i < T.rows.length, ∀ x < T.m, coef (T.rows.getD i []) T.codes x = F i x

/-- Orthogonality of two characters under convolution. -/
def Tables.Orth {K : Type} [CommRing K] (T : Tables K) (F : ℕ → ℕ → K) (i j : ℕ) : Prop :=
  ∀ z < T.m, conv T.m T.ldiv (F i) (F j) z = 0

/-- A character is proportional to an idempotent under convolution. -/
def Tables.Idem {K : Type} [CommRing K] (T : Tables K) (F : ℕ → ℕ → K) (i : ℕ) : Prop :=
  ∀ z < T.m, (T.dims.getD i 0 : K) * conv T.m T.ldiv (F i) (F i) z = (T.m : K) * (T.s * F i z)

/-- The characters weighted with the dimensions sum to the character of the regular representation. -/
def Tables.Complete {K : Type} [CommRing K] (T : Tables K) (F : ℕ → ℕ → K) : Prop :=
  ∀ z < T.m, sumTo T.rows.length (fun i => (T.dims.getD i 0 : K) * F i z) =
    if z = 0 then T.s * T.m else 0

instance {K : Type} [CommRing K] [DecidableEq K] (T : Tables K) (F : ℕ → ℕ → K) (i j : ℕ) :
    Decidable (T.Orth F i j) := by unfold Tables.Orth; infer_instance

instance {K : Type} [CommRing K] [DecidableEq K] (T : Tables K) (F : ℕ → ℕ → K) (i : ℕ) :
    Decidable (T.Idem F i) := by unfold Tables.Idem; infer_instance

instance {K : Type} [CommRing K] [DecidableEq K] (T : Tables K) (F : ℕ → ℕ → K) :
    Decidable (T.Complete F) := by unfold Tables.Complete; infer_instance

theorem zipWith_sum {A : Type} [AddCommMonoid A] [Module ℂ A] (dims : List ℕ) (P : List A)
    (h : P.length = dims.length) :
    (List.zipWith (fun d p => ((d : ℕ) : ℂ) • p) dims P).sum =
      ∑ i ∈ Finset.range P.length, ((dims.getD i 0 : ℕ) : ℂ) • P.getD i 0 := by
  induction dims generalizing P with
  | nil => simp_all
  | cons d dims ih =>
    cases P with
    | nil => simp at h
    | cons p P =>
      rw [List.zipWith_cons_cons, List.sum_cons, ih P (by simpa using h), List.length_cons,
        Finset.sum_range_succ']
      simp [add_comm]

/-- The unnormalised projector as a sum over the group. -/
theorem symmProjFull_eq {K : Type} [CommRing K] (T : Tables K) (φ : K →+* ℂ)
    (hφ : ∀ k, (starRingEnd ℂ) (φ k) = φ k) (hs : φ T.s ≠ 0) (ρ : ℕ → A)
    (hc : ∀ l ∈ T.codes, ∀ x ∈ l, x < T.m) (row : List K) :
    symmProjFull (row.map fun k => φ k / φ T.s) (T.codes.map (List.map ρ)) =
      (φ T.s)⁻¹ • E T.m ρ fun x => φ (coef row T.codes x) := by
  unfold symmProjFull
  rw [E_smul]
  have h := E_coef ρ (row.map fun k => φ k / φ T.s) T.codes hc
  rw [List.map_map]
  have h2 : ((row.map fun k => φ k / φ T.s).zip (T.codes.map (List.sum ∘ List.map ρ))).map
      (fun p => (starRingEnd ℂ) p.1 • p.2) =
      ((row.map fun k => φ k / φ T.s).zip (T.codes.map fun l => (l.map ρ).sum)).map
        fun p => p.1 • p.2 := by
    refine List.map_congr_left fun p hp => ?_
    have := (List.of_mem_zip hp).1
    obtain ⟨k, -, hk⟩ := List.mem_map.1 this
    rw [← hk, map_div₀, hφ, hφ]
  rw [h2, h]
  refine E_congr fun x _ => ?_
  have h3 : (row.map fun k => φ k / φ T.s) = (row.map φ).map fun z => z / φ T.s := by
    rw [List.map_map]; rfl
  rw [h3, ← coef_map]
  unfold coef
  generalize row.map φ = l
  generalize T.codes = c
  induction l generalizing c with
  | nil => simp
  | cons k l ih =>
    cases c with
    | nil => simp
    | cons c cs =>
      simp only [List.map_cons, List.zip_cons_cons, List.sum_cons, ih cs]
      field_simp

/-- The situation of the theorems below: characters `φ (rows i c) / s` and classes `ρ (codes c)`. -/
structure Tables.Rep {K : Type} [CommRing K] (T : Tables K) (F : ℕ → ℕ → K) (φ : K →+* ℂ)
    (ρ : ℕ → A) (table : List (List ℂ)) (classes : List (List A)) : Prop where
  base : T.Base F
  conj : ∀ k, (starRingEnd ℂ) (φ k) = φ k
  ne : φ T.s ≠ 0
  mul : ∀ x < T.m, ∀ y < T.m, ρ x * ρ y = ρ (T.mul x y)
  one : ρ 0 = 1
  table : table = T.rows.map fun r => r.map fun k => φ k / φ T.s
  classes : classes = T.codes.map (List.map ρ)

section
variable {K : Type} [CommRing K] {T : Tables K} {F : ℕ → ℕ → K} {φ : K →+* ℂ} {ρ : ℕ → A}
  {table : List (List ℂ)} {classes : List (List A)}

theorem Tables.Rep.getD (h : T.Rep F φ ρ table classes) (i : ℕ) (hi : i < T.rows.length) :
    (table.map fun chars => symmProjFull chars classes).getD i 0 =
      (φ T.s)⁻¹ • E T.m ρ fun x => φ (F i x) := by
  rw [List.getD_eq_getElem?_getD, h.table, List.map_map, List.getElem?_map,
    List.getElem?_eq_getElem hi, Option.map_some, Option.getD_some, Function.comp, h.classes,
    symmProjFull_eq T φ h.conj h.ne ρ h.base.codes]
  congr 1
  refine E_congr fun x hx => ?_
  rw [← h.base.value i hi x hx, List.getD_eq_getElem?_getD, List.getElem?_eq_getElem hi]
  rfl

theorem Tables.Rep.length (h : T.Rep F φ ρ table classes) :
    (table.map fun chars => symmProjFull chars classes).length = T.rows.length := by
  simp [h.table]

theorem Tables.Rep.get (h : T.Rep F φ ρ table classes) (i : ℕ)
    (hi : i < (table.map fun chars => symmProjFull chars classes).length) :
    (table.map fun chars => symmProjFull chars classes)[i] =
      (φ T.s)⁻¹ • E T.m ρ fun x => φ (F i x) := by
  rw [← h.getD i (h.length ▸ hi), List.getD_eq_getElem?_getD, List.getElem?_eq_getElem hi]
  rfl

theorem Tables.Rep.E_mul (h : T.Rep F φ ρ table classes) (i j : ℕ) :
    E T.m ρ (fun x => φ (F i x)) * E T.m ρ (fun x => φ (F j x)) =
      E T.m ρ fun z => φ (conv T.m T.ldiv (F i) (F j) z) := by
  rw [GroupAlg.E_mul h.base.table h.mul]
  exact E_congr fun z _ => conv_map φ _ _ _ _ z

theorem Tables.Rep.orth (h : T.Rep F φ ρ table classes) (i j : ℕ) (hF : T.Orth F i j)
    (hi : i < (table.map fun chars => symmProjFull chars classes).length)
    (hj : j < (table.map fun chars => symmProjFull chars classes).length) :
    (table.map fun chars => symmProjFull chars classes)[i] *
      (table.map fun chars => symmProjFull chars classes)[j] = 0 := by
  rw [h.get i hi, h.get j hj, smul_mul_smul_comm, h.E_mul]
  rw [E_zero, smul_zero]
  intro z hz
  rw [hF z hz, map_zero]

theorem Tables.Rep.idem (h : T.Rep F φ ρ table classes) (i : ℕ) (hF : T.Idem F i)
    (hi : i < (table.map fun chars => symmProjFull chars classes).length)
    (hd : i < T.dims.length) :
    (T.dims[i] : ℂ) • ((table.map fun chars => symmProjFull chars classes)[i] *
      (table.map fun chars => symmProjFull chars classes)[i]) =
      (T.m : ℂ) • (table.map fun chars => symmProjFull chars classes)[i] := by
  have hs := h.ne
  rw [h.get i hi, smul_mul_smul_comm, h.E_mul, smul_smul, smul_smul, E_smul, E_smul]
  refine E_congr fun z hz => ?_
  have := congrArg φ (hF z hz)
  have hd' : T.dims.getD i 0 = T.dims[i] := by
    rw [List.getD_eq_getElem?_getD, List.getElem?_eq_getElem hd]; rfl
  rw [hd'] at this
  simp only [map_mul, map_natCast] at this
  field_simp
  linear_combination this

theorem Tables.Rep.complete (h : T.Rep F φ ρ table classes) (hF : T.Complete F) :
    (List.zipWith (fun d p => ((d : ℕ) : ℂ) • p) T.dims
      (table.map fun chars => symmProjFull chars classes)).sum = (T.m : ℂ) • (1 : A) := by
  have hs := h.ne
  rw [zipWith_sum _ _ (h.length.trans h.base.len), h.length]
  have h2 : ∀ i ∈ Finset.range T.rows.length, ((T.dims.getD i 0 : ℕ) : ℂ) •
      (table.map fun chars => symmProjFull chars classes).getD i 0 =
      E T.m ρ fun x => (φ T.s)⁻¹ * φ ((T.dims.getD i 0 : K) * F i x) := by
    intro i hi
    rw [h.getD i (Finset.mem_range.1 hi), smul_smul, E_smul]
    refine E_congr fun x _ => ?_
    simp only [map_mul, map_natCast]
    ring
  rw [Finset.sum_congr rfl h2]
  have h3 : ∀ n, ∑ i ∈ Finset.range n,
      E T.m ρ (fun x => (φ T.s)⁻¹ * φ ((T.dims.getD i 0 : K) * F i x)) =
      E T.m ρ fun x => (φ T.s)⁻¹ * φ (sumTo n fun i => (T.dims.getD i 0 : K) * F i x) := by
    intro n
    induction n with
    | zero => simp [sumTo, E]
    | succ n ih =>
      rw [Finset.sum_range_succ, ih, E_add]
      refine E_congr fun x _ => ?_
      rw [← mul_add, ← map_add]
      rfl
  rw [h3]
  have h4 := E_single ρ 0 h.base.pos (T.m : ℂ)
  rw [h.one] at h4
  rw [← h4]
  refine E_congr fun z hz => ?_
  rw [hF z hz]
  split_ifs
  · rw [map_mul, map_natCast]; field_simp
  · simp

theorem Tables.Rep.decomposes (h : T.Rep F φ ρ table classes)
    (ho : ∀ i < T.rows.length, ∀ j < T.rows.length, i ≠ j → T.Orth F i j)
    (hi : ∀ i < T.rows.length, T.Idem F i) (hc : T.Complete F) :
    Decomposes T.m T.dims (table.map fun chars => symmProjFull chars classes) :=
  ⟨h.length.trans h.base.len,
    fun i j hi hj hij => h.orth i j (ho i (h.length ▸ hi) j (h.length ▸ hj) hij) hi hj,
    fun i hi' hd => h.idem i (hi i (h.length ▸ hi')) hi' hd, h.complete hc⟩

/-- Commutation with a group element `g` with inverse `g'` on whose conjugacy classes the characters are
constant. -/
theorem Tables.Rep.commute (h : T.Rep F φ ρ table classes) (g g' : ℕ) (hg : g < T.m)
    (hg' : g' < T.m)
    (hinv : ∀ x < T.m, T.mul (T.mul x g) g' = x ∧ T.mul (T.mul x g') g = x)
    (hK : ∀ i < T.rows.length, ∀ x < T.m, F i (T.ldiv g (T.mul x g)) = F i x) :
    AllCommute (table.map fun chars => symmProjFull chars classes) (ρ g) := by
  intro p hp
  obtain ⟨i, hi, rfl⟩ := List.mem_iff_getElem.1 hp
  rw [h.get i hi, mul_smul_comm, smul_mul_assoc]
  congr 1
  have hi := h.length ▸ hi
  unfold E
  rw [Finset.mul_sum, Finset.sum_mul]
  symm
  refine Finset.sum_bij' (fun x _ => T.ldiv g (T.mul x g))
    (fun y _ => T.mul (T.mul g y) g') ?_ ?_ ?_ ?_ ?_
  · intro x hx
    exact Finset.mem_range.2 (h.base.table g hg _
      (h.base.table x (Finset.mem_range.1 hx) g hg).1).2.1
  · intro y hy
    exact Finset.mem_range.2 (h.base.table _ (h.base.table g hg y (Finset.mem_range.1 hy)).1 g' hg').1
  · intro x hx
    have hx := Finset.mem_range.1 hx
    rw [(h.base.table g hg _ (h.base.table x hx g hg).1).2.2.2, (hinv x hx).1]
  · intro y hy
    have hy := Finset.mem_range.1 hy
    rw [(hinv _ (h.base.table g hg y hy).1).2, (h.base.table g hg y hy).2.2.1]
  · intro x hx
    have hx := Finset.mem_range.1 hx
    have h1 := (h.base.table x hx g hg).1
    have h2 := h.base.table g hg _ h1
    rw [smul_mul_assoc, mul_smul_comm, h.mul x hx g hg, h.mul g hg _ h2.2.1, h2.2.2.2]
    beta_reduce
    rw [hK i hi x hx]

end

theorem pow_mod_of_pow_eq_one {X : A} {n : ℕ} (h : X ^ n = 1) (k : ℕ) : X ^ (k % n) = X ^ k := by
  conv_rhs => rw [← Nat.div_add_mod k n, pow_add, pow_mul, h, one_pow, one_mul]

/-- The element `R^a S^b` of the dihedral group with code `2a + b`. -/
def dihRho (n : ℕ) (R S : A) (x : ℕ) : A := R ^ (x / 2 % n) * S ^ (x % 2)

/-- Multiplication of codes of the dihedral group. -/
def dihMul (n x y : ℕ) : ℕ :=
  (x / 2 + (if x % 2 = 0 then y / 2 else (n - 1) * (y / 2))) % n * 2 + (x + y) % 2

/-- Left division of codes of the dihedral group. -/
def dihLdiv (n x y : ℕ) : ℕ :=
  (if x % 2 = 0 then (n - 1) * (x / 2) + y / 2 else x / 2 + (n - 1) * (y / 2)) % n * 2 + (x + y) % 2

theorem dih_swap {n : ℕ} {R S : A} (h : Dihedral n R S) (k : ℕ) :
    S * R ^ k = R ^ ((n - 1) * k) * S := by
  have h1 : S * R = R ^ (n - 1) * S := by
    rw [← h.conj, mul_assoc, h.refl, mul_one]
  induction k with
  | zero => simp
  | succ k ih =>
    rw [pow_succ, ← mul_assoc, ih, mul_assoc, h1, ← mul_assoc, ← pow_add, Nat.mul_succ]

theorem dihRho_mul {n : ℕ} {R S : A} (h : Dihedral n R S) (x y : ℕ) :
    dihRho n R S x * dihRho n R S y = dihRho n R S (dihMul n x y) := by
  unfold dihRho dihMul
  have hS : ∀ k, S ^ (k % 2) = S ^ k := pow_mod_of_pow_eq_one (by rw [pow_two, h.refl])
  have hR : ∀ k, R ^ (k % n) = R ^ k := pow_mod_of_pow_eq_one h.rot
  have e1 : ∀ u v : ℕ, (u * 2 + v % 2) / 2 = u := fun u v => by omega
  have e2 : ∀ u v : ℕ, (u * 2 + v % 2) % 2 = v % 2 := fun u v => by omega
  rw [e1, e2, Nat.mod_mod, hR, hR, hR, hS y, hS (x + y)]
  by_cases hx : x % 2 = 0
  · have : S ^ x = 1 := by rw [← hS, hx, pow_zero]
    rw [if_pos hx, hx, pow_zero, mul_one, ← mul_assoc, ← pow_add, pow_add S, this, one_mul]
  · have hx1 : x % 2 = 1 := by omega
    have : S ^ x = S := by rw [← hS, hx1, pow_one]
    rw [if_neg hx, hx1, pow_one, pow_add S, this, pow_add R, mul_assoc, ← mul_assoc S, dih_swap h,
      mul_assoc, mul_assoc]

/-- A table satisfying the orthogonality relations exactly is accepted. -/
theorem validate_of_orth (n : ℕ) (table : ℕ → ℕ → ℂ) (sizes : ℕ → ℕ)
    (hpos : ∀ c < n, 0 < sizes c)
    (hdvd : ∀ c < n, sizes c ∣ ∑ c ∈ Finset.range n, sizes c)
    (hcol : ∀ i < n, ∀ j < n, ∑ k ∈ Finset.range n, table k i * (starRingEnd ℂ) (table k j) =
      if i = j then ((∑ c ∈ Finset.range n, sizes c : ℕ) : ℂ) / (sizes i : ℂ) else 0)
    (hrow : ∀ i < n, ∀ j < n,
      ∑ c ∈ Finset.range n, table i c * (starRingEnd ℂ) (table j c) * (sizes c : ℂ) =
      if i = j then ((∑ c ∈ Finset.range n, sizes c : ℕ) : ℂ) else 0) :
    validateCharTable n table sizes := by
  refine ⟨fun i hi j hj => ?_, fun i hi j hj => ?_⟩
  · rw [hcol i hi j hj]
    split_ifs with hij
    · obtain ⟨q, hq⟩ := hdvd i hi
      have h0 : (sizes i : ℂ) ≠ 0 := by exact_mod_cast (hpos i hi).ne'
      have h1 : ((∑ c ∈ Finset.range n, sizes c : ℕ) : ℂ) / (sizes i : ℂ) = ((q : ℤ) : ℂ) := by
        rw [hq]; push_cast; field_simp
      rw [h1, Complex.intCast_re, rint_intCast, orderOver, if_neg (hpos i hi).ne', hq,
        Nat.mul_div_cancel_left _ (hpos i hi)]
    · rw [Complex.zero_re]
      have := rint_intCast (K := ℝ) 0
      rw [Int.cast_zero] at this
      exact this.symm
  · rw [hrow i hi j hj]
    split_ifs with hij
    · have := rint_intCast (K := ℝ) ((∑ c ∈ Finset.range n, sizes c : ℕ) : ℤ)
      rw [Complex.natCast_re]
      rw [Int.cast_natCast] at this
      exact this.symm
    · rw [Complex.zero_re]
      have := rint_intCast (K := ℝ) 0
      rw [Int.cast_zero] at this
      exact this.symm

/-- The orthogonality relations, checked in `K`. -/
def Tables.Valid {K : Type} [CommRing K] (T : Tables K) : Prop :=
  let n := T.rows.length
  let size := fun c => (T.codes.getD c []).length
  let t := fun i c => (T.rows.getD i []).getD c (0 : K)
  T.codes.length = n ∧
  (∀ r ∈ T.rows, r.length = n) ∧
  sumTo n size = T.m ∧
  (∀ c < n, 0 < size c ∧ size c ∣ T.m) ∧
  (∀ i < n, ∀ j < n, (size i : K) * sumTo n (fun k => t k i * t k j) =
    if i = j then T.s * T.s * T.m else 0) ∧
  (∀ i < n, ∀ j < n, sumTo n (fun c => t i c * t j c * size c) =
    if i = j then T.s * T.s * T.m else 0)

theorem Tables.Rep.validate {K : Type} [CommRing K] {T : Tables K} {F : ℕ → ℕ → K} {φ : K →+* ℂ}
    {ρ : ℕ → A} {table : List (List ℂ)} {classes : List (List A)}
    (hr : T.Rep F φ ρ table classes) (h : T.Valid) :
    getSymmetryProjectors table classes = .ok (table.map fun chars => symmProjFull chars classes) := by
  obtain ⟨h1, h2, h3, h4, h5, h6⟩ := h
  have hφ := hr.conj
  have hs := hr.ne
  have ht := hr.table
  have hcl := hr.classes
  refine if_pos ?_
  have hlen : table.length = T.rows.length := by rw [ht, List.length_map]
  rw [hlen]
  have hsz : (fun c => (classes.getD c []).length) = fun c => (T.codes.getD c []).length := by
    funext c
    rw [hcl]
    simp only [List.getD_eq_getElem?_getD, List.getElem?_map]
    cases T.codes[c]? <;> simp
  have hte : ∀ i c, tableOf table i c = φ ((T.rows.getD i []).getD c (0 : K)) / φ T.s := by
    intro i c
    unfold tableOf
    rw [ht]
    simp only [List.getD_eq_getElem?_getD, List.getElem?_map]
    cases h : T.rows[i]? with
    | none => simp
    | some r =>
      simp only [Option.map_some, Option.getD_some, List.getElem?_map]
      cases r[c]? <;> simp
  rw [hsz]
  have h3' : ∑ c ∈ Finset.range T.rows.length, (T.codes.getD c []).length = T.m := by
    rw [← sumTo_eq]; exact h3
  refine validate_of_orth _ _ _ (fun c hc => (h4 c hc).1) (fun c hc => ?_) (fun i hi j hj => ?_)
    fun i hi j hj => ?_
  · rw [h3']; exact (h4 c hc).2
  · rw [h3']
    have := congrArg φ (h5 i hi j hj)
    rw [sumTo_eq, map_mul, map_sum, map_natCast] at this
    have hz : ((T.codes.getD i []).length : ℂ) ≠ 0 := by exact_mod_cast (h4 i hi).1.ne'
    have h7 : ∑ k ∈ Finset.range T.rows.length,
        tableOf table k i * (starRingEnd ℂ) (tableOf table k j) =
        (∑ k ∈ Finset.range T.rows.length, φ ((T.rows.getD k []).getD i (0 : K) *
          (T.rows.getD k []).getD j (0 : K))) / (φ T.s * φ T.s) := by
      rw [Finset.sum_div]
      refine Finset.sum_congr rfl fun k _ => ?_
      rw [hte, hte, map_div₀, hφ, hφ, map_mul]
      field_simp
    rw [h7, div_eq_iff (mul_ne_zero hs hs)]
    refine mul_left_cancel₀ hz (this.trans ?_)
    split_ifs
    · simp only [map_mul, map_natCast]; field_simp
    · simp
  · rw [h3']
    have := congrArg φ (h6 i hi j hj)
    rw [sumTo_eq, map_sum] at this
    have h7 : ∑ c ∈ Finset.range T.rows.length, tableOf table i c *
        (starRingEnd ℂ) (tableOf table j c) * ((T.codes.getD c []).length : ℂ) =
        (∑ c ∈ Finset.range T.rows.length, φ ((T.rows.getD i []).getD c (0 : K) *
          (T.rows.getD j []).getD c (0 : K) * ((T.codes.getD c []).length : K))) /
          (φ T.s * φ T.s) := by
      rw [Finset.sum_div]
      refine Finset.sum_congr rfl fun k _ => ?_
      rw [hte, hte, map_div₀, hφ, hφ, map_mul, map_mul, map_natCast]
      field_simp
    rw [h7, this, div_eq_iff (mul_ne_zero hs hs)]
    split_ifs
    · simp only [map_mul, map_natCast]; ring
    · simp

end ED
