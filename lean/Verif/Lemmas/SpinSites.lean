import Verif.Lemmas.SpinDec
import Verif.Lemmas.Spins

/-! # Helper lemmas: multiplets of spins on sites -/

namespace ED

open scoped BigOperators
open Matrix Kronecker

/-- Configurations of two groups of sites. -/
def appConf (n m b : ℕ) : Conf n b × Conf m b ≃ Conf (n + m) b where
  toFun x := Fin.append x.1 x.2
  invFun t := (fun i => t (Fin.castAdd m i), fun i => t (Fin.natAdd n i))
  left_inv x := by ext <;> simp
  right_inv t := by
    funext i
    refine Fin.addCases (fun i => ?_) (fun i => ?_) i <;> simp

variable {n m b : ℕ}

theorem appConf_left (s : Conf n b) (t : Conf m b) (i : Fin n) : appConf n m b (s, t) (Fin.castAdd m i) = s i := Fin.append_left s t i

theorem appConf_right (s : Conf n b) (t : Conf m b) (i : Fin m) : appConf n m b (s, t) (Fin.natAdd n i) = t i := Fin.append_right s t i

theorem castAdd_ne_natAdd (i : Fin n) (j : Fin m) : Fin.castAdd m i ≠ Fin.natAdd n j := by
  intro h
  have := congrArg Fin.val h
  simp only [Fin.val_castAdd, Fin.val_natAdd] at this
  omega

theorem siteOp_castAdd (A : Matrix (Fin b) (Fin b) ℂ) (i : Fin n) :
    (siteOp A (Fin.castAdd m i) : Op (n + m) b).submatrix (appConf n m b) (appConf n m b) = (siteOp A i : Op n b) ⊗ₖ (1 : Op m b) := by
  ext ⟨s, y⟩ ⟨t, z⟩
  rw [submatrix_apply, kroneckerMap_apply, siteOp, siteOp, of_apply, of_apply, Matrix.one_apply]
  have h : AgreeOff (Fin.castAdd m i) (appConf n m b (s, y)) (appConf n m b (t, z)) ↔ AgreeOff i s t ∧ y = z := by
    constructor
    · intro h
      refine ⟨fun j hj => ?_, funext fun j => ?_⟩
      · simpa [appConf_left] using h (Fin.castAdd m j) (fun e => hj (Fin.castAdd_injective _ _ e))
      · simpa [appConf_right] using h (Fin.natAdd n j) (castAdd_ne_natAdd i j).symm
    · rintro ⟨h1, rfl⟩ j hj
      induction j using Fin.addCases with
      | left j => simpa [appConf_left] using h1 j (fun e => hj (by rw [e]))
      | right j => simp [appConf_right]
  by_cases h1 : AgreeOff i s t
  · by_cases h2 : y = z
    · rw [if_pos (h.2 ⟨h1, h2⟩), if_pos h1, if_pos h2, mul_one, appConf_left, appConf_left]
    · rw [if_neg fun e => h2 (h.1 e).2, if_neg h2, mul_zero]
  · rw [if_neg fun e => h1 (h.1 e).1, if_neg h1, zero_mul]

theorem siteOp_natAdd (A : Matrix (Fin b) (Fin b) ℂ) (i : Fin m) :
    (siteOp A (Fin.natAdd n i) : Op (n + m) b).submatrix (appConf n m b) (appConf n m b) = (1 : Op n b) ⊗ₖ (siteOp A i : Op m b) := by
  ext ⟨y, s⟩ ⟨z, t⟩
  rw [submatrix_apply, kroneckerMap_apply, siteOp, siteOp, of_apply, of_apply, Matrix.one_apply]
  have h : AgreeOff (Fin.natAdd n i) (appConf n m b (y, s)) (appConf n m b (z, t)) ↔ AgreeOff i s t ∧ y = z := by
    constructor
    · intro h
      refine ⟨fun j hj => ?_, funext fun j => ?_⟩
      · simpa [appConf_right] using h (Fin.natAdd n j) (fun e => hj (Fin.natAdd_injective _ _ e))
      · simpa [appConf_left] using h (Fin.castAdd m j) (castAdd_ne_natAdd j i)
    · rintro ⟨h1, rfl⟩ j hj
      induction j using Fin.addCases with
      | left j => simp [appConf_left]
      | right j => simpa [appConf_right] using h1 j (fun e => hj (by rw [e]))
  by_cases h1 : AgreeOff i s t
  · by_cases h2 : y = z
    · rw [if_pos (h.2 ⟨h1, h2⟩), if_pos h1, if_pos h2, one_mul, appConf_right, appConf_right]
    · rw [if_neg fun e => h2 (h.1 e).2, if_neg h2, zero_mul]
  · rw [if_neg fun e => h1 (h.1 e).1, if_neg h1, mul_zero]

/-- The sum of an operator over the sites. -/
def total (n : ℕ) (A : Matrix (Fin b) (Fin b) ℂ) : Op n b := ∑ i, siteOp A i

/-- The product of two spins, times two. -/
noncomputable def twoDot (e f h : Matrix (Fin b) (Fin b) ℂ) (i j : Fin n) : Op n b :=
  siteOp f i * siteOp e j + siteOp e i * siteOp f j + (1 / 2 : ℂ) • (siteOp h i * siteOp h j)

theorem twoDot_symm (e f h : Matrix (Fin b) (Fin b) ℂ) {i j : Fin n} (hij : i ≠ j) : twoDot e f h i j = twoDot e f h j i := by
  rw [twoDot, twoDot, siteOp_comm hij, siteOp_comm hij, siteOp_comm hij, add_comm (siteOp e j * _)]

/-- All pairs of spins, every pair counted twice with half the weight. -/
noncomputable def pairs (n : ℕ) (J : Fin n → Fin n → ℝ) (e f h : Matrix (Fin b) (Fin b) ℂ) : Op n b :=
  (1 / 2 : ℂ) • ∑ i, ∑ j, if i = j then 0 else (J i j : ℂ) • twoDot e f h i j

theorem submatrix_sum {ι α β : Type} (s : Finset ι) (f : ι → Matrix α α ℂ) (ε : β → α) :
    (∑ i ∈ s, f i).submatrix ε ε = ∑ i ∈ s, (f i).submatrix ε ε := by
  ext x y
  rw [submatrix_apply, Matrix.sum_apply, Matrix.sum_apply]
  rfl

theorem sum_kronecker {ι α β : Type} (s : Finset ι) (f : ι → Matrix α α ℂ) (B : Matrix β β ℂ) :
    (∑ i ∈ s, f i) ⊗ₖ B = ∑ i ∈ s, f i ⊗ₖ B := by
  ext x y
  rw [kroneckerMap_apply, Matrix.sum_apply, Matrix.sum_apply, Finset.sum_mul]
  rfl

theorem kronecker_sum {ι α β : Type} (s : Finset ι) (f : ι → Matrix α α ℂ) (B : Matrix β β ℂ) :
    B ⊗ₖ (∑ i ∈ s, f i) = ∑ i ∈ s, B ⊗ₖ f i := by
  ext x y
  rw [kroneckerMap_apply, Matrix.sum_apply, Matrix.sum_apply, Finset.mul_sum]
  rfl

theorem total_app (A : Matrix (Fin b) (Fin b) ℂ) :
    (total (n + m) A).submatrix (appConf n m b) (appConf n m b) = both (total n A) (total m A) := by
  rw [total, submatrix_sum, Fin.sum_univ_add, both, total, total, sum_kronecker, kronecker_sum]
  simp only [siteOp_castAdd, siteOp_natAdd]

theorem sub_mul_app (A B : Op (n + m) b) : (A * B).submatrix (appConf n m b) (appConf n m b) =
    A.submatrix (appConf n m b) (appConf n m b) * B.submatrix (appConf n m b) (appConf n m b) := (submatrix_mul_equiv A B _ _ _).symm

theorem twoDot_left (e f h : Matrix (Fin b) (Fin b) ℂ) (i j : Fin n) :
    (twoDot e f h (Fin.castAdd m i) (Fin.castAdd m j)).submatrix (appConf n m b) (appConf n m b) = twoDot e f h i j ⊗ₖ (1 : Op m b) := by
  rw [twoDot, twoDot, submatrix_add, submatrix_add, submatrix_smul]
  simp only [Pi.add_apply, Pi.smul_apply, sub_mul_app, siteOp_castAdd, ← mul_kronecker_mul, Matrix.one_mul, add_kronecker, smul_kronecker]

theorem twoDot_right (e f h : Matrix (Fin b) (Fin b) ℂ) (i j : Fin m) :
    (twoDot e f h (Fin.natAdd n i) (Fin.natAdd n j)).submatrix (appConf n m b) (appConf n m b) = (1 : Op n b) ⊗ₖ twoDot e f h i j := by
  rw [twoDot, twoDot, submatrix_add, submatrix_add, submatrix_smul]
  simp only [Pi.add_apply, Pi.smul_apply, sub_mul_app, siteOp_natAdd, ← mul_kronecker_mul, Matrix.one_mul, kronecker_add, kronecker_smul]

theorem twoDot_cross (e f h : Matrix (Fin b) (Fin b) ℂ) (i : Fin n) (j : Fin m) :
    (twoDot e f h (Fin.castAdd m i) (Fin.natAdd n j)).submatrix (appConf n m b) (appConf n m b) =
      inter (siteOp e i : Op n b) (siteOp f i) (siteOp h i) (siteOp e j : Op m b) (siteOp f j) (siteOp h j) := by
  rw [twoDot, inter, submatrix_add, submatrix_add, submatrix_smul]
  simp only [Pi.add_apply, Pi.smul_apply, sub_mul_app, siteOp_natAdd, siteOp_castAdd, ← mul_kronecker_mul, Matrix.one_mul, Matrix.mul_one]

theorem sum_inter (e f h : Matrix (Fin b) (Fin b) ℂ) :
    ∑ i : Fin n, ∑ j : Fin m, inter (siteOp e i : Op n b) (siteOp f i) (siteOp h i) (siteOp e j : Op m b) (siteOp f j) (siteOp h j) =
      inter (total n e) (total n f) (total n h) (total m e) (total m f) (total m h) := by
  have hk : ∀ A B : Matrix (Fin b) (Fin b) ℂ, (∑ i : Fin n, (siteOp A i : Op n b)) ⊗ₖ (∑ j : Fin m, (siteOp B j : Op m b)) =
      ∑ i : Fin n, ∑ j : Fin m, (siteOp A i : Op n b) ⊗ₖ (siteOp B j : Op m b) := by
    intro A B
    rw [sum_kronecker]
    exact Finset.sum_congr rfl fun i _ => kronecker_sum _ _ _
  simp only [inter, total, hk, Finset.sum_add_distrib, Finset.smul_sum]

theorem pairs_app {J : Fin (n + m) → Fin (n + m) → ℝ} {g : ℝ} (h1 : ∀ i j, J (Fin.castAdd m i) (Fin.natAdd n j) = g)
    (h2 : ∀ i j, J (Fin.natAdd n i) (Fin.castAdd m j) = g) (e f h : Matrix (Fin b) (Fin b) ℂ) :
    (pairs (n + m) J e f h).submatrix (appConf n m b) (appConf n m b) =
      pairs n (fun i j => J (Fin.castAdd m i) (Fin.castAdd m j)) e f h ⊗ₖ (1 : Op m b) +
        (1 : Op n b) ⊗ₖ pairs m (fun i j => J (Fin.natAdd n i) (Fin.natAdd n j)) e f h +
        (g : ℂ) • inter (total n e) (total n f) (total n h) (total m e) (total m f) (total m h) := by
  have hif : ∀ (p : Prop) [Decidable p] (A : Op (n + m) b), (if p then 0 else A).submatrix (appConf n m b) (appConf n m b) =
      if p then 0 else A.submatrix (appConf n m b) (appConf n m b) := by
    intro p _ A
    split_ifs <;> rfl
  have hl : ∀ (p : Prop) [Decidable p] (A : Op n b), (if p then 0 else A) ⊗ₖ (1 : Op m b) = if p then 0 else A ⊗ₖ (1 : Op m b) := by
    intro p _ A
    split_ifs
    · exact zero_kronecker _
    · rfl
  have hr : ∀ (p : Prop) [Decidable p] (A : Op m b), (1 : Op n b) ⊗ₖ (if p then 0 else A) = if p then 0 else (1 : Op n b) ⊗ₖ A := by
    intro p _ A
    split_ifs
    · exact kronecker_zero _
    · rfl
  rw [pairs, submatrix_smul, Pi.smul_apply, Pi.smul_apply, submatrix_sum]
  simp only [submatrix_sum, hif, submatrix_smul, Pi.smul_apply]
  rw [Fin.sum_univ_add]
  simp only [Fin.sum_univ_add (a := n) (b := m), castAdd_ne_natAdd, (castAdd_ne_natAdd _ _).symm, if_false, h1, h2,
    twoDot_symm e f h (castAdd_ne_natAdd _ _).symm, twoDot_left, twoDot_right, twoDot_cross, Fin.castAdd_inj, Fin.natAdd_inj,
    Finset.sum_add_distrib]
  have hc : ∑ i : Fin m, ∑ j : Fin n, (g : ℂ) • inter (siteOp e j : Op n b) (siteOp f j) (siteOp h j) (siteOp e i : Op m b) (siteOp f i) (siteOp h i) =
      (g : ℂ) • inter (total n e) (total n f) (total n h) (total m e) (total m f) (total m h) := by
    rw [Finset.sum_comm, ← sum_inter]
    simp only [Finset.smul_sum]
  have hd : ∑ i : Fin n, ∑ j : Fin m, (g : ℂ) • inter (siteOp e i : Op n b) (siteOp f i) (siteOp h i) (siteOp e j : Op m b) (siteOp f j) (siteOp h j) =
      (g : ℂ) • inter (total n e) (total n f) (total n h) (total m e) (total m f) (total m h) := by
    rw [← sum_inter]
    simp only [Finset.smul_sum]
  rw [hc, hd, pairs, pairs, smul_kronecker, kronecker_smul, sum_kronecker, kronecker_sum]
  simp only [sum_kronecker, kronecker_sum, hl, hr, smul_kronecker, kronecker_smul]
  module

theorem coupling_symm (T : Group) (i j : ℕ) : T.coupling i j = T.coupling j i := by
  induction T generalizing i j with
  | one => rfl
  | join g a b iha ihb =>
    rw [Group.coupling, Group.coupling]
    split_ifs <;> first | rfl | exact iha _ _ | exact ihb _ _

theorem siteOp_one (A : Matrix (Fin b) (Fin b) ℂ) (i : Fin 1) :
    (siteOp A i : Op 1 b).submatrix (Equiv.funUnique (Fin 1) (Fin b)).symm (Equiv.funUnique (Fin 1) (Fin b)).symm = A := by
  ext x y
  rw [submatrix_apply, siteOp, of_apply, if_pos]
  · rfl
  · intro j hj
    exact absurd (Subsingleton.elim _ _) hj

/-- The multiplets of a group of spins. -/
theorem group_dec (d : ℕ) {e f h D D' : Matrix (Fin (d + 1)) (Fin (d + 1)) ℂ} (h1 : D * D' = 1) (h2 : D' * D = 1)
    (he : e * D = D * stdE d) (hf : f * D = D * stdF d) (hh : h * D = D * stdH d) (T : Group) :
    Dec (total T.size e) (total T.size f) (total T.size h) (pairs T.size (fun i j => T.coupling i j) e f h) (T.multiplets d : List (ℕ × ℝ)) := by
  induction T with
  | one =>
    have ht : ∀ A : Matrix (Fin (d + 1)) (Fin (d + 1)) ℂ, (total 1 A).submatrix (Equiv.funUnique (Fin 1) (Fin (d + 1))).symm
        (Equiv.funUnique (Fin 1) (Fin (d + 1))).symm = A := fun A => by
      rw [total, Fin.sum_univ_one, siteOp_one]
    change Dec (total 1 e) (total 1 f) (total 1 h) (pairs 1 (fun i j => Group.one.coupling i j) e f h) _
    refine Dec.reindex (Equiv.funUnique (Fin 1) (Fin (d + 1))).symm ?_
    have hp : pairs 1 (fun i j => Group.one.coupling i j) e f h = 0 := by
      simp [pairs, Group.coupling]
    rw [ht, ht, ht, hp, submatrix_zero]
    refine Dec.conj D D' h1 h2 he hf hh ?_ (Dec.std d 0)
    rw [Pi.zero_apply, Pi.zero_apply, Complex.ofReal_zero, zero_smul, Matrix.zero_mul, Matrix.mul_zero]
  | join g a b iha ihb =>
    change Dec (total (a.size + b.size) e) (total (a.size + b.size) f) (total (a.size + b.size) h)
      (pairs (a.size + b.size) (fun i j => (Group.join g a b).coupling i j) e f h) _
    refine Dec.reindex (appConf a.size b.size (d + 1)) ?_
    rw [total_app, total_app, total_app, pairs_app (g := g)]
    · have ht := iha.tensor ihb g
      have hl : (((Group.join g a b).multiplets d : List (ℕ × ℝ)) : Multiset (ℕ × ℝ)) =
          ((a.multiplets d : List (ℕ × ℝ)) : Multiset (ℕ × ℝ)).bind fun p =>
            ((b.multiplets d : List (ℕ × ℝ)) : Multiset (ℕ × ℝ)).bind fun q => couple g p q := by
        rw [Group.multiplets, ← Multiset.coe_bind]
        congr 1
        funext p
        rw [← Multiset.coe_bind]
        congr 1
        funext q
        rw [couple, sumLengths, List.map_map]
        rfl
      rw [hl]
      have ea : (fun i j : Fin a.size => (Group.join g a b).coupling (Fin.castAdd b.size i) (Fin.castAdd b.size j)) = fun i j : Fin a.size => a.coupling (i : ℕ) (j : ℕ) := by
        funext i j
        rw [Group.coupling, if_pos, if_pos] <;> simp
      have eb : (fun i j : Fin b.size => (Group.join g a b).coupling (Fin.natAdd a.size i) (Fin.natAdd a.size j)) = fun i j : Fin b.size => b.coupling (i : ℕ) (j : ℕ) := by
        funext i j
        rw [Group.coupling, if_neg, if_neg] <;> simp
      rw [ea, eb]
      exact ht
    · intro i j
      rw [Group.coupling, if_pos, if_neg] <;> simp
    · intro i j
      rw [Group.coupling, if_neg, if_pos] <;> simp

end ED
