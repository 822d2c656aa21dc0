import Verif.Spec.Hubbard
import Verif.Lemmas.Swap
import Verif.Lemmas.Gibbs
import Mathlib.Analysis.SpecialFunctions.Exp

/-! # Exchanging particles and holes -/

namespace ED

open Matrix

variable {n : ℕ}

/-- Occupied modes become empty and empty modes occupied. -/
def holes : Conf n 2 ≃ Conf n 2 :=
  ⟨fun s i => 1 - s i, fun s i => 1 - s i, fun s => by funext i; exact sub_sub_cancel _ _, fun s => by funext i; exact sub_sub_cancel _ _⟩

theorem holes_one (s : Conf n 2) (i : Fin n) : holes s i = 1 ↔ s i = 0 := by
  change 1 - s i = 1 ↔ _
  generalize s i = x
  fin_cases x <;> simp

theorem holes_zero (s : Conf n 2) (i : Fin n) : holes s i = 0 ↔ s i = 1 := by
  change 1 - s i = 0 ↔ _
  generalize s i = x
  fin_cases x <;> simp

/-- The product of the signs of the occupied modes. -/
noncomputable def occSign (χ : Fin n → ℤ) (s : Conf n 2) : ℂ := ∏ i, if s i = 1 then (χ i : ℂ) else 1

theorem occSign_mul {χ : Fin n → ℤ} (hχ : ∀ i, χ i * χ i = 1) {i : Fin n} {s t : Conf n 2} (h : AgreeOff i s t)
    (hs : s i = 0) (ht : t i = 1) : occSign χ s * occSign χ t = χ i := by
  unfold occSign
  rw [← Finset.prod_mul_distrib, Finset.prod_eq_single i]
  · simp [hs, ht]
  · intro k _ hk
    rw [h k hk]
    split_ifs
    · exact_mod_cast hχ k
    · simp
  · simp

theorem occSign_self {χ : Fin n → ℤ} (hχ : ∀ i, χ i * χ i = 1) (s : Conf n 2) : occSign χ s * occSign χ s = 1 := by
  unfold occSign
  rw [← Finset.prod_mul_distrib]
  refine Finset.prod_eq_one fun k _ => ?_
  split_ifs
  · exact_mod_cast hχ k
  · simp

/-- The exchange of particles and holes, with signs. -/
noncomputable def phOp (χ : Fin n → ℤ) : Op n 2 := of fun s t => if s = holes t then occSign χ t else 0

theorem star_occSign (χ : Fin n → ℤ) (s : Conf n 2) : star (occSign χ s) = occSign χ s := by
  unfold occSign
  rw [star_prod]
  refine Finset.prod_congr rfl fun k _ => ?_
  split_ifs <;> simp

theorem phOp_mul {χ : Fin n → ℤ} (A : Op n 2) (s t : Conf n 2) :
    ((phOp χ)ᴴ * A * phOp χ) s t = occSign χ s * occSign χ t * A (holes s) (holes t) := by
  rw [Matrix.mul_apply, Finset.sum_eq_single (holes t), Matrix.mul_apply, Finset.sum_eq_single (holes s)]
  · simp only [phOp, conjTranspose_apply, of_apply, if_true, star_occSign]
    ring
  · intro k _ hk
    simp [phOp, hk]
  · simp
  · intro k _ hk
    simp [phOp, hk]
  · simp

theorem phOp_unitary {χ : Fin n → ℤ} (hχ : ∀ i, χ i * χ i = 1) : (phOp χ)ᴴ * phOp χ = 1 := by
  ext s t
  have := phOp_mul (χ := χ) 1 s t
  rw [Matrix.mul_one] at this
  rw [this, one_apply, one_apply]
  by_cases h : s = t
  · subst h
    simp [occSign_self hχ]
  · rw [if_neg h, if_neg fun h' => h (holes.injective h'), mul_zero]

theorem agree_holes {i : Fin n} {s t : Conf n 2} : AgreeOff i (holes s) (holes t) ↔ AgreeOff i s t := by
  unfold AgreeOff
  refine forall_congr' fun k => imp_congr_right fun _ => ?_
  change 1 - s k = 1 - t k ↔ _
  exact sub_right_inj

theorem occAfter_holes (i : Fin n) (s : Conf n 2) : occAfter i (holes s) + occAfter i s = n - 1 - i := by
  unfold occAfter
  rw [← Finset.card_union_of_disjoint]
  · have : ((Finset.univ.filter fun j => i < j ∧ holes s j = 1) ∪ Finset.univ.filter fun j => i < j ∧ s j = 1) = Finset.Ioi i := by
      ext j
      simp only [Finset.mem_union, Finset.mem_filter, Finset.mem_univ, true_and, holes_one, Finset.mem_Ioi]
      generalize s j = x
      fin_cases x <;> simp
    rw [this, Fin.card_Ioi]
  · rw [Finset.disjoint_filter]
    intro j _ h1 h2
    rw [holes_one] at h1
    rw [h1.2] at h2
    exact absurd h2.2 (by simp)

theorem occAfter_agree {i : Fin n} {s t : Conf n 2} (h : AgreeOff i s t) : occAfter i s = occAfter i t := by
  unfold occAfter
  congr 1
  ext j
  simp only [Finset.mem_filter, Finset.mem_univ, true_and]
  refine and_congr_right fun hj => ?_
  rw [h j hj.ne']

theorem ph_create {χ : Fin n → ℤ} (hχ : ∀ i, χ i * χ i = 1) (i : Fin n) :
    (phOp χ)ᴴ * create i * phOp χ = ((χ i : ℂ) * (-1) ^ (n - 1 - (i : ℕ))) • annih i := by
  ext s t
  rw [phOp_mul, Matrix.smul_apply, create, of_apply, annih, conjTranspose_apply, create, of_apply]
  simp only [agree_holes, holes_one, holes_zero]
  by_cases h : AgreeOff i s t ∧ s i = 0 ∧ t i = 1
  · rw [if_pos h, if_pos ⟨fun k hk => (h.1 k hk).symm, h.2.2, h.2.1⟩, occSign_mul hχ h.1 h.2.1 h.2.2, ← occAfter_holes i s,
      occAfter_agree h.1, pow_add, smul_eq_mul]
    have : ((-1 : ℂ) ^ occAfter i t) * (-1) ^ occAfter i t = 1 := by rw [← mul_pow]; simp
    simp only [star_pow, star_neg, star_one]
    linear_combination (-(χ i : ℂ) * (-1) ^ occAfter i (holes s)) * this
  · rw [if_neg h, if_neg fun h' => h ⟨fun k hk => (h'.1 k hk).symm, h'.2.2, h'.2.1⟩]
    simp

theorem ph_annih {χ : Fin n → ℤ} (hχ : ∀ i, χ i * χ i = 1) (i : Fin n) :
    (phOp χ)ᴴ * annih i * phOp χ = ((χ i : ℂ) * (-1) ^ (n - 1 - (i : ℕ))) • create i := by
  have := congrArg conjTranspose (ph_create hχ i)
  rw [conjTranspose_mul, conjTranspose_mul, conjTranspose_conjTranspose, conjTranspose_smul, annih_conj, ← Matrix.mul_assoc] at this
  rw [annih, this]
  simp

theorem ph_number {χ : Fin n → ℤ} (hχ : ∀ i, χ i * χ i = 1) (i : Fin n) :
    (phOp χ)ᴴ * number i * phOp χ = 1 - number i := by
  ext s t
  rw [phOp_mul, number, Matrix.sub_apply, diagonal_apply, diagonal_apply, one_apply]
  by_cases h : s = t
  · subst h
    rw [if_pos rfl, if_pos rfl, if_pos rfl, occSign_self hχ, one_mul]
    simp only [holes_one]
    generalize s i = x
    fin_cases x <;> simp
  · rw [if_neg h, if_neg h, if_neg fun h' => h (holes.injective h')]
    simp

theorem ph_mul {χ : Fin n → ℤ} (hχ : ∀ i, χ i * χ i = 1) (A B : Op n 2) :
    (phOp χ)ᴴ * (A * B) * phOp χ = ((phOp χ)ᴴ * A * phOp χ) * ((phOp χ)ᴴ * B * phOp χ) := by
  have h : phOp χ * (phOp χ)ᴴ = 1 := mul_eq_one_comm.1 (phOp_unitary hχ)
  calc _ = (phOp χ)ᴴ * A * (1 : Op n 2) * (B * phOp χ) := by simp only [Matrix.mul_assoc, Matrix.one_mul]
    _ = _ := by rw [← h]; simp only [Matrix.mul_assoc]

/-! ## The model -/

variable {a b : ℕ}

/-- The signs of the modes that give the sign `σ i` to site `i`. -/
def modeSign (σ : Fin a → ℤ) (k : Fin (a * b)) : ℤ :=
  σ ⟨k % a, Nat.mod_lt _ (Nat.pos_of_ne_zero fun h => by have := k.2; simp [h] at this)⟩ * (-1) ^ (a * b - 1 - (k : ℕ))

theorem modeSign_sq {σ : Fin a → ℤ} (hσ : ∀ i, σ i * σ i = 1) (k : Fin (a * b)) : modeSign σ k * modeSign σ k = 1 := by
  unfold modeSign
  rw [mul_mul_mul_comm, hσ, ← mul_pow]
  simp

theorem modeSign_mode (σ : Fin a → ℤ) (i : Fin a) (s : Fin b) :
    ((modeSign σ (mode i s) : ℤ) : ℂ) * (-1) ^ (a * b - 1 - ((mode i s : Fin (a * b)) : ℕ)) = σ i := by
  unfold modeSign
  have : (⟨((mode i s : Fin (a * b)) : ℕ) % a, Nat.mod_lt _ (Nat.pos_of_ne_zero fun h => by have := i.2; omega)⟩ : Fin a) = i := by
    apply Fin.ext
    simp [mode, Nat.mod_eq_of_lt i.2]
  rw [this]
  push_cast
  rw [mul_assoc, ← mul_pow]
  simp

/-- The operator after the exchange of particles and holes. -/
noncomputable def phConj (σ : Fin a → ℤ) (A : Op (a * b) 2) : Op (a * b) 2 := (phOp (modeSign σ))ᴴ * A * phOp (modeSign σ)

theorem phConj_add (σ : Fin a → ℤ) (A B : Op (a * b) 2) : phConj σ (A + B) = phConj σ A + phConj σ B := by
  simp [phConj, Matrix.mul_add, Matrix.add_mul]

theorem phConj_smul (σ : Fin a → ℤ) (c : ℂ) (A : Op (a * b) 2) : phConj σ (c • A) = c • phConj σ A := by
  simp [phConj]

theorem phConj_neg (σ : Fin a → ℤ) (A : Op (a * b) 2) : phConj σ (-A) = -phConj σ A := by
  simp [phConj]

theorem phConj_zero (σ : Fin a → ℤ) : phConj σ (0 : Op (a * b) 2) = 0 := by
  simp [phConj]

theorem phConj_sum {α : Type*} (σ : Fin a → ℤ) (t : Finset α) (A : α → Op (a * b) 2) :
    phConj σ (∑ x ∈ t, A x) = ∑ x ∈ t, phConj σ (A x) := by
  simp only [phConj, Matrix.mul_sum, Matrix.sum_mul]

theorem phConj_number {σ : Fin a → ℤ} (hσ : ∀ i, σ i * σ i = 1) (k : Fin (a * b)) : phConj σ (number k) = 1 - number k :=
  ph_number (modeSign_sq hσ) k

theorem phConj_mul {σ : Fin a → ℤ} (hσ : ∀ i, σ i * σ i = 1) (A B : Op (a * b) 2) :
    phConj σ (A * B) = phConj σ A * phConj σ B := ph_mul (modeSign_sq hσ) A B

theorem phConj_hop {σ : Fin a → ℤ} (hσ : ∀ i, σ i * σ i = 1) {i j : Fin a} (hij : i ≠ j) (s : Fin b) :
    phConj σ (create (mode i s) * annih (mode j s)) = -((σ i * σ j : ℤ) : ℂ) • (create (mode j s) * annih (mode i s)) := by
  rw [phConj_mul hσ, phConj, phConj, ph_create (modeSign_sq hσ), ph_annih (modeSign_sq hσ), modeSign_mode, modeSign_mode]
  have := car1 (mode i s : Fin (a * b)) (mode j s)
  rw [if_neg (fun h => hij (Fin.ext (by have := congrArg Fin.val h; simpa [mode] using this)))] at this
  rw [Matrix.smul_mul, Matrix.mul_smul, smul_smul, eq_neg_of_add_eq_zero_left this]
  push_cast
  rw [smul_neg, neg_smul]

theorem phConj_hubHop {σ : Fin a → ℤ} (hσ : ∀ i, σ i * σ i = 1) {T : Fin a → Fin a → Fin b → ℂ}
    (hT : ∀ i j s, j < i → T i j s = 0 ∨ σ i * σ j = -1) : phConj σ (hubHop T) = hubHop T := by
  unfold hubHop
  simp only [phConj_sum]
  refine Finset.sum_congr rfl fun i _ => Finset.sum_congr rfl fun j _ => Finset.sum_congr rfl fun s _ => ?_
  split_ifs with h
  · rw [phConj_neg, phConj_smul, phConj_add, phConj_hop hσ h.ne', phConj_hop hσ h.ne]
    rcases hT i j s h with h0 | h0
    · simp [h0]
    · rw [mul_comm (σ j), h0, add_comm]
      simp
  · exact phConj_zero σ

theorem phConj_hubPot {σ : Fin a → ℤ} (hσ : ∀ i, σ i * σ i = 1) (V : Fin a → Fin b → ℂ) :
    phConj σ (hubPot V) = hubPot (fun i s => -V i s) + (∑ i, ∑ s, V i s) • 1 := by
  unfold hubPot
  simp only [phConj_sum, phConj_smul, phConj_number hσ, Finset.sum_smul, ← Finset.sum_add_distrib]
  refine Finset.sum_congr rfl fun i _ => Finset.sum_congr rfl fun s _ => ?_
  rw [smul_sub, neg_smul]
  abel

theorem phConj_prod {σ : Fin a → ℤ} (hσ : ∀ i, σ i * σ i = 1) (k l : Fin (a * b)) :
    phConj σ (number k * number l) = number k * number l - number k - number l + 1 := by
  rw [phConj_mul hσ, phConj_number hσ, phConj_number hσ]
  noncomm_ring

theorem phConj_hubInter {σ : Fin a → ℤ} (hσ : ∀ i, σ i * σ i = 1) (U : Fin a → ℂ) :
    phConj σ (hubInter U : Op (a * b) 2) = hubInter U + hubPot (fun i (s : Fin b) => -if 2 ≤ b ∧ (s : ℕ) < 2 then U i else 0) +
      (if 2 ≤ b then ∑ i, U i else 0) • 1 := by
  unfold hubInter
  split_ifs with h
  · simp only [phConj_sum, phConj_smul, phConj_prod hσ]
    obtain ⟨k, rfl⟩ : ∃ k, b = k + 2 := ⟨b - 2, by omega⟩
    unfold hubPot
    simp only [Fin.sum_univ_succ, Finset.sum_smul, ← Finset.sum_add_distrib]
    refine Finset.sum_congr rfl fun i _ => ?_
    rw [Finset.sum_eq_zero]
    · simp only [h, Fin.val_zero, Fin.val_succ, Nat.zero_lt_two, and_self, if_true, zero_add, Nat.one_lt_two, add_zero]
      rw [smul_add, smul_sub, smul_sub, neg_smul, neg_smul]
      rw [show (⟨0, by omega⟩ : Fin (k + 2)) = 0 from rfl, show (⟨1, by omega⟩ : Fin (k + 2)) = Fin.succ 0 from rfl]
      abel
    · intro s _
      simp
  · rw [phConj_zero]
    simp [hubPot, h]

theorem phConj_hubSame {σ : Fin a → ℤ} (hσ : ∀ i, σ i * σ i = 1) (W : Fin a → Fin a → Fin b → ℂ) :
    phConj σ (hubSame W : Op (a * b) 2) = hubSame W +
      hubPot (fun i s => -((∑ j, if j ≤ i then W i j s else 0) + ∑ j, if i ≤ j then W j i s else 0)) +
      (∑ i, ∑ j, ∑ s, if j ≤ i then W i j s else 0) • 1 := by
  have e1 : phConj σ (hubSame W : Op (a * b) 2) = hubSame W -
      (∑ i, ∑ j, ∑ s, if j ≤ i then W i j s • number (mode i s) else 0) -
      (∑ i, ∑ j, ∑ s, if j ≤ i then W i j s • number (mode j s) else 0) +
      (∑ i, ∑ j, ∑ s, if j ≤ i then W i j s else 0) • 1 := by
    unfold hubSame
    simp only [phConj_sum, Finset.sum_smul, ← Finset.sum_sub_distrib, ← Finset.sum_add_distrib]
    refine Finset.sum_congr rfl fun i _ => Finset.sum_congr rfl fun j _ => Finset.sum_congr rfl fun s _ => ?_
    split_ifs
    · rw [phConj_smul, phConj_prod hσ, smul_add, smul_sub, smul_sub]
    · simp [phConj_zero]
  rw [e1, Finset.sum_comm (f := fun i j => ∑ s, if j ≤ i then W i j s • number (mode j s) else 0)]
  unfold hubPot
  simp only [neg_smul, add_smul, Finset.sum_neg_distrib, Finset.sum_add_distrib, Finset.sum_smul, ite_smul, zero_smul]
  simp only [fun i : Fin a => Finset.sum_comm (s := (Finset.univ : Finset (Fin a))) (t := (Finset.univ : Finset (Fin b)))
    (f := fun j s => if j ≤ i then W i j s • (number (mode i s) : Op (a * b) 2) else 0),
    fun i : Fin a => Finset.sum_comm (s := (Finset.univ : Finset (Fin a))) (t := (Finset.univ : Finset (Fin b)))
    (f := fun j s => if i ≤ j then W j i s • (number (mode i s) : Op (a * b) 2) else 0)]
  abel

end ED
