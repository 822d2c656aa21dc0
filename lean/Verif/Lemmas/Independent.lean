import Verif.Lemmas.Atomic
import Verif.Lemmas.NumberSectors
import Verif.Props.ParticleHole
import Mathlib.LinearAlgebra.Matrix.Kronecker

/-! # Systems of two independent parts -/

namespace ED

open Matrix Kronecker

section

variable {κ κ' : Type*} [Fintype κ] [Nonempty κ] [Fintype κ'] [Nonempty κ']

theorem levelsZ_prod (T : ℝ) (E : κ → ℝ) (E' : κ' → ℝ) :
    levelsZ T (fun p : κ × κ' => E p.1 + E' p.2) = levelsZ T E * levelsZ T E' := by
  unfold levelsZ
  rw [Fintype.sum_prod_type, Finset.sum_mul_sum]
  refine Finset.sum_congr rfl fun k _ => Finset.sum_congr rfl fun l _ => ?_
  rw [← Real.exp_add]
  congr 1
  ring

theorem canonical_prod_ne {T : ℝ} (hT : T ≠ 0) (E f : κ → ℝ) (E' g : κ' → ℝ) :
    canonical T (fun p : κ × κ' => E p.1 + E' p.2) (fun p => f p.1 * g p.2) = canonical T E f * canonical T E' g := by
  have h := levelsZ_prod T E E'
  unfold levelsZ at h
  rw [canonical_ne hT, canonical_ne hT, canonical_ne hT, h, div_mul_div_comm]
  congr 1
  rw [Fintype.sum_prod_type, Finset.sum_mul_sum]
  refine Finset.sum_congr rfl fun k _ => Finset.sum_congr rfl fun l _ => ?_
  rw [show -(E k + E' l) / T = -E k / T + -E' l / T by ring, Real.exp_add]
  ring

theorem energy_prod {T : ℝ} (hT : T ≠ 0) (E : κ → ℝ) (E' : κ' → ℝ) :
    canonical T (fun p : κ × κ' => E p.1 + E' p.2) (fun p => E p.1 + E' p.2) = canonical T E E + canonical T E' E' := by
  have h1 := canonical_prod_ne hT E E E' fun _ => 1
  have h2 := canonical_prod_ne hT E (fun _ => 1) E' E'
  rw [canonical_const hT, mul_one] at h1
  rw [canonical_const hT, one_mul] at h2
  simp only [mul_one, one_mul] at h1 h2
  rw [← h1, ← h2]
  unfold canonical
  rw [← add_div, ← Finset.sum_add_distrib]
  simp only [mul_add]

theorem levelsEntropy_prod {T : ℝ} (hT : T ≠ 0) (E : κ → ℝ) (E' : κ' → ℝ) :
    levelsEntropy T (fun p : κ × κ' => E p.1 + E' p.2) = levelsEntropy T E + levelsEntropy T E' := by
  rw [levelsEntropy_eq hT, levelsEntropy_eq hT, levelsEntropy_eq hT, levelsZ_prod, energy_prod hT,
    Real.log_mul (levelsZ_pos T _).ne' (levelsZ_pos T _).ne']
  ring

theorem levelsHeat_prod {T : ℝ} (hT : T ≠ 0) (E : κ → ℝ) (E' : κ' → ℝ) :
    levelsHeat T (fun p : κ × κ' => E p.1 + E' p.2) = levelsHeat T E + levelsHeat T E' := by
  have h1 := hasDerivAt_energy (fun p : κ × κ' => E p.1 + E' p.2) hT
  have h2 := (hasDerivAt_energy E hT).add (hasDerivAt_energy E' hT)
  refine h1.unique (h2.congr_of_eventuallyEq ?_)
  filter_upwards [isOpen_ne.mem_nhds hT] with T hT
  exact energy_prod hT E E'

end

theorem expect_col {ι κ : Type*} [Fintype ι] [Fintype κ] (O : Matrix ι ι ℂ) (V : Matrix ι κ ℂ) (k : κ) :
    expect O (colOf V k) = (Vᴴ * O * V) k k := by
  rw [Matrix.mul_assoc]
  unfold expect colOf
  simp only [Matrix.mul_apply, dotProduct, conjTranspose_apply, Pi.star_apply, mulVec]

theorem expect_im {ι κ : Type*} [Fintype ι] [Fintype κ] {O : Matrix ι ι ℂ} (hO : O.IsHermitian) (V : Matrix ι κ ℂ) (k : κ) :
    (expect O (colOf V k)).im = 0 := by
  rw [expect_col]
  have h : (Vᴴ * O * V).IsHermitian := by
    rw [IsHermitian, conjTranspose_mul, conjTranspose_mul, conjTranspose_conjTranspose, hO.eq, Matrix.mul_assoc]
  have := congrFun (congrFun h.eq k) k
  rw [conjTranspose_apply] at this
  exact Complex.conj_eq_iff_im.1 this

section

variable {ι α β : Type} [Fintype ι] [DecidableEq ι] [Fintype α] [DecidableEq α] [Fintype β] [DecidableEq β]

/-- `W` identifies the states of the whole with pairs of states of two parts, and the Hamiltonian is the sum of those of the
parts. -/
structure Splits (W : Matrix ι (α × β) ℂ) (H : Matrix ι ι ℂ) (H1 : Matrix α α ℂ) (H2 : Matrix β β ℂ) : Prop where
  left : Wᴴ * W = 1
  right : W * Wᴴ = 1
  sum : Wᴴ * H * W = H1 ⊗ₖ (1 : Matrix β β ℂ) + (1 : Matrix α α ℂ) ⊗ₖ H2

variable {W : Matrix ι (α × β) ℂ} {H : Matrix ι ι ℂ} {H1 : Matrix α α ℂ} {H2 : Matrix β β ℂ}

/-- The eigenstates of the whole. -/
theorem Splits.eig (h : Splits W H H1 H2) {κ κ' : Type*} [Fintype κ] [DecidableEq κ] [Fintype κ'] [DecidableEq κ']
    {V1 : Matrix α κ ℂ} {E1 : κ → ℝ} (a1 : V1ᴴ * V1 = 1) (a2 : V1 * V1ᴴ = 1) (a3 : H1 * V1 = V1 * diagonal fun k => (E1 k : ℂ))
    {V2 : Matrix β κ' ℂ} {E2 : κ' → ℝ} (b1 : V2ᴴ * V2 = 1) (b2 : V2 * V2ᴴ = 1) (b3 : H2 * V2 = V2 * diagonal fun k => (E2 k : ℂ)) :
    (W * (V1 ⊗ₖ V2))ᴴ * (W * (V1 ⊗ₖ V2)) = 1 ∧ W * (V1 ⊗ₖ V2) * (W * (V1 ⊗ₖ V2))ᴴ = 1 ∧
      H * (W * (V1 ⊗ₖ V2)) = W * (V1 ⊗ₖ V2) * diagonal fun p : κ × κ' => ((E1 p.1 + E2 p.2 : ℝ) : ℂ) := by
  refine ⟨?_, ?_, ?_⟩
  · rw [conjTranspose_mul, Matrix.mul_assoc, ← Matrix.mul_assoc Wᴴ, h.left, Matrix.one_mul, conjTranspose_kronecker, ← mul_kronecker_mul,
      a1, b1, one_kronecker_one]
  · rw [conjTranspose_mul, Matrix.mul_assoc, ← Matrix.mul_assoc (V1 ⊗ₖ V2), conjTranspose_kronecker, ← mul_kronecker_mul,
      a2, b2, one_kronecker_one, Matrix.one_mul, h.right]
  · have e : H * W = W * (H1 ⊗ₖ (1 : Matrix β β ℂ) + (1 : Matrix α α ℂ) ⊗ₖ H2) := by
      rw [← h.sum, ← Matrix.mul_assoc, ← Matrix.mul_assoc, h.right, Matrix.one_mul]
    have d : (diagonal fun p : κ × κ' => ((E1 p.1 + E2 p.2 : ℝ) : ℂ)) =
        (diagonal fun k => (E1 k : ℂ)) ⊗ₖ (1 : Matrix κ' κ' ℂ) + (1 : Matrix κ κ ℂ) ⊗ₖ diagonal fun k => (E2 k : ℂ) := by
      rw [← diagonal_one, ← diagonal_one, diagonal_kronecker_diagonal, diagonal_kronecker_diagonal, diagonal_add]
      congr 1
      funext p
      push_cast
      ring
    rw [← Matrix.mul_assoc, e, Matrix.mul_assoc, Matrix.mul_assoc, d]
    congr 1
    rw [Matrix.add_mul, Matrix.mul_add, ← mul_kronecker_mul, ← mul_kronecker_mul, ← mul_kronecker_mul, ← mul_kronecker_mul, a3, b3]
    simp only [Matrix.one_mul, Matrix.mul_one]

/-- Averages of products are products of averages. -/
theorem Splits.average (h : Splits W H H1 H2) {κ κ' κ'' : Type*} [Fintype κ] [DecidableEq κ] [Nonempty κ] [Fintype κ'] [DecidableEq κ']
    [Nonempty κ'] [Fintype κ''] [DecidableEq κ''] [Nonempty κ'']
    {V1 : Matrix α κ ℂ} {E1 : κ → ℝ} (a1 : V1ᴴ * V1 = 1) (a2 : V1 * V1ᴴ = 1) (a3 : H1 * V1 = V1 * diagonal fun k => (E1 k : ℂ))
    {V2 : Matrix β κ' ℂ} {E2 : κ' → ℝ} (b1 : V2ᴴ * V2 = 1) (b2 : V2 * V2ᴴ = 1) (b3 : H2 * V2 = V2 * diagonal fun k => (E2 k : ℂ))
    {V : Matrix ι κ'' ℂ} {E : κ'' → ℝ} (c1 : Vᴴ * V = 1) (c2 : V * Vᴴ = 1) (c3 : H * V = V * diagonal fun k => (E k : ℂ))
    {O : Matrix ι ι ℂ} {A : Matrix α α ℂ} {B : Matrix β β ℂ} (hO : Wᴴ * O * W = A ⊗ₖ B) (hAB : A.IsHermitian ∨ B.IsHermitian) (T : ℝ) :
    canonical T E (fun k => (expect O (colOf V k)).re) =
      canonical T E1 (fun k => (expect A (colOf V1 k)).re) * canonical T E2 fun k => (expect B (colOf V2 k)).re := by
  have key : ∀ T ≠ 0, canonical T E (fun k => (expect O (colOf V k)).re) =
      canonical T E1 (fun k => (expect A (colOf V1 k)).re) * canonical T E2 fun k => (expect B (colOf V2 k)).re := by
    intro T hT
    obtain ⟨d1, d2, d3⟩ := h.eig a1 a2 a3 b1 b2 b3
    rw [← thermalAvg_eig c1 c2 c3 _ hT, thermalAvg_eig d1 d2 d3 _ hT, ← canonical_prod_ne hT]
    congr 1
    funext p
    have e : expect O (colOf (W * (V1 ⊗ₖ V2)) p) = expect A (colOf V1 p.1) * expect B (colOf V2 p.2) := by
      have e1 : (W * (V1 ⊗ₖ V2))ᴴ * O * (W * (V1 ⊗ₖ V2)) = (V1ᴴ * A * V1) ⊗ₖ (V2ᴴ * B * V2) := by
        rw [mul_kronecker_mul, mul_kronecker_mul, ← hO, conjTranspose_mul, conjTranspose_kronecker]
        simp only [Matrix.mul_assoc]
      rw [expect_col, expect_col, expect_col, e1]
      rfl
    rw [e, Complex.mul_re]
    rcases hAB with hA | hB
    · rw [expect_im hA, zero_mul, sub_zero]
    · rw [expect_im hB, mul_zero, sub_zero]
  by_cases hT : T = 0
  · subst hT
    refine tendsto_nhds_unique_of_eventuallyEq (Props.canonical_limit E _) ((Props.canonical_limit E1 _).mul (Props.canonical_limit E2 _)) ?_
    filter_upwards [self_mem_nhdsWithin] with T hT
    exact key T (ne_of_gt hT)
  · exact key T hT

/-- The energies of the whole are the sums of those of the parts. -/
theorem Splits.energies (h : Splits W H H1 H2) {k l m : ℕ}
    {V1 : Matrix α (Fin k) ℂ} {E1 : Fin k → ℝ} (a1 : V1ᴴ * V1 = 1) (a2 : V1 * V1ᴴ = 1) (a3 : H1 * V1 = V1 * diagonal fun k => (E1 k : ℂ))
    {V2 : Matrix β (Fin l) ℂ} {E2 : Fin l → ℝ} (b1 : V2ᴴ * V2 = 1) (b2 : V2 * V2ᴴ = 1) (b3 : H2 * V2 = V2 * diagonal fun k => (E2 k : ℂ))
    {V : Matrix ι (Fin m) ℂ} {E : Fin m → ℝ} (c1 : Vᴴ * V = 1) (c2 : V * Vᴴ = 1) (c3 : H * V = V * diagonal fun k => (E k : ℂ)) :
    (Finset.univ.val.map E : Multiset ℝ) = Finset.univ.val.map fun p : Fin k × Fin l => E1 p.1 + E2 p.2 := by
  obtain ⟨d1, d2, d3⟩ := h.eig a1 a2 a3 b1 b2 b3
  have e := (roots_of_eig c1 c2 c3).symm.trans (roots_of_eig d1 d2 d3)
  have e3 := congrArg (Multiset.map Complex.re) e
  simpa only [Multiset.map_map, Function.comp_def, Complex.ofReal_re] using e3

end

/-! ### States of the whole and of the parts -/

section

variable {n m N b : ℕ} (e : Fin n ⊕ Fin m ≃ Fin N)

/-- The state of the whole with given states of the parts. -/
def joinConf (p : Conf n b × Conf m b) : Conf N b := fun k => Sum.elim p.1 p.2 (e.symm k)

@[simp] theorem joinConf_inl (p : Conf n b × Conf m b) (x : Fin n) : joinConf e p (e (.inl x)) = p.1 x := by simp [joinConf]

@[simp] theorem joinConf_inr (p : Conf n b × Conf m b) (y : Fin m) : joinConf e p (e (.inr y)) = p.2 y := by simp [joinConf]

theorem joinConf_surj (t : Conf N b) : ∃ p, joinConf e p = t := by
  refine ⟨(fun x => t (e (.inl x)), fun y => t (e (.inr y))), funext fun k => ?_⟩
  obtain ⟨z, rfl⟩ := e.surjective k
  rcases z with x | y <;> simp

theorem joinConf_inj {p q : Conf n b × Conf m b} (h : joinConf e p = joinConf e q) : p = q := by
  refine Prod.ext (funext fun x => ?_) (funext fun y => ?_)
  · have := congrFun h (e (.inl x)); simpa using this
  · have := congrFun h (e (.inr y)); simpa using this

theorem agree_inl (p q : Conf n b × Conf m b) (x : Fin n) :
    AgreeOff (e (.inl x)) (joinConf e p) (joinConf e q) ↔ AgreeOff x p.1 q.1 ∧ p.2 = q.2 := by
  refine ⟨fun h => ⟨fun x' hx => ?_, funext fun y => ?_⟩, fun h k hk => ?_⟩
  · simpa using h (e (.inl x')) (by simpa using hx)
  · simpa using h (e (.inr y)) (by simp)
  · obtain ⟨z, rfl⟩ := e.surjective k
    rcases z with x' | y
    · simpa using h.1 x' (by simpa using hk)
    · simp [h.2]

theorem agree_inr (p q : Conf n b × Conf m b) (y : Fin m) :
    AgreeOff (e (.inr y)) (joinConf e p) (joinConf e q) ↔ p.1 = q.1 ∧ AgreeOff y p.2 q.2 := by
  refine ⟨fun h => ⟨funext fun x => ?_, fun y' hy => ?_⟩, fun h k hk => ?_⟩
  · simpa using h (e (.inl x)) (by simp)
  · simpa using h (e (.inr y')) (by simpa using hy)
  · obtain ⟨z, rfl⟩ := e.surjective k
    rcases z with x | y'
    · simp [h.1]
    · simpa using h.2 y' (by simpa using hk)

/-- The states of the whole in terms of pairs of states, with signs. -/
def joinMat (ε : Conf n b × Conf m b → ℤˣ) : Matrix (Conf N b) (Conf n b × Conf m b) ℂ :=
  Matrix.of fun t p => if t = joinConf e p then ((ε p : ℤ) : ℂ) else 0

theorem joinMat_conj (ε : Conf n b × Conf m b → ℤˣ) (X : Op N b) (p q : Conf n b × Conf m b) :
    ((joinMat e ε)ᴴ * X * joinMat e ε) p q = ((ε p * ε q : ℤˣ) : ℤ) * X (joinConf e p) (joinConf e q) := by
  rw [mul_apply, Finset.sum_eq_single (joinConf e q)]
  · rw [mul_apply, Finset.sum_eq_single (joinConf e p)]
    · simp [joinMat]
      ring
    · intro t _ ht
      simp [joinMat, ht]
    · simp
  · intro t _ ht
    simp [joinMat, ht]
  · simp

theorem joinMat_left (ε : Conf n b × Conf m b → ℤˣ) : (joinMat e ε)ᴴ * joinMat e ε = 1 := by
  have : (joinMat e ε)ᴴ * joinMat e ε = (joinMat e ε)ᴴ * (1 : Op N b) * joinMat e ε := by rw [Matrix.mul_one]
  rw [this]
  ext p q
  rw [joinMat_conj, one_apply, one_apply]
  by_cases h : p = q
  · subst h
    simp
  · rw [if_neg h, if_neg fun h' => h (joinConf_inj e h'), mul_zero]

theorem joinMat_right (ε : Conf n b × Conf m b → ℤˣ) : joinMat e ε * (joinMat e ε)ᴴ = 1 := by
  ext t t'
  obtain ⟨p, rfl⟩ := joinConf_surj e t
  obtain ⟨q, rfl⟩ := joinConf_surj e t'
  rw [mul_apply, Finset.sum_eq_single p, one_apply]
  · by_cases h : p = q
    · subst h
      simp only [joinMat, of_apply, conjTranspose_apply, if_true]
      rcases Int.units_eq_one_or (ε p) with h | h <;> simp [h]
    · have h' : joinConf e q ≠ joinConf e p := fun h' => h (joinConf_inj e h').symm
      rw [if_neg h'.symm]
      simp [joinMat, h']
  · intro r _ hr
    have h' : joinConf e p ≠ joinConf e r := fun h' => hr (joinConf_inj e h').symm
    simp [joinMat, h']
  · simp

/-! ### Signs of fermions -/

/-- Number of pairs of an occupied mode of the first part and a later occupied mode of the second part. -/
def crossings (p : Conf n 2 × Conf m 2) : ℕ := ∑ x, ∑ y, if e (.inl x) < e (.inr y) ∧ p.1 x = 1 ∧ p.2 y = 1 then 1 else 0

/-- The fermionic identification. -/
def joinFermi : Matrix (Conf N 2) (Conf n 2 × Conf m 2) ℂ := joinMat e fun p => (-1) ^ crossings e p

/-- The sign of the number of particles. -/
def paritySign (n : ℕ) : Op n 2 := diagonal fun s => (-1) ^ occ s

variable {e}

theorem crossings_inl {p q : Conf n 2 × Conf m 2} {x : Fin n} (h : AgreeOff x p.1 q.1) (h1 : p.1 x = 1) (h0 : q.1 x = 0) (h2 : p.2 = q.2) :
    crossings e p = crossings e q + ∑ y, if e (.inl x) < e (.inr y) ∧ p.2 y = 1 then 1 else 0 := by
  unfold crossings
  rw [← Finset.add_sum_erase _ _ (Finset.mem_univ x), ← Finset.add_sum_erase (a := x) Finset.univ (fun x => ∑ y, if e (.inl x) < e (.inr y) ∧ q.1 x = 1 ∧ q.2 y = 1 then 1 else 0) (Finset.mem_univ x)]
  have e1 : ∑ x' ∈ Finset.univ.erase x, ∑ y, (if e (.inl x') < e (.inr y) ∧ p.1 x' = 1 ∧ p.2 y = 1 then 1 else 0) =
      ∑ x' ∈ Finset.univ.erase x, ∑ y, (if e (.inl x') < e (.inr y) ∧ q.1 x' = 1 ∧ q.2 y = 1 then 1 else 0) :=
    Finset.sum_congr rfl fun x' hx' => by rw [h x' (Finset.ne_of_mem_erase hx'), h2]
  rw [e1]
  simp only [h1, h0, true_and, zero_ne_one, false_and, and_false, if_false, Finset.sum_const_zero, zero_add]
  omega

theorem crossings_inr {p q : Conf n 2 × Conf m 2} {y : Fin m} (h1 : p.1 = q.1) (h : AgreeOff y p.2 q.2) (h2 : p.2 y = 1) (h0 : q.2 y = 0) :
    crossings e p = crossings e q + ∑ x, if e (.inl x) < e (.inr y) ∧ p.1 x = 1 then 1 else 0 := by
  unfold crossings
  rw [← Finset.sum_add_distrib]
  refine Finset.sum_congr rfl fun x _ => ?_
  rw [← Finset.add_sum_erase _ _ (Finset.mem_univ y), ← Finset.add_sum_erase (a := y) Finset.univ (fun y => if e (.inl x) < e (.inr y) ∧ q.1 x = 1 ∧ q.2 y = 1 then 1 else 0) (Finset.mem_univ y)]
  have e1 : ∑ y' ∈ Finset.univ.erase y, (if e (.inl x) < e (.inr y') ∧ p.1 x = 1 ∧ p.2 y' = 1 then 1 else 0) =
      ∑ y' ∈ Finset.univ.erase y, (if e (.inl x) < e (.inr y') ∧ q.1 x = 1 ∧ q.2 y' = 1 then 1 else 0) :=
    Finset.sum_congr rfl fun y' hy' => by rw [h y' (Finset.ne_of_mem_erase hy'), h1]
  rw [e1]
  simp only [h2, h0, and_true, zero_ne_one, and_false, if_false, zero_add]
  omega

theorem card_split (P : Fin N → Prop) [DecidablePred P] :
    (Finset.univ.filter P).card = (∑ x : Fin n, if P (e (.inl x)) then 1 else 0) + ∑ y : Fin m, if P (e (.inr y)) then 1 else 0 := by
  rw [Finset.card_filter, ← e.sum_comp, Fintype.sum_sum_type]

theorem occAfter_inl (h : StrictMono fun x => e (.inl x)) (p : Conf n 2 × Conf m 2) (x : Fin n) :
    occAfter (e (.inl x)) (joinConf e p) = occAfter x p.1 + ∑ y, if e (.inl x) < e (.inr y) ∧ p.2 y = 1 then 1 else 0 := by
  unfold occAfter
  rw [card_split (e := e), Finset.card_filter]
  simp only [joinConf_inl, joinConf_inr]
  congr 1
  exact Finset.sum_congr rfl fun x' _ => if_congr (and_congr_left fun _ => h.lt_iff_lt) rfl rfl

theorem occAfter_inr (h : StrictMono fun y => e (.inr y)) (p : Conf n 2 × Conf m 2) (y : Fin m) :
    occAfter (e (.inr y)) (joinConf e p) + (∑ x, if e (.inl x) < e (.inr y) ∧ p.1 x = 1 then 1 else 0) = occ p.1 + occAfter y p.2 := by
  unfold occAfter occ
  rw [card_split (e := e), Finset.card_filter, Finset.card_filter]
  simp only [joinConf_inl, joinConf_inr]
  rw [add_right_comm, ← Finset.sum_add_distrib]
  congr 1
  · refine Finset.sum_congr rfl fun x _ => ?_
    have hne : e (.inl x) ≠ e (.inr y) := by simp
    rcases lt_or_gt_of_ne hne with h | h
    · simp [h, h.le.not_gt, h.not_gt]
    · simp [h, h.not_gt]
  · exact Finset.sum_congr rfl fun x' _ => if_congr (and_congr_left fun _ => h.lt_iff_lt) rfl rfl

theorem units_pow (k : ℕ) : ((((-1 : ℤˣ) ^ k : ℤˣ) : ℤ) : ℂ) = (-1) ^ k := by push_cast; rfl

theorem fermi_create_inl (h : StrictMono fun x => e (.inl x)) (x : Fin n) :
    (joinFermi e)ᴴ * create (e (.inl x)) * joinFermi e = create x ⊗ₖ (1 : Op m 2) := by
  ext p q
  unfold joinFermi
  rw [joinMat_conj, kroneckerMap_apply, create, of_apply, create, of_apply, one_apply, ← pow_add, units_pow]
  simp only [agree_inl, joinConf_inl]
  by_cases h2 : p.2 = q.2
  · by_cases hc : AgreeOff x p.1 q.1 ∧ p.1 x = 1 ∧ q.1 x = 0
    · rw [if_pos ⟨⟨hc.1, h2⟩, hc.2⟩, if_pos hc, if_pos h2, mul_one, ← pow_add, crossings_inl hc.1 hc.2.1 hc.2.2 h2, occAfter_inl h]
      generalize (∑ y, if e (.inl x) < e (.inr y) ∧ p.2 y = 1 then 1 else 0) = c
      rw [show crossings e q + c + crossings e q + (occAfter x p.1 + c) = 2 * (crossings e q + c) + occAfter x p.1 by ring, pow_add, pow_mul]
      simp
    · rw [if_neg hc, if_neg fun h => hc ⟨h.1.1, h.2⟩, mul_zero, zero_mul]
  · rw [if_neg h2, if_neg fun h => h2 h.1.2, mul_zero, mul_zero]

theorem fermi_create_inr (h : StrictMono fun y => e (.inr y)) (y : Fin m) :
    (joinFermi e)ᴴ * create (e (.inr y)) * joinFermi e = paritySign n ⊗ₖ create y := by
  ext p q
  unfold joinFermi
  rw [joinMat_conj, kroneckerMap_apply, create, of_apply, create, of_apply, paritySign, diagonal_apply, ← pow_add, units_pow]
  simp only [agree_inr, joinConf_inr]
  by_cases h1 : p.1 = q.1
  · by_cases hc : AgreeOff y p.2 q.2 ∧ p.2 y = 1 ∧ q.2 y = 0
    · rw [if_pos ⟨⟨h1, hc.1⟩, hc.2⟩, if_pos hc, if_pos h1, ← pow_add, ← pow_add, crossings_inr h1 hc.1 hc.2.1 hc.2.2, ← occAfter_inr h]
      generalize (∑ x, if e (.inl x) < e (.inr y) ∧ p.1 x = 1 then 1 else 0) = c
      rw [show crossings e q + c + crossings e q + occAfter (e (.inr y)) (joinConf e p) =
        2 * crossings e q + (occAfter (e (.inr y)) (joinConf e p) + c) by ring, pow_add, pow_mul]
      simp
    · rw [if_neg hc, if_neg fun h => hc ⟨h.1.2, h.2⟩, mul_zero, mul_zero]
  · rw [if_neg h1, if_neg fun h => h1 h.1.1, mul_zero, zero_mul]

theorem paritySign_sq : paritySign n * paritySign n = 1 := by
  unfold paritySign
  rw [diagonal_mul_diagonal, ← diagonal_one]
  congr 1
  funext s
  rw [← pow_add, ← two_mul, pow_mul]
  simp

theorem paritySign_star : (paritySign n)ᴴ = paritySign n := by
  unfold paritySign
  rw [diagonal_conjTranspose]
  congr 1
  funext s
  simp

/-! ### Operators of the parts -/

variable {W : Matrix (Conf N b) (Conf n b × Conf m b) ℂ}

theorem joined_mul (hW : W * Wᴴ = 1) (X Y : Op N b) : Wᴴ * (X * Y) * W = Wᴴ * X * W * (Wᴴ * Y * W) := by
  calc _ = Wᴴ * X * (1 : Op N b) * Y * W := by rw [Matrix.mul_one]; simp only [Matrix.mul_assoc]
    _ = _ := by rw [← hW]; simp only [Matrix.mul_assoc]

theorem conj_star (X : Op N b) : Wᴴ * Xᴴ * W = (Wᴴ * X * W)ᴴ := by
  rw [conjTranspose_mul, conjTranspose_mul, conjTranspose_conjTranspose, Matrix.mul_assoc]

theorem kron_sum_left {ι : Type*} (s : Finset ι) (f : ι → Op n b) : (∑ i ∈ s, f i) ⊗ₖ (1 : Op m b) = ∑ i ∈ s, f i ⊗ₖ (1 : Op m b) := by
  ext p q
  simp [kroneckerMap_apply, Matrix.sum_apply, Finset.sum_mul]

theorem kron_sum_right {ι : Type*} (s : Finset ι) (f : ι → Op m b) : (1 : Op n b) ⊗ₖ (∑ i ∈ s, f i) = ∑ i ∈ s, (1 : Op n b) ⊗ₖ f i := by
  ext p q
  simp [kroneckerMap_apply, Matrix.sum_apply, Finset.mul_sum]

/-- `X` is the sum of an operator of the first part and one of the second. -/
def SumOf (W : Matrix (Conf N b) (Conf n b × Conf m b) ℂ) (X : Op N b) (X1 : Op n b) (X2 : Op m b) : Prop :=
  Wᴴ * X * W = X1 ⊗ₖ (1 : Op m b) + (1 : Op n b) ⊗ₖ X2

theorem SumOf.zero : SumOf W 0 0 0 := by
  unfold SumOf
  rw [Matrix.mul_zero, Matrix.zero_mul, zero_kronecker, kronecker_zero, add_zero]

theorem SumOf.add {X Y : Op N b} {X1 Y1 : Op n b} {X2 Y2 : Op m b} (h : SumOf W X X1 X2) (h' : SumOf W Y Y1 Y2) :
    SumOf W (X + Y) (X1 + Y1) (X2 + Y2) := by
  unfold SumOf at *
  rw [Matrix.mul_add, Matrix.add_mul, h, h', add_kronecker, kronecker_add]
  abel

theorem SumOf.smul {X : Op N b} {X1 : Op n b} {X2 : Op m b} (h : SumOf W X X1 X2) (z : ℂ) : SumOf W (z • X) (z • X1) (z • X2) := by
  unfold SumOf at *
  rw [Matrix.mul_smul, Matrix.smul_mul, h, smul_add, smul_kronecker, kronecker_smul]

theorem SumOf.sum {ι : Type*} (s : Finset ι) {X : ι → Op N b} {X1 : ι → Op n b} {X2 : ι → Op m b} (h : ∀ i, SumOf W (X i) (X1 i) (X2 i)) :
    SumOf W (∑ i ∈ s, X i) (∑ i ∈ s, X1 i) (∑ i ∈ s, X2 i) := by
  classical
  induction s using Finset.induction_on with
  | empty => simpa using SumOf.zero
  | insert i s hi ih =>
    rw [Finset.sum_insert hi, Finset.sum_insert hi, Finset.sum_insert hi]
    exact (h i).add ih

theorem SumOf.left {X : Op N b} {X1 : Op n b} (h : Wᴴ * X * W = X1 ⊗ₖ (1 : Op m b)) : SumOf W X X1 0 := by
  unfold SumOf
  rw [h, kronecker_zero, add_zero]

theorem SumOf.right {X : Op N b} {X2 : Op m b} (h : Wᴴ * X * W = (1 : Op n b) ⊗ₖ X2) : SumOf W X 0 X2 := by
  unfold SumOf
  rw [h, zero_kronecker, zero_add]

variable {n' m' N' : ℕ} {σ : Fin n' ⊕ Fin m' ≃ Fin N'}

/-- Terms of one site. -/
theorem SumOf.sites {X : Fin N' → Op N b} {X1 : Fin n' → Op n b} {X2 : Fin m' → Op m b} (h1 : ∀ i, SumOf W (X (σ (.inl i))) (X1 i) 0)
    (h2 : ∀ j, SumOf W (X (σ (.inr j))) 0 (X2 j)) : SumOf W (∑ k, X k) (∑ i, X1 i) (∑ j, X2 j) := by
  rw [← σ.sum_comp, Fintype.sum_sum_type]
  have := (SumOf.sum Finset.univ h1).add (SumOf.sum Finset.univ h2)
  simpa using this

/-- Terms of two sites. -/
theorem SumOf.pairs {X : Fin N' → Fin N' → Op N b} {X1 : Fin n' → Fin n' → Op n b} {X2 : Fin m' → Fin m' → Op m b}
    (h1 : ∀ i i', SumOf W (X (σ (.inl i)) (σ (.inl i'))) (X1 i i') 0) (h2 : ∀ j j', SumOf W (X (σ (.inr j)) (σ (.inr j'))) 0 (X2 j j'))
    (h3 : ∀ i j, X (σ (.inl i)) (σ (.inr j)) = 0) (h4 : ∀ i j, X (σ (.inr j)) (σ (.inl i)) = 0) :
    SumOf W (∑ k, ∑ l, X k l) (∑ i, ∑ i', X1 i i') (∑ j, ∑ j', X2 j j') := by
  refine SumOf.sites (σ := σ) (fun i => ?_) fun j => ?_
  · rw [← σ.sum_comp, Fintype.sum_sum_type]
    have := SumOf.sum Finset.univ (h1 i)
    simpa [h3] using this
  · rw [← σ.sum_comp, Fintype.sum_sum_type]
    have := SumOf.sum Finset.univ (h2 j)
    simpa [h4] using this

end

/-! ### Fermions -/

section

variable {n m N b : ℕ} {σ : Fin n ⊕ Fin m ≃ Fin N}

/-- The modes of the parts. -/
noncomputable def partModes (σ : Fin n ⊕ Fin m ≃ Fin N) (b : ℕ) : Fin (n * b) ⊕ Fin (m * b) ≃ Fin (N * b) :=
  (Equiv.sumCongr (modeEquiv n b).symm (modeEquiv m b).symm).trans
    ((Equiv.prodSumDistrib _ _ _).symm.trans ((Equiv.prodCongr (Equiv.refl _) σ).trans (modeEquiv N b)))

theorem partModes_inl (i : Fin n) (s : Fin b) : partModes σ b (.inl (mode i s)) = mode (σ (.inl i)) s := by
  simp [partModes, modeEquiv_symm]
  rfl

theorem partModes_inr (i : Fin m) (s : Fin b) : partModes σ b (.inr (mode i s)) = mode (σ (.inr i)) s := by
  simp [partModes, modeEquiv_symm]
  rfl

theorem mode_lt_iff {N : ℕ} (i j : Fin N) (s s' : Fin b) : mode i s < mode j s' ↔ s < s' ∨ s = s' ∧ i < j := by
  rw [Fin.lt_def, Fin.lt_def, Fin.lt_def, Fin.ext_iff]
  change N * s + i < N * s' + j ↔ _
  have hi := i.2
  have hj := j.2
  rcases lt_trichotomy (s : ℕ) s' with h | h | h
  · have : N * (s + 1) ≤ N * s' := Nat.mul_le_mul_left _ h
    rw [Nat.mul_add] at this
    simp only [h, true_or, iff_true]
    omega
  · rw [h]
    simp
  · have : N * (s' + 1) ≤ N * s := Nat.mul_le_mul_left _ h
    rw [Nat.mul_add] at this
    simp only [h.not_gt, h.ne', false_and, or_false, iff_false]
    omega

theorem partModes_mono_inl (h : StrictMono fun i => σ (.inl i)) : StrictMono fun x => partModes σ b (.inl x) := by
  intro x y hxy
  obtain ⟨i, s, rfl⟩ := mode_surj x
  obtain ⟨j, s', rfl⟩ := mode_surj y
  beta_reduce
  rw [partModes_inl, partModes_inl, mode_lt_iff]
  exact ((mode_lt_iff _ _ _ _).1 hxy).imp id fun h' => ⟨h'.1, h h'.2⟩

theorem partModes_mono_inr (h : StrictMono fun i => σ (.inr i)) : StrictMono fun x => partModes σ b (.inr x) := by
  intro x y hxy
  obtain ⟨i, s, rfl⟩ := mode_surj x
  obtain ⟨j, s', rfl⟩ := mode_surj y
  beta_reduce
  rw [partModes_inr, partModes_inr, mode_lt_iff]
  exact ((mode_lt_iff _ _ _ _).1 hxy).imp id fun h' => ⟨h'.1, h h'.2⟩

theorem fermi_number_inl {e : Fin n ⊕ Fin m ≃ Fin N} (x : Fin n) :
    (joinFermi e)ᴴ * number (e (.inl x)) * joinFermi e = number x ⊗ₖ (1 : Op m 2) := by
  ext p q
  unfold joinFermi
  rw [joinMat_conj, kroneckerMap_apply, number, number, diagonal_apply, diagonal_apply, one_apply, joinConf_inl]
  by_cases h : p = q
  · subst h
    simp
  · rw [if_neg fun h' => h (joinConf_inj e h'), mul_zero]
    by_cases h1 : p.1 = q.1
    · rw [if_neg (fun h2 => h (Prod.ext h1 h2)), mul_zero]
    · rw [if_neg h1, zero_mul]

theorem fermi_number_inr {e : Fin n ⊕ Fin m ≃ Fin N} (x : Fin m) :
    (joinFermi e)ᴴ * number (e (.inr x)) * joinFermi e = (1 : Op n 2) ⊗ₖ number x := by
  ext p q
  unfold joinFermi
  rw [joinMat_conj, kroneckerMap_apply, number, number, diagonal_apply, diagonal_apply, one_apply, joinConf_inr]
  by_cases h : p = q
  · subst h
    simp
  · rw [if_neg fun h' => h (joinConf_inj e h'), mul_zero]
    by_cases h1 : p.2 = q.2
    · rw [if_neg (fun h2 => h (Prod.ext h2 h1)), zero_mul]
    · rw [if_neg h1, mul_zero]

variable (h1 : StrictMono fun i => σ (.inl i)) (h2 : StrictMono fun i => σ (.inr i))

theorem joinFermi_right {e : Fin n ⊕ Fin m ≃ Fin N} : joinFermi e * (joinFermi e)ᴴ = 1 := joinMat_right e _

include h1 in
theorem fermi_hop_inl (i j : Fin n) (s : Fin b) :
    (joinFermi (partModes σ b))ᴴ * (create (mode (σ (.inl i)) s) * annih (mode (σ (.inl j)) s)) * joinFermi (partModes σ b) =
      (create (mode i s) * annih (mode j s)) ⊗ₖ (1 : Op (m * b) 2) := by
  unfold annih
  rw [joined_mul joinFermi_right, conj_star, ← partModes_inl, ← partModes_inl, fermi_create_inl (partModes_mono_inl h1),
    fermi_create_inl (partModes_mono_inl h1), conjTranspose_kronecker, ← mul_kronecker_mul, conjTranspose_one, Matrix.one_mul]

include h2 in
theorem fermi_hop_inr (i j : Fin m) (s : Fin b) :
    (joinFermi (partModes σ b))ᴴ * (create (mode (σ (.inr i)) s) * annih (mode (σ (.inr j)) s)) * joinFermi (partModes σ b) =
      (1 : Op (n * b) 2) ⊗ₖ (create (mode i s) * annih (mode j s)) := by
  unfold annih
  rw [joined_mul joinFermi_right, conj_star, ← partModes_inr, ← partModes_inr, fermi_create_inr (partModes_mono_inr h2),
    fermi_create_inr (partModes_mono_inr h2), conjTranspose_kronecker, ← mul_kronecker_mul, paritySign_star, paritySign_sq]

theorem fermi_two_inl (i j : Fin n) (s s' : Fin b) :
    (joinFermi (partModes σ b))ᴴ * (number (mode (σ (.inl i)) s) * number (mode (σ (.inl j)) s')) * joinFermi (partModes σ b) =
      (number (mode i s) * number (mode j s')) ⊗ₖ (1 : Op (m * b) 2) := by
  rw [joined_mul joinFermi_right, ← partModes_inl, ← partModes_inl, fermi_number_inl, fermi_number_inl, ← mul_kronecker_mul, Matrix.one_mul]

theorem fermi_two_inr (i j : Fin m) (s s' : Fin b) :
    (joinFermi (partModes σ b))ᴴ * (number (mode (σ (.inr i)) s) * number (mode (σ (.inr j)) s')) * joinFermi (partModes σ b) =
      (1 : Op (n * b) 2) ⊗ₖ (number (mode i s) * number (mode j s')) := by
  rw [joined_mul joinFermi_right, ← partModes_inr, ← partModes_inr, fermi_number_inr, fermi_number_inr, ← mul_kronecker_mul, Matrix.one_mul]

theorem fermi_two_cross (i : Fin n) (j : Fin m) (s s' : Fin b) :
    (joinFermi (partModes σ b))ᴴ * (number (mode (σ (.inl i)) s) * number (mode (σ (.inr j)) s')) * joinFermi (partModes σ b) =
      number (mode i s) ⊗ₖ number (mode j s') := by
  rw [joined_mul joinFermi_right, ← partModes_inl, ← partModes_inr, fermi_number_inl, fermi_number_inr, ← mul_kronecker_mul, Matrix.one_mul,
    Matrix.mul_one]

theorem hubInter_split (U : Fin N → ℂ) : SumOf (joinFermi (partModes σ b)) (hubInter (nspecies := b) U) (hubInter fun i => U (σ (.inl i)))
    (hubInter fun j => U (σ (.inr j))) := by
  unfold hubInter
  split_ifs with h
  · exact SumOf.sites (σ := σ) (fun i => by simpa using (SumOf.left (fermi_two_inl i i _ _)).smul (U (σ (.inl i))))
      fun j => by simpa using (SumOf.right (fermi_two_inr j j _ _)).smul (U (σ (.inr j)))
  · exact SumOf.zero

include h1 h2 in
theorem hubSame_split (V : Fin N → Fin N → Fin b → ℂ) (h3 : ∀ i j s, σ (.inr j) < σ (.inl i) → V (σ (.inl i)) (σ (.inr j)) s = 0)
    (h4 : ∀ i j s, σ (.inl i) < σ (.inr j) → V (σ (.inr j)) (σ (.inl i)) s = 0) :
    SumOf (joinFermi (partModes σ b)) (hubSame V) (hubSame fun i j s => V (σ (.inl i)) (σ (.inl j)) s)
      (hubSame fun i j s => V (σ (.inr i)) (σ (.inr j)) s) := by
  unfold hubSame
  refine SumOf.pairs (σ := σ) (fun i i' => ?_) (fun j j' => ?_) (fun i j => ?_) fun i j => ?_
  · have := SumOf.sum (W := joinFermi (partModes σ b)) (Finset.univ : Finset (Fin b))
      (X := fun s => if σ (.inl i') ≤ σ (.inl i) then V (σ (.inl i)) (σ (.inl i')) s • (number (mode (σ (.inl i)) s) * number (mode (σ (.inl i')) s)) else 0)
      (X1 := fun s => if i' ≤ i then V (σ (.inl i)) (σ (.inl i')) s • (number (mode i s) * number (mode i' s)) else 0) (X2 := fun _ => 0) fun s => by
        beta_reduce
        rw [if_congr (h1.le_iff_le (a := i') (b := i)) rfl rfl]
        split_ifs
        · simpa using (SumOf.left (fermi_two_inl i i' s s)).smul (V (σ (.inl i)) (σ (.inl i')) s)
        · exact SumOf.zero
    simpa using this
  · have := SumOf.sum (W := joinFermi (partModes σ b)) (Finset.univ : Finset (Fin b))
      (X := fun s => if σ (.inr j') ≤ σ (.inr j) then V (σ (.inr j)) (σ (.inr j')) s • (number (mode (σ (.inr j)) s) * number (mode (σ (.inr j')) s)) else 0)
      (X2 := fun s => if j' ≤ j then V (σ (.inr j)) (σ (.inr j')) s • (number (mode j s) * number (mode j' s)) else 0) (X1 := fun _ => 0) fun s => by
        beta_reduce
        rw [if_congr (h2.le_iff_le (a := j') (b := j)) rfl rfl]
        split_ifs
        · simpa using (SumOf.right (fermi_two_inr j j' s s)).smul (V (σ (.inr j)) (σ (.inr j')) s)
        · exact SumOf.zero
    simpa using this
  · refine Finset.sum_eq_zero fun s _ => ?_
    split_ifs with h
    · rw [h3 i j s (lt_of_le_of_ne h (by simp)), zero_smul]
    · rfl
  · refine Finset.sum_eq_zero fun s _ => ?_
    split_ifs with h
    · rw [h4 i j s (lt_of_le_of_ne h (by simp)), zero_smul]
    · rfl

include h1 h2 in
theorem hubHop_split (V : Fin N → Fin N → Fin b → ℂ) (h3 : ∀ i j s, σ (.inr j) < σ (.inl i) → V (σ (.inl i)) (σ (.inr j)) s = 0)
    (h4 : ∀ i j s, σ (.inl i) < σ (.inr j) → V (σ (.inr j)) (σ (.inl i)) s = 0) :
    SumOf (joinFermi (partModes σ b)) (hubHop V) (hubHop fun i j s => V (σ (.inl i)) (σ (.inl j)) s)
      (hubHop fun i j s => V (σ (.inr i)) (σ (.inr j)) s) := by
  unfold hubHop
  refine SumOf.pairs (σ := σ) (fun i i' => ?_) (fun j j' => ?_) (fun i j => ?_) fun i j => ?_
  · have := SumOf.sum (W := joinFermi (partModes σ b)) (Finset.univ : Finset (Fin b))
      (X := fun s => if σ (.inl i') < σ (.inl i) then -(V (σ (.inl i)) (σ (.inl i')) s • (create (mode (σ (.inl i)) s) * annih (mode (σ (.inl i')) s) +
        create (mode (σ (.inl i')) s) * annih (mode (σ (.inl i)) s))) else 0)
      (X1 := fun s => if i' < i then -(V (σ (.inl i)) (σ (.inl i')) s • (create (mode i s) * annih (mode i' s) + create (mode i' s) * annih (mode i s))) else 0)
      (X2 := fun _ => 0) fun s => by
        beta_reduce
        rw [if_congr (h1.lt_iff_lt (a := i') (b := i)) rfl rfl]
        split_ifs
        · rw [← neg_smul, ← neg_smul]
          simpa using ((SumOf.left (fermi_hop_inl h1 i i' s)).add (SumOf.left (fermi_hop_inl h1 i' i s))).smul (-V (σ (.inl i)) (σ (.inl i')) s)
        · exact SumOf.zero
    simpa using this
  · have := SumOf.sum (W := joinFermi (partModes σ b)) (Finset.univ : Finset (Fin b))
      (X := fun s => if σ (.inr j') < σ (.inr j) then -(V (σ (.inr j)) (σ (.inr j')) s • (create (mode (σ (.inr j)) s) * annih (mode (σ (.inr j')) s) +
        create (mode (σ (.inr j')) s) * annih (mode (σ (.inr j)) s))) else 0)
      (X2 := fun s => if j' < j then -(V (σ (.inr j)) (σ (.inr j')) s • (create (mode j s) * annih (mode j' s) + create (mode j' s) * annih (mode j s))) else 0)
      (X1 := fun _ => 0) fun s => by
        beta_reduce
        rw [if_congr (h2.lt_iff_lt (a := j') (b := j)) rfl rfl]
        split_ifs
        · rw [← neg_smul, ← neg_smul]
          simpa using ((SumOf.right (fermi_hop_inr h2 j j' s)).add (SumOf.right (fermi_hop_inr h2 j' j s))).smul (-V (σ (.inr j)) (σ (.inr j')) s)
        · exact SumOf.zero
    simpa using this
  · refine Finset.sum_eq_zero fun s _ => ?_
    split_ifs with h
    · rw [h3 i j s h, zero_smul, neg_zero]
    · rfl
  · refine Finset.sum_eq_zero fun s _ => ?_
    split_ifs with h
    · rw [h4 i j s h, zero_smul, neg_zero]
    · rfl

theorem hubPot_split (V : Fin N → Fin b → ℂ) :
    SumOf (joinFermi (partModes σ b)) (hubPot V) (hubPot fun i s => V (σ (.inl i)) s) (hubPot fun i s => V (σ (.inr i)) s) := by
  unfold hubPot
  refine SumOf.sites (σ := σ) (fun i => ?_) fun j => ?_
  · have := SumOf.sum (W := joinFermi (partModes σ b)) (Finset.univ : Finset (Fin b)) (X := fun s => V (σ (.inl i)) s • number (mode (σ (.inl i)) s))
      (X1 := fun s => V (σ (.inl i)) s • number (mode i s)) (X2 := fun _ => 0) fun s => by
        simpa using (SumOf.left (W := joinFermi (partModes σ b)) (by rw [← partModes_inl]; exact fermi_number_inl _)).smul (V (σ (.inl i)) s)
    simpa using this
  · have := SumOf.sum (W := joinFermi (partModes σ b)) (Finset.univ : Finset (Fin b)) (X := fun s => V (σ (.inr j)) s • number (mode (σ (.inr j)) s))
      (X2 := fun s => V (σ (.inr j)) s • number (mode j s)) (X1 := fun _ => 0) fun s => by
        simpa using (SumOf.right (W := joinFermi (partModes σ b)) (by rw [← partModes_inr]; exact fermi_number_inr _)).smul (V (σ (.inr j)) s)
    simpa using this

end

/-! ### Spins -/

section

variable {n m N b : ℕ} {σ : Fin n ⊕ Fin m ≃ Fin N}

/-- The identification without signs. -/
def joinSpins (σ : Fin n ⊕ Fin m ≃ Fin N) (b : ℕ) : Matrix (Conf N b) (Conf n b × Conf m b) ℂ := joinMat σ fun _ => 1

theorem joinSpins_right : joinSpins σ b * (joinSpins σ b)ᴴ = 1 := joinMat_right σ _

theorem spin_inl (X : Matrix (Fin b) (Fin b) ℂ) (i : Fin n) :
    (joinSpins σ b)ᴴ * siteOp X (σ (.inl i)) * joinSpins σ b = siteOp X i ⊗ₖ (1 : Op m b) := by
  ext p q
  unfold joinSpins
  rw [joinMat_conj, kroneckerMap_apply, siteOp, of_apply, siteOp, of_apply, one_apply, joinConf_inl, joinConf_inl]
  simp only [agree_inl, mul_one, Units.val_one, Int.cast_one, one_mul]
  by_cases h1 : AgreeOff i p.1 q.1 <;> by_cases h2 : p.2 = q.2 <;> simp [h1, h2]

theorem spin_inr (X : Matrix (Fin b) (Fin b) ℂ) (i : Fin m) :
    (joinSpins σ b)ᴴ * siteOp X (σ (.inr i)) * joinSpins σ b = (1 : Op n b) ⊗ₖ siteOp X i := by
  ext p q
  unfold joinSpins
  rw [joinMat_conj, kroneckerMap_apply, siteOp, of_apply, siteOp, of_apply, one_apply, joinConf_inr, joinConf_inr]
  simp only [agree_inr, mul_one, Units.val_one, Int.cast_one, one_mul]
  by_cases h1 : p.1 = q.1 <;> by_cases h2 : AgreeOff i p.2 q.2 <;> simp [h1, h2]

theorem spin_two_inl (X Y : Matrix (Fin b) (Fin b) ℂ) (i j : Fin n) :
    (joinSpins σ b)ᴴ * (siteOp X (σ (.inl i)) * siteOp Y (σ (.inl j))) * joinSpins σ b = (siteOp X i * siteOp Y j) ⊗ₖ (1 : Op m b) := by
  rw [joined_mul joinSpins_right, spin_inl, spin_inl, ← mul_kronecker_mul, Matrix.one_mul]

theorem spin_two_inr (X Y : Matrix (Fin b) (Fin b) ℂ) (i j : Fin m) :
    (joinSpins σ b)ᴴ * (siteOp X (σ (.inr i)) * siteOp Y (σ (.inr j))) * joinSpins σ b = (1 : Op n b) ⊗ₖ (siteOp X i * siteOp Y j) := by
  rw [joined_mul joinSpins_right, spin_inr, spin_inr, ← mul_kronecker_mul, Matrix.one_mul]

theorem spin_two_cross (X Y : Matrix (Fin b) (Fin b) ℂ) (i : Fin n) (j : Fin m) :
    (joinSpins σ b)ᴴ * (siteOp X (σ (.inl i)) * siteOp Y (σ (.inr j))) * joinSpins σ b = siteOp X i ⊗ₖ siteOp Y j := by
  rw [joined_mul joinSpins_right, spin_inl, spin_inr, ← mul_kronecker_mul, Matrix.one_mul, Matrix.mul_one]

theorem spin_two_cross' (X Y : Matrix (Fin b) (Fin b) ℂ) (i : Fin n) (j : Fin m) :
    (joinSpins σ b)ᴴ * (siteOp X (σ (.inr j)) * siteOp Y (σ (.inl i))) * joinSpins σ b = siteOp Y i ⊗ₖ siteOp X j := by
  rw [joined_mul joinSpins_right, spin_inl, spin_inr, ← mul_kronecker_mul, Matrix.one_mul, Matrix.mul_one]

theorem heis_split (h1 : StrictMono fun i => σ (.inl i)) (h2 : StrictMono fun i => σ (.inr i)) (X Y Z : Matrix (Fin b) (Fin b) ℂ)
    {jx jy jz : Fin N → Fin N → ℂ} (hx hy hz : Fin N → ℂ)
    (h3 : ∀ i j, σ (.inr j) < σ (.inl i) → jx (σ (.inl i)) (σ (.inr j)) = 0 ∧ jy (σ (.inl i)) (σ (.inr j)) = 0 ∧ jz (σ (.inl i)) (σ (.inr j)) = 0)
    (h4 : ∀ i j, σ (.inl i) < σ (.inr j) → jx (σ (.inr j)) (σ (.inl i)) = 0 ∧ jy (σ (.inr j)) (σ (.inl i)) = 0 ∧ jz (σ (.inr j)) (σ (.inl i)) = 0) :
    SumOf (joinSpins σ b) (heis X Y Z jx jy jz hx hy hz)
      (heis X Y Z (fun i j => jx (σ (.inl i)) (σ (.inl j))) (fun i j => jy (σ (.inl i)) (σ (.inl j))) (fun i j => jz (σ (.inl i)) (σ (.inl j)))
        (fun i => hx (σ (.inl i))) (fun i => hy (σ (.inl i))) fun i => hz (σ (.inl i)))
      (heis X Y Z (fun i j => jx (σ (.inr i)) (σ (.inr j))) (fun i j => jy (σ (.inr i)) (σ (.inr j))) (fun i j => jz (σ (.inr i)) (σ (.inr j)))
        (fun i => hx (σ (.inr i))) (fun i => hy (σ (.inr i))) fun i => hz (σ (.inr i))) := by
  unfold heis
  rw [sub_eq_add_neg, sub_eq_add_neg, sub_eq_add_neg, ← neg_one_smul ℂ (∑ i, _), ← neg_one_smul ℂ (∑ i, _), ← neg_one_smul ℂ (∑ i, _)]
  refine SumOf.add (SumOf.pairs (σ := σ) (fun i i' => ?_) (fun j j' => ?_) (fun i j => ?_) fun i j => ?_)
    (SumOf.smul (SumOf.sites (σ := σ) (fun i => ?_) fun j => ?_) _)
  · rw [if_congr (h1.lt_iff_lt (a := i') (b := i)) rfl rfl]
    split_ifs
    · simpa using (((SumOf.left (spin_two_inl X X i i')).smul (2 * jx (σ (.inl i)) (σ (.inl i')))).add
        ((SumOf.left (spin_two_inl Y Y i i')).smul (2 * jy (σ (.inl i)) (σ (.inl i'))))).add
        ((SumOf.left (spin_two_inl Z Z i i')).smul (2 * jz (σ (.inl i)) (σ (.inl i'))))
    · exact SumOf.zero
  · rw [if_congr (h2.lt_iff_lt (a := j') (b := j)) rfl rfl]
    split_ifs
    · simpa using (((SumOf.right (spin_two_inr X X j j')).smul (2 * jx (σ (.inr j)) (σ (.inr j')))).add
        ((SumOf.right (spin_two_inr Y Y j j')).smul (2 * jy (σ (.inr j)) (σ (.inr j'))))).add
        ((SumOf.right (spin_two_inr Z Z j j')).smul (2 * jz (σ (.inr j)) (σ (.inr j'))))
    · exact SumOf.zero
  · split_ifs with h
    · simp [h3 i j h]
    · rfl
  · split_ifs with h
    · simp [h4 i j h]
    · rfl
  · simpa using (((SumOf.left (spin_inl X i)).smul (hx (σ (.inl i)))).add ((SumOf.left (spin_inl Y i)).smul (hy (σ (.inl i))))).add
      ((SumOf.left (spin_inl Z i)).smul (hz (σ (.inl i))))
  · simpa using (((SumOf.right (spin_inr X j)).smul (hx (σ (.inr j)))).add ((SumOf.right (spin_inr Y j)).smul (hy (σ (.inr j))))).add
      ((SumOf.right (spin_inr Z j)).smul (hz (σ (.inr j))))

end

end ED
