import Verif.Lemmas.ParticleHole
import Verif.Lemmas.HubbardAlg
import Mathlib.LinearAlgebra.Matrix.ToLin
import Mathlib.LinearAlgebra.Dimension.Finite
import Mathlib.LinearAlgebra.FiniteDimensional.Basic
import Mathlib.LinearAlgebra.Matrix.PosDef
import Mathlib.Data.Multiset.Count
import Mathlib.Algebra.Lie.OfAssociative
import Mathlib.Analysis.Complex.Order
import Mathlib.Analysis.Complex.Basic
import Mathlib.Data.List.Perm.Subperm

/-! # Helper lemmas: operators that connect sectors with the same energies -/

namespace ED

open scoped BigOperators ComplexOrder
open Matrix

/-- If `M` connects only levels with the same value and loses no vector, every value occurs on the left at least as often as
on the right. -/
theorem level_count {m n : ℕ} (M : Matrix (Fin n) (Fin m) ℂ) (e : Fin m → ℝ) (f : Fin n → ℝ)
    (h0 : ∀ k l, f k ≠ e l → M k l = 0) (hinj : ∀ v : Fin m → ℂ, M.mulVec v = 0 → v = 0) :
    (List.ofFn e).Subperm (List.ofFn f) := by
  classical
  rw [← Multiset.coe_le, Multiset.le_iff_count]
  intro x
  have hc : ∀ {k : ℕ} (g : Fin k → ℝ), Multiset.count x ((List.ofFn g : List ℝ) : Multiset ℝ) =
      Fintype.card {l : Fin k // g l = x} := fun {k} g => by
    rw [← Fin.univ_val_map, Multiset.count_map, Fintype.card_subtype, Finset.card_def, Finset.filter_val]
    exact congrArg Multiset.card (Multiset.filter_congr fun i _ => eq_comm)
  rw [hc, hc]
  let A : Matrix {k : Fin n // f k = x} {l : Fin m // e l = x} ℂ := fun k l => M k l
  have hA : Function.Injective A.mulVecLin := by
    rw [injective_iff_map_eq_zero]
    intro v hv
    let w : Fin m → ℂ := fun l => if h : e l = x then v ⟨l, h⟩ else 0
    have hw : M.mulVec w = 0 := by
      funext k
      rw [mulVec, dotProduct, Pi.zero_apply]
      by_cases hk : f k = x
      · have := congrFun hv ⟨k, hk⟩
        rw [mulVecLin_apply, mulVec, dotProduct, Pi.zero_apply] at this
        rw [← this]
        rw [← Fintype.sum_subtype_add_sum_subtype (fun l => e l = x) fun l => M k l * w l]
        have h2 : ∑ l : {l // ¬ e l = x}, M k l * w l = 0 := Finset.sum_eq_zero fun l _ => by simp [w, l.2]
        rw [h2, add_zero]
        exact Finset.sum_congr rfl fun l _ => by simp [w, A, l.2]
      · refine Finset.sum_eq_zero fun l _ => ?_
        by_cases hl : e l = x
        · rw [h0 k l (by rw [hl]; exact hk), zero_mul]
        · simp [w, hl]
    have := hinj w hw
    funext l
    have h := congrFun this l.1
    simpa [w, l.2] using h
  have := LinearMap.finrank_le_finrank_of_injective hA
  simpa using this

/-- Two Hamiltonians that are connected by an operator `J` which raises the energy by `Δ` and loses no vector. -/
theorem levels_intertwine {ι κ : Type} [Fintype ι] [Fintype κ] [DecidableEq ι] [DecidableEq κ] {m n : ℕ} {H : Matrix ι ι ℂ}
    {K : Matrix κ κ ℂ} {V : Matrix ι (Fin m) ℂ} {W : Matrix κ (Fin n) ℂ} {e : Fin m → ℝ} {f : Fin n → ℝ}
    (hV : Vᴴ * V = 1) (hW2 : W * Wᴴ = 1) (hW : Wᴴ * W = 1)
    (hH : H * V = V * diagonal fun k => (e k : ℂ)) (hK : K * W = W * diagonal fun k => (f k : ℂ))
    {J : Matrix κ ι ℂ} {Δ : ℝ} (hJ : K * J = J * H + (Δ : ℂ) • J) (hinj : ∀ v, J.mulVec v = 0 → v = 0) :
    ((List.ofFn e).map (· + Δ)).Subperm (List.ofFn f) := by
  have hK' : Wᴴ * K = diagonal (fun k => (f k : ℂ)) * Wᴴ := by
    calc Wᴴ * K = Wᴴ * (K * W) * Wᴴ := by rw [Matrix.mul_assoc, Matrix.mul_assoc, hW2, Matrix.mul_one]
      _ = _ := by rw [hK, ← Matrix.mul_assoc Wᴴ W, hW, Matrix.one_mul]
  have key : diagonal (fun k => (f k : ℂ)) * (Wᴴ * J * V) = (Wᴴ * J * V) * diagonal (fun k => ((e k + Δ : ℝ) : ℂ)) := by
    have h1 : diagonal (fun k => (f k : ℂ)) * (Wᴴ * J * V) = Wᴴ * (K * J) * V := by
      rw [← Matrix.mul_assoc, ← Matrix.mul_assoc, ← hK', Matrix.mul_assoc Wᴴ K J]
    have h2 : diagonal (fun k => ((e k + Δ : ℝ) : ℂ)) = diagonal (fun k => (e k : ℂ)) + (Δ : ℂ) • (1 : Matrix (Fin m) (Fin m) ℂ) := by
      rw [smul_one_eq_diagonal, diagonal_add]
      congr 1
      funext k
      push_cast
      rfl
    rw [h1, hJ, h2, Matrix.mul_add, Matrix.mul_add, Matrix.add_mul, Matrix.mul_smul, Matrix.smul_mul, Matrix.mul_smul,
      Matrix.mul_one]
    congr 1
    rw [Matrix.mul_assoc, Matrix.mul_assoc J H V, hH, Matrix.mul_assoc, Matrix.mul_assoc]
  have e1 : (List.ofFn e).map (· + Δ) = List.ofFn fun k => e k + Δ := by rw [List.map_ofFn]; rfl
  rw [e1]
  refine level_count (Wᴴ * J * V) _ f (fun k l hkl => ?_) fun v hv => ?_
  · have h := congrFun (congrFun key k) l
    rw [diagonal_mul, mul_diagonal] at h
    have h' : ((f k : ℂ) - ((e l + Δ : ℝ) : ℂ)) * (Wᴴ * J * V) k l = 0 := by rw [sub_mul, h]; ring
    refine (mul_eq_zero.1 h').resolve_left fun h0 => hkl ?_
    exact_mod_cast sub_eq_zero.1 h0
  · have h1 : J.mulVec (V.mulVec v) = 0 := by
      have := congrArg W.mulVec hv
      rw [mulVec_zero, mulVec_mulVec, ← Matrix.mul_assoc, ← Matrix.mul_assoc, hW2, Matrix.one_mul, ← mulVec_mulVec] at this
      exact this
    have h2 := congrArg Vᴴ.mulVec (hinj _ h1)
    rwa [mulVec_mulVec, hV, one_mulVec, mulVec_zero] at h2

/-- A matrix whose product with its adjoint exceeds that of another one by a positive multiple of the identity loses no
vector. -/
theorem injective_of_gram {ι κ μ : Type} [Fintype ι] [Fintype κ] [Fintype μ] [DecidableEq ι] {J : Matrix κ ι ℂ} {J' : Matrix μ ι ℂ}
    {c : ℝ} (hc : 0 < c) (h : Jᴴ * J = J'ᴴ * J' + (c : ℂ) • (1 : Matrix ι ι ℂ)) (v : ι → ℂ) (hv : J.mulVec v = 0) : v = 0 := by
  have h1 : star v ⬝ᵥ (Jᴴ * J).mulVec v = 0 := by rw [← mulVec_mulVec, hv, mulVec_zero, dotProduct_zero]
  rw [h, add_mulVec, dotProduct_add, smul_mulVec, one_mulVec, dotProduct_smul] at h1
  have h2 : 0 ≤ star v ⬝ᵥ (J'ᴴ * J').mulVec v := (posSemidef_conjTranspose_mul_self J').dotProduct_mulVec_nonneg v
  have h3 : 0 ≤ star v ⬝ᵥ v := dotProduct_star_self_nonneg v
  have h4 : star v ⬝ᵥ v = 0 := by
    have h5 : (c : ℂ) • (star v ⬝ᵥ v) ≤ 0 := by rw [← h1]; exact le_add_of_nonneg_left h2
    rw [smul_eq_mul] at h5
    have hc' : (0 : ℂ) < c := by exact_mod_cast hc
    refine le_antisymm ?_ h3
    have h6 := mul_le_mul_of_nonneg_left h5 (inv_nonneg.2 hc'.le)
    rwa [← mul_assoc, inv_mul_cancel₀ hc'.ne', one_mul, mul_zero] at h6
  exact dotProduct_star_self_eq_zero.1 h4

/-! ### Selected basis states -/

theorem sum_selected {α β : Type} [Fintype α] [Fintype β] [DecidableEq α] {sel : β → α} (hs : Function.Injective sel) (f : α → ℂ)
    (h0 : ∀ t, (∀ r, sel r ≠ t) → f t = 0) : ∑ t, f t = ∑ r, f (sel r) := by
  classical
  rw [← Finset.sum_image (s := Finset.univ) (g := sel) (f := f) fun a _ b _ h => hs h]
  refine (Finset.sum_subset (Finset.subset_univ _) fun t _ ht => h0 t fun r hr => ht ?_).symm
  exact Finset.mem_image.2 ⟨r, Finset.mem_univ _, hr⟩

theorem select_conj {α β : Type} [Fintype α] [Fintype β] [DecidableEq α] (sel : β → α) (H : Matrix α α ℂ) :
    (Matrix.of fun r t => if t = sel r then (1 : ℂ) else 0 : Matrix β α ℂ) * H *
      (Matrix.of fun r t => if t = sel r then (1 : ℂ) else 0 : Matrix β α ℂ)ᴴ = H.submatrix sel sel := by
  ext r s
  rw [Matrix.mul_apply, Finset.sum_eq_single (sel s), Matrix.mul_apply, Finset.sum_eq_single (sel r)]
  · simp
  · intro t _ ht
    simp [ht]
  · simp
  · intro t _ ht
    simp [ht]
  · simp

/-- An operator that leads from the states `sel` to the states `sel'`. -/
theorem selected_intertwine {α β γ : Type} [Fintype α] [Fintype β] [Fintype γ] [DecidableEq α] {sel : β → α} {sel' : γ → α}
    (hs : Function.Injective sel) (hs' : Function.Injective sel') {H L : Matrix α α ℂ} {Δ : ℂ}
    (hL : ∀ r s, (H * L) (sel' r) (sel s) = (L * H + Δ • L) (sel' r) (sel s)) (h1 : ∀ t r, (∀ r', sel r' ≠ t) → H t (sel r) = 0) (h2 : ∀ t r, (∀ r', sel' r' ≠ t) → L t (sel r) = 0) :
    H.submatrix sel' sel' * L.submatrix sel' sel = L.submatrix sel' sel * H.submatrix sel sel + Δ • L.submatrix sel' sel := by
  ext r s
  have h := hL r s
  rw [Matrix.add_apply, Matrix.mul_apply, Matrix.mul_apply, Matrix.smul_apply,
    sum_selected hs' (fun t => H (sel' r) t * L t (sel s)) (fun t ht => by rw [h2 t s ht, mul_zero]),
    sum_selected hs (fun t => L (sel' r) t * H t (sel s)) (fun t ht => by rw [h1 t s ht, mul_zero])] at h
  rw [Matrix.add_apply, Matrix.mul_apply, Matrix.mul_apply, Matrix.smul_apply]
  exact h

theorem selected_gram {α β γ : Type} [Fintype α] [Fintype β] [Fintype γ] [DecidableEq α] [DecidableEq β] {sel : β → α} {sel' : γ → α}
    (hs : Function.Injective sel) (hs' : Function.Injective sel') {L K : Matrix α α ℂ} {f : α → ℂ} {c : ℝ}
    (hL : Lᴴ * L = Kᴴ * K + diagonal f) (hf : ∀ r, f (sel r) = c) (h2 : ∀ t r, (∀ r', sel' r' ≠ t) → L t (sel r) = 0) :
    (L.submatrix sel' sel)ᴴ * L.submatrix sel' sel = (K.submatrix id sel)ᴴ * K.submatrix id sel + (c : ℂ) • (1 : Matrix β β ℂ) := by
  ext r s
  have h := congrFun (congrFun hL (sel r)) (sel s)
  rw [Matrix.add_apply, Matrix.mul_apply, Matrix.mul_apply,
    sum_selected hs' (fun t => Lᴴ (sel r) t * L t (sel s)) (fun t ht => by rw [h2 t s ht, mul_zero])] at h
  rw [Matrix.add_apply, Matrix.mul_apply, Matrix.mul_apply, Matrix.smul_apply]
  refine h.trans ?_
  congr 1
  rw [diagonal_apply, one_apply]
  by_cases h : r = s
  · simp [h, hf]
  · simp [h, hs.ne h]

/-! ### Commutators -/

section commutators
variable {N : ℕ}

theorem mul_bracket {R : Type} [Ring R] (x y z : R) : ⁅x * y, z⁆ = x * ⁅y, z⁆ + ⁅x, z⁆ * y := by
  simp only [Ring.lie_def]; noncomm_ring

theorem bracket_mul {R : Type} [Ring R] (x y z : R) : ⁅x, y * z⁆ = y * ⁅x, z⁆ + ⁅x, y⁆ * z := by
  simp only [Ring.lie_def]; noncomm_ring

theorem bracket_sum {R ι : Type} [Ring R] (x : R) (s : Finset ι) (f : ι → R) : ⁅x, ∑ i ∈ s, f i⁆ = ∑ i ∈ s, ⁅x, f i⁆ := by
  simp only [Ring.lie_def, Finset.mul_sum, Finset.sum_mul, Finset.sum_sub_distrib]

theorem sum_bracket {R ι : Type} [Ring R] (x : R) (s : Finset ι) (f : ι → R) : ⁅∑ i ∈ s, f i, x⁆ = ∑ i ∈ s, ⁅f i, x⁆ := by
  simp only [Ring.lie_def, Finset.mul_sum, Finset.sum_mul, Finset.sum_sub_distrib]

theorem add_bracket {R : Type} [Ring R] (x y z : R) : ⁅x + y, z⁆ = ⁅x, z⁆ + ⁅y, z⁆ := by
  simp only [Ring.lie_def]; noncomm_ring

theorem bracket_smul (c : ℂ) (x y : Op N 2) : ⁅x, c • y⁆ = c • ⁅x, y⁆ := by
  simp only [Ring.lie_def, Matrix.mul_smul, Matrix.smul_mul, smul_sub]

theorem smul_bracket (c : ℂ) (x y : Op N 2) : ⁅c • x, y⁆ = c • ⁅x, y⁆ := by
  simp only [Ring.lie_def, Matrix.mul_smul, Matrix.smul_mul, smul_sub]

theorem number_bracket_create (k i : Fin N) : ⁅number k, create i⁆ = (if k = i then 1 else 0 : ℂ) • create i := by
  rw [Ring.lie_def, number_create]
  split_ifs <;> simp

theorem number_bracket_annih (k i : Fin N) : ⁅number k, annih i⁆ = (if k = i then -1 else 0 : ℂ) • annih i := by
  rw [Ring.lie_def, number_annih]
  split_ifs <;> simp

/-- Moving a particle commutes with creating one, except where it comes from. -/
theorem hop_bracket_create (k l i : Fin N) : ⁅create k * annih l, create i⁆ = (if l = i then 1 else 0 : ℂ) • create k := by
  have h1 := car1 l i
  have h2 := car2 i k
  rw [Ring.lie_def]
  have e : create k * annih l * create i - create i * (create k * annih l) =
      create k * (annih l * create i + create i * annih l) - (create i * create k + create k * create i) * annih l := by noncomm_ring
  rw [e, h1, h2]
  split_ifs <;> simp

theorem hop_bracket_annih (k l i : Fin N) : ⁅create k * annih l, annih i⁆ = (if k = i then -1 else 0 : ℂ) • annih l := by
  have h1 := car1 i k
  have h2 := car3 i l
  rw [Ring.lie_def]
  have e : create k * annih l * annih i - annih i * (create k * annih l) =
      create k * (annih i * annih l + annih l * annih i) - (annih i * create k + create k * annih i) * annih l := by noncomm_ring
  rw [e, h1, h2]
  by_cases h : k = i
  · simp [h]
  · simp [h, Ne.symm h]

end commutators

/-! ### The two operators of the Hubbard model -/

variable {a : ℕ}

/-- Particles of the first species are turned into particles of the second species, at every site. -/
noncomputable def spinLow (a : ℕ) : Op (a * 2) 2 := ∑ i : Fin a, create (mode i 1) * annih (mode i 0)

/-- A pair of particles is created at every site, with the given amplitudes. -/
noncomputable def pairUp (ε : Fin a → ℂ) : Op (a * 2) 2 := ∑ i : Fin a, ε i • (create (mode i 0) * create (mode i 1))

theorem mode_ne (i j : Fin a) : (mode i (0 : Fin 2) : Fin (a * 2)) ≠ mode j 1 := fun h => by
  simpa using (mode_eq_iff.1 h).2

theorem hop_spinLow (i j : Fin a) :
    ⁅create (mode i (0 : Fin 2)) * annih (mode j 0) + create (mode i 1) * annih (mode j 1), spinLow a⁆ = 0 := by
  have n1 : ∀ i j : Fin a, (mode i (1 : Fin 2) : Fin (a * 2)) ≠ mode j 0 := fun i j => (mode_ne j i).symm
  rw [spinLow, bracket_sum]
  simp only [add_bracket, bracket_mul, hop_bracket_create, hop_bracket_annih, mode_eq_iff, mode_ne, n1, if_false, zero_smul,
    mul_zero, zero_mul, add_zero, zero_add, and_true, Matrix.mul_smul, Matrix.smul_mul]
  rw [Finset.sum_add_distrib]
  simp

theorem hop_pairUp {ε : Fin a → ℂ} (i j : Fin a) (h : ε i + ε j = 0) :
    ⁅create (mode i (0 : Fin 2)) * annih (mode j 0) + create (mode j 0) * annih (mode i 0) +
      (create (mode i 1) * annih (mode j 1) + create (mode j 1) * annih (mode i 1)), pairUp ε⁆ = 0 := by
  have n1 : ∀ i j : Fin a, (mode i (1 : Fin 2) : Fin (a * 2)) ≠ mode j 0 := fun i j => (mode_ne j i).symm
  rw [pairUp, bracket_sum]
  simp only [add_bracket, bracket_smul, bracket_mul, hop_bracket_create, mode_eq_iff, mode_ne, n1, if_false, zero_smul,
    mul_zero, zero_mul, add_zero, zero_add, and_true, Matrix.mul_smul, Matrix.smul_mul, smul_add, Finset.sum_add_distrib, smul_smul,
    mul_ite, mul_one, mul_zero]
  have h01 : ((0 : Fin 2) = 1) = False := by simp
  simp only [h01, and_false, if_false, Finset.sum_const_zero, ite_smul, zero_smul, Finset.sum_ite_eq, Finset.mem_univ, if_true]
  have e : ε j = -ε i := by linear_combination h
  rw [e]
  module

theorem number_bracket_hop {N : ℕ} (k i j : Fin N) :
    ⁅number k, create i * annih j⁆ = ((if k = i then 1 else 0) - (if k = j then 1 else 0) : ℂ) • (create i * annih j) := by
  rw [Ring.lie_def, number_hop]

theorem number_bracket_pair {N : ℕ} (k i j : Fin N) :
    ⁅number k, create i * create j⁆ = ((if k = i then 1 else 0) + (if k = j then 1 else 0) : ℂ) • (create i * create j) := by
  rw [bracket_mul, number_bracket_create, number_bracket_create, Matrix.mul_smul, Matrix.smul_mul, ← add_smul, add_comm]

theorem annih_bracket_pair {N : ℕ} (k l m : Fin N) :
    ⁅annih k, create l * create m⁆ = (if k = l then 1 else 0 : ℂ) • create m - (if k = m then 1 else 0 : ℂ) • create l := by
  have h1 := car1 k l
  have h2 := car1 k m
  rw [Ring.lie_def]
  have e : annih k * (create l * create m) - create l * create m * annih k = (annih k * create l + create l * annih k) * create m -
      create l * (annih k * create m + create m * annih k) := by noncomm_ring
  rw [e, h1, h2]
  split_ifs <;> simp

theorem mode_low (k i : Fin a) : (mode k (0 : Fin 2) : Fin (a * 2)) = mode i 1 ↔ False := iff_false_intro (mode_ne k i)

theorem mode_up (k i : Fin a) : (mode k (1 : Fin 2) : Fin (a * 2)) = mode i 0 ↔ False := iff_false_intro (mode_ne i k).symm

theorem mode_same (k i : Fin a) (s : Fin 2) : (mode k s : Fin (a * 2)) = mode i s ↔ k = i := by
  rw [mode_eq_iff]; simp

theorem hubPot_spinLow (V : Fin a → Fin 2 → ℂ) (h : ∀ i, V i 0 = V i 1) : ⁅hubPot V, spinLow a⁆ = 0 := by
  rw [hubPot, spinLow, bracket_sum]
  refine Finset.sum_eq_zero fun i _ => ?_
  rw [sum_bracket]
  refine Finset.sum_eq_zero fun j _ => ?_
  rw [Fin.sum_univ_two, add_bracket, smul_bracket, smul_bracket, number_bracket_hop, number_bracket_hop, h]
  simp only [mode_low, mode_up, mode_same, if_false]
  module

theorem number_mul_annih {N : ℕ} (i : Fin N) : number i * annih i = 0 := by
  rw [← create_annih, Matrix.mul_assoc, two_self_zero (car3 i i), Matrix.mul_zero]

theorem create_mul_number {N : ℕ} (i : Fin N) : create i * number i = 0 := by
  rw [← create_annih, ← Matrix.mul_assoc, two_self_zero (car2 i i), Matrix.zero_mul]

theorem number_commute_create {N : ℕ} {k i : Fin N} (h : k ≠ i) : number k * create i = create i * number k := by
  rw [number_create, if_neg h, add_zero]

theorem number_commute_annih {N : ℕ} {k i : Fin N} (h : k ≠ i) : number k * annih i = annih i * number k := by
  rw [number_annih, if_neg h, add_zero]

theorem hubInter_spinLow (U : Fin a → ℂ) : ⁅(hubInter U : Op (a * 2) 2), spinLow a⁆ = 0 := by
  rw [hubInter, dif_pos le_rfl, spinLow, bracket_sum]
  refine Finset.sum_eq_zero fun i _ => ?_
  rw [sum_bracket]
  refine Finset.sum_eq_zero fun j _ => ?_
  change ⁅U j • (number (mode j 0) * number (mode j 1)), create (mode i 1) * annih (mode i 0)⁆ = 0
  rw [smul_bracket, mul_bracket, number_bracket_hop, number_bracket_hop]
  simp only [mode_low, mode_up, mode_same, if_false]
  by_cases h : j = i
  · subst h
    rw [Matrix.mul_smul, ← Matrix.mul_assoc, number_commute_create (mode_ne _ _), Matrix.mul_assoc, number_mul_annih,
      Matrix.smul_mul, Matrix.mul_assoc, ← number_commute_annih (mode_ne _ _).symm, ← Matrix.mul_assoc, create_mul_number]
    simp
  · simp [h]

theorem hubPot_pairUp (V : Fin a → Fin 2 → ℂ) (ε : Fin a → ℂ) :
    ⁅hubPot V, pairUp ε⁆ = pairUp fun i => (V i 0 + V i 1) * ε i := by
  rw [hubPot, pairUp, bracket_sum, pairUp]
  refine Finset.sum_congr rfl fun i _ => ?_
  rw [sum_bracket, Finset.sum_eq_single i]
  · rw [Fin.sum_univ_two, bracket_smul, add_bracket, smul_bracket, smul_bracket, number_bracket_pair, number_bracket_pair]
    simp only [mode_low, mode_up, if_true, if_false]
    module
  · intro j _ hj
    rw [Fin.sum_univ_two, bracket_smul, add_bracket, smul_bracket, smul_bracket, number_bracket_pair, number_bracket_pair]
    simp [mode_low, mode_up, mode_same, hj]
  · simp

theorem hubInter_pairUp (U : Fin a → ℂ) (ε : Fin a → ℂ) :
    ⁅(hubInter U : Op (a * 2) 2), pairUp ε⁆ = pairUp fun i => U i * ε i := by
  rw [hubInter, dif_pos le_rfl, pairUp, bracket_sum, pairUp]
  refine Finset.sum_congr rfl fun i _ => ?_
  rw [sum_bracket, Finset.sum_eq_single i]
  · change ⁅U i • (number (mode i 0) * number (mode i 1)), ε i • (create (mode i 0) * create (mode i 1))⁆ = _
    rw [smul_bracket, bracket_smul, mul_bracket, number_bracket_pair, number_bracket_pair]
    simp only [mode_low, mode_up, if_true, if_false]
    rw [Matrix.mul_smul, Matrix.smul_mul, Matrix.mul_assoc (create (mode i 0)), create_mul_number, Matrix.mul_zero,
      ← Matrix.mul_assoc, number_create, if_pos rfl, create_mul_number, zero_add (create _)]
    module
  · intro j _ hj
    change ⁅U j • (number (mode j 0) * number (mode j 1)), ε i • (create (mode i 0) * create (mode i 1))⁆ = _
    rw [smul_bracket, bracket_smul, mul_bracket, number_bracket_pair, number_bracket_pair]
    simp [mode_low, mode_up, mode_same, hj]
  · simp

theorem hubHop_spinLow (T : Fin a → Fin a → Fin 2 → ℂ) (h : ∀ i j, j < i → T i j 0 = T i j 1) : ⁅hubHop T, spinLow a⁆ = 0 := by
  rw [hubHop, sum_bracket]
  refine Finset.sum_eq_zero fun i _ => ?_
  rw [sum_bracket]
  refine Finset.sum_eq_zero fun j _ => ?_
  rw [Fin.sum_univ_two]
  split_ifs with hij
  · rw [h i j hij, ← neg_add, ← smul_add, ← smul_neg, smul_bracket]
    have e : -(create (mode i (0 : Fin 2)) * annih (mode j 0) + create (mode j 0) * annih (mode i 0) +
        (create (mode i 1) * annih (mode j 1) + create (mode j 1) * annih (mode i 1))) =
        (-1 : ℂ) • (create (mode i (0 : Fin 2)) * annih (mode j 0) + create (mode i 1) * annih (mode j 1)) +
        (-1 : ℂ) • (create (mode j (0 : Fin 2)) * annih (mode i 0) + create (mode j 1) * annih (mode i 1)) := by module
    rw [e, add_bracket, smul_bracket, smul_bracket, hop_spinLow, hop_spinLow]
    simp
  · simp [Ring.lie_def]

theorem hubHop_pairUp (T : Fin a → Fin a → Fin 2 → ℂ) (h : ∀ i j, j < i → T i j 0 = T i j 1) (ε : Fin a → ℂ)
    (hε : ∀ i j, j < i → T i j 0 ≠ 0 → ε i + ε j = 0) : ⁅hubHop T, pairUp ε⁆ = 0 := by
  rw [hubHop, sum_bracket]
  refine Finset.sum_eq_zero fun i _ => ?_
  rw [sum_bracket]
  refine Finset.sum_eq_zero fun j _ => ?_
  rw [Fin.sum_univ_two]
  split_ifs with hij
  · rw [← h i j hij, ← neg_add, ← smul_add, ← smul_neg, smul_bracket]
    by_cases h0 : T i j 0 = 0
    · rw [h0, zero_smul]
    · rw [← neg_one_smul ℂ (_ + _), smul_bracket, hop_pairUp i j (hε i j hij h0), smul_zero, smul_zero]
  · simp [Ring.lie_def]

/-! ### Products with the adjoint -/

theorem spinLow_star : (spinLow a)ᴴ = ∑ i : Fin a, create (mode i (0 : Fin 2)) * annih (mode i 1) := by
  rw [spinLow, conjTranspose_sum]
  exact Finset.sum_congr rfl fun i _ => by rw [conjTranspose_mul, annih_star, create_star]

theorem spinLow_gram : (spinLow a)ᴴ * spinLow a = spinLow a * (spinLow a)ᴴ + (speciesNumber a (0 : Fin 2) - speciesNumber a 1) := by
  rw [← sub_eq_iff_eq_add', ← Ring.lie_def, spinLow_star, spinLow, bracket_sum, speciesNumber, speciesNumber, ← Finset.sum_sub_distrib]
  refine Finset.sum_congr rfl fun i _ => ?_
  rw [sum_bracket, Finset.sum_eq_single i]
  · rw [bracket_mul, hop_bracket_create, hop_bracket_annih, if_pos rfl, if_pos rfl, one_smul, neg_one_smul, Matrix.mul_neg,
      create_annih, create_annih]
    abel
  · intro j _ hj
    rw [bracket_mul, hop_bracket_create, hop_bracket_annih]
    simp [mode_eq_iff, hj]
  · simp

theorem pairUp_gram (ε : Fin a → ℂ) (h : ∀ i, star (ε i) * ε i = 1) : (pairUp ε)ᴴ * pairUp ε = pairUp ε * (pairUp ε)ᴴ +
    ((a : ℂ) • (1 : Op (a * 2) 2) - speciesNumber a (0 : Fin 2) - speciesNumber a 1) := by
  have hs : (pairUp ε)ᴴ = ∑ i : Fin a, star (ε i) • (annih (mode i (1 : Fin 2)) * annih (mode i 0)) := by
    rw [pairUp, conjTranspose_sum]
    exact Finset.sum_congr rfl fun i _ => by rw [conjTranspose_smul, conjTranspose_mul, create_star, create_star]
  have h1 : ((a : ℂ) • (1 : Op (a * 2) 2)) = ∑ i : Fin a, (1 : Op (a * 2) 2) := by
    rw [Finset.sum_const, Finset.card_univ, Fintype.card_fin, Nat.cast_smul_eq_nsmul]
  rw [← sub_eq_iff_eq_add', ← Ring.lie_def, hs, pairUp, bracket_sum, speciesNumber, speciesNumber, h1, ← Finset.sum_sub_distrib,
    ← Finset.sum_sub_distrib]
  refine Finset.sum_congr rfl fun i _ => ?_
  have hn : annih (mode i (1 : Fin 2)) * create (mode i 1) = (1 : Op (a * 2) 2) - number (mode i 1) := by
    have := car1 (mode i (1 : Fin 2)) (mode i 1)
    rw [if_pos rfl, create_annih] at this
    rw [← this]; abel
  rw [sum_bracket, Finset.sum_eq_single i]
  · rw [smul_bracket, bracket_smul, smul_smul, h, one_smul, mul_bracket, annih_bracket_pair, annih_bracket_pair]
    simp only [mode_low, mode_up, if_true, if_false, one_smul, zero_smul, sub_zero, zero_sub, Matrix.neg_mul]
    rw [hn, create_annih]
    abel
  · intro j _ hj
    rw [smul_bracket, bracket_smul, mul_bracket, annih_bracket_pair, annih_bracket_pair]
    simp [mode_low, mode_up, mode_same, hj]
  · simp

/-! ### Particle numbers -/

theorem speciesNumber_diagonal {b : ℕ} (s : Fin b) :
    speciesNumber a s = diagonal fun t : Conf (a * b) 2 => (speciesCount t s : ℂ) := by
  ext t t'
  rw [speciesNumber, Matrix.sum_apply, diagonal_apply]
  simp only [number_diag]
  by_cases h : t = t'
  · simp [h, speciesCount]
  · simp [h]

theorem count_of_bracket {b : ℕ} (s : Fin b) {L : Op (a * b) 2} {c : ℂ} (h : ⁅speciesNumber a s, L⁆ = c • L) {t t' : Conf (a * b) 2}
    (hne : L t t' ≠ 0) : (speciesCount t s : ℂ) = speciesCount t' s + c := by
  rw [speciesNumber_diagonal, Ring.lie_def] at h
  have := congrFun (congrFun h t) t'
  rw [Matrix.sub_apply, diagonal_mul, mul_diagonal, Matrix.smul_apply, smul_eq_mul] at this
  have h2 : ((speciesCount t s : ℂ) - speciesCount t' s - c) * L t t' = 0 := by linear_combination this
  linear_combination (mul_eq_zero.1 h2).resolve_right hne

theorem spinLow_count {t t' : Conf (a * 2) 2} (hne : spinLow a t t' ≠ 0) :
    speciesCount t 0 + 1 = speciesCount t' 0 ∧ speciesCount t 1 = speciesCount t' 1 + 1 := by
  have h0 : ⁅speciesNumber a (0 : Fin 2), spinLow a⁆ = (-1 : ℂ) • spinLow a := by
    rw [spinLow, bracket_sum, Finset.smul_sum]
    refine Finset.sum_congr rfl fun i _ => ?_
    rw [speciesNumber, sum_bracket]
    simp [number_bracket_hop, mode_low, mode_same, ← Finset.sum_smul]
  have h1 : ⁅speciesNumber a (1 : Fin 2), spinLow a⁆ = (1 : ℂ) • spinLow a := by
    rw [spinLow, bracket_sum, Finset.smul_sum]
    refine Finset.sum_congr rfl fun i _ => ?_
    rw [speciesNumber, sum_bracket]
    simp [number_bracket_hop, mode_up, mode_same, ← Finset.sum_smul]
  have e0 := count_of_bracket 0 h0 hne
  have e1 := count_of_bracket 1 h1 hne
  constructor
  · have : ((speciesCount t 0 + 1 : ℕ) : ℂ) = (speciesCount t' 0 : ℕ) := by push_cast; rw [e0]; ring
    exact_mod_cast this
  · exact_mod_cast e1

theorem pairUp_count {ε : Fin a → ℂ} {t t' : Conf (a * 2) 2} (hne : pairUp ε t t' ≠ 0) (s : Fin 2) :
    speciesCount t s = speciesCount t' s + 1 := by
  have h : ⁅speciesNumber a s, pairUp ε⁆ = (1 : ℂ) • pairUp ε := by
    rw [pairUp, bracket_sum, Finset.smul_sum]
    refine Finset.sum_congr rfl fun i _ => ?_
    rw [speciesNumber, sum_bracket]
    fin_cases s <;> simp [bracket_smul, number_bracket_pair, mode_low, mode_up, mode_same, ← Finset.sum_smul, ← Finset.smul_sum]
  exact_mod_cast count_of_bracket s h hne

/-! ### The exchange of the two species -/

/-- The product of the exchanges of the two modes of the listed sites. -/
noncomputable def speciesXch (l : List (Fin a)) : Op (a * 2) 2 := (l.map fun i => xch (mode i (0 : Fin 2)) (mode i 1)).prod

theorem speciesXch_left (l : List (Fin a)) : (speciesXch l)ᴴ * speciesXch l = 1 := by
  induction l with
  | nil => simp [speciesXch]
  | cons i l ih =>
    have e : speciesXch (i :: l) = xch (mode i (0 : Fin 2)) (mode i 1) * speciesXch l := by simp [speciesXch]
    rw [e, conjTranspose_mul, xch_conj, Matrix.mul_assoc, ← Matrix.mul_assoc (xch _ _) (xch _ _), xch_sq, Matrix.one_mul, ih]

theorem xch_pass {N : ℕ} (i j k : Fin N) : xch i j * create k = create (Equiv.swap i j k) * xch i j := by
  rw [← xch_moves, Matrix.mul_assoc, xch_sq, Matrix.mul_one]

theorem speciesXch_pass (l : List (Fin a)) (hl : l.Nodup) (i : Fin a) (s : Fin 2) :
    speciesXch l * create (mode i s) = create (mode i (if i ∈ l then 1 - s else s)) * speciesXch l := by
  induction l with
  | nil => simp [speciesXch]
  | cons j l ih =>
    have e : speciesXch (j :: l) = xch (mode j (0 : Fin 2)) (mode j 1) * speciesXch l := by simp [speciesXch]
    obtain ⟨hj, hl⟩ := List.nodup_cons.1 hl
    rw [e, Matrix.mul_assoc, ih hl, ← Matrix.mul_assoc, xch_pass, Matrix.mul_assoc]
    congr 2
    by_cases h : i = j
    · subst h
      rw [if_neg hj, if_pos (by simp)]
      fin_cases s
      · simp
      · simp
    · have h' : ∀ u v : Fin 2, (mode i u : Fin (a * 2)) ≠ mode j v := fun u v hm => h (mode_eq_iff.1 hm).1
      rw [Equiv.swap_apply_of_ne_of_ne (h' _ _) (h' _ _)]
      simp [h]

/-- The exchange of the two species at all sites. -/
noncomputable def speciesSwap (a : ℕ) : Op (a * 2) 2 := speciesXch (List.finRange a)

theorem speciesSwap_left : (speciesSwap a)ᴴ * speciesSwap a = 1 := speciesXch_left _

theorem speciesSwap_right : speciesSwap a * (speciesSwap a)ᴴ = 1 := mul_eq_one_comm.1 speciesSwap_left

theorem speciesSwap_create (i : Fin a) (s : Fin 2) : speciesSwap a * create (mode i s) = create (mode i (1 - s)) * speciesSwap a := by
  rw [speciesSwap, speciesXch_pass _ (List.nodup_finRange a), if_pos (List.mem_finRange i)]

theorem speciesSwap_annih (i : Fin a) (s : Fin 2) : speciesSwap a * annih (mode i s) = annih (mode i (1 - s)) * speciesSwap a := by
  have h := congrArg conjTranspose (speciesSwap_create (a := a) i s)
  rw [conjTranspose_mul, conjTranspose_mul, create_star, create_star] at h
  calc speciesSwap a * annih (mode i s) = speciesSwap a * (annih (mode i s) * (speciesSwap a)ᴴ) * speciesSwap a := by
        rw [Matrix.mul_assoc, Matrix.mul_assoc, speciesSwap_left, Matrix.mul_one]
    _ = _ := by rw [h, ← Matrix.mul_assoc, speciesSwap_right, Matrix.one_mul]

theorem speciesSwap_number (i : Fin a) (s : Fin 2) : speciesSwap a * number (mode i s) = number (mode i (1 - s)) * speciesSwap a := by
  rw [← create_annih, ← create_annih, ← Matrix.mul_assoc, speciesSwap_create, Matrix.mul_assoc, speciesSwap_annih, Matrix.mul_assoc]

theorem sum_two_swap {E : Type} [AddCommMonoid E] (f : Fin 2 → E) : ∑ s, f (1 - s) = ∑ s, f s := by
  rw [Fin.sum_univ_two, Fin.sum_univ_two, add_comm]
  rfl

theorem speciesSwap_pot' (V : Fin a → Fin 2 → ℂ) :
    speciesSwap a * hubPot V = hubPot (fun i s => V i (1 - s)) * speciesSwap a := by
  rw [hubPot, hubPot, Finset.mul_sum, Finset.sum_mul]
  refine Finset.sum_congr rfl fun i _ => ?_
  rw [Finset.mul_sum, Finset.sum_mul, ← sum_two_swap]
  refine Finset.sum_congr rfl fun s _ => ?_
  rw [Matrix.mul_smul, Matrix.smul_mul, speciesSwap_number, sub_sub_cancel]

theorem speciesSwap_pot (V : Fin a → Fin 2 → ℂ) (h : ∀ i, V i 0 = V i 1) : speciesSwap a * hubPot V = hubPot V * speciesSwap a := by
  have hs : (fun i s => V i (1 - s)) = V := by
    funext i s
    fin_cases s
    exacts [(h i).symm, h i]
  rw [speciesSwap_pot', hs]

theorem speciesSwap_inter (U : Fin a → ℂ) : speciesSwap a * (hubInter U : Op (a * 2) 2) = hubInter U * speciesSwap a := by
  rw [hubInter, dif_pos le_rfl, Finset.mul_sum, Finset.sum_mul]
  refine Finset.sum_congr rfl fun i _ => ?_
  change speciesSwap a * (U i • (number (mode i 0) * number (mode i 1))) = (U i • (number (mode i 0) * number (mode i 1))) * speciesSwap a
  rw [Matrix.mul_smul, Matrix.smul_mul, ← Matrix.mul_assoc, speciesSwap_number, Matrix.mul_assoc, speciesSwap_number,
    ← Matrix.mul_assoc, number_comm]
  rfl

theorem speciesSwap_same (W : Fin a → Fin a → Fin 2 → ℂ) (h : ∀ i j, j ≤ i → W i j 0 = W i j 1) :
    speciesSwap a * hubSame W = hubSame W * speciesSwap a := by
  have hs : ∀ i j s, j ≤ i → W i j (1 - s) = W i j s := fun i j s hij => by fin_cases s; exacts [(h i j hij).symm, h i j hij]
  rw [hubSame, Finset.mul_sum, Finset.sum_mul]
  refine Finset.sum_congr rfl fun i _ => ?_
  rw [Finset.mul_sum, Finset.sum_mul]
  refine Finset.sum_congr rfl fun j _ => ?_
  rw [Finset.mul_sum, Finset.sum_mul, ← sum_two_swap]
  refine Finset.sum_congr rfl fun s _ => ?_
  split_ifs with hij
  · rw [Matrix.mul_smul, Matrix.smul_mul, ← Matrix.mul_assoc, speciesSwap_number, Matrix.mul_assoc, speciesSwap_number,
      ← Matrix.mul_assoc, sub_sub_cancel, hs i j s hij]
  · simp

theorem speciesSwap_hop (T : Fin a → Fin a → Fin 2 → ℂ) (h : ∀ i j, j < i → T i j 0 = T i j 1) :
    speciesSwap a * hubHop T = hubHop T * speciesSwap a := by
  have hs : ∀ i j s, j < i → T i j (1 - s) = T i j s := fun i j s hij => by fin_cases s; exacts [(h i j hij).symm, h i j hij]
  rw [hubHop, Finset.mul_sum, Finset.sum_mul]
  refine Finset.sum_congr rfl fun i _ => ?_
  rw [Finset.mul_sum, Finset.sum_mul]
  refine Finset.sum_congr rfl fun j _ => ?_
  rw [Finset.mul_sum, Finset.sum_mul, ← sum_two_swap]
  refine Finset.sum_congr rfl fun s _ => ?_
  split_ifs with hij
  · rw [Matrix.mul_neg, Matrix.neg_mul, Matrix.mul_smul, Matrix.smul_mul, Matrix.mul_add, Matrix.add_mul, ← Matrix.mul_assoc,
      ← Matrix.mul_assoc, speciesSwap_create, speciesSwap_create, Matrix.mul_assoc, Matrix.mul_assoc, speciesSwap_annih,
      speciesSwap_annih, ← Matrix.mul_assoc, ← Matrix.mul_assoc, sub_sub_cancel, hs i j s hij]
  · simp

theorem speciesSwap_species (s : Fin 2) : speciesSwap a * speciesNumber a s = speciesNumber a (1 - s) * speciesSwap a := by
  rw [speciesNumber, speciesNumber, Finset.mul_sum, Finset.sum_mul]
  exact Finset.sum_congr rfl fun i _ => speciesSwap_number i s

theorem speciesSwap_count {t t' : Conf (a * 2) 2} (hne : speciesSwap a t t' ≠ 0) (s : Fin 2) :
    speciesCount t (1 - s) = speciesCount t' s := by
  have h := speciesSwap_species (a := a) s
  rw [speciesNumber_diagonal, speciesNumber_diagonal] at h
  have := congrFun (congrFun h t) t'
  rw [diagonal_mul, mul_diagonal, mul_comm] at this
  exact_mod_cast (mul_right_cancel₀ hne this).symm

/-! ### Models without interactions between different sites -/

theorem number_sq' {N : ℕ} (k : Fin N) : number k * number k = (number k : Op N 2) := by
  rw [number, diagonal_mul_diagonal]
  congr 1
  funext t
  split_ifs <;> simp

/-- Interactions of particles with themselves are potentials. -/
theorem hubSame_local {b : ℕ} (W : Fin a → Fin a → Fin b → ℂ) (h : ∀ i j s, j < i → W i j s = 0) :
    (hubSame W : Op (a * b) 2) = hubPot fun i s => W i i s := by
  rw [hubSame, hubPot]
  refine Finset.sum_congr rfl fun i _ => ?_
  rw [Finset.sum_eq_single i]
  · simp [number_sq']
  · intro j _ hj
    refine Finset.sum_eq_zero fun s _ => ?_
    split_ifs with hle
    · rw [h i j s (lt_of_le_of_ne hle hj), zero_smul]
    · rfl
  · simp

theorem hubPot_const (c : ℂ) : (hubPot fun _ _ => c : Op (a * 2) 2) = c • (speciesNumber a (0 : Fin 2) + speciesNumber a 1) := by
  simp only [hubPot, speciesNumber, Fin.sum_univ_two, ← Finset.sum_add_distrib, Finset.smul_sum, smul_add]

/-- Exchanging both particles with holes and the two species. -/
noncomputable def pairFlip (σ : Fin a → ℤ) : Op (a * 2) 2 := speciesSwap a * (phOp (modeSign σ))ᴴ

variable {σ : Fin a → ℤ}

theorem pairFlip_left (hσ : ∀ i, σ i * σ i = 1) : (pairFlip σ)ᴴ * pairFlip σ = 1 := by
  have h := mul_eq_one_comm.1 (phOp_unitary (modeSign_sq (b := 2) hσ))
  rw [pairFlip, conjTranspose_mul, conjTranspose_conjTranspose, Matrix.mul_assoc, ← Matrix.mul_assoc (speciesSwap a)ᴴ,
    speciesSwap_left, Matrix.one_mul, h]

theorem pairFlip_mul (hσ : ∀ i, σ i * σ i = 1) (A : Op (a * 2) 2) :
    pairFlip σ * A = speciesSwap a * phConj σ A * (phOp (modeSign σ))ᴴ := by
  have h := mul_eq_one_comm.1 (phOp_unitary (modeSign_sq (b := 2) hσ))
  rw [pairFlip, phConj]
  simp only [Matrix.mul_assoc]
  rw [h, Matrix.mul_one]

theorem pairFlip_count (hσ : ∀ i, σ i * σ i = 1) {t t' : Conf (a * 2) 2} (hne : pairFlip σ t t' ≠ 0) (s : Fin 2) :
    speciesCount t (1 - s) + speciesCount t' s = a := by
  have h : pairFlip σ * speciesNumber a s = ((a : ℂ) • 1 - speciesNumber a (1 - s)) * pairFlip σ := by
    have h0 : phConj σ (speciesNumber a s) = (a : ℂ) • 1 - speciesNumber a s := by
      rw [speciesNumber, phConj_sum]
      simp only [phConj_number hσ, Finset.sum_sub_distrib, Finset.sum_const, Finset.card_univ, Fintype.card_fin,
        Nat.cast_smul_eq_nsmul]
    rw [pairFlip_mul hσ, h0, Matrix.mul_sub, speciesSwap_species, Matrix.sub_mul, Matrix.sub_mul, pairFlip]
    simp only [Matrix.mul_smul, Matrix.smul_mul, Matrix.mul_one, Matrix.one_mul, Matrix.mul_assoc]
  rw [speciesNumber_diagonal, speciesNumber_diagonal] at h
  have := congrFun (congrFun h t) t'
  rw [mul_diagonal, Matrix.sub_mul, Matrix.sub_apply, diagonal_mul, Matrix.smul_mul, Matrix.one_mul, Matrix.smul_apply, smul_eq_mul] at this
  have h2 : ((speciesCount t (1 - s) : ℂ) + speciesCount t' s - a) * pairFlip σ t t' = 0 := by linear_combination this
  exact_mod_cast sub_eq_zero.1 ((mul_eq_zero.1 h2).resolve_right hne)

/-- A Hamiltonian whose pairs have the energy `Δ` at every site. -/
theorem pairFlip_hamiltonian (hσ : ∀ i, σ i * σ i = 1) (U : Fin a → ℂ) (T : Fin a → Fin a → Fin 2 → ℂ) (v : Fin a → Fin 2 → ℂ) (Δ : ℂ)
    (hT : ∀ i j, j < i → T i j 0 = T i j 1) (hT' : ∀ i j s, j < i → T i j s = 0 ∨ σ i * σ j = -1)
    (hv : ∀ i, U i + v i 0 + v i 1 = Δ) :
    pairFlip σ * (hubInter U + hubHop T + hubPot v) =
      (hubInter U + hubHop T + hubPot v - Δ • (speciesNumber a (0 : Fin 2) + speciesNumber a 1) + ((a : ℂ) * Δ) • 1) * pairFlip σ := by
  have e1 : phConj σ (hubInter U + hubHop T + hubPot v) = hubInter U + hubHop T + hubPot (fun i s => v i (1 - s) - Δ) +
      ((a : ℂ) * Δ) • (1 : Op (a * 2) 2) := by
    rw [phConj_add, phConj_add, phConj_hubInter hσ, phConj_hubHop hσ hT', phConj_hubPot hσ, if_pos le_rfl]
    have e2 : (hubPot (fun i s => v i (1 - s) - Δ) : Op (a * 2) 2) = hubPot (fun i (s : Fin 2) => -if 2 ≤ 2 ∧ (s : ℕ) < 2 then U i else 0) +
        hubPot (fun i s => -v i s) := by
      rw [hubPot_add]
      congr 1
      funext i s
      rw [if_pos ⟨le_rfl, s.2⟩, ← hv i]
      fin_cases s
      · change v i 1 - _ = -_ + -v i 0
        ring
      · change v i 0 - _ = -_ + -v i 1
        ring
    have e3 : (a : ℂ) * Δ = (∑ i, U i) + ∑ i, ∑ s, v i s := by
      rw [← Finset.sum_add_distrib]
      simp only [Fin.sum_univ_two, ← add_assoc, hv, Finset.sum_const, Finset.card_univ, Fintype.card_fin, nsmul_eq_mul]
    rw [e2, e3, add_smul]
    abel
  have e4 : (hubPot (fun i s => v i s - Δ) : Op (a * 2) 2) = hubPot v - Δ • (speciesNumber a (0 : Fin 2) + speciesNumber a 1) := by
    rw [← hubPot_const, eq_sub_iff_add_eq, hubPot_add]
    simp
  rw [pairFlip_mul hσ, e1, Matrix.mul_add, Matrix.mul_add, Matrix.mul_add, speciesSwap_inter, speciesSwap_hop T hT, speciesSwap_pot',
    Matrix.mul_smul, Matrix.mul_one]
  simp only [sub_sub_cancel]
  rw [e4, pairFlip]
  simp only [Matrix.add_mul, Matrix.sub_mul, Matrix.smul_mul, Matrix.one_mul, Matrix.mul_assoc]
  abel

end ED
