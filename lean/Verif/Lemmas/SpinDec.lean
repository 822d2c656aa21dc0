import Verif.Lemmas.ClebschGordan
import Verif.Spec.Nested
import Mathlib.Algebra.BigOperators.Group.Finset.Sigma
import Mathlib.LinearAlgebra.Matrix.Charpoly.Basic

/-! # Helper lemmas: decomposition of many spins into multiplets -/

namespace ED

open scoped BigOperators
open Matrix Kronecker

/-- The operators `e, f, h` (raising, lowering, twice the z component) and `H` are a sum of spins; the multiset holds twice the
length of each spin and the value of `H` on it. -/
inductive Dec : ∀ {α : Type} [Fintype α] [DecidableEq α], Matrix α α ℂ → Matrix α α ℂ → Matrix α α ℂ → Matrix α α ℂ → Multiset (ℕ × ℝ) → Prop
  | std (a : ℕ) (E : ℝ) : Dec (stdE a) (stdF a) (stdH a) ((E : ℂ) • 1) {(a, E)}
  | sigma {ι : Type} [Fintype ι] [DecidableEq ι] {β : ι → Type} [∀ i, Fintype (β i)] [∀ i, DecidableEq (β i)]
      (e f h H : ∀ i, Matrix (β i) (β i) ℂ) (s : ι → Multiset (ℕ × ℝ)) (hs : ∀ i, Dec (e i) (f i) (h i) (H i) (s i)) :
      Dec (blockDiagonal' e) (blockDiagonal' f) (blockDiagonal' h) (blockDiagonal' H) (∑ i, s i)
  | conj {α β : Type} [Fintype α] [DecidableEq α] [Fintype β] [DecidableEq β] {e f h H : Matrix α α ℂ} {e' f' h' H' : Matrix β β ℂ}
      {s : Multiset (ℕ × ℝ)} (U : Matrix α β ℂ) (V : Matrix β α ℂ) (h1 : U * V = 1) (h2 : V * U = 1) (he : e * U = U * e')
      (hf : f * U = U * f') (hh : h * U = U * h') (hH : H * U = U * H') (hd : Dec e' f' h' H' s) : Dec e f h H s

theorem Dec.reindex {α β : Type} [Fintype α] [DecidableEq α] [Fintype β] [DecidableEq β] {e f h H : Matrix α α ℂ}
    {s : Multiset (ℕ × ℝ)} (ε : β ≃ α) (hd : Dec (e.submatrix ε ε) (f.submatrix ε ε) (h.submatrix ε ε) (H.submatrix ε ε) s) :
    Dec e f h H s := by
  have key : ∀ A : Matrix α α ℂ, A * (1 : Matrix α α ℂ).submatrix id ε = (1 : Matrix α α ℂ).submatrix id ε * A.submatrix ε ε := by
    intro A
    rw [submatrix_mul_equiv, Matrix.one_mul]
    ext x y
    rw [mul_apply, submatrix_apply, id]
    simp [Matrix.one_apply]
  refine Dec.conj ((1 : Matrix α α ℂ).submatrix id ε) ((1 : Matrix α α ℂ).submatrix ε id) ?_ ?_ (key e) (key f) (key h) (key H) hd
  · rw [submatrix_mul_equiv, Matrix.one_mul, submatrix_id_id]
  · ext x y
    rw [mul_apply]
    simp [Matrix.one_apply]

section
variable {α β γ δ : Type} [Fintype α] [Fintype β] [DecidableEq α] [DecidableEq β] [Fintype γ] [Fintype δ] [DecidableEq γ] [DecidableEq δ]

/-- Coupling of two spins, `2 S S`. -/
noncomputable def inter (e f h : Matrix α α ℂ) (e' f' h' : Matrix γ γ ℂ) : Matrix (α × γ) (α × γ) ℂ :=
  f ⊗ₖ e' + e ⊗ₖ f' + (1 / 2 : ℂ) • (h ⊗ₖ h')

theorem casim_both (e f h : Matrix α α ℂ) (e' f' h' : Matrix γ γ ℂ) :
    casim (both e e') (both f f') (both h h') = both (casim e f h) (casim e' f' h') + (4 : ℂ) • inter e f h e' f' h' := by
  simp only [casim, both, inter, Matrix.mul_add, Matrix.add_mul, ← mul_kronecker_mul, Matrix.mul_one, Matrix.one_mul, add_kronecker,
    kronecker_add, smul_kronecker, kronecker_smul, smul_add, smul_smul]
  norm_num
  rw [show (4 : ℂ) = 2 + 2 by norm_num]
  module

theorem casim_conj {e f h : Matrix α α ℂ} {e' f' h' : Matrix β β ℂ} {U : Matrix α β ℂ} (he : e * U = U * e') (hf : f * U = U * f')
    (hh : h * U = U * h') : casim e f h * U = U * casim e' f' h' := by
  simp only [casim, Matrix.add_mul, Matrix.mul_add, Matrix.smul_mul, Matrix.mul_smul, Matrix.mul_assoc, he, hf, hh]
  simp only [← Matrix.mul_assoc, he, hf, hh]

theorem both_conj {A : Matrix α α ℂ} {A' : Matrix β β ℂ} {B : Matrix γ γ ℂ} {B' : Matrix δ δ ℂ} {U : Matrix α β ℂ} {W : Matrix γ δ ℂ}
    (hA : A * U = U * A') (hB : B * W = W * B') : both A B * (U ⊗ₖ W) = (U ⊗ₖ W) * both A' B' := by
  simp only [both, Matrix.add_mul, Matrix.mul_add, ← mul_kronecker_mul, hA, hB, Matrix.one_mul, Matrix.mul_one]

theorem inter_conj {e f h : Matrix α α ℂ} {e' f' h' : Matrix β β ℂ} {U : Matrix α β ℂ} {p q r : Matrix γ γ ℂ} {p' q' r' : Matrix δ δ ℂ}
    {W : Matrix γ δ ℂ} (he : e * U = U * e') (hf : f * U = U * f') (hh : h * U = U * h') (hp : p * W = W * p') (hq : q * W = W * q')
    (hr : r * W = W * r') : inter e f h p q r * (U ⊗ₖ W) = (U ⊗ₖ W) * inter e' f' h' p' q' r' := by
  simp only [inter, Matrix.add_mul, Matrix.mul_add, Matrix.smul_mul, Matrix.mul_smul, ← mul_kronecker_mul, he, hf, hh, hp, hq, hr]

end

/-- The multiplets of the product of two multiplets, coupled by `g * 2 S S`. -/
noncomputable def couple (g : ℝ) (p q : ℕ × ℝ) : Multiset (ℕ × ℝ) :=
  (Multiset.range (min p.1 q.1 + 1)).map fun k =>
    (p.1 + q.1 - 2 * k, p.2 + q.2 + g * (spinSq (p.1 + q.1 - 2 * k) - spinSq p.1 - spinSq q.1))

theorem casim_blocks {ι : Type} [Fintype ι] [DecidableEq ι] {β : ι → Type} [∀ i, Fintype (β i)] (e f h : ∀ i, Matrix (β i) (β i) ℂ) :
    casim (blockDiagonal' e) (blockDiagonal' f) (blockDiagonal' h) = blockDiagonal' fun i => casim (e i) (f i) (h i) := by
  simp only [casim]
  rw [← blockDiagonal'_mul, ← blockDiagonal'_mul, ← blockDiagonal'_smul, ← blockDiagonal'_smul, ← blockDiagonal'_add, ← blockDiagonal'_add]
  rfl

theorem sum_singletons {X : Type} (n : ℕ) (f : ℕ → X) : (∑ k : Fin n, ({f k} : Multiset X)) = (Multiset.range n).map f := by
  induction n with
  | zero => simp
  | succ n ih =>
    rw [Fin.sum_univ_castSucc, Multiset.range_succ, Multiset.map_cons, ← Multiset.singleton_add, add_comm]
    exact congrArg _ ih

theorem map_univ {ι X : Type} [Fintype ι] (f : ι → X) : Finset.univ.val.map f = ∑ k, ({f k} : Multiset X) := by
  rw [Finset.sum, ← Multiset.sum_map_singleton (Finset.univ.val.map f), Multiset.map_map]
  rfl

theorem sum_bind {ι X Y : Type} [Fintype ι] (s : ι → Multiset X) (f : X → Multiset Y) : (∑ i, s i).bind f = ∑ i, (s i).bind f := by
  let φ : Multiset X →+ Multiset Y := ⟨⟨fun s => s.bind f, Multiset.zero_bind _⟩, fun s t => Multiset.add_bind _ _ _⟩
  exact map_sum φ s _

theorem Dec.couple_std (g : ℝ) (a b : ℕ) (E E' : ℝ) :
    Dec (both (stdE a) (stdE b)) (both (stdF a) (stdF b)) (both (stdH a) (stdH b))
      (((E : ℂ) • (1 : Matrix (Fin (a + 1)) (Fin (a + 1)) ℂ)) ⊗ₖ (1 : Matrix (Fin (b + 1)) (Fin (b + 1)) ℂ) +
        (1 : Matrix (Fin (a + 1)) (Fin (a + 1)) ℂ) ⊗ₖ ((E' : ℂ) • (1 : Matrix (Fin (b + 1)) (Fin (b + 1)) ℂ)) +
        (g : ℂ) • inter (stdE a) (stdF a) (stdH a) (stdE b) (stdF b) (stdH b)) (couple g (a, E) (b, E')) := by
  obtain ⟨U, V, h1, h2, h3, h4, h5⟩ := clebsch_gordan a b
  rw [couple, ← sum_singletons]
  refine Dec.conj U V h1 h2 h3 h4 h5 ?_ (Dec.sigma _ _ _ _ _ fun k => Dec.std _ _)
  have hc := casim_conj h3 h4 h5
  rw [casim_blocks, casim_both, casim_std, casim_std] at hc
  simp only [casim_std] at hc
  have hi : inter (stdE a) (stdF a) (stdH a) (stdE b) (stdF b) (stdH b) * U =
      (1 / 4 : ℂ) • (U * blockDiagonal' (fun k : Fin (min a b + 1) => (((a + b - 2 * k : ℕ) : ℂ) * ((a + b - 2 * k : ℕ) + 2)) •
        (1 : Matrix (Fin (a + b - 2 * k + 1)) (Fin (a + b - 2 * k + 1)) ℂ)) - ((a : ℂ) * (a + 2) + b * (b + 2)) • U) := by
    rw [← hc, both, smul_kronecker, kronecker_smul, one_kronecker_one, Matrix.add_mul, Matrix.add_mul, Matrix.smul_mul, Matrix.smul_mul,
      Matrix.smul_mul, Matrix.one_mul]
    module
  rw [Matrix.add_mul, Matrix.add_mul, Matrix.smul_mul, hi, smul_kronecker, kronecker_smul, one_kronecker_one, Matrix.smul_mul, Matrix.smul_mul,
    Matrix.one_mul]
  have hd : ∀ d : Fin (min a b + 1) → ℂ, U * blockDiagonal' (fun k : Fin (min a b + 1) => d k • (1 : Matrix (Fin (a + b - 2 * k + 1)) (Fin (a + b - 2 * k + 1)) ℂ)) =
      U * diagonal fun x => d x.1 := by
    intro d
    simp only [smul_one_eq_diagonal, blockDiagonal'_diagonal]
  rw [hd, hd]
  ext x y
  simp only [Matrix.add_apply, Matrix.smul_apply, Matrix.sub_apply, mul_diagonal, smul_eq_mul, spinSq]
  push_cast
  ring

/-- Blocks of a product whose first factor has blocks. -/
theorem blocks_fst {ι γ : Type} [DecidableEq ι] {β : ι → Type} (M : ∀ i, Matrix (β i) (β i) ℂ) (B : Matrix γ γ ℂ) :
    (blockDiagonal' M ⊗ₖ B).submatrix (Equiv.sigmaProdDistrib β γ).symm (Equiv.sigmaProdDistrib β γ).symm = blockDiagonal' fun i => M i ⊗ₖ B := by
  ext ⟨i, x, y⟩ ⟨j, x', y'⟩
  by_cases hij : i = j
  · subst hij
    rw [blockDiagonal'_apply_eq, submatrix_apply, kroneckerMap_apply, kroneckerMap_apply]
    change blockDiagonal' M ⟨i, x⟩ ⟨i, x'⟩ * _ = _
    rw [blockDiagonal'_apply_eq]
    rfl
  · rw [blockDiagonal'_apply_ne _ _ _ hij, submatrix_apply, kroneckerMap_apply]
    change blockDiagonal' M ⟨i, x⟩ ⟨j, x'⟩ * _ = _
    rw [blockDiagonal'_apply_ne _ _ _ hij, zero_mul]

/-- A multiplet coupled to many. -/
theorem Dec.tensor_std {α : Type} [Fintype α] [DecidableEq α] {e f h H : Matrix α α ℂ} {s : Multiset (ℕ × ℝ)} (hd : Dec e f h H s) (g : ℝ) (b : ℕ)
    (E' : ℝ) :
    Dec (both e (stdE b)) (both f (stdF b)) (both h (stdH b))
      (H ⊗ₖ (1 : Matrix (Fin (b + 1)) (Fin (b + 1)) ℂ) + (1 : Matrix α α ℂ) ⊗ₖ ((E' : ℂ) • (1 : Matrix (Fin (b + 1)) (Fin (b + 1)) ℂ)) +
        (g : ℂ) • inter e f h (stdE b) (stdF b) (stdH b)) (s.bind fun p => couple g p (b, E')) := by
  induction hd with
  | std a E =>
    rw [Multiset.singleton_bind]
    exact Dec.couple_std g a b E E'
  | @sigma ι _ _ β _ _ e f h H s hs ih =>
    rw [sum_bind]
    have h1 : ∀ B : Matrix (Fin (b + 1)) (Fin (b + 1)) ℂ,
        ((1 : Matrix (Σ i, β i) (Σ i, β i) ℂ) ⊗ₖ B).submatrix (Equiv.sigmaProdDistrib β (Fin (b + 1))).symm (Equiv.sigmaProdDistrib β (Fin (b + 1))).symm =
          blockDiagonal' fun i => (1 : Matrix (β i) (β i) ℂ) ⊗ₖ B := by
      intro B
      rw [← blocks_fst, ← blockDiagonal'_one]
      rfl
    have hb : ∀ (M : ∀ i, Matrix (β i) (β i) ℂ) (B : Matrix (Fin (b + 1)) (Fin (b + 1)) ℂ),
        (both (blockDiagonal' M) B).submatrix (Equiv.sigmaProdDistrib β (Fin (b + 1))).symm (Equiv.sigmaProdDistrib β (Fin (b + 1))).symm =
          blockDiagonal' fun i => both (M i) B := by
      intro M B
      rw [both, submatrix_add, Pi.add_apply, Pi.add_apply, blocks_fst, h1, ← blockDiagonal'_add]
      rfl
    refine Dec.reindex (Equiv.sigmaProdDistrib β (Fin (b + 1))).symm ?_
    rw [hb, hb, hb, submatrix_add, submatrix_add, submatrix_smul, inter, submatrix_add, submatrix_add, submatrix_smul]
    simp only [Pi.add_apply, Pi.smul_apply]
    rw [blocks_fst, blocks_fst, blocks_fst, blocks_fst, h1, ← blockDiagonal'_smul, ← blockDiagonal'_add, ← blockDiagonal'_add, ← blockDiagonal'_add,
      ← blockDiagonal'_smul, ← blockDiagonal'_add]
    exact Dec.sigma _ _ _ _ _ ih
  | conj U V h1 h2 he hf hh hH _ ih =>
    have e1 : ∀ B : Matrix (Fin (b + 1)) (Fin (b + 1)) ℂ, B * 1 = 1 * B := fun B => by rw [Matrix.one_mul, Matrix.mul_one]
    refine Dec.conj (U ⊗ₖ (1 : Matrix (Fin (b + 1)) (Fin (b + 1)) ℂ)) (V ⊗ₖ (1 : Matrix (Fin (b + 1)) (Fin (b + 1)) ℂ)) ?_ ?_ ?_ ?_ ?_ ?_ ih
    · rw [← mul_kronecker_mul, h1, Matrix.one_mul, one_kronecker_one]
    · rw [← mul_kronecker_mul, h2, Matrix.one_mul, one_kronecker_one]
    · exact both_conj he (e1 _)
    · exact both_conj hf (e1 _)
    · exact both_conj hh (e1 _)
    · rw [Matrix.add_mul, Matrix.mul_add, Matrix.smul_mul, Matrix.mul_smul, inter_conj he hf hh (e1 _) (e1 _) (e1 _), Matrix.add_mul, Matrix.mul_add]
      simp only [← mul_kronecker_mul, hH, e1, Matrix.one_mul, Matrix.mul_one]

/-- Exchange of the factors of a product. -/
theorem kronecker_swap {α β : Type} (A : Matrix α α ℂ) (B : Matrix β β ℂ) :
    (A ⊗ₖ B).submatrix (Equiv.prodComm β α) (Equiv.prodComm β α) = B ⊗ₖ A := by
  ext ⟨x, y⟩ ⟨x', y'⟩
  rw [submatrix_apply, kroneckerMap_apply, kroneckerMap_apply, mul_comm]
  rfl

theorem blocks_snd {ι γ : Type} [DecidableEq ι] {β : ι → Type} (B : Matrix γ γ ℂ) (M : ∀ i, Matrix (β i) (β i) ℂ) :
    (B ⊗ₖ blockDiagonal' M).submatrix (((Equiv.sigmaCongrRight fun i => Equiv.prodComm γ (β i)).trans (Equiv.sigmaProdDistrib β γ).symm).trans
      (Equiv.prodComm _ γ)) (((Equiv.sigmaCongrRight fun i => Equiv.prodComm γ (β i)).trans (Equiv.sigmaProdDistrib β γ).symm).trans
      (Equiv.prodComm _ γ)) = blockDiagonal' fun i => B ⊗ₖ M i := by
  ext ⟨i, x, y⟩ ⟨j, x', y'⟩
  by_cases hij : i = j
  · subst hij
    rw [blockDiagonal'_apply_eq, submatrix_apply, kroneckerMap_apply, kroneckerMap_apply]
    change _ * blockDiagonal' M ⟨i, y⟩ ⟨i, y'⟩ = _
    rw [blockDiagonal'_apply_eq]
    rfl
  · rw [blockDiagonal'_apply_ne _ _ _ hij, submatrix_apply, kroneckerMap_apply]
    change _ * blockDiagonal' M ⟨i, y⟩ ⟨j, y'⟩ = _
    rw [blockDiagonal'_apply_ne _ _ _ hij, mul_zero]

theorem bind_sum {ι X Y : Type} [Fintype ι] (s : Multiset X) (f : ι → X → Multiset Y) : (s.bind fun x => ∑ i, f i x) = ∑ i, s.bind (f i) := by
  induction s using Multiset.induction_on with
  | empty => simp
  | cons a s ih => simp only [Multiset.cons_bind, ih, Finset.sum_add_distrib]

/-- Two groups of spins, coupled equally. -/
theorem Dec.tensor {α γ : Type} [Fintype α] [DecidableEq α] [Fintype γ] [DecidableEq γ] {e f h H : Matrix α α ℂ} {s : Multiset (ℕ × ℝ)}
    {e' f' h' H' : Matrix γ γ ℂ} {s' : Multiset (ℕ × ℝ)} (hd : Dec e f h H s) (hd' : Dec e' f' h' H' s') (g : ℝ) :
    Dec (both e e') (both f f') (both h h')
      (H ⊗ₖ (1 : Matrix γ γ ℂ) + (1 : Matrix α α ℂ) ⊗ₖ H' + (g : ℂ) • inter e f h e' f' h') (s.bind fun p => s'.bind fun q => couple g p q) := by
  induction hd' with
  | std b E' =>
    simp only [Multiset.singleton_bind]
    exact hd.tensor_std g b E'
  | @sigma ι _ _ β _ _ e' f' h' H' s' hs ih =>
    simp only [sum_bind]
    rw [bind_sum]
    have h1 : ∀ B : Matrix α α ℂ, (B ⊗ₖ (1 : Matrix (Σ i, β i) (Σ i, β i) ℂ)).submatrix (((Equiv.sigmaCongrRight fun i => Equiv.prodComm α (β i)).trans
        (Equiv.sigmaProdDistrib β α).symm).trans (Equiv.prodComm _ α)) (((Equiv.sigmaCongrRight fun i => Equiv.prodComm α (β i)).trans
        (Equiv.sigmaProdDistrib β α).symm).trans (Equiv.prodComm _ α)) = blockDiagonal' fun i => B ⊗ₖ (1 : Matrix (β i) (β i) ℂ) := by
      intro B
      rw [← blocks_snd, ← blockDiagonal'_one]
      rfl
    have hb : ∀ (B : Matrix α α ℂ) (M : ∀ i, Matrix (β i) (β i) ℂ),
        (both B (blockDiagonal' M)).submatrix (((Equiv.sigmaCongrRight fun i => Equiv.prodComm α (β i)).trans
        (Equiv.sigmaProdDistrib β α).symm).trans (Equiv.prodComm _ α)) (((Equiv.sigmaCongrRight fun i => Equiv.prodComm α (β i)).trans
        (Equiv.sigmaProdDistrib β α).symm).trans (Equiv.prodComm _ α)) = blockDiagonal' fun i => both B (M i) := by
      intro B M
      rw [both, submatrix_add, Pi.add_apply, Pi.add_apply, blocks_snd, h1, ← blockDiagonal'_add]
      rfl
    refine Dec.reindex (((Equiv.sigmaCongrRight fun i => Equiv.prodComm α (β i)).trans
        (Equiv.sigmaProdDistrib β α).symm).trans (Equiv.prodComm _ α)) ?_
    rw [hb, hb, hb, submatrix_add, submatrix_add, submatrix_smul, inter, submatrix_add, submatrix_add, submatrix_smul]
    simp only [Pi.add_apply, Pi.smul_apply]
    rw [blocks_snd, blocks_snd, blocks_snd, blocks_snd, h1, ← blockDiagonal'_smul, ← blockDiagonal'_add, ← blockDiagonal'_add, ← blockDiagonal'_add,
      ← blockDiagonal'_smul, ← blockDiagonal'_add]
    exact Dec.sigma _ _ _ _ _ ih
  | conj U V h1 h2 he hf hh hH _ ih =>
    have e1 : ∀ B : Matrix α α ℂ, B * 1 = 1 * B := fun B => by rw [Matrix.one_mul, Matrix.mul_one]
    refine Dec.conj ((1 : Matrix α α ℂ) ⊗ₖ U) ((1 : Matrix α α ℂ) ⊗ₖ V) ?_ ?_ ?_ ?_ ?_ ?_ ih
    · rw [← mul_kronecker_mul, h1, Matrix.one_mul, one_kronecker_one]
    · rw [← mul_kronecker_mul, h2, Matrix.one_mul, one_kronecker_one]
    · exact both_conj (e1 _) he
    · exact both_conj (e1 _) hf
    · exact both_conj (e1 _) hh
    · rw [Matrix.add_mul, Matrix.mul_add, Matrix.smul_mul, Matrix.mul_smul, inter_conj (e1 _) (e1 _) (e1 _) he hf hh, Matrix.add_mul, Matrix.mul_add]
      simp only [← mul_kronecker_mul, hH, e1, Matrix.one_mul, Matrix.mul_one]

/-- The values of `H` and of the z component in a common basis. -/
theorem Dec.diag {α : Type} [Fintype α] [DecidableEq α] {e f h H : Matrix α α ℂ} {s : Multiset (ℕ × ℝ)} (hd : Dec e f h H s) :
    ∃ (κ : Type) (_ : Fintype κ) (_ : DecidableEq κ) (U : Matrix α κ ℂ) (V : Matrix κ α ℂ) (E Z : κ → ℝ), U * V = 1 ∧ V * U = 1 ∧
      H * U = U * diagonal (fun k => (E k : ℂ)) ∧ h * U = U * diagonal (fun k => ((2 * Z k : ℝ) : ℂ)) ∧
      (Finset.univ.val.map fun k => (E k, Z k)) = s.bind fun p => (Multiset.range (p.1 + 1)).map fun m : ℕ => (p.2, (p.1 : ℝ) / 2 - m) := by
  induction hd with
  | std a E =>
    refine ⟨Fin (a + 1), inferInstance, inferInstance, 1, 1, fun _ => E, fun m => (a : ℝ) / 2 - (m : ℕ), by simp, by simp, ?_, ?_, ?_⟩
    · rw [Matrix.mul_one, Matrix.one_mul, smul_one_eq_diagonal]
    · rw [Matrix.mul_one, Matrix.one_mul, stdH]
      congr 1; funext m; push_cast; ring
    · rw [Multiset.singleton_bind, ← sum_singletons, map_univ]
  | @sigma ι _ _ β _ _ e f h H s hs ih =>
    choose κ i1 i2 U V E Z h1 h2 h3 h4 h5 using ih
    refine ⟨Σ i, κ i, inferInstance, inferInstance, blockDiagonal' U, blockDiagonal' V, fun x => E x.1 x.2, fun x => Z x.1 x.2, ?_, ?_, ?_, ?_, ?_⟩
    · rw [← blockDiagonal'_mul]
      simp only [h1]
      exact blockDiagonal'_one
    · rw [← blockDiagonal'_mul]
      simp only [h2]
      exact blockDiagonal'_one
    · rw [← blockDiagonal'_diagonal fun i k => (E i k : ℂ), ← blockDiagonal'_mul, ← blockDiagonal'_mul]
      simp only [h3]
    · rw [← blockDiagonal'_diagonal fun i k => ((2 * Z i k : ℝ) : ℂ), ← blockDiagonal'_mul, ← blockDiagonal'_mul]
      simp only [h4]
    · rw [map_univ, Fintype.sum_sigma, sum_bind]
      refine Finset.sum_congr rfl fun i _ => ?_
      rw [← h5, map_univ]
  | conj U V h1 h2 he hf hh hH _ ih =>
    obtain ⟨κ, i1, i2, U', V', E, Z, k1, k2, k3, k4, k5⟩ := ih
    refine ⟨κ, i1, i2, U * U', V' * V, E, Z, ?_, ?_, ?_, ?_, k5⟩
    · rw [Matrix.mul_assoc, ← Matrix.mul_assoc U', k1, Matrix.one_mul, h1]
    · rw [Matrix.mul_assoc, ← Matrix.mul_assoc V, h2, Matrix.one_mul, k2]
    · rw [← Matrix.mul_assoc, hH, Matrix.mul_assoc, k3, Matrix.mul_assoc]
    · rw [← Matrix.mul_assoc, hh, Matrix.mul_assoc, k4, Matrix.mul_assoc]

end ED
