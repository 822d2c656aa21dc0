import Verif.Lemmas.ReduceGroup
import Verif.Lemmas.SpinAlg
import Verif.Lemmas.Xform
import Verif.Lemmas.Gives

/-! # The symmetry operators of the library form a representation by signed permutations -/

namespace ED

open scoped BigOperators Matrix
open Spec

/-- `U` maps every configuration, up to a sign, to the configuration with the modes permuted. -/
def SignedMove {N : ℕ} (U : Op N 2) (σ : Equiv.Perm (Fin N)) : Prop :=
  ∀ s : Conf N 2, ∃ e : ℂ, (e = 1 ∨ e = -1) ∧ U.mulVec (ket s) = e • ket fun m => s (σ.symm m)

theorem MovesFermions.signed {nsites nspecies : ℕ} {U : Op (nsites * nspecies) 2}
    {f : Fin nspecies → Equiv.Perm (Fin nsites)} (h : MovesFermions U f) : SignedMove U (modePerm f) := by
  have hmv : ∀ k, U * create k = create (modePerm f k) * U := by
    intro k
    obtain ⟨i, s, rfl⟩ := mode_surj k
    rw [modePerm_mode, ← h.moves, mul_assoc _ _ U, h.left_inv, mul_one]
  have key : ∀ (n : ℕ) (s : Conf (nsites * nspecies) 2), occ s = n →
      ∃ e : ℂ, (e = 1 ∨ e = -1) ∧ U.mulVec (ket s) = e • ket fun m => s ((modePerm f).symm m) := by
    intro n
    induction n with
    | zero =>
      intro s hs
      have : s = vac := by
        funext j
        have hj : ¬ s j = 1 := by
          intro hj
          have : j ∈ Finset.univ.filter fun j => s j = 1 := by simp [hj]
          rw [occ, Finset.card_eq_zero] at hs
          rw [hs] at this
          simp at this
        have := (s j).2
        refine Fin.ext ?_
        have h2 : ((s j : Fin 2) : ℕ) ≠ 1 := fun e => hj (Fin.ext e)
        simp only [vac]
        change (s j : ℕ) = 0
        omega
      refine ⟨1, Or.inl rfl, ?_⟩
      rw [this, h.vacuum, one_smul]
      rfl
    | succ n ih =>
      intro s hs
      have hne : (Finset.univ.filter fun j => s j = 1).Nonempty := by
        rw [← Finset.card_pos]; unfold occ at hs; omega
      obtain ⟨i, hi⟩ := hne
      have hi' : s i = 1 := by simpa using hi
      have hocc : occ (Function.update s i 0) = n := by
        have e : (Finset.univ.filter fun j => Function.update s i 0 j = 1) =
            (Finset.univ.filter fun j => s j = 1).erase i := by
          ext j
          by_cases hj : j = i
          · subst hj; simp
          · simp [hj]
        rw [occ, e, Finset.card_erase_of_mem hi]
        unfold occ at hs; omega
      obtain ⟨e, he, hU⟩ := ih _ hocc
      have h1 := create_ket s i hi'
      have h2 : (fun m => Function.update s i 0 ((modePerm f).symm m)) =
          Function.update (fun m => s ((modePerm f).symm m)) (modePerm f i) 0 := by
        funext m
        by_cases hm : m = modePerm f i
        · subst hm; simp
        · have : (modePerm f).symm m ≠ i := fun e => hm (by rw [← e]; simp)
          rw [Function.update_of_ne this, Function.update_of_ne hm]
      have h3 := create_ket (fun m => s ((modePerm f).symm m)) (modePerm f i) (by simpa using hi')
      have h4 : U.mulVec ((create i).mulVec (ket (Function.update s i 0))) =
          (e * (-1 : ℂ) ^ occAfter (modePerm f i) fun m => s ((modePerm f).symm m)) •
            ket fun m => s ((modePerm f).symm m) := by
        rw [Matrix.mulVec_mulVec, hmv, ← Matrix.mulVec_mulVec, hU, Matrix.mulVec_smul, h2, h3, smul_smul]
      rw [h1, Matrix.mulVec_smul] at h4
      have hq : ∀ k : ℕ, ((-1 : ℂ) ^ k = 1 ∨ (-1 : ℂ) ^ k = -1) := fun k => neg_one_pow_eq_or ℂ k
      have h5 : U.mulVec (ket s) = (((-1 : ℂ) ^ occAfter i s) *
          (e * (-1 : ℂ) ^ occAfter (modePerm f i) fun m => s ((modePerm f).symm m))) •
            ket fun m => s ((modePerm f).symm m) := by
        rw [mul_smul, ← h4, smul_smul, ← pow_add, Even.neg_one_pow ⟨_, rfl⟩, one_smul]
      refine ⟨_, ?_, h5⟩
      rcases hq (occAfter i s) with a | a <;> rcases he with b | b <;>
        rcases hq (occAfter (modePerm f i) fun m => s ((modePerm f).symm m)) with c | c <;> rw [a, b, c] <;> simp
  exact fun s => key _ s rfl

theorem MovesLabels.signed {N : ℕ} {U : Op N 2} {σ : Equiv.Perm (Fin N)} (h : MovesLabels U σ) : SignedMove U σ :=
  fun s => ⟨1, Or.inl rfl, by rw [h s, one_smul]⟩

/-- A number is not a permutation of modes, except for the identity. -/
theorem SignedMove.num {N : ℕ} {σ : Equiv.Perm (Fin N)} {z : ℂ} (h : SignedMove (z • (1 : Op N 2)) σ) : σ = 1 := by
  ext m
  by_contra hm
  obtain ⟨e, he, hU⟩ := h (single m)
  rw [Matrix.smul_mulVec, Matrix.one_mulVec] at hU
  have h1 := congrFun hU fun k => single m (σ.symm k)
  simp only [Pi.smul_apply, ket, smul_eq_mul, if_true, mul_one] at h1
  rw [if_neg, mul_zero] at h1
  · rcases he with rfl | rfl <;> norm_num at h1
  · intro heq
    have h2 := congrFun heq (σ m)
    have hne : σ m ≠ m := fun h => hm (by rw [h]; rfl)
    simp [single, Function.update_of_ne hne, vac] at h2

theorem numBij (N : ℕ) : Function.Bijective fun s : Conf N 2 => (⟨idx s, idx_lt s⟩ : Fin (2 ^ N)) :=
  ⟨fun s t h => idx_injective (by simpa using h), fun x => by
    obtain ⟨s, hs⟩ := idx_surj (n := N) (b := 2) x x.2
    exact ⟨s, Fin.ext hs⟩⟩

/-- Numbering of the configurations. -/
noncomputable def numEquiv (N : ℕ) : Conf N 2 ≃ Fin (2 ^ N) := Equiv.ofBijective _ (numBij N)

theorem asMatrix_is {N : ℕ} {M : Mat} {U : Op N 2} (h : M.Is U) :
    asMatrix M (2 ^ N) = Matrix.reindexAlgEquiv ℂ ℂ (numEquiv N) U := by
  ext i j
  obtain ⟨s, rfl⟩ := (numEquiv N).surjective i
  obtain ⟨t, rfl⟩ := (numEquiv N).surjective j
  rw [Matrix.coe_reindexAlgEquiv, Matrix.reindex_apply, Matrix.submatrix_apply, Equiv.symm_apply_apply,
    Equiv.symm_apply_apply]
  exact h.2.2 s t

theorem SignedMove.permutation {N : ℕ} {M : Mat} {U : Op N 2} {σ : Equiv.Perm (Fin N)} (h : SignedMove U σ)
    (hM : M.Is U) : SignedPermutation (asMatrix M (2 ^ N)) := by
  classical
  choose e he hU using h
  let mv : Conf N 2 ≃ Conf N 2 := ⟨fun s m => s (σ m), fun s m => s (σ.symm m), fun s => by funext m; simp,
    fun s => by funext m; simp⟩
  refine ⟨(numEquiv N).symm.trans (mv.trans (numEquiv N)), fun i => e (mv ((numEquiv N).symm i)), fun i => he _, ?_⟩
  intro i j
  obtain ⟨s, rfl⟩ := (numEquiv N).surjective i
  obtain ⟨t, rfl⟩ := (numEquiv N).surjective j
  rw [asMatrix_is hM, Matrix.coe_reindexAlgEquiv, Matrix.reindex_apply, Matrix.submatrix_apply, Equiv.symm_apply_apply,
    Equiv.symm_apply_apply]
  have h1 := congrFun (hU t) s
  rw [mulVec_ket] at h1
  rw [h1, Pi.smul_apply, ket, smul_eq_mul]
  simp only [Equiv.trans_apply, Equiv.symm_apply_apply, EmbeddingLike.apply_eq_iff_eq]
  have hiff : (s = fun m => t (σ.symm m)) ↔ t = mv s := by
    constructor
    · intro hs
      rw [hs]
      funext m
      simp [mv]
    · intro ht
      rw [ht]
      funext m
      simp [mv]
  by_cases hs : t = mv s
  · rw [if_pos (hiff.2 hs), if_pos hs, mul_one, hs]
  · rw [if_neg (fun h => hs (hiff.1 h)), if_neg hs, mul_zero]

/-- The operators of site permutations: a product belongs to the product of the permutations, and they are
unique. -/
structure Faithful {ι : Type} [Fintype ι] [DecidableEq ι] {n : ℕ}
    (Good : Matrix ι ι ℂ → Equiv.Perm (Fin n) → Prop) : Prop where
  one : Good 1 1
  mul : ∀ U V f g, Good U f → Good V g → Good (U * V) (f * g)
  unique : ∀ U V f, Good U f → Good V f → U = V

namespace Faithful

variable {ι : Type} [Fintype ι] [DecidableEq ι] {n : ℕ} {Good : Matrix ι ι ℂ → Equiv.Perm (Fin n) → Prop}
  (h : Faithful Good)
include h

theorem pow {U : Matrix ι ι ℂ} {f : Equiv.Perm (Fin n)} (hU : Good U f) (k : ℕ) : Good (U ^ k) (f ^ k) := by
  induction k with
  | zero => rw [pow_zero, pow_zero]; exact h.one
  | succ k ih => rw [pow_succ, pow_succ]; exact h.mul _ _ _ _ ih hU

theorem dihedral {m : ℕ} {R S : Matrix ι ι ℂ} {ρ τ : Equiv.Perm (Fin n)} (hR : Good R ρ) (hS : Good S τ)
    (hd : Dihedral m ρ τ) : Dihedral m R S := by
  refine ⟨?_, ?_, ?_⟩
  · exact h.unique _ _ _ (h.pow hR m) (hd.rot ▸ h.one)
  · exact h.unique _ _ _ (h.mul _ _ _ _ hS hS) (hd.refl ▸ h.one)
  · exact h.unique _ _ _ (h.mul _ _ _ _ (h.mul _ _ _ _ hS hR) hS) (hd.conj ▸ h.pow hR (m - 1))

theorem torus {R S X Y : Matrix ι ι ℂ} {ρ τ ξ υ : Equiv.Perm (Fin n)} (hR : Good R ρ) (hS : Good S τ) (hX : Good X ξ)
    (hY : Good Y υ) (hd : Torus3 ρ τ ξ υ) : Torus3 R S X Y := by
  refine ⟨h.dihedral hR hS hd.dihedral, ?_, ?_, ?_, ?_, ?_, ?_, ?_⟩
  · exact h.unique _ _ _ (h.pow hX 3) (hd.x ▸ h.one)
  · exact h.unique _ _ _ (h.pow hY 3) (hd.y ▸ h.one)
  · exact h.unique _ _ _ (h.mul _ _ _ _ hX hY) (hd.xy ▸ h.mul _ _ _ _ hY hX)
  · exact h.unique _ _ _ (h.mul _ _ _ _ hR hX) (hd.rx ▸ h.mul _ _ _ _ hY hR)
  · exact h.unique _ _ _ (h.mul _ _ _ _ hR hY) (hd.ry ▸ h.mul _ _ _ _ (h.pow hX 2) hR)
  · exact h.unique _ _ _ (h.mul _ _ _ _ hS hX) (hd.sx ▸ h.mul _ _ _ _ (h.pow hX 2) hS)
  · exact h.unique _ _ _ (h.mul _ _ _ _ hS hY) (hd.sy ▸ h.mul _ _ _ _ hY hS)

theorem torus_cw {R S X Y : Matrix ι ι ℂ} {ρ τ ξ υ : Equiv.Perm (Fin n)} (hR : Good R ρ) (hS : Good S τ) (hX : Good X ξ)
    (hY : Good Y υ) (hd : Torus3cw ρ τ ξ υ) : Torus3cw R S X Y := by
  refine ⟨h.dihedral hR hS hd.dihedral, ?_, ?_, ?_, ?_, ?_, ?_, ?_⟩
  · exact h.unique _ _ _ (h.pow hX 3) (hd.x ▸ h.one)
  · exact h.unique _ _ _ (h.pow hY 3) (hd.y ▸ h.one)
  · exact h.unique _ _ _ (h.mul _ _ _ _ hX hY) (hd.xy ▸ h.mul _ _ _ _ hY hX)
  · exact h.unique _ _ _ (h.mul _ _ _ _ hR hX) (hd.rx ▸ h.mul _ _ _ _ (h.pow hY 2) hR)
  · exact h.unique _ _ _ (h.mul _ _ _ _ hR hY) (hd.ry ▸ h.mul _ _ _ _ hX hR)
  · exact h.unique _ _ _ (h.mul _ _ _ _ hS hX) (hd.sx ▸ h.mul _ _ _ _ (h.pow hX 2) hS)
  · exact h.unique _ _ _ (h.mul _ _ _ _ hS hY) (hd.sy ▸ h.mul _ _ _ _ hY hS)

end Faithful

theorem faithful_fermions (nsites nspecies : ℕ) :
    Faithful fun (U : Op (nsites * nspecies) 2) (f : Equiv.Perm (Fin nsites)) =>
      MovesFermions U (fun _ : Fin nspecies => f) :=
  ⟨movesFermions_one, fun _ _ _ _ hU hV => hU.mul' hV, fun _ _ _ hU hV => hU.unique hV⟩

theorem faithful_spins (n : ℕ) : Faithful fun (U : Op n 2) (f : Equiv.Perm (Fin n)) => MovesLabels U f :=
  ⟨(movesLabels_iff _ _).2 permMat_one.symm,
    fun _ _ _ _ hU hV => (movesLabels_iff _ _).2 (by rw [(movesLabels_iff _ _).1 hU, (movesLabels_iff _ _).1 hV, permMat_mul]),
    fun _ _ _ hU hV => by rw [(movesLabels_iff _ _).1 hU, (movesLabels_iff _ _).1 hV]⟩

section transport

theorem Dihedral.map {A B : Type} [Monoid A] [Monoid B] (φ : A →* B) {m : ℕ} {R S : A} (hd : Dihedral m R S) :
    Dihedral m (φ R) (φ S) := by
  refine ⟨?_, ?_, ?_⟩
  · rw [← map_pow, hd.rot, map_one]
  · rw [← map_mul, hd.refl, map_one]
  · rw [← map_mul, ← map_mul, hd.conj, map_pow]

theorem Torus3.map {A B : Type} [Monoid A] [Monoid B] (φ : A →* B) {R S X Y : A} (hd : Torus3 R S X Y) :
    Torus3 (φ R) (φ S) (φ X) (φ Y) := by
  refine ⟨Dihedral.map φ hd.dihedral, ?_, ?_, ?_, ?_, ?_, ?_, ?_⟩
  · rw [← map_pow, hd.x, map_one]
  · rw [← map_pow, hd.y, map_one]
  · rw [← map_mul, hd.xy, map_mul]
  · rw [← map_mul, hd.rx, map_mul]
  · rw [← map_mul, hd.ry, map_mul, map_pow]
  · rw [← map_mul, hd.sx, map_mul, map_pow]
  · rw [← map_mul, hd.sy, map_mul]

theorem Torus3cw.map {A B : Type} [Monoid A] [Monoid B] (φ : A →* B) {R S X Y : A} (hd : Torus3cw R S X Y) :
    Torus3cw (φ R) (φ S) (φ X) (φ Y) := by
  refine ⟨Dihedral.map φ hd.dihedral, ?_, ?_, ?_, ?_, ?_, ?_, ?_⟩
  · rw [← map_pow, hd.x, map_one]
  · rw [← map_pow, hd.y, map_one]
  · rw [← map_mul, hd.xy, map_mul]
  · rw [← map_mul, hd.rx, map_mul, map_pow]
  · rw [← map_mul, hd.ry, map_mul]
  · rw [← map_mul, hd.sx, map_mul, map_pow]
  · rw [← map_mul, hd.sy, map_mul]

variable {N : ℕ} {MR MS MX MY MH : Mat} {R S X Y H : Op N 2}

theorem dihedral_asMatrix {m : ℕ} (hR : MR.Is R) (hS : MS.Is S) (hd : Dihedral m R S) :
    Dihedral m (asMatrix MR (2 ^ N)) (asMatrix MS (2 ^ N)) := by
  rw [asMatrix_is hR, asMatrix_is hS]
  exact Dihedral.map (Matrix.reindexAlgEquiv ℂ ℂ (numEquiv N) : Matrix (Conf N 2) (Conf N 2) ℂ →* Matrix (Fin (2 ^ N)) (Fin (2 ^ N)) ℂ) hd

theorem torus_asMatrix (hR : MR.Is R) (hS : MS.Is S) (hX : MX.Is X) (hY : MY.Is Y) (hd : Torus3 R S X Y) :
    Torus3 (asMatrix MR (2 ^ N)) (asMatrix MS (2 ^ N)) (asMatrix MX (2 ^ N)) (asMatrix MY (2 ^ N)) := by
  rw [asMatrix_is hR, asMatrix_is hS, asMatrix_is hX, asMatrix_is hY]
  exact Torus3.map (Matrix.reindexAlgEquiv ℂ ℂ (numEquiv N) : Matrix (Conf N 2) (Conf N 2) ℂ →* Matrix (Fin (2 ^ N)) (Fin (2 ^ N)) ℂ) hd

theorem torus_cw_asMatrix (hR : MR.Is R) (hS : MS.Is S) (hX : MX.Is X) (hY : MY.Is Y) (hd : Torus3cw R S X Y) :
    Torus3cw (asMatrix MR (2 ^ N)) (asMatrix MS (2 ^ N)) (asMatrix MX (2 ^ N)) (asMatrix MY (2 ^ N)) := by
  rw [asMatrix_is hR, asMatrix_is hS, asMatrix_is hX, asMatrix_is hY]
  exact Torus3cw.map (Matrix.reindexAlgEquiv ℂ ℂ (numEquiv N) : Matrix (Conf N 2) (Conf N 2) ℂ →* Matrix (Fin (2 ^ N)) (Fin (2 ^ N)) ℂ) hd

theorem commute_asMatrix (hH : MH.Is H) (hR : MR.Is R) (h : R * H = H * R) :
    asMatrix MH (2 ^ N) * asMatrix MR (2 ^ N) = asMatrix MR (2 ^ N) * asMatrix MH (2 ^ N) := by
  rw [asMatrix_is hH, asMatrix_is hR, ← map_mul, ← map_mul, h]

end transport

end ED
