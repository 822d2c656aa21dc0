import Verif.Lemmas.TorusRep
import Mathlib.LinearAlgebra.Pi
import Mathlib.Algebra.Algebra.Basic
import Mathlib.Algebra.Module.LinearMap.End

/-!
# The symmetry group of the 3x3 torus (C43) and validation of character tables (C42)
-/

namespace ED.Props

open scoped BigOperators
open Spec GroupAlg

section Torus

variable {A : Type} [Ring A] [Algebra ℂ A]

private theorem torus_decomposes {o : Bool} {R S X Y : A} (h : TorusRel o R S X Y) :
    getC4VAnd3by3 R S X Y =
      .ok (torusTable.map fun chars => symmProjFull chars (torusClasses R S X Y)) ∧
    Decomposes 72 [1, 1, 1, 1, 2, 4, 4, 4, 4]
      (torusTable.map fun chars => symmProjFull chars (torusClasses R S X Y)) :=
  ⟨(torus_rep h).validate (torus_valid o),
    (torus_rep h).decomposes (fun i hi j hj => torus_orth o i j hi hj) (fun i hi => torus_idem o i hi)
      (torus_complete o)⟩

private theorem torus_commute {o : Bool} {R S X Y : A} (h : TorusRel o R S X Y) (g g' : ℕ)
    (hg : g < 72) (hg' : g' < 72)
    (hinv : ∀ x < 72, torusMul o (torusMul o x g) g' = x ∧ torusMul o (torusMul o x g') g = x)
    (hK : ∀ i < 9, ∀ x < 72, torusF i (torusLdiv o g (torusMul o x g)) = torusF i x) (G : A)
    (hG : torusRho R S X Y g = G) :
    AllCommute (torusTable.map fun chars => symmProjFull chars (torusClasses R S X Y)) G := by
  rw [← hG]
  exact (torus_rep h).commute g g' hg hg' hinv hK

/-- C43, with the rotation turning counter-clockwise as the library's own rotation function does: the
nine operators are pairwise orthogonal, proportional to idempotents and sum, weighted by the
dimensions, to the identity. They commute with the rotation and the reflection. -/
theorem C43_torus {R S X Y : A} (h : Torus3 R S X Y) : ∃ P, getC4VAnd3by3 R S X Y = .ok P ∧
    Decomposes 72 [1, 1, 1, 1, 2, 4, 4, 4, 4] P ∧ AllCommute P R ∧ AllCommute P S := by
  have hr := torusRel_ccw h
  refine ⟨_, (torus_decomposes hr).1, (torus_decomposes hr).2, ?_, ?_⟩
  · exact torus_commute hr 2 6 (by norm_num) (by norm_num) (by decide +kernel) (by decide +kernel) R
      (by simp [torusRho])
  · exact torus_commute hr 1 1 (by norm_num) (by norm_num) (by decide +kernel) (by decide +kernel) S
      (by simp [torusRho])

/-- C43, with the rotation turning clockwise: the same, and the operators commute with all generators
of the group. -/
theorem C43_torus_clockwise {R S X Y : A} (h : Torus3cw R S X Y) :
    ∃ P, getC4VAnd3by3 R S X Y = .ok P ∧
    Decomposes 72 [1, 1, 1, 1, 2, 4, 4, 4, 4] P ∧ AllCommute P R ∧ AllCommute P S ∧
    AllCommute P X ∧ AllCommute P Y := by
  have hr := torusRel_cw h
  refine ⟨_, (torus_decomposes hr).1, (torus_decomposes hr).2, ?_, ?_, ?_, ?_⟩
  · exact torus_commute hr 2 6 (by norm_num) (by norm_num) (by decide +kernel) (by decide +kernel) R
      (by simp [torusRho])
  · exact torus_commute hr 1 1 (by norm_num) (by norm_num) (by decide +kernel) (by decide +kernel) S
      (by simp [torusRho])
  · exact torus_commute hr 24 48 (by norm_num) (by norm_num) (by decide +kernel) (by decide +kernel) X
      (by simp [torusRho])
  · exact torus_commute hr 8 16 (by norm_num) (by norm_num) (by decide +kernel) (by decide +kernel) Y
      (by simp [torusRho])

/-- The operator that permutes the six diagonals of the torus. -/
private def permOp (σ : Fin 6 → Fin 6) : Module.End ℂ (Fin 6 → ℂ) := LinearMap.funLeft ℂ ℂ σ

private theorem permOp_mul (σ τ : Fin 6 → Fin 6) : permOp σ * permOp τ = permOp (τ ∘ σ) := by
  ext v i; rfl

private theorem permOp_id : permOp id = 1 := by ext v i; rfl

private theorem permOp_pow (σ : Fin 6 → Fin 6) (n : ℕ) : permOp σ ^ n = permOp (σ^[n]) := by
  induction n with
  | zero => rw [pow_zero, Function.iterate_zero, permOp_id]
  | succ n ih => rw [pow_succ', ih, permOp_mul, Function.iterate_succ]

private def sX : Fin 6 → Fin 6 := ![2, 0, 1, 5, 3, 4]
private def sY : Fin 6 → Fin 6 := ![2, 0, 1, 4, 5, 3]
private def sR : Fin 6 → Fin 6 := ![3, 4, 5, 0, 2, 1]
private def sS : Fin 6 → Fin 6 := ![3, 5, 4, 0, 2, 1]

/-- The action of the group on the six diagonals `x + y = c` and `x - y = c` of the torus. -/
private theorem diagonals : Torus3 (permOp sR) (permOp sS) (permOp sX) (permOp sY) := by
  refine ⟨⟨?_, ?_, ?_⟩, ?_, ?_, ?_, ?_, ?_, ?_, ?_⟩ <;>
    simp only [permOp_pow, permOp_mul, ← permOp_id] <;> congr 1 <;> decide

example : ∃ P, getC4VAnd3by3 (permOp sR) (permOp sS) (permOp sX) (permOp sY) = .ok P ∧
    Decomposes 72 [1, 1, 1, 1, 2, 4, 4, 4, 4] P := by
  obtain ⟨P, h1, h2, -⟩ := C43_torus diagonals
  exact ⟨P, h1, h2⟩

private def sRcw : Fin 6 → Fin 6 := ![3, 5, 4, 0, 1, 2]

/-- The same action with the inverse rotation satisfies the relations with clockwise rotation. -/
private theorem diagonals_cw : Torus3cw (permOp sRcw) (permOp sS) (permOp sX) (permOp sY) := by
  refine ⟨⟨?_, ?_, ?_⟩, ?_, ?_, ?_, ?_, ?_, ?_, ?_⟩ <;>
    simp only [permOp_pow, permOp_mul, ← permOp_id] <;> congr 1 <;> decide

example : ∃ P, getC4VAnd3by3 (permOp sRcw) (permOp sS) (permOp sX) (permOp sY) = .ok P ∧
    Decomposes 72 [1, 1, 1, 1, 2, 4, 4, 4, 4] P ∧ AllCommute P (permOp sX) := by
  obtain ⟨P, h1, h2, -, -, h3, -⟩ := C43_torus_clockwise diagonals_cw
  exact ⟨P, h1, h2, h3⟩

/-- With a counter-clockwise rotation the class lists `c2` and `c7` of the library are not unions of
conjugacy classes of the group, and two of the operators do not commute with translations: their
ranges are not invariant under the group. -/
theorem C43_invariance_violated : ∃ R S X Y : Module.End ℂ (Fin 6 → ℂ), Torus3 R S X Y ∧
    ∃ P, getC4VAnd3by3 R S X Y = .ok P ∧ ¬ AllCommute P X := by
  refine ⟨_, _, _, _, diagonals, _, (torus_decomposes (torusRel_ccw diagonals)).1, fun h => ?_⟩
  have h1 := h (symmProjFull [4, -2, 0, 0, 0, 1, 1, 0, -2]
    (torusClasses (permOp sR) (permOp sS) (permOp sX) (permOp sY)))
    (List.mem_map.2 ⟨_, by simp [torusTable], rfl⟩)
  have h2 := congrFun (LinearMap.congr_fun h1 (fun k : Fin 6 => if k = 1 then (1 : ℂ) else 0)) 0
  have hp : ∀ (σ : Fin 6 → Fin 6) (v : Fin 6 → ℂ) (i : Fin 6), permOp σ v i = v (σ i) :=
    fun _ _ _ => rfl
  simp only [hp, symmProjFull, torusClasses, permOp_pow, permOp_mul, List.map_cons, List.map_nil,
    List.sum_cons, List.sum_nil, List.zip_cons_cons, List.zip_nil_left, map_zero, zero_smul,
    map_neg, map_ofNat, map_one, ← permOp_id, Module.End.mul_apply, LinearMap.add_apply,
    LinearMap.smul_apply, LinearMap.zero_apply, Pi.add_apply, Pi.smul_apply, Pi.zero_apply] at h2
  simp (decide := true) only [if_true, if_false] at h2
  norm_num at h2

end Torus

section Validation

/-- C42: a table satisfying the orthogonality relations exactly is accepted, for class sizes that
divide the order of the group (as they do in every group). -/
theorem C42_accepts (n : ℕ) (table : ℕ → ℕ → ℂ) (sizes : ℕ → ℕ)
    (hpos : ∀ c < n, 0 < sizes c)
    (hdvd : ∀ c < n, sizes c ∣ ∑ c ∈ Finset.range n, sizes c)
    (hcol : ∀ i < n, ∀ j < n, ∑ k ∈ Finset.range n, table k i * (starRingEnd ℂ) (table k j) =
      if i = j then ((∑ c ∈ Finset.range n, sizes c : ℕ) : ℂ) / (sizes i : ℂ) else 0)
    (hrow : ∀ i < n, ∀ j < n,
      ∑ c ∈ Finset.range n, table i c * (starRingEnd ℂ) (table j c) * (sizes c : ℂ) =
      if i = j then ((∑ c ∈ Finset.range n, sizes c : ℕ) : ℂ) else 0) :
    validateCharTable n table sizes := validate_of_orth n table sizes hpos hdvd hcol hrow

/-- The table of the group with two elements. -/
example : validateCharTable 2 (fun i c => if i = 1 ∧ c = 1 then -1 else 1) (fun _ => 1) := by
  refine C42_accepts _ _ _ (by simp) (by simp) ?_ ?_ <;>
  · intro i hi j hj
    interval_cases i <;> interval_cases j <;> simp [Finset.sum_range_succ] <;> norm_num

/-- C42, the part of the converse that holds: in an accepted table the real parts of the
orthogonality relations hold up to one half, for rows and for columns. Missing: the imaginary parts,
which are not looked at (`C42_imaginary_violated`). -/
theorem C42_accepted_partial (n : ℕ) (table : ℕ → ℕ → ℂ) (sizes : ℕ → ℕ)
    (hpos : ∀ c < n, 0 < sizes c)
    (hdvd : ∀ c < n, sizes c ∣ ∑ c ∈ Finset.range n, sizes c)
    (h : validateCharTable n table sizes) :
    (∀ i < n, ∀ j < n, |(∑ k ∈ Finset.range n, table k i * (starRingEnd ℂ) (table k j)).re -
      (if i = j then ((∑ c ∈ Finset.range n, sizes c : ℕ) : ℝ) / sizes i else 0)| ≤ 1 / 2) ∧
    (∀ i < n, ∀ j < n,
      |(∑ c ∈ Finset.range n, table i c * (starRingEnd ℂ) (table j c) * (sizes c : ℂ)).re -
      (if i = j then ((∑ c ∈ Finset.range n, sizes c : ℕ) : ℝ) else 0)| ≤ 1 / 2) := by
  obtain ⟨h1, h2⟩ := h
  refine ⟨fun i hi j hj => ?_, fun i hi j hj => ?_⟩
  · have h3 := abs_rint_sub (∑ k ∈ Finset.range n, table k i * (starRingEnd ℂ) (table k j)).re
    rw [← h1 i hi j hj, abs_sub_comm] at h3
    refine le_of_eq_of_le (congrArg abs (congrArg _ ?_)) h3
    split_ifs with hij
    · obtain ⟨q, hq⟩ := hdvd i hi
      have h0 : (sizes i : ℝ) ≠ 0 := by exact_mod_cast (hpos i hi).ne'
      rw [orderOver, if_neg (hpos i hi).ne', hq, Nat.mul_div_cancel_left _ (hpos i hi)]
      push_cast
      field_simp
    · simp
  · have h3 := abs_rint_sub
      (∑ c ∈ Finset.range n, table i c * (starRingEnd ℂ) (table j c) * (sizes c : ℂ)).re
    rw [← h2 i hi j hj, abs_sub_comm] at h3
    refine le_of_eq_of_le (congrArg abs (congrArg _ ?_)) h3
    split_ifs with hij <;> simp

/-- C42: acceptance does not change when columns belonging to classes of equal size are permuted. -/
theorem C42_exchange (n : ℕ) (table : ℕ → ℕ → ℂ) (sizes : ℕ → ℕ) (σ : Equiv.Perm ℕ)
    (hσ : ∀ c, σ c < n ↔ c < n) (hs : ∀ c < n, sizes (σ c) = sizes c) :
    validateCharTable n (fun i c => table i (σ c)) sizes ↔ validateCharTable n table sizes := by
  have hσ' : ∀ c, σ.symm c < n ↔ c < n := fun c => by
    rw [← hσ (σ.symm c), Equiv.apply_symm_apply]
  have hcols : (∀ i < n, ∀ j < n,
      (if i = j then orderOver (∑ c ∈ Finset.range n, sizes c) (sizes i) else 0) =
        rint (∑ k ∈ Finset.range n, table k (σ i) * (starRingEnd ℂ) (table k (σ j))).re) ↔
      (∀ i < n, ∀ j < n,
      (if i = j then orderOver (∑ c ∈ Finset.range n, sizes c) (sizes i) else 0) =
        rint (∑ k ∈ Finset.range n, table k i * (starRingEnd ℂ) (table k j)).re) := by
    constructor
    · intro h i hi j hj
      have := h (σ.symm i) ((hσ' i).2 hi) (σ.symm j) ((hσ' j).2 hj)
      simp only [Equiv.apply_symm_apply, EmbeddingLike.apply_eq_iff_eq] at this
      rw [← hs (σ.symm i) ((hσ' i).2 hi), Equiv.apply_symm_apply] at this
      exact this
    · intro h i hi j hj
      have := h (σ i) ((hσ i).2 hi) (σ j) ((hσ j).2 hj)
      simp only [EmbeddingLike.apply_eq_iff_eq] at this
      rw [hs i hi] at this
      exact this
  have hrows : ∀ i j, ∑ c ∈ Finset.range n,
      table i (σ c) * (starRingEnd ℂ) (table j (σ c)) * (sizes c : ℂ) =
      ∑ c ∈ Finset.range n, table i c * (starRingEnd ℂ) (table j c) * (sizes c : ℂ) := by
    intro i j
    refine Finset.sum_bij' (fun c _ => σ c) (fun c _ => σ.symm c) ?_ ?_ ?_ ?_ ?_
    · intro c hc; exact Finset.mem_range.2 ((hσ c).2 (Finset.mem_range.1 hc))
    · intro c hc; exact Finset.mem_range.2 ((hσ' c).2 (Finset.mem_range.1 hc))
    · simp
    · simp
    · intro c hc; rw [hs c (Finset.mem_range.1 hc)]
  unfold validateCharTable
  simp only [hrows]
  rw [hcols]

/-- Exchanging the two classes of size two in a table with sizes 1, 2, 2. -/
example (table : ℕ → ℕ → ℂ) (h : validateCharTable 3 table fun c => if c = 0 then 1 else 2) :
    validateCharTable 3 (fun i c => table i (Equiv.swap 1 2 c)) fun c => if c = 0 then 1 else 2 := by
  refine (C42_exchange 3 table _ (Equiv.swap 1 2) (fun c => ?_) fun c hc => ?_).2 h
  · rw [Equiv.swap_apply_def]; split_ifs <;> omega
  · interval_cases c <;> simp [Equiv.swap_apply_def]

/-- C42: the imaginary parts are not checked: this table is accepted although its two rows are
proportional to each other. -/
theorem C42_imaginary_violated : ∃ table : ℕ → ℕ → ℂ,
    validateCharTable 2 table (fun _ => 1) ∧ (∀ c < 2, table 1 c = Complex.I * table 0 c) ∧
    ∑ c ∈ Finset.range 2, table 0 c * (starRingEnd ℂ) (table 1 c) * (1 : ℂ) ≠ 0 := by
  refine ⟨fun i c => if i = 0 then (if c = 0 then 1 else -Complex.I) else
    (if c = 0 then Complex.I else 1), ⟨?_, ?_⟩, ?_, ?_⟩
  · have h0 : rint (0 : ℝ) = 0 := by simpa using rint_intCast (K := ℝ) 0
    have h2 : rint (2 : ℝ) = 2 := by simpa using rint_intCast (K := ℝ) 2
    intro i hi j hj
    interval_cases i <;> interval_cases j <;>
      simp [Finset.sum_range_succ, orderOver, h0] <;> norm_num [h2]
  · have h0 : rint (0 : ℝ) = 0 := by simpa using rint_intCast (K := ℝ) 0
    have h2 : rint (2 : ℝ) = 2 := by simpa using rint_intCast (K := ℝ) 2
    intro i hi j hj
    interval_cases i <;> interval_cases j <;>
      simp [Finset.sum_range_succ, h0] <;> norm_num [h2]
  · intro c hc
    interval_cases c <;> simp
  · intro h
    have := congrArg Complex.im h
    norm_num [Finset.sum_range_succ] at this

end Validation

end ED.Props
