import Verif.Model.Reduce
import Verif.Spec.Zn
import Verif.Lemmas.Round
import Verif.Lemmas.ZnEntries
import Mathlib.Analysis.InnerProductSpace.PiL2
import Mathlib.LinearAlgebra.Matrix.Trace

/-! # Rows that are close to an orthonormal basis of the range of a projection -/

namespace ED

open scoped BigOperators Matrix
open Classical

variable {d : ℕ}

/-- The Euclidean norm of a row. -/
noncomputable def rnorm (r : Fin d → ℂ) : ℝ := ‖(WithLp.toLp 2 r : EuclideanSpace ℂ (Fin d))‖

theorem rnorm_eq (r : Fin d → ℂ) : rnorm r = Real.sqrt (∑ i, ‖r i‖ ^ 2) := by
  unfold rnorm
  rw [EuclideanSpace.norm_eq]

theorem rnorm_nonneg (r : Fin d → ℂ) : 0 ≤ rnorm r := norm_nonneg _

theorem rowInner_eq (r s : Fin d → ℂ) : rowInner r s =
    inner ℂ (WithLp.toLp 2 s : EuclideanSpace ℂ (Fin d)) (WithLp.toLp 2 r) := by
  unfold rowInner
  rw [PiLp.inner_apply]
  refine Finset.sum_congr rfl fun j _ => ?_
  simp [mul_comm]

theorem rowInner_rnorm (r : Fin d → ℂ) : rowInner r r = ((rnorm r ^ 2 : ℝ) : ℂ) := by
  rw [rowInner_eq, inner_self_eq_norm_sq_to_K]
  push_cast
  rfl

theorem rnorm_one {r : Fin d → ℂ} (h : rowInner r r = 1) : rnorm r = 1 := by
  rw [rowInner_rnorm] at h
  have h1 : rnorm r ^ 2 = 1 := by exact_mod_cast h
  have h2 := rnorm_nonneg r
  nlinarith

theorem rowInner_norm_le (r s : Fin d → ℂ) : ‖rowInner r s‖ ≤ rnorm r * rnorm s := by
  rw [rowInner_eq, mul_comm]
  exact norm_inner_le_norm _ _

theorem rowInner_sub_left (r s t : Fin d → ℂ) : rowInner (r - s) t = rowInner r t - rowInner s t := by
  unfold rowInner
  rw [← Finset.sum_sub_distrib]
  exact Finset.sum_congr rfl fun j _ => by rw [Pi.sub_apply]; ring

theorem rowInner_sub_right (r s t : Fin d → ℂ) : rowInner r (s - t) = rowInner r s - rowInner r t := by
  unfold rowInner
  rw [← Finset.sum_sub_distrib]
  exact Finset.sum_congr rfl fun j _ => by rw [Pi.sub_apply, map_sub]; ring

theorem rowInner_near {r s v w : Fin d → ℂ} {ε : ℝ} (hr : rnorm (r - v) ≤ ε) (hs : rnorm (s - w) ≤ ε)
    (h1 : rnorm s = 1) (h2 : rnorm v = 1) : ‖rowInner r s - rowInner v w‖ ≤ 2 * ε := by
  have e : rowInner r s - rowInner v w = rowInner (r - v) s + rowInner v (s - w) := by
    rw [rowInner_sub_left, rowInner_sub_right]
    ring
  rw [e]
  refine (norm_add_le _ _).trans ?_
  have a := rowInner_norm_le (r - v) s
  have b := rowInner_norm_le v (s - w)
  rw [h1, mul_one] at a
  rw [h2, one_mul] at b
  linarith

theorem entry_le_rnorm (r : Fin d → ℂ) (i : Fin d) : ‖r i‖ ≤ rnorm r := by
  rw [rnorm_eq]
  apply Real.le_sqrt_of_sq_le
  exact Finset.single_le_sum (f := fun i => ‖r i‖ ^ 2) (fun j _ => by positivity) (Finset.mem_univ i)

theorem rnorm_add_le (r s : Fin d → ℂ) : rnorm (r + s) ≤ rnorm r + rnorm s := norm_add_le _ _

theorem rnorm_sub_le_add (r s t : Fin d → ℂ) : rnorm (r - t) ≤ rnorm (r - s) + rnorm (s - t) := by
  have := rnorm_add_le (r - s) (s - t)
  rwa [sub_add_sub_cancel] at this

theorem abs_rnorm_sub (r s : Fin d → ℂ) : |rnorm r - rnorm s| ≤ rnorm (r - s) := abs_norm_sub_norm_le _ _

theorem rnorm_smul (c : ℂ) (r : Fin d → ℂ) : rnorm (fun j => c * r j) = ‖c‖ * rnorm r := norm_smul c _

theorem normalizeRow_eq (r : Fin d → ℂ) : normalizeRow r = fun j => (((rnorm r)⁻¹ : ℝ) : ℂ) * r j := by
  unfold normalizeRow
  rw [sum_re, rnorm_eq]

theorem normalizeRow_unit {r : Fin d → ℂ} (h : rnorm r ≠ 0) : rowInner (normalizeRow r) (normalizeRow r) = 1 := by
  rw [rowInner_rnorm, normalizeRow_eq, rnorm_smul, Complex.norm_real, Real.norm_eq_abs, abs_inv,
    abs_of_nonneg (rnorm_nonneg r), inv_mul_cancel₀ h]
  simp

theorem normalizeRow_near {r v : Fin d → ℂ} {ε : ℝ} (hv : rnorm v = 1) (h : rnorm (r - v) ≤ ε) (hε : ε < 1) :
    rnorm r ≠ 0 ∧ rnorm (normalizeRow r - v) ≤ 2 * ε := by
  have h1 := (abs_rnorm_sub r v).trans h
  rw [hv] at h1
  have h2 := abs_le.1 h1
  have hpos : 0 < rnorm r := by linarith
  refine ⟨hpos.ne', ?_⟩
  refine (rnorm_sub_le_add _ r _).trans ?_
  have e : normalizeRow r - r = fun j => (((rnorm r)⁻¹ - 1 : ℝ) : ℂ) * r j := by
    rw [normalizeRow_eq]
    funext j
    rw [Pi.sub_apply]
    push_cast
    ring
  have h3 : rnorm (normalizeRow r - r) = |1 - rnorm r| := by
    rw [e, rnorm_smul, Complex.norm_real, Real.norm_eq_abs, ← abs_of_pos hpos, ← abs_mul, sub_mul,
      abs_of_pos hpos, inv_mul_cancel₀ hpos.ne', one_mul]
  rw [h3, abs_sub_comm]
  linarith

/-- The rows are unit vectors close to an orthonormal basis of the range of a projection `E`, which lies in
the coordinates `O`. -/
structure Approx (ε η : ℝ) (rows : Rows d) (E : Matrix (Fin d) (Fin d) ℂ) (O : Finset (Fin d)) : Prop where
  unit : ∀ r ∈ rows, rowInner r r = 1
  supp : ∀ r ∈ rows, ∀ j, j ∉ O → r j = 0
  near : ∃ vs : Rows d, List.Forall₂ (fun r v => rnorm (r - v) ≤ ε) rows vs ∧ (∀ v ∈ vs, rowInner v v = 1) ∧
    vs.Pairwise (fun v w => rowInner v w = 0) ∧ (∀ v ∈ vs, ∀ j, j ∉ O → v j = 0) ∧
    ∀ i j, (vs.map fun v => (starRingEnd ℂ) (v i) * v j).sum = E i j
  res : ∀ i j, ‖(rows.map fun r => (starRingEnd ℂ) (r i) * r j).sum - E i j‖ ≤ η

theorem list_sum_zero {α : Type} (l : List α) (f : α → ℂ) (h : ∀ a ∈ l, f a = 0) : (l.map f).sum = 0 :=
  List.sum_eq_zero fun x hx => by
    obtain ⟨a, ha, rfl⟩ := List.mem_map.1 hx
    exact h a ha

theorem Approx.nil {ε η : ℝ} (hη : 0 ≤ η) : Approx ε η ([] : Rows d) 0 ∅ :=
  ⟨by simp, by simp, ⟨[], by simp, by simp, by simp, by simp, by simp⟩, fun i j => by simpa using hη⟩

theorem Approx.append {ε η : ℝ} {rows rows' : Rows d} {E E' : Matrix (Fin d) (Fin d) ℂ} {O O' : Finset (Fin d)}
    (h : Approx ε η rows E O) (h' : Approx ε η rows' E' O') (hO : Disjoint O O') :
    Approx ε η (rows ++ rows') (E + E') (O ∪ O') := by
  obtain ⟨vs, a1, a2, a3, a4, a5⟩ := h.near
  obtain ⟨vs', b1, b2, b3, b4, b5⟩ := h'.near
  refine ⟨?_, ?_, ⟨vs ++ vs', ?_, ?_, ?_, ?_, ?_⟩, ?_⟩
  · intro r hr
    rcases List.mem_append.1 hr with hr | hr
    · exact h.unit r hr
    · exact h'.unit r hr
  · intro r hr j hj
    rw [Finset.mem_union, not_or] at hj
    rcases List.mem_append.1 hr with hr | hr
    · exact h.supp r hr j hj.1
    · exact h'.supp r hr j hj.2
  · exact List.rel_append a1 b1
  · intro v hv
    rcases List.mem_append.1 hv with hv | hv
    · exact a2 v hv
    · exact b2 v hv
  · rw [List.pairwise_append]
    refine ⟨a3, b3, fun v hv w hw => ?_⟩
    refine Finset.sum_eq_zero fun j _ => ?_
    by_cases hj : j ∈ O
    · rw [b4 w hw j (Finset.disjoint_left.1 hO hj), map_zero, mul_zero]
    · rw [a4 v hv j hj, zero_mul]
  · intro v hv j hj
    rw [Finset.mem_union, not_or] at hj
    rcases List.mem_append.1 hv with hv | hv
    · exact a4 v hv j hj.1
    · exact b4 v hv j hj.2
  · intro i j
    rw [List.map_append, List.sum_append, a5, b5, Matrix.add_apply]
  · intro i j
    rw [List.map_append, List.sum_append, Matrix.add_apply]
    by_cases hi : i ∈ O
    · have hi' := Finset.disjoint_left.1 hO hi
      rw [list_sum_zero rows' _ fun r hr => by rw [h'.supp r hr i hi', map_zero, zero_mul], ← b5,
        list_sum_zero vs' _ fun r hr => by rw [b4 r hr i hi', map_zero, zero_mul], add_zero, add_zero]
      exact h.res i j
    · rw [list_sum_zero rows _ fun r hr => by rw [h.supp r hr i hi, map_zero, zero_mul], ← a5,
        list_sum_zero vs _ fun r hr => by rw [a4 r hr i hi, map_zero, zero_mul], zero_add, zero_add]
      exact h'.res i j

theorem Approx.flatMap {ε η : ℝ} (hη : 0 ≤ η) {ι : Type} [DecidableEq ι] (l : List ι) (f : ι → Rows d)
    (E : ι → Matrix (Fin d) (Fin d) ℂ) (O : ι → Finset (Fin d)) (h : ∀ c ∈ l, Approx ε η (f c) (E c) (O c))
    (hO : l.Pairwise fun c c' => Disjoint (O c) (O c')) :
    Approx ε η (l.flatMap f) (l.map E).sum (l.toFinset.biUnion O) := by
  induction l with
  | nil => exact Approx.nil hη
  | cons c l ih =>
    rw [List.pairwise_cons] at hO
    rw [List.flatMap_cons, List.map_cons, List.sum_cons, List.toFinset_cons, Finset.biUnion_insert]
    refine (h c List.mem_cons_self).append (ih (fun c' hc' => h c' (List.mem_cons_of_mem _ hc')) hO.2) ?_
    rw [Finset.disjoint_biUnion_right]
    intro c' hc'
    exact hO.1 c' (by simpa using hc')

section
variable {ε η : ℝ} {rows rows' : Rows d} {E E' : Matrix (Fin d) (Fin d) ℂ} {O O' : Finset (Fin d)}

theorem Approx.length (h : Approx ε η rows E O) : ((rows.length : ℕ) : ℂ) = E.trace := by
  obtain ⟨vs, a1, a2, a3, a4, a5⟩ := h.near
  rw [a1.length_eq]
  unfold Matrix.trace
  simp only [Matrix.diag_apply, ← a5]
  clear a1 a3 a4 a5 h
  induction vs with
  | nil => simp
  | cons v vs ih =>
    have := ih fun w hw => a2 w (List.mem_cons_of_mem _ hw)
    simp only [List.map_cons, List.sum_cons, Finset.sum_add_distrib, List.length_cons, Nat.cast_add, Nat.cast_one]
    rw [← this, ← a2 v List.mem_cons_self, add_comm]
    congr 1
    unfold rowInner
    exact Finset.sum_congr rfl fun j _ => mul_comm _ _

/-- Pairs of different rows are nearly orthogonal. -/
theorem Approx.orth (h : Approx ε η rows E O) {a b : ℕ} (ha : a < rows.length) (hb : b < rows.length) (hab : a ≠ b) :
    ‖rowInner rows[a] rows[b]‖ ≤ 2 * ε := by
  obtain ⟨vs, a1, a2, a3, a4, a5⟩ := h.near
  have hl := a1.length_eq
  have hn := List.forall₂_iff_get.1 a1
  have h0 : rowInner vs[a] vs[b] = 0 := by
    rw [List.pairwise_iff_getElem] at a3
    rcases lt_or_gt_of_ne hab with hlt | hlt
    · exact a3 a b (by omega) (by omega) hlt
    · have := a3 b a (by omega) (by omega) hlt
      have h1 := congrArg (starRingEnd ℂ) this
      rw [map_zero] at h1
      rw [← h1]
      unfold rowInner
      rw [map_sum]
      exact Finset.sum_congr rfl fun j _ => by rw [map_mul, Complex.conj_conj, mul_comm]
  have := rowInner_near (hn.2 a ha (by omega)) (hn.2 b hb (by omega))
    (rnorm_one (h.unit _ (List.getElem_mem hb))) (rnorm_one (a2 _ (List.getElem_mem (by omega))))
  simp only [List.get_eq_getElem] at this
  rwa [h0, sub_zero] at this

/-- An exact vector is fixed by the projection. -/
theorem Approx.fixed {vs : Rows d} (a2 : ∀ v ∈ vs, rowInner v v = 1)
    (a3 : vs.Pairwise (fun v w => rowInner v w = 0))
    (a5 : ∀ i j, (vs.map fun v => (starRingEnd ℂ) (v i) * v j).sum = E i j) {v : Fin d → ℂ} (hv : v ∈ vs) (j : Fin d) :
    ∑ i, v i * E i j = v j := by
  have key : ∀ l : Rows d, ∑ i, v i * (l.map fun w => (starRingEnd ℂ) (w i) * w j).sum =
      (l.map fun w => rowInner v w * w j).sum := by
    intro l
    induction l with
    | nil => simp
    | cons w l ih =>
      simp only [List.map_cons, List.sum_cons, mul_add, Finset.sum_add_distrib, ih]
      congr 1
      unfold rowInner
      rw [Finset.sum_mul]
      exact Finset.sum_congr rfl fun i _ => by ring
  simp only [← a5]
  rw [key]
  have hsymm : ∀ x y : Fin d → ℂ, rowInner x y = 0 → rowInner y x = 0 := by
    intro x y h
    have h1 := congrArg (starRingEnd ℂ) h
    rw [map_zero] at h1
    rw [← h1]
    unfold rowInner
    rw [map_sum]
    exact Finset.sum_congr rfl fun j _ => by rw [map_mul, Complex.conj_conj, mul_comm]
  clear key a5
  induction vs with
  | nil => simp at hv
  | cons w vs ih =>
    rw [List.pairwise_cons] at a3
    rw [List.map_cons, List.sum_cons]
    rcases List.mem_cons.1 hv with rfl | hv'
    · rw [a2 v List.mem_cons_self, one_mul, list_sum_zero, add_zero]
      intro w hw
      rw [a3.1 w hw, zero_mul]
    · rw [hsymm w v (a3.1 v hv'), zero_mul, zero_add]
      exact ih (fun x hx => a2 x (List.mem_cons_of_mem _ hx)) a3.2 hv'

/-- Rows for two projections with product zero are nearly orthogonal. -/
theorem Approx.across (h : Approx ε η rows E O) (h' : Approx ε η rows' E' O') (hE : E'ᴴ = E') (h0 : E * E' = 0)
    {r s : Fin d → ℂ} (hr : r ∈ rows) (hs : s ∈ rows') : ‖rowInner r s‖ ≤ 2 * ε := by
  obtain ⟨vs, a1, a2, a3, a4, a5⟩ := h.near
  obtain ⟨ws, b1, b2, b3, b4, b5⟩ := h'.near
  obtain ⟨a, ha, rfl⟩ := List.mem_iff_getElem.1 hr
  obtain ⟨b, hb, rfl⟩ := List.mem_iff_getElem.1 hs
  have hl := a1.length_eq
  have hl' := b1.length_eq
  have hn := (List.forall₂_iff_get.1 a1).2 a ha (by omega)
  have hn' := (List.forall₂_iff_get.1 b1).2 b hb (by omega)
  have hv : vs[a] ∈ vs := List.getElem_mem _
  have hw : ws[b] ∈ ws := List.getElem_mem _
  have hz : rowInner vs[a] ws[b] = 0 := by
    generalize vs[a] = v at hv
    generalize ws[b] = w at hw
    have f1 := Approx.fixed a2 a3 a5 hv
    have f2 := Approx.fixed b2 b3 b5 hw
    unfold rowInner
    have e1 : ∀ j, (starRingEnd ℂ) (w j) = ∑ k, E' j k * (starRingEnd ℂ) (w k) := by
      intro j
      conv_lhs => rw [← f2 j]
      rw [map_sum]
      refine Finset.sum_congr rfl fun k _ => ?_
      have := congrFun (congrFun hE j) k
      rw [Matrix.conjTranspose_apply] at this
      rw [map_mul, ← this, mul_comm]
      rfl
    have e2 : v ᵥ* E = v := funext f1
    have e3 : E' *ᵥ (fun k => (starRingEnd ℂ) (w k)) = fun k => (starRingEnd ℂ) (w k) := funext fun j => (e1 j).symm
    change v ⬝ᵥ (fun k => (starRingEnd ℂ) (w k)) = 0
    rw [← e3, Matrix.dotProduct_mulVec]
    nth_rewrite 1 [← e2]
    rw [Matrix.vecMul_vecMul, h0, Matrix.vecMul_zero, zero_dotProduct]
  have := rowInner_near hn hn' (rnorm_one (h'.unit _ (List.getElem_mem hb)))
    (rnorm_one (a2 _ (List.getElem_mem (by omega))))
  simp only [List.get_eq_getElem] at this
  rwa [hz, sub_zero] at this

end

end ED
