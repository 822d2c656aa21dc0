import Verif.Lemmas.Thermal
import Verif.Lemmas.Sectors
import Mathlib.Data.Matrix.Block
import Mathlib.LinearAlgebra.Matrix.Hermitian
import Mathlib.Algebra.BigOperators.Field
import Mathlib.Topology.Algebra.Order.Field
import Mathlib.Analysis.SpecialFunctions.Exp

/-! # Properties C18–C21: expectation values and thermal averages -/

namespace ED.Props

open scoped BigOperators
open Matrix

section

variable {ι : Type} [Fintype ι] [Basis ι]

/-! ## C18: expectation values and matrix elements -/

/-- The expectation value of a Hermitian operator is real. -/
theorem expect_real {O : Matrix ι ι ℂ} (h : O.IsHermitian) (ψ : ι → ℂ) :
    (((expect O ψ).re : ℝ) : ℂ) = expect O ψ := by
  rw [← Complex.conj_eq_iff_re]
  unfold expect
  have : star (star ψ ⬝ᵥ O *ᵥ ψ) = star (O *ᵥ ψ) ⬝ᵥ ψ := by rw [star_dotProduct, star_star]
  rw [starRingEnd_apply, this, star_mulVec, h.eq, ← dotProduct_mulVec]

theorem expect_one_any {κ : Type} [Fintype κ] [DecidableEq κ] (ψ : κ → ℂ) :
    expect (1 : Matrix κ κ ℂ) ψ = (norm2 ψ : ℝ) := by
  unfold expect norm2
  rw [one_mulVec]
  simp only [dotProduct, Pi.star_apply]
  push_cast
  refine Finset.sum_congr rfl fun i _ => ?_
  rw [← Complex.conj_mul']; rfl

theorem expect_one [DecidableEq ι] (ψ : ι → ℂ) : expect (1 : Matrix ι ι ℂ) ψ = (norm2 ψ : ℝ) :=
  expect_one_any ψ

/-- C18: the values returned by `get_exp_vals` are `⟨ψ_k|O|ψ_k⟩`, one per column. -/
theorem C18_expectation {M : ℕ} {V O : Mat} {Vm : Matrix ι (Fin M) ℂ} {Om : Matrix ι ι ℂ}
    (hV : V.Is Vm) (hO : O.Is Om) (hH : Om.IsHermitian) :
    ∃ l : List ℝ, getExpVals V O = .ok l ∧ l.length = M ∧
      ∀ k : Fin M, (l[k]?).map (fun x : ℝ => (x : ℂ)) = some (expect Om (colOf Vm k)) := by
  refine ⟨_, getExpVals_is hV hO, by simp, fun k => ?_⟩
  simp [expect_real hH]

/-- C18: linear in the operator, for real coefficients. -/
theorem C18_linear {M : ℕ} {V O₁ O₂ O : Mat} {Vm : Matrix ι (Fin M) ℂ} {A B : Matrix ι ι ℂ} (a b : ℝ)
    (hV : V.Is Vm) (h₁ : O₁.Is A) (h₂ : O₂.Is B) (h : O.Is ((a : ℂ) • A + (b : ℂ) • B)) :
    ∃ l₁ l₂ l : List ℝ, getExpVals V O₁ = .ok l₁ ∧ getExpVals V O₂ = .ok l₂ ∧
      getExpVals V O = .ok l ∧ l₁.length = M ∧ l₂.length = M ∧
      l = List.zipWith (fun x y => a * x + b * y) l₁ l₂ := by
  refine ⟨_, _, _, getExpVals_is hV h₁, getExpVals_is hV h₂, getExpVals_is hV h, by simp, by simp, ?_⟩
  rw [zipWith_ofFn]
  congr 1
  funext k
  unfold expect
  rw [add_mulVec, smul_mulVec, smul_mulVec, dotProduct_add, dotProduct_smul, dotProduct_smul]
  simp

/-- C18: the identity gives the squared norms. -/
theorem C18_identity [DecidableEq ι] {M : ℕ} {V : Mat} {Vm : Matrix ι (Fin M) ℂ} (hV : V.Is Vm) :
    getExpVals V (Mat.eye V.rows) = .ok (List.ofFn fun k => norm2 (colOf Vm k)) := by
  rw [getExpVals_is hV (Mat.is_eye (ι := ι) hV.1)]
  simp only [expect_one, Complex.ofReal_re]

/-- C18: `get_norms` gives the squared norms as well. -/
theorem C18_norms {M : ℕ} {V : Mat} {Vm : Matrix ι (Fin M) ℂ} (hV : V.Is Vm) :
    getNorms V = List.ofFn fun k => norm2 (colOf Vm k) := by
  classical
  have h := C18_identity hV
  have hl : ((Mat.eye V.rows).mul V) = .ok ⟨V.rows, V.cols, fun i j => ∑ k ∈ Finset.range V.rows, (Mat.eye V.rows).e i k * V.e k j⟩ := by
    unfold Mat.mul
    exact if_pos rfl
  unfold getExpVals at h
  rw [hl] at h
  simp only [bind, Except.bind, if_true, pure, Except.pure, Except.ok.injEq] at h
  rw [← h]
  unfold getNorms
  refine List.map_congr_left fun k _ => ?_
  congr 1
  refine Finset.sum_congr rfl fun i hi => ?_
  congr 1
  rw [Finset.sum_eq_single i]
  · simp [Mat.eye]
  · intro j _ hj
    simp [Mat.eye, Ne.symm hj]
  · exact fun h => absurd hi h

/-- C18: normalised eigenvectors give their eigenvalue. -/
theorem C18_eigenvectors {M : ℕ} {V O : Mat} {Vm : Matrix ι (Fin M) ℂ} {Om : Matrix ι ι ℂ}
    (hV : V.Is Vm) (hO : O.Is Om) (E : Fin M → ℝ)
    (hE : ∀ k, Om *ᵥ colOf Vm k = ((E k : ℝ) : ℂ) • colOf Vm k) (hn : ∀ k, norm2 (colOf Vm k) = 1) :
    getExpVals V O = .ok (List.ofFn E) := by
  classical
  rw [getExpVals_is hV hO]
  congr 2
  funext k
  have := expect_one (colOf Vm k)
  unfold expect at *
  rw [hE, dotProduct_smul]
  rw [one_mulVec] at this
  rw [this, hn]
  simp

/-- C18: matrix elements are `V† O V`, and Hermitian for Hermitian `O`. -/
theorem C18_matrix_elements {κ : Type} [Fintype κ] [Basis κ] {V O : Mat} {Vm : Matrix ι κ ℂ}
    {Om : Matrix ι ι ℂ} (hV : V.Is Vm) (hO : O.Is Om) :
    Gives (getMatrixElems V O) (Vmᴴ * (Om * Vm)) ∧
      (Om.IsHermitian → (Vmᴴ * (Om * Vm)).IsHermitian) := by
  refine ⟨?_, fun h => ?_⟩
  · unfold getMatrixElems
    exact (hO.mul hV).bind' fun X hX => hV.dagger.mul hX
  · rw [← Matrix.mul_assoc]
    exact isHermitian_conjTranspose_mul_mul Vm h

example : ∃ (V O : Mat) (Vm : Matrix (Fin 2) (Fin 2) ℂ) (Om : Matrix (Fin 2) (Fin 2) ℂ),
    V.Is Vm ∧ O.Is Om ∧ Om.IsHermitian ∧ Om ≠ 1 ∧ Vm ≠ 0 := by
  refine ⟨Mat.eye 2, ⟨2, 2, fun i j => if i = j then 0 else 1⟩, 1,
    Matrix.of fun i j => if i = j then 0 else 1, Mat.is_eye (by simp),
    ⟨by simp, by simp, fun i j => by simp [Basis.num, Fin.ext_iff]⟩, ?_, ?_, one_ne_zero⟩
  · ext i j; fin_cases i <;> fin_cases j <;> simp
  · intro h
    simpa using congrFun (congrFun h 0) 0

/-! ## C19: thermal averages are averages -/

/-- C19: for every list of energies and every temperature, the weights divided by `z` are a
probability distribution. -/
theorem C19_probabilities {m : ℕ} (E : Fin (m + 1) → ℝ) (T : ℝ) :
    ∃ (w : Fin (m + 1) → ℝ) (z : ℝ), thermalWeights (List.ofFn E) T true = .ok (List.ofFn w, z) ∧
      0 < z ∧ (∀ k, 0 ≤ w k / z) ∧ ∑ k, w k / z = 1 := by
  refine ⟨_, _, thermalWeights_is E T, wt_sum_pos T E,
    fun k => div_nonneg (wt_nonneg T E k) (wt_sum_pos T E).le, ?_⟩
  rw [← Finset.sum_div, div_self (wt_sum_pos T E).ne']

/-- C19: at finite temperature the ratio of two probabilities is the Boltzmann factor of the energy
difference. -/
theorem C19_boltzmann {m : ℕ} (E : Fin (m + 1) → ℝ) (T : ℝ) (hT : T ≠ 0) :
    ∃ (w : Fin (m + 1) → ℝ) (z : ℝ), thermalWeights (List.ofFn E) T true = .ok (List.ofFn w, z) ∧
      ∀ k l, w k = Real.exp (-(E k - E l) / T) * w l := by
  refine ⟨_, _, thermalWeights_is E T, fun k l => ?_⟩
  simp only [wt, hT, if_false]
  rw [← Real.exp_add]
  congr 1
  field_simp
  ring

/-- C19: the thermal expectation value is a weighted mean of the eigenstate expectation values, the
weights not depending on the operator; so it lies between their extremes. -/
theorem C19_between {m : ℕ} {V O : Mat} {Vm : Matrix ι (Fin (m + 1)) ℂ} {Om : Matrix ι ι ℂ}
    (hV : V.Is Vm) (hO : O.Is Om) (E : Fin (m + 1) → ℝ) (T a b : ℝ)
    (ha : ∀ k, a ≤ (expect Om (colOf Vm k)).re) (hb : ∀ k, (expect Om (colOf Vm k)).re ≤ b) :
    ∃ x, expValsThermal V O (List.ofFn E) T = .ok x ∧ a ≤ x ∧ x ≤ b := by
  refine ⟨_, expValsThermal_is hV hO E T, ?_, ?_⟩
  · rw [le_div_iff₀ (wt_sum_pos T E), Finset.mul_sum]
    exact Finset.sum_le_sum fun k _ => by nlinarith [ha k, wt_nonneg T E k]
  · rw [div_le_iff₀ (wt_sum_pos T E), Finset.mul_sum]
    exact Finset.sum_le_sum fun k _ => by nlinarith [hb k, wt_nonneg T E k]

/-- C19: the identity averages to one over normalised states. -/
theorem C19_identity [DecidableEq ι] {m : ℕ} {V : Mat} {Vm : Matrix ι (Fin (m + 1)) ℂ} (hV : V.Is Vm)
    (hn : ∀ k, norm2 (colOf Vm k) = 1) (E : Fin (m + 1) → ℝ) (T : ℝ) :
    expValsThermal V (Mat.eye V.rows) (List.ofFn E) T = .ok 1 := by
  rw [expValsThermal_is hV (Mat.is_eye (ι := ι) hV.1)]
  simp only [expect_one, hn, Complex.ofReal_re, mul_one]
  rw [div_self (wt_sum_pos T E).ne']

/-- C19: the value is the canonical average: Boltzmann weights for `T ≠ 0`; at `T = 0`, equal weights
on the states of lowest energy (for sorted energies, as the code assumes, whose distinct levels are
further apart than the rounding step). -/
theorem C19_canonical {m : ℕ} {V O : Mat} {Vm : Matrix ι (Fin (m + 1)) ℂ} {Om : Matrix ι ι ℂ}
    (hV : V.Is Vm) (hO : O.Is Om) (E : Fin (m + 1) → ℝ) (T : ℝ)
    (h : T ≠ 0 ∨ (Monotone E ∧ Gapped E)) :
    expValsThermal V O (List.ofFn E) T =
      .ok (canonical T E fun k => (expect Om (colOf Vm k)).re) := by
  rw [expValsThermal_is hV hO, canonical_wt T h]

/-- C19: `get_exp_vals_thermal` for a list of temperatures returns the values for each of them. -/
theorem C19_many {m : ℕ} {V O : Mat} {Vm : Matrix ι (Fin (m + 1)) ℂ} {Om : Matrix ι ι ℂ}
    (hV : V.Is Vm) (hO : O.Is Om) (E : Fin (m + 1) → ℝ) (Ts : List ℝ) (hm : Monotone E)
    (hg : Gapped E) :
    expValsThermalList V O (List.ofFn E) Ts =
      .ok (Ts.map fun T => canonical T E fun k => (expect Om (colOf Vm k)).re) := by
  unfold expValsThermalList
  induction Ts with
  | nil => rfl
  | cons T Ts ih =>
    rw [List.mapM_cons, ih, C19_canonical hV hO E T (Or.inr ⟨hm, hg⟩)]
    rfl

example : Monotone (![0, 0, 1] : Fin 3 → ℝ) ∧ Gapped (![0, 0, 1] : Fin 3 → ℝ) := by
  constructor
  · intro i j h
    fin_cases i <;> fin_cases j <;> simp_all
  · intro i j
    fin_cases i <;> fin_cases j <;> norm_num

/-! ## C20: the zero of energy, and the limit of zero temperature -/

/-- C20: shifting all energies does not change thermal expectation values, at any temperature
including zero, for any list of energies. -/
theorem C20_shift (V O : Mat) (E : List ℝ) (c T : ℝ) :
    expValsThermal V O (E.map (· + c)) T = expValsThermal V O E T := by
  have : thermalWeights (E.map (· + c)) T true = thermalWeights E T true := by
    unfold thermalWeights
    cases E with
    | nil => rfl
    | cons e0 es =>
      simp only [List.map_cons, List.map_map, if_true]
      have : ((fun x => x - (e0 + c)) ∘ fun x => x + c) = fun x => x - e0 := by
        funext x; simp
      rw [this]; simp
  unfold expValsThermal
  rw [this]

/-- C20: the value at `T = 0` is the limit of the values for `T → 0` from above, if the levels above the lowest one are
further away from it than the rounding step. -/
theorem C20_limit_ground {m : ℕ} {V O : Mat} {Vm : Matrix ι (Fin (m + 1)) ℂ} {Om : Matrix ι ι ℂ}
    (hV : V.Is Vm) (hO : O.Is Om) (E : Fin (m + 1) → ℝ) (hm : Monotone E)
    (hg : ∀ k, E k = E 0 ∨ 1 / 2 * (1 / 10 ^ 13 : ℝ) < |E k - E 0|) :
    ∃ f : ℝ → ℝ, (∀ T, expValsThermal V O (List.ofFn E) T = .ok (f T)) ∧
      Filter.Tendsto f (nhdsWithin 0 (Set.Ioi 0)) (nhds (f 0)) := by
  refine ⟨_, fun T => expValsThermal_is hV hO E T, ?_⟩
  have hw : ∀ k, Filter.Tendsto (fun T => wt T E k) (nhdsWithin 0 (Set.Ioi 0)) (nhds (wt 0 E k)) := by
    intro k
    have hev : ∀ᶠ T in nhdsWithin (0 : ℝ) (Set.Ioi 0), wt T E k = Real.exp (-(1 / T) * (E k - E 0)) := by
      filter_upwards [self_mem_nhdsWithin] with T hT
      simp only [wt, (Set.mem_Ioi.1 hT).ne', if_false]
    rw [Filter.tendsto_congr' hev]
    have hlow := mono_low hm k
    rcases hg k with h | h
    · have h0 : wt 0 E k = 1 := by
        have : (k : ℕ) < nLow E := hlow.2 (by rw [h]; simp)
        simp [wt, this]
      rw [h0, h]
      simp
    · have h0 : wt 0 E k = 0 := by
        have : ¬ (k : ℕ) < nLow E := fun hk => absurd (hlow.1 hk) (not_le.2 h)
        simp [wt, this]
      rw [h0]
      have hpos : 0 < E k - E 0 := by
        have h1 := hm (Fin.zero_le k)
        have h2 : E k - E 0 ≠ 0 := by
          intro h2; rw [h2] at h; norm_num at h
        exact lt_of_le_of_ne (sub_nonneg.2 h1) h2.symm
      refine Real.tendsto_exp_atBot.comp ?_
      have h3 : Filter.Tendsto (fun T : ℝ => T⁻¹ * (E k - E 0)) (nhdsWithin 0 (Set.Ioi 0))
          Filter.atTop := tendsto_inv_nhdsGT_zero.atTop_mul_const hpos
      have h4 := Filter.tendsto_neg_atTop_atBot.comp h3
      refine h4.congr fun T => ?_
      simp
  refine Filter.Tendsto.div ?_ ?_ (wt_sum_pos 0 E).ne'
  · exact tendsto_finsetSum _ fun k _ => (hw k).mul_const _
  · exact tendsto_finsetSum _ fun k _ => hw k

/-- C20: the value at `T = 0` is the limit of the values for `T → 0` from above. -/
theorem C20_limit {m : ℕ} {V O : Mat} {Vm : Matrix ι (Fin (m + 1)) ℂ} {Om : Matrix ι ι ℂ}
    (hV : V.Is Vm) (hO : O.Is Om) (E : Fin (m + 1) → ℝ) (hm : Monotone E) (hg : Gapped E) :
    ∃ f : ℝ → ℝ, (∀ T, expValsThermal V O (List.ofFn E) T = .ok (f T)) ∧
      Filter.Tendsto f (nhdsWithin 0 (Set.Ioi 0)) (nhds (f 0)) :=
  C20_limit_ground hV hO E hm fun k => hg k 0

end

/-! ## C21: combining sectors -/

section

variable {r : ℕ} {m : Fin (r + 1) → ℕ} {ι : Fin (r + 1) → Type} [∀ i, Fintype (ι i)]
  [∀ i, Basis (ι i)]

/-- C21: combining the thermal averages computed sector by sector gives the canonical average over
the levels of all sectors together. -/
theorem C21_combine {V O : Fin (r + 1) → Mat} {Vm : ∀ i, Matrix (ι i) (Fin (m i + 1)) ℂ}
    {Om : ∀ i, Matrix (ι i) (ι i) ℂ} (hV : ∀ i, (V i).Is (Vm i)) (hO : ∀ i, (O i).Is (Om i))
    (E : ∀ i, Fin (m i + 1) → ℝ) (T : ℝ)
    (h : T ≠ 0 ∨ ((∀ i, Monotone (E i)) ∧ Gapped fun p : Σ i, Fin (m i + 1) => E p.1 p.2)) :
    ∃ a : Fin (r + 1) → ℝ, (∀ i, expValsThermal (V i) (O i) (List.ofFn (E i)) T = .ok (a i)) ∧
      thermalAvgCombine (List.ofFn a) (List.ofFn fun i => List.ofFn (E i)) T =
        .ok (canonical T (fun p : Σ i, Fin (m i + 1) => E p.1 p.2)
          fun p => (expect (Om p.1) (colOf (Vm p.1) p.2)).re) := by
  refine ⟨fun i => canonical T (E i) fun k => (expect (Om i) (colOf (Vm i) k)).re, fun i => ?_, ?_⟩
  · refine C19_canonical (hV i) (hO i) (E i) T (h.imp_right fun h => ⟨h.1 i, fun k l => ?_⟩)
    exact h.2 ⟨i, k⟩ ⟨i, l⟩
  · exact combine_is E T (fun i k => (expect (Om i) (colOf (Vm i) k)).re) (h.imp_right And.right)

/-- C21: it also equals what the library computes without using sectors: for the block-diagonal
operator and the eigenvectors of all blocks, numbered in any way, all energies in one list (sorted
if `T = 0`). -/
theorem C21_whole [Basis (Σ i, ι i)] {V O : Fin (r + 1) → Mat}
    {Vm : ∀ i, Matrix (ι i) (Fin (m i + 1)) ℂ}
    {Om : ∀ i, Matrix (ι i) (ι i) ℂ} (hV : ∀ i, (V i).Is (Vm i)) (hO : ∀ i, (O i).Is (Om i))
    (E : ∀ i, Fin (m i + 1) → ℝ) {M : ℕ} (e : Fin (M + 1) ≃ Σ i, Fin (m i + 1)) {W Q : Mat}
    (hW : W.Is ((blockDiagonal' Vm).submatrix id e)) (hQ : Q.Is (blockDiagonal' Om)) (T : ℝ)
    (h : T ≠ 0 ∨ ((∀ i, Monotone (E i)) ∧ (Monotone fun k => E (e k).1 (e k).2) ∧
      Gapped fun p : Σ i, Fin (m i + 1) => E p.1 p.2)) :
    ∃ a : Fin (r + 1) → ℝ, (∀ i, expValsThermal (V i) (O i) (List.ofFn (E i)) T = .ok (a i)) ∧
      thermalAvgCombine (List.ofFn a) (List.ofFn fun i => List.ofFn (E i)) T =
        expValsThermal W Q (List.ofFn fun k => E (e k).1 (e k).2) T := by
  obtain ⟨a, h1, h2⟩ := C21_combine hV hO E T (h.imp_right fun h => ⟨h.1, h.2.2⟩)
  refine ⟨a, h1, ?_⟩
  rw [h2, C19_canonical hW hQ _ T (h.imp_right fun h => ⟨h.2.1, fun k l => h.2.2 (e k) (e l)⟩)]
  congr 1
  rw [← canonical_equiv e]
  congr 1
  funext k
  have := expect_block Om Vm (e k)
  simp only [Function.comp]
  rw [← this]
  rfl

/-- C21: for several temperatures at once, every temperature is treated by itself. -/
theorem C21_many (a : Fin (r + 1) → List ℝ) (E : ∀ i, Fin (m i + 1) → ℝ) (Ts : List ℝ)
    (v : ∀ i, Fin (m i + 1) → ℝ)
    (ha : ∀ i (t : ℕ) (ht : t < Ts.length), (a i).getD t 0 = canonical Ts[t] (E i) (v i))
    (hg : Gapped fun p : Σ i, Fin (m i + 1) => E p.1 p.2) :
    thermalAvgCombineList (List.ofFn a) (List.ofFn fun i => List.ofFn (E i)) Ts =
      .ok (Ts.map fun T => canonical T (fun p : Σ i, Fin (m i + 1) => E p.1 p.2)
        fun p => v p.1 p.2) := by
  unfold thermalAvgCombineList
  have e1 : Ts.zipIdx = List.ofFn fun t : Fin Ts.length => (Ts[t], (t : ℕ)) := by
    apply List.ext_getElem <;> simp
  have e2 : (Ts.map fun T => canonical T (fun p : Σ i, Fin (m i + 1) => E p.1 p.2)
        fun p => v p.1 p.2) = List.ofFn fun t : Fin Ts.length =>
          canonical Ts[t] (fun p : Σ i, Fin (m i + 1) => E p.1 p.2) fun p => v p.1 p.2 := by
    apply List.ext_getElem <;> simp
  rw [e1, e2]
  refine mapM_ofFn _ _ _ fun t => ?_
  rw [← combine_is E Ts[t] v (Or.inr hg), List.map_ofFn]
  congr 2
  funext i
  exact ha i t t.2

/-- A system of two sectors with degenerate ground states in different sectors. -/
example : ∃ E : ∀ i : Fin 2, Fin ((![0, 1] : Fin 2 → ℕ) i + 1) → ℝ, (∀ i, Monotone (E i)) ∧
    (Gapped fun p : Σ i, Fin ((![0, 1] : Fin 2 → ℕ) i + 1) => E p.1 p.2) ∧ E 0 0 = E 1 0 ∧
    E 1 0 < E 1 1 := by
  refine ⟨fun i k => (k : ℕ), fun i k l h => by simpa using h, ?_, by simp, by simp⟩
  rintro ⟨i, k⟩ ⟨j, l⟩
  by_cases h : (k : ℕ) = l
  · left; simp [h]
  · right
    have : (1 : ℝ) ≤ |((k : ℕ) : ℝ) - (l : ℕ)| := by
      have : (1 : ℤ) ≤ |((k : ℕ) : ℤ) - (l : ℕ)| := Int.one_le_abs (by omega)
      exact_mod_cast this
    refine lt_of_lt_of_le ?_ this
    norm_num

end

end ED.Props
