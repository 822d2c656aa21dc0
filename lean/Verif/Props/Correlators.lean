import Verif.Props.Thermal
import Verif.Lemmas.Hubbard
import Mathlib.Analysis.Normed.Algebra.MatrixExponential

/-! # Properties C79–C81: partition function, subspace overlaps, correlators between sites -/

namespace ED.Props

open scoped BigOperators
open Matrix

/-! ## C79: partition function from the Hamiltonian -/

open NormedSpace in
/-- C79: the trace of the exponential of the Hamiltonian is the sum of the Boltzmann factors of its
eigenvalues, for every `β` including zero. -/
theorem C79_partition {n : ℕ} {H : Mat} {Hm V : Matrix (Fin n) (Fin n) ℂ} (hH : H.Is Hm)
    (E : Fin n → ℝ) (h2 : V * Vᴴ = 1)
    (hV : Hm * V = V * diagonal fun m => ((E m : ℝ) : ℂ)) (beta : ℝ) :
    partitionFnHamiltonian H beta = ∑ k, Real.exp (-beta * E k) := by
  obtain ⟨r, c, e⟩ := H
  have hr : r = n := by simpa using hH.1
  subst hr
  have hHm : (Matrix.of fun i j => e i j : Matrix (Fin r) (Fin r) ℂ) = Hm := by
    ext i j; exact hH.2.2 i j
  unfold partitionFnHamiltonian
  by_cases hb : beta = 0
  · simp [hb]
  · rw [if_neg hb]
    simp only
    rw [hHm]
    have hinv : V⁻¹ = Vᴴ := Matrix.inv_eq_right_inv h2
    have hu : IsUnit V := IsUnit.of_mul_eq_one _ h2
    have h3 : Hm = V * (diagonal fun m => ((E m : ℝ) : ℂ)) * V⁻¹ := by
      rw [← hV, hinv, Matrix.mul_assoc, h2, Matrix.mul_one]
    have h4 : -(beta : ℂ) • Hm = V * (diagonal fun m => ((-beta * E m : ℝ) : ℂ)) * V⁻¹ := by
      rw [h3, ← Matrix.smul_mul, ← Matrix.mul_smul]
      congr 2
      ext i j
      by_cases h : i = j
      · subst h; simp
      · simp [h]
    rw [h4, Matrix.exp_conj _ _ hu, Matrix.exp_diagonal, Matrix.trace_mul_comm, ← Matrix.mul_assoc,
      hinv, mul_eq_one_comm.1 h2, Matrix.one_mul, Matrix.trace_diagonal, Complex.re_sum]
    refine Finset.sum_congr rfl fun k _ => ?_
    rw [Pi.coe_exp, ← Complex.exp_eq_exp_ℂ, ← Complex.ofReal_exp, Complex.ofReal_re]

example : ∃ (H : Mat) (Hm V : Matrix (Fin 2) (Fin 2) ℂ) (E : Fin 2 → ℝ), H.Is Hm ∧ V * Vᴴ = 1 ∧
    (Hm * V = V * diagonal fun m => ((E m : ℝ) : ℂ)) ∧ E 0 ≠ E 1 := by
  refine ⟨⟨2, 2, fun i j => if i = j then (i : ℂ) else 0⟩, diagonal fun m => ((m : ℕ) : ℂ), 1,
    fun m => (m : ℕ), ⟨rfl, rfl, fun i j => ?_⟩, by simp, by simp, by simp⟩
  by_cases h : i = j
  · subst h; simp [Basis.num]
  · simp [h, Basis.num, Fin.val_inj]

/-! ## C80: overlaps with subspaces -/

section

variable {ι : Type} [Fintype ι] [Basis ι] {s M : ℕ} {κ : Fin s → Type} [∀ i, Fintype (κ i)]
  [∀ i, Basis (κ i)]

theorem expect_proj {κ : Type} [Fintype κ] (P : Matrix κ ι ℂ) (ψ : ι → ℂ) :
    (expect (Pᴴ * P) ψ).re = norm2 (P *ᵥ ψ) := by
  classical
  have : expect (Pᴴ * P) ψ = expect (1 : Matrix κ κ ℂ) (P *ᵥ ψ) := by
    unfold expect
    rw [one_mulVec, star_mulVec, ← mulVec_mulVec, dotProduct_mulVec]
  rw [this]
  have := expect_one_any (P *ᵥ ψ)
  rw [this, Complex.ofReal_re]

/-- C80: entry `(i, k)` of the overlaps is the squared norm of the projection of state `k`; if the
projectors together resolve the identity, the overlaps of each state sum to its squared norm, and no
overlap exceeds it. -/
theorem C80_subspace_overlaps [DecidableEq ι] {V : Mat} {P : Fin s → Mat} {Vm : Matrix ι (Fin M) ℂ}
    {Pm : ∀ i, Matrix (κ i) ι ℂ} (hV : V.Is Vm) (hP : ∀ i, (P i).Is (Pm i)) :
    ∃ a : Fin s → Fin M → ℝ,
      getSubspaceOverlaps V (List.ofFn P) = .ok (List.ofFn fun i => List.ofFn (a i)) ∧
      (∀ i k, a i k = norm2 (Pm i *ᵥ colOf Vm k)) ∧ (∀ i k, 0 ≤ a i k) ∧
      (∑ i, (Pm i)ᴴ * Pm i = 1 → ∀ k, ∑ i, a i k = norm2 (colOf Vm k) ∧
        ∀ i, a i k ≤ norm2 (colOf Vm k)) := by
  have hnn : ∀ (i : Fin s) k, 0 ≤ norm2 (Pm i *ᵥ colOf Vm k) := fun i k =>
    Finset.sum_nonneg fun _ _ => by positivity
  refine ⟨fun i k => norm2 (Pm i *ᵥ colOf Vm k), ?_, fun _ _ => rfl, hnn, fun h k => ?_⟩
  · refine mapM_ofFn _ _ _ fun i => ?_
    obtain ⟨X, hX, hXi⟩ := (hP i).dagger.mul (hP i)
    rw [hX]
    change getExpVals V X = _
    rw [getExpVals_is hV hXi]
    simp only [expect_proj]
  · have hsum : ∑ i, norm2 (Pm i *ᵥ colOf Vm k) = norm2 (colOf Vm k) := by
      have e : (expect (∑ i, (Pm i)ᴴ * Pm i) (colOf Vm k)).re = ∑ i, norm2 (Pm i *ᵥ colOf Vm k) := by
        unfold expect
        rw [sum_mulVec, dotProduct_sum, Complex.re_sum]
        exact Finset.sum_congr rfl fun i _ => expect_proj (Pm i) (colOf Vm k)
      rw [← e, h, expect_one, Complex.ofReal_re]
    refine ⟨hsum, fun i => ?_⟩
    rw [← hsum]
    exact Finset.single_le_sum (fun j _ => hnn j k) (Finset.mem_univ i)

end

/-! ## C81: correlators between sites -/

theorem mapM_ok {α β : Type} (l : List α) (g : α → Res β) (h : α → β)
    (hg : ∀ a ∈ l, g a = .ok (h a)) : l.mapM g = .ok (l.map h) := by
  induction l with
  | nil => rfl
  | cons a l ih =>
    rw [List.mapM_cons, hg a (by simp), ih fun b hb => hg b (by simp [hb])]
    rfl

theorem mem_defaultPairs (n i j : ℕ) : (i, j) ∈ defaultPairs n ↔ j ≤ i ∧ i < n := by
  unfold defaultPairs
  simp only [List.mem_flatMap, List.mem_range, List.mem_filter, List.mem_map, Prod.mk.injEq,
    ge_iff_le, decide_eq_true_eq]
  constructor
  · rintro ⟨a, ha, ⟨b, hb, rfl, rfl⟩, h⟩; exact ⟨h, hb⟩
  · rintro ⟨h1, h2⟩; exact ⟨j, by omega, ⟨i, h2, rfl, rfl⟩, h1⟩

theorem nodup_defaultPairs (n : ℕ) : (defaultPairs n).Nodup := by
  unfold defaultPairs
  rw [List.nodup_flatMap]
  constructor
  · intro i _
    refine List.Nodup.filter _ (List.Nodup.map ?_ List.nodup_range)
    intro a b h; simpa using h
  · refine List.Pairwise.imp ?_ List.nodup_range
    intro a b hab x hx hy
    simp only [List.mem_filter, List.mem_map] at hx hy
    obtain ⟨⟨j, _, rfl⟩, _⟩ := hx
    obtain ⟨⟨k, _, hk⟩, _⟩ := hy
    simp only [Prod.mk.injEq] at hk
    exact hab hk.2.symm

/-- The two statistics accepted by the operator builders. -/
def IsFormat (f : String) : Prop := f = "fermion" ∨ f = "boson"

section

variable {κ : Type} [Fintype κ] [Basis κ] {M : ℕ}

theorem single_gives {S : Sys} (hb : S.nbasis = 2) {fmt : String} (hf : IsFormat fmt)
    (sp : Fin S.nspecies) {op : Mat} (h : op.IsLoc 2) :
    ∃ A : Fin S.nsites → Op (S.nsites * S.nspecies) 2,
      (∀ i : Fin S.nsites, Gives (getSingleSiteOp S i sp op fmt) (A i)) ∧
      (∀ (B : Fin S.nsites → Op (S.nsites * S.nspecies) 2), (∀ i : Fin S.nsites, Gives (getSingleSiteOp S i sp op fmt) (B i)) → B = A) := by
  rcases hf with rfl | rfl
  · refine ⟨_, fun i => gives_single_fermion hb i sp h, fun B hB => funext fun i => ?_⟩
    obtain ⟨X, hX, hXi⟩ := hB i
    obtain ⟨Y, hY, hYi⟩ := gives_single_fermion hb i sp h
    rw [hX] at hY; injection hY with hY; subst hY
    exact hXi.ext hYi
  · refine ⟨_, fun i => gives_single_boson hb i sp h, fun B hB => funext fun i => ?_⟩
    obtain ⟨X, hX, hXi⟩ := hB i
    obtain ⟨Y, hY, hYi⟩ := gives_single_boson hb i sp h
    rw [hX] at hY; injection hY with hY; subst hY
    exact hXi.ext hYi

theorem two_gives {S : Sys} (hb : S.nbasis = 2) {fmt : String} (hf : IsFormat fmt)
    (sp1 sp2 : Fin S.nspecies) {op1 op2 : Mat} (h1 : op1.IsLoc 2) (h2 : op2.IsLoc 2) :
    ∃ A B : Fin S.nsites → Op (S.nsites * S.nspecies) 2,
      (∀ i : Fin S.nsites, Gives (getSingleSiteOp S i sp1 op1 fmt) (A i)) ∧
      (∀ i : Fin S.nsites, Gives (getSingleSiteOp S i sp2 op2 fmt) (B i)) ∧
      ∀ i j : Fin S.nsites, Gives (getTwoSiteOp S i sp1 j sp2 op1 op2 fmt) (A i * B j) := by
  rcases hf with rfl | rfl
  · exact ⟨_, _, fun i => gives_single_fermion hb i sp1 h1, fun i => gives_single_fermion hb i sp2 h2,
      fun i j => gives_two_fermion hb i j sp1 sp2 h1 h2⟩
  · exact ⟨_, _, fun i => gives_single_boson hb i sp1 h1, fun i => gives_single_boson hb i sp2 h2,
      fun i j => gives_two_boson hb i j sp1 sp2 h1 h2⟩

/-- C81: expectation values of a single-site operator on all sites, in a projected space. -/
theorem C81_sites_partial {S : Sys} (hb : S.nbasis = 2) {fmt : String} (hf : IsFormat fmt)
    (sp : Fin S.nspecies) {op V P : Mat} (h : op.IsLoc 2) {Vm : Matrix κ (Fin M) ℂ}
    {Pm : Matrix κ (Conf (S.nsites * S.nspecies) 2) ℂ} (hV : V.Is Vm) (hP : P.Is Pm) :
    ∃ A : Fin S.nsites → Op (S.nsites * S.nspecies) 2,
      (∀ i : Fin S.nsites, Gives (getSingleSiteOp S i sp op fmt) (A i)) ∧
      expValsSites S V op sp none (some P) fmt = .ok (List.ofFn fun i => List.ofFn fun k =>
        (expect (Pm * A i * Pmᴴ) (colOf Vm k)).re, List.range S.nsites) := by
  obtain ⟨A, hA, -⟩ := single_gives hb hf sp h
  refine ⟨A, hA, ?_⟩
  unfold expValsSites
  simp only [Option.getD_some, Option.getD_none]
  have hr : List.range S.nsites = List.ofFn fun i : Fin S.nsites => (i : ℕ) := by
    simpa using list_range_map S.nsites id
  rw [hr, mapM_ofFn _ _ (fun i => List.ofFn fun k =>
        (expect (Pm * A i * Pmᴴ) (colOf Vm k)).re)]
  · rfl
  · intro i
    obtain ⟨X, hX, hXi⟩ := hA i
    rw [hX]
    change (sandwich 1 P X >>= _) = _
    obtain ⟨Y, hY, hYi⟩ := sandwich_gives hP hXi 1
    rw [hY]
    change getExpVals V Y = _
    rw [getExpVals_is hV hYi, one_smul]

/-- C81: thermal values of a single-site operator on all sites. -/
theorem C81_thermal_sites_partial {S : Sys} (hb : S.nbasis = 2) {fmt : String} (hf : IsFormat fmt)
    (sp : Fin S.nspecies) {m : ℕ} {op V P : Mat} (h : op.IsLoc 2) {Vm : Matrix κ (Fin (m + 1)) ℂ}
    {Pm : Matrix κ (Conf (S.nsites * S.nspecies) 2) ℂ} (hV : V.Is Vm) (hP : P.Is Pm)
    (E : Fin (m + 1) → ℝ) (hm : Monotone E) (hg : Gapped E) (temps : List ℝ) :
    ∃ A : Fin S.nsites → Op (S.nsites * S.nspecies) 2,
      (∀ i : Fin S.nsites, Gives (getSingleSiteOp S i sp op fmt) (A i)) ∧
      thermalExpSites S V (List.ofFn E) op sp temps none (some P) fmt =
        .ok (List.ofFn fun i => temps.map fun T => canonical T E fun k =>
          (expect (Pm * A i * Pmᴴ) (colOf Vm k)).re, List.range S.nsites) := by
  obtain ⟨A, hA, -⟩ := single_gives hb hf sp h
  refine ⟨A, hA, ?_⟩
  unfold thermalExpSites
  simp only [Option.getD_some, Option.getD_none]
  have hr : List.range S.nsites = List.ofFn fun i : Fin S.nsites => (i : ℕ) := by
    simpa using list_range_map S.nsites id
  rw [hr, mapM_ofFn _ _ (fun i => temps.map fun T => canonical T E fun k =>
        (expect (Pm * A i * Pmᴴ) (colOf Vm k)).re)]
  · rfl
  · intro i
    obtain ⟨X, hX, hXi⟩ := hA i
    rw [hX]
    change (sandwich 1 P X >>= _) = _
    obtain ⟨Y, hY, hYi⟩ := sandwich_gives hP hXi 1
    rw [hY]
    change expValsThermalList V Y _ _ = _
    rw [C19_many hV hYi E temps hm hg, one_smul]

/-- C81: the correlators of `get_corr_sites` with the default sites: every unordered pair of sites
occurs exactly once (the larger first), and its value is the expectation value of the product of the
two single-site operators, in the projected space. -/
theorem C81_correlators_partial {S : Sys} (hb : S.nbasis = 2) {fmt : String} (hf : IsFormat fmt)
    (sp1 sp2 : Fin S.nspecies) {op1 op2 V P : Mat} (h1 : op1.IsLoc 2) (h2 : op2.IsLoc 2)
    {Vm : Matrix κ (Fin M) ℂ} {Pm : Matrix κ (Conf (S.nsites * S.nspecies) 2) ℂ} (hV : V.Is Vm)
    (hP : P.Is Pm) :
    ∃ (A B : Fin S.nsites → Op (S.nsites * S.nspecies) 2) (vals : List (List ℝ))
      (pairs : List (ℕ × ℕ)),
      (∀ i : Fin S.nsites, Gives (getSingleSiteOp S i sp1 op1 fmt) (A i)) ∧
      (∀ i : Fin S.nsites, Gives (getSingleSiteOp S i sp2 op2 fmt) (B i)) ∧
      corrSites S V sp1 sp2 op1 op2 none (some P) fmt = .ok (vals, pairs) ∧
      pairs.Nodup ∧ (∀ i j, (i, j) ∈ pairs ↔ j ≤ i ∧ i < S.nsites) ∧ vals.length = pairs.length ∧
      ∀ (r : ℕ) (i j : Fin S.nsites), pairs[r]? = some ((i : ℕ), (j : ℕ)) →
        vals[r]? = some (List.ofFn fun k => (expect (Pm * (A i * B j) * Pmᴴ) (colOf Vm k)).re) := by
  obtain ⟨A, B, hA, hB, hAB⟩ := two_gives hb hf sp1 sp2 h1 h2
  set val : ℕ × ℕ → List ℝ := fun p =>
    if hp : p.1 < S.nsites ∧ p.2 < S.nsites then
      List.ofFn fun k => (expect (Pm * (A ⟨p.1, hp.1⟩ * B ⟨p.2, hp.2⟩) * Pmᴴ) (colOf Vm k)).re
    else [] with hval
  refine ⟨A, B, (defaultPairs S.nsites).map val, defaultPairs S.nsites, hA, hB, ?_,
    nodup_defaultPairs _, mem_defaultPairs _, by simp, fun r i j hr => ?_⟩
  · unfold corrSites
    simp only [Option.getD_some, Option.getD_none]
    rw [mapM_ok _ _ val]
    · rfl
    · rintro ⟨i, j⟩ hp
      obtain ⟨hj, hi⟩ := (mem_defaultPairs _ _ _).1 hp
      have hj' : j < S.nsites := lt_of_le_of_lt hj hi
      obtain ⟨X, hX, hXi⟩ := hAB ⟨i, hi⟩ ⟨j, hj'⟩
      simp only at hX
      rw [hX]
      change (sandwich 1 P X >>= _) = _
      obtain ⟨Y, hY, hYi⟩ := sandwich_gives hP hXi 1
      rw [hY]
      change getExpVals V Y = _
      rw [getExpVals_is hV hYi, one_smul]
      simp [hval, hi, hj']
  · rw [List.getElem?_map, hr]
    simp [hval]

/-- C81: the thermal correlators are the canonical averages of the same operators. -/
theorem C81_thermal_correlators_partial {S : Sys} (hb : S.nbasis = 2) {fmt : String} (hf : IsFormat fmt)
    (sp1 sp2 : Fin S.nspecies) {m : ℕ} {op1 op2 V P : Mat} (h1 : op1.IsLoc 2) (h2 : op2.IsLoc 2)
    {Vm : Matrix κ (Fin (m + 1)) ℂ} {Pm : Matrix κ (Conf (S.nsites * S.nspecies) 2) ℂ} (hV : V.Is Vm)
    (hP : P.Is Pm) (E : Fin (m + 1) → ℝ) (hm : Monotone E) (hg : Gapped E) (temps : List ℝ) :
    ∃ (A B : Fin S.nsites → Op (S.nsites * S.nspecies) 2) (vals : List (List ℝ))
      (pairs : List (ℕ × ℕ)),
      (∀ i : Fin S.nsites, Gives (getSingleSiteOp S i sp1 op1 fmt) (A i)) ∧
      (∀ i : Fin S.nsites, Gives (getSingleSiteOp S i sp2 op2 fmt) (B i)) ∧
      thermalCorrSites S V (List.ofFn E) sp1 sp2 op1 op2 temps none (some P) fmt =
        .ok (vals, pairs) ∧
      pairs.Nodup ∧ (∀ i j, (i, j) ∈ pairs ↔ j ≤ i ∧ i < S.nsites) ∧ vals.length = pairs.length ∧
      ∀ (r : ℕ) (i j : Fin S.nsites), pairs[r]? = some ((i : ℕ), (j : ℕ)) →
        vals[r]? = some (temps.map fun T => canonical T E fun k =>
          (expect (Pm * (A i * B j) * Pmᴴ) (colOf Vm k)).re) := by
  obtain ⟨A, B, hA, hB, hAB⟩ := two_gives hb hf sp1 sp2 h1 h2
  set val : ℕ × ℕ → List ℝ := fun p =>
    if hp : p.1 < S.nsites ∧ p.2 < S.nsites then
      temps.map fun T => canonical T E fun k =>
        (expect (Pm * (A ⟨p.1, hp.1⟩ * B ⟨p.2, hp.2⟩) * Pmᴴ) (colOf Vm k)).re
    else [] with hval
  refine ⟨A, B, (defaultPairs S.nsites).map val, defaultPairs S.nsites, hA, hB, ?_,
    nodup_defaultPairs _, mem_defaultPairs _, by simp, fun r i j hr => ?_⟩
  · unfold thermalCorrSites
    simp only [Option.getD_some, Option.getD_none]
    rw [mapM_ok _ _ val]
    · rfl
    · rintro ⟨i, j⟩ hp
      obtain ⟨hj, hi⟩ := (mem_defaultPairs _ _ _).1 hp
      have hj' : j < S.nsites := lt_of_le_of_lt hj hi
      obtain ⟨X, hX, hXi⟩ := hAB ⟨i, hi⟩ ⟨j, hj'⟩
      simp only at hX
      rw [hX]
      change (sandwich 1 P X >>= _) = _
      obtain ⟨Y, hY, hYi⟩ := sandwich_gives hP hXi 1
      rw [hY]
      change expValsThermalList V Y _ _ = _
      rw [C19_many hV hYi E temps hm hg, one_smul]
      simp [hval, hi, hj']
  · rw [List.getElem?_map, hr]
    simp [hval]

end

example : IsFormat "fermion" ∧ pauliX.IsLoc 2 ∧ (⟨2, 1, 2⟩ : Sys).nbasis = 2 ∧
    (Mat.eye 4).Is (1 : Matrix (Conf 2 2) (Conf 2 2) ℂ) :=
  ⟨Or.inl rfl, ⟨rfl, rfl⟩, rfl, Mat.is_eye (by simp)⟩

end ED.Props
