import Verif.Lemmas.Select
import Verif.Lemmas.HubbardAlg

/-! # Properties C14–C17, C74: sum operators, state labels and projectors -/

namespace ED.Props

open scoped BigOperators
open Matrix

/-! ## C14 -/

/-- C14: the sum operator is the sum over the sites of the single-site operators, for both formats
and every local operator. -/
theorem C14_sum_op (S : Sys) (hb : S.nbasis = 2) (hn : 0 < S.nsites) (sp : Fin S.nspecies)
    (op : Mat) (hop : op.IsLoc 2) (fmt : String) (hf : fmt = "boson" ∨ fmt = "fermion") :
    ∃ (M : Mat) (site : Fin S.nsites → Mat),
      (∀ i : Fin S.nsites, getSingleSiteOp S i sp op fmt = .ok (site i)) ∧
      getSumOp S op sp fmt = .ok M ∧ M.HasDim S.nlog 2 ∧
      M.op S.nlog 2 = ∑ i, (site i).op S.nlog 2 := by
  have h : ∀ i : Fin S.nsites, ∃ (O : Op S.nlog 2), Gives (getSingleSiteOp S i sp op fmt) O := by
    intro i
    rcases hf with rfl | rfl
    · exact ⟨_, gives_single_boson hb i sp hop⟩
    · exact ⟨_, gives_single_fermion hb i sp hop⟩
  choose O hO using h
  obtain ⟨M, h1, h2⟩ := gives_sumOp hn O hO
  choose site hs1 hs2 using hO
  refine ⟨M, site, hs1, h1, h2.op.1, ?_⟩
  rw [h2.op.2]
  exact Finset.sum_congr rfl fun i _ => (hs2 i).op.2.symm

/-- C14: the sum of the number operators of a species is diagonal and counts its particles. -/
theorem C14_number_counts (S : Sys) (hb : S.nbasis = 2) (hn : 0 < S.nsites)
    (sp : Fin S.nspecies) :
    Gives (getSumOp S nOp sp "boson")
      (Matrix.diagonal fun t : Conf S.nlog 2 => (speciesCount t sp : ℂ)) := by
  refine (gives_sumOp hn (fun i => (number (mode i sp) : Op S.nlog 2)) fun i => ?_).of_eq ?_
  · have := gives_single_boson hb i sp nOp_loc
    rwa [show bop (mode i sp) (nOp.loc 2) = number (mode i sp) from bop_nl _] at this
  · ext s t
    rw [Matrix.sum_apply, diagonal_apply]
    simp only [number_diag]
    by_cases h : s = t
    · simp [h, speciesCount]
    · simp [h]

/-- C14: the wavevector sum weights site `r` by `exp(i q·r)`, and for a Hermitian local operator
the sums at `q` and `-q` are adjoint. -/
theorem C14_sum_op_q (S : Sys) (hb : S.nbasis = 2) (hn : 0 < S.nsites) (sp : Fin S.nspecies)
    (op : Mat) (hop : op.IsLoc 2) (xs ys : ℕ → ℝ) (qx qy : ℝ) :
    ∃ (M M' : Mat) (site : Fin S.nsites → Mat),
      (∀ i : Fin S.nsites, getSingleSiteOp S i sp op "boson" = .ok (site i)) ∧
      getSumOpQ S xs ys sp qx qy op "boson" = .ok (.mat M) ∧ M.HasDim S.nlog 2 ∧
      M.op S.nlog 2 = ∑ i : Fin S.nsites,
        Complex.exp (Complex.I * ((xs i * qx + ys i * qy : ℝ) : ℂ)) • (site i).op S.nlog 2 ∧
      getSumOpQ S xs ys sp (-qx) (-qy) op "boson" = .ok (.mat M') ∧
      ((op.loc 2)ᴴ = op.loc 2 → M'.op S.nlog 2 = (M.op S.nlog 2)ᴴ) := by
  have h : ∀ i : Fin S.nsites, Gives (getSingleSiteOp S i sp op "boson")
      (bop (mode i sp) (op.loc 2) : Op S.nlog 2) := fun i => gives_single_boson hb i sp hop
  obtain ⟨M, h1, h2⟩ := gives_sumOpQ hn _ xs ys qx qy h
  obtain ⟨M', h1', h2'⟩ := gives_sumOpQ hn _ xs ys (-qx) (-qy) h
  choose site hs1 hs2 using h
  have he : ∀ (a b c d : ℝ), Complex.I * a * c + Complex.I * b * d =
      Complex.I * ((a * c + b * d : ℝ) : ℂ) := by intro a b c d; push_cast; ring
  refine ⟨M, M', site, hs1, h1, h2.op.1, ?_, h1', ?_⟩
  · rw [h2.op.2]
    exact Finset.sum_congr rfl fun i _ => by rw [(hs2 i).op.2, he]
  · intro hh
    rw [h2.op.2, h2'.op.2, conjTranspose_sum]
    refine Finset.sum_congr rfl fun i _ => ?_
    rw [conjTranspose_smul, bop_conj, hh, he, he]
    congr 1
    rw [← starRingEnd_apply, ← Complex.exp_conj, map_mul, Complex.conj_I, Complex.conj_ofReal]
    congr 1
    push_cast; ring

/-- Instance: two sites, two species, a Hermitian operator that is not diagonal. -/
example : ∃ M, getSumOp ⟨2, 2, 2⟩ pauliY 1 "fermion" = .ok M ∧ M.HasDim 4 2 := by
  obtain ⟨M, -, -, h, hd, -⟩ := C14_sum_op ⟨2, 2, 2⟩ rfl (by decide) 1 pauliY ⟨rfl, rfl⟩ "fermion"
    (Or.inr rfl)
  exact ⟨M, h, hd⟩

/-! ## C15 (fermions) -/

/-- C15: the label of mode `i` in the row of configuration `t` is the occupation of mode `i`; it is
the diagonal element of that mode's number operator, and different states have different rows. -/
theorem C15_fermion_labels (F : Fermions) :
    F.stateVects.rows = 2 ^ (F.nsites * F.nspecies) ∧ F.stateVects.cols = F.nsites * F.nspecies ∧
    (∀ (t : Conf (F.nsites * F.nspecies) 2) (i : Fin (F.nsites * F.nspecies)), F.stateVects.e (idx t) i = ((t i : ℕ) : ℂ)) ∧
    (∀ (i : Fin F.nsites) (s : Fin F.nspecies), ∃ M,
      getSingleSiteOp F.sys i s nOp "boson" = .ok M ∧
      ∀ t : Conf (F.nsites * F.nspecies) 2,
        F.stateVects.e (idx t) (mode i s : Fin (F.nsites * F.nspecies)) = M.e (idx t) (idx t)) ∧
    (∀ r r' : Fin (2 ^ (F.nsites * F.nspecies)),
      (∀ i : Fin (F.nsites * F.nspecies), F.stateVects.e r i = F.stateVects.e r' i) → r = r') := by
  have hlab : ∀ (t : Conf (F.nsites * F.nspecies) 2) (i : Fin (F.nsites * F.nspecies)),
      F.stateVects.e (idx t) i = ((t i : ℕ) : ℂ) := by
    intro t i
    simp only [Fermions.stateVects, labelColumn_apply]
    generalize t i = x
    fin_cases x <;> simp
  refine ⟨rfl, rfl, hlab, ?_, ?_⟩
  · intro i s
    obtain ⟨M, h1, h2⟩ := F_single F i s
    refine ⟨M, h1, fun t => ?_⟩
    have := h2.2.2 t t
    rw [num_conf] at this
    rw [this, hlab, number_diag, if_pos rfl]
    generalize t (mode i s) = x
    fin_cases x <;> simp
  · intro r r' h
    obtain ⟨t, ht⟩ := Basis.surj (ι := Conf (F.nsites * F.nspecies) 2) r (by simp)
    obtain ⟨t', ht'⟩ := Basis.surj (ι := Conf (F.nsites * F.nspecies) 2) r' (by simp)
    rw [num_conf] at ht ht'
    have e : t = t' := by
      funext i
      have := h i
      rw [← ht, ← ht', hlab, hlab, Nat.cast_inj] at this
      exact Fin.ext this
    exact Fin.ext (by rw [← ht, ← ht', e])

/-! ## C17 -/

/-- Membership in `np.unique`. -/
theorem mem_npUnique {l : List ℂ} {z : ℂ} : z ∈ npUnique l ↔ z ∈ l := by
  unfold npUnique
  rw [List.mem_dedup]
  exact (List.perm_insertionSort _ l).mem_iff

theorem diagList_get {D : Mat} {n : ℕ} (hr : D.rows = n) (hc : D.cols = n) (i : ℕ) (v : ℂ) :
    D.diagList[i]? = some v ↔ i < n ∧ D.e i i = v := by
  simp only [Mat.diagList, hr, hc, min_self, List.getElem?_map, Option.map_eq_some_iff,
    List.getElem?_range']
  constructor
  · rintro ⟨a, ha, rfl⟩
    obtain ⟨h1, h2⟩ := List.getElem?_eq_some_iff.1 ha
    rw [List.getElem_range] at h2
    subst h2
    exact ⟨by simpa using h1, rfl⟩
  · rintro ⟨h1, h2⟩
    exact ⟨i, by simp [h1], h2⟩

/-- C17: the projector returned for the `k`-th value selects exactly the basis states whose
diagonal element is that value (for requested values and for the default). -/
theorem C17_selects (D : Mat) (n : ℕ) (hr : D.rows = n) (hc : D.cols = n)
    (eigVals : Option (List ℂ)) :
    (getSubspaceProjs D eigVals).1.length = (getSubspaceProjs D eigVals).2.length ∧
    ∀ (k : ℕ) (P : Mat) (v : ℂ), (getSubspaceProjs D eigVals).1[k]? = some P →
      (getSubspaceProjs D eigVals).2[k]? = some v →
      P.Selects n fun j => D.e j j = v := by
  classical
  refine ⟨by simp [getSubspaceProjs], fun k P v hP hv => ?_⟩
  have hlen : D.diagList.length = n := by simp [Mat.diagList, hr, hc]
  simp only [getSubspaceProjs, List.getElem?_map, Option.map_eq_some_iff] at hP hv
  obtain ⟨v', hv', rfl⟩ := hP
  rw [hv] at hv'
  cases hv'
  rw [hlen]
  refine (selectionMat_selects (n := n) fun i => D.diagList[i]? = some v).congr fun j => ?_
  rw [diagList_get hr hc]
  simp

/-- C17: by default there is one projector for each value on the diagonal, each value once. -/
theorem C17_default_values (D : Mat) (n : ℕ) (hr : D.rows = n) (hc : D.cols = n) :
    (getSubspaceProjs D none).2.Nodup ∧
    ∀ v, v ∈ (getSubspaceProjs D none).2 ↔ ∃ j : Fin n, D.e j j = v := by
  classical
  refine ⟨by simp only [getSubspaceProjs, Option.getD_none, npUnique]; exact List.nodup_dedup _, ?_⟩
  intro v
  simp only [getSubspaceProjs, Option.getD_none, mem_npUnique]
  rw [List.mem_iff_getElem?]
  constructor
  · rintro ⟨i, hi⟩
    rw [diagList_get hr hc] at hi
    exact ⟨⟨i, hi.1⟩, hi.2⟩
  · rintro ⟨j, hj⟩
    exact ⟨j, (diagList_get hr hc _ _).2 ⟨j.2, hj⟩⟩

/-- The square of a selection projector is diagonal with the selected states. -/
theorem selects_dagger_mul {P : Mat} {n : ℕ} {p : Fin n → Prop} [DecidablePred p]
    (h : P.Selects n p) :
    (P.toMatrix P.rows n)ᴴ * P.toMatrix P.rows n = diagonal fun j => if p j then 1 else 0 := by
  obtain ⟨hc, sel, hm, hr, he⟩ := h
  ext i j
  rw [mul_apply]
  simp only [conjTranspose_apply, Mat.toMatrix, of_apply, he]
  rw [diagonal_apply]
  by_cases hi : p i
  · have : i ∈ Set.range sel := by rw [hr]; exact hi
    obtain ⟨r, rfl⟩ := this
    rw [Finset.sum_eq_single r]
    · by_cases hj : j = sel r <;> simp [hj, hi, eq_comm]
    · intro r' _ hr'
      rw [if_neg (fun e => hr' (hm.injective e).symm)]
      simp
    · simp
  · rw [Finset.sum_eq_zero]
    · simp [hi]
    · intro r _
      rw [if_neg]
      · simp
      · rintro rfl
        have : sel r ∈ Set.range sel := ⟨r, rfl⟩
        rw [hr] at this
        exact hi this

/-- C17/C16: a selection projector has orthonormal rows. -/
theorem C17_orthonormal {P : Mat} {n : ℕ} {p : Fin n → Prop} (h : P.Selects n p) :
    P.toMatrix P.rows n * (P.toMatrix P.rows n)ᴴ = 1 := by
  obtain ⟨hc, sel, hm, hr, he⟩ := h
  ext r r'
  rw [mul_apply]
  simp only [conjTranspose_apply, Mat.toMatrix, of_apply, he, one_apply]
  rw [Finset.sum_eq_single (sel r)]
  · simp only [if_true, one_mul, hm.injective.eq_iff]
    split_ifs <;> simp
  · intro j _ hj; simp [hj]
  · simp

/-- C17: projectors of different values are orthogonal. -/
theorem C17_orthogonal (D : Mat) (n : ℕ) (hr : D.rows = n) (hc : D.cols = n)
    {k l : ℕ} {P Q : Mat} (hP : (getSubspaceProjs D none).1[k]? = some P)
    (hQ : (getSubspaceProjs D none).1[l]? = some Q) (hkl : k ≠ l) :
    P.toMatrix P.rows n * (Q.toMatrix Q.rows n)ᴴ = 0 := by
  obtain ⟨hlen, hsel⟩ := C17_selects D n hr hc none
  obtain ⟨hnd, -⟩ := C17_default_values D n hr hc
  obtain ⟨hk, -⟩ := List.getElem?_eq_some_iff.1 hP
  obtain ⟨hl, -⟩ := List.getElem?_eq_some_iff.1 hQ
  have h1 := hsel k P _ hP (List.getElem?_eq_getElem (hlen ▸ hk))
  have h2 := hsel l Q _ hQ (List.getElem?_eq_getElem (hlen ▸ hl))
  have hne : (getSubspaceProjs D none).2[k]'(hlen ▸ hk) ≠ (getSubspaceProjs D none).2[l]'(hlen ▸ hl) :=
    fun e => hkl ((List.Nodup.getElem_inj_iff hnd).1 e)
  obtain ⟨-, s1, -, hr1, e1⟩ := h1
  obtain ⟨-, s2, -, hr2, e2⟩ := h2
  ext r r'
  rw [mul_apply]
  simp only [conjTranspose_apply, Mat.toMatrix, of_apply, e1, e2, Matrix.zero_apply]
  refine Finset.sum_eq_zero fun j _ => ?_
  by_cases hj : j = s1 r
  · by_cases hj' : j = s2 r'
    · exfalso
      have a1 : j ∈ Set.range s1 := ⟨r, hj.symm⟩
      have a2 : j ∈ Set.range s2 := ⟨r', hj'.symm⟩
      rw [hr1] at a1
      rw [hr2] at a2
      exact hne (Eq.trans (Eq.symm a1) a2)
    · simp [hj']
  · simp [hj]

/-- C17: the default projectors together are complete, `Σ P† P = 1`. -/
theorem C17_complete (D : Mat) (n : ℕ) (hr : D.rows = n) (hc : D.cols = n) :
    ((getSubspaceProjs D none).1.map fun P => (P.toMatrix P.rows n)ᴴ * P.toMatrix P.rows n).sum =
      1 := by
  classical
  obtain ⟨hlen, hsel⟩ := C17_selects D n hr hc none
  obtain ⟨hnd, hmem⟩ := C17_default_values D n hr hc
  have e : ((getSubspaceProjs D none).1.map fun P =>
      (P.toMatrix P.rows n)ᴴ * P.toMatrix P.rows n) =
      (getSubspaceProjs D none).2.map fun v => diagonal fun j : Fin n => if D.e j j = v then 1 else 0 := by
    apply List.ext_getElem
    · simp [hlen]
    · intro k h1 h2
      simp only [List.length_map] at h1 h2
      rw [List.getElem_map, List.getElem_map]
      exact selects_dagger_mul (hsel k _ _ (List.getElem?_eq_getElem h1) (List.getElem?_eq_getElem h2))
  rw [e, ← List.sum_toFinset _ hnd]
  ext i j
  rw [Matrix.sum_apply]
  simp only [diagonal_apply, one_apply]
  by_cases h : i = j
  · subst h
    simp only [if_true]
    rw [Finset.sum_eq_single (D.e i i)]
    · simp
    · intro v _ hv; rw [if_neg hv.symm]
    · intro hv
      exact absurd (List.mem_toFinset.2 ((hmem _).2 ⟨i, rfl⟩)) hv
  · simp [h]

/-- Instance: a diagonal operator with a repeated value. -/
example : ∃ P, (getSubspaceProjs (Mat.lit2 3 0 0 3) none).1 = [P] ∧
    P.Selects 2 fun j => (Mat.lit2 3 0 0 3).e j j = 3 := by
  obtain ⟨hlen, hsel⟩ := C17_selects (Mat.lit2 3 0 0 3) 2 rfl rfl none
  obtain ⟨hnd, hmem⟩ := C17_default_values (Mat.lit2 3 0 0 3) 2 rfl rfl
  have hv : (getSubspaceProjs (Mat.lit2 3 0 0 3) none).2 = [3] := by
    have h3 : ∀ v ∈ (getSubspaceProjs (Mat.lit2 3 0 0 3) none).2, v = 3 := by
      intro v hv
      obtain ⟨j, hj⟩ := (hmem v).1 hv
      rw [← hj]; fin_cases j <;> simp [Mat.lit2]
    have hin := (hmem 3).2 ⟨0, by simp [Mat.lit2]⟩
    rw [List.eq_replicate_of_mem h3] at hnd hin ⊢
    match hl : (getSubspaceProjs (Mat.lit2 3 0 0 3) none).2.length with
    | 0 => rw [hl] at hin; simp at hin
    | 1 => rw [List.replicate_one]
    | k + 2 => rw [hl] at hnd; simp [List.replicate_succ] at hnd
  obtain ⟨P, hP⟩ := List.length_eq_one_iff.1 (hlen.trans (by rw [hv]; rfl))
  exact ⟨P, hP, hsel 0 P 3 (by rw [hP]; rfl) (by rw [hv]; rfl)⟩

/-! ## C16 -/

/-- C16: with the particle numbers fixed, the rows of the number projector are exactly the basis
states whose count of every constrained species is the requested one, each once. -/
theorem C16_number_projector (F : Fermions) (hn : 0 < F.nsites) (ns : List (Option ℤ))
    (hlen : ns.length = F.nspecies) :
    ∃ P, F.nProjector (some ns) = .ok P ∧
      P.Selects (2 ^ (F.nsites * F.nspecies)) fun j =>
        ∀ t : Conf (F.nsites * F.nspecies) 2, idx t = j →
          ∀ (s : Fin F.nspecies) (v : ℤ), ns[s]? = some (some v) → (speciesCount t s : ℤ) = v := by
  classical
  set n := 2 ^ (F.nsites * F.nspecies) with hnn
  let cond : ℕ → Fin n → Prop := fun s j => ∀ t : Conf (F.nsites * F.nspecies) 2, idx t = j →
    ∀ (h : s < F.nspecies) (v : ℤ), ns[s]? = some (some v) → (speciesCount t ⟨s, h⟩ : ℤ) = v
  have key : ∀ l : List ℕ, (∀ x ∈ l, x < F.nspecies) → ∀ (R : Mat) (p : Fin n → Prop),
      R.Selects n p → ∃ P, l.foldlM (fun running ii =>
        match (ns[ii]?.join : Option ℤ) with
        | none => pure running
        | some v => do
          let nOpSp ← getSumOp F.sys nOp ii "boson"
          let a ← nOpSp.mul running.dagger
          let d ← running.mul a
          let p := (getSubspaceProjs d (some [((v : ℤ) : ℂ)])).1
          (p.getD 0 (Mat.zero 0 0)).mul running) R = Except.ok (ε := PyErr) P ∧
        P.Selects n fun j => p j ∧ ∀ s ∈ l, cond s j := by
    intro l
    induction l with
    | nil => intro _ R p hR; exact ⟨R, rfl, hR.congr fun j => by simp⟩
    | cons a l ih =>
      intro hl R p hR
      have ha : a < F.nspecies := hl a (by simp)
      have step : ∃ Q, (match (ns[a]?.join : Option ℤ) with
        | none => pure R
        | some v => do
          let nOpSp ← getSumOp F.sys nOp a "boson"
          let a ← nOpSp.mul R.dagger
          let d ← R.mul a
          let p := (getSubspaceProjs d (some [((v : ℤ) : ℂ)])).1
          (p.getD 0 (Mat.zero 0 0)).mul R : Res Mat) = .ok Q ∧
          Q.Selects n fun j => p j ∧ cond a j := by
        match hv : (ns[a]?.join : Option ℤ) with
        | none =>
          refine ⟨R, rfl, hR.congr fun j => ?_⟩
          refine (and_iff_left ?_).symm
          intro t _ h v hv'
          rw [hv'] at hv; simp at hv
        | some v =>
          have hv' : ns[a]? = some (some v) := by
            match hh : ns[a]? with
            | none => rw [hh] at hv; simp at hv
            | some w => rw [hh] at hv; simp at hv; rw [hv]
          obtain ⟨M, hM1, hM2⟩ := C14_number_counts F.sys rfl hn ⟨a, ha⟩
          change M.Is (Matrix.diagonal fun t : Conf (F.nsites * F.nspecies) 2 =>
            (speciesCount t (⟨a, ha⟩ : Fin F.nspecies) : ℂ)) at hM2
          have hR' := hR
          obtain ⟨hc, sel, hmono, hrange, hRe⟩ := hR
          let Rm : Matrix (Fin R.rows) (Conf (F.nsites * F.nspecies) 2) ℂ :=
            Matrix.of fun r t => if idx t = sel r then 1 else 0
          have hRm : R.Is Rm := by
            refine ⟨by simp, by rw [hc]; simp [hnn], fun r t => ?_⟩
            have hlt : idx t < n := by simpa using idx_lt t
            have := hRe r ⟨idx t, hlt⟩
            rw [num_conf]
            refine this.trans ?_
            simp only [Rm, of_apply, Fin.ext_iff]
          obtain ⟨A, hA1, hA2⟩ := hM2.mul hRm.dagger
          obtain ⟨d, hd1, hd2⟩ := hRm.mul hA2
          have hdiag : ∀ (r : Fin R.rows) (t : Conf (F.nsites * F.nspecies) 2), idx t = sel r →
              d.e r r = (speciesCount t ⟨a, ha⟩ : ℂ) := by
            intro r t ht
            have := hd2.2.2 r r
            refine this.trans ?_
            rw [mul_apply, Finset.sum_eq_single t]
            · rw [diagonal_mul]
              simp [Rm, ht, conjTranspose_apply]
            · intro t' _ ht'
              have : ¬ idx t' = sel r := fun e => ht' (idx_injective (e.trans ht.symm))
              simp [Rm, this]
            · simp
          have hdr : d.rows = R.rows := by simpa using hd2.1
          have hdc : d.cols = R.rows := by simpa using hd2.2.1
          obtain ⟨-, hsel⟩ := C17_selects d R.rows hdr hdc (some [((v : ℤ) : ℂ)])
          have hP := hsel 0 _ v rfl rfl
          obtain ⟨Q, hQ1, hQ2⟩ := Mat.Selects.comp hR' hP sel hRe (cond a) (by
            intro r
            obtain ⟨t, ht⟩ := Basis.surj (ι := Conf (F.nsites * F.nspecies) 2) (sel r)
              (by simpa [hnn] using (sel r).isLt)
            rw [num_conf] at ht
            rw [hdiag r t ht]
            constructor
            · intro h
              have := h t ht ha v hv'
              rw [← this]; simp
            · intro h t' ht' _ v' hv''
              rw [hv'] at hv''
              cases hv''
              rw [idx_injective (ht'.trans ht.symm)]
              exact_mod_cast h)
          refine ⟨Q, ?_, hQ2⟩
          simp only
          have hM1' : getSumOp F.sys nOp a "boson" = .ok M := hM1
          rw [hM1']
          change (M.mul R.dagger) >>= _ = _
          rw [hA1]
          change (R.mul A) >>= _ = _
          rw [hd1]
          exact hQ1
      obtain ⟨Q, hQ1, hQ2⟩ := step
      obtain ⟨P, hP1, hP2⟩ := ih (fun x hx => hl x (by simp [hx])) Q _ hQ2
      refine ⟨P, ?_, hP2.congr fun j => by simp [and_assoc]⟩
      rw [List.foldlM_cons, hQ1]
      exact hP1
  obtain ⟨P, h1, h2⟩ := key (List.range F.nspecies) (fun x hx => List.mem_range.1 hx)
    (Mat.eye F.sys.nstates) (fun _ => True) (selects_eye _)
  refine ⟨P, ?_, h2.congr fun j => ?_⟩
  · simp only [Fermions.nProjector, hlen, ne_eq, not_true_eq_false, if_false]
    exact h1
  · simp only [true_and, List.mem_range, cond]
    exact ⟨fun h t ht s v hv => h s s.2 t ht s.2 v hv, fun h s hs t ht _ v hv => h t ht ⟨s, hs⟩ v hv⟩

/-- C16: a list of requested numbers of the wrong length is rejected; without requested numbers the
projector is the identity. -/
theorem C16_other_inputs (F : Fermions) :
    (∀ ns : List (Option ℤ), ns.length ≠ F.nspecies → F.nProjector (some ns) = .error .generic) ∧
    Gives (F.nProjector none) (1 : Op (F.nsites * F.nspecies) 2) := by
  refine ⟨fun ns h => by simp [Fermions.nProjector, h], ?_⟩
  exact (Mat.is_eye (by simp [Sys.nstates, Fermions.sys])).pure

/-- Instance: one particle of the second species on two sites, first species free. -/
example (F : Fermions) (h1 : F.nsites = 2) (h2 : F.nspecies = 2) :
    ∃ P, F.nProjector (some [none, some 1]) = .ok P ∧
      P.toMatrix P.rows (2 ^ (F.nsites * F.nspecies)) *
        (P.toMatrix P.rows (2 ^ (F.nsites * F.nspecies)))ᴴ = 1 := by
  obtain ⟨P, hP, hs⟩ := C16_number_projector F (by omega) [none, some 1] (by simp [h2])
  exact ⟨P, hP, C17_orthonormal hs⟩

/-! ## C74 -/

/-- C74: basis state `t` is obtained from the empty state by creating its particles in increasing
mode order, so that in the operator product higher modes stand further to the left. -/
theorem C74_basis_states {n : ℕ} (t : Conf n 2) :
    createAll ((List.finRange n).filter fun i => t i = 1) = ket t := by
  have key : ∀ l : List (Fin n), l.Pairwise (· < ·) →
      createAll l = ket (fun i => if i ∈ l then 1 else 0) := by
    intro l
    induction l using List.reverseRecOn with
    | nil => intro _; simp [createAll]; rfl
    | append_singleton l i ih =>
      intro hl
      rw [List.pairwise_append] at hl
      have hi : i ∉ l := fun h => lt_irrefl _ (hl.2.2 i h i (by simp))
      have e : createAll (l ++ [i]) = (create i).mulVec (createAll l) := by
        simp [createAll, List.foldl_append]
      rw [e, ih hl.1]
      have h := create_ket (fun j => if j ∈ l ++ [i] then (1 : Fin 2) else 0) i (by simp)
      have e1 : Function.update (fun j => if j ∈ l ++ [i] then (1 : Fin 2) else 0) i 0 =
          fun j => if j ∈ l then 1 else 0 := by
        funext j
        by_cases hj : j = i
        · subst hj; simp [hi]
        · simp [hj]
      have e2 : occAfter i (fun j => if j ∈ l ++ [i] then (1 : Fin 2) else 0) = 0 := by
        rw [occAfter, Finset.card_eq_zero, Finset.filter_eq_empty_iff]
        rintro j - ⟨h1, h2⟩
        have : j ∈ l ++ [i] := by
          by_contra hj
          simp [hj] at h2
        rw [List.mem_append, List.mem_singleton] at this
        rcases this with h3 | h3
        · exact lt_asymm h1 (hl.2.2 j h3 i (by simp))
        · exact lt_irrefl _ (h3 ▸ h1)
      rw [e1, e2, pow_zero, one_smul] at h
      exact h
  have hs : ((List.finRange n).filter fun i => t i = 1).Pairwise (· < ·) :=
    (List.pairwise_lt_finRange n).filter _
  rw [key _ hs]
  congr 1
  funext i
  simp only [List.mem_filter, List.mem_finRange, true_and, decide_eq_true_eq]
  generalize t i = x
  fin_cases x <;> simp

/-- Instance: two particles; the docstring's `(0,0,1,1) = c†_3 c†_2 |0⟩`. -/
example : createAll [2, 3] = ket (![0, 0, 1, 1] : Conf 4 2) := by
  have := C74_basis_states (![0, 0, 1, 1] : Conf 4 2)
  rw [← this]
  congr 1

end ED.Props
