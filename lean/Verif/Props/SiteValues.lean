import Verif.Props.Correlators
import Verif.Lemmas.Spins

/-! # Property C81: explicit sites, states without projector, and spins larger than 1/2 -/

namespace ED.Props

open Matrix

section

variable {κ : Type} [Fintype κ] [Basis κ] {M n b : ℕ}

/-- C81: values of a correlator for a list of pairs of different sites, for every spin. -/
theorem C81_pairs {o o' V P : Mat} {A B : Matrix (Fin b) (Fin b) ℂ} (ho : o.Is A) (ho' : o'.Is B) {Vm : Matrix κ (Fin M) ℂ}
    {Pm : Matrix κ (Conf n b) ℂ} (hV : V.Is Vm) (hP : P.Is Pm) (pairs : List (Fin n × Fin n)) (hne : ∀ p ∈ pairs, p.1 ≠ p.2) :
    corrSites ⟨n, 1, b⟩ V 0 0 o o' (some (pairs.map fun p => ((p.1 : ℕ), (p.2 : ℕ)))) (some P) "boson" =
      .ok (pairs.map fun p => List.ofFn fun k => (expect (Pm * (siteOp A p.1 * siteOp B p.2 : Op n b) * Pmᴴ) (colOf Vm k)).re,
        pairs.map fun p => ((p.1 : ℕ), (p.2 : ℕ))) := by
  unfold corrSites
  simp only [Option.getD_some]
  have h : (pairs.map fun p => ((p.1 : ℕ), (p.2 : ℕ))).mapM (fun p : ℕ × ℕ => do
      let op ← getTwoSiteOp ⟨n, 1, b⟩ p.1 0 p.2 0 o o' "boson"
      let full ← sandwich 1 P op
      getExpVals V full) = .ok (pairs.map fun p => List.ofFn fun k =>
        (expect (Pm * (siteOp A p.1 * siteOp B p.2 : Op n b) * Pmᴴ) (colOf Vm k)).re) := by
    induction pairs with
    | nil => rfl
    | cons p l ih =>
      rw [List.map_cons, List.mapM_cons, ih fun q hq => hne q (List.mem_cons_of_mem _ hq)]
      obtain ⟨X, hX, hXi⟩ := spin_two (hne p (List.mem_cons_self ..)) ho ho'
      simp only [hX]
      obtain ⟨Y, hY, hYi⟩ := sandwich_gives hP hXi 1
      change (sandwich 1 P X >>= _) >>= _ = _
      rw [hY]
      change (getExpVals V Y) >>= _ = _
      rw [getExpVals_is hV hYi, one_smul]
      rfl
  rw [h]
  rfl

/-- C81: thermal values of a correlator for a list of pairs of different sites, for every spin. -/
theorem C81_thermal_pairs {m : ℕ} {o o' V P : Mat} {A B : Matrix (Fin b) (Fin b) ℂ} (ho : o.Is A) (ho' : o'.Is B)
    {Vm : Matrix κ (Fin (m + 1)) ℂ} {Pm : Matrix κ (Conf n b) ℂ} (hV : V.Is Vm) (hP : P.Is Pm) (E : Fin (m + 1) → ℝ)
    (hm : Monotone E) (hg : Gapped E) (temps : List ℝ) (pairs : List (Fin n × Fin n)) (hne : ∀ p ∈ pairs, p.1 ≠ p.2) :
    thermalCorrSites ⟨n, 1, b⟩ V (List.ofFn E) 0 0 o o' temps (some (pairs.map fun p => ((p.1 : ℕ), (p.2 : ℕ)))) (some P) "boson" =
      .ok (pairs.map fun p => temps.map fun T => canonical T E fun k =>
          (expect (Pm * (siteOp A p.1 * siteOp B p.2 : Op n b) * Pmᴴ) (colOf Vm k)).re,
        pairs.map fun p => ((p.1 : ℕ), (p.2 : ℕ))) := by
  unfold thermalCorrSites
  simp only [Option.getD_some]
  have h : (pairs.map fun p => ((p.1 : ℕ), (p.2 : ℕ))).mapM (fun p : ℕ × ℕ => do
      let op ← getTwoSiteOp ⟨n, 1, b⟩ p.1 0 p.2 0 o o' "boson"
      let full ← sandwich 1 P op
      expValsThermalList V full (List.ofFn E) temps) = .ok (pairs.map fun p => temps.map fun T => canonical T E fun k =>
        (expect (Pm * (siteOp A p.1 * siteOp B p.2 : Op n b) * Pmᴴ) (colOf Vm k)).re) := by
    induction pairs with
    | nil => rfl
    | cons p l ih =>
      rw [List.map_cons, List.mapM_cons, ih fun q hq => hne q (List.mem_cons_of_mem _ hq)]
      obtain ⟨X, hX, hXi⟩ := spin_two (hne p (List.mem_cons_self ..)) ho ho'
      simp only [hX]
      obtain ⟨Y, hY, hYi⟩ := sandwich_gives hP hXi 1
      change (sandwich 1 P X >>= _) >>= _ = _
      rw [hY]
      change (expValsThermalList V Y _ _) >>= _ = _
      rw [C19_many hV hYi E temps hm hg, one_smul]
      rfl
  rw [h]
  rfl

end

/-- C81: values on all sites for states of the full space, without a projector. -/
theorem C81_full_space {S : Sys} (hb : S.nbasis = 2) {fmt : String} (hf : IsFormat fmt) (sp1 sp2 : Fin S.nspecies) {M : ℕ}
    {op1 op2 V : Mat} (h1 : op1.IsLoc 2) (h2 : op2.IsLoc 2) {Vm : Matrix (Conf (S.nsites * S.nspecies) 2) (Fin M) ℂ} (hV : V.Is Vm) :
    ∃ (A B : Fin S.nsites → Op (S.nsites * S.nspecies) 2) (vals : List (List ℝ)) (pairs : List (ℕ × ℕ)),
      (∀ i : Fin S.nsites, Gives (getSingleSiteOp S i sp1 op1 fmt) (A i)) ∧
      (∀ i : Fin S.nsites, Gives (getSingleSiteOp S i sp2 op2 fmt) (B i)) ∧
      expValsSites S V op1 sp1 none none fmt = .ok (List.ofFn fun i => List.ofFn fun k => (expect (A i) (colOf Vm k)).re,
        List.range S.nsites) ∧
      corrSites S V sp1 sp2 op1 op2 none none fmt = .ok (vals, pairs) ∧
      pairs.Nodup ∧ (∀ i j, (i, j) ∈ pairs ↔ j ≤ i ∧ i < S.nsites) ∧ vals.length = pairs.length ∧
      ∀ (r : ℕ) (i j : Fin S.nsites), pairs[r]? = some ((i : ℕ), (j : ℕ)) →
        vals[r]? = some (List.ofFn fun k => (expect (A i * B j) (colOf Vm k)).re) := by
  have hP : (Mat.eye V.rows).Is (1 : Op (S.nsites * S.nspecies) 2) := Mat.is_eye hV.1
  obtain ⟨A, B, vals, pairs, hA, hB, hc, hn, hm, hl, hv⟩ := C81_correlators_partial hb hf sp1 sp2 h1 h2 hV hP
  obtain ⟨A', hA', hs⟩ := C81_sites_partial hb hf sp1 h1 hV hP
  have he : A' = A := by
    obtain ⟨C, -, hC⟩ := single_gives hb hf sp1 h1
    rw [hC A' hA', hC A hA]
  subst he
  simp only [conjTranspose_one, Matrix.one_mul, Matrix.mul_one] at hs hv
  exact ⟨A', B, vals, pairs, hA, hB, hs, hc, hn, hm, hl, hv⟩

/-- The operator of the first site does not fit to the states if the local dimension is not two. -/
theorem first_site_shape {n b : ℕ} (hn : 2 ≤ n) (hb0 : b ≠ 0) (hb : b ≠ 2) {o P : Mat} (hr : o.rows = b)
    (hP : P.cols = b ^ n) : (getSingleSiteOp ⟨n, 1, b⟩ 0 0 o "boson" >>= fun X => sandwich 1 P X) = .error .shape := by
  obtain ⟨k, rfl⟩ : ∃ k, n = k + 2 := ⟨n - 2, by omega⟩
  have hg : getSingleSiteOp ⟨k + 2, 1, b⟩ 0 0 o "boson" = .ok (((Mat.eye (b ^ 0)).kron o).kron (Mat.eye (2 ^ (k + 1)))) := by
    unfold getSingleSiteOp
    simp only [show ¬ ("boson" = "fermion") by decide, if_false, if_true]
    have e1 : spinful2spinless 0 (k + 2) 0 = 0 := by simp [spinful2spinless]
    have e2 : (Sys.nlog ⟨k + 2, 1, b⟩) = k + 2 := by simp [Sys.nlog]
    rw [e1, e2, if_pos (by omega), show k + 2 - 0 - 1 = k + 1 by omega]
  rw [hg]
  change sandwich _ _ _ = _
  unfold sandwich
  have hm : ∀ A B : Mat, A.cols ≠ B.rows → A.mul B = .error .shape := fun A B h => if_neg h
  rw [hm]
  · rfl
  · simp only [Mat.smul, hP, Mat.kron, Mat.eye, hr]
    intro h
    rw [pow_zero, one_mul, pow_succ', pow_succ' b] at h
    have h' := Nat.eq_of_mul_eq_mul_left (Nat.pos_of_ne_zero hb0) h
    rw [← pow_succ'] at h'
    have := Nat.pow_left_injective (n := k + 1) (by omega) h'
    omega

/-- C81 fails for spins other than 1/2: with the default sites nothing is returned, because the
operator built for a site has the wrong size. -/
theorem C81_higher_spin_fails {n b : ℕ} (hn : 2 ≤ n) (hb0 : b ≠ 0) (hb : b ≠ 2) {o o' V : Mat} (hr : o.rows = b) (hc : o.cols = o'.rows)
    (hV : V.rows = b ^ n) :
    expValsSites ⟨n, 1, b⟩ V o 0 none none "boson" = .error .shape ∧
      corrSites ⟨n, 1, b⟩ V 0 0 o o' none none "boson" = .error .shape := by
  obtain ⟨k, rfl⟩ : ∃ k, n = k + 1 := ⟨n - 1, by omega⟩
  constructor
  · unfold expValsSites
    simp only [Option.getD_none]
    have h := first_site_shape (P := Mat.eye V.rows) hn hb0 hb hr hV
    rw [List.range_succ_eq_map, List.mapM_cons]
    cases hX : getSingleSiteOp ⟨k + 1, 1, b⟩ 0 0 o "boson" with
    | error e =>
      rw [hX] at h
      cases h
      rfl
    | ok X =>
      rw [hX] at h
      change sandwich _ _ _ = _ at h
      simp only [bind, Except.bind]
      rw [h]
  · unfold corrSites
    simp only [Option.getD_none]
    have hd : ∃ l, defaultPairs (k + 1) = (0, 0) :: l := by
      unfold defaultPairs
      rw [List.range_succ_eq_map, List.flatMap_cons]
      exact ⟨_, rfl⟩
    obtain ⟨l, hl⟩ := hd
    obtain ⟨Y, hY⟩ : ∃ Y, o.mul o' = .ok Y := ⟨_, if_pos hc⟩
    have hYr : Y.rows = b := by
      have := hY
      unfold Mat.mul at this
      rw [if_pos hc] at this
      rw [← Except.ok.inj this]
      exact hr
    have h := first_site_shape (P := Mat.eye V.rows) hn hb0 hb hYr hV
    have h2 : getTwoSiteOp ⟨k + 1, 1, b⟩ 0 0 0 0 o o' "boson" = getSingleSiteOp ⟨k + 1, 1, b⟩ 0 0 Y "boson" := by
      unfold getTwoSiteOp
      rw [if_pos rfl, hY]
      rfl
    rw [hl, List.mapM_cons]
    simp only
    rw [h2]
    cases hX : getSingleSiteOp ⟨k + 1, 1, b⟩ 0 0 Y "boson" with
    | error e =>
      rw [hX] at h
      cases h
      rfl
    | ok X =>
      rw [hX] at h
      change sandwich _ _ _ = _ at h
      simp only [bind, Except.bind]
      rw [h]

/-- Two spins one. -/
example : (2 : ℕ) ≤ 2 ∧ (3 : ℕ) ≠ 0 ∧ (3 : ℕ) ≠ 2 ∧ (Mat.eye 3).rows = 3 ∧ (Mat.eye 9).rows = 3 ^ 2 ∧
    (Mat.eye 3).Is (1 : Matrix (Fin 3) (Fin 3) ℂ) ∧ ((0 : Fin 2), (1 : Fin 2)).1 ≠ ((0 : Fin 2), (1 : Fin 2)).2 :=
  ⟨le_refl _, by decide, by decide, rfl, rfl, Mat.is_eye (by simp), by decide⟩

end ED.Props
