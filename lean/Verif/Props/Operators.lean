import Verif.Lemmas.Algebra

/-!
# Properties C01-C08: index maps and operator builders

Vocabulary: `Conf n b` (a configuration), `idx` (its number in the basis), `M.op n b` (elements of
a returned matrix between configurations), `mode site species` (flat mode number), all from
`Verif/Spec`.
-/

namespace ED.Props

open ED

/-! ## C01 -/

/-- C01: flat index of a (site, species) pair and back. -/
theorem C01_roundtrip_pair (nsites site species : ℕ) (h : site < nsites) :
    spinless2spinful (spinful2spinless site nsites species) nsites = .ok (site, species) := by
  have hp : 0 < nsites := lt_of_le_of_lt (Nat.zero_le _) h
  unfold spinless2spinful spinful2spinless
  rw [if_neg hp.ne', Nat.mul_add_mod, Nat.mod_eq_of_lt h, Nat.add_sub_cancel,
    Nat.mul_div_cancel_left _ hp]

/-- C01: flat index to (site, species) and back; the site is a valid site and the species is
valid whenever the flat index is. -/
theorem C01_roundtrip_flat (nsites i : ℕ) (h : 0 < nsites) :
    ∃ site species, spinless2spinful i nsites = .ok (site, species) ∧
      spinful2spinless site nsites species = i ∧ site < nsites ∧
      (∀ nspecies, i < nsites * nspecies → species < nspecies) := by
  refine ⟨i % nsites, (i - i % nsites) / nsites, ?_, ?_, Nat.mod_lt _ h, ?_⟩
  · unfold spinless2spinful; rw [if_neg h.ne']
  · unfold spinful2spinless
    have h1 : i - i % nsites = nsites * (i / nsites) := by
      have := Nat.div_add_mod i nsites; omega
    rw [h1, Nat.mul_div_cancel_left _ h]
    exact Nat.div_add_mod i nsites
  · intro nspecies hi
    have h1 : i - i % nsites = nsites * (i / nsites) := by
      have := Nat.div_add_mod i nsites; omega
    rw [h1, Nat.mul_div_cancel_left _ h]
    exact Nat.div_lt_of_lt_mul hi

/-- C01: the flat indices of valid pairs are exactly `0, …, nsites*nspecies-1`, each hit once. -/
theorem C01_bijection (nsites nspecies : ℕ) :
    Set.BijOn (fun p : ℕ × ℕ => spinful2spinless p.1 nsites p.2)
      {p | p.1 < nsites ∧ p.2 < nspecies} {i | i < nsites * nspecies} := by
  refine ⟨?_, ?_, ?_⟩
  · rintro ⟨a, c⟩ ⟨h1, h2⟩
    exact (mode (⟨a, h1⟩ : Fin nsites) (⟨c, h2⟩ : Fin nspecies)).2
  · rintro ⟨a, c⟩ ⟨h1, _⟩ ⟨a', c'⟩ ⟨h1', _⟩ h
    have e1 := C01_roundtrip_pair nsites a c h1
    have e2 := C01_roundtrip_pair nsites a' c' h1'
    simp only at h
    rw [h, e2] at e1
    exact (Except.ok.inj e1).symm
  · intro i hi
    have hp : 0 < nsites := by
      rcases Nat.eq_zero_or_pos nsites with h | h
      · simp [h] at hi
      · exact h
    obtain ⟨a, c, _, h2, h3, h4⟩ := C01_roundtrip_flat nsites i hp
    exact ⟨(a, c), ⟨h3, h4 nspecies hi⟩, h2⟩

example : spinless2spinful (spinful2spinless 2 5 1) 5 = .ok (2, 1) :=
  C01_roundtrip_pair 5 2 1 (by norm_num)

/-! ## C02, C03: matrix elements of single-site operators -/

/-- The documented basis order enumerates the configurations: every state number below `b^n` is
the number of exactly one configuration. (Makes the readings below complete.) -/
theorem C02_basis_order (n b : ℕ) :
    Set.BijOn (idx : Conf n b → ℕ) Set.univ {x | x < b ^ n} :=
  ⟨fun s _ => idx_lt s, fun _ _ _ _ h => idx_injective h, fun x hx =>
    let ⟨s, hs⟩ := idx_surj x hx; ⟨s, trivial, hs⟩⟩

/-- C02: elements of a bosonic single-site operator. -/
theorem C02_boson_elements (S : Sys) (hb : S.nbasis = 2) (site : Fin S.nsites)
    (sp : Fin S.nspecies) (op : Mat) (hop : op.IsLoc 2) :
    ∃ M, getSingleSiteOp S site sp op "boson" = .ok M ∧
      M.rows = 2 ^ (S.nsites * S.nspecies) ∧ M.cols = 2 ^ (S.nsites * S.nspecies) ∧
      ∀ s t : Conf (S.nsites * S.nspecies) 2,
        M.e (idx s) (idx t) =
          if AgreeOff (mode site sp) s t then op.e (s (mode site sp)) (t (mode site sp)) else 0 := by
  obtain ⟨M, h1, h2, h3⟩ := getSingle_boson hb site sp hop
  refine ⟨M, h1, h2.1, h2.2, fun s t => ?_⟩
  have := congrFun (congrFun h3 s) t
  rw [bop_apply] at this
  exact this

/-- C03: elements of a fermionic single-site operator: Jordan-Wigner sign counting the occupied
modes after the one acted on. -/
theorem C03_fermion_elements (S : Sys) (hb : S.nbasis = 2) (site : Fin S.nsites)
    (sp : Fin S.nspecies) (op : Mat) (hop : op.IsLoc 2) :
    ∃ M, getSingleSiteOp S site sp op "fermion" = .ok M ∧
      M.rows = 2 ^ (S.nsites * S.nspecies) ∧ M.cols = 2 ^ (S.nsites * S.nspecies) ∧
      ∀ s t : Conf (S.nsites * S.nspecies) 2,
        M.e (idx s) (idx t) =
          if AgreeOff (mode site sp) s t then
            (-1) ^ occAfter (mode site sp) s * op.e (s (mode site sp)) (t (mode site sp))
          else 0 := by
  obtain ⟨M, h1, h2, h3⟩ := getSingle_fermion hb site sp hop
  refine ⟨M, h1, h2.1, h2.2, fun s t => ?_⟩
  have := congrFun (congrFun h3 s) t
  rw [fop_apply] at this
  exact this

/-- C02/C03: any other format string is rejected. -/
theorem C03_bad_format (S : Sys) (site sp : ℕ) (op : Mat) (fmt : String) (h1 : fmt ≠ "fermion")
    (h2 : fmt ≠ "boson") : getSingleSiteOp S site sp op fmt = .error .generic := by
  simp [getSingleSiteOp, h1, h2]

/-- Non-trivial instance: three sites, two species, `c` on site 1 of species 0, with one occupied
mode behind it, has matrix element `-1`. -/
example : ∃ M, getSingleSiteOp ⟨3, 2, 2⟩ 1 0 cOp "fermion" = .ok M ∧
    M.e (idx (![0, 0, 0, 0, 1, 0] : Conf 6 2)) (idx (![0, 1, 0, 0, 1, 0] : Conf 6 2)) = -1 := by
  obtain ⟨M, h1, _, _, h4⟩ :=
    C03_fermion_elements ⟨3, 2, 2⟩ rfl (1 : Fin 3) (0 : Fin 2) cOp ⟨rfl, rfl⟩
  refine ⟨M, h1, ?_⟩
  refine (h4 (![0, 0, 0, 0, 1, 0] : Conf 6 2) (![0, 1, 0, 0, 1, 0] : Conf 6 2)).trans ?_
  rw [if_pos (by decide)]
  have h5 : occAfter (mode (1 : Fin 3) (0 : Fin 2)) (![0, 0, 0, 0, 1, 0] : Conf 6 2) = 1 := by
    decide
  rw [h5]
  simp [cOp, Mat.lit2, mode]

/-! ## C04: canonical anticommutation relations -/

/-- C04: `{c_i, c_j†} = δ_ij`. -/
theorem C04_c_cdag (S : Sys) (hb : S.nbasis = 2) (i j : Fin S.nsites) (si sj : Fin S.nspecies) :
    ∃ A B, getSingleSiteOp S i si cOp "fermion" = .ok A ∧
      getSingleSiteOp S j sj cdagOp "fermion" = .ok B ∧
      A.op (S.nsites * S.nspecies) 2 * B.op (S.nsites * S.nspecies) 2 +
        B.op (S.nsites * S.nspecies) 2 * A.op (S.nsites * S.nspecies) 2 =
        if i = j ∧ si = sj then 1 else 0 := by
  obtain ⟨A, hA, _, hA'⟩ := getSingle_fermion hb i si cOp_loc
  obtain ⟨B, hB, _, hB'⟩ := getSingle_fermion hb j sj cdagOp_loc
  refine ⟨A, B, hA, hB, ?_⟩
  rw [hA', hB']
  split_ifs with h
  · obtain ⟨rfl, rfl⟩ := h
    rw [fop_mul, fop_mul, ← bop_add]
    change bop _ (cl * cdl + cdl * cl) = 1
    rw [cl_cdl, bop_one]
  · exact fop_anticomm (fun e => h (mode_inj e)) cl_odd cdl_odd

/-- C04: `{c_i, c_j} = 0`. -/
theorem C04_c_c (S : Sys) (hb : S.nbasis = 2) (i j : Fin S.nsites) (si sj : Fin S.nspecies) :
    ∃ A B, getSingleSiteOp S i si cOp "fermion" = .ok A ∧
      getSingleSiteOp S j sj cOp "fermion" = .ok B ∧
      A.op (S.nsites * S.nspecies) 2 * B.op (S.nsites * S.nspecies) 2 +
        B.op (S.nsites * S.nspecies) 2 * A.op (S.nsites * S.nspecies) 2 = 0 := by
  obtain ⟨A, hA, _, hA'⟩ := getSingle_fermion hb i si cOp_loc
  obtain ⟨B, hB, _, hB'⟩ := getSingle_fermion hb j sj cOp_loc
  refine ⟨A, B, hA, hB, ?_⟩
  rw [hA', hB']
  by_cases h : i = j ∧ si = sj
  · obtain ⟨rfl, rfl⟩ := h
    rw [fop_mul]
    change bop _ (cl * cl) + bop _ (cl * cl) = 0
    rw [cl_cl, bop_zero, add_zero]
  · exact fop_anticomm (fun e => h (mode_inj e)) cl_odd cl_odd

/-- C04: `{c_i†, c_j†} = 0`, and `c_i†` is the adjoint of `c_i`. -/
theorem C04_cdag_cdag (S : Sys) (hb : S.nbasis = 2) (i j : Fin S.nsites)
    (si sj : Fin S.nspecies) :
    ∃ A B, getSingleSiteOp S i si cdagOp "fermion" = .ok A ∧
      getSingleSiteOp S j sj cdagOp "fermion" = .ok B ∧
      A.op (S.nsites * S.nspecies) 2 * B.op (S.nsites * S.nspecies) 2 +
        B.op (S.nsites * S.nspecies) 2 * A.op (S.nsites * S.nspecies) 2 = 0 := by
  obtain ⟨A, hA, _, hA'⟩ := getSingle_fermion hb i si cdagOp_loc
  obtain ⟨B, hB, _, hB'⟩ := getSingle_fermion hb j sj cdagOp_loc
  refine ⟨A, B, hA, hB, ?_⟩
  rw [hA', hB']
  by_cases h : i = j ∧ si = sj
  · obtain ⟨rfl, rfl⟩ := h
    rw [fop_mul]
    change bop _ (cdl * cdl) + bop _ (cdl * cdl) = 0
    rw [cdl_cdl, bop_zero, add_zero]
  · exact fop_anticomm (fun e => h (mode_inj e)) cdl_odd cdl_odd

/-- C04: the creation operator is the adjoint of the annihilation operator, and the number
operator (boson format) is `c†c`. -/
theorem C04_adjoint_number (S : Sys) (hb : S.nbasis = 2) (i : Fin S.nsites)
    (si : Fin S.nspecies) :
    ∃ A B n, getSingleSiteOp S i si cOp "fermion" = .ok A ∧
      getSingleSiteOp S i si cdagOp "fermion" = .ok B ∧
      getSingleSiteOp S i si nOp "boson" = .ok n ∧
      B.op (S.nsites * S.nspecies) 2 = (A.op (S.nsites * S.nspecies) 2).conjTranspose ∧
      n.op (S.nsites * S.nspecies) 2 =
        B.op (S.nsites * S.nspecies) 2 * A.op (S.nsites * S.nspecies) 2 := by
  obtain ⟨A, hA, _, hA'⟩ := getSingle_fermion hb i si cOp_loc
  obtain ⟨B, hB, _, hB'⟩ := getSingle_fermion hb i si cdagOp_loc
  obtain ⟨n, hn, _, hn'⟩ := getSingle_boson hb i si nOp_loc
  refine ⟨A, B, n, hA, hB, hn, ?_, ?_⟩
  · rw [hA', hB', fop_conj]
    change fop _ cdl = fop _ cl.conjTranspose
    rw [cl_conj]
  · rw [hA', hB', hn', fop_mul]
    change bop _ nl = bop _ (cdl * cl)
    rw [cdl_cl]

example : ∃ A B, getSingleSiteOp ⟨4, 2, 2⟩ 3 0 cOp "fermion" = .ok A ∧
    getSingleSiteOp ⟨4, 2, 2⟩ 2 1 cdagOp "fermion" = .ok B ∧
    A.op 8 2 * B.op 8 2 + B.op 8 2 * A.op 8 2 = 0 := by
  obtain ⟨A, B, h1, h2, h3⟩ := C04_c_cdag ⟨4, 2, 2⟩ rfl (3 : Fin 4) (2 : Fin 4) (0 : Fin 2) (1 : Fin 2)
  exact ⟨A, B, h1, h2, h3.trans (if_neg (by decide))⟩

/-! ## C05: two-site operators -/

/-- C05: a two-site operator is the product of the two single-site operators, in the order of the
arguments, for both formats and for any two modes (equal or not, in either order). -/
theorem C05_two_site_product (S : Sys) (hb : S.nbasis = 2) (site1 site2 : Fin S.nsites)
    (sp1 sp2 : Fin S.nspecies) (op1 op2 : Mat) (h1 : op1.IsLoc 2) (h2 : op2.IsLoc 2)
    (fmt : String) (hf : fmt = "fermion" ∨ fmt = "boson") :
    ∃ M A B P, getTwoSiteOp S site1 sp1 site2 sp2 op1 op2 fmt = .ok M ∧
      getSingleSiteOp S site1 sp1 op1 fmt = .ok A ∧ getSingleSiteOp S site2 sp2 op2 fmt = .ok B ∧
      A.mul B = .ok P ∧ M.rows = P.rows ∧ M.cols = P.cols ∧
      M.rows = 2 ^ (S.nsites * S.nspecies) ∧ M.cols = 2 ^ (S.nsites * S.nspecies) ∧
      ∀ x < M.rows, ∀ y < M.cols, M.e x y = P.e x y := by
  rcases hf with rfl | rfl
  · obtain ⟨M, hM, hMd, hMo⟩ := getTwo_fermion hb site1 site2 sp1 sp2 h1 h2
    obtain ⟨A, hA, hAd, hAo⟩ := getSingle_fermion hb site1 sp1 h1
    obtain ⟨B, hB, hBd, hBo⟩ := getSingle_fermion hb site2 sp2 h2
    obtain ⟨P, hP, hPd, hPo⟩ := Mat.mul_op hAd hBd
    refine ⟨M, A, B, P, hM, hA, hB, hP, hMd.1.trans hPd.1.symm, hMd.2.trans hPd.2.symm, hMd.1,
      hMd.2, fun x hx y hy => ?_⟩
    refine Mat.e_of_op (n := S.nlog) (b := 2) ?_ (hMd.1 ▸ hx) (hMd.2 ▸ hy)
    rw [hMo, hPo, hAo, hBo]
  · obtain ⟨M, hM, hMd, hMo⟩ := getTwo_boson hb site1 site2 sp1 sp2 h1 h2
    obtain ⟨A, hA, hAd, hAo⟩ := getSingle_boson hb site1 sp1 h1
    obtain ⟨B, hB, hBd, hBo⟩ := getSingle_boson hb site2 sp2 h2
    obtain ⟨P, hP, hPd, hPo⟩ := Mat.mul_op hAd hBd
    refine ⟨M, A, B, P, hM, hA, hB, hP, hMd.1.trans hPd.1.symm, hMd.2.trans hPd.2.symm, hMd.1,
      hMd.2, fun x hx y hy => ?_⟩
    refine Mat.e_of_op (n := S.nlog) (b := 2) ?_ (hMd.1 ▸ hx) (hMd.2 ▸ hy)
    rw [hMo, hPo, hAo, hBo]

/-- Instance: the second mode lies before the first. -/
example : ∃ M A B P, getTwoSiteOp ⟨3, 2, 2⟩ 2 1 0 0 cdagOp cOp "fermion" = .ok M ∧
    getSingleSiteOp ⟨3, 2, 2⟩ 2 1 cdagOp "fermion" = .ok A ∧
    getSingleSiteOp ⟨3, 2, 2⟩ 0 0 cOp "fermion" = .ok B ∧
    A.mul B = .ok P ∧ M.e 37 12 = P.e 37 12 := by
  obtain ⟨M, A, B, P, h1, h2, h3, h4, _, _, h5, h6, h7⟩ :=
    C05_two_site_product ⟨3, 2, 2⟩ rfl (2 : Fin 3) (0 : Fin 3) (1 : Fin 2) (0 : Fin 2) cdagOp cOp
      ⟨rfl, rfl⟩ ⟨rfl, rfl⟩ "fermion" (Or.inl rfl)
  refine ⟨M, A, B, P, h1, h2, h3, h4, h7 37 ?_ 12 ?_⟩
  · rw [h5]; norm_num
  · rw [h6]; norm_num

/-! ## C06: bosonic operators -/

/-- C06: bosonic operators on different modes commute. -/
theorem C06_boson_commute (S : Sys) (hb : S.nbasis = 2) (i j : Fin S.nsites)
    (si sj : Fin S.nspecies) (hne : ¬ (i = j ∧ si = sj)) (a c : Mat) (ha : a.IsLoc 2)
    (hc : c.IsLoc 2) :
    ∃ A C, getSingleSiteOp S i si a "boson" = .ok A ∧ getSingleSiteOp S j sj c "boson" = .ok C ∧
      A.op (S.nsites * S.nspecies) 2 * C.op (S.nsites * S.nspecies) 2 =
        C.op (S.nsites * S.nspecies) 2 * A.op (S.nsites * S.nspecies) 2 := by
  obtain ⟨A, hA, _, hA'⟩ := getSingle_boson hb i si ha
  obtain ⟨C, hC, _, hC'⟩ := getSingle_boson hb j sj hc
  refine ⟨A, C, hA, hC, ?_⟩
  rw [hA', hC']
  exact bop_comm (fun e => hne (mode_inj e)) _ _

/-- C06: on the same mode operators multiply locally. -/
theorem C06_boson_same_mode (S : Sys) (hb : S.nbasis = 2) (i : Fin S.nsites)
    (si : Fin S.nspecies) (a c : Mat) (ha : a.IsLoc 2) (hc : c.IsLoc 2) :
    ∃ A C ac AC, getSingleSiteOp S i si a "boson" = .ok A ∧
      getSingleSiteOp S i si c "boson" = .ok C ∧ a.mul c = .ok ac ∧
      getSingleSiteOp S i si ac "boson" = .ok AC ∧
      A.op (S.nsites * S.nspecies) 2 * C.op (S.nsites * S.nspecies) 2 =
        AC.op (S.nsites * S.nspecies) 2 := by
  obtain ⟨A, hA, _, hA'⟩ := getSingle_boson hb i si ha
  obtain ⟨C, hC, _, hC'⟩ := getSingle_boson hb i si hc
  obtain ⟨ac, hac, hacl, hace⟩ := ha.mul_ok hc
  obtain ⟨AC, hAC, _, hAC'⟩ := getSingle_boson hb i si hacl
  refine ⟨A, C, ac, AC, hA, hC, hac, hAC, ?_⟩
  rw [hA', hC', hAC', bop_mul, hace]

example : ∃ A C, getSingleSiteOp ⟨3, 1, 2⟩ 0 0 pauliX "boson" = .ok A ∧
    getSingleSiteOp ⟨3, 1, 2⟩ 2 0 pauliZ "boson" = .ok C ∧
    A.op 3 2 * C.op 3 2 = C.op 3 2 * A.op 3 2 :=
  C06_boson_commute ⟨3, 1, 2⟩ rfl (0 : Fin 3) (2 : Fin 3) (0 : Fin 1) (0 : Fin 1) (by decide)
    pauliX pauliZ ⟨rfl, rfl⟩ ⟨rfl, rfl⟩

/-! ## C07: dimension for general local dimension -/

/-- C07 (violated by the code): for a system with local dimension `b ≥ 2`, the bosonic single-site
operator has the dimension of the system exactly when `b = 2` or the mode is the last one. -/
theorem C07_dimension_iff (S : Sys) (hb : 2 ≤ S.nbasis) (site : Fin S.nsites)
    (sp : Fin S.nspecies) (op : Mat) (hop : op.IsLoc S.nbasis) :
    ∃ M, getSingleSiteOp S site sp op "boson" = .ok M ∧
      (M.rows = S.nstates ↔
        (S.nbasis = 2 ∨ (mode site sp : ℕ) + 1 = S.nsites * S.nspecies)) := by
  have hl := mode_lt (S := S) site sp
  refine ⟨_, by simp [getSingleSiteOp, hl]; rfl, ?_⟩
  have hm : ((mode site sp : Fin S.nlog) : ℕ) = spinful2spinless site S.nsites sp := rfl
  rw [hm]
  simp only [Mat.kron, Mat.eye, hop.1, Sys.nstates]
  generalize hL : spinful2spinless (site : ℕ) S.nsites sp = L at *
  obtain ⟨k, hk⟩ := Nat.exists_eq_add_of_lt hl
  have hk' : S.nsites * S.nspecies = L + k + 1 := hk
  rw [hk, hk', show L + k + 1 - L - 1 = k by omega, ← pow_succ, show L + k + 1 = L + 1 + k by ring,
    pow_add _ (L + 1) k]
  have hpos : 0 < S.nbasis ^ (L + 1) := by positivity
  rw [Nat.mul_right_inj hpos.ne']
  constructor
  · intro h
    by_contra hc
    push Not at hc
    have hk0 : k ≠ 0 := by omega
    exact absurd h (Nat.pow_lt_pow_left (by omega) hk0).ne
  · rintro (h | h)
    · rw [h]
    · have : k = 0 := by omega
      subst this; simp

/-- C07, negation with a concrete witness: a spin-1 model (local dimension 3) with two sites; the
single-site operator on site 0 has 6 rows instead of 9, and cannot be added to an operator of the
system's dimension. -/
theorem C07_violated : ∃ M, getSingleSiteOp ⟨2, 1, 3⟩ 0 0 (Mat.eye 3) "boson" = .ok M ∧
    M.rows = 6 ∧ Sys.nstates ⟨2, 1, 3⟩ = 9 ∧
    M.add (Mat.eye 9) = .error .shape := by
  refine ⟨_, by simp [getSingleSiteOp, spinful2spinless]; rfl, ?_, by simp [Sys.nstates], ?_⟩
  · simp [Mat.kron, Mat.eye, Sys.nlog]
  · simp [Mat.add, Mat.kron, Mat.eye, Sys.nlog]

/-- C07, the part that holds: local dimension two. Missing: every other local dimension, where
the statement is false (`C07_dimension_iff`). -/
theorem C07_dimension_partial (S : Sys) (hb : S.nbasis = 2) (site : Fin S.nsites)
    (sp : Fin S.nspecies) (op : Mat) (hop : op.IsLoc 2) :
    ∃ M, getSingleSiteOp S site sp op "boson" = .ok M ∧ M.rows = S.nstates ∧
      M.cols = S.nstates := by
  obtain ⟨M, h1, h2, h3, _⟩ := C02_boson_elements S hb site sp op hop
  exact ⟨M, h1, by rw [h2, Sys.nstates, hb], by rw [h3, Sys.nstates, hb]⟩

/-! ## C08: two-site operators for every local dimension -/

/-- C08: elements of a bosonic two-site operator on two different modes, any local dimension. -/
theorem C08_two_site_elements (S : Sys) (i j : Fin S.nsites) (si sj : Fin S.nspecies)
    (hne : ¬ (i = j ∧ si = sj)) (op1 op2 : Mat) (h1 : op1.IsLoc S.nbasis)
    (h2 : op2.IsLoc S.nbasis) :
    ∃ M, getTwoSiteOp S i si j sj op1 op2 "boson" = .ok M ∧ M.rows = S.nstates ∧
      M.cols = S.nstates ∧
      ∀ s t : Conf (S.nsites * S.nspecies) S.nbasis,
        M.e (idx s) (idx t) =
          if ∀ k, k ≠ mode i si → k ≠ mode j sj → s k = t k then
            op1.e (s (mode i si)) (t (mode i si)) * op2.e (s (mode j sj)) (t (mode j sj))
          else 0 := by
  have hmne : (mode i si : Fin S.nlog) ≠ mode j sj := fun e => hne (mode_inj e)
  rcases lt_or_gt_of_ne hmne with h | h
  · obtain ⟨M, hM, hd, ho⟩ := two_lt_boson h1 h2 h (mode_lt j sj)
    refine ⟨M, hM, hd.1, hd.2, fun s t => ?_⟩
    have := congrFun (congrFun ho s) t
    change _ = bop2 (mode i si) (mode j sj) _ _ _ s t at this
    rw [bop2_apply h] at this
    exact this
  · obtain ⟨M, hM, hd, ho⟩ := two_gt_boson h1 h2 h (mode_lt i si)
    refine ⟨M, hM, hd.1, hd.2, fun s t => ?_⟩
    have := congrFun (congrFun ho s) t
    change _ = bop2 (mode j sj) (mode i si) _ _ _ s t at this
    rw [bop2_apply h] at this
    refine (show M.e (idx s) (idx t) = _ from this).trans ?_
    have e : (∀ k, k ≠ mode j sj → k ≠ mode i si → s k = t k) ↔
        (∀ k, k ≠ mode i si → k ≠ mode j sj → s k = t k) :=
      ⟨fun h k a b => h k b a, fun h k a b => h k b a⟩
    simp only [e]
    split_ifs
    · exact mul_comm _ _
    · rfl

example : ∃ M, getTwoSiteOp ⟨3, 1, 3⟩ 2 0 0 0 (Mat.eye 3) (Mat.eye 3) "boson" = .ok M ∧
    M.rows = 27 := by
  obtain ⟨M, h1, h2, _⟩ := C08_two_site_elements ⟨3, 1, 3⟩ (2 : Fin 3) (0 : Fin 3) (0 : Fin 1)
    (0 : Fin 1) (by decide) (Mat.eye 3) (Mat.eye 3) ⟨rfl, rfl⟩ ⟨rfl, rfl⟩
  exact ⟨M, h1, h2.trans (by simp [Sys.nstates])⟩

end ED.Props
