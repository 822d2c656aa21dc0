import Verif.Lemmas.Xform

/-!
# Properties C09-C12: exchange operators and symmetry operators

Vocabulary (`Verif/Spec`): `Gives r O` (the call returns an array holding the matrix `O`),
`MovesLabels`, `MovesFermions`, `CyclesOf`, `create`, `ket`, `vac`.
-/

namespace ED.Props

open ED Matrix

/-! ## C09: spin exchange -/

/-- C09: for two different sites of a spin-1/2 system the exchange operator exchanges the two
labels in every configuration, and is Hermitian, unitary and its own inverse.
Missing from C09: swapping a site with itself (see `C09_same_site_violated`). -/
theorem C09_spin_swap_partial (S : Sys) (hb : S.nbasis = 2) (i j : Fin S.nsites) (hij : i ≠ j)
    (sp : Fin S.nspecies) :
    ∃ T : Op (S.nsites * S.nspecies) 2,
      Gives (spinSwapOp S i j sp) T ∧
      (∀ t : Conf (S.nsites * S.nspecies) 2, T.mulVec (ket t) =
        ket (fun m => if m = mode i sp then t (mode j sp) else
          if m = mode j sp then t (mode i sp) else t m)) ∧
      T.conjTranspose = T ∧ T * T = 1 := by
  refine ⟨_, gives_spinSwap hb hij sp, ?_, ?_, ?_⟩
  · intro t
    rw [((movesLabels_iff _ _).2 rfl) t]
    congr 1
    funext m
    rw [Equiv.symm_swap, Equiv.swap_apply_def]
    split_ifs <;> rfl
  · rw [permMat_conj, Equiv.swap_inv]
  · rw [permMat_mul, Equiv.swap_mul_self, permMat_one]

/-- C09, negation: the exchange operator of a site with itself is twice the identity. -/
theorem C09_same_site_violated (S : Sys) (hb : S.nbasis = 2) (i : Fin S.nsites)
    (sp : Fin S.nspecies) :
    Gives (spinSwapOp S i i sp)
      ((2 : ℂ) • (1 : Op (S.nsites * S.nspecies) 2)) :=
  gives_spinSwap_same hb i sp

example : ∃ T : Op 3 2, Gives (spinSwapOp ⟨3, 1, 2⟩ 0 2 0) T ∧
    T.mulVec (ket ![1, 0, 0]) = ket ![0, 0, 1] := by
  obtain ⟨T, h1, h2, _⟩ := C09_spin_swap_partial ⟨3, 1, 2⟩ rfl (0 : Fin 3) (2 : Fin 3) (by decide)
    (0 : Fin 1)
  refine ⟨T, h1, (h2 ![1, 0, 0]).trans ?_⟩
  exact congrArg ket (by decide)

/-! ## C10: fermion exchange -/

/-- C10: the fermion exchange operator of any two sites (equal or not). -/
theorem C10_fermion_swap (S : Sys) (hb : S.nbasis = 2) (i j : Fin S.nsites)
    (sp : Fin S.nspecies) :
    ∃ T : Op (S.nsites * S.nspecies) 2,
      Gives (fermionSwapOp S i j sp) T ∧
      T.conjTranspose = T ∧ T * T = 1 ∧ T.mulVec (ket vac) = ket vac ∧
      ∀ k sp', T * create (mode k sp') * T = create (mode
        (if sp' = sp then (if k = i then j else if k = j then i else k) else k) sp') := by
  have h := movesFermions_xch (S := S) i j sp
  refine ⟨_, gives_fermionSwap hb i j sp, xch_conj _ _, xch_sq _ _, xch_vac _ _, ?_⟩
  intro k sp'
  have := h.moves sp' k
  rw [xch_conj] at this
  rw [this]
  congr 2
  by_cases hs : sp' = sp
  · subst hs; rw [Pi.mulSingle_eq_same, if_pos rfl, Equiv.swap_apply_def]
  · rw [Pi.mulSingle_eq_of_ne hs, if_neg hs]; rfl

/-- The specification's creation operator is the one the library builds (links C10-C13 to the
public operator builder). -/
theorem C10_create_is_library_operator (S : Sys) (hb : S.nbasis = 2) (i : Fin S.nsites)
    (sp : Fin S.nspecies) :
    Gives (getSingleSiteOp S i sp cdagOp "fermion")
      (create (mode i sp) : Op (S.nsites * S.nspecies) 2) ∧
    Gives (getSingleSiteOp S i sp cOp "fermion")
      (annih (mode i sp) : Op (S.nsites * S.nspecies) 2) ∧
    Gives (getSingleSiteOp S i sp nOp "boson")
      (number (mode i sp) : Op (S.nsites * S.nspecies) 2) :=
  ⟨(gives_single_fermion hb i sp cdagOp_loc).of_eq (fop_cdl _),
   (gives_single_fermion hb i sp cOp_loc).of_eq (fop_cl _),
   (gives_single_boson hb i sp nOp_loc).of_eq (bop_nl _)⟩

example : ∃ T : Op 6 2, Gives (fermionSwapOp ⟨3, 2, 2⟩ 0 2 1) T ∧
    T * create 3 * T = create 5 ∧ T * create 0 * T = create 0 := by
  obtain ⟨T, h1, _, _, _, h5⟩ := C10_fermion_swap ⟨3, 2, 2⟩ rfl (0 : Fin 3) (2 : Fin 3) (1 : Fin 2)
  refine ⟨T, h1, ?_, ?_⟩
  · exact h5 (0 : Fin 3) (1 : Fin 2)
  · exact h5 (0 : Fin 3) (0 : Fin 2)

/-! ## C11: symmetry operators implement the permutation -/

/-- C11 (fermions): the operator built from the disjoint cycles of a site permutation `π` is
unitary, leaves the empty state alone and moves the particles of every species along `π`. -/
theorem C11_xform_fermions (S : Sys) (hb : S.nbasis = 2) (cycles : List (List (Fin S.nsites)))
    (π : Equiv.Perm (Fin S.nsites)) (h : CyclesOf cycles π) :
    ∃ (v : Val) (U : Op (S.nsites * S.nspecies) 2), getXformOp S.nspecies (fermionSwapOp S) (siteNumbers cycles) = .ok v ∧
      v.Is U ∧ MovesFermions U (fun _ : Fin S.nspecies => π) :=
  xform_spec (implements_fermions hb) h

/-- C11 (spins): the operator moves the label of site `i` to site `π i` in every configuration. -/
theorem C11_xform_spins (S : Sys) (hb : S.nbasis = 2) (cycles : List (List (Fin S.nsites)))
    (π : Equiv.Perm (Fin S.nsites)) (h : CyclesOf cycles π) :
    ∃ (v : Val) (U : Op (S.nsites * S.nspecies) 2), getXformOp S.nspecies (spinSwapOp S) (siteNumbers cycles) = .ok v ∧ v.Is U ∧
      ∃ σ : Equiv.Perm (Fin (S.nsites * S.nspecies)),
        (∀ i s, σ (mode i s) = mode (π i) s) ∧ MovesLabels U σ := by
  obtain ⟨v, O, h1, h2, h3⟩ := xform_spec (implements_spins hb) h
  exact ⟨v, O, h1, h2, modePerm _, fun i s => modePerm_mode _ _ _, (movesLabels_iff _ _).2 h3⟩

/-- Instance: the cycles of a four-site ring rotation with a spectator site. -/
theorem ring_cycles : CyclesOf ([[0, 1, 2, 3], [4]] : List (List (Fin 5)))
    (List.formPerm [0, 1, 2, 3]) := by
  refine ⟨by decide, ?_, by decide⟩
  intro c hc k hk
  rcases List.mem_cons.1 hc with rfl | hc
  · exact List.formPerm_apply_getElem _ (by decide) _ _
  · obtain rfl : c = [4] := by simpa using hc
    obtain rfl : k = 0 := by simpa using hk
    exact List.formPerm_apply_of_notMem (show (4 : Fin 5) ∉ [0, 1, 2, 3] by decide)

example : ∃ (v : Val) (U : Op 10 2), getXformOp 2 (fermionSwapOp ⟨5, 2, 2⟩) [[0, 1, 2, 3], [4]] = .ok v ∧
    v.Is U ∧ U * create (3 : Fin 10) * U.conjTranspose = create (0 : Fin 10) := by
  obtain ⟨v, U, h1, h2, h3⟩ := C11_xform_fermions ⟨5, 2, 2⟩ rfl _ _ ring_cycles
  refine ⟨v, U, h1, h2, (h3.moves (0 : Fin 2) (3 : Fin 5)).trans ?_⟩
  congr 1

/-! ## C12: symmetry operators are unitary and compose like permutations -/

/-- C12: an operator that moves particles along `f` is unique; powers move along powers; so if
`f^k = 1` then `U^k = 1`. -/
theorem C12_fermion_powers (S : Sys) (hb : S.nbasis = 2) (cycles : List (List (Fin S.nsites)))
    (π : Equiv.Perm (Fin S.nsites)) (h : CyclesOf cycles π) :
    ∃ (v : Val) (U : Op (S.nsites * S.nspecies) 2), getXformOp S.nspecies (fermionSwapOp S) (siteNumbers cycles) = .ok v ∧ v.Is U ∧
      U.conjTranspose * U = 1 ∧ U * U.conjTranspose = 1 ∧
      (∀ k : ℕ, MovesFermions (U ^ k) (fun _ : Fin S.nspecies => π ^ k)) ∧
      (∀ k : ℕ, (∀ c ∈ cycles, c.length ∣ k) → U ^ k = 1) ∧
      (∀ V, MovesFermions V (fun _ : Fin S.nspecies => π) → V = U) := by
  obtain ⟨v, U, h1, h2, h3⟩ := C11_xform_fermions S hb cycles π h
  have hpow : ∀ k : ℕ, MovesFermions (U ^ k) (fun _ : Fin S.nspecies => π ^ k) := fun k => h3.pow k
  refine ⟨v, U, h1, h2, h3.left_inv, h3.right_inv, hpow, ?_, fun V hV => hV.unique h3⟩
  intro k hk
  have hπ : π ^ k = 1 := cyclesOf_pow h hk
  have := hpow k
  rw [hπ] at this
  exact this.unique movesFermions_one

/-- C12 (spins). -/
theorem C12_spin_powers (S : Sys) (hb : S.nbasis = 2) (cycles : List (List (Fin S.nsites)))
    (π : Equiv.Perm (Fin S.nsites)) (h : CyclesOf cycles π) :
    ∃ (v : Val) (U : Op (S.nsites * S.nspecies) 2), getXformOp S.nspecies (spinSwapOp S) (siteNumbers cycles) = .ok v ∧ v.Is U ∧
      U.conjTranspose * U = 1 ∧ U * U.conjTranspose = 1 ∧
      (∀ k : ℕ, ∃ σ : Equiv.Perm (Fin (S.nsites * S.nspecies)),
        (∀ i s, σ (mode i s) = mode ((π ^ k) i) s) ∧ MovesLabels (U ^ k) σ) ∧
      (∀ k : ℕ, (∀ c ∈ cycles, c.length ∣ k) → U ^ k = 1) := by
  obtain ⟨v, U, h1, h2, h3⟩ := xform_spec (implements_spins hb) h
  have hpow : ∀ k : ℕ, U ^ k = permMat (modePerm fun _ : Fin S.nspecies => π ^ k) := by
    intro k
    induction k with
    | zero =>
      rw [pow_zero]
      change _ = permMat (modePerm 1)
      rw [modePerm_one, permMat_one]
    | succ k ih =>
      rw [pow_succ, ih, h3, permMat_mul, ← modePerm_mul]
      congr 2
      funext _
      exact (pow_succ π k).symm
  refine ⟨v, U, h1, h2, ?_, ?_, ?_, ?_⟩
  · rw [h3, permMat_conj, permMat_mul, inv_mul_cancel, permMat_one]
  · rw [h3, permMat_conj, permMat_mul, mul_inv_cancel, permMat_one]
  · intro k
    exact ⟨_, fun i s => modePerm_mode _ _ _, (movesLabels_iff _ _).2 (hpow k)⟩
  · intro k hk
    rw [hpow, cyclesOf_pow h hk]
    change permMat (modePerm 1) = 1
    rw [modePerm_one, permMat_one]

/-- Instance: fourth power of the ring rotation. -/
example : ∃ (v : Val) (U : Op 10 2), getXformOp 2 (fermionSwapOp ⟨5, 2, 2⟩) [[0, 1, 2, 3], [4]] = .ok v ∧
    v.Is U ∧ U ^ 4 = 1 := by
  obtain ⟨v, U, h1, h2, _, _, _, h3, _⟩ := C12_fermion_powers ⟨5, 2, 2⟩ rfl _ _ ring_cycles
  exact ⟨v, U, h1, h2, h3 4 (by decide)⟩

/-- C12: the product of the operators of two permutations is the operator of the product, whatever cycles are
passed for it. -/
theorem C12_fermion_products (S : Sys) (hb : S.nbasis = 2) (c1 c2 c12 : List (List (Fin S.nsites)))
    (π1 π2 : Equiv.Perm (Fin S.nsites)) (h1 : CyclesOf c1 π1) (h2 : CyclesOf c2 π2) (h12 : CyclesOf c12 (π1 * π2)) :
    ∃ (v1 v2 v12 : Val) (U1 U2 U12 : Op (S.nsites * S.nspecies) 2),
      getXformOp S.nspecies (fermionSwapOp S) (siteNumbers c1) = .ok v1 ∧ v1.Is U1 ∧
      getXformOp S.nspecies (fermionSwapOp S) (siteNumbers c2) = .ok v2 ∧ v2.Is U2 ∧
      getXformOp S.nspecies (fermionSwapOp S) (siteNumbers c12) = .ok v12 ∧ v12.Is U12 ∧ U1 * U2 = U12 := by
  obtain ⟨v1, U1, a1, b1, m1⟩ := C11_xform_fermions S hb c1 π1 h1
  obtain ⟨v2, U2, a2, b2, m2⟩ := C11_xform_fermions S hb c2 π2 h2
  obtain ⟨v12, U12, a12, b12, m12⟩ := C11_xform_fermions S hb c12 _ h12
  exact ⟨v1, v2, v12, U1, U2, U12, a1, b1, a2, b2, a12, b12, (m1.mul' m2).unique m12⟩

/-- C12 (spins). -/
theorem C12_spin_products (S : Sys) (hb : S.nbasis = 2) (c1 c2 c12 : List (List (Fin S.nsites)))
    (π1 π2 : Equiv.Perm (Fin S.nsites)) (h1 : CyclesOf c1 π1) (h2 : CyclesOf c2 π2) (h12 : CyclesOf c12 (π1 * π2)) :
    ∃ (v1 v2 v12 : Val) (U1 U2 U12 : Op (S.nsites * S.nspecies) 2),
      getXformOp S.nspecies (spinSwapOp S) (siteNumbers c1) = .ok v1 ∧ v1.Is U1 ∧
      getXformOp S.nspecies (spinSwapOp S) (siteNumbers c2) = .ok v2 ∧ v2.Is U2 ∧
      getXformOp S.nspecies (spinSwapOp S) (siteNumbers c12) = .ok v12 ∧ v12.Is U12 ∧ U1 * U2 = U12 := by
  obtain ⟨v1, U1, a1, b1, m1⟩ := xform_spec (implements_spins hb) h1
  obtain ⟨v2, U2, a2, b2, m2⟩ := xform_spec (implements_spins hb) h2
  obtain ⟨v12, U12, a12, b12, m12⟩ := xform_spec (implements_spins hb) h12
  refine ⟨v1, v2, v12, U1, U2, U12, a1, b1, a2, b2, a12, b12, ?_⟩
  rw [m1, m2, m12, permMat_mul, ← modePerm_mul]
  rfl

/-- Instance: on a ring of three sites, two reflections make a rotation. -/
example : ∃ (v1 v2 v12 : Val) (U1 U2 U12 : Op 6 2),
    getXformOp 2 (fermionSwapOp ⟨3, 2, 2⟩) [[0, 1]] = .ok v1 ∧ v1.Is U1 ∧
    getXformOp 2 (fermionSwapOp ⟨3, 2, 2⟩) [[1, 2]] = .ok v2 ∧ v2.Is U2 ∧
    getXformOp 2 (fermionSwapOp ⟨3, 2, 2⟩) [[0, 1, 2]] = .ok v12 ∧ v12.Is U12 ∧ U1 * U2 = U12 :=
  C12_fermion_products ⟨3, 2, 2⟩ rfl ([[0, 1]] : List (List (Fin 3))) ([[1, 2]] : List (List (Fin 3)))
    ([[0, 1, 2]] : List (List (Fin 3))) (Equiv.swap 0 1 : Equiv.Perm (Fin 3)) (Equiv.swap 1 2 : Equiv.Perm (Fin 3))
    (show CyclesOf ([[0, 1]] : List (List (Fin 3))) (Equiv.swap 0 1) from ⟨by decide, by decide, by decide⟩)
    (show CyclesOf ([[1, 2]] : List (List (Fin 3))) (Equiv.swap 1 2) from ⟨by decide, by decide, by decide⟩)
    (show CyclesOf ([[0, 1, 2]] : List (List (Fin 3))) (Equiv.swap 0 1 * Equiv.swap 1 2) from
      ⟨by decide, by decide, by decide⟩)

end ED.Props
