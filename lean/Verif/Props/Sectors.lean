import Verif.Props.Reduce
import Verif.Props.Fermions
import Verif.Props.Spins
import Verif.Lemmas.XformGroup
import Verif.Spec.Sectors

/-!
# Symmetry sectors of the Hamiltonian, end to end (C104)

From cycles of lattice sites to symmetry operators, to the projectors of the point group, to a basis in which the
Hamiltonian is block diagonal.
-/

namespace ED.Props

open scoped BigOperators Matrix
open Spec

/-- The operator of a site permutation other than the identity is a matrix, permutes the basis states up to signs, and
commutes with the Hamiltonian. -/
private theorem fermion_op (F : Fermions) (h : InterOk F) (hn : 0 < F.nspecies) (hb : FermionBonds F)
    {π : Equiv.Perm (Fin F.nsites)} (hπ : π ≠ 1) (hinv : FermionInvariant F π) {cycles : List (List (Fin F.nsites))}
    (hc : CyclesOf cycles π) {MH : Mat} (hH : F.createH none = .ok MH) :
    ∃ (M : Mat) (U : Op (F.nsites * F.nspecies) 2),
      getXformOp F.nspecies (fermionSwapOp F.sys) (siteNumbers cycles) = .ok (.mat M) ∧ M.Is U ∧
      MovesFermions (nsites := F.nsites) (nspecies := F.nspecies) U (fun _ => π) ∧
      SignedPermutation (asMatrix M (2 ^ (F.nsites * F.nspecies))) ∧
      asMatrix MH (2 ^ (F.nsites * F.nspecies)) * asMatrix M (2 ^ (F.nsites * F.nspecies)) =
        asMatrix M (2 ^ (F.nsites * F.nspecies)) * asMatrix MH (2 ^ (F.nsites * F.nspecies)) := by
  obtain ⟨v, U, h1, h2, h3⟩ := C11_xform_fermions F.sys rfl cycles π hc
  obtain ⟨v', U', H, h1', h2', ⟨MH', hH', hHI⟩, hcomm⟩ :=
    C13_fermions F h π cycles hc hb.hop hinv.hop hb.same hinv.same hinv.inter hinv.pot
  change Op (F.nsites * F.nspecies) 2 at U
  have h3' : MovesFermions (nsites := F.nsites) (nspecies := F.nspecies) U fun _ => π := h3
  rw [hH] at hH'
  cases hH'
  have hv : v = v' := by
    have := h1.symm.trans h1'
    cases this
    rfl
  subst hv
  cases v with
  | num z =>
    exfalso
    refine hπ ?_
    have h2z : U = z • (1 : Op (F.nsites * F.nspecies) 2) := h2
    rw [h2z] at h3'
    have h4 := h3'.signed.num
    ext i
    have h5 := congrArg (fun f => f (mode i (⟨0, hn⟩ : Fin F.nspecies))) h4
    simp only [modePerm_mode, Equiv.Perm.one_apply] at h5
    have h6 := (mode_eq_iff.1 h5).1
    rw [h6]
    rfl
  | mat M =>
    exact ⟨M, U, h1, h2, h3', h3'.signed.permutation h2, commute_asMatrix hHI h2' hcomm⟩

/-- The same for spins. -/
private theorem spin_op (F : Spins) (h : F.twoS = 1) (hb : SpinBonds F)
    {π : Equiv.Perm (Fin F.nsites)} (hπ : π ≠ 1) (hinv : SpinInvariant F π) {cycles : List (List (Fin F.nsites))}
    (hc : CyclesOf cycles π) {MH : Mat} (hH : F.createH none = .ok MH) :
    ∃ (M : Mat) (U : Op F.nsites 2),
      getXformOp 1 (spinSwapOp ⟨F.nsites, 1, 2⟩) (siteNumbers cycles) = .ok (.mat M) ∧ M.Is U ∧ MovesLabels U π ∧
      SignedPermutation (asMatrix M (2 ^ F.nsites)) ∧
      asMatrix MH (2 ^ F.nsites) * asMatrix M (2 ^ F.nsites) = asMatrix M (2 ^ F.nsites) * asMatrix MH (2 ^ F.nsites) := by
  obtain ⟨v, U, h1, h2, h3⟩ := spin_xform cycles π hc
  obtain ⟨v', U', H, h1', h2', ⟨MH', hH', hHI⟩, hcomm⟩ :=
    C13_spins F h π cycles hc hb.x hb.y hb.z hinv.jx hinv.jy hinv.jz hinv.hx hinv.hy hinv.hz
  rw [hH] at hH'
  cases hH'
  have hv : v = v' := by
    have := h1.symm.trans h1'
    cases this
    rfl
  subst hv
  cases v with
  | num z =>
    exfalso
    refine hπ ?_
    have h2z : U = z • (1 : Op F.nsites 2) := h2
    rw [h2z] at h3
    exact h3.signed.num
  | mat M => exact ⟨M, U, h1, h2, h3, h3.signed.permutation h2, commute_asMatrix hHI h2' hcomm⟩

private theorem dihedral_sectors {D m order : ℕ} {dims : List ℕ} {xform : List (List ℕ) → Res Val} {ham : Res Mat}
    {full : Matrix (Fin D) (Fin D) ℂ → Matrix (Fin D) (Fin D) ℂ → Res (List (Matrix (Fin D) (Fin D) ℂ))}
    {reduced : Matrix (Fin D) (Fin D) ℂ → Matrix (Fin D) (Fin D) ℂ → Res (List (List (Fin D → ℂ)))}
    (hred : ∀ R S, Dihedral m R S → SignedPermutation R → SignedPermutation S →
      ∃ P projs, full R S = .ok P ∧ reduced R S = .ok projs ∧ Reduces order dims P projs ∧
        ∀ H, H * R = R * H → H * S = S * H → AllCommute P H)
    {cR cS : List (List ℕ)}
    (h : ∃ MR MS MH, xform cR = .ok (.mat MR) ∧ xform cS = .ok (.mat MS) ∧ ham = .ok MH ∧
      Dihedral m (asMatrix MR D) (asMatrix MS D) ∧ SignedPermutation (asMatrix MR D) ∧
      SignedPermutation (asMatrix MS D) ∧ asMatrix MH D * asMatrix MR D = asMatrix MR D * asMatrix MH D ∧
      asMatrix MH D * asMatrix MS D = asMatrix MS D * asMatrix MH D) :
    DihedralSectors D xform ham full reduced order dims cR cS := by
  obtain ⟨MR, MS, MH, h1, h2, h3, hd, pR, pS, cR, cS⟩ := h
  obtain ⟨P, projs, h4, h5, h6, h7⟩ := hred _ _ hd pR pS
  exact ⟨MR, MS, MH, P, projs, h1, h2, h3, h4, h5, h6, fun C hC hb => h6.blocks _ C hC (h7 _ cR cS) hb⟩

private theorem torus_sectors {D order : ℕ} {dims : List ℕ} {xform : List (List ℕ) → Res Val} {ham : Res Mat}
    {Rel : ∀ _ _ _ _ : Matrix (Fin D) (Fin D) ℂ, Prop}
    {full : Matrix (Fin D) (Fin D) ℂ → Matrix (Fin D) (Fin D) ℂ → Matrix (Fin D) (Fin D) ℂ →
      Matrix (Fin D) (Fin D) ℂ → Res (List (Matrix (Fin D) (Fin D) ℂ))}
    {reduced : Matrix (Fin D) (Fin D) ℂ → Matrix (Fin D) (Fin D) ℂ → Matrix (Fin D) (Fin D) ℂ →
      Matrix (Fin D) (Fin D) ℂ → Res (List (List (Fin D → ℂ)))}
    (hred : ∀ R S X Y, Rel R S X Y → SignedPermutation R → SignedPermutation S → SignedPermutation X →
      SignedPermutation Y →
      ∃ P projs, full R S X Y = .ok P ∧ reduced R S X Y = .ok projs ∧ Reduces order dims P projs ∧
        ∀ H, H * R = R * H → H * S = S * H → H * X = X * H → H * Y = Y * H → AllCommute P H)
    {cR cS cX cY : List (List ℕ)}
    (h : ∃ MR MS MX MY MH, xform cR = .ok (.mat MR) ∧ xform cS = .ok (.mat MS) ∧ xform cX = .ok (.mat MX) ∧
      xform cY = .ok (.mat MY) ∧ ham = .ok MH ∧
      Rel (asMatrix MR D) (asMatrix MS D) (asMatrix MX D) (asMatrix MY D) ∧
      (SignedPermutation (asMatrix MR D) ∧ asMatrix MH D * asMatrix MR D = asMatrix MR D * asMatrix MH D) ∧
      (SignedPermutation (asMatrix MS D) ∧ asMatrix MH D * asMatrix MS D = asMatrix MS D * asMatrix MH D) ∧
      (SignedPermutation (asMatrix MX D) ∧ asMatrix MH D * asMatrix MX D = asMatrix MX D * asMatrix MH D) ∧
      (SignedPermutation (asMatrix MY D) ∧ asMatrix MH D * asMatrix MY D = asMatrix MY D * asMatrix MH D)) :
    TorusSectors D xform ham full reduced order dims cR cS cX cY := by
  obtain ⟨MR, MS, MX, MY, MH, h1, h2, hx, hy, h3, hd, ⟨pR, cR⟩, ⟨pS, cS⟩, ⟨pX, cX⟩, ⟨pY, cY⟩⟩ := h
  obtain ⟨P, projs, h4, h5, h6, h7⟩ := hred _ _ _ _ hd pR pS pX pY
  exact ⟨MR, MS, MX, MY, MH, P, projs, h1, h2, hx, hy, h3, h4, h5, h6,
    fun C hC hb => h6.blocks _ C hC (h7 _ cR cS cX cY) hb⟩

private theorem fermions_ready (F : Fermions) (h : InterOk F) (hn : 0 < F.nspecies) (hb : FermionBonds F)
    {ρ τ : Equiv.Perm (Fin F.nsites)} (hρ : ρ ≠ 1) (hτ : τ ≠ 1) (iρ : FermionInvariant F ρ) (iτ : FermionInvariant F τ)
    {cR cS : List (List (Fin F.nsites))} (hR : CyclesOf cR ρ) (hS : CyclesOf cS τ) {m : ℕ} (hd : Dihedral m ρ τ) :
    ∃ MR MS MH, (getXformOp F.nspecies (fermionSwapOp F.sys)) (siteNumbers cR) = .ok (.mat MR) ∧
      (getXformOp F.nspecies (fermionSwapOp F.sys)) (siteNumbers cS) = .ok (.mat MS) ∧ F.createH none = .ok MH ∧
      Dihedral m (asMatrix MR (2 ^ (F.nsites * F.nspecies))) (asMatrix MS (2 ^ (F.nsites * F.nspecies))) ∧
      SignedPermutation (asMatrix MR (2 ^ (F.nsites * F.nspecies))) ∧ SignedPermutation (asMatrix MS (2 ^ (F.nsites * F.nspecies))) ∧
      asMatrix MH (2 ^ (F.nsites * F.nspecies)) * asMatrix MR (2 ^ (F.nsites * F.nspecies)) = asMatrix MR (2 ^ (F.nsites * F.nspecies)) * asMatrix MH (2 ^ (F.nsites * F.nspecies)) ∧
      asMatrix MH (2 ^ (F.nsites * F.nspecies)) * asMatrix MS (2 ^ (F.nsites * F.nspecies)) = asMatrix MS (2 ^ (F.nsites * F.nspecies)) * asMatrix MH (2 ^ (F.nsites * F.nspecies)) := by
  obtain ⟨MH, hH, -⟩ := createH_gives h
  obtain ⟨MR, R, r1, r2, r3, r4, r5⟩ := fermion_op F h hn hb hρ iρ hR hH
  obtain ⟨MS, S, s1, s2, s3, s4, s5⟩ := fermion_op F h hn hb hτ iτ hS hH
  exact ⟨MR, MS, MH, r1, s1, hH, dihedral_asMatrix r2 s2 ((faithful_fermions F.nsites F.nspecies).dihedral r3 s3 hd), r4, s4, r5, s5⟩

/-- C104 for fermions: if two permutations of the sites, given by their cycles, generate a dihedral group and do not
change the parameters of the model, then the operators that the library makes of the cycles, handed to the
projector function of that group, give an orthonormal basis of the whole space in which the Hamiltonian that
the library makes of the parameters is block diagonal. -/
theorem C104_fermions {svd : Svd} (hsvd : svd.Correct) (F : Fermions) (h : InterOk F) (hn : 0 < F.nspecies) (hb : FermionBonds F)
    {ρ τ : Equiv.Perm (Fin F.nsites)} (hρ : ρ ≠ 1) (hτ : τ ≠ 1) (iρ : FermionInvariant F ρ) (iτ : FermionInvariant F τ)
    {cR cS : List (List (Fin F.nsites))} (hR : CyclesOf cR ρ) (hS : CyclesOf cS τ) :
    (Dihedral 2 ρ τ → DihedralSectors (2 ^ (F.nsites * F.nspecies)) (getXformOp F.nspecies (fermionSwapOp F.sys)) (F.createH none)
      getD2Projectors (reducedD2 svd) 4 [1, 1, 1, 1] (siteNumbers cR) (siteNumbers cS)) ∧
    (Dihedral 3 ρ τ → DihedralSectors (2 ^ (F.nsites * F.nspecies)) (getXformOp F.nspecies (fermionSwapOp F.sys)) (F.createH none)
      getD3Projectors (reducedD3 svd) 6 [1, 1, 2] (siteNumbers cR) (siteNumbers cS)) ∧
    (Dihedral 4 ρ τ → DihedralSectors (2 ^ (F.nsites * F.nspecies)) (getXformOp F.nspecies (fermionSwapOp F.sys)) (F.createH none)
      getD4Projectors (reducedD4 svd) 8 [1, 1, 1, 1, 2] (siteNumbers cR) (siteNumbers cS)) ∧
    (Dihedral 5 ρ τ → DihedralSectors (2 ^ (F.nsites * F.nspecies)) (getXformOp F.nspecies (fermionSwapOp F.sys)) (F.createH none)
      getD5Projectors (reducedD5 svd) 10 [1, 1, 2, 2] (siteNumbers cR) (siteNumbers cS)) ∧
    (Dihedral 6 ρ τ → DihedralSectors (2 ^ (F.nsites * F.nspecies)) (getXformOp F.nspecies (fermionSwapOp F.sys)) (F.createH none)
      getD6Projectors (reducedD6 svd) 12 [1, 1, 1, 1, 2, 2] (siteNumbers cR) (siteNumbers cS)) :=
  ⟨fun hd => dihedral_sectors (fun _ _ a b c => C103_D2_partial hsvd a b c)
    (fermions_ready F h hn hb hρ hτ iρ iτ hR hS hd),
  fun hd => dihedral_sectors (fun _ _ a b c => C103_D3_partial hsvd a b c)
    (fermions_ready F h hn hb hρ hτ iρ iτ hR hS hd),
  fun hd => dihedral_sectors (fun _ _ a b c => C103_D4_partial hsvd a b c)
    (fermions_ready F h hn hb hρ hτ iρ iτ hR hS hd),
  fun hd => dihedral_sectors (fun _ _ a b c => C103_D5_partial hsvd a b c)
    (fermions_ready F h hn hb hρ hτ iρ iτ hR hS hd),
  fun hd => dihedral_sectors (fun _ _ a b c => C103_D6_partial hsvd a b c)
    (fermions_ready F h hn hb hρ hτ iρ iτ hR hS hd)⟩

/-- C104 for fermions on a periodic 3x3 lattice. -/
theorem C104_fermions_torus {svd : Svd} (hsvd : svd.Correct) (F : Fermions) (h : InterOk F) (hn : 0 < F.nspecies) (hb : FermionBonds F)
    {ρ τ ξ υ : Equiv.Perm (Fin F.nsites)} (hρ : ρ ≠ 1) (hτ : τ ≠ 1) (hξ : ξ ≠ 1) (hυ : υ ≠ 1)
    (iρ : FermionInvariant F ρ) (iτ : FermionInvariant F τ) (iξ : FermionInvariant F ξ) (iυ : FermionInvariant F υ)
    {cR cS cX cY : List (List (Fin F.nsites))} (hR : CyclesOf cR ρ) (hS : CyclesOf cS τ) (hX : CyclesOf cX ξ)
    (hY : CyclesOf cY υ) (hd : Torus3 ρ τ ξ υ) :
    TorusSectors (2 ^ (F.nsites * F.nspecies)) (getXformOp F.nspecies (fermionSwapOp F.sys)) (F.createH none) getC4VAnd3by3 (reducedTorus svd)
      72 [1, 1, 1, 1, 2, 4, 4, 4, 4] (siteNumbers cR) (siteNumbers cS) (siteNumbers cX) (siteNumbers cY) := by
  obtain ⟨MH, hH, -⟩ := createH_gives h
  obtain ⟨MR, R, r1, r2, r3, r4, r5⟩ := fermion_op F h hn hb hρ iρ hR hH
  obtain ⟨MS, S, s1, s2, s3, s4, s5⟩ := fermion_op F h hn hb hτ iτ hS hH
  obtain ⟨MX, X, x1, x2, x3, x4, x5⟩ := fermion_op F h hn hb hξ iξ hX hH
  obtain ⟨MY, Y, y1, y2, y3, y4, y5⟩ := fermion_op F h hn hb hυ iυ hY hH
  exact torus_sectors (Rel := Torus3) (fun _ _ _ _ a b c d e => C103_torus_partial hsvd a b c d e)
    ⟨MR, MS, MX, MY, MH, r1, s1, x1, y1, hH, torus_asMatrix r2 s2 x2 y2 ((faithful_fermions F.nsites F.nspecies).torus r3 s3 x3 y3 hd),
      ⟨r4, r5⟩, ⟨s4, s5⟩, ⟨x4, x5⟩, ⟨y4, y5⟩⟩

/-- C104 for fermions on a periodic 3x3 lattice, rotating clockwise. -/
theorem C104_fermions_torus_clockwise {svd : Svd} (hsvd : svd.Correct) (F : Fermions) (h : InterOk F) (hn : 0 < F.nspecies) (hb : FermionBonds F)
    {ρ τ ξ υ : Equiv.Perm (Fin F.nsites)} (hρ : ρ ≠ 1) (hτ : τ ≠ 1) (hξ : ξ ≠ 1) (hυ : υ ≠ 1)
    (iρ : FermionInvariant F ρ) (iτ : FermionInvariant F τ) (iξ : FermionInvariant F ξ) (iυ : FermionInvariant F υ)
    {cR cS cX cY : List (List (Fin F.nsites))} (hR : CyclesOf cR ρ) (hS : CyclesOf cS τ) (hX : CyclesOf cX ξ)
    (hY : CyclesOf cY υ) (hd : Torus3cw ρ τ ξ υ) :
    TorusSectors (2 ^ (F.nsites * F.nspecies)) (getXformOp F.nspecies (fermionSwapOp F.sys)) (F.createH none) getC4VAnd3by3 (reducedTorus svd)
      72 [1, 1, 1, 1, 2, 4, 4, 4, 4] (siteNumbers cR) (siteNumbers cS) (siteNumbers cX) (siteNumbers cY) := by
  obtain ⟨MH, hH, -⟩ := createH_gives h
  obtain ⟨MR, R, r1, r2, r3, r4, r5⟩ := fermion_op F h hn hb hρ iρ hR hH
  obtain ⟨MS, S, s1, s2, s3, s4, s5⟩ := fermion_op F h hn hb hτ iτ hS hH
  obtain ⟨MX, X, x1, x2, x3, x4, x5⟩ := fermion_op F h hn hb hξ iξ hX hH
  obtain ⟨MY, Y, y1, y2, y3, y4, y5⟩ := fermion_op F h hn hb hυ iυ hY hH
  exact torus_sectors (Rel := Torus3cw) (fun _ _ _ _ a b c d e => C103_torus_clockwise_partial hsvd a b c d e)
    ⟨MR, MS, MX, MY, MH, r1, s1, x1, y1, hH, torus_cw_asMatrix r2 s2 x2 y2 ((faithful_fermions F.nsites F.nspecies).torus_cw r3 s3 x3 y3 hd),
      ⟨r4, r5⟩, ⟨s4, s5⟩, ⟨x4, x5⟩, ⟨y4, y5⟩⟩

private theorem spin_ham (F : Spins) (h : F.twoS = 1) : ∃ MH, F.createH none = .ok MH ∧ True := by
  obtain ⟨n, d, jx, jy, jz, hx, hy, hz⟩ := F
  simp only at h
  subst h
  obtain ⟨MH, hH, -⟩ := spin_createH ⟨n, 1, jx, jy, jz, hx, hy, hz⟩ (Or.inl rfl)
  exact ⟨MH, hH, trivial⟩

private theorem spins_ready (F : Spins) (h : F.twoS = 1) (hb : SpinBonds F)
    {ρ τ : Equiv.Perm (Fin F.nsites)} (hρ : ρ ≠ 1) (hτ : τ ≠ 1) (iρ : SpinInvariant F ρ) (iτ : SpinInvariant F τ)
    {cR cS : List (List (Fin F.nsites))} (hR : CyclesOf cR ρ) (hS : CyclesOf cS τ) {m : ℕ} (hd : Dihedral m ρ τ) :
    ∃ MR MS MH, (getXformOp 1 (spinSwapOp ⟨F.nsites, 1, 2⟩)) (siteNumbers cR) = .ok (.mat MR) ∧
      (getXformOp 1 (spinSwapOp ⟨F.nsites, 1, 2⟩)) (siteNumbers cS) = .ok (.mat MS) ∧ F.createH none = .ok MH ∧
      Dihedral m (asMatrix MR (2 ^ F.nsites)) (asMatrix MS (2 ^ F.nsites)) ∧
      SignedPermutation (asMatrix MR (2 ^ F.nsites)) ∧ SignedPermutation (asMatrix MS (2 ^ F.nsites)) ∧
      asMatrix MH (2 ^ F.nsites) * asMatrix MR (2 ^ F.nsites) = asMatrix MR (2 ^ F.nsites) * asMatrix MH (2 ^ F.nsites) ∧
      asMatrix MH (2 ^ F.nsites) * asMatrix MS (2 ^ F.nsites) = asMatrix MS (2 ^ F.nsites) * asMatrix MH (2 ^ F.nsites) := by
  obtain ⟨MH, hH, -⟩ := spin_ham F h
  obtain ⟨MR, R, r1, r2, r3, r4, r5⟩ := spin_op F h hb hρ iρ hR hH
  obtain ⟨MS, S, s1, s2, s3, s4, s5⟩ := spin_op F h hb hτ iτ hS hH
  exact ⟨MR, MS, MH, r1, s1, hH, dihedral_asMatrix r2 s2 ((faithful_spins F.nsites).dihedral r3 s3 hd), r4, s4, r5, s5⟩

/-- C104 for spins 1/2. -/
theorem C104_spins {svd : Svd} (hsvd : svd.Correct) (F : Spins) (h : F.twoS = 1) (hb : SpinBonds F)
    {ρ τ : Equiv.Perm (Fin F.nsites)} (hρ : ρ ≠ 1) (hτ : τ ≠ 1) (iρ : SpinInvariant F ρ) (iτ : SpinInvariant F τ)
    {cR cS : List (List (Fin F.nsites))} (hR : CyclesOf cR ρ) (hS : CyclesOf cS τ) :
    (Dihedral 2 ρ τ → DihedralSectors (2 ^ F.nsites) (getXformOp 1 (spinSwapOp ⟨F.nsites, 1, 2⟩)) (F.createH none)
      getD2Projectors (reducedD2 svd) 4 [1, 1, 1, 1] (siteNumbers cR) (siteNumbers cS)) ∧
    (Dihedral 3 ρ τ → DihedralSectors (2 ^ F.nsites) (getXformOp 1 (spinSwapOp ⟨F.nsites, 1, 2⟩)) (F.createH none)
      getD3Projectors (reducedD3 svd) 6 [1, 1, 2] (siteNumbers cR) (siteNumbers cS)) ∧
    (Dihedral 4 ρ τ → DihedralSectors (2 ^ F.nsites) (getXformOp 1 (spinSwapOp ⟨F.nsites, 1, 2⟩)) (F.createH none)
      getD4Projectors (reducedD4 svd) 8 [1, 1, 1, 1, 2] (siteNumbers cR) (siteNumbers cS)) ∧
    (Dihedral 5 ρ τ → DihedralSectors (2 ^ F.nsites) (getXformOp 1 (spinSwapOp ⟨F.nsites, 1, 2⟩)) (F.createH none)
      getD5Projectors (reducedD5 svd) 10 [1, 1, 2, 2] (siteNumbers cR) (siteNumbers cS)) ∧
    (Dihedral 6 ρ τ → DihedralSectors (2 ^ F.nsites) (getXformOp 1 (spinSwapOp ⟨F.nsites, 1, 2⟩)) (F.createH none)
      getD6Projectors (reducedD6 svd) 12 [1, 1, 1, 1, 2, 2] (siteNumbers cR) (siteNumbers cS)) :=
  ⟨fun hd => dihedral_sectors (fun _ _ a b c => C103_D2_partial hsvd a b c)
    (spins_ready F h hb hρ hτ iρ iτ hR hS hd),
  fun hd => dihedral_sectors (fun _ _ a b c => C103_D3_partial hsvd a b c)
    (spins_ready F h hb hρ hτ iρ iτ hR hS hd),
  fun hd => dihedral_sectors (fun _ _ a b c => C103_D4_partial hsvd a b c)
    (spins_ready F h hb hρ hτ iρ iτ hR hS hd),
  fun hd => dihedral_sectors (fun _ _ a b c => C103_D5_partial hsvd a b c)
    (spins_ready F h hb hρ hτ iρ iτ hR hS hd),
  fun hd => dihedral_sectors (fun _ _ a b c => C103_D6_partial hsvd a b c)
    (spins_ready F h hb hρ hτ iρ iτ hR hS hd)⟩

/-- C104 for spins 1/2 on a periodic 3x3 lattice. -/
theorem C104_spins_torus {svd : Svd} (hsvd : svd.Correct) (F : Spins) (h : F.twoS = 1) (hb : SpinBonds F)
    {ρ τ ξ υ : Equiv.Perm (Fin F.nsites)} (hρ : ρ ≠ 1) (hτ : τ ≠ 1) (hξ : ξ ≠ 1) (hυ : υ ≠ 1)
    (iρ : SpinInvariant F ρ) (iτ : SpinInvariant F τ) (iξ : SpinInvariant F ξ) (iυ : SpinInvariant F υ)
    {cR cS cX cY : List (List (Fin F.nsites))} (hR : CyclesOf cR ρ) (hS : CyclesOf cS τ) (hX : CyclesOf cX ξ)
    (hY : CyclesOf cY υ) (hd : Torus3 ρ τ ξ υ) :
    TorusSectors (2 ^ F.nsites) (getXformOp 1 (spinSwapOp ⟨F.nsites, 1, 2⟩)) (F.createH none) getC4VAnd3by3 (reducedTorus svd)
      72 [1, 1, 1, 1, 2, 4, 4, 4, 4] (siteNumbers cR) (siteNumbers cS) (siteNumbers cX) (siteNumbers cY) := by
  obtain ⟨MH, hH, -⟩ := spin_ham F h
  obtain ⟨MR, R, r1, r2, r3, r4, r5⟩ := spin_op F h hb hρ iρ hR hH
  obtain ⟨MS, S, s1, s2, s3, s4, s5⟩ := spin_op F h hb hτ iτ hS hH
  obtain ⟨MX, X, x1, x2, x3, x4, x5⟩ := spin_op F h hb hξ iξ hX hH
  obtain ⟨MY, Y, y1, y2, y3, y4, y5⟩ := spin_op F h hb hυ iυ hY hH
  exact torus_sectors (Rel := Torus3) (fun _ _ _ _ a b c d e => C103_torus_partial hsvd a b c d e)
    ⟨MR, MS, MX, MY, MH, r1, s1, x1, y1, hH, torus_asMatrix r2 s2 x2 y2 ((faithful_spins F.nsites).torus r3 s3 x3 y3 hd),
      ⟨r4, r5⟩, ⟨s4, s5⟩, ⟨x4, x5⟩, ⟨y4, y5⟩⟩

/-- C104 for spins 1/2 on a periodic 3x3 lattice, rotating clockwise. -/
theorem C104_spins_torus_clockwise {svd : Svd} (hsvd : svd.Correct) (F : Spins) (h : F.twoS = 1) (hb : SpinBonds F)
    {ρ τ ξ υ : Equiv.Perm (Fin F.nsites)} (hρ : ρ ≠ 1) (hτ : τ ≠ 1) (hξ : ξ ≠ 1) (hυ : υ ≠ 1)
    (iρ : SpinInvariant F ρ) (iτ : SpinInvariant F τ) (iξ : SpinInvariant F ξ) (iυ : SpinInvariant F υ)
    {cR cS cX cY : List (List (Fin F.nsites))} (hR : CyclesOf cR ρ) (hS : CyclesOf cS τ) (hX : CyclesOf cX ξ)
    (hY : CyclesOf cY υ) (hd : Torus3cw ρ τ ξ υ) :
    TorusSectors (2 ^ F.nsites) (getXformOp 1 (spinSwapOp ⟨F.nsites, 1, 2⟩)) (F.createH none) getC4VAnd3by3 (reducedTorus svd)
      72 [1, 1, 1, 1, 2, 4, 4, 4, 4] (siteNumbers cR) (siteNumbers cS) (siteNumbers cX) (siteNumbers cY) := by
  obtain ⟨MH, hH, -⟩ := spin_ham F h
  obtain ⟨MR, R, r1, r2, r3, r4, r5⟩ := spin_op F h hb hρ iρ hR hH
  obtain ⟨MS, S, s1, s2, s3, s4, s5⟩ := spin_op F h hb hτ iτ hS hH
  obtain ⟨MX, X, x1, x2, x3, x4, x5⟩ := spin_op F h hb hξ iξ hX hH
  obtain ⟨MY, Y, y1, y2, y3, y4, y5⟩ := spin_op F h hb hυ iυ hY hH
  exact torus_sectors (Rel := Torus3cw) (fun _ _ _ _ a b c d e => C103_torus_clockwise_partial hsvd a b c d e)
    ⟨MR, MS, MX, MY, MH, r1, s1, x1, y1, hH, torus_cw_asMatrix r2 s2 x2 y2 ((faithful_spins F.nsites).torus_cw r3 s3 x3 y3 hd),
      ⟨r4, r5⟩, ⟨s4, s5⟩, ⟨x4, x5⟩, ⟨y4, y5⟩⟩

/-! ## Instances -/

/-- The Hubbard model on a square. Sites 0, 1, 2, 3 are the corners, in this order around the square. -/
private noncomputable def square (t u mu : ℝ) : Fermions :=
  ⟨4, 2, fun i j _ => if (i + 1) % 4 = j ∨ (j + 1) % 4 = i then (t : ℂ) else 0, fun _ => u, fun _ _ _ => 0, fun _ => mu,
    fun _ _ => 0, fun i j => (if j = 1 ∨ j = 2 then 1 else 0) - (if i = 1 ∨ i = 2 then 1 else 0),
    fun i j => (if j = 2 ∨ j = 3 then 1 else 0) - (if i = 2 ∨ i = 3 then 1 else 0)⟩

/-- Neighbours on the square. -/
private def adj (i j : Fin 4) : Prop := ((i : ℕ) + 1) % 4 = j ∨ ((j : ℕ) + 1) % 4 = i

private instance (i j : Fin 4) : Decidable (adj i j) := inferInstanceAs (Decidable (_ ∨ _))

private theorem square_hop (t u mu : ℝ) (i j : Fin 4) (s : ℕ) :
    (square t u mu).ts i j s * ((|(square t u mu).xdist i j| + |(square t u mu).ydist i j| : ℝ) : ℂ) =
      if adj i j then (t : ℂ) else 0 := by
  fin_cases i <;> fin_cases j <;> simp [square, adj]

private theorem square_invariant (t u mu : ℝ) (π : Equiv.Perm (Fin 4)) (h : ∀ i j : Fin 4, adj (π i) (π j) ↔ adj i j) :
    FermionInvariant (square t u mu) π :=
  ⟨fun i j s => by
      change Fin 4 at i j
      exact (square_hop t u mu (π i) (π j) s).trans ((if_congr (h i j) rfl rfl).trans (square_hop t u mu i j s).symm),
    fun _ _ _ => rfl, fun _ => rfl, fun _ _ => rfl⟩

/-- The Hubbard model on a square, rotated by `[[0, 1, 2, 3]]` and reflected by `[[0, 3], [1, 2]]`. -/
example (t u mu : ℝ) : ∃ svd : Svd, svd.Correct ∧ DihedralSectors (2 ^ (4 * 2)) (getXformOp 2 (fermionSwapOp ⟨4, 2, 2⟩))
    ((square t u mu).createH none) getD4Projectors (reducedD4 svd) 8 [1, 1, 1, 1, 2] [[0, 1, 2, 3]] [[0, 3], [1, 2]] := by
  obtain ⟨svd, hsvd⟩ := svd_exists
  refine ⟨svd, hsvd, ?_⟩
  have hb : FermionBonds (square t u mu) :=
    ⟨fun i j s => by
      change Fin 4 at i j
      exact (square_hop t u mu i j s).trans
        ((if_congr or_comm rfl rfl).trans (square_hop t u mu j i s).symm), fun _ _ _ => rfl⟩
  have key := (C104_fermions hsvd (square t u mu) (Or.inl le_rfl) (by simp [square]) hb
    (ρ := (finRotate 4 : Equiv.Perm (Fin 4))) (τ := (Fin.revPerm : Equiv.Perm (Fin 4)))
    (show (finRotate 4 : Equiv.Perm (Fin 4)) ≠ 1 by decide) (show (Fin.revPerm : Equiv.Perm (Fin 4)) ≠ 1 by decide)
    (square_invariant t u mu _ (by decide)) (square_invariant t u mu _ (by decide))
    (cR := ([[0, 1, 2, 3]] : List (List (Fin 4)))) (cS := ([[0, 3], [1, 2]] : List (List (Fin 4))))
    (show CyclesOf ([[0, 1, 2, 3]] : List (List (Fin 4))) (finRotate 4) from ⟨by decide, by decide, by decide⟩)
    (show CyclesOf ([[0, 3], [1, 2]] : List (List (Fin 4))) Fin.revPerm from ⟨by decide, by decide, by decide⟩)).2.2.1
    (show Dihedral 4 (finRotate 4 : Equiv.Perm (Fin 4)) Fin.revPerm from ⟨by decide, by decide, by decide⟩)
  exact key

/-- The Heisenberg model on a triangle in a field. -/
example (j b : ℂ) : ∃ svd : Svd, svd.Correct ∧ DihedralSectors (2 ^ 3) (getXformOp 1 (spinSwapOp ⟨3, 1, 2⟩))
    ((⟨3, 1, fun a b => if a = b then 0 else j, fun a b => if a = b then 0 else j, fun a b => if a = b then 0 else j,
      fun _ => 0, fun _ => 0, fun _ => b⟩ : Spins).createH none)
    getD3Projectors (reducedD3 svd) 6 [1, 1, 2] [[0, 1, 2]] [[0, 2]] := by
  obtain ⟨svd, hsvd⟩ := svd_exists
  refine ⟨svd, hsvd, ?_⟩
  have hi : ∀ (π : Equiv.Perm (Fin 3)) (x y : Fin 3), (if (π x : ℕ) = π y then 0 else j) = if (x : ℕ) = y then 0 else j := by
    intro π x y
    simp only [← Fin.ext_iff, EmbeddingLike.apply_eq_iff_eq]
  have hinv : ∀ π : Equiv.Perm (Fin 3), SpinInvariant (⟨3, 1, fun a b => if a = b then 0 else j,
      fun a b => if a = b then 0 else j, fun a b => if a = b then 0 else j, fun _ => 0, fun _ => 0, fun _ => b⟩ : Spins) π :=
    fun π => ⟨hi π, hi π, hi π, fun _ => rfl, fun _ => rfl, fun _ => rfl⟩
  exact (C104_spins hsvd (⟨3, 1, fun a b => if a = b then 0 else j, fun a b => if a = b then 0 else j,
      fun a b => if a = b then 0 else j, fun _ => 0, fun _ => 0, fun _ => b⟩ : Spins) rfl
    ⟨fun a b => by simp only [eq_comm], fun a b => by simp only [eq_comm], fun a b => by simp only [eq_comm]⟩
    (ρ := (finRotate 3 : Equiv.Perm (Fin 3))) (τ := (Fin.revPerm : Equiv.Perm (Fin 3)))
    (show (finRotate 3 : Equiv.Perm (Fin 3)) ≠ 1 by decide) (show (Fin.revPerm : Equiv.Perm (Fin 3)) ≠ 1 by decide)
    (hinv _) (hinv _)
    (cR := ([[0, 1, 2]] : List (List (Fin 3)))) (cS := ([[0, 2]] : List (List (Fin 3))))
    (show CyclesOf ([[0, 1, 2]] : List (List (Fin 3))) (finRotate 3) from ⟨by decide, by decide, by decide⟩)
    (show CyclesOf ([[0, 2]] : List (List (Fin 3))) Fin.revPerm from ⟨by decide, by decide, by decide⟩)).2.1
    (show Dihedral 3 (finRotate 3 : Equiv.Perm (Fin 3)) Fin.revPerm from ⟨by decide, by decide, by decide⟩)

/-! The sites of the 3x3 torus, numbered `3 x + y`. -/

private def tRot : Equiv.Perm (Fin 9) := ⟨![0, 3, 6, 2, 5, 8, 1, 4, 7], ![0, 6, 3, 1, 7, 4, 2, 8, 5], by decide, by decide⟩

private def tRef : Equiv.Perm (Fin 9) := ⟨![0, 1, 2, 6, 7, 8, 3, 4, 5], ![0, 1, 2, 6, 7, 8, 3, 4, 5], by decide, by decide⟩

private def tX : Equiv.Perm (Fin 9) := ⟨![3, 4, 5, 6, 7, 8, 0, 1, 2], ![6, 7, 8, 0, 1, 2, 3, 4, 5], by decide, by decide⟩

private def tY : Equiv.Perm (Fin 9) := ⟨![1, 2, 0, 4, 5, 3, 7, 8, 6], ![2, 0, 1, 5, 3, 4, 8, 6, 7], by decide, by decide⟩

/-- Neighbours on the torus: sites in the same row or column. -/
private def tAdj (i j : ℕ) : Bool := (i / 3 == j / 3 || i % 3 == j % 3) && i != j

private noncomputable def torusSpins (j b : ℂ) : Spins :=
  ⟨9, 1, fun x y => if tAdj x y then j else 0, fun x y => if tAdj x y then j else 0, fun x y => if tAdj x y then j else 0,
    fun _ => 0, fun _ => 0, fun _ => b⟩

private theorem torusSpins_invariant (j b : ℂ) (π : Equiv.Perm (Fin 9)) (h : ∀ x y : Fin 9, tAdj (π x) (π y) = tAdj x y) :
    SpinInvariant (torusSpins j b) π := by
  have hi : ∀ x y : Fin 9, (if tAdj (π x) (π y) then j else 0) = if tAdj x y then j else 0 := fun x y => by rw [h]
  exact ⟨hi, hi, hi, fun _ => rfl, fun _ => rfl, fun _ => rfl⟩

private theorem torusSpins_bonds (j b : ℂ) : SpinBonds (torusSpins j b) := by
  have e : ∀ x y : Fin 9, tAdj x y = tAdj y x := by decide
  have hi : ∀ x y : Fin 9, (if tAdj x y then j else 0) = if tAdj y x then j else 0 := fun x y => by rw [e]
  exact ⟨hi, hi, hi⟩

private theorem cRot : CyclesOf ([[1, 3, 2, 6], [4, 5, 8, 7]] : List (List (Fin 9))) tRot := ⟨by decide, by decide, by decide⟩

private theorem cRotInv : CyclesOf ([[1, 6, 2, 3], [4, 7, 8, 5]] : List (List (Fin 9))) tRot⁻¹ :=
  ⟨by decide, by decide, by decide⟩

private theorem cRef : CyclesOf ([[3, 6], [4, 7], [5, 8]] : List (List (Fin 9))) tRef := ⟨by decide, by decide, by decide⟩

private theorem cX : CyclesOf ([[0, 3, 6], [1, 4, 7], [2, 5, 8]] : List (List (Fin 9))) tX := ⟨by decide, by decide, by decide⟩

private theorem cY : CyclesOf ([[0, 1, 2], [3, 4, 5], [6, 7, 8]] : List (List (Fin 9))) tY := ⟨by decide, by decide, by decide⟩

/-- The Heisenberg model on the 3x3 torus. -/
example (j b : ℂ) : ∃ svd : Svd, svd.Correct ∧ TorusSectors (2 ^ 9) (getXformOp 1 (spinSwapOp ⟨9, 1, 2⟩))
    ((torusSpins j b).createH none) getC4VAnd3by3 (reducedTorus svd) 72 [1, 1, 1, 1, 2, 4, 4, 4, 4]
    [[1, 6, 2, 3], [4, 7, 8, 5]] [[3, 6], [4, 7], [5, 8]] [[0, 3, 6], [1, 4, 7], [2, 5, 8]]
    [[0, 1, 2], [3, 4, 5], [6, 7, 8]] := by
  obtain ⟨svd, hsvd⟩ := svd_exists
  exact ⟨svd, hsvd, C104_spins_torus hsvd (torusSpins j b) rfl (torusSpins_bonds j b)
    (show tRot⁻¹ ≠ 1 by decide) (show tRef ≠ 1 by decide) (show tX ≠ 1 by decide) (show tY ≠ 1 by decide)
    (torusSpins_invariant j b _ (by decide)) (torusSpins_invariant j b _ (by decide))
    (torusSpins_invariant j b _ (by decide)) (torusSpins_invariant j b _ (by decide)) cRotInv cRef cX cY
    (show Torus3 tRot⁻¹ tRef tX tY from
      ⟨⟨by decide, by decide, by decide⟩, by decide, by decide, by decide, by decide, by decide, by decide, by decide⟩)⟩

example (j b : ℂ) : ∃ svd : Svd, svd.Correct ∧ TorusSectors (2 ^ 9) (getXformOp 1 (spinSwapOp ⟨9, 1, 2⟩))
    ((torusSpins j b).createH none) getC4VAnd3by3 (reducedTorus svd) 72 [1, 1, 1, 1, 2, 4, 4, 4, 4]
    [[1, 3, 2, 6], [4, 5, 8, 7]] [[3, 6], [4, 7], [5, 8]] [[0, 3, 6], [1, 4, 7], [2, 5, 8]]
    [[0, 1, 2], [3, 4, 5], [6, 7, 8]] := by
  obtain ⟨svd, hsvd⟩ := svd_exists
  exact ⟨svd, hsvd, C104_spins_torus_clockwise hsvd (torusSpins j b) rfl (torusSpins_bonds j b)
    (show tRot ≠ 1 by decide) (show tRef ≠ 1 by decide) (show tX ≠ 1 by decide) (show tY ≠ 1 by decide)
    (torusSpins_invariant j b _ (by decide)) (torusSpins_invariant j b _ (by decide))
    (torusSpins_invariant j b _ (by decide)) (torusSpins_invariant j b _ (by decide)) cRot cRef cX cY
    (show Torus3cw tRot tRef tX tY from
      ⟨⟨by decide, by decide, by decide⟩, by decide, by decide, by decide, by decide, by decide, by decide, by decide⟩)⟩

end ED.Props
