import Verif.Model.FermionConsts
import Mathlib.Data.Real.Sqrt

/-! # Model of `exact_diag/ed_fermions.py`: operators and Hamiltonian -/

namespace ED

/-- `fermions.get_swap_op`, ed_fermions.py 464-478. -/
def fermionSwapOp (S : Sys) (site1 site2 species : ℕ) : Res Mat := do
  let a ← getTwoSiteOp S site1 species site2 species cdagOp cOp "fermion"
  let b ← getTwoSiteOp S site2 species site1 species cdagOp cOp "fermion"
  let ab ← a.add b
  let abc ← ab.add (Mat.eye S.nstates)
  let n1 ← getSingleSiteOp S site1 species nOp "boson"
  let abcd ← abc.sub n1
  let n2 ← getSingleSiteOp S site2 species nOp "boson"
  abcd.sub n2

/-- The attributes of a `fermions` instance that the Hamiltonian reads, after the constructor has
broadcast the parameters (ed_fermions.py 68-136): hopping `ts[i,j,s]`, inter-species interaction
`us_interspecies[i]`, same-species interaction `us_same_species[i,j,s]`, `mus[s]`,
`potentials[i,s]`, and `geometry.xdist_mat`, `geometry.ydist_mat`. -/
structure Fermions where
  nsites : ℕ
  nspecies : ℕ
  ts : ℕ → ℕ → ℕ → ℂ
  us : ℕ → ℂ
  usSame : ℕ → ℕ → ℕ → ℂ
  mus : ℕ → ℂ
  pots : ℕ → ℕ → ℂ
  xdist : ℕ → ℕ → ℝ
  ydist : ℕ → ℕ → ℝ

/-- The `ed_base` part of a fermion model; `nbasis = 2` (ed_fermions.py 10). -/
abbrev Fermions.sys (F : Fermions) : Sys := ⟨F.nsites, F.nspecies, 2⟩

/-- `z * projector * op * projector.conj().transpose()`, evaluated left to right. -/
def sandwich (z : ℂ) (P op : Mat) : Res Mat := do
  let a ← (P.smul z).mul op
  a.mul P.dagger

open Classical in
/-- `get_kinetic_op`, ed_fermions.py 302-349. -/
noncomputable def Fermions.kineticOp (F : Fermions) (P : Mat) (dx dy : ℝ) : Res Mat :=
  let sep : ℕ → ℕ → ℝ := fun i j =>
    Real.sqrt ((dx * F.xdist i j) ^ 2 + (dy * F.ydist i j) ^ 2)
  if F.nsites > 1 then
    (List.range F.nsites).foldlM (fun acc ii =>
      (List.range F.nsites).foldlM (fun acc jj =>
        if ii > jj then
          (List.range F.nspecies).foldlM (fun acc kk =>
            if F.ts ii jj kk ≠ 0 then do
              let a ← getTwoSiteOp F.sys ii kk jj kk cdagOp cOp "fermion"
              let a' ← sandwich (-1) P a
              let b ← getTwoSiteOp F.sys jj kk ii kk cdagOp cOp "fermion"
              let b' ← sandwich 1 P b
              let c ← a'.sub b'
              acc.add (c.smul (F.ts ii jj kk * (sep ii jj : ℂ)))
            else pure acc) acc
        else pure acc) acc) (Mat.zero P.rows P.rows)
  else pure (Mat.zero P.rows P.rows)

open Classical in
/-- `get_u_interspecies_op`, ed_fermions.py 351-379. -/
noncomputable def Fermions.uInterOp (F : Fermions) (P : Mat) : Res Mat :=
  (List.range F.nsites).foldlM (fun acc ii =>
    if F.us ii ≠ 0 then do
      let a ← getTwoSiteOp F.sys ii 0 ii 1 nOp nOp "boson"
      let a' ← sandwich (F.us ii) P a
      acc.add a'
    else pure acc) (Mat.zero P.rows P.rows)

open Classical in
/-- `get_u_samespecies_op`, ed_fermions.py 381-408. -/
noncomputable def Fermions.uSameOp (F : Fermions) (P : Mat) : Res Mat :=
  (List.range F.nsites).foldlM (fun acc ii =>
    (List.range F.nsites).foldlM (fun acc jj =>
      if ii ≥ jj then
        (List.range F.nspecies).foldlM (fun acc kk =>
          if F.usSame ii jj kk ≠ 0 then do
            let a ← getTwoSiteOp F.sys ii kk jj kk nOp nOp "boson"
            let a' ← sandwich (F.usSame ii jj kk) P a
            acc.add a'
          else pure acc) acc
      else pure acc) acc) (Mat.zero P.rows P.rows)

open Classical in
/-- `get_potential_op`, ed_fermions.py 410-431. -/
noncomputable def Fermions.potentialOp (F : Fermions) (P : Mat) : Res Mat :=
  (List.range F.nsites).foldlM (fun acc ii =>
    (List.range F.nspecies).foldlM (fun acc kk =>
      if F.pots ii kk ≠ 0 then do
        let a ← getSingleSiteOp F.sys ii kk nOp "boson"
        let a' ← sandwich (F.pots ii kk) P a
        acc.add a'
      else pure acc) acc) (Mat.zero P.rows P.rows)

open Classical in
/-- `get_chemical_pot_op`, ed_fermions.py 433-458. -/
noncomputable def Fermions.chemOp (F : Fermions) (P : Mat) : Res Mat :=
  (List.range F.nsites).foldlM (fun acc ii =>
    (List.range F.nspecies).foldlM (fun acc jj =>
      if F.mus jj ≠ 0 then do
        let a ← getSingleSiteOp F.sys ii jj nOp "boson"
        let a' ← sandwich (F.mus jj) P a
        acc.sub a'
      else pure acc) acc) (Mat.zero P.rows P.rows)

/-- `createH`, ed_fermions.py 268-300. `none` stands for `projector=None` (lines 283-284). -/
noncomputable def Fermions.createH (F : Fermions) (projector : Option Mat) : Res Mat := do
  let P := projector.getD (Mat.eye F.sys.nstates)
  let h0 := Mat.zero P.rows P.rows
  let u ← F.uInterOp P
  let h1 ← h0.add u
  let us ← F.uSameOp P
  let h2 ← h1.add us
  let kx ← F.kineticOp P 1 0
  let h3 ← h2.add kx
  let ky ← F.kineticOp P 0 1
  let h4 ← h3.add ky
  let mu ← F.chemOp P
  let h5 ← h4.add mu
  let v ← F.potentialOp P
  h5.add v

/-- `get_state_vects` of a fermion model without projector, ed_fermions.py 178-223 (the text labels
are not modelled). -/
def Fermions.stateVects (F : Fermions) : Mat :=
  ⟨F.sys.nstates, F.nsites * F.nspecies, fun r i => 1 - (labelColumn (F.nsites * F.nspecies) i).e r 0⟩

/-- The number projector built by the constructor, ed_fermions.py 139-176. `ns` has one entry per
species; `none` leaves that species unconstrained (`np.array(1).dot(running)` is `running`). -/
noncomputable def Fermions.nProjector (F : Fermions) (ns : Option (List (Option ℤ))) : Res Mat :=
  match ns with
  | none => pure (Mat.eye F.sys.nstates)
  | some ns =>
    if ns.length ≠ F.nspecies then .error .generic
    else (List.range F.nspecies).foldlM (fun running ii =>
      match (ns[ii]?.join : Option ℤ) with
      | none => pure running
      | some v => do
        let nOpSp ← getSumOp F.sys nOp ii "boson"
        let a ← nOpSp.mul running.dagger
        let d ← running.mul a
        let p := (getSubspaceProjs d (some [((v : ℤ) : ℂ)])).1
        (p.getD 0 (Mat.zero 0 0)).mul running) (Mat.eye F.sys.nstates)

end ED
