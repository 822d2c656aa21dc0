import Verif.Model.Base
import Mathlib.Data.Real.Sqrt

/-! # Model of `exact_diag/ed_spins.py` -/

namespace ED

/-- `spinSystem.get_swap_op`, ed_spins.py 463-478. -/
noncomputable def spinSwapOp (S : Sys) (site1 site2 species : ℕ) : Res Mat := do
  let a ← getTwoSiteOp S site1 species site2 species pauliPlus pauliMinus "boson"
  let b ← getTwoSiteOp S site1 species site2 species pauliMinus pauliPlus "boson"
  let ab ← a.add b
  let abc ← ab.add ((Mat.eye S.nstates).smul (1 / 2))
  let z ← getTwoSiteOp S site1 species site2 species pauliZ pauliZ "boson"
  abc.add (z.smul (1 / 2))

/-- `get_state_vects` of a spin model, ed_spins.py 180-208. The code uses the number of sites where
the base class would use the number of modes; spin models have one species. -/
def spinStateVects (nsites : ℕ) : Mat :=
  ⟨2 ^ nsites, nsites, fun r i => (labelColumn nsites i).e r 0⟩

/-! ## Spin matrices. The argument `twoS` is twice the spin, a natural number. -/

/-- `sp.diags(vals, -1)` for `n` values: an `(n+1) × (n+1)` matrix with `vals` below the diagonal. -/
noncomputable def diagsBelow (n : ℕ) (vals : ℕ → ℝ) : Mat :=
  ⟨n + 1, n + 1, fun i j => if i = j + 1 then (vals j : ℂ) else 0⟩

/-- `sp.diags(vals, 1)` for `n` values: an `(n+1) × (n+1)` matrix with `vals` above the diagonal. -/
noncomputable def diagsAbove (n : ℕ) (vals : ℕ → ℝ) : Mat :=
  ⟨n + 1, n + 1, fun i j => if j = i + 1 then (vals i : ℂ) else 0⟩

/-- `get_splus`, ed_spins.py 77-85: `ms = np.arange(spin - 1, -spin - 1, -1)` has `2*spin` entries. -/
noncomputable def getSplus (twoS : ℕ) : Mat :=
  let spin : ℝ := twoS / 2
  let ms : ℕ → ℝ := fun k => spin - 1 - k
  diagsBelow twoS fun k => Real.sqrt ((spin - ms k) * (spin + ms k + 1))

/-- `get_sminus`, ed_spins.py 88-96: `ms = np.arange(spin, -spin, -1)` has `2*spin` entries. -/
noncomputable def getSminus (twoS : ℕ) : Mat :=
  let spin : ℝ := twoS / 2
  let ms : ℕ → ℝ := fun k => spin - k
  diagsAbove twoS fun k => Real.sqrt ((spin + ms k) * (spin - ms k + 1))

/-- `get_sx`, ed_spins.py 98-106. -/
noncomputable def getSx (twoS : ℕ) : Res Mat := do
  let a ← (getSplus twoS).add (getSminus twoS)
  pure (a.smul (1 / 2))

/-- `get_sy`, ed_spins.py 108-116. -/
noncomputable def getSy (twoS : ℕ) : Res Mat := do
  let a ← (getSplus twoS).sub (getSminus twoS)
  pure ((a.smul (1 / 2)).smul (1 / Complex.I))

/-- `get_sz`, ed_spins.py 118-126: `np.arange(spin, -spin - 1, -1)` has `2*spin + 1` entries. -/
noncomputable def getSz (twoS : ℕ) : Mat :=
  ⟨twoS + 1, twoS + 1, fun i j => if i = j then (((twoS : ℝ) / 2 - i : ℝ) : ℂ) else 0⟩

/-! ## The Hamiltonian -/

/-- Attributes of a `spinSystem` read by `createH` after the constructor has expanded the
parameters (ed_spins.py 56-74): coupling matrices and fields. -/
structure Spins where
  nsites : ℕ
  twoS : ℕ
  jx : ℕ → ℕ → ℂ
  jy : ℕ → ℕ → ℂ
  jz : ℕ → ℕ → ℂ
  hx : ℕ → ℂ
  hy : ℕ → ℂ
  hz : ℕ → ℂ

/-- The base-class part: one species, `nbasis = int(2 * spin + 1)` (ed_spins.py 56). -/
abbrev Spins.sys (F : Spins) : Sys := ⟨F.nsites, 1, F.twoS + 1⟩

/-- `coef * projector * op * projector.conj().transpose()`, evaluated left to right
(ed_spins.py 281-288, 305-317). -/
def spinSandwich (z : ℂ) (P op : Mat) : Res Mat := do
  let a ← (P.smul z).mul op
  a.mul P.dagger

open Classical in
/-- One field term, ed_spins.py 278-288. -/
noncomputable def Spins.fieldTerm (F : Spins) (P : Mat) (h : ℂ) (op : Res Mat) (ii : ℕ)
    (acc : Mat) : Res Mat :=
  if h ≠ 0 then do
    let o ← op
    let a ← getSingleSiteOp F.sys ii 0 o "boson"
    let b ← spinSandwich h P a
    acc.sub b
  else pure acc

open Classical in
/-- One coupling term, ed_spins.py 301-317. -/
noncomputable def Spins.pairTerm (F : Spins) (P : Mat) (j : ℂ) (op : Res Mat) (ii jj : ℕ)
    (acc : Mat) : Res Mat :=
  if j ≠ 0 then do
    let o ← op
    let a ← getTwoSiteOp F.sys ii 0 jj 0 o o "boson"
    let b ← spinSandwich (2 * j) P a
    acc.add b
  else pure acc

/-- `createH`, ed_spins.py 251-323. -/
noncomputable def Spins.createH (F : Spins) (projector : Option Mat) : Res Mat := do
  let P := projector.getD (Mat.eye (F.sys.nbasis ^ F.nsites))
  let h1 ← (List.range F.nsites).foldlM (fun acc ii => do
    let a ← F.fieldTerm P (F.hx ii) (getSx F.twoS) ii acc
    let b ← F.fieldTerm P (F.hy ii) (getSy F.twoS) ii a
    F.fieldTerm P (F.hz ii) (pure (getSz F.twoS)) ii b) (Mat.zero P.rows P.rows)
  if F.nsites > 1 then
    (List.range F.nsites).foldlM (fun acc ii =>
      (List.range F.nsites).foldlM (fun acc jj =>
        if ii > jj then do
          let a ← F.pairTerm P (F.jx ii jj) (getSx F.twoS) ii jj acc
          let b ← F.pairTerm P (F.jy ii jj) (getSy F.twoS) ii jj a
          F.pairTerm P (F.jz ii jj) (pure (getSz F.twoS)) ii jj b
        else pure acc) acc) h1
  else pure h1

/-! ## Rydberg detunings, special states and further operators -/

open Classical in
/-- `get_rydberg_detunes`, ed_spins.py 231-249. -/
noncomputable def rydbergDetunes (nsites : ℕ) (js : ℕ → ℕ → ℂ) : ℕ → ℂ :=
  let d : ℕ → ℂ := fun ii => -2 * (1 / 2 * ∑ jj ∈ Finset.range nsites, js ii jj)
  if ¬ ∃ ii < nsites, (d ii).im > 10 ^ (-14 : ℤ) then fun ii => ((d ii).re : ℂ) else d

/-- The constructor's treatment of `use_ryd_detunes`, ed_spins.py 72-74. -/
noncomputable def Spins.withRydDetunes (F : Spins) : Spins :=
  { F with hz := fun ii => F.hz ii + rydbergDetunes F.nsites F.jz ii }

/-- The forms in which a coupling can be given to the constructor: a Python number, a square numpy
array, a numpy array of another shape. -/
inductive JArg
  | scalar (j : ℝ)
  | square (n : ℕ) (j : ℕ → ℕ → ℂ)
  | otherArray
  | otherType

/-- `get_interaction_mat`, ed_spins.py 143-165. The branch for arrays with `nsites` entries raises
in `np.diag(j[-1], -1)` (a zero-dimensional argument), so every array that is not `nsites × nsites`
ends in an exception. -/
noncomputable def interactionMat (nsites : ℕ) (adj phase : ℕ → ℕ → ℂ) : JArg → Res (ℕ → ℕ → ℂ)
  | .scalar j => .ok fun a b => j * adj a b * phase a b
  | .square n j => if n = nsites then .ok j else .error .generic
  | .otherArray => .error .generic
  | .otherType => .error .generic

/-- The forms in which a field can be given to the constructor. -/
inductive HArg
  | scalar (h : ℝ)
  | array (size : ℕ) (h : ℕ → ℂ)
  | otherType

/-- `get_field_mat`, ed_spins.py 167-178 (arrays are one-dimensional). -/
noncomputable def fieldMat (nsites : ℕ) : HArg → Res (ℕ → ℂ)
  | .scalar h => .ok fun _ => h
  | .array size h => if size ≠ nsites then .error .value else .ok h
  | .otherType => .error .value

/-- The constructor, ed_spins.py 21-74, for spin `twoS / 2`. -/
noncomputable def Spins.init (nsites twoS : ℕ) (adj phase : ℕ → ℕ → ℂ) (jx jy jz : JArg)
    (hx hy hz : HArg) (useRydDetunes : Bool) : Res Spins := do
  let jx ← interactionMat nsites adj phase jx
  let jy ← interactionMat nsites adj phase jy
  let jz ← interactionMat nsites adj phase jz
  let hx ← fieldMat nsites hx
  let hy ← fieldMat nsites hy
  let hz ← fieldMat nsites hz
  let F : Spins := ⟨nsites, twoS, jx, jy, jz, hx, hy, hz⟩
  pure (if useRydDetunes then F.withRydDetunes else F)

/-- `get_allsite_op`, ed_spins.py 428-440. -/
def allsiteOp (nsites : ℕ) (op : Mat) : Mat :=
  (List.range nsites).foldl (fun m _ => m.kron op) (Mat.eye 1)

/-- `get_swap_up_down_op`, ed_spins.py 453-461: column `k` has its single one in row
`nstates - 1 - k`. -/
def swapUpDownOp (nstates : ℕ) : Mat :=
  ⟨nstates, nstates, fun i j => if i = nstates - 1 - j then 1 else 0⟩

/-- A column with a single one in row `r`, `sp.csr_matrix(([1], ([r], [0])), shape=(n, 1))`;
a row index outside the shape is rejected. -/
def unitColumn (n : ℕ) (r : ℕ) : Res Mat :=
  if r < n then .ok ⟨n, 1, fun i _ => if i = r then 1 else 0⟩ else .error .value

/-- The states returned by `find_special_states`, ed_spins.py 346-404, in order: AllUp, AllDn, AFM1,
AFM2, AllPlus, AllMinus, SymmExc. The divisions by three on lines 375 and 378 are exact. -/
structure SpecialStates where
  allUp : Mat
  allDn : Mat
  afm1 : Mat
  afm2 : Mat
  allPlus : Mat
  allMinus : Mat
  symmExc : Mat

/-- Index of the first antiferromagnetic state, ed_spins.py 370-385. -/
def afm1Ind (nsites xsites : ℕ) (l2r : Bool) : ℕ :=
  if (xsites % 2 ≠ 0 ∨ l2r = false) ∧ nsites > 1 then
    if nsites % 2 ≠ 0 then (1 + 2 ^ nsites) / 3 - 1 else (2 + 2 ^ nsites) / 3 - 1
  else 0

/-- Index of the second antiferromagnetic state, ed_spins.py 379, 385. -/
def afm2Ind (nsites xsites : ℕ) (l2r : Bool) : ℕ :=
  if (xsites % 2 ≠ 0 ∨ l2r = false) ∧ nsites > 1 then 2 ^ nsites - afm1Ind nsites xsites l2r
  else 2 ^ nsites - 1

/-- `find_special_states`, ed_spins.py 346-404. -/
noncomputable def findSpecialStates (nsites xsites : ℕ) (l2r : Bool) : Res SpecialStates := do
  let n := 2 ^ nsites
  let up ← unitColumn n 0
  let dn ← unitColumn n (n - 1)
  let a1 ← unitColumn n (afm1Ind nsites xsites l2r)
  let a2 ← unitColumn n (afm2Ind nsites xsites l2r)
  let plus : Mat := ⟨n, 1, fun _ _ => ((1 / Real.sqrt (n : ℝ) : ℝ) : ℂ)⟩
  let minus ← (allsiteOp nsites pauliZ).mul plus
  let exc : Mat := ⟨n, 1, fun i _ =>
    if ∃ k < nsites, i = 2 ^ nsites - 2 ^ k - 1 then ((1 / Real.sqrt (nsites : ℝ) : ℝ) : ℂ) else 0⟩
  pure ⟨up, dn, a1, a2, plus, minus, exc⟩

/-- `nr`, ed_spins.py 16. -/
def nrOp : Mat := Mat.lit2 1 0 0 0

/-- `get_npairs_op`, ed_spins.py 409-426. The pairs are those of a mesh grid with column index `x`
larger than row index `y`, read row by row: `(x, y) = (1,0), (2,0), …, (2,1), …`; `conn` is the list
`corr_sites_conn` of their connection flags. -/
noncomputable def npairsOp (nsites : ℕ) (conn : List ℤ) : Res Val :=
  let pairs := (List.range nsites).flatMap fun y =>
    (List.range nsites).filterMap fun x => if x > y then some (x, y) else none
  if conn.length ≠ pairs.length then .error .index
  else ((pairs.zip conn).filter fun p => p.2 = 1).foldlM (fun acc p => do
    let m ← getTwoSiteOp ⟨nsites, 1, 2⟩ p.1.1 0 p.1.2 0 nrOp nrOp "boson"
    Val.add acc (.mat m)) (Val.num 0)

end ED
