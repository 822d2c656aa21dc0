import Verif.Model.Mat
import Mathlib.Analysis.Complex.Exponential
import Mathlib.Data.List.Sort
import Mathlib.Data.List.Dedup

/-!
# Model of `exact_diag/ed_base.py`: index maps and operator builders
-/

namespace ED

open scoped BigOperators

/-- The attributes of an `ed_base` instance that the operator builders read:
`self.geometry.nsites`, `self.nspecies`, `self.nbasis` (ed_base.py lines 22-23, 101-104). -/
structure Sys where
  nsites : ℕ
  nspecies : ℕ
  nbasis : ℕ

/-- Number of logical sites, `self.geometry.nsites * self.nspecies` (ed_base.py 333, 369). -/
abbrev Sys.nlog (S : Sys) : ℕ := S.nsites * S.nspecies

/-- `self.nstates` (ed_base.py 103). -/
def Sys.nstates (S : Sys) : ℕ := S.nbasis ^ (S.nsites * S.nspecies)

/-- `pauli_z`, ed_base.py 26-27. -/
def pauliZ : Mat := Mat.lit2 1 0 0 (-1)
/-- `pauli_y`, ed_base.py 28-29. -/
noncomputable def pauliY : Mat := Mat.lit2 0 (-Complex.I) Complex.I 0
/-- `pauli_x`, ed_base.py 30-31. -/
def pauliX : Mat := Mat.lit2 0 1 1 0
/-- `pauli_plus`, ed_base.py 32-33. -/
def pauliPlus : Mat := Mat.lit2 0 1 0 0
/-- `pauli_minus`, ed_base.py 34-35. -/
def pauliMinus : Mat := Mat.lit2 0 0 1 0
/-- `parity_op`, ed_base.py 36-37. -/
def parityOp : Mat := Mat.lit2 1 0 0 (-1)

/-- `spinful2spinlessIndex`, ed_base.py 285-300. -/
def spinful2spinless (site nsites spin : ℕ) : ℕ := nsites * spin + site

/-- `spinless2spinfullIndex`, ed_base.py 302-317. The float division on line 316 is exact
(the numerator is a multiple of the denominator); modelled by integer division. `np.mod(i, 0)`
is `0` with a warning and the division by zero gives a non-finite value: modelled as an error. -/
def spinless2spinful (i nsites : ℕ) : Res (ℕ × ℕ) :=
  if nsites = 0 then .error .zeroDiv
  else .ok (i % nsites, (i - i % nsites) / nsites)

/-- The loop building a parity string of `l` factors, ed_base.py 337-339 and 399-401. -/
def parityString (l : ℕ) : Mat :=
  (List.range l).foldl (fun m _ => m.kron parityOp) (Mat.eye 1)

/-- `get_single_site_op`, ed_base.py 319-346. In the boson branch a site index beyond the last
logical site makes the exponent negative and `2 ** negative` a float; what `sp.eye` does with it
depends on the scipy version, so an out-of-range site is modelled as an error. The identity on the following sites is built as `eye(2 ** …)` whatever `nbasis` is
(line 342). -/
def getSingleSiteOp (S : Sys) (site species : ℕ) (op : Mat) (format : String) : Res Mat :=
  let l := spinful2spinless site S.nsites species
  if format = "fermion" then
    .ok (((Mat.eye (S.nbasis ^ l)).kron op).kron (parityString (S.nlog - l - 1)))
  else if format = "boson" then
    if l < S.nlog then
      .ok (((Mat.eye (S.nbasis ^ l)).kron op).kron (Mat.eye (2 ^ (S.nlog - l - 1))))
    else .error .type
  else .error .generic

/-- `get_two_site_op`, ed_base.py 348-408. -/
def getTwoSiteOp (S : Sys) (site1 species1 site2 species2 : ℕ) (op1 op2 : Mat)
    (format : String) : Res Mat := do
  let l1 := spinful2spinless site1 S.nsites species1
  let l2 := spinful2spinless site2 S.nsites species2
  if l1 = l2 then
    let op ← op1.mul op2
    getSingleSiteOp S site1 species1 op "boson"
  else
    let a := min l1 l2
    let b := max l1 l2
    let ops ← (if a = l1 then do
        let opb ← (if format = "fermion" then parityOp.mul op2 else pure op2)
        pure (op1, opb)
      else do
        let opb ← (if format = "fermion" then op1.mul parityOp else pure op1)
        pure (op2, opb))
    let middle ← (if format = "fermion" then pure (parityString (b - a - 1))
      else if format = "boson" then pure (Mat.eye (S.nbasis ^ (b - a - 1)))
      else .error .generic)
    if b < S.nlog then
      pure ((((Mat.eye (S.nbasis ^ a)).kron ops.1).kron middle).kron
        (ops.2.kron (Mat.eye (S.nbasis ^ (S.nlog - b - 1)))))
    else .error .type

/-- `get_sum_op`, ed_base.py 410-433 (`opmat = 0`, then add; `.tocsr()` on the integer `0` raises
for zero sites). -/
noncomputable def getSumOp (S : Sys) (op : Mat) (species : ℕ) (format : String) : Res Mat := do
  let v ← (List.range S.nsites).foldlM (fun acc ii => do
    let m ← getSingleSiteOp S ii species op format
    Val.add acc (.mat m)) (Val.num 0)
  v.tocsr

/-- `get_sum_op_q`, ed_base.py 435-464. `xs`, `ys` are the site coordinates. -/
noncomputable def getSumOpQ (S : Sys) (xs ys : ℕ → ℝ) (species : ℕ) (qx qy : ℝ) (op : Mat)
    (format : String) : Res Val :=
  (List.range S.nsites).foldlM (fun acc ii => do
    let m ← getSingleSiteOp S ii species op format
    Val.add acc (.mat (m.smul (Complex.exp (Complex.I * xs ii * qx + Complex.I * ys ii * qy)))))
    (Val.num 0)

/-- `range(n, 0, -1)` of Python. -/
def downRange (n : ℕ) : List ℕ := ((List.range n).map (· + 1)).reverse

/-- `get_xform_op`, ed_base.py 123-152. `swap` is the overridden method `get_swap_op` of the
derived class. The result is the Python integer `1` when no cycle is longer than one. -/
def getXformOp (nspecies : ℕ) (swap : ℕ → ℕ → ℕ → Res Mat) (cycles : List (List ℕ)) : Res Val :=
  cycles.foldlM (fun trans cycle =>
    if cycle.length > 1 then
      (List.range nspecies).foldlM (fun trans ii => do
        let cyc ← (downRange (cycle.length - 1)).foldlM (fun c jj => do
            let s ← swap (cycle.getD (jj - 1) 0) (cycle.getD jj 0) ii
            Val.mul (.mat s) c) (Val.num 1)
        Val.mul cyc trans) trans
    else pure trans) (Val.num 1)

/-- The diagonal of a matrix as a list, `diagonal_op.diagonal()` (ed_base.py 815). -/
def Mat.diagList (M : Mat) : List ℂ := (List.range (min M.rows M.cols)).map fun i => M.e i i

open Classical in
/-- `np.unique` of complex numbers: sorted (by real, then imaginary part) without repetitions. -/
noncomputable def npUnique (l : List ℂ) : List ℂ :=
  (l.insertionSort fun z w => z.re < w.re ∨ (z.re = w.re ∧ z.im ≤ w.im)).dedup

/-- `sp.csr_matrix((np.ones(k), (np.arange(k), indices)), shape=(k, n))` (ed_base.py 829-830): row
`r` has a single `1` in column `indices[r]`. -/
def selectionMat (indices : List ℕ) (n : ℕ) : Mat :=
  ⟨indices.length, n, fun r j => if indices[r]? = some j then 1 else 0⟩

open Classical in
/-- `get_subspace_projs`, ed_base.py 795-834 (sparse formats are not modelled, so neither is the
check that the argument is in csr format). -/
noncomputable def getSubspaceProjs (D : Mat) (eigVals : Option (List ℂ)) :
    List Mat × List ℂ :=
  let opvector := D.diagList
  let vals := eigVals.getD (npUnique opvector)
  (vals.map fun v =>
    selectionMat ((List.range opvector.length).filter fun i => opvector[i]? = some v)
      opvector.length, vals)

/-- `np.ones([r, c])`. -/
def Mat.ones (r c : ℕ) : Mat := ⟨r, c, fun _ _ => 1⟩

/-- `sp.csc_matrix([[1], [0]])` (ed_fermions.py 199, ed_spins.py 196). -/
def rootMat : Mat := ⟨2, 1, fun i _ => if i = 0 then 1 else 0⟩

/-- Column `i` of the label matrix built in ed_fermions.py 200-205 and ed_spins.py 197-202. -/
def labelColumn (n i : ℕ) : Mat :=
  (Mat.ones (2 ^ i) 1).kron (rootMat.kron (Mat.ones (2 ^ (n - i - 1)) 1))

end ED
