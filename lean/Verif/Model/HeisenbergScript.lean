import Verif.Model.HubbardScript
import Verif.Model.Spins
import Verif.Model.Cycles

/-!
# Model of the sectors of `examples/heisenberg_chain.py`

Products such as `tp * p * op * p.conj().transpose() * tp.conj().transpose()` are computed here as the operator in the sector
of the projector `tp * p`.
-/

namespace ED

/-- `spinSystem.get_sum_op`, ed_spins.py 442-451. The method calls `ed_base.ed_base.get_sum_op`, but the name `ed_base`
already stands for the class (ed_spins.py 5), which has no attribute of this name. -/
def spinGetSumOp (_ : Sys) (_ : Mat) : Res Mat := throw .attribute

/-- The sectors of a cyclic symmetry inside the sector of a projector, with their phases, e.g. heisenberg_chain.py 40-41,
45-46 and 53-55: `getZnProjectors(p * op * p.conj().transpose(), n)`, and the products of the projectors with `p`. -/
noncomputable def splitBy (P A : Mat) (n : ℕ) : Res (List (ℝ × Mat)) := do
  let t ← inSector P A
  let (projs, ks) ← getZnProjectors (d := P.rows) (Matrix.of fun i j => t.e i j) n
  (ks.zip projs).mapM fun k => do
    let p ← (rowsMat k.2).mul P
    pure (k.1, p)

/-- `np.round(np.exp(1j * k).real)`, heisenberg_chain.py 47, 56 and 79. -/
noncomputable def parityOf (k : ℝ) : ℝ := npRound 0 (Complex.exp (Complex.I * (k : ℂ))).re

/-- A sector of the script: the magnetization, the momentum, the parities of spin and space, and the projector. A parity
which is not a quantum number of the sector is zero. -/
structure SpinSector where
  mz : ℂ
  kx : ℝ
  spin : ℝ
  space : ℝ
  proj : Mat

open Classical in
/-- The sectors of inversion in a sector with momentum zero or pi, and the sector itself otherwise, heisenberg_chain.py 50-71
and 75-94. Empty sectors are left out. -/
noncomputable def inversionSectors (inv : Mat) (mz : ℂ) (kx spin : ℝ) (p : Mat) : Res (List SpinSector) := do
  if p.rows = 0 then return []
  if kx = 0 ∨ kx = Real.pi then
    let subs ← splitBy p inv 2
    pure ((subs.filter fun s => decide (s.2.rows ≠ 0)).map fun s => ⟨mz, kx, spin, parityOf s.1, s.2⟩)
  else
    pure [⟨mz, kx, spin, 0, p⟩]

open Classical in
/-- The sectors with one magnetization, heisenberg_chain.py 40-94. -/
noncomputable def magnetizationSectors (tx flip inv : Mat) (n : ℕ) (mz : ℂ) (p : Mat) : Res (List SpinSector) := do
  let txs ← splitBy p tx n
  let ls ← txs.mapM fun t => do
    if mz = 0 then
      let fs ← splitBy t.2 flip 2
      let ms ← fs.mapM fun f => inversionSectors inv mz t.1 (parityOf f.1) f.2
      pure ms.flatten
    else
      inversionSectors inv mz t.1 0 t.2
  pure ls.flatten

/-- All sectors of the script, heisenberg_chain.py 31-94, from the operators of the total spin, translation, spin flip and
inversion. -/
noncomputable def heisenbergSectors (sz tx flip inv : Mat) (n : ℕ) : Res (List SpinSector) := do
  let projs := getSubspaceProjs sz none
  let ls ← (projs.1.zip projs.2).mapM fun s => magnetizationSectors tx flip inv n s.2 s.1
  pure ls.flatten

/-- A number in a product `p * z * p.conj().transpose()` acts like a multiple of the identity, heisenberg_chain.py 40. -/
def Val.asOp (d : ℕ) : Val → Mat
  | .mat M => M
  | .num z => (Mat.eye d).smul z

/-- The operators and sectors of the script, heisenberg_chain.py 17-94, from the total spin and the cycles of translation and
inversion. -/
noncomputable def chainSectors (sz : Mat) (F : Spins) (tcycles icycles : List (List ℕ)) : Res (List SpinSector) := do
  let flip := swapUpDownOp F.sys.nstates
  let tx ← getXformOp 1 (spinSwapOp F.sys) tcycles
  let inv ← getXformOp 1 (spinSwapOp F.sys) icycles
  heisenbergSectors sz (tx.asOp F.sys.nstates) flip (inv.asOp F.sys.nstates) F.nsites

/-- What the script prints or leaves in its variables. -/
structure ChainResult where
  sectors : List SpinSector
  ham : Mat
  eigs : List ℝ
  maxDiff : ℝ

/-- heisenberg_chain.py 11-109, for a ring of `n` sites and the coupling `J` (the script has 10 and 1). The method that adds up
an operator over the sites is an argument: the script calls `spinSystem.get_sum_op`, which is `spinGetSumOp`. The tolerance of
the search for cycles is the default of ed_symmetry.py 169. The energies of the sectors are not sorted. -/
noncomputable def heisenbergChain (S : EigSolvers) (sumOp : Sys → Mat → Res Mat) (n : ℕ) (J : ℝ) : Res ChainResult := do
  let g ← Geometry.createSquare n 1 0 0 false true
  let F ← Spins.init g.nsites 1 (fun a b => (g.adjacency.e a b : ℂ)) g.phase.e (.scalar J) (.scalar J) (.scalar J)
    (.scalar 0) (.scalar 0) (.scalar 0) false
  let sz ← sumOp F.sys (getSz F.twoS)
  let (tcycles, _) ← Geometry.findSiteCycles (getTranslFn (1, 0)) g (1 / 10 ^ 10)
  let c ← g.centerOfMass
  let (icycles, _) ← Geometry.findSiteCycles (getInversionFn c) g (1 / 10 ^ 10)
  let secs ← chainSectors sz F tcycles icycles
  let ham ← F.createH none
  let eigs ← sectorEigs S ham (secs.map SpinSector.proj)
  let d ← maxDiff S ham (secs.map SpinSector.proj)
  pure ⟨secs, ham, eigs, d⟩

end ED
