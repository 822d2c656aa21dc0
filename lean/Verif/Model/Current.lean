import Verif.Model.Fermions
import Verif.Model.Numpy

/-! # Model of `exact_diag/ed_fermions.py`: the current operator -/

namespace ED

open Classical in
/-- One half of the body of the innermost loop, ed_fermions.py 507-510 (with `tx` and the x direction) and
512-515 (with `ty` and the y direction). `dist` is the component of the separation, `d` that of the direction. -/
noncomputable def Fermions.linkCurrent (F : Fermions) (adj dist : ℕ → ℕ → ℝ) (t : ℂ) (d : ℝ) (ii jj kk : ℕ)
    (current : Val) : Res Val :=
  if adj ii jj ≠ 0 ∧ npRound 14 |dist ii jj| = 1 then do
    let m ← getTwoSiteOp F.sys ii kk jj kk cdagOp cOp "fermion"
    Val.add current (.mat (m.smul (t * ((dist ii jj * d : ℝ) : ℂ))))
  else pure current

/-- `get_current_op`, ed_fermions.py 480-519. `adj` is `geometry.adjacency_mat`. `hop` are the attributes `tx` and
`ty` (lines 494-495): the constructor does not set them, so `none` is the instance as it is constructed, and
`some (tx, ty)` an instance on which the caller has assigned them. `(dx, dy)` is the direction after it was reshaped to
two entries (line 497). -/
noncomputable def Fermions.currentOp (F : Fermions) (adj : ℕ → ℕ → ℝ) (hop : Option (ℂ × ℂ)) (dx dy : ℝ) : Res Val :=
  match hop with
  | none => .error .attribute
  | some (tx, ty) => do
    let current ← (List.range F.nsites).foldlM (fun current ii =>
      (List.range F.nsites).foldlM (fun current jj =>
        (List.range F.nspecies).foldlM (fun current kk => do
          let current ← F.linkCurrent adj F.xdist tx dx ii jj kk current
          F.linkCurrent adj F.ydist ty dy ii jj kk current) current) current) (Val.num 0)
    Val.mul (.num Complex.I) current

end ED
