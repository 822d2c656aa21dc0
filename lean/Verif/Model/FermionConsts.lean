import Verif.Model.Base

/-! # Model of `exact_diag/ed_fermions.py` lines 12-14: local fermion operators -/

namespace ED

/-- `cdag_op`, ed_fermions.py 12. -/
def cdagOp : Mat := Mat.lit2 0 0 1 0
/-- `c_op`, ed_fermions.py 13. -/
def cOp : Mat := Mat.lit2 0 1 0 0
/-- `n_op`, ed_fermions.py 14. -/
def nOp : Mat := Mat.lit2 0 0 0 1

end ED
