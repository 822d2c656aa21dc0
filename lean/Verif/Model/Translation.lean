import Verif.Model.Zn

/-!
# Model of `get2DTranslationProjectors` of `ed_symmetry.py`

The projectors of the first translation are lists of rows as in `Verif.Model.Zn`. The operator that is
handed to the second call of `getZnProjectors` is the second translation restricted to the rows of one of
these projectors. For translations that permute basis states with phases the restricted operator has one
stored entry in each row, so the first stored index of a row is again the first column with an entry.
-/

namespace ED

open Classical
open scoped BigOperators

/-- `proj * translation_op2 * proj.conj().transpose()`, ed_symmetry.py 431. -/
noncomputable def restrictOp {d : ℕ} (p : Rows d) (T : Matrix (Fin d) (Fin d) ℂ) :
    Matrix (Fin p.length) (Fin p.length) ℂ :=
  fun a b => ∑ j, (∑ i, p[a] i * T i j) * (starRingEnd ℂ) (p[b] j)

/-- `sub_proj * proj`, ed_symmetry.py 432. -/
noncomputable def mulRows {d : ℕ} (p : Rows d) (s : Rows p.length) : Rows d :=
  s.map fun r j => ∑ a, r a * p[a] j

/-- `proj.size > 0`, ed_symmetry.py 447: the matrix has an entry. (For a sparse matrix `size` counts the
stored entries; an entry that is stored although it is zero is not counted here.) -/
def hasEntry {d : ℕ} (p : Rows d) : Prop := ∃ r ∈ p, ∃ j, r j ≠ 0

/-- `ks[list(allowed_indices)]`, ed_symmetry.py 449-450. -/
def takeIndices (ks : List ℝ) (idx : List ℕ) : Res (List ℝ) :=
  idx.mapM fun i => match ks[i]? with
    | some k => .ok k
    | none => .error .index

/-- One turn of the loop over the projectors of the first translation, ed_symmetry.py 430-439. -/
noncomputable def translationStep {d : ℕ} (T2 : Matrix (Fin d) (Fin d) ℂ) (n2 : ℕ)
    (acc : List (Rows d) × List ℝ) (pk : Rows d × ℝ) : Res (List (Rows d) × List ℝ) := do
  let sub ← getZnProjectors (restrictOp pk.1 T2) n2
  let all := acc.1 ++ sub.1.map (mulRows pk.1)
  if (sub.1.map List.length).sum ≠ pk.1.length then throw .generic
  pure (all, sub.2)

/-- `get2DTranslationProjectors`, ed_symmetry.py 412-452. The momenta of the second translation are those
of the last turn of the loop. If every projector is empty, unpacking `zip(*a)` fails. (Printing is left
out.) -/
noncomputable def get2DTranslationProjectors {d : ℕ} (T1 : Matrix (Fin d) (Fin d) ℂ) (n1 : ℕ)
    (T2 : Matrix (Fin d) (Fin d) ℂ) (n2 : ℕ) : Res (List (Rows d) × List ℝ × List ℝ) := do
  let first ← getZnProjectors T1 n1
  let all ← (first.1.zip first.2).foldlM (translationStep T2 n2) ([], [])
  let ks1 := first.2.flatMap fun k => List.replicate n2 k
  let ks2 := (List.replicate n1 all.2).flatten
  let a := all.1.zipIdx.filter fun pi => hasEntry pi.1
  if a = [] then throw .value
  let k1 ← takeIndices ks1 (a.map Prod.snd)
  let k2 ← takeIndices ks2 (a.map Prod.snd)
  pure (a.map Prod.fst, k1, k2)

end ED
