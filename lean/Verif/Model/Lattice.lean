import Verif.Model.Numpy
import Mathlib.Analysis.SpecialFunctions.Sqrt
import Mathlib.Analysis.Complex.Exponential
import Mathlib.Data.List.Sort
import Mathlib.Data.List.Dedup

/-!
# Model of `exact_diag/ed_geometry.py` 648-1135: lattices and reduction modulo periodicity vectors

Column vectors of size 2x1 are pairs of real numbers; the `ensure_*` functions (lines 1094-1135) only
reshape their argument.
-/

namespace ED

open Classical

/-- A two-dimensional numpy array with entries in `α`. Only entries inside the shape are
meaningful. -/
structure Arr (α : Type) where
  rows : ℕ
  cols : ℕ
  e : ℕ → ℕ → α

/-- `np.array_equal(A, B)`. -/
def Arr.Equal {α : Type} (A B : Arr α) : Prop :=
  A.rows = B.rows ∧ A.cols = B.cols ∧ ∀ i < A.rows, ∀ j < A.cols, A.e i j = B.e i j

/-- `np.sqrt(np.sum(v * v))`, the Euclidean length. -/
noncomputable def len2 (v : ℝ × ℝ) : ℝ := Real.sqrt (v.1 * v.1 + v.2 * v.2)

/-- The determinant of the matrix with columns `v` and `w`, ed_geometry.py 1022. -/
def det2 (v w : ℝ × ℝ) : ℝ := v.1 * w.2 - v.2 * w.1

/-- `get_reciprocal_vects`, ed_geometry.py 955-992. `np.linalg.inv` raises `LinAlgError` for a singular
matrix, which is turned into a `ValueError`; otherwise its columns are those of the inverse of the
matrix with rows `v1` and `v2`. -/
noncomputable def getReciprocalVects (v1 v2 : ℝ × ℝ) : Res ((ℝ × ℝ) × (ℝ × ℝ)) :=
  if v1 ≠ (0, 0) ∧ v2 ≠ (0, 0) then
    let d := det2 v1 v2
    if d = 0 then .error .value
    else .ok ((v2.2 / d, -v2.1 / d), (-v1.2 / d, v1.1 / d))
  else if v1 = (0, 0) ∧ v2 ≠ (0, 0) then
    .ok ((0, 0), (v2.1 / len2 v2 ^ 2, v2.2 / len2 v2 ^ 2))
  else if v1 ≠ (0, 0) ∧ v2 = (0, 0) then
    .ok ((v1.1 / len2 v1 ^ 2, v1.2 / len2 v1 ^ 2), (0, 0))
  else .ok ((0, 0), (0, 0))

/-- The row vectors that give the coordinates along the two periodicity vectors, ed_geometry.py
1046-1067. For dependent non-zero vectors the code divides by `det = 0` and goes on with non-finite
numbers; modelled as an error. -/
noncomputable def projRows (p1 p2 : ℝ × ℝ) : Res ((ℝ × ℝ) × (ℝ × ℝ)) :=
  if npRound 14 (len2 p1) = 0 then
    if npRound 14 (len2 p2) = 0 then .ok ((0, 0), (0, 0))
    else .ok ((0, 0), (p2.1 / len2 p2 ^ 2, p2.2 / len2 p2 ^ 2))
  else
    if npRound 14 (len2 p2) = 0 then .ok ((p1.1 / len2 p1 ^ 2, p1.2 / len2 p1 ^ 2), (0, 0))
    else
      let d := det2 p1 p2
      if d = 0 then .error .zeroDiv
      else .ok ((p2.2 / d, -p2.1 / d), (-p1.2 / d, p1.1 / d))

/-- The dot product of a row vector and a column vector. -/
def dot2 (r v : ℝ × ℝ) : ℝ := r.1 * v.1 + r.2 * v.2

/-- The number of periodicity vectors to subtract for the coordinate `p`, ed_geometry.py 1069-1086:
`p` is rounded to 14 decimals; in centered mode one half is rounded up. -/
noncomputable def cellIndex (centered : Bool) (p : ℝ) : ℤ :=
  let q := npRound 14 p
  if centered then
    rint (if Int.fract q = 1 / 2 then q + 1 / 2 else q)
  else ⌊q⌋

/-- One column of the result of `reduce_vectors`: `xs_red`, `ys_red`, `n1s`, `n2s`. -/
@[ext] structure Reduced where
  x : ℝ
  y : ℝ
  n1 : ℤ
  n2 : ℤ

/-- One column of `vects - np.kron(n1s, p1) - np.kron(n2s, p2)`, ed_geometry.py 1087. -/
noncomputable def reduceCol (p1 p2 : ℝ × ℝ) (rows : (ℝ × ℝ) × (ℝ × ℝ)) (centered : Bool)
    (x y : ℝ) : Reduced :=
  let n1 := cellIndex centered (dot2 rows.1 (x, y))
  let n2 := cellIndex centered (dot2 rows.2 (x, y))
  ⟨x - n1 * p1.1 - n2 * p2.1, y - n1 * p1.2 - n2 * p2.2, n1, n2⟩

/-- `reduce_vectors`, ed_geometry.py 995-1091. The two coordinate arrays are concatenated, which
raises for different lengths. -/
noncomputable def reduceVectors (p1 p2 : ℝ × ℝ) (xs ys : List ℝ) (mode : String) :
    Res (List Reduced) := do
  if xs.length ≠ ys.length then throw .value
  if mode ≠ "positive" ∧ mode ≠ "centered" then throw .value
  let rows ← projRows p1 p2
  pure (List.zipWith (reduceCol p1 p2 rows (mode = "centered")) xs ys)

/-- A lattice: the attributes set in `Lattice.__init__`, ed_geometry.py 673-688. -/
structure Lattice where
  latt1 : ℝ × ℝ
  latt2 : ℝ × ℝ
  recLatt1 : ℝ × ℝ
  recLatt2 : ℝ × ℝ
  basis : List (ℝ × ℝ)
  per1 : ℝ × ℝ
  per2 : ℝ × ℝ
  recPer1 : ℝ × ℝ
  recPer2 : ℝ × ℝ
  phase1 : ℝ
  phase2 : ℝ

namespace Lattice

/-- `validate_latt_vects`, ed_geometry.py 893-910. -/
def validLatt (L : Lattice) : Prop :=
  ¬ (npRound 14 (len2 L.latt1) = 0 ∨ npRound 14 (len2 L.latt2) = 0 ∨
    npRound 14 (det2 L.latt1 L.latt2) = 0)

/-- `validate_periodicity_vects`, ed_geometry.py 912-934. -/
def validPer (L : Lattice) : Prop :=
  ¬ (npRound 14 (len2 L.per1) ≠ 0 ∧ npRound 14 (len2 L.per2) ≠ 0 ∧
    npRound 14 (det2 L.per1 L.per2) = 0)

/-- The compatibility check of one periodicity vector, ed_geometry.py 875-881 and 883-889:
`not A and B` means `(not A) and B`. The result is `True` if the vector passes. -/
noncomputable def compatible (L : Lattice) (p : ℝ × ℝ) : Res Bool := do
  let r ← reduceVectors L.latt1 L.latt2 [p.1] [p.2] "positive"
  pure (decide ¬ (¬ (∀ c ∈ r, c.x = 0) ∧ ∀ c ∈ r, c.y = 0))

/-- `validate_instance`, ed_geometry.py 862-891. -/
noncomputable def validate (L : Lattice) : Res Bool :=
  if ¬ L.validLatt then .ok false
  else if ¬ L.validPer then .ok false
  else do
    if ¬ (← L.compatible L.per1) then return false
    if ¬ (← L.compatible L.per2) then return false
    return true

/-- `Lattice.__init__`, ed_geometry.py 651-691. -/
noncomputable def init (latt1 latt2 : ℝ × ℝ) (basis : List (ℝ × ℝ)) (per1 per2 : ℝ × ℝ)
    (phase1 phase2 : ℝ) : Res Lattice := do
  let rl ← getReciprocalVects latt1 latt2
  let rp ← getReciprocalVects per1 per2
  let L : Lattice := ⟨latt1, latt2, rl.1, rl.2, basis, per1, per2, rp.1, rp.2, phase1, phase2⟩
  if ← L.validate then pure L else throw .value

/-- `np.arange(min([0, a, b, a+b]), max([0, a, b, a+b]))`, replaced by `[0]` if empty, ed_geometry.py
725-732. -/
def multiples (a b : ℤ) : List ℤ :=
  let lo := min (min 0 a) (min b (a + b))
  let hi := max (max 0 a) (max b (a + b))
  if hi ≤ lo then [0] else (List.range (hi - lo).toNat).map fun k : ℕ => lo + (k : ℤ)

/-- Comparison of columns `(x, y)` used by `np.unique(..., axis=1)`: by `x`, then by `y`. -/
def colLE (p q : ℝ × ℝ) : Prop := p.1 < q.1 ∨ (p.1 = q.1 ∧ p.2 ≤ q.2)

/-- `np.unique(locs, axis=1)`: the sorted columns without repetitions. -/
noncomputable def uniqueCols (l : List (ℝ × ℝ)) : List (ℝ × ℝ) :=
  (l.dedup).insertionSort colLE

/-- The candidate sites, ed_geometry.py 734-748: `np.meshgrid(as, bs)` raveled (the first argument runs
fastest), with all basis vectors. -/
noncomputable def cellVects (L : Lattice) (as bs : List ℤ) : List (ℝ × ℝ) :=
  bs.flatMap fun b : ℤ => as.flatMap fun a : ℤ => L.basis.map fun v =>
    ((a : ℝ) * L.latt1.1 + (b : ℝ) * L.latt2.1 + v.1, (a : ℝ) * L.latt1.2 + (b : ℝ) * L.latt2.2 + v.2)

/-- `get_unique_sites`, ed_geometry.py 693-765: the list of `(xlocs, ylocs)`. -/
noncomputable def uniqueSites (L : Lattice) : Res (List (ℝ × ℝ)) := do
  let r1 ← reduceVectors L.latt1 L.latt2 [L.per1.1] [L.per1.2] "positive"
  let r2 ← reduceVectors L.latt1 L.latt2 [L.per2.1] [L.per2.2] "positive"
  let c1 ← (match r1 with | c :: _ => pure c | [] => throw .index)
  let c2 ← (match r2 with | c :: _ => pure c | [] => throw .index)
  let as := multiples c1.n1 c2.n1
  let bs := multiples c1.n2 c2.n2
  let vects := L.cellVects as bs
  let red ← reduceVectors L.per1 L.per2 (vects.map Prod.fst) (vects.map Prod.snd) "positive"
  pure (uniqueCols (red.map fun c => (npRound 14 c.x, npRound 14 c.y)))

/-- One pair of sites in `get_reduced_distance`, ed_geometry.py 785-798: the separation reduced modulo
the periodicity vectors and the numbers of lattice vectors in it. -/
noncomputable def pairDistance (L : Lattice) (dx dy : ℝ) : Res Reduced := do
  let r ← reduceVectors L.per1 L.per2 [dx] [dy] "centered"
  let c ← (match r with | c :: _ => pure c | [] => throw .index)
  let s ← reduceVectors L.latt1 L.latt2 [c.x] [c.y] "centered"
  let d ← (match s with | c :: _ => pure c | [] => throw .index)
  pure ⟨c.x, c.y, d.n1, d.n2⟩

/-- The entries of the four matrices of `get_reduced_distance`, given the results for the pairs below
the diagonal, ed_geometry.py 780-805. The last matrix is assigned `- -latt_vect2_dist[ii, jj]` above
the diagonal. -/
noncomputable def distanceMats (n : ℕ) (r : ℕ → ℕ → Reduced) : Arr ℝ × Arr ℝ × Arr ℝ × Arr ℝ :=
  (⟨n, n, fun i j => if j < i then (r i j).x else if i < j then -(r j i).x else 0⟩,
   ⟨n, n, fun i j => if j < i then (r i j).y else if i < j then -(r j i).y else 0⟩,
   ⟨n, n, fun i j => if j < i then ((r i j).n1 : ℝ) else if i < j then -((r j i).n1 : ℝ) else 0⟩,
   ⟨n, n, fun i j => if j < i then ((r i j).n2 : ℝ) else if i < j then - -((r j i).n2 : ℝ) else 0⟩)

/-- The body of the two loops of `get_reduced_distance`, ed_geometry.py 785-798. -/
noncomputable def pairAt (L : Lattice) (xs ys : List ℝ) (ii jj : ℕ) : Res Reduced :=
  match xs[ii]?, xs[jj]?, ys[ii]?, ys[jj]? with
  | some xi, some xj, some yi, some yj => L.pairDistance (xi - xj) (yi - yj)
  | _, _, _, _ => .error .index

/-- `get_reduced_distance`, ed_geometry.py 767-807. The first pair that raises ends the computation;
`ylocs` shorter than `xlocs` raises `IndexError`. -/
noncomputable def reducedDistance (L : Lattice) (xs ys : List ℝ) :
    Res (Arr ℝ × Arr ℝ × Arr ℝ × Arr ℝ) := do
  let n := xs.length
  let tab ← (List.range n).mapM fun ii => (List.range ii).mapM fun jj => L.pairAt xs ys ii jj
  pure (distanceMats n fun i j => (tab.getD i []).getD j ⟨0, 0, 0, 0⟩)

/-- `get_phase_mat`, ed_geometry.py 809-842. If no imaginary part exceeds `10^-14` the real parts are
returned. -/
noncomputable def phaseMat (L : Lattice) (xdist ydist : Arr ℝ) : Arr ℂ :=
  let n := xdist.rows
  let P : ℕ → ℕ → ℂ := fun i j =>
    Complex.exp (Complex.I * L.phase1 *
      (xdist.e i j * L.recPer1.1 + ydist.e i j * L.recPer1.2)) *
    Complex.exp (Complex.I * L.phase2 *
      (xdist.e i j * L.recPer2.1 + ydist.e i j * L.recPer2.2))
  if ∃ i < n, ∃ j < n, (10 : ℝ) ^ (-14 : ℤ) < (P i j).im then ⟨n, n, P⟩
  else ⟨n, n, fun i j => ((P i j).re : ℂ)⟩

/-- `reduce_to_unit_cell`, ed_geometry.py 844-856. -/
noncomputable def reduceToUnitCell (L : Lattice) (xs ys : List ℝ) (mode : String) :
    Res (List Reduced) :=
  reduceVectors L.per1 L.per2 xs ys mode

/-- `Lattice.__eq__`, ed_geometry.py 936-945 (`basis_vects` is not compared). -/
def Equal (L M : Lattice) : Prop :=
  L.latt1 = M.latt1 ∧ L.latt2 = M.latt2 ∧ L.per1 = M.per1 ∧ L.per2 = M.per2 ∧
    L.phase1 = M.phase1 ∧ L.phase2 = M.phase2

end Lattice

end ED
