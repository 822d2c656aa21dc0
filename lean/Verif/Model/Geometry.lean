import Verif.Model.Lattice
import Mathlib.Analysis.SpecialFunctions.Trigonometric.Basic

/-!
# Model of `exact_diag/ed_geometry.py` 13-645: geometries

Coordinates are lists of real numbers, matrices are two-dimensional arrays. Plotting is not modelled.
-/

namespace ED

open Classical
open scoped BigOperators

namespace Arr

/-- `A.dot(B)`, raising on a shape mismatch. -/
def dot {α : Type} [Semiring α] (A B : Arr α) : Res (Arr α) :=
  if A.cols = B.rows then
    .ok ⟨A.rows, B.cols, fun i j => ∑ k ∈ Finset.range A.cols, A.e i k * B.e k j⟩
  else .error .value

/-- `A.transpose()`. -/
def transpose {α : Type} (A : Arr α) : Arr α := ⟨A.cols, A.rows, fun i j => A.e j i⟩

/-- An index of Python: negative numbers count from the end; outside the range it raises. -/
def pyIndex (n : ℕ) (i : ℤ) : Res ℕ :=
  if 0 ≤ i ∧ i < n then .ok i.toNat
  else if i < 0 ∧ 0 ≤ n + i then .ok (n + i).toNat
  else .error .index

/-- `A[i, j] = x`. -/
def set {α : Type} (A : Arr α) (i j : ℤ) (x : α) : Res (Arr α) := do
  let r ← pyIndex A.rows i
  let c ← pyIndex A.cols j
  pure ⟨A.rows, A.cols, fun k l => if k = r ∧ l = c then x else A.e k l⟩

/-- `np.zeros((r, c))`. -/
def zeros {α : Type} [Zero α] (r c : ℕ) : Arr α := ⟨r, c, fun _ _ => 0⟩

end Arr

/-- The attributes of a `Geometry` instance. -/
structure Geometry where
  lattice : Option Lattice
  xlocs : List ℝ
  ylocs : List ℝ
  xdist : Arr ℝ
  ydist : Arr ℝ
  adjacency : Arr ℝ
  phase : Arr ℂ

namespace Geometry

/-- `self.nsites`, ed_geometry.py 85. -/
def nsites (g : Geometry) : ℕ := g.xlocs.length

/-- `get_site_distance`, ed_geometry.py 433-445: `ylocs` shorter than `xlocs` raises `IndexError`. -/
noncomputable def siteDistance (xs ys : List ℝ) : Res (Arr ℝ × Arr ℝ) :=
  if xs.length ≤ ys.length then
    .ok (⟨xs.length, xs.length, fun i j => xs.getD i 0 - xs.getD j 0⟩,
      ⟨xs.length, xs.length, fun i j => ys.getD i 0 - ys.getD j 0⟩)
  else .error .index

/-- `is_neighbor` of `get_neighbors_by_distance`, ed_geometry.py 447-471. -/
noncomputable def neighbors (xdist ydist : Arr ℝ) : Arr ℝ :=
  ⟨xdist.rows, xdist.cols, fun i j =>
    if (npRound 0 (|xdist.e i j| - 1) = 0 ∧ npRound 0 |ydist.e i j| = 0) ∨
      (npRound 0 (|ydist.e i j| - 1) = 0 ∧ npRound 0 |xdist.e i j| = 0) then 1 else 0⟩

/-- `validate_adjacency_mat`, ed_geometry.py 562-577. -/
def validAdjacency (A : Arr ℝ) (nsites : ℕ) : Prop :=
  A.Equal A.transpose ∧ (∀ i < A.rows, ∀ j < A.cols, A.e i j = 0 ∨ A.e i j = 1) ∧
    A.rows = nsites ∧ A.cols = nsites

/-- `validate_phase_mat`, ed_geometry.py 579-595. For a matrix that is not square either the subtraction
raises `ValueError` or the check of the shape fails, which makes the constructor raise `ValueError`;
both are modelled as a failed check. -/
def validPhase (P : Arr ℂ) (nsites : ℕ) : Prop :=
  P.rows = nsites ∧ P.cols = nsites ∧
  (∀ i < P.rows, ∀ j < P.cols, npRound 14 ‖P.e i j - (starRingEnd ℂ) (P.e j i)‖ = 0) ∧
  ∀ i < P.rows, ∀ j < P.cols, npRound 14 ‖P.e i j‖ = 1

/-- The adjacency matrix of a periodic geometry, ed_geometry.py 92-94. -/
noncomputable def unitAdjacency (xdist ydist : Arr ℝ) : Arr ℝ :=
  ⟨xdist.rows, xdist.cols, fun i j =>
    if npRound 14 (Real.sqrt (xdist.e i j ^ 2 + ydist.e i j ^ 2)) = 1 then 1 else 0⟩

/-- `Geometry.__init__`, ed_geometry.py 17-121. -/
noncomputable def init (xlocs ylocs : List ℝ) (adjacency : Option (Arr ℝ)) (phase : Option (Arr ℂ))
    (lattice : Option Lattice) : Res Geometry := do
  let g ← (match lattice with
    | some L => do
      let (xd, yd, _, _) ← L.reducedDistance xlocs ylocs
      pure (⟨some L, xlocs, ylocs, xd, yd, unitAdjacency xd yd, L.phaseMat xd yd⟩ : Geometry)
    | none => do
      let (xd, yd) ← siteDistance xlocs ylocs
      pure ⟨none, xlocs, ylocs, xd, yd, adjacency.getD (neighbors xd yd),
        phase.getD ⟨xlocs.length, xlocs.length, fun _ _ => 1⟩⟩)
  if validAdjacency g.adjacency g.nsites ∧ validPhase g.phase g.nsites then pure g
  else throw .value

/-- `createNonPeriodicGeometry`, ed_geometry.py 180-195. -/
noncomputable def createNonPeriodic (xlocs ylocs : List ℝ) (adjacency : Option (Arr ℝ))
    (phase : Option (Arr ℂ)) : Res Geometry :=
  init xlocs ylocs adjacency phase none

/-- `create_lattice_geom`, ed_geometry.py 133-178. -/
noncomputable def createLattice (latt1 latt2 : ℝ × ℝ) (basis : List (ℝ × ℝ)) (per1 per2 : ℝ × ℝ)
    (phase1 phase2 : ℝ) (open1 open2 : Bool) : Res Geometry := do
  let helper ← Lattice.init latt1 latt2 basis per1 per2 phase1 phase2
  let sites ← helper.uniqueSites
  let L ← Lattice.init latt1 latt2 basis (if open1 then (0, 0) else per1)
    (if open2 then (0, 0) else per2) phase1 phase2
  init (sites.map Prod.fst) (sites.map Prod.snd) none none (some L)

/-- The default adjacency matrix of a polygon, ed_geometry.py 212-221. -/
def polygonAdjacency (n : ℕ) : Res (Arr ℝ) := do
  let A ← (Arr.zeros n n : Arr ℝ).set 0 1 1
  let A ← A.set 0 (-1) 1
  let A ← A.set (-1) 0 1
  let A ← A.set (-1) (-2) 1
  -- `for ii in range(1, nsides - 1)`
  (List.range (n - 2)).foldlM (fun (A : Arr ℝ) (k : ℕ) => do
    let A ← A.set ((k : ℤ) + 1) k 1
    A.set ((k : ℤ) + 1) ((k : ℤ) + 2) 1) A

/-- `createRegularPolygonGeometry`, ed_geometry.py 197-224. -/
noncomputable def createRegularPolygon (n : ℕ) (adjacency : Option (Arr ℝ))
    (phase : Option (Arr ℂ)) : Res Geometry := do
  let A ← (match adjacency with
    | none => polygonAdjacency n
    | some A => pure A)
  if n = 0 then throw .zeroDiv
  let theta := 2 * Real.pi / n
  let d := (1 / 2) / Real.sin (theta / 2)
  init ((List.range n).map fun k : ℕ => d * Real.sin (theta * k))
    ((List.range n).map fun k : ℕ => d * Real.cos (theta * k)) (some A) phase none

/-- `createSquareGeometry`, ed_geometry.py 226-262. -/
noncomputable def createSquare (nx ny : ℕ) (phase1 phase2 : ℝ) (open1 open2 : Bool) : Res Geometry := do
  if nx = 1 ∧ ¬ open1 then throw .value
  if ny = 1 ∧ ¬ open2 then throw .value
  createLattice (1, 0) (0, 1) [(0, 0)] (nx, 0) (0, ny) phase1 phase2 open1 open2

/-- `createTiltedSquareGeometry`, ed_geometry.py 264-291. -/
noncomputable def createTiltedSquare (right up : ℤ) (phase1 phase2 : ℝ) (open1 open2 : Bool) :
    Res Geometry :=
  createLattice (1, 0) (0, 1) [(0, 0)] (right, up) (-up, right) phase1 phase2 open1 open2

/-- `createTriangleGeometry`, ed_geometry.py 293-328. -/
noncomputable def createTriangle (n1 n2 : ℕ) (phase1 phase2 : ℝ) (open1 open2 : Bool) :
    Res Geometry := do
  if n1 = 1 ∧ ¬ open1 then throw .value
  if n2 = 1 ∧ ¬ open2 then throw .value
  createLattice (1, 0) (1 / 2, Real.sqrt 3 / 2) [(0, 0)] (n1, 0)
    (n2 * (1 / 2), n2 * (Real.sqrt 3 / 2)) phase1 phase2 open1 open2

/-- `createHexagonalGeometry`, ed_geometry.py 330-366. -/
noncomputable def createHexagonal (n1 n2 : ℕ) (phase1 phase2 : ℝ) (open1 open2 : Bool) :
    Res Geometry := do
  if n1 = 1 ∧ ¬ open1 then throw .value
  if n2 = 1 ∧ ¬ open2 then throw .value
  createLattice (3 / 2, Real.sqrt 3 / 2) (3 / 2, -(Real.sqrt 3 / 2))
    [(-1, 0), (-(1 / 2), Real.sqrt 3 / 2)] (n1 * 3, 0) (0, n2 * Real.sqrt 3) phase1 phase2 open1 open2

/-- The matrix with a one in row `ii` and column `permutation[ii]`, ed_geometry.py 490-492. -/
def basisChange {α : Type} [Zero α] [One α] (perm : List ℕ) : Arr α :=
  ⟨perm.length, perm.length, fun i j => if perm[i]? = some j then 1 else 0⟩

/-- `basis_change_mat.dot(M.dot(basis_change_mat.transpose()))`, ed_geometry.py 494-497. -/
def conjugate {α : Type} [Semiring α] (perm : List ℕ) (M : Arr α) : Res (Arr α) := do
  let R ← M.dot (basisChange perm).transpose
  (basisChange perm).dot R

/-- `permute_sites`, ed_geometry.py 476-498, returning the changed instance. The entries of
`permutation` are natural numbers; a negative entry fails the check in line 486 like any other number
outside the range. `xlocs[permutation]` raises for `ylocs` shorter than the number of sites. -/
noncomputable def permuteSites (g : Geometry) (perm : List ℕ) : Res Geometry := do
  if perm.insertionSort (· ≤ ·) ≠ List.range g.nsites then throw .value
  let xs := perm.map fun k => g.xlocs.getD k 0
  if ¬ ∀ k ∈ perm, k < g.ylocs.length then throw .index
  let ys := perm.map fun k => g.ylocs.getD k 0
  let A ← conjugate perm g.adjacency
  let P ← conjugate perm g.phase
  let X ← conjugate perm g.xdist
  let Y ← conjugate perm g.ydist
  pure ⟨g.lattice, xs, ys, X, Y, A, P⟩

/-- `np.lexsort(keys)` for keys of length `n`: the stable sorting permutation by the last key, then the
one before it and so on. `keys` is a list of the key functions. -/
noncomputable def lexLE (keys : List (ℕ → ℝ)) (i j : ℕ) : Prop :=
  keys.foldl (fun acc f => f i < f j ∨ (f i = f j ∧ acc)) True

/-- `np.lexsort(keys)`: a stable sort of the indices `0, ..., n - 1`. -/
noncomputable def lexsort (n : ℕ) (keys : List (ℕ → ℝ)) : List ℕ :=
  (List.range n).insertionSort (lexLE keys)

/-- `np.max` of a list; raises for an empty array. -/
noncomputable def npMax : List ℝ → Res ℝ
  | [] => .error .value
  | x :: l => .ok (l.foldl max x)

/-- The row sums of the powers of the adjacency matrix, `np.sum(adj_mat_powers[k], 1)`, ed_geometry.py
416-423: `walkCount k i` counts the walks of `k + 1` steps starting at `i`. -/
noncomputable def walkCount (A : Arr ℝ) (k i : ℕ) : ℝ :=
  let rec power : ℕ → ℕ → ℕ → ℝ
    | 0 => A.e
    | k + 1 => fun i j => ∑ l ∈ Finset.range A.cols, power k i l * A.e l j
  ∑ j ∈ Finset.range A.cols, power k i j

/-- `np.power(-1., y)` for an integer `y`; other exponents give `nan` and are modelled as an error. -/
noncomputable def signPower (y : ℝ) : Res ℝ :=
  if y = (⌊y⌋ : ℝ) then .ok (if Even ⌊y⌋ then 1 else -1) else .error .value

/-- `get_sorting_permutation`, ed_geometry.py 382-431. In mode `top_alternating` all exponents have to be
integers (see `signPower`); `xlocs` and `ylocs` have the same length. -/
noncomputable def sortingPermutation (g : Geometry) (mode : String) : Res (List ℕ) :=
  let x := fun i => g.xlocs.getD i 0
  let y := fun i => g.ylocs.getD i 0
  if mode = "top_alternating" then do
    let m ← npMax g.ylocs
    let signs ← g.ylocs.mapM fun v => signPower (v - m)
    pure (lexsort g.nsites [fun i => x i * signs.getD i 0, fun i => -y i])
  else if mode = "top_left" then .ok (lexsort g.nsites [x, fun i => -y i])
  else if mode = "bottom_right" then .ok (lexsort g.nsites [x, y])
  else if mode = "adjacency" then
    if g.nsites = 0 then .error .index
    else .ok (lexsort g.nsites ((List.range g.nsites).map fun k : ℕ => walkCount g.adjacency k))
  else .error .value

/-- `self.lattice == other.lattice`: comparing a lattice with `None` reads attributes of `None`. -/
noncomputable def latticeEq : Option Lattice → Option Lattice → Res Bool
  | none, none => .ok true
  | some L, some M => .ok (decide (L.Equal M))
  | _, _ => .error .attribute

/-- `isequal_adjacency`, ed_geometry.py 601-617 (the operator `and` stops at the first false). -/
noncomputable def isequalAdjacency (g h : Geometry) : Res Bool :=
  if g.xdist.Equal h.xdist ∧ g.ydist.Equal h.ydist ∧ g.adjacency.Equal h.adjacency then
    latticeEq g.lattice h.lattice
  else .ok false

/-- `Geometry.__eq__`, ed_geometry.py 619-636. -/
noncomputable def isequal (g h : Geometry) : Res Bool :=
  if g.xlocs = h.xlocs ∧ g.ylocs = h.ylocs ∧ g.xdist.Equal h.xdist ∧ g.ydist.Equal h.ydist ∧
      g.adjacency.Equal h.adjacency then
    latticeEq g.lattice h.lattice
  else .ok false

/-- `get_center_of_mass`, ed_geometry.py 372-380 (the mean of an empty array is `nan`). -/
noncomputable def centerOfMass (g : Geometry) : Res (ℝ × ℝ) :=
  if g.xlocs = [] ∨ g.ylocs = [] then .error .value
  else .ok (g.xlocs.sum / g.xlocs.length, g.ylocs.sum / g.ylocs.length)

end Geometry

end ED
