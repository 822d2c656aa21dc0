import Verif.Model.Geometry
import Verif.Model.Isometry

/-!
# Model of `exact_diag/ed_symmetry.py` 114-213: how sites transform

The library passes arrays of coordinates to the transformation; the functions of the library act on
every column separately, so a transformation is a map of the plane (see `Model/Isometry.lean`). Labels
of sites are natural numbers, where the library stores them as floating point numbers and converts the
result back.
-/

namespace ED

open Classical

namespace Geometry

/-- The coordinates of the sites as points. -/
def points (g : Geometry) : List (ℝ × ℝ) := g.xlocs.zip g.ylocs

/-- Reduction of a list of points modulo the periodicity vectors, if there is a lattice,
ed_symmetry.py 131-137 and 144-150. -/
noncomputable def reducePoints (g : Geometry) (ps : List (ℝ × ℝ)) : Res (List (ℝ × ℝ)) :=
  match g.lattice with
  | some L => do
    let r ← L.reduceToUnitCell (ps.map Prod.fst) (ps.map Prod.snd) "centered"
    pure (r.map fun c => (c.x, c.y))
  | none => pure ps

/-- The condition of ed_symmetry.py 156-157 for two points. -/
def close (tol : ℝ) (t p : ℝ × ℝ) : Prop := |t.1 - p.1| < tol ∧ |t.2 - p.2| < tol

/-- The body of the loop of `getTransformedSites`, ed_symmetry.py 154-162. -/
noncomputable def transformedSite (red tred : List (ℝ × ℝ)) (tol : ℝ) (sites : List ℕ) (ii : ℕ) : Res ℕ :=
  match tred[ii]? with
  | none => .error .index
  | some t =>
    match red.findIdx? (fun p => decide (close tol t p)) with
    | none => .error .generic
    | some j =>
      match sites[j]? with
      | none => .error .index
      | some s => .ok s

/-- `getTransformedSites`, ed_symmetry.py 114-164: the second return value. -/
noncomputable def getTransformedSites (f : ℝ × ℝ → ℝ × ℝ) (sites : List ℕ) (g : Geometry) (tol : ℝ) :
    Res (List ℕ) := do
  let red ← g.reducePoints g.points
  let tred ← g.reducePoints (g.points.map f)
  (List.range sites.length).mapM fun ii => transformedSite red tred tol sites ii

/-- The `while` loop of `findSiteCycles`, ed_symmetry.py 192-195, with `fuel = max_iter - ii`. The
state is the list of columns of `trans_sites` and `current_sites`. -/
noncomputable def cycleLoop (f : ℝ × ℝ → ℝ × ℝ) (g : Geometry) (tol : ℝ) :
    ℕ → List (List ℕ) → List ℕ → Res (List (List ℕ))
  | 0, cols, _ => .ok cols
  | fuel + 1, cols, current =>
    if current = List.range g.nsites then .ok cols
    else do
      let next ← getTransformedSites f (cols.getLastD []) g tol
      cycleLoop f g tol fuel (cols ++ [next]) next

/-- `np.unique(row, return_index=True)` followed by sorting the indices and `row[indices]`: the
different entries in the order of their first appearance, ed_symmetry.py 204-209. -/
def firstAppearances (row : List ℕ) : List ℕ :=
  row.foldl (fun acc x => if x ∈ acc then acc else acc ++ [x]) []

/-- `findSiteCycles`, ed_symmetry.py 167-213. The list of different entries of a row is never empty. -/
noncomputable def findSiteCycles (f : ℝ × ℝ → ℝ × ℝ) (g : Geometry) (tol : ℝ) :
    Res (List (List ℕ) × ℕ) := do
  let n := g.nsites
  let cols ← cycleLoop f g tol (n + 1) [List.range n] (List.replicate n 0)
  let maxCycleLen := cols.length - 1
  if maxCycleLen = n + 1 then throw .generic
  let cycles := (List.range n).foldl (fun cycles ii =>
    if ii ∈ cycles.flatten then cycles
    else cycles ++ [firstAppearances (cols.map fun c => c.getD ii 0)]) []
  pure (cycles, maxCycleLen)

end Geometry

end ED
