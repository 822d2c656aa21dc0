import Verif.Model.Geometry
import Mathlib.Data.Prod.Lex

/-! # Specification vocabulary: geometries -/

namespace ED

/-- All matrices have the size of the number of sites. -/
structure Geometry.WellFormed (g : Geometry) : Prop where
  ylocs : g.ylocs.length = g.xlocs.length
  xdist : g.xdist.rows = g.xlocs.length ∧ g.xdist.cols = g.xlocs.length
  ydist : g.ydist.rows = g.xlocs.length ∧ g.ydist.cols = g.xlocs.length
  adjacency : g.adjacency.rows = g.xlocs.length ∧ g.adjacency.cols = g.xlocs.length
  phase : g.phase.rows = g.xlocs.length ∧ g.phase.cols = g.xlocs.length

/-- Two geometries have the same coordinates, distances, adjacency, phases and lattice. -/
structure Geometry.SameData (g h : Geometry) : Prop where
  lattice : g.lattice = h.lattice
  xlocs : g.xlocs = h.xlocs
  ylocs : g.ylocs = h.ylocs
  xdist : g.xdist.Equal h.xdist
  ydist : g.ydist.Equal h.ydist
  adjacency : g.adjacency.Equal h.adjacency
  phase : g.phase.Equal h.phase

/-- Integer coordinates. -/
def realList (l : List ℤ) : List ℝ := l.map fun k : ℤ => (k : ℝ)

/-- Sites with integer coordinates. -/
def realSites (l : List (ℤ × ℤ)) : List ℝ × List ℝ :=
  (realList (l.map Prod.fst), realList (l.map Prod.snd))

/-- The order of the sites after sorting. Sites are ordered by rows: from bottom to top in mode
`bottom_right` and from top to bottom in the other modes. In a row they go from left to right, except that
in mode `top_alternating` every second row, counted from the top row at height `top`, goes from right to
left. -/
def siteKey (mode : String) (top : ℤ) (p : ℤ × ℤ) : ℤ ×ₗ ℤ :=
  toLex (if mode = "bottom_right" then p.2 else -p.2,
    if mode = "top_alternating" ∧ ¬ Even (p.2 - top) then -p.1 else p.1)

/-- Sort the sites of a geometry: permute by the sorting permutation, as in ed_nlce.py 57. -/
noncomputable def Geometry.sorted (g : Geometry) (mode : String) : Res Geometry := do
  g.permuteSites (← g.sortingPermutation mode)

end ED
