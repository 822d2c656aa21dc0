import Verif.Model.Geometry

/-! # Specification vocabulary: how a transformation of the plane moves the sites of a geometry -/

namespace ED

/-- The position of site `i`. -/
noncomputable def Geometry.at (g : Geometry) (i : ℕ) : ℝ × ℝ := (g.xlocs.getD i 0, g.ylocs.getD i 0)

/-- Two points are the same up to `tol` in each coordinate, after reduction modulo the periodicity
vectors for a geometry with a lattice. -/
def Lands (g : Geometry) (tol : ℝ) (p q : ℝ × ℝ) : Prop :=
  match g.lattice with
  | none => |p.1 - q.1| < tol ∧ |p.2 - q.2| < tol
  | some L => ∃ c d : Reduced, reduceVectors L.per1 L.per2 [p.1] [p.2] "centered" = .ok [c] ∧
      reduceVectors L.per1 L.per2 [q.1] [q.2] "centered" = .ok [d] ∧ |c.x - d.x| < tol ∧ |c.y - d.y| < tol

/-- The transformation `f` moves every site `i` of the geometry to the site `π i`; if it is close to
several sites the first one is meant. -/
def MovesSites (g : Geometry) (tol : ℝ) (f : ℝ × ℝ → ℝ × ℝ) (π : Fin g.nsites → Fin g.nsites) : Prop :=
  ∀ i : Fin g.nsites, Lands g tol (f (g.at i)) (g.at (π i)) ∧ ∀ j : Fin g.nsites, j < π i → ¬ Lands g tol (f (g.at i)) (g.at j)

end ED
