import Verif.Spec.Geometry
import Mathlib.Combinatorics.SimpleGraph.Connectivity.Connected

/-! # Specification vocabulary: clusters of integer sites -/

namespace ED

/-- Distinct sites, at least one, listed row by row from the top; the top row goes from left to right, the
next one from right to left and so on. -/
def Snake (l : List (ℤ × ℤ)) : Prop :=
  l.Nodup ∧ ∃ top, (∃ p ∈ l, p.2 = top) ∧ (∀ p ∈ l, p.2 ≤ top) ∧
    l.Pairwise fun p q => siteKey "top_alternating" top p ≤ siteKey "top_alternating" top q

/-- The geometry is the finite cluster with the sites `l`, in this order: it has the data of the geometry
created from these coordinates. -/
def Geometry.HasSites (g : Geometry) (l : List (ℤ × ℤ)) : Prop :=
  ∃ h, Geometry.createNonPeriodic (realSites l).1 (realSites l).2 none none = .ok h ∧ g.SameData h

/-- The geometry is the finite cluster with the sites `l`, and `l` is in the order of sorted clusters. -/
def Geometry.IsCluster (g : Geometry) (l : List (ℤ × ℤ)) : Prop := Snake l ∧ g.HasSites l

/-- A geometry with the distinct integer sites `P`; its adjacency matrix is that of `G`. -/
structure Geometry.IsParent (g : Geometry) (P : List (ℤ × ℤ)) (G : SimpleGraph (ℤ × ℤ)) : Prop where
  xlocs : g.xlocs = (realSites P).1
  ylocs : g.ylocs = (realSites P).2
  nodup : P.Nodup
  adjacency : ∀ i j (hi : i < P.length) (hj : j < P.length), g.adjacency.e i j = 1 ↔ G.Adj P[i] P[j]

/-- Sites that differ by one of the vectors `± lv1`, `± lv2` are neighbours. -/
def latticeGraph (lv1 lv2 : ℤ × ℤ) : SimpleGraph (ℤ × ℤ) where
  Adj p q := p ≠ q ∧ (q = p + lv1 ∨ q = p - lv1 ∨ q = p + lv2 ∨ q = p - lv2)
  symm := ⟨by
    rintro p q ⟨h, h1 | h1 | h1 | h1⟩
    · exact ⟨h.symm, Or.inr (Or.inl (by rw [h1]; abel))⟩
    · exact ⟨h.symm, Or.inl (by rw [h1]; abel)⟩
    · exact ⟨h.symm, Or.inr (Or.inr (Or.inr (by rw [h1]; abel)))⟩
    · exact ⟨h.symm, Or.inr (Or.inr (Or.inl (by rw [h1]; abel)))⟩⟩
  loopless := ⟨fun _ h => h.1 rfl⟩

/-- The square lattice: neighbours have distance one. -/
def squareLattice : SimpleGraph (ℤ × ℤ) := latticeGraph (1, 0) (0, 1)

/-- The sites of a finite set are connected by steps inside the set. -/
def ConnectedSites (G : SimpleGraph (ℤ × ℤ)) (S : Finset (ℤ × ℤ)) : Prop :=
  (G.induce (S : Set (ℤ × ℤ))).Connected

/-- The eight symmetries of the square: exchange of the coordinates and change of their signs. -/
def squareMap (s : Bool × Bool × Bool) (p : ℤ × ℤ) : ℤ × ℤ :=
  let q := if s.1 then (p.2, p.1) else p
  (if s.2.1 then -q.1 else q.1, if s.2.2 then -q.2 else q.2)

/-- `T` is a translate of `S`. -/
def Translate (S T : Finset (ℤ × ℤ)) : Prop := ∃ v, T = S.image (· + v)

/-- `T` is a translate of an image of `S` under a symmetry of the square; without symmetry, a translate of
`S`. -/
def Equivalent (useSymmetry : Bool) (S T : Finset (ℤ × ℤ)) : Prop :=
  if useSymmetry then ∃ s, Translate (S.image (squareMap s)) T else Translate S T

theorem Translate.refl (S : Finset (ℤ × ℤ)) : Translate S S := ⟨0, by simp⟩

theorem Translate.symm {S T : Finset (ℤ × ℤ)} (h : Translate S T) : Translate T S := by
  obtain ⟨v, rfl⟩ := h
  refine ⟨-v, ?_⟩
  rw [Finset.image_image]
  simp [Function.comp_def]

theorem Translate.trans {S T U : Finset (ℤ × ℤ)} (h : Translate S T) (h' : Translate T U) : Translate S U := by
  obtain ⟨v, rfl⟩ := h
  obtain ⟨w, rfl⟩ := h'
  refine ⟨v + w, ?_⟩
  rw [Finset.image_image]
  congr 1
  funext p
  simp [add_assoc]

/-- Finite sets of sites up to translation. -/
def Shape : Type := Quotient (⟨Translate, Translate.refl, Translate.symm, Translate.trans⟩ :
  Setoid (Finset (ℤ × ℤ)))

/-- The shape of a finite set of sites. -/
def shape (S : Finset (ℤ × ℤ)) : Shape := Quotient.mk _ S

/-- The shapes of the images of a set under the symmetries of the square. -/
def imageShapes (S : Finset (ℤ × ℤ)) : Set Shape := Set.range fun s => shape (S.image (squareMap s))

/-- The shapes of the connected sets of `n` sites. -/
def connectedShapes (G : SimpleGraph (ℤ × ℤ)) (n : ℕ) : Set Shape :=
  {c | ∃ S : Finset (ℤ × ℤ), S.card = n ∧ ConnectedSites G S ∧ shape S = c}

/-- The number of elements in the lists before number `k`, i.e. the index in the flat list at which list number `k`
starts. -/
def startOf {α : Type} (Ls : List (List α)) (k : ℕ) : ℕ := ((Ls.map List.length).take k).sum

/-- `l[inds[k]:inds[k + 1]]`. -/
def ofOrder {α : Type} (l : List α) (inds : List ℕ) (k : ℕ) : List α :=
  (l.take (inds.getD (k + 1) 0)).drop (inds.getD k 0)

/-- The symmetries of the square map neighbours to neighbours. -/
def SymmetricGraph (G : SimpleGraph (ℤ × ℤ)) : Prop :=
  ∀ s p q, G.Adj p q → G.Adj (squareMap s p) (squareMap s q)

/-- The number of the connected proper subsets of `S` which are equal to `R` up to translations (and symmetries
of the square). -/
noncomputable def subsetCount (useSymmetry : Bool) (S R : Finset (ℤ × ℤ)) : ℕ :=
  {T : Finset (ℤ × ℤ) | T ⊂ S ∧ ConnectedSites squareLattice T ∧ Equivalent useSymmetry R T}.ncard

end ED
