import Mathlib.Algebra.Algebra.Basic
import Mathlib.Data.Complex.Basic

/-!
# Specification: projectors onto the isotypic components of a representation

`P` is a list of unnormalised projectors, `dims` the dimensions of the irreducible representations they
belong to and `order` the order of the group.
-/

namespace ED.Spec

/-- The operators `(dims i / order) P i` are mutually orthogonal idempotents with sum one. -/
structure Decomposes {A : Type} [Ring A] [Algebra ℂ A] (order : ℕ) (dims : List ℕ) (P : List A) :
    Prop where
  length : P.length = dims.length
  orth : ∀ i j (hi : i < P.length) (hj : j < P.length), i ≠ j → P[i] * P[j] = 0
  idem : ∀ i (hi : i < P.length) (hd : i < dims.length),
    (dims[i] : ℂ) • (P[i] * P[i]) = (order : ℂ) • P[i]
  complete : (List.zipWith (fun d p => ((d : ℕ) : ℂ) • p) dims P).sum = (order : ℂ) • (1 : A)

/-- Every operator of the list commutes with `g`. -/
def AllCommute {A : Type} [Ring A] (P : List A) (g : A) : Prop := ∀ p ∈ P, g * p = p * g

/-- The relations of the dihedral group of order `2n`. -/
structure Dihedral {A : Type} [Monoid A] (n : ℕ) (R S : A) : Prop where
  rot : R ^ n = 1
  refl : S * S = 1
  conj : S * R * S = R ^ (n - 1)

/-- The relations of the symmetry group of the 3x3 torus with a rotation that turns the x direction
into the y direction (counter-clockwise) and a reflection that inverts x. -/
structure Torus3 {A : Type} [Monoid A] (R S X Y : A) : Prop where
  dihedral : Dihedral 4 R S
  x : X ^ 3 = 1
  y : Y ^ 3 = 1
  xy : X * Y = Y * X
  rx : R * X = Y * R
  ry : R * Y = X ^ 2 * R
  sx : S * X = X ^ 2 * S
  sy : S * Y = Y * S

/-- The same with the rotation turning the other way (clockwise). -/
structure Torus3cw {A : Type} [Monoid A] (R S X Y : A) : Prop where
  dihedral : Dihedral 4 R S
  x : X ^ 3 = 1
  y : Y ^ 3 = 1
  xy : X * Y = Y * X
  rx : R * X = Y ^ 2 * R
  ry : R * Y = X * R
  sx : S * X = X ^ 2 * S
  sy : S * Y = Y * S

end ED.Spec
