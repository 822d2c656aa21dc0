import Verif.Model.Numpy
import Mathlib.Analysis.SpecialFunctions.Trigonometric.Basic
import Mathlib.Analysis.SpecialFunctions.Sqrt
import Mathlib.Algebra.Algebra.Basic
import Mathlib.Algebra.BigOperators.Group.List.Basic

/-!
# Model of the symmetry projectors of `ed_symmetry.py`

The operators (square sparse matrices of one size) are elements of an arbitrary algebra `A` over the
complex numbers; `sp.eye` is its unit. This file models the functions up to the unnormalised
projectors that `get_symmetry_projectors` passes to `reduce_symm_projector`.
-/

namespace ED

open scoped BigOperators

/-- What casting `order / 0` to an integer gives in numpy (infinity or nan becomes the smallest
64-bit integer). -/
def int64Min : ℤ := -9223372036854775808

/-- Entry of `np.array(order / cc_sizes, dtype=int)`, ed_symmetry.py 814. -/
def orderOver (order size : ℕ) : ℤ := if size = 0 then int64Min else ((order / size : ℕ) : ℤ)

/-- `validate_char_table`, ed_symmetry.py 792-827, for a table of `n` rows and `n` columns and `n`
conjugacy classes of the given sizes. (Tables of other shapes are not modelled.) -/
noncomputable def validateCharTable (n : ℕ) (table : ℕ → ℕ → ℂ) (sizes : ℕ → ℕ) : Prop :=
  let order := ∑ c ∈ Finset.range n, sizes c
  (∀ i < n, ∀ j < n,
    (if i = j then orderOver order (sizes i) else 0) =
      rint (∑ k ∈ Finset.range n, table k i * (starRingEnd ℂ) (table k j)).re) ∧
  (∀ i < n, ∀ j < n,
    (if i = j then (order : ℤ) else 0) =
      rint (∑ c ∈ Finset.range n, table i c * (starRingEnd ℂ) (table j c) * (sizes c : ℂ)).re)

/-- A table given by its rows, as a function of row and column. -/
noncomputable def tableOf (rows : List (List ℂ)) : ℕ → ℕ → ℂ := fun i c => (rows.getD i []).getD c 0

section

variable {A : Type} [Ring A] [Algebra ℂ A]

/-- `sum([np.conj(ch) * cs for ch, cs in zip(chars, class_sums)])` with
`class_sums = [sum(cc) for cc in conjugacy_classes]`, ed_symmetry.py 350-354. -/
noncomputable def symmProjFull (chars : List ℂ) (classes : List (List A)) : A :=
  ((chars.zip (classes.map List.sum)).map fun p => (starRingEnd ℂ) p.1 • p.2).sum

open Classical in
/-- `get_symmetry_projectors`, ed_symmetry.py 332-363: validation and the unnormalised projectors, one
for each row of the table. (The reduction to a basis of the row space and the final check of the
dimensions are not part of this definition.) -/
noncomputable def getSymmetryProjectors (table : List (List ℂ)) (classes : List (List A)) :
    Res (List A) :=
  if validateCharTable table.length (tableOf table) (fun c => (classes.getD c []).length) then
    .ok (table.map fun chars => symmProjFull chars classes)
  else .error .generic

/-- `getD2Projectors`, ed_symmetry.py 455-487. -/
noncomputable def d2Table : List (List ℂ) :=
  [[1, 1, 1, 1], [1, 1, -1, -1], [1, -1, 1, -1], [1, -1, -1, 1]]

/-- `conj_classes` of `getD2Projectors`, ed_symmetry.py 484. -/
def d2Classes (R S : A) : List (List A) := [[1], [R], [S], [R * S]]

/-- `getD2Projectors`, ed_symmetry.py 455-487. -/
noncomputable def getD2Projectors (R S : A) : Res (List A) :=
  getSymmetryProjectors d2Table (d2Classes R S)

/-- `char_table` of `getD3Projectors`, ed_symmetry.py 517-519. -/
noncomputable def d3Table : List (List ℂ) := [[1, 1, 1], [1, 1, -1], [2, -1, 0]]

/-- `conj_classes` of `getD3Projectors`, ed_symmetry.py 520-521. -/
def d3Classes (R S : A) : List (List A) := [[1], [R, R ^ 2], [S, R * S, R ^ 2 * S]]

/-- `getD3Projectors`, ed_symmetry.py 490-525. -/
noncomputable def getD3Projectors (R S : A) : Res (List A) :=
  getSymmetryProjectors d3Table (d3Classes R S)

/-- `char_table` of `getD4Projectors`, ed_symmetry.py 555-559. -/
noncomputable def d4Table : List (List ℂ) :=
  [[1, 1, 1, 1, 1], [1, 1, 1, -1, -1], [1, -1, 1, 1, -1], [1, -1, 1, -1, 1], [2, 0, -2, 0, 0]]

/-- `conj_classes` of `getD4Projectors`, ed_symmetry.py 560-563. -/
def d4Classes (R S : A) : List (List A) :=
  [[1], [R, R ^ 3], [R ^ 2], [S, R ^ 2 * S], [R * S, R ^ 3 * S]]

/-- `getD4Projectors`, ed_symmetry.py 528-568. -/
noncomputable def getD4Projectors (R S : A) : Res (List A) :=
  getSymmetryProjectors d4Table (d4Classes R S)

/-- `char_table` of `getD5Projectors`, ed_symmetry.py 582-585. -/
noncomputable def d5Table : List (List ℂ) :=
  [[1, 1, 1, 1], [1, -1, 1, 1],
   [2, 0, -(1 + (Real.sqrt 5 : ℂ)) / 2, (-1 + (Real.sqrt 5 : ℂ)) / 2],
   [2, 0, (-1 + (Real.sqrt 5 : ℂ)) / 2, -(1 + (Real.sqrt 5 : ℂ)) / 2]]

/-- `conj_classes` of `getD5Projectors`, ed_symmetry.py 586-589. -/
def d5Classes (R S : A) : List (List A) :=
  [[1], [S, R * S, R ^ 2 * S, R ^ 3 * S, R ^ 4 * S], [R, R ^ 4], [R ^ 2, R ^ 3]]

/-- `getD5Projectors`, ed_symmetry.py 571-594. -/
noncomputable def getD5Projectors (R S : A) : Res (List A) :=
  getSymmetryProjectors d5Table (d5Classes R S)

/-- `char_table` of `getD6Projectors`, ed_symmetry.py 608-613. -/
noncomputable def d6Table : List (List ℂ) :=
  [[1, 1, 1, 1, 1, 1], [1, 1, -1, -1, 1, 1], [1, -1, -1, 1, 1, -1], [1, -1, 1, -1, 1, -1],
   [2, 2, 0, 0, -1, -1], [2, -2, 0, 0, -1, 1]]

/-- `conj_classes` of `getD6Projectors`, ed_symmetry.py 614-619. -/
def d6Classes (R S : A) : List (List A) :=
  [[1], [R ^ 3], [R * S, R ^ 3 * S, R ^ 5 * S], [S, R ^ 2 * S, R ^ 4 * S], [R ^ 2, R ^ 4], [R, R ^ 5]]

/-- `getD6Projectors`, ed_symmetry.py 597-624. -/
noncomputable def getD6Projectors (R S : A) : Res (List A) :=
  getSymmetryProjectors d6Table (d6Classes R S)

/-- `char_table` of `getD7Projectors`, ed_symmetry.py 638-642. -/
noncomputable def d7Table : List (List ℂ) :=
  [[1, 1, 1, 1, 1], [1, -1, 1, 1, 1],
   [2, 0, (2 * Real.cos (2 * Real.pi / 7) : ℝ), (2 * Real.cos (4 * Real.pi / 7) : ℝ),
     (2 * Real.cos (6 * Real.pi / 7) : ℝ)],
   [2, 0, (2 * Real.cos (4 * Real.pi / 7) : ℝ), (2 * Real.cos (6 * Real.pi / 7) : ℝ),
     (2 * Real.cos (2 * Real.pi / 7) : ℝ)],
   [2, 0, (2 * Real.cos (6 * Real.pi / 7) : ℝ), (2 * Real.cos (2 * Real.pi / 7) : ℝ),
     (2 * Real.cos (4 * Real.pi / 7) : ℝ)]]

/-- `conj_classes` of `getD7Projectors`, ed_symmetry.py 643-648. -/
def d7Classes (R S : A) : List (List A) :=
  [[1], [S, R * S, R ^ 2 * S, R ^ 3 * S, R ^ 4 * S, R ^ 5 * S, R ^ 6 * S], [R, R ^ 6],
   [R ^ 3, R ^ 4], [R ^ 2, R ^ 5]]

/-- `getD7Projectors`, ed_symmetry.py 627-653. -/
noncomputable def getD7Projectors (R S : A) : Res (List A) :=
  getSymmetryProjectors d7Table (d7Classes R S)

/-- `char_table` of `getC4V_and_3byb3`, ed_symmetry.py 760-768. -/
noncomputable def torusTable : List (List ℂ) :=
  [[1, 1, 1, 1, 1, 1, 1, 1, 1],
   [1, -1, 1, -1, 1, 1, -1, -1, 1],
   [1, -1, 1, 1, -1, 1, -1, 1, 1],
   [1, 1, 1, -1, -1, 1, 1, -1, 1],
   [2, 0, -2, 0, 0, 2, 0, 0, 2],
   [4, -2, 0, 0, 0, 1, 1, 0, -2],
   [4, 0, 0, -2, 0, -2, 0, 1, 1],
   [4, 0, 0, 2, 0, -2, 0, -1, 1],
   [4, 2, 0, 0, 0, 1, -1, 0, -2]]

/-- `conj_classes` of `getC4V_and_3byb3`, ed_symmetry.py 718-758: `c1, ..., c9` in this order. -/
def torusClasses (R S X Y : A) : List (List A) :=
  [[1],
   [R * S, R ^ 3 * S, X * Y ^ 2 * R * S, X ^ 2 * Y * R * S, X * Y * R ^ 3 * S,
     X ^ 2 * Y ^ 2 * R ^ 3 * S],
   [R ^ 2, X * R ^ 2, X ^ 2 * R ^ 2, Y * R ^ 2, Y ^ 2 * R ^ 2, X * Y * R ^ 2, X * Y ^ 2 * R ^ 2,
     X ^ 2 * Y * R ^ 2, X ^ 2 * Y ^ 2 * R ^ 2],
   [S, R ^ 2 * S, X * S, X ^ 2 * S, Y * R ^ 2 * S, Y ^ 2 * R ^ 2 * S],
   [R, R ^ 3, X * R, X ^ 2 * R, Y * R, Y ^ 2 * R, X * Y * R, X * Y ^ 2 * R, X ^ 2 * Y * R,
     X ^ 2 * Y ^ 2 * R, X * R ^ 3, X ^ 2 * R ^ 3, Y * R ^ 3, Y ^ 2 * R ^ 3, X * Y * R ^ 3,
     X * Y ^ 2 * R ^ 3, X ^ 2 * Y * R ^ 3, X ^ 2 * Y ^ 2 * R ^ 3],
   [X * Y, X ^ 2 * Y, X * Y ^ 2, X ^ 2 * Y ^ 2],
   [X * R * S, X ^ 2 * R * S, Y * R * S, Y ^ 2 * R * S, X * Y * R * S, X ^ 2 * Y ^ 2 * R * S,
     X * R ^ 3 * S, X ^ 2 * R ^ 3 * S, Y * R ^ 3 * S, Y ^ 2 * R ^ 3 * S, X * Y ^ 2 * R ^ 3 * S,
     X ^ 2 * Y * R ^ 3 * S],
   [Y * S, Y ^ 2 * S, X * Y * S, X * Y ^ 2 * S, X ^ 2 * Y * S, X ^ 2 * Y ^ 2 * S, X * R ^ 2 * S,
     X ^ 2 * R ^ 2 * S, X * Y * R ^ 2 * S, X * Y ^ 2 * R ^ 2 * S, X ^ 2 * Y * R ^ 2 * S,
     X ^ 2 * Y ^ 2 * R ^ 2 * S],
   [X, X ^ 2, Y, Y ^ 2]]

/-- `getC4V_and_3byb3`, ed_symmetry.py 656-772. -/
noncomputable def getC4VAnd3by3 (R S X Y : A) : Res (List A) :=
  getSymmetryProjectors torusTable (torusClasses R S X Y)

/-- `getC4V_and_4by4`, ed_symmetry.py 775-789, is not implemented. -/
def getC4VAnd4by4 (_R _S _X _Y : A) : Res (List A) := .error .notImpl

/-- `char_table` of `getZnProjectors`, ed_symmetry.py 400-401: `np.meshgrid(range(n), range(n))` gives
the column number as `kx` and the row number as `ky`. Real and imaginary parts are rounded. -/
noncomputable def znTable (n : ℕ) : ℕ → ℕ → ℂ := fun i l =>
  let z := Complex.exp (-2 * Real.pi * Complex.I / n * l * i)
  ⟨npRound 14 z.re, npRound 14 z.im⟩

end

end ED
