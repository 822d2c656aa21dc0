import Mathlib.Data.Real.Basic

/-! # Specification: groups of spins coupled with each other

The total spin of two spins of lengths `a/2` and `b/2` has the lengths `|a-b|/2, ..., (a+b)/2` in steps of one, and
`2 S₁·S₂ = S² - S₁² - S₂²`. Lengths of spins are given as natural numbers, twice the length. -/

namespace ED

/-- `s (s + 1)` for a spin of length `s = c / 2`. -/
noncomputable def spinSq (c : ℕ) : ℝ := (c : ℝ) / 2 * ((c : ℝ) / 2 + 1)

/-- The lengths of the sum of two spins. -/
def sumLengths (a b : ℕ) : List ℕ := (List.range (min a b + 1)).map fun k => a + b - 2 * k

/-- A group of spins: one spin, or two groups, where every spin of the first is coupled to every spin of the second with the same
constant. -/
inductive Group
  | one
  | join (g : ℝ) (a b : Group)

namespace Group

/-- The number of spins of a group. -/
def size : Group → ℕ
  | one => 1
  | join _ a b => a.size + b.size

/-- The coupling of spins `i` and `j` of a group; the spins of the first part are counted first. -/
noncomputable def coupling : Group → ℕ → ℕ → ℝ
  | one, _, _ => 0
  | join g a b, i, j =>
    if i < a.size then if j < a.size then a.coupling i j else g
    else if j < a.size then g else b.coupling (i - a.size) (j - a.size)

/-- Total length and energy of a group of spins of length `d / 2`: `Σ_{pairs} 2 g S_i·S_j`. -/
noncomputable def multiplets (d : ℕ) : Group → List (ℕ × ℝ)
  | one => [(d, 0)]
  | join g a b => (a.multiplets d).flatMap fun p => (b.multiplets d).flatMap fun q => (sumLengths p.1 q.1).map fun c =>
      (c, p.2 + q.2 + g * (spinSq c - spinSq p.1 - spinSq q.1))

/-- Spins added one after the other, number `i` (counted from one) coupled to all spins before it with the constant `g i`. -/
noncomputable def chain (g : ℕ → ℝ) : ℕ → Group
  | 0 => one
  | n + 1 => join (g (n + 1)) (chain g n) one

end Group

/-- The levels of multiplets in a field `h` along z: a spin of length `c / 2` has the z components `c/2, c/2 - 1, ..., -c/2`. -/
noncomputable def levels (h : ℝ) (l : List (ℕ × ℝ)) : List ℝ :=
  l.flatMap fun p => (List.range (p.1 + 1)).map fun m : ℕ => p.2 - h * ((p.1 : ℝ) / 2 - m)

end ED
