import Mathlib.Data.Complex.Basic
import Mathlib.Algebra.BigOperators.Group.Finset.Basic

/-!
# Python values used by the library: exceptions, sparse/dense matrices, numbers

These definitions model the numpy/scipy primitives that the code in `/repo/exact_diag` calls.
Simplifications: floats are exact complex numbers; the storage format of a sparse matrix
(csr/csc/coo/dense) is not modelled; indices are natural numbers.
-/

namespace ED

open scoped BigOperators

/-- Python exceptions that the library code can raise; used as error values. -/
inductive PyErr
  | generic      -- `raise Exception(...)`
  | value        -- `ValueError`
  | type         -- `TypeError`
  | attribute    -- `AttributeError`
  | index        -- `IndexError`
  | key          -- `KeyError`
  | shape        -- dimension mismatch in numpy/scipy (`ValueError: dimension mismatch`)
  | notImpl      -- `NotImplementedError`
  | zeroDiv      -- `ZeroDivisionError`
  deriving DecidableEq, Repr

/-- Result of a Python call. -/
abbrev Res (α : Type) := Except PyErr α

/-- A two-dimensional numpy array or scipy sparse matrix: a shape and its entries.
Only entries inside the shape are meaningful. -/
structure Mat where
  rows : ℕ
  cols : ℕ
  e : ℕ → ℕ → ℂ

namespace Mat

/-- `sp.eye(n)` / `np.eye(n)`. -/
def eye (n : ℕ) : Mat := ⟨n, n, fun i j => if i = j then 1 else 0⟩

/-- `sp.kron(A, B)`: scipy's (row-major) Kronecker product. -/
def kron (A B : Mat) : Mat :=
  ⟨A.rows * B.rows, A.cols * B.cols,
    fun i j => A.e (i / B.rows) (j / B.cols) * B.e (i % B.rows) (j % B.cols)⟩

/-- `A.dot(B)` / `A * B` for sparse matrices: matrix product, raising on a shape mismatch. -/
def mul (A B : Mat) : Res Mat :=
  if A.cols = B.rows then
    .ok ⟨A.rows, B.cols, fun i j => ∑ k ∈ Finset.range A.cols, A.e i k * B.e k j⟩
  else .error .shape

/-- `A + B` for two matrices of the same shape. -/
def add (A B : Mat) : Res Mat :=
  if A.rows = B.rows ∧ A.cols = B.cols then .ok ⟨A.rows, A.cols, fun i j => A.e i j + B.e i j⟩
  else .error .shape

/-- `z * A` for a number `z`. -/
def smul (z : ℂ) (A : Mat) : Mat := ⟨A.rows, A.cols, fun i j => z * A.e i j⟩

/-- `A - B` for two matrices of the same shape. -/
def sub (A B : Mat) : Res Mat := A.add (smul (-1) B)

/-- `A.conj().transpose()`. -/
def dagger (A : Mat) : Mat := ⟨A.cols, A.rows, fun i j => (starRingEnd ℂ) (A.e j i)⟩

/-- `A.transpose()`. -/
def transpose (A : Mat) : Mat := ⟨A.cols, A.rows, fun i j => A.e j i⟩

/-- The all-zero matrix `sp.csr_matrix((r, c))`. -/
def zero (r c : ℕ) : Mat := ⟨r, c, fun _ _ => 0⟩

/-- A literal 2x2 array `np.array([[a, b], [c, d]])`. -/
def lit2 (a b c d : ℂ) : Mat :=
  ⟨2, 2, fun i j => if i = 0 then (if j = 0 then a else b) else (if j = 0 then c else d)⟩

end Mat

/-- A Python object that is either a number or a matrix, as produced by code that starts an
accumulator at the integer `0` or `1`. -/
inductive Val
  | num (z : ℂ)
  | mat (M : Mat)

namespace Val

/-- `a * b` where either may be a number (scipy semantics: matrix product for two matrices). -/
def mul : Val → Val → Res Val
  | num a, num b => .ok (num (a * b))
  | num a, mat B => .ok (mat (B.smul a))
  | mat A, num b => .ok (mat (A.smul b))
  | mat A, mat B => (A.mul B).map mat

open Classical in
/-- `a + b` where either may be a number; scipy only allows adding the number `0` to a sparse
matrix and raises `NotImplementedError` otherwise. -/
noncomputable def add : Val → Val → Res Val
  | num a, num b => .ok (num (a + b))
  | num a, mat B => if a = 0 then .ok (mat B) else .error .notImpl
  | mat A, num b => if b = 0 then .ok (mat A) else .error .notImpl
  | mat A, mat B => (A.add B).map mat

/-- `x.tocsr()`: an `AttributeError` on a Python number. -/
def tocsr : Val → Res Mat
  | num _ => .error .attribute
  | mat A => .ok A

end Val

end ED
