import Verif.Model.Mat
import Mathlib.Data.Matrix.Basic
import Mathlib.Algebra.BigOperators.Fin
import Mathlib.Data.Fintype.Card

/-!
# Specification vocabulary: configurations and operators on them

A basis state of `n` modes with local dimension `b` is a function `Fin n → Fin b`. The library
orders basis states as a tensor product, mode `0` being the most significant digit
(`ed_base.py` lines 43-99, class docstring). `idx` is that documented order, and `M.op n b` reads
a returned matrix as an operator on configurations. Nothing here refers to how the library
constructs its operators.
-/

namespace ED

open scoped BigOperators

/-- Basis configurations: occupation (or level index) of every mode. -/
abbrev Conf (n b : ℕ) := Fin n → Fin b

/-- Position of a configuration in the documented basis order (mode 0 most significant). -/
def idx {n b : ℕ} (s : Conf n b) : ℕ := ∑ i : Fin n, (s i : ℕ) * b ^ (n - 1 - (i : ℕ))

/-- Operators on `n` modes of local dimension `b`, given by elements between configurations. -/
abbrev Op (n b : ℕ) := Matrix (Conf n b) (Conf n b) ℂ

/-- The operator represented by a returned matrix: its elements between configurations. -/
def Mat.op (M : Mat) (n b : ℕ) : Matrix (Conf n b) (Conf n b) ℂ :=
  Matrix.of fun s t => M.e (idx s) (idx t)

/-- `M` is a square matrix of the dimension of `n` modes with local dimension `b`. -/
def Mat.HasDim (M : Mat) (n b : ℕ) : Prop := M.rows = b ^ n ∧ M.cols = b ^ n

/-- The local (one-mode) operator represented by a `b × b` array. -/
def Mat.loc (M : Mat) (b : ℕ) : Matrix (Fin b) (Fin b) ℂ := Matrix.of fun i j => M.e i j

/-- `M` is a `b × b` array. -/
def Mat.IsLoc (M : Mat) (b : ℕ) : Prop := M.rows = b ∧ M.cols = b

/-- Configurations agree except possibly at mode `i`. -/
def AgreeOff {n b : ℕ} (i : Fin n) (s t : Conf n b) : Prop := ∀ j, j ≠ i → s j = t j

instance {n b : ℕ} (i : Fin n) (s t : Conf n b) : Decidable (AgreeOff i s t) := by
  unfold AgreeOff; infer_instance

/-- A finite index type with a fixed numbering `0, 1, …, card - 1`. -/
class Basis (ι : Type) [Fintype ι] where
  num : ι → ℕ
  inj : Function.Injective num
  lt : ∀ i, num i < Fintype.card ι

/-- Rows or columns numbered by `Fin k`. -/
instance (k : ℕ) : Basis (Fin k) := ⟨Fin.val, Fin.val_injective, fun i => by simp⟩

/-- The array `M` holds exactly the matrix `O`, rows and columns in basis order. -/
def Mat.Is {ι κ : Type} [Fintype ι] [Fintype κ] [Basis ι] [Basis κ] (M : Mat)
    (O : Matrix ι κ ℂ) : Prop :=
  M.rows = Fintype.card ι ∧ M.cols = Fintype.card κ ∧
    ∀ i j, M.e (Basis.num i) (Basis.num j) = O i j

/-- The call `r` does not raise and returns an array holding exactly the matrix `O`. -/
def Gives {ι κ : Type} [Fintype ι] [Fintype κ] [Basis ι] [Basis κ] (r : Res Mat)
    (O : Matrix ι κ ℂ) : Prop :=
  ∃ M, r = .ok M ∧ M.Is O

/-- A returned number or matrix represents the operator `O` (a number stands for that multiple of
the identity, which is how it acts in products). -/
def Val.Is {ι : Type} [Fintype ι] [DecidableEq ι] [Basis ι] : Val → Matrix ι ι ℂ → Prop
  | .num z, O => O = z • (1 : Matrix ι ι ℂ)
  | .mat M, O => M.Is O

end ED
