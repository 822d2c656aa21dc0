import Verif.Spec.Conf
import Mathlib.Data.Matrix.Mul
import Mathlib.Tactic.Ring
import Mathlib.LinearAlgebra.Matrix.ConjTranspose

/-!
# Specification vocabulary: modes and fermions

Independent of the library: the ordering of modes (documented in `ed_base.py` 73-99: first by
species, then by site) and the sign a fermion picks up.
-/

namespace ED

/-- Flat mode number of a site and a species: modes are ordered by species, then by site. -/
def mode {nsites nspecies : ℕ} (site : Fin nsites) (sp : Fin nspecies) :
    Fin (nsites * nspecies) :=
  ⟨nsites * sp + site, by
    have h1 := site.2
    have h2 : (sp : ℕ) + 1 ≤ nspecies := sp.2
    calc nsites * sp + site < nsites * sp + nsites := by omega
      _ = nsites * (sp + 1) := by ring
      _ ≤ nsites * nspecies := Nat.mul_le_mul_left _ h2⟩

/-- Number of occupied modes after mode `i`. -/
def occAfter {n : ℕ} (i : Fin n) (s : Conf n 2) : ℕ :=
  (Finset.univ.filter fun j => i < j ∧ s j = 1).card

/-- Number of occupied modes. -/
def occ {n : ℕ} (s : Conf n 2) : ℕ := (Finset.univ.filter fun j => s j = 1).card

/-- Creation operator of mode `i`: it fills an empty mode `i`, with the sign given by the number of
occupied modes behind it. -/
def create {n : ℕ} (i : Fin n) : Matrix (Conf n 2) (Conf n 2) ℂ :=
  Matrix.of fun s t =>
    if AgreeOff i s t ∧ s i = 1 ∧ t i = 0 then (-1) ^ occAfter i s else 0

/-- Annihilation operator: the adjoint of the creation operator. -/
def annih {n : ℕ} (i : Fin n) : Matrix (Conf n 2) (Conf n 2) ℂ := (create i).conjTranspose

/-- Occupation number operator of mode `i`. -/
def number {n : ℕ} (i : Fin n) : Matrix (Conf n 2) (Conf n 2) ℂ :=
  Matrix.diagonal fun s => if s i = 1 then 1 else 0

/-- The empty configuration. -/
def vac {n : ℕ} : Conf n 2 := fun _ => 0

/-- The state with only mode `i` occupied. -/
def single {n : ℕ} (i : Fin n) : Conf n 2 := Function.update vac i 1

/-- The column vector of a basis state. -/
def ket {ι : Type} [DecidableEq ι] (s : ι) : ι → ℂ := fun t => if t = s then 1 else 0

/-- Number of particles of species `sp` in a configuration. -/
def speciesCount {nsites nspecies : ℕ} (t : Conf (nsites * nspecies) 2) (sp : Fin nspecies) : ℕ :=
  (Finset.univ.filter fun i : Fin nsites => t (mode i sp) = 1).card

/-- The state obtained by creating particles in the listed modes one after the other, the first
listed mode first, starting from the empty state. -/
def createAll {n : ℕ} (modes : List (Fin n)) : Conf n 2 → ℂ :=
  modes.foldl (fun v i => (create i).mulVec v) (ket vac)

/-- `U` is unitary, leaves the empty state alone and moves the particle created on site `i` of
species `s` to site `f s i` of the same species. -/
structure MovesFermions {nsites nspecies : ℕ}
    (U : Matrix (Conf (nsites * nspecies) 2) (Conf (nsites * nspecies) 2) ℂ)
    (f : Fin nspecies → Equiv.Perm (Fin nsites)) : Prop where
  left_inv : U.conjTranspose * U = 1
  right_inv : U * U.conjTranspose = 1
  vacuum : U.mulVec (ket vac) = ket vac
  moves : ∀ s i, U * create (mode i s) * U.conjTranspose = create (mode (f s i) s)

/-- `U` maps the basis configuration `t` to the configuration carrying `t`'s label of site `i` on
site `f i`. -/
def MovesLabels {n b : ℕ} (U : Matrix (Conf n b) (Conf n b) ℂ) (f : Equiv.Perm (Fin n)) : Prop :=
  ∀ t : Conf n b, U.mulVec (ket t) = ket (fun i => t (f.symm i))

end ED
