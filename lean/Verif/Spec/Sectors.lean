import Verif.Spec.Reduced
import Verif.Model.Fermions
import Verif.Model.Spins

/-! # Specification: symmetry of the parameters of a model -/

namespace ED.Spec

/-- The arrays of the fermion model are symmetric in the two sites of a bond, so that no term of the
Hamiltonian depends on the order of the sites. -/
structure FermionBonds (F : Fermions) : Prop where
  hop : ∀ (i j : Fin F.nsites) (s : Fin F.nspecies),
    F.ts i j s * ((|F.xdist i j| + |F.ydist i j| : ℝ) : ℂ) = F.ts j i s * ((|F.xdist j i| + |F.ydist j i| : ℝ) : ℂ)
  same : ∀ (i j : Fin F.nsites) (s : Fin F.nspecies), F.usSame i j s = F.usSame j i s

/-- Permuting the sites does not change hopping, interactions and potentials. -/
structure FermionInvariant (F : Fermions) (π : Equiv.Perm (Fin F.nsites)) : Prop where
  hop : ∀ (i j : Fin F.nsites) (s : Fin F.nspecies),
    F.ts (π i) (π j) s * ((|F.xdist (π i) (π j)| + |F.ydist (π i) (π j)| : ℝ) : ℂ) =
      F.ts i j s * ((|F.xdist i j| + |F.ydist i j| : ℝ) : ℂ)
  same : ∀ (i j : Fin F.nsites) (s : Fin F.nspecies), F.usSame (π i) (π j) s = F.usSame i j s
  inter : ∀ i : Fin F.nsites, F.us (π i) = F.us i
  pot : ∀ (i : Fin F.nsites) (s : Fin F.nspecies), F.pots (π i) s = F.pots i s

/-- The couplings are symmetric in the two sites of a bond. -/
structure SpinBonds (F : Spins) : Prop where
  x : ∀ i j : Fin F.nsites, F.jx i j = F.jx j i
  y : ∀ i j : Fin F.nsites, F.jy i j = F.jy j i
  z : ∀ i j : Fin F.nsites, F.jz i j = F.jz j i

/-- Permuting the sites does not change couplings and fields. -/
structure SpinInvariant (F : Spins) (π : Equiv.Perm (Fin F.nsites)) : Prop where
  jx : ∀ i j : Fin F.nsites, F.jx (π i) (π j) = F.jx i j
  jy : ∀ i j : Fin F.nsites, F.jy (π i) (π j) = F.jy i j
  jz : ∀ i j : Fin F.nsites, F.jz (π i) (π j) = F.jz i j
  hx : ∀ i : Fin F.nsites, F.hx (π i) = F.hx i
  hy : ∀ i : Fin F.nsites, F.hy (π i) = F.hy i
  hz : ∀ i : Fin F.nsites, F.hz (π i) = F.hz i

/-- The symmetry operators of two lists of cycles are matrices, the projectors built from them reduce to a
basis of the space of dimension `D`, and in this basis the Hamiltonian is block diagonal. -/
def DihedralSectors (D : ℕ) (xform : List (List ℕ) → Res Val) (ham : Res Mat)
    (full : Matrix (Fin D) (Fin D) ℂ → Matrix (Fin D) (Fin D) ℂ → Res (List (Matrix (Fin D) (Fin D) ℂ)))
    (reduced : Matrix (Fin D) (Fin D) ℂ → Matrix (Fin D) (Fin D) ℂ → Res (List (List (Fin D → ℂ))))
    (order : ℕ) (dims : List ℕ) (cR cS : List (List ℕ)) : Prop :=
  ∃ MR MS MH P projs, xform cR = .ok (.mat MR) ∧ xform cS = .ok (.mat MS) ∧ ham = .ok MH ∧
    full (asMatrix MR D) (asMatrix MS D) = .ok P ∧ reduced (asMatrix MR D) (asMatrix MS D) = .ok projs ∧
    Reduces order dims P projs ∧ BlockDiagonal projs (asMatrix MH D)

/-- The same for four generators. -/
def TorusSectors (D : ℕ) (xform : List (List ℕ) → Res Val) (ham : Res Mat)
    (full : Matrix (Fin D) (Fin D) ℂ → Matrix (Fin D) (Fin D) ℂ → Matrix (Fin D) (Fin D) ℂ →
      Matrix (Fin D) (Fin D) ℂ → Res (List (Matrix (Fin D) (Fin D) ℂ)))
    (reduced : Matrix (Fin D) (Fin D) ℂ → Matrix (Fin D) (Fin D) ℂ → Matrix (Fin D) (Fin D) ℂ →
      Matrix (Fin D) (Fin D) ℂ → Res (List (List (Fin D → ℂ))))
    (order : ℕ) (dims : List ℕ) (cR cS cX cY : List (List ℕ)) : Prop :=
  ∃ MR MS MX MY MH P projs, xform cR = .ok (.mat MR) ∧ xform cS = .ok (.mat MS) ∧ xform cX = .ok (.mat MX) ∧
    xform cY = .ok (.mat MY) ∧ ham = .ok MH ∧
    full (asMatrix MR D) (asMatrix MS D) (asMatrix MX D) (asMatrix MY D) = .ok P ∧
    reduced (asMatrix MR D) (asMatrix MS D) (asMatrix MX D) (asMatrix MY D) = .ok projs ∧
    Reduces order dims P projs ∧ BlockDiagonal projs (asMatrix MH D)

end ED.Spec
