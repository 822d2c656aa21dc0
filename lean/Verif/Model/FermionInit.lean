import Verif.Model.Broadcast
import Verif.Model.Geometry

/-!
# Model of `exact_diag/ed_fermions.py`: parameters of the constructor

Arrays have complex entries; the dtype is not tracked. Arrays made with `np.zeros` are real, and numpy discards the
imaginary part of an array that is assigned to a part of them (with a warning).
-/

namespace ED

/-- `a.size`. -/
def ND.size {α : Type} (a : ND α) : ℕ := a.shape.prod

/-- `np.ones(s)`. -/
def ND.ones (s : List ℕ) : ND ℂ := ⟨s, fun _ => 1⟩

/-- `np.zeros(s)`. -/
def ND.zeros (s : List ℕ) : ND ℂ := ⟨s, fun _ => 0⟩

/-- `a[i]` for `i ≥ 0`. -/
def ND.item (a : ND ℂ) (i : ℕ) : Res (ND ℂ) :=
  match a.shape with
  | [] => .error .index
  | n :: _ => if i < n then .ok (a.row i) else .error .index

/-- A two-dimensional array. -/
def Arr.toND (A : Arr ℂ) : ND ℂ := ⟨[A.rows, A.cols], fun idx => A.e (idx.getD 0 0) (idx.getD 1 0)⟩

/-- `a[..., i] = v` for a real array `a` and an index inside the last axis. -/
def ND.setLast (a : ND ℂ) (i : ℕ) (v : ND ℂ) : Res (ND ℂ) :=
  if assignable v.shape a.shape.dropLast then
    .ok ⟨a.shape, fun idx =>
      if idx.getLast? = some i then ((v.data (bcIdx v.shape idx.dropLast)).re : ℂ) else a.data idx⟩
  else .error .value

/-- `a[..., None]`. -/
def ND.newAxis (a : ND ℂ) : ND ℂ := ⟨a.shape ++ [1], fun idx => a.data idx.dropLast⟩

/-- `if x.size == 1: x = x * np.ones(n)`, ed_fermions.py 238-239 and 259-260. -/
noncomputable def repeatScalar (x : ND ℂ) (n : ℕ) : Res (ND ℂ) :=
  if x.size = 1 then x.zip (· * ·) (ND.ones [n]) else .ok x

/-- The adjacency matrix as a complex array. -/
def Geometry.adjacencyND (g : Geometry) : ND ℂ :=
  Arr.toND ⟨g.adjacency.rows, g.adjacency.cols, fun i j => (g.adjacency.e i j : ℂ)⟩

open Classical in
/-- The body of the loop of `get_hopping_mat`, ed_fermions.py 242-246. -/
noncomputable def hoppingStep (g : Geometry) (t : ND ℂ) (H : ND ℂ) (ii : ℕ) : Res (ND ℂ) := do
  let x ← t.item ii
  let ap ← g.adjacencyND.zip (· * ·) g.phase.toND
  let v ← x.zip (· * ·) ap
  let H ← H.setLast ii v
  if ∀ i < g.nsites, ∀ j < g.nsites, H.data [i, j, ii] = star (H.data [j, i, ii]) then pure H
  else throw .generic

/-- `get_hopping_mat`, ed_fermions.py 228-248. -/
noncomputable def hoppingMat (g : Geometry) (nspecies : ℕ) (t : ND ℂ) : Res (ND ℂ) := do
  let t ← repeatScalar t nspecies
  (List.range nspecies).foldlM (hoppingStep g t) (ND.zeros [g.nsites, g.nsites, nspecies])

/-- `get_samespecies_int_mat`, ed_fermions.py 250-266. -/
noncomputable def sameSpeciesMat (g : Geometry) (nspecies : ℕ) (u : ND ℂ) : Res (ND ℂ) := do
  let u ← repeatScalar u nspecies
  (List.range nspecies).foldlM (fun U ii => do
    let x ← u.item ii
    let v ← x.zip (· * ·) g.adjacencyND
    U.setLast ii v) (ND.zeros [g.nsites, g.nsites, nspecies])

/-- `self.ts`, ed_fermions.py 72-84. -/
noncomputable def initTs (g : Geometry) (nspecies : ℕ) (ts : ND ℂ) : Res (ND ℂ) := do
  let r ← if ts.size = nspecies ∨ ts.size = 1 then hoppingMat g nspecies ts
    else if ts.shape = [g.nsites, g.nsites, nspecies] then pure ts
    else if ts.shape = [g.nsites, g.nsites] ∧ nspecies = 1 then pure ts.newAxis
    else throw .generic
  if r.shape = [g.nsites, g.nsites, nspecies] then pure r else throw .generic

/-- `self.us_interspecies`, ed_fermions.py 86-94. -/
noncomputable def initUs (g : Geometry) (us : ND ℂ) : Res (ND ℂ) := do
  let r ← repeatScalar us g.nsites
  if r.size ≠ g.nsites then throw .generic else pure r

/-- `self.us_same_species`, ed_fermions.py 96-108. -/
noncomputable def initUsSame (g : Geometry) (nspecies : ℕ) (us : ND ℂ) : Res (ND ℂ) := do
  let r ← if us.size = 1 ∨ us.size = nspecies then sameSpeciesMat g nspecies us
    else if us.shape = [g.nsites, g.nsites, nspecies] then pure us
    else if us.shape = [g.nsites, g.nsites] ∧ nspecies = 1 then pure us.newAxis
    else throw .generic
  if r.shape = [g.nsites, g.nsites, nspecies] then pure r else throw .generic

/-- `self.mus`, ed_fermions.py 110-118. For another size the attribute does not exist when its size is checked. -/
noncomputable def initMus (nspecies : ℕ) (mus : ND ℂ) : Res (ND ℂ) := do
  let r ← if mus.size = 1 then mus.zip (· * ·) (ND.ones [nspecies])
    else if mus.size = nspecies then pure mus
    else throw .attribute
  if r.size ≠ nspecies then throw .generic else pure r

/-- `self.potentials[ii, :] = v` on a real array; `IndexError` outside the first axis. -/
noncomputable def setPotentialRow (W : ND ℂ) (ii : ℕ) (v : ND ℂ) : Res (ND ℂ) :=
  if ii < W.shape.headD 0 then W.setRow ii ⟨v.shape, fun idx => ((v.data idx).re : ℂ)⟩ else .error .index

/-- `self.potentials`, ed_fermions.py 120-136. -/
noncomputable def initPotentials (g : Geometry) (nspecies : ℕ) (pots : ND ℂ) : Res (ND ℂ) := do
  let r ← if pots.size = 1 then pots.zip (· * ·) (ND.ones [g.nsites, nspecies])
    else if pots.size = nspecies then
      (List.range nspecies).foldlM (fun W ii => do
        let x ← pots.item ii
        let v ← x.zip (· * ·) (ND.ones [g.nsites])
        setPotentialRow W ii v) (ND.zeros [g.nsites, nspecies])
    else if pots.shape = [g.nsites, nspecies] then pure pots
    else if pots.shape = [g.nsites] ∧ nspecies = 1 then pure pots.newAxis
    else throw .generic
  if r.shape = [g.nsites, nspecies] then pure r else throw .generic

/-- The parameters of a `fermions` instance. -/
structure FermionParams where
  ts : ND ℂ
  us : ND ℂ
  usSame : ND ℂ
  mus : ND ℂ
  pots : ND ℂ

/-- `fermions.__init__` up to the number projection, ed_fermions.py 68-136. -/
noncomputable def initFermions (g : Geometry) (us ts mus pots usSame : ND ℂ) (nspecies : ℕ) :
    Res FermionParams := do
  let ts ← initTs g nspecies ts
  let us ← initUs g us
  let usSame ← initUsSame g nspecies usSame
  let mus ← initMus nspecies mus
  let pots ← initPotentials g nspecies pots
  pure ⟨ts, us, usSame, mus, pots⟩

end ED
