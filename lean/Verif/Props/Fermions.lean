import Verif.Props.Symmetry
import Verif.Lemmas.HubbardAlg
import Verif.Props.States

/-! # Properties C13 (fermions), C25–C28, C30: the fermion Hamiltonian -/

namespace ED.Props

open scoped BigOperators
open Matrix

/-- The requirement under which the Hamiltonian can be built: an inter-species interaction needs
two species. -/
def InterOk (F : Fermions) : Prop := 2 ≤ F.nspecies ∨ ∀ i : Fin F.nsites, F.us i = 0

/-! ## C27: the Hamiltonian, term by term -/

/-- C27: exactly which operator `createH` builds. The hopping between two sites is multiplied by
`|dx| + |dy|` of their separation, and only the entries below the diagonal are used. -/
theorem C27_hamiltonian (F : Fermions) (h : InterOk F) :
    Gives (F.createH none)
      (hubInter (fun i => F.us i) +
        (hubSame (fun i j s => F.usSame i j s) +
          hubHop (fun i j s => F.ts i j s * ((|F.xdist i j| + |F.ydist i j| : ℝ) : ℂ)) +
          hubPot (fun i s => F.pots i s - F.mus s)) : Op (F.nsites * F.nspecies) 2) :=
  createH_gives h

/-- C27 (what holds): if the hopping matrix is symmetric and every bond has `|dx| + |dy| = 1`, the
amplitude for a particle to go from site `j` to site `i` is `-ts[i, j]`. The full claim (every
geometry and every Hermitian hopping matrix) fails, see the two theorems below. -/
theorem C27_amplitude_partial (F : Fermions) (h : InterOk F)
    (hsym : ∀ (i j : Fin F.nsites) (s : Fin F.nspecies), F.ts i j s = F.ts j i s)
    (hunit : ∀ (i j : Fin F.nsites) (s : Fin F.nspecies), i ≠ j → F.ts i j s ≠ 0 →
      |F.xdist i j| + |F.ydist i j| = 1) :
    ∃ H : Op (F.nsites * F.nspecies) 2, Gives (F.createH none) H ∧
      ∀ (i j : Fin F.nsites) (s : Fin F.nspecies), i ≠ j →
        H (single (mode i s)) (single (mode j s)) = -F.ts i j s := by
  refine ⟨_, createH_gives h, fun i j s hij => ?_⟩
  rw [hubRest_single F hij, hopWeight]
  have key : ∀ i j : Fin F.nsites, i ≠ j → F.ts i j s * ((|F.xdist i j| + |F.ydist i j| : ℝ) : ℂ) =
      F.ts i j s := by
    intro i j hij
    by_cases h0 : F.ts i j s = 0
    · rw [h0, zero_mul]
    · rw [hunit i j s hij h0]; simp
  have hne : max i j ≠ min i j := by simpa [eq_comm] using hij
  rw [key _ _ hne]
  rcases le_total i j with h' | h'
  · rw [max_eq_right h', min_eq_left h', hsym]
  · rw [max_eq_left h', min_eq_right h']

/-- C27 fails: for two sites joined by a diagonal bond (here separated by `(1, 1)`) the amplitude is
twice the requested one. -/
theorem C27_diagonal_bond_violated (t : ℂ) (F : Fermions) (hF : F = ⟨2, 1, fun i j _ =>
      if i = j then 0 else t, fun _ => 0, fun _ _ _ => 0, fun _ => 0, fun _ _ => 0,
      fun i j => (j : ℝ) - i, fun i j => (j : ℝ) - i⟩) :
    ∃ H : Op (F.nsites * F.nspecies) 2, Gives (F.createH none) H ∧
      ∀ (i j : Fin F.nsites) (s : Fin F.nspecies), i ≠ j →
        F.ts i j s = t ∧ H (single (mode i s)) (single (mode j s)) = -(2 * t) := by
  refine ⟨_, createH_gives (Or.inr fun i => by simp [hF]), fun i j s hij => ?_⟩
  have hne : ((max i j : Fin F.nsites) : ℕ) ≠ (min i j : Fin F.nsites) := by
    simpa [Fin.val_inj, eq_comm] using hij
  have hmax : ((max i j : Fin F.nsites) : ℕ) = 1 ∧ ((min i j : Fin F.nsites) : ℕ) = 0 := by
    have h1 : ((max i j : Fin F.nsites) : ℕ) < F.nsites := (max i j).2
    have h2 : ((min i j : Fin F.nsites) : ℕ) ≤ (max i j : Fin F.nsites) :=
      Fin.le_def.1 (min_le_max)
    have h3 : F.nsites = 2 := by rw [hF]
    omega
  rw [hubRest_single F hij, hopWeight, hmax.1, hmax.2]
  constructor
  · have : (i : ℕ) ≠ j := fun e => hij (Fin.ext e)
    simp [hF, this]
  · subst hF
    simp
    norm_num
    ring

/-- C27 fails: for a complex Hermitian hopping matrix the amplitude from site 0 to 1 and from 1 to 0
is the same number `-ts[1, 0]`, so one of the two is not the requested one. -/
theorem C27_complex_hopping_violated (F : Fermions) (h : InterOk F) :
    ∃ H : Op (F.nsites * F.nspecies) 2, Gives (F.createH none) H ∧
      ∀ (i j : Fin F.nsites) (s : Fin F.nspecies), j < i →
        H (single (mode j s)) (single (mode i s)) = H (single (mode i s)) (single (mode j s)) ∧
        H (single (mode i s)) (single (mode j s)) =
          -(F.ts i j s * ((|F.xdist i j| + |F.ydist i j| : ℝ) : ℂ)) := by
  refine ⟨_, createH_gives h, fun i j s hij => ?_⟩
  rw [hubRest_single F hij.ne, hubRest_single F hij.ne', max_eq_right hij.le, min_eq_left hij.le,
    max_eq_left hij.le, min_eq_right hij.le]
  exact ⟨rfl, rfl⟩

/-! ## C25 -/

/-- C25, sharp: with real interactions, chemical potentials and potentials the Hamiltonian is
Hermitian exactly when the hopping amplitudes it uses are real. -/
theorem C25_hermitian_iff (F : Fermions) (h : InterOk F)
    (hus : ∀ i : Fin F.nsites, star (F.us i) = F.us i)
    (husS : ∀ (i j : Fin F.nsites) (s : Fin F.nspecies), star (F.usSame i j s) = F.usSame i j s)
    (hmu : ∀ s : Fin F.nspecies, star (F.mus s) = F.mus s)
    (hpot : ∀ (i : Fin F.nsites) (s : Fin F.nspecies), star (F.pots i s) = F.pots i s) :
    ∃ H : Op (F.nsites * F.nspecies) 2, Gives (F.createH none) H ∧
      (Hᴴ = H ↔ ∀ (i j : Fin F.nsites) (s : Fin F.nspecies), j < i →
        star (F.ts i j s) = F.ts i j s ∨ |F.xdist i j| + |F.ydist i j| = 0) := by
  refine ⟨_, createH_gives h, ?_⟩
  constructor
  · intro hH i j s hij
    have e := congrFun (congrFun hH (single (mode i s))) (single (mode j s))
    rw [conjTranspose_apply, hubRest_single F hij.ne, hubRest_single F hij.ne',
      max_eq_right hij.le, min_eq_left hij.le, max_eq_left hij.le, min_eq_right hij.le,
      star_neg, neg_inj, star_mul', hopWeight] at e
    have hr : ∀ x : ℝ, star (x : ℂ) = x := fun x => Complex.conj_ofReal x
    rw [hr] at e
    by_cases hw : |F.xdist i j| + |F.ydist i j| = 0
    · exact Or.inr hw
    · exact Or.inl (mul_right_cancel₀ (by exact_mod_cast hw) e)
  · intro ht
    rw [hubRest, conjTranspose_add, conjTranspose_add, conjTranspose_add, hubInter_star,
      hubSame_star, hubHop_star, hubPot_star]
    have e1 : (fun i : Fin F.nsites => star (F.us i)) = fun i : Fin F.nsites => F.us i :=
      funext hus
    have e2 : (fun (i j : Fin F.nsites) (s : Fin F.nspecies) => star (F.usSame i j s)) =
        fun (i j : Fin F.nsites) (s : Fin F.nspecies) => F.usSame i j s :=
      funext fun i => funext fun j => funext fun s => husS i j s
    have e3 : (fun (i : Fin F.nsites) (s : Fin F.nspecies) => star (F.pots i s - F.mus s)) =
        fun (i : Fin F.nsites) (s : Fin F.nspecies) => F.pots i s - F.mus s :=
      funext fun i => funext fun s => by rw [star_sub, hpot, hmu]
    rw [e1, e2, e3, hubHop_congr]
    intro i j s hij
    have hr : ∀ x : ℝ, star (x : ℂ) = x := fun x => Complex.conj_ofReal x
    rw [star_mul', hopWeight, hr]
    rcases ht i j s hij with h1 | h1
    · rw [h1]
    · rw [h1]; simp

/-- C25 (what holds): with all parameters real the Hamiltonian is Hermitian, also after projection
with any projector. The full claim, for every accepted Hermitian hopping matrix, fails below. -/
theorem C25_hermitian_partial (F : Fermions) (h : InterOk F)
    (hts : ∀ (i j : Fin F.nsites) (s : Fin F.nspecies), star (F.ts i j s) = F.ts i j s)
    (hus : ∀ i : Fin F.nsites, star (F.us i) = F.us i)
    (husS : ∀ (i j : Fin F.nsites) (s : Fin F.nspecies), star (F.usSame i j s) = F.usSame i j s)
    (hmu : ∀ s : Fin F.nspecies, star (F.mus s) = F.mus s)
    (hpot : ∀ (i : Fin F.nsites) (s : Fin F.nspecies), star (F.pots i s) = F.pots i s)
    {k : ℕ} (P : Mat) (Pm : Matrix (Fin k) (Conf (F.nsites * F.nspecies) 2) ℂ) (hP : P.Is Pm) :
    (∃ H : Op (F.nsites * F.nspecies) 2, Gives (F.createH none) H ∧ Hᴴ = H) ∧
    ∃ H : Matrix (Fin k) (Fin k) ℂ, Gives (F.createH (some P)) H ∧ Hᴴ = H := by
  obtain ⟨H, hH, hiff⟩ := C25_hermitian_iff F h hus husS hmu hpot
  have hh := hiff.2 fun i j s _ => Or.inl (hts i j s)
  refine ⟨⟨H, hH, hh⟩, _, createH_gives_proj hP h, ?_⟩
  obtain ⟨M, hM, hM'⟩ := hH
  obtain ⟨M2, hM2, hM2'⟩ := createH_gives (F := F) h
  rw [hM] at hM2
  cases hM2
  have e := hM'.ext hM2'
  rw [← e, conjTranspose_mul, conjTranspose_mul, conjTranspose_conjTranspose, hh,
    Matrix.mul_assoc]

/-- C25 fails: the Hermitian hopping matrix `[[0, -i], [i, 0]]` on two neighbouring sites gives a
Hamiltonian that is not Hermitian. -/
theorem C25_complex_hopping_violated (F : Fermions) (hF : F = ⟨2, 1, fun i j _ =>
      if i = 1 ∧ j = 0 then Complex.I else if i = 0 ∧ j = 1 then -Complex.I else 0,
      fun _ => 0, fun _ _ _ => 0, fun _ => 0, fun _ _ => 0,
      fun i j => (j : ℝ) - i, fun _ _ => 0⟩) :
    (∀ i j s, star (F.ts j i s) = F.ts i j s) ∧
    ∃ H : Op (F.nsites * F.nspecies) 2, Gives (F.createH none) H ∧ Hᴴ ≠ H := by
  subst hF
  refine ⟨fun i j s => ?_, ?_⟩
  · simp only
    by_cases h1 : j = 1 ∧ i = 0
    · simp [h1]
    · by_cases h2 : j = 0 ∧ i = 1
      · simp [h2]
      · rw [if_neg h1, if_neg h2, if_neg (fun h => h2 ⟨h.2, h.1⟩), if_neg (fun h => h1 ⟨h.2, h.1⟩)]
        simp
  · obtain ⟨H, hH, hiff⟩ := C25_hermitian_iff ⟨2, 1, fun i j _ =>
      if i = 1 ∧ j = 0 then Complex.I else if i = 0 ∧ j = 1 then -Complex.I else 0,
      fun _ => 0, fun _ _ _ => 0, fun _ => 0, fun _ _ => 0,
      fun i j => (j : ℝ) - i, fun _ _ => 0⟩ (Or.inr fun _ => rfl) (by simp) (by simp) (by simp)
      (by simp)
    refine ⟨H, hH, fun hh => ?_⟩
    have := hiff.1 hh 1 0 0 (by decide)
    simp [Complex.ext_iff] at this
    norm_num at this

/-- C25: an inter-species interaction on a one-species model cannot be built (an exception). -/
theorem C25_one_species_interaction_fails (F : Fermions) (h1 : F.nspecies = 1)
    (i : Fin F.nsites) (hu : F.us i ≠ 0) : ∃ e, F.createH none = .error e := by
  suffices H : ∃ e, F.uInterOp (Mat.eye F.sys.nstates) = .error e by
    obtain ⟨e, he⟩ := H
    refine ⟨e, ?_⟩
    unfold Fermions.createH
    simp only [Option.getD_none, he]
    rfl
  unfold Fermions.uInterOp
  have key : ∀ (l : List ℕ), (i : ℕ) ∈ l → (∀ x ∈ l, x < F.nsites) → ∀ acc : Mat, ∃ e,
      l.foldlM (fun acc ii => if F.us ii ≠ 0 then do
        let a ← getTwoSiteOp F.sys ii 0 ii 1 nOp nOp "boson"
        let a' ← sandwich (F.us ii) (Mat.eye F.sys.nstates) a
        acc.add a' else pure acc) acc = Except.error (ε := PyErr) (α := Mat) e := by
    intro l
    induction l with
    | nil => intro h; simp at h
    | cons a l ih =>
      intro hi hl acc
      rw [List.foldlM_cons]
      by_cases ha : F.us a ≠ 0
      · have : getTwoSiteOp F.sys a 0 a 1 nOp nOp "boson" = .error .type := by
          have hlt := hl a (by simp)
          have e1 : spinful2spinless a F.nsites 0 = a := by simp [spinful2spinless]
          have e2 : spinful2spinless a F.nsites 1 = F.nsites + a := by simp [spinful2spinless]
          unfold getTwoSiteOp
          simp only [e1, e2]
          rw [if_neg (by omega)]
          have hmin : min a (F.nsites + a) = a := by omega
          have hmax : max a (F.nsites + a) = F.nsites + a := by omega
          have hn : ¬ (F.nsites + a < F.nsites * F.nspecies) := by rw [h1]; omega
          simp [hmin, hmax, hn, Sys.nlog, pure, Except.pure, bind, Except.bind]
        rw [if_pos ha, this]
        exact ⟨_, rfl⟩
      · rw [if_neg ha]
        have : (i : ℕ) ∈ l := by
          rcases List.mem_cons.1 hi with e | e
          · exact absurd (e ▸ hu) ha
          · exact e
        obtain ⟨e, he⟩ := ih this (fun x hx => hl x (by simp [hx])) acc
        exact ⟨e, he⟩
  exact key _ (by simp) (fun x hx => List.mem_range.1 hx) _

/-! ## C26 -/

/-- C26: the Hamiltonian commutes with the number operator of every species, and has no elements
between configurations with different particle numbers of some species. -/
theorem C26_number_conservation (F : Fermions) (h : InterOk F) :
    ∃ H : Op (F.nsites * F.nspecies) 2, Gives (F.createH none) H ∧
      ∀ s : Fin F.nspecies, 0 < F.nsites → ∃ N : Op (F.nsites * F.nspecies) 2,
        Gives (getSumOp F.sys nOp s "boson") N ∧ H * N = N * H ∧
        ∀ t t' : Conf (F.nsites * F.nspecies) 2, speciesCount t s ≠ speciesCount t' s → H t t' = 0 := by
  refine ⟨_, createH_gives h, fun s hn => ?_⟩
  have hg := C14_number_counts F.sys rfl hn s
  have e : (Matrix.diagonal fun t : Conf (F.nsites * F.nspecies) 2 => (speciesCount t s : ℂ)) =
      speciesNumber F.nsites s := by
    ext t t'
    rw [speciesNumber, Matrix.sum_apply, diagonal_apply]
    simp only [number_diag]
    by_cases h : t = t'
    · simp [h, speciesCount]
    · simp [h]
  have hc : Commute (speciesNumber F.nsites s) (hubInter (fun i => F.us i) + hubRest F) := by
    unfold hubRest
    exact (speciesNumber_inter _ _).add_right (((speciesNumber_same _ _).add_right
      (speciesNumber_hubHop _ _)).add_right (speciesNumber_pot _ _))
  refine ⟨_, hg, ?_, fun t t' hne => ?_⟩
  · have := hc.eq.symm
    rwa [← e] at this
  · have := congrFun (congrFun hc.eq t) t'
    rw [← e, diagonal_mul, mul_diagonal] at this
    have h0 : ((speciesCount t s : ℂ) - speciesCount t' s) *
        (hubInter (fun i => F.us i) + hubRest F : Op (F.nsites * F.nspecies) 2) t t' = 0 := by
      rw [sub_mul, this]; ring
    rcases mul_eq_zero.1 h0 with h1 | h1
    · exact absurd (by exact_mod_cast sub_eq_zero.1 h1) hne
    · exact h1

/-! ## C28 -/

/-- C28: with zero hopping the Hamiltonian is diagonal with the classical energy. -/
theorem C28_classical (F : Fermions) (h2 : 2 ≤ F.nspecies)
    (ht : ∀ (i j : Fin F.nsites) (s : Fin F.nspecies), F.ts i j s = 0) :
    Gives (F.createH none) (Matrix.diagonal fun n : Conf (F.nsites * F.nspecies) 2 =>
      ∑ i : Fin F.nsites, F.us i * ((n (mode i (⟨0, by omega⟩ : Fin F.nspecies)) : ℕ) *
        (n (mode i (⟨1, by omega⟩ : Fin F.nspecies)) : ℕ)) +
      ∑ i : Fin F.nsites, ∑ j : Fin F.nsites, ∑ s : Fin F.nspecies, (if j ≤ i then
        F.usSame i j s * ((n (mode i s) : ℕ) * (n (mode j s) : ℕ)) else 0) +
      ∑ i : Fin F.nsites, ∑ s : Fin F.nspecies, (F.pots i s - F.mus s) * (n (mode i s) : ℕ)) := by
  refine (createH_gives (F := F) (Or.inl h2)).of_eq ?_
  have e0 : ∀ x : Fin 2, (if x = 1 then (1 : ℂ) else 0) = ((x : ℕ) : ℂ) := by
    intro x; fin_cases x <;> simp
  ext s t
  have hz : hubHop (fun (i j : Fin F.nsites) (s : Fin F.nspecies) => F.ts i j s * hopWeight F i j) =
      0 := by
    rw [← hubHop_zero]
    exact hubHop_congr fun i j s _ => by rw [ht, zero_mul]
  rw [hubRest, hz, add_zero, Matrix.add_apply, Matrix.add_apply, hubInter_apply h2, hubSame_apply,
    hubPot_apply, diagonal_apply]
  simp only [e0]
  split_ifs
  · ring
  · simp

/-! ## C13 (fermions) -/

/-- C13: if hopping amplitudes, interactions and potentials are invariant under a site permutation,
the operator built from its cycles commutes with the Hamiltonian. -/
theorem C13_fermions (F : Fermions) (h : InterOk F) (π : Equiv.Perm (Fin F.nsites))
    (cycles : List (List (Fin F.nsites))) (hc : CyclesOf cycles π)
    (hsym : ∀ (i j : Fin F.nsites) (s : Fin F.nspecies),
      F.ts i j s * ((|F.xdist i j| + |F.ydist i j| : ℝ) : ℂ) =
        F.ts j i s * ((|F.xdist j i| + |F.ydist j i| : ℝ) : ℂ))
    (hinv : ∀ (i j : Fin F.nsites) (s : Fin F.nspecies),
      F.ts (π i) (π j) s * ((|F.xdist (π i) (π j)| + |F.ydist (π i) (π j)| : ℝ) : ℂ) =
        F.ts i j s * ((|F.xdist i j| + |F.ydist i j| : ℝ) : ℂ))
    (hWs : ∀ (i j : Fin F.nsites) (s : Fin F.nspecies), F.usSame i j s = F.usSame j i s)
    (hW : ∀ (i j : Fin F.nsites) (s : Fin F.nspecies), F.usSame (π i) (π j) s = F.usSame i j s)
    (hU : ∀ i : Fin F.nsites, F.us (π i) = F.us i)
    (hV : ∀ (i : Fin F.nsites) (s : Fin F.nspecies), F.pots (π i) s = F.pots i s) :
    ∃ (v : Val) (U H : Op (F.nsites * F.nspecies) 2),
      getXformOp F.nspecies (fermionSwapOp F.sys) (siteNumbers cycles) = .ok v ∧ v.Is U ∧
      Gives (F.createH none) H ∧ U * H = H * U := by
  obtain ⟨v, U, hv, hvU, hmov⟩ := C11_xform_fermions F.sys rfl cycles π hc
  refine ⟨v, U, _, hv, hvU, createH_gives h, ?_⟩
  change Op (F.nsites * F.nspecies) 2 at U
  have hmov' : MovesFermions (nsites := F.nsites) (nspecies := F.nspecies) U fun _ => π := hmov
  have e : U * (hubInter (fun i => F.us i) + hubRest F) * Uᴴ =
      hubInter (fun i => F.us i) + hubRest F := by
    unfold hubRest
    rw [mul_add, mul_add, mul_add, add_mul, add_mul, add_mul, moves_inter hmov' _ hU,
      moves_same hmov' _ hWs hW, moves_hop hmov' (fun i j s => F.ts i j s * hopWeight F i j) hsym hinv,
      moves_pot hmov' _ fun i s => by rw [hV]]
  calc U * (hubInter (fun i => F.us i) + hubRest F)
      = U * (hubInter (fun i => F.us i) + hubRest F) * (Uᴴ * U) := by
        rw [hmov'.left_inv, mul_one]
    _ = _ := by rw [← mul_assoc, e]

/-- A two-site Hubbard model used as an instance below. -/
noncomputable def dimer (t u mu v : ℝ) : Fermions :=
  ⟨2, 2, fun i j _ => if i = j then 0 else (t : ℂ), fun _ => u, fun _ _ _ => 0, fun _ => mu,
    fun _ _ => v, fun i j => (j : ℝ) - i, fun _ _ => 0⟩

/-- Instance of C25, C26, C27: all hypotheses hold for the Hubbard dimer. -/
example (t u mu v : ℝ) : ∃ H : Op 4 2, Gives ((dimer t u mu v).createH none) H ∧ Hᴴ = H := by
  obtain ⟨H, hH, hiff⟩ := C25_hermitian_iff (dimer t u mu v) (Or.inl le_rfl)
    (fun _ => Complex.conj_ofReal _) (by simp [dimer]) (fun _ => Complex.conj_ofReal _)
    (fun _ _ => Complex.conj_ofReal _)
  refine ⟨H, hH, hiff.2 fun i j s hij => Or.inl ?_⟩
  have hne : (i : ℕ) ≠ j := fun e => hij.ne' (Fin.ext e)
  simp only [dimer, if_neg hne]
  exact Complex.conj_ofReal t

example (t u mu v : ℝ) : ∃ H : Op 4 2, Gives ((dimer t u mu v).createH none) H ∧
    H (single (0 : Fin 4)) (single (1 : Fin 4)) = -t := by
  obtain ⟨H, hH, h⟩ := C27_amplitude_partial (dimer t u mu v) (Or.inl le_rfl)
    (fun i j s => by simp [dimer, eq_comm]) (fun i j s hij _ => by
      change Fin 2 at i j
      fin_cases i <;> fin_cases j <;> simp [dimer] at hij ⊢)
  refine ⟨H, hH, ?_⟩
  refine (h (0 : Fin 2) (1 : Fin 2) (0 : Fin 2) (show (0 : Fin 2) ≠ 1 by decide)).trans ?_
  simp [dimer]

/-- Instance of C13: exchanging the two sites of the dimer. -/
example (t u mu v : ℝ) : ∃ (w : Val) (U H : Op 4 2),
    getXformOp 2 (fermionSwapOp ⟨2, 2, 2⟩) [[0, 1]] = .ok w ∧ w.Is U ∧
      Gives ((dimer t u mu v).createH none) H ∧ U * H = H * U := by
  have hc : CyclesOf ([[0, 1]] : List (List (Fin 2))) (List.formPerm [0, 1]) := by
    refine ⟨by decide, ?_, by decide⟩
    intro c hc k hk
    obtain rfl : c = [0, 1] := by simpa using hc
    exact List.formPerm_apply_getElem _ (by decide) _ _
  refine C13_fermions (dimer t u mu v) (Or.inl le_rfl) (List.formPerm [0, 1] : Equiv.Perm (Fin 2))
    _ hc (fun i j s => ?_) (fun i j s => ?_) (fun _ _ _ => rfl) (fun _ _ _ => rfl) (fun _ => rfl)
    (fun _ _ => rfl)
  · change Fin 2 at i j
    fin_cases i <;> fin_cases j <;> simp [dimer]
  · have e : ∀ i : Fin 2, (((List.formPerm [0, 1] : Equiv.Perm (Fin 2)) i : Fin 2) : ℕ) = 1 - i := by
      decide
    set π : Equiv.Perm (Fin 2) := List.formPerm [0, 1]
    have key : ∀ a b : Fin 2, (dimer t u mu v).ts (π a : Fin 2) (π b : Fin 2) s *
        ((|(dimer t u mu v).xdist (π a : Fin 2) (π b : Fin 2)| +
          |(dimer t u mu v).ydist (π a : Fin 2) (π b : Fin 2)| : ℝ) : ℂ) =
        (dimer t u mu v).ts a b s *
        ((|(dimer t u mu v).xdist a b| + |(dimer t u mu v).ydist a b| : ℝ) : ℂ) := by
      intro a b
      rw [e, e]
      fin_cases a <;> fin_cases b <;> simp [dimer]
    exact key i j

/-! ## C30 -/

/-- C30: with a projector `P` (`P P† = 1`) onto a subspace left invariant by the Hamiltonian, `v` is
an eigenvector of the projected Hamiltonian exactly when `P† v` is one of the full Hamiltonian, with
the same eigenvalue. -/
theorem C30_projected_eigenstates (F : Fermions) (h : InterOk F) {k : ℕ} (P : Mat)
    (Pm : Matrix (Fin k) (Conf (F.nsites * F.nspecies) 2) ℂ) (hP : P.Is Pm) (hPP : Pm * Pmᴴ = 1) :
    ∃ (H : Op (F.nsites * F.nspecies) 2) (Hp : Matrix (Fin k) (Fin k) ℂ),
      Gives (F.createH none) H ∧ Gives (F.createH (some P)) Hp ∧
      (Pmᴴ * Pm * H * (Pmᴴ * Pm) = H * (Pmᴴ * Pm) →
        ∀ (v : Fin k → ℂ) (E : ℂ), Hp *ᵥ v = E • v ↔ H *ᵥ (Pmᴴ *ᵥ v) = E • (Pmᴴ *ᵥ v)) := by
  refine ⟨_, _, createH_gives h, createH_gives_proj hP h, fun hinv v E => ?_⟩
  set H : Op (F.nsites * F.nspecies) 2 := hubInter (fun i => F.us i) + hubRest F
  have e1 : H * Pmᴴ = Pmᴴ * (Pm * H * Pmᴴ) := by
    have := congrArg (· * Pmᴴ) hinv
    simp only [Matrix.mul_assoc, hPP, Matrix.mul_one] at this
    rw [← this]
    simp only [Matrix.mul_assoc]
  constructor
  · intro hv
    rw [Matrix.mulVec_mulVec, e1, ← Matrix.mulVec_mulVec, hv, Matrix.mulVec_smul]
  · intro hv
    rw [Matrix.mulVec_mulVec, e1, ← Matrix.mulVec_mulVec, ← Matrix.mulVec_smul] at hv
    have := congrArg (Pm *ᵥ ·) hv
    simp only [Matrix.mulVec_mulVec, ← Matrix.mul_assoc, hPP, Matrix.one_mul, Matrix.one_mulVec]
      at this
    exact this

/-- C30: for a complete family of projectors onto invariant subspaces every eigenvalue of the full
Hamiltonian occurs in some sector. -/
theorem C30_complete (F : Fermions) (h : InterOk F) {m : ℕ} (k : Fin m → ℕ) (P : Fin m → Mat)
    (Pm : ∀ a, Matrix (Fin (k a)) (Conf (F.nsites * F.nspecies) 2) ℂ) (hP : ∀ a, (P a).Is (Pm a))
    (hPP : ∀ a, Pm a * (Pm a)ᴴ = 1) (hcomp : ∑ a, (Pm a)ᴴ * Pm a = 1) :
    ∃ (H : Op (F.nsites * F.nspecies) 2) (Hp : ∀ a, Matrix (Fin (k a)) (Fin (k a)) ℂ),
      Gives (F.createH none) H ∧ (∀ a, Gives (F.createH (some (P a))) (Hp a)) ∧
      ((∀ a, (Pm a)ᴴ * Pm a * H = H * ((Pm a)ᴴ * Pm a)) →
        ∀ (w : Conf (F.nsites * F.nspecies) 2 → ℂ) (E : ℂ), w ≠ 0 → H *ᵥ w = E • w →
          ∃ (a : Fin m) (v : Fin (k a) → ℂ), v ≠ 0 ∧ Hp a *ᵥ v = E • v) := by
  refine ⟨_, _, createH_gives h, fun a => createH_gives_proj (hP a) h, fun hinv w E hw hE => ?_⟩
  set H : Op (F.nsites * F.nspecies) 2 := hubInter (fun i => F.us i) + hubRest F
  have hex : ∃ a, Pm a *ᵥ w ≠ 0 := by
    by_contra hno
    push Not at hno
    apply hw
    calc w = (1 : Op (F.nsites * F.nspecies) 2) *ᵥ w := (Matrix.one_mulVec w).symm
      _ = 0 := by
        rw [← hcomp, Matrix.sum_mulVec]
        refine Finset.sum_eq_zero fun a _ => ?_
        rw [← Matrix.mulVec_mulVec, hno a, Matrix.mulVec_zero]
  obtain ⟨a, ha⟩ := hex
  refine ⟨a, Pm a *ᵥ w, ha, ?_⟩
  have e : Pm a * H * (Pm a)ᴴ * Pm a = Pm a * H := by
    calc Pm a * H * (Pm a)ᴴ * Pm a = Pm a * (H * ((Pm a)ᴴ * Pm a)) := by
          simp only [Matrix.mul_assoc]
      _ = Pm a * ((Pm a)ᴴ * Pm a * H) := by rw [hinv a]
      _ = Pm a * (Pm a)ᴴ * Pm a * H := by simp only [Matrix.mul_assoc]
      _ = Pm a * H := by rw [hPP, Matrix.one_mul]
  rw [Matrix.mulVec_mulVec, e, ← Matrix.mulVec_mulVec, hE, Matrix.mulVec_smul]

end ED.Props
