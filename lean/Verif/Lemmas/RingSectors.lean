import Verif.Lemmas.Ring
import Verif.Lemmas.CyclicSectors
import Verif.Props.SectorEnergies
import Verif.Props.Heisenberg
import Verif.Props.SiteOrder
import Verif.Model.RingScript
import Verif.Lemmas.SquareModel

/-! # Sectors of particle number and momentum on a ring -/

namespace ED.Props

open Matrix Spec ED.Geometry

/-- Sites are numbered along the ring. -/
theorem Ring.site {n : ℕ} {g : Geometry} (G : Ring g n) (hn : 2 ≤ n) (hn' : n < 10 ^ 14) (hg : createSquare n 1 0 0 false true = .ok g)
    (i : Fin g.nsites) : (G.σ i : ℕ) = i := by
  have hi := i.2
  have h := (C50_square_order n 1 (by omega) one_pos (by omega) 0 0 false true (fun h => by omega) (fun _ => rfl) hg (i := i)
    (by rw [mul_one, ← G.nsites]; exact hi)).1
  rw [G.xloc i, Nat.div_one, Option.some_inj] at h
  exact_mod_cast h

/-- The operator of a permutation of the sites commutes with the Hamiltonian of an invariant model. -/
theorem xform_commutes (F : Fermions) (hI : InterOk F) (hb : FermionBonds F) {π : Equiv.Perm (Fin F.nsites)}
    {c : List (List (Fin F.nsites))} (hc : CyclesOf c π) (hi : FermionInvariant F π) {A : Mat} {H : Op (F.nsites * F.nspecies) 2}
    (hA : F.createH none = .ok A) (hA' : A.Is H) :
    ∃ (v : Val) (U : Op (F.nsites * F.nspecies) 2), getXformOp F.nspecies (fermionSwapOp F.sys) (siteNumbers c) = .ok v ∧ v.Is U ∧
      MovesFermions (nsites := F.nsites) (nspecies := F.nspecies) U (fun _ => π) ∧ U * H = H * U := by
  obtain ⟨v, U', H', h1, h2, ⟨A', h3, h4⟩, h5⟩ := C13_fermions F hI π c hc hb.hop hi.hop hb.same hi.same hi.inter hi.pot
  obtain ⟨v', U'', g1, g2, g3⟩ := C11_xform_fermions F.sys rfl c π hc
  have g1' := g1
  rw [h1] at g1
  injection g1 with e
  subst e
  rw [hA] at h3
  injection h3 with e
  subst e
  have e1 : U' = U'' := by
    cases v with
    | num z => exact Eq.trans h2 (Eq.symm g2)
    | mat M => exact Mat.Is.ext h2 g2
  refine ⟨v, U'', g1', g2, g3, ?_⟩
  rw [hA'.ext h4, ← e1]
  exact h5

/-- The sectors of particle number and momentum are close to exact sectors of the Hamiltonian. -/
theorem ring_near (F : Fermions) (hn : 0 < F.nsites) (u : Fin F.nspecies) (hu : (u : ℕ) = 0) (hI : InterOk F) (hr : RealParams F)
    (hb : FermionBonds F) {π : Equiv.Perm (Fin F.nsites)} (ix : FermionInvariant F π) {c : List (List (Fin F.nsites))}
    (hx : CyclesOf c π) {n : ℕ} (hn0 : 0 < n) (hn' : n < 10 ^ 4) (px : π ^ n = 1) :
    ∃ L A projs, ∃ H U : Op (F.nsites * F.nspecies) 2, ringSectors F (siteNumbers c) n = .ok L ∧
      (L.map fun x => (x.1, x.2.1)).Nodup ∧
      (∀ x ∈ L, ∃ a q : ℕ, a ≤ F.nsites ∧ q < n ∧ x.1 = (a : ℂ) ∧ x.2.1 = 2 * Real.pi * (q : ℝ) / (n : ℝ)) ∧
      F.createH none = .ok A ∧ A.Is H ∧ H.IsHermitian ∧ List.Forall₂ RowsOf (L.map fun x => x.2.2) projs ∧
      NearSectors projs (asMatrix A (2 ^ (F.nsites * F.nspecies))) (3 * (1 / 10 ^ 14)) ∧
      MovesFermions (nsites := F.nsites) (nspecies := F.nspecies) U (fun _ => π) ∧ U * H = H * U := by
  obtain ⟨H, ⟨A, hA1, hA2⟩, hcons⟩ := C26_number_conservation F hI
  obtain ⟨v, U, x1, x2, x3, hcx⟩ := xform_commutes F hI hb hx ix hA1 hA2
  have x2' : (v.asOp F.sys.nstates).Is U := asOp_is (by simp [Sys.nstates, Fermions.sys]) x2
  obtain ⟨MU, u1, u2⟩ := C14_number_counts F.sys rfl hn u
  change MU.Is (diagonal fun t : Conf (F.nsites * F.nspecies) 2 => (speciesCount t u : ℂ)) at u2
  rw [hu] at u1
  obtain ⟨s1, s2, s3, s4⟩ := split_all u2
  have hpow : U ^ n = 1 := by
    refine (faithful_fermions F.nsites F.nspecies).unique _ _ 1 ?_ (faithful_fermions F.nsites F.nspecies).one
    have := (faithful_fermions F.nsites F.nspecies).pow x3 n
    rwa [px] at this
  obtain ⟨lab, hlab⟩ : ∃ lab : Fin (2 ^ (F.nsites * F.nspecies)) → ℂ, lab = fun j =>
    (speciesCount (nsites := F.nsites) (nspecies := F.nspecies) ((ED.numEquiv (F.nsites * F.nspecies)).symm j) u : ℂ) := ⟨_, rfl⟩
  have hidx : ∀ (j : Fin (2 ^ (F.nsites * F.nspecies))) (t : Conf (F.nsites * F.nspecies) 2), idx t = j ↔ t = (ED.numEquiv (F.nsites * F.nspecies)).symm j := by
    intro j t
    rw [Equiv.eq_symm_apply, Fin.ext_iff]
    rfl
  have keepU : ∀ i j, lab i ≠ lab j → asMatrix (v.asOp F.sys.nstates) (2 ^ (F.nsites * F.nspecies)) i j = 0 := by
    intro i j hij
    have e0 : asMatrix (v.asOp F.sys.nstates) (2 ^ (F.nsites * F.nspecies)) i j =
        U ((ED.numEquiv (F.nsites * F.nspecies)).symm i) ((ED.numEquiv (F.nsites * F.nspecies)).symm j) := by
      rw [asMatrix_reindex x2']
      rfl
    rw [e0, ← mulVec_ket U]
    obtain ⟨e, -, he⟩ := x3.signed ((ED.numEquiv (F.nsites * F.nspecies)).symm j)
    rw [he, Pi.smul_apply, ket, smul_eq_mul, if_neg, mul_zero]
    intro h0
    apply hij
    simp only [hlab]
    rw [h0, speciesCount_perm]
  have keepH : ∀ i j, lab i ≠ lab j → asMatrix A (2 ^ (F.nsites * F.nspecies)) i j = 0 := by
    intro i j hij
    rw [asMatrix_reindex hA2, submatrix_apply]
    obtain ⟨-, -, -, h⟩ := hcons u hn
    refine h _ _ fun hcd => hij ?_
    simp only [hlab, hcd]
  have hT : Cyclic (asMatrix (v.asOp F.sys.nstates) (2 ^ (F.nsites * F.nspecies))) (asMatrix A (2 ^ (F.nsites * F.nspecies))) n :=
    { phase := SignedPermutation.phase (x3.signed.permutation x2')
      pos := hn0
      small := hn'
      pow := by rw [asMatrix_is x2', ← map_pow, hpow, map_one]
      comm := (commute_asMatrix hA2 x2' hcx).symm }
  obtain ⟨ls, projs, g1, g2, g3, g4, g5⟩ := cyclic_all hT (is_asMatrix x2') keepU keepH ((getSubspaceProjs MU none).2.zip (getSubspaceProjs MU none).1)
    (by rw [List.map_fst_zip s2.ge]; exact s1)
    (fun z => by
      rw [List.map_fst_zip s2.ge, s3]
      constructor
      · rintro ⟨t, rfl⟩
        refine ⟨ED.numEquiv (F.nsites * F.nspecies) t, ?_⟩
        simp only [hlab, Equiv.symm_apply_apply]
      · rintro ⟨j, rfl⟩
        exact ⟨_, by rw [hlab]⟩)
    (fun s hs => (s4 s hs).congr fun j => by
      simp only [hlab]
      constructor
      · intro h
        exact h _ ((hidx j _).2 rfl)
      · intro h t ht
        rw [(hidx j t).1 ht]
        exact h)
  refine ⟨ls.flatten, A, projs, H, U, ?_, g4, fun x hx => ?_, hA1, hA2, ?_, g2, g3, x3, hcx⟩
  · unfold ringSectors
    simp only [u1, x1, g1, bind, Except.bind]
    rfl
  · obtain ⟨h1, q, hq, e⟩ := g5 x hx
    rw [List.map_fst_zip s2.ge] at h1
    obtain ⟨t, ht⟩ := (s3 _).1 h1
    exact ⟨_, q, speciesCount_le t u, hq, ht.symm, e⟩
  · obtain ⟨H', ⟨A', hA1', hA2'⟩, hiff⟩ := C25_hermitian_iff F hI hr.us hr.same hr.mus hr.pots
    rw [hA1] at hA1'
    injection hA1' with e
    rw [← e] at hA2'
    rw [hA2.ext hA2']
    exact hiff.2 fun i j s _ => Or.inl (hr.ts i j s)

/-- The model on the ring. -/
theorem ring_model {n : ℕ} (hn : 2 ≤ n) (hn' : n < 10 ^ 14) {g : Geometry} (hg : createSquare n 1 0 0 false true = .ok g)
    (G : Ring g n) (t v mu : ℝ) : ∃ p : FermionParams,
      fermionModel g ⟨[], fun _ => ((0 : ℝ) : ℂ)⟩ ⟨[], fun _ => (t : ℂ)⟩ ⟨[], fun _ => (mu : ℂ)⟩ ⟨[], fun _ => ((0 : ℝ) : ℂ)⟩ ⟨[], fun _ => (v : ℂ)⟩ 1 =
        .ok (p.model g 1) ∧
      (∀ i < n, (p.model g 1).us i = 0) ∧ (p.model g 1).mus 0 = mu ∧ (∀ i < n, (p.model g 1).pots i 0 = (0 : ℝ) ∧
        ∀ j < n, (p.model g 1).ts i j 0 = t * g.adjacency.e i j ∧ (p.model g 1).usSame i j 0 = v * g.adjacency.e i j ∧
          (p.model g 1).ts i j 0 * ((|(p.model g 1).xdist i j| + |(p.model g 1).ydist i j| : ℝ) : ℂ) = t * g.adjacency.e i j) ∧
      InterOk (p.model g 1) ∧ RealParams (p.model g 1) ∧ FermionBonds (p.model g 1) ∧
      FermionInvariant (p.model g 1) (G.perm (finRotate n)) := by
  have h1 : n = 1 → false = true := fun h => by omega
  obtain ⟨p, hF, hus, hpar⟩ := fermionModel_square_mus (by omega) one_pos (by omega) h1 (fun _ => rfl) hg 1 0 t 0 v (fun _ => mu)
    (M := ⟨[], fun _ => (mu : ℂ)⟩) (by
      obtain ⟨r4, a4, b4, c4⟩ := (C29_mus_partial (n := 1) ⟨[], fun _ => (mu : ℂ)⟩).1 0 (by omega) rfl
      exact ⟨r4, a4, c4⟩)
  obtain ⟨hreg, -, -⟩ := square_facts (by omega) one_pos (by omega) h1 (fun _ => rfl) hg
  have hN := G.nsites
  refine ⟨p, hF, fun i hi => ?_, (hpar 0 (by omega) 0 one_pos).1, fun i hi => ⟨(hpar i (by omega) 0 one_pos).2.1, fun j hj => ?_⟩,
    Or.inr fun i => ?_, ?_, ?_, ?_⟩
  · rw [hus i (by omega), Complex.ofReal_zero]
  · exact (hpar i (by omega) 0 one_pos).2.2 j (by omega)
  · rw [hus i i.2, Complex.ofReal_zero]
  · refine ⟨fun i j s => ?_, fun i => ?_, fun i j s => ?_, fun s => ?_, fun i s => ?_⟩
    · rw [((hpar _ i.2 s s.2).2.2 _ j.2).1, ← Complex.ofReal_mul]
      exact Complex.conj_ofReal _
    · rw [hus _ i.2]
      exact Complex.conj_ofReal _
    · rw [((hpar _ i.2 s s.2).2.2 _ j.2).2.1, ← Complex.ofReal_mul]
      exact Complex.conj_ofReal _
    · rw [(hpar 0 (by omega) s s.2).1]
      exact Complex.conj_ofReal _
    · rw [(hpar _ i.2 s s.2).2.1]
      exact Complex.conj_ofReal _
  · refine ⟨fun i j s => ?_, fun i j s => ?_⟩
    · rw [((hpar _ i.2 s s.2).2.2 _ j.2).2.2, ((hpar _ j.2 s s.2).2.2 _ i.2).2.2, hreg.symm i i.2 j j.2]
    · rw [((hpar _ i.2 s s.2).2.2 _ j.2).2.1, ((hpar _ j.2 s s.2).2.2 _ i.2).2.1, hreg.symm i i.2 j j.2]
  · refine ⟨fun i j s => ?_, fun i j s => ?_, fun i => ?_, fun i s => ?_⟩
    · exact ((hpar _ (G.perm (finRotate n) i).2 s s.2).2.2 _ (G.perm (finRotate n) j).2).2.2.trans
        ((congrArg (fun x : ℝ => (t : ℂ) * (x : ℂ)) (G.adj_rotate i j)).trans ((hpar _ i.2 s s.2).2.2 _ j.2).2.2.symm)
    · exact ((hpar _ (G.perm (finRotate n) i).2 s s.2).2.2 _ (G.perm (finRotate n) j).2).2.1.trans
        ((congrArg (fun x : ℝ => (v : ℂ) * (x : ℂ)) (G.adj_rotate i j)).trans ((hpar _ i.2 s s.2).2.2 _ j.2).2.1.symm)
    · exact (hus _ (G.perm (finRotate n) i).2).trans (hus _ i.2).symm
    · exact (hpar _ (G.perm (finRotate n) i).2 s s.2).2.1.trans (hpar _ i.2 s s.2).2.1.symm

end ED.Props
