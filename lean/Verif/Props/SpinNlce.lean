import Verif.Lemmas.SpinGeom
import Verif.Props.Thermo
import Verif.Props.Spins

/-! # Property C110: the linked cluster expansion of the spin model -/

namespace ED.Props

open Matrix ED.Geometry


/-- Energy, entropy, specific heat and sum of the correlations of one Hamiltonian. -/
noncomputable def fourProps {ι : Type*} [Fintype ι] [DecidableEq ι] (H O : Matrix ι ι ℂ) (T : ℝ) : ℝ × ℝ × ℝ × ℝ :=
  (thermalAvg H H T, vonNeumann (gibbs H T), deriv (thermalAvg H H) T, thermalAvg H O T)

theorem clusterRow_fin (S : EigSolvers) (hS : EigContract S) (g : Geometry) {n : ℕ} (hn : g.nsites = n)
    {adj : Fin n → Fin n → Prop} (hi : ∀ i, ¬ adj i i) (hs : ∀ i k, adj i k ↔ adj k i)
    (hg : ∀ i k : Fin n, g.phase.e i k = 1 ∧ (adj i k → g.adjacency.e i k = 1) ∧ (¬ adj i k → g.adjacency.e i k = 0))
    (jx jy jz hx hy hz : ℝ) (temps : List ℝ) (hT : ∀ T ∈ temps, 0 < T) :
    clusterRow S g jx jy jz hx hy hz temps =
      .ok (temps.map (fourProps (spinHOn adj jx jy jz hx hy hz : Op n 2) (szszOn (Fin n)))) := by
  subst hn
  obtain ⟨A, hA, hA'⟩ := (C75_hamiltonian_partial (⟨g.nsites, 1, fun a b => jx * (g.adjacency.e a b : ℂ) * g.phase.e a b,
    fun a b => jy * (g.adjacency.e a b : ℂ) * g.phase.e a b, fun a b => jz * (g.adjacency.e a b : ℂ) * g.phase.e a b,
    fun _ => hx, fun _ => hy, fun _ => hz⟩ : Spins) rfl).1
  dsimp only at hA'
  simp only [mul_assoc] at hA'
  have hsp := spinH_eq hi hs (a := fun i k => (g.adjacency.e i k : ℂ) * g.phase.e i k)
    (fun i k h => by rw [(hg i k).1, (hg i k).2.1 h]; simp) (fun i k h => by rw [(hg i k).2.2 h]; simp)
    jx jy jz hx (-hy) hz
  rw [hsp] at hA'
  set H : Op g.nsites 2 := spinHOn adj jx jy jz hx hy hz with hH
  have hHt : spinHOn adj jx jy jz hx (-hy) hz = Hᵀ := (spinHOn_transpose hi ..).symm
  rw [hHt] at hA'
  have hherm : H.IsHermitian := spinHOn_conj hi ..
  have hherm' : Hᵀ.IsHermitian := hherm.transpose
  obtain ⟨w, M, d1, d2⟩ := C109_average S hS A Hᵀ hA' hherm'
  obtain ⟨w', M', d1', d3⟩ := C109_thermodynamics S hS A Hᵀ hA' hherm'
  have e := d1.symm.trans d1'
  simp only [Except.ok.injEq, Prod.mk.injEq] at e
  obtain ⟨rfl, rfl⟩ := e
  have hE : thermalAvg Hᵀ Hᵀ = thermalAvg H H := by
    funext T
    rw [thermalAvg_transpose]
  unfold clusterRow
  have hinit : Spins.init g.nsites 1 (fun a b => (g.adjacency.e a b : ℂ)) g.phase.e (.scalar jx) (.scalar jy) (.scalar jz)
      (.scalar hx) (.scalar hy) (.scalar hz) false = .ok ⟨g.nsites, 1, fun a b => jx * (g.adjacency.e a b : ℂ) * g.phase.e a b,
    fun a b => jy * (g.adjacency.e a b : ℂ) * g.phase.e a b, fun a b => jz * (g.adjacency.e a b : ℂ) * g.phase.e a b,
    fun _ => hx, fun _ => hy, fun _ => hz⟩ := rfl
  rw [hinit]
  simp only [bind, Except.bind]
  rw [hA]
  simp only
  rw [d1]
  simp only
  refine ED.mapM_ok fun T hTm => ?_
  obtain ⟨e, s, c, t1, t2, t3, -, t4⟩ := d3 T (hT T hTm)
  rw [t1]
  simp only
  have hzz := szszAt_ok (n := g.nsites) (M := M) (w := w) (T := T) (H := Hᵀ)
    (fun B O hB => d2 B O hB T (hT T hTm).ne')
  have hsys : Spins.sys ⟨g.nsites, 1, fun a b => jx * (g.adjacency.e a b : ℂ) * g.phase.e a b,
    fun a b => jy * (g.adjacency.e a b : ℂ) * g.phase.e a b, fun a b => jz * (g.adjacency.e a b : ℂ) * g.phase.e a b,
    fun _ => hx, fun _ => hy, fun _ => hz⟩ = ⟨g.nsites, 1, 2⟩ := rfl
  rw [hsys, hzz]
  simp only [pure, Except.pure, fourProps]
  rw [t2, hE, t3, vonNeumann_hermitian hherm', vonNeumann_hermitian hherm, partitionFn_transpose, hE,
    ← t4.deriv, hE, ← szszOn_transpose, thermalAvg_transpose, szszOn_transpose]

theorem clusterRow_ok (S : EigSolvers) (hS : EigContract S) {g : Geometry} {l : List (ℤ × ℤ)} (hg : g.HasSites l)
    (hn : l.Nodup) (jx jy jz hx hy hz : ℝ) (temps : List ℝ) (hT : ∀ T ∈ temps, 0 < T) :
    clusterRow S g jx jy jz hx hy hz temps =
      .ok (temps.map (fourProps (clusterH jx jy jz hx hy hz l.toFinset) (szszOn l.toFinset))) := by
  obtain ⟨h1, h2⟩ := hg.data
  rw [clusterRow_fin S hS g h1 (adj := fun i k => squareLattice.Adj l[i] l[k]) (fun i => squareLattice.loopless.irrefl _)
    (fun i k => ⟨fun h => h.symm, fun h => h.symm⟩) (fun i k => h2 i i.2 k k.2) jx jy jz hx hy hz temps hT]
  congr 2
  funext T
  have m1 : (clusterH jx jy jz hx hy hz l.toFinset).submatrix (moveSpins (siteEquiv hn)) (moveSpins (siteEquiv hn)) =
      spinHOn (fun i k : Fin l.length => squareLattice.Adj l[i] l[k]) jx jy jz hx hy hz :=
    spinHOn_move (siteEquiv hn) (fun i k => Iff.rfl) ..
  have m2 := szszOn_move (siteEquiv hn)
  unfold fourProps
  have hE : thermalAvg (clusterH jx jy jz hx hy hz l.toFinset) (clusterH jx jy jz hx hy hz l.toFinset) =
      thermalAvg (spinHOn (fun i k : Fin l.length => squareLattice.Adj l[i] l[k]) jx jy jz hx hy hz)
        (spinHOn (fun i k : Fin l.length => squareLattice.Adj l[i] l[k]) jx jy jz hx hy hz) := by
    funext T
    rw [← m1, thermalAvg_submatrix]
  rw [hE, ← m2, vonNeumann_hermitian (clusterH_hermitian ..), hE,
    vonNeumann_hermitian (spinHOn_conj (adj := fun i k : Fin l.length => squareLattice.Adj l[i] l[k])
      (fun i => squareLattice.loopless.irrefl _) ..)]
  congr 3
  · rw [← m1, partitionFn_submatrix]
  · rw [← m1, thermalAvg_submatrix]

/-- C110: the linked cluster script, from the order and the couplings to the four tables. For every number of sites,
all couplings and fields and every list of positive temperatures, with any solver satisfying its contract, the script
succeeds, and each of its four results is the linked cluster expansion of what it is named after: the mean energy, von
Neumann's entropy of the density matrix, the derivative of the energy with respect to temperature and the sum of the
correlations of the Heisenberg model on the sets of sites of the square lattice. A single temperature is excluded: the
tables then lose their last index (C54). -/
theorem C110_expansion (S : EigSolvers) (hS : EigContract S) (N : ℕ) (hN : 1 ≤ N) (jx jy jz hx hy hz : ℝ)
    (temps : List ℝ) (hT : ∀ T ∈ temps, 0 < T) (hlen : temps.length ≠ 1) :
    ∃ r, nlceScript S N jx jy jz hx hy hz temps = .ok r ∧ r.temps = temps ∧
      (∃ mult A inds, allClustersWithSubclusters N (1, 0) (0, 1) true = .ok (r.clusters, mult, A, inds)) ∧
      r.energy.IsSum N (atTemps temps fun C => thermalAvg (clusterH jx jy jz hx hy hz C) (clusterH jx jy jz hx hy hz C))
        r.clusters temps.length ∧
      r.entropy.IsSum N (atTemps temps fun C T => vonNeumann (gibbs (clusterH jx jy jz hx hy hz C) T))
        r.clusters temps.length ∧
      r.specificHeat.IsSum N (atTemps temps fun C T =>
          deriv (thermalAvg (clusterH jx jy jz hx hy hz C) (clusterH jx jy jz hx hy hz C)) T) r.clusters temps.length ∧
      r.szsz.IsSum N (atTemps temps fun C => thermalAvg (clusterH jx jy jz hx hy hz C) (szszOn C))
        r.clusters temps.length := by
  obtain ⟨st, Ls, A, h1, h2, h3, h4, h5, h6⟩ := allClustersWithSubclusters_ok N
  have e1 : realPt (1, 0) = (1, 0) := by simp [realPt]
  have e2 : realPt (0, 1) = (0, 1) := by simp [realPt]
  rw [e1, e2] at h1 h2
  have hF := h3.flatten.1
  set clusters := st.1.flatten with hcl
  set sites := Ls.flatten with hsites
  have hlenF : clusters.length = sites.length := hF.length_eq
  have hget : ∀ i (hi : i < clusters.length), clusters[i].IsCluster (sites[i]'(hlenF ▸ hi)) := fun i hi =>
    hF.get hi (hlenF ▸ hi)
  set P : List (ℤ × ℤ) → ℝ → ℝ × ℝ × ℝ × ℝ := fun l =>
    fourProps (clusterH jx jy jz hx hy hz l.toFinset) (szszOn l.toFinset) with hP
  have hrows : clusters.mapM (fun g => clusterRow S g jx jy jz hx hy hz temps) =
      .ok (sites.map fun l => temps.map (P l)) := by
    have key : ∀ (cs : List Geometry) (ls : List (List (ℤ × ℤ))), List.Forall₂ IsCluster cs ls →
        cs.mapM (fun g => clusterRow S g jx jy jz hx hy hz temps) = .ok (ls.map fun l => temps.map (P l)) := by
      intro cs ls h
      induction h with
      | nil => rfl
      | cons h _ ih =>
        rw [List.mapM_cons, clusterRow_ok S hS h.2 h.1.nodup jx jy jz hx hy hz temps hT, ih]
        rfl
    exact key _ _ hF
  have htab : ∀ q : ℝ × ℝ × ℝ × ℝ → ℝ,
      IsPropertyTable (atTemps temps fun C T => q (fourProps (clusterH jx jy jz hx hy hz C) (szszOn C) T)) clusters
        [temps.length] (fillTable temps.length ((sites.map fun l => temps.map (P l)).map fun r => r.map q)) := by
    intro q
    refine ⟨by simp [fillTable, hlenF], fun i hi l hl idx hidx => ?_⟩
    obtain ⟨j, rfl, hj⟩ : ∃ j, idx = [j] ∧ j < temps.length := by
      match idx, hidx with
      | [j], h => exact ⟨j, rfl, by simpa [Inside] using h⟩
    have hli : l = sites[i]'(hlenF ▸ hi) := by
      have := hl.coords.symm.trans (hget i hi).2.coords
      exact List.map_injective_iff.2 realPt_injective this
    have hi' : i < sites.length := hlenF ▸ hi
    simp only [fillTable, atTemps, List.getD_cons_zero, List.getD_cons_succ]
    rw [hli]
    simp [List.getD_eq_getElem?_getD, hi', hj, hP]
  have hinv : ∀ q : ℝ × ℝ × ℝ × ℝ → ℝ, ∀ C D, Equivalent true C D →
      (atTemps temps fun C T => q (fourProps (clusterH jx jy jz hx hy hz C) (szszOn C) T)) C =
      (atTemps temps fun C T => q (fourProps (clusterH jx jy jz hx hy hz C) (szszOn C) T)) D := by
    intro q C D h
    obtain ⟨c1, c2, c3⟩ := cluster_thermal jx jy jz hx hy hz h
    funext idx
    simp only [atTemps, fourProps, c1, c2, c3]
  have hex := fun q => expand_ok hN h2 (hinv q) hlen (htab q)
  obtain ⟨E1, x1, y1⟩ := hex fun x => x.1
  obtain ⟨E2, x2, y2⟩ := hex fun x => x.2.1
  obtain ⟨E3, x3, y3⟩ := hex fun x => x.2.2.1
  obtain ⟨E4, x4, y4⟩ := hex fun x => x.2.2.2
  refine ⟨⟨clusters, E1, E2, E3, E4, temps⟩, ?_, rfl, ⟨_, _, _, h2⟩, y1, y2, y3, y4⟩
  unfold nlceScript
  rw [h2]
  simp only [bind, Except.bind]
  rw [hrows]
  simp only
  rw [x1]
  simp only
  rw [x2]
  simp only
  rw [x3]
  simp only
  rw [x4]
  rfl

/-- Clusters up to three sites at two temperatures, with some solver which satisfies the contract. -/
example : ∃ S : EigSolvers, EigContract S ∧ (1 ≤ 3) ∧ (∀ T ∈ [(1 : ℝ), 2], 0 < T) ∧ [(1 : ℝ), 2].length ≠ 1 := by
  obtain ⟨S, hS⟩ := C101_contract_satisfiable
  exact ⟨S, hS, by norm_num, by simp, by simp⟩

end ED.Props
