import Verif.Lemmas.NumberSectors
import Verif.Props.Fermions
import Verif.Props.Correlators

/-! # Property C115: sectors of fixed particle numbers -/

namespace ED.Props

open Matrix

/-- All parameters of the model are real. -/
structure RealParams (F : Fermions) : Prop where
  ts : ∀ (i j : Fin F.nsites) (s : Fin F.nspecies), star (F.ts i j s) = F.ts i j s
  us : ∀ i : Fin F.nsites, star (F.us i) = F.us i
  same : ∀ (i j : Fin F.nsites) (s : Fin F.nspecies), star (F.usSame i j s) = F.usSame i j s
  mus : ∀ s : Fin F.nspecies, star (F.mus s) = F.mus s
  pots : ∀ (i : Fin F.nsites) (s : Fin F.nspecies), star (F.pots i s) = F.pots i s

theorem speciesCount_le {nsites nspecies : ℕ} (t : Conf (nsites * nspecies) 2) (s : Fin nspecies) : speciesCount t s ≤ nsites := by
  refine (Finset.card_filter_le _ _).trans ?_
  simp

/-- There is a state with any given numbers of particles. -/
theorem exists_counts {nsites nspecies : ℕ} (c : Fin nspecies → ℕ) (hc : ∀ s, c s ≤ nsites) :
    ∃ t : Conf (nsites * nspecies) 2, ∀ s, speciesCount t s = c s := by
  classical
  refine ⟨fun m => if ∃ (i : Fin nsites) (s : Fin nspecies), m = mode i s ∧ (i : ℕ) < c s then 1 else 0, fun s => ?_⟩
  unfold speciesCount
  have e : (Finset.univ.filter fun i : Fin nsites => (if ∃ (i' : Fin nsites) (s' : Fin nspecies),
      mode i s = mode i' s' ∧ (i' : ℕ) < c s' then (1 : Fin 2) else 0) = 1) = Finset.univ.filter fun i : Fin nsites => (i : ℕ) < c s := by
    refine Finset.filter_congr fun i _ => ?_
    have : (∃ (i' : Fin nsites) (s' : Fin nspecies), mode i s = mode i' s' ∧ (i' : ℕ) < c s') ↔ (i : ℕ) < c s := by
      constructor
      · rintro ⟨i', s', h, h'⟩
        obtain ⟨rfl, rfl⟩ := mode_inj (S := ⟨nsites, nspecies, 2⟩) h
        exact h'
      · exact fun h => ⟨i, s, rfl, h⟩
    simp [this]
  rw [e]
  rw [Fin.card_filter_val_lt, min_eq_right (hc s)]

/-- C115, sectors: `measure_hubbard.py` makes one projector for each pair of particle numbers of the first two species,
and the projector selects the basis states with these numbers. -/
theorem C115_sectors (F : Fermions) (hn : 0 < F.nsites) (u d : Fin F.nspecies) (hu : (u : ℕ) = 0) (hd : (d : ℕ) = 1) :
    ∃ L, numberSectors F = .ok L ∧ (L.map Prod.fst).Nodup ∧
      (∀ z, z ∈ L.map Prod.fst ↔ ∃ a b : ℕ, a ≤ F.nsites ∧ b ≤ F.nsites ∧ z = ((a : ℂ), (b : ℂ))) ∧
      ∀ s ∈ L, s.2.Selects (2 ^ (F.nsites * F.nspecies)) fun j => ∀ t : Conf (F.nsites * F.nspecies) 2, idx t = j →
        ((speciesCount t u : ℂ), (speciesCount t d : ℂ)) = s.1 := by
  obtain ⟨MU, u1, u2⟩ := C14_number_counts F.sys rfl hn u
  obtain ⟨MD, d1, d2⟩ := C14_number_counts F.sys rfl hn d
  change MU.Is (diagonal fun t : Conf (F.nsites * F.nspecies) 2 => (speciesCount t u : ℂ)) at u2
  change MD.Is (diagonal fun t : Conf (F.nsites * F.nspecies) 2 => (speciesCount t d : ℂ)) at d2
  rw [hu] at u1
  rw [hd] at d1
  obtain ⟨s1, s2, s3, s4⟩ := split_all u2
  have step := fun (up : ℂ × Mat) (h : up ∈ (getSubspaceProjs MU none).2.zip (getSubspaceProjs MU none).1) =>
    split_sector (s4 up h) d2
  haveI : Nonempty Mat := ⟨MU⟩
  choose! D hD1 hD2 hD3 hD4 hD5 using step
  choose! Q hQ1 hQ2 using hD5
  refine ⟨(((getSubspaceProjs MU none).2.zip (getSubspaceProjs MU none).1).map fun up =>
    ((getSubspaceProjs (D up) none).2.zip (getSubspaceProjs (D up) none).1).map fun dn =>
      ((up.1, dn.1), Q up dn)).flatten, ?_, ?_, ?_, ?_⟩
  · unfold numberSectors
    simp only [u1, d1, bind, Except.bind]
    rw [mapM_ok _ _ (fun up => ((getSubspaceProjs (D up) none).2.zip (getSubspaceProjs (D up) none).1).map fun dn =>
      ((up.1, dn.1), Q up dn))]
    · rfl
    · intro up hup
      simp only [hD1 up hup]
      exact mapM_ok _ _ _ fun dn hdn => by simp only [hQ1 up hup dn hdn, pure, Except.pure]
  · rw [List.map_flatten, List.map_map]
    rw [List.nodup_flatten]
    constructor
    · intro l hl
      obtain ⟨up, hup, rfl⟩ := List.mem_map.1 hl
      simp only [Function.comp_apply, List.map_map]
      have e : (Prod.fst ∘ fun dn : ℂ × Mat => ((up.1, dn.1), Q up dn)) = (fun b => (up.1, b)) ∘ Prod.fst := rfl
      rw [e, ← List.map_map, List.map_fst_zip (hD3 up hup).ge]
      exact (hD2 up hup).map fun a b h => (Prod.mk.inj h).2
    · rw [List.pairwise_map]
      have hp : (((getSubspaceProjs MU none).2.zip (getSubspaceProjs MU none).1).map Prod.fst).Nodup := by
        rw [List.map_fst_zip s2.ge]
        exact s1
      rw [List.Nodup, List.pairwise_map] at hp
      refine hp.imp fun {a b} hab x hx hy => hab ?_
      simp only [Function.comp_apply, List.map_map, List.mem_map] at hx hy
      obtain ⟨p, -, rfl⟩ := hx
      obtain ⟨q, -, hq⟩ := hy
      exact (congrArg Prod.fst hq).symm
  · intro z
    simp only [List.mem_map, List.mem_flatten]
    constructor
    · rintro ⟨s, ⟨l, ⟨up, hup, rfl⟩, hs⟩, rfl⟩
      obtain ⟨dn, hdn, rfl⟩ := List.mem_map.1 hs
      obtain ⟨t, ht1, ht2⟩ := (hD4 up hup _).1 (List.of_mem_zip hdn).1
      exact ⟨speciesCount t u, speciesCount t d, speciesCount_le _ _, speciesCount_le _ _, by rw [← ht1, ← ht2]⟩
    · rintro ⟨a, b, ha, hb, rfl⟩
      obtain ⟨t, ht⟩ := exists_counts (nspecies := F.nspecies) (fun s => if s = u then a else b) (fun s => by split_ifs <;> assumption)
      have hne : d ≠ u := fun h => by rw [h, hu] at hd; omega
      have htu : speciesCount t u = a := by rw [ht, if_pos rfl]
      have htd : speciesCount t d = b := by rw [ht, if_neg hne]
      have h1 : (a : ℂ) ∈ (getSubspaceProjs MU none).2 := (s3 _).2 ⟨t, by rw [htu]⟩
      rw [← List.map_fst_zip s2.ge] at h1
      obtain ⟨up, hup, e1⟩ := List.mem_map.1 h1
      have h2 : (b : ℂ) ∈ (getSubspaceProjs (D up) none).2 := (hD4 up hup _).2 ⟨t, by rw [htu, e1], by rw [htd]⟩
      rw [← List.map_fst_zip (hD3 up hup).ge] at h2
      obtain ⟨dn, hdn, e2⟩ := List.mem_map.1 h2
      exact ⟨_, ⟨_, ⟨up, hup, rfl⟩, List.mem_map.2 ⟨dn, hdn, rfl⟩⟩, by rw [e1, e2]⟩
  · intro s hs
    obtain ⟨l, hl, hs⟩ := List.mem_flatten.1 hs
    obtain ⟨up, hup, rfl⟩ := List.mem_map.1 hl
    obtain ⟨dn, hdn, rfl⟩ := List.mem_map.1 hs
    refine (hQ2 up hup dn hdn).congr fun j => ?_
    simp only [Prod.mk.injEq]

/-- The sectors of the script, for the Hamiltonian of the model. -/
theorem number_sectors (F : Fermions) (hn : 0 < F.nsites) (u d : Fin F.nspecies) (hu : (u : ℕ) = 0) (hd : (d : ℕ) = 1) :
    ∃ L A H, numberSectors F = .ok L ∧ F.createH none = .ok A ∧ A.Is (H : Op (F.nsites * F.nspecies) 2) ∧
      (RealParams F → H.IsHermitian) ∧ ∃ (r : ℕ) (c : Fin (r + 1) → ℕ)
        (P : ∀ i, Matrix (Fin (c i + 1)) (Conf (F.nsites * F.nspecies) 2) ℂ), ListSectors (L.map Prod.snd) P H ∧ 1 ≤ r := by
  have hI : InterOk F := Or.inl (by have := d.2; omega)
  obtain ⟨H, ⟨A, hA1, hA2⟩, hc⟩ := C26_number_conservation F hI
  obtain ⟨L, h1, h2, h3, h4⟩ := C115_sectors F hn u d hu hd
  have hlen : 2 ≤ L.length := by
    have m1 : (((0 : ℕ) : ℂ), ((0 : ℕ) : ℂ)) ∈ L.map Prod.fst := (h3 _).2 ⟨0, 0, by omega, by omega, rfl⟩
    have m2 : (((1 : ℕ) : ℂ), ((0 : ℕ) : ℂ)) ∈ L.map Prod.fst := (h3 _).2 ⟨1, 0, by omega, by omega, rfl⟩
    rw [← List.length_map (f := Prod.fst)]
    by_contra hlt
    match hl : L.map Prod.fst, hlt with
    | [], _ => rw [hl] at m1; simp at m1
    | [x], _ =>
      rw [hl, List.mem_singleton] at m1 m2
      rw [← m1] at m2
      simp at m2
    | x :: y :: l, h => simp at h
  obtain ⟨r, hr⟩ : ∃ r, L.length = r + 1 := ⟨L.length - 1, by omega⟩
  obtain ⟨c, P, hP, hS⟩ := sectors_of_labels
    (fun t : Conf (F.nsites * F.nspecies) 2 => ((speciesCount t u : ℂ), (speciesCount t d : ℂ))) L h2
    (fun z => by
      rw [h3]
      constructor
      · rintro ⟨a, b, ha, hb, rfl⟩
        obtain ⟨t, ht⟩ := exists_counts (nspecies := F.nspecies) (fun s => if s = u then a else b) (fun s => by split_ifs <;> assumption)
        have hne : d ≠ u := fun h => by rw [h, hu] at hd; omega
        exact ⟨t, by rw [ht, ht, if_pos rfl, if_neg hne]⟩
      · rintro ⟨t, rfl⟩
        exact ⟨_, _, speciesCount_le _ _, speciesCount_le _ _, rfl⟩)
    h4 hr (H := H) (fun t t' hne => by
      by_cases hcu : speciesCount t u = speciesCount t' u
      · obtain ⟨-, -, -, h⟩ := hc d hn
        refine h t t' fun hcd => hne ?_
        simp only [hcu, hcd]
      · obtain ⟨-, -, -, h⟩ := hc u hn
        exact h t t' hcu)
  refine ⟨L, A, H, h1, hA1, hA2, fun hr => ?_, r, c, P, ⟨by simpa using hr, fun i h => ?_, hS⟩, by omega⟩
  · obtain ⟨H', ⟨A', hA1', hA2'⟩, hiff⟩ := C25_hermitian_iff F hI hr.us hr.same hr.mus hr.pots
    rw [hA1] at hA1'
    injection hA1' with e
    rw [← e] at hA2'
    rw [hA2.ext hA2']
    exact hiff.2 fun i j s _ => Or.inl (hr.ts i j s)
  · rw [List.getElem_map]
    exact hP i

variable (S : EigSolvers) (hS : EigContract S) (F : Fermions) (hn : 0 < F.nsites) (u d : Fin F.nspecies) (hu : (u : ℕ) = 0)
  (hd : (d : ℕ) = 1) (hr : RealParams F)

include hS hn u d hu hd hr

/-- C115: the average of every operator from the sectors of `measure_hubbard.py` is its average with the density matrix
of the whole Hamiltonian, and what the library computes without sectors. -/
theorem C115_average :
    ∃ L A w M, ∃ H : Op (F.nsites * F.nspecies) 2, numberSectors F = .ok L ∧ F.createH none = .ok A ∧ A.Is H ∧
      diagList S A = .ok (w, M) ∧ ∀ (B : Mat) (O : Op (F.nsites * F.nspecies) 2), B.Is O → ∀ T : ℝ, T ≠ 0 →
        sectorAverage S A (L.map Prod.snd) B T = .ok (thermalAvg H O T) ∧
        expValsThermal M B w T = .ok (thermalAvg H O T) := by
  obtain ⟨L, A, H, h1, h2, h3, h4, r, c, P, h5, -⟩ := number_sectors F hn u d hu hd
  obtain ⟨w, M, h6, h7⟩ := C109_average S hS A H h3 (h4 hr)
  exact ⟨L, A, w, M, H, h1, h2, h3, h6, fun B O hB T hT => ⟨sectorAverage_is S hS h5 (h4 hr) h3 hB hT, h7 B O hB T hT⟩⟩

/-- C115: the energies of all sectors together are the energies of the whole Hamiltonian, each as often. -/
theorem C115_energies :
    ∃ L A w M E, numberSectors F = .ok L ∧ F.createH none = .ok A ∧ diagList S A = .ok (w, M) ∧ w.Pairwise (· ≤ ·) ∧
      sectorEigs S A (L.map Prod.snd) = .ok E ∧ E.Perm w := by
  obtain ⟨L, A, H, h1, h2, h3, h4, r, c, P, h5, -⟩ := number_sectors F hn u d hu hd
  obtain ⟨w, M, E, h6, h7, h8, h9⟩ := sectorEigs_is S hS h5 (h4 hr) h3
  exact ⟨L, A, w, M, E, h1, h2, h6, h9, h7, h8⟩

/-- C115, thermodynamics of `measure_hubbard.py`: for every model the energy is right, and the entropy is too small. -/
theorem C115_entropy_violated :
    ∃ L A, ∃ H : Op (F.nsites * F.nspecies) 2, numberSectors F = .ok L ∧ F.createH none = .ok A ∧ A.Is H ∧
      ∀ T : ℝ, 0 < T → ∃ e s c, sectorEnergies S A (L.map Prod.snd) T = .ok (e, s, c) ∧ e = thermalAvg H H T ∧
        s < vonNeumann (gibbs H T) := by
  obtain ⟨L, A, H, h1, h2, h3, h4, r, c, P, h5, h6⟩ := number_sectors F hn u d hu hd
  refine ⟨L, A, H, h1, h2, h3, fun T hT => ?_⟩
  obtain ⟨e, s, c, c', h7, h8, h9, -⟩ := sectorEnergies_is S hS h5 (h4 hr) h3 hT
  exact ⟨e, s, c, h7, h8, h9 h6⟩

omit hS hn u d hu hd hr

/-- Instance of C115: the Hubbard dimer with any real parameters. -/
example (hS : EigContract S) (t u mu v T : ℝ) (hT : T ≠ 0) : ∃ L A w M E, numberSectors (dimer t u mu v) = .ok L ∧
    (dimer t u mu v).createH none = .ok A ∧ diagList S A = .ok (w, M) ∧ sectorEigs S A (L.map Prod.snd) = .ok E ∧
    E.Perm w ∧ sectorAverage S A (L.map Prod.snd) A T = expValsThermal M A w T := by
  have hr : RealParams (dimer t u mu v) := ⟨fun i j s => by simp only [dimer]; split_ifs <;> simp,
    fun _ => Complex.conj_ofReal _, fun _ _ _ => by simp [dimer], fun _ => Complex.conj_ofReal _,
    fun _ _ => Complex.conj_ofReal _⟩
  obtain ⟨L, A, w, M, H, h1, h2, h3, h4, h5⟩ := C115_average S hS (dimer t u mu v) (by simp [dimer]) (0 : Fin 2)
    (1 : Fin 2) rfl rfl hr
  obtain ⟨L', A', w', M', E, g1, g2, g3, -, g4, g5⟩ := C115_energies S hS (dimer t u mu v) (by simp [dimer]) (0 : Fin 2)
    (1 : Fin 2) rfl rfl hr
  rw [h1] at g1; injection g1 with e; subst e
  rw [h2] at g2; injection g2 with e; subst e
  rw [h4] at g3; injection g3 with e; injection e with e1 e2; subst e1; subst e2
  exact ⟨L, A, w, M, E, h1, h2, h4, g4, g5, by rw [(h5 A H h3 T hT).1, (h5 A H h3 T hT).2]⟩

end ED.Props
