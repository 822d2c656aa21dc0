import Verif.Lemmas.Independent
import Verif.Lemmas.EquivalentSites
import Verif.Props.Signs
import Verif.Props.Laws

/-! # Property C141: parts that are not connected are independent -/

namespace ED.Props

open Matrix Kronecker

/-- The sites `f 0 < f 1 < …` and `g 0 < g 1 < …` are all sites, each once. -/
structure Parts {N n m : ℕ} (f : Fin n → Fin N) (g : Fin m → Fin N) : Prop where
  mono : StrictMono f
  mono' : StrictMono g
  disjoint : ∀ i j, f i ≠ g j
  cover : ∀ k, (∃ i, f i = k) ∨ ∃ j, g j = k

/-- The chosen sites as numbers. -/
def chosen {N n : ℕ} (f : Fin n → Fin N) (i : ℕ) : ℕ := if h : i < n then f ⟨i, h⟩ else 0

/-- The model of the chosen sites alone. -/
abbrev partModel (F : Fermions) {n : ℕ} (f : Fin n → Fin F.nsites) : Fermions where
  nsites := n
  nspecies := F.nspecies
  ts i j s := F.ts (chosen f i) (chosen f j) s
  us i := F.us (chosen f i)
  usSame i j s := F.usSame (chosen f i) (chosen f j) s
  mus := F.mus
  pots i s := F.pots (chosen f i) s
  xdist i j := F.xdist (chosen f i) (chosen f j)
  ydist i j := F.ydist (chosen f i) (chosen f j)

/-- The model of the chosen spins alone. -/
abbrev partSpins (F : Spins) {n : ℕ} (f : Fin n → Fin F.nsites) : Spins where
  nsites := n
  twoS := F.twoS
  jx i j := F.jx (chosen f i) (chosen f j)
  jy i j := F.jy (chosen f i) (chosen f j)
  jz i j := F.jz (chosen f i) (chosen f j)
  hx i := F.hx (chosen f i)
  hy i := F.hy (chosen f i)
  hz i := F.hz (chosen f i)

/-- Particles neither hop nor interact between the parts. -/
def Disconnected (F : Fermions) {n m : ℕ} (f : Fin n → Fin F.nsites) (g : Fin m → Fin F.nsites) : Prop :=
  ∀ i j (s : Fin F.nspecies), (g j < f i → Amplitude F (f i) (g j) s = 0 ∧ F.usSame (f i) (g j) s = 0) ∧
    (f i < g j → Amplitude F (g j) (f i) s = 0 ∧ F.usSame (g j) (f i) s = 0)

/-- Spins of different parts are not coupled. -/
def Uncoupled (F : Spins) {n m : ℕ} (f : Fin n → Fin F.nsites) (g : Fin m → Fin F.nsites) : Prop :=
  ∀ i j, (g j < f i → F.jx (f i) (g j) = 0 ∧ F.jy (f i) (g j) = 0 ∧ F.jz (f i) (g j) = 0) ∧
    (f i < g j → F.jx (g j) (f i) = 0 ∧ F.jy (g j) (f i) = 0 ∧ F.jz (g j) (f i) = 0)

/-- The densities at all sites, as functions of the temperature. -/
def Densities (F : Fermions) (w : List ℝ) (M : Mat) (d : Fin F.nspecies → Fin F.nsites → ℝ → ℝ) : Prop :=
  ∀ (s : Fin F.nspecies) (temps : List ℝ), (∀ T ∈ temps, T ≠ 0 ∨ GappedList w) →
    thermalExpSites F.sys M w nOp s temps none none "boson" = .ok (List.ofFn fun i => temps.map (d s i), List.range F.nsites)

/-- The averages of products of densities at any pairs of sites, as functions of the temperature. -/
def Correlations (F : Fermions) (w : List ℝ) (M : Mat) (c : Fin F.nspecies → Fin F.nspecies → Fin F.nsites → Fin F.nsites → ℝ → ℝ) : Prop :=
  ∀ (s s' : Fin F.nspecies) (temps : List ℝ), (∀ T ∈ temps, T ≠ 0 ∨ GappedList w) → ∀ pairs : List (Fin F.nsites × Fin F.nsites),
    thermalCorrSites F.sys M w s s' nOp nOp temps (some (pairs.map fun q => ((q.1 : ℕ), (q.2 : ℕ)))) none "boson" =
      .ok (pairs.map fun q => temps.map (c s s' q.1 q.2), pairs.map fun q => ((q.1 : ℕ), (q.2 : ℕ)))

/-- The averages of an operator at all sites, as functions of the temperature. -/
def SiteAverages (F : Spins) (w : List ℝ) (M o : Mat) (d : Fin F.nsites → ℝ → ℝ) : Prop :=
  ∀ temps : List ℝ, (∀ T ∈ temps, T ≠ 0 ∨ GappedList w) →
    thermalExpSites F.sys M w o 0 temps none none "boson" = .ok (List.ofFn fun i => temps.map (d i), List.range F.nsites)

/-- The averages of products of two operators at any pairs of different sites, as functions of the temperature. -/
def PairAverages (F : Spins) (w : List ℝ) (M o o' : Mat) (c : Fin F.nsites → Fin F.nsites → ℝ → ℝ) : Prop :=
  ∀ temps : List ℝ, (∀ T ∈ temps, T ≠ 0 ∨ GappedList w) → ∀ pairs : List (Fin F.nsites × Fin F.nsites), (∀ q ∈ pairs, q.1 ≠ q.2) →
    thermalCorrSites F.sys M w 0 0 o o' temps (some (pairs.map fun q => ((q.1 : ℕ), (q.2 : ℕ)))) none "boson" =
      .ok (pairs.map fun q => temps.map (c q.1 q.2), pairs.map fun q => ((q.1 : ℕ), (q.2 : ℕ)))

/-- The energies of the whole are all sums of an energy of each part; energy, entropy and specific heat are sums. -/
def Additive (A : Mat) (w : List ℝ) (M A1 : Mat) (w1 : List ℝ) (M1 A2 : Mat) (w2 : List ℝ) (M2 : Mat) : Prop :=
  w.Perm (w1.flatMap fun x => w2.map fun y => x + y) ∧ ∀ T : ℝ, 0 < T → ∃ e1 s1 c1 e2 s2 c2 : ℝ,
    thermoAt M1 A1 w1 T = .ok (e1, s1, c1) ∧ thermoAt M2 A2 w2 T = .ok (e2, s2, c2) ∧
    thermoAt M A w T = .ok (e1 + e2, s1 + s2, c1 + c2)

/-! ## Proofs -/

section

variable {ι α β : Type} [Fintype ι] [DecidableEq ι] [Fintype α] [DecidableEq α] [Fintype β] [DecidableEq β] [Basis ι] [Basis α] [Basis β]

theorem levels_thermoAt {A M : Mat} {H : Matrix ι ι ℂ} {m : ℕ} {E : Fin (m + 1) → ℝ} {V : Matrix ι (Fin (m + 1)) ℂ} (hA : A.Is H) (h2 : M.Is V)
    (h3 : Vᴴ * V = 1) (h5 : H * V = V * diagonal (fun k => (E k : ℂ))) {T : ℝ} (hT : T ≠ 0) :
    thermoAt M A (List.ofFn E) T = .ok (canonical T E E, levelsEntropy T E, levelsHeat T E) := by
  obtain ⟨B, hB, hB'⟩ := hA.mul hA
  have q1 : expValsThermal M A (List.ofFn E) T = .ok (canonical T E E) := by
    rw [C19_canonical h2 hA E T (Or.inl hT)]
    simp only [expect_eig h3 h5, Complex.ofReal_re]
  have q2 : expValsThermal M B (List.ofFn E) T = .ok (canonical T E fun k => E k ^ 2) := by
    rw [C19_canonical h2 hB' E T (Or.inl hT)]
    simp only [expect_eig_sq h3 h5, Complex.ofReal_re]
  have hZ : ((List.ofFn E).map fun e => Real.exp (-e / T)).sum = levelsZ T E := by
    rw [List.map_ofFn, List.sum_ofFn]
    rfl
  unfold thermoAt
  simp only [q1, hB, q2, hZ, bind, Except.bind, pure, Except.pure]
  rw [levelsEntropy_eq hT]
  rfl

theorem splits_additive {W : Matrix ι (α × β) ℂ} {H : Matrix ι ι ℂ} {H1 : Matrix α α ℂ} {H2 : Matrix β β ℂ} (h : Splits W H H1 H2)
    {A M A1 M1 A2 M2 : Mat} (hA : A.Is H) (hA1 : A1.Is H1) (hA2 : A2.Is H2) {m m1 m2 : ℕ}
    {V1 : Matrix α (Fin (m1 + 1)) ℂ} {E1 : Fin (m1 + 1) → ℝ} (a0 : M1.Is V1) (a1 : V1ᴴ * V1 = 1) (a2 : V1 * V1ᴴ = 1)
    (a3 : H1 * V1 = V1 * diagonal fun k => (E1 k : ℂ))
    {V2 : Matrix β (Fin (m2 + 1)) ℂ} {E2 : Fin (m2 + 1) → ℝ} (b0 : M2.Is V2) (b1 : V2ᴴ * V2 = 1) (b2 : V2 * V2ᴴ = 1)
    (b3 : H2 * V2 = V2 * diagonal fun k => (E2 k : ℂ))
    {V : Matrix ι (Fin (m + 1)) ℂ} {E : Fin (m + 1) → ℝ} (c0 : M.Is V) (c1 : Vᴴ * V = 1) (c2 : V * Vᴴ = 1)
    (c3 : H * V = V * diagonal fun k => (E k : ℂ)) :
    Additive A (List.ofFn E) M A1 (List.ofFn E1) M1 A2 (List.ofFn E2) M2 := by
  have hm := h.energies a1 a2 a3 b1 b2 b3 c1 c2 c3
  refine ⟨?_, fun T hT => ⟨_, _, _, _, _, _, levels_thermoAt hA1 a0 a1 a3 hT.ne', levels_thermoAt hA2 b0 b1 b3 hT.ne', ?_⟩⟩
  · rw [← Multiset.coe_eq_coe]
    have e1 : ((List.ofFn E : List ℝ) : Multiset ℝ) = Finset.univ.val.map E := by simp [List.ofFn_eq_map]
    rw [e1, hm]
    have e2 : ((List.ofFn E1 : List ℝ) : Multiset ℝ) = Finset.univ.val.map E1 := by simp [List.ofFn_eq_map]
    have e3 : ((List.ofFn E2 : List ℝ) : Multiset ℝ) = Finset.univ.val.map E2 := by simp [List.ofFn_eq_map]
    rw [← Multiset.coe_bind]
    simp only [← Multiset.map_coe]
    rw [e2, e3, Multiset.bind_map]
    simp only [Multiset.map_map, Function.comp_def]
    change Multiset.map _ (Finset.univ.val ×ˢ Finset.univ.val) = _
    simp only [SProd.sprod, Multiset.product, Multiset.map_bind]
    simp only [Multiset.map_map, Function.comp_def]
  · rw [levels_thermoAt hA c0 c1 c3 hT.ne', ← energy_prod hT.ne', ← levelsEntropy_prod hT.ne', ← levelsHeat_prod hT.ne']
    have key : ∀ φ : ℝ → ℝ, ∑ k, φ (E k) = ∑ p : Fin (m1 + 1) × Fin (m2 + 1), φ (E1 p.1 + E2 p.2) := fun φ => by
      have := congrArg (fun s : Multiset ℝ => (s.map φ).sum) hm
      simp only [Multiset.map_map] at this
      exact this
    have q1 : ∀ φ : ℝ → ℝ, canonical T E (fun k => φ (E k)) =
        canonical T (fun p : Fin (m1 + 1) × Fin (m2 + 1) => E1 p.1 + E2 p.2) fun p => φ (E1 p.1 + E2 p.2) := fun φ => by
      rw [canonical_ne hT.ne', canonical_ne hT.ne', key fun e => Real.exp (-e / T), key fun e => Real.exp (-e / T) * φ e]
    have q2 : levelsZ T E = levelsZ T (fun p : Fin (m1 + 1) × Fin (m2 + 1) => E1 p.1 + E2 p.2) := key fun e => Real.exp (-e / T)
    have q3 := q1 id
    simp only [id] at q3
    unfold levelsHeat
    rw [levelsEntropy_eq hT.ne', levelsEntropy_eq hT.ne', q2, ← q3, ← q1 fun e => e ^ 2]

end

section

variable {N n m : ℕ} {f : Fin n → Fin N} {g : Fin m → Fin N}

/-- The numbering of the sites by part. -/
noncomputable def Parts.equiv (h : Parts f g) : Fin n ⊕ Fin m ≃ Fin N :=
  Equiv.ofBijective (Sum.elim f g) ⟨h.mono.injective.sumElim h.mono'.injective h.disjoint, fun k => by
    rcases h.cover k with ⟨i, hi⟩ | ⟨j, hj⟩
    · exact ⟨.inl i, hi⟩
    · exact ⟨.inr j, hj⟩⟩

theorem Parts.inl (h : Parts f g) (i : Fin n) : h.equiv (.inl i) = f i := rfl

theorem Parts.inr (h : Parts f g) (j : Fin m) : h.equiv (.inr j) = g j := rfl

theorem chosen_fin (f : Fin n → Fin N) (i : Fin n) : chosen f (i : ℕ) = f i := by
  unfold chosen
  rw [dif_pos i.2]

end

theorem fermions_hermitian {F : Fermions} (hI : InterOk F) (hr : RealParams F) :
    (hubInter (fun i : Fin F.nsites => F.us i) + hubRest F : Op (F.nsites * F.nspecies) 2).IsHermitian := by
  obtain ⟨H, hH', hiff⟩ := C25_hermitian_iff F hI hr.us hr.same hr.mus hr.pots
  rw [gives_unique (createH_gives hI) hH']
  exact hiff.2 fun i j s _ => Or.inl (hr.ts i j s)

theorem part_inter {F : Fermions} (hI : InterOk F) {n : ℕ} (f : Fin n → Fin F.nsites) : InterOk (partModel F f) :=
  hI.imp id fun h i => by
    change F.us (chosen f ((i : Fin n) : ℕ)) = 0
    rw [chosen_fin f i]
    exact h _

theorem part_real {F : Fermions} (hr : RealParams F) {n : ℕ} (f : Fin n → Fin F.nsites) : RealParams (partModel F f) := by
  refine ⟨fun i j s => ?_, fun i => ?_, fun i j s => ?_, hr.mus, fun i s => ?_⟩
  · change star (F.ts (chosen f ((i : Fin n) : ℕ)) (chosen f ((j : Fin n) : ℕ)) s) = F.ts (chosen f ((i : Fin n) : ℕ)) (chosen f ((j : Fin n) : ℕ)) s
    rw [chosen_fin f i, chosen_fin f j]
    exact hr.ts _ _ s
  · change star (F.us (chosen f ((i : Fin n) : ℕ))) = F.us (chosen f ((i : Fin n) : ℕ))
    rw [chosen_fin f i]
    exact hr.us _
  · change star (F.usSame (chosen f ((i : Fin n) : ℕ)) (chosen f ((j : Fin n) : ℕ)) s) = F.usSame (chosen f ((i : Fin n) : ℕ)) (chosen f ((j : Fin n) : ℕ)) s
    rw [chosen_fin f i, chosen_fin f j]
    exact hr.same _ _ s
  · change star (F.pots (chosen f ((i : Fin n) : ℕ)) s) = F.pots (chosen f ((i : Fin n) : ℕ)) s
    rw [chosen_fin f i]
    exact hr.pots _ s

/-- The Hamiltonian of the whole is the sum of those of the parts. -/
theorem fermions_split (F : Fermions) {n m : ℕ} {f : Fin n → Fin F.nsites} {g : Fin m → Fin F.nsites} (hp : Parts f g) (hd : Disconnected F f g) :
    Splits (joinFermi (partModes hp.equiv F.nspecies)) (hubInter (fun i : Fin F.nsites => F.us i) + hubRest F)
      (hubInter (nspecies := F.nspecies) (fun i : Fin n => (partModel F f).us i) + hubRest (partModel F f) : Op (n * F.nspecies) 2)
      (hubInter (nspecies := F.nspecies) (fun i : Fin m => (partModel F g).us i) + hubRest (partModel F g) : Op (m * F.nspecies) 2) := by
  refine ⟨joinMat_left _ _, joinMat_right _ _, ?_⟩
  have hw : ∀ (i j : ℕ) (s : ℕ), F.ts i j s * hopWeight F i j = Amplitude F i j s := fun i j s => rfl
  have a1 := hubInter_split (σ := hp.equiv) (b := F.nspecies) (fun i : Fin F.nsites => F.us i)
  have a2 := hubSame_split (σ := hp.equiv) (b := F.nspecies) hp.mono hp.mono' (fun i j s => F.usSame i j s) (fun i j s h => ((hd i j s).1 h).2)
    (fun i j s h => ((hd i j s).2 h).2)
  have a3 := hubHop_split (σ := hp.equiv) (b := F.nspecies) hp.mono hp.mono' (fun i j s => Amplitude F i j s) (fun i j s h => ((hd i j s).1 h).1)
    (fun i j s h => ((hd i j s).2 h).1)
  have a4 := hubPot_split (σ := hp.equiv) (b := F.nspecies) (fun i s => F.pots i s - F.mus s)
  have := a1.add ((a2.add a3).add a4)
  unfold SumOf at this
  refine this.trans ?_
  unfold hubRest
  simp only [Parts.inl, Parts.inr, ← chosen_fin]
  rfl

/-- What the densities and correlations are, in terms of energies and eigenstates. -/
theorem densities_all (F : Fermions) {k : ℕ} {E : Fin (k + 1) → ℝ} {M : Mat} {V : Matrix (Conf (F.nsites * F.nspecies) 2) (Fin (k + 1)) ℂ}
    (hM : M.Is V) (hE : Monotone E) :
    Densities F (List.ofFn E) M (fun s i T => canonical T E fun k => (expect (number (mode i s)) (colOf V k)).re) ∧
      Correlations F (List.ofFn E) M fun s s' i j T => canonical T E fun k => (expect (number (mode i s) * number (mode j s')) (colOf V k)).re := by
  have hP : (Mat.eye M.rows).Is (1 : Op (F.nsites * F.nspecies) 2) := Mat.is_eye hM.1
  refine ⟨fun s temps hT => ?_, fun s s' temps hT pairs => ?_⟩
  · have e := densities_proj F hM hP hE s temps hT (List.finRange F.nsites)
    rw [List.map_coe_finRange_eq_range] at e
    simp only [conjTranspose_one, Matrix.one_mul, Matrix.mul_one] at e
    refine Eq.trans ?_ (e.trans ?_)
    · rw [← List.map_coe_finRange_eq_range]
      unfold thermalExpSites
      simp only [Option.getD_none, Option.getD_some, List.map_coe_finRange_eq_range]
    · rw [List.ofFn_eq_map]
  · have e := correlators_proj F hM hP hE s s' temps hT pairs
    simp only [conjTranspose_one, Matrix.one_mul, Matrix.mul_one] at e
    rw [← e]
    rfl

theorem number_hermitian {n : ℕ} (i : Fin n) : (number i).IsHermitian := by
  unfold number
  rw [IsHermitian, diagonal_conjTranspose]
  congr 1
  funext s
  simp only [Pi.star_apply]
  split_ifs <;> simp

theorem canonical_unit {ι : Type} [Fintype ι] [DecidableEq ι] {k : ℕ} (E : Fin (k + 1) → ℝ) {V : Matrix ι (Fin (k + 1)) ℂ} (h : Vᴴ * V = 1) (T : ℝ) :
    canonical T E (fun k => (expect (1 : Matrix ι ι ℂ) (colOf V k)).re) = 1 := by
  have e : ∀ k, (expect (1 : Matrix ι ι ℂ) (colOf V k)).re = 1 := fun k => by
    rw [expect_col, Matrix.mul_one, h, one_apply_eq, Complex.one_re]
  have key : ∀ T ≠ 0, canonical T E (fun _ => (1 : ℝ)) = 1 := fun T hT => canonical_const hT E 1
  simp only [e]
  by_cases hT : T = 0
  · subst hT
    refine tendsto_nhds_unique_of_eventuallyEq (canonical_limit E _) tendsto_const_nhds ?_
    filter_upwards [self_mem_nhdsWithin] with T hT
    exact key T (ne_of_gt hT)
  · exact key T hT

/-- C141 (fermions): if particles neither hop nor interact between two parts of the system, the parts are independent: the energies
are the sums of the energies of the two parts, energy, entropy and specific heat add up, densities and their products are those of
each part alone, and averages of products of densities of different parts are products of averages. -/
theorem C141_fermions (S : EigSolvers) (hS : EigContract S) (F : Fermions) (hI : InterOk F) (hr : RealParams F) {n m : ℕ}
    {f : Fin n → Fin F.nsites} {g : Fin m → Fin F.nsites} (hp : Parts f g) (hd : Disconnected F f g) :
    ∃ A w M A1 w1 M1 A2 w2 M2, F.createH none = .ok A ∧ diagList S A = .ok (w, M) ∧
      (partModel F f).createH none = .ok A1 ∧ diagList S A1 = .ok (w1, M1) ∧
      (partModel F g).createH none = .ok A2 ∧ diagList S A2 = .ok (w2, M2) ∧ Additive A w M A1 w1 M1 A2 w2 M2 ∧
      ∃ (d : Fin F.nspecies → Fin F.nsites → ℝ → ℝ) (d1 : Fin F.nspecies → Fin n → ℝ → ℝ) (d2 : Fin F.nspecies → Fin m → ℝ → ℝ)
        (c : Fin F.nspecies → Fin F.nspecies → Fin F.nsites → Fin F.nsites → ℝ → ℝ)
        (c1 : Fin F.nspecies → Fin F.nspecies → Fin n → Fin n → ℝ → ℝ) (c2 : Fin F.nspecies → Fin F.nspecies → Fin m → Fin m → ℝ → ℝ),
        Densities F w M d ∧ Densities (partModel F f) w1 M1 d1 ∧ Densities (partModel F g) w2 M2 d2 ∧
        Correlations F w M c ∧ Correlations (partModel F f) w1 M1 c1 ∧ Correlations (partModel F g) w2 M2 c2 ∧
        (∀ s i, d s (f i) = d1 s i) ∧ (∀ s j, d s (g j) = d2 s j) ∧
        (∀ s s' i i', c s s' (f i) (f i') = c1 s s' i i') ∧ (∀ s s' j j', c s s' (g j) (g j') = c2 s s' j j') ∧
        ∀ s s' i j T, c s s' (f i) (g j) T = d1 s i T * d2 s' j T ∧ c s s' (g j) (f i) T = d2 s j T * d1 s' i T := by
  obtain ⟨A, hA, hAi⟩ := createH_gives hI
  obtain ⟨A1, hA1, hAi1⟩ := createH_gives (part_inter hI f)
  obtain ⟨A2, hA2, hAi2⟩ := createH_gives (part_inter hI g)
  obtain ⟨k, E, M, V, p0, p1, p2, p3, p4, p5⟩ := diagList_ok S hS hAi (fermions_hermitian hI hr)
  obtain ⟨k1, E1, M1, V1, q0, q1, q2, q3, q4, q5⟩ := diagList_ok S hS hAi1 (fermions_hermitian (part_inter hI f) (part_real hr f))
  obtain ⟨k2, E2, M2, V2, r0, r1, r2, r3, r4, r5⟩ := diagList_ok S hS hAi2 (fermions_hermitian (part_inter hI g) (part_real hr g))
  have hs := fermions_split F hp hd
  obtain ⟨t1, t2⟩ := densities_all F p1 p5
  obtain ⟨u1, u2⟩ := densities_all (partModel F f) q1 q5
  obtain ⟨v1, v2⟩ := densities_all (partModel F g) r1 r5
  have av := fun {O A B} hO hAB T => hs.average (O := O) (A := A) (B := B) q2 q3 q4 r2 r3 r4 p2 p3 p4 hO hAB T
  refine ⟨A, _, M, A1, _, M1, A2, _, M2, hA, p0, hA1, q0, hA2, r0, splits_additive hs hAi hAi1 hAi2 q1 q2 q3 q4 r1 r2 r3 r4 p1 p2 p3 p4,
    _, _, _, _, _, _, t1, u1, v1, t2, u2, v2, fun s i => funext fun T => ?_, fun s j => funext fun T => ?_, fun s s' i i' => funext fun T => ?_,
    fun s s' j j' => funext fun T => ?_, fun s s' i j T => ⟨?_, ?_⟩⟩
  · rw [av (A := number (mode i s)) (B := 1) (by rw [← hp.inl, ← partModes_inl]; exact fermi_number_inl _) (.inl (number_hermitian _)),
      canonical_unit E2 r2, mul_one]
  · rw [av (A := 1) (B := number (mode j s)) (by rw [← hp.inr, ← partModes_inr]; exact fermi_number_inr _) (.inr (number_hermitian _)),
      canonical_unit E1 q2, one_mul]
  · refine (av (fermi_two_inl i i' s s') (.inr isHermitian_one) T).trans ?_
    rw [canonical_unit E2 r2, mul_one]
  · refine (av (fermi_two_inr j j' s s') (.inl isHermitian_one) T).trans ?_
    rw [canonical_unit E1 q2, one_mul]
  · exact av (fermi_two_cross i j s s') (.inl (number_hermitian _)) T
  · have e : number (mode (g j) s) * number (mode (f i) s') = number (mode (f i) s') * number (mode (g j) s) := by
      unfold number
      rw [diagonal_mul_diagonal, diagonal_mul_diagonal]
      congr 1
      funext t
      exact mul_comm _ _
    rw [e]
    refine (av (fermi_two_cross i j s' s) (.inl (number_hermitian _)) T).trans ?_
    exact mul_comm _ _

/-! ## Spins -/

/-- The couplings and fields are real. -/
structure RealCouplings (F : Spins) : Prop where
  jx : ∀ i j : Fin F.nsites, star (F.jx i j) = F.jx i j
  jy : ∀ i j : Fin F.nsites, star (F.jy i j) = F.jy i j
  jz : ∀ i j : Fin F.nsites, star (F.jz i j) = F.jz i j
  hx : ∀ i : Fin F.nsites, star (F.hx i) = F.hx i
  hy : ∀ i : Fin F.nsites, star (F.hy i) = F.hy i
  hz : ∀ i : Fin F.nsites, star (F.hz i) = F.hz i

/-- The Hamiltonian. -/
noncomputable abbrev spinHam (F : Spins) : Op F.nsites (F.twoS + 1) :=
  heis (sxM F.twoS) (syM F.twoS) (szM F.twoS) (fun i j => F.jx i j) (fun i j => F.jy i j) (fun i j => F.jz i j)
    (fun i => F.hx i) (fun i => F.hy i) (fun i => F.hz i)

theorem spins_hermitian {F : Spins} (hr : RealCouplings F) : (spinHam F).IsHermitian := by
  have hs := heis_star (sxM_star F.twoS) (syM_star F.twoS) (szM_star F.twoS) (n := F.nsites)
    (fun i j => F.jx i j) (fun i j => F.jy i j) (fun i j => F.jz i j)
    (fun i => F.hx i) (fun i => F.hy i) (fun i => F.hz i)
  simp only [hr.jx, hr.jy, hr.jz, hr.hx, hr.hy, hr.hz] at hs
  exact hs

theorem part_spins_real {F : Spins} (hr : RealCouplings F) {n : ℕ} (f : Fin n → Fin F.nsites) : RealCouplings (partSpins F f) := by
  refine ⟨fun i j => ?_, fun i j => ?_, fun i j => ?_, fun i => ?_, fun i => ?_, fun i => ?_⟩ <;>
    simp only [chosen_fin] <;> first | exact hr.jx _ _ | exact hr.jy _ _ | exact hr.jz _ _ | exact hr.hx _ | exact hr.hy _ | exact hr.hz _

theorem part_spins_ok {F : Spins} (hF : F.Ok) {n : ℕ} {f : Fin n → Fin F.nsites} (hf : StrictMono f) : (partSpins F f).Ok := by
  refine hF.imp id fun h i hi => ?_
  simp only [chosen_fin]
  refine h (f i) ?_
  have h1 : f i < f ⟨i + 1, hi⟩ := hf (Fin.lt_def.2 (Nat.lt_succ_self _))
  have h2 := (f ⟨i + 1, hi⟩).2
  have h3 : (f i : ℕ) < f ⟨i + 1, hi⟩ := h1
  omega

theorem spins_split (F : Spins) {n m : ℕ} {f : Fin n → Fin F.nsites} {g : Fin m → Fin F.nsites} (hp : Parts f g) (hd : Uncoupled F f g) :
    Splits (joinSpins hp.equiv (F.twoS + 1)) (spinHam F) (spinHam (partSpins F f)) (spinHam (partSpins F g)) := by
  refine ⟨joinMat_left _ _, joinMat_right _ _, ?_⟩
  have := heis_split (σ := hp.equiv) hp.mono hp.mono' (sxM F.twoS) (syM F.twoS) (szM F.twoS) (jx := fun i j => F.jx i j) (jy := fun i j => F.jy i j)
    (jz := fun i j => F.jz i j) (fun i => F.hx i) (fun i => F.hy i) (fun i => F.hz i) (fun i j h => (hd i j).1 h) (fun i j h => (hd i j).2 h)
  unfold SumOf at this
  refine this.trans ?_
  simp only [Parts.inl, Parts.inr, ← chosen_fin]

theorem spin_single_half (F : Spins) (h1 : F.twoS = 1) {o : Mat} {X : Matrix (Fin (F.twoS + 1)) (Fin (F.twoS + 1)) ℂ} (ho : o.Is X)
    (i : Fin F.nsites) : Gives (getSingleSiteOp F.sys i 0 o "boson") (siteOp X i : Op F.nsites (F.twoS + 1)) := by
  obtain ⟨n, d, _, _, _, _, _, _⟩ := F
  simp only at h1
  subst h1
  exact spin_single i ho

/-- What the averages are, in terms of energies and eigenstates. -/
theorem averages_all (F : Spins) {k : ℕ} {E : Fin (k + 1) → ℝ} {M : Mat} {V : Matrix (Conf F.nsites (F.twoS + 1)) (Fin (k + 1)) ℂ}
    (hM : M.Is V) (hE : Monotone E) {o o' : Mat} {X Y : Matrix (Fin (F.twoS + 1)) (Fin (F.twoS + 1)) ℂ} (ho : o.Is X) (ho' : o'.Is Y) :
    (F.twoS = 1 → SiteAverages F (List.ofFn E) M o fun i T => canonical T E fun k => (expect (siteOp X i) (colOf V k)).re) ∧
      PairAverages F (List.ofFn E) M o o' fun i j T => canonical T E fun k => (expect (siteOp X i * siteOp Y j) (colOf V k)).re := by
  have hP : (Mat.eye M.rows).Is (1 : Op F.nsites (F.twoS + 1)) := Mat.is_eye hM.1
  refine ⟨fun h1 temps hT => ?_, fun temps hT pairs hne => ?_⟩
  · unfold thermalExpSites
    simp only [Option.getD_none]
    rw [← List.map_coe_finRange_eq_range, List.mapM_map, mapM_ok _ _ (fun i : Fin F.nsites => temps.map fun T => canonical T E fun k =>
      (expect (siteOp X i) (colOf V k)).re)]
    · rw [List.ofFn_eq_map (n := F.nsites)]
      rfl
    · intro i _
      obtain ⟨Z, hZ, hZi⟩ := spin_single_half F h1 ho i
      change (getSingleSiteOp F.sys i 0 o "boson" >>= _) = _
      rw [hZ]
      change (sandwich 1 _ Z >>= _) = _
      obtain ⟨W, hW, hWi⟩ := sandwich_gives hP hZi 1
      rw [hW]
      change expValsThermalList M W _ temps = _
      unfold expValsThermalList
      refine mapM_ok _ _ _ fun T hTm => ?_
      rw [one_smul, conjTranspose_one, Matrix.one_mul, Matrix.mul_one] at hWi
      refine C19_canonical hM hWi E T ((hT T hTm).imp id fun hg => ⟨hE, fun k l => hg _ ?_ _ ?_⟩)
      · exact List.mem_ofFn.2 ⟨k, rfl⟩
      · exact List.mem_ofFn.2 ⟨l, rfl⟩
  · unfold thermalCorrSites
    simp only [Option.getD_some, Option.getD_none]
    rw [List.mapM_map, mapM_ok _ _ (fun q : Fin F.nsites × Fin F.nsites => temps.map fun T => canonical T E fun k =>
      (expect (siteOp X q.1 * siteOp Y q.2) (colOf V k)).re)]
    · rfl
    · intro q hq
      obtain ⟨Z, hZ, hZi⟩ := spin_two (hne q hq) ho ho'
      change (getTwoSiteOp F.sys q.1 0 q.2 0 o o' "boson" >>= _) = _
      rw [hZ]
      change (sandwich 1 _ Z >>= _) = _
      obtain ⟨W, hW, hWi⟩ := sandwich_gives hP hZi 1
      rw [hW]
      change expValsThermalList M W _ temps = _
      unfold expValsThermalList
      refine mapM_ok _ _ _ fun T hTm => ?_
      rw [one_smul, conjTranspose_one, Matrix.one_mul, Matrix.mul_one] at hWi
      refine C19_canonical hM hWi E T ((hT T hTm).imp id fun hg => ⟨hE, fun k l => hg _ ?_ _ ?_⟩)
      · exact List.mem_ofFn.2 ⟨k, rfl⟩
      · exact List.mem_ofFn.2 ⟨l, rfl⟩

theorem siteOp_hermitian {n b : ℕ} {X : Matrix (Fin b) (Fin b) ℂ} (hX : X.IsHermitian) (i : Fin n) : (siteOp X i).IsHermitian := by
  ext s t
  rw [conjTranspose_apply, siteOp, of_apply, of_apply]
  have e : AgreeOff i t s ↔ AgreeOff i s t := ⟨fun h j hj => (h j hj).symm, fun h j hj => (h j hj).symm⟩
  rw [if_congr e rfl rfl]
  split_ifs
  · exact congrFun (congrFun hX.eq _) _
  · exact star_zero _

/-- C141 (spins): if spins of two parts of the system are not coupled to each other, the parts are independent. For spins larger than
one half averages at single sites cannot be computed (C33), and fields are possible at the last site only. -/
theorem C141_spins (S : EigSolvers) (hS : EigContract S) (F : Spins) (hok : F.Ok) (hr : RealCouplings F) {n m : ℕ}
    {f : Fin n → Fin F.nsites} {g : Fin m → Fin F.nsites} (hp : Parts f g) (hd : Uncoupled F f g) :
    ∃ A w M A1 w1 M1 A2 w2 M2, F.createH none = .ok A ∧ diagList S A = .ok (w, M) ∧
      (partSpins F f).createH none = .ok A1 ∧ diagList S A1 = .ok (w1, M1) ∧
      (partSpins F g).createH none = .ok A2 ∧ diagList S A2 = .ok (w2, M2) ∧ Additive A w M A1 w1 M1 A2 w2 M2 ∧
      ∀ (o o' : Mat) (X Y : Matrix (Fin (F.twoS + 1)) (Fin (F.twoS + 1)) ℂ), o.Is X → o'.Is Y → X.IsHermitian → Y.IsHermitian →
      ∃ (d d' : Fin F.nsites → ℝ → ℝ) (d1 d1' : Fin n → ℝ → ℝ) (d2 d2' : Fin m → ℝ → ℝ)
        (c : Fin F.nsites → Fin F.nsites → ℝ → ℝ) (c1 : Fin n → Fin n → ℝ → ℝ) (c2 : Fin m → Fin m → ℝ → ℝ),
        (F.twoS = 1 → SiteAverages F w M o d ∧ SiteAverages F w M o' d' ∧
          SiteAverages (partSpins F f) w1 M1 o d1 ∧ SiteAverages (partSpins F f) w1 M1 o' d1' ∧
          SiteAverages (partSpins F g) w2 M2 o d2 ∧ SiteAverages (partSpins F g) w2 M2 o' d2') ∧
        PairAverages F w M o o' c ∧ PairAverages (partSpins F f) w1 M1 o o' c1 ∧ PairAverages (partSpins F g) w2 M2 o o' c2 ∧
        (∀ i, d (f i) = d1 i ∧ d' (f i) = d1' i) ∧ (∀ j, d (g j) = d2 j ∧ d' (g j) = d2' j) ∧
        (∀ i i', c (f i) (f i') = c1 i i') ∧ (∀ j j', c (g j) (g j') = c2 j j') ∧
        ∀ i j T, c (f i) (g j) T = d1 i T * d2' j T ∧ c (g j) (f i) T = d2 j T * d1' i T := by
  obtain ⟨A, hA, hAi⟩ := spin_createH F hok
  obtain ⟨A1, hA1, hAi1⟩ := spin_createH (partSpins F f) (part_spins_ok hok hp.mono)
  obtain ⟨A2, hA2, hAi2⟩ := spin_createH (partSpins F g) (part_spins_ok hok hp.mono')
  obtain ⟨k, E, M, V, p0, p1, p2, p3, p4, p5⟩ := diagList_ok S hS hAi (spins_hermitian hr)
  obtain ⟨k1, E1, M1, V1, q0, q1, q2, q3, q4, q5⟩ := diagList_ok S hS hAi1 (spins_hermitian (part_spins_real hr f))
  obtain ⟨k2, E2, M2, V2, r0, r1, r2, r3, r4, r5⟩ := diagList_ok S hS hAi2 (spins_hermitian (part_spins_real hr g))
  have hs := spins_split F hp hd
  have av := fun {O A B} hO hAB T => hs.average (O := O) (A := A) (B := B) q2 q3 q4 r2 r3 r4 p2 p3 p4 hO hAB T
  refine ⟨A, _, M, A1, _, M1, A2, _, M2, hA, p0, hA1, q0, hA2, r0, splits_additive hs hAi hAi1 hAi2 q1 q2 q3 q4 r1 r2 r3 r4 p1 p2 p3 p4,
    fun o o' X Y ho ho' hX hY => ?_⟩
  obtain ⟨t1, t2⟩ := averages_all F p1 p5 ho ho'
  obtain ⟨t3, -⟩ := averages_all F p1 p5 ho' ho
  obtain ⟨u1, u2⟩ := averages_all (partSpins F f) q1 q5 ho ho'
  obtain ⟨u3, -⟩ := averages_all (partSpins F f) q1 q5 ho' ho
  obtain ⟨v1, v2⟩ := averages_all (partSpins F g) r1 r5 ho ho'
  obtain ⟨v3, -⟩ := averages_all (partSpins F g) r1 r5 ho' ho
  have av1 : ∀ (Z : Matrix (Fin (F.twoS + 1)) (Fin (F.twoS + 1)) ℂ) (i : Fin n) (T : ℝ),
      (canonical T E fun k => (expect (siteOp Z (f i)) (colOf V k)).re) = canonical T E1 fun k => (expect (siteOp Z i) (colOf V1 k)).re := by
    intro Z i T
    refine (av (spin_inl Z i) (.inr isHermitian_one) T).trans ?_
    rw [canonical_unit E2 r2, mul_one]
  have av2 : ∀ (Z : Matrix (Fin (F.twoS + 1)) (Fin (F.twoS + 1)) ℂ) (i : Fin m) (T : ℝ),
      (canonical T E fun k => (expect (siteOp Z (g i)) (colOf V k)).re) = canonical T E2 fun k => (expect (siteOp Z i) (colOf V2 k)).re := by
    intro Z i T
    refine (av (spin_inr Z i) (.inl isHermitian_one) T).trans ?_
    rw [canonical_unit E1 q2, one_mul]
  refine ⟨_, _, _, _, _, _, _, _, _, fun h => ⟨t1 h, t3 h, u1 h, u3 h, v1 h, v3 h⟩, t2, u2, v2, fun i => ⟨funext fun T => av1 X i T, funext fun T => av1 Y i T⟩,
    fun j => ⟨funext fun T => av2 X j T, funext fun T => av2 Y j T⟩, fun i i' => funext fun T => ?_, fun j j' => funext fun T => ?_, fun i j T => ⟨?_, ?_⟩⟩
  · refine (av (spin_two_inl X Y i i') (.inr isHermitian_one) T).trans ?_
    rw [canonical_unit E2 r2, mul_one]
  · refine (av (spin_two_inr X Y j j') (.inl isHermitian_one) T).trans ?_
    rw [canonical_unit E1 q2, one_mul]
  · exact av (spin_two_cross X Y i j) (.inl (siteOp_hermitian hX _)) T
  · refine (av (spin_two_cross' X Y i j) (.inl (siteOp_hermitian hY _)) T).trans ?_
    exact mul_comm _ _

/-! ## Cases that meet the hypotheses -/

/-- Two interleaved pairs of sites, with two interacting species. -/
noncomputable def twoPairs : Fermions :=
  ⟨4, 2, fun i j _ => if i = j + 2 ∨ j = i + 2 then 1 else 0, fun i => i + 1, fun _ _ _ => 0, fun s => s, fun i _ => i, fun _ _ => 1, fun _ _ => 0⟩

def evens : Fin 2 → Fin 4 := ![0, 2]

def odds : Fin 2 → Fin 4 := ![1, 3]

example (S : EigSolvers) (hS : EigContract S) : ∃ A w M A1 w1 M1 A2 w2 M2, twoPairs.createH none = .ok A ∧ diagList S A = .ok (w, M) ∧
    (partModel twoPairs evens).createH none = .ok A1 ∧ diagList S A1 = .ok (w1, M1) ∧
    (partModel twoPairs odds).createH none = .ok A2 ∧ diagList S A2 = .ok (w2, M2) ∧
    (partModel twoPairs odds).us 1 = 4 ∧ (partModel twoPairs odds).ts 1 0 0 = 1 ∧
    Additive A w M A1 w1 M1 A2 w2 M2 := by
  have h1 : Parts (N := 4) evens odds := by
    refine ⟨fun i j => ?_, fun i j => ?_, ?_, ?_⟩
    · revert i j; decide
    · revert i j; decide
    · decide
    · decide
  have h2 : RealParams twoPairs := by
    refine ⟨fun i j s => ?_, fun i => ?_, fun i j s => ?_, fun s => ?_, fun i s => ?_⟩
    · simp only [twoPairs]
      split_ifs <;> simp
    · simp [twoPairs]
    · simp [twoPairs]
    · simp [twoPairs]
    · simp [twoPairs]
  have h3 : Disconnected twoPairs evens odds := by
    have key : ∀ (i j : Fin 2), ¬ ((evens i : ℕ) = odds j + 2 ∨
        (odds j : ℕ) = evens i + 2) := by decide
    intro i j s
    refine ⟨fun _ => ⟨?_, rfl⟩, fun _ => ⟨?_, rfl⟩⟩
    · unfold Amplitude
      simp only [twoPairs]
      rw [if_neg (key i j), zero_mul]
    · unfold Amplitude
      simp only [twoPairs]
      rw [if_neg (fun h => key i j h.symm), zero_mul]
  obtain ⟨A, w, M, A1, w1, M1, A2, w2, M2, a1, a2, a3, a4, a5, a6, a7, -⟩ := C141_fermions S hS twoPairs (.inl le_rfl) h2 h1 h3
  refine ⟨A, w, M, A1, w1, M1, A2, w2, M2, a1, a2, a3, a4, a5, a6, ?_, ?_, a7⟩
  · simp [twoPairs, chosen, evens, odds]
    norm_num
  · simp [twoPairs, chosen, evens, odds]

def ends : Fin 2 → Fin 3 := ![0, 2]

def middle : Fin 1 → Fin 3 := ![1]

/-- Three spins one half, of which the middle one is not coupled to the others. -/
noncomputable def freeMiddle : Spins :=
  ⟨3, 1, fun i j => if i + j = 2 ∧ i ≠ j then 1 else 0, fun i j => if i + j = 2 ∧ i ≠ j then 1 else 0, fun i j => if i + j = 2 ∧ i ≠ j then 2 else 0,
    fun i => i, fun _ => 0, fun _ => 1⟩

example (S : EigSolvers) (hS : EigContract S) : ∃ A w M A1 w1 M1 A2 w2 M2, freeMiddle.createH none = .ok A ∧ diagList S A = .ok (w, M) ∧
    (partSpins freeMiddle ends).createH none = .ok A1 ∧ diagList S A1 = .ok (w1, M1) ∧
    (partSpins freeMiddle middle).createH none = .ok A2 ∧ diagList S A2 = .ok (w2, M2) ∧
    (partSpins freeMiddle ends).jz 1 0 = 2 ∧ Additive A w M A1 w1 M1 A2 w2 M2 := by
  have h1 : Parts (N := 3) ends middle := by
    refine ⟨fun i j => ?_, fun i j => ?_, ?_, ?_⟩
    · revert i j; decide
    · revert i j; decide
    · decide
    · decide
  have h2 : RealCouplings freeMiddle := by
    refine ⟨fun i j => ?_, fun i j => ?_, fun i j => ?_, fun i => ?_, fun i => ?_, fun i => ?_⟩ <;> simp only [freeMiddle] <;>
      (try split_ifs) <;> simp
  have h3 : Uncoupled freeMiddle ends middle := by
    have key : ∀ (i : Fin 2) (j : Fin 1), (ends i : ℕ) + middle j ≠ 2 := by decide
    intro i j
    have k1 := key i j
    have k2 : (middle j : ℕ) + ends i ≠ 2 := fun h => k1 (by omega)
    refine ⟨fun _ => ⟨?_, ?_, ?_⟩, fun _ => ⟨?_, ?_, ?_⟩⟩ <;> simp only [freeMiddle] <;> exact if_neg (by omega)
  obtain ⟨A, w, M, A1, w1, M1, A2, w2, M2, a1, a2, a3, a4, a5, a6, a7, -⟩ := C141_spins S hS freeMiddle (.inl rfl) h2 h1 h3
  refine ⟨A, w, M, A1, w1, M1, A2, w2, M2, a1, a2, a3, a4, a5, a6, ?_, a7⟩
  simp [freeMiddle, chosen, ends, middle]

end ED.Props
