import Verif.Spec.Multiplets
import Verif.Lemmas.Multiplets
import Verif.Props.TwoSites
import Verif.Props.ParticleHole

/-! # Properties C123 and C124: spin rotations and pairs in the Hubbard model -/

namespace ED.Props

open Matrix ED.Geometry

/-- The energies of the states with `k` particles of the first species and `m` particles of the second species, as a user
computes them: projector, Hamiltonian, diagonalization. -/
def SectorLevels (S : EigSolvers) (F : Fermions) (k m : ℕ) (w : List ℝ) : Prop :=
  ∃ P A M, F.nProjector (some [some (k : ℤ), some (m : ℤ)]) = .ok P ∧ F.createH (some P) = .ok A ∧ diagList S A = .ok (w, M)

theorem SectorLevels.unique {S : EigSolvers} {F : Fermions} {k m : ℕ} {w w' : List ℝ} (h : SectorLevels S F k m w)
    (h' : SectorLevels S F k m w') : w = w' := by
  obtain ⟨P, A, M, h1, h2, h3⟩ := h
  obtain ⟨P', A', M', h1', h2', h3'⟩ := h'
  rw [h1] at h1'; injection h1' with e1; subst e1
  rw [h2] at h2'; injection h2' with e2; subst e2
  rw [h3] at h3'; injection h3' with e3
  exact (Prod.mk.inj e3).1

/-- The Hamiltonian of the model as a matrix. -/
noncomputable abbrev hubH (F : Fermions) : Op (F.nsites * F.nspecies) 2 := hubInter (fun i => F.us i) + hubRest F

theorem hubH_hermitian (F : Fermions) (h2 : 2 ≤ F.nspecies) (hr : RealParams F) : (hubH F).IsHermitian := by
  obtain ⟨H, hH, hiff⟩ := C25_hermitian_iff F (Or.inl h2) hr.us hr.same hr.mus hr.pots
  have e : hubH F = H := gives_unique (createH_gives (Or.inl h2)) hH
  rw [e]
  exact hiff.2 fun i j s _ => Or.inl (hr.ts i j s)

section
variable {n : ℕ} {ts : ℕ → ℕ → ℕ → ℂ} {us : ℕ → ℂ} {W : ℕ → ℕ → ℕ → ℂ} {mus : ℕ → ℂ} {pots : ℕ → ℕ → ℂ} {xd yd : ℕ → ℕ → ℝ}

/-- The states, energies and eigenvectors of a sector. -/
theorem sector_data (S : EigSolvers) (hS : EigContract S) (hr : RealParams ⟨n, 2, ts, us, W, mus, pots, xd, yd⟩) (hn : 0 < n)
    {k m : ℕ} (hk : k ≤ n) (hm : m ≤ n) :
    ∃ (d : ℕ) (sel : Fin (d + 1) → Conf (n * 2) 2) (e : ℕ) (E : Fin (e + 1) → ℝ) (V : Matrix (Fin (d + 1)) (Fin (e + 1)) ℂ),
      Function.Injective sel ∧ (∀ t, (speciesCount t 0 = k ∧ speciesCount t 1 = m) ↔ ∃ r, sel r = t) ∧
      SectorLevels S ⟨n, 2, ts, us, W, mus, pots, xd, yd⟩ k m (List.ofFn E) ∧ Vᴴ * V = 1 ∧ V * Vᴴ = 1 ∧
      (hubH ⟨n, 2, ts, us, W, mus, pots, xd, yd⟩ : Op (n * 2) 2).submatrix sel sel * V = V * diagonal (fun i => (E i : ℂ)) ∧
      Monotone E := by
  obtain ⟨P, hP, hsel⟩ := C16_number_projector ⟨n, 2, ts, us, W, mus, pots, xd, yd⟩ hn [some (k : ℤ), some (m : ℤ)] rfl
  have hcount : ∀ t : Conf (n * 2) 2, (∀ (s : Fin 2) (v : ℤ), [some (k : ℤ), some (m : ℤ)][s]? = some (some v) →
      (speciesCount t s : ℤ) = v) ↔ speciesCount t 0 = k ∧ speciesCount t 1 = m := by
    intro t
    constructor
    · intro h
      exact ⟨by exact_mod_cast h 0 k rfl, by exact_mod_cast h 1 m rfl⟩
    · rintro ⟨h0, h1⟩ s v hv
      fin_cases s
      · obtain rfl : (k : ℤ) = v := by simpa using hv
        exact_mod_cast h0
      · obtain rfl : (m : ℤ) = v := by simpa using hv
        exact_mod_cast h1
  obtain ⟨t0, ht0⟩ := exists_counts (nsites := n) (nspecies := 2) ![k, m] (fun s => by fin_cases s <;> assumption)
  obtain ⟨d, sel, hinj, hrange, hPi⟩ := hsel.is (p := fun t => ∀ (s : Fin 2) (v : ℤ),
    [some (k : ℤ), some (m : ℤ)][s]? = some (some v) → (speciesCount t s : ℤ) = v) ⟨t0, (hcount _).2 ⟨ht0 0, ht0 1⟩⟩
  obtain ⟨A, hA, hAi⟩ := createH_gives_proj (F := ⟨n, 2, ts, us, W, mus, pots, xd, yd⟩) hPi (Or.inl le_rfl)
  rw [select_conj] at hAi
  obtain ⟨e, E, M, V, a1, a2, a3, a4, a5, a6⟩ := diagList_ok S hS hAi
    ((hubH_hermitian ⟨n, 2, ts, us, W, mus, pots, xd, yd⟩ le_rfl hr).submatrix sel)
  exact ⟨d, sel, e, E, V, hinj, fun t => (hcount t).symm.trans (hrange t), ⟨P, A, M, hP, hA, a1⟩, a3, a4, a5, a6⟩

/-- An operator `L` that leads from one sector to another one, changes the energy by `Δ` and loses no state. -/
theorem sector_step (S : EigSolvers) (hS : EigContract S) (hr : RealParams ⟨n, 2, ts, us, W, mus, pots, xd, yd⟩) (hn : 0 < n)
    {k m k' m' : ℕ} (hk : k ≤ n) (hm : m ≤ n) (hk' : k' ≤ n) (hm' : m' ≤ n) {L K : Op (n * 2) 2} {Δ : ℝ} {f : Conf (n * 2) 2 → ℂ} {c : ℝ}
    (hL : ∀ t t', speciesCount t 0 = k' → speciesCount t 1 = m' → ((hubH ⟨n, 2, ts, us, W, mus, pots, xd, yd⟩ : Op (n * 2) 2) * L) t t' =
      (L * (hubH ⟨n, 2, ts, us, W, mus, pots, xd, yd⟩ : Op (n * 2) 2) + (Δ : ℂ) • L) t t')
    (hlab : ∀ t t', L t t' ≠ 0 → speciesCount t' 0 = k → speciesCount t' 1 = m → speciesCount t 0 = k' ∧ speciesCount t 1 = m')
    (hg : Lᴴ * L = Kᴴ * K + diagonal f) (hc : 0 < c) (hf : ∀ t, speciesCount t 0 = k → speciesCount t 1 = m → f t = c) :
    ∃ w w', SectorLevels S ⟨n, 2, ts, us, W, mus, pots, xd, yd⟩ k m w ∧ SectorLevels S ⟨n, 2, ts, us, W, mus, pots, xd, yd⟩ k' m' w' ∧
      (w.map (· + Δ)).Subperm w' := by
  obtain ⟨d, sel, e, E, V, a1, a2, a3, a4, a5, a6, -⟩ := sector_data S hS hr hn hk hm
  obtain ⟨d', sel', e', E', V', b1, b2, b3, b4, b5, b6, -⟩ := sector_data S hS hr hn hk' hm'
  have hcons : ∀ t r, (∀ r', sel r' ≠ t) → (hubH ⟨n, 2, ts, us, W, mus, pots, xd, yd⟩ : Op (n * 2) 2) t (sel r) = 0 := by
    intro t r ht
    obtain ⟨H, hH, hN⟩ := C26_number_conservation ⟨n, 2, ts, us, W, mus, pots, xd, yd⟩ (Or.inl le_rfl)
    have e : (hubH ⟨n, 2, ts, us, W, mus, pots, xd, yd⟩ : Op (n * 2) 2) = H := gives_unique (createH_gives (Or.inl le_rfl)) hH
    rw [e]
    have hs := (a2 (sel r)).2 ⟨r, rfl⟩
    by_contra hne
    refine absurd ((a2 t).1 ⟨?_, ?_⟩) (by rintro ⟨r', h⟩; exact ht r' h)
    · rw [← hs.1]
      by_contra hc
      obtain ⟨_, _, _, h0⟩ := hN 0 hn
      exact hne (h0 t (sel r) hc)
    · rw [← hs.2]
      by_contra hc
      obtain ⟨_, _, _, h0⟩ := hN 1 hn
      exact hne (h0 t (sel r) hc)
  have hto : ∀ t r, (∀ r', sel' r' ≠ t) → L t (sel r) = 0 := by
    intro t r ht
    have hs := (a2 (sel r)).2 ⟨r, rfl⟩
    by_contra hne
    obtain ⟨r', h⟩ := (b2 t).1 (hlab t (sel r) hne hs.1 hs.2)
    exact ht r' h
  refine ⟨_, _, a3, b3, levels_intertwine a4 b5 b4 a6 b6 (selected_intertwine a1 b1 (fun r s => hL _ _ ((b2 _).2 ⟨r, rfl⟩).1 ((b2 _).2 ⟨r, rfl⟩).2) hcons hto) fun v hv => ?_⟩
  refine injective_of_gram hc (selected_gram a1 b1 hg (fun r => ?_) hto) v hv
  have hs := (a2 (sel r)).2 ⟨r, rfl⟩
  exact hf _ hs.1 hs.2

/-- The Hamiltonian if there are no interactions between different sites. -/
theorem hubH_local (h : ∀ i j, j < i → i < n → ∀ s < 2, W i j s = 0) :
    (hubH ⟨n, 2, ts, us, W, mus, pots, xd, yd⟩ : Op (n * 2) 2) =
      hubInter (fun i : Fin n => us i) + hubHop (fun (i j : Fin n) (s : Fin 2) => ts i j s * ((|xd i j| + |yd i j| : ℝ) : ℂ)) +
        hubPot (fun (i : Fin n) (s : Fin 2) => W i i s + (pots i s - mus s)) := by
  have e : (hubSame (fun (i j : Fin n) (s : Fin 2) => W i j s) : Op (n * 2) 2) = hubPot fun i s => W i i s :=
    hubSame_local _ fun i j s hij => h i j hij i.2 s s.2
  change hubInter (fun i : Fin n => us i) + (hubSame (fun (i j : Fin n) (s : Fin 2) => W i j s) +
    hubHop (fun (i j : Fin n) (s : Fin 2) => ts i j s * ((|xd i j| + |yd i j| : ℝ) : ℂ)) +
    hubPot (fun (i : Fin n) (s : Fin 2) => pots i s - mus s)) = _
  rw [e, ← hubPot_add]
  abel

theorem vacuum_sector (S : EigSolvers) (hS : EigContract S) (hr : RealParams ⟨n, 2, ts, us, W, mus, pots, xd, yd⟩) (hn : 0 < n) :
    SectorLevels S ⟨n, 2, ts, us, W, mus, pots, xd, yd⟩ 0 0 [0] := by
  obtain ⟨d, sel, e, E, V, a1, a2, a3, a4, a5, a6, -⟩ := sector_data S hS hr hn (Nat.zero_le n) (Nat.zero_le n)
  have hz : ∀ r k, sel r k = 0 := by
    intro r k
    have hs := (a2 (sel r)).2 ⟨r, rfl⟩
    obtain ⟨i, s, rfl⟩ : ∃ (i : Fin n) (s : Fin 2), k = mode i s := by
      obtain ⟨⟨s, i⟩, h⟩ := (modeEquiv n 2).surjective k
      exact ⟨i, s, h.symm⟩
    have h0 : speciesCount (sel r) s = 0 := by fin_cases s; exacts [hs.1, hs.2]
    unfold speciesCount at h0
    rw [Finset.card_eq_zero, Finset.filter_eq_empty_iff] at h0
    have := h0 (Finset.mem_univ i)
    omega
  have hd : ∀ r r', r = r' := fun r r' => a1 (funext fun k => by rw [hz, hz])
  have hnum : ∀ (X : Op (n * 2) 2) (k : Fin (n * 2)) (t : Conf (n * 2) 2) r, (X * number k) t (sel r) = 0 := fun X k t r => by
    rw [number, mul_diagonal, hz r k]
    simp
  have hann : ∀ (X : Op (n * 2) 2) (k : Fin (n * 2)) (t : Conf (n * 2) 2) r, (X * annih k) t (sel r) = 0 := fun X k t r => by
    have e : annih k * number k = (annih k : Op (n * 2) 2) := by rw [number_annih, if_pos rfl, number_mul_annih, zero_add]
    rw [← e, ← Matrix.mul_assoc, hnum]
  have hH : (hubH ⟨n, 2, ts, us, W, mus, pots, xd, yd⟩ : Op (n * 2) 2).submatrix sel sel = 0 := by
    ext r r'
    change (hubInter (fun i : Fin n => us i) + (hubSame (fun (i j : Fin n) (s : Fin 2) => W i j s) +
      hubHop (fun (i j : Fin n) (s : Fin 2) => ts i j s * ((|xd i j| + |yd i j| : ℝ) : ℂ)) +
      hubPot (fun (i : Fin n) (s : Fin 2) => pots i s - mus s)) : Op (n * 2) 2) (sel r) (sel r') = 0
    have h1 : ∀ k, (number k : Op (n * 2) 2) (sel r) (sel r') = 0 := fun k => by
      have := hnum 1 k (sel r) r'
      rwa [Matrix.one_mul] at this
    rw [hubInter, dif_pos le_rfl, hubSame, hubHop, hubPot]
    simp only [Matrix.add_apply, Matrix.sum_apply, Matrix.smul_apply, Matrix.neg_apply, apply_ite (fun M : Op (n * 2) 2 => M (sel r) (sel r')),
      hnum, hann, h1, Matrix.zero_apply, smul_zero, neg_zero, add_zero, ite_self, Finset.sum_const_zero]
  rw [hH, Matrix.zero_mul] at a6
  have hE : ∀ i, E i = 0 := by
    intro i
    have h := congrArg (Vᴴ * ·) a6
    simp only [Matrix.mul_zero, ← Matrix.mul_assoc, a4, Matrix.one_mul] at h
    have := congrFun (congrFun h i) i
    rw [diagonal_apply_eq, Matrix.zero_apply] at this
    exact_mod_cast this.symm
  have he : e = 0 := by
    by_contra hne
    have k1 : ∀ i j, (Vᴴ * V) i j = star (V 0 i) * V 0 j := fun i j => by
      rw [Matrix.mul_apply, Finset.sum_eq_single 0 (fun r _ h => absurd (hd r 0) h) (by simp)]
      rfl
    have k2 := k1 0 (Fin.last e)
    have k3 := k1 0 0
    have k4 := k1 (Fin.last e) (Fin.last e)
    rw [a4] at k2 k3 k4
    rw [one_apply_ne (by simp [Fin.ext_iff]; omega)] at k2
    rw [one_apply_eq] at k3 k4
    rcases mul_eq_zero.1 k2.symm with h | h
    · rw [h, zero_mul] at k3
      exact one_ne_zero k3
    · rw [h, mul_zero] at k4
      exact one_ne_zero k4
  subst he
  have hw : List.ofFn E = [0] := by simp [hE]
  rw [hw] at a3
  exact a3

end

/-! ## C123: spin rotations -/

theorem SectorLevels.sorted {S : EigSolvers} (hS : EigContract S) {F : Fermions} (h2 : F.nspecies = 2) (hr : RealParams F)
    (hn : 0 < F.nsites) {k m : ℕ} (hk : k ≤ F.nsites) (hm : m ≤ F.nsites) :
    ∃ w, SectorLevels S F k m w ∧ w.Pairwise (· ≤ ·) ∧ w ≠ [] := by
  obtain ⟨n, b, ts, us, W, mus, pots, xd, yd⟩ := F
  obtain rfl : b = 2 := h2
  obtain ⟨d, sel, e, E, V, a1, a2, a3, a4, a5, a6, a7⟩ := sector_data S hS hr hn hk hm
  refine ⟨_, a3, ?_, by simp⟩
  rw [List.pairwise_ofFn]
  exact fun i j hij => a7 hij.le

/-- One sector contains the energies of another one, shifted by `Δ`. -/
def Contained (S : EigSolvers) (F : Fermions) (k m k' m' : ℕ) (Δ : ℝ) : Prop :=
  ∃ w w', SectorLevels S F k m w ∧ SectorLevels S F k' m' w' ∧ (w.map (· + Δ)).Subperm w'

theorem Contained.trans {S : EigSolvers} {F : Fermions} {k m k' m' k'' m'' : ℕ} {Δ Δ' : ℝ} (h : Contained S F k m k' m' Δ)
    (h' : Contained S F k' m' k'' m'' Δ') : Contained S F k m k'' m'' (Δ + Δ') := by
  obtain ⟨w, w', a, b, c⟩ := h
  obtain ⟨x, x', a', b', c'⟩ := h'
  obtain rfl := b.unique a'
  refine ⟨w, x', a, b', ?_⟩
  have e : w.map (· + (Δ + Δ')) = (w.map (· + Δ)).map (· + Δ') := by simp [Function.comp_def, add_assoc]
  rw [e]
  exact ((List.map_subperm_map_iff (add_left_injective Δ')).2 c).trans c'

theorem Contained.equal {S : EigSolvers} (hS : EigContract S) {F : Fermions} (h2 : F.nspecies = 2) (hr : RealParams F)
    (hn : 0 < F.nsites) {k m k' m' : ℕ} (hk : k ≤ F.nsites) (hm : m ≤ F.nsites) (hk' : k' ≤ F.nsites) (hm' : m' ≤ F.nsites) {Δ : ℝ}
    (h : Contained S F k m k' m' Δ) (h' : Contained S F k' m' k m (-Δ)) :
    ∃ w, SectorLevels S F k m w ∧ SectorLevels S F k' m' (w.map (· + Δ)) := by
  obtain ⟨w, w', a, b, c⟩ := h
  obtain ⟨x, x', a', b', c'⟩ := h'
  obtain rfl := b.unique a'
  obtain rfl := a.unique b'
  obtain ⟨y, y1, y2, -⟩ := SectorLevels.sorted hS h2 hr hn hk hm
  obtain ⟨z, z1, z2, -⟩ := SectorLevels.sorted hS h2 hr hn hk' hm'
  obtain rfl := a.unique y1
  obtain rfl := b.unique z1
  refine ⟨w, a, ?_⟩
  have hp : (w.map (· + Δ)).Perm w' := by
    refine c.antisymm ?_
    have := (List.map_subperm_map_iff (add_left_injective Δ)).2 c'
    simpa [Function.comp_def] using this
  have e : w.map (· + Δ) = w' := by
    refine List.Perm.eq_of_pairwise' (r := (· ≤ ·)) ?_ z2 hp
    rw [List.pairwise_map]
    exact y2.imp fun h => by linarith
  rw [e]
  exact b

theorem spin_bracket {F : Fermions} {n : ℕ} {ts : ℕ → ℕ → ℕ → ℂ} {us : ℕ → ℂ} {W : ℕ → ℕ → ℕ → ℂ} {mus : ℕ → ℂ} {pots : ℕ → ℕ → ℂ}
    {xd yd : ℕ → ℕ → ℝ} (hF : F = ⟨n, 2, ts, us, W, mus, pots, xd, yd⟩) (h : F.SpinSymmetric) :
    (hubH ⟨n, 2, ts, us, W, mus, pots, xd, yd⟩ : Op (n * 2) 2) * spinLow n =
      spinLow n * (hubH ⟨n, 2, ts, us, W, mus, pots, xd, yd⟩ : Op (n * 2) 2) := by
  subst hF
  rw [hubH_local h.local_same, ← sub_eq_zero, ← Ring.lie_def, add_bracket, add_bracket, hubInter_spinLow,
    hubHop_spinLow _ fun i j hij => ?_, hubPot_spinLow _ fun i => ?_]
  · simp
  · change W i i 0 + (pots i 0 - mus 0) = W i i 1 + (pots i 1 - mus 1)
    exact congrArg₂ (· + ·) (h.same i i le_rfl i.2) (h.level i i.2)
  · change ts i j 0 * _ = ts i j 1 * _
    exact congrArg (· * _) (h.hop i j hij i.2)

/-- C123: the total spin, lowered or raised by operators of the library, commutes with the Hamiltonian. -/
theorem C123_commutes (F : Fermions) (h : F.SpinSymmetric) :
    ∃ (H : Op (F.nsites * F.nspecies) 2) (L : Fin F.nsites → Op (F.nsites * F.nspecies) 2), Gives (F.createH none) H ∧
      (∀ i : Fin F.nsites, Gives (getTwoSiteOp F.sys i 1 i 0 cdagOp cOp "fermion") (L i) ∧
        Gives (getTwoSiteOp F.sys i 0 i 1 cdagOp cOp "fermion") (L i)ᴴ) ∧
      H * (∑ i, L i) = (∑ i, L i) * H ∧ (RealParams F → H * (∑ i, L i)ᴴ = (∑ i, L i)ᴴ * H) := by
  obtain ⟨n, b, ts, us, W, mus, pots, xd, yd⟩ := F
  obtain rfl : b = 2 := h.species
  have hb := spin_bracket rfl h
  refine ⟨_, fun i => create (mode i (1 : Fin 2)) * annih (mode i (0 : Fin 2)), createH_gives (Or.inl le_rfl), fun i => ⟨?_, ?_⟩, hb, fun hr => ?_⟩
  · exact F_hop ⟨n, 2, ts, us, W, mus, pots, xd, yd⟩ i i 1 0
  · rw [conjTranspose_mul, create_star, annih_star]
    exact F_hop ⟨n, 2, ts, us, W, mus, pots, xd, yd⟩ i i 0 1
  · have hH := hubH_hermitian ⟨n, 2, ts, us, W, mus, pots, xd, yd⟩ le_rfl hr
    have := congrArg conjTranspose hb
    rw [conjTranspose_mul, conjTranspose_mul, hH.eq] at this
    exact this.symm

theorem pointwise_of_eq {N : ℕ} {H L : Op N 2} {Δ : ℝ} (h : H * L = L * H + (Δ : ℂ) • L) (t t' : Conf N 2) :
    (H * L) t t' = (L * H + (Δ : ℂ) • L) t t' := by rw [h]

theorem spin_step (S : EigSolvers) (hS : EigContract S) (F : Fermions) (h : F.SpinSymmetric) (hr : RealParams F) {k m : ℕ}
    (hm : m ≤ k) (hk : k + 1 ≤ F.nsites) : Contained S F (k + 1) m k (m + 1) 0 := by
  obtain ⟨n, b, ts, us, W, mus, pots, xd, yd⟩ := F
  obtain rfl : b = 2 := h.species
  change k + 1 ≤ n at hk
  have hg := spinLow_gram (a := n)
  rw [speciesNumber_diagonal, speciesNumber_diagonal, diagonal_sub] at hg
  refine sector_step S hS hr (by change 0 < n; omega) hk (by change m ≤ n; omega) (by change k ≤ n; omega) (by change m + 1 ≤ n; omega)
    (L := spinLow n) (K := (spinLow n)ᴴ) (c := (k + 1 : ℝ) - m) (fun t t' _ _ => pointwise_of_eq (by rw [spin_bracket rfl h]; simp) t t') ?_
    (by rw [conjTranspose_conjTranspose]; exact hg) ?_ ?_
  · intro t t' hne e0 e1
    have := spinLow_count hne
    omega
  · have : (m : ℝ) ≤ k := by exact_mod_cast hm
    linarith
  · intro t e0 e1
    simp only [Pi.sub_apply, e0, e1]
    push_cast
    ring

/-- Exchanging two species with the same parameters. -/
theorem exchange_step (S : EigSolvers) (hS : EigContract S) (F : Fermions) (h : F.SameSpecies) (hr : RealParams F) {k m : ℕ}
    (hn : 0 < F.nsites) (hk : k ≤ F.nsites) (hm : m ≤ F.nsites) : Contained S F k m m k 0 := by
  obtain ⟨n, b, ts, us, W, mus, pots, xd, yd⟩ := F
  obtain rfl : b = 2 := h.species
  have hc : (hubH ⟨n, 2, ts, us, W, mus, pots, xd, yd⟩ : Op (n * 2) 2) * speciesSwap n =
      speciesSwap n * (hubH ⟨n, 2, ts, us, W, mus, pots, xd, yd⟩ : Op (n * 2) 2) := by
    change (hubInter (fun i : Fin n => us i) + (hubSame (fun (i j : Fin n) (s : Fin 2) => W i j s) +
      hubHop (fun (i j : Fin n) (s : Fin 2) => ts i j s * ((|xd i j| + |yd i j| : ℝ) : ℂ)) +
      hubPot (fun (i : Fin n) (s : Fin 2) => pots i s - mus s)) : Op (n * 2) 2) * _ =
      _ * (hubInter (fun i : Fin n => us i) + (hubSame (fun (i j : Fin n) (s : Fin 2) => W i j s) +
      hubHop (fun (i j : Fin n) (s : Fin 2) => ts i j s * ((|xd i j| + |yd i j| : ℝ) : ℂ)) +
      hubPot (fun (i : Fin n) (s : Fin 2) => pots i s - mus s)) : Op (n * 2) 2)
    rw [Matrix.mul_add, Matrix.mul_add, Matrix.mul_add, speciesSwap_inter, speciesSwap_same _ fun i j hij => ?_,
      speciesSwap_hop _ fun i j hij => ?_, speciesSwap_pot _ fun i => ?_, ← Matrix.add_mul, ← Matrix.add_mul, ← Matrix.add_mul]
    · exact h.level i i.2
    · change ts i j 0 * _ = ts i j 1 * _
      exact congrArg (· * _) (h.hop i j hij i.2)
    · exact h.same i j hij i.2
  refine sector_step S hS hr hn hk hm hm hk (L := speciesSwap n) (K := 0) (f := fun _ => 1) (c := 1)
    (fun t t' _ _ => pointwise_of_eq (by rw [hc]; simp) t t') ?_ ?_ one_pos (fun _ _ _ => by simp)
  · intro t t' hne e0 e1
    exact ⟨(speciesSwap_count hne 1).trans e1, (speciesSwap_count hne 0).trans e0⟩
  · rw [speciesSwap_left]
    simp

/-- C123: if the two species have the same parameters, then the energies of `k` and `m` particles are those of `m` and `k`
particles. -/
theorem C123_exchange (S : EigSolvers) (hS : EigContract S) (F : Fermions) (h : F.SameSpecies) (hr : RealParams F) {k m : ℕ}
    (hn : 0 < F.nsites) (hk : k ≤ F.nsites) (hm : m ≤ F.nsites) : ∃ w, SectorLevels S F k m w ∧ SectorLevels S F m k w := by
  obtain ⟨w, a, b⟩ := Contained.equal hS h.species hr hn hk hm hm hk (exchange_step S hS F h hr hn hk hm)
    (by rw [neg_zero]; exact exchange_step S hS F h hr hn hm hk)
  refine ⟨w, a, ?_⟩
  simpa using b

theorem spin_steps (S : EigSolvers) (hS : EigContract S) (F : Fermions) (h : F.SpinSymmetric) (hr : RealParams F) {k m : ℕ} (j : ℕ)
    (hm : m + j ≤ k) (hn : 0 < F.nsites) (hk : k + j ≤ F.nsites) : Contained S F (k + j) m k (m + j) 0 := by
  induction j generalizing k with
  | zero =>
    obtain ⟨w, a, -⟩ := SectorLevels.sorted hS h.species hr hn (k := k) (m := m) (by omega) (by omega)
    refine ⟨w, w, a, a, ?_⟩
    simpa using List.Subperm.refl w
  | succ j ih =>
    have h1 := ih (k := k + 1) (by omega) (by omega)
    have h2 := spin_step S hS F h hr (k := k) (m := m + j) (by omega) (by omega)
    have := h1.trans h2
    rw [add_zero] at this
    have e : k + 1 + j = k + (j + 1) := by omega
    rw [e] at this
    exact this

/-- C123: among the states with a given number of particles, those with the two species more balanced contain all energies of
those with the species less balanced, with their multiplicities: the energies form multiplets of the total spin. -/
theorem C123_multiplets (S : EigSolvers) (hS : EigContract S) (F : Fermions) (h : F.SpinSymmetric) (hr : RealParams F) {k m k' m' : ℕ}
    (hn : 0 < F.nsites) (hk : k ≤ F.nsites) (hm : m ≤ F.nsites) (hN : k + m = k' + m') (hmin : min k m ≤ min k' m') :
    ∃ w w', SectorLevels S F k m w ∧ SectorLevels S F k' m' w' ∧ w.Subperm w' := by
  have hx : ∀ {k m : ℕ}, k ≤ F.nsites → m ≤ F.nsites → Contained S F k m m k 0 := fun hk hm =>
    exchange_step S hS F h.toSameSpecies hr hn hk hm
  have hc : Contained S F k m k' m' 0 := by
    have key : ∀ {k m k' m' : ℕ}, k ≤ F.nsites → k + m = k' + m' → m ≤ m' → m' ≤ k' → Contained S F k m k' m' 0 := by
      intro k m k' m' hk hN h1 h2
      have h3 := spin_steps S hS F h hr (k := k') (m := m) (m' - m) (by omega) hn (by omega)
      have e1 : k' + (m' - m) = k := by omega
      have e2 : m + (m' - m) = m' := by omega
      rwa [e1, e2] at h3
    have key2 : ∀ {k m k' m' : ℕ}, k ≤ F.nsites → m ≤ F.nsites → k + m = k' + m' → m ≤ k → min k m ≤ min k' m' →
        Contained S F k m k' m' 0 := by
      intro k m k' m' hk hm hN h1 h2
      rcases le_total m' k' with h3 | h3
      · exact key hk hN (by omega) h3
      · have h4 := key (m := m) (k' := m') (m' := k') hk (by omega) (by omega) h3
        have h5 := hx (k := m') (m := k') (by omega) (by omega)
        have := h4.trans h5
        rwa [add_zero] at this
    rcases le_total m k with h3 | h3
    · exact key2 hk hm hN h3 hmin
    · have h4 := hx hk hm
      have h5 := key2 hm hk (k' := k') (m' := m') (by omega) h3 (by omega)
      have := h4.trans h5
      rwa [add_zero] at this
  obtain ⟨w, w', a, b, c⟩ := hc
  exact ⟨w, w', a, b, by simpa using c⟩

/-- C123: the lowest energy of a given number of particles is found where the two species are balanced. -/
theorem C123_ground (S : EigSolvers) (hS : EigContract S) (F : Fermions) (h : F.SpinSymmetric) (hr : RealParams F) (hn : 0 < F.nsites)
    {N : ℕ} (hN : N ≤ 2 * F.nsites) :
    ∃ e w', SectorLevels S F (N - N / 2) (N / 2) (e :: w') ∧
      ∀ k m, k + m = N → k ≤ F.nsites → m ≤ F.nsites → ∃ w, SectorLevels S F k m w ∧ ∀ x ∈ w, e ≤ x := by
  obtain ⟨w', a, b, c⟩ := SectorLevels.sorted hS h.species hr hn (k := N - N / 2) (m := N / 2) (by omega) (by omega)
  cases w' with
  | nil => exact absurd rfl c
  | cons e w' =>
    refine ⟨e, w', a, fun k m hkm hk hm => ?_⟩
    obtain ⟨w, x, a1, a2, a3⟩ := C123_multiplets S hS F h hr hn hk hm (k' := N - N / 2) (m' := N / 2) (by omega) (by omega)
    obtain rfl := a.unique a2
    refine ⟨w, a1, fun x hx => ?_⟩
    rcases List.mem_cons.1 (a3.subset hx) with rfl | h'
    · exact le_rfl
    · exact (List.pairwise_cons.1 b).1 x h'

/-! ## C124: pairs -/

/-- The sites are coloured such that particles hop only between sites of different colours. -/
def Colours (F : Fermions) (c : Fin F.nsites → Bool) : Prop :=
  ∀ (i j : Fin F.nsites) (s : Fin F.nspecies), j < i → F.ts i j s * ((|F.xdist i j| + |F.ydist i j| : ℝ) : ℂ) ≠ 0 → c i ≠ c j

theorem pair_bracket {F : Fermions} {n : ℕ} {ts : ℕ → ℕ → ℕ → ℂ} {us : ℕ → ℂ} {W : ℕ → ℕ → ℕ → ℂ} {mus : ℕ → ℂ} {pots : ℕ → ℕ → ℂ}
    {xd yd : ℕ → ℕ → ℝ} (hF : F = ⟨n, 2, ts, us, W, mus, pots, xd, yd⟩) {Δ : ℝ} (h : F.PairSymmetric Δ) {c : Fin n → Bool}
    (hc : Colours ⟨n, 2, ts, us, W, mus, pots, xd, yd⟩ c) :
    (hubH ⟨n, 2, ts, us, W, mus, pots, xd, yd⟩ : Op (n * 2) 2) * pairUp (fun i => if c i then 1 else -1) =
      pairUp (fun i => if c i then 1 else -1) * (hubH ⟨n, 2, ts, us, W, mus, pots, xd, yd⟩ : Op (n * 2) 2) +
        (Δ : ℂ) • pairUp (fun i => if c i then 1 else -1) := by
  subst hF
  have e : (Δ : ℂ) • pairUp (fun i : Fin n => if c i then 1 else -1) = pairUp fun i => (Δ : ℂ) * if c i then 1 else -1 := by
    simp only [pairUp, Finset.smul_sum, smul_smul]
  have e2 : ∀ ε ε' : Fin n → ℂ, pairUp ε + pairUp ε' = pairUp fun i => ε i + ε' i := fun ε ε' => by
    simp only [pairUp, ← Finset.sum_add_distrib, add_smul]
  rw [hubH_local h.local_same, ← sub_eq_iff_eq_add', ← Ring.lie_def, add_bracket, add_bracket, hubInter_pairUp,
    hubHop_pairUp _ (fun i j hij => ?_) _ fun i j hij hne => ?_, hubPot_pairUp, add_zero, e2, e]
  · congr 1
    funext i
    have := h.level i i.2
    rw [← this]
    change us i * _ + (W i i 0 + (pots i 0 - mus 0) + (W i i 1 + (pots i 1 - mus 1))) * _ =
      (us i + (W i i 0 + W i i 1) + (pots i 0 - mus 0) + (pots i 1 - mus 1)) * _
    ring
  · change ts i j 0 * _ = ts i j 1 * _
    exact congrArg (· * _) (h.hop i j hij i.2)
  · have := hc i j 0 hij hne
    cases hi : c i <;> cases hj : c j <;> simp_all

/-- C124: the operator that adds a pair of particles at any site, with alternating signs on the two sublattices, changes the
energy of every state by `Δ`. -/
theorem C124_commutes (F : Fermions) {Δ : ℝ} (h : F.PairSymmetric Δ) (c : Fin F.nsites → Bool) (hc : Colours F c) :
    ∃ (H : Op (F.nsites * F.nspecies) 2) (L : Fin F.nsites → Op (F.nsites * F.nspecies) 2), Gives (F.createH none) H ∧
      (∀ i : Fin F.nsites, Gives (getTwoSiteOp F.sys i 0 i 1 cdagOp cdagOp "fermion") (L i)) ∧
      H * (∑ i, (if c i then 1 else -1 : ℂ) • L i) =
        (∑ i, (if c i then 1 else -1 : ℂ) • L i) * H + (Δ : ℂ) • ∑ i, (if c i then 1 else -1 : ℂ) • L i := by
  obtain ⟨n, b, ts, us, W, mus, pots, xd, yd⟩ := F
  obtain rfl : b = 2 := h.species
  refine ⟨_, fun i => create (mode i (0 : Fin 2)) * create (mode i (1 : Fin 2)), createH_gives (Or.inl le_rfl), fun i => ?_,
    pair_bracket rfl h hc⟩
  have := gives_two_fermion (S := (⟨n, 2, ts, us, W, mus, pots, xd, yd⟩ : Fermions).sys) rfl i i (0 : Fin 2) (1 : Fin 2) cdagOp_loc cdagOp_loc
  have e1 (i : Fin n) (s : Fin 2) : fop (mode i s) (cdagOp.loc 2) = (create (mode i s) : Op (n * 2) 2) := fop_cdl _
  rw [e1, e1] at this
  exact this

theorem pair_step (S : EigSolvers) (hS : EigContract S) (F : Fermions) {Δ : ℝ} (h : F.PairSymmetric Δ) (hr : RealParams F) {k m : ℕ}
    (hk : k + m < F.nsites) : Contained S F k m (k + 1) (m + 1) Δ := by
  obtain ⟨n, b, ts, us, W, mus, pots, xd, yd⟩ := F
  obtain rfl : b = 2 := h.species
  change k + m < n at hk
  obtain ⟨c, hc⟩ := h.bipartite
  have hg := pairUp_gram (a := n) (fun i => if c i then 1 else -1) (fun i => by split_ifs <;> simp)
  rw [speciesNumber_diagonal, speciesNumber_diagonal, smul_one_eq_diagonal, diagonal_sub, diagonal_sub] at hg
  refine sector_step S hS hr (by change 0 < n; omega) (by change k ≤ n; omega) (by change m ≤ n; omega) (by change k + 1 ≤ n; omega)
    (by change m + 1 ≤ n; omega) (L := pairUp _) (K := (pairUp _)ᴴ) (c := (n : ℝ) - k - m)
    (fun t t' _ _ => pointwise_of_eq (pair_bracket rfl h hc) t t') ?_ (by rw [conjTranspose_conjTranspose]; exact hg) ?_ ?_
  · intro t t' hne e0 e1
    exact ⟨by rw [pairUp_count hne, e0], by rw [pairUp_count hne, e1]⟩
  · have : (k : ℝ) + m < n := by exact_mod_cast hk
    linarith
  · intro t e0 e1
    simp only [Pi.sub_apply, e0, e1]
    push_cast
    ring

/-- Exchanging particles with holes and the two species. -/
theorem flip_step (S : EigSolvers) (hS : EigContract S) (F : Fermions) {Δ : ℝ} (h : F.PairSymmetric Δ) (hr : RealParams F) {k m k' m' : ℕ}
    (hn : 0 < F.nsites) (hk : k + m' = F.nsites) (hm : m + k' = F.nsites) :
    Contained S F k m k' m' (((k' : ℝ) - k) * Δ) := by
  obtain ⟨n, b, ts, us, W, mus, pots, xd, yd⟩ := F
  obtain rfl : b = 2 := h.species
  change k + m' = n at hk
  change m + k' = n at hm
  obtain ⟨c, hc⟩ := h.bipartite
  let σ : Fin n → ℤ := fun i => if c i then 1 else -1
  have hσ : ∀ i, σ i * σ i = 1 := fun i => by
    simp only [σ]
    split_ifs <;> norm_num
  have hflip := pairFlip_hamiltonian hσ (fun i : Fin n => us i)
    (fun (i j : Fin n) (s : Fin 2) => ts i j s * ((|xd i j| + |yd i j| : ℝ) : ℂ))
    (fun (i : Fin n) (s : Fin 2) => W i i s + (pots i s - mus s)) Δ (fun i j hij => congrArg (· * _) (h.hop i j hij i.2))
    (fun i j s hij => by
      by_cases h0 : ts i j s * ((|xd i j| + |yd i j| : ℝ) : ℂ) = 0
      · exact Or.inl h0
      · right
        have := hc i j s hij h0
        simp only [σ]
        cases hi : c i <;> cases hj : c j <;> simp_all)
    (fun i => by
      have := h.level i i.2
      rw [← this]
      change us i + (W i i 0 + (pots i 0 - mus 0)) + (W i i 1 + (pots i 1 - mus 1)) =
        us i + (W i i 0 + W i i 1) + (pots i 0 - mus 0) + (pots i 1 - mus 1)
      ring)
  rw [← hubH_local (xd := xd) (yd := yd) h.local_same, Matrix.add_mul, Matrix.sub_mul, speciesNumber_diagonal, speciesNumber_diagonal] at hflip
  refine sector_step S hS hr hn (by change k ≤ n; omega) (by change m ≤ n; omega) (by change k' ≤ n; omega) (by change m' ≤ n; omega)
    (L := pairFlip σ) (K := 0) (f := fun _ => 1) (c := 1) (fun t t' e0 e1 => ?_) ?_ ?_ one_pos (fun _ _ _ => by simp)
  · have := congrFun (congrFun hflip t) t'
    rw [Matrix.add_apply, Matrix.sub_apply, diagonal_add, Matrix.smul_mul, Matrix.smul_apply, diagonal_mul, Matrix.smul_mul, Matrix.one_mul,
      Matrix.smul_apply, e0, e1, smul_eq_mul, smul_eq_mul] at this
    rw [Matrix.add_apply, this, Matrix.smul_apply, smul_eq_mul]
    have hn' : (n : ℂ) = k + m' := by exact_mod_cast hk.symm
    push_cast
    rw [hn']
    ring
  · intro t t' hne e0 e1
    have h0 := pairFlip_count hσ hne 0
    have h1 := pairFlip_count hσ hne 1
    change speciesCount t 1 + _ = n at h0
    change speciesCount t 0 + _ = n at h1
    omega
  · rw [pairFlip_left hσ]
    simp

/-- C124: the energies of `k` and `m` particles, shifted by the energy of the missing pairs, are those with as many particles
above half filling as there were missing. -/
theorem C124_reflection (S : EigSolvers) (hS : EigContract S) (F : Fermions) {Δ : ℝ} (h : F.PairSymmetric Δ) (hr : RealParams F) {k m : ℕ}
    (hn : 0 < F.nsites) (hk : k ≤ F.nsites) (hm : m ≤ F.nsites) :
    ∃ w, SectorLevels S F k m w ∧
      SectorLevels S F (F.nsites - m) (F.nsites - k) (w.map (· + ((F.nsites : ℝ) - k - m) * Δ)) := by
  have e : ((F.nsites - m : ℕ) : ℝ) - k = (F.nsites : ℝ) - k - m := by
    rw [Nat.cast_sub hm]
    ring
  have h1 := flip_step S hS F h hr (k := k) (m := m) (k' := F.nsites - m) (m' := F.nsites - k) hn (by omega) (by omega)
  have h2 := flip_step S hS F h hr (k := F.nsites - m) (m := F.nsites - k) (k' := k) (m' := m) hn (by omega) (by omega)
  rw [e] at h1
  have e' : ((k : ℝ) - (F.nsites - m : ℕ)) * Δ = -(((F.nsites : ℝ) - k - m) * Δ) := by
    rw [← e]
    ring
  rw [e'] at h2
  exact Contained.equal hS h.species hr hn hk hm (by omega) (by omega) h1 h2

/-- C124: below half filling, adding up to as many pairs as there are particles missing in half of all modes, the energies
reappear, shifted by the energy of the pairs. -/
theorem C124_pairs (S : EigSolvers) (hS : EigContract S) (F : Fermions) {Δ : ℝ} (h : F.PairSymmetric Δ) (hr : RealParams F) {k m j : ℕ}
    (hn : 0 < F.nsites) (hj : k + m + j ≤ F.nsites) :
    ∃ w w', SectorLevels S F k m w ∧ SectorLevels S F (k + j) (m + j) w' ∧ (w.map (· + j * Δ)).Subperm w' := by
  have key : ∀ j, k + m + 2 * j ≤ F.nsites + 1 → k + m + j ≤ F.nsites → Contained S F k m (k + j) (m + j) (j * Δ) := by
    intro j
    induction j with
    | zero =>
      intro _ _
      obtain ⟨w, a, -⟩ := SectorLevels.sorted hS h.species hr hn (k := k) (m := m) (by omega) (by omega)
      refine ⟨w, w, a, a, ?_⟩
      simpa using List.Subperm.refl w
    | succ j ih =>
      intro h1 h2
      have := (ih (by omega) (by omega)).trans (pair_step S hS F h hr (k := k + j) (m := m + j) (by omega))
      have e : (j : ℝ) * Δ + Δ = ((j + 1 : ℕ) : ℝ) * Δ := by push_cast; ring
      rw [e] at this
      exact this
  change Contained S F k m (k + j) (m + j) (j * Δ)
  by_cases h2 : k + m + 2 * j ≤ F.nsites + 1
  · exact key j h2 hj
  · obtain ⟨d, hd⟩ : ∃ d, k + m + j + d = F.nsites := ⟨F.nsites - (k + m + j), by omega⟩
    have h3 := key d (by omega) (by omega)
    have h4 := flip_step S hS F h hr (k := k + d) (m := m + d) (k' := k + j) (m' := m + j) hn (by omega) (by omega)
    have := h3.trans h4
    have e : (d : ℝ) * Δ + (((k + j : ℕ) : ℝ) - ((k + d : ℕ) : ℝ)) * Δ = j * Δ := by push_cast; ring
    rwa [e] at this

/-- C124: states of `k` pairs with the energy `k Δ` exist for any number of pairs. -/
theorem C124_tower (S : EigSolvers) (hS : EigContract S) (F : Fermions) {Δ : ℝ} (h : F.PairSymmetric Δ) (hr : RealParams F) {k : ℕ}
    (hn : 0 < F.nsites) (hk : k ≤ F.nsites) : ∃ w, SectorLevels S F k k w ∧ k * Δ ∈ w := by
  obtain ⟨w, w', a, b, c⟩ := C124_pairs S hS F h hr (k := 0) (m := 0) (j := k) hn (by omega)
  have hv : SectorLevels S F 0 0 [0] := by
    clear a b c
    obtain ⟨n, b, ts, us, W, mus, pots, xd, yd⟩ := F
    obtain rfl : b = 2 := h.species
    exact vacuum_sector S hS hr hn
  obtain rfl := a.unique hv
  rw [zero_add] at b
  exact ⟨w', b, c.subset (by simp)⟩

/-! ## The Hubbard model on square lattices -/

theorem square_hubbard {nx ny : ℕ} (hx : 0 < nx) (hy : 0 < ny) (harea : nx * ny < 10 ^ 14) {o1 o2 : Bool} (h1 : nx = 1 → o1 = true)
    (h2 : ny = 1 → o2 = true) (U t mu : ℝ) :
    ∃ g F, createSquare nx ny 0 0 o1 o2 = .ok g ∧
      fermionModel g ⟨[], fun _ => (U : ℂ)⟩ ⟨[], fun _ => (t : ℂ)⟩ ⟨[2], fun _ => (mu : ℂ)⟩ ⟨[], fun _ => ((0 : ℝ) : ℂ)⟩
        ⟨[], fun _ => ((0 : ℝ) : ℂ)⟩ 2 = .ok F ∧ F.nsites = nx * ny ∧ RealParams F ∧ F.SpinSymmetric ∧
      ((o1 = false → Even nx) → (o2 = false → Even ny) → F.PairSymmetric (U - 2 * mu)) := by
  obtain ⟨g, hg, hN, -⟩ := C50_square nx ny hx hy 0 0 o1 o2 h1 h2
  obtain ⟨p, hp, hus, hall⟩ := fermionModel_square hx hy harea h1 h2 hg 2 U t 0 0 fun _ => mu
  have hN' : (p.model g 2).nsites = nx * ny := hN
  have hadj : ∀ i < g.nsites, ∀ j < g.nsites, g.adjacency.e i j = 0 ∨ g.adjacency.e i j = 1 := fun i hi j hj => by
    have pi := C50_square_order nx ny hx hy harea.le 0 0 o1 o2 h1 h2 hg (i := i) (by omega)
    have pj := C50_square_order nx ny hx hy harea.le 0 0 o1 o2 h1 h2 hg (i := j) (by omega)
    exact (C51_square nx ny hx hy harea 0 0 o1 o2 h1 h2 hg pi.1 pi.2 pj.1 pj.2).1
  have hts : ∀ i < g.nsites, ∀ j < g.nsites, (p.model g 2).ts i j 0 = (p.model g 2).ts i j 1 := fun i hi j hj => by
    rw [((hall i hi 0 (by omega)).2.2 j hj).1, ((hall i hi 1 (by omega)).2.2 j hj).1]
  have hsame : ∀ i < g.nsites, ∀ j < g.nsites, ∀ s < 2, (p.model g 2).usSame i j s = 0 := fun i hi j hj s hs => by
    rw [((hall i hi s hs).2.2 j hj).2.1]
    simp
  refine ⟨g, _, hg, hp, hN', ?_, ?_, fun e1 e2 => ?_⟩
  · refine ⟨fun i j s => ?_, fun i => ?_, fun i j s => ?_, fun s => ?_, fun i s => ?_⟩
    · rw [((hall i i.2 s s.2).2.2 j j.2).1]
      rcases hadj i i.2 j j.2 with h | h <;> simp [h]
    · rw [hus i i.2]
      simp
    · rw [hsame i i.2 j j.2 s s.2]
      simp
    · rw [(hall 0 (by rw [hN]; positivity) s s.2).1]
      simp
    · rw [(hall i i.2 s s.2).2.1]
      simp
  · refine ⟨⟨rfl, fun i j hij hi => hts i hi j (hij.trans hi), fun i j hij hi => ?_, fun i hi => ?_⟩, fun i j hij hi s hs => ?_⟩
    · rw [hsame i hi j (lt_of_le_of_lt hij hi) 0 (by omega), hsame i hi j (lt_of_le_of_lt hij hi) 1 (by omega)]
    · rw [(hall i hi 0 (by omega)).1, (hall i hi 0 (by omega)).2.1, (hall i hi 1 (by omega)).1, (hall i hi 1 (by omega)).2.1]
    · exact hsame i hi j (hij.trans hi) s hs
  · refine ⟨rfl, ?_, fun i j hij hi => hts i hi j (hij.trans hi), fun i j hij hi s hs => hsame i hi j (hij.trans hi) s hs, fun i hi => ?_⟩
    · refine ⟨fun i => (((i : ℕ) / ny + (i : ℕ) % ny) % 2 == 0), fun i j s hij hne => ?_⟩
      rw [((hall i i.2 s s.2).2.2 j j.2).2.2] at hne
      have hone : g.adjacency.e i j = 1 := (hadj i i.2 j j.2).resolve_left fun h0 => hne (by simp [h0])
      have := square_colour hx hy harea h1 h2 e1 e2 hg (i := i) (j := j) (by have := i.2; omega) (by have := j.2; omega) hone
      intro hc
      have hc' := (Bool.eq_iff_iff.1 hc)
      simp only [beq_iff_eq] at hc'
      omega
    · rw [hus i hi, hsame i hi i hi 0 (by omega), hsame i hi i hi 1 (by omega), (hall i hi 0 (by omega)).1, (hall i hi 0 (by omega)).2.1,
        (hall i hi 1 (by omega)).1, (hall i hi 1 (by omega)).2.1]
      push_cast
      ring

/-- C123: the Hubbard model on any rectangle, open or periodic. Among the states with the same number of particles, the more
balanced ones contain all energies of the less balanced ones. -/
theorem C123_lattice (S : EigSolvers) (hS : EigContract S) {nx ny : ℕ} (hx : 0 < nx) (hy : 0 < ny) (harea : nx * ny < 10 ^ 14)
    {o1 o2 : Bool} (h1 : nx = 1 → o1 = true) (h2 : ny = 1 → o2 = true) (U t mu : ℝ) :
    ∃ g F, createSquare nx ny 0 0 o1 o2 = .ok g ∧
      fermionModel g ⟨[], fun _ => (U : ℂ)⟩ ⟨[], fun _ => (t : ℂ)⟩ ⟨[2], fun _ => (mu : ℂ)⟩ ⟨[], fun _ => ((0 : ℝ) : ℂ)⟩
        ⟨[], fun _ => ((0 : ℝ) : ℂ)⟩ 2 = .ok F ∧
      ∀ k m k' m', k ≤ nx * ny → m ≤ nx * ny → k + m = k' + m' → min k m ≤ min k' m' →
        ∃ w w', SectorLevels S F k m w ∧ SectorLevels S F k' m' w' ∧ w.Subperm w' ∧
          (min k' m' = min k m → w = w') := by
  obtain ⟨g, F, hg, hF, hN, hr, hs, -⟩ := square_hubbard hx hy harea h1 h2 U t mu
  have hn : 0 < F.nsites := by rw [hN]; positivity
  refine ⟨g, F, hg, hF, fun k m k' m' hk hm e he => ?_⟩
  rw [← hN] at hk hm
  obtain ⟨w, w', a, b, c⟩ := C123_multiplets S hS F hs hr hn hk hm e he
  refine ⟨w, w', a, b, c, fun hmin => ?_⟩
  rcases (by omega : (k = k' ∧ m = m') ∨ (k = m' ∧ m = k')) with ⟨rfl, rfl⟩ | ⟨rfl, rfl⟩
  · exact a.unique b
  · obtain ⟨x, x1, x2⟩ := C123_exchange S hS F hs.toSameSpecies hr hn hk hm
    rw [a.unique x1, b.unique x2]

/-- C124: the Hubbard model on any rectangle whose periodic directions have an even number of sites. A pair has the energy
`U - 2 mu`. -/
theorem C124_lattice (S : EigSolvers) (hS : EigContract S) {nx ny : ℕ} (hx : 0 < nx) (hy : 0 < ny) (harea : nx * ny < 10 ^ 14)
    {o1 o2 : Bool} (h1 : nx = 1 → o1 = true) (h2 : ny = 1 → o2 = true) (e1 : o1 = false → Even nx) (e2 : o2 = false → Even ny)
    (U t mu : ℝ) :
    ∃ g F, createSquare nx ny 0 0 o1 o2 = .ok g ∧
      fermionModel g ⟨[], fun _ => (U : ℂ)⟩ ⟨[], fun _ => (t : ℂ)⟩ ⟨[2], fun _ => (mu : ℂ)⟩ ⟨[], fun _ => ((0 : ℝ) : ℂ)⟩
        ⟨[], fun _ => ((0 : ℝ) : ℂ)⟩ 2 = .ok F ∧
      (∀ k m j, k + m + j ≤ nx * ny → ∃ w w', SectorLevels S F k m w ∧ SectorLevels S F (k + j) (m + j) w' ∧
        (w.map (· + j * (U - 2 * mu))).Subperm w' ∧ (k + m + j = nx * ny → w.map (· + j * (U - 2 * mu)) = w')) ∧
      ∀ k ≤ nx * ny, ∃ w, SectorLevels S F k k w ∧ k * (U - 2 * mu) ∈ w := by
  obtain ⟨g, F, hg, hF, hN, hr, -, hp⟩ := square_hubbard hx hy harea h1 h2 U t mu
  have hn : 0 < F.nsites := by rw [hN]; positivity
  refine ⟨g, F, hg, hF, fun k m j hj => ?_, fun k hk => C124_tower S hS F (hp e1 e2) hr hn (by omega)⟩
  obtain ⟨w, w', a, b, c⟩ := C124_pairs S hS F (hp e1 e2) hr (k := k) (m := m) (j := j) hn (by omega)
  refine ⟨w, w', a, b, c, fun hf => ?_⟩
  obtain ⟨x, x1, x2⟩ := C124_reflection S hS F (hp e1 e2) hr hn (k := k) (m := m) (by omega) (by omega)
  obtain rfl := a.unique x1
  have f1 : F.nsites - m = k + j := by omega
  have f2 : F.nsites - k = m + j := by omega
  have f3 : (F.nsites : ℝ) - k - m = j := by
    rw [hN, ← hf]
    push_cast
    ring
  rw [f1, f2, f3] at x2
  exact x2.unique b

/-! ## Examples -/

/-- Three sites in a ring, one hole: the states with two particles of the first species have all their energies among those with
one particle of each species. -/
example (S : EigSolvers) (hS : EigContract S) :
    ∃ g F w w', createSquare 3 1 0 0 false true = .ok g ∧
      fermionModel g ⟨[], fun _ => ((8 : ℝ) : ℂ)⟩ ⟨[], fun _ => ((1 : ℝ) : ℂ)⟩ ⟨[2], fun _ => ((3 : ℝ) : ℂ)⟩ ⟨[], fun _ => ((0 : ℝ) : ℂ)⟩
        ⟨[], fun _ => ((0 : ℝ) : ℂ)⟩ 2 = .ok F ∧ SectorLevels S F 2 0 w ∧ SectorLevels S F 1 1 w' ∧ w.Subperm w' := by
  obtain ⟨g, F, a, b, c⟩ := C123_lattice S hS (nx := 3) (ny := 1) (by norm_num) (by norm_num) (by norm_num) (o1 := false) (o2 := true)
    (by norm_num) (fun _ => rfl) 8 1 3
  obtain ⟨w, w', d, e, f, -⟩ := c 2 0 1 1 (by norm_num) (by norm_num) rfl (by norm_num)
  exact ⟨g, F, w, w', a, b, d, e, f⟩

/-- Two by two sites, attractive interaction: two pairs with the energy `2 (U - 2 mu) = -12`. -/
example (S : EigSolvers) (hS : EigContract S) :
    ∃ g F w, createSquare 2 2 0 0 true true = .ok g ∧
      fermionModel g ⟨[], fun _ => ((-8 : ℝ) : ℂ)⟩ ⟨[], fun _ => ((1 : ℝ) : ℂ)⟩ ⟨[2], fun _ => ((-1 : ℝ) : ℂ)⟩ ⟨[], fun _ => ((0 : ℝ) : ℂ)⟩
        ⟨[], fun _ => ((0 : ℝ) : ℂ)⟩ 2 = .ok F ∧ SectorLevels S F 2 2 w ∧ (-12 : ℝ) ∈ w := by
  obtain ⟨g, F, a, b, -, c⟩ := C124_lattice S hS (nx := 2) (ny := 2) (by norm_num) (by norm_num) (by norm_num) (o1 := true) (o2 := true)
    (fun _ => rfl) (fun _ => rfl) (by simp) (by simp) (-8) 1 (-1)
  obtain ⟨w, d, e⟩ := c 2 (by norm_num)
  refine ⟨g, F, w, a, b, d, ?_⟩
  norm_num at e
  exact e

end ED.Props
