import Verif.Lemmas.SpinRotation
import Verif.Lemmas.NumberSectors
import Verif.Props.Spins

/-! # Property C118: all directions of the spins are equivalent -/

namespace ED

open Matrix

/-- A loop in which some step always fails, and no step fails in another way, fails. -/
theorem foldlM_fails {σ : Type} {e : PyErr} {f : σ → ℕ → Res σ} (n : ℕ) (h1 : ∀ i < n, ∀ s, (∃ s', f s i = .ok s') ∨ f s i = .error e)
    {k : ℕ} (hk : k < n) (h2 : ∀ s, f s k = .error e) (s : σ) : (List.range n).foldlM f s = .error e := by
  suffices H : ∀ (l : List ℕ), (∀ i ∈ l, ∀ s, (∃ s', f s i = .ok s') ∨ f s i = .error e) → k ∈ l → ∀ s, l.foldlM f s = .error e from
    H _ (fun i hi => h1 i (List.mem_range.1 hi)) (List.mem_range.2 hk) s
  intro l
  induction l with
  | nil => intro _ h; exact absurd h List.not_mem_nil
  | cons a l ih =>
    intro h hmem s
    rw [List.foldlM_cons]
    rcases h a List.mem_cons_self s with ⟨s', hs⟩ | hs
    · rw [hs]
      rcases List.mem_cons.1 hmem with rfl | hm
      · rw [h2 s] at hs; exact absurd hs (by simp)
      · exact ih (fun i hi => h i (List.mem_cons_of_mem _ hi)) hm s'
    · rw [hs]; rfl

/-- The computation succeeds or the shapes do not fit. -/
def OkOr {α : Type} (r : Res α) : Prop := (∃ a, r = .ok a) ∨ r = .error .shape

theorem OkOr.bind {α β : Type} {r : Res α} {f : α → Res β} (h : OkOr r) (hf : ∀ a, OkOr (f a)) : OkOr (r >>= f) := by
  rcases h with ⟨a, rfl⟩ | rfl
  · exact hf a
  · exact Or.inr rfl

theorem OkOr.mul (A B : Mat) : OkOr (A.mul B) := by
  unfold Mat.mul
  split_ifs
  · exact Or.inl ⟨_, rfl⟩
  · exact Or.inr rfl

theorem OkOr.sub (A B : Mat) : OkOr (A.sub B) := by
  unfold Mat.sub Mat.add
  split_ifs
  · exact Or.inl ⟨_, rfl⟩
  · exact Or.inr rfl

/-- A field term is added, or the shapes do not fit. -/
theorem fieldTerm_ok_or (F : Spins) {P : Mat} (z : ℂ) {op : Res Mat} {A : Matrix (Fin (F.twoS + 1)) (Fin (F.twoS + 1)) ℂ}
    (ho : Gives op A) {i : ℕ} (hi : i < F.nsites) (acc : Mat) : OkOr (F.fieldTerm P z op i acc) := by
  unfold Spins.fieldTerm
  split_ifs with h
  · obtain ⟨o, ho, -⟩ := ho
    rw [ho]
    refine OkOr.bind (Or.inl ⟨o, rfl⟩) fun o => OkOr.bind (Or.inl ?_) fun M =>
      OkOr.bind (OkOr.bind (OkOr.mul _ _) fun _ => OkOr.mul _ _) fun _ => OkOr.sub _ _
    unfold getSingleSiteOp
    simp only [show ¬ ("boson" = "fermion") by decide, if_false, if_true]
    have e1 : spinful2spinless i F.nsites 0 < F.sys.nlog := by simpa [spinful2spinless, Sys.nlog] using hi
    rw [if_pos e1]
    exact ⟨_, rfl⟩
  · exact Or.inl ⟨_, rfl⟩

/-- On every site but the last one a field term of spin other than 1/2 does not fit. -/
theorem fieldTerm_fails (F : Spins) (hs : F.twoS ≠ 1) {P : Mat} (hP : P.cols = (F.twoS + 1) ^ F.nsites) {z : ℂ} (hz : z ≠ 0) {op : Res Mat}
    {A : Matrix (Fin (F.twoS + 1)) (Fin (F.twoS + 1)) ℂ}
    (ho : Gives op A) {i : ℕ} (hi : i + 1 < F.nsites) (acc : Mat) : F.fieldTerm P z op i acc = .error .shape := by
  obtain ⟨n, d, jx, jy, jz, fx, fy, fz⟩ := F
  simp only at hs hi hP
  obtain ⟨k, rfl⟩ : ∃ k, n = i + 1 + (k + 1) := ⟨n - (i + 2), by omega⟩
  obtain ⟨o, ho, ho'⟩ := ho
  have hr : o.rows = d + 1 := by simpa using ho'.1
  unfold Spins.fieldTerm
  rw [if_pos hz, ho]
  have hg : getSingleSiteOp (Spins.sys ⟨i + 1 + (k + 1), d, jx, jy, jz, fx, fy, fz⟩) i 0 o "boson" =
      .ok (((Mat.eye ((d + 1) ^ i)).kron o).kron (Mat.eye (2 ^ (k + 1)))) := by
    unfold getSingleSiteOp
    simp only [show ¬ ("boson" = "fermion") by decide, if_false, if_true]
    have e1 : spinful2spinless i (i + 1 + (k + 1)) 0 = i := by simp [spinful2spinless]
    have e2 : (Spins.sys ⟨i + 1 + (k + 1), d, jx, jy, jz, fx, fy, fz⟩).nlog = i + 1 + (k + 1) := by simp [Sys.nlog]
    rw [e1, e2, if_pos (by omega), show i + 1 + (k + 1) - i - 1 = k + 1 by omega]
  change (getSingleSiteOp (Spins.sys ⟨i + 1 + (k + 1), d, jx, jy, jz, fx, fy, fz⟩) i 0 o "boson" >>=
    fun a => spinSandwich z P a >>= fun b => acc.sub b) = _
  rw [hg]
  change (spinSandwich _ _ _ >>= _) = _
  unfold spinSandwich
  have hm : ∀ A B : Mat, A.cols ≠ B.rows → A.mul B = .error .shape := fun A B h => if_neg h
  rw [hm]
  · rfl
  · simp only [Mat.smul, hP, Mat.kron, Mat.eye, hr]
    intro h
    rw [pow_add, pow_succ (d + 1) i] at h
    have := Nat.eq_of_mul_eq_mul_left (by positivity) h
    have := Nat.pow_left_injective (n := k + 1) (by omega) this
    omega

/-- The Hamiltonian of spins other than 1/2 cannot be built if there is a field anywhere but on the last site. -/
theorem createH_fails (F : Spins) (hs : F.twoS ≠ 1) {i : ℕ} (hi : i + 1 < F.nsites)
    (hh : F.hx i ≠ 0 ∨ F.hy i ≠ 0 ∨ F.hz i ≠ 0) : F.createH none = .error .shape := by
  unfold Spins.createH
  simp only [Option.getD_none]
  rw [foldlM_fails (e := .shape) F.nsites _ (show i < F.nsites by omega)]
  · rfl
  · intro s
    rcases fieldTerm_ok_or F (P := Mat.eye (F.sys.nbasis ^ F.nsites)) (F.hx i) (getSx_gives F.twoS) (show i < F.nsites by omega) s with ⟨a, ha⟩ | ha
    · rw [ha]
      simp only [bind, Except.bind]
      rcases fieldTerm_ok_or F (P := Mat.eye (F.sys.nbasis ^ F.nsites)) (F.hy i) (getSy_gives F.twoS) (show i < F.nsites by omega) a with ⟨b, hb⟩ | hb
      · rw [hb]
        simp only
        rcases hh with h | h | h
        · rw [fieldTerm_fails F hs rfl h (getSx_gives F.twoS) hi] at ha
          cases ha
        · rw [fieldTerm_fails F hs rfl h (getSy_gives F.twoS) hi] at hb
          cases hb
        · exact fieldTerm_fails F hs rfl h (getSz_is F.twoS).pure hi _
      · rw [hb]
    · rw [ha]; rfl
  · intro k hk s
    rcases fieldTerm_ok_or F (P := Mat.eye (F.sys.nbasis ^ F.nsites)) (F.hx k) (getSx_gives F.twoS) hk s with ⟨a, ha⟩ | ha
    · rw [ha]
      simp only [bind, Except.bind]
      rcases fieldTerm_ok_or F (P := Mat.eye (F.sys.nbasis ^ F.nsites)) (F.hy k) (getSy_gives F.twoS) hk a with ⟨b, hb⟩ | hb
      · rw [hb]
        exact fieldTerm_ok_or F _ (getSz_is F.twoS).pure hk _
      · rw [hb]; exact Or.inr rfl
    · rw [ha]; exact Or.inr rfl

/-- Two Hamiltonians with the same characteristic polynomial have the same energies. -/
theorem diagList_charpoly (S : EigSolvers) (hS : EigContract S) {ι : Type} [Fintype ι] [DecidableEq ι] [Basis ι] [Nonempty ι] {A A' : Mat}
    {H H' : Matrix ι ι ℂ} (hA : A.Is H) (hA' : A'.Is H') (hH : H.IsHermitian) (hH' : H'.IsHermitian) (h : H.charpoly = H'.charpoly) :
    ∃ w M M', diagList S A = .ok (w, M) ∧ diagList S A' = .ok (w, M') := by
  obtain ⟨n, E, M, V, h1, h2, h3, h4, h5, h6⟩ := Props.diagList_ok S hS hA hH
  obtain ⟨n', E', M', V', k1, k2, k3, k4, k5, k6⟩ := Props.diagList_ok S hS hA' hH'
  refine ⟨_, M, M', h1, k1.trans ?_⟩
  suffices List.ofFn E' = List.ofFn E by rw [this]
  refine List.Perm.eq_of_pairwise' (r := (· ≤ ·)) ?_ ?_ ?_
  · rw [List.pairwise_ofFn]
    exact fun i j hij => k6 hij.le
  · rw [List.pairwise_ofFn]
    exact fun i j hij => h6 hij.le
  · rw [← Multiset.coe_eq_coe, ← Fin.univ_val_map, ← Fin.univ_val_map]
    apply Multiset.map_injective Complex.ofReal_injective
    rw [Multiset.map_map, Multiset.map_map]
    exact (roots_of_eig k3 k4 k5).symm.trans ((congrArg _ h.symm).trans (roots_of_eig h3 h4 h5))

end ED

namespace ED.Props

open Matrix

/-- C33: for spins other than 1/2 the Hamiltonian can be built exactly if there is no field on any site but the last one. -/
theorem C33_higher_spin_iff (F : Spins) (hs : F.twoS ≠ 1) :
    (∃ M, F.createH none = .ok M) ↔ ∀ i, i + 1 < F.nsites → F.hx i = 0 ∧ F.hy i = 0 ∧ F.hz i = 0 := by
  constructor
  · rintro ⟨M, hM⟩ i hi
    by_contra hne
    rw [createH_fails F hs hi (by tauto)] at hM
    cases hM
  · intro h
    obtain ⟨M, hM, -⟩ := spin_createH F (Or.inr fun i hi => h i hi)
    exact ⟨M, hM⟩

/-- The model with the couplings `j` and the fields `h` along the three directions. -/
private noncomputable abbrev model (n twoS : ℕ) (j : Fin 3 → ℕ → ℕ → ℝ) (h : Fin 3 → ℕ → ℝ) : Spins :=
  ⟨n, twoS, fun a b => j 0 a b, fun a b => j 1 a b, fun a b => j 2 a b, fun a => h 0 a, fun a => h 1 a, fun a => h 2 a⟩

private theorem energies_eq (S : EigSolvers) (hS : EigContract S) {n d : ℕ} {j j' : Fin 3 → ℕ → ℕ → ℝ} {h h' : Fin 3 → ℕ → ℝ}
    (hok : (model n d j h).Ok) (hok' : (model n d j' h').Ok)
    (he : (heis (n := n) (sxM d) (syM d) (szM d) (fun a b => (j 0 a b : ℂ)) (fun a b => j 1 a b) (fun a b => j 2 a b)
        (fun a => h 0 a) (fun a => h 1 a) (fun a => h 2 a)).charpoly =
      (heis (n := n) (sxM d) (syM d) (szM d) (fun a b => (j' 0 a b : ℂ)) (fun a b => j' 1 a b) (fun a b => j' 2 a b)
        (fun a => h' 0 a) (fun a => h' 1 a) (fun a => h' 2 a)).charpoly) :
    spinEnergies S (model n d j h) = spinEnergies S (model n d j' h') := by
  have herm : ∀ (j : Fin 3 → ℕ → ℕ → ℝ) (h : Fin 3 → ℕ → ℝ),
      (heis (n := n) (sxM d) (syM d) (szM d) (fun a b => (j 0 a b : ℂ)) (fun a b => j 1 a b) (fun a b => j 2 a b)
        (fun a => h 0 a) (fun a => h 1 a) (fun a => h 2 a)).IsHermitian := by
    intro j h
    have := heis_star (n := n) (sxM_star d) (syM_star d) (szM_star d) (fun a b => (j 0 a b : ℂ)) (fun a b => j 1 a b) (fun a b => j 2 a b)
        (fun a => h 0 a) (fun a => h 1 a) (fun a => h 2 a)
    simp only [RCLike.star_def, Complex.conj_ofReal] at this
    exact this
  obtain ⟨A, a1, a2⟩ := spin_createH (model n d j h) hok
  obtain ⟨A', b1, b2⟩ := spin_createH (model n d j' h') hok'
  obtain ⟨w, M, M', c1, c2⟩ := diagList_charpoly S hS a2 b2 (herm j h) (herm j' h') he
  unfold spinEnergies
  rw [a1, b1]
  simp only [bind, Except.bind, c1, c2]

private theorem permuted (S : EigSolvers) (hS : EigContract S) {n d : ℕ} (σ : Equiv.Perm (Fin 3))
    (he : ∀ (j : Fin 3 → Fin n → Fin n → ℂ) (h : Fin 3 → Fin n → ℂ),
      (heis (n := n) (sxM d) (syM d) (szM d) (j (σ 0)) (j (σ 1)) (j (σ 2)) (h (σ 0)) (h (σ 1)) (h (σ 2))).charpoly =
      (heis (n := n) (sxM d) (syM d) (szM d) (j 0) (j 1) (j 2) (h 0) (h 1) (h 2)).charpoly)
    (j : Fin 3 → ℕ → ℕ → ℝ) (h : Fin 3 → ℕ → ℝ) :
    spinEnergies S (model n d (fun a => j (σ a)) (fun a => h (σ a))) = spinEnergies S (model n d j h) := by
  by_cases hd : d = 1 ∨ ∀ i : Fin n, (i : ℕ) + 1 < n → ∀ a, h a i = 0
  · refine energies_eq S hS ?_ ?_ (he (fun a i k => (j a i k : ℂ)) (fun a i => (h a i : ℂ)))
    · refine hd.imp_right fun g i hi => ?_
      exact ⟨by simp only [g i hi, Complex.ofReal_zero], by simp only [g i hi, Complex.ofReal_zero], by simp only [g i hi, Complex.ofReal_zero]⟩
    · refine hd.imp_right fun g i hi => ?_
      exact ⟨by simp only [g i hi, Complex.ofReal_zero], by simp only [g i hi, Complex.ofReal_zero], by simp only [g i hi, Complex.ofReal_zero]⟩
  · push Not at hd
    obtain ⟨hd, i, hi, a, ha⟩ := hd
    have fails : ∀ (j : Fin 3 → ℕ → ℕ → ℝ) (h : Fin 3 → ℕ → ℝ) (a : Fin 3), h a i ≠ 0 → spinEnergies S (model n d j h) = .error .shape := by
      intro j h a ha
      unfold spinEnergies
      rw [createH_fails (model n d j h) hd hi]
      · rfl
      · fin_cases a
        · exact Or.inl (Complex.ofReal_ne_zero.2 ha)
        · exact Or.inr (Or.inl (Complex.ofReal_ne_zero.2 ha))
        · exact Or.inr (Or.inr (Complex.ofReal_ne_zero.2 ha))
    rw [fails j h a ha, fails _ _ (σ⁻¹ a) (by simpa using ha)]

/-- C118: for every number of sites, every spin, all real couplings between all pairs of sites and all real fields on all
sites, a permutation of the three directions, the same for the couplings and the fields, does not change the energies. -/
theorem C118_directions (S : EigSolvers) (hS : EigContract S) (n twoS : ℕ) (j : Fin 3 → ℕ → ℕ → ℝ) (h : Fin 3 → ℕ → ℝ)
    (σ : Equiv.Perm (Fin 3)) :
    spinEnergies S ⟨n, twoS, fun a b => j (σ 0) a b, fun a b => j (σ 1) a b, fun a b => j (σ 2) a b,
        fun a => h (σ 0) a, fun a => h (σ 1) a, fun a => h (σ 2) a⟩ =
      spinEnergies S ⟨n, twoS, fun a b => j 0 a b, fun a b => j 1 a b, fun a b => j 2 a b,
        fun a => h 0 a, fun a => h 1 a, fun a => h 2 a⟩ := by
  refine permuted S hS σ (fun j h => ?_) j h
  have hσ : ∀ σ : Equiv.Perm (Fin 3), (σ 0, σ 1, σ 2) = (0, 1, 2) ∨ (σ 0, σ 1, σ 2) = (1, 0, 2) ∨ (σ 0, σ 1, σ 2) = (0, 2, 1) ∨
      (σ 0, σ 1, σ 2) = (1, 2, 0) ∨ (σ 0, σ 1, σ 2) = (2, 0, 1) ∨ (σ 0, σ 1, σ 2) = (2, 1, 0) := by decide
  rcases hσ σ with e | e | e | e | e | e <;> (simp only [Prod.mk.injEq] at e; obtain ⟨e0, e1, e2⟩ := e; rw [e0, e1, e2])
  · exact charpoly_swap_xy _ _ _ _ _ _ _
  · exact charpoly_swap_yz _ _ _ _ _ _ _
  · rw [charpoly_swap_yz, charpoly_swap_xy]
  · rw [charpoly_swap_xy, charpoly_swap_yz]
  · rw [charpoly_swap_xy, charpoly_swap_yz, charpoly_swap_xy]

/-- C118, through the constructor, as in the unit test: numbers for the couplings and the fields, on any cluster with real phases. -/
theorem C118_constructor (S : EigSolvers) (hS : EigContract S) (n twoS : ℕ) (adj phase : ℕ → ℕ → ℝ) (j h : Fin 3 → ℝ)
    (σ : Equiv.Perm (Fin 3)) :
    (do
      let F ← Spins.init n twoS (fun a b => adj a b) (fun a b => phase a b) (.scalar (j (σ 0))) (.scalar (j (σ 1))) (.scalar (j (σ 2)))
        (.scalar (h (σ 0))) (.scalar (h (σ 1))) (.scalar (h (σ 2))) false
      spinEnergies S F) =
    (do
      let F ← Spins.init n twoS (fun a b => adj a b) (fun a b => phase a b) (.scalar (j 0)) (.scalar (j 1)) (.scalar (j 2))
        (.scalar (h 0)) (.scalar (h 1)) (.scalar (h 2)) false
      spinEnergies S F) := by
  have := C118_directions S hS n twoS (fun i a b => j i * adj a b * phase a b) (fun i _ => h i) σ
  simp only [Complex.ofReal_mul] at this
  exact this

/-- C118: for spin 1/2 the energies are those of the documented Hamiltonian, although the sign of the fields along y is
reversed in the matrix (C75). -/
theorem C118_documented (S : EigSolvers) (hS : EigContract S) (n : ℕ) (j : Fin 3 → ℕ → ℕ → ℝ) (h : Fin 3 → ℕ → ℝ) :
    ∃ w, spinEnergies S ⟨n, 1, fun a b => j 0 a b, fun a b => j 1 a b, fun a b => j 2 a b,
        fun a => h 0 a, fun a => h 1 a, fun a => h 2 a⟩ = .ok w ∧ w.Pairwise (· ≤ ·) ∧
      (spinH (fun a b : Fin n => (j 0 a b : ℂ)) (fun a b => j 1 a b) (fun a b => j 2 a b) (fun a => h 0 a) (fun a => h 1 a)
        (fun a => h 2 a)).charpoly.roots = (w.map fun x : ℝ => (x : ℂ) : List ℂ) := by
  obtain ⟨A, a1, a2⟩ := spin_createH (model n 1 j h) (Or.inl rfl)
  have hstar := heis_star (n := n) (sxM_star 1) (syM_star 1) (szM_star 1) (fun a b => (j 0 a b : ℂ)) (fun a b => j 1 a b) (fun a b => j 2 a b)
    (fun a => h 0 a) (fun a => h 1 a) (fun a => h 2 a)
  simp only [RCLike.star_def, Complex.conj_ofReal] at hstar
  obtain ⟨m, E, M, V, h1, h2, h3, h4, h5, h6⟩ := diagList_ok S hS a2 hstar
  refine ⟨List.ofFn E, ?_, ?_, ?_⟩
  · unfold spinEnergies
    rw [a1]
    simp only [bind, Except.bind, h1, pure, Except.pure]
  · rw [List.pairwise_ofFn]
    exact fun i j hij => h6 hij.le
  · have e := charpoly_flip_y 1 (fun a b : Fin n => (j 0 a b : ℂ)) (fun a b => j 1 a b) (fun a b => j 2 a b)
      (fun a => h 0 a) (fun a => h 1 a) (fun a => h 2 a)
    have e' : heis (sxM 1) (-syM 1) (szM 1) (fun a b : Fin n => (j 0 a b : ℂ)) (fun a b => j 1 a b) (fun a b => j 2 a b)
        (fun a => h 0 a) (fun a => h 1 a) (fun a => h 2 a) =
        spinH (fun a b : Fin n => (j 0 a b : ℂ)) (fun a b => j 1 a b) (fun a b => j 2 a b) (fun a => h 0 a) (fun a => h 1 a)
          (fun a => h 2 a) := by
      have hh := heis_half (fun a b : Fin n => (j 0 a b : ℂ)) (fun a b => j 1 a b) (fun a b => j 2 a b)
        (fun a => h 0 a) (fun a => -h 1 a) (fun a => h 2 a)
      simp only [neg_neg] at hh
      rw [← hh, ← neg_one_smul ℂ (syM 1)]
      unfold heis
      simp only [siteOp_smul, smul_mul_assoc, mul_smul_comm, smul_smul, mul_neg, neg_mul, mul_one, neg_neg]
    rw [← e', e]
    have r := roots_of_eig h3 h4 h5
    rw [List.map_ofFn, ← Fin.univ_val_map]
    exact r

/-- Instance of C118: four spins 1, with couplings between all pairs that differ between the directions and a field on the last
spin. -/
example (S : EigSolvers) (hS : EigContract S) : spinEnergies S ⟨4, 2, fun a b => ((a + b : ℝ) : ℂ), fun a b => ((a * b : ℝ) : ℂ), fun _ _ => ((3 : ℝ) : ℂ),
      fun _ => ((0 : ℝ) : ℂ), fun a => ((if a = 3 then 1 else 0 : ℝ) : ℂ), fun _ => ((0 : ℝ) : ℂ)⟩ =
    spinEnergies S ⟨4, 2, fun a b => ((a * b : ℝ) : ℂ), fun _ _ => ((3 : ℝ) : ℂ), fun a b => ((a + b : ℝ) : ℂ),
      fun a => ((if a = 3 then 1 else 0 : ℝ) : ℂ), fun _ => ((0 : ℝ) : ℂ), fun _ => ((0 : ℝ) : ℂ)⟩ := by
  have := C118_directions S hS 4 2 ![fun a b => a * b, fun _ _ => 3, fun a b => a + b] ![fun a => if a = 3 then 1 else 0, fun _ => 0, fun _ => 0]
    (finRotate 3)⁻¹
  have e0 : (finRotate 3)⁻¹ 0 = 2 := by decide
  have e1 : (finRotate 3)⁻¹ 1 = 0 := by decide
  have e2 : (finRotate 3)⁻¹ 2 = 1 := by decide
  rw [e0, e1, e2] at this
  exact this

end ED.Props
