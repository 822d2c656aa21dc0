import Verif.Model.FourSpins
import Verif.Lemmas.SpinLevels
import Verif.Props.Directions

/-! # Property C127: energies of groups of spins with isotropic couplings -/

namespace ED

open Matrix

theorem group_herm (d : ℕ) (T : Group) (σ : Equiv.Perm (Fin T.size)) (h : ℝ) (jx jy jz : Fin T.size → Fin T.size → ℂ)
    (hx : ∀ i j, j < i → jx i j = (T.coupling (σ i) (σ j) : ℝ)) (hy : ∀ i j, j < i → jy i j = (T.coupling (σ i) (σ j) : ℝ))
    (hz : ∀ i j, j < i → jz i j = (T.coupling (σ i) (σ j) : ℝ)) :
    (heis (sxM d) (syM d) (szM d) jx jy jz (fun _ => 0) (fun _ => 0) (fun _ => (h : ℂ))).IsHermitian := by
  have hs : ∀ i j : Fin T.size, T.coupling (σ i) (σ j) = T.coupling (σ j) (σ i) := fun i j => coupling_symm T _ _
  rw [heis_pairs d (fun i j => T.coupling (σ i) (σ j)) hs jx jy jz h hx hy hz]
  rw [← heis_pairs d (fun i j => T.coupling (σ i) (σ j)) hs (fun i j => ((T.coupling (σ i) (σ j) : ℝ) : ℂ))
    (fun i j => ((T.coupling (σ i) (σ j) : ℝ) : ℂ)) (fun i j => ((T.coupling (σ i) (σ j) : ℝ) : ℂ)) h (fun _ _ _ => rfl) (fun _ _ _ => rfl)
    (fun _ _ _ => rfl)]
  have := heis_star (n := T.size) (sxM_star d) (syM_star d) (szM_star d) (fun i j => ((T.coupling (σ i) (σ j) : ℝ) : ℂ))
    (fun i j => ((T.coupling (σ i) (σ j) : ℝ) : ℂ)) (fun i j => ((T.coupling (σ i) (σ j) : ℝ) : ℂ)) (fun _ => 0) (fun _ => 0) (fun _ => (h : ℂ))
  simp only [RCLike.star_def, Complex.conj_ofReal, map_zero] at this
  exact this

/-- The values of the loops of the script are the lengths of the sum of two spins. -/
theorem arange_lengths (a b : ℕ) :
    ((npArange |(a : ℝ) / 2 - (b : ℝ) / 2| ((a : ℝ) / 2 + (b : ℝ) / 2 + 1) 1 : List ℝ) : Multiset ℝ) =
      ((sumLengths a b : List ℕ) : Multiset ℕ).map fun c : ℕ => (c : ℝ) / 2 := by
  have habs : |(a : ℝ) / 2 - (b : ℝ) / 2| = ((a + b - 2 * min a b : ℕ) : ℝ) / 2 := by
    rcases le_total a b with h | h
    · have h' : (a : ℝ) ≤ b := by exact_mod_cast h
      rw [min_eq_left h, abs_of_nonpos (by linarith), show a + b - 2 * a = b - a by omega, Nat.cast_sub h]
      ring
    · have h' : (b : ℝ) ≤ a := by exact_mod_cast h
      rw [min_eq_right h, abs_of_nonneg (by linarith), show a + b - 2 * b = a - b by omega, Nat.cast_sub h]
      ring
  have hmin : 2 * min a b ≤ a + b := by omega
  have hlen : ⌈((a : ℝ) / 2 + (b : ℝ) / 2 + 1 - |(a : ℝ) / 2 - (b : ℝ) / 2|) / 1⌉₊ = min a b + 1 := by
    rw [habs, Nat.cast_sub hmin]
    push_cast
    rw [show ((a : ℝ) / 2 + b / 2 + 1 - (a + b - 2 * (min (a : ℝ) b)) / 2) / 1 = ((min a b + 1 : ℕ) : ℝ) by push_cast; ring]
    exact Nat.ceil_natCast _
  rw [Multiset.map_coe, Multiset.coe_eq_coe]
  have hrev : npArange |(a : ℝ) / 2 - (b : ℝ) / 2| ((a : ℝ) / 2 + (b : ℝ) / 2 + 1) 1 = ((sumLengths a b).map fun c : ℕ => (c : ℝ) / 2).reverse := by
    rw [npArange, hlen, sumLengths, habs]
    refine List.ext_getElem (by simp) fun k h1 h2 => ?_
    simp only [List.length_map, List.length_range] at h1
    simp only [List.getElem_map, List.getElem_range, List.getElem_reverse, List.length_map, List.length_range]
    rw [Nat.cast_sub hmin, Nat.cast_sub (by omega)]
    have : ((min a b + 1 - 1 - k : ℕ) : ℝ) = (min a b : ℕ) - k := by
      rw [Nat.add_sub_cancel, Nat.cast_sub (by omega)]
    push_cast at this ⊢
    rw [this]
    ring
  rw [hrev]
  exact List.reverse_perm _

theorem sumLengths_comm (a b : ℕ) : sumLengths a b = sumLengths b a := by
  unfold sumLengths
  rw [min_comm, add_comm a b]

/-- The levels without a field. -/
theorem levels_zero (l : List (ℕ × ℝ)) : levels 0 l = l.flatMap fun p => List.replicate (p.1 + 1) p.2 := by
  unfold levels
  congr 1
  funext p
  refine List.ext_getElem (by simp) fun k h1 h2 => ?_
  simp

theorem four_coupling (j1 j2 j3 : ℝ) (i j : Fin 4) (hij : j < i) :
    fourSpinsJ j1 j2 j3 i j = ((Group.chain (fun k => if k = 1 then -j1 else if k = 2 then -j2 else -j3) 3).coupling i j : ℝ) := by
  fin_cases i <;> fin_cases j <;> first | exact absurd hij (by decide) | simp [fourSpinsJ, Group.chain, Group.coupling, Group.size]

theorem four_levels (twoS : ℕ) (j1 j2 j3 : ℝ) : (fourSpinsEigs twoS j1 j2 j3).Perm
    (levels 0 ((Group.chain (fun k => if k = 1 then -j1 else if k = 2 then -j2 else -j3) 3).multiplets twoS)) := by
  have hfl : ∀ c : ℕ, ⌊2 * ((c : ℝ) / 2) + 1⌋₊ = c + 1 := by
    intro c
    rw [show 2 * ((c : ℝ) / 2) + 1 = ((c + 1 : ℕ) : ℝ) by push_cast; ring, Nat.floor_natCast]
  rw [levels_zero]
  refine (List.mergeSort_perm _ _).trans ?_
  rw [← Multiset.coe_eq_coe]
  simp only [Group.chain, Group.multiplets, List.flatMap_singleton, List.flatMap_cons, List.flatMap_nil, List.append_nil]
  simp only [← Multiset.coe_bind, ← Multiset.map_coe, arange_lengths, Multiset.bind_map, Multiset.bind_assoc, hfl]
  simp only [sumLengths_comm twoS]
  refine Multiset.bind_congr fun a _ => Multiset.bind_congr fun b _ => Multiset.bind_congr fun c _ => ?_
  congr 2
  simp [spinSq]
  ring

end ED

namespace ED.Props

open Matrix

/-- C127: spins of any length whose isotropic couplings arise by joining groups, every spin of one group being coupled to every
spin of the other with the same constant, numbered in any way, in a uniform field. The energies are those of the multiplets
obtained by adding the spins of the groups. (For spins other than 1/2 the code accepts no field, C33.) -/
theorem C127_groups (S : EigSolvers) (hS : EigContract S) (T : Group) (σ : Equiv.Perm (Fin T.size)) (twoS : ℕ) (h : ℝ)
    (hd : twoS = 1 ∨ h = 0 ∨ T.size = 1) (jx jy jz : ℕ → ℕ → ℂ)
    (hx : ∀ i j : Fin T.size, j < i → jx i j = (T.coupling (σ i) (σ j) : ℝ))
    (hy : ∀ i j : Fin T.size, j < i → jy i j = (T.coupling (σ i) (σ j) : ℝ))
    (hz : ∀ i j : Fin T.size, j < i → jz i j = (T.coupling (σ i) (σ j) : ℝ)) :
    ∃ w, spinEnergies S ⟨T.size, twoS, jx, jy, jz, fun _ => 0, fun _ => 0, fun _ => h⟩ = .ok w ∧ w.Pairwise (· ≤ ·) ∧
      w.length = (twoS + 1) ^ T.size ∧ w.Perm (levels h (T.multiplets twoS)) := by
  have hok : Spins.Ok ⟨T.size, twoS, jx, jy, jz, fun _ => 0, fun _ => 0, fun _ => h⟩ := by
    rcases hd with h1 | h1 | h1
    · exact Or.inl h1
    · exact Or.inr fun i _ => ⟨rfl, rfl, by simp [h1]⟩
    · refine Or.inr fun i hi => ?_
      simp only at hi
      omega
  obtain ⟨A, a1, a2⟩ := spin_createH _ hok
  have herm := group_herm twoS T σ h (fun i j => jx i j) (fun i j => jy i j) (fun i j => jz i j) hx hy hz
  obtain ⟨m, E, M, V, h1, h2, h3, h4, h5, h6⟩ := diagList_ok S hS a2 herm
  refine ⟨List.ofFn E, ?_, ?_, ?_, ?_⟩
  · unfold spinEnergies
    rw [a1]
    simp only [bind, Except.bind, h1, pure, Except.pure]
  · rw [List.pairwise_ofFn]
    exact fun i j hij => h6 hij.le
  · have := Matrix.trace_mul_comm Vᴴ V
    rw [h3, h4, trace_one, trace_one, Fintype.card_fin, Fintype.card_fun, Fintype.card_fin, Fintype.card_fin] at this
    rw [List.length_ofFn]
    exact_mod_cast this
  · have r := roots_of_eig h3 h4 h5
    have r' := group_roots twoS T σ h (fun i j => jx i j) (fun i j => jy i j) (fun i j => jz i j) hx hy hz
    have e := r.symm.trans r'
    rw [← Multiset.map_coe] at e
    have e2 : (Finset.univ.val.map fun k => (E k : ℂ)) = (Finset.univ.val.map E).map fun x : ℝ => (x : ℂ) := by
      rw [Multiset.map_map]; rfl
    rw [e2] at e
    have := Multiset.map_injective Complex.ofReal_injective e
    rw [Fin.univ_val_map, Multiset.coe_eq_coe] at this
    exact this

/-- C127: the same with the field along any of the three directions. -/
theorem C127_axes (S : EigSolvers) (hS : EigContract S) (T : Group) (σ : Equiv.Perm (Fin T.size)) (twoS : ℕ) (h : ℝ)
    (hd : twoS = 1 ∨ h = 0 ∨ T.size = 1) (J : ℕ → ℕ → ℝ) (hJ : ∀ i j : Fin T.size, j < i → J i j = T.coupling (σ i) (σ j)) (a : Fin 3) :
    ∃ w, spinEnergies S ⟨T.size, twoS, fun i j => J i j, fun i j => J i j, fun i j => J i j, fun _ => ((if a = 0 then h else 0 : ℝ) : ℂ),
        fun _ => ((if a = 1 then h else 0 : ℝ) : ℂ), fun _ => ((if a = 2 then h else 0 : ℝ) : ℂ)⟩ = .ok w ∧ w.Pairwise (· ≤ ·) ∧
      w.length = (twoS + 1) ^ T.size ∧ w.Perm (levels h (T.multiplets twoS)) := by
  have hJ' : ∀ i j : Fin T.size, j < i → (J i j : ℂ) = (T.coupling (σ i) (σ j) : ℝ) := fun i j hij => by rw [hJ i j hij]
  obtain ⟨w, h1, h2⟩ := C127_groups S hS T σ twoS h hd (fun i j => J i j) (fun i j => J i j) (fun i j => J i j) hJ' hJ' hJ'
  refine ⟨w, ?_, h2⟩
  rw [← h1]
  have := C118_directions S hS T.size twoS (fun _ i j => J i j) (fun b _ => if b = 2 then h else 0) (Equiv.swap a 2)
  simp only [Equiv.swap_apply_eq_iff, Equiv.swap_apply_right] at this
  simp only [if_true, show ¬ ((0 : Fin 3) = 2) by decide, show ¬ ((1 : Fin 3) = 2) by decide, if_false, Complex.ofReal_zero] at this
  rw [← this]
  simp only [eq_comm (a := a)]

/-- C127: the script of the repository on four spins: for spins of every length and all values of the three couplings, the values
it computes are the energies, each as often as it occurs, so that its assertion holds. -/
theorem C127_script (S : EigSolvers) (hS : EigContract S) (adj phase : ℕ → ℕ → ℂ) (twoS : ℕ) (j1 j2 j3 : ℝ) :
    ∃ w, fourSpins S adj phase twoS j1 j2 j3 = .ok (w, w, 0) ∧ w.length = (twoS + 1) ^ 4 := by
  obtain ⟨w, h1, h2, h4, h3⟩ := C127_groups S hS (Group.chain (fun k => if k = 1 then -j1 else if k = 2 then -j2 else -j3) 3) (Equiv.refl _) twoS 0
    (Or.inr (Or.inl rfl)) (fourSpinsJ j1 j2 j3) (fourSpinsJ j1 j2 j3) (fourSpinsJ j1 j2 j3) (four_coupling j1 j2 j3) (four_coupling j1 j2 j3)
    (four_coupling j1 j2 j3)
  have hw : fourSpinsEigs twoS j1 j2 j3 = w := by
    refine List.Perm.eq_of_pairwise' (r := (· ≤ ·)) ?_ h2 ((four_levels twoS j1 j2 j3).trans h3.symm)
    have := List.pairwise_mergeSort (le := fun a b : ℝ => decide (a ≤ b)) (by simpa using fun a b c => le_trans)
      (by simpa using fun a b => le_total a b)
    unfold fourSpinsEigs
    simpa using this _
  refine ⟨w, ?_, h4⟩
  unfold fourSpins
  have hi : Spins.init 4 twoS adj phase (.square 4 (fourSpinsJ j1 j2 j3)) (.square 4 (fourSpinsJ j1 j2 j3)) (.square 4 (fourSpinsJ j1 j2 j3))
      (.scalar 0) (.scalar 0) (.scalar 0) false = .ok ⟨4, twoS, fourSpinsJ j1 j2 j3, fourSpinsJ j1 j2 j3, fourSpinsJ j1 j2 j3, fun _ => 0, fun _ => 0,
        fun _ => ((0 : ℝ) : ℂ)⟩ := by
    simp [Spins.init, interactionMat, fieldMat, bind, Except.bind, pure, Except.pure]
  have hs : spinEnergies S ⟨4, twoS, fourSpinsJ j1 j2 j3, fourSpinsJ j1 j2 j3, fourSpinsJ j1 j2 j3, fun _ => 0, fun _ => 0,
      fun _ => ((0 : ℝ) : ℂ)⟩ = .ok w := h1
  simp only [hi, bind, Except.bind, hs, hw, ne_eq, not_true_eq_false, if_false]
  have hz : List.zipWith (· - ·) w w = List.replicate w.length (0 : ℝ) := by
    refine List.ext_getElem (by simp) fun k _ _ => ?_
    simp
  have h4' : w.length = (w.length - 1) + 1 := by
    have : 0 < (twoS + 1) ^ 4 := by positivity
    have h4 : w.length = (twoS + 1) ^ 4 := h4
    omega
  have hmax : ∀ k, (List.replicate k (0 : ℝ)).foldl max 0 = 0 := by
    intro k
    induction k with
    | zero => rfl
    | succ k ih => rw [List.replicate_succ, List.foldl_cons, max_self, ih]
  rw [hz, h4', List.replicate_succ]
  simp only [pure, Except.pure, hmax]

/-- The lengths of the sum of `n + 1` spins, every length as often as it occurs. -/
def allLengths (d : ℕ) : ℕ → List ℕ
  | 0 => [d]
  | n + 1 => (allLengths d n).flatMap fun c => sumLengths c d

theorem complete_multiplets (d : ℕ) (g : ℝ) (n : ℕ) : (Group.chain (fun _ => g) n).multiplets d =
    (allLengths d n).map fun c => (c, g * (spinSq c - (n + 1) * spinSq d)) := by
  induction n with
  | zero => simp [Group.chain, Group.multiplets, allLengths]
  | succ n ih =>
    rw [Group.chain, Group.multiplets, ih, allLengths, List.map_flatMap, List.flatMap_map]
    congr 1
    funext c
    simp only [Group.multiplets, List.flatMap_cons, List.flatMap_nil, List.append_nil]
    refine List.map_congr_left fun c' _ => ?_
    rw [Prod.mk.injEq]
    refine ⟨rfl, ?_⟩
    push_cast
    ring

theorem complete_size (g : ℝ) (n : ℕ) : (Group.chain (fun _ => g) n).size = n + 1 := by
  induction n with
  | zero => rfl
  | succ n ih => rw [Group.chain, Group.size, ih, Group.size]

theorem complete_coupling (g : ℝ) (n : ℕ) {i j : ℕ} (hi : i < n + 1) (hj : j < n + 1) (hij : i ≠ j) :
    (Group.chain (fun _ => g) n).coupling i j = g := by
  induction n with
  | zero => omega
  | succ n ih =>
    rw [Group.chain, Group.coupling, complete_size]
    by_cases h1 : i < n + 1 <;> by_cases h2 : j < n + 1
    · rw [if_pos h1, if_pos h2, ih h1 h2]
    · rw [if_pos h1, if_neg h2]
    · rw [if_neg h1, if_pos h2]
    · omega

/-- C127, through the constructor: isotropic couplings given by one number on a cluster in which all sites are neighbours of each
other (for example a triangle), in a uniform field. The energies are `j (S(S+1) - n s(s+1)) - h M`. -/
theorem C127_complete (S : EigSolvers) (hS : EigContract S) (n twoS : ℕ) (adj phase : ℕ → ℕ → ℂ) (j h : ℝ) (hd : twoS = 1 ∨ h = 0 ∨ n = 0)
    (ha : ∀ a b, b < a → a < n + 1 → adj a b = 1 ∧ phase a b = 1) :
    ∃ F w, Spins.init (n + 1) twoS adj phase (.scalar j) (.scalar j) (.scalar j) (.scalar 0) (.scalar 0) (.scalar h) false = .ok F ∧
      spinEnergies S F = .ok w ∧ w.Pairwise (· ≤ ·) ∧ w.Perm ((allLengths twoS n).flatMap fun c => (List.range (c + 1)).map fun m : ℕ =>
        j * (spinSq c - (n + 1) * spinSq twoS) - h * ((c : ℝ) / 2 - m)) := by
  have key : ∀ (T : Group) (hT : T.size = n + 1), (∀ a b, a < n + 1 → b < n + 1 → a ≠ b → T.coupling a b = j) →
      ∃ w, spinEnergies S ⟨n + 1, twoS, fun a b => j * adj a b * phase a b, fun a b => j * adj a b * phase a b, fun a b => j * adj a b * phase a b,
        fun _ => 0, fun _ => 0, fun _ => h⟩ = .ok w ∧ w.Pairwise (· ≤ ·) ∧ w.Perm (levels h (T.multiplets twoS)) := by
    intro T hT hc
    have hJ : ∀ a b : Fin T.size, b < a → (j : ℂ) * adj a b * phase a b = (T.coupling (Equiv.refl _ a : Fin T.size) (Equiv.refl _ b : Fin T.size) : ℝ) := by
      intro a b hab
      have hab' : (b : ℕ) < a := hab
      rw [(ha a b hab (by omega)).1, (ha a b hab (by omega)).2, mul_one, mul_one, Equiv.refl_apply, Equiv.refl_apply,
        hc a b (by omega) (by omega) (by omega)]
    obtain ⟨w, h1, h2, -, h3⟩ := C127_groups S hS T (Equiv.refl _) twoS h (by rw [hT]; simpa using hd)
      (fun a b => j * adj a b * phase a b) (fun a b => j * adj a b * phase a b) (fun a b => j * adj a b * phase a b) hJ hJ hJ
    rw [hT] at h1
    exact ⟨w, h1, h2, h3⟩
  obtain ⟨w, h1, h2, h3⟩ := key (Group.chain (fun _ => j) n) (complete_size j n) fun a b ha hb hab => complete_coupling j n ha hb hab
  refine ⟨⟨n + 1, twoS, fun a b => j * adj a b * phase a b, fun a b => j * adj a b * phase a b, fun a b => j * adj a b * phase a b,
        fun _ => ((0 : ℝ) : ℂ), fun _ => ((0 : ℝ) : ℂ), fun _ => h⟩, w, rfl, ?_, h2, ?_⟩
  · rw [← h1, Complex.ofReal_zero]
  · refine h3.trans (List.Perm.of_eq ?_)
    rw [complete_multiplets, levels, List.flatMap_map]

/-- C127, through the constructor: four spins 1/2 on a square, the sites numbered as on a ring, in a uniform field along z. Written
in the multiplets: one of length 2, three of length 1, two of length 0. -/
theorem C127_square (S : EigSolvers) (hS : EigContract S) (adj phase : ℕ → ℕ → ℂ) (j h : ℝ)
    (ha : ∀ a b, b < a → a < 4 → adj a b * phase a b = if (a + b) % 2 = 1 then 1 else 0) :
    ∃ F w, Spins.init 4 1 adj phase (.scalar j) (.scalar j) (.scalar j) (.scalar 0) (.scalar 0) (.scalar h) false = .ok F ∧
      spinEnergies S F = .ok w ∧ w.Pairwise (· ≤ ·) ∧
      w.Perm [2 * j - 2 * h, 2 * j - h, 2 * j, 2 * j + h, 2 * j + 2 * h, -2 * j - h, -2 * j, -2 * j + h, -4 * j, -h, 0, h, -h, 0, h, 0] := by
  have hJ : ∀ a b : Fin 4, b < a → (j : ℂ) * adj a b * phase a b =
      ((Group.join j (.join 0 .one .one) (.join 0 .one .one)).coupling (Equiv.swap (1 : Fin 4) 2 a : Fin 4) (Equiv.swap (1 : Fin 4) 2 b : Fin 4) : ℝ) := by
    intro a b hab
    rw [mul_assoc, ha a b hab a.2]
    fin_cases a <;> fin_cases b <;> first | exact absurd hab (by decide) | skip
    all_goals
      simp [Group.coupling, Group.size, Equiv.swap_apply_def]
  obtain ⟨w, h1, h2, -, h3⟩ := C127_groups S hS (Group.join j (.join 0 .one .one) (.join 0 .one .one))
    (Equiv.swap (1 : Fin 4) (2 : Fin 4)) 1 h (Or.inl rfl)
    (fun a b => j * adj a b * phase a b) (fun a b => j * adj a b * phase a b) (fun a b => j * adj a b * phase a b) hJ hJ hJ
  refine ⟨⟨4, 1, fun a b => j * adj a b * phase a b, fun a b => j * adj a b * phase a b, fun a b => j * adj a b * phase a b,
        fun _ => ((0 : ℝ) : ℂ), fun _ => ((0 : ℝ) : ℂ), fun _ => h⟩, w, rfl, ?_, h2, h3.trans (List.Perm.of_eq ?_)⟩
  · rw [← h1, Complex.ofReal_zero]
    rfl
  · simp [Group.multiplets, sumLengths, levels, spinSq, List.range_succ]
    norm_num
    ring_nf
    simp

/-- Instance of C127: a triangle of spins 1/2. -/
example (S : EigSolvers) (hS : EigContract S) : ∃ F w, Spins.init 3 1 (fun _ _ => 1) (fun _ _ => 1) (.scalar 1) (.scalar 1) (.scalar 1)
    (.scalar 0) (.scalar 0) (.scalar 0) false = .ok F ∧ spinEnergies S F = .ok w ∧ w.Pairwise (· ≤ ·) ∧ w.Perm
      [3 / 2, 3 / 2, 3 / 2, 3 / 2, -(3 / 2), -(3 / 2), -(3 / 2), -(3 / 2)] := by
  obtain ⟨F, w, h1, h2, h3, h4⟩ := C127_complete S hS 2 1 (fun _ _ => 1) (fun _ _ => 1) 1 0 (Or.inl rfl) fun _ _ _ _ => ⟨rfl, rfl⟩
  refine ⟨F, w, h1, h2, h3, h4.trans (List.Perm.of_eq ?_)⟩
  simp [allLengths, sumLengths, spinSq, List.range_succ]
  norm_num

/-- Instance of C127: the values of the script. -/
example (S : EigSolvers) (hS : EigContract S) : ∃ w, fourSpins S (fun _ _ => 0) (fun _ _ => 0) 5 0.3333 0.23623627 0.8434783478 = .ok (w, w, 0) ∧
    w.length = 1296 :=
  C127_script S hS _ _ 5 _ _ _

end ED.Props
