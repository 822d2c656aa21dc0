import Verif.Lemmas.LevelStats
import Verif.Props.UniqueGround
import Verif.Props.FermiResponse

/-! # Property C146: statistics of level spacings -/

namespace ED.Props

open Matrix

/-! ## Specification: `spacingRatio`, the smaller of two neighbouring spacings divided by the larger one -/

/-- The parameters of `F` measured in other units, with other chemical potentials and other zeros of the potentials of the species. -/
noncomputable abbrev rescaled (F : Fermions) (c : ℝ) (e mus : ℕ → ℝ) : Fermions :=
  { F with ts := fun i j s => c * F.ts i j s, us := fun i => c * F.us i, usSame := fun i j s => c * F.usSame i j s, mus := fun s => mus s,
           pots := fun i s => c * F.pots i s + e s }

/-! ## Proofs -/

theorem stats_of_sorted {w : List ℝ} (hw : w.Pairwise (· ≤ ·)) (h3 : 3 ≤ w.length) :
    ∃ r : List ℝ, levelRatios w = r.map Num.fin ∧ r.length = w.length - 2 ∧
      (∀ (k : ℕ) (x y z : ℝ), w[k]? = some x → w[k + 1]? = some y → w[k + 2]? = some z → r[k]? = some (spacingRatio x y z)) ∧
      (∀ x ∈ r, 0 ≤ x ∧ x ≤ 1) ∧ ratioMean (levelRatios w) = .fin (r.sum / r.length) ∧ 0 ≤ r.sum / r.length ∧ r.sum / r.length ≤ 1 ∧
      ∃ pr bins, ratioHist (levelRatios w) = .ok (pr, bins) ∧ pr.length = 30 ∧ bins.length = 30 ∧ (∀ p ∈ pr, 0 ≤ p) ∧ pr.sum = 1 := by
  set r : List ℝ := (List.range (w.length - 2)).map fun k => spacingRatio (w.getD k 0) (w.getD (k + 1) 0) (w.getD (k + 2) 0) with hr
  have he : levelRatios w = r.map Num.fin := by rw [levelRatios_eq hw, hr, List.map_map]; rfl
  have hl : r.length = w.length - 2 := by simp [hr]
  have hne : r ≠ [] := List.length_pos_iff.1 (by omega)
  have hmem : ∀ x ∈ r, 0 ≤ x ∧ x ≤ 1 := fun x hx => by
    obtain ⟨k, hk, rfl⟩ := List.mem_map.1 hx
    have hk' := List.mem_range.1 hk
    rw [List.getD_eq_getElem _ _ (by omega : k < w.length), List.getD_eq_getElem _ _ (by omega : k + 1 < w.length),
      List.getD_eq_getElem _ _ (by omega : k + 2 < w.length)]
    exact spacingRatio_mem (List.pairwise_iff_getElem.1 hw _ _ _ _ (by omega)) (List.pairwise_iff_getElem.1 hw _ _ _ _ (by omega))
  have hpos : (0 : ℝ) < r.length := by exact_mod_cast List.length_pos_iff.2 hne
  have hs : 0 ≤ r.sum ∧ r.sum ≤ r.length := by
    refine ⟨List.sum_nonneg fun x hx => (hmem x hx).1, ?_⟩
    have := List.sum_le_card_nsmul r 1 fun x hx => (hmem x hx).2
    simpa using this
  refine ⟨r, he, hl, fun k x y z hx hy hz => ?_, hmem, by rw [he, ratioMean_map hne], div_nonneg hs.1 hpos.le, (div_le_one hpos).2 hs.2, ?_⟩
  · obtain ⟨hz1, hz2⟩ := List.getElem?_eq_some_iff.1 hz
    rw [List.getElem?_map, List.getElem?_range (by omega : k < w.length - 2), Option.map_some]
    simp only [List.getD_eq_getElem?_getD, hx, hy, hz, Option.getD_some]
  · rw [he]
    unfold ratioHist
    rw [allFin_map]
    obtain ⟨x, xs, hxs⟩ := List.exists_cons_of_ne_nil hne
    rw [hxs] at hpos ⊢
    obtain ⟨g1, g2, g3⟩ := histEdges_spec (by norm_num : 0 < 30) x xs
    refine ⟨_, _, rfl, by simp, by simp, fun p hp => ?_, ?_⟩
    · obtain ⟨i, -, rfl⟩ := List.mem_map.1 hp
      positivity
    · obtain ⟨-, -, d3⟩ := C86_dos (x :: xs) (histEdges 30 x xs) (by simp) (by rw [g1]; norm_num) g2
      rw [g1] at d3
      rw [show (List.filter (fun e => decide ((histEdges 30 x xs).getD 0 0 ≤ e ∧ e ≤ (histEdges 30 x xs).getD (30 + 1 - 1) 0)) (x :: xs)) = x :: xs from
        List.filter_eq_self.2 fun y hy => decide_eq_true (g3 y hy), div_self hpos.ne'] at d3
      have hsum : ∀ f : ℕ → ℝ, ((List.range 30).map f).sum = ∑ i ∈ Finset.range 30, f i := fun f => rfl
      rw [← d3, hsum]
      refine Finset.sum_congr rfl fun i hi => ?_
      have hi' := Finset.mem_range.1 hi
      have hlt : (histEdges 30 x xs).getD i 0 < (histEdges 30 x xs).getD (i + 1) 0 := by
        rw [List.getD_eq_getElem _ _ (by rw [g1]; omega : i < (histEdges 30 x xs).length),
          List.getD_eq_getElem _ _ (by rw [g1]; omega : i + 1 < (histEdges 30 x xs).length)]
        exact List.pairwise_iff_getElem.1 g2 _ _ _ _ (by omega)
      have hget : (getDos (x :: xs) (histEdges 30 x xs)).getD i 0 =
          (((x :: xs).filter fun e => (histEdges 30 x xs).getD i 0 ≤ e ∧ (e < (histEdges 30 x xs).getD (i + 1) 0 ∨
            (i + 2 = (histEdges 30 x xs).length ∧ e = (histEdges 30 x xs).getD (i + 1) 0))).length : ℝ) /
            ((histEdges 30 x xs).getD (i + 1) 0 - (histEdges 30 x xs).getD i 0) / ((x :: xs).length : ℝ) := by
        unfold getDos
        rw [List.getD_eq_getElem _ _ (by simp only [List.length_map, List.length_range, g1]; omega), List.getElem_map, List.getElem_range]
      rw [hget]
      have := sub_pos.2 hlt
      field_simp

theorem affine_levels {ι : Type} [Fintype ι] [DecidableEq ι] [Nonempty ι] {H H' : Matrix ι ι ℂ} {c κ : ℝ} (hc : c ≠ 0)
    (hH : H' = (c : ℂ) • H + (κ : ℂ) • 1) {m m' : ℕ}
    {E : Fin (m + 1) → ℝ} {V : Matrix ι (Fin (m + 1)) ℂ} {E' : Fin (m' + 1) → ℝ} {V' : Matrix ι (Fin (m' + 1)) ℂ} (h1 : Vᴴ * V = 1) (h2 : V * Vᴴ = 1)
    (h3 : H * V = V * diagonal fun k => (E k : ℂ)) (h4 : Monotone E) (k1 : V'ᴴ * V' = 1) (k2 : V' * V'ᴴ = 1)
    (k3 : H' * V' = V' * diagonal fun k => (E' k : ℂ)) (k4 : Monotone E') :
    List.ofFn E' = if 0 < c then (List.ofFn E).map fun x => c * x + κ else ((List.ofFn E).map fun x => c * x + κ).reverse := by
  have h5 : H' * V = V * diagonal fun k => ((c * E k + κ : ℝ) : ℂ) := by
    have : (diagonal fun k => ((c * E k + κ : ℝ) : ℂ)) = (c : ℂ) • (diagonal fun k => (E k : ℂ)) + (κ : ℂ) • (1 : Matrix (Fin (m + 1)) (Fin (m + 1)) ℂ) := by
      ext i j
      by_cases h : i = j
      · subst h; simp
      · simp [h]
    rw [this, hH, Matrix.add_mul, Matrix.mul_add, Matrix.smul_mul, Matrix.smul_mul, h3, Matrix.mul_smul, Matrix.mul_smul, Matrix.one_mul, Matrix.mul_one]
  have hroots := (roots_of_eig k1 k2 k3).symm.trans (roots_of_eig (E := fun k => c * E k + κ) h1 h2 h5)
  have hre := congrArg (Multiset.map Complex.re) hroots
  simp only [Multiset.map_map, Function.comp_def, Complex.ofReal_re] at hre
  have hperm : (List.ofFn E').Perm ((List.ofFn E).map fun x => c * x + κ) := by
    rw [List.map_ofFn]
    rw [← Multiset.coe_eq_coe, ← Fin.univ_val_map, ← Fin.univ_val_map]
    exact hre
  have s1 : (List.ofFn E').Pairwise (· ≤ ·) := List.pairwise_ofFn.2 fun i j hij => k4 hij.le
  have s2 : (List.ofFn E).Pairwise (· ≤ ·) := List.pairwise_ofFn.2 fun i j hij => h4 hij.le
  split_ifs with h
  · exact hperm.eq_of_pairwise (fun _ _ _ _ => le_antisymm) s1 (List.pairwise_map.2 (s2.imp fun h' => by nlinarith))
  · have hc' : c < 0 := lt_of_le_of_ne (not_lt.1 h) hc
    exact (hperm.trans (List.reverse_perm _).symm).eq_of_pairwise (fun _ _ _ _ => le_antisymm) s1
      (List.pairwise_reverse.2 (List.pairwise_map.2 (s2.imp fun h' => by nlinarith)))

theorem stats_affine {w w' : List ℝ} (hw : w.Pairwise (· ≤ ·)) {c κ : ℝ} (hc : c ≠ 0)
    (h : w' = if 0 < c then w.map fun x => c * x + κ else (w.map fun x => c * x + κ).reverse) :
    levelRatios w' = (if 0 < c then levelRatios w else (levelRatios w).reverse) := by
  rw [h]
  split_ifs with h'
  · exact levelRatios_scale hw h' κ
  · have hc' : 0 < -c := by have := lt_of_le_of_ne (not_lt.1 h') hc; linarith
    have hw2 : (w.map fun x => -c * x + -κ).Pairwise (· ≤ ·) := List.pairwise_map.2 (hw.imp fun h => by nlinarith)
    have := levelRatios_neg hw2
    rw [levelRatios_scale hw hc'] at this
    rw [← this, List.map_map]
    congr 2
    refine List.map_congr_left fun x _ => ?_
    simp only [Function.comp_apply]
    ring

/-- C146 (any model): the ratios are those of the list of energies, they lie between zero and one, and so does their mean; the
frequencies add up to one. -/
theorem C146_ratios {ι : Type} [Fintype ι] [DecidableEq ι] [Basis ι] [Nonempty ι] (S : EigSolvers) (hS : EigContract S) (A : Mat) (H : Matrix ι ι ℂ)
    (hA : A.Is H) (hH : H.IsHermitian) (h3 : 3 ≤ Fintype.card ι) : ∃ w M, ∃ r : List ℝ, diagList S A = .ok (w, M) ∧ w.length = Fintype.card ι ∧
      levelRatios w = r.map Num.fin ∧ r.length = w.length - 2 ∧
      (∀ (k : ℕ) (x y z : ℝ), w[k]? = some x → w[k + 1]? = some y → w[k + 2]? = some z → r[k]? = some (spacingRatio x y z)) ∧
      (∀ x ∈ r, 0 ≤ x ∧ x ≤ 1) ∧ ratioMean (levelRatios w) = .fin (r.sum / r.length) ∧ 0 ≤ r.sum / r.length ∧ r.sum / r.length ≤ 1 ∧
      ∃ pr bins, ratioHist (levelRatios w) = .ok (pr, bins) ∧ pr.length = 30 ∧ bins.length = 30 ∧ (∀ p ∈ pr, 0 ≤ p) ∧ pr.sum = 1 := by
  obtain ⟨m, E, M, V, a1, a2, a3, a4, a5, a6⟩ := diagList_ok S hS hA hH
  have hl : (List.ofFn E).length = Fintype.card ι := by
    rw [List.length_ofFn]
    have h := congrArg trace a3
    rw [trace_mul_comm, a4, trace_one, trace_one] at h
    have h' : Fintype.card ι = Fintype.card (Fin (m + 1)) := by exact_mod_cast h
    simpa using h'.symm
  obtain ⟨r, b⟩ := stats_of_sorted (w := List.ofFn E) (List.pairwise_ofFn.2 fun i j hij => a6 hij.le) (by rw [hl]; exact h3)
  exact ⟨List.ofFn E, M, r, a1, hl, b⟩

/-- C146 (frequencies): thirty bins of equal width from the smallest to the largest ratio (if all ratios are equal, one half to both
sides); the values returned are the fractions of the ratios in the bins, of which the last contains its upper end, and the centres of
the bins. -/
theorem C146_frequencies {r : List ℝ} (hr : r ≠ []) : ∃ lo hi : ℝ, lo < hi ∧ (∀ x ∈ r, lo ≤ x ∧ x ≤ hi) ∧
    ((lo ∈ r ∧ hi ∈ r) ∨ (hi - lo = 1 ∧ ∀ x ∈ r, x = (lo + hi) / 2)) ∧ ∃ pr bins, ratioHist (r.map Num.fin) = .ok (pr, bins) ∧
      pr.length = 30 ∧ bins.length = 30 ∧ ∀ i : ℕ, i < 30 → bins[i]? = some (lo + (hi - lo) * (i + 1 / 2) / 30) ∧
        pr[i]? = some (((r.countP fun x => lo + (hi - lo) * i / 30 ≤ x ∧ (x < lo + (hi - lo) * (i + 1) / 30 ∨ (i = 29 ∧ x = hi)) : ℕ) : ℝ) / (r.length : ℝ)) := by
  obtain ⟨x, xs, rfl⟩ := List.exists_cons_of_ne_nil hr
  obtain ⟨lo, hi, h1, h2, h3, h4⟩ := histEdges_form 30 x xs
  refine ⟨lo, hi, h1, h2, h3, ?_⟩
  unfold ratioHist
  rw [allFin_map]
  refine ⟨_, _, rfl, by simp, by simp, fun i hi' => ?_⟩
  have g : ∀ j < 31, (histEdges 30 x xs).getD j 0 = lo + (hi - lo) * j / 30 := fun j hj => by
    rw [h4, List.getD_eq_getElem _ _ (by simpa using hj), List.getElem_map, List.getElem_range]
    norm_num
  have hl : (histEdges 30 x xs).length = 31 := by rw [h4]; simp
  rw [List.getElem?_map, List.getElem?_range hi', Option.map_some, List.getElem?_map, List.getElem?_range hi', Option.map_some, g i (by omega),
    g (i + 1) (by omega), hl]
  constructor
  · congr 1
    push_cast
    ring
  · simp only [List.countP_eq_length_filter]
    congr 4
    refine List.filter_congr fun y _ => ?_
    congr 1
    push_cast
    apply propext
    refine and_congr_right fun _ => or_congr_right (and_congr_right fun hi29 => ?_)
    rw [hi29]
    norm_num

/-- C146 (fermions with given numbers of particles): the ratios do not depend on the unit of energy, on the chemical potentials and on
constants added to the potentials of a species. If all signs are changed, the ratios are listed in the reversed order; their mean and
their frequencies are the same. -/
theorem C146_units (S : EigSolvers) (hS : EigContract S) (F : Fermions) (hI : InterOk F) (hr : RealParams F) (hn : 0 < F.nsites)
    {ns : List (Option ℤ)} (hlen : ns.length = F.nspecies) (hf : Fits F.nsites ns) (ha : AllFixed ns) (c : ℝ) (hc : c ≠ 0) (e mus : ℕ → ℝ) :
    ∃ P A w M A' w' M', F.nProjector (some ns) = .ok P ∧ (rescaled F c e mus).nProjector (some ns) = .ok P ∧ F.createH (some P) = .ok A ∧
      (rescaled F c e mus).createH (some P) = .ok A' ∧ diagList S A = .ok (w, M) ∧ diagList S A' = .ok (w', M') ∧ w.length = w'.length ∧
      levelRatios w' = (if 0 < c then levelRatios w else (levelRatios w).reverse) ∧
      (3 ≤ w.length → ratioMean (levelRatios w') = ratioMean (levelRatios w)) ∧ ratioHist (levelRatios w') = ratioHist (levelRatios w) := by
  classical
  obtain ⟨P, hP, hsel⟩ := C16_number_projector F hn ns hlen
  have hfix : ∀ s : Fin F.nspecies, ∃ v : ℤ, ns[(s : ℕ)]? = some (some v) := fun s => by
    have hs : (s : ℕ) < ns.length := by rw [hlen]; exact s.2
    have h := List.getElem?_eq_getElem hs
    cases e : ns[(s : ℕ)] with
    | none => exact absurd (e ▸ List.getElem_mem hs) ha
    | some v => exact ⟨v, by rw [h, e]⟩
  choose v hv using hfix
  have hne : ∃ t : Conf (F.nsites * F.nspecies) 2, ∀ (s : Fin F.nspecies) (v : ℤ), ns[s]? = some (some v) → (speciesCount t s : ℤ) = v := by
    obtain ⟨t, ht⟩ := exists_counts (nsites := F.nsites) (nspecies := F.nspecies)
      (fun s => match ns[s]? with | some (some v) => v.toNat | _ => 0) (fun s => by
        split
        · rename_i v hv
          have := hf v (List.mem_of_getElem? hv)
          omega
        · omega)
    refine ⟨t, fun s v hv => ?_⟩
    have := hf v (List.mem_of_getElem? hv)
    rw [ht]
    simp only [hv]
    omega
  obtain ⟨d, sel, hinj, hrange, hPi⟩ := hsel.is hne
  set Pm : Matrix (Fin (d + 1)) (Conf (F.nsites * F.nspecies) 2) ℂ := Matrix.of fun r t => if t = sel r then (1 : ℂ) else 0 with hPm
  have hI' : InterOk (rescaled F c e mus) := hI.imp id fun h i => by
    change (c : ℂ) * F.us i = 0
    rw [h i, mul_zero]
  have hr' : RealParams (rescaled F c e mus) := by
    refine ⟨fun i j s => ?_, fun i => ?_, fun i j s => ?_, fun s => ?_, fun i s => ?_⟩
    · simp only [star_mul', hr.ts i j s, Complex.star_def, Complex.conj_ofReal]
    · simp only [star_mul', hr.us i, Complex.star_def, Complex.conj_ofReal]
    · simp only [star_mul', hr.same i j s, Complex.star_def, Complex.conj_ofReal]
    · simp only [Complex.star_def, Complex.conj_ofReal]
    · simp only [star_add, star_mul', hr.pots i s, Complex.star_def, Complex.conj_ofReal]
  obtain ⟨A, hA, hAi⟩ := createH_gives_proj hPi hI
  obtain ⟨A', hA', hAi'⟩ := createH_gives_proj (F := rescaled F c e mus) hPi hI'
  have herm : ∀ {G : Fermions}, InterOk G → RealParams G → (hubInter (fun i : Fin G.nsites => G.us i) + hubRest G : Op (G.nsites * G.nspecies) 2).IsHermitian := by
    intro G hG hGr
    obtain ⟨H, hH', hiff⟩ := C25_hermitian_iff G hG hGr.us hGr.same hGr.mus hGr.pots
    rw [gives_unique (createH_gives hG) hH']
    exact hiff.2 fun i j s _ => Or.inl (hGr.ts i j s)
  obtain ⟨m, E, M, V, a1, a2, a3, a4, a5, a6⟩ := diagList_ok S hS hAi (isHermitian_mul_mul_conjTranspose Pm (herm hI hr))
  obtain ⟨m', E', M', V', b1, b2, b3, b4, b5, b6⟩ := diagList_ok S hS hAi' (isHermitian_mul_mul_conjTranspose Pm (herm hI' hr'))
  set κ : ℝ := ∑ s : Fin F.nspecies, (e s - mus s + c * (F.mus s).re) * v s with hκ
  have hH : Pm * (hubInter (fun i : Fin (rescaled F c e mus).nsites => (rescaled F c e mus).us i) + hubRest (rescaled F c e mus)) * Pmᴴ =
      (c : ℂ) • (Pm * (hubInter (fun i : Fin F.nsites => F.us i) + hubRest F) * Pmᴴ) + (κ : ℂ) • 1 := by
    have hfull : (hubInter (fun i : Fin (rescaled F c e mus).nsites => (rescaled F c e mus).us i) + hubRest (rescaled F c e mus) : Op (F.nsites * F.nspecies) 2) =
        (c : ℂ) • (hubInter (fun i : Fin F.nsites => F.us i) + hubRest F) +
          ∑ s : Fin F.nspecies, ((e s - mus s + c * (F.mus s).re : ℝ) : ℂ) • speciesNumber F.nsites s := by
      have e1 : (hubInter (fun i : Fin F.nsites => (c : ℂ) * F.us i) : Op (F.nsites * F.nspecies) 2) = (c : ℂ) • hubInter (fun i : Fin F.nsites => F.us i) := by
        unfold hubInter
        split_ifs
        · rw [Finset.smul_sum]
          exact Finset.sum_congr rfl fun i _ => (smul_smul _ _ _).symm
        · rw [smul_zero]
      have e2 : (hubSame (fun (i j : Fin F.nsites) (s : Fin F.nspecies) => (c : ℂ) * F.usSame i j s) : Op (F.nsites * F.nspecies) 2) =
          (c : ℂ) • hubSame (fun (i j : Fin F.nsites) (s : Fin F.nspecies) => F.usSame i j s) := by
        unfold hubSame
        simp only [Finset.smul_sum, smul_ite, smul_zero, smul_smul]
      have e3 : (hubHop (fun (i j : Fin F.nsites) (s : Fin F.nspecies) => (c : ℂ) * F.ts i j s * hopWeight F i j) : Op (F.nsites * F.nspecies) 2) =
          (c : ℂ) • hubHop (fun (i j : Fin F.nsites) (s : Fin F.nspecies) => F.ts i j s * hopWeight F i j) := by
        unfold hubHop
        simp only [Finset.smul_sum, smul_ite, smul_zero, smul_neg, smul_smul, mul_assoc]
      have e4 : (hubPot (fun (i : Fin F.nsites) (s : Fin F.nspecies) => (c : ℂ) * F.pots i s + (e s : ℂ) - (mus s : ℂ)) : Op (F.nsites * F.nspecies) 2) =
          (c : ℂ) • hubPot (fun (i : Fin F.nsites) (s : Fin F.nspecies) => F.pots i s - F.mus s) +
            ∑ s : Fin F.nspecies, ((e s - mus s + c * (F.mus s).re : ℝ) : ℂ) • speciesNumber F.nsites s := by
        have hm : ∀ s : Fin F.nspecies, ((F.mus s).re : ℂ) = F.mus s := fun s => Complex.conj_eq_iff_re.1 (hr.mus s)
        unfold hubPot speciesNumber
        simp only [Finset.smul_sum]
        rw [Finset.sum_comm (f := fun (s : Fin F.nspecies) (i : Fin F.nsites) =>
            ((e s - mus s + c * (F.mus s).re : ℝ) : ℂ) • (number (mode i s) : Op (F.nsites * F.nspecies) 2)), ← Finset.sum_add_distrib]
        refine Finset.sum_congr rfl fun i _ => ?_
        rw [← Finset.sum_add_distrib]
        refine Finset.sum_congr rfl fun s _ => ?_
        rw [smul_smul, ← add_smul]
        congr 1
        push_cast
        rw [hm]
        ring
      calc _ = hubInter (fun i : Fin F.nsites => (c : ℂ) * F.us i) +
            (hubSame (fun (i j : Fin F.nsites) (s : Fin F.nspecies) => (c : ℂ) * F.usSame i j s) +
              hubHop (fun (i j : Fin F.nsites) (s : Fin F.nspecies) => (c : ℂ) * F.ts i j s * hopWeight F i j) +
              hubPot (fun (i : Fin F.nsites) (s : Fin F.nspecies) => (c : ℂ) * F.pots i s + (e s : ℂ) - (mus s : ℂ))) := rfl
        _ = _ := by rw [e1, e2, e3, e4, hubRest]; module
    rw [hfull, Matrix.mul_add, Matrix.add_mul, Matrix.mul_smul, Matrix.smul_mul, hPm, select_conj, select_conj]
    congr 1
    ext r r'
    rw [submatrix_apply, Matrix.sum_apply, Matrix.smul_apply, one_apply, smul_eq_mul]
    by_cases h : r = r'
    · subst h
      rw [if_pos rfl, mul_one, hκ, Complex.ofReal_sum]
      refine Finset.sum_congr rfl fun s _ => ?_
      rw [Matrix.smul_apply, speciesNumber_diagonal, diagonal_apply_eq, smul_eq_mul, Complex.ofReal_mul]
      congr 1
      have := (hrange (sel r)).2 ⟨r, rfl⟩ s (v s) (hv s)
      rw [← this]
      simp
    · rw [if_neg h, mul_zero]
      refine Finset.sum_eq_zero fun s _ => ?_
      rw [Matrix.smul_apply, speciesNumber_diagonal, diagonal_apply_ne _ (hinj.ne h), smul_zero]
  have hw : (List.ofFn E).Pairwise (· ≤ ·) := List.pairwise_ofFn.2 fun i j hij => a6 hij.le
  have haff := affine_levels hc hH a3 a4 a5 a6 b3 b4 b5 b6
  have hlr := stats_affine hw hc haff
  have hlen' : (List.ofFn E).length = (List.ofFn E').length := by rw [haff]; split_ifs <;> simp
  obtain ⟨r, hr1⟩ : ∃ r : List ℝ, levelRatios (List.ofFn E) = r.map Num.fin := 
    ⟨(List.range ((List.ofFn E).length - 2)).map fun k =>
      spacingRatio ((List.ofFn E).getD k 0) ((List.ofFn E).getD (k + 1) 0) ((List.ofFn E).getD (k + 2) 0), by rw [levelRatios_eq hw, List.map_map]; rfl⟩
  refine ⟨P, A, _, M, A', _, M', hP, hP, hA, hA', a1, b1, hlen', hlr, fun h3 => ?_, ?_⟩
  · rw [hlr]
    split_ifs
    · rfl
    · have hne' : r ≠ [] := by
        rintro rfl
        have := congrArg List.length hr1
        rw [levelRatios_eq hw] at this
        simp at this h3
        omega
      rw [hr1, ← List.map_reverse, ratioMean_map hne', ratioMean_map (by simpa using hne'), List.sum_reverse, List.length_reverse]
  · rw [hlr]
    split_ifs
    · rfl
    · rw [hr1, ← List.map_reverse]
      exact ratioHist_perm (List.reverse_perm r)

/-! ## Examples -/

/-- The tilted chain of the script with four sites, three particles and other numbers. -/
noncomputable def tiltedChain (t u f : ℝ) : Fermions :=
  ⟨4, 1, fun i j _ => if i = j + 1 then t else 0, fun _ => 0, fun i j _ => if i = j + 1 then u else 0, fun _ => 0, fun i _ => f * i, fun i j => i - j, fun _ _ => 0⟩

example (S : EigSolvers) (hS : EigContract S) (t u f : ℝ) : ∃ P A w M A' w' M', (tiltedChain t u f).nProjector (some [some 3]) = .ok P ∧
    (tiltedChain t u f).createH (some P) = .ok A ∧ (rescaled (tiltedChain t u f) (-2) (fun _ => 5) fun _ => 1).createH (some P) = .ok A' ∧
    diagList S A = .ok (w, M) ∧ diagList S A' = .ok (w', M') ∧ levelRatios w' = (levelRatios w).reverse := by
  obtain ⟨P, A, w, M, A', w', M', h1, -, h2, h3, h4, h5, -, h6, -⟩ := C146_units S hS (tiltedChain t u f) (Or.inr fun _ => rfl)
    (by constructor <;> intros <;> simp only [tiltedChain] <;> (try split_ifs) <;> simp) (by simp [tiltedChain]) (ns := [some 3]) rfl
    (fun v hv => by obtain rfl : v = 3 := by simpa using hv
                    simp [tiltedChain]) (by simp [AllFixed]) (-2) (by norm_num) (fun _ => 5) fun _ => 1
  refine ⟨P, A, w, M, A', w', M', h1, h2, h3, h4, h5, ?_⟩
  rw [h6, if_neg (by norm_num)]

/-- Levels at 0, 1, 1, 1, 4: one spacing, two that vanish, and one more. -/
example : levelRatios [0, 1, 1, 1, 4] = [.fin 0, .fin 0, .fin 0] := by
  have hw : ([0, 1, 1, 1, 4] : List ℝ).Pairwise (· ≤ ·) := by norm_num
  rw [levelRatios_eq hw]
  simp [spacingRatio, List.range_succ]

/-- Levels at 0, 2, 3. -/
example : levelRatios [0, 2, 3] = [.fin (1 / 2)] := by
  have hw : ([0, 2, 3] : List ℝ).Pairwise (· ≤ ·) := by norm_num
  rw [levelRatios_eq hw]
  simp [spacingRatio, List.range_succ]
  norm_num

end ED.Props
