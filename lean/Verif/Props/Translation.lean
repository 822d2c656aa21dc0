import Verif.Lemmas.NearZn

/-! # C102: sectors of two commuting translations -/

namespace ED.Props

open ED Classical
open scoped BigOperators

/-! ## Lists -/

private theorem flatMap_range {α : Type} (g : ℕ → ℕ → α) (n m : ℕ) :
    (List.range n).flatMap (fun k => (List.range m).map (g k)) =
      (List.range (n * m)).map fun i => g (i / m) (i % m) := by
  induction n with
  | zero => simp
  | succ n ih =>
    rw [List.range_succ, List.flatMap_append, ih, Nat.succ_mul, List.range_add, List.map_append, List.map_map]
    congr 1
    simp only [List.flatMap_cons, List.flatMap_nil, List.append_nil]
    refine List.map_congr_left fun i hi => ?_
    have hi := List.mem_range.1 hi
    simp only [Function.comp]
    rw [Nat.mul_comm n m, Nat.mul_add_div (by omega), Nat.mul_add_mod, Nat.div_eq_of_lt hi, Nat.mod_eq_of_lt hi,
      Nat.add_zero]

private theorem zipIdx_range {α : Type} (F : ℕ → α) (N : ℕ) :
    ((List.range N).map F).zipIdx = (List.range N).map fun m => (F m, m) := by
  refine List.ext_getElem (by simp) fun i h1 h2 => ?_
  simp

private theorem takeIndices_ok (f : ℕ → ℝ) (N : ℕ) (idx : List ℕ) (h : ∀ i ∈ idx, i < N) :
    takeIndices ((List.range N).map f) idx = .ok (idx.map f) := by
  unfold takeIndices
  induction idx with
  | nil => rfl
  | cons i idx ih =>
    rw [List.mapM_cons, ih fun j hj => h j (List.mem_cons_of_mem _ hj)]
    have hi := h i List.mem_cons_self
    simp [hi, bind, Except.bind, pure, Except.pure]

private theorem fold_ok {d : ℕ} {T : Matrix (Fin d) (Fin d) ℂ} {n : ℕ} {ks : List ℝ}
    (S : (P : Rows d) → List (Rows P.length)) (l : List (Rows d × ℝ))
    (h : ∀ pk ∈ l, getZnProjectors (restrictOp pk.1 T) n = .ok (S pk.1, ks) ∧ ((S pk.1).map List.length).sum = pk.1.length)
    (acc : List (Rows d) × List ℝ) :
    l.foldlM (translationStep T n) acc =
      .ok (acc.1 ++ l.flatMap (fun pk => (S pk.1).map (mulRows pk.1)), if l = [] then acc.2 else ks) := by
  induction l generalizing acc with
  | nil => simp [pure, Except.pure]
  | cons pk l ih =>
    obtain ⟨h1, h2⟩ := h pk List.mem_cons_self
    rw [List.foldlM_cons]
    have hstep : translationStep T n acc pk = .ok (acc.1 ++ (S pk.1).map (mulRows pk.1), ks) := by
      unfold translationStep
      rw [h1]
      simp only [bind, Except.bind]
      rw [if_neg (by simpa using h2)]
      rfl
    rw [hstep]
    simp only [bind, Except.bind]
    rw [ih fun q hq => h q (List.mem_cons_of_mem _ hq)]
    simp

/-! ## The result -/

/-- The projectors of the second translation in a sector. -/
private noncomputable def subs {d : ℕ} (T : Matrix (Fin d) (Fin d) ℂ) (n : ℕ) (P : Rows d) : List (Rows P.length) :=
  match getZnProjectors (restrictOp P T) n with
  | .ok x => x.1
  | .error _ => []

private theorem table_bound : (1 + (1 : ℝ) / 10 ^ 14) * (1 + 7 * (1 / 10 ^ 14)) ^ 37 - 1 ≤ 27 / 10 ^ 13 := by
  norm_num

/-- A sector of the result: numbers `q` and `p` of the momenta and the rows of the projector. -/
structure Sector (d : ℕ) where
  q : ℕ
  p : ℕ
  rows : Rows d

private theorem sector_total {d : ℕ} {U : Matrix (Fin d) (Fin d) ℂ} {σ : Equiv.Perm (Fin d)} {u : Fin d → ℂ} {n : ℕ}
    {A : ℕ → Matrix (Fin d) (Fin d) ℂ} {δ : ℝ} (h : ZnData U σ u n A δ) :
    ∑ k ∈ Finset.range n, (h.sector k).length = d := by
  have := h.good.total
  rw [h.projs_sector, List.map_map, list_range_sum] at this
  exact this

/-- Everything that is known about the sectors of two commuting translations. -/
theorem translation_sectors {d : ℕ} (hd : 0 < d) {T1 T2 : Matrix (Fin d) (Fin d) ℂ} (h1 : PhasePermutation T1)
    (h2 : PhasePermutation T2) (hcomm : T1 * T2 = T2 * T1) {n1 n2 : ℕ} (hn1 : 0 < n1) (hn1' : n1 < 10 ^ 4)
    (hn2 : 0 < n2) (hn2' : n2 < 38) (hp1 : T1 ^ n1 = 1) (hp2 : T2 ^ n2 = 1) :
    ∃ sectors : List (Sector d),
      get2DTranslationProjectors T1 n1 T2 n2 = .ok (sectors.map Sector.rows,
        sectors.map (fun s => 2 * Real.pi * (s.q : ℝ) / (n1 : ℝ)), sectors.map fun s => 2 * Real.pi * (s.p : ℝ) / (n2 : ℝ)) ∧
      (∀ s ∈ sectors, s.q < n1 ∧ s.p < n2 ∧ s.rows ≠ []) ∧
      (sectors.map fun s => (s.q, s.p)).Nodup ∧
      (sectors.map fun s => s.rows.length).sum = d ∧
      (∀ s ∈ sectors, ∀ (a b : ℕ) (ha : a < s.rows.length) (hb : b < s.rows.length),
        rowInner s.rows[a] s.rows[b] = if a = b then 1 else 0) ∧
      (∀ s ∈ sectors, ∀ t ∈ sectors, (s.q, s.p) ≠ (t.q, t.p) → ∀ x ∈ s.rows, ∀ y ∈ t.rows,
        ‖rowInner x y‖ ≤ 1 / 10 ^ 10) ∧
      (∀ s ∈ sectors, ∀ x ∈ s.rows, ∀ j,
        ‖(∑ i, x i * T1 i j) - Complex.exp (-Complex.I * (2 * Real.pi * s.q / n1)) * x j‖ ≤ 1 / 10 ^ 10 ∧
        ‖(∑ i, x i * T2 i j) - Complex.exp (-Complex.I * (2 * Real.pi * s.p / n2)) * x j‖ ≤ 1 / 10 ^ 10) ∧
      (∀ i j : Fin d, ‖(sectors.map fun s => (s.rows.map fun x => (starRingEnd ℂ) (x i) * x j).sum).sum -
        if i = j then 1 else 0‖ ≤ 1 / 10 ^ 10) ∧
      ∀ s ∈ sectors, NearEigen s.rows [(T1, omega n1 s.q), (T2, omega n2 s.p)] (9 / 10 ^ 12) := by
  obtain ⟨σ, u, hu, hent⟩ := h1
  obtain ⟨ρ, v, hv, hent2⟩ := h2
  set δ : ℝ := 1 / 10 ^ 14 with hδ
  set δ' : ℝ := 27 / 10 ^ 13 with hδ'
  have h := znData_of (U := T1) ⟨hu, hent⟩ hn1.ne' hn1' hp1 (δ := δ) (by positivity) le_rfl (fun k _ l _ => table_near n1 k l)
  have s : Second T1 T2 ρ v := ⟨⟨hv, hent2⟩, hcomm⟩
  set ks1 : List ℝ := (List.range n1).map fun k : ℕ => 2 * Real.pi * (k : ℝ) / (n1 : ℝ) with hks1
  set ks2 : List ℝ := (List.range n2).map fun k : ℕ => 2 * Real.pi * (k : ℝ) / (n2 : ℝ) with hks2
  have hbound : (1 + δ) * (1 + 7 * δ) ^ n2 - 1 ≤ δ' := by
    refine le_trans ?_ table_bound
    have : (1 + 7 * δ) ^ n2 ≤ (1 + 7 * δ) ^ 37 := pow_le_pow_right₀ (by rw [hδ]; norm_num) (by omega)
    have := mul_le_mul_of_nonneg_left this (show (0 : ℝ) ≤ 1 + δ by rw [hδ]; norm_num)
    rw [hδ] at this ⊢
    linarith
  have hsmall : (n2 : ℝ) * δ' < (10 : ℝ) ^ (-10 : ℤ) := by
    have : (n2 : ℝ) ≤ 37 := by exact_mod_cast (by omega : n2 ≤ 37)
    calc (n2 : ℝ) * δ' ≤ 37 * δ' := mul_le_mul_of_nonneg_right this (by positivity)
      _ < _ := by rw [hδ']; norm_num
  -- the sectors of the first translation
  have hsub : ∀ k < n1, ∃ (τ : Equiv.Perm (Fin (h.sector k).length)) (_ : ∀ a, σ.SameCycle (ρ (h.sectorRep k a)) (h.sectorRep k (τ a))),
      getZnProjectors (restrictOp (h.sector k) T2) n2 = .ok (subs T2 n2 (h.sector k), ks2) ∧
      ZnGood (Reps.moveMat h k ρ v (h.sectorRep k) τ) n2 (7 * δ') (subs T2 n2 (h.sector k)) ∧
      ∀ p < n2, ∀ S, (subs T2 n2 (h.sector k))[p]? = some S →
        NearEigen (mulRows (h.sector k) S) [(T1, omega n1 k), (T2, omega n2 p)] (9 / 10 ^ 12) := by
    intro k hk
    obtain ⟨τ, hτ⟩ := (h.reps hk).exists_move s
    have hd := h.sub_data s hn2.ne' hp2 (ε := δ) (δ' := δ') (by positivity) (fun k _ l _ => table_near n2 k l) hbound hsmall hk hτ
    have hok := zn_ok hd (by omega)
    have hS : subs T2 n2 (h.sector k) = hd.projs := by
      unfold subs
      rw [hok]
    refine ⟨τ, hτ, by rw [hS]; exact hok, by rw [hS]; exact hd.good, fun p hp S hS' => ?_⟩
    rw [hS, hd.sector_get? hp] at hS'
    rw [← Option.some.inj hS']
    exact (h.near_eigen_mul hk s hτ hd hp).mono (by rw [hδ, hδ']; norm_num)
  have hlen : ∀ k < n1, (subs T2 n2 (h.sector k)).length = n2 := fun k hk => by
    obtain ⟨τ, hτ, -, hg, -⟩ := hsub k hk
    exact hg.length
  have hunit : ∀ k < n1, ∀ S ∈ subs T2 n2 (h.sector k), ∀ t ∈ S, rowInner t t = 1 := by
    intro k hk S hS t ht
    obtain ⟨τ, hτ, -, hg, -⟩ := hsub k hk
    obtain ⟨a, ha, rfl⟩ := List.mem_iff_getElem.1 ht
    rw [hg.orthonormal S hS a a ha ha, if_pos rfl]
  -- the rows of a pair of momenta
  set G : ℕ → ℕ → Rows d := fun q p => mulRows (h.sector q) ((subs T2 n2 (h.sector q)).getD p []) with hG
  have hGet : ∀ q < n1, ∀ p < n2, ∃ S, (subs T2 n2 (h.sector q))[p]? = some S ∧ G q p = mulRows (h.sector q) S := by
    intro q hq p hp
    have hp' : p < (subs T2 n2 (h.sector q)).length := by rw [hlen q hq]; exact hp
    refine ⟨_, List.getElem?_eq_getElem hp', ?_⟩
    rw [hG]
    dsimp only
    rw [List.getD_eq_getElem?_getD, List.getElem?_eq_getElem hp', Option.getD_some]
  have hrow : ∀ q < n1, ∀ p < n2, ∃ S, (subs T2 n2 (h.sector q))[p]? = some S ∧ (G q p).length = S.length ∧
      ∀ x ∈ G q p, ∃ t ∈ S, x = fun j => ∑ a, t a * (h.sector q)[a] j := by
    intro q hq p hp
    obtain ⟨S, h1, h2⟩ := hGet q hq p hp
    refine ⟨S, h1, by rw [h2]; unfold mulRows; rw [List.length_map], fun x hx => ?_⟩
    rw [h2] at hx
    unfold mulRows at hx
    obtain ⟨t, ht, rfl⟩ := List.mem_map.1 hx
    exact ⟨t, ht, rfl⟩
  set N := n1 * n2 with hN
  have hdiv : ∀ m < N, m / n2 < n1 ∧ m % n2 < n2 := fun m hm =>
    ⟨Nat.div_lt_of_lt_mul (by rw [mul_comm]; exact hm), Nat.mod_lt _ hn2⟩
  set F : ℕ → Rows d := fun m => G (m / n2) (m % n2) with hF
  have hFunit : ∀ m < N, ∀ x ∈ F m, rowInner x x = 1 := by
    intro m hm x hx
    obtain ⟨hq, hp⟩ := hdiv m hm
    obtain ⟨S, h1, -, h3⟩ := hrow _ hq _ hp
    obtain ⟨t, ht, rfl⟩ := h3 x hx
    rw [h.comb_inner hq]
    exact hunit _ hq S (List.mem_iff_getElem?.2 ⟨_, h1⟩) t ht
  have hEntry : ∀ m < N, (hasEntry (F m) ↔ F m ≠ []) := by
    intro m hm
    constructor
    · rintro ⟨r, hr, -⟩ h0
      rw [h0] at hr
      simp at hr
    · intro hne
      obtain ⟨x, hx⟩ := List.exists_mem_of_ne_nil _ hne
      refine ⟨x, hx, ?_⟩
      by_contra hz
      push Not at hz
      have := hFunit m hm x hx
      unfold rowInner at this
      rw [Finset.sum_eq_zero fun j _ => by rw [hz j, zero_mul]] at this
      exact zero_ne_one this
  set idx := (List.range N).filter fun m => decide (hasEntry (F m)) with hidx
  have hidxm : ∀ m ∈ idx, m < N ∧ F m ≠ [] := by
    intro m hm
    obtain ⟨h1, h2⟩ := List.mem_filter.1 hm
    have h1 := List.mem_range.1 h1
    exact ⟨h1, (hEntry m h1).1 (by simpa using h2)⟩
  -- sums over the sectors that are kept
  have hsumkeep : ∀ {M : Type} [AddCommMonoid M] (f : Rows d → M), f [] = 0 →
      (idx.map fun m => f (F m)).sum = ∑ q ∈ Finset.range n1, ∑ p ∈ Finset.range n2, f (G q p) := by
    intro M _ f f0
    have e1 : (idx.map fun m => f (F m)).sum = ((List.range N).map fun m => f (F m)).sum := by
      have : ∀ l : List ℕ, (∀ m ∈ l, m < N) → ((l.filter fun m => decide (hasEntry (F m))).map fun m => f (F m)).sum =
          (l.map fun m => f (F m)).sum := by
        intro l hl
        induction l with
        | nil => rfl
        | cons m l ih =>
          have ih := ih fun x hx => hl x (List.mem_cons_of_mem _ hx)
          by_cases hm : hasEntry (F m)
          · rw [List.filter_cons_of_pos (by simpa using hm), List.map_cons, List.map_cons, List.sum_cons, List.sum_cons, ih]
          · rw [List.filter_cons_of_neg (by simpa using hm), List.map_cons, List.sum_cons, ih]
            have : F m = [] := by
              by_contra hne
              exact hm ((hEntry m (hl m List.mem_cons_self)).2 hne)
            rw [this, f0, zero_add]
      exact this _ fun m hm => List.mem_range.1 hm
    rw [e1, hF]
    dsimp only
    rw [hN, ← flatMap_range (fun q p => f (G q p)), List.flatMap_def, List.sum_flatten, List.map_map, list_range_sum]
    refine Finset.sum_congr rfl fun q _ => ?_
    simp only [Function.comp]
    rw [list_range_sum]
  have hGlist : ∀ q < n1, (List.range n2).map (G q) = (subs T2 n2 (h.sector q)).map (mulRows (h.sector q)) := by
    intro q hq
    refine List.ext_getElem (by simp [hlen q hq]) fun p h1 h2 => ?_
    have hp : p < n2 := by simpa using h1
    obtain ⟨S, e1, e2⟩ := hGet q hq p hp
    have hp' : p < (subs T2 n2 (h.sector q)).length := by rw [hlen q hq]; exact hp
    rw [List.getElem?_eq_getElem hp'] at e1
    simp only [List.getElem_map, List.getElem_range]
    rw [e2, Option.some.inj e1]
  have htotal : (idx.map fun m => (F m).length).sum = d := by
    rw [hsumkeep List.length rfl]
    refine Eq.trans ?_ (sector_total h)
    refine Finset.sum_congr rfl fun q hq => ?_
    have hq := Finset.mem_range.1 hq
    obtain ⟨τ, hτ, -, hg, -⟩ := hsub q hq
    rw [← hg.total, ← list_range_sum]
    have : (List.range n2).map (fun p => (G q p).length) = ((List.range n2).map (G q)).map List.length := by
      rw [List.map_map]
      rfl
    rw [this, hGlist q hq, List.map_map]
    congr 1
    refine List.map_congr_left fun S _ => ?_
    simp [mulRows]
  have hresult : get2DTranslationProjectors T1 n1 T2 n2 = .ok (idx.map F,
      idx.map (fun m => 2 * Real.pi * ((m / n2 : ℕ) : ℝ) / (n1 : ℝ)),
      idx.map fun m => 2 * Real.pi * ((m % n2 : ℕ) : ℝ) / (n2 : ℝ)) := by
    unfold get2DTranslationProjectors
    rw [zn_ok h hn1']
    simp only [bind, Except.bind]
    have hproj : ∀ pk ∈ h.projs.zip ks1, getZnProjectors (restrictOp pk.1 T2) n2 = .ok (subs T2 n2 pk.1, ks2) ∧
        ((subs T2 n2 pk.1).map List.length).sum = pk.1.length := by
      intro pk hpk
      have hm := (List.of_mem_zip (show (pk.1, pk.2) ∈ _ from hpk)).1
      rw [h.projs_sector] at hm
      obtain ⟨k, hk, he⟩ := List.mem_map.1 hm
      have hk := List.mem_range.1 hk
      obtain ⟨τ, hτ, hok, hg, -⟩ := hsub k hk
      rw [← he]
      exact ⟨hok, hg.total⟩
    rw [fold_ok (subs T2 n2) _ hproj]
    have hzl : (h.projs.zip ks1).map Prod.fst = h.projs := by
      rw [List.map_fst_zip]
      rw [h.good.length, hks1]
      simp
    have hne : h.projs.zip ks1 ≠ [] := by
      intro h0
      rw [h0] at hzl
      have := h.good.length
      rw [← hzl] at this
      simp at this
      omega
    dsimp only
    rw [if_neg hne, List.nil_append]
    have hall : (h.projs.zip ks1).flatMap (fun pk => (subs T2 n2 pk.1).map (mulRows pk.1)) = (List.range N).map F := by
      have : (h.projs.zip ks1).flatMap (fun pk => (subs T2 n2 pk.1).map (mulRows pk.1)) =
          h.projs.flatMap fun P => (subs T2 n2 P).map (mulRows P) := by
        conv_rhs => rw [← hzl, List.flatMap_map]
      rw [this, h.projs_sector, List.flatMap_map, hF, hN, ← flatMap_range]
      exact List.flatMap_congr fun q hq => (hGlist q (List.mem_range.1 hq)).symm
    have hk1 : ks1.flatMap (fun k => List.replicate n2 k) =
        (List.range N).map fun m => 2 * Real.pi * ((m / n2 : ℕ) : ℝ) / (n1 : ℝ) := by
      rw [hN, ← flatMap_range (fun q _ => 2 * Real.pi * ((q : ℕ) : ℝ) / (n1 : ℝ)), hks1, List.flatMap_map]
      refine List.flatMap_congr fun q _ => ?_
      rw [List.map_const', List.length_range]
    have hk2 : (List.replicate n1 ks2).flatten = (List.range N).map fun m => 2 * Real.pi * ((m % n2 : ℕ) : ℝ) / (n2 : ℝ) := by
      rw [hN, ← flatMap_range (fun _ p => 2 * Real.pi * ((p : ℕ) : ℝ) / (n2 : ℝ)), List.flatMap_def, List.map_const',
        List.length_range]
    rw [hall, hk1, hk2, zipIdx_range, List.filter_map]
    have hcomp : ((fun pi : Rows d × ℕ => decide (hasEntry pi.1)) ∘ fun m => (F m, m)) = fun m => decide (hasEntry (F m)) := rfl
    rw [hcomp, ← hidx, List.map_map, List.map_map]
    have hsnd : idx.map (Prod.snd ∘ fun m => (F m, m)) = idx := by
      rw [show (Prod.snd ∘ fun m => (F m, m)) = id from rfl, List.map_id]
    have hfst : idx.map (Prod.fst ∘ fun m => (F m, m)) = idx.map F := rfl
    have hidxne : idx.map (fun m => (F m, m)) ≠ [] := by
      intro h0
      have : idx = [] := List.map_eq_nil_iff.1 h0
      rw [this] at htotal
      simp at htotal
      omega
    rw [if_neg hidxne, hsnd, hfst, takeIndices_ok _ N idx fun i hi => (hidxm i hi).1,
      takeIndices_ok _ N idx fun i hi => (hidxm i hi).1]
    rfl
  have hsec : ∀ s ∈ idx.map (fun m => (⟨m / n2, m % n2, F m⟩ : Sector d)), s.q < n1 ∧ s.p < n2 ∧ s.rows ≠ [] ∧ s.rows = G s.q s.p := by
    intro s hs
    obtain ⟨m, hm, rfl⟩ := List.mem_map.1 hs
    obtain ⟨hm1, hm2⟩ := hidxm m hm
    obtain ⟨hq, hp⟩ := hdiv m hm1
    exact ⟨hq, hp, hm2, rfl⟩
  have hεδ : 7 * δ + 7 * δ' * (1 + 7 * δ) ≤ 1 / 10 ^ 10 := by rw [hδ, hδ']; norm_num
  have hε1 : 7 * δ ≤ 1 / 10 ^ 10 := by rw [hδ]; norm_num
  have hε2 : 6 * δ + 7 * δ' ≤ 1 / 10 ^ 10 := by rw [hδ, hδ']; norm_num
  have hε3 : 7 * δ' ≤ 1 / 10 ^ 10 := by rw [hδ']; norm_num
  refine ⟨idx.map fun m => ⟨m / n2, m % n2, F m⟩, ?_, fun s hs => ?_, ?_, ?_, fun s hs a b ha hb => ?_,
    fun s hs t ht hne x hx y hy => ?_, fun se hs x hx j => ?_, fun i j => ?_, fun se hs => ?_⟩
  · rw [hresult, List.map_map, List.map_map, List.map_map]
    rfl
  · obtain ⟨h1, h2, h3, -⟩ := hsec s hs
    exact ⟨h1, h2, h3⟩
  · rw [List.map_map]
    refine List.Nodup.map_on ?_ (List.nodup_range.filter _)
    intro m _ m' _ e
    simp only [Function.comp, Prod.mk.injEq] at e
    rw [← Nat.div_add_mod m n2, ← Nat.div_add_mod m' n2, e.1, e.2]
  · rw [List.map_map]
    exact htotal
  · obtain ⟨hq, hp, -, e⟩ := hsec s hs
    obtain ⟨S, h1, h2⟩ := hGet _ hq _ hp
    obtain ⟨τ, hτ, -, hg, -⟩ := hsub _ hq
    have e' : s.rows = S.map fun t j => ∑ a, t a * (h.sector s.q)[a] j := e.trans h2
    have hS : S ∈ subs T2 n2 (h.sector s.q) := List.mem_iff_getElem?.2 ⟨_, h1⟩
    have ha' : a < S.length := by rw [e'] at ha; simpa using ha
    have hb' : b < S.length := by rw [e'] at hb; simpa using hb
    have ga : s.rows[a] = fun j => ∑ c, S[a] c * (h.sector s.q)[c] j := by
      simp only [e', List.getElem_map]
    have gb : s.rows[b] = fun j => ∑ c, S[b] c * (h.sector s.q)[c] j := by
      simp only [e', List.getElem_map]
    rw [ga, gb, h.comb_inner hq]
    exact hg.orthonormal S hS a b ha' hb'
  · obtain ⟨hq, hp, -, e⟩ := hsec s hs
    obtain ⟨hq', hp', -, e'⟩ := hsec t ht
    rw [e] at hx
    rw [e'] at hy
    obtain ⟨S, h1, -, h3⟩ := hrow _ hq _ hp
    obtain ⟨S', h1', -, h3'⟩ := hrow _ hq' _ hp'
    obtain ⟨z, hz, rfl⟩ := h3 x hx
    obtain ⟨z', hz', rfl⟩ := h3' y hy
    have hS : S ∈ subs T2 n2 (h.sector s.q) := List.mem_iff_getElem?.2 ⟨_, h1⟩
    have hS' : S' ∈ subs T2 n2 (h.sector t.q) := List.mem_iff_getElem?.2 ⟨_, h1'⟩
    by_cases hqq : s.q = t.q
    · obtain ⟨q, p, rs⟩ := s
      obtain ⟨q', p', rt⟩ := t
      dsimp only at hqq
      subst hqq
      dsimp only at *
      obtain ⟨τ, hτ, -, hg, -⟩ := hsub _ hq
      rw [h.comb_inner hq]
      exact (hg.across p p' S S' h1 h1' (fun hpp => hne (by rw [hpp])) z hz z' hz').trans hε3
    · exact (h.comb_across hq hq' hqq (hunit _ hq S hS z hz) (hunit _ hq' S' hS' z' hz')).trans hε1
  · obtain ⟨hq, hp, -, e⟩ := hsec se hs
    rw [e] at hx
    obtain ⟨S, h1, -, h3⟩ := hrow _ hq _ hp
    obtain ⟨z, hz, rfl⟩ := h3 x hx
    have hS : S ∈ subs T2 n2 (h.sector se.q) := List.mem_iff_getElem?.2 ⟨_, h1⟩
    have hz1 := unit_le (hunit _ hq S hS z hz)
    obtain ⟨τ, hτ, -, hg, -⟩ := hsub _ hq
    refine ⟨(h.comb_eigen hq hz1 j).trans hε1, ?_⟩
    exact (h.comb_second s hq hτ hz1 (by positivity) (hg.eigen _ S h1 z hz) j).trans hε2
  · rw [List.map_map]
    have e := hsumkeep (fun P : Rows d => (P.map fun x => (starRingEnd ℂ) (x i) * x j).sum) rfl
    have e2 : ∀ q ∈ Finset.range n1, ∑ p ∈ Finset.range n2, ((G q p).map fun x => (starRingEnd ℂ) (x i) * x j).sum =
        ((subs T2 n2 (h.sector q)).map fun S => (S.map fun t => (starRingEnd ℂ) (∑ a, t a * (h.sector q)[a] i) *
          ∑ a, t a * (h.sector q)[a] j).sum).sum := by
      intro q hq
      rw [← list_range_sum]
      have : (List.range n2).map (fun p => ((G q p).map fun x => (starRingEnd ℂ) (x i) * x j).sum) =
          ((List.range n2).map (G q)).map fun P : Rows d => (P.map fun x => (starRingEnd ℂ) (x i) * x j).sum := by
        rw [List.map_map]
        rfl
      rw [this, hGlist q (Finset.mem_range.1 hq), List.map_map]
      congr 1
      refine List.map_congr_left fun S _ => ?_
      simp only [Function.comp, mulRows, List.map_map]
      rfl
    have e3 : (idx.map ((fun s : Sector d => (s.rows.map fun x => (starRingEnd ℂ) (x i) * x j).sum) ∘
        fun m => (⟨m / n2, m % n2, F m⟩ : Sector d))).sum =
        (idx.map fun m => ((F m).map fun x => (starRingEnd ℂ) (x i) * x j).sum).sum := rfl
    rw [e3, e, Finset.sum_congr rfl e2]
    refine le_trans ?_ hεδ
    exact h.comb_resolution (fun q => subs T2 n2 (h.sector q)) (by positivity) (fun q hq a b => by
      obtain ⟨τ, hτ, -, hg, -⟩ := hsub q hq
      exact hg.resolution a b) i j
  · obtain ⟨hq, hp, -, e⟩ := hsec se hs
    obtain ⟨S, h1, h2⟩ := hGet _ hq _ hp
    obtain ⟨τ, hτ, -, -, hn⟩ := hsub _ hq
    rw [e, h2]
    exact hn _ hp S h1

/-- C102: for two commuting translations that permute basis states with phases, with `T1 ^ n1 = 1` and
`T2 ^ n2 = 1`, `get2DTranslationProjectors` returns a list of projectors and the two momenta of each. All
pairs of momenta are different, no projector is empty, the dimensions add up to the dimension of the space,
the rows of a projector are orthonormal, rows of different projectors are orthogonal, every row is an
eigenvector of both translations with the momenta returned for its projector, and the projectors resolve the
identity. Relations in which the rounding of the characters to 14 decimals shows hold up to `10^-10`.
Missing: `n1 ≥ 10^4` and `n2 ≥ 38`, where entries that should vanish are not known to be smaller than the
threshold of the library. -/
theorem C102_translations_partial {d : ℕ} (hd : 0 < d) {T1 T2 : Matrix (Fin d) (Fin d) ℂ} (h1 : PhasePermutation T1)
    (h2 : PhasePermutation T2) (hcomm : T1 * T2 = T2 * T1) {n1 n2 : ℕ} (hn1 : 0 < n1) (hn1' : n1 < 10 ^ 4)
    (hn2 : 0 < n2) (hn2' : n2 < 38) (hp1 : T1 ^ n1 = 1) (hp2 : T2 ^ n2 = 1) :
    ∃ sectors : List (Sector d),
      get2DTranslationProjectors T1 n1 T2 n2 = .ok (sectors.map Sector.rows,
        sectors.map (fun s => 2 * Real.pi * (s.q : ℝ) / (n1 : ℝ)), sectors.map fun s => 2 * Real.pi * (s.p : ℝ) / (n2 : ℝ)) ∧
      (∀ s ∈ sectors, s.q < n1 ∧ s.p < n2 ∧ s.rows ≠ []) ∧
      (sectors.map fun s => (s.q, s.p)).Nodup ∧
      (sectors.map fun s => s.rows.length).sum = d ∧
      (∀ s ∈ sectors, ∀ (a b : ℕ) (ha : a < s.rows.length) (hb : b < s.rows.length),
        rowInner s.rows[a] s.rows[b] = if a = b then 1 else 0) ∧
      (∀ s ∈ sectors, ∀ t ∈ sectors, (s.q, s.p) ≠ (t.q, t.p) → ∀ x ∈ s.rows, ∀ y ∈ t.rows,
        ‖rowInner x y‖ ≤ 1 / 10 ^ 10) ∧
      (∀ s ∈ sectors, ∀ x ∈ s.rows, ∀ j,
        ‖(∑ i, x i * T1 i j) - Complex.exp (-Complex.I * (2 * Real.pi * s.q / n1)) * x j‖ ≤ 1 / 10 ^ 10 ∧
        ‖(∑ i, x i * T2 i j) - Complex.exp (-Complex.I * (2 * Real.pi * s.p / n2)) * x j‖ ≤ 1 / 10 ^ 10) ∧
      ∀ i j : Fin d, ‖(sectors.map fun s => (s.rows.map fun x => (starRingEnd ℂ) (x i) * x j).sum).sum -
        if i = j then 1 else 0‖ ≤ 1 / 10 ^ 10 := by
  obtain ⟨sectors, h1, h2, h3, h4, h5, h6, h7, h8, -⟩ := translation_sectors hd h1 h2 hcomm hn1 hn1' hn2 hn2' hp1 hp2
  exact ⟨sectors, h1, h2, h3, h4, h5, h6, h7, h8⟩

/-- The hypotheses are met by the translations of a torus of two by two sites, one of them with a sign. -/
example : ∃ sectors : List (Sector 4), get2DTranslationProjectors
      (Matrix.of ![![0, 1, 0, 0], ![1, 0, 0, 0], ![0, 0, 0, 1], ![0, 0, 1, 0]] : Matrix (Fin 4) (Fin 4) ℂ) 2
      (Matrix.of ![![0, 0, -1, 0], ![0, 0, 0, -1], ![-1, 0, 0, 0], ![0, -1, 0, 0]]) 2 =
        .ok (sectors.map Sector.rows, sectors.map (fun s => 2 * Real.pi * (s.q : ℝ) / (2 : ℕ)),
          sectors.map fun s => 2 * Real.pi * (s.p : ℝ) / (2 : ℕ)) ∧
    (sectors.map fun s => s.rows.length).sum = 4 := by
  obtain ⟨sectors, h1, -, -, h2, -⟩ := C102_translations_partial (d := 4) (by norm_num)
    (T1 := (Matrix.of ![![0, 1, 0, 0], ![1, 0, 0, 0], ![0, 0, 0, 1], ![0, 0, 1, 0]] : Matrix (Fin 4) (Fin 4) ℂ))
    (T2 := (Matrix.of ![![0, 0, -1, 0], ![0, 0, 0, -1], ![-1, 0, 0, 0], ![0, -1, 0, 0]] : Matrix (Fin 4) (Fin 4) ℂ))
    ⟨Equiv.swap 0 1 * Equiv.swap 2 3, fun _ => 1, by simp, by
      intro i j
      fin_cases i <;> fin_cases j <;> simp [Equiv.swap_apply_def]⟩
    ⟨Equiv.swap 0 2 * Equiv.swap 1 3, fun _ => -1, by simp, by
      intro i j
      fin_cases i <;> fin_cases j <;> simp [Equiv.swap_apply_def]⟩
    (by
      ext i j
      fin_cases i <;> fin_cases j <;> simp [Matrix.mul_apply, Fin.sum_univ_four])
    (n1 := 2) (n2 := 2) (by norm_num) (by norm_num) (by norm_num) (by norm_num)
    (by
      rw [pow_two]
      ext i j
      fin_cases i <;> fin_cases j <;> simp [Matrix.mul_apply, Fin.sum_univ_four, Matrix.one_apply])
    (by
      rw [pow_two]
      ext i j
      fin_cases i <;> fin_cases j <;> simp [Matrix.mul_apply, Fin.sum_univ_four, Matrix.one_apply])
  exact ⟨sectors, h1, h2⟩

end ED.Props
