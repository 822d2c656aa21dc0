import Verif.Props.Translation
import Verif.Props.Correlators
import Verif.Lemmas.SelectNear

/-! # Sectors of a label of the basis states and two momenta -/

namespace ED.Props

open Matrix Spec

variable {d : ℕ}

theorem phase_unitary {U : Matrix (Fin d) (Fin d) ℂ} (h : PhasePermutation U) : U * Uᴴ = 1 := by
  obtain ⟨σ, u, hu, he⟩ := h
  exact Mono.unitary' ⟨hu, he⟩

theorem selects_is {P : Mat} {p : Fin d → Prop} (h : P.Selects d p) :
    ∃ sel : Fin P.rows → Fin d, Function.Injective sel ∧ (∀ j, p j ↔ ∃ a, sel a = j) ∧ P.Is (selMat sel) := by
  obtain ⟨hc, sel, hmono, hrange, he⟩ := h
  refine ⟨sel, hmono.injective, fun j => ?_, by simp, by simpa using hc, fun a j => he a j⟩
  have := Set.ext_iff.1 hrange j
  exact this.symm

theorem zip_map {α β γ : Type} (l : List α) (f : α → β) (g : α → γ) : (l.map f).zip (l.map g) = l.map fun x => (f x, g x) := by
  induction l with
  | nil => rfl
  | cons a l ih => simp [ih]

/-- Two commuting translations. -/
structure Translations (T1 T2 H : Matrix (Fin d) (Fin d) ℂ) (n1 n2 : ℕ) : Prop where
  first : PhasePermutation T1
  second : PhasePermutation T2
  comm : T1 * T2 = T2 * T1
  pos1 : 0 < n1
  small1 : n1 < 10 ^ 4
  pos2 : 0 < n2
  small2 : n2 < 38
  pow1 : T1 ^ n1 = 1
  pow2 : T2 ^ n2 = 1
  comm1 : T1 * H = H * T1
  comm2 : T2 * H = H * T2

variable {T1 T2 H : Matrix (Fin d) (Fin d) ℂ} {n1 n2 : ℕ} {α : Type} {lab : Fin d → α} {M1 M2 : Mat}

/-- The sectors of `momentumStep` in the states with one label. -/
theorem momentum_step (h : Translations T1 T2 H n1 n2) (m1 : M1.Is T1) (m2 : M2.Is T2)
    (l1 : ∀ i j, lab i ≠ lab j → T1 i j = 0) (l2 : ∀ i j, lab i ≠ lab j → T2 i j = 0) (s : α × Mat)
    (hP : s.2.Selects d fun j => lab j = s.1) (hne : ∃ j, lab j = s.1) :
    ∃ secs : List (Sector d × Mat),
      momentumStep M1 M2 n1 n2 s = .ok (secs.map fun x =>
        (s.1, (2 * Real.pi * (x.1.q : ℝ) / (n1 : ℝ), 2 * Real.pi * (x.1.p : ℝ) / (n2 : ℝ)), x.2)) ∧
      (secs.map fun x => (x.1.q, x.1.p)).Nodup ∧ (secs.map fun x => x.1.rows.length).sum = s.2.rows ∧
      ∀ x ∈ secs, x.1.q < n1 ∧ x.1.p < n2 ∧ x.1.rows ≠ [] ∧ RowsOf x.2 x.1.rows ∧
        ∃ (m : ℕ) (X : Matrix (Fin m) (Fin d) ℂ), NearRows x.1.rows X (9 / 10 ^ 12) ∧ X * Xᴴ = 1 ∧
          (∀ t ∈ [T1, T2].zip [omega n1 x.1.q, omega n2 x.1.p], X * t.1 = t.2 • X) ∧ ∀ i j, lab j ≠ s.1 → X i j = 0 := by
  classical
  obtain ⟨sel, hi, hr, hI⟩ := selects_is hP
  have hE := selMat_unit hi
  have e1 := selMat_comm hi hr l1
  have e2 := selMat_comm hi hr l2
  have hd : 0 < s.2.rows := by
    obtain ⟨j, hj⟩ := hne
    obtain ⟨a, -⟩ := (hr j).1 hj
    exact a.pos
  obtain ⟨t1, a1, b1⟩ := hI.inSector m1
  obtain ⟨t2, a2, b2⟩ := hI.inSector m2
  have f1 : (Matrix.of fun i j => t1.e i j : Matrix (Fin s.2.rows) (Fin s.2.rows) ℂ) = selMat sel * T1 * (selMat sel)ᴴ := by
    ext i j
    exact b1.2.2 i j
  have f2 : (Matrix.of fun i j => t2.e i j : Matrix (Fin s.2.rows) (Fin s.2.rows) ℂ) = selMat sel * T2 * (selMat sel)ᴴ := by
    ext i j
    exact b2.2.2 i j
  obtain ⟨L, g1, g2, g3, g4, g5, -, -, -, g6⟩ := translation_sectors hd (selMat_phase hi hr l1 h.first)
    (selMat_phase hi hr l2 h.second) (by rw [compress_mul e1, compress_mul e2, h.comm]) h.pos1 h.small1 h.pos2 h.small2
    (compress_pow hE e1 h.pow1) (compress_pow hE e2 h.pow2)
  choose p hp1 hp2 using fun x : Sector s.2.rows => liftRows_is hI x.rows
  have hlen : ∀ Q : Rows s.2.rows, (liftRows (selMat sel) Q).length = Q.length := fun Q => by simp [liftRows]
  refine ⟨L.map fun x => (⟨x.q, x.p, liftRows (selMat sel) x.rows⟩, p x), ?_, ?_, ?_, fun y hy => ?_⟩
  · unfold momentumStep
    rw [a1, a2]
    simp only [bind, Except.bind]
    rw [f1, f2, g1]
    simp only
    rw [zip_map, zip_map]
    rw [mapM_ok _ _ (fun k : (ℝ × ℝ) × Rows s.2.rows => (s.1, k.1, match (rowsMat k.2).mul s.2 with
      | .ok p => p
      | .error _ => s.2))]
    swap
    · intro k hk
      obtain ⟨x, -, rfl⟩ := List.mem_map.1 hk
      simp only [hp1, pure, Except.pure]
    simp only [pure, Except.pure]
    congr 1
    rw [List.map_map, List.map_map, List.filter_eq_self.2]
    · refine List.map_congr_left fun x _ => ?_
      simp only [Function.comp, hp1]
    · intro k hk
      obtain ⟨x, hx, rfl⟩ := List.mem_map.1 hk
      simp only [Function.comp, hp1, decide_eq_true_eq]
      have hne := (g2 x hx).2.2
      have h0 : 0 < x.rows.length := List.length_pos_of_ne_nil hne
      obtain ⟨a, ha⟩ : ∃ a, x.rows[0] a ≠ 0 := by
        by_contra hc
        push Not at hc
        have := g5 x hx 0 0 h0 h0
        rw [if_pos rfl, rowInner, Finset.sum_eq_zero fun j _ => by rw [hc j, zero_mul]] at this
        exact zero_ne_one this
      have hr' := hp2 x
      refine ⟨0, ?_, sel a, ?_, ?_⟩
      · rw [hr'.1, Fintype.card_fin, hlen]
        exact h0
      · rw [hr'.2.1, Fintype.card_fin]
        exact (sel a).2
      · have := hr'.2.2 ⟨0, by rw [hlen]; exact h0⟩ (sel a)
        rw [show (p x).e 0 (sel a) = _ from this]
        have e : (liftRows (selMat sel) x.rows)[0]'(by rw [hlen]; exact h0) = x.rows[0] ᵥ* selMat sel := List.getElem_map ..
        rw [of_apply]
        simp only [Fin.getElem_fin]
        rw [e]
        have : (x.rows[0] ᵥ* selMat sel) (sel a) = x.rows[0] a := by
          rw [vecMul, dotProduct, Finset.sum_eq_single a]
          · simp [selMat]
          · intro b _ hb
            have : ¬ sel a = sel b := fun e => hb (hi e).symm
            simp [selMat, this]
          · simp
        rw [this]
        exact ha
  · rw [List.map_map]
    exact g3
  · rw [List.map_map]
    refine Eq.trans ?_ g4
    congr 1
    exact List.map_congr_left fun x _ => hlen x.rows
  · obtain ⟨x, hx, rfl⟩ := List.mem_map.1 hy
    obtain ⟨q1, q2, q3⟩ := g2 x hx
    refine ⟨q1, q2, fun h0 => q3 ?_, hp2 x, ?_⟩
    · have := congrArg List.length h0
      simp only [hlen, List.length_nil, List.length_eq_zero_iff] at this
      exact this
    · obtain ⟨m, X, x1, x2, x3⟩ := g6 x hx
      refine ⟨m, X * selMat sel, liftRows_near hE x1, ?_, ?_, fun i j hj => ?_⟩
      · rw [conjTranspose_mul, Matrix.mul_assoc, ← Matrix.mul_assoc _ _ Xᴴ, hE, Matrix.one_mul, x2]
      · intro t ht
        simp only [List.zip_cons_cons, List.zip_nil_right, List.mem_cons, List.not_mem_nil, or_false] at ht
        rcases ht with rfl | rfl
        · have := x3 (_, omega n1 x.q) (List.mem_cons_self ..)
          simp only at this ⊢
          rw [Matrix.mul_assoc, e1, ← Matrix.mul_assoc, this, Matrix.smul_mul]
        · have := x3 (_, omega n2 x.p) (List.mem_cons_of_mem _ (List.mem_cons_self ..))
          simp only at this ⊢
          rw [Matrix.mul_assoc, e2, ← Matrix.mul_assoc, this, Matrix.smul_mul]
      · rw [mul_apply]
        refine Finset.sum_eq_zero fun a _ => ?_
        have : selMat sel a j = 0 := by
          unfold selMat
          rw [of_apply, if_neg]
          intro e
          exact hj ((hr j).2 ⟨a, e.symm⟩)
        rw [this, mul_zero]

/-- The sectors of all labels. -/
theorem momentum_all (h : Translations T1 T2 H n1 n2) (m1 : M1.Is T1) (m2 : M2.Is T2)
    (l1 : ∀ i j, lab i ≠ lab j → T1 i j = 0) (l2 : ∀ i j, lab i ≠ lab j → T2 i j = 0)
    (lH : ∀ i j, lab i ≠ lab j → H i j = 0) (L : List (α × Mat)) (hnd : (L.map Prod.fst).Nodup)
    (hmem : ∀ a, a ∈ L.map Prod.fst ↔ ∃ j, lab j = a)
    (hsel : ∀ s ∈ L, s.2.Selects d fun j => lab j = s.1) :
    ∃ ls projs, L.mapM (momentumStep M1 M2 n1 n2) = .ok ls ∧
      List.Forall₂ RowsOf (ls.flatten.map fun x => x.2.2) projs ∧ NearSectors projs H (9 / 10 ^ 12) ∧
      (ls.flatten.map fun x => (x.1, x.2.1)).Nodup ∧
      ∀ x ∈ ls.flatten, x.1 ∈ L.map Prod.fst ∧ ∃ q p : ℕ, q < n1 ∧ p < n2 ∧
        x.2.1 = (2 * Real.pi * (q : ℝ) / (n1 : ℝ), 2 * Real.pi * (p : ℝ) / (n2 : ℝ)) := by
  have step : ∀ s : α × Mat, s ∈ L → _ := fun s hs =>
    momentum_step h m1 m2 l1 l2 s (hsel s hs) ((hmem _).1 (List.mem_map_of_mem hs))
  choose! secs k1 k2 k3 k4 using step
  set mom : Sector d × Mat → ℝ × ℝ := fun x => (2 * Real.pi * (x.1.q : ℝ) / (n1 : ℝ), 2 * Real.pi * (x.1.p : ℝ) / (n2 : ℝ)) with hmom
  set LL : List (α × Sector d × Mat) := (L.map fun s => (secs s).map fun x => (s.1, x)).flatten with hLL
  have hm : ∀ t ∈ LL, ∃ s ∈ L, t.1 = s.1 ∧ t.2 ∈ secs s := by
    intro t ht
    obtain ⟨l, hl, ht⟩ := List.mem_flatten.1 ht
    obtain ⟨s, hs, rfl⟩ := List.mem_map.1 hl
    obtain ⟨x, hx, rfl⟩ := List.mem_map.1 ht
    exact ⟨s, hs, rfl, hx⟩
  have hfl : (L.map fun s => (secs s).map fun x => (s.1, mom x, x.2)).flatten = LL.map fun t => (t.1, mom t.2, t.2.2) := by
    rw [hLL, List.map_flatten, List.map_map]
    congr 1
    refine List.map_congr_left fun s _ => ?_
    simp only [Function.comp, List.map_map]
    rfl
  have hnodup : (LL.map fun t => (t.1, t.2.1.q, t.2.1.p)).Nodup := by
    rw [hLL, List.map_flatten, List.map_map, List.nodup_flatten]
    constructor
    · intro l hl
      obtain ⟨s, hs, rfl⟩ := List.mem_map.1 hl
      simp only [Function.comp_apply, List.map_map]
      have e : ((fun t : α × Sector d × Mat => (t.1, t.2.1.q, t.2.1.p)) ∘ fun x => (s.1, x)) =
          (fun b => (s.1, b)) ∘ fun x : Sector d × Mat => (x.1.q, x.1.p) := rfl
      rw [e, ← List.map_map]
      exact (k2 s hs).map fun a b h => (Prod.mk.inj h).2
    · rw [List.pairwise_map]
      rw [List.Nodup, List.pairwise_map] at hnd
      refine hnd.imp fun {a b} hab x hx hy => hab ?_
      simp only [Function.comp_apply, List.map_map, List.mem_map] at hx hy
      obtain ⟨p, -, rfl⟩ := hx
      obtain ⟨q, -, hq⟩ := hy
      exact (congrArg Prod.fst hq).symm
  have hn1 : (n1 : ℝ) ≠ 0 := by exact_mod_cast h.pos1.ne'
  have hn2 : (n2 : ℝ) ≠ 0 := by exact_mod_cast h.pos2.ne'
  have hinj : ∀ {n : ℕ} {a b : ℕ}, (n : ℝ) ≠ 0 → 2 * Real.pi * (a : ℝ) / (n : ℝ) = 2 * Real.pi * (b : ℝ) / (n : ℝ) → a = b := by
    intro n a b hn e
    rw [div_left_inj' hn, mul_right_inj' (by positivity)] at e
    exact_mod_cast e
  refine ⟨L.map fun s => (secs s).map fun x => (s.1, mom x, x.2), LL.map fun t => t.2.1.rows, ?_, ?_, ?_, ?_, ?_⟩
  · exact mapM_ok _ _ _ fun s hs => k1 s hs
  · rw [hfl, List.map_map, List.forall₂_map_left_iff, List.forall₂_map_right_iff]
    refine List.forall₂_same.2 fun t ht => ?_
    obtain ⟨s, hs, e, hx⟩ := hm t ht
    exact (k4 s hs t.2 hx).2.2.2.1
  · refine NearSectors.of_labels (syms := [T1, T2]) (ω := fun t : α × Sector d × Mat => [omega n1 t.2.1.q, omega n2 t.2.1.p])
      (lab := lab) (ℓ := fun t => t.1) hnodup.of_map (fun t ht => ?_) (fun t ht => ?_) (fun _ _ => rfl) (fun t _ z hz => ?_)
      (fun t ht t' ht' hne hl e => hne ?_) (fun V hV => ?_) lH ?_
    · obtain ⟨s, hs, e, hx⟩ := hm t ht
      exact (k4 s hs t.2 hx).2.2.1
    · obtain ⟨s, hs, e, hx⟩ := hm t ht
      rw [e]
      exact (k4 s hs t.2 hx).2.2.2.2
    · simp only [List.mem_cons, List.not_mem_nil, or_false] at hz
      rcases hz with rfl | rfl <;> exact omega_norm _ _
    · simp only [List.cons.injEq, and_true] at e
      obtain ⟨s, hs, e1, hx⟩ := hm t ht
      obtain ⟨s', hs', e1', hx'⟩ := hm t' ht'
      have c1 := k4 s hs t.2 hx
      have c2 := k4 s' hs' t'.2 hx'
      refine List.inj_on_of_nodup_map hnodup ht ht' ?_
      rw [hl, omega_inj h.pos1.ne' c1.1 c2.1 e.1, omega_inj h.pos2.ne' c1.2.1 c2.2.1 e.2]
    · simp only [List.mem_cons, List.not_mem_nil, or_false] at hV
      rcases hV with rfl | rfl
      · exact ⟨phase_unitary h.first, h.comm1⟩
      · exact ⟨phase_unitary h.second, h.comm2⟩
    · rw [hLL, List.map_flatten, List.map_map, List.sum_flatten, List.map_map]
      refine Eq.trans ?_ (label_total lab L hnd (fun j => (hmem _).2 ⟨j, rfl⟩) hsel)
      congr 1
      refine List.map_congr_left fun s hs => ?_
      rw [← k3 s hs]
      simp only [Function.comp, List.map_map]
      rfl
  · rw [hfl, List.map_map]
    refine List.Nodup.map_on ?_ hnodup.of_map
    intro t ht t' ht' e
    simp only [Function.comp, hmom, Prod.mk.injEq] at e
    refine List.inj_on_of_nodup_map hnodup ht ht' ?_
    rw [e.1, hinj hn1 e.2.1, hinj hn2 e.2.2]
  · rw [hfl]
    intro x hx
    obtain ⟨t, ht, rfl⟩ := List.mem_map.1 hx
    obtain ⟨s, hs, e, hx⟩ := hm t ht
    have c := k4 s hs t.2 hx
    exact ⟨by simp only [e]; exact List.mem_map_of_mem hs, _, _, c.1, c.2.1, rfl⟩

end ED.Props
