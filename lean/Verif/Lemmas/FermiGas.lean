import Verif.Model.FermiGas
import Verif.Spec.FermiGas
import Verif.Lemmas.Thermal
import Mathlib.Analysis.SpecialFunctions.ExpDeriv
import Mathlib.Analysis.SpecialFunctions.Complex.Log
import Mathlib.Algebra.Order.BigOperators.Group.Finset
import Mathlib.Algebra.BigOperators.Fin
import Mathlib.Algebra.Field.GeomSum

/-! # Lemmas for the Fermi gas -/

namespace ED

open scoped BigOperators

/-- The inverse temperature is not negative (it may be infinite). -/
def InvTemp.Nonneg : InvTemp → Prop
  | .fin b => 0 ≤ b
  | .inf => True

/-! ## Energy spacing -/

theorem rint_nonneg {x : ℝ} (h : 0 ≤ x) : 0 ≤ rint x := by
  have : 0 ≤ ⌊x⌋ := Int.floor_nonneg.2 h
  unfold rint
  split_ifs <;> omega

theorem npRound_nonneg {d : ℕ} {x : ℝ} (h : 0 ≤ x) : 0 ≤ npRound d x := by
  unfold npRound
  have : 0 ≤ rint (x * 10 ^ d) := rint_nonneg (by positivity)
  have : (0 : ℝ) ≤ (rint (x * 10 ^ d) : ℝ) := by exact_mod_cast this
  positivity

theorem chain_close (δ : ℝ) (s : List ℝ) (hs : s.Pairwise (· ≤ ·)) (a : ℝ)
    (ha : ∀ b ∈ s, a ≤ b)
    (h : ∀ x ∈ List.zipWith (fun a b => a - b) s (a :: s), x ≤ δ) :
    ∀ b ∈ s, b - a ≤ s.length * δ := by
  induction s generalizing a with
  | nil => simp
  | cons c s ih =>
    rw [List.pairwise_cons] at hs
    have hc : c - a ≤ δ := h (c - a) (by simp)
    have h0 : 0 ≤ δ := le_trans (sub_nonneg.2 (ha c (by simp))) hc
    have := ih hs.2 c hs.1 (fun x hx => h x (by rw [List.zipWith_cons_cons]; exact List.mem_cons_of_mem _ hx))
    intro b hb
    rw [List.length_cons]
    push_cast
    rcases List.mem_cons.1 hb with rfl | hb
    · nlinarith [h0, hc, (Nat.cast_nonneg s.length : (0 : ℝ) ≤ s.length)]
    · have := this b hb
      nlinarith

theorem spacing_ok (es : List ℝ) (a b : ℝ) (ha : a ∈ es) (hb : b ∈ es)
    (h : es.length * (1 / 10 ^ 12 : ℝ) < b - a) :
    ∃ r, getEnergySpacing es = .ok r := by
  unfold getEnergySpacing
  simp only
  set s := es.insertionSort (· ≤ ·) with hs
  have hperm : s.Perm es := List.perm_insertionSort _ es
  have hsort : s.Pairwise (· ≤ ·) := List.pairwise_insertionSort _ _
  split
  · rename_i hd
    exfalso
    rw [List.filter_eq_nil_iff] at hd
    have ha' : a ∈ s := hperm.mem_iff.2 ha
    have hb' : b ∈ s := hperm.mem_iff.2 hb
    have hlen : s.length = es.length := hperm.length_eq
    clear_value s
    cases s with
    | nil => simp at ha'
    | cons x t =>
      rw [List.pairwise_cons] at hsort
      have key := chain_close (1 / 2 * (1 / 10 ^ 12)) t hsort.2 x hsort.1 (by
        have : ∀ (t u : List ℝ), (∀ y ∈ List.zipWith (fun a b => npRound 12 (a - b)) t u, ¬ 0 < y) →
            (∀ y ∈ List.zipWith (fun a b => a - b) t u, 0 ≤ y) →
            ∀ y ∈ List.zipWith (fun a b => a - b) t u, y ≤ 1 / 2 * (1 / 10 ^ 12) := by
          intro t
          induction t with
          | nil => simp
          | cons c t ih =>
            intro u h1 h2 y hy
            cases u with
            | nil => simp at hy
            | cons v u =>
              rw [List.zipWith_cons_cons] at h1 h2 hy
              rcases List.mem_cons.1 hy with rfl | hy
              · have h3 := h1 _ (List.mem_cons_self)
                have h4 := npRound_nonneg (d := 12) (h2 _ (List.mem_cons_self))
                have h5 : npRound 12 (c - v) = 0 := le_antisymm (not_lt.1 h3) h4
                rw [npRound_eq_zero_iff] at h5
                exact le_trans (le_abs_self _) h5
              · exact ih u (fun y hy => h1 y (List.mem_cons_of_mem _ hy))
                  (fun y hy => h2 y (List.mem_cons_of_mem _ hy)) y hy
        apply this
        · intro y hy
          have := hd y (by simpa using hy)
          simpa using this
        · have : ∀ (t : List ℝ) (x : ℝ), t.Pairwise (· ≤ ·) → (∀ b ∈ t, x ≤ b) →
              ∀ y ∈ List.zipWith (fun a b => a - b) t (x :: t), 0 ≤ y := by
            intro t
            induction t with
            | nil => simp
            | cons c t ih =>
              intro x h1 h2 y hy
              rw [List.zipWith_cons_cons] at hy
              rw [List.pairwise_cons] at h1
              rcases List.mem_cons.1 hy with rfl | hy
              · exact sub_nonneg.2 (h2 c (by simp))
              · exact ih c h1.2 h1.1 y hy
          exact this t x hsort.2 hsort.1)
      have hl : (t.length : ℝ) + 1 = es.length := by
        rw [← hlen]; simp
      have hxa : x ≤ a := by
        rcases List.mem_cons.1 ha' with rfl | h'
        · exact le_rfl
        · exact hsort.1 a h'
      have hbx : b - x ≤ t.length * (1 / 2 * (1 / 10 ^ 12)) := by
        rcases List.mem_cons.1 hb' with rfl | h'
        · simp
        · exact key b h'
      have : (0 : ℝ) ≤ t.length := Nat.cast_nonneg _
      rw [← hl] at h
      nlinarith
  · exact ⟨_, rfl⟩

/-! ## Wavevectors -/

/-- The `j`-th wavevector before shifting. -/
noncomputable def kval (n j : ℕ) : ℝ := 2 * Real.pi / n * (j : ℝ)

/-- Shift into the balanced interval. -/
noncomputable def bal (k : ℝ) : ℝ := if k ≥ Real.pi then k - 2 * Real.pi else k

theorem kAxis_balanced {n : ℕ} (hn : n ≠ 0) :
    ∃ l, kAxis n "balanced" = .ok l ∧ l.Pairwise (· ≤ ·) ∧
      l.Perm ((List.range n).map fun j => bal (kval n j)) := by
  refine ⟨((((List.range n).map fun j : ℕ => 2 * Real.pi / n * (j : ℝ)).map fun k =>
    if k ≥ Real.pi then k - 2 * Real.pi else k).insertionSort (· ≤ ·)), ?_,
    List.pairwise_insertionSort _ _, ?_⟩
  · unfold kAxis
    rw [if_neg hn]
    simp
  · refine (List.perm_insertionSort _ _).trans ?_
    rw [List.map_map]
    exact List.Perm.refl _

theorem kAxis_positive {n : ℕ} (hn : n ≠ 0) :
    kAxis n "positive" = .ok ((List.range n).map fun j => kval n j) := by
  unfold kAxis
  rw [if_neg hn]
  simp [kval]

theorem kvects_balanced {nx ny : ℕ} (hx : nx ≠ 0) (hy : ny ≠ 0) :
    ∃ l, getAllowedKvects nx ny "balanced" = .ok (l, 2 * Real.pi / nx, 2 * Real.pi / ny) ∧
      l.Perm ((List.range ny).flatMap fun i => (List.range nx).map fun j =>
        (bal (kval nx j), bal (kval ny i))) := by
  obtain ⟨lx, hlx, -, px⟩ := kAxis_balanced hx
  obtain ⟨ly, hly, -, py⟩ := kAxis_balanced hy
  refine ⟨ly.flatMap fun ky => lx.map fun kx => (kx, ky), ?_, ?_⟩
  · unfold getAllowedKvects
    simp [hx, hy, hlx, hly]
    rfl
  · refine (py.flatMap fun ky _ => px.map fun kx => (kx, ky)).trans ?_
    rw [List.flatMap_map]
    simp only [List.map_map]
    exact List.Perm.refl _

theorem cos_bal (k : ℝ) : Real.cos (bal k) = Real.cos k := by
  unfold bal
  split_ifs
  · exact Real.cos_sub_two_pi k
  · rfl

theorem cos_bal_add (k q : ℝ) : Real.cos (bal k + q) = Real.cos (k + q) := by
  unfold bal
  split_ifs
  · rw [show k - 2 * Real.pi + q = k + q - 2 * Real.pi by ring]
    exact Real.cos_sub_two_pi _
  · rfl

theorem exp_bal (k : ℝ) (c : ℤ) :
    Complex.exp (Complex.I * (bal k : ℝ) * c) = Complex.exp (Complex.I * (k : ℝ) * c) := by
  unfold bal
  split_ifs
  · rw [Complex.exp_eq_exp_iff_exists_int]
    refine ⟨-c, ?_⟩
    push_cast
    ring
  · rfl

theorem exp_kval_neg (k : ℝ) (c : ℤ) :
    Complex.exp (Complex.I * k * ((-c : ℤ) : ℂ)) =
      (starRingEnd ℂ) (Complex.exp (Complex.I * k * c)) := by
  rw [← Complex.exp_conj]
  simp

theorem exp_kval_period {n : ℕ} (hn : n ≠ 0) (j : ℕ) (c m : ℤ) :
    Complex.exp (Complex.I * (kval n j : ℝ) * ((c + n * m : ℤ) : ℂ)) =
      Complex.exp (Complex.I * (kval n j : ℝ) * c) := by
  rw [Complex.exp_eq_exp_iff_exists_int]
  refine ⟨j * m, ?_⟩
  have : (n : ℂ) ≠ 0 := by exact_mod_cast hn
  unfold kval
  push_cast
  field_simp

/-! ## Reduction of `fg_realspace_gfn` to a sum over an index type -/

theorem univ_perm {κ : Type} [Fintype κ] {β : Type} (n : ℕ) (eqv : Fin n ≃ κ) (F : κ → β) :
    (List.ofFn fun j => F (eqv j)).Perm (Finset.univ.toList.map F) := by
  rw [List.ofFn_eq_map, ← Function.comp_def, ← List.map_map]
  refine List.Perm.map F ?_
  rw [List.perm_ext_iff_of_nodup]
  · intro a
    simp only [List.mem_map, List.mem_finRange, true_and, Finset.mem_toList, Finset.mem_univ,
      iff_true]
    exact ⟨eqv.symm a, by simp⟩
  · exact (List.nodup_finRange n).map eqv.injective
  · exact Finset.nodup_toList _

/-- What the wavevectors of the two lattices have in common. -/
structure Modes (n : ℕ) (dim : String) where
  κ : Type
  [fin : Fintype κ]
  [dec : DecidableEq κ]
  ph : ℤ × ℤ → κ → ℂ
  e : κ → ℝ
  r : κ → ℤ × ℤ
  i₀ : κ
  spread : κ
  neg : κ → κ
  modes : ∀ c, ∃ l, realspaceModes c n dim = .ok l ∧
    l.Perm (Finset.univ.toList.map fun j => (ph c j, e j))
  norm_ph : ∀ c j, ‖ph c j‖ = 1
  ph_zero : ∀ j, ph (0, 0) j = 1
  ph_neg : ∀ c j, ph (-c.1, -c.2) j = (starRingEnd ℂ) (ph c j)
  ph_period : ∀ (c m : ℤ × ℤ) j, ph (c.1 + n * m.1, c.2 + n * m.2) j = ph c j
  card_le : (Fintype.card κ : ℝ) ≤ 10 ^ 12
  gap : 1 < e spread - e i₀
  orth : ∀ j j', ∑ i, (starRingEnd ℂ) (ph (r i) j) * ph (r i) j' =
    if j = j' then (Fintype.card κ : ℂ) else 0
  image_r : Finset.univ.image r = displacements n dim
  inj_r : Function.Injective r
  neg_neg : Even n → ∀ j, neg (neg j) = j
  e_neg : Even n → ∀ j, e (neg j) = -e j

attribute [instance] Modes.fin Modes.dec

namespace Modes

variable {n : ℕ} {dim : String} (L : Modes n dim)

theorem card_pos : (0 : ℝ) < Fintype.card L.κ := by
  exact_mod_cast Fintype.card_pos_iff.2 ⟨L.i₀⟩

theorem nanSum_some (l : List ℂ) : nanSum (l.map some) = some l.sum := by
  induction l with
  | nil => rfl
  | cons a l ih => simp [nanSum, ih]

theorem realspace {beta : InvTemp} {mu time : ℝ} {type : String} {G : ℝ → ℂ} {D : ℝ → Option ℂ}
    (c : ℤ × ℤ) (h : ∀ e, kspaceGfn beta mu e time type = .ok (G e, D e)) :
    ∃ d, realspaceGfn beta mu c time n dim type =
      .ok (1 / (Fintype.card L.κ : ℂ) * ∑ j, L.ph c j * G (L.e j), d) ∧
      ∀ D' : ℝ → ℂ, (∀ e, D e = some (D' e)) →
        d = some (1 / (Fintype.card L.κ : ℂ) * ∑ j, L.ph c j * D' (L.e j)) := by
  obtain ⟨l, hl, hp⟩ := L.modes c
  have hlen : l.length = Fintype.card L.κ := by
    rw [hp.length_eq]; simp
  obtain ⟨sp, hsp⟩ := spacing_ok (l.map (·.2)) (L.e L.i₀) (L.e L.spread)
    (by rw [(hp.map _).mem_iff, List.map_map]; exact List.mem_map_of_mem (by simp))
    (by rw [(hp.map _).mem_iff, List.map_map]; exact List.mem_map_of_mem (by simp))
    (by
      rw [List.length_map, hlen]
      have := L.card_le
      have := L.gap
      have h12 : (0 : ℝ) < 10 ^ 12 := by positivity
      calc (Fintype.card L.κ : ℝ) * (1 / 10 ^ 12) ≤ 10 ^ 12 * (1 / 10 ^ 12) := by gcongr
        _ = 1 := by norm_num
        _ < _ := this)
  have hm : l.mapM (fun m => (kspaceGfn beta mu m.2 time type >>= fun x =>
      (pure (m.1 * x.1, x.2.map (m.1 * ·)) : Res (ℂ × Option ℂ)))) =
      .ok (l.map fun m => (m.1 * G m.2, (D m.2).map (m.1 * ·))) := by
    clear hl hp hlen hsp
    induction l with
    | nil => rfl
    | cons a l ih => rw [List.mapM_cons, h, ih]; rfl
  refine ⟨(nanSum (l.map fun m => (D m.2).map (m.1 * ·))).map (1 / (l.length : ℂ) * ·), ?_, ?_⟩
  · unfold realspaceGfn
    rw [hl]
    change (l.mapM (fun m => (kspaceGfn beta mu m.2 time type >>= fun x =>
      (pure (m.1 * x.1, x.2.map (m.1 * ·)) : Res (ℂ × Option ℂ)))) >>= _) = _
    rw [hm]
    change (getEnergySpacing _ >>= _) = _
    rw [hsp]
    change Except.ok _ = Except.ok _
    simp only [List.map_map, Function.comp_def, hlen]
    congr 3
    have : (l.map fun m => m.1 * G m.2).sum =
        ((Finset.univ.toList.map fun j => (L.ph c j, L.e j)).map fun m => m.1 * G m.2).sum :=
      (hp.map _).sum_eq
    rw [this, List.map_map, Finset.sum_map_toList]
    rfl
  · intro D' hD
    have : (l.map fun m => (D m.2).map (m.1 * ·)) = (l.map fun m => m.1 * D' m.2).map some := by
      rw [List.map_map]
      exact List.map_congr_left fun m _ => by simp [hD]
    rw [this, nanSum_some, Option.map_some, hlen]
    have : (l.map fun m => m.1 * D' m.2).sum =
        ((Finset.univ.toList.map fun j => (L.ph c j, L.e j)).map fun m => m.1 * D' m.2).sum :=
      (hp.map _).sum_eq
    rw [this, List.map_map, Finset.sum_map_toList]
    rfl

theorem parseval (F : L.κ → ℂ) :
    ∑ i, ‖1 / (Fintype.card L.κ : ℂ) * ∑ j, L.ph (L.r i) j * F j‖ ^ 2 =
      1 / (Fintype.card L.κ : ℝ) * ∑ j, ‖F j‖ ^ 2 := by
  have hN := L.card_pos
  have hNc : (Fintype.card L.κ : ℂ) ≠ 0 := by exact_mod_cast hN.ne'
  have key : (∑ i, (starRingEnd ℂ) (∑ j, L.ph (L.r i) j * F j) * (∑ j, L.ph (L.r i) j * F j)) =
      (Fintype.card L.κ : ℂ) * ∑ j, (starRingEnd ℂ) (F j) * F j := by
    simp only [map_sum, map_mul, Finset.sum_mul_sum]
    rw [Finset.sum_comm]
    rw [Finset.mul_sum]
    refine Finset.sum_congr rfl fun j _ => ?_
    rw [Finset.sum_comm]
    have : ∀ j', ∑ i, (starRingEnd ℂ) (L.ph (L.r i) j) * (starRingEnd ℂ) (F j) *
        (L.ph (L.r i) j' * F j') = (if j = j' then (Fintype.card L.κ : ℂ) else 0) *
          ((starRingEnd ℂ) (F j) * F j') := by
      intro j'
      rw [← L.orth, Finset.sum_mul]
      exact Finset.sum_congr rfl fun i _ => by ring
    simp [this]
  have hsq : ∀ z : ℂ, (starRingEnd ℂ) z * z = ((‖z‖ ^ 2 : ℝ) : ℂ) := fun z => by
    rw [mul_comm, Complex.mul_conj, Complex.normSq_eq_norm_sq]
  simp only [hsq] at key
  have key' : ∑ i, ‖∑ j, L.ph (L.r i) j * F j‖ ^ 2 = (Fintype.card L.κ : ℝ) * ∑ j, ‖F j‖ ^ 2 := by
    exact_mod_cast key
  simp only [norm_mul, mul_pow]
  rw [← Finset.mul_sum, key', norm_div, norm_one, Complex.norm_natCast]
  field_simp

end Modes

/-! ## The two lattices -/

theorem geom_root {n : ℕ} (hn : n ≠ 0) (j j' : Fin n) :
    ∑ i : Fin n, (starRingEnd ℂ) (Complex.exp (Complex.I * (kval n j : ℝ) * ((i : ℕ) : ℤ))) *
      Complex.exp (Complex.I * (kval n j' : ℝ) * ((i : ℕ) : ℤ)) = if j = j' then (n : ℂ) else 0 := by
  have hnc : (n : ℂ) ≠ 0 := by exact_mod_cast hn
  have hterm : ∀ i : Fin n, (starRingEnd ℂ) (Complex.exp (Complex.I * (kval n j : ℝ) * ((i : ℕ) : ℤ))) *
      Complex.exp (Complex.I * (kval n j' : ℝ) * ((i : ℕ) : ℤ)) =
      Complex.exp (2 * Real.pi * Complex.I * (((j' : ℕ) : ℂ) - ((j : ℕ) : ℂ)) / n) ^ (i : ℕ) := by
    intro i
    rw [← Complex.exp_conj, ← Complex.exp_add, ← Complex.exp_nat_mul]
    congr 1
    simp only [map_mul, Complex.conj_I, Complex.conj_ofReal, map_intCast]
    unfold kval
    push_cast
    field_simp
    ring
  simp only [hterm]
  rw [Fin.sum_univ_eq_sum_range (fun i => Complex.exp (2 * Real.pi * Complex.I *
    (((j' : ℕ) : ℂ) - ((j : ℕ) : ℂ)) / n) ^ i) n]
  split_ifs with h
  · subst h; simp
  · have h1 : Complex.exp (2 * Real.pi * Complex.I * (((j' : ℕ) : ℂ) - ((j : ℕ) : ℂ)) / n) ≠ 1 := by
      intro he
      rw [Complex.exp_eq_one_iff] at he
      obtain ⟨m, hm⟩ := he
      have hpi : (2 * Real.pi * Complex.I : ℂ) ≠ 0 := Complex.two_pi_I_ne_zero
      have h2 : (((j' : ℕ) : ℂ) - ((j : ℕ) : ℂ)) = m * n := by
        field_simp at hm
        linear_combination hm
      have h3 : ((j' : ℕ) : ℤ) - ((j : ℕ) : ℤ) = m * n := by exact_mod_cast h2
      have hj := j.2
      have hj' := j'.2
      have hm0 : m = 0 := by
        by_contra hne
        rcases lt_or_gt_of_ne hne with h | h
        · nlinarith [(by omega : m ≤ -1)]
        · nlinarith [(by omega : 1 ≤ m)]
      rw [hm0] at h3
      exact h (Fin.ext (by omega))
    rw [geom_sum_eq h1, ← Complex.exp_nat_mul,
      show (n : ℂ) * (2 * Real.pi * Complex.I * (((j' : ℕ) : ℂ) - ((j : ℕ) : ℂ)) / n) =
        ((((j' : ℕ) : ℤ) - ((j : ℕ) : ℤ) : ℤ) : ℂ) * (2 * Real.pi * Complex.I) by
        push_cast; field_simp, Complex.exp_int_mul_two_pi_mul_I, sub_self, zero_div]

end ED
