import Verif.Lemmas.SquareModel
import Verif.Props.SiteCycles
import Verif.Props.Isometries
import Mathlib.Data.Int.ModEq
import Mathlib.Logic.Equiv.Fin.Rotate

/-! # Translations of a periodic square lattice -/

namespace ED.Props

open ED ED.Geometry

variable {nx ny : ℕ} {g : Geometry}

/-- A permutation of the grid points that adds `(a, b)`, modulo the size of the grid. -/
def Shift (ρ : Equiv.Perm (Fin nx × Fin ny)) (a b : ℤ) : Prop :=
  ∀ v, ((ρ v).1 : ℤ) ≡ v.1 + a [ZMOD nx] ∧ ((ρ v).2 : ℤ) ≡ v.2 + b [ZMOD ny]

theorem fin_modEq {n : ℕ} {i j : Fin n} (h : (i : ℤ) ≡ j [ZMOD n]) : i = j := by
  have h1 := i.2
  have h2 := j.2
  unfold Int.ModEq at h
  rw [Int.emod_eq_of_lt (by omega) (by omega), Int.emod_eq_of_lt (by omega) (by omega)] at h
  exact Fin.ext (by omega)

namespace Shift

variable {ρ ρ' : Equiv.Perm (Fin nx × Fin ny)} {a b a' b' : ℤ}

theorem mul (h : Shift ρ a b) (h' : Shift ρ' a' b') : Shift (ρ * ρ') (a + a') (b + b') := fun v => by
  have h1 := h (ρ' v)
  have h2 := h' v
  refine ⟨(h1.1.trans (h2.1.add_right a)).trans ?_, (h1.2.trans (h2.2.add_right b)).trans ?_⟩
  · rw [add_assoc, add_comm a' a]
  · rw [add_assoc, add_comm b' b]

theorem one : Shift (1 : Equiv.Perm (Fin nx × Fin ny)) 0 0 := fun v => by simp

theorem pow (h : Shift ρ a b) (k : ℕ) : Shift (ρ ^ k) (k * a) (k * b) := by
  induction k with
  | zero => simpa using one
  | succ k ih =>
    have := ih.mul h
    rw [← pow_succ] at this
    push_cast
    rwa [add_mul, one_mul, add_mul, one_mul]

theorem unique (h : Shift ρ a b) (h' : Shift ρ' a b) : ρ = ρ' := by
  ext v : 1
  exact Prod.ext (fin_modEq ((h v).1.trans (h' v).1.symm)) (fin_modEq ((h v).2.trans (h' v).2.symm))

theorem commute (h : Shift ρ a b) (h' : Shift ρ' a' b') : ρ * ρ' = ρ' * ρ := by
  have h1 := h.mul h'
  have h2 := h'.mul h
  rw [add_comm a', add_comm b'] at h2
  exact h1.unique h2

theorem pow_eq_one (h : Shift ρ a b) {k : ℕ} (h1 : (nx : ℤ) ∣ k * a) (h2 : (ny : ℤ) ∣ k * b) : ρ ^ k = 1 := by
  have e := h.pow k
  refine Shift.unique (a := 0) (b := 0) (fun v => ⟨(e v).1.trans ?_, (e v).2.trans ?_⟩) one
  · exact Int.ModEq.add_left _ (Int.modEq_zero_iff_dvd.2 h1)
  · exact Int.ModEq.add_left _ (Int.modEq_zero_iff_dvd.2 h2)

theorem dvd (h : Shift ρ a b) (hx : 0 < nx) (hy : 0 < ny) {k : ℕ} (hk : ρ ^ k = 1) :
    (nx : ℤ) ∣ k * a ∧ (ny : ℤ) ∣ k * b := by
  have e := h.pow k
  rw [hk] at e
  have e0 := e (⟨0, hx⟩, ⟨0, hy⟩)
  simp only [Equiv.Perm.one_apply, Nat.cast_zero, zero_add] at e0
  exact ⟨Int.modEq_zero_iff_dvd.1 e0.1.symm, Int.modEq_zero_iff_dvd.1 e0.2.symm⟩

end Shift

theorem rotate_modEq {n : ℕ} (i : Fin n) : ((finRotate n i : Fin n) : ℤ) ≡ i + 1 [ZMOD n] := by
  cases n with
  | zero => exact i.elim0
  | succ n =>
    have : ((finRotate (n + 1) i : Fin (n + 1)) : ℕ) = ((i : ℕ) + 1) % (n + 1) := by
      rw [finRotate_succ_apply, Fin.val_add, Fin.val_one', Nat.add_mod_mod]
    rw [this]
    push_cast
    exact Int.mod_modEq _ _

theorem shift_x : Shift (Equiv.prodCongr (finRotate nx) (Equiv.refl (Fin ny))) 1 0 := fun v =>
  ⟨rotate_modEq v.1, by rw [add_zero]; rfl⟩

theorem shift_y : Shift (Equiv.prodCongr (Equiv.refl (Fin nx)) (finRotate ny)) 0 1 := fun v =>
  ⟨by rw [add_zero]; rfl, rotate_modEq v.2⟩

/-- What the translations use about a periodic square lattice. -/
structure Grid (g : Geometry) (nx ny : ℕ) where
  L : Lattice
  lattice : g.lattice = some L
  per1 : L.per1 = ((nx : ℝ), 0)
  per2 : L.per2 = (0, (ny : ℝ))
  periods : Periods L.per1 L.per2
  σ : Fin g.nsites ≃ Fin nx × Fin ny
  wf : g.WellFormed
  xloc : ∀ i : Fin g.nsites, g.xlocs[(i : ℕ)]? = some ((((σ i).1 : ℕ)) : ℝ)
  yloc : ∀ i : Fin g.nsites, g.ylocs[(i : ℕ)]? = some ((((σ i).2 : ℕ)) : ℝ)
  adj01 : ∀ i j : Fin g.nsites, g.adjacency.e i j = 0 ∨ g.adjacency.e i j = 1
  adj : ∀ i j : Fin g.nsites, g.adjacency.e i j = 1 ↔ ∃ k l : ℤ,
    ((((σ i).1 : ℕ) : ℝ) - (((σ j).1 : ℕ) : ℝ) + k * nx, (((σ i).2 : ℕ) : ℝ) - (((σ j).2 : ℕ) : ℝ) + l * ny) ∈ ({(1, 0), (-1, 0), (0, 1), (0, -1)} : Set (ℝ × ℝ))

theorem grid_of (hx : 2 ≤ nx) (hy : 2 ≤ ny) (harea : nx * ny < 10 ^ 14) (hg : createSquare nx ny 0 0 false false = .ok g) :
    Nonempty (Grid g nx ny) := by
  have h1 : nx = 1 → false = true := fun h => by omega
  have h2 : ny = 1 → false = true := fun h => by omega
  have hd : (nx : ℤ) * (ny : ℤ) - 0 * 0 ≠ 0 := by
    rw [mul_zero, sub_zero]
    exact_mod_cast (Nat.mul_pos (by omega : 0 < nx) (by omega : 0 < ny)).ne'
  have data := square_data (p1 := ((nx : ℝ), 0)) (p2 := (0, (ny : ℝ)))
    (n := nx) (m := 0) (i := 0) (j := ny) (by simp) (by simp) hd
  obtain ⟨H, L, sites, g', hH, hlp, hs, hL, c1, c2, hgi, hgx, hgy, hgl, hc⟩ :=
    data.create [(0, 0)] 0 0 false false
  have hgg : g' = g := by
    unfold createSquare at hg
    rw [if_neg (guard_ok h1), if_neg (guard_ok h2)] at hg
    have := hc.symm.trans hg
    injection this
  subst hgg
  obtain ⟨-, -, -, q4, q5, q6, q7, -⟩ := Lattice.init_fields hL
  have hgood := Lattice.init_good hL c1 c2
  have hlen' : (sites.map Prod.fst).length ≤ (sites.map Prod.snd).length := by simp
  obtain ⟨X, Y, N1, N2, a1, a2, a3, a4, a5, a6, a7⟩ := distances hgood (sites.map Prod.fst) (sites.map Prod.snd) hlen'
  have hinit := hgood.init_ok (sites.map Prod.fst) (sites.map Prod.snd) hlen' none none a1 a2
    (fun i j => (a6 i j).1) (fun i j => (a6 i j).2.1)
  rw [hgi] at hinit
  injection hinit with hgeq
  have hva := Lattice.unitAdjacency_valid a2.1 a2.2 (fun i j => (a6 i j).1) (fun i j => (a6 i j).2.1)
  have hvp := Lattice.phaseMat_valid L (n := (sites.map Prod.fst).length) a2.1 (fun i j => (a6 i j).1)
    (fun i j => (a6 i j).2.1)
  have hwf : g'.WellFormed := by
    rw [hgeq]
    exact ⟨by simp, a2, a3, ⟨hva.2.2.1, hva.2.2.2⟩, ⟨hvp.1, hvp.2.1⟩⟩
  obtain ⟨g, hg'', hN, -⟩ := C50_square nx ny (by omega) (by omega) 0 0 false false h1 h2
  rw [hg] at hg''
  injection hg'' with e
  subst e
  obtain ⟨g, hg'', hlen, hnd, hgrid⟩ := C50_square_grid nx ny (by omega) (by omega) harea.le 0 0 false false h1 h2
  rw [hg] at hg''
  injection hg'' with e
  subst e
  have pos : ∀ i : Fin g'.nsites, ∃ a : Fin nx × Fin ny, g'.xlocs[(i : ℕ)]? = some ((a.1 : ℕ) : ℝ) ∧
      g'.ylocs[(i : ℕ)]? = some ((a.2 : ℕ) : ℝ) := by
    intro i
    have hi : (i : ℕ) < g'.xlocs.length := i.2
    have hi' : (i : ℕ) < g'.ylocs.length := hlen ▸ hi
    have hm : (g'.xlocs[(i : ℕ)], g'.ylocs[(i : ℕ)]) ∈ g'.xlocs.zip g'.ylocs := by
      rw [List.mem_iff_getElem?]
      refine ⟨i, ?_⟩
      rw [List.getElem?_zip_eq_some]
      exact ⟨List.getElem?_eq_getElem hi, List.getElem?_eq_getElem hi'⟩
    obtain ⟨a, b, ha, hb, e1, e2⟩ := (hgrid _ _).1 hm
    refine ⟨(⟨a, ha⟩, ⟨b, hb⟩), ?_, ?_⟩
    · rw [List.getElem?_eq_getElem hi, e1]
    · rw [List.getElem?_eq_getElem hi', e2]
  choose f hfx hfy using pos
  have hinj : Function.Injective f := by
    intro i j hij
    have e1 : (g'.xlocs.zip g'.ylocs)[(i : ℕ)]? = some ((((f i).1 : ℕ) : ℝ), (((f i).2 : ℕ) : ℝ)) :=
      List.getElem?_zip_eq_some.2 ⟨hfx i, hfy i⟩
    have e2 : (g'.xlocs.zip g'.ylocs)[(j : ℕ)]? = some ((((f i).1 : ℕ) : ℝ), (((f i).2 : ℕ) : ℝ)) :=
      List.getElem?_zip_eq_some.2 ⟨by rw [hij]; exact hfx j, by rw [hij]; exact hfy j⟩
    have hi : (i : ℕ) < (g'.xlocs.zip g'.ylocs).length := (List.getElem?_eq_some_iff.1 e1).1
    exact Fin.ext ((List.getElem?_inj hi hnd).1 (e1.trans e2.symm))
  have hadj := fun i j : Fin g'.nsites => C51_square nx ny (by omega) (by omega) harea 0 0 false false h1 h2 hg (hfx i) (hfy i) (hfx j) (hfy j)
  refine ⟨⟨L, hgl, by rw [q4]; rfl, by rw [q5]; rfl, hgood.periods,
    Equiv.ofBijective f ((Fintype.bijective_iff_injective_and_card f).2 ⟨hinj, by simp [hN]⟩), hwf, hfx, hfy,
    fun i j => (hadj i j).1, fun i j => ?_⟩⟩
  rw [(hadj i j).2]
  constructor
  · rintro ⟨k, l, -, -, h⟩
    exact ⟨k, l, h⟩
  · rintro ⟨k, l, h⟩
    exact ⟨k, l, by simp, by simp, h⟩

namespace Grid

variable (G : Grid g nx ny)

include G

theorem at_site (i : Fin g.nsites) : g.at i = ((((G.σ i).1 : ℕ) : ℝ), (((G.σ i).2 : ℕ) : ℝ)) := by
  unfold Geometry.at
  rw [List.getD_eq_getElem?_getD, List.getD_eq_getElem?_getD, G.xloc, G.yloc]
  rfl

/-- No two sites are the same up to periods. -/
theorem separated (i j : Fin g.nsites) (hij : i ≠ j) : ¬ Lands g (1 / 10 ^ 10) (g.at i) (g.at j) := by
  intro hl
  unfold Lands at hl
  rw [G.lattice] at hl
  rw [G.at_site i, G.at_site j] at hl
  obtain ⟨c, d, hc, hd, h1, h2⟩ := hl
  have hred : ∀ (v : Fin nx × Fin ny) (c : Reduced), reduceVectors G.L.per1 G.L.per2 [((v.1 : ℕ) : ℝ)] [((v.2 : ℕ) : ℝ)] "centered" = .ok [c] →
      ∃ a b : ℤ, c.x = (((v.1 : ℤ) - a * nx : ℤ) : ℝ) ∧ c.y = (((v.2 : ℤ) - b * ny : ℤ) : ℝ) := by
    intro v c hc
    obtain ⟨rs, hrs, -, h⟩ := C48_subtracts G.periods (xs := [((v.1 : ℕ) : ℝ)]) (ys := [((v.2 : ℕ) : ℝ)]) rfl (Or.inr rfl)
    rw [hc] at hrs
    injection hrs with hrs
    subst hrs
    obtain ⟨c', hc', e⟩ := h 0 _ _ rfl rfl
    injection hc' with hc'
    subst hc'
    rw [G.per1, G.per2, zsmul_pair, zsmul_pair] at e
    have e1 := congrArg Prod.fst e
    have e2 := congrArg Prod.snd e
    simp only [Prod.fst_add, Prod.snd_add, mul_zero, add_zero] at e1 e2
    refine ⟨c.n1, c.n2, ?_, ?_⟩
    · push_cast
      linarith
    · push_cast
      linarith
  obtain ⟨a, b, ha, hb⟩ := hred _ c hc
  obtain ⟨a', b', ha', hb'⟩ := hred _ d hd
  have key : ∀ p q : ℤ, |(p : ℝ) - q| < 1 / 10 ^ 10 → p = q := by
    intro p q h
    have : |((p - q : ℤ) : ℝ)| < 1 := by
      push_cast
      exact lt_trans h (by norm_num)
    rw [← Int.cast_abs] at this
    have h' : |p - q| < 1 := by exact_mod_cast this
    rw [Int.abs_lt_one_iff] at h'
    omega
  rw [ha, ha'] at h1
  rw [hb, hb'] at h2
  have e1 := key _ _ h1
  have e2 := key _ _ h2
  refine hij (G.σ.injective (Prod.ext (fin_modEq ?_) (fin_modEq ?_)))
  · exact Int.modEq_iff_dvd.2 ⟨a' - a, by linarith⟩
  · exact Int.modEq_iff_dvd.2 ⟨b' - b, by linarith⟩

/-- The permutation of the sites. -/
def perm (ρ : Equiv.Perm (Fin nx × Fin ny)) : Equiv.Perm (Fin g.nsites) := G.σ.symm.permCongr ρ

theorem perm_apply (ρ : Equiv.Perm (Fin nx × Fin ny)) (i : Fin g.nsites) : G.σ (G.perm ρ i) = ρ (G.σ i) := by
  simp [perm, Equiv.permCongr_apply]

theorem perm_mul (ρ ρ' : Equiv.Perm (Fin nx × Fin ny)) : G.perm (ρ * ρ') = G.perm ρ * G.perm ρ' := by
  ext i : 1
  apply G.σ.injective
  simp [perm_apply, Equiv.Perm.mul_apply]

theorem perm_one : G.perm 1 = 1 := by
  ext i : 1
  apply G.σ.injective
  simp [perm_apply]

theorem perm_pow (ρ : Equiv.Perm (Fin nx × Fin ny)) (k : ℕ) : G.perm (ρ ^ k) = G.perm ρ ^ k := by
  induction k with
  | zero => exact G.perm_one
  | succ k ih => rw [pow_succ, pow_succ, perm_mul, ih]

theorem perm_eq_one {ρ : Equiv.Perm (Fin nx × Fin ny)} (h : G.perm ρ = 1) : ρ = 1 := by
  ext v : 1
  obtain ⟨i, rfl⟩ := G.σ.surjective v
  rw [← perm_apply, h]
  rfl

variable {ρ : Equiv.Perm (Fin nx × Fin ny)} {a b : ℤ} (hρ : Shift ρ a b)

include hρ

theorem step (i : Fin g.nsites) : ∃ k l : ℤ, (((G.σ (G.perm ρ i)).1 : ℕ) : ℝ) = ((G.σ i).1 : ℕ) + a - k * nx ∧
    (((G.σ (G.perm ρ i)).2 : ℕ) : ℝ) = ((G.σ i).2 : ℕ) + b - l * ny := by
  rw [G.perm_apply]
  obtain ⟨k, hk⟩ := Int.modEq_iff_dvd.1 (hρ (G.σ i)).1
  obtain ⟨l, hl⟩ := Int.modEq_iff_dvd.1 (hρ (G.σ i)).2
  have h1 := congrArg (Int.cast (R := ℝ)) hk
  have h2 := congrArg (Int.cast (R := ℝ)) hl
  push_cast at h1 h2
  exact ⟨k, l, by linarith, by linarith⟩

theorem moves : MovesSites g (1 / 10 ^ 10) (getTranslFn ((a : ℝ), (b : ℝ))) (G.perm ρ) := by
  refine C39_periodic G.lattice G.periods (by norm_num) (fun i => ?_) G.separated
  obtain ⟨k, l, hk, hl⟩ := G.step hρ i
  rw [G.at_site, G.at_site, G.per1, G.per2, hk, hl]
  refine ⟨k, l, ?_⟩
  rw [zsmul_pair, zsmul_pair]
  unfold getTranslFn
  ext <;> simp

theorem adjacency (i j : Fin g.nsites) : g.adjacency.e (G.perm ρ i) (G.perm ρ j) = g.adjacency.e i j := by
  obtain ⟨k, l, hk, hl⟩ := G.step hρ i
  obtain ⟨k', l', hk', hl'⟩ := G.step hρ j
  have key : g.adjacency.e (G.perm ρ i) (G.perm ρ j) = 1 ↔ g.adjacency.e i j = 1 := by
    rw [G.adj, G.adj, hk, hl, hk', hl']
    constructor
    · rintro ⟨p, q, h⟩
      refine ⟨p - k + k', q - l + l', ?_⟩
      convert h using 2 <;> push_cast <;> ring
    · rintro ⟨p, q, h⟩
      refine ⟨p + k - k', q + l - l', ?_⟩
      convert h using 2 <;> push_cast <;> ring
  rcases G.adj01 i j with h | h
  · rcases G.adj01 (G.perm ρ i) (G.perm ρ j) with h' | h'
    · rw [h, h']
    · have := key.1 h'
      rw [h, h']
      rw [h] at this
      exact this.symm
  · rw [h]
    exact key.2 h

/-- The search for cycles finds the translation and its order. -/
theorem cycles (hx : 0 < nx) (hy : 0 < ny) (hn : 2 ≤ g.nsites) {k : ℕ} (hk : 0 < k) (hk' : k ≤ g.nsites)
    (hord : ∀ m : ℕ, (nx : ℤ) ∣ m * a ∧ (ny : ℤ) ∣ m * b ↔ k ∣ m) :
    ∃ cs : List (List (Fin g.nsites)), findSiteCycles (getTranslFn ((a : ℝ), (b : ℝ))) g (1 / 10 ^ 10) = .ok (siteNumbers cs, k) ∧
      CyclesOf cs (G.perm ρ) := by
  have hmove := G.moves hρ
  have hpk : G.perm ρ ^ k = 1 := by
    obtain ⟨h1, h2⟩ := (hord k).2 dvd_rfl
    rw [← G.perm_pow, hρ.pow_eq_one h1 h2, G.perm_one]
  obtain ⟨cycles, m, h⟩ := C39_complete G.wf (by omega) hmove hk hk' hpk
  obtain ⟨π, hπ, ⟨cs, hcs, hcyc, -⟩, hpow, m1, m2, hmin⟩ := C39_sound G.wf hn h
  have heq : π = G.perm ρ := by
    ext i
    rcases lt_trichotomy (π i) (G.perm ρ i) with hlt | heq | hgt
    · exact absurd (hπ i).1 ((hmove i).2 _ hlt)
    · rw [heq]
    · exact absurd (hmove i).1 ((hπ i).2 _ hgt)
  subst heq
  have hdvd : k ∣ m := by
    rw [← G.perm_pow] at hpow
    exact (hord m).1 (hρ.dvd hx hy (G.perm_eq_one hpow))
  have hm : m = k := by
    refine le_antisymm ?_ (Nat.le_of_dvd (by omega) hdvd)
    by_contra hlt
    exact hmin k hk (by omega) hpk
  subst hm hcs
  exact ⟨cs, h, hcyc⟩

end Grid

end ED.Props
