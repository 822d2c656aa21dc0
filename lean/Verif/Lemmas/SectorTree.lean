import Verif.Lemmas.Cells
import Verif.Lemmas.MomentumSectors

/-! # Sectors inside sectors: magnetization, momentum, spin flip and inversion -/

namespace ED

open Matrix Spec

variable {d : ℕ}

/-- A sector of the script with its rows, and exact rows close to them. -/
structure Leaf (d : ℕ) where
  s : SpinSector
  Q : Rows d
  m : ℕ
  X : Matrix (Fin m) (Fin d) ℂ

/-- The quantum numbers of a sector. -/
def SpinSector.label (s : SpinSector) : ℂ × ℝ × ℝ × ℝ := (s.mz, s.kx, s.spin, s.space)

/-- Sectors of the Hamiltonian which are orthogonal and have different quantum numbers. -/
def Leaf.Apart (H : Matrix (Fin d) (Fin d) ℂ) (l l' : Leaf d) : Prop :=
  l.X * l'.Xᴴ = 0 ∧ l.X * H * l'.Xᴴ = 0 ∧ l.s.label ≠ l'.s.label

/-- The sectors `out` divide the space of the rows `X₀`. -/
def Covers (H : Matrix (Fin d) (Fin d) ℂ) {m₀ : ℕ} (Q₀ : Rows d) (X₀ : Matrix (Fin m₀) (Fin d) ℂ) (κ : ℝ) (P : Leaf d → Prop)
    (out : List SpinSector) : Prop :=
  ∃ ls : List (Leaf d), out = ls.map Leaf.s ∧
    (∀ l ∈ ls, RowsOf l.s.proj l.Q ∧ l.Q ≠ [] ∧ NearRows l.Q l.X κ ∧ l.X * l.Xᴴ = 1 ∧
      (∃ Y : Matrix (Fin l.m) (Fin m₀) ℂ, l.X = Y * X₀) ∧ P l) ∧
    ls.Pairwise (Leaf.Apart H) ∧ (ls.map fun l => l.Q.length).sum = Q₀.length

theorem Covers.nil {H : Matrix (Fin d) (Fin d) ℂ} {m₀ : ℕ} {Q₀ : Rows d} {X₀ : Matrix (Fin m₀) (Fin d) ℂ} {κ : ℝ} {P : Leaf d → Prop}
    (h : Q₀.length = 0) : Covers H Q₀ X₀ κ P [] :=
  ⟨[], rfl, fun _ h => absurd h (List.not_mem_nil), List.Pairwise.nil, h.symm⟩

theorem Covers.single {H : Matrix (Fin d) (Fin d) ℂ} {m₀ : ℕ} {Q₀ : Rows d} {X₀ : Matrix (Fin m₀) (Fin d) ℂ} {κ : ℝ} {P : Leaf d → Prop}
    (h : Q₀.length ≠ 0) (s : SpinSector) (hs : RowsOf s.proj Q₀) (hn : NearRows Q₀ X₀ κ) (hX : X₀ * X₀ᴴ = 1) (hP : P ⟨s, Q₀, m₀, X₀⟩) :
    Covers H Q₀ X₀ κ P [s] := by
  refine ⟨[⟨s, Q₀, m₀, X₀⟩], rfl, fun l hl => ?_, List.pairwise_singleton _ _, by simp⟩
  rw [List.mem_singleton] at hl
  subst hl
  exact ⟨hs, fun e => h (congrArg List.length e), hn, hX, ⟨1, (Matrix.one_mul _).symm⟩, hP⟩

theorem Covers.mono {H : Matrix (Fin d) (Fin d) ℂ} {m₀ : ℕ} {Q₀ : Rows d} {X₀ : Matrix (Fin m₀) (Fin d) ℂ} {κ κ' : ℝ}
    {P P' : Leaf d → Prop} {out : List SpinSector} (h : Covers H Q₀ X₀ κ P out) (hκ : κ ≤ κ') (hP : ∀ l, P l → P' l) :
    Covers H Q₀ X₀ κ' P' out := by
  obtain ⟨ls, h1, h2, h3, h4⟩ := h
  exact ⟨ls, h1, fun l hl => by
    obtain ⟨a1, a2, a3, a4, a5, a6⟩ := h2 l hl
    exact ⟨a1, a2, a3.mono hκ, a4, a5, hP l a6⟩, h3, h4⟩

/-- Sectors inside sectors. -/
theorem Covers.bind {H : Matrix (Fin d) (Fin d) ℂ} {m₀ : ℕ} {Q₀ : Rows d} {X₀ : Matrix (Fin m₀) (Fin d) ℂ} {κ : ℝ} {ι : Type}
    {L : List ι} {Q : ι → Rows d} {m : ι → ℕ} {X : ∀ i, Matrix (Fin (m i)) (Fin d) ℂ} {P : ι → Leaf d → Prop} {out : ι → List SpinSector}
    (h : ∀ i ∈ L, Covers H (Q i) (X i) κ (P i) (out i)) (hX : ∀ i ∈ L, ∃ Y : Matrix (Fin (m i)) (Fin m₀) ℂ, X i = Y * X₀)
    (hp : L.Pairwise fun i j => X i * (X j)ᴴ = 0 ∧ X i * H * (X j)ᴴ = 0 ∧ ∀ l l' : Leaf d, P i l → P j l' → l.s.label ≠ l'.s.label)
    (hs : (L.map fun i => (Q i).length).sum = Q₀.length) :
    Covers H Q₀ X₀ κ (fun l => ∃ i ∈ L, P i l) (L.map out).flatten := by
  classical
  have hex : ∀ i, ∃ ls : List (Leaf d), i ∈ L → out i = ls.map Leaf.s ∧
    (∀ l ∈ ls, RowsOf l.s.proj l.Q ∧ l.Q ≠ [] ∧ NearRows l.Q l.X κ ∧ l.X * l.Xᴴ = 1 ∧
      (∃ Y : Matrix (Fin l.m) (Fin (m i)) ℂ, l.X = Y * X i) ∧ P i l) ∧
    ls.Pairwise (Leaf.Apart H) ∧ (ls.map fun l => l.Q.length).sum = (Q i).length := by
    intro i
    by_cases hi : i ∈ L
    · obtain ⟨ls, hls⟩ := h i hi
      exact ⟨ls, fun _ => hls⟩
    · exact ⟨[], fun h => absurd h hi⟩
  choose ls hls using hex
  refine ⟨(L.map ls).flatten, ?_, ?_, ?_, ?_⟩
  · rw [List.map_flatten, List.map_map]
    congr 1
    exact List.map_congr_left fun i hi => (hls i hi).1
  · intro l hl
    obtain ⟨q, hq, hl⟩ := List.mem_flatten.1 hl
    obtain ⟨i, hi, rfl⟩ := List.mem_map.1 hq
    obtain ⟨a1, a2, a3, a4, ⟨Y, a5⟩, a6⟩ := (hls i hi).2.1 l hl
    obtain ⟨Z, hZ⟩ := hX i hi
    exact ⟨a1, a2, a3, a4, ⟨Y * Z, by rw [a5, hZ, Matrix.mul_assoc]⟩, i, hi, a6⟩
  · rw [List.pairwise_flatten]
    constructor
    · intro q hq
      obtain ⟨i, hi, rfl⟩ := List.mem_map.1 hq
      exact (hls i hi).2.2.1
    · rw [List.pairwise_map]
      refine List.Pairwise.imp_of_mem ?_ hp
      intro i j hi hj hij l hl l' hl'
      obtain ⟨-, -, -, -, ⟨Y, hY⟩, hP⟩ := (hls i hi).2.1 l hl
      obtain ⟨-, -, -, -, ⟨Z, hZ⟩, hP'⟩ := (hls j hj).2.1 l' hl'
      refine ⟨?_, ?_, hij.2.2 l l' hP hP'⟩
      · rw [hY, hZ, conjTranspose_mul, Matrix.mul_assoc, ← Matrix.mul_assoc (X i), hij.1, Matrix.zero_mul, Matrix.mul_zero]
      · rw [hY, hZ, conjTranspose_mul]
        calc Y * X i * H * ((X j)ᴴ * Zᴴ) = Y * (X i * H * (X j)ᴴ) * Zᴴ := by simp only [Matrix.mul_assoc]
          _ = 0 := by rw [hij.2.1, Matrix.mul_zero, Matrix.zero_mul]
  · rw [List.map_flatten, List.map_map, List.sum_flatten, List.map_map, ← hs]
    congr 1
    exact List.map_congr_left fun i hi => (hls i hi).2.2.2

/-! ## Parities -/

theorem npRound0_int (k : ℤ) : npRound 0 (k : ℝ) = k := by
  unfold npRound
  rw [pow_zero, mul_one, div_one, rint_eq_of (m := k) (by simp)]

theorem parityOf_zero : parityOf (2 * Real.pi * ((0 : ℕ) : ℝ) / ((2 : ℕ) : ℝ)) = 1 := by
  have e : (Complex.exp (Complex.I * ((2 * Real.pi * ((0 : ℕ) : ℝ) / ((2 : ℕ) : ℝ) : ℝ) : ℂ))).re = ((1 : ℤ) : ℝ) := by
    simp
  unfold parityOf
  rw [e, npRound0_int]
  simp

theorem parityOf_one : parityOf (2 * Real.pi * ((1 : ℕ) : ℝ) / ((2 : ℕ) : ℝ)) = -1 := by
  have e : (Complex.exp (Complex.I * ((2 * Real.pi * ((1 : ℕ) : ℝ) / ((2 : ℕ) : ℝ) : ℝ) : ℂ))).re = ((-1 : ℤ) : ℝ) := by
    have : (2 * Real.pi * ((1 : ℕ) : ℝ) / ((2 : ℕ) : ℝ) : ℝ) = Real.pi := by push_cast; ring
    rw [this, mul_comm, Complex.exp_pi_mul_I]
    simp
  unfold parityOf
  rw [e, npRound0_int]
  simp

theorem omega_two {k : ℕ} (hk : k < 2) : omega 2 k = ((parityOf (2 * Real.pi * (k : ℝ) / ((2 : ℕ) : ℝ)) : ℝ) : ℂ) := by
  interval_cases k
  · rw [parityOf_zero]
    simp [omega]
  · rw [parityOf_one]
    unfold omega
    have : (-2 * (Real.pi : ℂ) * Complex.I / (2 : ℕ) * (1 : ℕ)) = -(Real.pi * Complex.I) := by push_cast; ring
    rw [this, Complex.exp_neg, Complex.exp_pi_mul_I]
    simp

theorem parityOf_two {k : ℕ} (hk : k < 2) : parityOf (2 * Real.pi * (k : ℝ) / ((2 : ℕ) : ℝ)) = 1 ∨
    parityOf (2 * Real.pi * (k : ℝ) / ((2 : ℕ) : ℝ)) = -1 := by
  interval_cases k
  · exact Or.inl parityOf_zero
  · exact Or.inr parityOf_one

theorem parityOf_inj {k l : ℕ} (hk : k < 2) (hl : l < 2)
    (h : parityOf (2 * Real.pi * (k : ℝ) / ((2 : ℕ) : ℝ)) = parityOf (2 * Real.pi * (l : ℝ) / ((2 : ℕ) : ℝ))) : k = l :=
  omega_inj two_ne_zero hk hl (by rw [omega_two hk, omega_two hl, h])

theorem momentum_inj {n a b : ℕ} (hn : 0 < n) (h : 2 * Real.pi * (a : ℝ) / (n : ℝ) = 2 * Real.pi * (b : ℝ) / (n : ℝ)) : a = b := by
  have : (n : ℝ) ≠ 0 := by exact_mod_cast hn.ne'
  rw [div_left_inj' this, mul_right_inj' (by positivity)] at h
  exact_mod_cast h

theorem omega_exp (n k : ℕ) : omega n k = Complex.exp (-(Complex.I * ((2 * Real.pi * (k : ℝ) / (n : ℝ) : ℝ) : ℂ))) := by
  unfold omega
  congr 1
  push_cast
  ring

theorem omega_self_inverse {n k : ℕ} (h : 2 * Real.pi * (k : ℝ) / (n : ℝ) = 0 ∨ 2 * Real.pi * (k : ℝ) / (n : ℝ) = Real.pi) :
    omega n k * omega n k = 1 := by
  rw [omega_exp, ← Complex.exp_add]
  rcases h with h | h
  · rw [h]
    simp
  · rw [h, show -(Complex.I * (Real.pi : ℂ)) + -(Complex.I * (Real.pi : ℂ)) = -(2 * Real.pi * Complex.I) by ring, Complex.exp_neg,
      Complex.exp_two_pi_mul_I, inv_one]

/-! ## Permutations of the basis -/

theorem Mono.perm_eq {U : Matrix (Fin d) (Fin d) ℂ} {σ σ' : Equiv.Perm (Fin d)} {u u' : Fin d → ℂ} (h : Mono U σ u) (h' : Mono U σ' u') :
    σ = σ' := by
  ext i
  have h1 := h.entry i (σ i)
  rw [if_pos rfl, h'.entry] at h1
  have hne : u i ≠ 0 := fun h0 => by
    have := h.norm i
    rw [h0, norm_zero] at this
    exact zero_ne_one this
  by_contra hc
  rw [if_neg (fun e => hc (congrArg Fin.val e))] at h1
  exact hne h1.symm

theorem Mono.mul' {U V : Matrix (Fin d) (Fin d) ℂ} {σ ρ : Equiv.Perm (Fin d)} {u v : Fin d → ℂ} (h : Mono U σ u) (h' : Mono V ρ v) :
    Mono (U * V) (ρ * σ) fun i => u i * v (σ i) := by
  refine ⟨fun i => by rw [norm_mul, h.norm, h'.norm, mul_one], fun i j => ?_⟩
  rw [mul_apply, Finset.sum_eq_single (σ i)]
  · rw [h.entry, if_pos rfl, h'.entry, mul_ite, mul_zero]
    rfl
  · intro b _ hb
    rw [h.entry, if_neg hb, zero_mul]
  · simp

/-- Rows that occur when one symmetry divides a space. -/
theorem split_apart {V H : Matrix (Fin d) (Fin d) ℂ} (hV : V * Vᴴ = 1) (hc : V * H = H * V) {n : ℕ} (hn : 0 < n) {m : ℕ → ℕ}
    {X : ∀ k, Matrix (Fin (m k)) (Fin d) ℂ} (hX : ∀ k < n, X k * V = omega n k • X k) {k l : ℕ} (hk : k < n) (hl : l < n) (hkl : k ≠ l) :
    X k * (X l)ᴴ = 0 ∧ X k * H * (X l)ᴴ = 0 := by
  have hne : omega n k ≠ omega n l := fun e => hkl (omega_inj hn.ne' hk hl e)
  have h1 := eigen_block (H := 1) hV (by rw [Matrix.mul_one, Matrix.one_mul]) (hX k hk) (hX l hl) (omega_norm _ _) hne
  rw [Matrix.mul_one] at h1
  exact ⟨h1, eigen_block hV hc (hX k hk) (hX l hl) (omega_norm _ _) hne⟩

theorem sum_filter_length {ι : Type} (l : List ι) (f : ι → ℕ) :
    ((l.filter fun i => decide (f i ≠ 0)).map f).sum = (l.map f).sum := by
  induction l with
  | nil => rfl
  | cons k l ih =>
    by_cases hk : f k = 0
    · rw [List.filter_cons_of_neg (by simpa using hk), List.map_cons, List.sum_cons, hk, zero_add, ih]
    · rw [List.filter_cons_of_pos (by simpa using hk), List.map_cons, List.map_cons, List.sum_cons, List.sum_cons, ih]

/-! ## The symmetries of the chain -/

/-- Translation, spin flip and inversion of a chain. -/
structure ChainSymmetries (T F I H : Matrix (Fin d) (Fin d) ℂ) (lab : Fin d → ℂ) (n : ℕ) : Prop where
  pos : 0 < n
  small : n < 10 ^ 4
  translation : PhasePermutation T
  flip : PhasePermutation F
  inversion : PhasePermutation I
  powT : T ^ n = 1
  powF : F ^ 2 = 1
  powI : I ^ 2 = 1
  flipT : T * F = F * T
  flipI : I * F = F * I
  reverse : T * I * T = I
  commT : T * H = H * T
  commF : F * H = H * F
  commI : I * H = H * I
  labT : ∀ i j, lab i ≠ lab j → T i j = 0
  labI : ∀ i j, lab i ≠ lab j → I i j = 0
  labH : ∀ i j, lab i ≠ lab j → H i j = 0
  labF : ∀ i j, lab i ≠ - lab j → F i j = 0

/-- The exact rows have the quantum numbers of the sector. -/
structure HasNumbers (T F I : Matrix (Fin d) (Fin d) ℂ) (lab : Fin d → ℂ) (n : ℕ) (l : Leaf d) : Prop where
  mz : ∀ i j, lab j ≠ l.s.mz → l.X i j = 0
  kx : ∃ q < n, l.s.kx = 2 * Real.pi * (q : ℝ) / (n : ℝ)
  momentum : l.X * T = Complex.exp (-(Complex.I * (l.s.kx : ℂ))) • l.X
  spin : if l.s.mz = 0 then (l.s.spin = 1 ∨ l.s.spin = -1) ∧ l.X * F = (l.s.spin : ℂ) • l.X else l.s.spin = 0
  space : if l.s.kx = 0 ∨ l.s.kx = Real.pi then (l.s.space = 1 ∨ l.s.space = -1) ∧ l.X * I = (l.s.space : ℂ) • l.X else l.s.space = 0

variable {T F I H : Matrix (Fin d) (Fin d) ℂ} {lab : Fin d → ℂ} {n : ℕ}

/-- The last step: inversion. -/
theorem inversion_covers (h : ChainSymmetries T F I H lab n) {m : ℕ} {r : Setoid (Fin d)} {Q : Rows d} {X : Matrix (Fin m) (Fin d) ℂ}
    (hX : CellRows r Q X (7 / 10 ^ 13)) {ρ : Equiv.Perm (Fin d)} {v : Fin d → ℂ} (hI : Mono I ρ v) (hr : ∀ i j, r (ρ i) (ρ j) ↔ r i j)
    {q : ℕ} (hq : q < n) (hT : X * T = omega n q • X) {mz : ℂ} {kx spin : ℝ} (hkx : kx = 2 * Real.pi * (q : ℝ) / (n : ℝ))
    (hinv : kx = 0 ∨ kx = Real.pi → ∃ M, X * I = M * X) (hmz : ∀ i j, lab j ≠ mz → X i j = 0)
    (hspin : if mz = 0 then (spin = 1 ∨ spin = -1) ∧ X * F = (spin : ℂ) • X else spin = 0)
    {p inv : Mat} (hp : RowsOf p Q) (hinvM : inv.Is I) :
    ∃ out, inversionSectors inv mz kx spin p = .ok out ∧
      Covers H Q X (1 / 10 ^ 11) (fun l => HasNumbers T F I lab n l ∧ l.s.mz = mz ∧ l.s.kx = kx ∧ l.s.spin = spin) out := by
  classical
  have hrows : p.rows = Q.length := by
    have := hp.1
    simpa using this
  have hTk : X * T = Complex.exp (-(Complex.I * (kx : ℂ))) • X := by rw [hT, omega_exp, hkx]
  by_cases h0 : p.rows = 0
  · refine ⟨[], ?_, Covers.nil (by rw [← hrows]; exact h0)⟩
    unfold inversionSectors
    rw [if_pos h0]
    rfl
  by_cases hk : kx = 0 ∨ kx = Real.pi
  swap
  · refine ⟨[⟨mz, kx, spin, 0, p⟩], ?_, ?_⟩
    · unfold inversionSectors
      rw [if_neg h0, if_neg hk]
      rfl
    · refine Covers.single (by rw [← hrows]; exact h0) _ hp (hX.near.mono (by norm_num)) hX.unit ⟨⟨hmz, ⟨q, hq, hkx⟩, hTk, hspin, ?_⟩, rfl, rfl, rfl⟩
      rw [if_neg hk]
  obtain ⟨Qs, Ms, s1, s2, s3⟩ := hX.split hI hr (hinv hk) (n := 2) two_pos (by norm_num) h.powI (by norm_num) (δ := 3 / 10 ^ 12)
    (by norm_num) (by norm_num) hp hinvM
  have s3' : ∀ k, ∃ (m' : ℕ) (X' : Matrix (Fin m') (Fin d) ℂ), k < 2 → RowsOf (Ms k) (Qs k) ∧
      NearRows (Qs k) X' (1 / 10 ^ 11) ∧ X' * X'ᴴ = 1 ∧ X' * I = omega 2 k • X' ∧ ∃ Y : Matrix (Fin m') (Fin m) ℂ, X' = Y * X := by
    intro k
    by_cases hk : k < 2
    · obtain ⟨a1, m', X', a2, a3, a4, -⟩ := s3 k hk
      exact ⟨m', X', fun _ => ⟨a1, a2.near.mono (by norm_num), a2.unit, a3, a4⟩⟩
    · exact ⟨0, 0, fun h => absurd h hk⟩
  choose m' X' s4 using s3'
  have hlen : ∀ k < 2, (Ms k).rows = (Qs k).length := by
    intro k hk
    have := (s4 k hk).1.1
    simpa using this
  set L : List ℕ := (List.range 2).filter fun k => decide ((Qs k).length ≠ 0) with hL
  have hmem : ∀ k ∈ L, k < 2 ∧ (Qs k).length ≠ 0 := by
    intro k hk
    obtain ⟨h1, h2⟩ := List.mem_filter.1 hk
    exact ⟨List.mem_range.1 h1, by simpa using h2⟩
  set sec : ℕ → SpinSector := fun k => ⟨mz, kx, spin, parityOf (2 * Real.pi * (k : ℝ) / ((2 : ℕ) : ℝ)), Ms k⟩ with hsec
  refine ⟨L.map sec, ?_, ?_⟩
  · unfold inversionSectors
    rw [if_neg h0, if_pos hk, s1]
    simp only [bind, Except.bind, pure, Except.pure]
    congr 1
    rw [List.filter_map, List.map_map, hL]
    congr 1
    refine List.filter_congr fun k hk => ?_
    simp only [Function.comp]
    rw [hlen k (List.mem_range.1 hk)]
  · have hb := Covers.bind (H := H) (Q₀ := Q) (X₀ := X) (κ := 1 / 10 ^ 11) (L := L) (Q := Qs) (m := m') (X := X')
      (P := fun k l => (HasNumbers T F I lab n l ∧ l.s.mz = mz ∧ l.s.kx = kx ∧ l.s.spin = spin) ∧
        l.s.space = parityOf (2 * Real.pi * (k : ℝ) / ((2 : ℕ) : ℝ))) (out := fun k => [sec k]) ?_ ?_ ?_ ?_
    · have e : (L.map fun k => [sec k]).flatten = L.map sec := by
        induction L with
        | nil => rfl
        | cons a l ih => simp [ih]
      rw [e] at hb
      exact hb.mono le_rfl fun l hl => by
        obtain ⟨k, -, h1, -⟩ := hl
        exact h1
    · intro k hk
      obtain ⟨hk2, hne⟩ := hmem k hk
      obtain ⟨a1, a2, a3, a4, Y, a5⟩ := s4 k hk2
      refine Covers.single hne _ a1 a2 a3 ⟨⟨⟨?_, ⟨q, hq, hkx⟩, ?_, ?_, ?_⟩, rfl, rfl, rfl⟩, rfl⟩
      · intro i j hj
        simp only [hsec] at hj ⊢
        rw [a5, mul_apply]
        exact Finset.sum_eq_zero fun c _ => by rw [hmz c j hj, mul_zero]
      · simp only [hsec]
        rw [a5, Matrix.mul_assoc, hTk, Matrix.mul_smul]
      · simp only [hsec]
        by_cases h0 : mz = 0
        · rw [if_pos h0] at hspin ⊢
          refine ⟨hspin.1, ?_⟩
          rw [a5, Matrix.mul_assoc, hspin.2, Matrix.mul_smul]
        · rw [if_neg h0] at hspin ⊢
          exact hspin
      · simp only [hsec]
        rw [if_pos (by assumption)]
        refine ⟨parityOf_two hk2, ?_⟩
        rw [a4, omega_two hk2]
    · intro k hk
      exact (s4 k (hmem k hk).1).2.2.2.2
    · have hnd : L.Nodup := List.nodup_range.filter _
      refine List.Pairwise.imp_of_mem ?_ hnd
      intro k l hk hl hkl
      have := split_apart hI.unitary' h.commI two_pos (fun k hk => (s4 k hk).2.2.2.1) (hmem k hk).1 (hmem l hl).1 hkl
      refine ⟨this.1, this.2, fun a b ha hb e => hkl ?_⟩
      refine parityOf_inj (hmem k hk).1 (hmem l hl).1 ?_
      rw [← ha.2, ← hb.2]
      exact congrArg (fun t => t.2.2.2) e
    · rw [hL, sum_filter_length (List.range 2) fun k => (Qs k).length]
      exact s2

/-- The rows of selected states. -/
theorem cellRows_sel {r : ℕ} {sel : Fin r → Fin d} (hi : Function.Injective sel) :
    CellRows (⊥ : Setoid (Fin d)) (List.ofFn fun a => selMat sel a) (selMat sel) 0 := by
  have e : ∀ a : Fin r, (List.ofFn fun a => selMat sel a : Rows d).getD a 0 = selMat sel a := by
    intro a
    rw [getD_get _ _ (by simp)]
    simp
  refine ⟨selMat_unit hi, ⟨by simp, fun c => ?_⟩, sel, fun a b hab => hi hab, fun a j hj => ?_⟩
  · rw [zero_mul, rnorm_eq]
    simp only [e]
    simp
  · rw [e, or_self] at hj
    by_contra hc
    exact hj (if_neg fun e => hc e.symm)

theorem rowsOf_sel {P : Mat} {sel : Fin P.rows → Fin d} (h : P.Is (selMat sel)) : RowsOf P (List.ofFn fun a => selMat sel a) := by
  refine ⟨by simp, h.2.1, fun a j => ?_⟩
  have := h.2.2 (Fin.cast (by simp) a) j
  refine this.trans ?_
  simp
  rfl

/-- The step of the spin flip. -/
theorem flip_covers (h : ChainSymmetries T F I H lab n) {m : ℕ} {r : Setoid (Fin d)} {Q : Rows d} {X : Matrix (Fin m) (Fin d) ℂ}
    (hX : CellRows r Q X (3 / 10 ^ 14)) {ρF : Equiv.Perm (Fin d)} {vF : Fin d → ℂ} (hF : Mono F ρF vF)
    (hrF : ∀ i j, r (ρF i) (ρF j) ↔ r i j) (hFX : ∃ M, X * F = M * X) {ρI : Equiv.Perm (Fin d)} {vI : Fin d → ℂ} (hI : Mono I ρI vI)
    (hrI : ∀ i j, joinCells r ρF hrF (ρI i) (ρI j) ↔ joinCells r ρF hrF i j) {k : ℕ} (hk : k < n) (hT : X * T = omega n k • X)
    {mz : ℂ} (h0 : mz = 0)
    (key : (2 * Real.pi * (k : ℝ) / (n : ℝ) = 0 ∨ 2 * Real.pi * (k : ℝ) / (n : ℝ) = Real.pi) → ∃ M : Matrix (Fin m) (Fin m) ℂ, X * I = M * X)
    (hmz : ∀ i j, lab j ≠ mz → X i j = 0) {p flip inv : Mat} (hp : RowsOf p Q) (hflip : flip.Is F) (hinv : inv.Is I) :
    ∃ out, (do
        let fs ← splitBy p flip 2
        let ms ← fs.mapM fun f => inversionSectors inv mz (2 * Real.pi * (k : ℝ) / (n : ℝ)) (parityOf f.1) f.2
        pure ms.flatten : Res (List SpinSector)) = .ok out ∧
      Covers H Q X (1 / 10 ^ 11)
        (fun l => (HasNumbers T F I lab n l ∧ l.s.mz = mz) ∧ l.s.kx = 2 * Real.pi * (k : ℝ) / (n : ℝ)) out := by
  obtain ⟨Qf, Mf, f1, f2, f3⟩ := hX.split hF hrF hFX (n := 2) two_pos (by norm_num) h.powF (by norm_num) (δ := 2 / 10 ^ 13)
    (by norm_num) (by norm_num) hp hflip
  have f3' : ∀ p, ∃ (mf : ℕ) (Xf : Matrix (Fin mf) (Fin d) ℂ), p < 2 → RowsOf (Mf p) (Qf p) ∧
      CellRows (joinCells r ρF hrF) (Qf p) Xf (7 / 10 ^ 13) ∧ Xf * F = omega 2 p • Xf ∧
      (∃ Y : Matrix (Fin mf) (Fin m) ℂ, Xf = Y * X) ∧ ∀ W : Matrix (Fin mf) (Fin d) ℂ,
        (∃ Z : Matrix (Fin mf) (Fin m) ℂ, W = Z * X) → W * F = omega 2 p • W → ∃ Z : Matrix (Fin mf) (Fin mf) ℂ, W = Z * Xf := by
    intro p
    by_cases hp : p < 2
    · obtain ⟨b1, mf, Xf, b2, b3, b4, b5⟩ := f3 p hp
      exact ⟨mf, Xf, fun _ => ⟨b1, b2.mono_le (by norm_num), b3, b4, b5⟩⟩
    · exact ⟨0, 0, fun h => absurd h hp⟩
  choose mf Xf f4 using f3'
  have hinvs : ∀ p : ℕ, p < 2 → ∃ out, inversionSectors inv mz (2 * Real.pi * (k : ℝ) / (n : ℝ)) (parityOf (2 * Real.pi * (p : ℝ) / ((2 : ℕ) : ℝ))) (Mf p) = .ok out ∧
      Covers H (Qf p) (Xf p) (1 / 10 ^ 11) (fun l => ((HasNumbers T F I lab n l ∧ l.s.mz = mz) ∧
        l.s.kx = 2 * Real.pi * (k : ℝ) / (n : ℝ)) ∧ l.s.spin = parityOf (2 * Real.pi * (p : ℝ) / ((2 : ℕ) : ℝ))) out := by
    intro p hp
    obtain ⟨b1, b2, b3, ⟨Z, b4⟩, b5⟩ := f4 p hp
    have c1 : Xf p * T = omega n k • Xf p := by rw [b4, Matrix.mul_assoc, hT, Matrix.mul_smul]
    have c2 : (2 * Real.pi * (k : ℝ) / (n : ℝ) = 0 ∨ 2 * Real.pi * (k : ℝ) / (n : ℝ) = Real.pi) →
        ∃ M : Matrix (Fin (mf p)) (Fin (mf p)) ℂ, Xf p * I = M * Xf p := by
      intro hk0
      obtain ⟨M, hM⟩ := key hk0
      refine b5 _ ⟨Z * M, ?_⟩ ?_
      · rw [Matrix.mul_assoc Z, ← hM, ← Matrix.mul_assoc, ← b4]
      · rw [Matrix.mul_assoc, h.flipI, ← Matrix.mul_assoc, b3, Matrix.smul_mul]
    have c3 : ∀ i j, lab j ≠ mz → Xf p i j = 0 := by
      intro i j hj
      rw [b4, mul_apply]
      exact Finset.sum_eq_zero fun c _ => by rw [hmz c j hj, mul_zero]
    obtain ⟨out, o1, o2⟩ := inversion_covers h b2 hI hrI hk c1 (mz := mz)
      (spin := parityOf (2 * Real.pi * (p : ℝ) / ((2 : ℕ) : ℝ))) rfl c2 c3
      (by rw [if_pos h0]; exact ⟨parityOf_two hp, by rw [b3, omega_two hp]⟩) b1 hinv
    exact ⟨out, o1, o2.mono le_rfl fun l hl => ⟨⟨⟨hl.1, hl.2.1⟩, hl.2.2.1⟩, hl.2.2.2⟩⟩
  choose! out o1 using hinvs
  refine ⟨((List.range 2).map out).flatten, ?_, ?_⟩
  · rw [f1]
    simp only [bind, Except.bind]
    rw [List.mapM_map, mapM_ok (g := out)]
    · rfl
    · intro p hp
      exact (o1 p (List.mem_range.1 hp)).1
  · have hb := Covers.bind (Q₀ := Q) (X₀ := X) (L := List.range 2) (fun p hp => (o1 p (List.mem_range.1 hp)).2)
      (fun p hp => (f4 p (List.mem_range.1 hp)).2.2.2.1) ?_ f2
    · exact hb.mono le_rfl fun l hl => by
        obtain ⟨p, -, hl⟩ := hl
        exact hl.1
    · refine List.Pairwise.imp_of_mem ?_ (List.nodup_range (n := 2))
      intro p p' hp hp' hne
      rw [List.mem_range] at hp hp'
      have := split_apart hF.unitary' h.commF two_pos (fun p hp => (f4 p hp).2.2.1) hp hp' hne
      refine ⟨this.1, this.2, fun a b ha hb e => hne ?_⟩
      refine parityOf_inj hp hp' ?_
      rw [← ha.2, ← hb.2]
      exact congrArg (fun t => t.2.2.1) e

/-- All sectors with one magnetization. -/
theorem magnetization_covers (h : ChainSymmetries T F I H lab n) {tx flip inv P : Mat} (htx : tx.Is T) (hflip : flip.Is F)
    (hinv : inv.Is I) {mz : ℂ} {sel : Fin P.rows → Fin d} (hi : Function.Injective sel) (hr : ∀ j, lab j = mz ↔ ∃ a, sel a = j)
    (hP : P.Is (selMat sel)) :
    ∃ out, magnetizationSectors tx flip inv n mz P = .ok out ∧
      Covers H (List.ofFn fun a => selMat sel a) (selMat sel) (1 / 10 ^ 11) (fun l => HasNumbers T F I lab n l ∧ l.s.mz = mz) out := by
  classical
  obtain ⟨ρT, vT, hT1, hT2⟩ := h.translation
  obtain ⟨ρF, vF, hF1, hF2⟩ := h.flip
  obtain ⟨ρI, vI, hI1, hI2⟩ := h.inversion
  have hT : Mono T ρT vT := ⟨hT1, hT2⟩
  have hF : Mono F ρF vF := ⟨hF1, hF2⟩
  have hI : Mono I ρI vI := ⟨hI1, hI2⟩
  have pTF : ρF * ρT = ρT ^ (1 : ℤ) * ρF := by
    rw [zpow_one]
    have := hF.mul' hT
    rw [← h.flipT] at this
    exact (hT.mul' hF).perm_eq this
  have pFI : ρI * ρF = ρF ^ (1 : ℤ) * ρI := by
    rw [zpow_one]
    have := hI.mul' hF
    rw [h.flipI] at this
    exact (hF.mul' hI).perm_eq this
  have pTI : ρI * ρT = ρT ^ (-1 : ℤ) * ρI := by
    have := (hT.mul' hI).mul' hT
    rw [h.reverse] at this
    have e := this.perm_eq hI
    rw [_root_.zpow_neg_one]
    exact eq_inv_mul_of_mul_eq e
  have hr0 : ∀ i j, (⊥ : Setoid (Fin d)) (ρT i) (ρT j) ↔ (⊥ : Setoid (Fin d)) i j := fun i j => ρT.injective.eq_iff
  have hrF0 : ∀ i j, (⊥ : Setoid (Fin d)) (ρF i) (ρF j) ↔ (⊥ : Setoid (Fin d)) i j := fun i j => ρF.injective.eq_iff
  have hrI0 : ∀ i j, (⊥ : Setoid (Fin d)) (ρI i) (ρI j) ↔ (⊥ : Setoid (Fin d)) i j := fun i j => ρI.injective.eq_iff
  have hrF : ∀ i j, joinCells ⊥ ρT hr0 (ρF i) (ρF j) ↔ joinCells ⊥ ρT hr0 i j := joinCells_move hr0 hrF0 (Or.inl rfl) pTF
  have hrI : ∀ i j, joinCells ⊥ ρT hr0 (ρI i) (ρI j) ↔ joinCells ⊥ ρT hr0 i j := joinCells_move hr0 hrI0 (Or.inr rfl) pTI
  have hrI' : ∀ i j, joinCells _ ρF hrF (ρI i) (ρI j) ↔ joinCells _ ρF hrF i j := joinCells_move hrF hrI (Or.inl rfl) pFI
  have hE := cellRows_sel hi
  have eT := selMat_comm hi hr h.labT
  have eI := selMat_comm hi hr h.labI
  have hsupp : ∀ a j, lab j ≠ mz → selMat sel a j = 0 := by
    intro a j hj
    unfold selMat
    rw [of_apply, if_neg]
    intro e
    exact hj ((hr j).2 ⟨a, e.symm⟩)
  obtain ⟨Qs, Ms, s1, s2, s3⟩ := hE.split hT hr0 ⟨_, eT⟩ h.pos h.small h.powT le_rfl (δ := 1 / 10 ^ 14) (by norm_num) (by
    have : (n : ℝ) < 10 ^ 4 := by exact_mod_cast h.small
    rw [_root_.zpow_neg]
    norm_num
    linarith) (rowsOf_sel hP) htx
  have s3' : ∀ k, ∃ (m' : ℕ) (X' : Matrix (Fin m') (Fin d) ℂ), k < n → RowsOf (Ms k) (Qs k) ∧
      CellRows (joinCells ⊥ ρT hr0) (Qs k) X' (3 / 10 ^ 14) ∧ X' * T = omega n k • X' ∧
      (∃ Y : Matrix (Fin m') (Fin P.rows) ℂ, X' = Y * selMat sel) ∧ ∀ W : Matrix (Fin m') (Fin d) ℂ,
        (∃ Z : Matrix (Fin m') (Fin P.rows) ℂ, W = Z * selMat sel) → W * T = omega n k • W → ∃ Z : Matrix (Fin m') (Fin m') ℂ, W = Z * X' := by
    intro k
    by_cases hk : k < n
    · obtain ⟨a1, m', X', a2, a3, a4, a5⟩ := s3 k hk
      exact ⟨m', X', fun _ => ⟨a1, a2.mono_le (by norm_num), a3, a4, a5⟩⟩
    · exact ⟨0, 0, fun h => absurd h hk⟩
  choose m' X' s4 using s3'
  -- inversion in the sectors with momentum zero and pi
  have key : ∀ k < n, (2 * Real.pi * (k : ℝ) / (n : ℝ) = 0 ∨ 2 * Real.pi * (k : ℝ) / (n : ℝ) = Real.pi) → ∃ M : Matrix (Fin (m' k)) (Fin (m' k)) ℂ, X' k * I = M * X' k := by
    intro k hk hk0
    obtain ⟨-, -, a3, ⟨Y, a4⟩, a5⟩ := s4 k hk
    refine a5 _ ⟨Y * (selMat sel * I * (selMat sel)ᴴ), ?_⟩ ?_
    · rw [Matrix.mul_assoc Y, ← eI, ← Matrix.mul_assoc, ← a4]
    · have e1 : X' k = omega n k • (X' k * T) := by rw [a3, smul_smul, omega_self_inverse hk0, one_smul]
      calc X' k * I * T = omega n k • (X' k * T) * I * T := by rw [← e1]
        _ = omega n k • (X' k * (T * I * T)) := by simp only [Matrix.smul_mul, Matrix.mul_assoc]
        _ = _ := by rw [h.reverse]
  have hmz : ∀ k < n, ∀ i j, lab j ≠ mz → X' k i j = 0 := by
    intro k hk i j hj
    obtain ⟨-, -, -, ⟨Y, a4⟩, -⟩ := s4 k hk
    rw [a4, mul_apply]
    exact Finset.sum_eq_zero fun c _ => by rw [hsupp c j hj, mul_zero]
  -- one momentum
  have step : ∀ k < n, ∃ out, (if mz = 0 then do
        let fs ← splitBy (Ms k) flip 2
        let ms ← fs.mapM fun f => inversionSectors inv mz (2 * Real.pi * (k : ℝ) / (n : ℝ)) (parityOf f.1) f.2
        pure ms.flatten
      else inversionSectors inv mz (2 * Real.pi * (k : ℝ) / (n : ℝ)) 0 (Ms k) : Res (List SpinSector)) = .ok out ∧
      Covers H (Qs k) (X' k) (1 / 10 ^ 11)
        (fun l => (HasNumbers T F I lab n l ∧ l.s.mz = mz) ∧ l.s.kx = 2 * Real.pi * (k : ℝ) / (n : ℝ)) out := by
    intro k hk
    obtain ⟨a1, a2, a3, ⟨Y, a4⟩, a5⟩ := s4 k hk
    by_cases h0 : mz = 0
    swap
    · rw [if_neg h0]
      obtain ⟨out, o1, o2⟩ := inversion_covers h (a2.mono_le (by norm_num)) hI hrI hk a3 (mz := mz) (spin := 0) rfl (key k hk) (hmz k hk)
        (by rw [if_neg h0]) a1 hinv
      exact ⟨out, o1, o2.mono le_rfl fun l hl => ⟨⟨hl.1, hl.2.1⟩, hl.2.2.1⟩⟩
    rw [if_pos h0]
    -- the flip keeps the magnetization zero
    have eF : selMat sel * F = selMat sel * F * (selMat sel)ᴴ * selMat sel := by
      refine selMat_comm (lab := fun j => decide (lab j = mz)) (x := true) hi (fun j => by rw [decide_eq_true_eq, hr]) fun i j hij => ?_
      by_contra hne
      have : lab i = - lab j := by
        by_contra hc
        exact hne (h.labF i j hc)
      refine hij (decide_eq_decide.2 ?_)
      rw [this, h0, neg_eq_zero]
    have hFX : ∃ M : Matrix (Fin (m' k)) (Fin (m' k)) ℂ, X' k * F = M * X' k := by
      refine a5 _ ⟨Y * (selMat sel * F * (selMat sel)ᴴ), ?_⟩ ?_
      · rw [Matrix.mul_assoc Y, ← eF, ← Matrix.mul_assoc, ← a4]
      · rw [Matrix.mul_assoc, ← h.flipT, ← Matrix.mul_assoc, a3, Matrix.smul_mul]
    exact flip_covers h a2 hF hrF hFX hI hrI' hk a3 h0 (key k hk) (hmz k hk) a1 hflip hinv
  choose! out o1 using step
  refine ⟨((List.range n).map out).flatten, ?_, ?_⟩
  · unfold magnetizationSectors
    rw [s1]
    simp only [bind, Except.bind]
    rw [List.mapM_map, mapM_ok (g := out)]
    · rfl
    · intro p hp
      exact (o1 p (List.mem_range.1 hp)).1
  · have hb := Covers.bind (Q₀ := List.ofFn fun a => selMat sel a) (X₀ := selMat sel) (L := List.range n)
      (fun p hp => (o1 p (List.mem_range.1 hp)).2) (fun p hp => (s4 p (List.mem_range.1 hp)).2.2.2.1) ?_ s2
    · exact hb.mono le_rfl fun l hl => by
        obtain ⟨p, -, hl⟩ := hl
        exact hl.1
    · refine List.Pairwise.imp_of_mem ?_ (List.nodup_range (n := n))
      intro p p' hp hp' hne
      rw [List.mem_range] at hp hp'
      have := split_apart hT.unitary' h.commT h.pos (fun p hp => (s4 p hp).2.2.1) hp hp' hne
      refine ⟨this.1, this.2, fun a b ha hb e => hne ?_⟩
      refine momentum_inj h.pos ?_
      rw [← ha.2, ← hb.2]
      exact congrArg (fun t => t.2.1) e

end ED
