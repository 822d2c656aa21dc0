import Verif.Lemmas.Swap
import Verif.Spec.Cycles
import Mathlib.GroupTheory.Perm.List
import Mathlib.Algebra.Group.Pi.Basic

/-! # Helper lemmas: symmetry operators built from cycles -/

namespace ED

open scoped BigOperators
open Matrix

section generic

variable {ι : Type} [Fintype ι] [DecidableEq ι] [Basis ι]

theorem Val.Is.mul {v w : Val} {X Y : Matrix ι ι ℂ} (hv : v.Is X) (hw : w.Is Y) :
    ∃ u, Val.mul v w = .ok u ∧ u.Is (X * Y) := by
  cases v with
  | num a =>
    cases w with
    | num c => exact ⟨_, rfl, by simp only [Val.Is] at *; rw [hv, hw]; simp [smul_smul, mul_comm]⟩
    | mat B =>
      refine ⟨_, rfl, ?_⟩
      simp only [Val.Is] at *
      rw [hv, smul_mul_assoc, one_mul]
      exact hw.smul a
  | mat A =>
    cases w with
    | num c =>
      refine ⟨_, rfl, ?_⟩
      simp only [Val.Is] at *
      rw [hw, mul_smul_comm, mul_one]
      exact hv.smul c
    | mat B =>
      obtain ⟨C, hC, hC'⟩ := Mat.Is.mul hv hw
      exact ⟨.mat C, by simp [Val.mul, hC, Except.map], hC'⟩

variable {nsites nspecies : ℕ}

/-- Relation between operators and families of site permutations, one per species. -/
structure Implements (Good : Matrix ι ι ℂ → (Fin nspecies → Equiv.Perm (Fin nsites)) → Prop)
    (swap : ℕ → ℕ → ℕ → Res Mat) : Prop where
  one : Good 1 1
  mul : ∀ U V f g, Good U f → Good V g → Good (U * V) (f * g)
  swap : ∀ (i j : Fin nsites) (s : Fin nspecies), i ≠ j →
    ∃ O, Gives (swap i j s) O ∧ Good O (Pi.mulSingle s (Equiv.swap i j))

variable {Good : Matrix ι ι ℂ → (Fin nspecies → Equiv.Perm (Fin nsites)) → Prop}
  {swap : ℕ → ℕ → ℕ → Res Mat}

theorem downRange_succ (n : ℕ) : downRange (n + 1) = (n + 1) :: downRange n := by
  simp [downRange, List.range_succ]

theorem cycle_fold (H : Implements Good swap) (c : List (Fin nsites)) (hc : c.Nodup)
    (s : Fin nspecies) (n : ℕ) (hn : n < c.length) (v : Val) (O : Matrix ι ι ℂ) (hv : v.Is O)
    (hO : Good O (Pi.mulSingle s (c.drop n).formPerm)) :
    ∃ v' O', (downRange n).foldlM (fun w jj => do
            let sw ← swap ((c.map Fin.val).getD (jj - 1) 0) ((c.map Fin.val).getD jj 0) s
            Val.mul (.mat sw) w) v = .ok v' ∧ v'.Is O' ∧
      Good O' (Pi.mulSingle s c.formPerm) := by
  induction n generalizing v O with
  | zero => exact ⟨v, O, rfl, hv, by simpa using hO⟩
  | succ n ih =>
    have hn' : n < c.length := by omega
    have hne : c[n] ≠ c[n + 1] := by
      intro e
      have := (hc.getElem_inj_iff).1 e
      omega
    obtain ⟨X, ⟨M, hM, hMX⟩, hX⟩ := H.swap c[n] c[n + 1] s hne
    obtain ⟨u, hu, huO⟩ := Val.Is.mul (v := .mat M) hMX hv
    have hgood := H.mul _ _ _ _ hX hO
    rw [← Pi.mulSingle_mul] at hgood
    have hd : c.drop n = c[n] :: c[n + 1] :: c.drop (n + 2) := by
      rw [List.drop_eq_getElem_cons hn', List.drop_eq_getElem_cons hn]
    have hd' : c.drop (n + 1) = c[n + 1] :: c.drop (n + 2) := List.drop_eq_getElem_cons hn
    rw [hd', ← List.formPerm_cons_cons, ← hd] at hgood
    obtain ⟨v', O', h1, h2⟩ := ih hn' u (X * O) huO hgood
    refine ⟨v', O', ?_, h2⟩
    rw [downRange_succ, List.foldlM_cons]
    have e1 : (c.map Fin.val).getD (n + 1 - 1) 0 = c[n] := by
      simp [List.getD_eq_getElem?_getD, hn']
    have e2 : (c.map Fin.val).getD (n + 1) 0 = c[n + 1] := by
      simp [List.getD_eq_getElem?_getD, hn]
    simp only [e1, e2, hM, bind_ok, hu]
    exact h1

theorem species_fold (H : Implements Good swap) (c : List (Fin nsites)) (hc : c.Nodup)
    (hlen : 1 < c.length) (m : ℕ) (hm : m ≤ nspecies) (v : Val) (O : Matrix ι ι ℂ)
    (f : Fin nspecies → Equiv.Perm (Fin nsites)) (hv : v.Is O) (hO : Good O f) :
    ∃ v' O' f', (List.range m).foldlM (fun trans ii => do
        let cyc ← (downRange ((c.map Fin.val).length - 1)).foldlM (fun w jj => do
            let sw ← swap ((c.map Fin.val).getD (jj - 1) 0) ((c.map Fin.val).getD jj 0) ii
            Val.mul (.mat sw) w) (Val.num 1)
        Val.mul cyc trans) v = .ok v' ∧ v'.Is O' ∧ Good O' f' ∧
      ∀ s, f' s = if (s : ℕ) < m then c.formPerm * f s else f s := by
  induction m with
  | zero => exact ⟨v, O, f, rfl, hv, hO, by simp⟩
  | succ m ih =>
    obtain ⟨v1, O1, f1, h1, h2, h3, h4⟩ := ih (by omega)
    have hstart : Good (1 : Matrix ι ι ℂ)
        (Pi.mulSingle (⟨m, hm⟩ : Fin nspecies) (c.drop (c.length - 1)).formPerm) := by
      have : (c.drop (c.length - 1)).formPerm = 1 := by
        rw [List.drop_eq_getElem_cons (by omega)]
        have : c.drop (c.length - 1 + 1) = [] := List.drop_eq_nil_of_le (by omega)
        rw [this]
        simp
      rw [this, Pi.mulSingle_one]
      exact H.one
    obtain ⟨v2, O2, g1, g2, g3⟩ := cycle_fold H c hc ⟨m, hm⟩ (c.length - 1) (by omega) (.num 1) 1
      (by simp [Val.Is]) hstart
    obtain ⟨v3, k1, k2⟩ := Val.Is.mul g2 h2
    refine ⟨v3, O2 * O1, _, ?_, k2, H.mul _ _ _ _ g3 h3, ?_⟩
    · rw [List.range_succ, List.foldlM_append, h1]
      simp only [bind_ok, List.foldlM_cons, List.foldlM_nil, List.length_map] at *
      rw [g1]
      simp [bind_ok, k1, pure_eq_ok]
    · intro s
      rw [Pi.mul_apply, h4]
      by_cases hs : (s : ℕ) = m
      · have : s = ⟨m, hm⟩ := Fin.ext hs
        subst this
        simp
      · have : s ≠ ⟨m, hm⟩ := fun e => hs (congrArg Fin.val e)
        rw [Pi.mulSingle_eq_of_ne this, one_mul]
        have e : ((s : ℕ) < m + 1) ↔ ((s : ℕ) < m) := by omega
        simp only [e]

theorem xform_fold (H : Implements Good swap) (cycles : List (List (Fin nsites)))
    (hc : ∀ c ∈ cycles, c.Nodup) (v : Val) (O : Matrix ι ι ℂ)
    (f : Fin nspecies → Equiv.Perm (Fin nsites)) (hv : v.Is O) (hO : Good O f) :
    ∃ v' O', (siteNumbers cycles).foldlM (fun trans cycle =>
        if cycle.length > 1 then
          (List.range nspecies).foldlM (fun trans ii => do
            let cyc ← (downRange (cycle.length - 1)).foldlM (fun c jj => do
                let s ← swap (cycle.getD (jj - 1) 0) (cycle.getD jj 0) ii
                Val.mul (.mat s) c) (Val.num 1)
            Val.mul cyc trans) trans
        else pure trans) v = .ok v' ∧ v'.Is O' ∧
      Good O' (fun s => cycles.foldl (fun τ c => c.formPerm * τ) (f s)) := by
  induction cycles generalizing v O f with
  | nil => exact ⟨v, O, rfl, hv, hO⟩
  | cons c cs ih =>
    simp only [siteNumbers, List.map_cons, List.foldlM_cons, List.foldl_cons]
    by_cases hl : 1 < c.length
    · obtain ⟨v1, O1, f1, h1, h2, h3, h4⟩ :=
        species_fold H c (hc c (by simp)) hl nspecies le_rfl v O f hv hO
      obtain ⟨v2, O2, g1, g2, g3⟩ := ih (fun d hd => hc d (by simp [hd])) v1 O1 f1 h2 h3
      refine ⟨v2, O2, ?_, g2, ?_⟩
      · rw [if_pos (by simpa using hl), h1]
        exact g1
      · have : f1 = fun s => c.formPerm * f s := by
          funext s; rw [h4, if_pos s.2]
        rw [this] at g3
        exact g3
    · obtain ⟨v2, O2, g1, g2, g3⟩ := ih (fun d hd => hc d (by simp [hd])) v O f hv hO
      refine ⟨v2, O2, ?_, g2, ?_⟩
      · rw [if_neg (by simpa using hl)]
        exact g1
      · have : c.formPerm = 1 := (List.formPerm_eq_one_iff _ (hc c (by simp))).2 (by omega)
        rw [this]
        simpa using g3

theorem foldl_cycles (cycles : List (List (Fin nsites))) (hn : cycles.flatten.Nodup)
    (τ : Equiv.Perm (Fin nsites)) (i : Fin nsites) :
    ((∀ c ∈ cycles, τ i ∉ c) → cycles.foldl (fun τ c => c.formPerm * τ) τ i = τ i) ∧
    (∀ c ∈ cycles, τ i ∈ c → cycles.foldl (fun τ c => c.formPerm * τ) τ i = c.formPerm (τ i)) := by
  induction cycles generalizing τ with
  | nil => simp
  | cons c cs ih =>
    rw [List.flatten_cons, List.nodup_append] at hn
    obtain ⟨h1, h2, h3⟩ := hn
    have ih' := ih h2 (c.formPerm * τ)
    simp only [List.foldl_cons]
    constructor
    · intro h
      have hfix : c.formPerm (τ i) = τ i := List.formPerm_apply_of_notMem (h c (by simp))
      have := ih'.1 (by
        intro d hd
        rw [Equiv.Perm.mul_apply, hfix]
        exact h d (by simp [hd]))
      rw [this, Equiv.Perm.mul_apply, hfix]
    · intro d hd hid
      rcases List.mem_cons.1 hd with rfl | hd
      · have hmem := List.formPerm_apply_mem_of_mem hid
        have := ih'.1 (by
          intro e he hmem'
          rw [Equiv.Perm.mul_apply] at hmem'
          exact h3 _ hmem _ (List.mem_flatten.2 ⟨e, he, hmem'⟩) rfl)
        rw [this, Equiv.Perm.mul_apply]
      · have hfix : c.formPerm (τ i) = τ i := List.formPerm_apply_of_notMem (fun hm =>
          h3 _ hm _ (List.mem_flatten.2 ⟨d, hd, hid⟩) rfl)
        have := ih'.2 d hd (by rw [Equiv.Perm.mul_apply, hfix]; exact hid)
        rw [this, Equiv.Perm.mul_apply, hfix]

theorem cyclesOf_foldl {cycles : List (List (Fin nsites))} {π : Equiv.Perm (Fin nsites)}
    (h : CyclesOf cycles π) : cycles.foldl (fun τ c => c.formPerm * τ) 1 = π := by
  ext i
  congr 1
  have hf := foldl_cycles cycles h.nodup 1 i
  by_cases hi : ∀ c ∈ cycles, i ∉ c
  · rw [hf.1 hi, h.fixed i hi]; rfl
  · push Not at hi
    obtain ⟨c, hc, hic⟩ := hi
    rw [hf.2 c hc hic]
    obtain ⟨k, hk, rfl⟩ := List.getElem_of_mem hic
    have hcn : c.Nodup := (List.nodup_flatten.1 h.nodup).1 c hc
    rw [Equiv.Perm.one_apply, List.formPerm_apply_getElem _ hcn, h.next c hc k hk]

theorem cyclesOf_iter {cycles : List (List (Fin nsites))} {π : Equiv.Perm (Fin nsites)}
    (h : CyclesOf cycles π) {c : List (Fin nsites)} (hc : c ∈ cycles) (m : ℕ) (k : ℕ)
    (hk : k < c.length) :
    (π ^ m) c[k] = c[(k + m) % c.length]'(Nat.mod_lt _ (by omega)) := by
  induction m with
  | zero => simp [Nat.mod_eq_of_lt hk]
  | succ m ih =>
    rw [pow_succ', Equiv.Perm.mul_apply, ih, h.next c hc]
    congr 1
    rw [Nat.mod_add_mod]
    rfl

theorem cyclesOf_pow {cycles : List (List (Fin nsites))} {π : Equiv.Perm (Fin nsites)}
    (h : CyclesOf cycles π) {k : ℕ} (hk : ∀ c ∈ cycles, c.length ∣ k) : π ^ k = 1 := by
  ext i
  congr 1
  by_cases hi : ∀ c ∈ cycles, i ∉ c
  · have h1 := h.fixed i hi
    rw [Equiv.Perm.one_apply]
    clear hk
    induction k with
    | zero => rfl
    | succ k ih => rw [pow_succ, Equiv.Perm.mul_apply, h1, ih]
  · push Not at hi
    obtain ⟨c, hc, hic⟩ := hi
    obtain ⟨j, hj, rfl⟩ := List.getElem_of_mem hic
    rw [cyclesOf_iter h hc, Equiv.Perm.one_apply]
    obtain ⟨q, hq⟩ := hk c hc
    congr 1
    rw [hq, Nat.add_mul_mod_self_left, Nat.mod_eq_of_lt hj]

theorem xform_spec (H : Implements Good swap) {cycles : List (List (Fin nsites))}
    {π : Equiv.Perm (Fin nsites)} (h : CyclesOf cycles π) :
    ∃ v O, getXformOp nspecies swap (siteNumbers cycles) = .ok v ∧ v.Is O ∧
      Good O (fun _ => π) := by
  obtain ⟨v, O, h1, h2, h3⟩ := xform_fold H cycles (List.nodup_flatten.1 h.nodup).1 (.num 1) 1 1
    (by simp [Val.Is]) H.one
  refine ⟨v, O, h1, h2, ?_⟩
  have : (fun s : Fin nspecies => cycles.foldl (fun τ c => c.formPerm * τ)
      ((1 : Fin nspecies → Equiv.Perm (Fin nsites)) s)) = fun _ => π := by
    funext s; exact cyclesOf_foldl h
  rwa [this] at h3

end generic

/-! ### Fermions -/

section fermions
variable {S : Sys}

theorem MovesFermions.mul' {nsites nspecies : ℕ}
    {U V : Matrix (Conf (nsites * nspecies) 2) (Conf (nsites * nspecies) 2) ℂ}
    {f g : Fin nspecies → Equiv.Perm (Fin nsites)} (hU : MovesFermions U f)
    (hV : MovesFermions V g) : MovesFermions (U * V) (f * g) := by
  refine ⟨?_, ?_, ?_, ?_⟩
  · rw [Matrix.conjTranspose_mul, mul_assoc, ← mul_assoc _ U, hU.left_inv, one_mul, hV.left_inv]
  · rw [Matrix.conjTranspose_mul, mul_assoc, ← mul_assoc V, hV.right_inv, one_mul, hU.right_inv]
  · rw [← Matrix.mulVec_mulVec, hV.vacuum, hU.vacuum]
  · intro s i
    have : U * V * create (mode i s) * (U * V).conjTranspose =
        U * (V * create (mode i s) * V.conjTranspose) * U.conjTranspose := by
      rw [Matrix.conjTranspose_mul]; simp only [mul_assoc]
    rw [this, hV.moves, hU.moves]
    rfl

theorem movesFermions_one {nsites nspecies : ℕ} :
    MovesFermions (1 : Matrix (Conf (nsites * nspecies) 2) (Conf (nsites * nspecies) 2) ℂ) 1 := by
  refine ⟨by simp, by simp, by simp, by simp⟩

theorem movesFermions_xch (i j : Fin S.nsites) (s : Fin S.nspecies) :
    MovesFermions (xch (mode i s : Fin S.nlog) (mode j s)) (Pi.mulSingle s (Equiv.swap i j)) := by
  refine ⟨?_, ?_, xch_vac _ _, ?_⟩
  · rw [xch_conj, xch_sq]
  · rw [xch_conj, xch_sq]
  · intro s' k
    rw [xch_conj, xch_moves]
    congr 1
    by_cases hs : s' = s
    · subst hs
      rw [Pi.mulSingle_eq_same]
      by_cases h1 : k = i
      · subst h1; simp
      · by_cases h2 : k = j
        · subst h2; simp
        · rw [Equiv.swap_apply_of_ne_of_ne h1 h2, Equiv.swap_apply_of_ne_of_ne
            (fun e => h1 (mode_inj e).1) (fun e => h2 (mode_inj e).1)]
    · rw [Pi.mulSingle_eq_of_ne hs, Equiv.swap_apply_of_ne_of_ne
        (fun e => hs (mode_inj e).2) (fun e => hs (mode_inj e).2)]
      rfl

theorem implements_fermions (hb : S.nbasis = 2) :
    Implements (ι := Conf S.nlog 2) (MovesFermions (nsites := S.nsites) (nspecies := S.nspecies))
      (fermionSwapOp S) where
  one := movesFermions_one
  mul _ _ _ _ h1 h2 := h1.mul' h2
  swap i j s _ := ⟨_, gives_fermionSwap hb i j s, movesFermions_xch i j s⟩

/-- Two operators moving the particles in the same way are equal. -/
theorem create_ket {N : ℕ} (s : Conf N 2) (i : Fin N) (h : s i = 1) :
    (create i).mulVec (ket (Function.update s i 0)) = ((-1 : ℂ) ^ occAfter i s) • ket s := by
  funext t
  rw [mulVec_ket, create, Matrix.of_apply, Pi.smul_apply, ket]
  by_cases hts : t = s
  · subst hts
    rw [if_pos ⟨fun j hj => by simp [hj], h, by simp⟩, if_pos rfl]
    simp
  · rw [if_neg hts, if_neg]
    · simp
    · rintro ⟨h1, h2, _⟩
      refine hts (funext fun j => ?_)
      by_cases hj : j = i
      · rw [hj, h2, h]
      · rw [h1 j hj]; simp [hj]

theorem mode_surj {nsites nspecies : ℕ} (k : Fin (nsites * nspecies)) :
    ∃ (i : Fin nsites) (s : Fin nspecies), mode i s = k := by
  have hk := k.2
  have hp : 0 < nsites := by
    rcases Nat.eq_zero_or_pos nsites with h | h
    · subst h; simp at hk
    · exact h
  refine ⟨⟨k % nsites, Nat.mod_lt _ hp⟩, ⟨k / nsites, Nat.div_lt_of_lt_mul hk⟩, ?_⟩
  exact Fin.ext (Nat.div_add_mod _ _)

theorem commutes_create_one {N : ℕ} (W : Matrix (Conf N 2) (Conf N 2) ℂ)
    (hv : W.mulVec (ket vac) = ket vac) (hc : ∀ k, W * create k = create k * W) : W = 1 := by
  have key : ∀ (n : ℕ) (s : Conf N 2), occ s = n → W.mulVec (ket s) = ket s := by
    intro n
    induction n with
    | zero =>
      intro s hs
      have : s = vac := by
        funext j
        have hj : ¬ s j = 1 := by
          intro hj
          have : j ∈ Finset.univ.filter fun j => s j = 1 := by simp [hj]
          rw [occ, Finset.card_eq_zero] at hs
          rw [hs] at this
          simp at this
        have := (s j).2
        refine Fin.ext ?_
        have h2 : ((s j : Fin 2) : ℕ) ≠ 1 := fun e => hj (Fin.ext e)
        simp only [vac]
        change (s j : ℕ) = 0
        omega
      rw [this, hv]
    | succ n ih =>
      intro s hs
      have hne : (Finset.univ.filter fun j => s j = 1).Nonempty := by
        rw [← Finset.card_pos]; unfold occ at hs; omega
      obtain ⟨i, hi⟩ := hne
      have hi' : s i = 1 := by simpa using hi
      have hocc : occ (Function.update s i 0) = n := by
        have e : (Finset.univ.filter fun j => Function.update s i 0 j = 1) =
            (Finset.univ.filter fun j => s j = 1).erase i := by
          ext j
          by_cases hj : j = i
          · subst hj; simp
          · simp [hj]
        rw [occ, e, Finset.card_erase_of_mem hi]
        unfold occ at hs; omega
      have h1 := create_ket s i hi'
      have h2 := ih _ hocc
      have h3 : W.mulVec ((create i).mulVec (ket (Function.update s i 0))) =
          (create i).mulVec (ket (Function.update s i 0)) := by
        rw [Matrix.mulVec_mulVec, hc, ← Matrix.mulVec_mulVec, h2]
      rw [h1, Matrix.mulVec_smul] at h3
      have hz : ((-1 : ℂ) ^ occAfter i s) ≠ 0 := pow_ne_zero _ (by norm_num)
      exact smul_right_injective _ hz h3
  ext s t
  have := congrFun (key _ t rfl) s
  rw [mulVec_ket] at this
  rw [this, ket, Matrix.one_apply]

theorem MovesFermions.unique {nsites nspecies : ℕ}
    {U V : Matrix (Conf (nsites * nspecies) 2) (Conf (nsites * nspecies) 2) ℂ}
    {f : Fin nspecies → Equiv.Perm (Fin nsites)} (hU : MovesFermions U f)
    (hV : MovesFermions V f) : U = V := by
  have h : V.conjTranspose * U = 1 := by
    refine commutes_create_one _ ?_ ?_
    · rw [← Matrix.mulVec_mulVec, hU.vacuum]
      have := congrArg (V.conjTranspose.mulVec) hV.vacuum
      rw [Matrix.mulVec_mulVec, hV.left_inv, Matrix.one_mulVec] at this
      exact this.symm
    · intro k
      obtain ⟨i, s, rfl⟩ := mode_surj k
      have e1 : U * create (mode i s) = create (mode (f s i) s) * U := by
        rw [← hU.moves, mul_assoc _ _ U, hU.left_inv, mul_one]
      have e2 : V * create (mode i s) = create (mode (f s i) s) * V := by
        rw [← hV.moves, mul_assoc _ _ V, hV.left_inv, mul_one]
      have e3 : V.conjTranspose * create (mode (f s i) s) = create (mode i s) * V.conjTranspose := by
        calc V.conjTranspose * create (mode (f s i) s)
            = V.conjTranspose * (create (mode (f s i) s) * V) * V.conjTranspose := by
              rw [mul_assoc, mul_assoc, hV.right_inv, mul_one]
          _ = V.conjTranspose * (V * create (mode i s)) * V.conjTranspose := by rw [e2]
          _ = create (mode i s) * V.conjTranspose := by
              rw [← mul_assoc, hV.left_inv, one_mul]
      rw [mul_assoc, e1, ← mul_assoc, e3, mul_assoc]
  calc U = V * V.conjTranspose * U := by rw [hV.right_inv, one_mul]
    _ = V := by rw [mul_assoc, h, mul_one]

theorem MovesFermions.pow {nsites nspecies : ℕ}
    {U : Matrix (Conf (nsites * nspecies) 2) (Conf (nsites * nspecies) 2) ℂ}
    {f : Fin nspecies → Equiv.Perm (Fin nsites)} (hU : MovesFermions U f) (k : ℕ) :
    MovesFermions (U ^ k) (f ^ k) := by
  induction k with
  | zero => simpa using movesFermions_one
  | succ k ih => rw [pow_succ, pow_succ]; exact ih.mul' hU

end fermions

/-! ### Spins -/

section spins
variable {S : Sys}

/-- Pairs (species, site) and modes. -/
noncomputable def modeEquiv (nsites nspecies : ℕ) :
    Fin nspecies × Fin nsites ≃ Fin (nsites * nspecies) :=
  Equiv.ofBijective (fun p => mode p.2 p.1)
    ⟨by
      rintro ⟨s, i⟩ ⟨s', i'⟩ h
      obtain ⟨h1, h2⟩ := mode_inj (S := ⟨nsites, nspecies, 2⟩) h
      simp_all,
     fun k => let ⟨i, s, h⟩ := mode_surj k; ⟨(s, i), h⟩⟩

/-- The permutation of modes induced by site permutations per species. -/
noncomputable def modePerm {nsites nspecies : ℕ} (f : Fin nspecies → Equiv.Perm (Fin nsites)) :
    Equiv.Perm (Fin (nsites * nspecies)) :=
  (modeEquiv nsites nspecies).symm.trans
    ((Equiv.prodShear (Equiv.refl _) f).trans (modeEquiv nsites nspecies))

theorem modePerm_mode {nsites nspecies : ℕ} (f : Fin nspecies → Equiv.Perm (Fin nsites))
    (i : Fin nsites) (s : Fin nspecies) : modePerm f (mode i s) = mode (f s i) s := by
  have : (modeEquiv nsites nspecies).symm (mode i s) = (s, i) := by
    rw [Equiv.symm_apply_eq]; rfl
  simp only [modePerm, Equiv.trans_apply, this]
  rfl

theorem modePerm_mul {nsites nspecies : ℕ} (f g : Fin nspecies → Equiv.Perm (Fin nsites)) :
    modePerm (f * g) = modePerm f * modePerm g := by
  ext k
  obtain ⟨i, s, rfl⟩ := mode_surj k
  rw [Equiv.Perm.mul_apply, modePerm_mode, modePerm_mode, modePerm_mode]
  rfl

theorem modePerm_one {nsites nspecies : ℕ} :
    modePerm (1 : Fin nspecies → Equiv.Perm (Fin nsites)) = 1 := by
  ext k
  obtain ⟨i, s, rfl⟩ := mode_surj k
  rw [modePerm_mode]; rfl

theorem modePerm_swap (i j : Fin S.nsites) (s : Fin S.nspecies) :
    modePerm (Pi.mulSingle s (Equiv.swap i j)) =
      Equiv.swap (mode i s : Fin S.nlog) (mode j s) := by
  ext k
  obtain ⟨k, s', rfl⟩ := mode_surj k
  rw [modePerm_mode]
  congr 1
  by_cases hs : s' = s
  · subst hs
    rw [Pi.mulSingle_eq_same]
    by_cases h1 : k = i
    · subst h1; simp
    · by_cases h2 : k = j
      · subst h2; simp
      · rw [Equiv.swap_apply_of_ne_of_ne h1 h2, Equiv.swap_apply_of_ne_of_ne
          (fun e => h1 (mode_inj e).1) (fun e => h2 (mode_inj e).1)]
  · rw [Pi.mulSingle_eq_of_ne hs, Equiv.swap_apply_of_ne_of_ne
      (fun e => hs (mode_inj e).2) (fun e => hs (mode_inj e).2)]
    rfl

theorem implements_spins (hb : S.nbasis = 2) :
    Implements (ι := Conf S.nlog 2) (nsites := S.nsites) (nspecies := S.nspecies)
      (fun U f => U = permMat (modePerm f)) (spinSwapOp S) where
  one := by rw [modePerm_one, permMat_one]
  mul U V f g h1 h2 := by rw [h1, h2, permMat_mul, modePerm_mul]
  swap i j s hij := ⟨_, gives_spinSwap hb hij s, by rw [modePerm_swap]⟩

end spins

end ED
