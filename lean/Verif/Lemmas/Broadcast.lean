import Verif.Model.Broadcast
import Mathlib.Data.Real.Basic

/-! # Lemmas on broadcasting, squeezing and assignment of rows -/

namespace ED

/-- `idx` is a valid multi-index of an array of shape `s`. -/
abbrev Inside (idx s : List ℕ) : Prop := List.Forall₂ (· < ·) idx s

/-! ## Index bookkeeping -/

theorem filter_ones (k : ℕ) (t : List ℕ) (ht : 1 ∉ t) :
    (List.replicate k 1 ++ t).filter (· ≠ 1) = t := by
  rw [List.filter_append]
  have h1 : (List.replicate k 1).filter (· ≠ 1) = [] := by
    rw [List.filter_eq_nil_iff]
    intro a ha
    simp [List.eq_of_mem_replicate ha]
  have h2 : t.filter (· ≠ 1) = t := by
    rw [List.filter_eq_self]
    intro a ha
    simp only [ne_eq, decide_eq_true_eq]
    rintro rfl
    exact ht ha
  rw [h1, h2, List.nil_append]

theorem bcRev_self_append (t r : List ℕ) : bcRev (t ++ r) t = some (t ++ r) := by
  induction t with
  | nil => cases r <;> rfl
  | cons a t ih => simp only [List.cons_append, bcRev, ih, if_true]

theorem bcRev_prefix (t r : List ℕ) : bcRev t (t ++ r) = some (t ++ r) := by
  induction t with
  | nil => rfl
  | cons a t ih => simp only [List.cons_append, bcRev, ih, if_true]

theorem broadcastShape_suffix (s t : List ℕ) : broadcastShape (s ++ t) t = some (s ++ t) := by
  unfold broadcastShape
  rw [List.reverse_append, bcRev_self_append, Option.map_some, ← List.reverse_append,
    List.reverse_reverse]

theorem broadcastShape_self (s : List ℕ) : broadcastShape s s = some s :=
  broadcastShape_suffix [] s

theorem broadcastShape_suffix' (s t : List ℕ) : broadcastShape t (s ++ t) = some (s ++ t) := by
  unfold broadcastShape
  rw [List.reverse_append, bcRev_prefix, Option.map_some, ← List.reverse_append,
    List.reverse_reverse]

theorem bcIdxRev_inside (s idx rest : List ℕ) (h : Inside idx s) :
    bcIdxRev s (idx ++ rest) = idx := by
  induction h with
  | nil => rfl
  | @cons i n idx s hi _ ih =>
    simp only [List.cons_append, bcIdxRev, ih]
    split_ifs with h1
    · subst h1
      rw [Nat.lt_one_iff.1 hi]
    · rfl

theorem bcIdx_suffix (s idx rest : List ℕ) (h : Inside idx s) : bcIdx s (rest ++ idx) = idx := by
  unfold bcIdx
  rw [List.reverse_append, bcIdxRev_inside _ _ _ (List.rel_reverse h), List.reverse_reverse]

theorem bcIdx_self (s idx : List ℕ) (h : Inside idx s) : bcIdx s idx = idx :=
  bcIdx_suffix s idx [] h

theorem unsqueeze_ones (k : ℕ) (t u : List ℕ) (ht : 1 ∉ t) (h : Inside u t) :
    unsqueeze (List.replicate k 1 ++ t) u = List.replicate k 0 ++ u := by
  induction k with
  | zero =>
    simp only [List.replicate_zero, List.nil_append]
    induction h with
    | nil => rfl
    | @cons i n u t hi _ ih =>
      have hn : n ≠ 1 := fun hh => ht (by simp [hh])
      have ht' : 1 ∉ t := fun hh => ht (List.mem_cons_of_mem _ hh)
      simp only [unsqueeze, if_neg hn, ih ht']
  | succ k ih => simp only [List.replicate_succ, List.cons_append, unsqueeze, if_true, ih]

/-- A multi-index of a shape with leading ones. -/
theorem inside_ones (k : ℕ) (t idx : List ℕ) (h : Inside idx (List.replicate k 1 ++ t)) :
    ∃ u, idx = List.replicate k 0 ++ u ∧ Inside u t := by
  induction k generalizing idx with
  | zero => exact ⟨idx, rfl, h⟩
  | succ k ih =>
    rw [List.replicate_succ, List.cons_append] at h
    cases h with
    | @cons i _ idx' _ hi hr =>
      obtain ⟨u, hu, hin⟩ := ih _ hr
      exact ⟨u, by rw [hu, Nat.lt_one_iff.1 hi]; rfl, hin⟩

theorem setRow_ok {s : List ℕ} (W v : ND ℝ) (n i : ℕ) (hW : W.shape = n :: s)
    (hv : assignable v.shape s) :
    ∃ W', W.setRow i v = .ok W' ∧ W'.shape = W.shape ∧
      ∀ j idx, W'.data (j :: idx) =
        if j = i then v.data (bcIdx v.shape idx) else W.data (j :: idx) := by
  refine ⟨⟨W.shape, fun idx =>
      match idx with
      | [] => W.data []
      | j :: idx => if j = i then v.data (bcIdx v.shape idx) else W.data (j :: idx)⟩,
    ?_, rfl, fun j idx => rfl⟩
  unfold ND.setRow
  rw [hW, List.tail_cons, if_pos hv]
  rfl

theorem assignable_self (s : List ℕ) : assignable s s := by
  refine ⟨by simp, ?_⟩
  rw [Nat.sub_self, List.drop_zero]
  exact broadcastShape_self s

theorem assignable_suffix (s t : List ℕ) : assignable t (s ++ t) := by
  have h : t.length - (s ++ t).length = 0 := by
    rw [List.length_append]
    omega
  refine ⟨by rw [h]; simp, ?_⟩
  rw [h, List.drop_zero]
  exact broadcastShape_suffix' s t

/-- Induction over `for i in range(n)`. -/
theorem foldlM_range_inv {σ : Type} (f : σ → ℕ → Res σ) (n : ℕ) (x0 : σ) (Inv : ℕ → σ → Prop)
    (h0 : Inv 0 x0) (hs : ∀ m < n, ∀ x, Inv m x → ∃ y, f x m = .ok y ∧ Inv (m + 1) y) :
    ∃ y, (List.range n).foldlM f x0 = .ok y ∧ Inv n y := by
  induction n with
  | zero => exact ⟨x0, rfl, h0⟩
  | succ n ih =>
    obtain ⟨x, hx, hI⟩ := ih fun m hm => hs m (Nat.lt_succ_of_lt hm)
    obtain ⟨y, hy, hJ⟩ := hs n (Nat.lt_succ_self n) x hI
    refine ⟨y, ?_, hJ⟩
    rw [List.range_succ, List.foldlM_append, hx]
    change (List.foldlM f x [n]) = _
    rw [List.foldlM_cons, hy]
    rfl

end ED
