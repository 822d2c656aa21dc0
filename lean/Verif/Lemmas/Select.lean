import Verif.Spec.Select
import Verif.Lemmas.Hubbard

/-! # Helper lemmas: sum operators, labels and selection projectors -/

namespace ED

open scoped BigOperators
open Matrix

variable {ι κ : Type} [Fintype ι] [Basis ι]

/-! ### Sum operators -/

theorem val_fold_mat {α : Type} (l : List α) (f : α → Res Mat) (T : α → Matrix ι ι ℂ)
    (h : ∀ a ∈ l, Gives (f a) (T a)) : ∀ (M : Mat) (A : Matrix ι ι ℂ), M.Is A →
    ∃ M', l.foldlM (fun acc ii => do
        let m ← f ii
        Val.add acc (.mat m)) (Val.mat M) = .ok (.mat M') ∧ M'.Is (A + (l.map T).sum) := by
  induction l with
  | nil => intro M A hM; exact ⟨M, rfl, by simpa using hM⟩
  | cons a l ih =>
    intro M A hM
    obtain ⟨m, hm, hm'⟩ := h a (by simp)
    obtain ⟨B, hB, hB'⟩ := hM.add hm'
    obtain ⟨M', h1, h2⟩ := ih (fun b hb => h b (by simp [hb])) B _ hB'
    refine ⟨M', ?_, ?_⟩
    · rw [List.foldlM_cons, hm]
      change (Val.add (.mat M) (.mat m)) >>= _ = _
      simp only [Val.add, hB, Except.map]
      exact h1
    · simpa [add_assoc] using h2

theorem val_fold_zero {α : Type} (l : List α) (hl : l ≠ []) (f : α → Res Mat)
    (T : α → Matrix ι ι ℂ) (h : ∀ a ∈ l, Gives (f a) (T a)) :
    ∃ M', l.foldlM (fun acc ii => do
        let m ← f ii
        Val.add acc (.mat m)) (Val.num 0) = .ok (.mat M') ∧ M'.Is (l.map T).sum := by
  obtain ⟨a, l, rfl⟩ := List.exists_cons_of_ne_nil hl
  obtain ⟨m, hm, hm'⟩ := h a (by simp)
  obtain ⟨M', h1, h2⟩ := val_fold_mat l f T (fun b hb => h b (by simp [hb])) m _ hm'
  refine ⟨M', ?_, by simpa using h2⟩
  rw [List.foldlM_cons, hm]
  change (Val.add (.num 0) (.mat m)) >>= _ = _
  simp only [Val.add, if_pos]
  exact h1

theorem gives_sumOp {S : Sys} (hn : 0 < S.nsites) {op : Mat} {sp : ℕ} {fmt : String}
    (T : Fin S.nsites → Matrix ι ι ℂ)
    (h : ∀ i : Fin S.nsites, Gives (getSingleSiteOp S i sp op fmt) (T i)) :
    Gives (getSumOp S op sp fmt) (∑ i, T i) := by
  obtain ⟨M, h1, h2⟩ := val_fold_zero (List.range S.nsites) (by simp; omega)
    (fun ii => getSingleSiteOp S ii sp op fmt)
    (fun k => if hk : k < S.nsites then T ⟨k, hk⟩ else 0) (fun a ha => by
      have ha' := List.mem_range.1 ha
      rw [dif_pos ha']; exact h ⟨a, ha'⟩)
  refine ⟨M, ?_, ?_⟩
  · unfold getSumOp
    rw [h1]; rfl
  · rw [sum_map_range] at h2
    convert h2 using 1
    exact Finset.sum_congr rfl fun i _ => by simp

theorem gives_sumOpQ {S : Sys} (hn : 0 < S.nsites) {op : Mat} {sp : ℕ} {fmt : String}
    (T : Fin S.nsites → Matrix ι ι ℂ) (xs ys : ℕ → ℝ) (qx qy : ℝ)
    (h : ∀ i : Fin S.nsites, Gives (getSingleSiteOp S i sp op fmt) (T i)) :
    ∃ M, getSumOpQ S xs ys sp qx qy op fmt = .ok (.mat M) ∧ M.Is
      (∑ i : Fin S.nsites, Complex.exp (Complex.I * xs i * qx + Complex.I * ys i * qy) • T i) := by
  obtain ⟨M, h1, h2⟩ := val_fold_zero (List.range S.nsites) (by simp; omega)
    (fun ii => do
      let m ← getSingleSiteOp S ii sp op fmt
      pure (m.smul (Complex.exp (Complex.I * xs ii * qx + Complex.I * ys ii * qy))))
    (fun k => if hk : k < S.nsites then
      Complex.exp (Complex.I * xs k * qx + Complex.I * ys k * qy) • T ⟨k, hk⟩ else 0) (fun a ha => by
      have ha' := List.mem_range.1 ha
      rw [dif_pos ha']
      exact (h ⟨a, ha'⟩).bind' fun M hM => (hM.smul _).pure)
  refine ⟨M, ?_, ?_⟩
  · unfold getSumOpQ
    rw [← h1]
    congr 1
    funext acc ii
    simp [bind_assoc]
  · rw [sum_map_range] at h2
    convert h2 using 1
    exact Finset.sum_congr rfl fun i _ => by simp

/-! ### Digits of the basis order -/

theorem idx_div_mod {n b : ℕ} (s : Conf n b) (i : Fin n) :
    idx s / b ^ (n - 1 - (i : ℕ)) % b = s i := by
  induction n with
  | zero => exact i.elim0
  | succ n ih =>
    have hb : 0 < b := (s i).pos
    have e : idx s = idx (fun j : Fin n => s j.castSucc) * b + s (Fin.last n) := by
      rw [idx, Fin.sum_univ_castSucc, idx, Finset.sum_mul]
      congr 1
      · refine Finset.sum_congr rfl fun j _ => ?_
        have hj := j.2
        rw [mul_assoc, ← pow_succ]
        congr 2
        simp
        omega
      · simp
    rcases Fin.eq_castSucc_or_eq_last i with ⟨j, rfl⟩ | rfl
    · have hj := j.2
      have e2 : n + 1 - 1 - (j.castSucc : ℕ) = (n - 1 - (j : ℕ)) + 1 := by simp; omega
      rw [e2, pow_succ', ← Nat.div_div_eq_div_mul, e, mul_comm _ b, Nat.mul_add_div hb,
        Nat.div_eq_of_lt (s (Fin.last n)).2, add_zero]
      exact ih _ j
    · simp [e, Nat.mod_eq_of_lt (s (Fin.last n)).2]

theorem labelColumn_apply {n : ℕ} (s : Conf n 2) (i : Fin n) :
    (labelColumn n i).e (idx s) 0 = if s i = 0 then 1 else 0 := by
  have h := idx_div_mod s i
  have e : n - (i : ℕ) - 1 = n - 1 - i := by omega
  simp only [labelColumn, Mat.kron, Mat.ones, rootMat, one_mul, mul_one, e]
  have h2 : idx s % (2 * 2 ^ (n - 1 - (i : ℕ))) / 2 ^ (n - 1 - (i : ℕ)) = s i := by
    rw [mul_comm, Nat.mod_mul_right_div_self, h]
  rw [h2]
  refine if_congr ?_ rfl rfl
  exact ⟨fun h => Fin.ext h, fun h => congrArg Fin.val h⟩

/-! ### Selection projectors -/

theorem selectionMat_selects {n : ℕ} (q : ℕ → Prop) [DecidablePred q] :
    (selectionMat ((List.range n).filter q) n).Selects n fun j => q j := by
  classical
  set l := (List.range n).filter q with hl
  have hmem : ∀ x ∈ l, x < n ∧ q x := by
    intro x hx; simpa [hl] using hx
  have hs : l.Pairwise (· < ·) := (List.pairwise_lt_range).filter _
  refine ⟨rfl, fun r => ⟨l[r]'r.2, (hmem _ (List.getElem_mem r.2)).1⟩, ?_, ?_, ?_⟩
  · intro a b hab
    exact List.pairwise_iff_getElem.1 hs a b a.2 b.2 hab
  · ext j
    simp only [Set.mem_range, Set.mem_setOf_eq]
    constructor
    · rintro ⟨r, rfl⟩
      exact (hmem _ (List.getElem_mem r.2)).2
    · intro hj
      have : (j : ℕ) ∈ l := by simp [hl, hj]
      obtain ⟨k, hk, e⟩ := List.getElem_of_mem this
      exact ⟨⟨k, hk⟩, Fin.ext e⟩
  · intro r j
    have hr : (r : ℕ) < l.length := r.2
    simp only [selectionMat, List.getElem?_eq_getElem hr, Option.some.injEq]
    refine if_congr ?_ rfl rfl
    exact ⟨fun h => Fin.ext h.symm, fun h => (congrArg Fin.val h).symm⟩

theorem Mat.Selects.congr {P : Mat} {n : ℕ} {p q : Fin n → Prop} (h : P.Selects n p)
    (hpq : ∀ j, p j ↔ q j) : P.Selects n q := by
  have : p = q := funext fun j => propext (hpq j)
  exact this ▸ h

theorem Mat.Selects.comp {P R : Mat} {n : ℕ} {p : Fin n → Prop} {q : Fin R.rows → Prop}
    (hR : R.Selects n p) (hP : P.Selects R.rows q) (sel : Fin R.rows → Fin n)
    (hsel : ∀ (r : Fin R.rows) (j : Fin n), R.e r j = if j = sel r then 1 else 0)
    (p' : Fin n → Prop) (hp' : ∀ r, p' (sel r) ↔ q r) :
    ∃ Q, P.mul R = .ok Q ∧ Q.Selects n fun j => p j ∧ p' j := by
  obtain ⟨hc, selR, hmono, hrange, hRe⟩ := hR
  obtain ⟨hcP, selP, hmonoP, hrangeP, hPe⟩ := hP
  have : sel = selR := by
    funext r
    have h1 := hsel r (sel r)
    rw [if_pos rfl, hRe] at h1
    by_contra hne
    rw [if_neg hne] at h1
    exact zero_ne_one h1
  subst this
  refine ⟨⟨P.rows, R.cols, fun i j => ∑ k ∈ Finset.range P.cols, P.e i k * R.e k j⟩,
    by rw [Mat.mul, if_pos hcP], hc, fun r => sel (selP r), hmono.comp hmonoP, ?_, ?_⟩
  · ext j
    simp only [Set.mem_range, Set.mem_setOf_eq]
    constructor
    · rintro ⟨r, rfl⟩
      refine ⟨?_, (hp' _).2 ?_⟩
      · have : sel (selP r) ∈ Set.range sel := ⟨_, rfl⟩
        rwa [hrange] at this
      · have : selP r ∈ Set.range selP := ⟨_, rfl⟩
        rwa [hrangeP] at this
    · rintro ⟨h1, h2⟩
      have : j ∈ Set.range sel := by rw [hrange]; exact h1
      obtain ⟨k, rfl⟩ := this
      have : k ∈ Set.range selP := by rw [hrangeP]; exact (hp' _).1 h2
      obtain ⟨r, rfl⟩ := this
      exact ⟨r, rfl⟩
  · intro r j
    simp only
    rw [hcP, Finset.sum_range (n := R.rows)]
    rw [Finset.sum_eq_single (selP r)]
    · rw [hPe r, if_pos rfl, one_mul, hRe]
    · intro k _ hk
      rw [hPe r k, if_neg hk, zero_mul]
    · simp

theorem selects_eye (n : ℕ) : (Mat.eye n).Selects n fun _ => True := by
  refine ⟨rfl, fun r => ⟨r.1, r.2⟩, fun a b h => h, ?_, ?_⟩
  · ext j
    simp only [Set.mem_range, Set.mem_setOf_eq, iff_true]
    exact ⟨⟨j.1, j.2⟩, rfl⟩
  · intro r j
    simp only [Mat.eye]
    refine if_congr ?_ rfl rfl
    exact ⟨fun h => Fin.ext h.symm, fun h => (congrArg Fin.val h).symm⟩

end ED
