import Verif.Lemmas.ClusterGeom

/-! # Symmetry partners of clusters -/

namespace ED

open ED.Geometry Classical

/-! ## Loops -/

section Loops

variable {α β σ τ : Type}

theorem pyFilter_forall2 {rel : α → β → Prop} {p : α → Res Bool} {Q : β → Prop} {as : List α} {bs : List β}
    (h : List.Forall₂ rel as bs) (hp : ∀ a b, b ∈ bs → rel a b → p a = .ok (decide (Q b))) :
    ∃ r, pyFilter p as = .ok r ∧ r.isEmpty = !decide (∃ b ∈ bs, Q b) := by
  induction h with
  | nil => exact ⟨[], rfl, by simp⟩
  | @cons a b as bs hab _ ih =>
    obtain ⟨r, h1, h2⟩ := ih fun a b hb => hp a b (List.mem_cons_of_mem _ hb)
    refine ⟨if Q b then a :: r else r, ?_, ?_⟩
    · unfold pyFilter
      rw [hp a b (List.mem_cons_self ..) hab, h1]
      simp only [bind, Except.bind, pure, Except.pure, decide_eq_true_eq]
    · by_cases hb : Q b
      · rw [if_pos hb]
        have : ∃ c ∈ b :: bs, Q c := ⟨b, List.mem_cons_self .., hb⟩
        rw [decide_eq_true this]
        rfl
      · rw [if_neg hb, h2]
        congr 2
        refine propext ⟨fun ⟨c, hc, hq⟩ => ⟨c, List.mem_cons_of_mem _ hc, hq⟩, fun ⟨c, hc, hq⟩ => ?_⟩
        rcases List.mem_cons.1 hc with rfl | hc
        · exact absurd hq hb
        · exact ⟨c, hc, hq⟩

/-- With positions: the first hit. -/
theorem pyFilter_zipIdx {rel : α → β → Prop} {p : α → Res Bool} {Q : β → Prop} {as : List α} {bs : List β}
    (h : List.Forall₂ rel as bs) (hp : ∀ a b, b ∈ bs → rel a b → p a = .ok (decide (Q b))) (k : ℕ) :
    ∃ r, pyFilter (fun gi : α × ℕ => p gi.1) (as.zipIdx k) = .ok r ∧
      r.head?.map Prod.snd = (bs.findIdx? fun b => decide (Q b)).map (· + k) := by
  induction h generalizing k with
  | nil => exact ⟨[], rfl, by simp⟩
  | @cons a b as bs hab _ ih =>
    obtain ⟨r, h1, h2⟩ := ih (fun a b hb => hp a b (List.mem_cons_of_mem _ hb)) (k + 1)
    refine ⟨if Q b then (a, k) :: r else r, ?_, ?_⟩
    · rw [List.zipIdx_cons]
      unfold pyFilter
      simp only
      rw [hp a b (List.mem_cons_self ..) hab, h1]
      simp only [bind, Except.bind, pure, Except.pure, decide_eq_true_eq]
    · rw [List.findIdx?_cons]
      by_cases hb : Q b
      · rw [if_pos hb, if_pos (by simpa using hb)]
        simp
      · rw [if_neg hb, if_neg (by simpa using hb), h2]
        cases bs.findIdx? fun b => decide (Q b) with
        | none => rfl
        | some i =>
          simp only [Option.map_some]
          congr 1
          omega

theorem foldlM_refine {f : σ → α → Res σ} {f' : τ → β → τ} (Inv : σ → τ → Prop) {rel : α → β → Prop}
    {as : List α} {bs : List β} (hl : List.Forall₂ rel as bs)
    (step : ∀ s t a b, b ∈ bs → rel a b → Inv s t → ∃ s', f s a = .ok s' ∧ Inv s' (f' t b))
    {s : σ} {t : τ} (h0 : Inv s t) : ∃ s', as.foldlM f s = .ok s' ∧ Inv s' (bs.foldl f' t) := by
  induction hl generalizing s t with
  | nil => exact ⟨s, rfl, h0⟩
  | @cons a b as bs hab _ ih =>
    obtain ⟨s1, h1, h2⟩ := step s t a b (List.mem_cons_self ..) hab h0
    obtain ⟨s2, h3, h4⟩ := ih (fun s t a b hb => step s t a b (List.mem_cons_of_mem _ hb)) h2
    refine ⟨s2, ?_, h4⟩
    rw [List.foldlM_cons, h1]
    exact h3

/-- Add the elements that are not related to a previous one. -/
noncomputable def dedupBy (R : α → α → Prop) (acc xs : List α) : List α :=
  xs.foldl (fun acc x => if ∃ h ∈ acc, R h x then acc else acc ++ [x]) acc

theorem dedupBy_cons (R : α → α → Prop) (acc : List α) (x : α) (xs : List α) :
    dedupBy R acc (x :: xs) = dedupBy R (if ∃ h ∈ acc, R h x then acc else acc ++ [x]) xs := rfl

theorem dedupBy_append (R : α → α → Prop) (acc xs ys : List α) :
    dedupBy R acc (xs ++ ys) = dedupBy R (dedupBy R acc xs) ys := List.foldl_append ..

theorem dedupBy_prefix (R : α → α → Prop) (acc xs : List α) : acc <+: dedupBy R acc xs := by
  induction xs generalizing acc with
  | nil => exact List.prefix_rfl
  | cons x xs ih =>
    rw [dedupBy_cons]
    refine List.IsPrefix.trans ?_ (ih _)
    split_ifs
    · exact List.prefix_rfl
    · exact List.prefix_append ..

theorem dedupBy_mem {R : α → α → Prop} {acc xs : List α} {y : α} (h : y ∈ dedupBy R acc xs) :
    y ∈ acc ∨ y ∈ xs := by
  induction xs generalizing acc with
  | nil => exact Or.inl h
  | cons x xs ih =>
    rw [dedupBy_cons] at h
    rcases ih h with h | h
    · split_ifs at h with hc
      · exact Or.inl h
      · rcases List.mem_append.1 h with h | h
        · exact Or.inl h
        · rw [List.mem_singleton] at h
          exact Or.inr (h ▸ List.mem_cons_self ..)
    · exact Or.inr (List.mem_cons_of_mem _ h)

theorem dedupBy_cover_of {R : α → α → Prop} {acc xs : List α} (hr : ∀ x ∈ xs, R x x) {x : α} (h : x ∈ xs) :
    ∃ y ∈ dedupBy R acc xs, R y x := by
  induction xs generalizing acc with
  | nil => exact absurd h (by simp)
  | cons a xs ih =>
    rw [dedupBy_cons]
    rcases List.mem_cons.1 h with rfl | h
    · have hp := (dedupBy_prefix R (if ∃ h ∈ acc, R h x then acc else acc ++ [x]) xs).subset
      split_ifs at hp ⊢ with hc
      · obtain ⟨y, hy, hyx⟩ := hc
        exact ⟨y, hp hy, hyx⟩
      · exact ⟨x, hp (by simp), hr x (List.mem_cons_self ..)⟩
    · exact ih (fun x hx => hr x (List.mem_cons_of_mem _ hx)) h

theorem dedupBy_cover {R : α → α → Prop} (hr : ∀ x, R x x) {acc xs : List α} {x : α} (h : x ∈ xs) :
    ∃ y ∈ dedupBy R acc xs, R y x := dedupBy_cover_of (fun x _ => hr x) h

theorem dedupBy_pairwise {R : α → α → Prop} {acc xs : List α} (h : acc.Pairwise fun a b => ¬ R a b) :
    (dedupBy R acc xs).Pairwise fun a b => ¬ R a b := by
  induction xs generalizing acc with
  | nil => exact h
  | cons x xs ih =>
    rw [dedupBy_cons]
    apply ih
    split_ifs with hc
    · exact h
    · rw [List.pairwise_append]
      refine ⟨h, List.pairwise_singleton .., ?_⟩
      intro a ha b hb
      rw [List.mem_singleton] at hb
      subst hb
      exact fun hab => hc ⟨a, ha, hab⟩

end Loops

/-! ## The symmetries of the square -/

theorem squareMap_add (s : Bool × Bool × Bool) (p v : ℤ × ℤ) :
    squareMap s (p + v) = squareMap s p + squareMap s v := by
  obtain ⟨a, b, c⟩ := s
  cases a <;> cases b <;> cases c <;> (apply Prod.ext <;> simp [squareMap, add_comm])

theorem squareMap_comp (s t : Bool × Bool × Bool) : ∃ u, ∀ p, squareMap s (squareMap t p) = squareMap u p := by
  obtain ⟨a, b, c⟩ := s
  obtain ⟨a', b', c'⟩ := t
  refine ⟨(xor a a', if a then (xor b c', xor c b') else (xor b b', xor c c')), fun p => ?_⟩
  cases a <;> cases b <;> cases c <;> cases a' <;> cases b' <;> cases c' <;> simp [squareMap]

theorem squareMap_inv (s : Bool × Bool × Bool) :
    ∃ u, (∀ p, squareMap u (squareMap s p) = p) ∧ ∀ p, squareMap s (squareMap u p) = p := by
  obtain ⟨a, b, c⟩ := s
  refine ⟨(a, if a then (c, b) else (b, c)), fun p => ?_, fun p => ?_⟩ <;>
    cases a <;> cases b <;> cases c <;> simp [squareMap]

theorem squareMap_id (p : ℤ × ℤ) : squareMap (false, false, false) p = p := rfl

theorem squareMap_injective (s : Bool × Bool × Bool) : Function.Injective (squareMap s) := by
  obtain ⟨u, hu, _⟩ := squareMap_inv s
  exact Function.LeftInverse.injective hu

theorem Translate.map {S T : Finset (ℤ × ℤ)} (h : Translate S T) (s : Bool × Bool × Bool) :
    Translate (S.image (squareMap s)) (T.image (squareMap s)) := by
  obtain ⟨v, rfl⟩ := h
  refine ⟨squareMap s v, ?_⟩
  rw [Finset.image_image, Finset.image_image]
  refine Finset.image_congr fun p _ => ?_
  exact squareMap_add s p v

theorem Equivalent.refl (sym : Bool) (S : Finset (ℤ × ℤ)) : Equivalent sym S S := by
  unfold Equivalent
  cases sym
  · exact Translate.refl S
  · refine ⟨(false, false, false), ?_⟩
    have : S.image (squareMap (false, false, false)) = S := by
      rw [show squareMap (false, false, false) = id from rfl, Finset.image_id]
    rw [this]
    exact Translate.refl S

theorem Equivalent.symm {sym : Bool} {S T : Finset (ℤ × ℤ)} (h : Equivalent sym S T) : Equivalent sym T S := by
  unfold Equivalent at *
  cases sym
  · exact Translate.symm h
  · obtain ⟨s, hs⟩ := h
    obtain ⟨u, hu, -⟩ := squareMap_inv s
    refine ⟨u, ?_⟩
    have := (hs.map u).symm
    rw [Finset.image_image] at this
    have e : S.image (squareMap u ∘ squareMap s) = S := by
      rw [show squareMap u ∘ squareMap s = id from funext hu, Finset.image_id]
    rwa [e] at this

theorem Equivalent.trans {sym : Bool} {S T U : Finset (ℤ × ℤ)} (h : Equivalent sym S T)
    (k : Equivalent sym T U) : Equivalent sym S U := by
  unfold Equivalent at *
  cases sym
  · exact Translate.trans h k
  · obtain ⟨s, hs⟩ := h
    obtain ⟨t, ht⟩ := k
    obtain ⟨u, hu⟩ := squareMap_comp t s
    refine ⟨u, ?_⟩
    have := (hs.map t).trans ht
    rw [Finset.image_image] at this
    rwa [show squareMap t ∘ squareMap s = squareMap u from funext hu] at this

theorem Equivalent.card {sym : Bool} {S T : Finset (ℤ × ℤ)} (h : Equivalent sym S T) : T.card = S.card := by
  have ht : ∀ {S T : Finset (ℤ × ℤ)}, Translate S T → T.card = S.card := by
    rintro S T ⟨v, rfl⟩
    exact Finset.card_image_of_injective _ (add_left_injective v)
  unfold Equivalent at h
  cases sym
  · exact ht h
  · obtain ⟨s, hs⟩ := h
    rw [ht hs, Finset.card_image_of_injective _ (squareMap_injective s)]

/-! ## The library's transformations -/

private theorem npRound_int14 (k : ℤ) : npRound 14 (k : ℝ) = k := npRound_int 14 k

theorem rot4 : getRotFn 4 (0, 0) = .ok fun p => (-p.2, p.1) := by
  unfold getRotFn
  rw [if_neg (by decide)]
  have h : 2 * Real.pi / ((4 : ℤ) : ℝ) = Real.pi / 2 := by push_cast; ring
  simp only
  rw [h]
  congr 1
  funext p
  simp [rotMatVec]

theorem refl01 : getReflFn (0, 1) (0, 0) = .ok fun p => (-p.1, p.2) := by
  unfold getReflFn
  rw [if_neg (by norm_num)]
  simp only
  rw [if_neg (by norm_num)]
  congr 1
  funext p
  simp [rotMatVec, rotMatTVec]

/-- The seven transformations besides the identity, in the order of the library. -/
def symmCodes : List (Bool × Bool × Bool) :=
  [(true, true, false), (false, true, true), (true, false, true), (false, true, false),
    (true, false, false), (false, false, true), (true, true, true)]

theorem symmetryImages_eq (l : List (ℤ × ℤ)) :
    symmetryImages (fun p => (-p.2, p.1)) (fun p => (-p.1, p.2)) (l.map realPt) =
      symmCodes.map fun s => (l.map (squareMap s)).map realPt := by
  have hr : ∀ p : ℤ × ℤ, roundPoint (realPt p) = realPt p := by
    intro p
    simp only [roundPoint, realPt, npRound_int14]
  have h1 : ∀ m : List (ℤ × ℤ), (m.map realPt).map (fun p => roundPoint (-p.2, p.1)) =
      (m.map (squareMap (true, true, false))).map realPt := by
    intro m
    rw [List.map_map, List.map_map]
    refine List.map_congr_left fun p _ => ?_
    have := hr (squareMap (true, true, false) p)
    simp only [Function.comp]
    rw [← this]
    simp [realPt, squareMap]
  have h2 : ∀ m : List (ℤ × ℤ), (m.map realPt).map (fun p => roundPoint (-p.1, p.2)) =
      (m.map (squareMap (false, true, false))).map realPt := by
    intro m
    rw [List.map_map, List.map_map]
    refine List.map_congr_left fun p _ => ?_
    have := hr (squareMap (false, true, false) p)
    simp only [Function.comp]
    rw [← this]
    simp [realPt, squareMap]
  unfold symmetryImages
  simp only
  simp only [h1, h2]
  simp [symmCodes, squareMap, Function.comp_def]

/-! ## Partners -/

/-- Translates, for lists in the order of clusters. -/
def Tr (l m : List (ℤ × ℤ)) : Prop := ∃ v, m = shift v l

theorem Tr.refl (l : List (ℤ × ℤ)) : Tr l l := ⟨0, (shift_zero l).symm⟩

/-- The list of the partners of a cluster. -/
noncomputable def partners (l : List (ℤ × ℤ)) : List (List (ℤ × ℤ)) :=
  dedupBy Tr [l] (symmCodes.map fun s => snakeSort (l.map (squareMap s)))

/-- The partners used with or without symmetry. -/
noncomputable def partnersOf (sym : Bool) (l : List (ℤ × ℤ)) : List (List (ℤ × ℤ)) :=
  if sym then partners l else [l]

theorem snake_image {l : List (ℤ × ℤ)} (h : Snake l) (s : Bool × Bool × Bool) :
    Snake (snakeSort (l.map (squareMap s))) :=
  snakeSort_snake (by simpa using h.ne_nil) (h.nodup.map (squareMap_injective s))

theorem clustersRelBySymmetry_ok {g : Geometry} {l : List (ℤ × ℤ)} (h : g.IsCluster l) :
    ∃ gs, clustersRelBySymmetry g = .ok gs ∧ List.Forall₂ IsCluster gs (partners l) := by
  unfold clustersRelBySymmetry
  rw [rot4, refl01]
  simp only [bind, Except.bind]
  rw [h.2.coords, symmetryImages_eq]
  refine foldlM_refine (List.Forall₂ IsCluster)
    (f' := fun acc x => if ∃ h ∈ acc, Tr h x then acc else acc ++ [x])
    (rel := fun xys c => ∃ s, xys = (l.map (squareMap s)).map realPt ∧ c = snakeSort (l.map (squareMap s)))
    (bs := symmCodes.map fun s => snakeSort (l.map (squareMap s))) ?_ ?_ (.cons h .nil)
  · generalize symmCodes = codes
    induction codes with
    | nil => exact .nil
    | cons s codes ih => exact .cons ⟨s, rfl, rfl⟩ ih
  · rintro gs ls xys c - ⟨s, rfl, rfl⟩ hgs
    obtain ⟨c, hc, hcl⟩ := createSorted_ok (l := l.map (squareMap s)) (by simpa using h.1.ne_nil)
      (h.1.nodup.map (squareMap_injective s))
    rw [(realSites_eq _).1, (realSites_eq _).2] at hc
    rw [hc]
    simp only
    obtain ⟨r, h1, h2⟩ := pyFilter_forall2 (p := fun h => h.isequalAdjacency c)
      (Q := fun m => Tr m (snakeSort (l.map (squareMap s)))) hgs
      (fun a b _ hab => hab.2.isequalAdjacency hcl.2)
    rw [h1]
    simp only [pure, Except.pure]
    refine ⟨_, rfl, ?_⟩
    rw [h2]
    by_cases hx : ∃ b ∈ ls, Tr b (snakeSort (l.map (squareMap s)))
    · rw [if_pos hx, decide_eq_true hx, if_neg (by simp)]
      exact hgs
    · rw [if_neg hx, decide_eq_false hx, if_pos (by simp)]
      exact List.rel_append hgs (.cons hcl .nil)

theorem symmPartners_ok {g : Geometry} {l : List (ℤ × ℤ)} (h : g.IsCluster l) (sym : Bool) :
    ∃ gs, symmPartners sym g = .ok gs ∧ List.Forall₂ IsCluster gs (partnersOf sym l) := by
  unfold symmPartners partnersOf
  cases sym
  · exact ⟨[g], rfl, .cons h .nil⟩
  · exact clustersRelBySymmetry_ok h

theorem anyEqual_ok {gs : List Geometry} {ls : List (List (ℤ × ℤ))} (h : List.Forall₂ IsCluster gs ls)
    {c : Geometry} {m : List (ℤ × ℤ)} (hc : c.IsCluster m) :
    anyEqual gs c = .ok (decide (∃ l ∈ ls, Tr l m)) := by
  obtain ⟨r, h1, h2⟩ := pyFilter_forall2 (p := fun h => h.isequalAdjacency c)
    (Q := fun l => Tr l m) h (fun a b _ hab => hab.2.isequalAdjacency hc.2)
  unfold anyEqual
  rw [h1]
  simp only [bind, Except.bind, pure, Except.pure]
  rw [h2, Bool.not_not]

theorem toFinset_snakeSort (l : List (ℤ × ℤ)) : (snakeSort l).toFinset = l.toFinset :=
  List.toFinset_eq_of_perm _ _ (snakeSort_perm l)

theorem toFinset_image (l : List (ℤ × ℤ)) (s : Bool × Bool × Bool) :
    (snakeSort (l.map (squareMap s))).toFinset = l.toFinset.image (squareMap s) := by
  rw [toFinset_snakeSort]
  ext p
  simp only [List.mem_toFinset, List.mem_map, Finset.mem_image]

theorem partners_form {l c : List (ℤ × ℤ)} (h : Snake l) (hc : c ∈ partners l) :
    ∃ s, c = snakeSort (l.map (squareMap s)) := by
  rcases dedupBy_mem hc with hc | hc
  · rw [List.mem_singleton] at hc
    refine ⟨(false, false, false), ?_⟩
    rw [hc, show squareMap (false, false, false) = id from rfl, List.map_id]
    exact (snakeSort_eq h (List.Perm.refl _)).symm
  · obtain ⟨s, -, rfl⟩ := List.mem_map.1 hc
    exact ⟨s, rfl⟩

theorem partners_cover {l : List (ℤ × ℤ)} (h : Snake l) (s : Bool × Bool × Bool) :
    ∃ c ∈ partners l, Tr c (snakeSort (l.map (squareMap s))) := by
  by_cases hs : s ∈ symmCodes
  · exact dedupBy_cover Tr.refl (List.mem_map.2 ⟨s, hs, rfl⟩)
  · have : s = (false, false, false) := by
      revert hs
      revert s
      decide
    subst this
    rw [show squareMap (false, false, false) = id from rfl, List.map_id, snakeSort_eq h (List.Perm.refl _)]
    exact ⟨l, (dedupBy_prefix Tr [l] _).subset (by simp), Tr.refl l⟩

theorem partners_pairwise (l : List (ℤ × ℤ)) : (partners l).Pairwise fun a b => ¬ Tr a b :=
  dedupBy_pairwise (List.pairwise_singleton ..)

theorem partners_snake {l c : List (ℤ × ℤ)} (h : Snake l) (hc : c ∈ partners l) : Snake c := by
  obtain ⟨s, rfl⟩ := partners_form h hc
  exact snake_image h s

theorem tr_iff {l m : List (ℤ × ℤ)} (hl : Snake l) (hm : Snake m) :
    Tr l m ↔ Translate l.toFinset m.toFinset := (translate_iff hl hm).symm

theorem partnersOf_iff {l m : List (ℤ × ℤ)} (hl : Snake l) (hm : Snake m) (sym : Bool) :
    (∃ c ∈ partnersOf sym l, Tr c m) ↔ Equivalent sym l.toFinset m.toFinset := by
  unfold partnersOf Equivalent
  cases sym
  · simp only [Bool.false_eq_true, if_false, List.mem_singleton, exists_eq_left]
    exact tr_iff hl hm
  · simp only [if_true]
    constructor
    · rintro ⟨c, hc, ht⟩
      have hs := partners_snake hl hc
      obtain ⟨s, rfl⟩ := partners_form hl hc
      refine ⟨s, ?_⟩
      rw [← toFinset_image]
      exact (tr_iff hs hm).1 ht
    · rintro ⟨s, hs⟩
      obtain ⟨c, hc, ht⟩ := partners_cover hl s
      refine ⟨c, hc, ?_⟩
      have hcs := partners_snake hl hc
      rw [tr_iff hcs (snake_image hl s), toFinset_image] at ht
      exact (tr_iff hcs hm).2 (ht.trans hs)

end ED
