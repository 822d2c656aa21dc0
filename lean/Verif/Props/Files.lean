import Verif.Model.Files

/-! # Property C73: saving and loading -/

namespace ED.Props

/-! ## Specification -/

/-- One call of `save`: the state of the object, the requested name and the time of day. -/
structure SaveCall where
  self : PyDict
  fileName : Option String
  now : String

/-- The name the call writes to. -/
def SaveCall.target (c : SaveCall) : String := c.fileName.getD (c.now ++ "_ed.pkl")

/-- A name with the given extension: a stem whose part after the last slash contains something other
than dots, followed by the extension. -/
def HasExt (name ext : String) : Prop :=
  ∃ dir stem : List Char, name.toList = dir ++ stem ++ ext.toList ∧ '/' ∉ stem ∧
    (dir = [] ∨ dir.getLast? = some '/') ∧ ∃ c ∈ stem, c ≠ '.'

/-- The file system after a history of calls. -/
def runSaves (fs : Files) (h : List SaveCall) : Files :=
  h.foldl (fun fs c => (edSave fs c.self c.fileName c.now).2) fs

/-! ## Extensions -/

theorem takeWhile_append_stop {p : Char → Bool} (a : List Char) (x : Char) (b : List Char)
    (ha : ∀ c ∈ a, p c = true) (hx : p x = false) : (a ++ x :: b).takeWhile p = a := by
  induction a with
  | nil => simp [hx]
  | cons y a ih =>
    rw [List.cons_append, List.takeWhile_cons_of_pos (ha y (by simp)), ih fun c hc => ha c (by simp [hc])]

theorem dropWhile_append_stop {p : Char → Bool} (a : List Char) (x : Char) (b : List Char)
    (ha : ∀ c ∈ a, p c = true) (hx : p x = false) : (a ++ x :: b).dropWhile p = x :: b := by
  induction a with
  | nil => simp [hx]
  | cons y a ih =>
    rw [List.cons_append, List.dropWhile_cons_of_pos (ha y (by simp)), ih fun c hc => ha c (by simp [hc])]

theorem exists_split_last (x : Char) (l : List Char) (h : x ∈ l) :
    ∃ a b, l = a ++ x :: b ∧ x ∉ b := by
  induction l with
  | nil => simp at h
  | cons y l ih =>
    by_cases hl : x ∈ l
    · obtain ⟨a, b, rfl, hb⟩ := ih hl
      exact ⟨y :: a, b, rfl, hb⟩
    · rcases List.mem_cons.1 h with rfl | h
      · exact ⟨[], l, rfl, hl⟩
      · exact absurd h hl

/-- The part of a name after the last slash. -/
theorem base_of (dir base : List Char) (hb : '/' ∉ base) (hd : dir = [] ∨ dir.getLast? = some '/') :
    ((dir ++ base).reverse.takeWhile (· ≠ '/')).reverse = base := by
  rcases hd with rfl | hd
  · have hall : ∀ l : List Char, '/' ∉ l → l.takeWhile (· ≠ '/') = l := by
      intro l
      induction l with
      | nil => simp
      | cons y l ih =>
        intro h
        simp only [List.mem_cons, not_or] at h
        rw [List.takeWhile_cons_of_pos (by simpa using fun e => h.1 e.symm), ih h.2]
    rw [List.nil_append, hall _ (by simpa using hb), List.reverse_reverse]
  · obtain ⟨d, rfl⟩ := List.getLast?_eq_some_iff.1 hd
    rw [List.reverse_append, List.reverse_append, List.reverse_singleton, List.singleton_append,
      takeWhile_append_stop, List.reverse_reverse]
    · intro c hc
      simp only [List.mem_reverse] at hc
      simp only [ne_eq, decide_not, Bool.not_eq_true', decide_eq_false_iff_not]
      rintro rfl
      exact hb hc
    · simp

theorem split_dir (l : List Char) : ∃ dir base, l = dir ++ base ∧ '/' ∉ base ∧
    (dir = [] ∨ dir.getLast? = some '/') := by
  by_cases h : '/' ∈ l
  · obtain ⟨a, b, rfl, hb⟩ := exists_split_last '/' l h
    exact ⟨a ++ ['/'], b, by simp, hb, Or.inr (by simp)⟩
  · exact ⟨[], l, rfl, h, Or.inl rfl⟩

/-- C73: a name is treated as having the extension `.xyz` exactly if it ends in it and the stem is not
empty or made of dots only. -/
theorem C73_extension (name : String) (e : List Char) (he : '.' ∉ e) (he' : '/' ∉ e) :
    splitextExt name = String.ofList ('.' :: e) ↔ HasExt name (String.ofList ('.' :: e)) := by
  obtain ⟨dir, base, hn, hb, hd⟩ := split_dir name.toList
  have hbase : (name.toList.reverse.takeWhile (· ≠ '/')).reverse = base := by
    rw [hn]; exact base_of dir base hb hd
  have hdot : ∀ b : List Char, '.' ∉ b → ∀ c ∈ b.reverse, (decide (c ≠ '.')) = true := by
    intro b hb c hc
    simp only [List.mem_reverse] at hc
    simp only [ne_eq, decide_not, Bool.not_eq_true', decide_eq_false_iff_not]
    rintro rfl
    exact hb hc
  have hval : ∀ a b, base = a ++ '.' :: b → '.' ∉ b →
      (base.reverse.takeWhile (· ≠ '.')).reverse = b ∧
      (base.reverse.dropWhile (· ≠ '.')).tail.reverse = a := by
    intro a b hab hb'
    rw [hab, List.reverse_append, List.reverse_cons, List.append_assoc, List.singleton_append,
      takeWhile_append_stop _ _ _ (hdot b hb') (by simp),
      dropWhile_append_stop _ _ _ (hdot b hb') (by simp)]
    simp
  unfold splitextExt
  simp only [hbase]
  constructor
  · intro h
    split_ifs at h with hc
    · obtain ⟨hmem, hroot⟩ := hc
      obtain ⟨a, b, hab, hb'⟩ := exists_split_last '.' base hmem
      obtain ⟨h1, h2⟩ := hval a b hab hb'
      rw [h1] at h
      have hbe : b = e := by
        have := congrArg String.toList h
        simpa using this
      rw [h2] at hroot
      refine ⟨dir, a, ?_, ?_, hd, hroot⟩
      · rw [hn, hab, hbe]
        simp
      · intro hs
        exact hb (by rw [hab]; simp [hs])
    · have := congrArg String.toList h
      simp at this
  · rintro ⟨dir', stem, hn', hs, hd', hnd⟩
    have hbase' : base = stem ++ '.' :: e := by
      rw [← hbase, hn']
      have := base_of dir' (stem ++ '.' :: e) (by simp [hs, he']) hd'
      rw [← this]
      simp
    obtain ⟨h1, h2⟩ := hval stem e hbase' he
    rw [h1, h2, if_pos ⟨by rw [hbase']; simp, hnd⟩]

/-! ## Histories -/

theorem runSaves_append (fs : Files) (h : List SaveCall) (c : SaveCall) :
    runSaves fs (h ++ [c]) = (edSave (runSaves fs h) c.self c.fileName c.now).2 := by
  unfold runSaves
  rw [List.foldl_append]
  rfl

/-- A call that does not write to a name leaves its content alone. -/
theorem save_other (fs : Files) (c : SaveCall) (name : String) (h : c.target ≠ name) :
    (edSave fs c.self c.fileName c.now).2 name = fs name := by
  have h' : name ≠ c.fileName.getD (c.now ++ "_ed.pkl") := fun e => h e.symm
  unfold edSave
  simp only
  split_ifs
  · cases toMat c.self <;> simp [h']
  · simp [h']
  · rfl

theorem runSaves_other (fs : Files) (h : List SaveCall) (name : String)
    (ho : ∀ c ∈ h, c.target ≠ name) : runSaves fs h name = fs name := by
  induction h using List.reverseRecOn with
  | nil => rfl
  | append_singleton h c ih =>
    rw [runSaves_append, save_other _ _ _ (ho c (by simp)), ih fun c hc => ho c (by simp [hc])]

/-- C73: after any history of saves, loading a `.pkl` file returns the state of the last call that wrote
to it. -/
theorem C73_pickle (fs : Files) (before after : List SaveCall) (c : SaveCall)
    (hext : HasExt c.target ".pkl") (hlast : ∀ c' ∈ after, c'.target ≠ c.target) :
    edLoad (runSaves fs (before ++ [c] ++ after)) c.target = .ok c.self := by
  have he : splitextExt c.target = ".pkl" :=
    (C73_extension c.target ['p', 'k', 'l'] (by decide) (by decide)).2 hext
  have hrun : runSaves fs (before ++ [c] ++ after) = runSaves (runSaves fs (before ++ [c])) after := by
    unfold runSaves
    rw [List.foldl_append]
  have hc : runSaves fs (before ++ [c] ++ after) c.target = some (.pickle c.self) := by
    rw [hrun, runSaves_other _ _ _ hlast, runSaves_append]
    unfold edSave
    simp only
    change (if splitextExt c.target = ".mat" then _ else _ : Res String × Files).2 c.target = _
    rw [if_neg (by rw [he]; decide)]
    change (if splitextExt c.target = ".pkl" then _ else _ : Res String × Files).2 c.target = _
    rw [if_pos he]
    exact if_pos rfl
  unfold edLoad
  simp only
  rw [if_neg (by rw [he]; decide), if_pos he, hc]

/-- C73: without a name the state is stored as a `.pkl` file whose name is returned. -/
theorem C73_default_name (fs : Files) (self : PyDict) (now : String) (h : '/' ∉ now.toList) :
    ∃ name, (edSave fs self none now).1 = .ok name ∧
      edLoad (edSave fs self none now).2 name = .ok self := by
  have hext : HasExt (now ++ "_ed.pkl") ".pkl" := by
    refine ⟨[], now.toList ++ ['_', 'e', 'd'], by simp, ?_, Or.inl rfl, '_', by simp, by decide⟩
    simp [h]
  have he : splitextExt (now ++ "_ed.pkl") = ".pkl" :=
    (C73_extension (now ++ "_ed.pkl") ['p', 'k', 'l'] (by decide) (by decide)).2 hext
  refine ⟨now ++ "_ed.pkl", ?_, ?_⟩
  · unfold edSave
    simp only [Option.getD_none]
    rw [he, if_neg (by decide), if_pos rfl]
  · have := C73_pickle fs [] [] ⟨self, none, now⟩ hext (by simp)
    exact this

/-- C73: any other extension is rejected by both functions and nothing is written. -/
theorem C73_rejected (fs : Files) (self : PyDict) (name now : String) (h1 : ¬ HasExt name ".pkl")
    (h2 : ¬ HasExt name ".mat") :
    edSave fs self (some name) now = (.error .value, fs) ∧ edLoad fs name = .error .value := by
  have e1 : splitextExt name ≠ ".pkl" := fun h =>
    h1 ((C73_extension name ['p', 'k', 'l'] (by decide) (by decide)).1 h)
  have e2 : splitextExt name ≠ ".mat" := fun h =>
    h2 ((C73_extension name ['m', 'a', 't'] (by decide) (by decide)).1 h)
  constructor
  · unfold edSave
    simp only [Option.getD_some]
    rw [if_neg e2, if_neg e1]
  · unfold edLoad
    simp only
    rw [if_neg e2, if_neg e1]

/-- C73 (what holds for `.mat`): if every attribute has a public name and is an array with at least two
axes, the state comes back unchanged. The full statement is for all attributes; it fails, see
`C73_mat_violated`. -/
theorem C73_mat_partial (fs : Files) (before after : List SaveCall) (c : SaveCall)
    (hext : HasExt c.target ".mat") (hlast : ∀ c' ∈ after, c'.target ≠ c.target)
    (hpub : ∀ p ∈ c.self, p.1.toList.head? ≠ some '_')
    (harr : ∀ p ∈ c.self, ∃ a b s data, p.2 = .arr (a :: b :: s) data) :
    edLoad (runSaves fs (before ++ [c] ++ after)) c.target = .ok c.self := by
  have he : splitextExt c.target = ".mat" :=
    (C73_extension c.target ['m', 'a', 't'] (by decide) (by decide)).2 hext
  have hmat : toMat c.self = some c.self := by
    unfold toMat
    rw [List.filter_eq_self.2 fun p hp => by simpa using hpub p hp]
    generalize hd : c.self = d at harr
    clear hd hpub
    induction d with
    | nil => rfl
    | cons p d ih =>
      obtain ⟨a, b, s, data, hp⟩ := harr p (by simp)
      rw [List.mapM_cons, ih fun q hq => harr q (by simp [hq])]
      rw [hp, toMatVal]
      · simp only [Option.map_some, Option.pure_def, Option.bind_eq_bind, Option.bind_some, ← hp]
      · simp
      · simp
  have hrun : runSaves fs (before ++ [c] ++ after) = runSaves (runSaves fs (before ++ [c])) after := by
    unfold runSaves
    rw [List.foldl_append]
  have hc : runSaves fs (before ++ [c] ++ after) c.target = some (.mat c.self) := by
    rw [hrun, runSaves_other _ _ _ hlast, runSaves_append]
    unfold edSave
    simp only
    change (if splitextExt c.target = ".mat" then _ else _ : Res String × Files).2 c.target = _
    rw [if_pos he, hmat]
    exact if_pos rfl
  unfold edLoad
  simp only
  rw [if_pos he, hc]
  simp only
  congr 1
  unfold loadmat
  have hself : c.self.filter (fun p => decide (p.1.toList.take 2 ≠ ['_', '_'])) = c.self := by
    refine List.filter_eq_self.2 ?_
    intro p hp
    have := hpub p hp
    simp only [ne_eq, decide_not, Bool.not_eq_true', decide_eq_false_iff_not]
    intro h
    apply this
    cases hq : p.1.toList with
    | nil => simp [hq] at h
    | cons x l =>
      rw [hq] at h
      simp only [List.take_succ_cons, List.cons.injEq] at h
      simp [h.1]
  rw [List.filter_append, hself]
  simp

/-- C73 fails for `.mat`: a number comes back as a 1x1 array. -/
theorem C73_mat_violated (fs : Files) (x : ℚ) (now : String) :
    let s := edSave fs [("nsites", .num x)] (some "a.mat") now
    s.1 = .ok "a.mat" ∧ edLoad s.2 "a.mat" = .ok [("nsites", .arr [1, 1] [x])] := by
  have he : splitextExt "a.mat" = ".mat" :=
    (C73_extension "a.mat" ['m', 'a', 't'] (by decide) (by decide)).2
      ⟨[], ['a'], rfl, by decide, Or.inl rfl, 'a', by simp, by decide⟩
  have hm : toMat [("nsites", .num x)] = some [("nsites", .arr [1, 1] [x])] := by
    unfold toMat
    rw [List.filter_eq_self.2 (by simp)]
    rfl
  simp only
  have hs : edSave fs [("nsites", .num x)] (some "a.mat") now =
      (.ok "a.mat", fun f => if f = "a.mat" then some (.mat [("nsites", .arr [1, 1] [x])]) else fs f) := by
    unfold edSave
    simp only [Option.getD_some]
    rw [he, if_pos rfl, hm]
  rw [hs]
  refine ⟨rfl, ?_⟩
  unfold edLoad
  simp only
  rw [he, if_pos rfl]
  simp [loadmat]

example : HasExt "runs/.x.y.pkl" ".pkl" ∧ ¬ HasExt ".pkl" ".pkl" := by
  refine ⟨⟨['r', 'u', 'n', 's', '/'], ['.', 'x', '.', 'y'], rfl, by decide, Or.inr rfl, 'x', by decide,
    by decide⟩, ?_⟩
  rintro ⟨dir, stem, h, -, -, c, hc, -⟩
  have := congrArg List.length h
  simp at this
  have h0 := List.length_pos_of_mem hc
  omega

end ED.Props
