import Verif.App.FilesSpecification

/-
C72: the files of a package, and formatting them.
-/

namespace Verif.App

/-! ## Files that are found -/

theorem splitOnce_some {s a b : List Char} : splitOnce s = some (a, b) ↔ s = a ++ '.' :: b ∧ '.' ∉ a := by
  induction s generalizing a b with
  | nil => simp [splitOnce]
  | cons c s ih =>
    unfold splitOnce
    by_cases hc : c = '.'
    · subst hc
      rw [if_pos rfl]
      cases a with
      | nil => simp [eq_comm]
      | cons d a =>
        simp only [Option.some.injEq, Prod.mk.injEq, List.nil_eq, reduceCtorEq, false_and, List.cons_append, List.cons.injEq,
          List.mem_cons, not_or, false_iff, not_and, not_not]
        rintro ⟨rfl, -⟩ h
        exact absurd rfl h
    · rw [if_neg hc]
      cases hs : splitOnce s with
      | none =>
        cases a with
        | nil => simp [hc]
        | cons d a =>
          simp only [Option.map_none, reduceCtorEq, List.cons_append, List.cons.injEq, List.mem_cons, not_or, false_iff, not_and, not_not]
          rintro ⟨rfl, h⟩ -
          by_contra h'
          have := ih.mpr ⟨h, h'⟩
          rw [hs] at this
          cases this
      | some p =>
        obtain ⟨x, y⟩ := p
        have hx := ih.mp hs
        simp only [Option.map_some, Option.some.injEq, Prod.mk.injEq]
        constructor
        · rintro ⟨rfl, rfl⟩
          exact ⟨by rw [hx.1]; rfl, by simp only [List.mem_cons, not_or]; exact ⟨fun h => hc h.symm, hx.2⟩⟩
        · rintro ⟨h, h'⟩
          cases a with
          | nil => simp [hc] at h
          | cons d a =>
            simp only [List.cons_append, List.cons.injEq, List.mem_cons, not_or] at h h'
            have := ih.mpr ⟨h.2, h'.2⟩
            rw [hs] at this
            cases this
            exact ⟨by rw [h.1], rfl⟩

theorem hasExtension_iff {extension : List Char} (he : extension ≠ []) (directory : Path) (name : List Char) :
    hasExtension (directory ++ [name]) extension = true ↔ IsNamed extension name := by
  unfold hasExtension IsNamed
  rw [List.getLast?_append_of_ne_nil _ (by simp)]
  simp only [List.getLast?_singleton]
  cases hs : splitOnce name with
  | none =>
    simp only [Option.getD_none]
    constructor
    · intro h
      split at h
      · simp at h; exact absurd h he
      · simp only [decide_eq_true_eq] at h; exact absurd h.symm he
    · rintro ⟨base, h⟩
      rw [splitOnce_some.mpr h] at hs
      cases hs
  | some p =>
    obtain ⟨a, b⟩ := p
    have h := splitOnce_some.mp hs
    have hne : b ≠ name := by
      intro e
      have := congrArg List.length h.1
      rw [e] at this
      simp at this
      omega
    simp only [Option.getD_some, if_neg hne, decide_eq_true_eq]
    constructor
    · rintro rfl
      exact ⟨a, h⟩
    · rintro ⟨base, h'⟩
      rw [splitOnce_some.mpr h'] at hs
      cases hs
      rfl

theorem isHidden_iff (directory : Path) (name : List Char) :
    isHidden directory (join directory [name]) = true ↔ name.head? = some '.' := by
  unfold isHidden
  rw [c40_relative_join]
  simp

mutual
theorem mem_findNode {extension : List Char} (he : extension ≠ []) (directory : Path) (name : List Char) (q : Path) :
    ∀ node : Node, q ∈ findNode extension (directory ++ [name]) node ↔
      (node = .file ∧ q = directory ++ [name] ∧ IsNamed extension name) ∨
      ∃ entries, node = .directory entries ∧ ∃ inner last, q = directory ++ [name] ++ inner ++ [last] ∧
        LeadsTo entries (inner ++ [last]) ∧ IsNamed extension last ∧ ∀ x ∈ inner ++ [last], x.head? ≠ some '.'
  | .file => by
    unfold findNode
    rw [← hasExtension_iff he directory name]
    split
    · next h => simp [h]
    · next h => simp [h]
  | .directory entries => by
    unfold findNode
    rw [mem_findEntries he (directory ++ [name]) q entries]
    simp
theorem mem_findEntries {extension : List Char} (he : extension ≠ []) (directory : Path) (q : Path) :
    ∀ entries : List (List Char × Node), q ∈ findEntries extension directory entries ↔
      ∃ inner last, q = directory ++ inner ++ [last] ∧
        LeadsTo entries (inner ++ [last]) ∧ IsNamed extension last ∧ ∀ x ∈ inner ++ [last], x.head? ≠ some '.'
  | [] => by
    unfold findEntries
    simp only [List.not_mem_nil, false_iff]
    rintro ⟨inner, last, -, h, -⟩
    generalize inner ++ [last] = p at h
    cases h with
    | file h => cases h
    | directory h _ => cases h
  | (name, node) :: entries => by
    unfold findEntries
    rw [List.mem_append, mem_findEntries he directory q entries]
    have hn := mem_findNode he directory name q node
    constructor
    · rintro (h | ⟨inner, last, h1, h2, h3, h4⟩)
      · split at h
        · cases h
        · next hh =>
          have hh : name.head? ≠ some '.' := fun e => hh ((isHidden_iff directory name).mpr e)
          rcases hn.mp h with ⟨rfl, rfl, h'⟩ | ⟨es, rfl, inner, last, h1, h2, h3, h4⟩
          · exact ⟨[], name, by simp, .file (by simp), h', by simpa using hh⟩
          · refine ⟨name :: inner, last, by simpa using h1, .directory (by simp) h2, h3, ?_⟩
            rintro x (_ | ⟨_, hx⟩)
            · exact hh
            · exact h4 x hx
      · refine ⟨inner, last, h1, ?_, h3, h4⟩
        cases hp : inner ++ [last] with
        | nil => simp at hp
        | cons a b =>
          rw [hp] at h2
          cases h2 with
          | file h => exact .file (List.mem_cons_of_mem _ h)
          | directory h h' => exact .directory (List.mem_cons_of_mem _ h) h'
    · rintro ⟨inner, last, h1, h2, h3, h4⟩
      cases inner with
      | nil =>
        cases h2 with
        | file h =>
          rcases List.mem_cons.mp h with h | h
          · cases h
            refine .inl ?_
            rw [if_neg (by rw [isHidden_iff]; exact h4 _ (by simp))]
            exact hn.mpr (.inl ⟨rfl, by simpa using h1, h3⟩)
          · exact .inr ⟨[], last, h1, .file h, h3, h4⟩
        | directory h h' => cases h'
      | cons a inner =>
        have h2' : ∃ es, (a, Node.directory es) ∈ (name, node) :: entries ∧ LeadsTo es (inner ++ [last]) := by
          generalize hp : inner ++ [last] = p at h2
          rw [List.cons_append, hp] at h2
          cases h2 with
          | file h => simp at hp
          | directory h h' => exact ⟨_, h, h'⟩
        obtain ⟨es, h, h'⟩ := h2'
        rcases List.mem_cons.mp h with h | h
        · cases h
          refine .inl ?_
          rw [if_neg (by rw [isHidden_iff]; exact h4 _ (by simp))]
          exact hn.mpr (.inr ⟨es, rfl, inner, last, by simpa using h1, h', h3, fun x hx => h4 x (by
            simp only [List.cons_append, List.mem_cons]; exact .inr hx)⟩)
        · exact .inr ⟨a :: inner, last, h1, .directory h h', h3, h4⟩
end

/-- **C72, files.** The files that are found are those that belong to the package, in whatever order directories list
their entries. -/
theorem c72_found {extension : List Char} (he : extension ≠ []) (f : Files) (path : Path) :
    path ∈ findFiles extension f.directory f.entries ↔ Belongs extension f path :=
  mem_findEntries he f.directory path f.entries

theorem mem_modules (f : Files) (path : Path) : path ∈ f.modules ↔ IsModule f path := by
  unfold Files.modules IsModule
  rw [List.mem_append, c72_found (by decide), c72_found (by decide)]
  rfl

mutual
theorem findNode_nodup {extension : List Char} (he : extension ≠ []) (directory : Path) (name : List Char) :
    ∀ node : Node, node.Distinct → (findNode extension (directory ++ [name]) node).Nodup
  | .file, _ => by
    unfold findNode
    split <;> simp
  | .directory entries, h => by
    unfold findNode
    exact findEntries_nodup he (directory ++ [name]) entries h
theorem findEntries_nodup {extension : List Char} (he : extension ≠ []) (directory : Path) :
    ∀ entries : List (List Char × Node), DistinctEntries entries → (findEntries extension directory entries).Nodup
  | [], _ => by
    unfold findEntries
    exact List.nodup_nil
  | (name, node) :: entries, h => by
    unfold findEntries
    refine List.nodup_append.mpr ⟨?_, findEntries_nodup he directory entries h.2.2, ?_⟩
    · split
      · exact List.nodup_nil
      · exact findNode_nodup he directory name node h.2.1
    · rintro a ha b hb rfl
      obtain ⟨inner, last, h1, h2, -⟩ := (mem_findEntries he directory a entries).mp hb
      split at ha
      · cases ha
      · have hh : ∃ rest, a = directory ++ name :: rest := by
          rcases (mem_findNode he directory name a node).mp ha with ⟨-, rfl, -⟩ | ⟨_, -, inner, last, rfl, -⟩
          · exact ⟨[], rfl⟩
          · exact ⟨inner ++ [last], by simp⟩
        obtain ⟨rest, hr⟩ := hh
        rw [h1, List.append_assoc] at hr
        have hr := List.append_cancel_left hr
        rw [hr] at h2
        cases h2 with
        | file h' => exact h.1 _ h'
        | directory h' _ => exact h.1 _ h'
end

/-- **C72, each once.** No file is found twice, and no file is both a module and a test module. -/
theorem c72_found_once (f : Files) (h : DistinctEntries f.entries) : f.modules.Nodup := by
  unfold Files.modules
  refine List.nodup_append.mpr ⟨findEntries_nodup (by decide) _ _ h, findEntries_nodup (by decide) _ _ h, ?_⟩
  rintro a ha b hb rfl
  obtain ⟨i, n, h1, -, ⟨s, h2, h3⟩, -⟩ := (c72_found (by decide) f a).mp ha
  obtain ⟨i', n', h1', -, ⟨s', h2', h3'⟩, -⟩ := (c72_found (by decide) f a).mp hb
  have : n = n' := by
    have := congrArg List.getLast? (h1.symm.trans h1')
    simpa using this
  subst this
  have e := splitOnce_some.mpr ⟨h2, h3⟩
  rw [splitOnce_some.mpr ⟨h2', h3'⟩] at e
  have e : testExtension = sourceExtension := by simpa using (congrArg Prod.snd (Option.some.inj e))
  exact absurd e (by decide)

/-! ## Modules and their paths -/

theorem source_file (directory : Path) (components : List (List Char)) (name : List Char) (h : '.' ∉ name)
    (hn : '\n' ∉ name) : resolveSourceFile directory (components ++ [name]) sourceExtension =
      directory ++ components ++ [name ++ '.' :: sourceExtension] := by
  have := c40_extension_stem (directory ++ components) name sourceExtension hn
  rw [stem_of_no_period _ h, if_neg (by decide)] at this
  simpa [resolveSourceFile, join] using this

/-- **C72, imports.** A module that is imported by its path, of identifiers, is found if its source file is there. -/
theorem c72_imports_are_found (f : Files) (components : List (List Char)) (name : List Char)
    (h : ∀ x ∈ components ++ [name], '.' ∉ x) (hn : '\n' ∉ name) (hne : name ≠ []) :
    resolveSourceFile f.directory (components ++ [name]) sourceExtension ∈ findFiles sourceExtension f.directory f.entries ↔
      LeadsTo f.entries (components ++ [name ++ ".pen".toList]) := by
  have hd : ∀ x : List Char, '.' ∉ x → x.head? ≠ some '.' := fun x hx e => by
    cases x with
    | nil => cases e
    | cons c x =>
      cases e
      simp at hx
  have hx : '.' :: sourceExtension = ".pen".toList := by decide +kernel
  rw [source_file _ _ _ (h name (by simp)) hn, c72_found (by decide), hx]
  constructor
  · rintro ⟨inner, last, h1, h2, -⟩
    have e : components ++ [name ++ ".pen".toList] = inner ++ [last] := by
      rw [List.append_assoc, List.append_assoc] at h1
      exact List.append_cancel_left h1
    rw [e]
    exact h2
  · intro hl
    refine ⟨components, _, rfl, hl, ⟨name, by rw [hx], h name (by simp)⟩, fun x hx' => ?_⟩
    rcases List.mem_append.mp hx' with hx' | hx'
    · exact hd x (h x (List.mem_append_left _ hx'))
    · rw [List.mem_singleton.mp hx']
      have := hd name (h name (by simp))
      cases hname : name with
      | nil => exact absurd hname hne
      | cons c t => rw [hname] at this; simpa using this

/-- **C72, paths of modules.** The path of a module that is found leads back to its file, so that different files have
different paths. -/
theorem c72_modules_have_paths (f : Files) (path : Path) (h : path ∈ findFiles sourceExtension f.directory f.entries)
    (hn : ∀ name, path.getLast? = some name → '\n' ∉ name) :
    ∃ components, resolveModulePath f.directory path = some components ∧
      resolveSourceFile f.directory components sourceExtension = path := by
  obtain ⟨inner, last, rfl, -, ⟨base, rfl, hb⟩, -⟩ := (c72_found (by decide) f path).mp h
  have hn : '\n' ∉ base := fun e => hn (base ++ '.' :: sourceExtension) (by simp) (by simp [e])
  refine ⟨inner ++ [base], ?_, source_file _ _ _ hb hn⟩
  rw [← source_file _ _ _ hb hn]
  exact c40_module_path _ _ _ _ hb hn (by decide)

/-! ## Formatting -/

theorem formatFiles_spec (format : Text → Option Text) : ∀ (paths : List Path) (content : Path → Text), paths.Nodup →
    ((formatFiles format paths content).2 = true ↔ ∀ p ∈ paths, ∃ t, format (content p) = some t) ∧
    ((formatFiles format paths content).2 = true →
      ∀ p ∈ paths, format (content p) = some ((formatFiles format paths content).1 p)) ∧
    (∀ p, (formatFiles format paths content).1 p = content p ∨
      p ∈ paths ∧ format (content p) = some ((formatFiles format paths content).1 p)) ∧
    ∀ p, p ∉ paths → (formatFiles format paths content).1 p = content p
  | [], content, _ => by simp [formatFiles]
  | path :: paths, content, h => by
    obtain ⟨h1, h2⟩ := List.nodup_cons.mp h
    unfold formatFiles
    cases hf : format (content path) with
    | none =>
      simp only [Bool.false_eq_true, false_iff, false_implies, true_and, implies_true, true_or, and_true]
      intro h
      obtain ⟨t, ht⟩ := h path (by simp)
      rw [hf] at ht
      cases ht
    | some t =>
      simp only
      obtain ⟨i1, i2, i3, i4⟩ := formatFiles_spec format paths (fun p => if p = path then t else content p) h2
      have hc : ∀ p ∈ paths, (if p = path then t else content p) = content p := fun p hp => by
        rw [if_neg]
        rintro rfl
        exact h1 hp
      have hpath : (formatFiles format paths fun p => if p = path then t else content p).1 path = t := by
        rw [i4 path h1, if_pos rfl]
      refine ⟨?_, fun ht p hp => ?_, fun p => ?_, fun p hp => ?_⟩
      · rw [i1]
        constructor
        · intro hp p hp'
          rcases List.mem_cons.mp hp' with rfl | hp'
          · exact ⟨t, hf⟩
          · have := hp p hp'
            rwa [hc p hp'] at this
        · intro hp p hp'
          rw [hc p hp']
          exact hp p (List.mem_cons_of_mem _ hp')
      · rcases List.mem_cons.mp hp with rfl | hp'
        · rw [hpath, hf]
        · have := i2 ht p hp'
          rwa [hc p hp'] at this
      · by_cases hp : p = path
        · subst hp
          exact .inr ⟨by simp, by rw [hpath, hf]⟩
        · rcases i3 p with h | ⟨h, h'⟩
          · rw [if_neg hp] at h
            exact .inl h
          · rw [if_neg hp] at h'
            exact .inr ⟨List.mem_cons_of_mem _ h, h'⟩
      · simp only [List.mem_cons, not_or] at hp
        rw [i4 p hp.2, if_neg hp.1]

/-- **C72, formatting.** Formatting a package succeeds if all its modules and test modules can be formatted. Then these
are what they are formatted to. In any case every file is what it was or what it is formatted to, and files that are not
modules are what they were. -/
theorem c72_format (format : Text → Option Text) (f : Files) (h : DistinctEntries f.entries) :
    ((formatPackage format f).2 = true ↔ ∀ p, IsModule f p → ∃ t, format (f.content p) = some t) ∧
    ((formatPackage format f).2 = true →
      ∀ p, IsModule f p → format (f.content p) = some ((formatPackage format f).1.content p)) ∧
    (∀ p, (formatPackage format f).1.content p = f.content p ∨
      IsModule f p ∧ format (f.content p) = some ((formatPackage format f).1.content p)) ∧
    (∀ p, ¬ IsModule f p → (formatPackage format f).1.content p = f.content p) ∧
    (formatPackage format f).1.directory = f.directory ∧ (formatPackage format f).1.entries = f.entries := by
  have := formatFiles_spec format f.modules f.content (c72_found_once f h)
  simp only [mem_modules] at this
  exact ⟨this.1, this.2.1, this.2.2.1, this.2.2.2, rfl, rfl⟩

theorem unformatted_spec (format : Text → Option Text) (content : Path → Text) : ∀ paths : List Path,
    (unformatted format content paths = none ↔ ∃ p ∈ paths, format (content p) = none) ∧
    ∀ ps, unformatted format content paths = some ps → ps.Sublist paths ∧
      ∀ p, p ∈ ps ↔ p ∈ paths ∧ format (content p) ≠ some (content p)
  | [] => by simp [unformatted]
  | path :: paths => by
    obtain ⟨i1, i2⟩ := unformatted_spec format content paths
    unfold unformatted
    cases hf : format (content path) with
    | none => simp [hf]
    | some t =>
      refine ⟨by simp [i1, hf], fun ps h => ?_⟩
      obtain ⟨qs, hq, rfl⟩ := Option.map_eq_some_iff.mp h
      obtain ⟨j1, j2⟩ := i2 qs hq
      by_cases ht : content path = t
      · rw [if_neg (by simpa using ht)]
        refine ⟨j1.cons _, fun p => ?_⟩
        rw [j2, List.mem_cons]
        refine ⟨fun h => ⟨.inr h.1, h.2⟩, fun h => ⟨h.1.resolve_left ?_, h.2⟩⟩
        rintro rfl
        exact h.2 (by rw [hf, ht])
      · rw [if_pos ht]
        refine ⟨j1.cons_cons _, fun p => ?_⟩
        rw [List.mem_cons, j2, List.mem_cons]
        constructor
        · rintro (rfl | h)
          · exact ⟨.inl rfl, by rw [hf]; exact fun e => ht (Option.some.inj e).symm⟩
          · exact ⟨.inr h.1, h.2⟩
        · rintro ⟨rfl | h, h'⟩
          · exact .inl rfl
          · exact .inr ⟨h, h'⟩

/-- **C72, checking.** A package is found to be formatted exactly if formatting changes none of its modules and test
modules. Otherwise the others are listed, each once, unless a file cannot be formatted. -/
theorem c72_check (format : Text → Option Text) (display : Path → Text) (le : Text → Text → Bool) (f : Files)
    (h : DistinctEntries f.entries) :
    (checkPackage format display le f = .formatted ↔ ∀ p, IsModule f p → format (f.content p) = some (f.content p)) ∧
    (checkPackage format display le f = .failed ↔ ∃ p, IsModule f p ∧ format (f.content p) = none) ∧
    ∀ ts, checkPackage format display le f = .notFormatted ts → ∃ ps : List Path, ps.Nodup ∧ ts.Perm (ps.map display) ∧
      ∀ p, p ∈ ps ↔ IsModule f p ∧ format (f.content p) ≠ some (f.content p) := by
  obtain ⟨h1, h2⟩ := unformatted_spec format f.content f.modules
  have hn := c72_found_once f h
  simp only [mem_modules] at h1 h2
  unfold checkPackage
  cases hu : unformatted format f.content f.modules with
  | none =>
    obtain ⟨p, hp, hf⟩ := h1.mp hu
    refine ⟨?_, by simpa using ⟨p, hp, hf⟩, by simp⟩
    simp only [reduceCtorEq, false_iff]
    intro h
    rw [h p hp] at hf
    cases hf
  | some ps =>
    obtain ⟨h3, h4⟩ := h2 ps hu
    have hf : ¬ ∃ p, IsModule f p ∧ format (f.content p) = none := by
      rw [← h1, hu]
      simp
    simp only
    split
    · next he =>
      have he : ps = [] := by simpa using he
      subst he
      refine ⟨?_, by simpa using hf, by simp⟩
      simp only [true_iff]
      intro p hp
      by_contra h
      have := (h4 p).mpr ⟨hp, h⟩
      cases this
    · next he =>
      refine ⟨?_, by simpa using hf, fun ts ht => ?_⟩
      · simp only [reduceCtorEq, false_iff]
        intro h
        apply he
        rw [List.isEmpty_iff]
        refine List.eq_nil_iff_forall_not_mem.mpr fun p hp => ?_
        obtain ⟨hp1, hp2⟩ := (h4 p).mp hp
        exact hp2 (h p hp1)
      · cases ht
        exact ⟨ps, h3.nodup hn, List.mergeSort_perm _ _, h4⟩

/-- **C72, checked packages stay.** Formatting a package that is found to be formatted succeeds and changes nothing. -/
theorem c72_check_then_format (format : Text → Option Text) (display : Path → Text) (le : Text → Text → Bool) (f : Files)
    (h : DistinctEntries f.entries) (hc : checkPackage format display le f = .formatted) :
    formatPackage format f = (f, true) := by
  have hc := (c72_check format display le f h).1.mp hc
  obtain ⟨h1, h2, h3, h4, h5, h6⟩ := c72_format format f h
  have hs := h1.mpr fun p hp => ⟨_, hc p hp⟩
  have e : (formatPackage format f).1.content = f.content := by
    funext p
    by_cases hp : IsModule f p
    · have := h2 hs p hp
      rw [hc p hp] at this
      exact (Option.some.inj this).symm
    · exact h4 p hp
  refine Prod.ext ?_ hs
  show (⟨f.directory, f.entries, (formatPackage format f).1.content⟩ : Files) = f
  rw [e]

/-- **C72, formatted packages are checked.** After formatting, a package is found to be formatted exactly if formatting
once more changes none of the texts. (Missing: that it does not, which is false of the formatter, see
`c72_format_is_not_stable`.) -/
theorem c72_format_then_check_partial (format : Text → Option Text) (display : Path → Text) (le : Text → Text → Bool)
    (f : Files) (h : DistinctEntries f.entries) (hs : (formatPackage format f).2 = true) :
    checkPackage format display le (formatPackage format f).1 = .formatted ↔
      ∀ p, IsModule f p → ∀ t, format (f.content p) = some t → format t = some t := by
  obtain ⟨h1, h2, h3, h4, h5, h6⟩ := c72_format format f h
  have hm : ∀ p, IsModule (formatPackage format f).1 p ↔ IsModule f p := fun p => Iff.rfl
  rw [(c72_check format display le (formatPackage format f).1 h).1]
  refine forall_congr' fun p => ?_
  rw [hm]
  refine forall_congr' fun hp => ?_
  rw [h2 hs p hp]
  simp

/-- **C72, which packages can be formatted.** Formatting a package succeeds exactly if all its modules and test modules
are parsed and none of them is of nothing but white space. -/
theorem c72_packages_that_are_formatted (layout : Text → Grammar.Layout) (f : Files) (h : DistinctEntries f.entries) :
    (formatPackage (formatText layout) f).2 = true ↔
      ∀ p, IsModule f p → (∃ m, Grammar.parse (f.content p) = some m) ∧ ¬ Grammar.OnlySpaces (f.content p) := by
  rw [(c72_format (formatText layout) f h).1]
  exact forall_congr' fun p => forall_congr' fun _ => Grammar.c67_sources_that_are_formatted

/-- **C72, programs are kept.** Whether formatting a package succeeds or fails, every file that was parsed is parsed
afterwards, to the same module up to the order of imports. (Missing: the shapes that `Module.Safe` excludes, for which
this is false, see C57.) -/
theorem c72_programs_are_kept_partial (layout : Text → Grammar.Layout) (f : Files) (h : DistinctEntries f.entries)
    (p : Path) (m : Grammar.Module) (hm : Grammar.parse (f.content p) = some m) (hs : m.Safe) :
    ∃ m', Grammar.parse ((formatPackage (formatText layout) f).1.content p) = some m' ∧ Grammar.SameModule m m' := by
  rcases (c72_format (formatText layout) f h).2.2.1 p with e | ⟨-, e⟩
  · rw [e]
    exact ⟨m, hm, ⟨m.imports, .refl _, List.forall₂_same.mpr fun i _ => ⟨rfl, rfl, .refl _⟩⟩, rfl, rfl, rfl⟩
  · exact Grammar.c67_program_is_kept_partial e hm hs

end Verif.App
