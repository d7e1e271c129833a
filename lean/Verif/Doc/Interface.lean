import Verif.Doc.Properties

/-
C71: what the documentation of a package does not depend on, and the comments in it.
-/

namespace Verif.Doc

open Verif.Grammar
open Verif.Front (isNamePublic)

/-! ## Specification -/

/-- The lines of a text that a module is read from are counted from one. -/
structure DocModule.Read (m : DocModule) : Prop where
  comments : Counted m.comments
  lines : ∀ p, 1 ≤ m.layout.line p

/-- The comments right before two lines are of the same texts, or there are none before both. -/
def SameBlocks (cs : List Comment) (line : Nat) (cs' : List Comment) (line' : Nat) : Prop :=
  ∀ ts : List Text, (∃ ds, IsBlockBefore cs line ds ∧ ds.map Comment.text = ts) ↔
    ∃ ds, IsBlockBefore cs' line' ds ∧ ds.map Comment.text = ts

/-- The comments of two modules are of the same texts, or both modules have none. -/
def SameModuleComment (m m' : DocModule) : Prop :=
  ∀ ts : List Text, (∃ ds, IsFirstBlock m.comments ds ∧ firstChild m ≠ some (1 + ds.length) ∧ ds.map Comment.text = ts) ↔
    ∃ ds, IsFirstBlock m'.comments ds ∧ firstChild m' ≠ some (1 + ds.length) ∧ ds.map Comment.text = ts

/-- A definition of a record some fields of which are private. -/
def IsClosedRecord (d : TypeDefinition) : Prop :=
  ∃ x fs, d = .record x fs ∧ ∃ f ∈ fs, ¬ IsPublicName f.1

/-- Two definitions of types: of the same comments and names, and written the same unless both are of records whose
fields are hidden. Their lines may be others. -/
structure SameType (m m' : DocModule) (d d' : TypeDefinition × Path) : Prop where
  name : typeName d.1 = typeName d'.1
  comments : SameBlocks m.comments (m.layout.line d.2) m'.comments (m'.layout.line d'.2)
  definition : (IsClosedRecord d.1 ∧ IsClosedRecord d'.1) ∨
    (d.1 = d'.1 ∧ ∃ a b, Near a b m.layout d.2 m'.layout d'.2)

/-- Two definitions of functions: of the same comments, names and signatures, written the same. Their lines may be
others, and their bodies may be any. -/
structure SameFunction (m m' : DocModule) (d d' : FunctionDefinition × Path) : Prop where
  name : d.1.name = d'.1.name
  comments : SameBlocks m.comments (m.layout.line d.2) m'.comments (m'.layout.line d'.2)
  arguments : d.1.lambda.arguments = d'.1.lambda.arguments
  result : d.1.lambda.result = d'.1.lambda.result
  lines : ∃ a b, Moved a b (m.layout.line (0 :: d.2)) (m'.layout.line (0 :: d'.2)) ∧
    ∀ i, i ≠ 1 → Near a b m.layout (i :: 0 :: d.2) m'.layout (i :: 0 :: d'.2)

/-- Two modules that look the same from outside. -/
structure SameInterface (c : Configuration) (m m' : DocModule) : Prop where
  path : m.components = m'.components
  read : m.Read ∧ m'.Read
  comments : SameModuleComment m m'
  types : List.Forall₂ (SameType m m') (documentedTypes c m) (documentedTypes c m')
  functions : List.Forall₂ (SameFunction m m') (documentedFunctions c m) (documentedFunctions c m')

/-! ## Comments -/

theorem comment_same {o o' : Option (List Comment)} (h : ∀ ts : List Text, (∃ ds, o = some ds ∧ ds.map Comment.text = ts) ↔
    ∃ ds, o' = some ds ∧ ds.map Comment.text = ts) : commentText o = commentText o' := by
  cases o with
  | none =>
    cases o' with
    | none => rfl
    | some ds => obtain ⟨_, h, _⟩ := (h _).mpr ⟨ds, rfl, rfl⟩; simp at h
  | some ds =>
    obtain ⟨ds', rfl, e⟩ := (h _).mp ⟨ds, rfl, rfl⟩
    have : ∀ ds : List Comment, (ds.map fun d => trim d.text) = (ds.map Comment.text).map trim := fun ds => by simp
    unfold commentText commentLines
    simp only [this, e]

theorem block_same {m m' : DocModule} (hm : m.Read) (hm' : m'.Read) {p p' : Path}
    (h : SameBlocks m.comments (m.layout.line p) m'.comments (m'.layout.line p')) :
    commentText (lastBlock m.comments (m.layout.line p)) = commentText (lastBlock m'.comments (m'.layout.line p')) := by
  refine comment_same fun ts => ?_
  simp only [lastBlock_iff hm.comments (hm.lines _), lastBlock_iff hm'.comments (hm'.lines _)]
  exact h ts

theorem isRecordOpen_iff {fs : List (Name × Ty)} : isRecordOpen fs = false ↔ ∃ f ∈ fs, ¬ IsPublicName f.1 := by
  simp only [isRecordOpen, List.all_eq_false, ← isNamePublic_iff]

theorem forall₂_flatMap {α β : Type} {R : α → β → Prop} {f : α → Text} {g : β → Text} (h : ∀ a b, R a b → f a = g b) :
    ∀ {xs ys}, List.Forall₂ R xs ys → xs.flatMap f = ys.flatMap g
  | _, _, .nil => rfl
  | _, _, .cons hx hs => by rw [List.flatMap_cons, List.flatMap_cons, h _ _ hx, forall₂_flatMap h hs]

theorem entryText_congr (c : Configuration) {x x' : Text} {o o' : Option (List Comment)} {t t' : Text} (h1 : x = x')
    (h2 : commentText o = commentText o') (h3 : t = t') : entryText c x o t = entryText c x' o' t' := by
  subst h1 h3
  delta entryText
  rw [h2]

theorem typeCode_same {m m' : DocModule} {d d' : TypeDefinition × Path} (h : SameType m m' d d') :
    typeCode m.layout d = typeCode m'.layout d' := by
  obtain ⟨d, p⟩ := d
  obtain ⟨d', p'⟩ := d'
  obtain ⟨hn, -, h | ⟨h, a, b, h'⟩⟩ := h
  · obtain ⟨⟨x, fs, rfl, h1⟩, x', fs', rfl, h2⟩ := h
    cases hn
    have h1 := isRecordOpen_iff.mpr h1
    have h2 := isRecordOpen_iff.mpr h2
    show (if isRecordOpen fs then _ else _) = (if isRecordOpen fs' then _ else _)
    rw [if_neg (by simp [h1]), if_neg (by simp [h2])]
  · cases h
    have := formatTypeDefinition_moved (d := d) h'
    cases d with
    | record x fs =>
      show (if isRecordOpen fs then _ else _) = (if isRecordOpen fs then _ else _)
      rw [this]
    | alias_ x t => exact this

theorem isEmpty_same {α β : Type} {R : α → β → Prop} {xs : List α} {ys : List β} (h : List.Forall₂ R xs ys) :
    xs.isEmpty = ys.isEmpty := by
  cases h <;> rfl

theorem moduleText_same (package : Text) (c : Configuration) {m m' : DocModule} (h : SameInterface c m m') :
    moduleText package c m = moduleText package c m' := by
  have h1 : commentText (firstBlock m.comments (firstChild m)) = commentText (firstBlock m'.comments (firstChild m')) := by
    refine comment_same fun ts => ?_
    simp only [firstBlock_iff, and_assoc]
    exact h.comments ts
  have h2 : ((documentedTypes c m).flatMap fun d =>
      entryText c (typeName d.1) (lastBlock m.comments (m.layout.line d.2)) (typeCode m.layout d)) =
      (documentedTypes c m').flatMap fun d =>
      entryText c (typeName d.1) (lastBlock m'.comments (m'.layout.line d.2)) (typeCode m'.layout d) :=
    forall₂_flatMap (fun d d' hd => entryText_congr c hd.name (block_same h.read.1 h.read.2 hd.comments) (typeCode_same hd))
      h.types
  have h3 : ((documentedFunctions c m).flatMap fun d =>
      entryText c d.1.name (lastBlock m.comments (m.layout.line d.2)) (formatSignature m.layout d)) =
      (documentedFunctions c m').flatMap fun d =>
      entryText c d.1.name (lastBlock m'.comments (m'.layout.line d.2)) (formatSignature m'.layout d) := by
    refine forall₂_flatMap (fun d d' hd => entryText_congr c hd.name (block_same h.read.1 h.read.2 hd.comments) ?_)
      h.functions
    obtain ⟨a, b, h1, h2⟩ := hd.lines
    exact formatSignature_moved hd.arguments hd.result h1 h2
  have h4 : (documentedTypes c m).isEmpty = (documentedTypes c m').isEmpty := by
    exact isEmpty_same h.types
  have h5 : (documentedFunctions c m).isEmpty = (documentedFunctions c m').isEmpty := by
    exact isEmpty_same h.functions
  delta moduleText
  rw [h1, h2, h3, h4, h5, h.path]

/-- **C71, what is private does not matter.** Packages whose public modules look the same from outside are documented
the same: bodies of functions, private definitions, fields of records that have private ones, private modules, and where
in their files the definitions are written have no effect on the documentation. -/
theorem c71_private_parts_do_not_matter (p : Package) (c : Configuration) {ms ms' : List DocModule}
    (h : List.Forall₂ (SameInterface c) (ms.filter fun m => m.components.all isNamePublic)
      (ms'.filter fun m => m.components.all isNamePublic)) :
    generate p ms c = generate p ms' c := by
  rw [c71_text, c71_text]
  congr 1
  unfold documented
  rw [filter_collect, filter_collect]
  exact forall₂_flatMap (fun m m' h => moduleText_same p.name c h) (collect_forall₂ (fun a b h => h.path) h)

/-- **C71, comments of definitions.** The comment of a definition that is shown is the block of comments right before
it in the text. -/
theorem c71_definition_comments {s : List Char} {cs ds : List Comment} (h : parseComments s = some cs) {line : Nat}
    (hl : 1 ≤ line) : lastBlock cs line = some ds ↔ IsBlockBefore cs line ds :=
  lastBlock_iff (parseComments_counted h) hl

/-- **C71, comments of modules.** The comment of a module that is shown is the block of comments at the start of its
text, unless what is first in the module is right after it. -/
theorem c71_module_comment (m : DocModule) (ds : List Comment) :
    firstBlock m.comments (firstChild m) = some ds ↔
      IsFirstBlock m.comments ds ∧ firstChild m ≠ some (1 + ds.length) := firstBlock_iff

end Verif.Doc
