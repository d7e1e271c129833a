import Verif.Grammar.Printer

/-
Model of the documents that the formatter makes, and of how they are rendered.

Modelled code
* `lib/format/src/lib.rs:6-13, 38-44`, which use the documents of the crate `mfmt` 0.4.2

The source of `mfmt` is not in the repository.  Its documents are modelled by what the formatter and
its tests (`lib/format/src/lib.rs:962-4056`) say about them:

* `r#break(d)` renders the lines of `d` as line breaks and `flatten(d)` as spaces, up to the next
  `r#break` or `flatten` inside of it; lines at the top are line breaks.
* `flatten_if(c, d)` flattens `d` if `c` holds and if nothing in `d` is broken: a block with a
  statement stays on lines of its own although all positions are on the same line
  (`lib/format/src/lib.rs:1562-1597, 2637-2671`).  What it does otherwise (nothing, or breaking `d`)
  is left open: everything is proved for both.
* A line suffix is written before the next line break.
* Indentation of two spaces for every level is written before the first text of a line, so that
  empty lines are empty (`lib/format/src/lib.rs:1869-1911`).

Simplifications: sequences are made of pairs; `builder.strings` makes one text.
-/

namespace Verif.Grammar

/-- `mfmt::Document`. -/
inductive Doc where
  | empty
  | str (text : List Char)
  | line
  | suffix (text : List Char)
  | seq (first second : Doc)
  | indent (document : Doc)
  | brk (broken : Bool) (document : Doc)
deriving DecidableEq, Repr

namespace Doc

/-- `builder.sequence`. -/
def cat : List Doc → Doc
  | [] => .empty
  | d :: ds => .seq d (cat ds)

/-- `.intersperse(separator)` of `itertools`. -/
def intersperse (separator : Doc) : List Doc → List Doc
  | [] => []
  | [d] => [d]
  | d :: e :: ds => d :: separator :: intersperse separator (e :: ds)

/-- `mfmt::utility::is_broken`. -/
def isBroken : Doc → Bool
  | .seq a b => a.isBroken || b.isBroken
  | .indent d => d.isBroken
  | .brk b d => b || d.isBroken
  | _ => false

/-- `mfmt::utility::count_lines` in broken lines, or in flat ones. -/
def countLines : Bool → Doc → Nat
  | b, .line => if b then 1 else 0
  | b, .seq x y => x.countLines b + y.countLines b
  | b, .indent d => d.countLines b
  | _, .brk b d => d.countLines b
  | _, _ => 0

/-- `mfmt::flatten_if`; `otherwise` says if it breaks what it does not flatten. -/
def flattenIf (otherwise condition : Bool) (d : Doc) : Doc :=
  if condition && !d.isBroken then .brk false d else if otherwise then .brk true d else d

end Doc

/-- What the rendering of a document depends on besides the document: suffixes that are not written
yet, and if it is at the start of a line (before its indentation). -/
structure Writer where
  suffixes : List (List Char)
  start : Bool
deriving DecidableEq, Repr

/-- A number of spaces. -/
abbrev spaces (n : Nat) : List Char := List.replicate n ' '

/-- The indentation that is not written yet. -/
def Writer.indentation (w : Writer) (level : Nat) : List Char :=
  if w.start then spaces (2 * level) else []

/-- The text of a document in broken or flat lines, at a level of indentation (`mfmt::format`). -/
def Doc.write : Doc → Bool → Nat → Writer → List Char × Writer
  | .empty, _, _, w => ([], w)
  | .str t, _, n, w => (w.indentation n ++ t, { w with start := false })
  | .line, true, _, w => (w.suffixes.flatten ++ ['\n'], ⟨[], true⟩)
  | .line, false, n, w => (w.indentation n ++ [' '], { w with start := false })
  | .suffix t, _, _, w => ([], { w with suffixes := w.suffixes ++ [t] })
  | .seq a b, k, n, w =>
    ((a.write k n w).1 ++ (b.write k n (a.write k n w).2).1, (b.write k n (a.write k n w).2).2)
  | .indent d, k, n, w => d.write k (n + 1) w
  | .brk k d, _, n, w => d.write k n w

/-- `lib/format/src/lib.rs:38-44` (`format_document`): suffixes that are left are written at the
end. -/
def Doc.format (d : Doc) : List Char :=
  (d.write true 0 ⟨[], true⟩).1 ++ (d.write true 0 ⟨[], true⟩).2.suffixes.flatten

end Verif.Grammar
