# Formal model of pen-lang/pen in Lean 4

Layout: every subsystem has a *model* file (definitions with citations into `/repo`), a *spec* where
needed (small, independent of the model's helpers), proof files, and a `...Properties.lean` file that
contains the property theorems and their non-vacuity examples.

`properties.jsonl` lists the properties, `MANIFEST.json` the theorems that settle each of them. A
property whose English claim is false of the code is `partial`: the manifest then names a theorem
that exhibits the violation and a `_partial` theorem that proves the claim under the weakest condition
found (often an exact one). `seeded/LOG.jsonl` records the seeded bugs (`seeded/mutate.py` applies the
lists in `seeded/m_*.py` to a scratch copy).

## Trusted base

* Lean 4.33.0's kernel. Axioms: at most `propext`, `Classical.choice`, `Quot.sound`; see the table at the
  end. No axioms of our own, no compiled evaluation (`decide +kernel` is evaluated by the kernel).
* The fidelity of the hand-written model to the source text in `/repo`. The code is never run here.
  Every definition cites the lines it models and names its simplifications.
* The assumptions listed per subsystem below.

## Plan per property

| Id | What is modelled | How it is proved |
|----|------------------|------------------|
| C01-C08 | HIR types, canonicaliser (fuelled, because alias tables may be cyclic), equality, subsumption, difference, identity strings, comparability | structural induction; sorted-set lemmas for `BTreeSet`; acyclicity gives enough fuel |
| C09 | `impossible_type_validator`, inhabitation as an inductive predicate | soundness by induction; completeness is false (counterexample) |
| C10-C17 | the HAMT of `Map.pen`: 32-ary nodes, 13 levels, layers | invariant over the trie, refinement to finite maps; delete is buggy (counterexample + partial) |
| C18-C19 | `List.pen` as nodes of thunks, equality and hashes of values | induction on finite lists / on values |
| C48-C49 | the calls that map literals, list literals and comprehensions are compiled to, on the prelude's maps and lists | induction over elements, lists and clauses |
| C20-C26 | MIR expressions, big-step fuelled evaluator, each analysis pass | simulation by induction over expressions and fuel |
| C27-C29 | `reference_count::{transformation,validation}`; heap semantics with counts | a linear type system between the two; induction over executions with a resource invariant |
| C50 | all passes composed | what each pass guarantees for the next one (names, A-normal form, scopes), by induction over expressions; then C26-C29 |
| C51 | `hir-mir`'s lowering of expressions and modules to MIR, on the two evaluators of C47 and C20 | a relation between values, simulation by induction over fuel and expressions in both directions; then C47 and C50 |
| C52 | the HIR that comparisons are expressed by and the functions generated for records, on the evaluator of C47 | a separate relation `Same` between values; induction on the size of the left value, with the fields of records as an inner induction |
| C53 | import resolution, qualification of a module's own names, built-in names and module interfaces | a specification by outlines with de Bruijn indices; the composition of all passes is shown to be one resolution function, by induction over the depth of expressions |
| C54 | the record field validator on the inferred bodies, with open and external types | what the visitor reaches is characterised as occurrence outside of comprehension conditions; with C53 for types of other modules; counterexample for conditions |
| C55 | the unused error validator | the same visitor; assignability of `error` (C03) and the representation of values (C47) |
| C56 | the HIR that hashes are calculated by and the functions generated for records and collections, on the evaluator of C47 | both values at once, by induction on their size, against `Same` of C52; counterexample for degenerate unions |
| C57 | the whole parser (characters, `nom` combinators, all nonterminals) and the formatter as a sequence of texts and places for layout | induction on the recursion bound of the parser, one lemma per nonterminal: a rendering is parsed back and stops where the rendering stops; invariants of what the parser makes; counterexamples by evaluation in the kernel |
| C58 | the parser of C57 and, separately, the grammar as an inductive relation between modules and texts (`Grammar/Language.lean`) | induction on the recursion bound: what each nonterminal consumes is a text of what it makes |
| C59 | the parser of C57 | two recursion bounds above the length of the input give the same result, which is not the one that says that the bound was reached |
| C60 | heaps of blocks that refer to each other, threads that clone, drop, synchronize, read, update in place and send them; every access to a count is a step; events and the happens-before relation | an invariant of all reachable states: counts are numbers of references, unsynchronized blocks have one owner, what synchronized blocks refer to is or is being synchronized, and every event on a shared block is known to whoever will hold its last reference; two counterexamples |
| C61 | `String'Utf8`, `String` and `Character` of the package Core on lists of bytes; UTF-8 by Lean's `String.utf8EncodeChar` | UTF-8 is self-synchronizing, so that occurrences in bytes are occurrences in characters; then induction on strings; two counterexamples |
| C62 | Build scripts as functions of packages, modules and configurations; the commands in them as functions of contents of files; a build tool that runs commands whose inputs changed; histories of edits, runs, crashes and cleaning | invariants of what the tool remembers; outputs are determined by inputs by induction on a rank; two counterexamples |
| C63 | Typed terms of the intermediate representation, the checker as a function, its typing rules as relations, erasure to the terms of C20–C29, and the semantics with a flag for programs that stop | checker ⇔ rules by induction on terms; type preservation and progress by induction on fuel with typed values and logs; C50 for the middle end; four counterexamples |
| C64 | Collection of types of variants in both representations, ids as hashes of strings, the globals generated from them; lowering as in C51 | collection = tags of terms by induction; unique readability of the strings of types; tags of lowered terms are collected by induction on lowering; three counterexamples |
| C65 | Lowering of whole modules with MIR types, with the functions for type information (debug output, equality), generic records, runtime declarations | typing derivations of lowered terms by induction on HIR derivations of analyzed modules; totality by induction on terms, with bounds that settle; erasure of types gives the lowering of C51 |
| C66 | The functions for debug output and equality that every module gets for its types (those of C65), run by the semantics of C50 on representations of values of any depth | induction on values against a separate equality and printer of values; counterexamples by running the compiled code |
| C67 | the formatter with documents, line breaks, indentation and comments, and the parser of comments, on characters; lines of nodes are an arbitrary function of the layout | a document says what it writes: a rendering of C57 with comments only where white space may be, one lemma per document; comments of texts are a separate relation; counterexamples by computation |
| C68 | conversion of syntax trees to HIR, prefixes and interfaces of imports, programs of several modules compiled from texts one after the other | a separate reading of HIR and syntax trees as tokens, with one lemma per construct; invariants of the interfaces of compiled modules (C53, C54, C47) by induction on the program; what the parser makes (C58) meets the hypotheses of C53; formatting by C57 and a relation of imports up to order; counterexample by computation; with C51 and C50 down to reference counted code on a heap |
| C69 | wrappers of test functions, information about test modules and packages, and the generated program that runs them, over test modules compiled from texts (C68) and evaluation of HIR (C47) | what inference, checks and coercion make of a wrapper by inversion, its evaluation by computation, type soundness (C47) for what tests result in; the run by induction on functions and modules against a separate specification of verdicts and reports; counterexample by computation |
| C70 | all functions of the analysis (C47, C54, C55) and of name resolution (C53) over a bound on the depth of recursion | induction on expressions; on the order of aliases that the validator of recursive aliases finds; on the records not yet visited; every function shown to say that the bound is too low, or to have one result |
| C71 | generator of documentation: documents, their text in Markdown, choice of comments by lines, modules in a sorted map, code of types and signatures from the model of the formatter (C67) | the text as a template over what is documented; blocks of comments by their last/first index; independence of lines by translation of layouts; code parsed back through C57 |
| C72 | trees of directories with entries in any order, the file finder, the formatter of packages and its check, over the formatter of C67 | mutual induction on trees; induction on the files with the invariant that every file is what it was or what it is formatted to; composition with C67 and C40 |
| C73 | numbers as 64-bit patterns with IEEE 754 rounding (any precision), conversions from and to `u64`, `Bit.pen` and the arithmetic of `Number.pen`; lazy lists as step functions | arithmetic of codes of magnitudes (rounding is a Galois connection with the order of codes); induction on the distance of positions in the order of numbers; counterexamples by evaluation |
| C74 | functions of `List.pen` and `Boolean.pen` over the lists of C18 with events | induction on lists |
| C75 | `Assert.pen` over the values of C66; states as cells with atomic exchanges, any number of threads | mutual induction on values; invariant over schedules; counterexample schedules |
| C76 | lists of thunks of the prelude made and taken by native code; header maps over the maps of C14, received and sent as sequences of lines | induction on lists; `set_get` and iteration of C14 lifted to sequences of lines; counterexamples |
| C77 | paths as sequences of components, as the equality of the standard library compares them; conversion both ways, search of the package directory, directory of a created package | induction on components and prefixes; counterexamples |
| C78 | copies of native values as numbered resources; type information, `Any`, its conversions and their drops; histories of operations of a program | invariant: owned and dropped copies are a permutation of those made |
| C79 | reads and writes of the synchronous package over arbitrary outcomes of system calls; options to open files | induction on outcomes and operations; cases of options |
| C80 | qualification of contexts of packages and the pass that wraps the main function; evaluation of its expression for arbitrary functions | induction on packages; evaluation of the wrapper |
| C81 | the transformations of conditionals on lists and maps, with evaluation of source and transformed expressions over environments | induction on expressions with agreement on free variables; counterexample |
| C30-C32 | `ArcBlock` as a step machine over integers; interleavings of the atomic steps of any number of threads | invariants over all reachable states |
| C33-C34 | `cps::Stack`, `AsyncStack` | refinement to an abstract stack; protocol automaton |
| C35 | `race` as producers + bounded channel + consumer | invariant over all schedules |
| C36, C38 | `reduce_operations`, expression parser, formatter of operations | uniqueness of precedence trees; parser inverts formatter |
| C37 | string literal grammar, compilation of escapes, formatter | false as stated (counterexample) + partial |
| C39, C45 | configuration reader, topological sort, package identifiers | induction; `toposort` by its contract |
| C40 | `FilePath`, path resolvers | induction on components and characters |
| C41-C44 | Pen packages json, flag, core byte/view, html | parser = grammar, parser inverts printer, by induction |
| C47 | HIR expressions; inference, checking, validation of `?`, coercion; a big-step fuelled evaluator of analyzed modules with run-time representations | accepted expressions are typed after coercion in a declarative type system (induction over expressions); typed expressions do not get stuck (induction over fuel) |
| C46 | thunk entry functions of the code generator, as a step machine | invariants over all schedules |

## What is modelled, and what is assumed

**HIR types (C01-C09).** `lib/hir/src/types`, `analysis/{type_canonicalizer, type_equality_checker,
type_subsumption_checker, type_difference_calculator, union_type_creator, type_id_calculator,
type_comparability_checker, recursive_type_alias_validator, impossible_type_validator}.rs`. Positions and
the `original_name`s of references are dropped. Alias tables are functions from names; `BTreeSet`s are
sorted lists. The 64-bit hash applied to identity strings is not modelled (C06 is about the string
hashed). Record names contain no `)`.

**HIR expressions (C47).** `lib/hir/src/analysis/{type_extractor, type_inferrer, type_checker, type_coercer,
try_operation_validator, type_existence_validator}.rs` and their order in `analysis.rs`; evaluation follows
`lib/hir-mir/src/{expression, built_in_call, downcast, type_information}`. Values are untagged unless their
type is a union or `any`; applying an operation to a value of another representation is `stuck`. Everything
outside (arithmetic, equality, debugging, the order `race` picks, imported functions) is a parameter of the
theorem. Lists are lazy; each element remembers the coercions it went through. Validators that only reject
more modules are left out. Differences to the generated code: the variable of `if x = m[k]` is not bound in
the else branch (the code binds it to an internal value there, so that MIR's type check rejects valid
programs), and both operands of `==` on `none` are evaluated. Evaluation logs calls of imported functions;
fuel bounds only calls, a second number the expansion of types. The last of two equal fields of a record
construction or update wins, as in the generated code. `error(e)` of an error is that error.

**Names (C53).** `lib/ast-hir/src/{import, name}.rs`, `lib.rs` from `import::compile` on, `imported_module/validation.rs`;
`lib/hir/src/analysis/{variable_transformer, variable_renamer, type_transformer, function_definition_qualifier,
type_qualifier, built_in_type_transformer, built_in_variable_transformer}.rs`; `lib/hir-mir/src/module_interface.rs`. The
specification (`Names/Specification.lean`) compares expressions up to the spelling of local variables, by replacing
occurrences of local variables by the number of binders between. Not modelled: the conversion of syntax trees to HIR
(`ast-hir/src/module.rs`), positions, calling conventions, the order of imported entries.

**Visibility (C54, C55).** `lib/hir/src/analysis/{expression_visitor, record_field_validator, unused_error_validator,
duplicate_type_name_validator, type_existence_validator}.rs` with `is_external`, `is_public` and `is_open`; `Names/Analyze.lean`
is all of `lib/hir/src/analysis.rs:42-61`. `Names/Closed.lean` shows that what it accepts is accepted by the analysis C47
speaks about (`analyze_hir`, `c47_source_modules_partial`). The code leaves out the conditions of list comprehensions when it
looks for record operations and ignored errors; the counterexamples are programs that name resolution and the analysis
accept.

**Comparison (C52).** `lib/hir-mir/src/transformation/{equal_operation/operation, equal_operation/expression,
not_equal_operation, record_equal_function, record_type_information}.rs`. Comparisons of lists and maps are generated in the
model (calls of prelude functions), but nothing is proved of them: the values the theorems speak of have no lists and maps in
them. The functions that compare elements of collections (`equal_operation/module.rs`) are modelled one by one; which are
generated (`collect_comparable_parameter_types`) is not. The right operand is
assumed to evaluate to the same value and log whatever `$lhs` is bound to, as programs cannot mention this name. Comparison
functions of other modules are assumed to compare (`ComparesExternals`), which is what the theorem says of them in their own
module.

**Hashes (C56).** `lib/hir-mir/src/transformation/{hash_calculation/expression, hash_calculation/module, record_hash_function,
record_type_information}.rs`, as far as comparison above. The functions of the prelude and of other modules are assumed to be
functions of their arguments that respect equality (`HashesExternals`), which C19 says of those of the prelude.

**Formatting modules (C57).** `lib/parse/src/{parser, combinator, operations, lib}.rs` on characters, function by function
(`Grammar/{Combinators,Chains,Parser}.lean`), and `lib/format/src/lib.rs` as a function from modules to pieces: fixed texts,
gaps (white space and comments, at least one character), soft places (possibly nothing) and trailing commas
(`Grammar/Printer.lean`). `nom` 8 is modelled by its documented behaviour (errors and failures are told apart). Not modelled:
positions and error messages; which layout the formatter and the `mfmt` crate choose for a gap (all layouts are allowed, so the theorems
hold for each), and whether comments of the source survive. Characters are Unicode scalar values and not bytes. `Module.Safe` lists the
shapes that the formatter gets wrong; it is decidable (`Grammar/Decisions.lean`). C58 and C59 are about the same parser.

**Shared values (C60).** `lib/mir-fmm/src/reference_count/{pointer,count,heap,block,record}.rs`, `closure/{drop,sync}.rs`, and
`Record`, `RecordField`, `RecordUpdate`, `Synchronize` in `expression.rs`: `Runtime/Graph.lean`. All kinds of heap blocks are
one kind with a list of pointers; an access to a count is a step of its own, with stale relaxed loads; data races are
defined by happens-before on a log of accesses. Not modelled: overflow of counts, reuse of addresses, atomics beyond relaxed, release
and acquire. Results of thunks are in `Runtime/GraphThunk.lean`, only for a counterexample.

**Strings of characters (C61).** `packages/core/ffi/src/string/{utf8, builder}.rs`, `packages/core/ffi/src/character.rs`,
`packages/core/{String, String/Utf8, Character}.pen` except changes of case and trimming of white space: `Pkg/Utf8.lean`. Functions of
Rust's `str` are written on bytes after their documentation; the encoding of single characters and its decoder are Lean's
(`String.utf8EncodeChar`, `ByteArray.utf8DecodeChar?`). A string builder has one reference.

**Incremental builds (C62).** `lib/app/src/{package_build_script_compiler, module_dependency_resolver, module_compiler}.rs` and
`lib/infra/src/{ninja_build_script_compiler, ninja_build_script_dependency_compiler, ninja_build_script_runner}.rs`: commands of build
scripts with their outputs, inputs and dynamic inputs, and what commands read and write (`App/Build.lean`). Compilers, the optimizer and
linkers are arbitrary functions of contents of the files they are given. The build tool `turtle` is not in the repository; it is modelled by the documentation
of ninja and its own (`App/Ninja.lean`): a command is run again if its outputs are missing, or if it, its inputs or their contents are not
those of its last run; contents of order-only inputs do not matter. Steps of histories are single commands in any order, so nothing depends on how the
tool schedules them. Assumed: different modules have different file names (C45 is about packages), a command that is killed is
forgotten, nobody else writes to the output directory, `pen.json` files are read as parsed. Not modelled: packages with foreign code, downloads of
packages, changes of the compiler itself, target triples.

**Type checks of the intermediate representation (C63).** `lib/mir/src/analysis/type_check/` as `checkModule` in
`Mir/Typed.lean`, on terms with the types the Rust terms have (`Ty`, `TExpr`). Simplified: names and types compare by
equality, an error is `false` without its kind, record types are a list searched as the `FnvHashMap` they are put in is.
Typed terms are erased to the terms of the other MIR models, with ids for types; `evalU` is their semantics with a flag that
says whether a variant no alternative matches stops the program (`unreachable` in the compiled code) or is a type error.
Not modelled: global thunks as values of functions without arguments (as in C20–C29).

**Type information (C64).** `lib/mir/src/analysis/{variant_type_collection, type_id}.rs`, the names and functions of
`lib/mir-fmm/src/type_information.rs`, and `lib/hir-mir/src/variant_type_collection.rs` with `collect_types` of
`type_information.rs`. Sets are lists; the hash of strings (`DefaultHasher`) is a parameter, which is assumed not to collide
where ids are compared. Not modelled: the functions for clone, drop and synchronization in the globals, and debug
functions.

**Typed lowering (C65).** `lib/hir-mir/src/{lib, module, expression, type_, concrete_type, error_type, type_information,
generic_type_definition, runtime_function_declaration}.rs` and `type_information/{debug, equal, utility}.rs` as
`Lower/Typed{Compile, Module}.lean`: the fragment of C51, with the types of MIR terms, and all definitions the compiler adds.
`Nameable` lists what is assumed of names (what the front end's prefixes and the prelude give); `Collisionless` that hashes of the
types of the module differ. Not modelled: lists, maps, comprehensions, equality and hashes of other types (those are modelled without
types in C49, C48, C52, C56), `go`, `race`, `size`, `keys`, `values`, `delete`.

**Reflection (C66).** `lib/hir-mir/src/built_in_call.rs` (`Debug`, `ReflectDebug`, `ReflectEqual`) and the functions of
`type_information/{debug, equal, utility}.rs` as they are in modules of C65, run by the semantics of MIR after types are erased. The
specification is a type of values (`Data`) with an equality and a printer that know nothing of the compiler, and a relation of them to
values at run time (payloads, boxed payloads in variants, fields). Not modelled: lists and maps, whose functions are in the prelude;
records of other modules, whose functions are in those modules. Printing of numbers and equality of strings are functions of the
prelude, assumed to do what they say.

**Formatting with comments (C67).** `lib/format/src/{lib, context}.rs` function by function
(`Grammar/Formatter.lean`), the parser of comments in `lib/parse/src/parser.rs:57-75, 1028-1050`
(`Grammar/Comments.lean`) and `lib/app/src/module_formatter.rs`. Trees of the model have no positions: a
`Layout` gives a line to every node (by its path), and everything is proved for every layout, whether or not it
is the one of the source; so no theorem depends on where the parser says that nodes are. Not modelled: the source
of the crate `mfmt`, which is not in the repository; its documents (`Grammar/Document.lean`) are modelled by how
they are used and what the tests of the formatter say. What `flatten_if` does with documents it does not flatten
is left open (`Layout.otherwise`) and everything is proved for both possibilities. `c67_comments_stay_in_order_partial`
misses function literals whose first argument is on the line of the `\\`, and
`c67_comments_on_their_own_lines_are_kept_partial` comments at ends of lines, for which the claims are false.

**From texts to compiled modules (C68).** `lib/ast-hir/src/{lib, module, type_, number, string, module_prefix}.rs`
and `lib/ast/src/analysis.rs` function by function (`Front/Convert`), and the driver `compile` and `compile_to_hir`
of `lib/app/src/module_compiler.rs` up to the analysis for a list of modules in dependency order
(`Front/Program`): parse (C58), convert, import (C53), analyze (C47). `str::parse::<f64>` and `as f64` are an
arbitrary structure `Rounding`; words have 64 bits. Which error is reported is not modelled. The dependency
file is a function from paths of imports to modules compiled before. `Front/Reading` is the specification of
conversion: what an expression of HIR and a syntax tree read like, as tokens in the order of the text.

**Test runs (C69).** `lib/hir-mir/src/test_function.rs` (names, wrappers, `test_info` modules), `compile_test` of
`lib/hir-mir/src/lib.rs` and `lib/app/src/module_compiler.rs` up to the analysis, `lib/app/src/package_test_information_compiler.rs`,
and the program that `lib/infra/src/test_linker.rs` generates (`Tests/Model.lean`). Calls of test functions are evaluation of HIR
(C47), in which functions without arguments are not memoised as they are in compiled code (C46); a run calls every wrapper once.
Not modelled: hashes in symbols (assumed to differ), text of the lines of the report, running `cargo` on the generated program,
and which files are test modules.

**Checking ends (C70).** No further code is modelled: the functions of the models of C47, C53, C54 and C55 take a
bound on the depth of recursion that the code does not have, and C70 is that every module has a bound that suffices,
and one outcome for all of those. `c70_cycles_have_no_canonical_types` is why the validator of aliases has to run first.

**Documentation (C71).** `lib/doc/src/lib.rs`, `lib/doc/src/markdown.rs` and `lib/doc/src/ir/` as a whole,
`format_type_definition` and `format_function_signature` of `lib/format/src/lib.rs`, and the loop over modules of
`lib/app/src/package_documentation_generator.rs`. Lines of nodes are a layout, as in C67; files, package names and
configurations are given. The `BTreeMap` of modules is a sorted list.

**Files of packages (C72).** `lib/app/src/{file_finder, module_finder, test_module_finder, package_formatter,
package_format_checker, module_formatter}.rs`. A file system is a tree of directories whose entries are listed in any
order, and the contents of files; reading and writing do not fail, and there are no symbolic links.

**Numbers and lists of the core package (C73, C74).** `packages/core/{Bit, Number, List, Boolean}.pen`,
`packages/core/ffi/src/bit.rs`; of `number.rs` only `is_nan`, `nan` and `infinity`. A number is a 64-bit pattern.
Addition, comparison and casts of `f64` are modelled as IEEE 754 and Rust define them, to nearest with ties to even;
that hardware does so is trusted. Shifts are those of a release build, in which `pen-ffi.sh` builds the library.
Subtraction, multiplication and division, and functions of the math library, are not modelled. The functions in Pen are
modelled by what they compute, with the events of evaluation of list nodes and elements.

**Assertions and states of tests (C75).** `packages/test/{Assert, State}.pen`, `packages/test/ffi/src/lib.rs`.
Operations on `AtomicCell` are atomic (its lock is not modelled). Values are those of the reflection model (C66).

**The boundary to native code (C76).** `lib/ffi/src/{list, future/stream}.rs`, `packages/ffi/list.pen`,
`packages/http/Context/ffiHeaderMap.pen`, and the headers in `packages/http/ffi/src/{client, server, header_map}.rs`. The HTTP
library is a parameter: which names and values it takes and what it normalizes them to; the network may reorder lines. Element
types and their conversion (`any`) are not modelled.

**Paths of the operating system (C77).** `lib/infra/src/{file_path_converter, file_system}.rs`,
`cmd/pen/src/{main_package_directory_finder, package_creator}.rs`. Unix paths; a path is the sequence of its components.
Symbolic links, canonicalization, names that are not UTF-8 and errors of the file system are not modelled.

**Native values as `any` (C78).** `lib/ffi-macro/src/any.rs`, `lib/ffi/src/any.rs`. Drops of local variables at the end of
functions are written out as Rust makes them; bits of payloads are those of the native values (tested by the macro).

**Files (C79).** `packages/os-sync/ffi/library/src/{utilities, open_file_options}.rs`. System calls transfer at least one byte
if there is any, are interrupted or fail; `read_to_end` and `OpenOptions` are those of the standard library on Unix. One
program uses a file; positions after writes, permissions and the asynchronous package are not modelled.

**The start of a program (C80).** `lib/hir-mir/src/main_function.rs`,
`lib/app/src/module_compiler/main_module_configuration_qualifier.rs`. Hash tables may have any order. What the runtime does
before it calls the exported function is not modelled.

**Conditionals on lists and maps (C81).** `lib/hir-mir/src/transformation/{if_list, if_map}.rs`. Other expressions are
variables, numbers, effects, `let` and calls of functions without arguments; types and `downcast`, which keeps values, are
left out.

**Lowering (C51).** `lib/hir-mir/src/{expression, type_, concrete_type, error_type, module}.rs`, `error` and `source` in
`built_in_call.rs`, and the transformations of boolean operations and `!=`. Lists, maps, the other built-in functions and
equality of values other than numbers and strings are left out (their lowering goes through calls of the prelude, of the
runtime and of generated functions; `compile` gives no result for them). Functions without arguments are evaluated on every
call. Names: source names are not empty and do not begin with `$` (`plainName`), the function that compares strings is not
called directly, fields of record types have different names, and the ids of types that occur in variants do not collide
(`PlainModule.ids`; they are 64-bit hashes in the code). `TidyModule`: names are in scope, arguments of global functions are
not bound again (C22 and C24 say what goes wrong otherwise), no two fields of a record update have the same name.

**Prelude (C10-C19, C48, C49).** `packages/prelude/{Map,List,Number,…}.pen`, the comparison and hash functions
generated by `lib/hir-mir/src/transformation`, `map_literal.rs` and `list_literal.rs` there, and
`lib/hir-mir/src/list_comprehension.rs`. A context (equality, hash) is lawful: equality is an
equivalence and equal keys have equal hashes, except where a theorem says otherwise. Shifts are those of a
release build (masked). Numbers are bit patterns. Sizes are unbounded. Thunks are event logs plus
values; that they are evaluated once is C46.

**MIR (C20-C29, C50).** `lib/mir/src/analysis/**` and the order of passes in `lib/mir-fmm/src/lib.rs:32-41`;
the heap operations of `lib/mir-fmm/src/{expression,entry_function,record,box_,variant}.rs` and
`reference_count/*.rs`. Types are identifiers; numbers bit patterns with arbitrary arithmetic; foreign
functions are an arbitrary first-order oracle with a log of calls; thunks are re-evaluated. Nothing is
claimed about source programs that get stuck (they are excluded by the type checker). Names are those the
front end generates (`SourceName`, `WellNamed`, `Plain`). Not modelled: the two type checks of MIR,
`fmm` and LLVM code generation, type sizes and layout, alignment.
In the heap, addresses are not reused, counts are numbers of references (C30 relates them to the stored
integers), allocation does not fail. The theorems about reference counting assume the form that the
earlier passes produce (`ready`) and that no local variable is bound in the scope of one of the same name
(`scoped`); without the latter the claim is false (counterexample). C50 proves that the earlier passes give
such programs when arguments of global functions are not bound again (`FrontEnd`).

**Runtime (C30-C35, C46).** `lib/ffi/src/arc/*`, `lib/ffi/src/cps/*`, `lib/mir-fmm/src/reference_count/pointer.rs`,
`packages/os/ffi` and `packages/prelude/ffi` (race). Accesses to one atomic location are totally ordered, so they are
interleaved; the ordering of accesses to payloads is not modelled. Fewer than 2^63 handles. Handles are
sent to other threads only after synchronization. Stacks have positive initial capacity and alignment at
most 8; compiled code is modelled by its stack discipline. Channels and tasks of tokio by contract,
no fairness.

**Syntax (C36-C38).** `lib/parse/src/{operations,parser,combinator}.rs`, `lib/format/src/lib.rs`,
`lib/ast-hir/src/string.rs`. Tokens are given, atoms are opaque, layout choices of the formatter are
arbitrary, comments count as space, the recursion bound of the parser is "sufficiently large". Strings
are bytes.

**Build system (C39, C40, C45).** `lib/app/src/{infra/file_path, common/file_path_resolver,
common/package_id_calculator, external_package_configuration_reader, external_package_topological_sorter}.rs`.
Reading a configuration is a function of the URL; `petgraph::algo::toposort` by contract; `$` in regex
replacements not modelled.

**Packages (C41-C44).** `packages/{json,flag,html}` and `packages/core` (bytes, views). Numbers are extended
rationals with exact arithmetic (indexes and lengths), strings are shorter than 2^64-1 bytes. Conversion
between `f64` and text and `html-escape` by contract. Maps are partial functions or lists of entries. Error
messages are dropped. In JSON and HTML, byte views are the bytes they show (justified by C43).

Not modelled at all: ninja scripts, test and documentation tools, the operating
system packages, http, sql, regex, random, reflect.

## Axioms per theorem

Generated by `tools/axioms.py` with `#print axioms`.

| Property | Theorem | Axioms |
|---|---|---|
| C01 | `Verif.Hir.c01_idempotent` | propext, Classical.choice, Quot.sound |
| C01 | `Verif.Hir.c01_no_alias` | propext, Classical.choice, Quot.sound |
| C01 | `Verif.Hir.c01_unions` | propext, Classical.choice, Quot.sound |
| C01 | `Verif.Hir.c01_same_type` | propext, Classical.choice, Quot.sound |
| C01 | `Verif.Hir.c01_alias` | propext, Classical.choice, Quot.sound |
| C02 | `Verif.Hir.c02_equality` | propext, Classical.choice, Quot.sound |
| C02 | `Verif.Hir.c02_terminates` | propext, Classical.choice, Quot.sound |
| C02 | `Verif.Hir.c02_rearranged` | propext, Classical.choice, Quot.sound |
| C03 | `Verif.Hir.c03_assignable` | propext, Classical.choice, Quot.sound |
| C03 | `Verif.Hir.c03_terminates` | propext, Classical.choice, Quot.sound |
| C03 | `Verif.Hir.c03_refl` | propext, Classical.choice, Quot.sound |
| C03 | `Verif.Hir.c03_trans` | propext, Classical.choice, Quot.sound |
| C03 | `Verif.Hir.c03_antisymm` | propext, Classical.choice, Quot.sound |
| C03 | `Verif.Hir.c03_top` | propext, Classical.choice, Quot.sound |
| C03 | `Verif.Hir.c03_members` | propext, Classical.choice, Quot.sound |
| C04 | `Verif.Hir.c04_left` | propext, Classical.choice, Quot.sound |
| C04 | `Verif.Hir.c04_right` | propext, Classical.choice, Quot.sound |
| C04 | `Verif.Hir.c04_least` | propext, Classical.choice, Quot.sound |
| C05 | `Verif.Hir.c05_none` | propext, Classical.choice, Quot.sound |
| C05 | `Verif.Hir.c05_members` | propext, Classical.choice, Quot.sound |
| C06 | `Verif.Hir.c06_injective` | propext, Classical.choice, Quot.sound |
| C06 | `Verif.Hir.c06_functional` | propext, Classical.choice, Quot.sound |
| C07 | `Verif.Hir.c07_resolves` | propext, Classical.choice, Quot.sound |
| C07 | `Verif.Hir.c07_rejected_cyclic` | propext, Classical.choice, Quot.sound |
| C08 | `Verif.Hir.c08_comparable` | propext, Classical.choice, Quot.sound |
| C08 | `Verif.Hir.c08_terminates` | propext, Quot.sound |
| C09 | `Verif.Hir.c09_sound` | propext, Quot.sound |
| C09 | `Verif.Hir.c09_incomplete` | propext, Classical.choice, Quot.sound |
| C09 | `Verif.Hir.c09_complete_partial` | propext, Classical.choice, Quot.sound |
| C10 | `Verif.Prelude.c10_get_after_set_partial` | propext, Classical.choice, Quot.sound |
| C10 | `Verif.Prelude.c10_fails_after_delete` | propext, Quot.sound |
| C11 | `Verif.Prelude.c11_set_other` | propext, Classical.choice, Quot.sound |
| C12 | `Verif.Prelude.c12_delete_partial` | propext, Classical.choice, Quot.sound |
| C12 | `Verif.Prelude.c12_delete_loses_keys` | propext, Quot.sound |
| C13 | `Verif.Prelude.c13_size_partial` | propext, Classical.choice, Quot.sound |
| C13 | `Verif.Prelude.c13_c14_fail_after_delete` | propext, Quot.sound |
| C14 | `Verif.Prelude.c14_iterate_partial` | propext, Classical.choice, Quot.sound |
| C15 | `Verif.Prelude.c15_merge_partial` | propext, Classical.choice, Quot.sound |
| C15 | `Verif.Prelude.c15_fails_after_delete` | propext, Quot.sound |
| C16 | `Verif.Prelude.c16_equal_partial` | propext, Classical.choice, Quot.sound |
| C16 | `Verif.Prelude.c16_same_order` | propext, Quot.sound |
| C16 | `Verif.Prelude.c16_fails_after_delete` | propext, Quot.sound |
| C17 | `Verif.Prelude.c17_set_terminates_iff_partial` | propext, Classical.choice, Quot.sound |
| C17 | `Verif.Prelude.c17_depth_bound` | propext, Classical.choice, Quot.sound |
| C17 | `Verif.Prelude.c17_set_diverges` | propext, Classical.choice, Quot.sound |
| C17 | `Verif.Prelude.Values.c17_nan_diverges` | propext, Classical.choice, Quot.sound |
| C18 | `Verif.Prelude.Lists.c18_constructors` | propext |
| C18 | `Verif.Prelude.Lists.c18_concatenation_lazy` | propext |
| C18 | `Verif.Prelude.Lists.c18_prepend_lazy` | none |
| C18 | `Verif.Prelude.Lists.c18_size` | propext, Quot.sound |
| C18 | `Verif.Prelude.Lists.c18_size_lazy` | propext |
| C18 | `Verif.Prelude.Lists.c18_equal` | propext, Quot.sound |
| C18 | `Verif.Prelude.Lists.c18_maybe_equal` | propext, Quot.sound |
| C18 | `Verif.Prelude.Lists.seq_exists_unique` | propext |
| C19 | `Verif.Prelude.Values.c19_equal_hash_partial` | propext, Quot.sound |
| C19 | `Verif.Prelude.Values.c19_generated_lawful` | propext, Classical.choice, Quot.sound |
| C19 | `Verif.Prelude.Values.c19_lookup` | propext, Quot.sound |
| C19 | `Verif.Prelude.c19_map_hash` | propext, Quot.sound |
| C19 | `Verif.Prelude.Lists.c19_list_hash_unreachable` | propext |
| C30 | `Verif.Runtime.Arc.c30_freed_exactly_once` | propext, Classical.choice, Quot.sound |
| C30 | `Verif.Runtime.Arc.c30_static` | propext |
| C31 | `Verif.Runtime.Arc.c31_no_early_or_double_free` | propext, Classical.choice, Quot.sound |
| C31 | `Verif.Runtime.Arc.c31_no_leak` | propext, Classical.choice, Quot.sound |
| C31 | `Verif.Runtime.Arc.c31_last_drop_frees` | propext, Classical.choice, Quot.sound |
| C32 | `Verif.Runtime.Arc.c32_unique_iff` | propext, Classical.choice, Quot.sound |
| C32 | `Verif.Runtime.Arc.c32_unique_exclusive` | propext, Classical.choice, Quot.sound |
| C33 | `Verif.Runtime.Stack.c33_stack_lifo` | propext, Classical.choice, Quot.sound |
| C33 | `Verif.Runtime.Stack.c33_zero_capacity_diverges` | propext, Quot.sound |
| C34 | `Verif.Runtime.AsyncStack.c34_never_fails` | propext |
| C34 | `Verif.Runtime.AsyncStack.c34_result_iff` | propext |
| C35 | `Verif.Runtime.Race.c35_prefix` | propext, Quot.sound |
| C35 | `Verif.Runtime.Race.c35_complete` | propext, Quot.sound |
| C35 | `Verif.Runtime.Race.c35_complete_finite` | propext, Quot.sound |
| C35 | `Verif.Runtime.Race.c35_progress` | propext, Classical.choice, Quot.sound |
| C35 | `Verif.Runtime.Race.c35_terminates` | propext, Quot.sound |
| C35 | `Verif.Runtime.Race.c35_sync` | propext |
| C20 | `Verif.Mir.c20_free_variables` | propext, Quot.sound |
| C20 | `Verif.Mir.c20_closed` | propext, Quot.sound |
| C21 | `Verif.Mir.c21_concatenation` | propext, Quot.sound |
| C21 | `Verif.Mir.c21_flat` | propext |
| C22 | `Verif.Mir.c22_alpha_conversion` | propext, Classical.choice, Quot.sound |
| C22 | `Verif.Mir.c22_unique_partial` | propext, Classical.choice, Quot.sound |
| C22 | `Verif.Mir.c22_argument_bound_again` | propext |
| C23 | `Verif.Mir.c23_anf` | propext, Classical.choice, Quot.sound |
| C23 | `Verif.Mir.c23_normalization` | propext, Classical.choice, Quot.sound |
| C23 | `Verif.Mir.c23_normal_form` | propext, Classical.choice, Quot.sound |
| C23 | `Verif.Mir.c23_pipeline` | propext, Classical.choice, Quot.sound |
| C24 | `Verif.Mir.c24_alias_removal_partial` | propext, Quot.sound |
| C24 | `Verif.Mir.c24_argument_bound_again` | propext |
| C25 | `Verif.Mir.c25_environments` | propext, Classical.choice, Quot.sound |
| C25 | `Verif.Mir.c25_exact` | propext, Classical.choice, Quot.sound |
| C26 | `Verif.Mir.c26_lambda_lifting` | propext, Classical.choice, Quot.sound |
| C26 | `Verif.Mir.c26_after_inference` | propext, Classical.choice, Quot.sound |
| C26 | `Verif.Mir.c26_pipeline` | propext, Classical.choice, Quot.sound |
| C27 | `Verif.Mir.c27_validate_partial` | propext, Classical.choice, Quot.sound |
| C27 | `Verif.Mir.c29_leak_with_shadowing` | propext, Classical.choice, Quot.sound |
| C28 | `Verif.Mir.c28_no_use_after_free_partial` | propext, Classical.choice, Quot.sound |
| C28 | `Verif.Mir.c28_heap_refines_partial` | propext, Classical.choice, Quot.sound |
| C29 | `Verif.Mir.c29_no_leak_partial` | propext, Classical.choice, Quot.sound |
| C29 | `Verif.Mir.c29_returns_partial` | propext, Classical.choice, Quot.sound |
| C36 | `Verif.Parse.c36_precedence` | propext, Quot.sound |
| C36 | `Verif.Parse.c36_reduce_tree` | propext, Quot.sound |
| C36 | `Verif.Parse.grouped_unique` | propext, Quot.sound |
| C37 | `Verif.Parse.c37_string_literal_partial` | propext, Quot.sound |
| C37 | `Verif.Parse.c37_accepted_partial` | propext, Quot.sound |
| C37 | `Verif.Parse.c37_escaped_backslash` | propext, Quot.sound |
| C37 | `Verif.Parse.c37_escaped_backslash_hex` | propext, Quot.sound |
| C37 | `Verif.Parse.parseLiteral_sound` | propext, Quot.sound |
| C37 | `Verif.Parse.parseLiteral_complete` | propext, Quot.sound |
| C38 | `Verif.Parse.c38_format_then_parse` | propext, Quot.sound |
| C38 | `Verif.Parse.c38_roundtrip_partial` | propext, Quot.sound |
| C38 | `Verif.Parse.c38_regroups` | propext, Quot.sound |
| C38 | `Verif.Parse.c38_not_before_try` | propext, Quot.sound |
| C38 | `Verif.Parse.c38_binary_before_field` | propext, Quot.sound |
| C38 | `Verif.Parse.c38_format_idempotent` | propext, Quot.sound |
| C38 | `Verif.Parse.c38_string_roundtrip` | propext, Quot.sound |
| C39 | `Verif.App.c39_all_dependencies` | propext, Quot.sound |
| C39 | `Verif.App.c39_no_panic` | propext, Quot.sound |
| C39 | `Verif.App.c39_order` | propext, Quot.sound |
| C39 | `Verif.App.c39_acyclic_finishes` | propext, Classical.choice, Quot.sound |
| C39 | `Verif.App.c39_acyclic_sorted` | propext, Quot.sound |
| C39 | `Verif.App.c39_cycle_not_reported` | propext, Quot.sound |
| C39 | `Verif.App.c39_cycle_diverges` | propext, Quot.sound |
| C39 | `Verif.App.toposort_exists` | propext, Classical.choice, Quot.sound |
| C40 | `Verif.App.c40_relative_join` | propext, Quot.sound |
| C40 | `Verif.App.c40_relative_sound_partial` | propext |
| C40 | `Verif.App.c40_longer_base` | none |
| C40 | `Verif.App.c40_extension_stem` | propext, Quot.sound |
| C40 | `Verif.App.c40_has_extension` | propext, Quot.sound |
| C40 | `Verif.App.c40_extension_unique` | propext, Quot.sound |
| C40 | `Verif.App.c40_module_path` | propext, Quot.sound |
| C40 | `Verif.App.c40_module_files_distinct` | propext, Quot.sound |
| C45 | `Verif.App.c45_no_separator` | propext, Quot.sound |
| C45 | `Verif.App.c45_distinct_partial` | propext |
| C45 | `Verif.App.c45_collision` | propext, Classical.choice, Quot.sound |
| C41 | `Verif.Pkg.Json.c41_roundtrip_partial` | propext, Quot.sound |
| C41 | `Verif.Pkg.Json.c41_string_iff` | propext, Classical.choice, Quot.sound |
| C41 | `Verif.Pkg.Json.c41_decode_iff` | propext, Quot.sound |
| C41 | `Verif.Pkg.Json.c41_unambiguous` | propext, Quot.sound |
| C41 | `Verif.Pkg.Json.c41_last_entry` | propext, Classical.choice, Quot.sound |
| C41 | `Verif.Pkg.Json.decode_not_deep` | propext, Quot.sound |
| C41 | `Verif.Pkg.Json.c41_backslash` | propext, Quot.sound |
| C41 | `Verif.Pkg.Json.c41_last_backslash` | propext |
| C41 | `Verif.Pkg.Json.c41_not_utf8` | propext, Quot.sound |
| C41 | `Verif.Pkg.Json.c41_nan` | propext |
| C42 | `Verif.Pkg.Flag.c42_parse_iff` | propext, Classical.choice, Quot.sound |
| C42 | `Verif.Pkg.Flag.c42_error_iff` | propext, Classical.choice, Quot.sound |
| C42 | `Verif.Pkg.Flag.c42_no_panic` | propext, Classical.choice, Quot.sound |
| C42 | `Verif.Pkg.Flag.c42_unique` | propext |
| C43 | `Verif.Pkg.c43_slice` | propext, Classical.choice, Quot.sound |
| C43 | `Verif.Pkg.c43_slice_infinite` | propext, Classical.choice, Quot.sound |
| C43 | `Verif.Pkg.c43_slice_panics_iff` | propext, Classical.choice, Quot.sound |
| C43 | `Verif.Pkg.c43_slice_start_zero` | propext, Quot.sound |
| C43 | `Verif.Pkg.c43_view_new` | propext, Quot.sound |
| C43 | `Verif.Pkg.c43_view_length` | propext, Classical.choice, Quot.sound |
| C43 | `Verif.Pkg.c43_view_to_string` | propext, Quot.sound |
| C43 | `Verif.Pkg.c43_view_starts_with` | propext, Quot.sound |
| C43 | `Verif.Pkg.c43_view_slice` | propext, Classical.choice, Quot.sound |
| C43 | `Verif.Pkg.c43_view_seek` | propext, Classical.choice, Quot.sound |
| C43 | `Verif.Pkg.c43_view_slice_escapes` | propext, Classical.choice, Quot.sound |
| C43 | `Verif.Pkg.c43_view_slice_panics` | propext, Classical.choice, Quot.sound |
| C43 | `Verif.Pkg.c43_starts_with` | propext, Quot.sound |
| C44 | `Verif.Pkg.Html.c44_error_iff` | propext, Classical.choice, Quot.sound |
| C44 | `Verif.Pkg.Html.c44_no_injection` | propext, Classical.choice, Quot.sound |
| C44 | `Verif.Pkg.Html.c44_injective` | propext, Classical.choice, Quot.sound |
| C44 | `Verif.Pkg.Html.c44_not_utf8_dropped` | none |
| C44 | `Verif.Pkg.Html.c44_heading_rejected` | none |
| C46 | `Verif.Runtime.Thunk.c46_evaluated_once_partial` | propext, Classical.choice, Quot.sound |
| C46 | `Verif.Runtime.Thunk.c46_same_result_partial` | propext, Classical.choice, Quot.sound |
| C46 | `Verif.Runtime.Thunk.c46_no_fault_partial` | propext, Classical.choice, Quot.sound |
| C46 | `Verif.Runtime.Thunk.c46_no_leak_partial` | propext, Classical.choice, Quot.sound |
| C46 | `Verif.Runtime.Thunk.c46_progress_partial` | propext, Classical.choice, Quot.sound |
| C46 | `Verif.Runtime.Thunk.c46_wait_free_partial` | propext, Classical.choice, Quot.sound |
| C46 | `Verif.Runtime.Thunk.c46_early_return_hangs` | propext, Classical.choice, Quot.sound |
| C47 | `Verif.Hir.c47_accepted_programs_do_not_go_wrong_partial` | propext, Classical.choice, Quot.sound |
| C47 | `Verif.Hir.c47_closed_programs_partial` | propext, Classical.choice, Quot.sound |
| C47 | `Verif.Hir.c47_list_elements_partial` | propext, Classical.choice, Quot.sound |
| C47 | `Verif.Hir.c47_go_with_try_goes_wrong` | propext, Classical.choice, Quot.sound |
| C47 | `Verif.Hir.c47_keys_with_try_goes_wrong` | propext, Classical.choice, Quot.sound |
| C47 | `Verif.Hir.c47_try_in_error_function_goes_wrong` | propext, Classical.choice, Quot.sound |
| C47 | `Verif.Hir.c47_iteratee_scope_counterexample` | propext, Classical.choice, Quot.sound |
| C47 | `Verif.Names.c47_source_modules_partial` | propext, Classical.choice, Quot.sound |
| C47 | `Verif.Names.analyze_hir` | propext, Classical.choice, Quot.sound |
| C47 | `Verif.Names.interface_closed` | propext, Classical.choice, Quot.sound |
| C48 | `Verif.Prelude.c48_literal` | propext, Classical.choice, Quot.sound |
| C48 | `Verif.Prelude.c48_last_wins_partial` | propext, Classical.choice, Quot.sound |
| C48 | `Verif.Prelude.c48_spread_does_not_override` | propext, Quot.sound |
| C49 | `Verif.Prelude.Lists.c49_literal` | propext |
| C49 | `Verif.Prelude.Lists.c49_comprehension` | propext, Classical.choice, Quot.sound |
| C49 | `Verif.Prelude.Lists.c49_elements` | propext |
| C49 | `Verif.Prelude.Lists.c49_lazy_first` | propext |
| C50 | `Verif.Mir.c50_accepts_partial` | propext, Classical.choice, Quot.sound |
| C50 | `Verif.Mir.c50_behaviour_partial` | propext, Classical.choice, Quot.sound |
| C50 | `Verif.Mir.c50_memory_partial` | propext, Classical.choice, Quot.sound |
| C51 | `Verif.Lower.c51_values_partial` | propext, Classical.choice, Quot.sound |
| C51 | `Verif.Lower.c51_divergence_partial` | propext, Classical.choice, Quot.sound |
| C51 | `Verif.Lower.c51_accepted_programs_partial` | propext, Classical.choice, Quot.sound |
| C51 | `Verif.Lower.c51_whole_compiler_partial` | propext, Classical.choice, Quot.sound |
| C51 | `Verif.Lower.c51_accepted_programs_run_partial` | propext, Classical.choice, Quot.sound |
| C51 | `Verif.Lower.compile_frontEnd` | propext, Classical.choice, Quot.sound |
| C52 | `Verif.Hir.c52_comparison_is_structural_partial` | propext, Classical.choice, Quot.sound |
| C52 | `Verif.Hir.c52_lowering_preserves_comparisons_partial` | propext, Classical.choice, Quot.sound |
| C52 | `Verif.Hir.c52_element_comparison_partial` | propext, Classical.choice, Quot.sound |
| C52 | `Verif.Hir.c52_incomparable_operands_are_rejected` | propext, Classical.choice, Quot.sound |
| C52 | `Verif.Hir.c52_operands_of_none_are_not_evaluated` | propext, Classical.choice, Quot.sound |
| C52 | `Verif.Hir.c52_lists_of_anything_are_accepted` | propext, Classical.choice, Quot.sound |
| C53 | `Verif.Names.c53_functions` | propext, Classical.choice, Quot.sound |
| C53 | `Verif.Names.c53_types` | propext, Classical.choice, Quot.sound |
| C53 | `Verif.Names.c53_unknown_names` | propext, Classical.choice, Quot.sound |
| C53 | `Verif.Names.c53_full_names_distinct` | propext, Classical.choice, Quot.sound |
| C53 | `Verif.Names.c53_interfaces_compiled` | propext, Classical.choice, Quot.sound |
| C53 | `Verif.Names.c53_import` | propext, Classical.choice, Quot.sound |
| C53 | `Verif.Names.c53_private_functions` | propext, Classical.choice, Quot.sound |
| C53 | `Verif.Names.c53_private_types` | propext, Classical.choice, Quot.sound |
| C53 | `Verif.Names.c53_declarations` | propext, Classical.choice, Quot.sound |
| C53 | `Verif.Names.c53_imported_types_public` | propext, Classical.choice, Quot.sound |
| C53 | `Verif.Names.c53_import_hides_foreign` | propext, Classical.choice, Quot.sound |
| C53 | `Verif.Names.c53_mentioned_types` | propext, Classical.choice, Quot.sound |
| C54 | `Verif.Names.c54_record_operations_partial` | propext, Classical.choice, Quot.sound |
| C54 | `Verif.Names.c54_private_fields_partial` | propext, Classical.choice, Quot.sound |
| C54 | `Verif.Names.c54_accesses_have_types` | propext, Classical.choice, Quot.sound |
| C54 | `Verif.Names.c54_interfaces_agree` | propext, Classical.choice, Quot.sound |
| C54 | `Verif.Names.c54_accepts` | propext, Classical.choice, Quot.sound |
| C54 | `Verif.Names.c54_condition_reads_private_field` | propext, Classical.choice, Quot.sound |
| C55 | `Verif.Names.c55_unused_errors_partial` | propext, Classical.choice, Quot.sound |
| C55 | `Verif.Names.c55_errors_rejected` | propext, Classical.choice, Quot.sound |
| C55 | `Verif.Names.c55_accepts` | propext, Classical.choice, Quot.sound |
| C55 | `Verif.Names.c55_condition_ignores_error` | propext, Classical.choice, Quot.sound |
| C56 | `Verif.Hir.c56_same_values_have_the_same_hash_partial` | propext, Classical.choice, Quot.sound |
| C56 | `Verif.Hir.c56_degenerate_field_goes_wrong` | propext, Classical.choice, Quot.sound |
| C57 | `Verif.Grammar.c57_formatted_module_is_parsed_back_partial` | propext, Classical.choice, Quot.sound |
| C57 | `Verif.Grammar.c57_format_then_parse_partial` | propext, Classical.choice, Quot.sound |
| C57 | `Verif.Grammar.c57_formatting_is_idempotent_partial` | propext, Classical.choice, Quot.sound |
| C57 | `Verif.Grammar.c57_layout_does_not_matter_partial` | propext, Classical.choice, Quot.sound |
| C57 | `Verif.Grammar.c57_imports_are_sorted_partial` | propext, Classical.choice, Quot.sound |
| C57 | `Verif.Grammar.c57_parsed_modules_are_well_formed` | propext, Classical.choice, Quot.sound |
| C57 | `Verif.Grammar.c57_right_operand_counterexample` | propext, Classical.choice, Quot.sound |
| C57 | `Verif.Grammar.c57_called_operation_counterexample` | propext, Classical.choice, Quot.sound |
| C57 | `Verif.Grammar.c57_field_of_operation_counterexample` | propext, Classical.choice, Quot.sound |
| C57 | `Verif.Grammar.c57_called_negation_counterexample` | propext, Classical.choice, Quot.sound |
| C57 | `Verif.Grammar.c57_field_of_number_counterexample` | propext, Classical.choice, Quot.sound |
| C57 | `Verif.Grammar.c57_union_with_function_counterexample` | propext, Classical.choice, Quot.sound |
| C57 | `Verif.Grammar.c57_union_counterexample` | propext, Classical.choice, Quot.sound |
| C57 | `Verif.Grammar.c57_condition_counterexample` | propext, Classical.choice, Quot.sound |
| C57 | `Verif.Grammar.c57_signed_number_counterexample` | propext, Classical.choice, Quot.sound |
| C57 | `Verif.Grammar.c57_record_counterexample` | propext, Classical.choice, Quot.sound |
| C58 | `Verif.Grammar.c58_parsed_texts_are_in_the_grammar` | propext, Classical.choice, Quot.sound |
| C58 | `Verif.Grammar.c58_other_texts_are_rejected` | propext, Classical.choice, Quot.sound |
| C58 | `Verif.Grammar.c58_formatted_texts_are_in_the_grammar_partial` | propext, Classical.choice, Quot.sound |
| C59 | `Verif.Grammar.c59_parsing_ends` | propext, Classical.choice, Quot.sound |
| C59 | `Verif.Grammar.c59_bound_does_not_matter` | propext, Classical.choice, Quot.sound |
| C60 | `Verif.Runtime.Graph.c60_no_use_after_free_partial` | propext, Classical.choice, Quot.sound |
| C60 | `Verif.Runtime.Graph.c60_no_data_race_partial` | propext, Classical.choice, Quot.sound |
| C60 | `Verif.Runtime.Graph.c60_reachable_live_partial` | propext, Classical.choice, Quot.sound |
| C60 | `Verif.Runtime.Graph.c60_counts_partial` | propext, Classical.choice, Quot.sound |
| C60 | `Verif.Runtime.Graph.c60_collected_partial` | propext, Classical.choice, Quot.sound |
| C60 | `Verif.Runtime.Graph.c60_no_leak_partial` | propext, Classical.choice, Quot.sound |
| C60 | `Verif.Runtime.Graph.c60_shared_synchronized_partial` | propext, Classical.choice, Quot.sound |
| C60 | `Verif.Runtime.Graph.c60_deep_partial` | propext, Classical.choice, Quot.sound |
| C60 | `Verif.Runtime.Graph.c60_update_exclusive_partial` | propext, Classical.choice, Quot.sound |
| C60 | `Verif.Runtime.Graph.c60_progress_partial` | propext, Classical.choice, Quot.sound |
| C60 | `Verif.Runtime.Graph.c60_update_race` | propext, Classical.choice, Quot.sound |
| C60 | `Verif.Runtime.Graph.c60_thunk_race` | propext, Classical.choice, Quot.sound |
| C61 | `Verif.Pkg.Utf8.c61_characters` | propext, Classical.choice, Quot.sound |
| C61 | `Verif.Pkg.Utf8.c61_characters_invalid` | propext, Classical.choice, Quot.sound |
| C61 | `Verif.Pkg.Utf8.c61_length` | propext, Classical.choice, Quot.sound |
| C61 | `Verif.Pkg.Utf8.c61_length_invalid` | propext, Classical.choice, Quot.sound |
| C61 | `Verif.Pkg.Utf8.c61_starts_with` | propext, Classical.choice, Quot.sound |
| C61 | `Verif.Pkg.Utf8.c61_ends_with` | propext, Classical.choice, Quot.sound |
| C61 | `Verif.Pkg.Utf8.c61_contains` | propext, Classical.choice, Quot.sound |
| C61 | `Verif.Pkg.Utf8.c61_find_partial` | propext, Classical.choice, Quot.sound |
| C61 | `Verif.Pkg.Utf8.c61_find_none` | propext, Classical.choice, Quot.sound |
| C61 | `Verif.Pkg.Utf8.c61_find_empty` | propext, Classical.choice, Quot.sound |
| C61 | `Verif.Pkg.Utf8.c61_slice` | propext, Classical.choice, Quot.sound |
| C61 | `Verif.Pkg.Utf8.c61_slice_finite` | propext, Classical.choice, Quot.sound |
| C61 | `Verif.Pkg.Utf8.c61_slice_total` | propext, Classical.choice, Quot.sound |
| C61 | `Verif.Pkg.Utf8.c61_slice_invalid` | propext, Classical.choice, Quot.sound |
| C61 | `Verif.Pkg.Utf8.c61_split` | propext, Classical.choice, Quot.sound |
| C61 | `Verif.Pkg.Utf8.c61_split_empty` | propext, Classical.choice, Quot.sound |
| C61 | `Verif.Pkg.Utf8.c61_split_invalid` | propext, Classical.choice, Quot.sound |
| C61 | `Verif.Pkg.Utf8.c61_split_join` | propext, Classical.choice, Quot.sound |
| C61 | `Verif.Pkg.Utf8.c61_join` | propext |
| C61 | `Verif.Pkg.Utf8.c61_concatenate` | propext |
| C61 | `Verif.Pkg.Utf8.c61_replace` | propext, Classical.choice, Quot.sound |
| C61 | `Verif.Pkg.Utf8.c61_replace_invalid` | propext, Classical.choice, Quot.sound |
| C61 | `Verif.Pkg.Utf8.c61_trim_start` | propext, Classical.choice, Quot.sound |
| C61 | `Verif.Pkg.Utf8.c61_trim_end` | propext, Classical.choice, Quot.sound |
| C61 | `Verif.Pkg.Utf8.c61_trim` | propext, Classical.choice, Quot.sound |
| C61 | `Verif.Pkg.Utf8.c61_trim_empty` | propext, Classical.choice, Quot.sound |
| C61 | `Verif.Pkg.Utf8.c61_trim_invalid` | propext, Classical.choice, Quot.sound |
| C61 | `Verif.Pkg.Utf8.c61_code_point` | propext, Classical.choice, Quot.sound |
| C61 | `Verif.Pkg.Utf8.c61_to_code_point` | propext, Classical.choice, Quot.sound |
| C61 | `Verif.Pkg.Utf8.c61_to_code_point_none` | propext, Classical.choice, Quot.sound |
| C61 | `Verif.Pkg.Utf8.c61_from_code_point_none` | propext, Quot.sound |
| C61 | `Verif.Pkg.Utf8.c61_from_code_point_bad` | propext, Quot.sound |
| C62 | `Verif.App.Build.c62_builds_agree_partial` | propext, Classical.choice, Quot.sound |
| C62 | `Verif.App.Build.c62_built_files_are_current_partial` | propext, Classical.choice, Quot.sound |
| C62 | `Verif.App.Build.c62_clean_build_ends_partial` | propext, Classical.choice, Quot.sound |
| C62 | `Verif.App.Build.c62_objects_agree_partial` | propext, Classical.choice, Quot.sound |
| C62 | `Verif.App.Build.c62_archives_have_objects` | propext, Quot.sound |
| C62 | `Verif.App.Build.c62_archives_have_all_modules` | propext, Quot.sound |
| C62 | `Verif.App.Build.c62_configurations_are_missed` | propext, Classical.choice, Quot.sound |
| C62 | `Verif.App.Build.c62_removed_modules_stay` | propext, Classical.choice, Quot.sound |
| C63 | `Verif.Mir.Typed.c63_checker` | propext, Quot.sound |
| C63 | `Verif.Mir.Typed.c63_sound` | propext, Classical.choice, Quot.sound |
| C63 | `Verif.Mir.Typed.c63_total` | propext, Classical.choice, Quot.sound |
| C63 | `Verif.Mir.Typed.c63_middle_end_partial` | propext, Classical.choice, Quot.sound |
| C63 | `Verif.Mir.Typed.c63_environment_counterexample` | propext |
| C63 | `Verif.Mir.Typed.c63_fallback_counterexample` | propext |
| C63 | `Verif.Mir.Typed.c63_ids_counterexample` | propext |
| C63 | `Verif.Mir.Typed.c63_missing_alternative` | propext |
| C64 | `Verif.Mir.Typed.c64_found_partial` | propext, Quot.sound |
| C64 | `Verif.Mir.Typed.c64_globals_partial` | propext, Classical.choice, Quot.sound |
| C64 | `Verif.Mir.Typed.c64_ids_partial` | propext, Classical.choice, Quot.sound |
| C64 | `Verif.Mir.Typed.c64_default_counterexample` | propext |
| C64 | `Verif.Mir.Typed.c64_names_counterexample` | propext, Classical.choice, Quot.sound |
| C64 | `Verif.Lower.c64_lowered_partial` | propext, Classical.choice, Quot.sound |
| C64 | `Verif.Lower.c64_condition_counterexample` | propext, Classical.choice, Quot.sound |
| C65 | `Verif.Lower.c65_typed_partial` | propext, Classical.choice, Quot.sound |
| C65 | `Verif.Lower.c65_total_partial` | propext, Classical.choice, Quot.sound |
| C65 | `Verif.Lower.c65_erased` | propext, Classical.choice, Quot.sound |
| C65 | `Verif.Lower.c65_fields_counterexample` | propext, Classical.choice, Quot.sound |
| C66 | `Verif.Lower.c66_equal_partial` | propext, Classical.choice, Quot.sound |
| C66 | `Verif.Lower.c66_debug_partial` | propext, Classical.choice, Quot.sound |
| C66 | `Verif.Lower.c66_print_partial` | propext, Classical.choice, Quot.sound |
| C66 | `Verif.Lower.Data.equal_symm` | propext, Classical.choice, Quot.sound |
| C66 | `Verif.Lower.Data.equal_plain` | propext, Classical.choice, Quot.sound |
| C66 | `Verif.Lower.Data.equal_refl` | propext, Classical.choice, Quot.sound |
| C66 | `Verif.Lower.c66_evaluates_twice` | propext, Classical.choice, Quot.sound |
| C66 | `Verif.Lower.c66_goes_wrong` | propext, Classical.choice, Quot.sound |
| C66 | `Verif.Lower.c66_debug_ambiguous` | propext, Classical.choice, Quot.sound |
| C67 | `Verif.Grammar.c67_sources_that_are_formatted` | propext, Classical.choice, Quot.sound |
| C67 | `Verif.Grammar.c67_output_is_a_rendering` | propext, Classical.choice, Quot.sound |
| C67 | `Verif.Grammar.c67_output_ends_with_a_line_break` | propext, Classical.choice, Quot.sound |
| C67 | `Verif.Grammar.c67_program_is_kept_partial` | propext, Classical.choice, Quot.sound |
| C67 | `Verif.Grammar.c67_comments_are_found` | propext, Classical.choice, Quot.sound |
| C67 | `Verif.Grammar.c67_comments_of_a_text_are_unique` | propext, Classical.choice, Quot.sound |
| C67 | `Verif.Grammar.c67_every_comment_is_written_once` | propext, Classical.choice, Quot.sound |
| C67 | `Verif.Grammar.c67_no_comment_is_lost` | propext, Classical.choice, Quot.sound |
| C67 | `Verif.Grammar.c67_no_comment_is_made_up` | propext, Classical.choice, Quot.sound |
| C67 | `Verif.Grammar.c67_comments_stay_in_order_partial` | propext, Classical.choice, Quot.sound |
| C67 | `Verif.Grammar.c67_comments_on_their_own_lines_are_kept_partial` | propext, Classical.choice, Quot.sound |
| C67 | `Verif.Grammar.c67_written_comments_are_trimmed` | propext, Classical.choice, Quot.sound |
| C67 | `Verif.Grammar.c67_can_be_formatted_again_partial` | propext, Classical.choice, Quot.sound |
| C67 | `Verif.Grammar.c67_comments_are_kept_again_partial` | propext, Classical.choice, Quot.sound |
| C67 | `Verif.Grammar.c67_comments_can_be_merged` | propext, Classical.choice, Quot.sound |
| C67 | `Verif.Grammar.c67_comments_can_be_swapped` | propext, Classical.choice, Quot.sound |
| C67 | `Verif.Grammar.c67_comments_can_leave_their_imports` | propext, Classical.choice, Quot.sound |
| C67 | `Verif.Grammar.c67_white_space_is_not_formatted` | propext, Classical.choice, Quot.sound |
| C68 | `Verif.Front.c68_conversion_succeeds` | propext, Classical.choice, Quot.sound |
| C68 | `Verif.Front.c68_literal_values` | propext, Classical.choice, Quot.sound |
| C68 | `Verif.Front.c68_conversion_keeps_what_is_written` | propext, Classical.choice, Quot.sound |
| C68 | `Verif.Front.c68_programs_do_not_go_wrong_partial` | propext, Classical.choice, Quot.sound |
| C68 | `Verif.Front.c68_names` | propext, Classical.choice, Quot.sound |
| C68 | `Verif.Front.c68_private_fields_partial` | propext, Classical.choice, Quot.sound |
| C68 | `Verif.Front.c68_formatting_keeps_meaning_partial` | propext, Classical.choice, Quot.sound |
| C68 | `Verif.Front.c68_compiled_programs_run_partial` | propext, Classical.choice, Quot.sound |
| C68 | `Verif.Front.c68_formatting_changes_meaning` | propext, Classical.choice, Quot.sound |
| C69 | `Verif.Tests.c69_accepted_tests` | propext, Classical.choice, Quot.sound |
| C69 | `Verif.Tests.c69_reports_partial` | propext, Classical.choice, Quot.sound |
| C69 | `Verif.Tests.c69_empty_error_passes` | propext, Classical.choice, Quot.sound |
| C70 | `Verif.Front.c70_analysis_ends` | propext, Classical.choice, Quot.sound |
| C70 | `Verif.Front.c70_one_outcome` | propext, Classical.choice, Quot.sound |
| C70 | `Verif.Front.c70_type_analysis_ends` | propext, Classical.choice, Quot.sound |
| C70 | `Verif.Front.c70_compilation_ends` | propext, Classical.choice, Quot.sound |
| C70 | `Verif.Front.c70_programs_end` | propext, Classical.choice, Quot.sound |
| C70 | `Verif.Front.c70_cycles_have_no_canonical_types` | propext, Classical.choice, Quot.sound |
| C71 | `Verif.Doc.c71_documented_modules` | propext, Classical.choice, Quot.sound |
| C71 | `Verif.Doc.c71_documented_definitions` | propext, Quot.sound |
| C71 | `Verif.Doc.c71_text` | propext, Classical.choice, Quot.sound |
| C71 | `Verif.Doc.c71_definition_comments` | propext, Classical.choice, Quot.sound |
| C71 | `Verif.Doc.c71_module_comment` | propext, Classical.choice, Quot.sound |
| C71 | `Verif.Doc.c71_private_parts_do_not_matter` | propext, Classical.choice, Quot.sound |
| C71 | `Verif.Doc.c71_shown_types_are_read_back_partial` | propext, Classical.choice, Quot.sound |
| C71 | `Verif.Doc.c71_shown_signatures_are_read_back_partial` | propext, Classical.choice, Quot.sound |
| C71 | `Verif.Doc.c71_trailing_comment_counterexample` | propext, Classical.choice, Quot.sound |
| C71 | `Verif.Doc.c71_import_comment_counterexample` | propext, Classical.choice, Quot.sound |
| C72 | `Verif.App.c72_found` | propext, Classical.choice, Quot.sound |
| C72 | `Verif.App.c72_found_once` | propext, Classical.choice, Quot.sound |
| C72 | `Verif.App.c72_imports_are_found` | propext, Classical.choice, Quot.sound |
| C72 | `Verif.App.c72_modules_have_paths` | propext, Classical.choice, Quot.sound |
| C72 | `Verif.App.c72_format` | propext, Classical.choice, Quot.sound |
| C72 | `Verif.App.c72_check` | propext, Classical.choice, Quot.sound |
| C72 | `Verif.App.c72_check_then_format` | propext, Classical.choice, Quot.sound |
| C72 | `Verif.App.c72_format_then_check_partial` | propext, Classical.choice, Quot.sound |
| C72 | `Verif.App.c72_packages_that_are_formatted` | propext, Classical.choice, Quot.sound |
| C72 | `Verif.App.c72_programs_are_kept_partial` | propext, Classical.choice, Quot.sound |
| C72 | `Verif.App.c72_format_is_not_atomic` | propext, Classical.choice, Quot.sound |
| C72 | `Verif.App.c72_format_is_not_stable` | propext, Classical.choice, Quot.sound |
| C73 | `Verif.Core.Numbers.c73_to_integer` | propext, Classical.choice, Quot.sound |
| C73 | `Verif.Core.Numbers.c73_to_integer_nan` | propext |
| C73 | `Verif.Core.Numbers.c73_from_integer` | propext, Classical.choice, Quot.sound |
| C73 | `Verif.Core.Numbers.c73_integers_round_trip` | propext, Classical.choice, Quot.sound |
| C73 | `Verif.Core.Numbers.c73_small_round_trip` | propext, Classical.choice, Quot.sound |
| C73 | `Verif.Core.Numbers.c73_bitwise` | propext, Classical.choice, Quot.sound |
| C73 | `Verif.Core.Numbers.c73_bits` | propext, Classical.choice, Quot.sound |
| C73 | `Verif.Core.Numbers.c73_left_shift_64` | propext, Classical.choice, Quot.sound |
| C73 | `Verif.Core.Numbers.c73_right_shift_64` | propext, Classical.choice, Quot.sound |
| C73 | `Verif.Core.Numbers.c73_shifts` | propext, Classical.choice, Quot.sound |
| C73 | `Verif.Core.Numbers.c73_maximum_minimum` | propext, Quot.sound |
| C73 | `Verif.Core.Numbers.c73_integer_range` | propext, Classical.choice, Quot.sound |
| C73 | `Verif.Core.Numbers.c73_sequence` | propext, Classical.choice, Quot.sound |
| C73 | `Verif.Core.Numbers.c73_range_ends` | propext, Classical.choice, Quot.sound |
| C73 | `Verif.Core.Numbers.c73_sum` | propext, Classical.choice, Quot.sound |
| C73 | `Verif.Core.Numbers.c73_sum_of_sequence` | propext, Classical.choice, Quot.sound |
| C73 | `Verif.Core.Numbers.c73_range_to_nan_is_endless` | propext |
| C73 | `Verif.Core.Numbers.c73_large_range_is_endless` | propext, Classical.choice, Quot.sound |
| C73 | `Verif.Core.Numbers.c73_shift_by_64` | propext |
| C73 | `Verif.Core.Numbers.c73_equality_of_64_bit_integers` | propext, Quot.sound |
| C73 | `Verif.Core.Numbers.c73_complement_is_rounded` | propext, Quot.sound |
| C73 | `Verif.Core.Numbers.c73_maximum_of_zeros` | propext |
| C73 | `Verif.Core.Numbers.c73_range_of_one_number_is_endless` | propext, Classical.choice, Quot.sound |
| C73 | `Verif.Core.Numbers.c73_sum_order` | propext |
| C74 | `Verif.Core.Lists.c74_any_true` | propext |
| C74 | `Verif.Core.Lists.c74_any_false` | propext |
| C74 | `Verif.Core.Lists.c74_all_false` | propext |
| C74 | `Verif.Core.Lists.c74_all_true` | propext |
| C74 | `Verif.Core.Lists.c74_any_all` | propext, Quot.sound |
| C74 | `Verif.Core.Lists.c74_first` | none |
| C74 | `Verif.Core.Lists.c74_last` | propext |
| C74 | `Verif.Core.Lists.c74_values_of_a_type` | propext |
| C74 | `Verif.Core.Lists.c74_values_of_a_type_are_lazy` | propext |
| C74 | `Verif.Core.Lists.c74_values_of_a_type_once` | propext |
| C74 | `Verif.Core.Lists.c74_sum` | propext |
| C74 | `Verif.Core.Lists.c74_sum_of_integers` | propext, Classical.choice, Quot.sound |
| C75 | `Verif.Tests.Assert.c75_assert_equal` | propext, Classical.choice, Quot.sound |
| C75 | `Verif.Tests.Assert.c75_assertions` | propext, Quot.sound |
| C75 | `Verif.Tests.Assert.c75_states_of_one_thread` | propext |
| C75 | `Verif.Tests.Assert.c75_states_of_threads` | propext, Quot.sound |
| C75 | `Verif.Tests.Assert.c75_nan_is_not_equal_to_itself` | propext, Classical.choice, Quot.sound |
| C75 | `Verif.Tests.Assert.c75_different_integers_are_equal` | propext, Classical.choice, Quot.sound |
| C75 | `Verif.Tests.Assert.c75_set_is_lost` | propext |
| C75 | `Verif.Tests.Assert.c75_get_misses_value` | propext |
| C75 | `Verif.Tests.Assert.c75_frozen_states_change` | propext |
| C76 | `Verif.Pkg.Boundary.c76_native_lists` | propext, Quot.sound |
| C76 | `Verif.Pkg.Boundary.c76_streams_of_lists` | propext |
| C76 | `Verif.Pkg.Boundary.c76_streams_end` | propext, Quot.sound |
| C76 | `Verif.Pkg.Boundary.c76_lists_there_and_back` | propext, Quot.sound |
| C76 | `Verif.Pkg.Boundary.c76_received_headers` | propext, Classical.choice, Quot.sound |
| C76 | `Verif.Pkg.Boundary.c76_sent_headers` | propext, Classical.choice, Quot.sound |
| C76 | `Verif.Pkg.Boundary.c76_headers_there_and_back` | propext, Classical.choice, Quot.sound |
| C76 | `Verif.Pkg.Boundary.c76_headers_are_sent` | propext, Classical.choice, Quot.sound |
| C76 | `Verif.Pkg.Boundary.c76_repeated_headers_are_lost` | propext, Quot.sound |
| C76 | `Verif.Pkg.Boundary.c76_capital_letters_are_lost` | propext, Quot.sound |
| C77 | `Verif.App.OsPath.c77_names` | propext, Quot.sound |
| C77 | `Verif.App.OsPath.c77_files_are_inside` | propext, Quot.sound |
| C77 | `Verif.App.OsPath.c77_there_and_back` | propext, Quot.sound |
| C77 | `Verif.App.OsPath.c77_different_files` | propext, Quot.sound |
| C77 | `Verif.App.OsPath.c77_given_from_the_root` | propext, Quot.sound |
| C77 | `Verif.App.OsPath.c77_given_from_the_package` | propext, Quot.sound |
| C77 | `Verif.App.OsPath.c77_directories` | propext, Quot.sound |
| C77 | `Verif.App.OsPath.c77_nearest_package` | propext, Quot.sound |
| C77 | `Verif.App.OsPath.c77_packages_are_found` | propext, Quot.sound |
| C77 | `Verif.App.OsPath.c77_created_from_the_root` | propext, Quot.sound |
| C77 | `Verif.App.OsPath.c77_created_from_the_current_directory` | propext, Quot.sound |
| C77 | `Verif.App.OsPath.c77_nested_packages_are_misplaced` | propext, Classical.choice, Quot.sound |
| C77 | `Verif.App.OsPath.c77_parent_is_not_created` | propext, Classical.choice, Quot.sound |
| C77 | `Verif.App.OsPath.c77_parents_are_dropped` | propext, Classical.choice, Quot.sound |
| C77 | `Verif.App.OsPath.c77_parents_escape` | propext, Classical.choice, Quot.sound |
| C77 | `Verif.App.OsPath.c77_separators_collide` | propext, Classical.choice, Quot.sound |
| C77 | `Verif.App.OsPath.c77_backslashes_are_lost` | propext, Classical.choice, Quot.sound |
| C78 | `Verif.Pkg.NativeAny.c78_dropped_once` | propext, Classical.choice, Quot.sound |
| C78 | `Verif.Pkg.NativeAny.c78_no_leaks` | propext, Classical.choice, Quot.sound |
| C78 | `Verif.Pkg.NativeAny.c78_clones` | propext, Classical.choice, Quot.sound |
| C78 | `Verif.Pkg.NativeAny.c78_wrapped` | propext |
| C78 | `Verif.Pkg.NativeAny.c78_unwrapped` | propext |
| C78 | `Verif.Pkg.NativeAny.c78_references` | propext, Classical.choice, Quot.sound |
| C79 | `Verif.Pkg.FileIo.c79_read` | propext |
| C79 | `Verif.Pkg.FileIo.c79_read_ends` | propext, Quot.sound |
| C79 | `Verif.Pkg.FileIo.c79_read_limit` | propext, Quot.sound |
| C79 | `Verif.Pkg.FileIo.c79_readings` | propext, Quot.sound |
| C79 | `Verif.Pkg.FileIo.c79_write` | propext, Quot.sound |
| C79 | `Verif.Pkg.FileIo.c79_write_all` | propext, Quot.sound |
| C79 | `Verif.Pkg.FileIo.c79_open` | none |
| C79 | `Verif.Pkg.FileIo.c79_options` | propext, Quot.sound |
| C79 | `Verif.Pkg.FileIo.c79_partial_writes` | none |
| C79 | `Verif.Pkg.FileIo.c79_failed_reads_lose` | propext |
| C79 | `Verif.Pkg.FileIo.c79_append_and_truncate` | none |
| C80 | `Verif.Hir.MainFunction.c80_contexts_of_packages` | propext, Quot.sound |
| C80 | `Verif.Hir.MainFunction.c80_all_packages` | propext, Quot.sound |
| C80 | `Verif.Hir.MainFunction.c80_start` | propext, Classical.choice, Quot.sound |
| C80 | `Verif.Hir.MainFunction.c80_context_type` | propext, Classical.choice, Quot.sound |
| C80 | `Verif.Hir.MainFunction.c80_no_main` | propext, Classical.choice, Quot.sound |
| C81 | `Verif.Lower.Collections.c81_conditionals_partial` | propext |
| C81 | `Verif.Lower.Collections.c81_lazy_elements` | propext |
| C81 | `Verif.Lower.Collections.c81_variables_are_captured` | propext |
