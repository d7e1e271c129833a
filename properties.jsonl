{"id": "C01", "title": "Canonicalisation is idempotent and alias-transparent", "statement": "Canonicalising a type twice gives the same result as once; the canonical form contains no alias references, no duplicate union members and no union that mixes `any` with other members.", "quantifier": "every type and every alias table", "why_tests_cant": "The claim ranges over an unbounded domain; unit tests only sample a handful of literals.", "anchors": ["lib/hir/src/analysis/type_canonicalizer.rs:canonicalize"]}
{"id": "C02", "title": "Type equality ignores union order, nesting, duplicates and aliases", "statement": "The type equality check is an equivalence relation, and a union type is equal to any re-association, permutation or duplication of its members, also through aliases.", "quantifier": "all types, all alias tables, all re-arrangements", "why_tests_cant": "The claim ranges over an unbounded domain; unit tests only sample a handful of literals.", "anchors": ["lib/hir/src/analysis/type_equality_checker.rs:check"]}
{"id": "C03", "title": "Subsumption is a partial order with `any` on top", "statement": "The assignability check is reflexive and transitive, antisymmetric up to type equality, every type is assignable to `any`, and it agrees with inclusion of union members.", "quantifier": "all pairs/triples of types", "why_tests_cant": "The claim ranges over an unbounded domain; unit tests only sample a handful of literals.", "anchors": ["lib/hir/src/analysis/type_subsumption_checker.rs:check"]}
{"id": "C04", "title": "Union is the least upper bound", "statement": "Both operands of a union are assignable to it, and it is assignable to every type that both operands are assignable to.", "quantifier": "all types", "why_tests_cant": "The claim ranges over an unbounded domain; unit tests only sample a handful of literals.", "anchors": ["lib/hir/src/analysis/type_subsumption_checker.rs:check", "lib/hir/src/types/union.rs"]}
{"id": "C05", "title": "The type left for an else branch is the exact complement", "statement": "The difference between an argument type and the types already handled contains exactly the union members of the argument which are not handled, and is absent exactly when everything is handled.", "quantifier": "all pairs of types", "why_tests_cant": "The claim ranges over an unbounded domain; unit tests only sample a handful of literals.", "anchors": ["lib/hir/src/analysis/type_difference_calculator.rs:calculate"]}
{"id": "C06", "title": "Type identity strings are injective", "statement": "Two types get the same runtime identity string only if they are equal types, so that distinct variant types never share type information.", "quantifier": "all pairs of types", "why_tests_cant": "The claim ranges over an unbounded domain; unit tests only sample a handful of literals.", "anchors": ["lib/hir/src/analysis/type_id_calculator.rs:calculate_canonical_string"]}
{"id": "C07", "title": "Accepted alias definitions always resolve", "statement": "If a module's aliases are accepted by the recursive alias check and all references exist, canonicalisation of every type in the module terminates successfully.", "quantifier": "all alias graphs and types", "why_tests_cant": "Termination for every graph is not testable.", "anchors": ["lib/hir/src/analysis/recursive_type_alias_validator.rs:validate", "lib/hir/src/analysis/type_canonicalizer.rs:canonicalize"]}
{"id": "C08", "title": "Comparability means no function, error or any inside", "statement": "A type is accepted for `==` and as a map key exactly when no `any`, `error` or function type is reachable through its list, map, union, alias and record-field structure.", "quantifier": "all types and (possibly recursive) record tables", "why_tests_cant": "The claim ranges over an unbounded domain; unit tests only sample a handful of literals.", "anchors": ["lib/hir/src/analysis/type_comparability_checker.rs:check"]}
{"id": "C09", "title": "Impossible record detection is sound and complete", "statement": "A record definition is rejected as impossible only if no finite value of it exists, and accepted only if one exists.", "quantifier": "all sets of record definitions", "why_tests_cant": "The claim ranges over an unbounded domain; unit tests only sample a handful of literals.", "anchors": ["lib/hir/src/analysis/impossible_type_validator.rs:validate"]}
{"id": "C10", "title": "Maps: get after set", "statement": "Looking a key up in a map right after setting it yields the value just set.", "quantifier": "all maps built by any history of operations, all keys and values", "why_tests_cant": "Depends on every hash-collision pattern.", "anchors": ["packages/prelude/Map.pen:GetMap,SetMap"]}
{"id": "C11", "title": "Maps: set leaves other keys alone", "statement": "Setting one key does not change the result of looking any other key up.", "quantifier": "all maps, all pairs of distinct keys", "why_tests_cant": "Depends on every hash-collision pattern.", "anchors": ["packages/prelude/Map.pen:SetMap"]}
{"id": "C12", "title": "Maps: delete removes exactly one key", "statement": "After deleting a key it is absent, and every other key keeps its value.", "quantifier": "all maps built by any history, all keys", "why_tests_cant": "Depends on every hash-collision pattern.", "anchors": ["packages/prelude/Map.pen:DeleteMap,normalizeHamt"]}
{"id": "C13", "title": "Maps: size counts the distinct keys", "statement": "The size of a map equals the number of distinct keys it holds.", "quantifier": "all histories of map operations", "why_tests_cant": "The claim ranges over an unbounded domain; unit tests only sample a handful of literals.", "anchors": ["packages/prelude/Map.pen:MapSize,SetMap,DeleteMap"]}
{"id": "C14", "title": "Maps: iteration visits every entry exactly once", "statement": "Iterating a map yields every key/value pair of it exactly once and nothing else.", "quantifier": "all maps", "why_tests_cant": "The claim ranges over an unbounded domain; unit tests only sample a handful of literals.", "anchors": ["packages/prelude/Map.pen:IterateMap"]}
{"id": "C15", "title": "Maps: merge is right-biased union", "statement": "Merging two maps yields a map whose lookup is the second map's where defined, otherwise the first's.", "quantifier": "all pairs of maps", "why_tests_cant": "The claim ranges over an unbounded domain; unit tests only sample a handful of literals.", "anchors": ["packages/prelude/Map.pen:MergeMaps"]}
{"id": "C16", "title": "Maps: equality is extensional", "statement": "Two maps compare equal exactly when they hold the same keys with equal values, whatever the histories that built them.", "quantifier": "all pairs of histories", "why_tests_cant": "The claim ranges over an unbounded domain; unit tests only sample a handful of literals.", "anchors": ["packages/prelude/Map.pen:EqualMaps"]}
{"id": "C17", "title": "Maps: every operation terminates", "statement": "Setting a key terminates for every two keys, including keys with equal hashes.", "quantifier": "all keys and hash functions", "why_tests_cant": "A diverging case cannot be sampled by a finite test.", "anchors": ["packages/prelude/Map.pen:setKeyValue", "packages/prelude/ffi/src/lib.rs:_pen_prelude_hash_to_index"]}
{"id": "C18", "title": "Lists: concatenation, size and equality are those of finite sequences", "statement": "For finite lists, prepend, concatenation, first/rest, size and equality agree with the mathematical sequence, and elements stay lazily unevaluated until forced.", "quantifier": "all finite lists", "why_tests_cant": "The claim ranges over an unbounded domain; unit tests only sample a handful of literals.", "anchors": ["packages/prelude/List.pen"]}
{"id": "C19", "title": "Equal values have equal hashes", "statement": "Whenever two keys are equal their hashes are equal, and looking up either finds the same entry.", "quantifier": "all comparable types and pairs of values", "why_tests_cant": "The claim ranges over an unbounded domain; unit tests only sample a handful of literals.", "anchors": ["lib/hir-mir/src/transformation/hash_calculation/expression.rs", "packages/prelude/List.pen:HashList", "packages/prelude/Map.pen:HashMap"]}
{"id": "C20", "title": "Only free variables matter", "statement": "The result of an expression depends only on the values of the variables reported as free in it.", "quantifier": "all expressions and environments", "why_tests_cant": "The claim ranges over an unbounded domain; unit tests only sample a handful of literals.", "anchors": ["lib/mir/src/analysis/free_variable.rs:find_free_variables"]}
{"id": "C21", "title": "String concatenation flattening preserves results", "statement": "Flattening nested string concatenations does not change the result of any expression.", "quantifier": "all expressions and environments", "why_tests_cant": "The claim ranges over an unbounded domain; unit tests only sample a handful of literals.", "anchors": ["lib/mir/src/analysis/optimization/string_concatenation.rs:transform"]}
{"id": "C22", "title": "Renaming preserves results", "statement": "Alpha conversion does not change the result of any function body and leaves no two binders with the same name.", "quantifier": "all expressions and environments", "why_tests_cant": "The claim ranges over an unbounded domain; unit tests only sample a handful of literals.", "anchors": ["lib/mir/src/analysis/alpha_conversion.rs:transform"]}
{"id": "C23", "title": "Normalisation preserves results and evaluation order", "statement": "For every program in which bound names are distinct from each other and from free names, normalisation (with its removal of aliases) does not change results, foreign calls or their order, and its result is in A-normal form.", "quantifier": "all hygienic programs, worlds, fuels, functions and arguments", "why_tests_cant": "The claim ranges over an unbounded domain; unit tests only sample a handful of literals.", "anchors": ["lib/mir/src/analysis/normalization.rs:transform"]}
{"id": "C24", "title": "Alias removal preserves results", "statement": "Replacing a variable that is bound to another variable by that variable does not change the result of any accepted program.", "quantifier": "all expressions and environments", "why_tests_cant": "The claim ranges over an unbounded domain; unit tests only sample a handful of literals.", "anchors": ["lib/mir/src/analysis/normalization/alias_removal.rs:transform"]}
{"id": "C25", "title": "Closures capture exactly what they need", "statement": "The inferred environment of every local function contains all local variables its body can read, and evaluation with only the captured variables gives the same result.", "quantifier": "all expressions and environments", "why_tests_cant": "The claim ranges over an unbounded domain; unit tests only sample a handful of literals.", "anchors": ["lib/mir/src/analysis/environment_inference.rs:transform"]}
{"id": "C26", "title": "Lambda lifting preserves results", "statement": "Lifting local functions to global functions does not change the result of any expression.", "quantifier": "all expressions and environments", "why_tests_cant": "The claim ranges over an unbounded domain; unit tests only sample a handful of literals.", "anchors": ["lib/mir/src/analysis/lambda_lifting.rs:transform"]}
{"id": "C27", "title": "Reference counting instrumentation is balanced", "statement": "Every expression instrumented by the compiler passes the compiler's own balance validation: on every control path every owned variable is consumed exactly once.", "quantifier": "all well-scoped expressions", "why_tests_cant": "The claim ranges over an unbounded domain; unit tests only sample a handful of literals.", "anchors": ["lib/mir/src/analysis/reference_count/transformation.rs:transform", "lib/mir/src/analysis/reference_count/validation.rs:validate"]}
{"id": "C28", "title": "No use after free", "statement": "Running an instrumented function never reads, clones or drops a freed heap block.", "quantifier": "all programs, inputs and control paths", "why_tests_cant": "Memory errors depend on every path.", "anchors": ["lib/mir/src/analysis/reference_count/transformation.rs:transform"]}
{"id": "C29", "title": "No leaks", "statement": "When an instrumented function returns, every heap block not reachable from the result has been freed.", "quantifier": "all programs, inputs and control paths", "why_tests_cant": "Leaks depend on every path.", "anchors": ["lib/mir/src/analysis/reference_count/transformation.rs:transform"]}
{"id": "C30", "title": "Reference counted blocks: freed exactly once when the last handle is dropped", "statement": "For any sequence of clone, synchronise and drop on handles of one block, the block is freed exactly when the last handle is dropped and never before.", "quantifier": "all operation sequences", "why_tests_cant": "The claim ranges over an unbounded domain; unit tests only sample a handful of literals.", "anchors": ["lib/ffi/src/arc/arc_block.rs"]}
{"id": "C31", "title": "Synchronised blocks are safe under every thread interleaving", "statement": "For any interleaving of clone and drop by any number of threads on a synchronised block, it is freed exactly once, by the thread dropping the last handle, and no thread touches it afterwards.", "quantifier": "all interleavings of atomic steps", "why_tests_cant": "Interleavings cannot be enumerated by tests.", "anchors": ["lib/ffi/src/arc/arc_block.rs", "lib/mir-fmm/src/reference_count/pointer.rs"]}
{"id": "C32", "title": "In-place mutation only with a unique handle", "statement": "Mutable access to a block is granted only when exactly one handle exists, and never for static blocks.", "quantifier": "all operation sequences and interleavings", "why_tests_cant": "The claim ranges over an unbounded domain; unit tests only sample a handful of literals.", "anchors": ["lib/ffi/src/arc/arc_block.rs:get_mut", "lib/mir-fmm/src/reference_count/pointer.rs:is_unique"]}
{"id": "C33", "title": "Continuation stack is LIFO and loses no bytes on growth", "statement": "Popping returns the value most recently pushed for every sequence of pushes and pops, regardless of reallocations.", "quantifier": "all push/pop sequences, value sizes and capacities", "why_tests_cant": "The claim ranges over an unbounded domain; unit tests only sample a handful of literals.", "anchors": ["lib/ffi/src/cps/stack.rs"]}
{"id": "C34", "title": "Async stack protocol never fails under the executor", "statement": "Driving a thunk with the provided executor never reports an unexpected stack action, and every suspended future is restored exactly once in LIFO order.", "quantifier": "all sequences of suspension and completion", "why_tests_cant": "The claim ranges over an unbounded domain; unit tests only sample a handful of literals.", "anchors": ["lib/ffi/src/cps/async_stack.rs", "lib/ffi/src/future/to_closure.rs", "lib/ffi/src/future/from_closure.rs"]}
{"id": "C35", "title": "Race merges lists without loss, duplication or reordering", "statement": "The list returned by `race` contains every element of every input list exactly once, with each input list's elements in their original order, for every schedule.", "quantifier": "all schedules of producer tasks", "why_tests_cant": "Schedules cannot be enumerated by tests.", "anchors": ["packages/os/ffi/application/src/concurrency.rs:_pen_race", "packages/os-sync/concurrency.pen:_pen_race"]}
{"id": "C36", "title": "Operator precedence and associativity", "statement": "Parsing a chain of binary operations yields the unique tree with the same operand sequence in which higher-priority operators bind tighter and equal-priority operators associate to the left.", "quantifier": "all operator chains", "why_tests_cant": "The claim ranges over an unbounded domain; unit tests only sample a handful of literals.", "anchors": ["lib/parse/src/operations.rs:reduce_operations", "lib/ast/src/analysis.rs:operator_priority"]}
{"id": "C37", "title": "String literals denote what they spell", "statement": "Compiling an escaped string literal yields exactly the bytes that were escaped.", "quantifier": "all byte strings", "why_tests_cant": "The claim ranges over an unbounded domain; unit tests only sample a handful of literals.", "anchors": ["lib/ast-hir/src/string.rs:compile"]}
{"id": "C38", "title": "Formatting preserves operator structure", "statement": "Formatting a tree of binary operations and parsing it back yields the same tree.", "quantifier": "all trees of binary operations", "why_tests_cant": "The claim ranges over an unbounded domain; unit tests only sample a handful of literals.", "anchors": ["lib/format/src/lib.rs", "lib/parse/src/operations.rs"]}
{"id": "C39", "title": "Dependency order", "statement": "External packages are processed in an order consistent with their dependency edges, and a cyclic dependency is reported as an error.", "quantifier": "all dependency graphs", "why_tests_cant": "The claim ranges over an unbounded domain; unit tests only sample a handful of literals.", "anchors": ["lib/app/src/external_package_topological_sorter.rs:sort"]}
{"id": "C40", "title": "Paths: relative_to inverts join; extension replacement", "statement": "Taking a joined path relative to its base gives the joined part back; replacing an extension yields a path with that extension and the same stem.", "quantifier": "all paths and extensions", "why_tests_cant": "The claim ranges over an unbounded domain; unit tests only sample a handful of literals.", "anchors": ["lib/app/src/infra/file_path.rs"]}
{"id": "C41", "title": "JSON: decode inverts encode", "statement": "Decoding the encoding of a JSON value gives that value back.", "quantifier": "all JSON values", "why_tests_cant": "The claim ranges over an unbounded domain; unit tests only sample a handful of literals.", "anchors": ["packages/json/Encode.pen", "packages/json/Decode.pen"]}
{"id": "C42", "title": "Flag parsing", "statement": "Named flags before the first positional argument or `--` are collected into the map with the last value winning; everything after is positional in order; a flag without a value is an error.", "quantifier": "all argument lists", "why_tests_cant": "The claim ranges over an unbounded domain; unit tests only sample a handful of literals.", "anchors": ["packages/flag/Flag.pen:Parse"]}
{"id": "C43", "title": "Byte slices and views", "statement": "Byte slices and string views never read outside the string and return the requested range clamped to the string.", "quantifier": "all strings and index pairs", "why_tests_cant": "The claim ranges over an unbounded domain; unit tests only sample a handful of literals.", "anchors": ["packages/core/ffi/src/string/byte.rs", "packages/core/String/Byte/View.pen", "packages/core/ffi/src/view.rs"]}
{"id": "C44", "title": "HTML rendering is injection free", "statement": "Rendered HTML contains tag and attribute names consisting of valid characters only; text is always encoded; an invalid name is an error.", "quantifier": "all HTML trees", "why_tests_cant": "The claim ranges over an unbounded domain; unit tests only sample a handful of literals.", "anchors": ["packages/html/Render.pen", "packages/html/validate.pen"]}
{"id": "C45", "title": "External packages are kept apart", "statement": "Two external packages with different locations are stored in different directories of the output directory, and the directory name contains no path separator.", "quantifier": "all pairs of package locations", "why_tests_cant": "The claim ranges over an unbounded domain; unit tests only sample a handful of literals.", "anchors": ["lib/app/src/common/package_id_calculator.rs:calculate"]}
{"id": "C46", "title": "Delayed values are computed once", "statement": "A lazily evaluated value (a list element, or a global function without arguments) is computed at most once whichever threads force it, every force returns the result of that computation, no force faults, hangs for ever or leaks the captured values.", "quantifier": "all numbers of threads, forces and interleavings", "why_tests_cant": "The claim ranges over an unbounded domain; unit tests only sample a handful of literals.", "anchors": ["lib/mir-fmm/src/entry_function.rs:compile_initial_thunk_entry", "lib/mir-fmm/src/entry_function.rs:compile_normal_thunk_entry", "lib/mir-fmm/src/entry_function.rs:compile_locked_thunk_entry", "lib/hir-mir/src/module.rs"]}
{"id": "C47", "title": "Accepted programs do not go wrong", "statement": "When the compiler's front end accepts a module, calling any of its functions with arguments of the declared types never applies an operation to a value of a wrong representation (a missing record field, a variant that no alternative matches, an unwrapped value where a tagged one is expected), and the result, if there is one, has the declared result type.", "quantifier": "all modules, arguments, behaviours of imported functions and numbers of evaluation steps", "why_tests_cant": "The claim ranges over an unbounded domain; unit tests only sample a handful of literals.", "anchors": ["lib/hir/src/analysis.rs:analyze", "lib/hir/src/analysis/type_inferrer.rs:infer", "lib/hir/src/analysis/type_checker.rs:check", "lib/hir/src/analysis/try_operation_validator.rs:validate", "lib/hir/src/analysis/type_coercer.rs:coerce_types", "lib/hir-mir/src/expression.rs:compile"]}
{"id": "C48", "title": "Map literals: the last element wins", "statement": "Looking up a key in a map literal gives the value of the last element, a single entry or a spread map, that has the key.", "quantifier": "all map literals, keys and hash functions", "why_tests_cant": "The claim ranges over an unbounded domain; unit tests only sample a handful of literals.", "anchors": ["lib/hir-mir/src/transformation/map_literal.rs:transform_map", "packages/prelude/Map.pen:MergeMaps"]}
{"id": "C49", "title": "List literals and comprehensions", "statement": "A list literal has its single elements and those of its spread lists in order; a comprehension has one element for every combination of rows of its `for` clauses that meets the conditions, in the order of nested loops with the last clause outermost; lists of one clause advance together up to the shortest; elements are not evaluated.", "quantifier": "all literals and comprehensions over finite lists", "why_tests_cant": "The claim ranges over an unbounded domain; unit tests only sample a handful of literals.", "anchors": ["lib/hir-mir/src/transformation/list_literal.rs:transform_list", "lib/hir-mir/src/list_comprehension.rs:compile", "lib/ast-hir/src/module.rs:compile_expression", "packages/prelude/List.pen"]}
{"id": "C50", "title": "The compiler's middle end as a whole", "statement": "Every module that the front end hands over goes through all passes of the middle end without being rejected; the program that comes out, run with a heap and reference counts, gives the same results after the same calls of native code as the module run directly, never uses freed memory, and leaves no heap block behind but those of the result.", "quantifier": "all modules, entry functions, arguments, behaviours of native code and numbers of evaluation steps", "why_tests_cant": "The claim ranges over an unbounded domain; unit tests only sample a handful of literals.", "anchors": ["lib/mir-fmm/src/lib.rs:compile", "lib/mir/src/analysis"]}
{"id": "C51", "title": "Lowering preserves what programs do", "statement": "Calling a function of a module after it is translated to the intermediate language gives the representation of the value it gives in the source language, after the same calls of other modules and the system in the same order with the same arguments, and does not end if it does not end in the source language; so a module that the compiler accepts, compiled through all passes, never goes wrong, never uses freed memory and leaks nothing.", "quantifier": "all modules, functions, arguments, behaviours of imported functions and numbers of evaluation steps", "why_tests_cant": "The claim ranges over an unbounded domain; unit tests only sample a handful of literals.", "anchors": ["lib/hir-mir/src/expression.rs:compile", "lib/hir-mir/src/module.rs:compile", "lib/hir-mir/src/error_type.rs:compile_error", "lib/hir-mir/src/concrete_type.rs:compile", "lib/hir-mir/src/type_.rs:compile_concrete", "lib/mir/src/analysis/type_id.rs:calculate"]}
{"id": "C52", "title": "Comparison is structural", "statement": "`==` and `!=` result in whether the values of their operands are the same: booleans, numbers, strings, `none`, members of unions with their types, and records of this and of other modules field by field. Both operands are evaluated once, from the left to the right, and comparison has no other effects. Operands of types that cannot be compared are rejected.", "quantifier": "all modules, types, operands, values of any depth and worlds", "why_tests_cant": "The claim ranges over an unbounded domain; unit tests only sample a handful of literals.", "anchors": ["lib/hir-mir/src/transformation/equal_operation/operation.rs:transform", "lib/hir-mir/src/transformation/not_equal_operation.rs:transform", "lib/hir-mir/src/transformation/record_equal_function.rs:transform", "lib/hir/src/analysis/type_comparability_checker.rs:check"]}
{"id": "C53", "title": "Names mean what the scoping rules say", "statement": "In a module, a name refers to the innermost enclosing local variable of that name, else to the module's own definition, else to a function imported from another module (by its prefixed name, or by its bare name if the import lists it), else to a foreign function the module declares, else to a built-in of the language; types are resolved the same way. Only public definitions of other modules can be referred to, definitions of different files are never confused, and an import list with an unknown name is an error.", "quantifier": "all modules, imports, nestings of scopes and spellings of local variables", "why_tests_cant": "The claim ranges over an unbounded domain; unit tests only sample a handful of literals.", "anchors": ["lib/ast-hir/src/import.rs:compile", "lib/ast-hir/src/lib.rs:transform_module", "lib/ast-hir/src/imported_module/validation.rs:validate", "lib/hir/src/analysis/variable_transformer.rs", "lib/hir/src/analysis/type_transformer.rs", "lib/hir/src/analysis/function_definition_qualifier.rs", "lib/hir/src/analysis/type_qualifier.rs", "lib/hir/src/analysis/built_in_variable_transformer.rs", "lib/hir/src/analysis/built_in_type_transformer.rs", "lib/hir-mir/src/module_interface.rs:compile", "lib/app/src/module_compiler.rs"]}
{"id": "C54", "title": "Private fields of records stay private", "statement": "A module can construct or update records of a type that another module defines, or read their fields, only if all fields of the type have public names.", "quantifier": "all modules, imports, nestings of expressions and ways the type is imported", "why_tests_cant": "The claim ranges over an unbounded domain; unit tests only sample a handful of literals.", "anchors": ["lib/hir/src/analysis/record_field_validator.rs:validate", "lib/hir/src/analysis/expression_visitor.rs:visit", "lib/hir/src/analysis/type_existence_validator.rs:validate", "lib/ast/src/analysis.rs:is_record_open", "lib/hir-mir/src/module_interface.rs:compile"]}
{"id": "C55", "title": "Errors are not ignored silently", "statement": "When a module is accepted, a statement whose result is not given a name never results in an error, unless its type is `any`; no other statement is rejected for this reason.", "quantifier": "all modules, statements and values", "why_tests_cant": "The claim ranges over an unbounded domain; unit tests only sample a handful of literals.", "anchors": ["lib/hir/src/analysis/unused_error_validator.rs:validate", "lib/hir/src/analysis/expression_visitor.rs:visit"]}
{"id": "C56", "title": "Generated hash code respects equality", "statement": "For every comparable type the generated hash function results in a number for every value, in the same number for values that are equal by `==`, at every call, and has no effects besides calls of hash functions of the prelude and of other modules.", "quantifier": "all modules, comparable types, values of any depth and worlds", "why_tests_cant": "The claim ranges over an unbounded domain; unit tests only sample a handful of literals.", "anchors": ["lib/hir-mir/src/transformation/hash_calculation/expression.rs:transform", "lib/hir-mir/src/transformation/hash_calculation/module.rs:transform", "lib/hir-mir/src/transformation/record_hash_function.rs:transform"]}
{"id": "C57", "title": "Formatting a module does not change it", "statement": "If a source is parsed, every formatting of it, with whatever line breaks, spaces and comments, is parsed to the same module, except that imports and the names in each of them are sorted; so formatting twice is the same as formatting once, up to layout.", "quantifier": "all texts, modules of the whole syntax, and layouts", "why_tests_cant": "The claim ranges over an unbounded domain; unit tests only sample a handful of literals.", "anchors": ["lib/parse/src/parser.rs:module", "lib/parse/src/lib.rs:parse", "lib/parse/src/combinator.rs", "lib/parse/src/operations.rs:reduce_operations", "lib/format/src/lib.rs:compile_module"]}
{"id": "C58", "title": "The parser accepts only what the grammar allows", "statement": "A source that is parsed is, from beginning to end, a writing of the module it is parsed to: every token of the source is accounted for, only white space and comments are skipped, operators are grouped by priority and to the left, and everything else is rejected.", "quantifier": "all texts", "why_tests_cant": "The claim ranges over an unbounded domain; unit tests only sample a handful of literals.", "anchors": ["lib/parse/src/parser.rs:module", "lib/parse/src/lib.rs:parse", "lib/parse/src/operations.rs:reduce_operations"]}
{"id": "C59", "title": "Parsing ends", "statement": "The parser ends with a module or an error for every text, with nested calls of its nonterminals no deeper than the text is long.", "quantifier": "all texts", "why_tests_cant": "The claim ranges over an unbounded domain; unit tests only sample a handful of literals.", "anchors": ["lib/parse/src/parser.rs:module", "lib/parse/src/lib.rs:parse"]}
{"id": "C60", "title": "Values shared between threads", "statement": "Whatever a program does with values and however its threads are scheduled: memory is never used after it is freed and never freed twice, there is no data race, counts of references are right, values that two threads can get at are synchronized as a whole, a record is updated in place only while nobody else can see it, and when all references are dropped all memory is freed.", "quantifier": "all numbers of threads, all graphs of values, all schedules", "why_tests_cant": "Interleavings and graphs are unbounded; a test sees one schedule, and races show up rarely even under it.", "anchors": ["lib/mir-fmm/src/reference_count/pointer.rs:clone,drop,synchronize,is_unique", "lib/mir-fmm/src/reference_count/record.rs", "lib/mir-fmm/src/closure/drop.rs", "lib/mir-fmm/src/closure/sync.rs", "lib/mir-fmm/src/expression.rs:RecordUpdate", "lib/mir-fmm/src/entry_function.rs:compile_initial_thunk_entry"]}
{"id": "C61", "title": "Strings as sequences of characters", "statement": "Functions on strings work by characters, whatever the strings are: a string of UTF-8 has the length, prefixes, suffixes, occurrences and slices of its sequence of characters, with indices counted from one; splitting by a pattern and joining with it gives the string back, replacing puts the replacement where splitting removes the pattern, trimming removes all occurrences at an end; code points and characters correspond. None of them fails, for any numbers, and strings that are not UTF-8 are left as they are or treated as having no characters.", "quantifier": "all strings, patterns, replacements and numbers", "why_tests_cant": "The claim ranges over an unbounded domain; unit tests only sample a handful of literals.", "anchors": ["packages/core/ffi/src/string/utf8.rs", "packages/core/String/Utf8.pen", "packages/core/ffi/src/string/builder.rs", "packages/core/String.pen", "packages/core/ffi/src/character.rs"]}
{"id": "C62", "title": "Incremental builds are builds", "statement": "After any history of edits of source files, builds that were run, stopped or cleaned, and changes of package configurations, a build that succeeds makes the same archives, application and test program as a build of the same files from nothing, and it succeeds if and only if that one does; nothing stale is left in what is built.", "quantifier": "all packages, contents of files, dependencies, histories of edits and builds, and orders in which commands run", "why_tests_cant": "Histories are unbounded, and a test sees one of them; missing dependencies between files show up only in histories that touch exactly those files.", "anchors": ["lib/app/src/package_build_script_compiler.rs:compile", "lib/infra/src/ninja_build_script_compiler.rs", "lib/infra/src/ninja_build_script_dependency_compiler.rs:compile", "lib/infra/src/ninja_build_script_runner.rs:run", "lib/app/src/module_dependency_resolver.rs:resolve", "lib/app/src/module_compiler.rs", "lib/app/src/package_builder.rs"]}
{"id": "C63", "title": "Type-checked intermediate code does not go wrong", "statement": "The type checker of the intermediate representation accepts exactly the modules that follow its typing rules, and a function of an accepted module that is called with arguments of its types never applies an operation to a value of a wrong type: if it returns, the result has its result type, and native functions it calls get arguments of the types they are declared with. The same holds of what the passes after the checker make of the module.", "quantifier": "all modules, native code that keeps to its types, functions, arguments and lengths of runs", "why_tests_cant": "The claim ranges over an unbounded domain; unit tests only sample a handful of literals.", "anchors": ["lib/mir/src/analysis/type_check/mod.rs:check", "lib/mir/src/analysis/type_check/error.rs", "lib/mir-fmm/src/lib.rs:compile"]}
{"id": "C64", "title": "Every tag has its type information, and no other type's", "statement": "For every type that values of union types and of `any` are made of or matched with in a module, type information exists in the compiled module, once, with the function the module gives for it; no accepted module fails to compile for lack of it; and tags of different types differ.", "quantifier": "all modules and all types", "why_tests_cant": "The claim ranges over an unbounded domain; unit tests only sample a handful of literals.", "anchors": ["lib/mir/src/analysis/variant_type_collection.rs:collect", "lib/mir/src/analysis/type_id.rs:calculate", "lib/mir-fmm/src/type_information.rs", "lib/hir-mir/src/variant_type_collection.rs:collect", "lib/hir-mir/src/type_information.rs:collect_types"]}
{"id": "C65", "title": "Accepted modules never fail with internal type errors", "statement": "What a module that passes the checks of the language is compiled to passes the type check of the intermediate representation too, with every function the compiler adds for comparison and debug output of values of its types: no accepted module makes the compiler fail there.", "quantifier": "all modules", "why_tests_cant": "The claim ranges over an unbounded domain; unit tests only sample a handful of literals.", "anchors": ["lib/hir-mir/src/lib.rs:compile", "lib/hir-mir/src/module.rs:compile", "lib/hir-mir/src/expression.rs:compile", "lib/hir-mir/src/type_information.rs", "lib/hir-mir/src/type_information/debug.rs", "lib/hir-mir/src/type_information/equal.rs", "lib/mir/src/analysis/type_check.rs:check"]}
{"id": "C66", "title": "Reflection on values of any type", "statement": "`debug` prints, and the debug function of the reflection package returns, the text of a value: its structure with names of records and fields, whatever type it is known by; the equality function of the reflection package results in structural equality of two values, and in `none` if functions would have to be compared. The arguments are evaluated once.", "quantifier": "all modules, values of any depth and pairs of values", "why_tests_cant": "The claim ranges over an unbounded domain; unit tests only sample a handful of literals.", "anchors": ["lib/hir-mir/src/built_in_call.rs:compile", "lib/hir-mir/src/type_information.rs:compile_function", "lib/hir-mir/src/type_information/debug.rs:compile_function_definition", "lib/hir-mir/src/type_information/equal.rs:compile_function_definition", "lib/hir-mir/src/type_information/utility.rs:compile_any", "packages/reflect/Any.pen"]}
{"id": "C67", "title": "Formatting keeps comments", "statement": "Formatting a source that is parsed gives a text of the same module (see C57) that ends with a line break; every comment of the source is written exactly once, in the same order, as a comment of its own, without white space at its end; nothing else becomes a comment and no comment ends up in a string literal or hides a part of the program; what is formatted can be formatted again.", "quantifier": "all texts, positions of comments, and layouts of the whole syntax", "why_tests_cant": "The claim ranges over an unbounded domain; unit tests only sample a handful of literals.", "anchors": ["lib/format/src/lib.rs:format", "lib/format/src/context.rs:drain_comments_before", "lib/parse/src/parser.rs:comments", "lib/app/src/module_formatter.rs:format"]}
{"id": "C68", "title": "From texts to compiled modules", "statement": "Whatever the texts of the modules of a program are: if all of them are accepted, calls of their functions with values of the types of their arguments do not go wrong; every name in them stands for what the text says it stands for; what is written in them is what is compiled, literal by literal and operator by operator; private fields of records of one module are neither read nor written by another; binary and hexadecimal literals are accepted exactly below 2^64; and formatting a text does not change what it means.", "quantifier": "all texts of all modules of a program, all import graphs in dependency order, all roundings of numbers", "why_tests_cant": "The claim ranges over an unbounded domain; unit tests only sample a handful of literals.", "anchors": ["lib/ast-hir/src/lib.rs:compile", "lib/ast-hir/src/module.rs:compile", "lib/ast-hir/src/number.rs:compile", "lib/ast-hir/src/module_prefix.rs:compile", "lib/app/src/module_compiler.rs:compile"]}
{"id": "C69", "title": "Test runs report what tests do", "statement": "All public functions of test modules are run, once each, in the order of the paths of their modules and then as they are written, and they are accepted only if they take no arguments and result in `none` or an error. The report shows a test as passed exactly if its result is `none`, shows the message of every failed test, counts both, and the exit code is 0 exactly if no test failed.", "quantifier": "all programs and test modules, whatever tests do", "why_tests_cant": "The claim ranges over an unbounded domain; unit tests only sample a handful of literals.", "anchors": ["lib/hir-mir/src/test_function.rs:compile", "lib/hir-mir/src/lib.rs:compile_test", "lib/app/src/module_compiler.rs:compile_test", "lib/app/src/package_test_information_compiler.rs:compile", "lib/infra/src/test_linker.rs:link"]}
{"id": "C70", "title": "Checking a program ends", "statement": "Whatever the texts of the modules of a program are, with recursive records, cycles of type aliases, undefined names or ill-typed expressions of any depth: name resolution, type inference, the checks and the insertion of coercions end for each of them, in the analyzed module or in one error, and the outcome is determined by the texts.", "quantifier": "all texts of all modules of a program", "why_tests_cant": "The claim ranges over an unbounded domain; unit tests only sample a handful of literals.", "anchors": ["lib/hir/src/analysis.rs:analyze", "lib/hir/src/analysis/recursive_type_alias_validator.rs", "lib/hir/src/analysis/impossible_type_validator.rs", "lib/hir/src/analysis/type_canonicalizer.rs", "lib/hir/src/analysis/type_inferrer.rs", "lib/hir/src/analysis/type_checker.rs", "lib/hir/src/analysis/type_coercer.rs", "lib/hir/src/analysis/expression_visitor.rs", "lib/ast-hir/src/lib.rs:compile"]}
{"id": "C71", "title": "Documentation shows what is public", "statement": "The generated documentation of a package has an entry for every public module and, in it, for every public type and function that is not configured to be hidden, in a fixed order, and for nothing else. An entry shows the name, the comment right before the definition, and the definition of a type or the signature of a function as it can be written in the language; fields of records with private fields are not shown. Bodies of functions, private definitions and modules, and where definitions are in their files make no difference.", "quantifier": "all packages, modules, texts, comments and configurations", "why_tests_cant": "The claim ranges over an unbounded domain; unit tests only sample a handful of literals.", "anchors": ["lib/doc/src/lib.rs:generate", "lib/doc/src/markdown.rs:generate", "lib/format/src/lib.rs:format_type_definition", "lib/format/src/lib.rs:format_function_signature", "lib/app/src/package_documentation_generator.rs:generate"]}
{"id": "C72", "title": "Formatting packages", "statement": "`pen format` formats exactly the module and test module files of a package, in all directories but those whose names start with a period, and changes no other file; it succeeds if all of them can be formatted, and keeps their programs. `pen format --check` writes nothing, succeeds exactly if formatting would change none of them and lists the others; so it succeeds after formatting. Modules that are imported are among the files that are found, and different files have different module paths.", "quantifier": "all trees of directories, orders of entries, and contents of files", "why_tests_cant": "The claim ranges over an unbounded domain; unit tests only sample a handful of literals.", "anchors": ["lib/app/src/file_finder.rs:find", "lib/app/src/module_finder.rs:find", "lib/app/src/test_module_finder.rs:find", "lib/app/src/package_formatter.rs:format", "lib/app/src/package_format_checker.rs:check"]}
{"id": "C73", "title": "Numbers, 64-bit integers and ranges", "statement": "Integers below 2^64 that are numbers are converted into 64-bit integers and back without loss; conversions truncate and round to the nearest number; bitwise operations and shifts act on the bits of the integers; maximum and minimum are the greater and the smaller argument; the list of numbers from a minimum to a maximum ends and has the numbers in steps of one, each evaluated when it is reached; sums of integers are exact while they are below 2^53.", "quantifier": "all 64-bit patterns of numbers, all shift counts, minimums, maximums and lists", "why_tests_cant": "The claim ranges over an unbounded domain; unit tests only sample a handful of literals.", "anchors": ["packages/core/Bit.pen", "packages/core/ffi/src/bit.rs", "packages/core/Number.pen:Range", "packages/core/Number.pen:Sum", "packages/core/Number.pen:Maximum", "packages/core/ffi/src/number.rs"]}
{"id": "C74", "title": "Functions on lists evaluate what they need", "statement": "`Any` and `All` evaluate elements only up to the first that decides; `First` and `Last` evaluate only the element they return; `ToNumbers`, `ToStrings` and `ToBooleans` keep the elements of the type in order, evaluate each element once, in order, and no element after the next result before that result has been looked at; `Sum` evaluates every element once, in order.", "quantifier": "all finite lists, elements and effects of their evaluation", "why_tests_cant": "The claim ranges over an unbounded domain; unit tests only sample a handful of literals.", "anchors": ["packages/core/List.pen", "packages/core/Boolean.pen", "packages/core/Number.pen:Sum"]}
{"id": "C75", "title": "Assertions and states of tests", "statement": "An assertion of equality succeeds exactly if the values are the same, and otherwise its error has the texts of both; a state of a test gives what was set last, and only values that were set, whatever threads use it.", "quantifier": "all values, all histories of a state, all numbers of threads and schedules", "why_tests_cant": "The claim ranges over an unbounded domain; unit tests only sample a handful of literals.", "anchors": ["packages/test/Assert.pen", "packages/test/State.pen", "packages/test/ffi/src/lib.rs"]}
{"id": "C76", "title": "Lists and headers that cross the boundary to native code", "statement": "A sequence of native code made into a list has the same elements in order, and a list taken by native code gives its elements in order, each evaluated when it is taken and no element that is not taken; headers of requests and responses arrive with the names and values they are sent with, and every header of a map is sent once.", "quantifier": "all finite lists, numbers of elements taken, effects of evaluation, maps of headers, orders of lines and hash functions", "why_tests_cant": "The claim ranges over an unbounded domain; unit tests only sample a handful of literals.", "anchors": ["lib/ffi/src/list.rs", "lib/ffi/src/future/stream.rs", "packages/ffi/list.pen", "packages/http/Context/ffiHeaderMap.pen", "packages/http/ffi/src/client.rs", "packages/http/ffi/src/server.rs", "packages/http/ffi/src/header_map.rs"]}
{"id": "C77", "title": "Files of packages are files of the operating system", "statement": "A file of a package is the file with the same names in the directory of the package; it is never outside of it; different files are different; a file given by a path from the root or from the package is that file, and one outside is refused; the files of a directory are those of its entries; commands work on the nearest package the current directory is in; a package is created at the path that is given.", "quantifier": "all directories, paths, names and entries", "why_tests_cant": "The claim ranges over an unbounded domain; unit tests only sample a handful of literals.", "anchors": ["lib/infra/src/file_path_converter.rs", "lib/infra/src/file_system.rs", "cmd/pen/src/main_package_directory_finder.rs", "cmd/pen/src/package_creator.rs"]}
{"id": "C78", "title": "Values of native types as values of any type", "statement": "A value of a native type that becomes an `any` keeps its content, whatever is done with copies of it; it becomes a value of a native type again exactly if the type is the one it was made of; every copy is dropped exactly once, none is used afterwards, and writing to one does not change others.", "quantifier": "all histories of making, converting, copying, writing and dropping values, all types and contents", "why_tests_cant": "The claim ranges over an unbounded domain; unit tests only sample a handful of literals.", "anchors": ["lib/ffi-macro/src/any.rs", "lib/ffi/src/any.rs"]}
{"id": "C79", "title": "Reading and writing files", "statement": "Whatever a program reads from a file one after the other is its contents in order, nothing lost or read twice, however the operating system splits up or interrupts the calls; reading until a limit gives no more than the limit, and nothing only at the end; what is written is the beginning of the data, as much as the result says; a file opened for reading does not change, a new file never replaces one that exists, and a file keeps its contents unless it is to be truncated.", "quantifier": "all contents, data, limits, options, sequences of operations and behaviours of the operating system", "why_tests_cant": "The claim ranges over an unbounded domain; unit tests only sample a handful of literals.", "anchors": ["packages/os-sync/ffi/library/src/utilities.rs", "packages/os-sync/ffi/library/src/open_file_options.rs", "packages/os-sync/ffi/library/src/file.rs", "packages/os-sync/File.pen"]}
{"id": "C80", "title": "The start of a program", "statement": "A program that starts makes the context of every package it depends on once, and then calls its main function once with all of them by the names of the packages, and does nothing else; it is refused if it has no main function or a package does not export a context.", "quantifier": "all programs, packages, interfaces, effects of functions and orders of hash tables", "why_tests_cant": "The claim ranges over an unbounded domain; unit tests only sample a handful of literals.", "anchors": ["lib/hir-mir/src/main_function.rs", "lib/app/src/module_compiler/main_module_configuration_qualifier.rs", "lib/hir-mir/src/main_module_configuration.rs"]}
{"id": "C81", "title": "Conditionals on lists and maps", "statement": "A conditional on a list looks at its node once, and has its first element, which is evaluated only when it is used, and the rest in its first branch; a conditional on a map evaluates the map and then the key, and has the value of the key in its first branch; the other branches see the variables outside.", "quantifier": "all expressions with nested conditionals, environments, lists, maps and effects", "why_tests_cant": "The claim ranges over an unbounded domain; unit tests only sample a handful of literals.", "anchors": ["lib/hir-mir/src/transformation/if_list.rs", "lib/hir-mir/src/transformation/if_map.rs"]}
