#!/usr/bin/env python3
"""Regenerates properties.jsonl from the table below (single source of truth)."""
import json
P=[]
def p(id,title,statement,quantifier,why,anchors):
    P.append(dict(id=id,title=title,statement=statement,quantifier=quantifier,why_tests_cant=why,anchors=anchors))

UNB="The claim ranges over an unbounded domain; unit tests only sample a handful of literals."
# ---------------------------------------------------------------- HIR types
p("C01","Canonicalisation is idempotent and alias-transparent","Canonicalising a type twice gives the same result as once; the canonical form contains no alias references, no duplicate union members and no union that mixes `any` with other members.","every type and every alias table",UNB,["lib/hir/src/analysis/type_canonicalizer.rs:canonicalize"])
p("C02","Type equality ignores union order, nesting, duplicates and aliases","The type equality check is an equivalence relation, and a union type is equal to any re-association, permutation or duplication of its members, also through aliases.","all types, all alias tables, all re-arrangements",UNB,["lib/hir/src/analysis/type_equality_checker.rs:check"])
p("C03","Subsumption is a partial order with `any` on top","The assignability check is reflexive and transitive, antisymmetric up to type equality, every type is assignable to `any`, and it agrees with inclusion of union members.","all pairs/triples of types",UNB,["lib/hir/src/analysis/type_subsumption_checker.rs:check"])
p("C04","Union is the least upper bound","Both operands of a union are assignable to it, and it is assignable to every type that both operands are assignable to.","all types",UNB,["lib/hir/src/analysis/type_subsumption_checker.rs:check","lib/hir/src/types/union.rs"])
p("C05","The type left for an else branch is the exact complement","The difference between an argument type and the types already handled contains exactly the union members of the argument which are not handled, and is absent exactly when everything is handled.","all pairs of types",UNB,["lib/hir/src/analysis/type_difference_calculator.rs:calculate"])
p("C06","Type identity strings are injective","Two types get the same runtime identity string only if they are equal types, so that distinct variant types never share type information.","all pairs of types",UNB,["lib/hir/src/analysis/type_id_calculator.rs:calculate_canonical_string"])
p("C07","Accepted alias definitions always resolve","If a module's aliases are accepted by the recursive alias check and all references exist, canonicalisation of every type in the module terminates successfully.","all alias graphs and types","Termination for every graph is not testable.",["lib/hir/src/analysis/recursive_type_alias_validator.rs:validate","lib/hir/src/analysis/type_canonicalizer.rs:canonicalize"])
p("C08","Comparability means no function, error or any inside","A type is accepted for `==` and as a map key exactly when no `any`, `error` or function type is reachable through its list, map, union, alias and record-field structure.","all types and (possibly recursive) record tables",UNB,["lib/hir/src/analysis/type_comparability_checker.rs:check"])
p("C09","Impossible record detection is sound and complete","A record definition is rejected as impossible only if no finite value of it exists, and accepted only if one exists.","all sets of record definitions",UNB,["lib/hir/src/analysis/impossible_type_validator.rs:validate"])
# ---------------------------------------------------------------- Prelude collections
p("C10","Maps: get after set","Looking a key up in a map right after setting it yields the value just set.","all maps built by any history of operations, all keys and values","Depends on every hash-collision pattern.",["packages/prelude/Map.pen:GetMap,SetMap"])
p("C11","Maps: set leaves other keys alone","Setting one key does not change the result of looking any other key up.","all maps, all pairs of distinct keys","Depends on every hash-collision pattern.",["packages/prelude/Map.pen:SetMap"])
p("C12","Maps: delete removes exactly one key","After deleting a key it is absent, and every other key keeps its value.","all maps built by any history, all keys","Depends on every hash-collision pattern.",["packages/prelude/Map.pen:DeleteMap,normalizeHamt"])
p("C13","Maps: size counts the distinct keys","The size of a map equals the number of distinct keys it holds.","all histories of map operations",UNB,["packages/prelude/Map.pen:MapSize,SetMap,DeleteMap"])
p("C14","Maps: iteration visits every entry exactly once","Iterating a map yields every key/value pair of it exactly once and nothing else.","all maps",UNB,["packages/prelude/Map.pen:IterateMap"])
p("C15","Maps: merge is right-biased union","Merging two maps yields a map whose lookup is the second map's where defined, otherwise the first's.","all pairs of maps",UNB,["packages/prelude/Map.pen:MergeMaps"])
p("C16","Maps: equality is extensional","Two maps compare equal exactly when they hold the same keys with equal values, whatever the histories that built them.","all pairs of histories",UNB,["packages/prelude/Map.pen:EqualMaps"])
p("C17","Maps: every operation terminates","Setting a key terminates for every two keys, including keys with equal hashes.","all keys and hash functions","A diverging case cannot be sampled by a finite test.",["packages/prelude/Map.pen:setKeyValue","packages/prelude/ffi/src/lib.rs:_pen_prelude_hash_to_index"])
p("C18","Lists: concatenation, size and equality are those of finite sequences","For finite lists, prepend, concatenation, first/rest, size and equality agree with the mathematical sequence, and elements stay lazily unevaluated until forced.","all finite lists",UNB,["packages/prelude/List.pen"])
p("C19","Equal values have equal hashes","Whenever two keys are equal their hashes are equal, and looking up either finds the same entry.","all comparable types and pairs of values",UNB,["lib/hir-mir/src/transformation/hash_calculation/expression.rs","packages/prelude/List.pen:HashList","packages/prelude/Map.pen:HashMap"])
# ---------------------------------------------------------------- MIR passes
p("C20","Only free variables matter","The result of an expression depends only on the values of the variables reported as free in it.","all expressions and environments",UNB,["lib/mir/src/analysis/free_variable.rs:find_free_variables"])
p("C21","String concatenation flattening preserves results","Flattening nested string concatenations does not change the result of any expression.","all expressions and environments",UNB,["lib/mir/src/analysis/optimization/string_concatenation.rs:transform"])
p("C22","Renaming preserves results","Alpha conversion does not change the result of any function body and leaves no two binders with the same name.","all expressions and environments",UNB,["lib/mir/src/analysis/alpha_conversion.rs:transform"])
p("C23","Normalisation preserves results and evaluation order","For every program in which bound names are distinct from each other and from free names, normalisation (with its removal of aliases) does not change results, foreign calls or their order, and its result is in A-normal form.","all hygienic programs, worlds, fuels, functions and arguments",UNB,["lib/mir/src/analysis/normalization.rs:transform"])
p("C24","Alias removal preserves results","Replacing a variable that is bound to another variable by that variable does not change the result of any accepted program.","all expressions and environments",UNB,["lib/mir/src/analysis/normalization/alias_removal.rs:transform"])
p("C25","Closures capture exactly what they need","The inferred environment of every local function contains all local variables its body can read, and evaluation with only the captured variables gives the same result.","all expressions and environments",UNB,["lib/mir/src/analysis/environment_inference.rs:transform"])
p("C26","Lambda lifting preserves results","Lifting local functions to global functions does not change the result of any expression.","all expressions and environments",UNB,["lib/mir/src/analysis/lambda_lifting.rs:transform"])
p("C27","Reference counting instrumentation is balanced","Every expression instrumented by the compiler passes the compiler's own balance validation: on every control path every owned variable is consumed exactly once.","all well-scoped expressions",UNB,["lib/mir/src/analysis/reference_count/transformation.rs:transform","lib/mir/src/analysis/reference_count/validation.rs:validate"])
p("C28","No use after free","Running an instrumented function never reads, clones or drops a freed heap block.","all programs, inputs and control paths","Memory errors depend on every path.",["lib/mir/src/analysis/reference_count/transformation.rs:transform"])
p("C29","No leaks","When an instrumented function returns, every heap block not reachable from the result has been freed.","all programs, inputs and control paths","Leaks depend on every path.",["lib/mir/src/analysis/reference_count/transformation.rs:transform"])
# ---------------------------------------------------------------- Runtime
p("C30","Reference counted blocks: freed exactly once when the last handle is dropped","For any sequence of clone, synchronise and drop on handles of one block, the block is freed exactly when the last handle is dropped and never before.","all operation sequences",UNB,["lib/ffi/src/arc/arc_block.rs"])
p("C31","Synchronised blocks are safe under every thread interleaving","For any interleaving of clone and drop by any number of threads on a synchronised block, it is freed exactly once, by the thread dropping the last handle, and no thread touches it afterwards.","all interleavings of atomic steps","Interleavings cannot be enumerated by tests.",["lib/ffi/src/arc/arc_block.rs","lib/mir-fmm/src/reference_count/pointer.rs"])
p("C32","In-place mutation only with a unique handle","Mutable access to a block is granted only when exactly one handle exists, and never for static blocks.","all operation sequences and interleavings",UNB,["lib/ffi/src/arc/arc_block.rs:get_mut","lib/mir-fmm/src/reference_count/pointer.rs:is_unique"])
p("C33","Continuation stack is LIFO and loses no bytes on growth","Popping returns the value most recently pushed for every sequence of pushes and pops, regardless of reallocations.","all push/pop sequences, value sizes and capacities",UNB,["lib/ffi/src/cps/stack.rs"])
p("C34","Async stack protocol never fails under the executor","Driving a thunk with the provided executor never reports an unexpected stack action, and every suspended future is restored exactly once in LIFO order.","all sequences of suspension and completion",UNB,["lib/ffi/src/cps/async_stack.rs","lib/ffi/src/future/to_closure.rs","lib/ffi/src/future/from_closure.rs"])
p("C35","Race merges lists without loss, duplication or reordering","The list returned by `race` contains every element of every input list exactly once, with each input list's elements in their original order, for every schedule.","all schedules of producer tasks","Schedules cannot be enumerated by tests.",["packages/os/ffi/application/src/concurrency.rs:_pen_race","packages/os-sync/concurrency.pen:_pen_race"])
# ---------------------------------------------------------------- Front end
p("C36","Operator precedence and associativity","Parsing a chain of binary operations yields the unique tree with the same operand sequence in which higher-priority operators bind tighter and equal-priority operators associate to the left.","all operator chains",UNB,["lib/parse/src/operations.rs:reduce_operations","lib/ast/src/analysis.rs:operator_priority"])
p("C37","String literals denote what they spell","Compiling an escaped string literal yields exactly the bytes that were escaped.","all byte strings",UNB,["lib/ast-hir/src/string.rs:compile"])
p("C38","Formatting preserves operator structure","Formatting a tree of binary operations and parsing it back yields the same tree.","all trees of binary operations",UNB,["lib/format/src/lib.rs","lib/parse/src/operations.rs"])
# ---------------------------------------------------------------- App
p("C39","Dependency order","External packages are processed in an order consistent with their dependency edges, and a cyclic dependency is reported as an error.","all dependency graphs",UNB,["lib/app/src/external_package_topological_sorter.rs:sort"])
p("C40","Paths: relative_to inverts join; extension replacement","Taking a joined path relative to its base gives the joined part back; replacing an extension yields a path with that extension and the same stem.","all paths and extensions",UNB,["lib/app/src/infra/file_path.rs"])
# ---------------------------------------------------------------- Packages
p("C41","JSON: decode inverts encode","Decoding the encoding of a JSON value gives that value back.","all JSON values",UNB,["packages/json/Encode.pen","packages/json/Decode.pen"])
p("C42","Flag parsing","Named flags before the first positional argument or `--` are collected into the map with the last value winning; everything after is positional in order; a flag without a value is an error.","all argument lists",UNB,["packages/flag/Flag.pen:Parse"])
p("C43","Byte slices and views","Byte slices and string views never read outside the string and return the requested range clamped to the string.","all strings and index pairs",UNB,["packages/core/ffi/src/string/byte.rs","packages/core/String/Byte/View.pen","packages/core/ffi/src/view.rs"])
p("C44","HTML rendering is injection free","Rendered HTML contains tag and attribute names consisting of valid characters only; text is always encoded; an invalid name is an error.","all HTML trees",UNB,["packages/html/Render.pen","packages/html/validate.pen"])
p("C45","External packages are kept apart","Two external packages with different locations are stored in different directories of the output directory, and the directory name contains no path separator.","all pairs of package locations",UNB,["lib/app/src/common/package_id_calculator.rs:calculate"])
p("C46","Delayed values are computed once","A lazily evaluated value (a list element, or a global function without arguments) is computed at most once whichever threads force it, every force returns the result of that computation, no force faults, hangs for ever or leaks the captured values.","all numbers of threads, forces and interleavings",UNB,["lib/mir-fmm/src/entry_function.rs:compile_initial_thunk_entry","lib/mir-fmm/src/entry_function.rs:compile_normal_thunk_entry","lib/mir-fmm/src/entry_function.rs:compile_locked_thunk_entry","lib/hir-mir/src/module.rs"])
p("C47","Accepted programs do not go wrong","When the compiler's front end accepts a module, calling any of its functions with arguments of the declared types never applies an operation to a value of a wrong representation (a missing record field, a variant that no alternative matches, an unwrapped value where a tagged one is expected), and the result, if there is one, has the declared result type.","all modules, arguments, behaviours of imported functions and numbers of evaluation steps",UNB,["lib/hir/src/analysis.rs:analyze","lib/hir/src/analysis/type_inferrer.rs:infer","lib/hir/src/analysis/type_checker.rs:check","lib/hir/src/analysis/try_operation_validator.rs:validate","lib/hir/src/analysis/type_coercer.rs:coerce_types","lib/hir-mir/src/expression.rs:compile"])
p("C48","Map literals: the last element wins","Looking up a key in a map literal gives the value of the last element, a single entry or a spread map, that has the key.","all map literals, keys and hash functions",UNB,["lib/hir-mir/src/transformation/map_literal.rs:transform_map","packages/prelude/Map.pen:MergeMaps"])
p("C49","List literals and comprehensions","A list literal has its single elements and those of its spread lists in order; a comprehension has one element for every combination of rows of its `for` clauses that meets the conditions, in the order of nested loops with the last clause outermost; lists of one clause advance together up to the shortest; elements are not evaluated.","all literals and comprehensions over finite lists",UNB,["lib/hir-mir/src/transformation/list_literal.rs:transform_list","lib/hir-mir/src/list_comprehension.rs:compile","lib/ast-hir/src/module.rs:compile_expression","packages/prelude/List.pen"])
p("C50","The compiler's middle end as a whole","Every module that the front end hands over goes through all passes of the middle end without being rejected; the program that comes out, run with a heap and reference counts, gives the same results after the same calls of native code as the module run directly, never uses freed memory, and leaves no heap block behind but those of the result.","all modules, entry functions, arguments, behaviours of native code and numbers of evaluation steps",UNB,["lib/mir-fmm/src/lib.rs:compile","lib/mir/src/analysis"])
p("C51","Lowering preserves what programs do","Calling a function of a module after it is translated to the intermediate language gives the representation of the value it gives in the source language, after the same calls of other modules and the system in the same order with the same arguments, and does not end if it does not end in the source language; so a module that the compiler accepts, compiled through all passes, never goes wrong, never uses freed memory and leaks nothing.","all modules, functions, arguments, behaviours of imported functions and numbers of evaluation steps",UNB,["lib/hir-mir/src/expression.rs:compile","lib/hir-mir/src/module.rs:compile","lib/hir-mir/src/error_type.rs:compile_error","lib/hir-mir/src/concrete_type.rs:compile","lib/hir-mir/src/type_.rs:compile_concrete","lib/mir/src/analysis/type_id.rs:calculate"])
p("C52","Comparison is structural","`==` and `!=` result in whether the values of their operands are the same: booleans, numbers, strings, `none`, members of unions with their types, and records of this and of other modules field by field. Both operands are evaluated once, from the left to the right, and comparison has no other effects. Operands of types that cannot be compared are rejected.","all modules, types, operands, values of any depth and worlds",UNB,["lib/hir-mir/src/transformation/equal_operation/operation.rs:transform","lib/hir-mir/src/transformation/not_equal_operation.rs:transform","lib/hir-mir/src/transformation/record_equal_function.rs:transform","lib/hir/src/analysis/type_comparability_checker.rs:check"])
p("C53","Names mean what the scoping rules say","In a module, a name refers to the innermost enclosing local variable of that name, else to the module's own definition, else to a function imported from another module (by its prefixed name, or by its bare name if the import lists it), else to a foreign function the module declares, else to a built-in of the language; types are resolved the same way. Only public definitions of other modules can be referred to, definitions of different files are never confused, and an import list with an unknown name is an error.","all modules, imports, nestings of scopes and spellings of local variables",UNB,["lib/ast-hir/src/import.rs:compile","lib/ast-hir/src/lib.rs:transform_module","lib/ast-hir/src/imported_module/validation.rs:validate","lib/hir/src/analysis/variable_transformer.rs","lib/hir/src/analysis/type_transformer.rs","lib/hir/src/analysis/function_definition_qualifier.rs","lib/hir/src/analysis/type_qualifier.rs","lib/hir/src/analysis/built_in_variable_transformer.rs","lib/hir/src/analysis/built_in_type_transformer.rs","lib/hir-mir/src/module_interface.rs:compile","lib/app/src/module_compiler.rs"])
p("C54","Private fields of records stay private","A module can construct or update records of a type that another module defines, or read their fields, only if all fields of the type have public names.","all modules, imports, nestings of expressions and ways the type is imported",UNB,["lib/hir/src/analysis/record_field_validator.rs:validate","lib/hir/src/analysis/expression_visitor.rs:visit","lib/hir/src/analysis/type_existence_validator.rs:validate","lib/ast/src/analysis.rs:is_record_open","lib/hir-mir/src/module_interface.rs:compile"])
p("C55","Errors are not ignored silently","When a module is accepted, a statement whose result is not given a name never results in an error, unless its type is `any`; no other statement is rejected for this reason.","all modules, statements and values",UNB,["lib/hir/src/analysis/unused_error_validator.rs:validate","lib/hir/src/analysis/expression_visitor.rs:visit"])
p("C56","Generated hash code respects equality","For every comparable type the generated hash function results in a number for every value, in the same number for values that are equal by `==`, at every call, and has no effects besides calls of hash functions of the prelude and of other modules.","all modules, comparable types, values of any depth and worlds",UNB,["lib/hir-mir/src/transformation/hash_calculation/expression.rs:transform","lib/hir-mir/src/transformation/hash_calculation/module.rs:transform","lib/hir-mir/src/transformation/record_hash_function.rs:transform"])
p("C57","Formatting a module does not change it","If a source is parsed, every formatting of it, with whatever line breaks, spaces and comments, is parsed to the same module, except that imports and the names in each of them are sorted; so formatting twice is the same as formatting once, up to layout.","all texts, modules of the whole syntax, and layouts",UNB,["lib/parse/src/parser.rs:module","lib/parse/src/lib.rs:parse","lib/parse/src/combinator.rs","lib/parse/src/operations.rs:reduce_operations","lib/format/src/lib.rs:compile_module"])
p("C58","The parser accepts only what the grammar allows","A source that is parsed is, from beginning to end, a writing of the module it is parsed to: every token of the source is accounted for, only white space and comments are skipped, operators are grouped by priority and to the left, and everything else is rejected.","all texts",UNB,["lib/parse/src/parser.rs:module","lib/parse/src/lib.rs:parse","lib/parse/src/operations.rs:reduce_operations"])
p("C59","Parsing ends","The parser ends with a module or an error for every text, with nested calls of its nonterminals no deeper than the text is long.","all texts",UNB,["lib/parse/src/parser.rs:module","lib/parse/src/lib.rs:parse"])
p("C60","Values shared between threads","Whatever a program does with values and however its threads are scheduled: memory is never used after it is freed and never freed twice, there is no data race, counts of references are right, values that two threads can get at are synchronized as a whole, a record is updated in place only while nobody else can see it, and when all references are dropped all memory is freed.","all numbers of threads, all graphs of values, all schedules","Interleavings and graphs are unbounded; a test sees one schedule, and races show up rarely even under it.",["lib/mir-fmm/src/reference_count/pointer.rs:clone,drop,synchronize,is_unique","lib/mir-fmm/src/reference_count/record.rs","lib/mir-fmm/src/closure/drop.rs","lib/mir-fmm/src/closure/sync.rs","lib/mir-fmm/src/expression.rs:RecordUpdate","lib/mir-fmm/src/entry_function.rs:compile_initial_thunk_entry"])
p("C61","Strings as sequences of characters","Functions on strings work by characters, whatever the strings are: a string of UTF-8 has the length, prefixes, suffixes, occurrences and slices of its sequence of characters, with indices counted from one; splitting by a pattern and joining with it gives the string back, replacing puts the replacement where splitting removes the pattern, trimming removes all occurrences at an end; code points and characters correspond. None of them fails, for any numbers, and strings that are not UTF-8 are left as they are or treated as having no characters.","all strings, patterns, replacements and numbers",UNB,["packages/core/ffi/src/string/utf8.rs","packages/core/String/Utf8.pen","packages/core/ffi/src/string/builder.rs","packages/core/String.pen","packages/core/ffi/src/character.rs"])
p("C62","Incremental builds are builds","After any history of edits of source files, builds that were run, stopped or cleaned, and changes of package configurations, a build that succeeds makes the same archives, application and test program as a build of the same files from nothing, and it succeeds if and only if that one does; nothing stale is left in what is built.","all packages, contents of files, dependencies, histories of edits and builds, and orders in which commands run","Histories are unbounded, and a test sees one of them; missing dependencies between files show up only in histories that touch exactly those files.",["lib/app/src/package_build_script_compiler.rs:compile","lib/infra/src/ninja_build_script_compiler.rs","lib/infra/src/ninja_build_script_dependency_compiler.rs:compile","lib/infra/src/ninja_build_script_runner.rs:run","lib/app/src/module_dependency_resolver.rs:resolve","lib/app/src/module_compiler.rs","lib/app/src/package_builder.rs"])
p("C63","Type-checked intermediate code does not go wrong","The type checker of the intermediate representation accepts exactly the modules that follow its typing rules, and a function of an accepted module that is called with arguments of its types never applies an operation to a value of a wrong type: if it returns, the result has its result type, and native functions it calls get arguments of the types they are declared with. The same holds of what the passes after the checker make of the module.","all modules, native code that keeps to its types, functions, arguments and lengths of runs",UNB,["lib/mir/src/analysis/type_check/mod.rs:check","lib/mir/src/analysis/type_check/error.rs","lib/mir-fmm/src/lib.rs:compile"])
p("C64","Every tag has its type information, and no other type's","For every type that values of union types and of `any` are made of or matched with in a module, type information exists in the compiled module, once, with the function the module gives for it; no accepted module fails to compile for lack of it; and tags of different types differ.","all modules and all types",UNB,["lib/mir/src/analysis/variant_type_collection.rs:collect","lib/mir/src/analysis/type_id.rs:calculate","lib/mir-fmm/src/type_information.rs","lib/hir-mir/src/variant_type_collection.rs:collect","lib/hir-mir/src/type_information.rs:collect_types"])
p("C65","Accepted modules never fail with internal type errors","What a module that passes the checks of the language is compiled to passes the type check of the intermediate representation too, with every function the compiler adds for comparison and debug output of values of its types: no accepted module makes the compiler fail there.","all modules",UNB,["lib/hir-mir/src/lib.rs:compile","lib/hir-mir/src/module.rs:compile","lib/hir-mir/src/expression.rs:compile","lib/hir-mir/src/type_information.rs","lib/hir-mir/src/type_information/debug.rs","lib/hir-mir/src/type_information/equal.rs","lib/mir/src/analysis/type_check.rs:check"])
p("C66","Reflection on values of any type","`debug` prints, and the debug function of the reflection package returns, the text of a value: its structure with names of records and fields, whatever type it is known by; the equality function of the reflection package results in structural equality of two values, and in `none` if functions would have to be compared. The arguments are evaluated once.","all modules, values of any depth and pairs of values",UNB,["lib/hir-mir/src/built_in_call.rs:compile","lib/hir-mir/src/type_information.rs:compile_function","lib/hir-mir/src/type_information/debug.rs:compile_function_definition","lib/hir-mir/src/type_information/equal.rs:compile_function_definition","lib/hir-mir/src/type_information/utility.rs:compile_any","packages/reflect/Any.pen"])
p("C67","Formatting keeps comments","Formatting a source that is parsed gives a text of the same module (see C57) that ends with a line break; every comment of the source is written exactly once, in the same order, as a comment of its own, without white space at its end; nothing else becomes a comment and no comment ends up in a string literal or hides a part of the program; what is formatted can be formatted again.","all texts, positions of comments, and layouts of the whole syntax",UNB,["lib/format/src/lib.rs:format","lib/format/src/context.rs:drain_comments_before","lib/parse/src/parser.rs:comments","lib/app/src/module_formatter.rs:format"])
p("C68","From texts to compiled modules","Whatever the texts of the modules of a program are: if all of them are accepted, calls of their functions with values of the types of their arguments do not go wrong; every name in them stands for what the text says it stands for; what is written in them is what is compiled, literal by literal and operator by operator; private fields of records of one module are neither read nor written by another; binary and hexadecimal literals are accepted exactly below 2^64; and formatting a text does not change what it means.","all texts of all modules of a program, all import graphs in dependency order, all roundings of numbers",UNB,["lib/ast-hir/src/lib.rs:compile","lib/ast-hir/src/module.rs:compile","lib/ast-hir/src/number.rs:compile","lib/ast-hir/src/module_prefix.rs:compile","lib/app/src/module_compiler.rs:compile"])
p("C69","Test runs report what tests do","All public functions of test modules are run, once each, in the order of the paths of their modules and then as they are written, and they are accepted only if they take no arguments and result in `none` or an error. The report shows a test as passed exactly if its result is `none`, shows the message of every failed test, counts both, and the exit code is 0 exactly if no test failed.","all programs and test modules, whatever tests do",UNB,["lib/hir-mir/src/test_function.rs:compile","lib/hir-mir/src/lib.rs:compile_test","lib/app/src/module_compiler.rs:compile_test","lib/app/src/package_test_information_compiler.rs:compile","lib/infra/src/test_linker.rs:link"])
p("C70","Checking a program ends","Whatever the texts of the modules of a program are, with recursive records, cycles of type aliases, undefined names or ill-typed expressions of any depth: name resolution, type inference, the checks and the insertion of coercions end for each of them, in the analyzed module or in one error, and the outcome is determined by the texts.","all texts of all modules of a program",UNB,["lib/hir/src/analysis.rs:analyze","lib/hir/src/analysis/recursive_type_alias_validator.rs","lib/hir/src/analysis/impossible_type_validator.rs","lib/hir/src/analysis/type_canonicalizer.rs","lib/hir/src/analysis/type_inferrer.rs","lib/hir/src/analysis/type_checker.rs","lib/hir/src/analysis/type_coercer.rs","lib/hir/src/analysis/expression_visitor.rs","lib/ast-hir/src/lib.rs:compile"])
p("C71","Documentation shows what is public","The generated documentation of a package has an entry for every public module and, in it, for every public type and function that is not configured to be hidden, in a fixed order, and for nothing else. An entry shows the name, the comment right before the definition, and the definition of a type or the signature of a function as it can be written in the language; fields of records with private fields are not shown. Bodies of functions, private definitions and modules, and where definitions are in their files make no difference.","all packages, modules, texts, comments and configurations",UNB,["lib/doc/src/lib.rs:generate","lib/doc/src/markdown.rs:generate","lib/format/src/lib.rs:format_type_definition","lib/format/src/lib.rs:format_function_signature","lib/app/src/package_documentation_generator.rs:generate"])
p("C72","Formatting packages","`pen format` formats exactly the module and test module files of a package, in all directories but those whose names start with a period, and changes no other file; it succeeds if all of them can be formatted, and keeps their programs. `pen format --check` writes nothing, succeeds exactly if formatting would change none of them and lists the others; so it succeeds after formatting. Modules that are imported are among the files that are found, and different files have different module paths.","all trees of directories, orders of entries, and contents of files",UNB,["lib/app/src/file_finder.rs:find","lib/app/src/module_finder.rs:find","lib/app/src/test_module_finder.rs:find","lib/app/src/package_formatter.rs:format","lib/app/src/package_format_checker.rs:check"])
p("C73","Numbers, 64-bit integers and ranges","Integers below 2^64 that are numbers are converted into 64-bit integers and back without loss; conversions truncate and round to the nearest number; bitwise operations and shifts act on the bits of the integers; maximum and minimum are the greater and the smaller argument; the list of numbers from a minimum to a maximum ends and has the numbers in steps of one, each evaluated when it is reached; sums of integers are exact while they are below 2^53.","all 64-bit patterns of numbers, all shift counts, minimums, maximums and lists",UNB,["packages/core/Bit.pen","packages/core/ffi/src/bit.rs","packages/core/Number.pen:Range","packages/core/Number.pen:Sum","packages/core/Number.pen:Maximum","packages/core/ffi/src/number.rs"])
p("C74","Functions on lists evaluate what they need","`Any` and `All` evaluate elements only up to the first that decides; `First` and `Last` evaluate only the element they return; `ToNumbers`, `ToStrings` and `ToBooleans` keep the elements of the type in order, evaluate each element once, in order, and no element after the next result before that result has been looked at; `Sum` evaluates every element once, in order.","all finite lists, elements and effects of their evaluation",UNB,["packages/core/List.pen","packages/core/Boolean.pen","packages/core/Number.pen:Sum"])
p("C75","Assertions and states of tests","An assertion of equality succeeds exactly if the values are the same, and otherwise its error has the texts of both; a state of a test gives what was set last, and only values that were set, whatever threads use it.","all values, all histories of a state, all numbers of threads and schedules",UNB,["packages/test/Assert.pen","packages/test/State.pen","packages/test/ffi/src/lib.rs"])
p("C76","Lists and headers that cross the boundary to native code","A sequence of native code made into a list has the same elements in order, and a list taken by native code gives its elements in order, each evaluated when it is taken and no element that is not taken; headers of requests and responses arrive with the names and values they are sent with, and every header of a map is sent once.","all finite lists, numbers of elements taken, effects of evaluation, maps of headers, orders of lines and hash functions",UNB,["lib/ffi/src/list.rs","lib/ffi/src/future/stream.rs","packages/ffi/list.pen","packages/http/Context/ffiHeaderMap.pen","packages/http/ffi/src/client.rs","packages/http/ffi/src/server.rs","packages/http/ffi/src/header_map.rs"])
p("C77","Files of packages are files of the operating system","A file of a package is the file with the same names in the directory of the package; it is never outside of it; different files are different; a file given by a path from the root or from the package is that file, and one outside is refused; the files of a directory are those of its entries; commands work on the nearest package the current directory is in; a package is created at the path that is given.","all directories, paths, names and entries",UNB,["lib/infra/src/file_path_converter.rs","lib/infra/src/file_system.rs","cmd/pen/src/main_package_directory_finder.rs","cmd/pen/src/package_creator.rs"])
p("C78","Values of native types as values of any type","A value of a native type that becomes an `any` keeps its content, whatever is done with copies of it; it becomes a value of a native type again exactly if the type is the one it was made of; every copy is dropped exactly once, none is used afterwards, and writing to one does not change others.","all histories of making, converting, copying, writing and dropping values, all types and contents",UNB,["lib/ffi-macro/src/any.rs","lib/ffi/src/any.rs"])
p("C79","Reading and writing files","Whatever a program reads from a file one after the other is its contents in order, nothing lost or read twice, however the operating system splits up or interrupts the calls; reading until a limit gives no more than the limit, and nothing only at the end; what is written is the beginning of the data, as much as the result says; a file opened for reading does not change, a new file never replaces one that exists, and a file keeps its contents unless it is to be truncated.","all contents, data, limits, options, sequences of operations and behaviours of the operating system",UNB,["packages/os-sync/ffi/library/src/utilities.rs","packages/os-sync/ffi/library/src/open_file_options.rs","packages/os-sync/ffi/library/src/file.rs","packages/os-sync/File.pen"])
p("C80","The start of a program","A program that starts makes the context of every package it depends on once, and then calls its main function once with all of them by the names of the packages, and does nothing else; it is refused if it has no main function or a package does not export a context.","all programs, packages, interfaces, effects of functions and orders of hash tables",UNB,["lib/hir-mir/src/main_function.rs","lib/app/src/module_compiler/main_module_configuration_qualifier.rs","lib/hir-mir/src/main_module_configuration.rs"])
p("C81","Conditionals on lists and maps","A conditional on a list looks at its node once, and has its first element, which is evaluated only when it is used, and the rest in its first branch; a conditional on a map evaluates the map and then the key, and has the value of the key in its first branch; the other branches see the variables outside.","all expressions with nested conditionals, environments, lists, maps and effects",UNB,["lib/hir-mir/src/transformation/if_list.rs","lib/hir-mir/src/transformation/if_map.rs"])
with open('/verif/properties.jsonl','w') as f:
    for x in P: f.write(json.dumps(x,ensure_ascii=False)+"\n")
print(len(P))
