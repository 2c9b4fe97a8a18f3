# Formal model of Cordy (alcatrazEscapee/Cordy) in Lean 4

Source paths are relative to `/repo/cordy-sys/src` unless stated.  Every model definition carries a comment `models: file:lines`,
with the simplifications made there.

## Layout

* `lean/Verif/Model/*.lean`: models of the code, function by function.
* `lean/Verif/Spec/*.lean`, or a section *Specification* at the head of a property file: the small, independent specifications that the
  property theorems are stated against.
* `lean/Verif/Lemmas/*.lean`: helper lemmas.
* `lean/Verif/Props/*.lean`: the property theorems, named `Cnn_...`, each file with `example`s that meet the hypotheses.
* `properties.jsonl`, `MANIFEST.json` (made by `mkmanifest.py` from the theorem names and `notes.json`), `seeded/` (wrong programs: `seed.py`
  applies edits to a scratch copy and rebuilds, `LOG.jsonl` is its log).

A property is *partial* in the manifest where the code itself does not have it: there is a theorem `Cnn_violation_...` with a witness, and
the theorems with the suffix `_partial` prove it under the weakest convenient condition that excludes the violations.  The English
statement in `properties.jsonl` stays the full one.

## Trusted base

* Lean 4.33.0's kernel.  Axioms: only Lean's own `propext`, `Classical.choice`, `Quot.sound` (see *Axioms*); no `sorryAx`, no
  `Lean.ofReduceBool`.
* The reading of the Rust code.  The model is written by hand; nothing ties it mechanically to the source.
* The semantics of Rust in the release profile: `i64`/`u32` arithmetic wraps (`Cargo.toml` sets no `overflow-checks`), shifts mask their
  amount, `as` casts truncate, `unwrap` of `None`, slices out of bounds and `unreachable!` panic.  A panic is a value of the model (`none`,
  `.panic`), distinguished from the errors of the language.
* Libraries, assumed to do what they document: `Vec`, `VecDeque`, `String`/`char` methods, `str::parse`, `i64::from_str_radix`;
  `num_integer` 0.1.45 (`div_floor`, `mod_floor`, `sqrt` whose Newton iteration *is* modelled with an arbitrary starting estimate, `gcd`,
  `lcm`); `num_complex` 0.4.3 (`powu`); `rug` 1.22 rationals as elements of ℚ in lowest terms (inverting 0 panics); `indexmap` 2.0
  (insertion order, `swap_remove`, `shift_remove`; hash collisions idealised: lookup finds an entry iff hashes are the same and `==`
  holds); `itertools` 0.10.5 `combinations`/`permutations` modelled by their documented enumeration; `BinaryHeap` modelled with sift
  up/down; the sort of the standard library as any function with its documented contract (`ValidSort`); `fancy_regex` as any function
  giving ordered, non-overlapping matches (C52).
* Not modelled at all: `cordy-web` (but for its highlighting), file and terminal I/O, the
  disassembler, `hash`ing beyond its use as key, `typeof` texts of user types, performance, memory exhaustion, exhaustion of the host's
  stack (recursion depth is a fuel parameter where recursion is on the host: C27, C28).

## What is modelled, file by file

| source | model | left out |
|---|---|---|
| `vm/value/ptr.rs`, `value/mod.rs` (tags, ints, bools, short strings) | `Model/Repr` (`BitVec 64`) | `Rc` layout (see `Refs`) |
| `core/…` operators, `vm/operator.rs` | `Model/Arith` (words), `Model/Operator` (all types) | text of error messages |
| `value/mod.rs` `Eq`, `Ord`, `Hash`, `to_bool`, `len` | `Model/Value` | functions and user types compare by identity, only as atoms |
| `value/range.rs`, `value/slice.rs`, index and slice | `Model/Range` | - |
| `value/collections.rs`, `core/collections.rs` | `Model/IndexMap`, `Collections`, `Dict`, `Functional`, `Combin`, `Sort`, `Heap` | `deepcopy` hooks, keys that are changed after insertion |
| `core/strings.rs`, `core/math.rs`, formatting | `Model/Strings`, `Text`, `Format`, `ParseInt` | regular expressions beyond their matches |
| `compiler/scanner.rs` | `Model/Scanner` | - |
| `compiler/parser/mod.rs` (all rules), `parser/core/mod.rs` (token operations, error recovery) | `Model/Parser` | what is emitted; which semantic errors are raised (arbitrary); locations but for the number of tokens left; repeated equal errors (the code drops them) |
| `compiler/mod.rs:94-121`, `repl.rs:78-118`, `scanner.rs:45-47` | `Model/Continuation` | what the code that runs does; the texts of errors (`Model/Repl` has the state that is undone) |
| `vm/value/mod.rs:331-348, 402-414, 859-976`, `vm/value/str.rs:15-77`, `core/collections.rs:612-624` | `Model/Iter` | contents of the elements; the value-finder branch of `right_find` is in `Model/Functional` |
| `compiler/parser/core`, `expr`, expression grammar | `Model/Grammar` | `fn` expressions, slice literals `[a:b]`, patterns |
| `compiler/parser/semantic.rs` scopes, upvalues | `Model/Resolve` | fields, modules |
| `compiler/parser/semantic.rs` late bindings; `core/graph.rs` `next_opcode`, `insert` | `Model/LateBinding` | source locations; error recovery; the code of the main program (which has no late names) |
| `compiler/parser/mod.rs` `teardown`; `semantic.rs` `declare_function`, `bake`; `func.rs` `contains_ip`; `vm/error.rs` `find_owning_function` | `Model/Layout` | patterns' table (C39), the local names kept for disassembly; sharing of equal constants is `Model/Decls` (C58); a session starts with no code |
| `cordy/src/main.rs` `RenderedFormatter`, `cordy-web/src/lib.rs` `TerminalFormatter` | `Model/Html` on top of `Model/Syntax` | the constant `<style>`; the terminal's own reading of its markup is part of the specification |
| `cordy/src/ffi.rs`; `semantic.rs` `FunctionLibrary`, `declare_native`; `vm/mod.rs` `CallNative` | `Model/Ffi` | memory as a list of cells (no addresses inside cells, no capacity of arrays); the dynamic loader as a function from file names to libraries that may differ at each call; texts of errors; values that contain themselves (the recursion of the code does not end on them); `cordy_api_str`/`vec`/`free`, which only C calls |
| `cordy/src/main.rs` `parse_args`, `main` | `Model/Cli` | texts of errors; reading files and printing |
| statements: `compiler/parser/mod.rs` 275-312, 606-1100 | `Model/Stmt` | declarations of functions, structs, modules (C54, C58) |
| `compiler/parser/codegen.rs` | `Model/Expr` | calls are atomic (C42 is about calls); primitives abstract |
| statements and expressions together (`emit_optimized_expr`, codegen.rs:47-57) | `Model/Full` | an opcode of an expression is marked with the number of variables in scope, the rest of the frame is operands to it |
| `typeof`, `is` (core/mod.rs:1092-1126, vm/operator.rs:284-308) | `Model/Typeof` | memoized functions and iterators are tags beside `Model/Value` |
| whole programs: layout of functions (parser/mod.rs:230-255), frames, `Call`, `Return`, calls by native functions (vm/mod.rs:262-860) | `Model/Program` on `Model/Full` | the stack is in pieces (own frame; variables of the callers in the world; their operands in the frames); native functions that call functions are processes (`Proc`) instead of nested `run_frame`; each function has an entry per number of default values left out (parser/mod.rs:606-624); patterns of parameters are destructured before the body (parser/mod.rs:626-655), each by one opcode (C39); names are resolved already: a default value that names another parameter is resolved in the enclosing frame by the code (C44 violation); matching of arguments is C40 |
| `search`, `replace`, `split` with patterns (core/strings.rs:34-105, 142-165; util.rs:24-43) | `Model/Search` | the engine (fancy-regex) is a parameter: what it finds from a position on; its iterator is modelled from memory of version 0.11; positions in characters; replacement strings have no `$`; `escape_regex` is in `Model/Escape` |
| `print`, `read`, `read_line`, `read_text`, `write_text` (core/mod.rs:829-860, 941-944, 1033-1041; vm/mod.rs:963-978; util.rs:12-19) | `Model/Io` | what the operating system does with a file is part of the call; standard output never fails (a closed one is a panic in the code); `env`; `argv` is C70 |
| `repl.rs:78-118` `run`, `compiler/mod.rs:68-80` `incremental_compile`, `parser/mod.rs:210-222` `parse_incremental_repl`, `vm/mod.rs:229-238` `run_recovery` | `Model/Session` on top of `Model/Program` | lines that do not compile (C48), lines that are continued (C69), locations; the optimisers (C76 has them for files) |
| `parser/expr/mod.rs:255-420` constructors as used by `parser/mod.rs:1198-2090`, `parser/core/mod.rs:137-167` `peek`, `parser/mod.rs:224-228` `parse_incremental_eval` | `Model/Source` | functions, slices, sets, dicts, patterns; locations |
| `parser/mod.rs:274-312, 730-1193` statements, `semantic.rs:197-215, 453-520, 964-1016, 1131-1160, 1205-1336` locals of the main program (declaration, depth, initialisation, scope end, lookup) | `Model/SourceStmt` | functions, `return`, structs, modules, assignments to patterns; which of several errors is reported |
| `parser/mod.rs:462-488, 512-727` named functions with default values, `return`; `semantic.rs:1023-1080, 1316-1333` variables of the main program used by functions | `Model/SourceFn`, `Model/SourceStmt` (grammar) | functions in blocks and in functions (captured variables: C43), function expressions, parameters `*x = e`, annotations; names declared after the function are resolved in their place, not by insertion as late bindings (C65): the theorems ask that a function uses such names at most once (`LateOnce`) |
| `compiler/parser/core/optimizer.rs`, expression optimiser | `Model/Peephole`, `Model/ExprOpt`; on the blocks of whole programs: `Model/ProgramOpt` | in `Model/ProgramOpt`: the `Pop` that belongs to `and`/`or` is an opcode of the expression and is not merged with the pops of statements (it is always followed by the code of the right operand) |
| `compiler/parser/graph.rs` (blocks, emission) | `Model/Graph` | insertion of late-bound opcodes (C65) |
| `vm/mod.rs` | `Model/VM` (variables, closures), `Model/Calls` (frames), `Model/Expr`, `Model/Stmt` (operands, jumps) | - |
| `core/pattern.rs`, destructuring | `Model/Pattern` | - |
| `vm/value/func.rs`, `core/mod.rs` natives | `Model/Calls`, `Model/Natives` | bodies of the natives (other files) |
| memoize | `Model/Memo` | - |
| `vm/value/ptr.rs` `SharedPtr`, `Prefix` | `Model/Refs` | `borrow_const_unsafe` |
| `copy`, `repr` | `Model/Objects` | closures, partial and memoized functions are not looked into |
| `compiler/mod.rs`, `repl.rs` | `Model/Repl` | the parser is an arbitrary sequence of the effects `Step` |
| `reporting.rs`, `syntax.rs` | `Model/Reporting`, `Model/Syntax` | colours |

## Per property: model, proof, assumptions, findings

| id | how it is modelled and proved | assumptions, what is missing, findings |
|---|---|---|
| C01-C03 | tagged word as `BitVec 64`, short strings as bytes; bit-vector algebra for all words | none |
| C04, C05 | int operators on words refine `Int` modulo 2^63 | none |
| C06 partial | power by squaring, invariant | **finding**: the exponent is cast to `u32`, `2 ** 2^32 == 1` |
| C07 partial | shifts | **finding**: amounts ≥ 64 are masked, `1 << 64 == 1` |
| C08 partial | pairs of words | **findings**: `1 / (2^32 i)` is "division by zero", the smallest real part `% -1` aborts |
| C09 | mutual structural `==`; equivalence by induction on values | values are finite trees (recursive lists: C28) |
| C10 partial | hash as a function of the value | **findings**: `1/1` and `1` are equal with different hashes, equal sets in different order too |
| C11 partial | `Ord` tables | **findings**: `nil` against rationals is not transitive; unrelated types compare as neither |
| C12 | fold loops; sort as any `ValidSort`; callbacks change the machine's state | comparison callback must follow an order for the result to be sorted |
| C13 | iteration by position, no fuel | none |
| C14 partial | `len`, `reverse` | **findings**: both wrong unless the step divides the distance: `len(range(0,5,2)) == 2`, `reverse` starts at the bound |
| C15, C16 | slices, indexes | slices are as documented by Cordy, not clamped as in Python (`[1,2,3][-10::2]`) |
| C17 partial | bytes against characters | **finding**: non-ASCII strings panic |
| C18, C19, C59, C63 | histories of operations, refinement to finite maps and sets | keys are not changed after insertion; lookup relation is an equivalence (C10) |
| C20 | array heap with sift | order total on the elements |
| C21 | list operations | none |
| C22 | loops with callbacks in a state and error monad; iterables that the callback may change | none |
| C23, C24, C25 | | `itertools` enumeration assumed (reversed traversal of `enumerate`: C73) |
| C26 partial | histories of calls, computations and mutations | arguments frozen; **findings**: mutated arguments, arguments with unequal hashes, function called with itself crashes |
| C27 partial, C28 | heap of objects, copy with table, guard | **findings**: default of a dict lost; functions not copied |
| C29, C31 | scanner on all texts | **findings**: order of line ends in strings, location of an unterminated string |
| C30 partial | | **finding**: literals from 2^62 to 2^63-1 wrap |
| C32 partial | | **findings**: `/**/` is not closed, `/*/` is a comment, `**/` does not close |
| C33 | builder, emission, linear machine; simulation both ways | code shorter than 2^31 |
| C34 | every rewrite by simulation of whole programs | monitored machine: stops where the program would panic or a store would hit an operand; that compiled programs do not is C36/C64 |
| C35 partial | optimiser on the expression tree against big-step semantics | laws of the primitives listed in `Laws`; **findings**: swapped operator on two complex constants, `x . exit`; folding a failing constant is a compile error even in dead code |
| C36 partial, C37, C38, C45 | code generator for the whole expression tree, stack machine on the block graph, then linear code by C33 | calls atomic (C42), primitives arbitrary; **finding**: `a->x .= f` compiled as a comparison |
| C39 partial | pattern tree, loop with `execute` | plain values, operands as values; **findings**: sets, dicts, non-ASCII strings, two stars; a self-field as target panics the compiler |
| C40, C41 partial | call protocol, entry points for defaults | **findings**: several variadic parameters accepted and bound wrongly; variadic functions and partial application; natives C41_native full |
| C42 | frames of the machine, arbitrary bodies with the listed effects | opcodes confined to their frame's window and single-slot writes below it; functions leave a result (C36/C64) |
| C43 | machine with open upvalues refines machine with one cell per variable | captured variables are lifted before their place goes (`Safe`); **finding**: `return`, `break`, `continue` emit the lift only for variables captured *earlier in the text*: `fn foo() { let x = 1, g = nil; while true { if g != nil { return g }; g = fn() -> x } } foo()()` |
| C44 partial | tables of locals and upvalues under every history | **findings**: upvalues taken over out of order, default values resolved in the wrong frame; `C44_fixed` shows that one line is at fault for the first |
| C46 partial | table of all natives | **findings**: `min` as callback, `print`/`vector` with two arguments as callbacks panic, wrong count in an error |
| C47 | compile state, parser as any sequence of effects | |
| C48 partial | recovery | **findings**: uninitialised globals shift later ones, open upvalues survive, `eval` leaves fields |
| C49 partial | reference counts and locks under every history | fewer than 2^32 references to one object, else **finding**: freed while in use |
| C50 partial | format strings | **finding**: a width beyond a machine word panics |
| C51 partial, C53 partial | | **findings**: negative `hex`, `int('4611686018427387904')` wraps, `chr` truncates, `chr(0)`; `abs`, `gcd` of the least int, `gcd(-4)` |
| C52 | `split`, `join`; regular expressions as any ordered matches | |
| C54 | fields, structs, modules, any declarations | at most 2^32-1 types |
| C55, C61, C62 | operator table | |
| C56 partial | line table, report, traces | `partition_point` as its result; **findings**: bytes against characters, end at a line's first character |
| C57 | precedence climbing parser = grammar | **notes**: right sections only before `)`, `is not` longest match, `->` binds tighter than prefix operators |
| C58 | constant table | **finding**: two native modules share one constant |
| C64 partial | parser state (scopes, loops, delayed `Pop`) into the block graph, then linear code by C33; rules with fuel per loop; simulation by induction on statements and turns | the code of expressions is any code that does what they mean, in any context (`Compiles`; discharged for the real code in C74); patterns are arbitrary functions of the variables in scope that keep their number (C39); no `LiftUpValue` (C43); **findings**: `do` directly after an expression statement pops a variable each turn; `if a { } elif b then x else y`; `continue` in the `else` of a `for`; `return` outside of a function panics |
| C65 partial | the front end as a history of emissions, uses and declarations; blocks of opcodes with ids; invariant: every block is its plain opcodes with the settled late uses inserted in the order of their declarations | names that are locals, upvalues, natives or fields are resolved before (C44); **findings**: `g - h` with `h` declared first computes `h - g`, and so does a method after some other late name is resolved (`swap_remove`); a late name at the end of a block moves in front of earlier ones (ids collide); a late `self` method loads the method before `self`; `print(x); x = x` stores before it loads; pattern assignment to a later method, and in a method to an existing global, panics; a late name becomes a method of an unrelated module |
| C66 | sessions as lists of compilations, each a list of declarations and a main graph; emission of each function after the others; invariant: the extents of functions are apart and only grow | functions end with an opcode that stops (`C66_closed`), parameters as accepted by C40; a call inside the function is one opcode whose meaning includes the callee; code shorter than 2^31 |
| C67 | a reader of HTML (tags, entities, text) as specification; what is read from the rendered page is compared with the source and with the highlighter's classes | none |
| C68 | a reader of the terminal's markup as specification | partial: ampersands are not escaped, so `//[` and `//&#91;` look the same (`C68_violation`) |
| C69 | memory as cells, freed at most once; ownership predicate (a value is a tree that occupies given addresses) as specification; induction on values and on ownership; sessions as lists of compilations and calls with an invariant on the trace of C code run | native functions are arbitrary functions of arguments and memory; results that are no owned trees (a native function that returns freed memory) are undefined behaviour and excluded |
| C70 | grammar of command lines as specification (how options are written, what they mean); parsing = applying options in order, by induction | none |
| C71 | every rule of the parser as a program in its token operations, names and scopes an arbitrary oracle; the grammar as specification (productions, `Spec/Language`). Termination: a measure of tokens left (and error recovery) with a rank per rule, checked for every rule by a calculus proved sound. Grammar: a second calculus that follows the productions' residuals, checked for every rule, proved sound. Brackets: each production keeps the stack | that every sentence is accepted is not claimed: the parser is greedy |
| C72 | the answer of the REPL from the scanner (`Model/Scanner`) and the parser (`Model/Parser`), `repl.rs` line by line. Proof: the scanner on `a ++ b` gives what it gives on `a`, then more (or `a` ends inside a string or a comment); the runs of the parser on `w` and `w ++ v` are kept in lock-step, by a calculus checked for every rule: until the first sees the end of `w` they do the same, and from then on its first error is about the end or about one of six last tokens. Partial: for these six the code reports an error at once. |
| C73 partial | iterators as the code has them (`Model/Iter`: index into the live collection, snapshot for heaps, nested enumerate), with a world that changes between any two steps. Proof: the state after `n` steps is determined; loops over the iterator are the positional loops C22 is stated about. **findings**: `rfind` over `enumerate(collection)` never finds anything; over `enumerate(str)` it goes forwards with wrong pairs; `range(10).rfind(..)` finds 10. |
| C74 partial | `Model/Full`: C64 with the code of C36 in place of its expressions, on one machine (stack: variables, what statements keep, operands; literals and spread counters beside it); the rules are those of `Spec/Exec` with `Spec/Eval`. Proof: the machine hosts the code of expressions (`Host`, C36_in_context), so C64 applies; the rules do not depend on literals and counters (simulation of languages); with the optimiser by C35 | missing: `a->x .= f` (C36), the statements that C64 excludes, expressions changed by the optimiser (C35); calls are one step (C42); peephole optimisation of blocks is separate (C34) |
| C75 partial | `Model/Typeof` on `Model/Value`; `Kind`, `TypeName.covers` are the text of docs/library.md. Proof: case analysis over values of any size | `x is typeof(x)` fails for ranges, enumerations (error), memoized functions, field accesses (false): violations |
| C76 partial | `Model/Program`; rules: `Spec/Calls` (big-step, with a bound on depth and turns). Proof: by induction on the bound, the machine follows every call that the rules finish (`Good`), and takes at least n / B opcodes where they run out of the bound n (B: number of blocks), so both directions follow. Default values are evaluated at the call, with the parameters before them, from the entry for the number of arguments. `C76_optimised_partial` is the same for the program with optimised expressions. `C76_blocks`: the pass over the blocks (`StoreLocal; Pop; PushLocal`, `StoreGlobal; Pop`, runs of `Pop`), by simulation: each opcode of the optimised code stands for a group of one or more original opcodes (`Seg`, `SegI`), positions are related through the starts of the blocks, and every run of one is a run of the other. `C76_compiled_partial`: everything `--optimize` does, composed | what C74 misses (violations there) |
| C77 partial | `Model/Search`, over any engine whose matches lie in the text (`Lawful`); the matches are those of the iterator (`Matches`, C77_matches: exist and unique). Induction over the text still to be searched | violated: `search` stops at an empty match where it stands (`'baa' . search('a*')` is `[]`), panics if the engine gives up; `replace` goes on after a failed call and reports the last error; `split` loses the rest of the text if the engine gives up |
| C78 partial | `Model/Io`: a world of input, output and files, histories of calls. Proof: induction on the history | **findings**: `read_line` at the end of the input gives `''`; `read` does not replace `\r\n`, against the documentation; `read_text` drops every `\r`; input that is not UTF-8 panics; `write_text` gives `nil`, documented as `str` |
| C79 partial | `Spec/Session` (rules of a session over the big-step semantics), `Model/Session` (image that grows by one line at a time, machine on its stack). Proof: the simulation of C76 for a line that starts with variables on the stack, in code that ends later than the line; then induction on the lines | partial: what C76 misses; an error before all variables that the line declares have values (C48 violation) |
| C80 partial | `Spec/Source` (value of a tree by the rules; arithmetic over ℤ), `Model/Source` (tokens of the scanner as tokens of the parser with their line breaks, the trees of expr/mod.rs as the parser builds them, composed with `Model/Scanner`, `Model/Grammar`, `Model/Expr`). Proof: induction on the tree for value, acceptance and shape; then C29, C57, C36, C08 | partial: `a->f .= g` is miscompiled (C36 violation); function expressions, slice literals, patterns, bare names of fields are not in the grammar model. The constant folding before code generation is C35 |
| C81 partial | `Spec/SourceStmt` (grammar of statements as a relation, scopes of names, statements over source trees run by `Spec/Exec`), `Model/SourceStmt` (the statement parser, declaration and resolution of variables with depths, composed with `Model/Source` and `Model/Full`). Proof: parser = grammar by induction on the fuel and on the derivation; the list of locals of the parser = the names in scope (invariant); trees and what is built of them run alike (induction on fuel and statement); then C74 | partial: the statements that C64 and C36 show to be miscompiled; programs with functions: C82; patterns are in `let` and `for` (`let a, (b, *c), _ = e`; what a pattern does with a value is C39), not in assignments; structs and modules are not in the grammar model. Resolution is a second pass over the tree in the same order, not interleaved with parsing: only *whether* there is an error, not which one comes first, is modelled |
| C82 partial | `Spec/SourceFn` (which names a function sees; a call: default values, then the body, by C76's rules over source trees), `Model/SourceFn` (functions cut out of the main program, with the variables before them; default values; parameters at depth 1, body at depth 2; other names as globals), composed with C81 and C76. Proof: the model's cut = the index-based one of the specification by induction on the statements; body and default values by the lemmas of C81 with `glob` as the fallback; runs by induction on fuel, calls inside | partial: what C76 and C81 miss; functions with two uses of names declared later, which the compiler may exchange (C65; `LateOnce` is a hypothesis because the model places late names directly). Left out of the grammar: nested functions, function expressions, parameters `*x = e` (two default values for one parameter: `fn f(a, *x = 1)` can be called without arguments, then `a` is `[]`; `fn f(*x = 1)` underflows in `min_args`, func.rs:56). A top-level `return` is accepted and crashes (C64), so it is excluded by `ok` |
| C83 partial | `Model/Rational`: `rational`, `numer`, `denom`, `abs`, `sqrt` over Lean's `Rat` (GMP is taken to be exact), `rug::Rational::parse` as a scan of characters as documented for rug 1.22. Specification: the number of a value and "a rational in lowest terms" in `Props/Rational` | **findings**: `sqrt(1/2)` is 1 (numerator and denominator are rounded down each); a second argument of `rational('1/2', x)` is ignored, whatever it is (C83_text); `count_ones`, `count_zeros` count 64 bits, not 63 (C53_violation_bits) |
| C84 partial | `Model/Trim`: `trim`, `to_lower`, `to_upper` on lists of characters; the case of characters that are not ASCII is a parameter. Specification in `Props/Trim`: the list of Unicode white space, `Trimmed`, the two alphabets | |
| C85 partial | `Model/Escape`: `escape_regex`. Specification in `Props/Escape`: the elements of a pattern (plain or escaped characters) and what the escapes of the three characters mean | **finding**: a backslash before a line feed in a pattern becomes an escaped backslash and `n` (C85_violation_escaped) |
| C86 | `Model/Sum`: the loop of `sum` with its wrapping variable of 64 bits, `flat_map` without a function. Specification: sums of integers; `mapM` and `flatten` | |
| C87 | `Model/Literal`: `Literal::accumulate`/`unroll` over the literal's opcodes, with the panic of a key without a value. Specification: `flatMap` of the entries, `firstKeys`, the last pair of a key | |
| C88 | `Model/Listing`: `disassemble` and `disassembly` on the code that `Model/Graph` emits from the (optimised) blocks of `Model/Peephole`, with the recorded names. Specification: each line from its opcode alone, by counting opcodes before it | **findings**: names shift after late bound globals; `assert` branches show offsets |
| C89 | `Model/StrRepr`: Rust's `{:?}` of strings (which characters are printable is a parameter) between single quotes, read by `Model/Scanner`. Specification: the token read back | **findings**: `'` is not escaped; `\0` and `\u{..}` are not escapes of the language |
| C90 | `Val.toBool` (Model/Value), ranges as `Range.mk?` makes them. Specification: the items of a value | |
| C60 | highlighter on the scanner's output | **finding**: classes are shifted after non-ASCII text |

Other findings recorded while reading, not in a theorem: `..=` scans as `.`, `.`, `=`; `OperatorSub` is not taken for a binary operator;
the section `(* 3)` computes `3 * x`; a pattern assignment nested in an index expression of a pattern's target takes the
index of the outer pattern's late targets; `x.union(x)` panics (borrowed twice).

## Axioms

`#print axioms` of the manifest's theorems: about 60% depend on `propext`, `Classical.choice`, `Quot.sound`, about 25% on `propext`,
`Quot.sound`, the rest on `propext` alone or on none.  No other axiom occurs.

### Found while modelling the parser (C71)

* `struct Foo(a b c)` is accepted: commas between fields are optional. `{1 : ...x}` is accepted by the grammar (a spread as the value of a dict entry).
* `@f` followed by `fn(x) -> x` annotates an expression.
* The location of an error can be that of a line break before the token that the message names (`next_location` is the front of the input, `peek` skips line breaks).
* While resynchronising, everything up to the closing bracket is dropped: `while x { y ) } z` reports one error.
