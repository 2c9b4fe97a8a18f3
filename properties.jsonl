{"id": "C01", "title": "Integers survive boxing", "statement": "Storing an integer in a Cordy value and reading it back gives the same integer for every integer in the documented int range (-2^62 .. 2^62-1), and gives the unique congruent integer modulo 2^63 in that range for every other 64-bit integer.", "quantifier": "every 64-bit signed integer", "why_tests_cant": "2^64 inputs; boundary and sign-extension errors hide in a few of them", "anchors": ["cordy-sys/src/vm/value/ptr.rs: from_i64, as_int, MIN_INT, MAX_INT"]}
{"id": "C02", "title": "Every machine word has exactly one runtime type", "statement": "The immediate values nil, true, false, every int, every native function, every field reference and every string of at most 7 bytes, together with every heap reference, are recognised by exactly one type test, decode to what was encoded, and two different immediates are never represented by the same word.", "quantifier": "every immediate value and every word", "why_tests_cant": "the tag space is 2^64 words; overlap of tags shows up only at particular bit patterns", "anchors": ["cordy-sys/src/vm/value/ptr.rs: TAG_*, ty, from_i64, from_bool, from_native, from_field, from_short_str"]}
{"id": "C03", "title": "Strings compare by content whatever their representation", "statement": "A string of any length reads back as exactly the bytes it was made from, its length is preserved, it is stored inline exactly when it has at most 7 bytes, and two strings are == exactly when their contents are equal, whichever way they were stored.", "quantifier": "every pair of strings", "why_tests_cant": "unbounded strings; the short/long boundary is crossed by operations such as concatenation and slicing", "anchors": ["cordy-sys/src/vm/value/ptr.rs: from_short_str, as_short_str, eq", "cordy-sys/src/vm/value/str.rs"]}
{"id": "C04", "title": "Integer +, -, *, unary - and bitwise operators are exact arithmetic modulo 2^63", "statement": "For all ints a, b the results of a+b, a-b, a*b, -a, !a, a&b, a|b, a^b are the mathematically exact (two's complement) results reduced modulo 2^63 into the int range; in particular they are exact whenever the exact result is in range, and the ring laws hold. Booleans behave as 0 and 1.", "quantifier": "every pair of ints", "why_tests_cant": "2^126 pairs; overflow cases depend on a 63-bit box around 64-bit machine arithmetic", "anchors": ["cordy-sys/src/vm/operator.rs: unary_sub, unary_not, binary_add, binary_sub, binary_mul, binary_bitwise_and/or/xor"]}
{"id": "C05", "title": "Integer division and remainder are floored and consistent", "statement": "For all ints a and b != 0: a = (a / b) * b + (a % b) modulo 2^63, a / b is the floor of the exact quotient (modulo 2^63), a % b has the sign of b and magnitude below |b|; if b = 0 both raise a division error and return no value.", "quantifier": "every pair of ints", "why_tests_cant": "rounding mode differences appear only for particular sign combinations and at the minimum int", "anchors": ["cordy-sys/src/vm/operator.rs: binary_div, binary_mod", "cordy-sys/src/vm/operator.rs: i64_div_floor"]}
{"id": "C06", "title": "Integer power is repeated multiplication", "statement": "For all ints a and non-negative ints n, a ** n is the n-fold product of a modulo 2^63; negative n raises an error.", "quantifier": "every base and exponent", "why_tests_cant": "exponent is truncated to 32 bits inside the implementation; only huge exponents reveal it", "anchors": ["cordy-sys/src/vm/operator.rs: binary_pow"]}
{"id": "C07", "title": "Shifts multiply and floor-divide by powers of two", "statement": "For all ints a and 0 <= n < 64, a << n is a*2^n modulo 2^63, a >> n is floor(a / 2^n); a negative shift amount shifts the other way; for larger n the result is what the infinite-precision definition gives.", "quantifier": "every value and shift amount", "why_tests_cant": "machine shifts mask their count, visible only for counts of 64 and above", "anchors": ["cordy-sys/src/vm/operator.rs: binary_left_shift, binary_right_shift, i64_left_shift, i64_right_shift"]}
{"id": "C08", "title": "Complex arithmetic is exact and normalises to int", "statement": "+, -, * on complex values are exact Gaussian integer arithmetic modulo overflow, a result with zero imaginary part is an int and compares equal to that int, and division is the floor of the exact quotient's parts with an error exactly for a zero divisor.", "quantifier": "every pair of complex or int values", "why_tests_cant": "unbounded pairs; mixed int/complex combinations have separate code paths", "anchors": ["cordy-sys/src/vm/value/number.rs", "cordy-sys/src/vm/operator.rs"]}
{"id": "C09", "title": "== is an equivalence relation", "statement": "For all values x, y, z (nil, bools, ints, rationals, complex, strings, lists, vectors, sets, dicts, ranges, enumerates, structs, functions, nested to any depth): x == x, x == y implies y == x, and x == y and y == z imply x == z; != is its negation.", "quantifier": "every triple of values of any shape and depth", "why_tests_cant": "unbounded nesting and cross-type cases (int/rational)", "anchors": ["cordy-sys/src/vm/value/ptr.rs: PartialEq", "cordy-sys/src/vm/value/collections.rs", "cordy-sys/src/vm/operator.rs: binary_equals"]}
{"id": "C10", "title": "Equal values are the same key", "statement": "If x == y then x and y hash alike, so a set never holds two equal members and a dict finds a key inserted under an equal one.", "quantifier": "every pair of equal values", "why_tests_cant": "needs every pair of equal values with different internal form (insertion orders, rational forms)", "anchors": ["cordy-sys/src/vm/value/ptr.rs: Hash", "cordy-sys/src/vm/value/collections.rs: SetImpl, DictImpl, LiteralImpl Hash"]}
{"id": "C11", "title": "< is a total order on comparable values and agrees with ==", "statement": "On values of one comparable kind (numbers, strings, and lists/vectors of such, to any depth) exactly one of x < y, x == y, x > y holds, and < is transitive; <=, >=, > are defined from it consistently.", "quantifier": "every triple of comparable values", "why_tests_cant": "transitivity and antisymmetry quantify over unbounded values", "anchors": ["cordy-sys/src/vm/value/ptr.rs: Ord", "cordy-sys/src/vm/operator.rs: CompareOp"]}
{"id": "C12", "title": "sort, min and max return the right element(s)", "statement": "sort(xs) is a permutation of xs in non-decreasing order, min(xs)/max(xs) is an element of xs that no element precedes/follows, for lists of mutually comparable values; empty input to min/max raises an error. sort_by, min_by and max_by do the same by the sign of the int that a comparator function gives, or by the keys that a key function gives; their result is an error exactly if some call fails (or gives no int), or min_by/max_by has no elements.", "quantifier": "every list of comparable values", "why_tests_cant": "all permutations and lengths", "anchors": ["cordy-sys/src/core/collections.rs: sort, min, max, min_by, max_by"]}
{"id": "C13", "title": "Iterating range(a, b, s) yields exactly the arithmetic progression", "statement": "For all ints a, b and non-zero s, iterating range(a,b,s) yields a, a+s, a+2s, ... exactly the terms strictly before b in the direction of s, in order; x in range(a,b,s) holds exactly for the values it yields; step 0 raises an error.", "quantifier": "every a, b, s and candidate x", "why_tests_cant": "unbounded parameters; the last step clamps", "anchors": ["cordy-sys/src/vm/value/range.rs: from, next, contains"]}
{"id": "C14", "title": "len and reversed traversal of a range agree with iterating it", "statement": "len(range(a,b,s)) is the number of values iteration yields and reversed traversal (used by rfind, rindex_of, reverse) visits the same values in opposite order.", "quantifier": "every a, b, s", "why_tests_cant": "fails only when s does not divide b-a or in reverse direction", "anchors": ["cordy-sys/src/vm/value/range.rs: len, reverse", "cordy-sys/src/vm/value/mod.rs: Iterable::reverse"]}
{"id": "C15", "title": "Slicing selects exactly the positions of the progression", "statement": "xs[lo:hi:step] on a list or vector returns, in order, the elements at positions lo', lo'+step, ... before hi' that exist, where negative bounds count from the end and omitted bounds mean the ends in the direction of step; it never fails for int/nil bounds and non-zero step; xs[:] is a copy, xs[::-1] the reverse, and xs[:k] + xs[k:] == xs for 0<=k<=len. Bounds that are bools are 0 and 1, anything but int, bool and nil is an error; a slice that is made as a value and applied later does the same.", "quantifier": "every list and every triple of bounds", "why_tests_cant": "all lengths, negative, omitted and out of range bounds", "anchors": ["cordy-sys/src/core/collections.rs: get_slice, to_index, rev_range", "cordy-sys/src/vm/value/slice.rs"]}
{"id": "C16", "title": "Indexing returns the addressed element or an index error", "statement": "xs[i] for -len <= i < len is the element at that position counted from the front or the back, every other i raises an index error, and after xs[i] = v reading position j gives v if j is the same position and is unchanged otherwise, the length being unchanged.", "quantifier": "every list, index and value", "why_tests_cant": "all index values including extremes", "anchors": ["cordy-sys/src/core/collections.rs: get_index, set_index", "cordy-sys/src/vm/value/mod.rs: Indexable, check_index"]}
{"id": "C17", "title": "String indexing and slicing work on characters", "statement": "s[i] and s[a:b:c] behave on the sequence of characters of s as they do on a list, and never abort the process.", "quantifier": "every string", "why_tests_cant": "only strings with multi-byte characters differ between byte length and character positions", "anchors": ["cordy-sys/src/vm/value/slice.rs: Sliceable::len, accept", "cordy-sys/src/vm/value/mod.rs: Indexable"]}
{"id": "C18", "title": "A dict behaves as an insertion ordered finite map under every history", "statement": "After any sequence of writes, deletes, clears, lookups (with or without a default), the value read for a key is the last one written and not deleted, keys are distinct, and iteration order is the order in which the surviving keys were first inserted. dict(xs) has, for every key of the pairs xs, the value of the last pair with that key, in the order of first occurrence; it is an error exactly if some element is not a pair.", "quantifier": "every history of dict operations", "why_tests_cant": "unbounded operation histories", "anchors": ["cordy-sys/src/core/collections.rs: get_dict_index, set_index, remove, default, keys, values", "cordy-sys/src/vm/value/collections.rs: DictImpl", "cordy-sys/src/core/collections.rs: collect_into_dict"]}
{"id": "C19", "title": "A set behaves as an insertion ordered finite set under every history", "statement": "After any sequence of push, remove, clear, union, intersect, difference the membership is the mathematical one, there are never duplicates, and set operators | & - ^ compute union, intersection, difference and symmetric difference.", "quantifier": "every history of set operations", "why_tests_cant": "unbounded operation histories", "anchors": ["cordy-sys/src/core/collections.rs: set_union, set_intersect, set_difference, push, remove", "cordy-sys/src/vm/operator.rs"]}
{"id": "C20", "title": "A heap always pops its minimum", "statement": "After any sequence of push and pop on a heap, pop and peek give a minimal element and the contents are the multiset pushed minus popped; repeatedly popping yields sorted order.", "quantifier": "every history of heap operations", "why_tests_cant": "unbounded histories and orders of insertion", "anchors": ["cordy-sys/src/core/collections.rs: pop, push, peek", "cordy-sys/src/vm/value/mod.rs: HeapImpl"]}
{"id": "C21", "title": "List and vector mutation primitives act as on mathematical sequences", "statement": "push, push_front, pop, pop_front, insert, remove, clear change exactly the addressed end or position, keep all other elements in order, return the removed element, and raise an error exactly on empty or out of range input leaving the list unchanged.", "quantifier": "every list and every history of operations", "why_tests_cant": "unbounded histories", "anchors": ["cordy-sys/src/core/collections.rs: push, push_front, pop, pop_front, insert, remove, clear"]}
{"id": "C22", "title": "map, filter, reduce, flat_map, any, all, find call the function once per element, in order", "statement": "For every function argument, including ones that fail or have side effects, the functional primitives call it on the elements left to right, stop at the first error (or at the deciding element for any/all/find), and return the mathematical result.", "quantifier": "every iterable and every effectful function", "why_tests_cant": "all callback behaviours including errors at any position", "anchors": ["cordy-sys/src/core/collections.rs: map, filter, flat_map, reduce, any, all, left_find, right_find"]}
{"id": "C23", "title": "group_by partitions its input", "statement": "group_by(n, xs) yields consecutive chunks of exactly n elements except possibly a shorter non-empty last one, whose concatenation is xs; group_by(f, xs) yields a dict from each key to exactly the elements with that key in their original order; n <= 0 raises an error.", "quantifier": "every n, f and xs", "why_tests_cant": "all lengths, chunk sizes and key functions", "anchors": ["cordy-sys/src/core/collections.rs: group_by"]}
{"id": "C24", "title": "zip, enumerate, concat-like combinators preserve positions", "statement": "zip(a, b, ...) has the length of the shortest argument and its i-th element is the vector of the i-th elements; enumerate pairs each element with its index.", "quantifier": "every number and length of iterables", "why_tests_cant": "all lengths", "anchors": ["cordy-sys/src/core/collections.rs: zip", "cordy-sys/src/vm/value/range.rs: Enumerate"]}
{"id": "C25", "title": "permutations and combinations enumerate exactly the selections", "statement": "combinations(n, xs) yields every n-element subsequence by position exactly once and permutations(n, xs) every n-element arrangement of distinct positions exactly once.", "quantifier": "every n and xs", "why_tests_cant": "combinatorially many", "anchors": ["cordy-sys/src/core/collections.rs: permutations, combinations"]}
{"id": "C26", "title": "Memoized functions compute each argument tuple at most once per completed call", "statement": "For a memoized f and any sequence (including recursive nesting) of calls, every call returns the value of the first completed computation for an equal argument list, f's body is not run when a completed result exists, and failed computations are not cached.", "quantifier": "every history of calls including re-entrant ones", "why_tests_cant": "re-entrancy and errors at any point", "anchors": ["cordy-sys/src/core/collections.rs: create_memoized", "cordy-sys/src/core/mod.rs: invoke_memoized", "cordy-sys/src/vm/value/func.rs: Memoized"]}
{"id": "C27", "title": "copy produces an independent isomorphic structure", "statement": "copy(x) is equal in shape to x, preserves sharing and cycles, shares no mutable object with x, and later mutation of either is invisible through the other.", "quantifier": "every object graph including cyclic ones, and every later mutation", "why_tests_cant": "unbounded graphs and cycles", "anchors": ["cordy-sys/src/core/collections.rs: copy"]}
{"id": "C28", "title": "repr and str terminate on every value", "statement": "Converting any value to text terminates, including self-containing lists, sets, dicts, heaps, vectors and structs, rendering the recursive occurrence as an abbreviation.", "quantifier": "every object graph including cyclic ones", "why_tests_cant": "cycles of unbounded length", "anchors": ["cordy-sys/src/vm/value/mod.rs: RecursionGuard, safe_to_repr_str"]}
{"id": "C29", "title": "Scanning terminates and accounts for every character", "statement": "For every source text scanning terminates and accounts for every character: the text is a sequence of blanks, comments, correctly spelled tokens and erroneous pieces; the tokens other than line ends are those pieces' tokens, in source order, not overlapping, each covering its spelling; the line-end tokens are exactly the line feeds; there is no error exactly when no piece is erroneous; and printing any sequence of tokens and scanning it gives the sequence back.", "quantifier": "every source text", "why_tests_cant": "unbounded texts", "anchors": ["cordy-sys/src/compiler/scanner.rs: scan"]}
{"id": "C30", "title": "Integer literals denote their mathematical value", "statement": "A decimal, hexadecimal or binary integer literal (with underscores) scans to exactly the number it denotes and evaluates to it, and a literal that does not fit raises a scan error.", "quantifier": "every digit string", "why_tests_cant": "unbounded digit strings, boundary at int range", "anchors": ["cordy-sys/src/compiler/scanner.rs: scan_numeric, scan_prefixed"]}
{"id": "C31", "title": "String literals denote their characters", "statement": "For every string there is a quoted literal that scans back to it; escapes n r t \\\\ ' \\\" denote their characters; an unterminated literal is an error.", "quantifier": "every string", "why_tests_cant": "unbounded strings and escape combinations", "anchors": ["cordy-sys/src/compiler/scanner.rs: scan_string"]}
{"id": "C32", "title": "Comments are skipped exactly", "statement": "A block comment ends at the first */ after its opening and a line comment at the end of line; text after it scans as if the comment were blank.", "quantifier": "every comment body", "why_tests_cant": "edge cases at the comment delimiters", "anchors": ["cordy-sys/src/compiler/scanner.rs: block and line comment"]}
{"id": "C33", "title": "Jump patching preserves control flow", "statement": "Executing the linear bytecode emitted for a control-flow graph follows the same path, executes the same instructions and ends the same way as following the graph's edges, for every graph and every sequence of branch outcomes.", "quantifier": "every control flow graph and every execution", "why_tests_cant": "unbounded graphs and paths; off-by-one errors in relative offsets", "anchors": ["cordy-sys/src/compiler/parser/core/graph.rs: emit"]}
{"id": "C34", "title": "Bytecode peephole optimisation is invisible", "statement": "Running a block with the peephole optimiser enabled gives the same stack, variables and outputs as without it, from every machine state.", "quantifier": "every block and machine state", "why_tests_cant": "all instruction sequences and states", "anchors": ["cordy-sys/src/compiler/parser/core/optimizer.rs"]}
{"id": "C35", "title": "Expression optimisation is invisible", "statement": "For every expression, evaluating the optimised form gives the same result, error and side effects in the same order as the unoptimised form.", "quantifier": "every expression and environment", "why_tests_cant": "all expression trees and side-effecting calls", "anchors": ["cordy-sys/src/compiler/parser/expr/optimizer.rs"]}
{"id": "C36", "title": "Compiled expressions leave exactly their value on the stack", "statement": "Running the code generated for an expression pushes exactly its value (as given by the language's evaluation rules: left to right, short circuit) and leaves everything below untouched, or raises the error the rules give.", "quantifier": "every expression, environment and stack", "why_tests_cant": "all expression trees", "anchors": ["cordy-sys/src/compiler/parser/codegen.rs: emit_expr", "cordy-sys/src/vm/mod.rs: run"]}
{"id": "C37", "title": "Logical operators and conditionals evaluate only what they need", "statement": "a and b / a or b / if c then a else b evaluate the first operand once and the others at most once and only when decisive, yielding the deciding operand's value.", "quantifier": "every operand expressions", "why_tests_cant": "all side effect combinations", "anchors": ["cordy-sys/src/compiler/parser/codegen.rs", "cordy-sys/src/vm/mod.rs: JumpIfFalse, JumpIfTrue"]}
{"id": "C38", "title": "Chained comparisons evaluate each operand once", "statement": "a < b <= c ... is true exactly when each adjacent comparison is, evaluates operands left to right at most once, stops after the first false comparison and leaves one boolean.", "quantifier": "every chain length and operand", "why_tests_cant": "unbounded chains", "anchors": ["cordy-sys/src/compiler/parser/codegen.rs: Compare", "cordy-sys/src/vm/mod.rs: Compare"]}
{"id": "C39", "title": "Destructuring binds what it says", "statement": "let a, (b, *c), _ = v binds each name to the element at its position, the starred name to the remaining middle part, and raises an error exactly when the length does not fit; values of other variables do not change.", "quantifier": "every pattern and value", "why_tests_cant": "unbounded nesting and lengths", "anchors": ["cordy-sys/src/core/pattern.rs", "cordy-sys/src/compiler/parser/semantic.rs: build_pattern"]}
{"id": "C40", "title": "Calls bind arguments, defaults and varargs", "statement": "Calling a function with n required, d default and optionally one variadic parameter with k arguments binds them in order, runs the default expressions for the missing ones only, collects the rest in a vector, and raises an arity error or makes a partial exactly when k is out of range.", "quantifier": "every arity combination", "why_tests_cant": "unbounded combinations of parameter kinds and counts", "anchors": ["cordy-sys/src/vm/value/func.rs: Function", "cordy-sys/src/vm/mod.rs: invoke, call_function"]}
{"id": "C41", "title": "Partial application is invisible", "statement": "f(a...)(b...) behaves as f(a..., b...) whenever the first call supplies too few arguments, for user functions, closures and native functions, to any depth of partial application.", "quantifier": "every function, split of arguments and depth", "why_tests_cant": "unbounded splits; variadic and default combinations", "anchors": ["cordy-sys/src/vm/mod.rs: invoke", "cordy-sys/src/core/mod.rs: invoke_partial", "cordy-sys/src/vm/value/func.rs"]}
{"id": "C42", "title": "A call returns one value and restores the caller's frame", "statement": "After a call completes the operand stack is the caller's stack before the call with callee and arguments replaced by exactly one result, whatever the callee did.", "quantifier": "every call depth and callee", "why_tests_cant": "unbounded call depth", "anchors": ["cordy-sys/src/vm/mod.rs: call_function, Return"]}
{"id": "C43", "title": "Closures capture variables, not values", "statement": "Every closure created in a scope and the scope itself see each other's later assignments to a captured variable, also after the scope has ended, and each execution of a scope (each loop iteration, each call) has its own variables.", "quantifier": "every interleaving of capture, assignment, scope exit and call", "why_tests_cant": "unbounded histories of open/closed captures", "anchors": ["cordy-sys/src/vm/mod.rs: LiftUpValue, CloseLocal, PushUpValue, StoreUpValue", "cordy-sys/src/vm/value/func.rs: UpValue"]}
{"id": "C44", "title": "Names resolve to the innermost visible declaration", "statement": "A name in an expression refers to the innermost declaration of that name visible at that point, through any number of enclosing functions and blocks.", "quantifier": "every nesting of scopes and functions", "why_tests_cant": "unbounded nesting and capture chains", "anchors": ["cordy-sys/src/compiler/parser/semantic.rs: resolve_reference, resolve_upvalue"]}
{"id": "C45", "title": "Spread arguments and elements expand in place", "statement": "f(a, ...xs, b, ...ys) behaves as the call with the elements written out, and [a, ...xs, b] as the literal with the elements written out, nested to any depth.", "quantifier": "every number, position and nesting of spreads", "why_tests_cant": "unbounded lengths and nested calls", "anchors": ["cordy-sys/src/vm/mod.rs: Unroll, Call, LiteralUnroll"]}
{"id": "C46", "title": "Native functions check arity uniformly", "statement": "Calling a library function with fewer than its minimum arguments gives a partial, within range runs it, more raises an arity error, the same through direct call, partial, and when used as a callback.", "quantifier": "every native function and argument count", "why_tests_cant": "several hundred combinations times call paths", "anchors": ["cordy-sys/src/core/mod.rs: NativeFunction, invoke_stack, invoke_partial, InvokeArg0/1/2"]}
{"id": "C47", "title": "A failed REPL line changes nothing", "statement": "If compiling a REPL line fails or is incomplete, all compiler state (code, constants, globals, fields, structs, locations) is as before the line.", "quantifier": "every history of lines and every failure point", "why_tests_cant": "failure may occur at any point of compilation", "anchors": ["cordy-sys/src/compiler/mod.rs: CompileParameters::save, restore, incremental_compile"]}
{"id": "C48", "title": "Runtime error recovery leaves a clean machine", "statement": "After a runtime error in the REPL, the operand stack holds exactly the globals, the call stack is at top level, and no state of the aborted evaluation influences later lines.", "quantifier": "every program and every failure point", "why_tests_cant": "error may occur at any point", "anchors": ["cordy-sys/src/vm/mod.rs: run_recovery"]}
{"id": "C49", "title": "Shared values are released exactly when unreachable references drop to zero and never while borrowed mutably twice", "statement": "For every history of clone and drop, the object is freed exactly once, when its last reference goes; for every history of borrows, there is never a mutable borrow together with another borrow.", "quantifier": "every history of clone/drop/borrow/release", "why_tests_cant": "unbounded histories", "anchors": ["cordy-sys/src/vm/value/ptr.rs: Prefix, Ref, RefMut, clone, drop"]}
{"id": "C50", "title": "String formatting substitutes each argument once in order", "statement": "fmt % args replaces the directives left to right with the arguments, copies everything else unchanged, pads to at least the given width, and raises an error when arguments are missing, left over or of the wrong type.", "quantifier": "every format string and argument list", "why_tests_cant": "unbounded format strings", "anchors": ["cordy-sys/src/core/strings.rs: format_string"]}
{"id": "C51", "title": "Text conversions of numbers round-trip", "statement": "int(str(n)) == n for every int; hex and bin give the base-16/2 numerals of non-negative ints; chr and ord are inverse on ASCII codes.", "quantifier": "every int / code", "why_tests_cant": "2^63 ints", "anchors": ["cordy-sys/src/core/strings.rs: to_hex, to_bin, to_char, to_ord", "cordy-sys/src/core/math.rs: convert_to_int"]}
{"id": "C52", "title": "join and split are inverse where they should be", "statement": "Joining the pieces of split(s, sep) with sep gives s. Splitting a join gives the parts back when the separator occurs neither inside a part nor across the end of a part and the separator that follows it (for a one-character separator: when no part contains it). For any pattern, split gives one piece more than matches, and nothing of the text is lost or reordered.", "quantifier": "every string, literal separator, list of parts; every ordered list of regex matches", "why_tests_cant": "unbounded strings", "anchors": ["cordy-sys/src/core/strings.rs: split, join"]}
{"id": "C53", "title": "Integer math functions are exact", "statement": "sqrt(n) is the greatest r with r*r <= n, gcd/lcm satisfy their defining properties, abs is the magnitude, count_ones/zeros count bits; negative sqrt raises an error.", "quantifier": "every int", "why_tests_cant": "2^63 inputs; rounding errors appear near perfect squares", "anchors": ["cordy-sys/src/core/math.rs"]}
{"id": "C54", "title": "Struct fields are addressed by name and owner", "statement": "Reading field f of an instance gives the value last written to f of that instance, writing one field changes no other field nor instance, and accessing a field its type lacks raises an error; for any set of struct declarations sharing field names.", "quantifier": "every set of struct types and access histories", "why_tests_cant": "unbounded declarations sharing names", "anchors": ["cordy-sys/src/compiler/parser/semantic.rs: Fields", "cordy-sys/src/vm/mod.rs: GetField, SetField", "cordy-sys/src/vm/value/mod.rs: StructImpl"]}
{"id": "C55", "title": "Vector arithmetic is elementwise", "statement": "For vectors of equal length u op v is the vector of ui op vi, with a scalar op v and v op scalar applying the scalar to each element, raising the first elementwise error.", "quantifier": "every pair of vectors (nested)", "why_tests_cant": "unbounded lengths and nesting", "anchors": ["cordy-sys/src/vm/operator.rs: apply_vector_binary"]}
{"id": "C56", "title": "Error locations point at the failing source line", "statement": "A reported location resolves to the line containing it, and to the correct source when several have been loaded.", "quantifier": "every text and offset", "why_tests_cant": "line boundaries for every text", "anchors": ["cordy-sys/src/reporting.rs: SourceView"]}
{"id": "C57", "title": "Operator precedence and associativity", "statement": "Every expression parses to the tree given by the documented precedence table with left associativity (right for the documented exceptions); printing with full parentheses and reparsing gives the same tree.", "quantifier": "every expression", "why_tests_cant": "unbounded expressions", "anchors": ["cordy-sys/src/compiler/parser/mod.rs: parse_expr_*"]}
{"id": "C58", "title": "Constants are interned without changing meaning", "statement": "A literal in the program evaluates to a value equal to and of the same type as the literal, whatever other literals occur in the program.", "quantifier": "every set of literals in a program", "why_tests_cant": "needs pairs of literals that are == but distinguishable", "anchors": ["cordy-sys/src/compiler/parser/semantic.rs: declare_const"]}
{"id": "C59", "title": "Default dictionaries create entries on first lookup only", "statement": "Looking up a missing key in a dict with a default stores and returns the default (calling it if it is a function) once; later lookups return the stored value; without a default it raises a key error and changes nothing.", "quantifier": "every history of lookups, with any default function, including ones that modify the dict", "why_tests_cant": "re-entrant default functions", "anchors": ["cordy-sys/src/core/collections.rs: get_dict_index, default"]}
{"id": "C60", "title": "Syntax highlighting only adds markup", "statement": "Removing the markup from highlighted text gives the original text, for any input line including invalid code.", "quantifier": "every line of text", "why_tests_cant": "unbounded inputs including malformed ones", "anchors": ["cordy-sys/src/syntax.rs"]}
{"id": "C61", "title": "Rational arithmetic is exact", "statement": "When an operand of + - * / is a rational the result is the exact rational in lowest terms, with a divide-by-zero error exactly for a zero divisor. A rational to the power of an int is exact if the exponent fits in 32 bits, and an error otherwise (a zero to a negative power stops the interpreter, a recorded violation).", "quantifier": "every pair of rational, int or bool operands", "why_tests_cant": "the operands range over all fractions", "anchors": ["cordy-sys/src/vm/operator.rs: binary_add, binary_sub, binary_mul, binary_div, binary_pow", "cordy-sys/src/vm/value/number.rs: Rational"]}
{"id": "C62", "title": "+ and * on sequences, and in", "statement": "list + list and str + str concatenate; sequence * n repeats (element i is element i mod len) and raises an error for negative n; x in xs holds exactly when some element (of a list, vector, heap or set), some key (of a dict) or some value (of a range) equals x, and is an error for other values, s in t exactly when s occurs in t, and not in is the negation.", "quantifier": "every list, string and count", "why_tests_cant": "all lengths, counts and element values", "anchors": ["cordy-sys/src/vm/operator.rs: binary_list_repeat, binary_str_repeat, binary_in, binary_add"]}
{"id": "C63", "title": "counter counts", "statement": "counter(xs) maps each value to the number of elements of xs equal to it, with no entry for absent values and pairwise different keys.", "quantifier": "every iterable", "why_tests_cant": "all lengths and multiplicities", "anchors": ["cordy-sys/src/core/collections.rs: counter"]}
{"id": "C64", "title": "Statements do what the language says", "statement": "A function or program made of expression statements, let, if/elif/else, while/do/loop/for with else, break, continue, return and assert runs exactly the statements that the rules of the language select, in that order: its variables keep their values until their scope ends, a call returns the value of the return or of the last expression (or nil), a program that ends leaves nothing on the stack, an error ends it, and it ends only if it does so by the rules.", "quantifier": "every program of these statements, nested to any depth; every arguments, state, meaning of the expressions, patterns and iterators; every number of turns of its loops", "why_tests_cant": "all nestings of loops, scopes, breaks and else clauses, and runs that do not end", "anchors": ["cordy-sys/src/compiler/parser/mod.rs: parse_statements, parse_block_statement, parse_if_statement, parse_while_statement, parse_do_while_statement, parse_loop_statement, parse_for_statement, parse_break_statement, parse_continue_statement, parse_return_statement, parse_assert_statement, parse_let_statement", "cordy-sys/src/compiler/parser/semantic.rs: begin_loop, end_loop, pop_locals", "cordy-sys/src/compiler/parser/core/mod.rs: push_delayed_pop", "cordy-sys/src/vm/mod.rs: run"]}
{"id": "C65", "title": "Names may be declared after the functions that use them", "statement": "A function may use a global, and a method another method of its module or a global, that is declared later in the text (in an expression, an assignment or a pattern assignment), and is compiled exactly as if the declaration came first: the same opcodes in the same places. A name that is nowhere declared is reported, a program whose names are all declared is accepted, and the compiler does not panic.", "quantifier": "every sequence of functions, blocks, uses and declarations", "why_tests_cant": "all orders of uses and declarations, in any number of functions and blocks", "anchors": ["cordy-sys/src/compiler/parser/semantic.rs: resolve_late_bindings, resolve_remaining_late_bindings, resolve_reference, LateBinding, as_store_op, declare_local, declare_method", "cordy-sys/src/compiler/parser/core/graph.rs: next_opcode, do_insert, Block::push, Block::insert", "cordy-sys/src/compiler/parser/core/mod.rs: push_load_lvalue, push_store_lvalue"]}
{"id": "C66", "title": "A function value runs the code of its own definition, and stack traces name it", "statement": "Calling a function with a legal number of arguments runs exactly the code of its definition, starting with the first default value that is not given, whatever else is in the program, earlier lines of a REPL session or a running eval; the code never runs on into another function. Each program, line or eval runs its own main code. Compiling more never changes functions, code or constants that are there. A stack trace shows for every active call the location of the call and the name of the function called (or <script>), and the location of each opcode is its own.", "quantifier": "every sequence of compilations, with every number of functions of any size in any order; every number of arguments; every state and every number of steps; every chain of active calls", "why_tests_cant": "all layouts of functions in all sessions, all runs of their code", "anchors": ["cordy-sys/src/compiler/parser/mod.rs: teardown", "cordy-sys/src/compiler/parser/semantic.rs: declare_function, ParserFunctionImpl::bake", "cordy-sys/src/compiler/parser/core/graph.rs: emit", "cordy-sys/src/vm/value/func.rs: Function::jump_offset, contains_ip, in_range", "cordy-sys/src/vm/error.rs: find_owning_function, with_stacktrace"]}
{"id": "C67", "title": "The HTML page of --format shows the source", "statement": "The page printed by `cordy --format` is well formed: elements are properly nested and contain no line end. Its text is the source, with tabs as four spaces and carriage returns left out; characters with a meaning in HTML are shown as themselves. Each character is in an element of the class the highlighter gives it, unless that class was left out with --format-no.", "quantifier": "every source text, every set of classes left out", "why_tests_cant": "all source texts, including those with markup, strings over several lines and unterminated comments", "anchors": ["cordy/src/main.rs: RenderedFormatter, run_main", "cordy-sys/src/syntax.rs: BlockingFormatter, scan"]}
{"id": "C68", "title": "The web terminal shows the line entered", "statement": "In the terminal of the web page, a line is shown as it was entered, with properly nested colours, whatever was entered before it.", "quantifier": "every line, every text entered before", "why_tests_cant": "all lines, including those with the markup of the terminal", "anchors": ["cordy-web/src/lib.rs: TerminalFormatter, scan", "cordy-sys/src/syntax.rs: BlockingFormatter, scan"]}
{"id": "C69", "title": "Native functions get their arguments and return their results", "statement": "Calling a function of a native module calls the function of that name in the library linked to the module, once, with exactly the declared number of arguments; it sees the arguments (nil, bools, ints, text, and vectors and lists of these) as they are, in memory that nothing else uses. Its result becomes the value of the call: ints modulo 2^63, text if it is UTF-8, arrays as vectors, and an error anywhere in it is raised. The memory of the result is freed exactly once and other memory is not touched; a value that is passed and returned comes back equal, lists as vectors. If there is no link, no library, no initialisation function, no such function, or an argument of another type or text with a NUL, an OSError is raised and no native function is called. The library of a module is initialised once, before its first call, in every session; lines of a REPL with errors leave no native functions behind.", "quantifier": "every value, every state of the memory, every native function, every history of compilations and calls, every content of the disk at each call", "why_tests_cant": "all nestings of values, all memory layouts, all histories of declarations, failed lines and calls", "anchors": ["cordy/src/ffi.rs: ExternalLibraryInterface, handle, call, to_value, from_value", "cordy-sys/src/compiler/parser/semantic.rs: FunctionLibrary, declare_native", "cordy-sys/src/compiler/mod.rs: save, restore, incremental_compile, eval_compile", "cordy-sys/src/vm/mod.rs: CallNative"]}
{"id": "C70", "title": "The command line is read as the help text says", "statement": "A command line that consists of options (at most one of help, version, disassembly, format; each module linked at most once), followed by nothing or by a file and arguments, is accepted and does what the options say: help, version, REPL without a file, page, listing or run of the file. Everything after the file is passed to the program unchanged, also words that look like options. Every other command line is refused, and a command line can be read in one way only.", "quantifier": "every list of words", "why_tests_cant": "all combinations and orders of options, all arguments", "anchors": ["cordy/src/main.rs: parse_args, Mode::set, main, run_main, run_repl"]}
{"id": "C71", "title": "The parser always ends, never panics, and accepts only sentences of the grammar", "statement": "For every sequence of tokens (of a file, of the lines of the REPL, of the argument of eval), whatever its names and scopes are, parsing ends with one list of errors, and never with a panic, also after error recovery; the depth of its recursion is at most linear in the number of tokens. If it reports no error, the tokens (but for line breaks at the end) are a sentence of the grammar of the language: no token is skipped, none is missing, and all brackets are closed in the right order by one of their kind. Once an error is reported, it stays the first one.", "quantifier": "every sequence of tokens, every outcome of the name resolution at every place", "why_tests_cant": "all texts, also all wrong ones; the interaction of error recovery with every rule of the parser", "anchors": ["cordy-sys/src/compiler/parser/mod.rs: parse, parse_statements, all parse_* rules, teardown", "cordy-sys/src/compiler/parser/core/mod.rs: expect, expect_resync, peek, advance, do_error", "cordy-sys/src/compiler/mod.rs: eval_compile"]}
{"id": "C72", "title": "The REPL asks for another line when the text so far is the beginning of a program", "statement": "If a program that runs is entered at the prompt line by line, then each line but the last is answered with the prompt for a continuation (or the lines so far are already a program and run); an error is reported only for text that no further lines could complete.", "quantifier": "every text that ends with a line break, every continuation of it, every outcome of the name resolution; every list of lines", "why_tests_cant": "every way of breaking every program into lines; the unbounded lookahead of scanner and parser", "anchors": ["cordy-sys/src/repl.rs: Repl::run", "cordy-sys/src/compiler/mod.rs: incremental_compile, try_incremental_compile", "cordy-sys/src/compiler/scanner.rs: ScanError::is_eof, scan", "cordy-sys/src/compiler/parser/errors.rs: ParserError::is_eof", "cordy-sys/src/compiler/parser/mod.rs: all rules"]}
{"id": "C73", "title": "Iteration visits the items, also while the collection changes", "statement": "Traversing a string, list, set, dict, vector, heap, range or enumerate visits its items in order and then ends; len gives their number; reversed traversal (rfind, rindex_of) visits them from the last to the first, and reports positions counted from the front. If the program changes the collection during the traversal, step n visits what is at position n (backwards: at len - 1 - n) at that time and ends if there is nothing; heaps are visited as they were at the beginning. No step fails or panics.", "quantifier": "every iterable value, every history of changes of all collections, every loop body", "why_tests_cant": "changes between any two steps; nested enumerates; all lengths", "anchors": ["cordy-sys/src/vm/value/mod.rs: to_iter, len, Iterable, IterableRev", "cordy-sys/src/vm/value/str.rs: IterStr", "cordy-sys/src/vm/value/range.rs: Range::to_iter, Range::reverse, Enumerate::to_iter", "cordy-sys/src/vm/mod.rs: InitIterable, TestIterable", "cordy-sys/src/core/collections.rs: right_find"]}
{"id": "C74", "title": "Compiled functions and programs do what their source says", "statement": "Running the code that the compiler emits for a function body or a program - statements with all their expressions, with or without expression optimisation - ends exactly as the rules of the language say of the source: it returns the same value, with the same output and changes to variables and objects, or stops with the same error (or exit) after the same effects; it runs forever exactly if the source does; it never finds too few values on the stack, leaves nothing on it, and does not disturb literals and spread arguments that its caller is in the middle of.", "quantifier": "every program of the modelled statements and expressions, nested to any depth, all arguments, all operators and functions, all initial states, runs of any length", "why_tests_cant": "all programs, all nestings of expressions in statements, infinite runs", "anchors": ["cordy-sys/src/compiler/parser/mod.rs: parse_statements, parse_function_body, parse", "cordy-sys/src/compiler/parser/codegen.rs: emit_optimized_expr, emit_expr", "cordy-sys/src/compiler/optimizer.rs: optimize_expr", "cordy-sys/src/compiler/parser/core/graph.rs: emit", "cordy-sys/src/vm/mod.rs: run"]}
{"id": "C75", "title": "typeof and is keep the documented guarantees", "statement": "For all values x, y: typeof(x) == typeof(y) exactly if x and y have the same type (docs/library.md:283); `x is typeof(x)` is true (docs/library.md:284); `x is T` is true exactly for the values of the types listed under T (bool within int within complex and rational, collections and strings within iterable, everything within any, instances of a struct under its constructor); `x is not T` is its negation; `x is T` is an error exactly if T is not a type, whatever x is.", "quantifier": "all pairs of values and all right operands", "why_tests_cant": "values and struct declarations are unbounded in number; the guarantees are stated for every value", "anchors": ["cordy-sys/src/core/mod.rs: type_of", "cordy-sys/src/vm/operator.rs: binary_is", "cordy-sys/src/vm/value/mod.rs: is_iterable, is_evaluable, is_instance_of", "cordy-sys/src/vm/value/number.rs: is_complex, is_rational"]}
{"id": "C76", "title": "Programs with functions run as their source says", "statement": "Running the code of a whole program, where every function is compiled once and calls push a frame - recursive functions, functions with default values and patterns as parameters, functions that change variables of the program or of functions around them, and functions called by native functions such as map or sort_by, nested to any depth - ends exactly as the rules of the language say of the source: the same output and changes, the same error or exit at the same moment, and it runs forever exactly if the program does by the rules. It never mixes up the variables or operands of two calls, never runs from the code of one function into that of another, never finds too few values on the stack. The same holds of the code that the optimising compiler emits.", "quantifier": "every program of the modelled statements and expressions with any number of functions, any depth of recursion, all native functions that call functions in any order, runs of any length", "why_tests_cant": "all programs, all depths of calls, infinite runs", "anchors": ["cordy-sys/src/vm/mod.rs: CallFrame, run_frame, invoke, Call, Return, OpIndex", "cordy-sys/src/compiler/parser/mod.rs: teardown", "cordy-sys/src/compiler/parser/core/graph.rs: emit", "cordy-sys/src/compiler/parser/codegen.rs: emit_expr", "cordy-sys/src/compiler/parser/core/optimizer.rs: optimize"]}
{"id": "C77", "title": "search, replace and split work on the same matches", "statement": "For every pattern, search ends and gives all the places where the pattern matches, from left to right, without overlaps; replace replaces exactly these places and copies everything between them; split cuts the text exactly at these places. So replace with a string equals split then join; replacing each match by itself gives the text back; replace with a function calls it once for each match, in order, with what search gives for the match, and a call that fails ends it with this error.", "quantifier": "every regular expression engine whose matches lie in the text, every pattern and text, every function with any effects", "why_tests_cant": "all patterns, all texts, all functions", "anchors": ["cordy-sys/src/core/strings.rs: replace, search, split, as_result, FancySplit", "cordy-sys/src/util.rs: catch, join"]}
{"id": "C78", "title": "Input and output", "statement": "print writes its arguments (as str gives them) with one space between them and a line feed, and the output of a program is what its prints write, in order. read_line gives the lines of the input one after the other without their ends (\\n or \\r\\n), read what is left; no part of the input is skipped or read twice, whatever other calls are made between, and a program can tell the end of the input from an empty line. read replaces \\r\\n by \\n. read_text gives what the last write_text to this file wrote, with \\r\\n replaced by \\n, whatever was done with other files; if a file cannot be read or written it is an error. No input makes the interpreter panic.", "quantifier": "every sequence of calls, every input, every text, every state of the files, any behaviour of the operating system", "why_tests_cant": "all histories of calls and all inputs", "anchors": ["cordy-sys/src/core/mod.rs: invoke_arg0, invoke_arg1, invoke_arg2, invoke_var (Print, Read, ReadLine, ReadText, WriteText)", "cordy-sys/src/vm/mod.rs: print, println, read, read_line", "cordy-sys/src/util.rs: strip_line_ending", "docs/library.md: print, read, read_line, read_text, write_text"]}
{"id": "C79", "title": "Sessions of the interactive interpreter", "statement": "Typing lines into the interactive interpreter does what the rules of the language say: the variables and functions of a line are there in the lines after it (and functions of earlier lines keep working, whatever is defined later), the value of a line that ends with an expression is printed (once) and no other value is, a line that fails at run time has its error reported, what it did before the failure is done, the variables it has declared keep the values they have, and the session goes on; exit ends it. No history of lines brings the machine into a state it should not be in.", "quantifier": "every list of lines, with every mix of failures, in every statement and at every depth of calls", "why_tests_cant": "all histories: an error in any line can leave behind operands, frames and counters that break a later line", "anchors": ["cordy-sys/src/repl.rs: run", "cordy-sys/src/compiler/mod.rs: incremental_compile", "cordy-sys/src/compiler/parser/mod.rs: parse_incremental_repl, teardown", "cordy-sys/src/vm/mod.rs: run_recovery, incremental_compile"]}
{"id": "C80", "title": "From the text of an expression to its value", "statement": "The text of an expression is accepted exactly if its tokens have no errors, follow the grammar and its names are known, whatever blanks, comments and line breaks it has; it has one meaning; and running what it is compiled to gives the value and the effects that the rules of the language give to that meaning: operands left to right, each once, `and`, `or`, `if` only what is needed, comparisons in a chain, compound assignments with their target evaluated once, parentheses, vectors, lists, sets and dicts, slices, spread arguments, operator sections. In particular, arithmetic with integers gives what one calculates with the integers of mathematics, as long as no value is too large.", "quantifier": "every text, every set of names in scope, every state of the machine", "why_tests_cant": "all texts: the composition of scanner, parser, tree builder and code generator; any pair of operators, any nesting", "anchors": ["cordy-sys/src/compiler/scanner.rs: scan", "cordy-sys/src/compiler/parser/mod.rs: parse_expression, parse_expr_1_terminal, parse_expr_2_unary, parse_expr_11", "cordy-sys/src/compiler/parser/expr/mod.rs: Expr constructors", "cordy-sys/src/compiler/parser/codegen.rs: process_expr, emit_expr"]}
{"id": "C81", "title": "From the text of a program to what it does", "statement": "The text of a program (statements: let and for with names or patterns such as a, (b, *c), _; if, while, do, loop, else clauses of loops, break, continue, assert, expressions, blocks) is accepted exactly if its tokens have no errors and follow the grammar, no name is declared twice in one block or hides a name of the language, every name is used in the scope of a declaration before it, and break and continue are in loops; it has one reading; and running what it is compiled to ends, fails, prints and does what the rules of the language give to that reading, where a name means the last variable of that name that is in scope and the names of a pattern are new variables from left to right. It never crashes the machine, and where an expression is evaluated there are exactly as many variables as names in scope.", "quantifier": "every text, every set of native names, every state of the machine, runs of any length, nesting of any depth", "why_tests_cant": "all texts: the composition of scanner, parser, resolution of names, code generation and machine; any nesting of loops, blocks and shadowed names, and runs that do not end", "anchors": ["cordy-sys/src/compiler/mod.rs: compile_internal", "cordy-sys/src/compiler/parser/mod.rs: parse_statements, parse_block_statement, parse_if_statement, parse_while_statement, parse_do_while_statement, parse_for_statement, parse_assert_statement, parse_let_statement", "cordy-sys/src/compiler/parser/semantic.rs: declare_local, pop_locals, resolve_reference", "cordy-sys/src/compiler/parser/codegen.rs", "cordy-sys/src/vm/mod.rs: run"]}
{"id": "C82", "title": "From the text of a program with functions to what it does", "statement": "The text of a program with functions (fn f(x, (a, *b), _, y = e, z?, *w) { ... } or -> e, with return, recursion, functions that call functions declared later, and functions that use variables of the main program) is accepted exactly if it follows the grammar, parameters and the names in patterns are different names, with those with default values last and then those that take the rest, and every name in the main program, the bodies and the default values is known: a default value sees what is declared before its function, a body sees its own variables, then every variable of the main program. Running what it is compiled to, plain or optimised, ends, fails and does what the rules say: `fn f` binds f to the function at its place in the program; a call evaluates the default values of the missing arguments in order (nothing is left for `*w`: it is empty), destructures the arguments by the patterns, then runs the body, whose value is that of `return` or of its last expression. It never crashes the machine.", "quantifier": "every text, every set of native names, every state of the machine, runs of any length, calls of any depth", "why_tests_cant": "all texts and all recursions: the composition of scanner, parser, resolution of names across functions, code generation, linking and machine", "anchors": ["cordy-sys/src/compiler/parser/mod.rs: parse_named_function, parse_function_parameters, parse_function_body, parse_return_statement", "cordy-sys/src/compiler/parser/semantic.rs: resolve_reference, resolve_late_bindings, declare_local", "cordy-sys/src/vm/mod.rs: invoke, run"]}
{"id": "C83", "title": "Rational numbers are exact", "statement": "rational(x) is x and rational(x, y) is x / y in lowest terms, for ints, bools and rationals of any size, with an error for y = 0 and for other values; numer and denom are the numerator and denominator in lowest terms, and rational(numer(x), denom(x)) is rational(x). The text of an integer N or of N/D is read as that number (an error if D is 0), whitespace anywhere makes no difference, a text is accepted exactly if it is an optional sign and digits with _ between them, with a second such number after / or not, and rational(str(q)) is q. abs of a rational is exact, abs of a vector is that of its members; sqrt(q * q) is abs(q), and sqrt fails exactly for negative numbers.", "quantifier": "all ints, rationals of any size, texts, vectors of any nesting", "why_tests_cant": "unbounded numbers and texts", "anchors": ["cordy-sys/src/core/math.rs: convert_to_rational, get_numer, get_denom, abs, sqrt", "cordy-sys/src/vm/value/number.rs: Rational"]}
{"id": "C84", "title": "trim, to_lower and to_upper", "statement": "trim(s) is s without the Unicode white space at both ends and nothing else removed: it neither begins nor ends with white space, and trimming twice is trimming once. to_lower(s) and to_upper(s) for ASCII text replace every letter by that of the other case at the same place of the alphabet and keep every other character. All three are errors for values that are not strings.", "quantifier": "all strings of any length", "why_tests_cant": "unbounded strings", "anchors": ["cordy-sys/src/core/strings.rs: trim, to_lower, to_upper"]}
{"id": "C85", "title": "Tabs and line breaks in patterns", "statement": "In patterns of search, replace and split, tab, carriage return and line feed characters mean the same as \\t, \\r and \\n: the pattern that is compiled has none of these characters, has the same meaning element by element, and patterns without them are compiled unchanged.", "quantifier": "all pattern texts", "why_tests_cant": "unbounded texts", "anchors": ["cordy-sys/src/core/strings.rs: escape_regex, compile_regex"]}
{"id": "C86", "title": "sum and concat", "statement": "sum of ints and bools is their sum whenever that is an int, even if sums on the way are not, does not depend on the order, and is the number modulo 2^63 otherwise; it fails exactly if there is a value that is no int, naming the first. concat(x) is the elements of the elements of x in order, the same as flat_map with the identity function, and fails as the first element that is not iterable.", "quantifier": "all lists of values of any length", "why_tests_cant": "unbounded lists and sums", "anchors": ["cordy-sys/src/core/collections.rs: sum, flat_map", "cordy-sys/src/core/mod.rs: Concat"]}
{"id": "C87", "title": "What a literal is", "statement": "A list or vector literal with any mix of plain elements and `...` unrolls is exactly the elements in the order written; a set literal has each distinct element once, in the order of first occurrence; a dict literal has each key once at the place of its first occurrence with the value written last, whether the pair is written `k: v` or comes from an unroll. An unrolled element of a dict literal that is no pair fails the literal with that element's error, the first in the order written, and no literal with only plain entries fails. A pair is a list or vector of exactly two elements. Unrolling a dict into a dict literal gives the dict again, in its order.", "quantifier": "all literals with any number of entries and unrolls, all values", "why_tests_cant": "unbounded mixes of entries and unrolls with repeated keys", "anchors": ["cordy-sys/src/vm/value/mod.rs: Literal", "cordy-sys/src/vm/mod.rs: LiteralBegin, LiteralAcc, LiteralUnroll, LiteralEnd", "cordy-sys/src/vm/value/mod.rs: to_pair"]}
{"id": "C88", "title": "What the listing of -d shows", "statement": "The listing of a compiled program has one line per opcode, in order: a label with the line of the source where that differs from the nearest opcode before which has a line, the number of the opcode, and the opcode. Labels are all equally wide. A branch is shown with the number of the opcode to which it goes. An opcode that loads or stores a variable is shown with the name of that variable, with and without optimisation.", "quantifier": "all programs, all graphs of blocks, any number of opcodes, functions and lines", "why_tests_cant": "unbounded programs; names are matched to opcodes by counting", "anchors": ["cordy-sys/src/compiler/mod.rs: disassemble", "cordy-sys/src/vm/opcode.rs: disassembly", "cordy-sys/src/compiler/parser/core/graph.rs: emit, push", "cordy-sys/src/compiler/parser/core/optimizer.rs: optimize"]}
{"id": "C89", "title": "repr of a string is a literal of it", "statement": "For every string s, repr(s) is the text of a string literal: it scans as one token without an error, and its value is s, so that eval(repr(s)) is s.", "quantifier": "all strings", "why_tests_cant": "strings of unbounded length with any characters", "anchors": ["cordy-sys/src/vm/value/mod.rs: safe_to_repr_str", "cordy-sys/src/compiler/scanner.rs: string literals"]}
{"id": "C90", "title": "Which values are true", "statement": "In a condition (if, while, and, or, not, filter, bool), nil, false and 0 are false; a string, a collection, a range or an enumeration is true exactly if it has an item; every other value is true.", "quantifier": "all values of any size and nesting, all ranges", "why_tests_cant": "unbounded values; a range is true by its step, which must agree with whether it has items", "anchors": ["cordy-sys/src/vm/value/mod.rs: to_bool", "cordy-sys/src/vm/value/range.rs: is_empty, Range::new, Enumerate::to_bool"]}
