{
 "C06": {
  "note": "Partial: exact for exponents the code handles; the violation theorem shows where the code deviates (see DESIGN.md findings)."
 },
 "C07": {
  "note": "Partial: exact for the proved range of shift amounts; the violation theorem gives the deviating shifts."
 },
 "C29": {
  "note": "Line-end tokens inside strings precede the string token (C29_violation_order) and error locations of unterminated strings run past the text (C29_violation_error_location); the statement is about the other tokens."
 },
 "C30": {
  "note": "Literals scan exactly; their value is exact below 2^62 only (C30_value_partial), from 2^62 to 2^63-1 the accepted literal wraps (C30_violation_wraps)."
 },
 "C32": {
  "note": "Line comments proved; block comments proved for bodies without a pending star (C32_block_partial); the code violates the rest (C32_violations)."
 },
 "C08": {
  "note": "Ring operations exact for all operands. Division (C08_div_partial) and powers (C08_pow_partial) exact where the norm of the divisor does not wrap to 0 and the exponent fits in 32 bits; C08_violation_div, C08_violation_mod: elsewhere the code fails or aborts."
 },
 "C10": {
  "note": "Equal values hash equally except for rationals against ints and sets in different order (C10_violation_rational, C10_violation_set: the code hashes these differently); C10_hash_partial excludes those values."
 },
 "C11": {
  "note": "Total order for the values whose types the code orders (C11_total_order_partial); nil against rationals and unrelated types violate it (C11_violation_nil, C11_violation_types)."
 },
 "C14": {
  "note": "Iteration is proved in full (C13); len and reverse of a range are right exactly where the step divides the distance (C14_len_partial, C14_reverse_partial), and wrong otherwise (violations)."
 },
 "C17": {
  "note": "For strings of ASCII characters (C17_index_partial, C17_slice_partial); the code indexes bytes and panics inside a longer character (C17_violation)."
 },
 "C26": {
  "note": "For arguments that are not changed after the call and whose equality agrees with their hash; the violations show mutated arguments, unequal hashes and a function called with itself."
 },
 "C27": {
  "note": "Copies are separate and of equal shape; equality needs dicts without default function (lost: C27_violation_default) and no partial functions inside (not copied: C27_violation_partial_function)."
 },
 "C35": {
  "note": "Optimised and plain expression have the same value and effects, under laws of the primitives; violated for a swapped operator on two complex constants and for `x . exit`."
 },
 "C36": {
  "note": "Every expression except `a->x .= f`, which is compiled as a comparison (C36_violation_field_compose). Calls and primitives are arbitrary functions."
 },
 "C39": {
  "note": "Lists, vectors and ASCII strings, patterns with at most one star at each level; the violations show sets, dicts, non-ASCII strings and two stars. C39_store_*: storing in elements of lists, vectors and dicts and in fields."
 },
 "C40": {
  "note": "Parameter lists with at most one variadic parameter; several are accepted and bound wrongly (C40_violation_stars)."
 },
 "C41": {
  "note": "Natives in full (C41_native); user functions from any partial application, except variadic functions given all their other arguments (C41_violation_variadic)."
 },
 "C44": {
  "note": "Names resolve to their declaration unless an upvalue is taken over out of order through several functions, or in a default value (C44_violation_deep, C44_violation_default); C44_fixed shows that one line is at fault for the first."
 },
 "C46": {
  "note": "All natives by every calling convention except those listed in the violations (min of one int, print/vector and the like as callbacks, wrong count in an error). C46_cases: the cases of the dispatches are exactly those the arities need."
 },
 "C48": {
  "note": "Recovery restores a consistent state unless a global was declared and not yet initialised, an upvalue was open or `eval` added fields (violations)."
 },
 "C49": {
  "note": "For fewer than 2^32 references to one object; beyond that the count wraps and the object is freed while in use (C49_violation_overflow)."
 },
 "C50": {
  "note": "All format strings whose widths fit a machine word; others panic (C50_violation_width_panics)."
 },
 "C51": {
  "note": "hex/bin/int/chr/ord round trips in the ranges stated; negative hex, wrapping int('\u2026') and truncating chr are violations. C51_chr_partial: char for every character; C51_violation_ord: ord is an error outside ASCII."
 },
 "C53": {
  "note": "gcd, lcm, abs except where the least int is involved or gcd has one negative argument; count_ones and count_zeros count 64 bits, not 63 as documented (violations)."
 },
 "C56": {
  "note": "ASCII sources (C56_line_partial, C56_report_partial); bytes are taken for characters (C56_violation_bytes) and a location that ends at a line's first character is off (C56_violation_end)."
 },
 "C64": {
  "note": "All programs except those with: `do` directly after an expression statement, `elif c then a else b` in a statement, `continue` in the else of a for, `return` outside of functions; each of these is a violation theorem. Expressions are arbitrary functions of the variables in scope."
 },
 "C65": {
  "note": "All blocks that are Regular: each late name is settled by what it means and is one opcode, adjacent late names are declared in the order in which they are used, a late name that ends a block is the only late one in it. The violations show that each of these conditions is needed; C65_shape and C65_undeclared hold for every program."
 },
 "C68": {
  "note": "Proved for every line without an ampersand. Missing: ampersands are not escaped by the code, so `//[` and `//&#91;` are shown alike (C68_violation, C68_violation_lines)."
 },
 "C72": {
  "note": "Proved: if text `a` (ending with a line break) begins a program that runs, the REPL runs `a`, asks for more, or its first error is about a name or about the last token of `a`, which is `(`, `*`, `not`, `fn`, `min` or `max` (C72_beginning_partial, C72_lines_partial); any other report of the scanner or the parser is final (C72_scan_error_final, C72_syntax_error_final). Missing: the code violates the full property for these six tokens (C72_violation: `f(` at the end of a line is reported at once); and that a text for which more is asked can always be completed."
 },
 "C73": {
  "note": "Forward traversal is complete. Partial where the code is wrong: len of ranges whose bounds are not a multiple of the step apart (C14), reversed traversal of ranges (C14, C73_violation_range) and of enumerate (C73_violation_enumerate, C73_violation_rfind_enumerate)."
 },
 "C74": {
  "note": "Proved for function bodies and programs with the real code of expressions, with and without the expression optimiser. Missing: `a->x .= f` (violates C36), the statement forms that the compiler gets wrong (violations in C64), expressions whose meaning the optimiser changes (violations in C35)."
 },
 "C75": {
  "note": "The guarantee `x is typeof(x)` is broken by the code for ranges and enumerations (an error), memoized functions and field accesses (false): C75_is_typeof_violation; proved for all other values. typeof distinguishing types and `is not` are proved for all values."
 },
 "C76": {
  "note": "Proved for whole programs with recursive functions, default values and patterns of parameters and native functions that call back, plain, and with both optimisers (of expressions and of blocks). Missing: what C74 misses (the compiler gets it wrong), a top-level return that is reached (C64 violation)."
 },
 "C77": {
  "note": "Violated by the code: search ends at an empty match where it stands (C77_search_violation), panics if the engine gives up; replace goes on calling after a failed call and reports the last error (C77_replace_violation); split loses text if the engine gives up (C77_split_violation). Proved in full: termination, soundness of search, replace = split then join, split cuts at the matches, replacing matches by themselves."
 },
 "C78": {
  "note": "Output, lines, input read once, errors and files are proved for all histories. The code violates: telling the end of the input from an empty line, \\r\\n in read, lone \\r in read_text, panic on input that is not UTF-8."
 },
 "C79": {
  "note": "Proved for all lists of lines, with failures at any point: the machine does exactly what the rules say. Missing: what C76 misses (return outside of functions), and an error in a line before all variables which it declares have got values (the rules say nothing; C48 has the violation)."
 },
 "C80": {
  "note": "C80_accepts: what is compiled; C80_one_tree: one meaning; C80_value_partial: the value, for all texts without `a->f .= g`, which the compiler gets wrong (C36_violation_field_compose); C80_every_tree: every tree of operators has a text; C80_arithmetic: integers of mathematics. Not in the grammar model: function expressions, slice literals, patterns."
 },
 "C81": {
  "note": "C81_accepts: exactly which texts are compiled; C81_one_tree: one reading; C81_program_partial: the code ends, fails and does what the rules say, and does not crash, for programs without `a->f .= g` (C36) and the statements that C64 shows to be miscompiled (continue in the else of a for loop, do directly after an expression, elif c then a else b); C81_optimised_partial: the same with the expression optimiser; C81_in_step, C81_place, C81_pattern: names and variables go together. Programs with functions: C82. Patterns are in let and for; not in the grammar model: assignments to patterns, structs, modules, and what C80 leaves out."
 },
 "C82": {
  "note": "C82_accepts: exactly which texts with functions are compiled; C82_program_partial: the code of the main program and of the functions ends, fails and does what the rules say, and does not crash; C82_compiled_partial: the same with both optimisers. Missing: what C76 and C81 miss; functions inside functions or blocks, function expressions and parameters `*x = e` are not in the grammar model. LateOnce excludes functions that use names declared after them twice (C65 shows that the compiler may exchange them)."
 },
 "C83": {
  "note": "rational, numer, denom, the grammar of texts (C83_grammar, C83_whitespace, C83_blank), abs of rationals, ints, complex numbers and vectors, sqrt of squares and whole numbers. Missing: sqrt of other rationals rounds numerator and denominator each (C83_sqrt_rounds), which is not the greatest y with y*y <= x (C83_violation_sqrt); abs of the least int, and of complex numbers with a part -2^63."
 },
 "C84": {
  "note": "trim completely; to_lower and to_upper on texts of ASCII characters. Missing: the Unicode tables for other texts."
 },
 "C85": {
  "note": "escape_regex. Missing: a control character after a backslash (C85_violation_escaped)."
 },
 "C86": {
  "note": "sum and concat of all values and iterables."
 },
 "C87": {
  "note": "Literals of all four types, from LiteralBegin to LiteralEnd."
 },
 "C88": {
  "note": "Listing of emitted code with and without the optimiser. Missing: names in code with a load or store of a global that was declared later (C88_violation_late: the names shift), branches of assert (C88_violation_assert: the offset is shown); opcode numbers are shown modulo 10000 (C88_violation_number)."
 },
 "C89": {
  "note": "All strings without single quotes: repr is one literal (C89_reads); its value is the string exactly if no character is shown with an escape that the language lacks (C89_round_trip_partial). Missing, because the code is wrong: single quotes (C89_violation_quote), the character 0 and characters shown as \\u{..} (C89_violation_nul)."
 },
 "C90": {
  "note": "All values of Model/Value; memoized functions, partial functions and iterators are not in that type (they are true by the last case of to_bool)."
 }
}