{
 "claims": [
  {
   "property": "C01",
   "status": "proved",
   "theorems": [
    "Cordy.Repr.C01_box_unbox",
    "Cordy.Repr.C01_reduces_unique",
    "Cordy.Repr.C01_box_unbox_exact",
    "Cordy.Repr.C01_bounds"
   ],
   "note": ""
  },
  {
   "property": "C02",
   "status": "proved",
   "theorems": [
    "Cordy.Repr.C02_load_store",
    "Cordy.Repr.C02_store_injective",
    "Cordy.Repr.C02_pointer",
    "Cordy.Repr.C02_type_tests",
    "Cordy.Repr.C02_bool"
   ],
   "note": ""
  },
  {
   "property": "C03",
   "status": "proved",
   "theorems": [
    "Cordy.Repr.C03_str_roundtrip",
    "Cordy.Repr.C03_inline_iff",
    "Cordy.Repr.C03_str_eq"
   ],
   "note": ""
  },
  {
   "property": "C04",
   "status": "proved",
   "theorems": [
    "Cordy.Arith.C04_add",
    "Cordy.Arith.C04_sub",
    "Cordy.Arith.C04_mul",
    "Cordy.Arith.C04_neg",
    "Cordy.Arith.C04_not",
    "Cordy.Arith.C04_results_are_ints",
    "Cordy.Arith.C04_bitwise",
    "Cordy.Arith.C04_ring_laws",
    "Cordy.Op.C04_value_level"
   ],
   "note": ""
  },
  {
   "property": "C05",
   "status": "proved",
   "theorems": [
    "Cordy.Arith.C05_zero",
    "Cordy.Arith.C05_div_floor",
    "Cordy.Arith.C05_mod"
   ],
   "note": ""
  },
  {
   "property": "C06",
   "status": "partial",
   "theorems": [
    "Cordy.Arith.C06_pow_partial",
    "Cordy.Arith.C06_violation"
   ],
   "note": "Partial: exact for exponents the code handles; the violation theorem shows where the code deviates (see DESIGN.md findings)."
  },
  {
   "property": "C07",
   "status": "partial",
   "theorems": [
    "Cordy.Arith.C07_shift_partial",
    "Cordy.Arith.C07_violation"
   ],
   "note": "Partial: exact for the proved range of shift amounts; the violation theorem gives the deviating shifts."
  },
  {
   "property": "C08",
   "status": "partial",
   "theorems": [
    "Cordy.Op.C08_exact",
    "Cordy.Op.C08_unique",
    "Cordy.Op.C08_add",
    "Cordy.Op.C08_sub",
    "Cordy.Op.C08_mul",
    "Cordy.Op.C08_neg",
    "Cordy.Op.C08_pow_partial",
    "Cordy.Op.C08_div_partial",
    "Cordy.Op.C08_violation_div",
    "Cordy.Op.C08_mod",
    "Cordy.Op.C08_violation_mod"
   ],
   "note": "Ring operations exact for all operands. Division (C08_div_partial) and powers (C08_pow_partial) exact where the norm of the divisor does not wrap to 0 and the exponent fits in 32 bits; C08_violation_div, C08_violation_mod: elsewhere the code fails or aborts."
  },
  {
   "property": "C09",
   "status": "proved",
   "theorems": [
    "Cordy.Val.C09_equivalence",
    "Cordy.Val.C09_symm_eq",
    "Cordy.Val.C09_set_order_free",
    "Cordy.Val.C09_list_elementwise",
    "Cordy.Val.C09_numbers"
   ],
   "note": ""
  },
  {
   "property": "C10",
   "status": "partial",
   "theorems": [
    "Cordy.Val.C10_hash_partial",
    "Cordy.Val.C10_no_equal_members_partial",
    "Cordy.Val.C10_violation_rational",
    "Cordy.Val.C10_violation_set"
   ],
   "note": "Equal values hash equally except for rationals against ints and sets in different order (C10_violation_rational, C10_violation_set: the code hashes these differently); C10_hash_partial excludes those values."
  },
  {
   "property": "C11",
   "status": "partial",
   "theorems": [
    "Cordy.Val.C11_total_order_partial",
    "Cordy.Val.C11_meaning",
    "Cordy.Val.C11_fraction_order",
    "Cordy.Val.C11_violation_nil",
    "Cordy.Val.C11_violation_types"
   ],
   "note": "Total order for the values whose types the code orders (C11_total_order_partial); nil against rationals and unrelated types violate it (C11_violation_nil, C11_violation_types)."
  },
  {
   "property": "C12",
   "status": "proved",
   "theorems": [
    "Cordy.C12_sort",
    "Cordy.C12_sort_unique",
    "Cordy.C12_min",
    "Cordy.C12_max",
    "Cordy.C12_values",
    "Cordy.C12_sort_by",
    "Cordy.C12_sort_by_error",
    "Cordy.C12_min_max_by",
    "Cordy.C12_comparator",
    "Cordy.C12_sort_by_comparator",
    "Cordy.C12_sort_by_key_error",
    "Cordy.C12_sort_by_key",
    "Cordy.C12_min_max_by_comparator",
    "Cordy.C12_min_max_by_comparator_error",
    "Cordy.C12_min_max_by_error"
   ],
   "note": ""
  },
  {
   "property": "C13",
   "status": "proved",
   "theorems": [
    "Cordy.Range.C13_values",
    "Cordy.Range.C13_step_zero",
    "Cordy.Range.C13_contains",
    "Cordy.Range.C13_no_overflow"
   ],
   "note": ""
  },
  {
   "property": "C14",
   "status": "partial",
   "theorems": [
    "Cordy.Range.C14_len_iff",
    "Cordy.Range.C14_len_partial",
    "Cordy.Range.C14_violation_len",
    "Cordy.Range.C14_reverse_iff",
    "Cordy.Range.C14_reverse_partial",
    "Cordy.Range.C14_violation_reverse"
   ],
   "note": "Iteration is proved in full (C13); len and reverse of a range are right exactly where the step divides the distance (C14_len_partial, C14_reverse_partial), and wrong otherwise (violations)."
  },
  {
   "property": "C15",
   "status": "proved",
   "theorems": [
    "Cordy.C15_slice",
    "Cordy.C15_unique",
    "Cordy.C15_errors",
    "Cordy.C15_bounds",
    "Cordy.C15_slice_value",
    "Cordy.C15_copy",
    "Cordy.C15_reverse",
    "Cordy.C15_split"
   ],
   "note": ""
  },
  {
   "property": "C16",
   "status": "proved",
   "theorems": [
    "Cordy.C16_get",
    "Cordy.C16_set",
    "Cordy.C16_errors"
   ],
   "note": ""
  },
  {
   "property": "C17",
   "status": "partial",
   "theorems": [
    "Cordy.C17_index_partial",
    "Cordy.C17_slice_partial",
    "Cordy.C17_violation"
   ],
   "note": "For strings of ASCII characters (C17_index_partial, C17_slice_partial); the code indexes bytes and panics inside a longer character (C17_violation)."
  },
  {
   "property": "C18",
   "status": "proved",
   "theorems": [
    "Cordy.C18_refinement",
    "Cordy.C18_from_empty",
    "Cordy.C18_last_write",
    "Cordy.C18_values",
    "Cordy.C18_from_pairs"
   ],
   "note": ""
  },
  {
   "property": "C19",
   "status": "proved",
   "theorems": [
    "Cordy.C19_history",
    "Cordy.C19_operators",
    "Cordy.C19_order"
   ],
   "note": ""
  },
  {
   "property": "C20",
   "status": "proved",
   "theorems": [
    "Cordy.C20_history",
    "Cordy.C20_heapsort",
    "Cordy.C20_values"
   ],
   "note": ""
  },
  {
   "property": "C21",
   "status": "proved",
   "theorems": [
    "Cordy.C21_step",
    "Cordy.C21_deterministic",
    "Cordy.C21_history"
   ],
   "note": ""
  },
  {
   "property": "C22",
   "status": "proved",
   "theorems": [
    "Cordy.C22_map",
    "Cordy.C22_filter",
    "Cordy.C22_flat_map",
    "Cordy.C22_find",
    "Cordy.C22_rfind",
    "Cordy.C22_any",
    "Cordy.C22_all",
    "Cordy.C22_reduce",
    "Cordy.C22_terminates",
    "Cordy.C22_map_all",
    "Cordy.C22_pure",
    "Cordy.C22_find_value",
    "Cordy.C22_rfind_value"
   ],
   "note": ""
  },
  {
   "property": "C23",
   "status": "proved",
   "theorems": [
    "Cordy.C23_chunks",
    "Cordy.C23_chunks_unique",
    "Cordy.C23_group_by"
   ],
   "note": ""
  },
  {
   "property": "C24",
   "status": "proved",
   "theorems": [
    "Cordy.C24_zip",
    "Cordy.C24_enumerate",
    "Cordy.C24_reverse"
   ],
   "note": ""
  },
  {
   "property": "C25",
   "status": "proved",
   "theorems": [
    "Cordy.C25_combinations",
    "Cordy.C25_permutations"
   ],
   "note": ""
  },
  {
   "property": "C26",
   "status": "partial",
   "theorems": [
    "Cordy.Memo.C26_value_partial",
    "Cordy.Memo.C26_not_run_again_partial",
    "Cordy.Memo.C26_ends_once",
    "Cordy.Memo.Example.C26_violation_mutation",
    "Cordy.Memo.Example.C26_violation_self",
    "Cordy.Memo.C26_violation_hash"
   ],
   "note": "For arguments that are not changed after the call and whose equality agrees with their hash; the violations show mutated arguments, unequal hashes and a function called with itself."
  },
  {
   "property": "C27",
   "status": "partial",
   "theorems": [
    "Cordy.Objects.C27_terminates",
    "Cordy.Objects.C27_original",
    "Cordy.Objects.C27_isomorphic",
    "Cordy.Objects.C27_equal_partial",
    "Cordy.Objects.C27_disjoint",
    "Cordy.Objects.C27_copy_unaffected",
    "Cordy.Objects.C27_original_unaffected",
    "Cordy.Objects.C27_violation_default",
    "Cordy.Objects.C27_violation_partial_function"
   ],
   "note": "Copies are separate and of equal shape; equality needs dicts without default function (lost: C27_violation_default) and no partial functions inside (not copied: C27_violation_partial_function)."
  },
  {
   "property": "C28",
   "status": "proved",
   "theorems": [
    "Cordy.Objects.C28_terminates",
    "Cordy.Objects.C28_str_terminates",
    "Cordy.Objects.C28_abbreviated_iff",
    "Cordy.Objects.C28_full",
    "Cordy.Objects.C28_text",
    "Cordy.Objects.C28_dots",
    "Cordy.Objects.C28_str"
   ],
   "note": ""
  },
  {
   "property": "C29",
   "status": "proved",
   "theorems": [
    "Cordy.Scan.C29_accounts",
    "Cordy.Scan.C29_intervals",
    "Cordy.Scan.C29_spelling",
    "Cordy.Scan.C29_violation_order",
    "Cordy.Scan.C29_violation_error_location",
    "Cordy.Scan.C29_roundtrip",
    "Cordy.Scan.C29_word",
    "Cordy.Scan.C29_operator"
   ],
   "note": "Line-end tokens inside strings precede the string token (C29_violation_order) and error locations of unterminated strings run past the text (C29_violation_error_location); the statement is about the other tokens."
  },
  {
   "property": "C30",
   "status": "partial",
   "theorems": [
    "Cordy.Scan.C30_literal",
    "Cordy.Scan.C30_value_partial",
    "Cordy.Scan.C30_violation_wraps"
   ],
   "note": "Literals scan exactly; their value is exact below 2^62 only (C30_value_partial), from 2^62 to 2^63-1 the accepted literal wraps (C30_violation_wraps)."
  },
  {
   "property": "C31",
   "status": "proved",
   "theorems": [
    "Cordy.Scan.C31_quote",
    "Cordy.Scan.C31_denotes",
    "Cordy.Scan.C31_escapes",
    "Cordy.Scan.C31_unique"
   ],
   "note": ""
  },
  {
   "property": "C32",
   "status": "partial",
   "theorems": [
    "Cordy.Scan.C32_line",
    "Cordy.Scan.C32_block_partial",
    "Cordy.Scan.C32_violations"
   ],
   "note": "Line comments proved; block comments proved for bodies without a pending star (C32_block_partial); the code violates the rest (C32_violations)."
  },
  {
   "property": "C33",
   "status": "proved",
   "theorems": [
    "Cordy.Graph.C33_builder",
    "Cordy.Graph.C33_locations",
    "Cordy.Graph.C33_graph_to_code",
    "Cordy.Graph.C33_code_to_graph"
   ],
   "note": ""
  },
  {
   "property": "C34",
   "status": "proved",
   "theorems": [
    "Cordy.VM.C34_program",
    "Cordy.VM.C34_block",
    "Cordy.VM.C34_no_longer"
   ],
   "note": ""
  },
  {
   "property": "C35",
   "status": "partial",
   "theorems": [
    "Cordy.Codegen.C35_value_partial",
    "Cordy.Codegen.C35_exact_partial",
    "Cordy.Codegen.C35_code_partial",
    "Cordy.Codegen.C35_violation_complex",
    "Cordy.Codegen.C35_violation_exit",
    "Cordy.Codegen.C35_tables"
   ],
   "note": "Optimised and plain expression have the same value and effects, under laws of the primitives; violated for a swapped operator on two complex constants and for `x . exit`."
  },
  {
   "property": "C36",
   "status": "partial",
   "theorems": [
    "Cordy.Codegen.C36_in_context",
    "Cordy.Codegen.C36_code",
    "Cordy.Codegen.C36_value_partial",
    "Cordy.Codegen.C36_violation_field_compose"
   ],
   "note": "Every expression except `a->x .= f`, which is compiled as a comparison (C36_violation_field_compose). Calls and primitives are arbitrary functions."
  },
  {
   "property": "C37",
   "status": "proved",
   "theorems": [
    "Cordy.Codegen.C37_and",
    "Cordy.Codegen.C37_or",
    "Cordy.Codegen.C37_if"
   ],
   "note": ""
  },
  {
   "property": "C38",
   "status": "proved",
   "theorems": [
    "Cordy.Codegen.C38_chain",
    "Cordy.Codegen.C38_true_iff"
   ],
   "note": ""
  },
  {
   "property": "C39",
   "status": "partial",
   "theorems": [
    "Cordy.Pattern.C39_meaning_partial",
    "Cordy.Pattern.C39_binds_partial",
    "Cordy.Pattern.C39_unique",
    "Cordy.Pattern.C39_store_sequence",
    "Cordy.Pattern.C39_store_dict",
    "Cordy.Pattern.C39_store_field",
    "Cordy.Pattern.C39_violation_set",
    "Cordy.Pattern.C39_violation_dict",
    "Cordy.Pattern.C39_violation_unicode",
    "Cordy.Pattern.C39_violation_two_stars"
   ],
   "note": "Lists, vectors and ASCII strings, patterns with at most one star at each level; the violations show sets, dicts, non-ASCII strings and two stars. C39_store_*: storing in elements of lists, vectors and dicts and in fields."
  },
  {
   "property": "C40",
   "status": "partial",
   "theorems": [
    "Cordy.Calls.C40_params_partial",
    "Cordy.Calls.C40_call",
    "Cordy.Calls.C40_binds",
    "Cordy.Calls.C40_violation_stars"
   ],
   "note": "Parameter lists with at most one variadic parameter; several are accepted and bound wrongly (C40_violation_stars)."
  },
  {
   "property": "C41",
   "status": "partial",
   "theorems": [
    "Cordy.Calls.C41_user_partial",
    "Cordy.Calls.C41_depth_partial",
    "Cordy.Calls.C41_violation_variadic",
    "Cordy.Natives.C41_native"
   ],
   "note": "Natives in full (C41_native); user functions from any partial application, except variadic functions given all their other arguments (C41_violation_variadic)."
  },
  {
   "property": "C42",
   "status": "proved",
   "theorems": [
    "Cordy.Calls.C42_call",
    "Cordy.Calls.C42_value",
    "Cordy.Calls.C42_balance"
   ],
   "note": ""
  },
  {
   "property": "C43",
   "status": "proved",
   "theorems": [
    "Cordy.VM.C43_closures_capture_variables"
   ],
   "note": ""
  },
  {
   "property": "C44",
   "status": "partial",
   "theorems": [
    "Cordy.Resolve.C44_scopes",
    "Cordy.Resolve.C44_resolves_partial",
    "Cordy.Resolve.C44_aligned_partial",
    "Cordy.Resolve.C44_fixed",
    "Cordy.Resolve.C44_upvalue_stable",
    "Cordy.Resolve.C44_violation_deep",
    "Cordy.Resolve.C44_violation_default"
   ],
   "note": "Names resolve to their declaration unless an upvalue is taken over out of order through several functions, or in a default value (C44_violation_deep, C44_violation_default); C44_fixed shows that one line is at fault for the first."
  },
  {
   "property": "C45",
   "status": "proved",
   "theorems": [
    "Cordy.Codegen.C45_call",
    "Cordy.Codegen.C45_literal"
   ],
   "note": ""
  },
  {
   "property": "C46",
   "status": "partial",
   "theorems": [
    "Cordy.Natives.C46_arity",
    "Cordy.Natives.C46_partial_wf",
    "Cordy.Natives.C46_no_panic",
    "Cordy.Natives.C46_callback_partial",
    "Cordy.Natives.C46_violation_min_int",
    "Cordy.Natives.C46_violation_unique",
    "Cordy.Natives.C46_callback_no_panic",
    "Cordy.Natives.C46_violation_count",
    "Cordy.Natives.C46_cases",
    "Cordy.Natives.C46_supported"
   ],
   "note": "All natives by every calling convention except those listed in the violations (min of one int, print/vector and the like as callbacks, wrong count in an error). C46_cases: the cases of the dispatches are exactly those the arities need."
  },
  {
   "property": "C47",
   "status": "proved",
   "theorems": [
    "Cordy.Repl.C47_failed_compile",
    "Cordy.Repl.C47_incomplete",
    "Cordy.Repl.C47_failed_line",
    "Cordy.Repl.C47_continuation",
    "Cordy.Repl.C47_eval"
   ],
   "note": ""
  },
  {
   "property": "C48",
   "status": "partial",
   "theorems": [
    "Cordy.Repl.C48_recovery_partial",
    "Cordy.Repl.C48_every_line",
    "Cordy.Repl.C48_stale_counters",
    "Cordy.Repl.C48_declare_field",
    "Cordy.Repl.C48_error_line",
    "Cordy.Repl.C48_line",
    "Cordy.Repl.C48_violation_let",
    "Cordy.Repl.C48_violation_closure",
    "Cordy.Repl.C48_violation_eval"
   ],
   "note": "Recovery restores a consistent state unless a global was declared and not yet initialised, an upvalue was open or `eval` added fields (violations)."
  },
  {
   "property": "C49",
   "status": "partial",
   "theorems": [
    "Cordy.Refs.C49_exclusive",
    "Cordy.Refs.C49_refused",
    "Cordy.Refs.C49_lifetime_partial",
    "Cordy.Refs.C49_lifetime_short",
    "Cordy.Refs.C49_violation_overflow"
   ],
   "note": "For fewer than 2^32 references to one object; beyond that the count wraps and the object is freed while in use (C49_violation_overflow)."
  },
  {
   "property": "C50",
   "status": "partial",
   "theorems": [
    "Cordy.Str.C50_substitutes",
    "Cordy.Str.C50_arguments",
    "Cordy.Str.C50_argument_count",
    "Cordy.Str.C50_width",
    "Cordy.Str.C50_malformed_partial",
    "Cordy.Str.C50_violation_width_panics"
   ],
   "note": "All format strings whose widths fit a machine word; others panic (C50_violation_width_panics)."
  },
  {
   "property": "C51",
   "status": "partial",
   "theorems": [
    "Cordy.Str.C51_int_reads",
    "Cordy.Str.C51_int_rejects",
    "Cordy.Str.C51_radix_reads",
    "Cordy.Str.C51_int_values",
    "Cordy.Str.C51_ord_domain",
    "Cordy.Str.C51_chr_domain",
    "Cordy.Str.C51_chr_partial",
    "Cordy.Str.C51_violation_ord",
    "Cordy.Str.C51_str_numeral",
    "Cordy.Str.C51_int_str",
    "Cordy.Str.C51_radix_numeral",
    "Cordy.Str.C51_radix_roundtrip",
    "Cordy.Str.C51_violation_negative_hex",
    "Cordy.Str.C51_violation_int_wraps",
    "Cordy.Str.C51_chr_ord_partial",
    "Cordy.Str.C51_ord_chr",
    "Cordy.Str.C51_violation_chr_truncates"
   ],
   "note": "hex/bin/int/chr/ord round trips in the ranges stated; negative hex, wrapping int('\u2026') and truncating chr are violations. C51_chr_partial: char for every character; C51_violation_ord: ord is an error outside ASCII."
  },
  {
   "property": "C52",
   "status": "proved",
   "theorems": [
    "Cordy.Str.C52_join_spec",
    "Cordy.Str.C52_join_split",
    "Cordy.Str.C52_split_join",
    "Cordy.Str.C52_split_join_char",
    "Cordy.Str.C52_overlap_witness",
    "Cordy.Str.C52_split_regex"
   ],
   "note": ""
  },
  {
   "property": "C53",
   "status": "partial",
   "theorems": [
    "Cordy.Str.C53_real_imag",
    "Cordy.Str.C53_sqrt",
    "Cordy.Str.C53_sqrt_negative",
    "Cordy.Str.C53_gcd_partial",
    "Cordy.Str.C53_violation_gcd",
    "Cordy.Str.C53_lcm_partial",
    "Cordy.Str.C53_abs_partial",
    "Cordy.Str.C53_violation_abs",
    "Cordy.Str.C53_count_bits",
    "Cordy.Str.C53_count_bits_partial",
    "Cordy.Str.C53_violation_bits",
    "Cordy.Str.C53_count_sum"
   ],
   "note": "gcd, lcm, abs except where the least int is involved or gcd has one negative argument; count_ones and count_zeros count 64 bits, not 63 as documented (violations)."
  },
  {
   "property": "C54",
   "status": "proved",
   "theorems": [
    "Cordy.Decls.C54_records",
    "Cordy.Decls.C54_type_members"
   ],
   "note": ""
  },
  {
   "property": "C55",
   "status": "proved",
   "theorems": [
    "Cordy.Op.C55_vector_vector",
    "Cordy.Op.C55_vector_scalar",
    "Cordy.Op.C55_scalar_vector",
    "Cordy.Op.C55_unary"
   ],
   "note": ""
  },
  {
   "property": "C56",
   "status": "partial",
   "theorems": [
    "Cordy.Report.C56_line_partial",
    "Cordy.Report.C56_line_never_below",
    "Cordy.Report.C56_report_partial",
    "Cordy.Report.C56_violation_bytes",
    "Cordy.Report.C56_violation_end",
    "Cordy.Report.C56_source",
    "Cordy.Report.C56_stack_trace"
   ],
   "note": "ASCII sources (C56_line_partial, C56_report_partial); bytes are taken for characters (C56_violation_bytes) and a location that ends at a line's first character is off (C56_violation_end)."
  },
  {
   "property": "C57",
   "status": "proved",
   "theorems": [
    "Cordy.Grammar.C57_parse",
    "Cordy.Grammar.C57_unique",
    "Cordy.Grammar.C57_two_operators",
    "Cordy.Grammar.C57_comparison",
    "Cordy.Grammar.C57_prefix",
    "Cordy.Grammar.C57_assign_right",
    "Cordy.Grammar.C57_full_parens",
    "Cordy.Grammar.C57_full_determines"
   ],
   "note": ""
  },
  {
   "property": "C58",
   "status": "proved",
   "theorems": [
    "Cordy.Decls.C58_literals",
    "Cordy.Decls.C58_modules",
    "Cordy.Decls.C58_violation_native_modules"
   ],
   "note": ""
  },
  {
   "property": "C59",
   "status": "proved",
   "theorems": [
    "Cordy.C59_present",
    "Cordy.C59_no_default",
    "Cordy.C59_default_once",
    "Cordy.C59_constant",
    "Cordy.C59_function"
   ],
   "note": ""
  },
  {
   "property": "C60",
   "status": "proved",
   "theorems": [
    "Cordy.Syntax.C60_only_markup",
    "Cordy.Syntax.C60_blocking",
    "Cordy.Syntax.C60_sections",
    "Cordy.Syntax.C60_violation_classes",
    "Cordy.Syntax.C60_words",
    "Cordy.Syntax.C60_others"
   ],
   "note": ""
  },
  {
   "property": "C61",
   "status": "proved",
   "theorems": [
    "Cordy.Op.C61_rational",
    "Cordy.Op.C61_pow",
    "Cordy.Op.C61_violation_pow"
   ],
   "note": ""
  },
  {
   "property": "C62",
   "status": "proved",
   "theorems": [
    "Cordy.Op.C62_concat",
    "Cordy.Op.C62_repeat",
    "Cordy.Op.C62_in",
    "Cordy.Op.C62_in_keys"
   ],
   "note": ""
  },
  {
   "property": "C63",
   "status": "proved",
   "theorems": [
    "Cordy.C63_counter"
   ],
   "note": ""
  },
  {
   "property": "C64",
   "status": "partial",
   "theorems": [
    "Cordy.Stmts.C64_function_partial",
    "Cordy.Stmts.C64_program_partial",
    "Cordy.Stmts.C64_rules",
    "Cordy.Stmts.C64_return_violation",
    "Cordy.Stmts.Toy.C64_do_violation",
    "Cordy.Stmts.Toy.C64_elif_violation",
    "Cordy.Stmts.Toy.C64_continue_violation"
   ],
   "note": "All programs except those with: `do` directly after an expression statement, `elif c then a else b` in a statement, `continue` in the else of a for, `return` outside of functions; each of these is a violation theorem. Expressions are arbitrary functions of the variables in scope."
  },
  {
   "property": "C65",
   "status": "partial",
   "theorems": [
    "Cordy.Late.C65_block_partial",
    "Cordy.Late.C65_shape",
    "Cordy.Late.C65_undeclared",
    "Cordy.Late.C65_accepted_partial",
    "Cordy.Late.C65_rejected",
    "Cordy.Late.C65_no_panic_partial",
    "Cordy.Late.C65_pattern_partial",
    "Cordy.Late.C65_violation_order",
    "Cordy.Late.C65_violation_swap",
    "Cordy.Late.C65_violation_end",
    "Cordy.Late.C65_violation_self",
    "Cordy.Late.C65_violation_store",
    "Cordy.Late.C65_violation_panic_method",
    "Cordy.Late.C65_violation_panic_global",
    "Cordy.Late.C65_violation_captured",
    "Cordy.Late.C65_violation_initialiser"
   ],
   "note": "All blocks that are Regular: each late name is settled by what it means and is one opcode, adjacent late names are declared in the order in which they are used, a late name that ends a block is the only late one in it. The violations show that each of these conditions is needed; C65_shape and C65_undeclared hold for every program."
  },
  {
   "property": "C66",
   "status": "proved",
   "theorems": [
    "Cordy.Layout.C66_closed",
    "Cordy.Layout.C66_function",
    "Cordy.Layout.C66_main",
    "Cordy.Layout.C66_locations",
    "Cordy.Layout.C66_stable",
    "Cordy.Layout.C66_trace"
   ],
   "note": ""
  },
  {
   "property": "C67",
   "status": "proved",
   "theorems": [
    "Cordy.Html.C67_page"
   ],
   "note": ""
  },
  {
   "property": "C68",
   "status": "partial",
   "theorems": [
    "Cordy.Html.C68_terminal_partial",
    "Cordy.Html.C68_violation",
    "Cordy.Html.C68_violation_lines"
   ],
   "note": "Proved for every line without an ampersand. Missing: ampersands are not escaped by the code, so `//[` and `//&#91;` are shown alike (C68_violation, C68_violation_lines)."
  },
  {
   "property": "C69",
   "status": "proved",
   "theorems": [
    "Cordy.Ffi.C69_argument",
    "Cordy.Ffi.C69_result",
    "Cordy.Ffi.C69_round_trip",
    "Cordy.Ffi.C69_session",
    "Cordy.Ffi.C69_called",
    "Cordy.Ffi.C69_not_called"
   ],
   "note": ""
  },
  {
   "property": "C70",
   "status": "proved",
   "theorems": [
    "Cordy.Cli.C70_accepted",
    "Cordy.Cli.C70_refused",
    "Cordy.Cli.C70_unambiguous",
    "Cordy.Cli.C70_action"
   ],
   "note": ""
  },
  {
   "property": "C71",
   "status": "proved",
   "theorems": [
    "Cordy.Parser.C71_ends",
    "Cordy.Parser.C71_no_panic",
    "Cordy.Parser.C71_deterministic",
    "Cordy.Parser.C71_accepted",
    "Cordy.Parser.C71_eval_accepted",
    "Cordy.Parser.C71_balanced",
    "Cordy.Parser.C71_text",
    "Cordy.Parser.C71_first_error_stays"
   ],
   "note": ""
  },
  {
   "property": "C72",
   "status": "partial",
   "theorems": [
    "Cordy.Continuation.C72_beginning_partial",
    "Cordy.Continuation.C72_scan_error_final",
    "Cordy.Continuation.C72_syntax_error_final",
    "Cordy.Continuation.C72_lines_partial",
    "Cordy.Continuation.C72_violation"
   ],
   "note": "Proved: if text `a` (ending with a line break) begins a program that runs, the REPL runs `a`, asks for more, or its first error is about a name or about the last token of `a`, which is `(`, `*`, `not`, `fn`, `min` or `max` (C72_beginning_partial, C72_lines_partial); any other report of the scanner or the parser is final (C72_scan_error_final, C72_syntax_error_final). Missing: the code violates the full property for these six tokens (C72_violation: `f(` at the end of a line is reported at once); and that a text for which more is asked can always be completed."
  },
  {
   "property": "C73",
   "status": "partial",
   "theorems": [
    "Cordy.Iter.C73_items",
    "Cordy.Iter.C73_changing",
    "Cordy.Iter.C73_for",
    "Cordy.Iter.C73_len_partial",
    "Cordy.Iter.C73_reverse_partial",
    "Cordy.Iter.C73_reverse_changing_partial",
    "Cordy.Iter.C73_rfind_partial",
    "Cordy.Iter.C73_violation_rfind_enumerate",
    "Cordy.Iter.C73_violation_enumerate",
    "Cordy.Iter.C73_violation_range"
   ],
   "note": "Forward traversal is complete. Partial where the code is wrong: len of ranges whose bounds are not a multiple of the step apart (C14), reversed traversal of ranges (C14, C73_violation_range) and of enumerate (C73_violation_enumerate, C73_violation_rfind_enumerate)."
  },
  {
   "property": "C74",
   "status": "partial",
   "theorems": [
    "Cordy.Full.C74_function_partial",
    "Cordy.Full.C74_program_partial",
    "Cordy.Full.C74_optimised_partial"
   ],
   "note": "Proved for function bodies and programs with the real code of expressions, with and without the expression optimiser. Missing: `a->x .= f` (violates C36), the statement forms that the compiler gets wrong (violations in C64), expressions whose meaning the optimiser changes (violations in C35)."
  },
  {
   "property": "C75",
   "status": "partial",
   "theorems": [
    "Cordy.Typeof.C75_typeof_distinguishes",
    "Cordy.Typeof.C75_is_partial",
    "Cordy.Typeof.C75_is_violation",
    "Cordy.Typeof.C75_is_not",
    "Cordy.Typeof.C75_is_error",
    "Cordy.Typeof.C75_is_typeof_partial",
    "Cordy.Typeof.C75_is_typeof_violation",
    "Cordy.Typeof.C75_typeof_typeof",
    "Cordy.Typeof.C75_subtypes"
   ],
   "note": "The guarantee `x is typeof(x)` is broken by the code for ranges and enumerations (an error), memoized functions and field accesses (false): C75_is_typeof_violation; proved for all other values. typeof distinguishing types and `is not` are proved for all values."
  },
  {
   "property": "C76",
   "status": "partial",
   "theorems": [
    "Cordy.Program.C76_rules",
    "Cordy.Program.C76_program_partial",
    "Cordy.Program.C76_optimised_partial",
    "Cordy.Program.C76_blocks",
    "Cordy.Program.C76_compiled_partial"
   ],
   "note": "Proved for whole programs with recursive functions, default values and patterns of parameters and native functions that call back, plain, and with both optimisers (of expressions and of blocks). Missing: what C74 misses (the compiler gets it wrong), a top-level return that is reached (C64 violation)."
  },
  {
   "property": "C77",
   "status": "partial",
   "theorems": [
    "Cordy.Search.C77_matches",
    "Cordy.Search.C77_search_ends",
    "Cordy.Search.C77_search_sound",
    "Cordy.Search.C77_search_partial",
    "Cordy.Search.C77_search_panic_violation",
    "Cordy.Search.C77_result",
    "Cordy.Search.C77_replace_panic_violation",
    "Cordy.Search.C77_replace_split",
    "Cordy.Search.C77_split",
    "Cordy.Search.C77_replace_partial",
    "Cordy.Search.C77_replace_fails",
    "Cordy.Search.C77_replace_self",
    "Cordy.Search.C77_search_violation",
    "Cordy.Search.C77_replace_violation",
    "Cordy.Search.C77_split_violation"
   ],
   "note": "Violated by the code: search ends at an empty match where it stands (C77_search_violation), panics if the engine gives up; replace goes on calling after a failed call and reports the last error (C77_replace_violation); split loses text if the engine gives up (C77_split_violation). Proved in full: termination, soundness of search, replace = split then join, split cuts at the matches, replacing matches by themselves."
  },
  {
   "property": "C78",
   "status": "partial",
   "theorems": [
    "Cordy.Io.C78_output",
    "Cordy.Io.C78_lines",
    "Cordy.Io.C78_last_line",
    "Cordy.Io.C78_read",
    "Cordy.Io.C78_input_once",
    "Cordy.Io.C78_violation_end_of_input",
    "Cordy.Io.C78_violation_read_crlf",
    "Cordy.Io.C78_violation_utf8",
    "Cordy.Io.C78_files_partial",
    "Cordy.Io.C78_errors",
    "Cordy.Io.C78_violation_lone_cr"
   ],
   "note": "Output, lines, input read once, errors and files are proved for all histories. The code violates: telling the end of the input from an empty line, \\r\\n in read, lone \\r in read_text, panic on input that is not UTF-8."
  },
  {
   "property": "C79",
   "status": "partial",
   "theorems": [
    "Cordy.Session.C79_session_partial",
    "Cordy.Session.C79_rules",
    "Cordy.Session.C79_session_exact_partial"
   ],
   "note": "Proved for all lists of lines, with failures at any point: the machine does exactly what the rules say. Missing: what C76 misses (return outside of functions), and an error in a line before all variables which it declares have got values (the rules say nothing; C48 has the violation)."
  },
  {
   "property": "C80",
   "status": "partial",
   "theorems": [
    "Cordy.Source.C80_accepts",
    "Cordy.Source.C80_one_tree",
    "Cordy.Source.C80_value_partial",
    "Cordy.Source.C80_every_tree",
    "Cordy.Source.C80_arithmetic"
   ],
   "note": "C80_accepts: what is compiled; C80_one_tree: one meaning; C80_value_partial: the value, for all texts without `a->f .= g`, which the compiler gets wrong (C36_violation_field_compose); C80_every_tree: every tree of operators has a text; C80_arithmetic: integers of mathematics. Not in the grammar model: function expressions, slice literals, patterns."
  },
  {
   "property": "C81",
   "status": "partial",
   "theorems": [
    "Cordy.Source.C81_accepts",
    "Cordy.Source.C81_one_tree",
    "Cordy.Source.C81_program_partial",
    "Cordy.Source.C81_optimised_partial",
    "Cordy.Source.C81_in_step",
    "Cordy.Source.C81_place",
    "Cordy.Source.C81_pattern"
   ],
   "note": "C81_accepts: exactly which texts are compiled; C81_one_tree: one reading; C81_program_partial: the code ends, fails and does what the rules say, and does not crash, for programs without `a->f .= g` (C36) and the statements that C64 shows to be miscompiled (continue in the else of a for loop, do directly after an expression, elif c then a else b); C81_optimised_partial: the same with the expression optimiser; C81_in_step, C81_place, C81_pattern: names and variables go together. Programs with functions: C82. Patterns are in let and for; not in the grammar model: assignments to patterns, structs, modules, and what C80 leaves out."
  },
  {
   "property": "C82",
   "status": "partial",
   "theorems": [
    "Cordy.Source.C82_accepts",
    "Cordy.Source.C82_program_partial",
    "Cordy.Source.C82_compiled_partial"
   ],
   "note": "C82_accepts: exactly which texts with functions are compiled; C82_program_partial: the code of the main program and of the functions ends, fails and does what the rules say, and does not crash; C82_compiled_partial: the same with both optimisers. Missing: what C76 and C81 miss; functions inside functions or blocks, function expressions and parameters `*x = e` are not in the grammar model. LateOnce excludes functions that use names declared after them twice (C65 shows that the compiler may exchange them)."
  },
  {
   "property": "C83",
   "status": "partial",
   "theorems": [
    "Cordy.Rational.C83_rational",
    "Cordy.Rational.C83_not_rational",
    "Cordy.Rational.C83_bad_denom",
    "Cordy.Rational.C83_numer_denom",
    "Cordy.Rational.C83_whitespace",
    "Cordy.Rational.C83_text",
    "Cordy.Rational.C83_round_trip",
    "Cordy.Rational.C83_blank",
    "Cordy.Rational.C83_grammar",
    "Cordy.Rational.C83_abs",
    "Cordy.Rational.C83_abs_complex_partial",
    "Cordy.Rational.C83_abs_int_partial",
    "Cordy.Rational.C83_abs_error",
    "Cordy.Rational.C83_sqrt_whole",
    "Cordy.Rational.C83_sqrt_rounds",
    "Cordy.Rational.C83_sqrt_int",
    "Cordy.Rational.C83_abs_vector",
    "Cordy.Rational.C83_sqrt_square_partial",
    "Cordy.Rational.C83_sqrt_error",
    "Cordy.Rational.C83_violation_sqrt"
   ],
   "note": "rational, numer, denom, the grammar of texts (C83_grammar, C83_whitespace, C83_blank), abs of rationals, ints, complex numbers and vectors, sqrt of squares and whole numbers. Missing: sqrt of other rationals rounds numerator and denominator each (C83_sqrt_rounds), which is not the greatest y with y*y <= x (C83_violation_sqrt); abs of the least int, and of complex numbers with a part -2^63."
  },
  {
   "property": "C84",
   "status": "partial",
   "theorems": [
    "Cordy.Trim.C84_trim",
    "Cordy.Trim.C84_trim_unique",
    "Cordy.Trim.C84_trim_twice",
    "Cordy.Trim.C84_case_partial",
    "Cordy.Trim.C84_error"
   ],
   "note": "trim completely; to_lower and to_upper on texts of ASCII characters. Missing: the Unicode tables for other texts."
  },
  {
   "property": "C85",
   "status": "partial",
   "theorems": [
    "Cordy.Escape.C85_no_controls",
    "Cordy.Escape.C85_meaning_partial",
    "Cordy.Escape.C85_violation_escaped",
    "Cordy.Escape.C85_same"
   ],
   "note": "escape_regex. Missing: a control character after a backslash (C85_violation_escaped)."
  },
  {
   "property": "C86",
   "status": "proved",
   "theorems": [
    "Cordy.Sums.C86_sum",
    "Cordy.Sums.C86_sum_order",
    "Cordy.Sums.C86_sum_error",
    "Cordy.Sums.C86_concat_flat_map",
    "Cordy.Sums.C86_concat"
   ],
   "note": "sum and concat of all values and iterables."
  },
  {
   "property": "C87",
   "status": "proved",
   "theorems": [
    "Cordy.Literal.C87_sequence",
    "Cordy.Literal.C87_set",
    "Cordy.Literal.C87_dict",
    "Cordy.Literal.C87_dict_error",
    "Cordy.Literal.C87_pair",
    "Cordy.Literal.C87_spread"
   ],
   "note": "Literals of all four types, from LiteralBegin to LiteralEnd."
  },
  {
   "property": "C88",
   "status": "partial",
   "theorems": [
    "Cordy.Listing.C88_lines",
    "Cordy.Listing.C88_names_partial",
    "Cordy.Listing.C88_compiled",
    "Cordy.Listing.C88_aligned",
    "Cordy.Listing.C88_jump_partial",
    "Cordy.Listing.C88_violation_assert",
    "Cordy.Listing.C88_violation_late",
    "Cordy.Listing.C88_violation_number"
   ],
   "note": "Listing of emitted code with and without the optimiser. Missing: names in code with a load or store of a global that was declared later (C88_violation_late: the names shift), branches of assert (C88_violation_assert: the offset is shown); opcode numbers are shown modulo 10000 (C88_violation_number)."
  },
  {
   "property": "C89",
   "status": "partial",
   "theorems": [
    "Cordy.StrRepr.C89_reads",
    "Cordy.StrRepr.C89_round_trip_partial",
    "Cordy.StrRepr.C89_violation_quote",
    "Cordy.StrRepr.C89_violation_nul"
   ],
   "note": "All strings without single quotes: repr is one literal (C89_reads); its value is the string exactly if no character is shown with an escape that the language lacks (C89_round_trip_partial). Missing, because the code is wrong: single quotes (C89_violation_quote), the character 0 and characters shown as \\u{..} (C89_violation_nul)."
  },
  {
   "property": "C90",
   "status": "proved",
   "theorems": [
    "Cordy.Truth.C90_items",
    "Cordy.Truth.C90_scalars"
   ],
   "note": "All values of Model/Value; memoized functions, partial functions and iterators are not in that type (they are true by the last case of to_bool)."
  }
 ]
}