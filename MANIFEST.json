{
 "claims": [
  {
   "property": "C01",
   "status": "partial",
   "theorems": [
    "Verif.Slice.C01_getslice_partial",
    "Verif.Slice.C01_getslice_forward",
    "Verif.Slice.C01_refuted_start",
    "Verif.Slice.C01_refuted_stop",
    "Verif.Slice.C01_refuted_memory"
   ],
   "note": "All lists and bounds except a negative step with a bound below -len, where the code deviates (refuted with witnesses)."
  },
  {
   "property": "C02",
   "status": "partial",
   "theorems": [
    "Verif.Range.C02_range_partial",
    "Verif.Range.C02_one_argument",
    "Verif.Range.C02_refuted",
    "Verif.Range.C02_refuted_overflow",
    "Verif.Range.C02_refuted_trap"
   ],
   "note": "See Range/Props.lean for the excluded inputs; each is refuted with a witness."
  },
  {
   "property": "C03",
   "status": "partial",
   "theorems": [
    "Verif.CList.C03_history_partial",
    "Verif.CList.C03_step_partial",
    "Verif.CList.C03_refuted_delitem",
    "Verif.CList.C03_refuted_index",
    "Verif.CList.C03_refuted_delslice"
   ],
   "note": "Every history of covered calls refines the mathematical sequence; excluded calls (del of a missing index, 64-bit indexes, negative-step slice deletion) refuted."
  },
  {
   "property": "C04",
   "status": "proved",
   "theorems": [
    "Verif.Sort.C04_sorted",
    "Verif.Sort.C04_unique"
   ],
   "note": "timSort modelled function by function (timsort.c); sorted, stable permutation for every total preorder; uniqueness of the result. Comparison is a pure function; allocation of the temporary storage succeeds."
  },
  {
   "property": "C05",
   "status": "proved",
   "theorems": [
    "Verif.Sort.C05_safe",
    "Verif.Sort.C05_stack"
   ],
   "note": "No out-of-bounds access (array, temporary storage, 128-entry run stack) and termination for any comparison function, arrays below 2^63 elements; C05_stack is the arithmetic bound on the stack depth."
  },
  {
   "property": "C06",
   "status": "partial",
   "theorems": [
    "Verif.Dict.C06_history",
    "Verif.Dict.C06_results",
    "Verif.Dict.C06_step",
    "Verif.Dict.C06_observe",
    "Verif.Dict.alookup_aset",
    "Verif.Dict.alookup_aerase",
    "Verif.Dict.C06_refuted_array_bounds"
   ],
   "note": "Every history of fewer than 2^28 calls (no table index above the int range) refines the insertion-ordered finite map for every consistent equality and hash, with termination. The memory clause is refuted: deletion in a rebuilt small table writes tb_indices[-1]."
  },
  {
   "property": "C07",
   "status": "partial",
   "theorems": [
    "Verif.Dict.C07_eq_partial",
    "Verif.Dict.C07_lt_partial",
    "Verif.Dict.C07_refuted_symmetric",
    "Verif.Dict.C07_refuted_gt",
    "Verif.Dict.C07_refuted_ge"
   ],
   "note": "== and <, <= agree with the map relations unless the left dict has a small table and the right one a large one (refuted: == not symmetric). > and >= are refuted."
  },
  {
   "property": "C08",
   "status": "partial",
   "theorems": [
    "Verif.Set.C08_history_partial",
    "Verif.Set.C08_safety_partial",
    "Verif.Set.C08_outcomes_partial",
    "Verif.Set.C08_pop",
    "Verif.Set.C08_eq",
    "Verif.Set.C08_ge",
    "Verif.Set.C08_gt",
    "Verif.Set.C08_sub",
    "Verif.Set.C08_and",
    "Verif.Set.C08_or",
    "Verif.Set.C08_xor",
    "Verif.Set.C08_isdisjoint_partial",
    "Verif.Set.C08_refuted_isdisjoint",
    "Verif.Set.C08_refuted_termination",
    "Verif.Set.C08_refuted_minus_one",
    "Verif.Set.C08_refuted_dummy"
   ],
   "note": "Finite set for all histories and set algebra, for elements whose hash is nonnegative as a long; for other hashes except -1 results are right if the calls end. Refuted: look-ups with negative hashes can run forever, hash -1 collides with the removed mark, isdisjoint raises StopIteration on disjoint sets. Fewer than 2^29 elements."
  },
  {
   "property": "C09",
   "status": "partial",
   "theorems": [
    "Verif.Search.C09_bmh_partial",
    "Verif.Search.C09_rbmh",
    "Verif.Search.C09_refuted_huge",
    "Verif.Str.C09_find_partial",
    "Verif.Str.C09_rfind",
    "Verif.Str.C09_contains_partial",
    "Verif.Str.C09_index_partial",
    "Verif.Str.C09_rindex",
    "Verif.Str.C09_find_bounds_partial",
    "Verif.Str.C09_refuted_negative_start",
    "Verif.Str.C09_refuted_start_truncated"
   ],
   "note": "Search on the byte level and on code point level for strings below 2^31 bytes; negative or 64-bit bounds and huge inputs are refuted with witnesses."
  },
  {
   "property": "C10",
   "status": "partial",
   "theorems": [
    "Verif.Str.C10_split_partial",
    "Verif.Str.C10_join",
    "Verif.Str.C10_replace_partial",
    "Verif.Str.C10_partition_partial",
    "Verif.Str.C10_rpartition",
    "Verif.Str.C10_count_partial",
    "Verif.Str.C10_split_join_partial",
    "Verif.Str.C10_split_limit_partial",
    "Verif.Str.C10_replace_join_partial",
    "Verif.Str.C10_split_empty_sep",
    "Verif.Str.C10_refuted_maxsplit_zero",
    "Verif.Str.C10_refuted_negative_count",
    "Verif.Str.C10_refuted_empty_pattern"
   ],
   "note": "All strings with total sizes below the stated bounds; maxsplit 0, negative count and empty pattern are refuted with witnesses."
  },
  {
   "property": "C100",
   "status": "proved",
   "theorems": [
    "Verif.Norm.C100_names"
   ],
   "note": ""
  },
  {
   "property": "C101",
   "status": "partial",
   "theorems": [
    "Verif.Cps.C101_parameters_partial",
    "Verif.Cps.C101_refuted_twice"
   ],
   "note": "Proved unless statements after a compound statement with calls assign to a variable which that statement declares; refuted there: the variable occurs twice."
  },
  {
   "property": "C102",
   "status": "partial",
   "theorems": [
    "Verif.Cps.C102_ends_partial",
    "Verif.Cps.C102_keeps_partial",
    "Verif.Cps.C102_refuted_missing",
    "Verif.Cps.C102_refuted_drop",
    "Verif.Cps.C102_refuted_cell",
    "Verif.Cps.C102_refuted_result"
   ],
   "note": "Proved, in both directions, under the static conditions Proc.ok and if the source does not go wrong. Refuted without them: a variable needed only after the enclosing statement is not passed on; a try without calls drops the handler of the wrong kind; a volatile variable that is only assigned is not passed on; the result of a last call is not dropped."
  },
  {
   "property": "C103",
   "status": "partial",
   "theorems": [
    "Verif.Cps.C103_forever_partial",
    "Verif.Cps.C103_refuted_missing"
   ],
   "note": "Proved under the conditions of C102; refuted without them."
  },
  {
   "property": "C104",
   "status": "partial",
   "theorems": [
    "Verif.Cast.C104_refl_partial",
    "Verif.Cast.C104_trans_partial",
    "Verif.Cast.C104_antisymm_partial",
    "Verif.Cast.C104_option_partial",
    "Verif.Cast.C104_refuted_variable",
    "Verif.Cast.C104_refuted_alias",
    "Verif.Cast.C104_refuted_subclass",
    "Verif.Cast.C104_refuted_wildcard"
   ],
   "note": "Order proved for types without wildcards and aliases where no class inherits from a covariant class. Refuted: a type variable cannot be used for its option; not transitive with an alias, or with a subclass of list; a wildcard argument of an ancestor does not match."
  },
  {
   "property": "C105",
   "status": "partial",
   "theorems": [
    "Verif.Cast.C105_lub_partial",
    "Verif.Cast.C105_fold_partial",
    "Verif.Cast.C105_exists_partial",
    "Verif.Cast.C105_refuted_args",
    "Verif.Cast.C105_refuted_exists"
   ],
   "note": "Least upper bound proved for types without generic classes, keyword components, and None or options of type variables in parameters; existence for classes. Refuted: lub list[int] list[str] = list[int]; no bound for functions of ?int and of ?str."
  },
  {
   "property": "C106",
   "status": "partial",
   "theorems": [
    "Verif.Cast.C106_glb_partial",
    "Verif.Cast.C106_fold_partial",
    "Verif.Cast.C106_refuted_none",
    "Verif.Cast.C106_refuted_variable",
    "Verif.Cast.C106_refuted_bound",
    "Verif.Cast.C106_refuted_option"
   ],
   "note": "Greatest lower bound proved for types without generic classes, keyword components, None and options of type variables. Refuted: glb None int = None; glb ?T T = T; no bound for a type variable and its bound, or for ?int and ?str."
  },
  {
   "property": "C107",
   "status": "proved",
   "theorems": [
    "Verif.Hash.C107_sink",
    "Verif.Hash.C107_bytes",
    "Verif.Hash.C107_scratch"
   ],
   "note": "For all feeds, whatever the buffer holds."
  },
  {
   "property": "C108",
   "status": "partial",
   "theorems": [
    "Verif.Hash.C108_name",
    "Verif.Hash.C108_info",
    "Verif.Hash.C108_items_partial",
    "Verif.Hash.C108_refuted_strings"
   ],
   "note": "Proved for names, types and interface entries, and for items in which no part of a string literal begins with the character 5. Refuted: the end of a list of strings (byte 5) is also a character a raw string may begin with, so that a literal can hold the feed of the following statements."
  },
  {
   "property": "C109",
   "status": "proved",
   "theorems": [
    "Verif.Hash.C109_final",
    "Verif.Hash.C109_unique",
    "Verif.Hash.C109_paths",
    "Verif.Hash.C109_order",
    "Verif.Hash.C109_cycle",
    "Verif.Hash.C109_fast"
   ],
   "note": "stronglyConnComp of the library containers is a hypothesis (its documented result). Uniqueness asks that the strings of the names differ."
  },
  {
   "property": "C11",
   "status": "partial",
   "theorems": [
    "Verif.Str.C11_len",
    "Verif.Str.C11_getitem_partial",
    "Verif.Str.C11_iterate_partial",
    "Verif.Str.C11_iterate_terminates",
    "Verif.Str.C11_getslice_partial",
    "Verif.Str.C11_add",
    "Verif.Str.C11_refuted_index",
    "Verif.Str.C11_refuted_iterate_nul",
    "Verif.Str.C11_refuted_slice"
   ],
   "note": "len, indexing, iteration, slicing and concatenation of every represented string; indexes beyond 32 bits, NUL in iteration and slices stepping far out of non-ASCII strings are refuted with witnesses."
  },
  {
   "property": "C110",
   "status": "partial",
   "theorems": [
    "Verif.Hash.C110_sound_partial",
    "Verif.Hash.C110_refuted_cycle",
    "Verif.Hash.C110_refuted_missing"
   ],
   "note": "Proved where no dependency is on a cycle or own hashes tell names apart, and every local dependency has a hash. Refuted: in the public hashes two names can swap places, one in a cycle and one outside; dependencies without a hash are skipped."
  },
  {
   "property": "C111",
   "status": "partial",
   "theorems": [
    "Verif.Hash.C111_occurs_partial",
    "Verif.Hash.C111_sound",
    "Verif.Hash.C111_reference",
    "Verif.Hash.C111_extra",
    "Verif.Hash.C111_refuted_comp",
    "Verif.Hash.C111_refuted_types",
    "Verif.Hash.C111_refuted_own"
   ],
   "note": "Proved: everything collected is referred to; every reference to a name that nothing in the item introduces is collected; agreement with the free names up to the item's own name and names of nested declaration groups. Refuted: the source of a comprehension is taken to be in the scope of its pattern; types written in patterns are not collected."
  },
  {
   "property": "C112",
   "status": "partial",
   "theorems": [
    "Verif.Trans.C112_reduct_partial",
    "Verif.Trans.C112_repaired",
    "Verif.Trans.C112_red_cst",
    "Verif.Trans.C112_refuted_comp",
    "Verif.Trans.C112_refuted_source",
    "Verif.Trans.C112_refuted_eta",
    "Verif.Trans.C112_refuted_rename"
   ],
   "note": "Proved for the code with four repairs (parameters checked in eta-reduction, new names avoiding the expressions put in, comprehensions renamed like lambdas with their source outside the scope, no excess arguments), and for the code itself whenever it returns what the repaired code does. Refuted for the code by a capture in a comprehension, a source not substituted in, an eta-reduction that frees a parameter, and a new name that captures."
  },
  {
   "property": "C113",
   "status": "partial",
   "theorems": [
    "Verif.Trans.C113_plain_partial",
    "Verif.Trans.C113_nodes",
    "Verif.Trans.C113_refuted_lost",
    "Verif.Trans.C113_refuted_twice",
    "Verif.Trans.C113_refuted_order",
    "Verif.Trans.C113_refuted_tuple"
   ],
   "note": "Proved: an expression in which nothing can be reduced is left as it is; no operation occurs in the result that was not in the expression or the substitution. Refuted: effects of arguments are lost, repeated or exchanged, and effects of tuple components that are not selected are lost."
  },
  {
   "property": "C114",
   "status": "proved",
   "theorems": [
    "Verif.Lift.C114_rounds",
    "Verif.Lift.C114_closure"
   ],
   "note": "For groups in which no name is declared twice."
  },
  {
   "property": "C115",
   "status": "partial",
   "theorems": [
    "Verif.Lift.C115_lift_partial",
    "Verif.Lift.C115_unique_partial",
    "Verif.Lift.C115_refuted_hidden",
    "Verif.Lift.C115_refuted_local",
    "Verif.Lift.C115_refuted_arity"
   ],
   "note": "Proved for modules in which no name of a function hides a name of a scope outside it, and local functions use only local variables that have been assigned where the function is declared. Refuted if a parameter or local variable hides a variable that an inner function called there uses, and if it hides a name of the module. The converse, that the lifted function returns only if the function does, is not shown."
  },
  {
   "property": "C116",
   "status": "proved",
   "theorems": [
    "Verif.Build.C116_order",
    "Verif.Build.C116_once",
    "Verif.Build.C116_limit"
   ],
   "note": "For graphs as stronglyConnComp orders them."
  },
  {
   "property": "C117",
   "status": "proved",
   "theorems": [
    "Verif.Build.C117_progress",
    "Verif.Build.C117_ends",
    "Verif.Build.C117_result",
    "Verif.Build.C117_blocked"
   ],
   "note": "Each worker is taken to return at some time."
  },
  {
   "property": "C118",
   "status": "proved",
   "theorems": [
    "Verif.Build.C118_interest",
    "Verif.Build.C118_once",
    "Verif.Build.C118_all"
   ],
   "note": ""
  },
  {
   "property": "C119",
   "status": "partial",
   "theorems": [
    "Verif.Incr.C119_same_partial",
    "Verif.Incr.C119_refuted_star",
    "Verif.Incr.C119_refuted_unused",
    "Verif.Incr.C119_refuted_witness",
    "Verif.Incr.C119_refuted_order"
   ],
   "note": "Proved for hashes without collisions and front passes whose result depends on other modules only through the public names that are recorded, and where the two orders of names agree; a small language with imports by name satisfies the laws. Refuted for `from m import *`, for names that are imported but not mentioned, for extensions (whose names are not recorded as public dependencies), and for implementation hashes where the orders of names differ."
  },
  {
   "property": "C12",
   "status": "partial",
   "theorems": [
    "Verif.Str.C12_lstrip",
    "Verif.Str.C12_lstrip_default",
    "Verif.Str.C12_rstrip_partial",
    "Verif.Str.C12_strip_partial",
    "Verif.Str.LStripped.unique",
    "Verif.Str.C12_refuted_all_stripped"
   ],
   "note": "strip/lstrip/rstrip; strings consisting only of stripped characters are refuted for rstrip."
  },
  {
   "property": "C120",
   "status": "proved",
   "theorems": [
    "Verif.Incr.C120_decision"
   ],
   "note": "For hashes without collisions."
  },
  {
   "property": "C121",
   "status": "proved",
   "theorems": [
    "Verif.Incr.C121_again"
   ],
   "note": "For hashes without collisions; generated code is not part of the model."
  },
  {
   "property": "C122",
   "status": "partial",
   "theorems": [
    "Verif.Notify.C122_told_partial",
    "Verif.Notify.C122_refuted_nobody",
    "Verif.Notify.C122_refuted_witness",
    "Verif.Notify.C122_refuted_group",
    "Verif.Notify.C122_refuted_member",
    "Verif.Notify.C122_refuted_frame",
    "Verif.Notify.C122_marked",
    "Verif.Notify.C122_quiet"
   ],
   "note": "Refuted for the code as compiled: no call tells anyone. Proved, exactly, for individual subscribers in the reading of the test that is meant; members of groups are told in neither reading, and in the reading that is meant the subscription of a client leads to a read of a variable that is gone."
  },
  {
   "property": "C123",
   "status": "partial",
   "theorems": [
    "Verif.Notify.C123_wake_partial",
    "Verif.Notify.C123_refuted_commit",
    "Verif.Notify.C123_refuted_race"
   ],
   "note": "In the reading of the test that is meant: proved for the calls of one thread outside transactions, refuted with commits of transactions that have read and with a read between the parts of an enqueue."
  },
  {
   "property": "C124",
   "status": "partial",
   "theorems": [
    "Verif.Notify.C124_group",
    "Verif.Notify.C124_first_partial",
    "Verif.Notify.C124_refuted_again",
    "Verif.Notify.C124_refuted_witness"
   ],
   "note": "Proved for groups and for the first subscription to a queue; refuted for every further one."
  },
  {
   "property": "C125",
   "status": "partial",
   "theorems": [
    "Verif.Notify.C125_add_partial",
    "Verif.Notify.C125_remove",
    "Verif.Notify.C125_refuted_second",
    "Verif.Notify.C125_refuted_zero"
   ],
   "note": "Proved for removal and for the first queue of a table; refuted for a second queue of a table and for the result of removing the queue 0."
  },
  {
   "property": "C126",
   "status": "partial",
   "theorems": [
    "Verif.Notify.C126_create",
    "Verif.Notify.C126_refresh",
    "Verif.Notify.C126_refuted_late",
    "Verif.Notify.C126_leave"
   ],
   "note": "Proved for the creation of a queue and the installation of a view; refuted between them."
  },
  {
   "property": "C127",
   "status": "partial",
   "theorems": [
    "Verif.Unbox.C127_once_partial",
    "Verif.Unbox.C127_refuted_twice",
    "Verif.Unbox.C127_refuted_value",
    "Verif.Unbox.C127_refuted_check",
    "Verif.Unbox.C127_refuted_skipped",
    "Verif.Unbox.C127_refuted_exponential"
   ],
   "note": "Refuted for divisors with effects, which are evaluated twice (2^n times in n nested divisions), and for dividends with effects, which are evaluated after the test of the divisor or not at all. Proved for expressions in which the operands of // and % have no effects or the divisor is a literal other than zero, quotients fit and exponents are not negative."
  },
  {
   "property": "C128",
   "status": "partial",
   "theorems": [
    "Verif.Unbox.C128_method_partial",
    "Verif.Unbox.C128_ring",
    "Verif.Unbox.C128_bits",
    "Verif.Unbox.C128_shift",
    "Verif.Unbox.C128_div",
    "Verif.Unbox.C128_un",
    "Verif.Unbox.C128_refuted_mod",
    "Verif.Unbox.C128_refuted_pow",
    "Verif.Unbox.C128_refuted_narrow"
   ],
   "note": "Refuted for % by zero, negative exponents and the quotient -128 // -1 of i8; proved for all other operands of all integer types. C128_ring, C128_bits, C128_shift, C128_div and C128_un say what the operators compute."
  },
  {
   "property": "C129",
   "status": "partial",
   "theorems": [
    "Verif.Unbox.C129_aug_partial",
    "Verif.Unbox.C129_boxed_partial",
    "Verif.Unbox.C129_refuted_zero",
    "Verif.Unbox.C129_refuted_pow",
    "Verif.Unbox.C129_refuted_xor"
   ],
   "note": "Refuted for //= and %= by zero, **= and ^=; proved for the other operators, and for all but ^= on boxed attributes under the condition of C127."
  },
  {
   "property": "C13",
   "status": "partial",
   "theorems": [
    "Verif.Str.C13_startswith_partial",
    "Verif.Str.C13_endswith_partial",
    "Verif.Str.C13_refuted_endswith",
    "Verif.Str.C13_refuted_nul"
   ],
   "note": "startswith/endswith with default bounds; non-ASCII endswith and NUL are refuted."
  },
  {
   "property": "C130",
   "status": "partial",
   "theorems": [
    "Verif.Unbox.C130_text_partial",
    "Verif.Unbox.C130_refuted"
   ],
   "note": "Refuted where the right operand of == or != is the truth value of a number; proved for all other conditions."
  },
  {
   "property": "C131",
   "status": "proved",
   "theorems": [
    "Verif.Json.C131",
    "Verif.Json.C131_injective"
   ],
   "note": "For all documents without infinite numbers, NaN and numbers that the reader keeps as text because they exceed the range of double. The texts of floating-point numbers are atoms."
  },
  {
   "property": "C132",
   "status": "partial",
   "theorems": [
    "Verif.Json.C132_partial",
    "Verif.Json.C132_list_partial",
    "Verif.Json.C132_exact_partial",
    "Verif.Json.C132_refuted_nul",
    "Verif.Json.C132_refuted_key",
    "Verif.Json.C132_refuted_class"
   ],
   "note": "Refuted for strings and keys with NUL, which are cut there, so that keys collide; and for classes of integers. Proved for strings and keys without NUL and finite numbers: the same value but for classes of integers, and the same if the classes are those that are read."
  },
  {
   "property": "C133",
   "status": "partial",
   "theorems": [
    "Verif.Json.C133_partial",
    "Verif.Json.C133_list_partial",
    "Verif.Json.C133_refuted"
   ],
   "note": "Refuted for infinite numbers and NaN: the writer gives NULL and the string is taken from there. Proved for finite numbers."
  },
  {
   "property": "C134",
   "status": "partial",
   "theorems": [
    "Verif.Json.C134_total",
    "Verif.Json.C134_raises",
    "Verif.Json.C134_partial",
    "Verif.Json.C134_refuted_root",
    "Verif.Json.C134_refuted_nul"
   ],
   "note": "Refuted for texts that are no objects, which give an empty dictionary, and for texts with NUL, which end there. Proved for texts of objects without NUL; for all texts decoding gives a value or raises ValueError."
  },
  {
   "property": "C135",
   "status": "partial",
   "theorems": [
    "Verif.Json.C135_partial",
    "Verif.Json.C135_refuted"
   ],
   "note": "Refuted for strings with NUL; proved for objects without NUL in strings and keys and without numbers beyond the range of double."
  },
  {
   "property": "C136",
   "status": "proved",
   "theorems": [
    "Verif.Json.C136",
    "Verif.Json.C136_unique",
    "Verif.Json.C136_decode_partial",
    "Verif.Json.C136_decodeList_partial"
   ],
   "note": "For the reader with the flags of json.ext.c; the texts of floating-point numbers are atoms. The two statements about decode and decode_list are for texts without NUL and follow what the functions do with other roots (C134)."
  },
  {
   "property": "C137",
   "status": "partial",
   "theorems": [
    "Verif.Deact.C137_partial",
    "Verif.Deact.C137_loop_partial",
    "Verif.Deact.C137_refuted_parameter",
    "Verif.Deact.C137_refuted_variable",
    "Verif.Deact.C137_refuted_function",
    "Verif.Deact.C137_refuted_dict",
    "Verif.Deact.C137_refuted_sampled"
   ],
   "note": "Partial: parameters and locals have no names of the actor, lambdas in dictionaries mention no state variables, statements with a lambda over state variables have calls at the root only. Outside: refuted for a parameter, a local variable and a nested function with a name of the actor, for a lambda in a dictionary, and for a state variable that is read behind a call in the same statement."
  },
  {
   "property": "C138",
   "status": "partial",
   "theorems": [
    "Verif.Deact.C138_partial",
    "Verif.Deact.C138_other",
    "Verif.Deact.C138_refuted_parameter",
    "Verif.Deact.C138_refuted_capture",
    "Verif.Deact.C138_refuted_call"
   ],
   "note": "Partial: the function part is made of names that are no parameters, without a call. Outside: refuted for a parameter in the function part and for a call in it."
  },
  {
   "property": "C139",
   "status": "partial",
   "theorems": [
    "Verif.Deact.Attrs.C139_partial",
    "Verif.Deact.Attrs.C139_mentioned",
    "Verif.Deact.Attrs.C139_variable",
    "Verif.Deact.Attrs.C139_refuted_raise",
    "Verif.Deact.Attrs.C139_refuted_finally",
    "Verif.Deact.Attrs.C139_refuted_nested"
   ],
   "note": "Partial: branches fall through, there is no finally, an else part defines what it assigns. Outside: refuted for each."
  },
  {
   "property": "C14",
   "status": "partial",
   "theorems": [
    "Verif.Hex.C14_from_hex",
    "Verif.Hex.C14_hex_bytes_partial",
    "Verif.Hex.C14_refuted_hex_bytes",
    "Verif.Hex.C14_hex",
    "Verif.Hex.C14_bin",
    "Verif.Hex.C14_chr",
    "Verif.Hex.C14_chr_error",
    "Verif.Hex.C14_ord_chr_partial",
    "Verif.Hex.C14_ord",
    "Verif.Hex.C14_ord_error",
    "Verif.Hex.C14_refuted_surrogate",
    "Verif.Hex.C14_refuted_negative",
    "Verif.Hex.C14_chr_negative"
   ],
   "note": "from_hex, hex(n), bin(n), chr and ord proved; ord(chr(n)) == n except for surrogates (refuted); chr of negative numbers below -2^31 refuted; bytes.hex builds a block without terminating zero, so the round trip is proved under the condition that the byte behind the block is zero, and refuted without it."
  },
  {
   "property": "C140",
   "status": "partial",
   "theorems": [
    "Verif.Plan.C140_partial",
    "Verif.Plan.C140_first_partial",
    "Verif.Plan.C140_last",
    "Verif.Plan.C140_refuted_once",
    "Verif.Plan.C140_refuted_length"
   ],
   "note": "Partial: the list has exactly the projects that can be reached, dependencies come first if there is no cycle, and the root is last. Refuted: shared dependencies come several times; with k diamonds the list has 2^k entries."
  },
  {
   "property": "C141",
   "status": "proved",
   "theorems": [
    "Verif.Plan.C141"
   ],
   "note": "For all graphs."
  },
  {
   "property": "C142",
   "status": "partial",
   "theorems": [
    "Verif.Plan.C142_partial",
    "Verif.Plan.C142_refuted"
   ],
   "note": "Partial: one project of the closure at most declares the module. Outside: refuted with two dependencies that both declare it."
  },
  {
   "property": "C143",
   "status": "partial",
   "theorems": [
    "Verif.Plan.C143_partial",
    "Verif.Plan.C143_named_partial",
    "Verif.Plan.C143_nothing",
    "Verif.Plan.C143_closed",
    "Verif.Plan.C143_refuted_dropped",
    "Verif.Plan.C143_refuted_all"
   ],
   "note": "Partial: one of the files is the source of a task. Closed under imports always. Refuted: files that are no task's are dropped, or select everything."
  },
  {
   "property": "C144",
   "status": "partial",
   "theorems": [
    "Verif.Plan.C144_partial",
    "Verif.Plan.C144_consumers_partial",
    "Verif.Plan.C144_refuted_expanded",
    "Verif.Plan.C144_refuted_needed"
   ],
   "note": "Partial: before the expansion the selection is exactly as stated and closed under consumers. Refuted for the plan behind the expansion and for plans of given files."
  },
  {
   "property": "C145",
   "status": "proved",
   "theorems": [
    "Verif.Plan.C145"
   ],
   "note": "For all graphs and libraries."
  },
  {
   "property": "C146",
   "status": "partial",
   "theorems": [
    "Verif.Plan.Prune.C146_partial",
    "Verif.Plan.Prune.C146_changed_partial",
    "Verif.Plan.Prune.C146_refuted_special",
    "Verif.Plan.Prune.C146_refuted_stray",
    "Verif.Plan.Prune.C146_refuted_kept",
    "Verif.Plan.Prune.C146_refuted_other"
   ],
   "note": "Partial: full pruning, unless the project is special and the source is in a directory of its name; incremental pruning in special projects. Outside: refuted, for incremental pruning in all other projects."
  },
  {
   "property": "C147",
   "status": "partial",
   "theorems": [
    "Verif.Plan.Watch.C147_partial",
    "Verif.Plan.Watch.C147_refuted_cancelled",
    "Verif.Plan.Watch.C147_refuted_full"
   ],
   "note": "Partial: a task imports all others. Outside: refuted for two changes in a row and for a change during the first build."
  },
  {
   "property": "C148",
   "status": "partial",
   "theorems": [
    "Verif.Plan.Discover.C148_closed",
    "Verif.Plan.Discover.C148_fingerprints",
    "Verif.Plan.Discover.C148_names",
    "Verif.Plan.Discover.C148_reached",
    "Verif.Plan.Discover.C148_exact_partial",
    "Verif.Plan.Discover.C148_partial",
    "Verif.Plan.Discover.C148_refuted_relative",
    "Verif.Plan.Discover.C148_refuted_missing"
   ],
   "note": "Closure, fingerprints and reachability for all trees; exactly the reachable projects if fingerprints are unique. Partial: a dependency stands for one project if the root declares it by an absolute path or a hash. Refuted for relative paths, which are taken relative to each project that uses the name."
  },
  {
   "property": "C149",
   "status": "partial",
   "theorems": [
    "Verif.Uri.Parse.C149_parse_partial",
    "Verif.Uri.Parse.C149_sound_partial",
    "Verif.Uri.Parse.C149_canonical",
    "Verif.Uri.Parse.C149_refuted_slash",
    "Verif.Uri.Parse.C149_refuted_colon",
    "Verif.Uri.Parse.C149_refuted_scheme"
   ],
   "note": "Partial: no colon without a scheme, none in the authority but in front of the port; the string is s but for a slash that is inserted in front of a query or fragment. Canonical for all texts. Outside: refuted."
  },
  {
   "property": "C15",
   "status": "proved",
   "theorems": [
    "Verif.Serial.C15_encode",
    "Verif.Serial.C15_roundtrip",
    "Verif.Serial.C15_decode_any",
    "Verif.Serial.C15_injective"
   ],
   "note": "Row sequence <-> byte encoding. Rows have 32-bit class ids and blobs of whole words; input length below 2^31 as guaranteed by the int nbytes field."
  },
  {
   "property": "C150",
   "status": "proved",
   "theorems": [
    "Verif.Finger.C150_parse",
    "Verif.Finger.C150_format",
    "Verif.Finger.C150_inj",
    "Verif.Finger.C150_update"
   ],
   "note": "For all texts and numbers; which characters are spaces and lower case are parameters."
  },
  {
   "property": "C151",
   "status": "partial",
   "theorems": [
    "Verif.Finger.C151_validate",
    "Verif.Finger.C151_partial",
    "Verif.Finger.C151_refuted"
   ],
   "note": "Partial: unless it is the placeholder. Refuted with a name whose checksum is the upper half of the placeholder."
  },
  {
   "property": "C152",
   "status": "partial",
   "theorems": [
    "Verif.Finger.C152_partial",
    "Verif.Finger.C152_rename_partial",
    "Verif.Finger.C152_refuted",
    "Verif.Finger.C152_refuted_wide"
   ],
   "note": "Partial: names of the same length that differ in at most four neighbouring characters below 256. Outside: refuted with two names of eight letters, and for characters from 256."
  },
  {
   "property": "C153",
   "status": "partial",
   "theorems": [
    "Verif.Plan.Discover.C153_own_partial",
    "Verif.Plan.Discover.C153_partial",
    "Verif.Plan.Discover.C153_refuted_pins",
    "Verif.Plan.Discover.C153_refuted_cycle",
    "Verif.Plan.Discover.C153_refuted_copies"
   ],
   "note": "Partial: fingerprints are unique and no project declares a name of the root otherwise than the root; the list has the root too in a cycle. Outside: refuted."
  },
  {
   "property": "C154",
   "status": "partial",
   "theorems": [
    "Verif.Paths.C154_partial",
    "Verif.Paths.C154_absolute",
    "Verif.Paths.C154_start",
    "Verif.Paths.C154_refuted_empty",
    "Verif.Paths.C154_refuted_start"
   ],
   "note": "Partial: the start has no '.' or '..' and no empty piece of the relative path comes before '..'; outside: refuted. Refusal of relative starts and absolute arguments proved for all strings."
  },
  {
   "property": "C155",
   "status": "partial",
   "theorems": [
    "Verif.Paths.C155_partial",
    "Verif.Paths.C155_shortest",
    "Verif.Paths.C155_absolute",
    "Verif.Paths.C155_roundtrip_partial",
    "Verif.Paths.C155_refuted",
    "Verif.Paths.C155_refuted_roundtrip"
   ],
   "note": "Partial: the directory has no '.' or '..' (round trip and minimality: nor has the target). Outside: refuted."
  },
  {
   "property": "C156",
   "status": "proved",
   "theorems": [
    "Verif.Net.Tcp.C156_once",
    "Verif.Net.Tcp.C156_told"
   ],
   "note": "Holds for addresses and names. A name that cannot be resolved is looked up forever, so that the attempt never comes to rest: C157_refuted_lookup."
  },
  {
   "property": "C157",
   "status": "partial",
   "theorems": [
    "Verif.Net.Tcp.C157_partial",
    "Verif.Net.Tcp.C157_refuted_twice",
    "Verif.Net.Tcp.C157_refuted_late",
    "Verif.Net.Tcp.C157_refuted_early",
    "Verif.Net.Tcp.C157_refuted_lookup"
   ],
   "note": "Partial: address literals, at most one report before the timer fires, never success and failure. Refuted: second report by the timer, late lookup ending a working connection, failure before success, names that do not resolve."
  },
  {
   "property": "C158",
   "status": "partial",
   "theorems": [
    "Verif.Net.Tcp.C158_partial",
    "Verif.Net.Tcp.C158_rest_partial",
    "Verif.Net.Tcp.C158_refuted_lost",
    "Verif.Net.Tcp.C158_refuted_timer",
    "Verif.Net.Tcp.C158_refuted_crash",
    "Verif.Net.Tcp.C158_refuted_stale"
   ],
   "note": "Partial: see the hypotheses of C158_partial and C158_rest_partial. Refuted: stale family states, timers and requests of the first attempt."
  },
  {
   "property": "C159",
   "status": "partial",
   "theorems": [
    "Verif.Net.Tcp.C159_partial",
    "Verif.Net.Tcp.C159_refuted_race",
    "Verif.Net.Tcp.C159_refuted_timeout",
    "Verif.Net.Tcp.C159_refuted_double"
   ],
   "note": "Partial: address literal, no reconnect, shutdowns accepted, after the connection was established. Refuted: the losing socket, the request after the timeout, end of file during a shutdown."
  },
  {
   "property": "C16",
   "status": "partial",
   "theorems": [
    "Verif.Graph.C16_terminates",
    "Verif.Graph.C16_copy_partial",
    "Verif.Graph.C16_bytes_partial",
    "Verif.Graph.C16_refuted_shared_int",
    "Verif.Graph.C16_refuted_shared_bytearray",
    "Verif.Graph.C16_refuted_range",
    "Verif.Graph.C16_refuted_removed"
   ],
   "note": "Exact copy (sharing, cycles, all data) and termination for all well-formed graphs of lists, tuples, dicts, sets, bigints and user objects over immutable values, also through the byte encoding. Refuted by the code for shared boxed integers, shared bytearrays, ranges and sets with removed elements."
  },
  {
   "property": "C160",
   "status": "partial",
   "theorems": [
    "Verif.Net.Udp.C160_partial",
    "Verif.Net.Udp.C160_told",
    "Verif.Net.Udp.C160_refuted"
   ],
   "note": "All of it but the single failure report, which holds until the timer fires and is refuted afterwards."
  },
  {
   "property": "C161",
   "status": "proved",
   "theorems": [
    "Verif.Net.Udp.C161_closed",
    "Verif.Net.Udp.C161_handles"
   ],
   "note": "Holds."
  },
  {
   "property": "C162",
   "status": "partial",
   "theorems": [
    "Verif.Log.C162_partial",
    "Verif.Log.C162_root",
    "Verif.Log.C162_suffix",
    "Verif.Log.C162_refuted"
   ],
   "note": "Partial: no sink waits for an answer (those of logging.act do not), or the handler has no parent; in general the right path is at the end of the written one. With sinks that wait: refuted."
  },
  {
   "property": "C163",
   "status": "partial",
   "theorems": [
    "Verif.Log.C163_only",
    "Verif.Log.C163_partial",
    "Verif.Log.C163_refuted"
   ],
   "note": "'Only' and 'once' hold for all messages; 'all' for the levels of lvl_names and messages that are not blank; for other levels refuted."
  },
  {
   "property": "C164",
   "status": "partial",
   "theorems": [
    "Verif.Log.C164_partial",
    "Verif.Log.C164_first",
    "Verif.Log.C164_refuted"
   ],
   "note": "Holds more than 0.1 s after the last change of the level; before: refuted."
  },
  {
   "property": "C165",
   "status": "partial",
   "theorems": [
    "Verif.Proc.C165_once",
    "Verif.Proc.C165_whole",
    "Verif.Proc.C165_error",
    "Verif.Proc.C165_partial",
    "Verif.Proc.C165_refuted"
   ],
   "note": "'Once' and 'whole' hold for all runs; that there is a report: if both streams are read to the end; after a read error there is none (refuted)."
  },
  {
   "property": "C166",
   "status": "partial",
   "theorems": [
    "Verif.Proc.Signal.C166_only",
    "Verif.Proc.Signal.C166_pid",
    "Verif.Proc.Signal.C166_partial",
    "Verif.Proc.Signal.C166_stop",
    "Verif.Proc.Signal.C166_refuted"
   ],
   "note": "'No other process', pid and stop hold for all runs; the signal is the one asked for if its number is from 1 to 64; numbers beyond 32 bits are cut (refuted)."
  },
  {
   "property": "C167",
   "status": "partial",
   "theorems": [
    "Verif.Proc.Stdin.C167_prefix",
    "Verif.Proc.Stdin.C167_open",
    "Verif.Proc.Stdin.C167_partial",
    "Verif.Proc.Stdin.C167_refuted"
   ],
   "note": "Order, and nothing else: for all runs. All bytes: if no write waits at done_writing; otherwise refuted for every size of the pipe."
  },
  {
   "property": "C168",
   "status": "partial",
   "theorems": [
    "Verif.Proc.Env.C168_inherit",
    "Verif.Proc.Env.C168_partial",
    "Verif.Proc.Env.C168_refuted_name",
    "Verif.Proc.Env.C168_refuted_value"
   ],
   "note": "For names without '=' and zero bytes and values without zero bytes; others refuted."
  },
  {
   "property": "C169",
   "status": "proved",
   "theorems": [
    "Verif.Knots.C169",
    "Verif.Knots.C169_full"
   ],
   "note": "Type and witness arguments are not modelled; cycles that change them stop the compiler."
  },
  {
   "property": "C17",
   "status": "proved",
   "theorems": [
    "Verif.Netstring.C17_roundtrip",
    "Verif.Netstring.C17_prefix",
    "Verif.Netstring.C17_memory_safe",
    "Verif.Netstring.C17_sound",
    "Verif.Netstring.C17_write_first",
    "Verif.Netstring.C17_write_append_partial",
    "Verif.Netstring.C17_write_read",
    "Verif.Netstring.C17_refuted_append"
   ],
   "note": "Reader: round trip, prefixes, memory safety, soundness, all proved in full; writer proved for the first message and for appending when earlier output has no zero byte (append after a zero byte refuted)."
  },
  {
   "property": "C170",
   "status": "proved",
   "theorems": [
    "Verif.Knots.C170"
   ],
   "note": "As C169."
  },
  {
   "property": "C171",
   "status": "proved",
   "theorems": [
    "Verif.Zon.C171",
    "Verif.Zon.C171_unique"
   ],
   "note": "Multi-line strings and character literals are not modelled; letters, digits and spaces are those of ASCII."
  },
  {
   "property": "C172",
   "status": "partial",
   "theorems": [
    "Verif.Zon.C172_partial",
    "Verif.Zon.C172_refuted"
   ],
   "note": "Proved where escapes \\xNN are below 80 (C172_partial); refuted otherwise: \\xc3\\xa9 is one é for Zig and two characters here (C172_refuted). Surrogates in \\u{...} are not modelled."
  },
  {
   "property": "C173",
   "status": "proved",
   "theorems": [
    "Verif.Zon.C173",
    "Verif.Zon.C173_none"
   ],
   "note": "As C171; files are not modelled."
  },
  {
   "property": "C174",
   "status": "proved",
   "theorems": [
    "Verif.Seed.C174"
   ],
   "note": "The file system does not change during the walk."
  },
  {
   "property": "C175",
   "status": "partial",
   "theorems": [
    "Verif.Seed.C175_partial",
    "Verif.Seed.C175_kept",
    "Verif.Seed.C175_origin",
    "Verif.Seed.C175_refuted"
   ],
   "note": "Proved where every address that manifests give for the hash serves it (C175_partial); refuted otherwise: the hash is claimed before the download, so that a second address is not tried (C175_refuted). C175_kept and C175_origin are the other two parts."
  },
  {
   "property": "C176",
   "status": "partial",
   "theorems": [
    "Verif.PkgShow.C176_partial",
    "Verif.PkgShow.C176_refuted"
   ],
   "note": "Proved without circles of projects (C176_partial); refuted with them: showTree keeps no record of where it has been (C176_refuted)."
  },
  {
   "property": "C177",
   "status": "proved",
   "theorems": [
    "Verif.PkgShow.C177"
   ],
   "note": "Lines are modelled as what they show, not as text."
  },
  {
   "property": "C178",
   "status": "partial",
   "theorems": [
    "Verif.Fetch.C178_partial",
    "Verif.Fetch.C178_shown",
    "Verif.Fetch.C178_none",
    "Verif.Fetch.C178_refuted",
    "Verif.Fetch.C178_refuted_at",
    "Verif.Fetch.C178_refuted_slash"
   ],
   "note": "Proved for users and passwords without unencoded / and @ (C178_partial); what else is shown: C178_shown, C178_none. Refuted for those with them (C178_refuted). The text of exceptions of http-client is not modelled."
  },
  {
   "property": "C179",
   "status": "proved",
   "theorems": [
    "Verif.Fetch.C179"
   ],
   "note": "A response is its status; the sequence of answers is arbitrary."
  },
  {
   "property": "C18",
   "status": "partial",
   "theorems": [
    "Verif.Rts.C18_no_crash_partial",
    "Verif.Rts.C18_exclusive_partial",
    "Verif.Rts.C18_ready_partial",
    "Verif.Rts.C18_no_lost_wakeup_partial",
    "Verif.Rts.C18_sync",
    "Verif.Rts.C18_refuted_two_workers",
    "Verif.Rts.C18_refuted_crash"
   ],
   "note": "Proved for executions in which no worker takes an actor whose messages another one still posts; C18_sync shows that programs which await only the message they sent last (or completed ones) have only such executions. For other programs the property fails, with two concrete executions. No liveness. The database and the waking of sleeping workers are not modelled."
  },
  {
   "property": "C180",
   "status": "proved",
   "theorems": [
    "Verif.Fetch.C180"
   ],
   "note": "Errors of the connection and of the disk are left out."
  },
  {
   "property": "C181",
   "status": "proved",
   "theorems": [
    "Verif.TestCache.C181",
    "Verif.TestCache.C181_exact"
   ],
   "note": "Hash clashes are excluded for what the runs of the history hash (NoClash; satisfiable, sample_noclash); encoders are injective. C181_exact: the definition with the name of the test goes before others."
  },
  {
   "property": "C182",
   "status": "proved",
   "theorems": [
    "Verif.TestCache.C182"
   ],
   "note": "For two runs one after the other, with any cache before them."
  },
  {
   "property": "C183",
   "status": "partial",
   "theorems": [
    "Verif.TestCache.C183_partial",
    "Verif.TestCache.C183_refuted"
   ],
   "note": "Proved if all tests that are run complete (C183_partial); refuted: results of interrupted tests are kept and shown again (C183_refuted)."
  },
  {
   "property": "C184",
   "status": "partial",
   "theorems": [
    "Verif.TestExit.C184_partial",
    "Verif.TestExit.C184_codes",
    "Verif.TestExit.C184_silent",
    "Verif.TestExit.C184_refuted"
   ],
   "note": "Proved if the test processes come to the end of their test and exit with 0 (C184_partial, C184_codes), and for processes without any report (C184_silent); refuted for a process that dies after a report of a good iteration (C184_refuted)."
  },
  {
   "property": "C185",
   "status": "proved",
   "theorems": [
    "Verif.TestExit.C185"
   ],
   "note": ""
  },
  {
   "property": "C186",
   "status": "proved",
   "theorems": [
    "Verif.TermFit.C186",
    "Verif.TermFit.C186_colors",
    "Verif.TermFit.shows_total",
    "Verif.TermFit.shows_unique",
    "Verif.TermFit.paints_total",
    "Verif.TermFit.paints_unique",
    "Verif.TermFit.isFinal_iff"
   ],
   "note": "Shows (Paints, with colours) is what a terminal shows; it is total and unique. C186_colors: the same colours, and none left on if anything is cut off. isFinal_iff: the characters that end a sequence."
  },
  {
   "property": "C187",
   "status": "proved",
   "theorems": [
    "Verif.TermFit.C187",
    "Verif.TermFit.C187_colors"
   ],
   "note": "For texts without escapes in names, statuses and summaries. C187_colors: no colour is left on."
  },
  {
   "property": "C188",
   "status": "partial",
   "theorems": [
    "Verif.TestExit.C188_partial",
    "Verif.TestExit.C188_shown",
    "Verif.TestExit.C188_refuted"
   ],
   "note": "Proved if the test processes come to the end of their test and exit with 0, and for messages of tests that are not skipped (C188_shown); refuted for a skipped test whose process exits with another code (C188_refuted)."
  },
  {
   "property": "C189",
   "status": "proved",
   "theorems": [
    "Verif.TestOut.C189",
    "Verif.TestOut.C189_lines",
    "Verif.TestOut.C189_uneven",
    "Verif.TestOut.trim_trimmed",
    "Verif.TestOut.trimmed_unique"
   ],
   "note": "Trimming is specified apart from the code and unique (trim_trimmed, trimmed_unique). C189_uneven: different numbers of chunks of stdout and stderr."
  },
  {
   "property": "C19",
   "status": "partial",
   "theorems": [
    "Verif.Rts.C19_order_partial",
    "Verif.Rts.C19_one_at_a_time_partial",
    "Verif.Rts.C19_once_partial",
    "Verif.Rts.C19_delivered_partial",
    "Verif.Rts.C19_refuted_order"
   ],
   "note": "Same condition as C18; without it the order fails (C19_refuted_order). Exactly once: at most once and in order always, all finished when nothing is left to do unless the receiver awaits something not completed."
  },
  {
   "property": "C190",
   "status": "partial",
   "theorems": [
    "Verif.TestOut.C190_partial",
    "Verif.TestOut.C190_refuted",
    "Verif.TestOut.C190_lost"
   ],
   "note": "Proved for output without markers (C190_partial), and for that of the iterations (C189); refuted for output before the first marker, which is never shown (C190_refuted, C190_lost)."
  },
  {
   "property": "C191",
   "status": "partial",
   "theorems": [
    "Verif.TestIter.C191_partial",
    "Verif.TestIter.C191_void",
    "Verif.TestIter.C191_refuted"
   ],
   "note": "Proved with --max-time 0 (C191_partial); refuted with any limit of time: in ordinary runs --min-iter has no effect (C191_void), and slow tests are run once (C191_refuted)."
  },
  {
   "property": "C192",
   "status": "proved",
   "theorems": [
    "Verif.TestIter.C192",
    "Verif.TestIter.C192_max",
    "Verif.TestIter.C192_skip",
    "Verif.TestIter.C192_time",
    "Verif.TestIter.runs_unique"
   ],
   "note": "C192_max: --max-iter; C192_skip: a skipped iteration is the last one; C192_time: --min-time."
  },
  {
   "property": "C193",
   "status": "partial",
   "theorems": [
    "Verif.TestSel.C193_partial",
    "Verif.TestSel.C193_all",
    "Verif.TestSel.C193_display",
    "Verif.TestSel.C193_refuted"
   ],
   "note": "Proved for patterns without | outside of groups (C193_partial); nothing wanted is ever left out (C193_all); refuted for foo|bar (C193_refuted)."
  },
  {
   "property": "C194",
   "status": "partial",
   "theorems": [
    "Verif.TestExit.C194_partial",
    "Verif.TestExit.C194_kept",
    "Verif.TestExit.C194_crash",
    "Verif.TestExit.C194_ended",
    "Verif.TestExit.C194_counts",
    "Verif.TestExit.C194_refuted"
   ],
   "note": "Proved for iterations that print the same output and fail in no other way (C194_partial), if the first exception is another one (C194_kept), and after a crash (C194_crash); what is left of a test that is updated (C194_counts); refuted for later errors and for outputs that vary (C194_refuted)."
  },
  {
   "property": "C195",
   "status": "partial",
   "theorems": [
    "Verif.SnapCache.C195_partial",
    "Verif.SnapCache.C195_size",
    "Verif.SnapCache.C195_hit",
    "Verif.SnapCache.C195_refuted"
   ],
   "note": "Proved if after the run the expected files are only written, with times not before that of the output (C195_partial); an expected output of another size is always noticed (C195_size); results are used again without changes (C195_hit); refuted for removed files, older times and changes during the run (C195_refuted)."
  },
  {
   "property": "C20",
   "status": "partial",
   "theorems": [
    "Verif.Rts.C20_resume_partial",
    "Verif.Rts.C20_blocked_partial",
    "Verif.Rts.C20_completed_once_partial",
    "Verif.Rts.C20_not_stuck_partial"
   ],
   "note": "Same condition as C18. Resumption after an await: once, with the value or exception of the awaited message, nothing in between; not stuck once the message is completed."
  },
  {
   "property": "C21",
   "status": "partial",
   "theorems": [
    "Verif.Rts.C21_due_order_partial",
    "Verif.Rts.C21_once_partial",
    "Verif.Rts.C21_sender_order_partial",
    "Verif.Rts.C21_all_due_partial",
    "Verif.Rts.C21_not_lost_partial",
    "Verif.Rts.C21_refuted_ties"
   ],
   "note": "Same condition as C18. Due order, ties in order of arrival in the timer queue (order of sending for one sender); between senders ties may come in another order than sent (C21_refuted_ties). The arming of the libuv timer is not modelled."
  },
  {
   "property": "C22",
   "status": "partial",
   "theorems": [
    "Verif.Skiplist.C22_skiplist",
    "Verif.Skiplist.C22_clone",
    "Verif.Skiplist.C22_skiplist_long_partial",
    "Verif.Skiplist.C22_refuted_long_cmp",
    "Verif.Skiplist.C22_refuted_header",
    "Verif.Skiplist.C22_refuted_range"
   ],
   "note": "Proved for every key comparison that is correct on the inserted keys, every sequence of insertions and deletions and every outcome of the random levels. With long_cmp this needs keys within a window of 2^31; the code violates the property for keys further apart, for the key of the header, and skiplist_get_range always fails."
  },
  {
   "property": "C23",
   "status": "partial",
   "theorems": [
    "Verif.VClock.C23_compare_partial",
    "Verif.VClock.C23_antisymm",
    "Verif.VClock.C23_refl",
    "Verif.VClock.C23_trans",
    "Verif.VClock.C23_refuted_equal",
    "Verif.VClock.C23_refuted_before"
   ],
   "note": "Exact causal order on clocks over the same node set; antisymmetry, reflexivity and transitivity for all clocks; different node sets refuted."
  },
  {
   "property": "C24",
   "status": "partial",
   "theorems": [
    "Verif.VClock.C24_update_partial",
    "Verif.VClock.C24_least_upper_bound_partial",
    "Verif.VClock.C24_comm_partial",
    "Verif.VClock.C24_idem",
    "Verif.VClock.C24_increment",
    "Verif.VClock.C24_refuted_truncation",
    "Verif.VClock.C24_refuted_overread"
   ],
   "note": "Least upper bound when the array has room and new counters are below 2^31; both exclusions refuted."
  },
  {
   "property": "C25",
   "status": "partial",
   "theorems": [
    "Verif.Queue.C25_queue_partial",
    "Verif.Queue.C25_consume",
    "Verif.Queue.C25_read_frame",
    "Verif.Queue.C25_peek",
    "Verif.Queue.C25_commit_heads",
    "Verif.Queue.C25_refuted_empty_batch",
    "Verif.Queue.C25_refuted_race",
    "Verif.Queue.C25_refuted_consume_back"
   ],
   "note": "Histories of whole operations by any number of consumers, up to 2^31-2 entries and with positive batches. Missing: a read between the two parts of an enqueue (refuted: the server aborts), empty batches (refuted), more entries; the consume position may move back."
  },
  {
   "property": "C26",
   "status": "partial",
   "theorems": [
    "Verif.Queue.C26_replay_partial",
    "Verif.Queue.C26_refuted"
   ],
   "note": "Holds only while nothing is consumed and for offset 0; in all other cases with something to replay the code aborts (C26_refuted)."
  },
  {
   "property": "C27",
   "status": "partial",
   "theorems": [
    "Verif.Txn.C27_exclusive_partial",
    "Verif.Txn.C27_no_false_abort",
    "Verif.Txn.C27_refuted_late_write",
    "Verif.Txn.C27_refuted_prefix",
    "Verif.Txn.C27_refuted_wrap",
    "Verif.Txn.C27_refuted_queue",
    "Verif.Txn.C27_refuted_revalidate"
   ],
   "note": "Proved for every message history of a server: two transactions that both hold a successful validation and wrote only before it have no common key; and a validation is refused only because of such a common key. False for writes after the validation, for a row and a cell in it, for keys 2^31 apart and for queue operations (refuted)."
  },
  {
   "property": "C28",
   "status": "partial",
   "theorems": [
    "Verif.Txn.C28_effect_partial",
    "Verif.Txn.C28_abort",
    "Verif.Txn.C28_local",
    "Verif.Txn.C28_writes_partial",
    "Verif.Txn.C28_refuted_unvalidated",
    "Verif.Txn.C28_refuted_use_after_free",
    "Verif.Txn.C28_refuted_update_then_delete",
    "Verif.Txn.C28_refuted_delete_cell",
    "Verif.Txn.C28_refuted_create_enqueue",
    "Verif.Txn.C28_refuted_delete_queues",
    "Verif.Txn.C28_refuted_atomic",
    "Verif.Txn.C28_refuted_abort_crash"
   ],
   "note": "Proved for every message history: a commit makes every data table contain the last update per key and the row deletions of the transaction, appends its entries to the queues in issue order; nothing but a commit changes the database, an aborted transaction is gone; writes to different targets do not fail. False for unvalidated commits, keys written twice, deletion after update, deletion of cells or of two queues, creation with enqueue, failing writes (refuted)."
  },
  {
   "property": "C29",
   "status": "partial",
   "theorems": [
    "Verif.Quorum.C29_verdict",
    "Verif.Quorum.C29_majority_partial",
    "Verif.Quorum.C29_exclusive_partial",
    "Verif.Quorum.C29_refuted_more_servers",
    "Verif.Quorum.C29_refuted_overflow",
    "Verif.Quorum.C29_refuted_blocked",
    "Verif.Quorum.C29_refuted_retry"
   ],
   "note": "Proved when there are at most as many servers as the replication factor, with the hypotheses of C27 at each server. Refuted with more servers; also refuted: memory safety with more replies than the factor, release of keys without quorum, termination of the commit loop."
  },
  {
   "property": "C30",
   "status": "partial",
   "theorems": [
    "Verif.View.C30_client",
    "Verif.View.C30_client_installs",
    "Verif.View.C30_server_partial",
    "Verif.View.C30_refuted_server",
    "Verif.View.C30_refuted_client_progress"
   ],
   "note": "Clients: proved for all sequences of views, with any clocks. Servers: proved when the clocks have the same servers and are pairwise comparable; otherwise refuted with witnesses. Also refuted: a client installs any view at all after the set of servers has changed."
  },
  {
   "property": "C31",
   "status": "partial",
   "theorems": [
    "Verif.Ring.C31_ring_partial",
    "Verif.Ring.C31_same_nodes_partial",
    "Verif.Ring.C31_other_dead_partial",
    "Verif.Ring.C31_hash_injective",
    "Verif.Ring.C31_refuted_order",
    "Verif.Ring.C31_refuted_twice",
    "Verif.Ring.C31_refuted_prejoined",
    "Verif.Ring.C31_refuted_replicas",
    "Verif.Ring.C31_refuted_stale"
   ],
   "note": "Proved for all rings whose positions lie in a window of 2^31 with statuses live/dead, any join order, any random levels, any replication factor >= 1. Violated in general: positions further apart are misordered (placement depends on join order, nodes are added twice), PREJOINED miscounts, a status written without the ring makes the loop endless, and only one bucket is ever returned."
  },
  {
   "property": "C32",
   "status": "partial",
   "theorems": [
    "Verif.IntT.C32_pow",
    "Verif.IntT.C32_pow_negative",
    "Verif.IntT.C32_pow_unboxed",
    "Verif.IntT.C32_refuted_negative_exponent",
    "Verif.IntT.C32_upow",
    "Verif.IntT.C32_upow_boxed_partial",
    "Verif.IntT.C32_refuted_upow_boxed",
    "Verif.IntT.C32_div_trunc",
    "Verif.IntT.C32_div_partial",
    "Verif.IntT.C32_div_unsigned",
    "Verif.IntT.C32_div_zero",
    "Verif.IntT.C32_refuted_mod_zero",
    "Verif.IntT.C32_refuted_mod_sign",
    "Verif.IntT.C32_refuted_mod_sign_general",
    "Verif.IntT.C32_refuted_min"
   ],
   "note": "Power proved in full for the signed types (boxed and unboxed, n >= 0) and the unsigned unboxed types; boxed u64 exponents from 2^63 on are refuted. Division identity proved for all operands except the overflowing quotient; the sign rule holds for the unsigned types and for operands of the same sign, and is refuted otherwise. % and divmod of boxed integers do not test for zero (refuted)."
  },
  {
   "property": "C33",
   "status": "partial",
   "theorems": [
    "Verif.Uri.C33_quote",
    "Verif.Uri.C33_unquote",
    "Verif.Uri.C33_roundtrip_partial",
    "Verif.Uri.C33_refuted_nul",
    "Verif.Uri.C33_refuted_safe"
   ],
   "note": "quote gives the RFC 3986 percent-encoding; unquote decodes exactly the texts with well-formed escapes that denote valid UTF-8 and raises ValueError otherwise; round trip for texts without NUL. Refuted: unquote stops at %00, a NUL in safe hides the characters behind it. utf8proc_toupper is assumed to be right on ASCII and to map no other character to a hexadecimal digit."
  },
  {
   "property": "C34",
   "status": "partial",
   "theorems": [
    "Verif.Diff.C34_old",
    "Verif.Diff.C34_new_partial",
    "Verif.Diff.C34_same",
    "Verif.Diff.C34_refuted_order"
   ],
   "note": "For all texts the recursion ends and the kept and deleted lines are the old lines; kept and inserted lines are lines of the new text with their numbers, and exactly these if no block has unique lines in another order. Refuted: lines that have changed places are inserted twice."
  },
  {
   "property": "C35",
   "status": "proved",
   "theorems": [
    "Verif.Time.C35_add",
    "Verif.Time.C35_sub",
    "Verif.Time.C35_since",
    "Verif.Time.C35_add_sub",
    "Verif.Time.C35_since_add",
    "Verif.Time.C35_order",
    "Verif.Time.C35_unix",
    "Verif.Time.C35_refuted_overflow",
    "Verif.Time.C35_refuted_from_parts"
   ],
   "note": "Sums, differences and comparisons are exact for all normalised operands, the round trips hold even if an intermediate result overflows. Beyond the claim: overflow wraps around silently (C35_refuted_overflow), from_parts does not normalise (C35_refuted_from_parts)."
  },
  {
   "property": "C36",
   "status": "partial",
   "theorems": [
    "Verif.Str.C36_compare_partial",
    "Verif.Str.C36_refuted_nul"
   ],
   "note": "Strings without NUL characters; with NUL refuted by a witness."
  },
  {
   "property": "C37",
   "status": "partial",
   "theorems": [
    "Verif.Dict.C37_roundtrip_partial",
    "Verif.Dict.C37_refuted"
   ],
   "note": "Dicts without deleted entries round-trip; the fresh empty dict, dicts with deleted entries, and dicts whose tb_nentries was overwritten are refuted."
  },
  {
   "property": "C38",
   "status": "partial",
   "theorems": [
    "Verif.IntT.C38_round_nonneg_partial",
    "Verif.IntT.C38_round_partial",
    "Verif.IntT.C38_refuted_min",
    "Verif.IntT.C38_refuted_power"
   ],
   "note": "Proved for k <= 18 and |n| + 10^k below 2^63, and for p >= 0 except the least int. Refuted for the least int (infinite recursion) and for powers of ten that do not fit."
  },
  {
   "property": "C39",
   "status": "partial",
   "theorems": [
    "Verif.Time.C39_from_parts",
    "Verif.Time.C39_str_human",
    "Verif.Time.C39_refuted_negative"
   ],
   "note": "from_parts and the seconds of str_human are exact. Refuted: the text of a negative duration with a fraction, whose fraction counts in the other direction than its seconds."
  },
  {
   "property": "C40",
   "status": "partial",
   "theorems": [
    "Verif.Diff.C40_apply_partial",
    "Verif.Diff.C40_diff_partial",
    "Verif.Diff.C40_refuted_empty",
    "Verif.Diff.C40_refuted_context"
   ],
   "note": "Proved for every script of two non-empty texts and at least one line of context. Refuted: an empty text and context_lines=0 give headers with wrong start lines."
  },
  {
   "property": "C41",
   "status": "partial",
   "theorems": [
    "Verif.Db.C41_table_partial",
    "Verif.Db.C41_refuted_no_clustering",
    "Verif.Db.C41_refuted_extra_clustering",
    "Verif.Db.C41_refuted_depth",
    "Verif.Db.C41_refuted_version"
   ],
   "note": "Proved for insertions with exactly the clustering keys of a schema with at least one, and for row deletions, over all sequences. False without clustering keys (the columns of the first insertion are lost), with further clustering keys (the last is dropped), for paths of mixed depth (null dereference, abort) and for the version of the first cell."
  },
  {
   "property": "C42",
   "status": "partial",
   "theorems": [
    "Verif.Db.C42_range_partial",
    "Verif.Db.C42_refuted_past_end"
   ],
   "note": "All rows of the range are answered in order, plus at most one row above the range, which is characterised; the exact claim is false."
  },
  {
   "property": "C43",
   "status": "partial",
   "theorems": [
    "Verif.View.C43_unanimous",
    "Verif.View.C43_installed",
    "Verif.View.C43_refuted_rejected"
   ],
   "note": "Installed only if all have accepted, and installed when all have; a rejection aborts the proposer (assertion), which is refuted by C43_refuted_rejected."
  },
  {
   "property": "C44",
   "status": "partial",
   "theorems": [
    "Verif.Iter.C44_enumerate",
    "Verif.Iter.C44_map",
    "Verif.Iter.C44_zip",
    "Verif.Iter.C44_filter_partial",
    "Verif.Iter.C44_list",
    "Verif.Iter.C44_sum",
    "Verif.Iter.C44_max_partial",
    "Verif.Iter.C44_min",
    "Verif.Iter.C44_max_def",
    "Verif.Iter.C44_search",
    "Verif.Iter.C44_refuted_filter",
    "Verif.Iter.C44_refuted_max"
   ],
   "note": "Proved for iterators that end. Refuted: max with a default that is greater than all elements; filter with None or with a function that does not give a bool."
  },
  {
   "property": "C45",
   "status": "proved",
   "theorems": [
    "Verif.Iter.C45_compare",
    "Verif.Iter.C45_order",
    "Verif.Iter.C45_hash"
   ],
   "note": ""
  },
  {
   "property": "C46",
   "status": "partial",
   "theorems": [
    "Verif.Comm.C46_packets_partial",
    "Verif.Comm.C46_client_partial",
    "Verif.Comm.C46_refuted_split",
    "Verif.Comm.C46_refuted_header",
    "Verif.Comm.C46_refuted_overflow",
    "Verif.Comm.C46_refuted_close"
   ],
   "note": "Packets are read in order and unchanged if every length and every packet arrives whole and read fails only before a packet (C46_packets_partial, C46_client_partial). Otherwise the claim is false: every packet that arrives in two pieces aborts the receiver, lengths in pieces and failures after the length lose the framing, packets longer than the buffer overflow it, and a connection that closes within a packet spoils the next one of the client."
  },
  {
   "property": "C47",
   "status": "partial",
   "theorems": [
    "Verif.Comm.C47_order_partial",
    "Verif.Comm.C47_refuted"
   ],
   "note": "Holds for addresses less than 2^31 apart; refuted for three common private addresses, where a peer is not found. Only AF_INET is modelled."
  },
  {
   "property": "C48",
   "status": "partial",
   "theorems": [
    "Verif.Big.C48_lshift",
    "Verif.Big.C48_negative",
    "Verif.Big.C48_rshift_partial",
    "Verif.Big.C48_refuted_negative",
    "Verif.Big.C48_refuted_memory",
    "Verif.Big.C48_refuted_zero"
   ],
   "note": "lshift complete; rshift for numbers that are not negative while a word is left. Refuted: negative numbers are rounded towards zero, counts of at least 64 times the number of words read outside the block, shifts of zero accept negative counts"
  },
  {
   "property": "C49",
   "status": "partial",
   "theorems": [
    "Verif.Big.C49_and_partial",
    "Verif.Big.C49_and_negative",
    "Verif.Big.C49_or_partial",
    "Verif.Big.C49_or_negative",
    "Verif.Big.C49_xor_partial",
    "Verif.Big.C49_xor_negative",
    "Verif.Big.C49_refuted_and",
    "Verif.Big.C49_refuted_or",
    "Verif.Big.C49_refuted_xor"
   ],
   "note": "right for & unless both are negative, for | of numbers that are not negative, for ^ of equal signs; for the other signs the exact condition under which the result is right is proved, with witnesses that violate it"
  },
  {
   "property": "C50",
   "status": "partial",
   "theorems": [
    "Verif.Big.C50_str_partial",
    "Verif.Big.C50_parse_partial",
    "Verif.Big.C50_reject",
    "Verif.Big.C50_roundtrip_partial",
    "Verif.Big.C50_refuted_str",
    "Verif.Big.C50_refuted_sign",
    "Verif.Big.C50_refuted_mark"
   ],
   "note": "str right except for numbers of one word from 10^18 on, which overflow a buffer; reading right except that negative numbers with a multiple of 18 digits (in base 10) lose their sign and that 0b.. without mark in bases above 11 is refused; everything that is no numeral is refused"
  },
  {
   "property": "C51",
   "status": "proved",
   "theorems": [
    "Verif.Big.C51_ofInt",
    "Verif.Big.C51_toInt"
   ],
   "note": "both conversions, for all ints and all numbers in normal form"
  },
  {
   "property": "C52",
   "status": "proved",
   "theorems": [
    "Verif.Sched.C52_quiescent",
    "Verif.Sched.C52_own",
    "Verif.Sched.C52_shared"
   ],
   "note": "For all numbers of workers from 1 to 255 and all interleavings; sequentially consistent memory."
  },
  {
   "property": "C53",
   "status": "partial",
   "theorems": [
    "Verif.Sched.C53_refuted",
    "Verif.Sched.C53_wake_partial"
   ],
   "note": "Refuted: two actors made ready in a row wake the same worker, and its own wake_wt before it becomes WT_Working wakes itself, while another worker sleeps on. Partial: a wake_wt without interference signals the first idle worker."
  },
  {
   "property": "C54",
   "status": "proved",
   "theorems": [
    "Verif.Sched.C54_own",
    "Verif.Sched.C54_single",
    "Verif.Sched.C54_refuted_shared"
   ],
   "note": "Proved for the queues of workers, the only ones reported. The counter of the shared queue, which nothing reads, drifts (C54_refuted_shared) unless there is one worker (C54_single)."
  },
  {
   "property": "C55",
   "status": "proved",
   "theorems": [
    "Verif.Sched.Pause.C55_exclusion",
    "Verif.Sched.Pause.C55_single",
    "Verif.Sched.Pause.C55_release",
    "Verif.Sched.Pause.C55_end",
    "Verif.Sched.Pause.C55_nested",
    "Verif.Sched.Pause.C55_granted"
   ],
   "note": "All clauses; waits on the condition variable may end at any time."
  },
  {
   "property": "C56",
   "status": "partial",
   "theorems": [
    "Verif.Sched.Timer.C56_armed_partial",
    "Verif.Sched.Timer.C56_delivered_partial",
    "Verif.Sched.Timer.C56_not_early",
    "Verif.Sched.Timer.C56_refuted_zero",
    "Verif.Sched.Timer.C56_refuted_forever"
   ],
   "note": "Refuted for a first message with baseline 0, which next_timeout confuses with an empty queue: the timer is stopped for good. Partial: all other first messages."
  },
  {
   "property": "C57",
   "status": "partial",
   "theorems": [
    "Verif.Conv.C57_new",
    "Verif.Conv.C57_new_small_partial",
    "Verif.Conv.C57_refuted_small",
    "Verif.Conv.C57_refuted_small_examples",
    "Verif.Conv.C57_refuted_size",
    "Verif.Conv.C57_big",
    "Verif.Conv.C57_convert"
   ],
   "note": "Proved for int, i32 and the unsigned types, and for all conversions from fixed-width types to them. The constructors of i8 and i16 test the range of i32, so values between are cut silently (refuted in general); bigints of 2^31 words and more are excluded, with a counterexample of 2^32 words."
  },
  {
   "property": "C58",
   "status": "partial",
   "theorems": [
    "Verif.Conv.C58_float_partial",
    "Verif.Conv.C58_refuted_odd",
    "Verif.Conv.C58_refuted_example",
    "Verif.Conv.C58_refuted_inf"
   ],
   "note": "Proved for all finite doubles but those with 53 digits before the point of which the last is set; for all of these the result is shown wrong. Infinities and NaN: undefined conversion."
  },
  {
   "property": "C59",
   "status": "partial",
   "theorems": [
    "Verif.Conv.C59_float_partial",
    "Verif.Conv.C59_refuted_small",
    "Verif.Conv.C59_big_partial",
    "Verif.Conv.C59_refuted_words"
   ],
   "note": "Proved for all fixed-width types but i8 and i16, which are confused in the code (characterised exactly), and for bigints of at most one word or more than 16. Bigints of several words are rounded twice: counterexample. The exponent range is not modelled."
  },
  {
   "property": "C60",
   "status": "partial",
   "theorems": [
    "Verif.Conv.C60_hash_partial",
    "Verif.Conv.C60_refuted_small",
    "Verif.Conv.C60_refuted_float",
    "Verif.Conv.C60_refuted_complex"
   ],
   "note": "Proved for int, bigint, unsigned types, bool, str, bytes and nested tuples. i8, i16, i32 and float hash the address of the box; complex hashes 0.0 and -0.0 differently: refuted."
  },
  {
   "property": "C61",
   "status": "partial",
   "theorems": [
    "Verif.Bytes.C61_find",
    "Verif.Bytes.C61_rfind",
    "Verif.Bytes.C61_find_bounds_partial",
    "Verif.Bytes.C61_partition",
    "Verif.Bytes.C61_rpartition",
    "Verif.Bytes.C61_split_partial",
    "Verif.Bytes.C61_refuted_maxsplit_zero",
    "Verif.Bytes.C61_count",
    "Verif.Bytes.C61_join",
    "Verif.Bytes.C61_split_join_partial",
    "Verif.Bytes.C61_replace_partial",
    "Verif.Bytes.C61_replace_empty",
    "Verif.Bytes.C61_refuted_negative_count"
   ],
   "note": "Wrong, and excluded: maxsplit 0 (uninitialised variable), negative count of replace (wrong size), negative bounds (as for str, C09). Lengths below 2^31."
  },
  {
   "property": "C62",
   "status": "partial",
   "theorems": [
    "Verif.Bytes.C62_startswith",
    "Verif.Bytes.C62_startswith_bounds",
    "Verif.Bytes.C62_endswith_partial",
    "Verif.Bytes.C62_refuted_endswith_long",
    "Verif.Bytes.C62_refuted_endswith_zero",
    "Verif.Bytes.C62_refuted_endswith_start",
    "Verif.Bytes.C62_removeprefix",
    "Verif.Bytes.C62_removesuffix",
    "Verif.Bytes.C62_lstrip",
    "Verif.Bytes.C62_rstrip",
    "Verif.Bytes.C62_strip",
    "Verif.Bytes.C62_eq",
    "Verif.Bytes.C62_lt",
    "Verif.Bytes.C62_contains_partial",
    "Verif.Bytes.C62_refuted_contains",
    "Verif.Bytes.C62_getitem"
   ],
   "note": "endswith is wrong for a suffix longer than the value (reads before the buffer), for zero bytes and with a start; `in` cuts the number to a byte. The rest holds for all values."
  },
  {
   "property": "C63",
   "status": "partial",
   "theorems": [
    "Verif.Bytes.C63_split_partial",
    "Verif.Bytes.C63_refuted_trailing",
    "Verif.Bytes.C63_refuted_blank",
    "Verif.Bytes.C63_refuted_limit",
    "Verif.Bytes.C63_splitlines",
    "Verif.Bytes.C63_lines_join",
    "Verif.Bytes.C63_lines_plain"
   ],
   "note": "split() is right only if the value does not end with white space and the limit is not reached; the other cases are refuted. splitlines is proved for all values."
  },
  {
   "property": "C64",
   "status": "partial",
   "theorems": [
    "Verif.Bytes.C64_ljust",
    "Verif.Bytes.C64_rjust",
    "Verif.Bytes.C64_center",
    "Verif.Bytes.C64_fill",
    "Verif.Bytes.C64_zfill",
    "Verif.Bytes.C64_capitalize",
    "Verif.Bytes.C64_refuted_case",
    "Verif.Bytes.C64_case_partial",
    "Verif.Bytes.C64_expandtabs_partial",
    "Verif.Bytes.C64_refuted_expandtabs"
   ],
   "note": "lower and upper convert what the new block happens to contain; expandtabs accesses memory outside of the buffers for bytes from 128. Padding is proved for widths that fit in an int."
  },
  {
   "property": "C65",
   "status": "partial",
   "theorems": [
    "Verif.Http.C65_complete_partial",
    "Verif.Http.C65_incomplete_partial",
    "Verif.Http.C65_request_partial",
    "Verif.Http.C65_response_partial",
    "Verif.Http.C65_refuted_list",
    "Verif.Http.C65_refuted_mark",
    "Verif.Http.C65_refuted_extension",
    "Verif.Http.C65_refuted_trailer",
    "Verif.Http.C65_refuted_negative"
   ],
   "note": "Proved for messages without chunk extensions and trailers, with spaces (no tabs) around values, chunk sizes not beginning with 0b, no space in a list of transfer encodings, input below 2^31 bytes; refuted for the others. str.lower (utf8proc) is a parameter."
  },
  {
   "property": "C66",
   "status": "partial",
   "theorems": [
    "Verif.Http.C66_client_partial",
    "Verif.Http.C66_client_all_partial",
    "Verif.Http.C66_refuted_invalid_length",
    "Verif.Http.C66_refuted_version",
    "Verif.Http.C66_refuted_reconnect"
   ],
   "note": "For responses as in C65, at most as many as requests waiting, less than 2^31 bytes in total. Refuted for an invalid Content-Length (no further data is ever handled), for another version (later responses in the segment are lost) and across connections (the rest of the old one is kept)."
  },
  {
   "property": "C67",
   "status": "partial",
   "theorems": [
    "Verif.Http.C67_server_partial",
    "Verif.Http.C67_refuted_pipelined",
    "Verif.Http.C67_refuted_early"
   ],
   "note": "Proved if no segment contains parts of two requests and the callback is installed first; refuted otherwise."
  },
  {
   "property": "C68",
   "status": "partial",
   "theorems": [
    "Verif.Http.C68_server_partial",
    "Verif.Http.C68_no_more",
    "Verif.Http.C68_refuted_stuck",
    "Verif.Http.C68_refuted_reachable"
   ],
   "note": "Proved if each request is answered before the next one is handed over, and that no more are sent in any execution; if two requests are unanswered, nothing is ever sent again (refuted)."
  },
  {
   "property": "C69",
   "status": "partial",
   "theorems": [
    "Verif.Http.C69_close_partial",
    "Verif.Http.C69_refuted_keepalive"
   ],
   "note": "HTTP/1.0 with keep-alive is closed (refuted). Proved for the others, for one version per connection and answers in time."
  },
  {
   "property": "C70",
   "status": "partial",
   "theorems": [
    "Verif.Http.C70_request_partial",
    "Verif.Http.C70_response_partial",
    "Verif.Http.C70_refuted_injection",
    "Verif.Http.C70_refuted_reuse"
   ],
   "note": "For header names and values without line ends, outer spaces or zeros, and no Content-Length given to build_request; a line end in a value is not refused, and the Content-Length of an earlier request stays in the caller's dictionary (both refuted). str.lower is a parameter that must lower ASCII texts."
  },
  {
   "property": "C71",
   "status": "partial",
   "theorems": [
    "Verif.Persist.C71_recovery_partial",
    "Verif.Persist.C71_refuted_window",
    "Verif.Persist.C71_refuted_second",
    "Verif.Persist.C71_refuted_await",
    "Verif.Persist.C71_refuted_new_actor",
    "Verif.Persist.C71_refuted_lost",
    "Verif.Persist.C71_refuted_twice",
    "Verif.Persist.C71_refuted_await_run",
    "Verif.Persist.C71_refuted_new_actor_run"
   ],
   "note": "Proved for one crash, outside the time between dummy read and commit, in executions of any number of workers without awaits, timers, messages from the event loop and new actors whose commits succeed at once and are not interleaved with local flushes; refuted for a crash between dummy read and commit, a second crash, awaits, and actors that have not finished their first message. One database server that does not crash."
  },
  {
   "property": "C72",
   "status": "partial",
   "theorems": [
    "Verif.Persist.C72_consume_partial",
    "Verif.Persist.C72_refuted_retry",
    "Verif.Persist.C72_refuted_io",
    "Verif.Persist.C72_refuted_workers",
    "Verif.Persist.C72_refuted_timer"
   ],
   "note": "Proved for the executions of C71; refuted for repeated commits, messages from the event loop, two workers, and timers."
  },
  {
   "property": "C73",
   "status": "partial",
   "theorems": [
    "Verif.Glob.C73_match_partial",
    "Verif.Glob.C73_exact_partial",
    "Verif.Glob.C73_complete_partial",
    "Verif.Glob.C73_reads",
    "Verif.Glob.C73_refuted_dirs",
    "Verif.Glob.C73_refuted_brace"
   ],
   "note": "Proved for all patterns whose brace options keep their reading when they are put in place (all patterns without opening brace can be read, C73_reads): without `**`-separator exact; with it, `**`-separator matches any text instead of any number of directories (C73_exact_partial), so no match is missed but wrong ones are accepted (C73_refuted_dirs). Options are spliced into the pattern as text (C73_refuted_brace)."
  },
  {
   "property": "C74",
   "status": "proved",
   "theorems": [
    "Verif.Glob.C74_total"
   ],
   "note": "For all patterns, paths and separators; the depth of the C stack is not modelled."
  },
  {
   "property": "C75",
   "status": "partial",
   "theorems": [
    "Verif.Random.C75_range_partial",
    "Verif.Random.C75_uniform_partial",
    "Verif.Random.C75_raises",
    "Verif.Random.C75_refuted_empty",
    "Verif.Random.C75_refuted_wide"
   ],
   "note": "Proved for min < max with max - min <= RAND_MAX; refuted for min = max (division by zero) and for larger ranges (never returns)."
  },
  {
   "property": "C76",
   "status": "partial",
   "theorems": [
    "Verif.Random.C76_choice_partial",
    "Verif.Random.C76_sample_partial",
    "Verif.Random.C76_every_partial",
    "Verif.Random.C76_refuted_order"
   ],
   "note": "Proved for populations of at most RAND_MAX elements, except for the order, which is refuted."
  },
  {
   "property": "C77",
   "status": "partial",
   "theorems": [
    "Verif.Xml.C77_encode",
    "Verif.Xml.C77_refuted_large"
   ],
   "note": "Proved for all trees whose encoding has less than 2^31 bytes; refuted for larger ones (sizes wrap and the buffer is overrun)."
  },
  {
   "property": "C78",
   "status": "partial",
   "theorems": [
    "Verif.Xml.C78_roundtrip_partial",
    "Verif.Xml.C78_refuted_cdata_end",
    "Verif.Xml.C78_refuted_control",
    "Verif.Xml.C78_refuted_tail",
    "Verif.Xml.C78_refuted_cr",
    "Verif.Xml.C78_refuted_value",
    "Verif.Xml.C78_refuted_prefix",
    "Verif.Xml.C78_refuted_pretty",
    "Verif.Xml.C79_refuted_attributes"
   ],
   "note": "Proved for trees of XML names and characters without ]]>, carriage returns, white space other than spaces in attribute values, equal local names of attributes, undeclared prefixes, a tail of the root; each of these cases is refuted, and so is pretty printing. libxml2 is specified by a reader written after the XML 1.0 recommendation."
  },
  {
   "property": "C79",
   "status": "partial",
   "theorems": [
    "Verif.Xml.C79_decode_partial",
    "Verif.Xml.C79_unsupported",
    "Verif.Xml.C79_refuted_attributes"
   ],
   "note": "Proved for trees in which the attributes of an element have different local names; refuted otherwise."
  },
  {
   "property": "C80",
   "status": "proved",
   "theorems": [
    "Verif.Mro.C80_order",
    "Verif.Mro.C80_exists"
   ],
   "note": "Module prefixes and aliases of names are resolved before; orders of extensions are not modelled."
  },
  {
   "property": "C81",
   "status": "proved",
   "theorems": [
    "Verif.Mro.C81_ancestors"
   ],
   "note": "For classes, protocols and actors (extensions are not modelled)."
  },
  {
   "property": "C82",
   "status": "proved",
   "theorems": [
    "Verif.Mro.C82_attribute",
    "Verif.Mro.C82_layout"
   ],
   "note": "For classes, protocols and actors (extensions are not modelled)."
  },
  {
   "property": "C83",
   "status": "partial",
   "theorems": [
    "Verif.Unify.C83_sound",
    "Verif.Unify.C83_wild",
    "Verif.Unify.C83_refuted_arity"
   ],
   "note": "Proved without type aliases. Equality needs that a constructor always has the same number of arguments (ensured by the kind checker) and no wildcards; for all types, equality up to these is proved. Refuted if numbers of arguments differ."
  },
  {
   "property": "C84",
   "status": "partial",
   "theorems": [
    "Verif.Unify.C84_ends",
    "Verif.Unify.C84_general_partial",
    "Verif.Unify.C84_refuted_option",
    "Verif.Unify.C84_refuted_general"
   ],
   "note": "Ends: proved without type aliases. Success and generality: proved for common instances in which no option of an option arises; refuted otherwise, as unify takes option types apart although ?(?t) is ?t."
  },
  {
   "property": "C85",
   "status": "partial",
   "theorems": [
    "Verif.Names.C85_injective_partial",
    "Verif.Names.C85_refuted_derived",
    "Verif.Names.C85_refuted_module",
    "Verif.Names.C85_refuted_keyword",
    "Verif.Names.C85_refuted_escape",
    "Verif.Names.C85_refuted_complex",
    "Verif.Names.C85_refuted_nested",
    "Verif.Names.C85_refuted_number"
   ],
   "note": "Proved for plain names: no letter that the compiler uses as a mark is followed by an underscore in a name of the program, derived names associate to the left. Refuted by witnesses for the others, all of which are accepted identifiers."
  },
  {
   "property": "C86",
   "status": "partial",
   "theorems": [
    "Verif.Names.C86_identifier",
    "Verif.Names.C86_refuted_empty",
    "Verif.Names.C86_refuted_asm"
   ],
   "note": "Proved for all nonempty names and the keywords of C23 (listed in the specification). Refuted: the empty name, which can be written as a string, makes the compiler fail; the GNU keyword asm is not in the table."
  },
  {
   "property": "C87",
   "status": "partial",
   "theorems": [
    "Verif.Names.C87_keywords_partial",
    "Verif.Names.C87_refuted_underscore"
   ],
   "note": "Proved for all strings but `_`: nothing else is found, and all others are found if the last element of the tree has no subtree. `_` is never found in a balanced tree (refuted)."
  },
  {
   "property": "C88",
   "status": "proved",
   "theorems": [
    "Verif.Kinds.C88_unify",
    "Verif.Kinds.C88_refuted_cycle"
   ],
   "note": "For the kinds that the checker compares. C88_refuted_cycle shows what happens to others: the occurs check never finds a variable, as kfree gives none."
  },
  {
   "property": "C89",
   "status": "proved",
   "theorems": [
    "Verif.Kinds.C89_infer",
    "Verif.Kinds.C89_clean"
   ],
   "note": "Kinds written at variables are no functions (the parser writes none). Declarations, and the conversion of wildcards and protocols in types before the inference, are not modelled."
  },
  {
   "property": "C90",
   "status": "proved",
   "theorems": [
    "Verif.Argparse.C90_options",
    "Verif.Argparse.C90_getters"
   ],
   "note": "int(val) is a parameter; defaults that are lists are not shared by two options."
  },
  {
   "property": "C91",
   "status": "partial",
   "theorems": [
    "Verif.Argparse.C91_singles",
    "Verif.Argparse.C91_many",
    "Verif.Argparse.C91_few",
    "Verif.Argparse.C91_required",
    "Verif.Argparse.C91_one_takes_several",
    "Verif.Argparse.C91_refuted_command",
    "Verif.Argparse.C91_refuted_star"
   ],
   "note": "Proved for nargs '?' and '+' of the parser itself. Refuted for commands (required arguments are not checked) and for nargs '*' (values are dropped)."
  },
  {
   "property": "C92",
   "status": "partial",
   "theorems": [
    "Verif.Argparse.C92_exceptions_partial",
    "Verif.Argparse.C92_plain_partial",
    "Verif.Argparse.C92_missing_partial",
    "Verif.Argparse.C92_middle_partial",
    "Verif.Argparse.C92_refuted_unknown",
    "Verif.Argparse.C92_refuted_flag",
    "Verif.Argparse.C92_refuted_value",
    "Verif.Argparse.C92_refuted_index"
   ],
   "note": "Proved: missing values, values in the middle of a group, no exceptions but ArgumentError and PrintUsage except with a name help. Refuted: unknown options, extra words and values of flags are accepted; ValueError for a positional help; IndexError for no arguments at all."
  },
  {
   "property": "C93",
   "status": "partial",
   "theorems": [
    "Verif.Argparse.C93_end_partial",
    "Verif.Argparse.C93_refuted_command"
   ],
   "note": "Proved without command. Refuted with one: what follows -- is parsed again by the parser of the command."
  },
  {
   "property": "C94",
   "status": "partial",
   "theorems": [
    "Verif.Argparse.C94_command_partial",
    "Verif.Argparse.C94_refuted_value",
    "Verif.Argparse.C94_refuted_default",
    "Verif.Argparse.C94_refuted_dash"
   ],
   "note": "Proved if no argument of the command looks like an option of the parser, for defaults of the command that come last. Refuted otherwise."
  },
  {
   "property": "C95",
   "status": "partial",
   "theorems": [
    "Verif.Argparse.C95_again_partial",
    "Verif.Argparse.C95_refuted_args",
    "Verif.Argparse.C95_refuted_list",
    "Verif.Argparse.C95_refuted_help"
   ],
   "note": "Proved for parsers with --help of their own, no positional arguments and no lists as defaults. Each of the three is refuted."
  },
  {
   "property": "C96",
   "status": "partial",
   "theorems": [
    "Verif.Norm.C96_normalized_partial",
    "Verif.Norm.C96_acton_for_partial",
    "Verif.Norm.C96_refuted_while_else",
    "Verif.Norm.C96_refuted_for_stop"
   ],
   "note": "Proved except for break and continue in the else suite of a while, and for bodies of for that raise StopIteration; both refuted. C96_acton_for_partial needs no condition on for, if such a StopIteration is meant to end the loop."
  },
  {
   "property": "C97",
   "status": "partial",
   "theorems": [
    "Verif.Norm.C97_balanced_partial",
    "Verif.Norm.C97_refuted_while_else"
   ],
   "note": "Proved except for break and continue in the else suite of a while; refuted there: finally is skipped and a buffer is left behind."
  },
  {
   "property": "C98",
   "status": "proved",
   "theorems": [
    "Verif.Norm.C98_flows"
   ],
   "note": ""
  },
  {
   "property": "C99",
   "status": "partial",
   "theorems": [
    "Verif.Norm.C99_in_loop_partial",
    "Verif.Norm.C99_refuted_two_breaks",
    "Verif.Norm.C99_refuted_two_continues"
   ],
   "note": "Proved if the analysis finds at most one break and one continue in each loop. Refuted for two, in a try with finally outside a loop."
  }
 ]
}
