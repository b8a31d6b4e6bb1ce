# Formal model of Acton (actonlang/acton) in Lean 4

Everything lives in `lean/Verif/`. Model files are named after the part of the
code they model (`Verif/<Area>/Model.lean`), helper lemmas are in
`Verif/<Area>/Lemmas*.lean`, specifications in `Verif/<Area>/Spec.lean`, and
the property theorems, each with a non-vacuity `example`, are in
`Verif/<Area>/Props.lean`.

## Trusted base

* The Lean 4.33.0 kernel. Theorems depend at most on the standard axioms
  `propext`, `Classical.choice`, `Quot.sound` (checked with `#print axioms`;
  table at the end). No own axioms, no `sorry`, no `native_decide`,
  no `bv_decide`.
* The reading of the C and Acton sources: the code was not run. Every model
  definition cites the file and lines it was read from and states its
  simplifications.
* Compiler/flags: `base/` is compiled with `-fwrapv` (base/build.zig), so
  signed overflow in the builtins wraps (two's complement). Division
  `INT64_MIN / -1` and out-of-range shifts stay undefined. Asserts are active.
* Memory allocation succeeds, the garbage collector is invisible.
* Undefined behaviour (out-of-bounds access, null dereference, read of an
  uninitialised variable) is a distinct outcome `ub` in the models; assertion
  failure and non-termination are distinct as well.

## Plan per property

| id | what is modelled | how it is proved |
|----|------------------|------------------|
| C01 | `normalize_slice`, list/bytes/str `__getslice__` on 64-bit ints, reads outside the list are `ub` | closed form of bounds, induction on the slice loop, against a direct "positions" spec; negative steps: counterexamples + partial |
| C02 | `range` object + iterator state machine | invariant on (nxt, remaining) and induction on number of `next` calls |
| C03 | list = (buffer of capacity n, length); every mutator incl. expand/shrink | refinement to `List α`, per operation and then by induction over histories; deviations as counterexamples |
| C04 | whole of timsort.c (binary insertion, runs, collapse, merge) as functions over arrays-as-lists | permutation + sorted + stable via "sorted under (key, original index)" |
| C05 | run stack of timsort | invariant on run lengths (Fibonacci growth) |
| C06 | dict.c entries + index table + small linear table | representation invariant, refinement to association list with insertion order; full-period lemma for the probe sequence |
| C07 | `B_dictrel` and operators | counterexamples + partial |
| C08 | set.c table, lookup with signed perturbation | counterexample to termination; refinement for histories with non-negative hashes |
| C09 | `bmh`, `rbmh` | loop invariant "no occurrence at skipped alignment" |
| C10 | `count`, `partition`, `split`, `replace`, `join` on top of `bmh` | induction on remaining text |
| C11 | str as (bytes, nchars, nbytes); `skip_chars`, `char_no`, `mk_char`, iterator, getitem, getslice | UTF-8 encode lemmas; induction on code points |
| C12 | `lstrip`/`rstrip`/`strip` | induction; rstrip counterexample + partial |
| C13 | `startswith`/`endswith` | direct; endswith counterexample + partial |
| C14 | hex/from_hex/bin/chr/ord | digit induction; bit-level case analysis |
| C15 | `$rows_to_bytes`/`$bytes_to_rows` | parse/print induction |
| C16 | `$step_serialize`/`$step_deserialize` over an object heap | simulation between traversal of serializer and deserializer (same depth-first order) |
| C17 | netstring.c | digit-parser induction |
| C18 | actors, workers, ready queue, message queues as an interleaving transition system | inductive invariant |
| C19 | same system with outgoing buffers | history variables + inductive invariant |
| C20 | waiting/freeze part of the same system | inductive invariant |
| C21 | timer queue | sorted stable insertion invariant |
| C22 | skiplist.c with explicit levels | refinement to sorted association list |
| C23/C24 | vector_clock.c | merge-loop induction against a functional spec (node -> counter) |
| C25/C26 | queue.c | invariant over histories |
| C27/C28 | txn_state.c/txns.c | invariant over server histories |
| C29 | quorum counting of client_api.c | counting lemma over reply sets + C27 |
| C30 | view installation | monotonicity invariant, counterexample where incomparable |
| C31 | hash_ring.c | against minimum spec; comparison truncation counterexample |
| C32 | int.c | BitVec/Int lemmas |
| C33 | uri.act quote/unquote | induction on bytes |
| C34 | diff.act myers_diff | well-founded induction; counterexample for crossing anchors + partial |
| C35 | time.act Instant | arithmetic |
| C36 | `B_str` equality and hashing on bytes | induction on bytes; NUL counterexample + partial |
| C37 | dict serialization on top of the model of C06 | loop invariants, refinement to the same finite map |
| C38 | `round` of int.c | arithmetic; counterexamples for overflow |
| C39 | `Duration` of time.act, parts and texts | arithmetic; counterexample for negative durations |
| C40 | hunks of diff.act | induction on the script |
| C41/C42 | db.c tables as nested skiplists; on top of C22 | refinement to a finite map per path; range lemma |
| C43 | agreement on views, client and server side | invariant over histories of messages |
| C44/C45 | builtin_functions.c iterators and folds, `$tupleWit` | iterators as state machines that yield a list; lexicographic order |
| C46 | `read_full_packet`, `comm_thread_loop` | induction over the behaviour of `read` |
| C47 | `sockaddr_cmp` | arithmetic, on top of C22 |
| C48/C49 | bigint.c shifts and bitwise operations on blocks of words | words as numbers in base 2^64, two's complement bits of integers |
| C50 | bigint.c `get_str`, `set_str` | induction on the recursion; values of digit lists |
| C51 | bigint.c conversions from and to `int` | arithmetic |
| C52–C54 | `wake_wt`, `wt_work_cb`, ready queues: threads as interleaving processes at the granularity of unlocked reads | inductive invariant: to each ready actor somebody comes |
| C55 | sync pause: sections under its lock as steps | inductive invariant on flags and their number |
| C56 | timer queue, `arm_timer_ev` and the callbacks of the main thread | inductive invariant on the head of the queue |
| C57 | constructors of the integer types, from bigints | arithmetic on words and widths |
| C58 | `B_bigintG_new` for doubles `m * 2^x` | C48 and C51, arithmetic |
| C59 | `B_floatG_new` for integers; rounding to 53 digits | the nearest double is characterised among all doubles |
| C60 | the bytes fed to the hasher by each `hash` method | induction on equality |
| C61 | methods of `bytes` on buffers with a terminating zero, over the search functions of C09 | loop invariants against the relations of C09 and C10 |
| C62 | the comparison and stripping loops | loop invariants against prefix, suffix and lexicographic order |
| C63 | the loops of `split()` and `splitlines` with their pointers | loop invariants against inductive relations for words and lines |
| C64 | padding functions, case functions with the content of the new block as parameter, `expandtabs` with its array | calculation; loop invariant against an inductive relation |
| C65 | `parse_message` and its callers over the `bytes` methods of C61; specification of messages as relations on byte lists | search for the head by C61, induction on header lines and chunks; prefixes by induction on chunks |
| C66 | state of the client and its loop | induction on segments with an invariant: what is unparsed is a prefix of the remaining responses |
| C67, C68 | state of the server, events (install, data, answer) | induction on events |
| C69 | `close_connection` | case analysis against the rule of HTTP |
| C70 | `build_request`, `build_response` | what they write satisfies the relation of C65 |
| C71 | memory of the run-time system, tables and queues of the database, workers with the phases of `save_actor_state`, crash and `deserialize_system`; specification: a system of actors with states and sequences of messages only | forward simulation: an invariant relates each configuration to the system of what has been committed; a commit is a step of the system, every other event none; recovery of a configuration with the invariant gives that system |
| C72 | the same | from the invariant |
| C73 | `_glob_recursive` over lists of code points; specification: tokens of a pattern, and the texts that tokens match | induction on the number of calls still allowed: with the pattern rewritten by earlier brace expansions, the answer is that of the tokens of the rest |
| C74 | the same | a measure of pattern, place and path that every call decreases; brace expansion restarts at the beginning, but with one brace less |
| C75 | `randlong`, with the values of `rand()` as an arbitrary list | induction on the list; counting residues in a multiple of the range |
| C76 | `choice`, `sample` | induction on the number of elements still to take |
| C77 | both passes of `xmlQ_node2str` on the structures of strings; specification: layout of a tree as a text | the sizes as sums over a tree of strings; mutual induction over trees |
| C78 | `encode`, and `$NodePtr2Node` on the tree of libxml2; specification: a reader for XML 1.0 with namespaces | mutual induction over trees: the reader consumes exactly the layout of an element; then decoding of the tree read |
| C79 | `$NodePtr2Node`, `collect_text_cdata_nodes` | mutual induction over the tree of libxml2 |
| C80 | `mro`, `merge`, `mro2` of Env.hs on lists of bases; specification: orders as lists with sublists | induction over the merge: what has been taken and what is left; existence from any given order by showing that its first class is always a candidate |
| C81 | declarations of classes, protocols and actors, `findCon`; specification: reachability over bases | induction over declarations |
| C82 | `findAttr`, attributes of a class | induction over the resolution order |
| C83 | `unify`, `unify'`, `unifyM`, `usubst` of TypeEnv.hs with fuel; specification: simultaneous instantiation, compatibility of types | lexicographic induction over unbound variables and size of the substituted types; the invariant carries soundness and generality together |
| C84 | as C83 | as C83; the occurs check by sizes of instances |
| C85 | names as texts, prefixes and numbers; `nstr`, `mkCident`, `unCkeyword`, `gen` of qualified names | the marks cut the identifier at one place only; decimal and hexadecimal numbers are injective |
| C86 | as C85 | characters of every part; the keywords have no mark |
| C87 | `isKeyword`; search trees with the balance of Data.Set | induction over the tree; the last element of a balanced tree of this size has another one above it |
| C88 | `kunify`, `ksubst`, `kfree` with fuel; specification: values of variables that satisfy the bindings | the value of a variable by the position of its binding; equivalence of the constraints before and after |
| C89 | `kinfer`, `kexp`, `kfx` on types; specification: a declarative kinding relation | mutual induction over types with a calculus of constraints: every step says which values it admits |
| C90 | argparse.act `_parse_and_consume`, `parse`, getters over a heap of lists; specification: parts of a line and what they mean | induction over the parts; options are compared by contents, with separate list objects as invariant |
| C91 | the positional arguments, `place`; specification: splitting the words | induction over arguments and words |
| C92 | as C90 | invariant of the loop for arbitrary lines; mutual induction over parsers and commands |
| C93 | as C91 | from C91 |
| C94 | as C90, two parsers; specification: interleavings of parts of both | an interleaving is a line of the first parser, whose rest is a line of the second |
| C95 | two runs of `parse` | simulation: the results are the same by contents |
| C96 | Normalizer.hs `norm'` on statements, `exitContext`, `handle`, `relays`; the jump buffers of rts.c; specification: an interpreter of suites after the Python reference | simulation by induction over suites, for every number of rounds loops are allowed; generated variables outside the suite's own numbers are unchanged |
| C97 | as C96 | from the simulation |
| C98 | Env.hs `flows`, `brkseq`; specification: the interpreter | induction over suites and rounds |
| C99 | as C96 | induction over suites; `flows` has no break or continue if the suite has none outside loops |
| C100 | as C96 | induction over suites with the counter of `newName` |
| C101 | CPS.hs `cps`, `extraBinds`; specification: the parameter lists of the generated code | induction over suites |
| C102 | CPS.hs `cps`, `conv`, `volatileVars`; LambdaLifter.hs capture; the worker loop, `$PUSH`, `$POP`, `$DROP` of rts.c; specification: an interpreter of suites with a stack of handlers | simulation by induction over suites with step-indexed continuations and catchers; both directions by monotonicity in the number of rounds and activations |
| C103 | as C102 | from the simulation: with n rounds the generated code needs more than n activations |
| C104 | Env.hs `castable` over the environments of C80-C82; specification: the axioms of an order | induction on the sum of two recursion depths; ancestors from C81 |
| C105 | Env.hs `lub`, `lub2`, `lubfold`; specification: least upper bound for `castable` | joint induction with C106 on the recursion depth; the ancestors of a class are a chain, so the first common one is least |
| C106 | Env.hs `glb`, `glb2`, `glbfold`; specification: greatest lower bound for `castable` | with C105 |
| C107 | Hashing.hs hash sink with its buffer, writes outside it undefined; specification: concatenation of the bytes of the operations | invariant of the buffer for each operation |
| C108 | Hashing.hs feeds of all syntax and interface entries; specification: injectivity | induction on size: the feed of each kind of syntax can be read back with what follows it |
| C109 | Hashing.hs `computeHashesSortedDeps`; specification: equations for the hash of a name on a cycle or not | induction over the components; the search builds its map in dependency order |
| C110 | with C109; specification: agreement of everything reachable | induction over the components, reading back the feeds of hashes |
| C111 | Hashing.hs `implItemSplitDeps` and its bound names, `implDepsFromItems`, `splitDeps`; Names.hs `freeQ`, `bound`, `assigned`; specification: plain lists of references and of introduced names | induction over the syntax: the walk adds exactly the visible free names, which are compared with `freeQ` and with the references |
| C112 | Transform.hs `trans` on expressions, `termsubst`, `eta`, `pzip`, renaming of parameters; specification: terms without names, their beta, eta and selection steps | semantic substitution: the meaning of the result under any meaning of its names is a reduct of the meaning of the expression under the substituted meaning; induction on the recursion bound |
| C113 | the same; specification: an evaluator with a trace | induction over the expression; concrete programs for the refutations |
| C114 | LambdaLifter.hs `expand`, `iterexpand`, and their use in `llSuite`; specification: transitive closure of the use of names | total length of the lists as measure; what is closed contains what can be reached |
| C115 | LambdaLifter.hs `llSuite`, `ll`, the environment; specification: an evaluator with nested frames, used for both programs | forward simulation by induction on the depth of evaluation; the places of a program as a chain of scopes, from which each function called is found with its additional parameters |
| C116 | Compile.hs `compileTasks`: the stage graph, `scheduleMore`, `loop`; specification: the trace of events | invariant of the loop: counters are the numbers of stages still awaited |
| C117 | the same | the set of pending stages as measure; at the end, a pending stage leads along the order to a failure |
| C118 | Compile.hs `flushReadyDeferredBacks`, `dependentClosure` | the closure is the transitive closure of use; invariant of the trace |
| C119 | Compile.hs `doOne`, `runFrontPasses`, `runImplRefresh`, with the front passes as a parameter; specification: a build in which every module goes through the front passes | every record on disk is one that the front passes gave for some other modules; equal hashes of modules give equal rows; induction over the modules of a build and over the history |
| C120 | Compile.hs `checkDepModuleRows`, `checkDepNameRows`; specification: comparison of all names | the same invariant, without assumptions on the front passes |
| C121 | the same | a record that was just written has the present hashes; induction over the modules |
| C122 | queue.c `enqueue`, `notify_subscribers`, in both readings of the comparison of a pointer with 0; specification: the subscribers that are due | induction over the subscribers and the groups |
| C123 | queue.c `enqueue` in its parts, `read_queue`, `set_private_read_head`; specification: histories of calls | invariant: who is marked as told has entries to read; induction over the calls |
| C124 | queue.c `__subscribe_queue`, `_subscribe_group` | laws of maps |
| C125 | queue_groups.c; specification: sets of pairs | laws of maps |
| C126 | queue.c `create_queue`, `create_headers_for_group_subscribers`; actondb.c `auto_update_group_queue_subscriptions` | induction over groups and members |
| C127 | Boxing.hs `boxing` of operators, CodeGen.hs `gen` of operators, the macros of base/builtin; C expressions with operands in either order; specification: methods applied to operands that are evaluated once | induction over the expression |
| C128 | the same and the methods of the integer types | case analysis, laws of `wrap` |
| C129 | Boxing.hs `bin2Aug`, CodeGen.hs `gen` of augmented assignment, Types.hs `oper` | refinement, from C127 |
| C130 | the text printed for conditions, and the grammar of C; specification: the value of the condition | induction over the condition, with fuel for the parser eliminated |
| C131 | yyjson.c writer and reader, as functions over documents and texts | mutual induction over the document; fuel of the reader bounded by the length of the text |
| C132 | json.ext.c encoding and decoding of values, on top of C131; specification: the relation `Same` | mutual induction over the value |
| C133 | the same; specification: `Supported`, `Finite` | mutual induction over the value |
| C134 | the same; specification: the last member of each key | induction over the members |
| C135 | the same | mutual induction over the document |
| C136 | the reader of C131; specification: the grammar of RFC 8259 as inductive relations `Val`, `Elems`, `Members`, `Doc` | soundness by induction over the fuel, completeness by mutual induction over the derivation |
| C137 | `deactSuite`, `deact` of statements and expressions, `lamfree`, sampling; specification: a semantics of methods with names looked up in the actor and lambdas that capture state variables, against one with attributes of `self` | simulation by mutual induction over bodies, for all interpretations of calls and closures |
| C138 | `eta` of the normalizer; specification: `Same` on the semantics of C137 | induction over the function part and the parameters |
| C139 | `envOf`, `bound`, `fallsthru`, `locals`, `props` on bodies of actors | mutual induction over bodies |
| C140, C141 | `projDepClosure`, `depTypePathsFromMap`; specification: reachability in the graph of projects | paths that avoid the nodes seen; invariant of the search; induction for the number of entries |
| C142 | `resolveProviders`, `findTyFile` on the search path | from C140 and C141 |
| C143, C144, C145 | `selectNeededTasks`, `selectAffectedTasks`, `dbpProviderPathClosure`, `expandBuildLibraryTasks`; specification: reachability, and the least set `Needed` | invariants of work lists with a measure; fixed point |
| C146 | `pruneMissingModuleOutputs`, `pruneMissingChangedModuleOutputs` on paths | case analysis of paths |
| C147 | `runWatchProject`, `shouldTriggerFile`, `startCompile` as a transition system | invariant, with C144 and C145 for what a run compiles |
| C148 | `discoverProjects`, `resolveDepBase`, `applyFingerprint`; specification: closure under dependencies, one project per fingerprint | invariant of the search, with the projects on the path of the recursion |
| C149 | `URI.__init__`, `URI.__str__` of uri.act on code points; specification: `IsUri`, after RFC 3986 | cuts in front of the first delimiter; both directions |
| C150, C151 | Fingerprint.hs, `validateFingerprint`, `suggestFingerprint`; specification: inductive hexadecimal numbers | induction on digits |
| C152 | `crc32IsoHdlc`, `fingerprintPrefixForName` | the checksum is linear and injective on four bytes |
| C153 | `collectDepTypePaths` against `discoverProjects` | invariant of the depth-first search; reachability |
| C154 | `resolve_relative_path` against the meaning of a path, piece by piece | induction over the pieces |
| C155 | `get_relative_path`: leads to the target, is shortest, and resolves to it | common prefix; distance in the tree of directories |
| C156 | TCPConnection: at most one on_connect, no silence | invariant over all orders of events |
| C157 | TCPConnection: exactly one verdict | invariant for literals; witnesses elsewhere |
| C158 | TCPConnection: reconnect | invariant; witnesses |
| C159 | TCPConnection: handles | invariant; witnesses |
| C160 | UDPConnection: one verdict | invariant over all orders of events |
| C161 | UDPConnection: closed is final, handles | the same invariant |
| C162 | logging: the path in a line | invariant over all interleavings and settings |
| C163 | logging: who writes a message | invariant; routes by induction |
| C164 | logging: the level in the logger | invariant over events and time |
| C165 | RunProcess: the report | invariant over all orders of callbacks |
| C166 | Process: signals and numbers | invariant over the table of processes |
| C167 | Process: stdin | invariant; closed states are stable |
| C168 | Process: environment | induction on the dict |
| C169 | WitKnots: creation ends | invariant of the stack of calls; completeness of the search for cycles by induction |
| C170 | WitKnots: cycles are tied | same invariant |
| C171 | Zon: texts are read as their values | induction over a grammar of texts, with the rest of the text and the fuel free |
| C172 | Zon: strings as Zig reads them | per piece of a literal; negation for `\xNN` of 80 and above |
| C173 | Zon: dependencies | C171 and a lookup lemma |
| C174 | Seed: the walk ends and reads what is reached | number of unread manifests; what depth-first search has done |
| C175 | Seed: archives are in the cache | invariant of the walk; negation for two addresses of one hash |
| C176 | PkgShow: it ends | induction over the accessible part of the graph; negation for a circle |
| C177 | PkgShow: what is shown | induction over the depth and the dependencies of a project |
| C178 | Fetch: proxies in messages | non-interference: two environments, equal but for credentials; negation for `@` and `/` |
| C179 | Fetch: repeated requests | induction over the requests that are left |
| C180 | Fetch: chunks and magic numbers | induction over the chunks; what stands in the first 600 bytes |
| C181 | TestCache: where cached results come from | invariant of the cache over histories; hashes taken apart |
| C182 | TestCache: nothing is run twice | the entry after a run, and what the next run makes of it |
| C183 | TestCache: incomplete results | negation with an interrupted test |
| C184 | TestExit: exit code and labels | the last report is the total of all iterations; negation with a crash |
| C185 | TestExit: what is recorded of a test | invariant of the counters over the iterations |
| C186 | TermFit: cutting lines with escapes | induction over what the terminal shows |
| C187 | TermFit: lines of tests | every attempt, and the fallback, in turn |
| C188 | TestExit: details of results | invariant of C185; negation with a skipped test |
| C189 | TestOut: output and iterations | fold over the lines, invariant of the counts |
| C190 | TestOut: nothing is left out | negation for all outputs before the first marker |
| C191 | TestIter: minimum of iterations | the first iteration that completes the test; negation with a slow test |
| C192 | TestIter: number and maximum of iterations | the first iteration that completes the test |
| C193 | TestSel: selection by name | what the anchored pattern parses to; negation with foo\|bar |
| C194 | TestExit/Snapshot: --snapshot-update | the exception kept is the first one; negation with a later error, and with outputs that vary |
| C195 | SnapCache: cached results of snapshot tests | each file is old or new after the edits; negation with three kinds of changes |

## What is modelled and what is not

Each row names the code that has a definition in the model; the comment at the
definition gives file, lines and simplifications.

| area | modelled | left out |
|------|----------|----------|
| Slice, CList, Range | slice.c, list.c (all mutators, capacity and buffer), range.c | `list.sort` of user orders that raise; list iterators during mutation |
| Sort | timsort.c completely (it has no galloping): runs, merges, run stack, temporary storage | comparisons with effects |
| Dict, Set | dict.c, set.c: tables, probing, resizing, all operators, dict serialization | user equalities and hashes that raise or change |
| Search, Str, Hex | str.c: `bmh`, `rbmh`, find/index/count/split/partition/replace/join/strip/startswith/endswith, indexing, slicing, iteration, equality, `ord`/`chr`/`hex`/`bin`/`from_hex` | upper/lower/is* (tables of utf8proc), formatting, bytearray |
| Int | int.c and siblings: power, division, modulo, rounding | float.c |
| Big | bigint.c: shifts, bitwise operations, conversions from and to int and text | the operations that only call bsdnt (which is not in the repository), pow, round, hash |
| Serial, Graph | serialize.c row encoding; `$step_serialize`, `$step_deserialize` of all builtin classes | files; closures |
| Netstring | netstring.c | sockets |
| Iter | builtin_functions.c: enumerate, filter, map, zip, max, min, sum, all, any; tuples | `print`, `input` |
| Rts | rts.c: actors, ready queue, message queues, waiting, freezing, timer queue, outgoing buffers, workers as interleaving processes at the granularity of the locks | libuv, the database connection of the RTS, garbage collection |
| Sched | rts.c, q.c: sleeping and waking of workers, sync pause, arming of the timer | libuv itself (its contract is stated in the files), weak memory, differences between the real time clock and that of the loop |
| Conv | constructors of int, i8–i32, u1–u64, bigint and float from numbers; `hash` methods | conversion of texts to float (`sscanf`), the hash function itself (wyhash, in Zig) |
| Bytes | methods of `bytes` (str.c): search, split, splitlines, join, replace, prefixes, suffixes, stripping, padding, case, `expandtabs`, order, `in`, indexing | decode and hex (C13, C14), the `is...` tests, slices of bytes (as `str`, C11), `bytearray` |
| Http | http.act: parsing and building of messages, receive loop of `Client`, `Server` and `TLSServer` with their counters | connecting, errors of the network, logging, `str.lower` (a parameter), json bodies; `build_response` for negative status |
| Persist | rts.c with `ACTON_DB`: `save_actor_state`, the `$RWAIT` case, `FLUSH_outgoing_db`/`_local`, `handle_timeout`, `$ASYNC` from the event loop, `$NEWACTOR`, `deserialize_system`; `read_queue`, `enqueue` and consumption by their effects (C25 to C28) | replication and failing servers, serialization of the rows (C15, C16), exceptions and catchers, values of results, `BOOTSTRAP`, reuse of keys, `__resume__` |
| Glob | fs.act `glob`, `_glob_recursive` over code points; `find`, `split` and indexing by what C09 to C11 prove of them (`Glob/Link.lean`) | depth of the C stack; strings of 2^31 bytes or more |
| Random | random.ext.c `randlong`, random.act `choice`, `sample` | `rand()` (arbitrary values in [0, RAND_MAX], RAND_MAX = 2^31 - 1, `long` of 64 bits), `randstr`, seeding |
| Xml | xml.ext.c encoding, on structures of strings; decoding from the tree of libxml2, on code points | libxml2 (its parser is specified by the reader in `Xml/Spec.lean`; `xmlGetProp` by its documentation), error reports, depth of the C stack |
| Ty | the types of the compiler (Syntax.hs `Type`) with rows, options, effects; `vsubst`, `ufree`, `vfree` | source locations, kinds of variables, unboxed types |
| Mro | Env.hs `mro`, `merge`, `mro2`, `findCon`, `findAttr`, attributes; the part of Types.hs that declares classes, protocols and actors | extensions, aliases of names and modules, properties of attribute types |
| Unify | TypeEnv.hs `unify`, `unify'`, `unifyM`, `usubst`, `usubstitute` | type aliases in the theorems (`tExpand` is in the model), the state but for the substitution, error reports, unboxed types (`usubstWith` and `ufree` have no case for them) |
| Names | CodeGen.hs `gen` of names, qualified names and modules, `mkCident`, `unCkeyword`; Syntax.hs `nstr`, `isKeyword` | the texts put behind names for constructors, methods tables and witnesses (`primKW`, `tableName`); Data.Set is described by a search tree with its elements in the given order |
| Kinds | Kinds.hs `kunify`, `ksubst`, `kinfer`, `kexp`, `kfx`, `instKWild` of variables | `kchk` of statements and declarations, `convTWild`, `convPExist`, error texts; names are resolved |
| Argparse | argparse.act `Parser` (`add_*`, `parse`, `_parse_and_consume`), `Args` getters | texts of help and usage, `prog`, the state of a parser after an exception; `int` and `isalnum` are parameters |
| Norm | Normalizer.hs: statements with control flow; Env.hs `flows`; `$PUSH`, `$POP`, `$DROP`, `$RAISE` | expressions (functions on the state), comprehensions, patterns but for their effect, `with`, types, nested declarations, locals that C does not keep over `longjmp` (CodeGen makes them volatile), the CPS variant `$PUSH_C` |
| Cps | CPS.hs `cps` on procedures, `conv` on statements, `volatileVars`, `needCont`, `kDef`, `kRef`, `kJump`, `convPOPDROP`; LambdaLifter.hs capture of variables by continuations; rts.c worker loop and catchers | types, `preCPS`, nested declarations, `elif`, patterns, expressions (functions of variables and world), several actors; callees end with a value or an exception; `longjmp` keeps locals |
| Cast | Env.hs `castable`, `glb`, `lub`, `glb2`, `lub2`, `glbfold`, `lubfold`, `findAncestor`, `hasAncestor`, `commonAncestors`, `tExpand`, `findTVBound` | recursion cut at a depth (all theorems hold for every depth); `TUnboxed`, modules and imported names; unknown names, which stop the compiler, have no ancestors; `schematic` |
| Hash | Hashing.hs: the sink (lines 189-383), the feeds (173-244, 385-775), `computeHashesSortedDeps` (1385-1497), dependency collection (896-914, 953-1371); Names.hs `freeQ`, `bound`, `assigned` (162-472); Syntax.hs and NameInfo.hs data types | SHA256 (any function; for C110 one without collisions); `stronglyConnComp` (its contract); source locations; `Env.unalias` (any function); docstrings of interface entries (not fed); 64-bit wrap-around of `Int`; `nameHashesFromItemsWithProgress` concurrency |
| Trans | Transform.hs: `trans` on expressions (33-61, 142-281); Names.hs `free` (264-302, 389) | statements, witness equations (`wtrans`), `Let`, wrapping primitives (`transCall`), keyword and starred arguments, the second clause of `eta`, types; comprehensions have one `for` over one name; laziness (the bound on the recursion is used up where the code would not look) |
| Lift | LambdaLifter.hs: `llSuite`, `ll` of statements, definitions and calls, environment (31-32, 101-259, 321-331); QuickType.hs `envOf` (425-440); Names.hs `free`, `bound`, `assigned` (195-242) | functions as values, lambdas and closure conversion, classes, types and type parameters, `for`, `try`, `with`, patterns, `break` and `continue`; a module is one group of functions |
| Build | Compile.hs: `compileTasks` (3192-3307, 4112-4290), its loop with starting, waiting, failing and cancelling of workers | what workers do (`doParse`, `doOne`), which returns anything that fits the stage; weights are any function; the module `__builtin__`, compiled before the loop; callbacks, progress and log; the contract of `stronglyConnComp` is a hypothesis |
| Incr | Compile.hs: what `runFrontPasses` records (2343-2423, 2546-2648), `doOne` (3485-3870, 3925-4108), `readModuleHeader` as a comparison of sources; Hashing.hs 788-862, 1560-1669; Env.hs imports (1353-1450) in the small language of the witnesses | the front passes, the combination of hashes and the order of keys, which are parameters; the hash of an interface stands for the interface; the index of dependencies in the file, the shortcut by modification times, modules outside of the project, options that force work, generated code and deferred jobs |
| Notify | queue.c 162-604 as far as heads and flags go, 785-1145, 1222-1240; queue_groups.c 24-34, 79-205; actondb.c 764-774, 1041, 1142, 1916-1942 | the entries (see Queue), consume heads and versions, locks, the ring that gives the groups of a queue (see Ring), `notify_remote_queue_subscribers` (not called), `delete_queue`, `clear_group`, `delete_group`, the side of the client |
| Unbox | Boxing.hs 650-665, 680-685, 718-722, 784-830 (operators), 921-970; CodeGen.hs 1610-1640, 1695-1757; Types.hs 876-887; base/builtin/{int,i8,i16,i32,u1,u8,u16,u32,u64}.{h,c}, operators | `float`, `bigint`, `/`; which variables are unboxed; worker functions and wrappers; the printed text of arithmetic (always in parentheses) |
| Json | base/src/json.ext.c 27-387; deps/libyyjson/yyjson.c: what the writer writes and the reader accepts, with the flags that json.ext.c passes | the digits of floating-point numbers (one element of a text each), UTF-8, memory, the C stack, the error messages; yyjson's loops are recursive functions here; the actor `Json` |
| Deact | compiler/lib/src/Acton/Deactorizer.hs (methods and attributes), Normalizer.hs:602-609, QuickType.hs:425-440, Names.hs:145-149 and 217-239, Env.hs:1316-1345 | types and witnesses, actions and `Async`, `NotImplemented`, nested classes and actors, keyword parameters; exceptions in bodies (behind the normalizer they are conditionals on `$PUSH`) |
| Plan | compiler/lib/src/Acton/Compile.hs: planning of builds (614-628, 735-741, 1546-1571, 1642-1880, 4647-4655, 4682-4754, 5283-5301, 5426-5438), discovery of projects (4407-4484, 4938-4941, 5305-5355), Env.hs:1377-1386, compiler/acton/Main.hs:835-908 (watching) | reading of sources and interfaces, `addLib` and the prefixes of imports, normalization of paths, directories of the user and the system on the search path, whether a provider's code is generated late (a parameter), the compilation itself |
| Finger | compiler/lib/src/Acton/Fingerprint.hs, Compile.hs:4848-4883 (validation and suggestions) | the random numbers, `isSpace` and `toLower` (parameters) |
| Paths | base/src/file.act: get_relative_path, resolve_relative_path (13-125) | `str.split` and `str.join` are taken from the area Str at the level of code points; the meaning of a path is lexical, so symbolic links are not modelled |
| Net | base/src/net.act: UDPConnection (84-212), TCPConnection (254-434), with their C parts in base/src/net.ext.c (371-503, 687-868) | Sending, receiving, metrics, `__resume__` and addresses are left out. libuv is not in /repo; its documented behaviour is assumed: a request gets one callback, `uv_shutdown` may refuse, a handle must not be closed twice. Methods of an actor run one at a time, and a call of an own action is a local call |
| Log | base/src/logging.act: Handler, Logger.log, DefaultFormatter as far as the path and the level go; when messages leave an actor (base/rts/rts.c:914-943, 1600-1608, 1725-1816) | One message at a time; texts, time stamps, own formatters. `get_level` answers at once. Names are numbers |
| Proc | base/src/process.act and process.ext.c: RunProcess, Process.signal, kill, terminate, stop, pid, write, done_writing, the environment, the callbacks read_stdout, read_stderr, exit_handler | libuv (its source is not in the repository): what is assumed stands at the head of each file. Texts of errors, workdir, the search for the executable |
| Knots | compiler/lib/src/Acton/WitKnots.hs: tieDeclKnots, witChains, collect, analyze, depsof, tieknots; the creation of witnesses at run time that results | Type and witness arguments (cycles that change them stop the compiler), attributes that are not witnesses of the group, use of a witness before its attributes are set |
| Zon | compiler/lib/src/Acton/Zon.hs: parseZon and its parsers, zonDependencies, toDep | pMultiString, pChar, letters, digits and spaces outside ASCII, surrogates in `\u{...}`, error messages, reading the file |
| Seed | compiler/lib/src/Acton/Compile.hs: seedTransitiveZigDeps (goDir, goDep), claimVisited, fetchOne | The walk over Acton projects around it (walkProject), names of paths, the download itself, messages; the file system and the servers do not change |
| PkgShow | compiler/acton/Main.hs: pkgShow (showTree, step, isHashDep) | The text of lines (describeDep), names of paths (resolveDepBase is a parameter), reading Build.act |
| Fetch | compiler/lib/src/Acton/HttpFetch.hs: maskProxyUrl, findSubstring, formatProxyEnvVar, proxyEnvReportLines, applicableProxy, proxyLn, retryableStatus, go of httpGetBytes and downloadToFile, streamBodyToFile; ArchiveDownload.hs: detectArchiveSuffixFromBytes | http-client (its exceptions are shown by `show`, which may quote a variable), temporary files, the type from the URL and from headers |
| TestCache | compiler/lib/src/Acton/Testing.hs: buildTestHashInfos, buildTestHashInfo, lookupTestInfo, testNameCandidates, resolveTestImplDeps, hashDeps, hashRun, toHex, mkTestKey, classifyCachedTests, updateTestCacheEntry, readTestCache; compiler/acton/TestRunner.hs: the parts of runProjectTests that use them, filterReusableCachedSnapshotResults | JSON of the cache, SHA256 and encoders (`Hash`), --snapshot-update, how tests are run in parallel, what the hashes of names stand for (see Hashing), files of snapshots |
| TestExit | base/src/testing.act: TestInfo.update and the part of _report_result that calls it; compiler/acton/TestRunner.hs: pickFinalTestInfo, the result of a test process in runModuleTestStreaming, testExitCode; compiler/acton/TestFormat.hs: formatTestStatus, the exception in formatTestDetailLines | stress mode, --snapshot-update, durations, memory and output, when iterations are reported (arbitrary), JSON of the reports, the prefix FLAKY |
| TermFit | compiler/acton/TerminalSize.hs: termVisibleLength, termFitAnsiRight, termFitPlainRight, dropAnsi, spanAnsi; compiler/acton/TestFormat.hs: formatTestLineFitted, formatTestLineWith, renderStatusField, renderStatusToken, colorizeStatusPart, testColorApply, fitTestDisplay | how numbers and durations are written (arbitrary texts), wide and combining characters (one column each, as in the code), other control characters, negative widths |
| TestOut | compiler/acton/TestRunner.hs: splitTestOutput, renderIterationOutput, dedupCombinedOutput, trim, stripAnsi, dropAnsi (the same code is in TestFormat.hs) | spaces outside ASCII, testOutputMeaningful, the headers over the chunks |
| TestIter | compiler/acton/TestRunner.hs: effectiveTestTiming, testCmdArgs; base/src/testing.act: the limits in the configuration of a test process, `complete` in _report_result; compiler/lib/src/Acton/CommandLineParser.hs: defaults of the options | stress mode, negative numbers, rounding of times, tags |
| TestSel | compiler/acton/TestRunner.hs: filterTests, compileTestNameRegexes, regexMatches, displayTestName | the parser and the matcher of regex-tdfa (the meaning of patterns is given), character classes, bounds, anchors inside of patterns, names with newlines |
| TestExit/Snapshot | compiler/acton/TestRunner.hs: applySnapshotUpdate, isSnapshotMismatch, markSnapshotUpdated; the output kept by TestInfo.update in base/src/testing.act | file names and directories, the label UPDATED, the text of the exception (taken from testing.act:1256 as read), cached results, stress mode |
| SnapCache | compiler/acton/TestRunner.hs: snapshotMetadataAllowsCacheHit, readFirstExistingSnapshotMeta; get_expected in base/src/testing.act | paths, files that cannot be read, the hashes of the cache, the resolution of the clock |
| Skiplist, Ring, VClock, Queue, Db, Txn | backend/skiplist.c, hash_ring.c, vector_clock.c, queue.c, db.c, txn_state.c, txns.c | threads inside the server (`MULTI_THREADED` is 0), the network format of the messages |
| View, Quorum | actondb.c and client_api.c: handling of views, replies and quorums | timeouts, reconnection |
| Comm | comm.c: `read_full_packet`, `sockaddr_cmp`; the reading part of client_api.c | TLS, AF_UNIX and AF_INET6 addresses |
| Uri, Time, Diff | base/src/uri.act quote/unquote and class URI (on code points without NUL), time.act Instant/Duration, diff.act | `isalpha` and `int` in URIs (parameters), time zones, clocks |

The compiler (compiler/, Haskell), the HTTP, JSON and XML libraries and the
file and network parts of the standard library are not modelled, unless a row
above says so.

## Findings: where the code violates a property

Each is proved as a theorem `C.._refuted_*` with a concrete witness (or for
every input of a class), unless marked *read only*.

* **C01** A negative step with a bound below `-len` reads outside the list or selects other elements.
* **C02** `range(1, 0, 2)` yields 1; differences that overflow give a wrong length; `range(0, -2^63, -1)` traps.
* **C03** `del l[i]` of a missing index does nothing; indexes are cut to 32 bits; deletion of a slice with negative step removes the wrong elements.
* **C06/C07/C37** After deletions a rebuilt small dict writes to `tb_indices[-1]`; `==` is not symmetric between small and large tables, `>` and `>=` are wrong; the empty dict, deleted entries and an overwritten counter break serialization.
* **C08** Look-ups with negative hashes may run forever; the hash -1 is taken for a removed element; `isdisjoint` raises StopIteration on disjoint sets.
* **C09–C13, C36** int overflow in the search, negative bounds off by one, bounds cut to 32 bits; `split(maxsplit=0)` reads an uninitialised variable; a negative count in `replace` overflows the heap; the empty pattern matches between bytes; iteration and equality end at NUL; slices of non-ASCII strings step outside the buffer; `rstrip` of a string that is stripped completely; `endswith` of non-ASCII strings.
* **C14** `bytes.hex` has no terminating zero; `chr` of surrogates; `chr` of numbers below -2^31.
* **C16** Shared boxed ints come back as None, shared bytearrays are unshared, ranges come back as int, sets with removed elements crash. *Read only*: `$RET` is written and read differently.
* **C17** Appending to a netstring buffer that contains NUL.
* **C18–C20** An actor that awaits an earlier message than its last one can be taken by two workers at once (rts.c adds it to the waiters before its outgoing messages are posted): crash, order violated. **C21** Ties between senders.
* **C22** `long_cmp` cuts the difference to 32 bits, the header can be deleted, `skiplist_get_range` always fails.
* **C23/C24** Clocks of different node sets compare as equal or before; merging reads behind the array and cuts counters to 32 bits.
* **C25/C26** Empty batches and a read within an enqueue abort the server; the consume position moves back; replay aborts once something is consumed.
* **C27–C29** Late writes, rows and their cells, keys 2^31 apart and queue operations escape validation; unvalidated commits are performed; keys written twice use freed memory; creation and enqueue in one transaction; commits are not atomic; aborting an unknown transaction kills the server; with more servers than the replication factor conflicting transactions commit; more replies than the factor overflow an array; a failed quorum leaves keys blocked; lost replies make the client retry forever.
* **C30/C43** Servers install older views with other node sets; clients install no view after a server joined; a rejection kills the proposer.
* **C31** Placement depends on the join order, nodes are added twice, PREJOINED miscounts, a stale status makes the loop endless, only one bucket is returned.
* **C32/C38** `%` has the sign of the dividend; boxed `%` and divmod by zero are undefined; negative exponents are accepted by unboxed ints; `round` of the least int does not end.
* **C33** unquote stops at `%00`; a NUL in `safe` hides the characters after it.
* **C34/C40** Lines that changed places are inserted twice; wrong headers for empty texts and without context. *Read only*: texts that differ only in the final newline give an empty diff.
* **C35/C39** Overflow wraps silently; texts of negative durations are wrong. *Read only*: `str_offset` of negative offsets, `str_asctime` has months off by one.
* **C41/C42** Columns of the first insertion are lost without clustering keys; further clustering keys shift the columns; a row past the end of the range is answered. *Read only*: tombstones are never recorded.
* **C44** `max` with a default counts the default as an element; `filter(None, ..)`, filter functions whose result is not a bool.
* **C46** A packet in two pieces aborts the receiver; failures and pieces within the length lose the framing; long packets overflow the buffer; a closed connection spoils the next packet of the client.
* **C48** `>>` of negative bigints rounds towards zero; counts of at least 64 times the number of words read outside the block; shifts of zero accept negative counts.
* **C49** `&`, `|` and `^` with negative operands are wrong if the result needs a word more, or have leading zero words. *Read only*: `fromB_bigint` exits for -2^63.
* **C50** `str` of bigints of one word from 10^18 on overflows a buffer of 19 bytes; negative texts with 18, 36, .. digits lose their sign.
* **C53** Two actors made ready in a row signal the same idle worker, whose own `wake_wt` comes before it is marked as working: another worker sleeps on. **C54** The counter of the shared queue is decremented when nothing was taken (nothing reads it). **C56** A first timed message with baseline 0 stops the timer for good. *Read only*: an affinity that is no worker strands the actor; jumps of the real time clock shift timers.
* **C57** `i8(n)` and `i16(n)` test the range of `i32`: `i8(200)` is -56. **C58** `int(4503599627370497.0)` is 4503599627370496: the 53rd digit is dropped. **C59** `float` reads an `i16` as `i8` and vice versa: `float(i16(300))` is 44, `float(i8(-1))` is 255; bigints of several words are rounded word by word. **C60** `i8`, `i16`, `i32` and `float` hash the address of the box instead of the value, so equal keys are not found in dicts and sets; `complex` hashes -0.0 and 0.0 differently. *Read only*: `str(u1(1))` formats with `%c`; `==` of bytearrays uses `strcmp`; `float(str)` reads an uninitialised counter when nothing matches.
* **C47** Addresses 2^31 apart are in the wrong order; peers are not found.
* **C61** `bytes.split(sep, 0)` reads the variable `ssep` before it is set (str.c:3604); `bytes.replace` with a negative count allocates a wrong size (str.c:3436).
* **C62** `bytes.endswith` reads before the buffer for a suffix longer than the value, fails for zero bytes, and ignores `start` (str.c:3069-3081). `256 in b"\0"` is true (str.c:3797).
* **C63** `bytes.split()`: the two cases after the loop are exchanged (str.c:3575-3589): `b"a ".split()` is `[b"a", b"a "]`, `b"a b c".split(None, 1)` is `[b"a", b""]`, and for white space alone a pointer is used that was never set.
* **C64** `bytes.lower` and `bytes.upper` read from the new block instead of the argument (str.c:3358, 3669). `bytes.expandtabs` reads and writes outside of its buffers for bytes from 128 (str.c:3108).
* **C65** `parse_message`: "Transfer-Encoding: gzip, chunked" (with a space) is never complete (http.act:233-235); chunk sizes with extensions, or beginning with "0b", are skipped and their data lost (256-262); trailers are left in the input; a negative `Content-Length` is accepted, the body then depends on the segmentation (221-231).
* **C66** A response with an invalid `Content-Length` stays in the buffer and every later segment raises `ValueError`. A response with an unknown version discards the rest of the buffer with it (http.act:334-349). What is left of a connection that is closed is put before the data of the next one.
* **C67** `on_conn_receive` parses one request per segment: a second request in the same segment waits until more data arrive (http.act:376-378). `cb_install` parses a request that is already there and drops it (364-368).
* **C68** `respond` compares the counters at the time of the answer (http.act:408): if a second request is handed over before the first is answered, no response is ever sent again on the connection.
* **C69** HTTP/1.0 with "connection: keep-alive" is closed (http.act:387-402).
* **C70** `build_request` adds its defaults to the caller's dictionary, so that a second request with it has the `Content-Length` of the first (http.act:74-91). Line ends in header values are written as they are.
* **C71** The dummy read in `save_actor_state` (rts.c:1584) is done outside the transaction, and recovery reads from the read head (1197-1215), so a message whose actor dies between the read and the commit is lost. `deserialize_system` itself moves the read heads to the ends of the queues: after a second crash no message is left. At an `await` the state is saved with the continuation that has just been run (1793-1811: `m->$cont = r.cont` and `ADD_waiting` come after the commit), which is run again after recovery, on the changed state. An actor has no row before it has finished its first message; after a crash it is gone, and so are the messages sent to it.
* **C72** If a commit is repeated, so is the dummy read, and two entries are consumed (rts.c:1569-1599). Messages from the event loop have no entry in the queue (940-947); when one has been dealt with, the entry of the next message is consumed. Two workers may flush locally in another order than they committed; then the wrong entries are consumed. The timer queue is in the order of sending, `timerQ` in the order of time; `handle_timeout` consumes the first entry of the timer queue whatever message is due (1154-1168).
* **C73** `**/` is treated as "any text" when it is followed by more pattern (fs.act:67-76 skips any number of characters, not of directories): `**/b` matches `ab`. The options of braces are put into the pattern as text and the match is restarted from the beginning with the new pattern, so an option next to a star can become part of another token: `*{*,x}` matches `a/b`.
* **C75** `randint(x, x)` divides by zero (random.ext.c:31) instead of raising; a range above `RAND_MAX` makes `end` 0 and the loop never ends, e.g. `randint(0, 2**31)`.
* **C76** The docstring of `sample` promises the order of the population, but the elements are in the order in which they were drawn.
* **C77** Sizes are `int`s: for a text of 2^30 ampersands the size wraps to a small number, and the escaped text is written past the end of the buffer.
* **C78** `>` is not escaped, so a text with `]]>` is encoded to something that is not XML; neither are carriage returns (read back as line feeds), line feeds and tabs in attribute values (read back as spaces), and control characters (not XML). A node with a tail, such as a child of a decoded document, is encoded with its tail: not XML. The prefix of such a child is encoded without its declaration, and read back as part of the tag. Pretty printing adds white space to texts of mixed content.
* **C79** `xmlGetProp` (xml.ext.c:166) looks an attribute up by its local name only: of attributes with the same local name and different prefixes all get the value of the first.
* **C83** `unify'` pairs the arguments of two constructors with `zip`: surplus arguments are ignored, so that soundness rests on the kind checker.
* **C84** `unify'` takes two option types apart (TypeEnv.hs:715), although substitution identifies `?(?t)` with `?t`: for `Pair[?a, a]` and `Pair[?int, ?int]` it sets `a` to `int` and then fails, although `a = ?int` makes both equal; and `a = int` is not the most general solution of `?a` and `?int`.
* Observation: `unify'` looks at levels only when it binds a variable to a variable; binding a variable to a structured type does not lower the levels of the variables in it.
* **C85** The mangling of names is not injective: `CD_f` and the method `f` of `C`; `bQ_c` in module `a` and `c` in `a.b`; `A_int` and `int`; `X_e9_` and `é`; `complx` and `A_complex`; derived names that associate differently; internal names with numbers at the start of their text.
* **C86** `""` is accepted as a name (`escname`), and `mkCident` takes the head of it; `asm` is not treated as a keyword of C.
* **C87** The table of `isKeyword` is given to `fromDistinctAscList` but is not ascending: `_` is the last word, though it comes before the small letters. In every balanced tree the search for `_` fails.
* **C88** `kfree` (Kinds.hs:585) gives `[]` for a variable, so the occurs check of `kunify'` never fires: a variable unified with a function of itself is bound to it, and `ksubst` does not end. It cannot happen as long as no constructor takes arguments of function kinds, which C89 shows for the kinds `kinfer` makes.
* **C91** Required positional arguments of a command are not checked (argparse.act:418-420 look only at `self.args`). `nargs="*"` is accepted by `add_arg`, but its values are dropped.
* **C92** An unknown option or an extra word is silently dropped (the documentation at the head of argparse.act promises ArgumentError); `--flag=no` sets the flag; a positional argument named `help` makes every line a ValueError; no arguments at all give IndexError.
* **C93** With a command, what follows `--` is passed on without it, so the parser of the command takes it for options.
* **C94** The parser looks at the command's arguments first: it takes the letters of its own flags out of `-ovalue` of the command, takes a separate value `-v` for its flag, and defaults of the command replace values given to options of the same name.
* **C95** Positional arguments are popped from the parser, `--help` stays injected (so the second time no usage is printed), and values are appended to the default list in place. The `nargs` of options (documented as `--exclude "ERROR" "DEBUG"`) is ignored.
* **C96** `break` and `continue` in the `else` suite of a `while` act on that loop, not on the one around it (Normalizer.hs:267 puts the `else` suite into the loop). A StopIteration raised by the body of a `for` ends the loop silently and runs its `else` suite (Normalizer.hs:334 has the whole loop in the `try`).
* **C97** `while …: return … else: break` inside `try … finally`: `flows` takes the `break` to leave the `try`, the code does not, so no `$SEQ` is raised: `finally` is skipped and the jump buffer stays on the stack.
* **C99** `brkseq` removes only one `break` and one `continue` (`\\` of Data.List): a `try … finally` around a loop with two of them gets a relay that is a `break` outside any loop, which the C compiler rejects.
* **C101** A variable declared by an `if` with calls and assigned after it is in `nts0` and in `extraBinds` (CPS.hs:217-219): the continuation is defined with that parameter twice.
* **C102** `nts0` (CPS.hs:218) looks only at the free variables of the rest of the same suite. A variable declared by an inner `if` with calls and used only after the enclosing `if` is not passed to the continuation in between, whose code refers to it. The same for a volatile variable that is only assigned to later. `convPOPDROP` leaves `$DROP` alone inside a `try` that needs no continuation, even where it stands for the entry of an enclosing `try` that does: it pops the jump buffer of the worker instead of the catcher of the actor. `$SKIPRES` is the identity (base/builtin/common.h:60), so the result of a call in last position becomes the result of the procedure; hidden by the `return None` that the normalizer appends.
* Seen while reading for C102, not modelled: `setVolatiles` on a nested procedure replaces the volatile variables of the enclosing one (CPS.hs:248); `preCPS` moves the calls in the conditions of `elif` in front of the whole `if` (CPS.hs, TODO in the code); `wt_work_cb` calls `$PUSH()` only if `jump0` is not set and never clears it (rts.c:1692-1694), so that an exception in a later call of `wt_work_cb` jumps to the `setjmp` of a call that has returned, which C leaves undefined.
* **C104** `castable` of a type variable looks at its bound (Env.hs:1115) before the clause for options (Env.hs:1120): `T` cannot be used for `?T`. Two instances of an alias are compared by their arguments (Env.hs:1076, since a name is its own ancestor) before they are expanded: with `L[A] = list[A]`, `L[int]` can be used for `list[?int]` and that for `L[?int]`, but `L[int]` not for `L[?int]`. An ancestor must have equal arguments even if it is covariant: a subclass of `list[int]` cannot be used for `list[?int]`. The same comparison rejects wildcards: a subclass of `Base[int]` cannot be used for `Base[_]`, which is what `headcast` asks.
* **C105** `lub` of two instances of a class is the first (Env.hs:1230): `lub list[int] list[str] = list[int]`. The constraint solver only calls it on types with wildcards for arguments, but QuickType.hs `upbound` calls it on full types. `lub` fails for functions that take `?int` and functions that take `?str`, because `glb` fails for `?int` and `?str`; functions that take `None` are a common supertype.
* **C106** `glb None int` is `None` (Env.hs:1162), which cannot be used for `int`. `glb` has no clauses for type variables as `lub` has: it fails for `T` and the class that bounds `T`. It fails for `?int` and `?str`, though `None` can be used for both.
* **C108** `feedList` ends a list with the byte 5 (Hashing.hs:227-229) and `feedString` writes no tag, so in the feed of a literal (`A.Strings`, Hashing.hs:444) a further part that begins with the character 5 looks like the end of the list. Raw string literals keep control characters (Parser.hs `rawstrLiteral`) and adjacent literals stay separate parts: `r"a"` followed by `return r"x"` and the one statement `r"a" r"..."`, whose second literal is the characters 5, 17, 3, 58, 4, x, are fed alike, so the two functions have the same hash.
* **C110** The own public hash of a name is that of its interface entry, which does not contain the name (Hashing.hs:699). The hash of a cyclic group lists the members' own hashes and then the hashes of what they depend on outside (Hashing.hs:761-770), neither with names. If `N` mentions `M` and `P`, and one version has `M` refer back to `N` and the other `P`, with the definitions of `M` and `P` exchanged, then the public hash of `N` is the same in both. `feedResolvedDepHashes` (Hashing.hs:744-747) skips dependencies without a hash.
* **C111** `splitCompDirect` (Hashing.hs:1287-1292) and `freeQ` (Names.hs:389) take the source of a comprehension to be in the scope of its pattern, but the type checker reads it outside (`inferSub env`, Types.hs:2508): for `[x for x in x]` the dependency on the item `x` is lost, and a change of `x` does not reach the implementation hash of the function. Types written in patterns (the type checker adds one to every local variable) are not looked at either.
* **C112** `trans` (Transform.hs:142-209) captures in four ways, each shown by a program whose value changes. (1) Comprehensions block their names but rename nothing: `(lambda x: [x for y in l])(y)` becomes `[y for y in l]`. (2) The names are blocked in the source too: `(lambda x: [x for x in x])(l)` becomes `[x for x in x]`. (3) `eta` does not look whether the function mentions the parameters: `lambda f, x: f.g(f, x)` becomes `f.g`, with `f` unknown. (4) New parameter names avoid the names of the body but not those of the expressions put in: `(lambda z: lambda a: z(a + b))(lambda x: lambda b: x + a)` becomes `lambda y1: lambda y1: y1 + b + a`. With the repairs of `trans true` the property holds.
* **C113** Calls of lambdas are reduced whatever the arguments do (the code says `TODO: check that e' is linear`): `(lambda x: 1)(f())` loses the call of `f`, `(lambda x: x + x)(f())` makes it twice, `(lambda x, y: y + x)(f(), g())` exchanges the two; `(f(), 1).1` loses it (`TODO: outrule side-effects in e`).
* **C115** `findFree` (LambdaLifter.hs:135-137) looks for the variables that a local function needs among the local variables at the place of the call, by name. A parameter or variable that hides one of them is passed instead: `def outer(x): def g(): return x; def f(x): return g(); return f(10)` returns 10 after lifting, whatever `outer` is called with. The map of needed names is not restricted to the local variables when it is extended (line 194; the comment at the head of the file says it is), so that a needed name of the module is passed as an argument where a local variable has that name, to a function that has no such parameter. Passes before lifting are not part of this model; whether they leave such programs as they are was not shown.
* **C119** The list of imports whose hash has changed is computed and not used (Compile.hs:3826), so that a record depends only on the names it mentions. After `from a import *`, `from b import *`, a name added to `b` that was taken from `a` changes what a clean build does and not what an incremental build does. A name imported by name but not mentioned can be removed from its module: a clean build fails, an incremental build succeeds. Derived names are left out of public dependencies (`isDerivedQName`, Hashing.hs:835, 862; "internal and should not require public hashes"), but the names of extensions are derived: if the signature or the constraints of an extension change, a module that uses its witness only has its hashes refreshed, and code is generated from the typed module made for the old extension. Front passes feed local dependencies to the hash in the order of `Ord Name`, which compares constructors first, while they are recorded in the order of `nameKey` (Hashing.hs `assembleNameHashes`), which is the order a refresh takes (`computeHashesSortedDeps` in `refreshImplHashes`): after a refresh, hashes can differ from those of a clean build.
* **C122** `notify_subscriber` skips subscribers with `cs->group_id >= 0` (queue.c:166), where `group_id` is a `WORD`, that is a `void *` (common.h:24). Compilers compare addresses as unsigned numbers, so the test is always true and no subscriber is ever told of an entry. If it is read as a signed comparison, which is meant, members of groups are still never told: their group (queue.c:303-325) tells them by the same function, which skips them. And the subscription of a client keeps `&childfd`, the address of a parameter of `handle_client_message` (actondb.c:1142), which is gone when an entry arrives. A closed connection is recognized by the number 0 (queue.c:207), but `handle_socket_close` stores -1.
* **C123** The flag `notified` is cleared only where `read_queue` reads entries up to the last. A read within a transaction peeks, and its commit moves the head by `set_private_read_head`, which leaves the flag: the subscriber is told of no entry any more until it reads outside of a transaction. Between the parts of an `enqueue` another thread can read the entry; the flag is set behind that, and a read that finds nothing leaves it set (queue.c:556-566).
* **C124** `__subscribe_queue` leaves the state of a subscriber that is there, with the pointer to its old socket; a client that has connected again is not told. `add_listener_to_group` does replace it.
* **C125** In `add_queue_to_group` the list found is assigned to a variable of the inner block (queue_groups.c:86) that hides the outer one, so that a second queue of a table is inserted into a null list. `remove_queue_from_group` takes the deleted value for the node; the value is the id of the queue, so that removing the queue 0 reports that it was not there. (The functions are not called by the server.)
* **C126** `_subscribe_group` makes no read heads in the queues that exist: a new member of a group gets `DB_ERR_NO_CONSUMER` from them until the next view is installed.
* **C127** The macros `T_FLOORDIV(a,b)` and `T_MOD(a,b)` (int.h:17-18 and the other types) contain `b` twice. The code of `10 // f()` calls `f` twice, and the second result is the divisor: it may differ from the first, and be zero after the test. In `n` nested divisions the innermost operand is evaluated `2^n` times. The test comes before `a` is evaluated: with a zero divisor the effects of the dividend are lost, and a dividend that changes the divisor makes the division trap.
* **C128** The methods `__mod__` trap on zero where the macros raise `ZeroDivisionError`. A negative exponent raises `ValueError` in the methods and gives some number for unboxed values. The macros for `i8` and `i16` give an `int`, so that `i8(-128) // i8(-1)` is 128 within a larger expression.
* **C129** `x //= 0` and `x %= 0` on unboxed variables are the C operators `/=` and `%=` and trap. `x **= e` is printed as `**=`, which is no C. `oper` (Types.hs:876-887) has no case for `^=`, so that the compiler stops with an incomplete match.
* **C130** The truth value of an unboxed number is printed as `a != 0` without parentheses. `x.__bool__() == y.__bool__()` becomes `(x != 0 == y != 0)`, which C reads as `((x != 0) == y) != 0`: false for 1 and 2.
* **C132** Strings are passed to yyjson and back as C strings. `json.encode({"x": "a\0b"})` is `{"x":"a"}`; two keys that differ behind a NUL become one when decoded, and the value of the first is lost. A `u8` comes back as an `int`, and a `bigint` that fits as an `int` or `u64`.
* **C133** `yyjson_mut_write_opts` gives NULL for a document with an infinite number or NaN; `to$str(json)` (json.ext.c:368, 386) reads from there. `json.encode({"x": 1.0e308 * 10.0})` ends the program instead of raising an exception. `err` is not looked at.
* **C134** `jsonQ__decode` does not test that the root is an object, as `jsonQ__decode_list` does for arrays: `json.decode("[1]")` and `json.decode("7")` give `{}`. What stands behind a NUL in the text is ignored.
* **C135** A string with `\u0000` in the text of a document is cut there.
* **C137** A parameter of a method that hides a state variable is overwritten by that variable if a lambda in the
  method mentions it (sampling does not look at parameters). A local variable or a nested function with the name of
  a variable or method of the actor becomes an assignment to the attribute, or is not called. A lambda in a
  dictionary, a set or a `let` reads the state variables when it is called, everywhere else when it is made
  (`lamfree` ends with `_ = []`). In a statement with a lambda over `x`, an `x` behind a call in the same statement
  has the value from before the call.
* **C138** `eta` does not look whether the parameters occur in the function: `lambda a: a.foo(a)` becomes `a.foo` with
  an `a` that is not bound. It does not look for effects either: `lambda: make()()` becomes `make()`.
* **C139** `props` takes the intersection of all branches, also of those that end with `raise`, and does not know
  `finally`; `envOf` skips the first and keeps the names of the second. `if c: x = 1 else: raise E` in an actor assigns
  `self.x`, and the class has no property `x`. The same goes for `if a: x = 1 else: (if b: x = 2)`, since `bound` is a union.
* **C140** `projDepClosure` hands `seen` to the dependencies, but not from one to the next: a shared dependency comes
  once for each path that leads to it. With `k` diamonds, that is `3 k + 1` projects, the list has `2 ^ k` entries.
* **C142** If two projects of the closure declare a module of the same name, `resolveProviders` takes the last of them
  (`M.fromList` keeps the last; its comment says the first), while the search path finds the first. The import is
  compiled against an interface for which its task did not wait.
* **C143** A file that is no task's is dropped silently if another file is a task's. If none is, and no task has a file of
  that name, then everything is built.
* **C144** The expansion adds the late providers that the selected consumers import, but not their other consumers. With
  `1` changed, `1` and `3` importing `2`, `3` and `5` importing `4`: the plan has `4` but not `5`, so that the code of `4` is
  generated without the names that only `5` uses. Building a given file has the same effect on all its providers.
* **C146** In a special project (`base`) the output of `src/base/x.act` is removed although the source is there. The
  incremental variant looks for outputs in `types/`, but they are in `types/<project>/`: it never removes them, and
  removing `src/<project>/x.act` makes it remove the outputs of `src/x.act`.
* **C147** A change cancels the run in progress and the new run is planned for the last changed file only. Two quick changes
  of files without a common importer leave the first one uncompiled, and its stamp is recorded already. A change during
  the first full build leaves all else uncompiled.
* **C148** The root's declaration of a dependency counts everywhere (a "pin"), but a relative path in it is resolved from the
  directory of the project that uses the name, not from the root. With the root in `/1` and `../5` for a name, a project in
  `/2/3` that uses the name gets `/2/5`: another project under the same name, or an error if there is none.
* **C149** `http://h?q` becomes `http://h/?q`. The authority is split at its first colon: addresses of IPv6 and user
  information with a password raise ValueError. A colon anywhere in a reference without a scheme (`/a:b`) and schemes without
  `//` (`mailto:x`) raise ValueError too.
* **C151** For a name with the CRC `acedf00d`, such as `kbiuzhmc`, the suggestion may be the placeholder, which is refused.
* **C152** A CRC does not tell names apart: `plumless` and `buckeroo` have the same. `B.pack` drops the upper bits of
  characters, so that paths that differ by these share the scratch directory of the REPL and the fingerprint of the scratch
  project.
* **C153** `collectDepTypePaths` ignores the declarations of the root: where a dependency declares a name otherwise, the
  interfaces of its own choice are on the search path, and come before those that the build uses. Of two copies of a project
  it takes another one than the build. In a cycle it lists the root among the dependencies.
* **C154** `resolve_relative_path` removes an empty piece instead of a directory when `..` follows it: `a//../b` in `/s`
  becomes `/s/a/b`. Pieces `..` of the start are removed by `..` as if they were names: `../x` in `/a/..` becomes `/a/x`.
* **C155** `get_relative_path` counts `..` in the directory as a name: from `/a/..` to `/a/x` it gives `../x`. For the target
  `/..` the relative path is refused by `resolve_relative_path`.
* **C157** TCPConnection. A refused connection is reported by `_on_tcp_error`, which leaves the state unchanged, so the
  timer reports it once more. A lookup that ends after the other family connected sets the state back to connecting, and
  the timer then closes the working connection. A refusal over one family is reported although the other family may still
  connect. For a name that does not resolve the lookups are repeated forever; the timer ignores the state resolving and the
  program is never told.
* **C158** After `reconnect` the states of the families are not reset: with a name, both families may connect and both be
  dropped, and the program gets a timeout. The timer of the first attempt ends the second. A request of the first attempt
  that completes late reads the socket -1, or makes the actor use a socket that is not connected.
* **C159** The socket that loses the race between IPv4 and IPv6 is never closed; nor is that of a request that was still
  running at the timeout. An end of file during a shutdown closes the handle twice.
* **C160** UDPConnection. If the timer fires before the message of a failed setup is handled, on_error is called twice.
* **C162** Handlers share the list `path` of a message. If a sink waits for an answer of another actor, the message leaves for
  the parent, and the following sinks of the handler write a path with the name of the parent.
* **C163** A message with a level that is not in `lvl_names` (`Logger.log` takes any) makes `handle` fail at the first sink;
  no sink writes it. (Not a property: `INFO` is 5 and `NOTICE` 6, the reverse of syslog, so that the output level `INFO`
  hides notices.)
* **C164** For up to 0.1 s after the output level of a handler was raised, its loggers drop messages that it would take.
* **C165** After a read error on stdout or stderr (`read_stdout`, `read_stderr` only log it) RunProcess never calls `on_exit`
  or `on_error`, though the process has exited.
* **C166** `signal` cuts its argument to 32 bits: `signal(4294967305)` sends SIGKILL.
* **C167** `done_writing` closes the handle with `uv_close`, which cancels writes that wait: of `write(data)` followed by
  `done_writing()` the process gets only what fits into the pipe.
* **C168** A key with "=" sets another variable; keys and values end at a zero byte.
* **C172** (Zon.hs:145, 150-154): `\xNN` in a string of build.zig.zon is read as the character of that number. In Zig it is a byte, so
  `"\xc3\xa9"` is `é` for Zig and `Ã©` here: url, hash and path would differ. Witness: `Zon.C172_refuted`.
* **C175** (Compile.hs:5151): a hash is claimed before its download. If two manifests give different addresses for one archive and
  the first fails, the second is not tried, and the build is left to Zig, which cannot go through a proxy. Witness:
  `Seed.C175_refuted`.
* **C176** (Main.hs:1173-1200): `showTree` keeps no record of the projects that it has been to; with two projects that depend on
  one another `acton pkg show` prints lines for ever. (The build itself takes such projects, see C148.) Witness:
  `PkgShow.C176_refuted`.
* **C178** (HttpFetch.hs:200-208): `maskProxyUrl` takes the authority up to the first `/` and the credentials up to the first `@`;
  of the password `p@ss` the part `ss` is printed, and with the password `pa/ss` the whole address is. Addresses have to encode
  these characters, but the message is for those who made a mistake with the variable. Witness: `Fetch.C178_refuted`.
* **C183** (Testing.hs:377-394, TestRunner.hs:360-373, 700-708): results are put into the cache and taken from it whether the test
  completed or not. `testResultInterrupted` (TestRunner.hs:1130) knows only interruptions in stress mode. After Ctrl-C in an
  ordinary run, the interrupted tests are stored as errors ("Test process exited with code -2"), and the next `acton test` shows
  these errors from the cache without running the tests; so does one after a crash of the test process. Only `--no-cache` or a
  change of the code helps. Witness: `TestCache.C183_refuted`, for every hash function.
* **C184** (TestRunner.hs:394-398, 700-708, 1143-1178; TestFormat.hs:30-43): `testExitCode` and the summary look only at
  `trSuccess`, which a failing exit of the test process does not change. A test of which a good iteration was reported (reports
  are sent every 50 ms) and whose process then dies, say of a segmentation fault, is shown as ERR, and yet the summary says "All
  tests passed" and `acton test` exits with 0, so CI does not see the crash. Witness: `TestExit.C184_refuted`.
* **C188** (TestFormat.hs:298-303): `excLines` has the cases `Just exc | not skipped` and `Nothing`, but none for an exception of a
  skipped test. A test that is skipped and whose process then exits with a failure has both (TestRunner.hs:700-708 sets the
  exception and keeps `trSkipped`), and `acton test` ends with a failed pattern match while it shows the results. Witness:
  `TestExit.C188_refuted`.
* **C190** (TestRunner.hs:477-480, TestFormat.hs:357-360): at the first marker `step` throws away what it has gathered so far, so
  what a test process prints before the first iteration (while modules and actors are initialised, or by the runtime system) is
  not shown with the details of a failing test, nor with `--show-log`. Witness: `TestOut.C190_refuted`, for all such output.
* **C191** (testing.act:1204-1207, TestRunner.hs:1008-1017): a test also ends as soon as it has run for longer than the maximum time,
  whatever `--min-iter` says. In an ordinary `acton test` the default of the maximum time is the minimum time (50 ms), so that
  `--min-iter` ("Minimum number of iterations to run a test", default 3) has no effect at all, and tests that take longer than 50
  ms are run once; flaky ones are then not found as such. Witnesses: `TestIter.C191_void`, `TestIter.C191_refuted`.
* **C193** (TestRunner.hs:555): the pattern of `--name` is anchored as the text `"^" ++ pattern ++ "$"`, without parentheses. With
  `--name "foo|bar"` this is `^foo|bar$`, which also selects every test that begins with `foo` (`food`) or ends with `bar`
  (`rebar`), and in `a|b|c` the middle one is not anchored at all, though the help says "regex, anchored". Witness:
  `TestSel.C193_refuted`.
* **C194** (TestRunner.hs:1239-1250, 1321-1331): `--snapshot-update` looks only at the first exception of a test, and then sets
  all its counters to 0. If the output of a test differs in its first iteration and a later iteration ends with an error, the
  test is shown as `UPDATED` and `acton test` exits with 0. The output written is that of the first iteration: if that one
  printed what was expected and a later one did not, the file is written as it was, and the test, which is flaky, passes.
  Witness: `TestExit.C194_refuted`.
* **C195** (TestRunner.hs:1270-1293): whether the expected output of a cached test has changed is told from the size and the
  time of the file only. A change of the same size goes unnoticed, and the test is shown as it was, if snapshots/expected is
  removed and test/golden has an older file; if it is replaced by an older file (`cp -p`, `mv`); or if it is written while the
  tests run, after this one has read it, since the outputs are written at the end of the run (line 359). Witness:
  `SnapCache.C195_refuted`.

## Axioms of each theorem

Output of `#print axioms` for every theorem of MANIFEST.json. P = `propext`,
C = `Classical.choice`, Q = `Quot.sound`; no other axiom occurs.

| property | theorems by axioms |
|---|---|
| C01 | **PCQ**: `Slice.C01_getslice_partial`, `Slice.C01_getslice_forward`; **P**: `Slice.C01_refuted_start`, `Slice.C01_refuted_stop`, `Slice.C01_refuted_memory` |
| C02 | **PCQ**: `Range.C02_range_partial`; **none**: `Range.C02_one_argument`, `Range.C02_refuted`; **P**: `Range.C02_refuted_overflow`, `Range.C02_refuted_trap` |
| C03 | **PCQ**: `CList.C03_history_partial`, `CList.C03_step_partial`; **PQ**: `CList.C03_refuted_delitem`, `CList.C03_refuted_index`, `CList.C03_refuted_delslice` |
| C04 | **PCQ**: `Sort.C04_sorted`; **P**: `Sort.C04_unique` |
| C05 | **PCQ**: `Sort.C05_safe`, `Sort.C05_stack` |
| C06 | **PCQ**: `Dict.C06_history`, `Dict.C06_results`, `Dict.C06_step`, `Dict.C06_observe`; **P**: `Dict.alookup_aset`, `Dict.alookup_aerase`, `Dict.C06_refuted_array_bounds` |
| C07 | **PCQ**: `Dict.C07_eq_partial`, `Dict.C07_lt_partial`; **P**: `Dict.C07_refuted_symmetric`, `Dict.C07_refuted_gt`, `Dict.C07_refuted_ge` |
| C08 | **PCQ**: `Set.C08_history_partial`, `Set.C08_safety_partial`, `Set.C08_outcomes_partial`, `Set.C08_pop`, `Set.C08_eq`, `Set.C08_ge`, `Set.C08_gt`, `Set.C08_sub`, `Set.C08_and`, `Set.C08_or`, `Set.C08_xor`, `Set.C08_isdisjoint_partial`, `Set.C08_refuted_isdisjoint`; **P**: `Set.C08_refuted_termination`, `Set.C08_refuted_minus_one`, `Set.C08_refuted_dummy` |
| C09 | **PCQ**: `Search.C09_bmh_partial`, `Search.C09_rbmh`, `Str.C09_find_partial`, `Str.C09_rfind`, `Str.C09_contains_partial`, `Str.C09_index_partial`, `Str.C09_rindex`, `Str.C09_find_bounds_partial`; **PQ**: `Search.C09_refuted_huge`, `Str.C09_refuted_negative_start`; **P**: `Str.C09_refuted_start_truncated` |
| C10 | **PCQ**: `Str.C10_split_partial`, `Str.C10_join`, `Str.C10_replace_partial`, `Str.C10_partition_partial`, `Str.C10_rpartition`, `Str.C10_count_partial`, `Str.C10_split_join_partial`, `Str.C10_split_limit_partial`, `Str.C10_replace_join_partial`, `Str.C10_refuted_empty_pattern`; **P**: `Str.C10_split_empty_sep`, `Str.C10_refuted_maxsplit_zero`, `Str.C10_refuted_negative_count` |
| C100 | **PCQ**: `Norm.C100_names` |
| C101 | **PQ**: `Cps.C101_parameters_partial`, `Cps.C101_refuted_twice` |
| C102 | **PCQ**: `Cps.C102_ends_partial`, `Cps.C102_keeps_partial`, `Cps.C102_refuted_missing`, `Cps.C102_refuted_drop`, `Cps.C102_refuted_cell`; **PQ**: `Cps.C102_refuted_result` |
| C103 | **PCQ**: `Cps.C103_forever_partial`; **PQ**: `Cps.C103_refuted_missing` |
| C104 | **PCQ**: `Cast.C104_refl_partial`, `Cast.C104_trans_partial`, `Cast.C104_antisymm_partial`, `Cast.C104_option_partial`, `Cast.C104_refuted_variable`, `Cast.C104_refuted_alias`, `Cast.C104_refuted_subclass`, `Cast.C104_refuted_wildcard` |
| C105 | **PCQ**: `Cast.C105_lub_partial`, `Cast.C105_fold_partial`, `Cast.C105_exists_partial`, `Cast.C105_refuted_args`, `Cast.C105_refuted_exists` |
| C106 | **PCQ**: `Cast.C106_glb_partial`, `Cast.C106_fold_partial`, `Cast.C106_refuted_none`, `Cast.C106_refuted_variable`, `Cast.C106_refuted_bound`, `Cast.C106_refuted_option` |
| C107 | **PQ**: `Hash.C107_sink`, `Hash.C107_scratch`; **PCQ**: `Hash.C107_bytes` |
| C108 | **PCQ**: `Hash.C108_name`, `Hash.C108_info`, `Hash.C108_items_partial`; **PQ**: `Hash.C108_refuted_strings` |
| C109 | **PCQ**: `Hash.C109_final`, `Hash.C109_unique`, `Hash.C109_paths`, `Hash.C109_order`; **PQ**: `Hash.C109_cycle`, `Hash.C109_fast` |
| C11 | **none**: `Str.C11_len`; **PCQ**: `Str.C11_getitem_partial`, `Str.C11_iterate_partial`, `Str.C11_iterate_terminates`, `Str.C11_getslice_partial`, `Str.C11_add`; **P**: `Str.C11_refuted_index`; **PQ**: `Str.C11_refuted_iterate_nul`, `Str.C11_refuted_slice` |
| C110 | **PCQ**: `Hash.C110_sound_partial`, `Hash.C110_refuted_cycle`, `Hash.C110_refuted_missing` |
| C111 | **PCQ**: `Hash.C111_occurs_partial`, `Hash.C111_sound`, `Hash.C111_reference`, `Hash.C111_extra`; **P**: `Hash.C111_refuted_comp`, `Hash.C111_refuted_types`, `Hash.C111_refuted_own` |
| C112 | **PCQ**: `Trans.C112_reduct_partial`, `Trans.C112_repaired`; **PQ**: `Trans.C112_red_cst`, `Trans.C112_refuted_source`, `Trans.C112_refuted_eta`; **P**: `Trans.C112_refuted_comp`, `Trans.C112_refuted_rename` |
| C113 | **PQ**: `Trans.C113_plain_partial`, `Trans.C113_nodes`; **P**: `Trans.C113_refuted_lost`, `Trans.C113_refuted_twice`, `Trans.C113_refuted_order`, `Trans.C113_refuted_tuple` |
| C114 | **PCQ**: `Lift.C114_rounds`, `Lift.C114_closure` |
| C115 | **PCQ**: `Lift.C115_lift_partial`, `Lift.C115_unique_partial`; **PQ**: `Lift.C115_refuted_hidden`, `Lift.C115_refuted_local`, `Lift.C115_refuted_arity` |
| C116 | **PCQ**: `Build.C116_order`, `Build.C116_once`, `Build.C116_limit` |
| C117 | **PCQ**: `Build.C117_progress`, `Build.C117_ends`, `Build.C117_result`, `Build.C117_blocked` |
| C118 | **PCQ**: `Build.C118_interest`, `Build.C118_once`, `Build.C118_all` |
| C119 | **PCQ**: `Incr.C119_same_partial`; **PQ**: `Incr.C119_refuted_star`, `Incr.C119_refuted_unused`, `Incr.C119_refuted_witness`, `Incr.C119_refuted_order` |
| C12 | **PCQ**: `Str.C12_lstrip`, `Str.C12_lstrip_default`, `Str.C12_rstrip_partial`, `Str.C12_strip_partial`, `Str.C12_refuted_all_stripped`; **P**: `Str.LStripped.unique` |
| C120 | **PCQ**: `Incr.C120_decision` |
| C121 | **PCQ**: `Incr.C121_again` |
| C122 | **PCQ**: `Notify.C122_told_partial`, `Notify.C122_refuted_nobody`, `Notify.C122_refuted_group`, `Notify.C122_quiet`; **P**: `Notify.C122_refuted_witness`, `Notify.C122_refuted_member`, `Notify.C122_refuted_frame`; **PQ**: `Notify.C122_marked` |
| C123 | **PCQ**: `Notify.C123_wake_partial`; **P**: `Notify.C123_refuted_commit`, `Notify.C123_refuted_race` |
| C124 | **P**: `Notify.C124_group`, `Notify.C124_refuted_witness`; **PQ**: `Notify.C124_first_partial`, `Notify.C124_refuted_again` |
| C125 | **P**: `Notify.C125_add_partial`, `Notify.C125_refuted_second`; **PQ**: `Notify.C125_remove`; **none**: `Notify.C125_refuted_zero` |
| C126 | **PCQ**: `Notify.C126_create`; **PQ**: `Notify.C126_refresh`, `Notify.C126_refuted_late`, `Notify.C126_leave` |
| C127 | **PCQ**: `Unbox.C127_once_partial`; **P**: `Unbox.C127_refuted_twice`, `Unbox.C127_refuted_value`, `Unbox.C127_refuted_check`, `Unbox.C127_refuted_skipped`; **PQ**: `Unbox.C127_refuted_exponential` |
| C128 | **PCQ**: `Unbox.C128_method_partial`, `Unbox.C128_ring`, `Unbox.C128_bits`, `Unbox.C128_shift`, `Unbox.C128_div`, `Unbox.C128_un`; **PQ**: `Unbox.C128_refuted_mod`; **P**: `Unbox.C128_refuted_pow`, `Unbox.C128_refuted_narrow` |
| C129 | **PCQ**: `Unbox.C129_aug_partial`, `Unbox.C129_boxed_partial`; **PQ**: `Unbox.C129_refuted_zero`; **P**: `Unbox.C129_refuted_pow`, `Unbox.C129_refuted_xor` |
| C13 | **PCQ**: `Str.C13_startswith_partial`, `Str.C13_endswith_partial`; **P**: `Str.C13_refuted_endswith`; **PQ**: `Str.C13_refuted_nul` |
| C130 | **PQ**: `Unbox.C130_text_partial`; **P**: `Unbox.C130_refuted` |
| C131 | **PCQ**: `Json.C131`, `Json.C131_injective` |
| C132 | **PCQ**: `Json.C132_partial`, `Json.C132_list_partial`, `Json.C132_exact_partial`; **P**: `Json.C132_refuted_nul`, `Json.C132_refuted_key`, `Json.C132_refuted_class` |
| C133 | **PCQ**: `Json.C133_partial`, `Json.C133_list_partial`, `Json.C133_refuted` |
| C134 | **PCQ**: `Json.C134_total`, `Json.C134_raises`; **PQ**: `Json.C134_partial`, `Json.C134_refuted_nul`; **P**: `Json.C134_refuted_root` |
| C135 | **PCQ**: `Json.C135_partial`; **P**: `Json.C135_refuted` |
| C136 | **PCQ**: `Json.C136`, `Json.C136_unique`, `Json.C136_decode_partial`, `Json.C136_decodeList_partial` |
| C137 | **PCQ**: `Deact.C137_partial`, `Deact.C137_loop_partial`; **PQ**: `Deact.C137_refuted_parameter`, `Deact.C137_refuted_variable`, `Deact.C137_refuted_function`, `Deact.C137_refuted_dict`, `Deact.C137_refuted_sampled` |
| C138 | **PCQ**: `Deact.C138_partial`; **P**: `Deact.C138_other`; **PQ**: `Deact.C138_refuted_parameter`, `Deact.C138_refuted_capture`, `Deact.C138_refuted_call` |
| C139 | **PCQ**: `Deact.Attrs.C139_partial`, `Deact.Attrs.C139_mentioned`, `Deact.Attrs.C139_variable`; **PQ**: `Deact.Attrs.C139_refuted_raise`, `Deact.Attrs.C139_refuted_finally`, `Deact.Attrs.C139_refuted_nested` |
| C14 | **PCQ**: `Hex.C14_from_hex`, `Hex.C14_hex_bytes_partial`, `Hex.C14_hex`, `Hex.C14_bin`, `Hex.C14_ord_chr_partial`, `Hex.C14_ord`; **P**: `Hex.C14_refuted_hex_bytes`, `Hex.C14_refuted_negative`; **PQ**: `Hex.C14_chr`, `Hex.C14_chr_negative`; **none**: `Hex.C14_chr_error`, `Hex.C14_ord_error`, `Hex.C14_refuted_surrogate` |
| C140 | **PCQ**: `Plan.C140_partial`, `Plan.C140_first_partial`, `Plan.C140_refuted_length`; **PQ**: `Plan.C140_last`, `Plan.C140_refuted_once` |
| C141 | **PCQ**: `Plan.C141` |
| C142 | **PCQ**: `Plan.C142_partial`; **PQ**: `Plan.C142_refuted` |
| C143 | **PCQ**: `Plan.C143_partial`, `Plan.C143_named_partial`, `Plan.C143_nothing`, `Plan.C143_closed`; **PQ**: `Plan.C143_refuted_dropped`, `Plan.C143_refuted_all` |
| C144 | **PCQ**: `Plan.C144_partial`, `Plan.C144_consumers_partial`; **PQ**: `Plan.C144_refuted_expanded`, `Plan.C144_refuted_needed` |
| C145 | **PCQ**: `Plan.C145` |
| C146 | **PQ**: `Plan.Prune.C146_partial`, `Plan.Prune.C146_refuted_special`, `Plan.Prune.C146_refuted_stray`, `Plan.Prune.C146_refuted_other`; **P**: `Plan.Prune.C146_changed_partial`; **PCQ**: `Plan.Prune.C146_refuted_kept` |
| C147 | **PCQ**: `Plan.Watch.C147_partial`; **PQ**: `Plan.Watch.C147_refuted_cancelled`, `Plan.Watch.C147_refuted_full` |
| C148 | **PCQ**: `Plan.Discover.C148_closed`, `Plan.Discover.C148_fingerprints`, `Plan.Discover.C148_names`, `Plan.Discover.C148_reached`, `Plan.Discover.C148_exact_partial`, `Plan.Discover.C148_partial`; **PQ**: `Plan.Discover.C148_refuted_relative`, `Plan.Discover.C148_refuted_missing` |
| C149 | **PCQ**: `Uri.Parse.C149_parse_partial`, `Uri.Parse.C149_sound_partial`, `Uri.Parse.C149_canonical`, `Uri.Parse.C149_refuted_slash`, `Uri.Parse.C149_refuted_colon`, `Uri.Parse.C149_refuted_scheme` |
| C15 | **PQ**: `Serial.C15_encode`; **PCQ**: `Serial.C15_roundtrip`, `Serial.C15_decode_any`, `Serial.C15_injective` |
| C150 | **PCQ**: `Finger.C150_parse`, `Finger.C150_format`, `Finger.C150_inj`, `Finger.C150_update` |
| C151 | **PQ**: `Finger.C151_validate`; **PCQ**: `Finger.C151_partial`, `Finger.C151_refuted` |
| C152 | **PCQ**: `Finger.C152_partial`, `Finger.C152_rename_partial`; **PQ**: `Finger.C152_refuted`, `Finger.C152_refuted_wide` |
| C153 | **PCQ**: `Plan.Discover.C153_own_partial`, `Plan.Discover.C153_partial`; **PQ**: `Plan.Discover.C153_refuted_pins`, `Plan.Discover.C153_refuted_cycle`, `Plan.Discover.C153_refuted_copies` |
| C154 | **PCQ**: `Paths.C154_partial`, `Paths.C154_refuted_empty`, `Paths.C154_refuted_start`; **PQ**: `Paths.C154_absolute`, `Paths.C154_start` |
| C155 | **PCQ**: `Paths.C155_partial`, `Paths.C155_shortest`, `Paths.C155_roundtrip_partial`, `Paths.C155_refuted`, `Paths.C155_refuted_roundtrip`; **PQ**: `Paths.C155_absolute` |
| C156 | **PCQ**: `Net.Tcp.C156_once`, `Net.Tcp.C156_told` |
| C157 | **PCQ**: `Net.Tcp.C157_partial`; **PQ**: `Net.Tcp.C157_refuted_twice`, `Net.Tcp.C157_refuted_late`, `Net.Tcp.C157_refuted_early`, `Net.Tcp.C157_refuted_lookup` |
| C158 | **PQ**: `Net.Tcp.C158_partial`, `Net.Tcp.C158_rest_partial`, `Net.Tcp.C158_refuted_lost`, `Net.Tcp.C158_refuted_timer`, `Net.Tcp.C158_refuted_crash`, `Net.Tcp.C158_refuted_stale` |
| C159 | **PCQ**: `Net.Tcp.C159_partial`; **PQ**: `Net.Tcp.C159_refuted_race`, `Net.Tcp.C159_refuted_timeout`, `Net.Tcp.C159_refuted_double` |
| C16 | **PCQ**: `Graph.C16_terminates`, `Graph.C16_copy_partial`, `Graph.C16_bytes_partial`; **P**: `Graph.C16_refuted_shared_int`, `Graph.C16_refuted_shared_bytearray`, `Graph.C16_refuted_range`, `Graph.C16_refuted_removed` |
| C160 | **PCQ**: `Net.Udp.C160_partial`, `Net.Udp.C160_told`; **none**: `Net.Udp.C160_refuted` |
| C161 | **PCQ**: `Net.Udp.C161_closed`, `Net.Udp.C161_handles` |
| C162 | **PCQ**: `Log.C162_partial`, `Log.C162_root`, `Log.C162_suffix`; **P**: `Log.C162_refuted` |
| C163 | **PCQ**: `Log.C163_only`, `Log.C163_partial`; **P**: `Log.C163_refuted` |
| C164 | **PQ**: `Log.C164_partial`; **P**: `Log.C164_first`; **none**: `Log.C164_refuted` |
| C165 | **PQ**: `Proc.C165_once`, `Proc.C165_whole`, `Proc.C165_error`, `Proc.C165_partial`; **P**: `Proc.C165_refuted` |
| C166 | **PQ**: `Proc.Signal.C166_only`, `Proc.Signal.C166_pid`, `Proc.Signal.C166_partial`, `Proc.Signal.C166_stop`; **none**: `Proc.Signal.C166_refuted` |
| C167 | **P**: `Proc.Stdin.C167_prefix`, `Proc.Stdin.C167_open`, `Proc.Stdin.C167_partial`; **PQ**: `Proc.Stdin.C167_refuted` |
| C168 | **PQ**: `Proc.Env.C168_inherit`, `Proc.Env.C168_partial`, `Proc.Env.C168_refuted_name`, `Proc.Env.C168_refuted_value` |
| C169 | **PCQ**: `Knots.C169`, `Knots.C169_full` |
| C17 | **PCQ**: `Netstring.C17_roundtrip`, `Netstring.C17_prefix`, `Netstring.C17_sound`, `Netstring.C17_write_first`, `Netstring.C17_write_append_partial`, `Netstring.C17_write_read`; **PQ**: `Netstring.C17_memory_safe`; **none**: `Netstring.C17_refuted_append` |
| C170 | **PCQ**: `Knots.C170` |
| C171 | **PCQ**: `Zon.C171`, `Zon.C171_unique` |
| C172 | **PCQ**: `Zon.C172_partial`, `Zon.C172_refuted` |
| C173 | **PCQ**: `Zon.C173`, `Zon.C173_none` |
| C174 | **PCQ**: `Seed.C174` |
| C175 | **PQ**: `Seed.C175_partial`, `Seed.C175_kept`, `Seed.C175_origin`, `Seed.C175_refuted` |
| C176 | **PQ**: `PkgShow.C176_partial`; **P**: `PkgShow.C176_refuted` |
| C177 | **PQ**: `PkgShow.C177` |
| C178 | **PCQ**: `Fetch.C178_partial`, `Fetch.C178_refuted`, `Fetch.C178_refuted_at`, `Fetch.C178_refuted_slash`; **PQ**: `Fetch.C178_shown`, `Fetch.C178_none` |
| C179 | **PCQ**: `Fetch.C179` |
| C18 | **PCQ**: `Rts.C18_no_crash_partial`, `Rts.C18_exclusive_partial`, `Rts.C18_ready_partial`, `Rts.C18_no_lost_wakeup_partial`, `Rts.C18_sync`; **P**: `Rts.C18_refuted_two_workers`, `Rts.C18_refuted_crash` |
| C180 | **PCQ**: `Fetch.C180` |
| C181 | **PQ**: `TestCache.C181`, `TestCache.C181_exact` |
| C182 | **PQ**: `TestCache.C182` |
| C183 | **PQ**: `TestCache.C183_partial`; **PCQ**: `TestCache.C183_refuted` |
| C184 | **PCQ**: `TestExit.C184_partial`, `TestExit.C184_codes`, `TestExit.C184_silent`, `TestExit.C184_refuted` |
| C185 | **PCQ**: `TestExit.C185` |
| C186 | **PQ**: `TermFit.C186`; **PCQ**: `TermFit.C186_colors`, `TermFit.shows_total`, `TermFit.paints_total`; **P**: `TermFit.shows_unique`, `TermFit.paints_unique`, `TermFit.isFinal_iff` |
| C187 | **PCQ**: `TermFit.C187`, `TermFit.C187_colors` |
| C188 | **PCQ**: `TestExit.C188_partial`, `TestExit.C188_refuted`; **PQ**: `TestExit.C188_shown` |
| C189 | **PCQ**: `TestOut.C189`, `TestOut.C189_lines`, `TestOut.C189_uneven`; **P**: `TestOut.trim_trimmed`, `TestOut.trimmed_unique` |
| C19 | **PCQ**: `Rts.C19_order_partial`, `Rts.C19_one_at_a_time_partial`, `Rts.C19_once_partial`, `Rts.C19_delivered_partial`; **P**: `Rts.C19_refuted_order` |
| C190 | **PCQ**: `TestOut.C190_partial`, `TestOut.C190_refuted`, `TestOut.C190_lost` |
| C191 | **PQ**: `TestIter.C191_partial`, `TestIter.C191_void`; **none**: `TestIter.C191_refuted` |
| C192 | **PQ**: `TestIter.C192`, `TestIter.C192_max`, `TestIter.C192_skip`, `TestIter.C192_time`, `TestIter.runs_unique` |
| C193 | **PCQ**: `TestSel.C193_partial`, `TestSel.C193_all`, `TestSel.C193_display`, `TestSel.C193_refuted` |
| C194 | **PCQ**: `TestExit.C194_partial`, `TestExit.C194_kept`, `TestExit.C194_crash`, `TestExit.C194_ended`, `TestExit.C194_counts`, `TestExit.C194_refuted` |
| C195 | **PQ**: `SnapCache.C195_partial`, `SnapCache.C195_size`, `SnapCache.C195_hit`; **none**: `SnapCache.C195_refuted` |
| C20 | **PCQ**: `Rts.C20_resume_partial`, `Rts.C20_blocked_partial`, `Rts.C20_completed_once_partial`, `Rts.C20_not_stuck_partial` |
| C21 | **PCQ**: `Rts.C21_due_order_partial`, `Rts.C21_once_partial`, `Rts.C21_sender_order_partial`, `Rts.C21_all_due_partial`, `Rts.C21_not_lost_partial`, `Rts.C21_refuted_ties` |
| C22 | **PCQ**: `Skiplist.C22_skiplist`, `Skiplist.C22_clone`, `Skiplist.C22_skiplist_long_partial`; **P**: `Skiplist.C22_refuted_long_cmp`, `Skiplist.C22_refuted_header`, `Skiplist.C22_refuted_range` |
| C23 | **PQ**: `VClock.C23_compare_partial`, `VClock.C23_antisymm`, `VClock.C23_refl`, `VClock.C23_trans`, `VClock.C23_refuted_equal`, `VClock.C23_refuted_before` |
| C24 | **PCQ**: `VClock.C24_update_partial`, `VClock.C24_least_upper_bound_partial`, `VClock.C24_comm_partial`, `VClock.C24_idem`, `VClock.C24_increment`; **PQ**: `VClock.C24_refuted_truncation`, `VClock.C24_refuted_overread` |
| C25 | **PCQ**: `Queue.C25_queue_partial`, `Queue.C25_commit_heads`; **PQ**: `Queue.C25_consume`, `Queue.C25_read_frame`, `Queue.C25_peek`; **P**: `Queue.C25_refuted_empty_batch`, `Queue.C25_refuted_race`, `Queue.C25_refuted_consume_back` |
| C26 | **PCQ**: `Queue.C26_replay_partial`, `Queue.C26_refuted` |
| C27 | **PCQ**: `Txn.C27_exclusive_partial`, `Txn.C27_no_false_abort`; **P**: `Txn.C27_refuted_late_write`, `Txn.C27_refuted_prefix`, `Txn.C27_refuted_wrap`, `Txn.C27_refuted_queue`, `Txn.C27_refuted_revalidate` |
| C28 | **PCQ**: `Txn.C28_effect_partial`, `Txn.C28_writes_partial`; **PQ**: `Txn.C28_abort`; **P**: `Txn.C28_local`, `Txn.C28_refuted_unvalidated`, `Txn.C28_refuted_use_after_free`, `Txn.C28_refuted_update_then_delete`, `Txn.C28_refuted_delete_cell`, `Txn.C28_refuted_create_enqueue`, `Txn.C28_refuted_delete_queues`, `Txn.C28_refuted_atomic`, `Txn.C28_refuted_abort_crash` |
| C29 | **PCQ**: `Quorum.C29_verdict`, `Quorum.C29_majority_partial`, `Quorum.C29_exclusive_partial`, `Quorum.C29_refuted_more_servers`; **PQ**: `Quorum.C29_refuted_overflow`, `Quorum.C29_refuted_blocked`, `Quorum.C29_refuted_retry` |
| C30 | **PCQ**: `View.C30_client`, `View.C30_client_installs`, `View.C30_server_partial`; **PQ**: `View.C30_refuted_server`, `View.C30_refuted_client_progress` |
| C31 | **PCQ**: `Ring.C31_ring_partial`, `Ring.C31_same_nodes_partial`, `Ring.C31_other_dead_partial`; **PQ**: `Ring.C31_hash_injective`, `Ring.C31_refuted_order`, `Ring.C31_refuted_twice`, `Ring.C31_refuted_prejoined`, `Ring.C31_refuted_replicas`, `Ring.C31_refuted_stale` |
| C32 | **PCQ**: `IntT.C32_pow`, `IntT.C32_pow_unboxed`, `IntT.C32_upow`, `IntT.C32_upow_boxed_partial`, `IntT.C32_refuted_upow_boxed`, `IntT.C32_div_trunc`, `IntT.C32_div_partial`, `IntT.C32_div_unsigned`, `IntT.C32_refuted_mod_sign_general`; **none**: `IntT.C32_pow_negative`, `IntT.C32_refuted_negative_exponent`, `IntT.C32_div_zero`, `IntT.C32_refuted_mod_zero`; **PQ**: `IntT.C32_refuted_mod_sign`; **P**: `IntT.C32_refuted_min` |
| C33 | **PCQ**: `Uri.C33_quote`, `Uri.C33_unquote`, `Uri.C33_roundtrip_partial`, `Uri.C33_refuted_nul`; **PQ**: `Uri.C33_refuted_safe` |
| C34 | **PCQ**: `Diff.C34_old`, `Diff.C34_new_partial`; **PQ**: `Diff.C34_same`; **P**: `Diff.C34_refuted_order` |
| C35 | **PCQ**: `Time.C35_add`, `Time.C35_sub`, `Time.C35_since`, `Time.C35_add_sub`, `Time.C35_since_add`, `Time.C35_order`, `Time.C35_unix`; **none**: `Time.C35_refuted_overflow`, `Time.C35_refuted_from_parts` |
| C36 | **PCQ**: `Str.C36_compare_partial`; **PQ**: `Str.C36_refuted_nul` |
| C37 | **PQ**: `Dict.C37_roundtrip_partial`; **P**: `Dict.C37_refuted` |
| C38 | **PCQ**: `IntT.C38_round_nonneg_partial`, `IntT.C38_round_partial`, `IntT.C38_refuted_min`; **P**: `IntT.C38_refuted_power` |
| C39 | **PQ**: `Time.C39_from_parts`; **PCQ**: `Time.C39_str_human`; **none**: `Time.C39_refuted_negative` |
| C40 | **PQ**: `Diff.C40_apply_partial`, `Diff.C40_refuted_context`; **PCQ**: `Diff.C40_diff_partial`; **P**: `Diff.C40_refuted_empty` |
| C41 | **PCQ**: `Db.C41_table_partial`; **PQ**: `Db.C41_refuted_no_clustering`, `Db.C41_refuted_version`; **P**: `Db.C41_refuted_extra_clustering`, `Db.C41_refuted_depth` |
| C42 | **PCQ**: `Db.C42_range_partial`; **none**: `Db.C42_refuted_past_end` |
| C43 | **PQ**: `View.C43_unanimous`, `View.C43_installed`; **P**: `View.C43_refuted_rejected` |
| C44 | **PCQ**: `Iter.C44_enumerate`, `Iter.C44_filter_partial`, `Iter.C44_list`, `Iter.C44_sum`, `Iter.C44_max_partial`, `Iter.C44_min`, `Iter.C44_max_def`, `Iter.C44_search`; **P**: `Iter.C44_map`, `Iter.C44_refuted_max`; **PQ**: `Iter.C44_zip`, `Iter.C44_refuted_filter` |
| C45 | **PCQ**: `Iter.C45_compare`; **P**: `Iter.C45_order`; **PQ**: `Iter.C45_hash` |
| C46 | **PCQ**: `Comm.C46_packets_partial`, `Comm.C46_client_partial`, `Comm.C46_refuted_split`, `Comm.C46_refuted_overflow`; **P**: `Comm.C46_refuted_header`, `Comm.C46_refuted_close` |
| C47 | **PCQ**: `Comm.C47_order_partial`; **P**: `Comm.C47_refuted` |
| C48 | **PCQ**: `Big.C48_lshift`, `Big.C48_rshift_partial`, `Big.C48_refuted_negative`; **PQ**: `Big.C48_negative`, `Big.C48_refuted_memory`, `Big.C48_refuted_zero` |
| C49 | **PCQ**: `Big.C49_and_partial`, `Big.C49_and_negative`, `Big.C49_or_partial`, `Big.C49_or_negative`, `Big.C49_xor_partial`, `Big.C49_xor_negative`; **P**: `Big.C49_refuted_and`, `Big.C49_refuted_or`, `Big.C49_refuted_xor` |
| C50 | **PCQ**: `Big.C50_str_partial`, `Big.C50_parse_partial`, `Big.C50_reject`, `Big.C50_roundtrip_partial`, `Big.C50_refuted_str`, `Big.C50_refuted_sign`, `Big.C50_refuted_mark` |
| C51 | **PCQ**: `Big.C51_ofInt`, `Big.C51_toInt` |
| C52 | **PCQ**: `Sched.C52_quiescent`, `Sched.C52_own`, `Sched.C52_shared` |
| C53 | **PQ**: `Sched.C53_refuted`, `Sched.C53_wake_partial` |
| C54 | **PQ**: `Sched.C54_own`, `Sched.C54_single`, `Sched.C54_refuted_shared` |
| C55 | **PQ**: `Sched.Pause.C55_exclusion`, `Sched.Pause.C55_single`, `Sched.Pause.C55_release`, `Sched.Pause.C55_end`, `Sched.Pause.C55_nested`, `Sched.Pause.C55_granted` |
| C56 | **PQ**: `Sched.Timer.C56_armed_partial`, `Sched.Timer.C56_delivered_partial`, `Sched.Timer.C56_not_early`, `Sched.Timer.C56_refuted_zero`, `Sched.Timer.C56_refuted_forever` |
| C57 | **PCQ**: `Conv.C57_new`, `Conv.C57_new_small_partial`, `Conv.C57_refuted_small`, `Conv.C57_refuted_size`, `Conv.C57_big`, `Conv.C57_convert`; **none**: `Conv.C57_refuted_small_examples` |
| C58 | **PCQ**: `Conv.C58_float_partial`, `Conv.C58_refuted_odd`; **P**: `Conv.C58_refuted_example`, `Conv.C58_refuted_inf` |
| C59 | **PCQ**: `Conv.C59_float_partial`, `Conv.C59_refuted_small`, `Conv.C59_big_partial`; **PQ**: `Conv.C59_refuted_words` |
| C60 | **PQ**: `Conv.C60_hash_partial`; **P**: `Conv.C60_refuted_small`, `Conv.C60_refuted_float`, `Conv.C60_refuted_complex` |
| C61 | **PCQ**: `Bytes.C61_find`, `Bytes.C61_rfind`, `Bytes.C61_find_bounds_partial`, `Bytes.C61_partition`, `Bytes.C61_rpartition`, `Bytes.C61_split_partial`, `Bytes.C61_count`, `Bytes.C61_join`, `Bytes.C61_split_join_partial`, `Bytes.C61_replace_partial`, `Bytes.C61_replace_empty`; **P**: `Bytes.C61_refuted_maxsplit_zero`, `Bytes.C61_refuted_negative_count` |
| C62 | **PQ**: `Bytes.C62_startswith`, `Bytes.C62_endswith_partial`, `Bytes.C62_refuted_endswith_zero`, `Bytes.C62_refuted_endswith_start`, `Bytes.C62_removeprefix`, `Bytes.C62_contains_partial`, `Bytes.C62_getitem`; **PCQ**: `Bytes.C62_startswith_bounds`, `Bytes.C62_removesuffix`, `Bytes.C62_lstrip`, `Bytes.C62_rstrip`, `Bytes.C62_strip`, `Bytes.C62_lt`; **P**: `Bytes.C62_refuted_endswith_long`, `Bytes.C62_eq`; **none**: `Bytes.C62_refuted_contains` |
| C63 | **PCQ**: `Bytes.C63_split_partial`, `Bytes.C63_refuted_trailing`, `Bytes.C63_refuted_blank`, `Bytes.C63_splitlines`, `Bytes.C63_lines_join`, `Bytes.C63_lines_plain`; **none**: `Bytes.C63_refuted_limit` |
| C64 | **PQ**: `Bytes.C64_ljust`, `Bytes.C64_rjust`; **PCQ**: `Bytes.C64_center`, `Bytes.C64_zfill`, `Bytes.C64_capitalize`, `Bytes.C64_refuted_case`, `Bytes.C64_case_partial`, `Bytes.C64_expandtabs_partial`; **P**: `Bytes.C64_fill`, `Bytes.C64_refuted_expandtabs` |
| C65 | **PCQ**: `Http.C65_complete_partial`, `Http.C65_incomplete_partial`, `Http.C65_request_partial`, `Http.C65_response_partial`; **PQ**: `Http.C65_refuted_list`, `Http.C65_refuted_mark`, `Http.C65_refuted_extension`, `Http.C65_refuted_trailer`, `Http.C65_refuted_negative` |
| C66 | **PCQ**: `Http.C66_client_partial`, `Http.C66_client_all_partial`, `Http.C66_refuted_invalid_length`; **PQ**: `Http.C66_refuted_version`, `Http.C66_refuted_reconnect` |
| C67 | **PCQ**: `Http.C67_server_partial`, `Http.C67_refuted_pipelined`, `Http.C67_refuted_early` |
| C68 | **PCQ**: `Http.C68_server_partial`, `Http.C68_refuted_stuck`, `Http.C68_refuted_reachable`; **PQ**: `Http.C68_no_more` |
| C69 | **PCQ**: `Http.C69_close_partial`; **none**: `Http.C69_refuted_keepalive` |
| C70 | **PCQ**: `Http.C70_request_partial`, `Http.C70_response_partial`; **PQ**: `Http.C70_refuted_injection`, `Http.C70_refuted_reuse` |
| C71 | **PCQ**: `Persist.C71_recovery_partial`; **PQ**: `Persist.C71_refuted_window`, `Persist.C71_refuted_second`, `Persist.C71_refuted_await`; **none**: `Persist.C71_refuted_new_actor`; **P**: `Persist.C71_refuted_lost`, `Persist.C71_refuted_twice`, `Persist.C71_refuted_await_run`, `Persist.C71_refuted_new_actor_run` |
| C72 | **PCQ**: `Persist.C72_consume_partial`; **P**: `Persist.C72_refuted_retry`, `Persist.C72_refuted_io`, `Persist.C72_refuted_workers`, `Persist.C72_refuted_timer` |
| C73 | **PCQ**: `Glob.C73_match_partial`, `Glob.C73_exact_partial`, `Glob.C73_complete_partial`, `Glob.C73_reads`; **P**: `Glob.C73_refuted_dirs`; **PQ**: `Glob.C73_refuted_brace` |
| C74 | **PCQ**: `Glob.C74_total` |
| C75 | **PCQ**: `Random.C75_range_partial`, `Random.C75_uniform_partial`, `Random.C75_refuted_wide`; **none**: `Random.C75_raises`; **PQ**: `Random.C75_refuted_empty` |
| C76 | **PCQ**: `Random.C76_choice_partial`, `Random.C76_sample_partial`, `Random.C76_every_partial`, `Random.C76_refuted_order` |
| C77 | **PCQ**: `Xml.C77_encode`; **PQ**: `Xml.C77_refuted_large` |
| C78 | **PCQ**: `Xml.C78_roundtrip_partial`, `Xml.C78_refuted_cdata_end`, `Xml.C78_refuted_control`, `Xml.C78_refuted_tail`, `Xml.C78_refuted_cr`, `Xml.C78_refuted_value`, `Xml.C78_refuted_prefix`, `Xml.C78_refuted_pretty`; **P**: `Xml.C79_refuted_attributes` |
| C79 | **PQ**: `Xml.C79_decode_partial`; **P**: `Xml.C79_unsupported`, `Xml.C79_refuted_attributes` |
| C80 | **PCQ**: `Mro.C80_order`, `Mro.C80_exists` |
| C81 | **PCQ**: `Mro.C81_ancestors` |
| C82 | **PCQ**: `Mro.C82_attribute`, `Mro.C82_layout` |
| C83 | **PCQ**: `Unify.C83_sound`, `Unify.C83_wild`; **PQ**: `Unify.C83_refuted_arity` |
| C84 | **PCQ**: `Unify.C84_ends`, `Unify.C84_general_partial`; **PQ**: `Unify.C84_refuted_option`, `Unify.C84_refuted_general` |
| C85 | **PCQ**: `Names.C85_injective_partial`; **PQ**: `Names.C85_refuted_derived`, `Names.C85_refuted_module`, `Names.C85_refuted_keyword`, `Names.C85_refuted_escape`, `Names.C85_refuted_complex`, `Names.C85_refuted_nested`, `Names.C85_refuted_number` |
| C86 | **PCQ**: `Names.C86_identifier`; **PQ**: `Names.C86_refuted_empty`, `Names.C86_refuted_asm` |
| C87 | **PCQ**: `Names.C87_keywords_partial`, `Names.C87_refuted_underscore` |
| C88 | **PCQ**: `Kinds.C88_unify`, `Kinds.C88_refuted_cycle` |
| C89 | **PCQ**: `Kinds.C89_infer`, `Kinds.C89_clean` |
| C90 | **PCQ**: `Argparse.C90_options`; **PQ**: `Argparse.C90_getters` |
| C91 | **PCQ**: `Argparse.C91_singles`, `Argparse.C91_many`, `Argparse.C91_few`, `Argparse.C91_one_takes_several`; **PQ**: `Argparse.C91_required`, `Argparse.C91_refuted_command`, `Argparse.C91_refuted_star` |
| C92 | **PQ**: `Argparse.C92_exceptions_partial`, `Argparse.C92_refuted_unknown`, `Argparse.C92_refuted_flag`, `Argparse.C92_refuted_value`, `Argparse.C92_refuted_index`; **PCQ**: `Argparse.C92_plain_partial`, `Argparse.C92_missing_partial`, `Argparse.C92_middle_partial` |
| C93 | **PCQ**: `Argparse.C93_end_partial`; **PQ**: `Argparse.C93_refuted_command` |
| C94 | **PCQ**: `Argparse.C94_command_partial`; **PQ**: `Argparse.C94_refuted_value`, `Argparse.C94_refuted_default`, `Argparse.C94_refuted_dash` |
| C95 | **PCQ**: `Argparse.C95_again_partial`; **PQ**: `Argparse.C95_refuted_args`, `Argparse.C95_refuted_list`, `Argparse.C95_refuted_help` |
| C96 | **PCQ**: `Norm.C96_normalized_partial`, `Norm.C96_acton_for_partial`; **P**: `Norm.C96_refuted_while_else`, `Norm.C96_refuted_for_stop` |
| C97 | **PCQ**: `Norm.C97_balanced_partial`; **P**: `Norm.C97_refuted_while_else` |
| C98 | **PCQ**: `Norm.C98_flows` |
| C99 | **PCQ**: `Norm.C99_in_loop_partial`; **P**: `Norm.C99_refuted_two_breaks`, `Norm.C99_refuted_two_continues` |
