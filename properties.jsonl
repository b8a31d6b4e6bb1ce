{"id": "C01", "title": "Slicing selects exactly the denoted elements", "statement": "For a list l and a slice l[start:stop:step] the result consists of exactly the elements at positions start, start+step, start+2*step, ... that lie before (for step>0) or after (for step<0) stop, after negative bounds have been made relative to the end and bounds have been clamped to the list, in that order; step 0 raises ValueError; no element outside the list is ever read.", "quantifier": "every list length, every combination of present/absent start, stop, step and every 64-bit value of them", "why_tests_cant": "The bound arithmetic has three optional 64-bit parameters and a length; tests sample a handful of sign/clamp combinations, the claim is about all of them including the empty list and far out-of-range negative bounds.", "anchors": ["base/builtin/slice.c:normalize_slice", "base/builtin/list.c:B_SequenceD_listD___getslice__", "base/builtin/str.c:B_SliceableD_strD___getslice__"]}
{"id": "C02", "title": "range() enumerates the arithmetic progression", "statement": "Iterating range(start, stop, step) yields start, start+step, ... exactly while the value is before stop in the direction of step, then raises StopIteration for ever after; step 0 raises ValueError.", "quantifier": "all start, stop, step representable as int, any number of next() calls", "why_tests_cant": "The claim covers every triple of 64-bit integers and unboundedly many calls after exhaustion.", "anchors": ["base/builtin/range.c:B_rangeD___init__", "base/builtin/range.c:B_IteratorD_rangeD_next"]}
{"id": "C03", "title": "A list behaves as a mathematical sequence under every history of operations", "statement": "After any sequence of append, insert, pop, item assignment, item deletion, extend, reverse, clear and slice deletion/assignment, reading the list back gives exactly what the same operations give on a mathematical sequence; out-of-range indices raise IndexError and leave the list unchanged; storage outside the allocated buffer is never touched.", "quantifier": "every initial list, every finite history of operations, every 64-bit index", "why_tests_cant": "Growth and shrinking of the backing buffer depend on the whole history; tests cannot cover all histories nor all index values.", "anchors": ["base/builtin/list.c:expand", "base/builtin/list.c:shrink", "base/builtin/list.c:B_SequenceD_listD_append", "base/builtin/list.c:B_SequenceD_listD_insert", "base/builtin/list.c:B_listD_pop", "base/builtin/list.c:B_SequenceD_listD___setitem__", "base/builtin/list.c:B_SequenceD_listD___delitem__"]}
{"id": "C04", "title": "Sorting returns a stable sorted permutation", "statement": "sorted(l) / l.sort() yields a permutation of l that is non-decreasing under the element order, and elements that compare equal keep their relative input order; this holds for every total preorder, including ones where distinct elements compare equal.", "quantifier": "every list, every total preorder on its elements", "why_tests_cant": "Stability and sortedness across natural-run detection, galloping merges and stack collapse depend on the run structure of the whole input; only inputs of at least 64 elements even reach the merging code.", "anchors": ["base/builtin/timsort.c:TIM_SORT", "base/builtin/timsort.c:TIM_SORT_MERGE", "base/builtin/timsort.c:BINARY_INSERTION_SORT_START", "base/builtin/timsort.c:COUNT_RUN"]}
{"id": "C05", "title": "Sorting never overruns its fixed run stack", "statement": "Whatever the input, the number of simultaneously pending runs while sorting stays below the fixed capacity of the run stack, so sorting never writes outside it.", "quantifier": "every input length below 2^63 and every run structure", "why_tests_cant": "The worst-case run structure is exponentially large; it cannot be reached by testing (compare the historical TimSort overflow bug).", "anchors": ["base/builtin/timsort.c:TIM_SORT_COLLAPSE", "base/builtin/timsort.c:CHECK_INVARIANT", "base/builtin/timsort.c:PUSH_NEXT", "base/builtin/timsort.c:TIM_SORT_STACK_SIZE"]}
{"id": "C06", "title": "A dict behaves as a finite map with insertion order", "statement": "After any history of item assignment, deletion, pop, setdefault, clear and lookup, d[k] returns the value most recently assigned to a key equal to k (KeyError if none or deleted since), len counts the live keys, and iteration lists each live key once in order of first insertion since it was last absent; no operation fails to terminate or touches memory outside the table.", "quantifier": "every key type with a consistent equality and hash (arbitrary collisions), every history", "why_tests_cant": "Correctness depends on hash collisions, tombstones and resize points produced by the whole history.", "anchors": ["base/builtin/dict.c:$lookdict", "base/builtin/dict.c:insertdict", "base/builtin/dict.c:dictresize", "base/builtin/dict.c:B_IndexedD_MappingD_dictD___delitem__"]}
{"id": "C07", "title": "Dict comparison agrees with mathematical map comparison", "statement": "a == b for dicts iff they have the same keys bound to equal values, irrespective of insertion order and size; hence == is symmetric, and the ordering operators are consistent with each other (a > b iff b < a, a >= b iff b <= a).", "quantifier": "all pairs of dicts over all key types", "why_tests_cant": "The comparison takes different code paths for small and large tables; symmetric behaviour has to hold for every size pair and insertion order.", "anchors": ["base/builtin/dict.c:B_OrdD_dictD___eq__", "base/builtin/dict.c:B_dictrel", "base/builtin/dict.c:B_OrdD_dictD___gt__"]}
{"id": "C08", "title": "A set behaves as a finite set and every operation terminates", "statement": "After any history of add, discard, remove, pop, clear, membership is exactly the mathematical set membership and len its cardinality; every operation terminates for every key hash.", "quantifier": "every element type with a consistent equality and 64-bit hash, every history", "why_tests_cant": "Termination of open addressing depends on the probe sequence for all 2^64 hash values and all table contents.", "anchors": ["base/builtin/set.c:B_set_contains_entry", "base/builtin/set.c:B_set_add_entry", "base/builtin/set.c:B_set_table_resize", "base/builtin/set.c:B_set_discard_entry"]}
{"id": "C09", "title": "Substring search returns the leftmost / rightmost occurrence", "statement": "s.find(sub) (str, bytes, bytearray) returns the smallest offset at which sub occurs in s and -1 iff it does not occur; rfind returns the largest; `sub in s` is true iff an occurrence exists; the search never reads outside s and sub.", "quantifier": "all byte strings s and sub, including empty ones and non-ASCII bytes", "why_tests_cant": "The skip-table search is wrong only for particular text/pattern overlaps; all pairs have to be covered.", "anchors": ["base/builtin/str.c:bmh", "base/builtin/str.c:rbmh", "base/builtin/str.c:B_strD_find", "base/builtin/str.c:B_ContainerD_strD___contains__"]}
{"id": "C10", "title": "split, join, replace and partition agree with occurrence structure", "statement": "For a non-empty separator, sep.join(s.split(sep)) == s, no piece contains sep, and the number of pieces is s.count(sep)+1; s.partition(sep) returns a triple whose concatenation is s with the first component free of sep; s.replace(old,new) equals new.join(s.split(old)).", "quantifier": "all strings s, sep/old non-empty, new arbitrary, all maxsplit / count values", "why_tests_cant": "Involves overlapping candidate matches and buffer size computations for all strings.", "anchors": ["base/builtin/str.c:B_strD_split", "base/builtin/str.c:B_strD_partition", "base/builtin/str.c:B_strD_replace", "base/builtin/str.c:B_strD_count", "base/builtin/str.c:B_strD_join"]}
{"id": "C100", "title": "Generated names are assigned once", "statement": "No two statements of a normalized function assign to the same generated variable, so that an exception kept during finally is not overwritten.", "quantifier": "all suites", "why_tests_cant": "Quantifies over all programs", "anchors": ["compiler/lib/src/Acton/Normalizer.hs:newName", "compiler/lib/src/Acton/Normalizer.hs:norm'"]}
{"id": "C101", "title": "Continuations have distinct parameters", "statement": "The parameters of every continuation that the conversion to continuation-passing style defines are pairwise distinct.", "quantifier": "all procedures", "why_tests_cant": "Quantifies over all programs; the compiler accepts the definition and only the C compiler rejects it", "anchors": ["compiler/lib/src/Acton/CPS.hs:cps", "compiler/lib/src/Acton/CPS.hs:extraBinds", "compiler/lib/src/Acton/CPS.hs:kDef"]}
{"id": "C102", "title": "Conversion to continuations keeps results", "statement": "A procedure ends after the conversion to continuation-passing style exactly if it ends before, with the same value or exception, the same effects in the same order, and the same number of handlers left on the actor.", "quantifier": "all procedures with calls, assignments, if, while, break, continue, try, raise and return in any nesting, all arguments, all behaviours of callees", "why_tests_cant": "Programs nest without bound and each nesting of calls, loops and try has its own continuations, captured variables and cells", "anchors": ["compiler/lib/src/Acton/CPS.hs:cps", "compiler/lib/src/Acton/CPS.hs:volatileVars", "compiler/lib/src/Acton/CPS.hs:extraBinds", "compiler/lib/src/Acton/CPS.hs:needCont", "compiler/lib/src/Acton/CPS.hs:conv", "compiler/lib/src/Acton/LambdaLifter.hs:llSuite", "base/rts/rts.c:wt_work_cb", "base/rts/rts.c:$PUSH"]}
{"id": "C103", "title": "Conversion to continuations keeps divergence", "statement": "A procedure runs forever after the conversion to continuation-passing style exactly if it does before.", "quantifier": "all procedures, all arguments, all behaviours of callees", "why_tests_cant": "No test observes an infinite run", "anchors": ["compiler/lib/src/Acton/CPS.hs:cps", "compiler/lib/src/Acton/CPS.hs:kJump", "base/rts/rts.c:wt_work_cb"]}
{"id": "C104", "title": "Castability is an order", "statement": "The test whether one type can be used for another is reflexive, transitive and antisymmetric, a type can be used for its option, and a wildcard stands for any argument.", "quantifier": "all types, all environments a program can build", "why_tests_cant": "Quantifies over all triples of types and all class hierarchies", "anchors": ["compiler/lib/src/Acton/Env.hs:castable", "compiler/lib/src/Acton/Env.hs:findAncestor", "compiler/lib/src/Acton/Env.hs:tExpand", "compiler/lib/src/Acton/Subst.hs:covariant"]}
{"id": "C105", "title": "lub is a least upper bound", "statement": "If lub (or lubfold) yields a type, then all its arguments can be used for that type, and the type can be used for every type that all arguments can be used for; it yields a type if there is such a type.", "quantifier": "all types, all environments a program can build", "why_tests_cant": "Minimality quantifies over all types", "anchors": ["compiler/lib/src/Acton/Env.hs:lub", "compiler/lib/src/Acton/Env.hs:lub2", "compiler/lib/src/Acton/Env.hs:lubfold", "compiler/lib/src/Acton/Env.hs:commonAncestors"]}
{"id": "C106", "title": "glb is a greatest lower bound", "statement": "If glb (or glbfold) yields a type, then that type can be used for all its arguments, and every type that can be used for all arguments can be used for it; it yields a type if there is such a type.", "quantifier": "all types, all environments a program can build", "why_tests_cant": "Maximality quantifies over all types", "anchors": ["compiler/lib/src/Acton/Env.hs:glb", "compiler/lib/src/Acton/Env.hs:glb2", "compiler/lib/src/Acton/Env.hs:glbfold", "compiler/lib/src/Acton/Env.hs:hasAncestor"]}
{"id": "C107", "title": "The hash sink passes on exactly what is written", "statement": "Whatever is fed to a hash, and whatever an earlier feed left in the buffer, every write stays within the buffer and SHA256 sees the bytes of the operations in order, with nothing lost, doubled or added where the buffer is flushed.", "quantifier": "all sequences of feed operations, all strings, integers and contents of the buffer", "why_tests_cant": "A string or word may straddle the end of the buffer at any of 32768 offsets", "anchors": ["compiler/lib/src/Acton/Hashing.hs:sinkFlush", "compiler/lib/src/Acton/Hashing.hs:sinkWriteWord8", "compiler/lib/src/Acton/Hashing.hs:sinkWriteString", "compiler/lib/src/Acton/Hashing.hs:sinkWriteInteger", "compiler/lib/src/Acton/Hashing.hs:sinkWriteWord64LE", "compiler/lib/src/Acton/Hashing.hs:writeUtf8Char"]}
{"id": "C108", "title": "The structural hash feed is injective", "statement": "Two names with the same hash input have the same definition: the bytes fed for the items of a name, and for an interface entry, determine the syntax tree (without source locations, and for interface entries without docstrings).", "quantifier": "all pairs of programs", "why_tests_cant": "A collision can hide in any pair of the infinitely many programs; the compiler reuses stale results when it occurs", "anchors": ["compiler/lib/src/Acton/Hashing.hs:feedTopLevelFragments", "compiler/lib/src/Acton/Hashing.hs:feedStmt", "compiler/lib/src/Acton/Hashing.hs:feedDecl", "compiler/lib/src/Acton/Hashing.hs:feedExpr", "compiler/lib/src/Acton/Hashing.hs:feedPattern", "compiler/lib/src/Acton/Hashing.hs:feedType", "compiler/lib/src/Acton/Hashing.hs:feedNameInfo", "compiler/lib/src/Acton/Hashing.hs:feedList"]}
{"id": "C109", "title": "Final hashes do not depend on the walk", "statement": "The final hashes of names solve the equations that define them from own hashes and dependencies, these have one solution, the depth-first path and the path over strongly connected components agree, and the first succeeds exactly where there is no cycle (up to its depth limit).", "quantifier": "all dependency graphs, all orders of components", "why_tests_cant": "Quantifies over all graphs and all orders a library may list components in", "anchors": ["compiler/lib/src/Acton/Hashing.hs:computeHashesSortedDeps", "compiler/lib/src/Acton/Hashing.hs:computeHashes", "compiler/lib/src/Acton/Hashing.hs:maxAcyclicHashDepth"]}
{"id": "C11", "title": "Strings are sequences of code points", "statement": "len(s), s[i], iteration, slicing and find positions of a str all refer to one and the same sequence of Unicode code points: the i-th iterated character is s[i], there are len(s) of them, and their concatenation is s; every string operation's result satisfies the representation invariant (recorded char count = number of UTF-8 sequences, recorded byte count = length of the buffer).", "quantifier": "all valid UTF-8 strings and all indices", "why_tests_cant": "Byte/character offset conversion bugs appear only for particular mixes of 1-4 byte characters and positions.", "anchors": ["base/builtin/str.c:skip_chars", "base/builtin/str.c:char_no", "base/builtin/str.c:byte_no", "base/builtin/str.c:mk_char", "base/builtin/str.c:B_IteratorD_strD_next", "base/builtin/str.c:B_SliceableD_strD___getitem__"]}
{"id": "C110", "title": "A final hash tells all that a name depends on", "statement": "If a name has the same final hash in two versions of a module, then all names it depends on, directly or not, have the same own hashes in both, and all names of other modules so reached have the same hashes.", "quantifier": "all pairs of versions, all dependency graphs", "why_tests_cant": "Quantifies over all pairs of dependency graphs; a failure is a build that wrongly reuses a stale result", "anchors": ["compiler/lib/src/Acton/Hashing.hs:computeHashesSortedDeps", "compiler/lib/src/Acton/Hashing.hs:hashSelfWithDepsFromWith", "compiler/lib/src/Acton/Hashing.hs:hashCycleGroupFromWith", "compiler/lib/src/Acton/Hashing.hs:hashCycleMemberWith", "compiler/lib/src/Acton/Hashing.hs:feedResolvedDepHashes"]}
{"id": "C111", "title": "Implementation dependencies are collected completely", "statement": "The one-pass collection of an item's dependencies finds every item of the module and every name of another module that the item refers to, finds nothing else, and agrees with splitting the item's free names.", "quantifier": "all items (statements and declarations of any nesting), all environments and sets of local names", "why_tests_cant": "Every construct that opens a scope can hide a reference to a global name; the constructs nest without bound.", "anchors": ["compiler/lib/src/Acton/Hashing.hs:implItemSplitDeps", "compiler/lib/src/Acton/Hashing.hs:assignedSuite", "compiler/lib/src/Acton/Hashing.hs:implDepsFromItems", "compiler/lib/src/Acton/Hashing.hs:splitDeps", "compiler/lib/src/Acton/Names.hs:diffQ"]}
{"id": "C112", "title": "Term simplification keeps the meaning", "statement": "What the type checker's simplifier makes of an expression is a reduct of that expression with the given substitution carried out without capture, by the rules for calls of lambdas, for lambdas that only pass on their parameters, and for selection from tuples.", "quantifier": "all expressions, all substitutions, all meanings of the free names", "why_tests_cant": "Capture depends on coincidences between names at different depths, some of them made up during the simplification.", "anchors": ["compiler/lib/src/Acton/Transform.hs:termsubst", "compiler/lib/src/Acton/Transform.hs:trans", "compiler/lib/src/Acton/Transform.hs:eta", "compiler/lib/src/Acton/Transform.hs:pzip", "compiler/lib/src/Acton/Transform.hs:erename", "compiler/lib/src/Acton/Transform.hs:clash"]}
{"id": "C113", "title": "Term simplification keeps the effects", "statement": "The simplified expression performs the same effects in the same order as the original.", "quantifier": "all expressions and substitutions", "why_tests_cant": "Arguments with effects can be put into any context, used any number of times and in any order.", "anchors": ["compiler/lib/src/Acton/Transform.hs:trans", "compiler/lib/src/Acton/Transform.hs:eta", "compiler/lib/src/Acton/Transform.hs:positem", "compiler/lib/src/Acton/Transform.hs:posrest"]}
{"id": "C114", "title": "Lambda lifting computes the needed names", "statement": "The iteration over the free names of a group of local functions ends, and gives for each function exactly the names that it uses itself or through functions of the group that it uses.", "quantifier": "all groups of local functions, any pattern of calls between them", "why_tests_cant": "The number of rounds depends on the longest chain of calls in a group, which has no bound.", "anchors": ["compiler/lib/src/Acton/LambdaLifter.hs:expand", "compiler/lib/src/Acton/LambdaLifter.hs:iterexpand", "compiler/lib/src/Acton/LambdaLifter.hs:llSuite"]}
{"id": "C115", "title": "Lambda lifting keeps results", "statement": "If a function of a module returns a value, then so does the function of the lifted module, in which all local functions have become functions of the module with additional parameters.", "quantifier": "all modules of functions nested to any depth, all arguments, runs of any length, all meanings of operations and of names of the module", "why_tests_cant": "Depth of nesting, mutual recursion between functions at different depths and length of runs are unbounded.", "anchors": ["compiler/lib/src/Acton/LambdaLifter.hs:liftModule", "compiler/lib/src/Acton/LambdaLifter.hs:llSuite", "compiler/lib/src/Acton/LambdaLifter.hs:extLocals", "compiler/lib/src/Acton/LambdaLifter.hs:findFree", "compiler/lib/src/Acton/LambdaLifter.hs:extraArgs", "compiler/lib/src/Acton/LambdaLifter.hs:addArgs", "compiler/lib/src/Acton/LambdaLifter.hs:freefun"]}
{"id": "C116", "title": "Build stages run in order of dependence", "statement": "When the compiler starts the front passes of a module, those of every module it imports have returned, and their results are the ones it is given; a module that has to be parsed has been parsed before. No stage is started twice, and there are never more workers than allowed.", "quantifier": "all acyclic graphs of tasks, any number of workers, workers returning in any order, successfully or not", "why_tests_cant": "The order in which workers return is decided by the machine; the number of orders grows exponentially with the graph.", "anchors": ["compiler/lib/src/Acton/Compile.hs:compileTasks", "compiler/lib/src/Acton/Compile.hs:scheduleMore", "compiler/lib/src/Acton/Compile.hs:loop", "compiler/lib/src/Acton/Compile.hs:stageDepsOf"]}
{"id": "C117", "title": "Every build ends, and compiles all that can be compiled", "statement": "The loop of the scheduler ends. When it does, the front passes of a module have returned a result exactly if neither the module nor any module it depends on failed, and the build reports errors exactly if some module failed. After a failure nothing that depends on the module is started.", "quantifier": "all acyclic graphs of tasks, any number of workers, workers returning in any order, any set of failures", "why_tests_cant": "Failures may strike at any moment of any interleaving; a lost wake-up shows only in some of them.", "anchors": ["compiler/lib/src/Acton/Compile.hs:compileTasks", "compiler/lib/src/Acton/Compile.hs:scheduleMore", "compiler/lib/src/Acton/Compile.hs:loop", "compiler/lib/src/Acton/Compile.hs:dependentClosure"]}
{"id": "C118", "title": "Deferred code generation sees all uses", "statement": "When the generation of code for a module was deferred until its uses are known, it is prepared once, only after the front passes of every module that depends on it, directly or not, and with the names that all of these are interested in. When a build ends without errors, all deferred jobs have been prepared.", "quantifier": "all acyclic graphs of tasks, any number of workers, workers returning in any order", "why_tests_cant": "A job prepared too early goes wrong only if a late worker brings a new interest.", "anchors": ["compiler/lib/src/Acton/Compile.hs:flushReadyDeferredBacks", "compiler/lib/src/Acton/Compile.hs:dependentClosure", "compiler/lib/src/Acton/Compile.hs:loop"]}
{"id": "C119", "title": "An incremental build gives what a clean build gives", "statement": "Whatever projects have been built before with the records that are on disk, a build gives for every module the typed contents, the names with their hashes and dependencies, and the hashes of the module that a clean build gives; and it fails for the modules for which a clean build fails.", "quantifier": "all sequences of builds of all versions of all projects, all compilers that satisfy the laws", "why_tests_cant": "The state on disk depends on the whole history of edits; a stale record shows only after particular edits of particular modules.", "anchors": ["compiler/lib/src/Acton/Compile.hs:runFrontPasses", "compiler/lib/src/Acton/Compile.hs:readModuleHeader", "compiler/lib/src/Acton/Compile.hs:checkImportHashes", "compiler/lib/src/Acton/Compile.hs:checkDepModuleRows", "compiler/lib/src/Acton/Compile.hs:checkDepNameRows", "compiler/lib/src/Acton/Compile.hs:runImplRefresh", "compiler/lib/src/Acton/Hashing.hs:mergePubDeps", "compiler/lib/src/Acton/Hashing.hs:refreshImplHashes", "compiler/lib/src/Acton/Hashing.hs:assembleNameHashes"]}
{"id": "C12", "title": "Stripping removes exactly the leading/trailing members of the set", "statement": "s.lstrip(cs), s.rstrip(cs), s.strip(cs) return the unique substring obtained by removing the maximal prefix / suffix of characters belonging to cs; in particular stripping a string consisting only of such characters gives the empty string.", "quantifier": "all strings s and cs", "why_tests_cant": "Boundary conditions (everything stripped, multi-byte characters) have to hold for every string.", "anchors": ["base/builtin/str.c:B_strD_lstrip", "base/builtin/str.c:B_strD_rstrip", "base/builtin/str.c:B_strD_strip"]}
{"id": "C120", "title": "Work is decided by the hashes of names", "statement": "Although the names of a module are compared only if the hash of the module has changed, a record is reused exactly if every recorded hash of a name is the present one, and the front passes run exactly if a public hash differs or a name is missing.", "quantifier": "all records left on disk by any sequence of builds, all present states of other modules", "why_tests_cant": "Records are written by different paths (front passes, refresh, reuse) in any order; each must leave the hashes of modules and those of names in accord.", "anchors": ["compiler/lib/src/Acton/Compile.hs:checkDepModuleRows", "compiler/lib/src/Acton/Compile.hs:checkDepNameRows", "compiler/lib/src/Acton/Compile.hs:resolveDepModuleHashes", "compiler/lib/src/Acton/Hashing.hs:modulePubHashFromHashMap", "compiler/lib/src/Acton/Hashing.hs:moduleImplHashFromNameHashes"]}
{"id": "C121", "title": "Building again does no work", "statement": "A build right after a build of the same sources runs no front passes, gives the same results, and leaves the records as they are.", "quantifier": "all projects, all records left on disk by any sequence of builds", "why_tests_cant": "Whether the second build is quiet depends on how the first obtained each record, and so on the history.", "anchors": ["compiler/lib/src/Acton/Compile.hs:runFrontPasses", "compiler/lib/src/Acton/Compile.hs:runImplRefresh", "compiler/lib/src/Acton/Compile.hs:checkDepModuleRows", "compiler/lib/src/Acton/Compile.hs:checkDepNameRows"]}
{"id": "C122", "title": "An enqueue tells the subscribers", "statement": "A new entry of a queue is told to every subscriber of the queue and to every member of its groups that can be reached and has not been told since it last read all entries; to each once, and to no one else.", "quantifier": "all states of queues, groups and subscribers, all outcomes of writes to sockets", "why_tests_cant": "A missing notification is no event to observe; whether it is due depends on the history of the flags, and an address kept beyond its variable may work by chance.", "anchors": ["backend/queue.c:notify_subscriber", "backend/queue.c:notify_subscribers", "backend/queue.c:enqueue", "backend/actondb.c:handle_subscribe_queue"]}
{"id": "C123", "title": "No wake-up is lost", "statement": "A subscriber that has read all entries of a queue is told of the next one.", "quantifier": "all sequences of calls, all interleavings of the parts of calls", "why_tests_cant": "It is a property of histories and interleavings: the flag has to be cleared on every path by which all entries get read.", "anchors": ["backend/queue.c:enqueue", "backend/queue.c:read_queue", "backend/queue.c:set_private_read_head", "backend/queue.c:set_consumer_notified"]}
{"id": "C124", "title": "A subscription reaches the subscriber where it subscribed last", "statement": "After a subscription the subscriber is told by way of the callback or connection given, also if it was subscribed before.", "quantifier": "all states, subscribers and connections", "why_tests_cant": "It shows only after a connection is lost and made again.", "anchors": ["backend/queue.c:__subscribe_queue", "backend/queue.c:_subscribe_group", "backend/queue_groups.c:add_listener_to_group"]}
{"id": "C125", "title": "The queues of a group are a set", "statement": "Adding a queue to a group adds it and nothing else, removing it removes it and nothing else, and the results say which was the case.", "quantifier": "all groups, tables and queues", "why_tests_cant": "The functions have different paths for the first and for further queues of a table.", "anchors": ["backend/queue_groups.c:add_queue_to_group", "backend/queue_groups.c:remove_queue_from_group", "backend/queue_groups.c:is_queue_in_group"]}
{"id": "C126", "title": "The members of its groups can read a queue", "statement": "Each member of a group of a queue has a read head in the queue, and heads once there are kept.", "quantifier": "all groups, queues and orders of subscription, creation and installation of views", "why_tests_cant": "It depends on the order in which queues are created and members join.", "anchors": ["backend/queue.c:create_headers_for_group_subscribers", "backend/queue.c:_create_headers_for_group_subscribers", "backend/queue.c:create_queue", "backend/queue.c:_subscribe_group", "backend/actondb.c:auto_update_group_queue_subscriptions"]}
{"id": "C127", "title": "Operands on unboxed numbers are evaluated once", "statement": "The C code generated for an expression on integers evaluates each operand once, in some order, and then applies the operator as the method of the boxed type does.", "quantifier": "all expressions, states and functions called", "why_tests_cant": "It takes an operand with an effect, or one whose value changes, in the place of a divisor at any depth of nesting.", "anchors": ["compiler/lib/src/Acton/Boxing.hs:boxingBinop", "compiler/lib/src/Acton/Boxing.hs:bin2Binary", "compiler/lib/src/Acton/Boxing.hs:forceUnbox", "compiler/lib/src/Acton/CodeGen.hs:castRawResult", "compiler/lib/src/Acton/CodeGen.hs:genU1RawBinOp", "base/builtin/int.h:int_FLOORDIV", "base/builtin/int.h:int_MOD", "base/builtin/i8.h:i8_FLOORDIV", "base/builtin/u1.h:u1_FLOORDIV"]}
{"id": "C128", "title": "Unboxed operators agree with the methods", "statement": "An operator between two unboxed integers of a type gives the number, or raises the exception, that the method of the boxed type gives or raises.", "quantifier": "all integer types, operators and numbers", "why_tests_cant": "There are nine types, eleven operators and 2^128 pairs of operands; the two ways are chosen by the compiler from the context.", "anchors": ["compiler/lib/src/Acton/Boxing.hs:boxingBinop", "compiler/lib/src/Acton/CodeGen.hs:castRawResult", "compiler/lib/src/Acton/CodeGen.hs:genU1RawBinOp", "base/builtin/int.h:int_FLOORDIV", "base/builtin/int.h:int_MOD", "base/builtin/int.c:B_IntegralD_intD___floordiv__"]}
{"id": "C129", "title": "Augmented assignment is assignment of the operator", "statement": "`x op= e` does what `x = x op e` does.", "quantifier": "all integer types, operators, expressions and states", "why_tests_cant": "Augmented operators are reintroduced late in the compiler for unboxed variables; the difference shows in exceptions and in programs that do not compile.", "anchors": ["compiler/lib/src/Acton/Boxing.hs:bin2Aug", "compiler/lib/src/Acton/CodeGen.hs:augPretty", "compiler/lib/src/Acton/CodeGen.hs:genU1RawAugOp", "compiler/lib/src/Acton/Types.hs:oper"]}
{"id": "C13", "title": "startswith/endswith agree with concatenation", "statement": "s.startswith(t) iff s == t + u for some u, and s.endswith(t) iff s == u + t for some u.", "quantifier": "all strings s, t (default bounds)", "why_tests_cant": "The byte/character mix-up classes of error show only on non-ASCII data.", "anchors": ["base/builtin/str.c:B_strD_startswith", "base/builtin/str.c:B_strD_endswith"]}
{"id": "C130", "title": "The text of a condition groups as the condition", "statement": "C reads the text that is printed for a condition as an expression whose value is the value of the condition.", "quantifier": "all conditions over truth values and numbers, all values of the variables", "why_tests_cant": "The printed text is only wrong for some nestings, and then C accepts it and computes something else.", "anchors": ["compiler/lib/src/Acton/Boxing.hs:boxingCompop", "compiler/lib/src/Acton/Boxing.hs:cmp2Comparison", "compiler/lib/src/Acton/Boxing.hs:boolKW", "compiler/lib/src/Acton/CodeGen.hs:genRawExprAs", "compiler/lib/src/Acton/CodeGen.hs:binPretty"]}
{"id": "C131", "title": "The JSON reader inverts the writer", "statement": "A document that is written, with or without indentation, is read as the same document; two documents with the same text are the same.", "quantifier": "all documents of finite numbers, of any depth, and both ways of writing", "why_tests_cant": "Texts nest without bound and strings contain any characters; the escapes and the places of separators interact.", "anchors": ["deps/libyyjson/yyjson.c:yyjson_mut_write_minify", "deps/libyyjson/yyjson.c:yyjson_mut_write_pretty", "deps/libyyjson/yyjson.c:write_str", "deps/libyyjson/yyjson.c:read_num", "deps/libyyjson/yyjson.c:read_str", "deps/libyyjson/yyjson.c:read_root_pretty"]}
{"id": "C132", "title": "Decoding what was encoded", "statement": "`json.decode(json.encode(d))` is `d`, but for the classes of integers.", "quantifier": "all dictionaries and lists of values, all options", "why_tests_cant": "It takes characters that C treats as the end of a string, in a key or a string at any depth.", "anchors": ["base/src/json.ext.c:jsonQ_encode_dict", "base/src/json.ext.c:jsonQ_encode_list_into", "base/src/json.ext.c:jsonQ_encode_bigint", "base/src/json.ext.c:jsonQ_decode_integer", "base/src/json.ext.c:jsonQ_decode_obj", "base/src/json.ext.c:jsonQ_decode_arr"]}
{"id": "C133", "title": "Encoding gives a text or ValueError", "statement": "`json.encode` gives a text if every value is of a class that has a form in JSON, and raises ValueError otherwise.", "quantifier": "all dictionaries and lists of values", "why_tests_cant": "The numbers for which it fails come from computations that overflow, anywhere in a value.", "anchors": ["base/src/json.ext.c:jsonQ__encode", "base/src/json.ext.c:jsonQ__encode_list", "deps/libyyjson/yyjson.c:write_inf_or_nan", "base/builtin/str.c:to$str"]}
{"id": "C134", "title": "Decoding gives the members of the object", "statement": "`json.decode` of the text of an object gives a dictionary with the keys of the object, each once, with the value of the last member of that key; for any other text it raises ValueError.", "quantifier": "all texts", "why_tests_cant": "All texts that are no objects must be refused.", "anchors": ["base/src/json.ext.c:jsonQ__decode", "base/src/json.ext.c:jsonQ__decode_list", "base/src/json.ext.c:jsonQ_decode_obj"]}
{"id": "C135", "title": "Encoding what was decoded", "statement": "A text that is decoded and encoded again is a text of the same document.", "quantifier": "all texts of objects without a key twice", "why_tests_cant": "Numbers beyond 64 bits and strings of any characters have to pass through the values of Acton.", "anchors": ["base/src/json.ext.c:jsonQ__decode", "base/src/json.ext.c:jsonQ__encode", "base/src/json.ext.c:jsonQ_decode_integer", "base/src/json.ext.c:jsonQ_encode_bigint"]}
{"id": "C136", "title": "The reader accepts the grammar of JSON", "statement": "The reader gives a document for a text if and only if the grammar of RFC 8259 has the text as a text of that document; a text has one document at most.", "quantifier": "all texts, all documents", "why_tests_cant": "Both directions quantify over all texts: what must be refused cannot be listed.", "anchors": ["deps/libyyjson/yyjson.c:read_num", "deps/libyyjson/yyjson.c:read_str", "deps/libyyjson/yyjson.c:read_root_pretty", "deps/libyyjson/yyjson.c:read_root_single"]}
{"id": "C137", "title": "Methods of actors keep their meaning when actors become classes", "statement": "The translation of actors to classes, which turns names of the actor into attributes of self and copies state variables into locals for lambdas, keeps what a method returns and which values it leaves in the attributes.", "quantifier": "all actors, all method bodies with lambdas, loops, nested functions and after, all arguments, all states, all behaviours of calls and closures", "why_tests_cant": "The result depends on which names clash and where lambdas stand among calls; there is no bound on either.", "anchors": ["compiler/lib/src/Acton/Deactorizer.hs:deactSuite", "compiler/lib/src/Acton/Deactorizer.hs:lamfree", "compiler/lib/src/Acton/Deactorizer.hs:setSampled", "compiler/lib/src/Acton/Types.hs:reserve"]}
{"id": "C138", "title": "Eta reduction keeps the meaning of lambdas", "statement": "Where the normalizer replaces lambda ps: e(ps) by e, making the value has no effect and each call does what a call of the lambda does.", "quantifier": "all lambdas, all environments and states, all calls", "why_tests_cant": "The function part is any expression.", "anchors": ["compiler/lib/src/Acton/Normalizer.hs:eta"]}
{"id": "C139", "title": "Attributes of actors are declared", "statement": "Each name that the body of an actor assigns as an attribute is a declared property of the class that the actor becomes.", "quantifier": "all bodies of actors, with nested conditionals, raise and try", "why_tests_cant": "Bodies nest without bound; the two functions that compute the names differ only on some nestings.", "anchors": ["compiler/lib/src/Acton/Deactorizer.hs:propsigs", "compiler/lib/src/Acton/Deactorizer.hs:live_vars", "compiler/lib/src/Acton/QuickType.hs:commonEnvOf"]}
{"id": "C14", "title": "Hex, binary and code point conversions are inverse to each other", "statement": "bytes.from_hex(b.hex()) == b for every byte string; from_hex raises ValueError for every text that is not an even number of hex digits; hex(n) and bin(n) denote n in positional notation with no superfluous leading zero; ord(chr(n)) == n for each valid code point.", "quantifier": "all byte strings, all 64-bit integers, all code points", "why_tests_cant": "A finite test set cannot cover all byte strings / all 2^64 integers.", "anchors": ["base/builtin/str.c:B_bytesD_from_hex", "base/builtin/str.c:B_bytesD_hex", "base/builtin/str.c:B_hex", "base/builtin/str.c:B_bin", "base/builtin/str.c:B_chr", "base/builtin/str.c:B_ord"]}
{"id": "C140", "title": "The closure of a project's dependencies", "statement": "projDepClosure lists the projects that the root depends on, in any number of steps, each once, dependencies before what depends on them and the root last.", "quantifier": "all graphs of projects, all roots", "why_tests_cant": "Graphs have no bound; the number of entries of shared dependencies grows with the number of paths.", "anchors": ["compiler/lib/src/Acton/Compile.hs:projDepClosure"]}
{"id": "C141", "title": "The search path of a project", "statement": "depTypePathsFromMap lists the known projects that the root depends on, in any number of steps, each once and without the root.", "quantifier": "all graphs of projects, cyclic ones and ones with unknown projects included, all roots", "why_tests_cant": "Graphs have no bound.", "anchors": ["compiler/lib/src/Acton/Compile.hs:depTypePathsFromMap"]}
{"id": "C142", "title": "An import waits for the module that it reads", "statement": "The task that resolveProviders gives for an import is the task of the module whose interface findTyFile finds on the search path.", "quantifier": "all graphs of projects, all sets of modules of the projects, all imports", "why_tests_cant": "It needs several projects with modules of the same name, in orders that depend on the graph.", "anchors": ["compiler/lib/src/Acton/Compile.hs:resolveProviders", "compiler/lib/src/Acton/Compile.hs:searchPathForProject", "compiler/lib/src/Acton/Env.hs:findTyFile"]}
{"id": "C143", "title": "Building files selects them and what they import", "statement": "selectNeededTasks selects the tasks of the given files and of __builtin__ and what these import in any number of steps, nothing else; a file that is no task's is not ignored.", "quantifier": "all graphs of projects or tasks, cyclic ones included, all lists of files", "why_tests_cant": "Graphs have no bound.", "anchors": ["compiler/lib/src/Acton/Compile.hs:selectNeededTasks"]}
{"id": "C144", "title": "Consumers of late providers are in the plan", "statement": "The plan of an incremental build has the tasks that import a changed one, and with each provider whose code is generated late it has all tasks that import it, since the code is generated for what these use.", "quantifier": "all graphs of projects or tasks, cyclic ones included, all sets of changed files, all sets of late providers", "why_tests_cant": "It needs graphs where paths from affected tasks meet consumers with other providers.", "anchors": ["compiler/lib/src/Acton/Compile.hs:selectAffectedTasks", "compiler/lib/src/Acton/Compile.hs:dbpProviderPathClosure", "compiler/lib/src/Acton/Compile.hs:expandBuildLibraryTasks"]}
{"id": "C145", "title": "Plans are closed under imports and libraries", "statement": "expandBuildLibraryTasks gives the least set of tasks with the selected ones, the tasks that its tasks import and all modules of libraries of which it has one.", "quantifier": "all graphs of projects or tasks, cyclic ones included, all libraries, all selections", "why_tests_cant": "Each turn of the closure can enable another library; there is no bound on the turns.", "anchors": ["compiler/lib/src/Acton/Compile.hs:expandBuildLibraryTasks"]}
{"id": "C146", "title": "Outputs are pruned exactly if their source is gone", "statement": "Both pruning functions remove the outputs of modules whose source is gone and keep those of modules whose source is there.", "quantifier": "all projects, sets of sources and outputs", "why_tests_cant": "Directories nest without bound and may have the name of the project.", "anchors": ["compiler/lib/src/Acton/Compile.hs:pruneMissingModuleOutputs", "compiler/lib/src/Acton/Compile.hs:pruneMissingChangedModuleOutputs"]}
{"id": "C147", "title": "Watching compiles all changes", "statement": "When nothing runs and no change has to be told, the outputs of all tasks are made of the sources as they are.", "quantifier": "all sequences of writes, notifications and ends of runs", "why_tests_cant": "It depends on the time between changes and runs.", "anchors": ["compiler/acton/Main.hs:runWatchProject", "compiler/acton/Main.hs:shouldTriggerFile", "compiler/lib/src/Acton/Compile.hs:startCompile"]}
{"id": "C148", "title": "The projects of a build", "statement": "discoverProjects finds the root and with each project those on which it depends, each once and no two with the same fingerprint; a dependency that the root declares stands for the same project everywhere.", "quantifier": "all trees of Build.act files, cyclic dependencies included, all roots", "why_tests_cant": "Graphs of projects have no bound; relative paths matter only between directories at different places.", "anchors": ["compiler/lib/src/Acton/Compile.hs:discoverProjects", "compiler/lib/src/Acton/Compile.hs:resolveDepBase", "compiler/lib/src/Acton/Compile.hs:applyFingerprint"]}
{"id": "C149", "title": "URIs are parsed to their components", "statement": "URI(s) accepts exactly the texts scheme://authority/path?query#fragment of RFC 3986 and has their components; the string of the parsed URI is s, and is parsed to the same URI.", "quantifier": "all texts", "why_tests_cant": "Delimiters may come in any order and number in all components.", "anchors": ["base/src/uri.act:parse_schema", "base/src/uri.act:parse_authority", "base/src/uri.act:parse_path", "base/src/uri.act:parse_query", "base/src/uri.act:parse_fragment"]}
{"id": "C15", "title": "Serialized data survives the byte encoding, and malformed bytes are rejected", "statement": "Encoding the row sequence of a serialized value to bytes and decoding these bytes gives back the same rows; decoding any byte string either succeeds with rows that re-encode to exactly that string, or raises ValueError; the decoder never reads outside the input.", "quantifier": "all row sequences (any class ids, any blob lengths) and all byte strings", "why_tests_cant": "The decoder must be safe for every (possibly corrupt or truncated) byte string read from a file or database.", "anchors": ["base/builtin/serialize.c:$rows_to_bytes", "base/builtin/serialize.c:$bytes_to_rows", "base/builtin/serialize.c:B_serialize", "base/builtin/serialize.c:B_deserialize"]}
{"id": "C150", "title": "Fingerprints as texts", "statement": "parseFingerprint accepts exactly 0x with a hexadecimal number of at most 64 bits, spaces around, and yields its value; formatFingerprint writes a text that is read as the same number; updateFingerprintPrefix replaces the upper half only.", "quantifier": "all texts, all 64-bit numbers", "why_tests_cant": "2^64 numbers, texts without bound.", "anchors": ["compiler/lib/src/Acton/Fingerprint.hs:parseFingerprint", "compiler/lib/src/Acton/Fingerprint.hs:formatFingerprint", "compiler/lib/src/Acton/Fingerprint.hs:updateFingerprintPrefix"]}
{"id": "C151", "title": "Suggested fingerprints are accepted", "statement": "The fingerprint that is generated or suggested for a name is accepted by validateFingerprint for that name.", "quantifier": "all names, all random numbers", "why_tests_cant": "It fails for one random number of 2^32 and rare names.", "anchors": ["compiler/lib/src/Acton/Compile.hs:validateFingerprint", "compiler/lib/src/Acton/Compile.hs:suggestFingerprint", "compiler/acton/Main.hs:generateFingerprint"]}
{"id": "C152", "title": "A renamed project needs another fingerprint", "statement": "A fingerprint that is accepted for one name is not accepted for another one.", "quantifier": "all pairs of names", "why_tests_cant": "Collisions of the checksum are rare; that there are none nearby is a statement about all names.", "anchors": ["compiler/lib/src/Acton/Fingerprint.hs:fingerprintPrefixForName", "compiler/lib/src/Acton/Fingerprint.hs:crc32IsoHdlc", "compiler/lib/src/Acton/Compile.hs:validateFingerprint"]}
{"id": "C153", "title": "The search path of a file has the projects of the build", "statement": "The interfaces that collectDepTypePaths lists are those of the projects that discoverProjects finds, without the root and each once.", "quantifier": "all trees of Build.act files, cyclic dependencies included, all roots", "why_tests_cant": "Graphs of projects have no bound; differences need declarations that disagree, or copies of a project.", "anchors": ["compiler/lib/src/Acton/Compile.hs:collectDepTypePaths", "compiler/lib/src/Acton/Compile.hs:discoverProjects", "compiler/lib/src/Acton/Compile.hs:findPaths"]}
{"id": "C154", "title": "Resolving a relative path", "statement": "resolve_relative_path(start, rel) is an absolute path that leads from the root where rel leads from start; it raises ValueError exactly when start is not absolute or rel asks for the parent of the root.", "quantifier": "all strings start and rel", "why_tests_cant": "Paths have any number of pieces; the wrong answers need an empty piece before '..', or '..' in the start.", "anchors": ["base/src/file.act:resolve_relative_path"]}
{"id": "C155", "title": "Relative paths lead to the target and are shortest", "statement": "For absolute paths, get_relative_path(target, from) is a relative path that leads from from to target, no such path has fewer pieces, and resolving it against from leads to the target.", "quantifier": "all pairs of absolute paths", "why_tests_cant": "Pairs of paths have no bound; being shortest is a statement on all other relative paths.", "anchors": ["base/src/file.act:get_relative_path", "base/src/file.act:resolve_relative_path"]}
{"id": "C156", "title": "TCP: connected at most once, and never silence", "statement": "During one attempt of TCPConnection (the program calls neither close nor reconnect) the program's on_connect is called at most once; and when nothing is outstanding any more, lookups, connect requests, timer, shutdowns and callbacks, the program has been told about success or failure.", "quantifier": "all addresses and all orders of lookups, connect results, timer and closing events", "why_tests_cant": "IPv4 and IPv6 race with each other and with the timer; all interleavings are meant.", "anchors": ["base/src/net.act:_on_connect4", "base/src/net.act:_on_connect6", "base/src/net.act:_on_connect", "base/src/net.act:_connect_timeout"]}
{"id": "C157", "title": "TCP: exactly one verdict per attempt", "statement": "An attempt of TCPConnection ends with exactly one call of on_connect or on_error; a connection that was reported as established is not ended by the timer of the attempt.", "quantifier": "all addresses and all orders of events", "why_tests_cant": "The wrong reports need a late lookup or the timer at a particular moment.", "anchors": ["base/src/net.act:_on_tcp_error", "base/src/net.act:_connect_timeout", "base/src/net.act:_on_dns_aaaa_resolve", "base/src/net.act:_on_dns_a_error"]}
{"id": "C158", "title": "TCP: reconnecting", "statement": "After reconnect an attempt runs like the first one: a connect request that succeeds leads to on_connect, timers and requests of the former attempt have no effect on it, and the actor uses a socket that is connected.", "quantifier": "all orders of events with any number of reconnects", "why_tests_cant": "Left-over messages of earlier attempts can arrive at any later time.", "anchors": ["base/src/net.act:reconnect", "base/src/net.act:_connect", "base/src/net.ext.c:netQ_TCPConnectionD_closeG_local"]}
{"id": "C159", "title": "TCP: no socket is left open, none is closed twice", "statement": "When the connection has been given up or lost and nothing is outstanding, no libuv handle of the actor is open, and no handle is closed twice.", "quantifier": "all orders of events", "why_tests_cant": "Leaks need the losing half of the race or a request that outlives the timer; neither is visible to the program.", "anchors": ["base/src/net.act:_connect_timeout", "base/src/net.ext.c:netQ_TCPConnectionD_closeG_local"]}
{"id": "C16", "title": "Serialization preserves object graphs including sharing and cycles", "statement": "Deserializing the serialization of an object graph yields an isomorphic graph: same classes and field values, objects shared in the original are shared in the copy, cycles are preserved, and None stays None.", "quantifier": "all finite object graphs, including cyclic and shared ones", "why_tests_cant": "The set of graph shapes (sharing patterns, back references) is infinite.", "anchors": ["base/builtin/serialize.c:$step_serialize", "base/builtin/serialize.c:$step_deserialize", "base/builtin/serialize.c:$serialize", "base/builtin/serialize.c:$deserialize"]}
{"id": "C160", "title": "UDP: one verdict on the setup", "statement": "UDPConnection reports the setup exactly once: on_connect at most once, never success and failure, one failure only, and something is reported when nothing is outstanding, unless the program closed it.", "quantifier": "all addresses and all orders of lookups, setup results, timer and calls of close", "why_tests_cant": "Messages and the timer interleave freely.", "anchors": ["base/src/net.act:_on_udp_ready", "base/src/net.act:_on_udp_error", "base/src/net.act:_on_dns_resolve"]}
{"id": "C161", "title": "UDP: closed is closed", "statement": "At any time the open handles are exactly the socket in use; once UDPConnection is closed, by the program, the timer or an error, it has no open handle and stays closed.", "quantifier": "all addresses and all orders of events", "why_tests_cant": "A setup may complete after the close in any interleaving.", "anchors": ["base/src/net.ext.c:netQ_UDPConnectionD_closeG_local", "base/src/net.ext.c:udp_connection_start", "base/src/net.act:_on_udp_ready"]}
{"id": "C162", "title": "Log lines show the path of the message", "statement": "The handler path in a line that a sink writes consists of the names of the handlers through which the message came, from the handler of the sink down to the logger.", "quantifier": "all trees of handlers, all settings changed at any time, all interleavings of the handlers, all sinks", "why_tests_cant": "The list is shared by actors that run in parallel; the result depends on when a message leaves an actor.", "anchors": ["base/src/logging.act:Handler", "base/src/logging.act:handle", "base/src/logging.act:format", "base/rts/rts.c:PUSH_outgoing"]}
{"id": "C163", "title": "A log message is written where levels allow it, once", "statement": "A message is written by a sink exactly if every handler on the way to the handler of the sink lets its level pass, and it is written once for each time it comes there.", "quantifier": "all handlers (also in a cycle), levels and interleavings", "why_tests_cant": "Handlers form chains of any length and run in parallel.", "anchors": ["base/src/logging.act:handle", "base/src/logging.act:lvl_names", "base/src/logging.act:set_handler"]}
{"id": "C164", "title": "A logger sends what its handler lets pass", "statement": "Logger.log sends a message to the handler exactly if the level of the message is at most the output level of the handler at that time.", "quantifier": "all sequences of log calls, changes of the level and delays", "why_tests_cant": "The level in the logger goes stale with time.", "anchors": ["base/src/logging.act:log", "base/src/logging.act:get_level", "base/src/logging.act:set_output_level"]}
{"id": "C165", "title": "RunProcess reports the end of a process once, with its whole output", "statement": "When the process has exited and its streams are closed, on_exit is called exactly once, with the exit status and all that the process wrote to stdout and stderr; if it cannot be started, on_error is called once and nothing else.", "quantifier": "all orders of output, ends of the streams, the exit and the handling of messages; all outputs", "why_tests_cant": "The order of the callbacks of libuv is not under the control of a test.", "anchors": ["base/src/process.act:RunProcess", "base/src/process.act:_check_done", "base/src/process.ext.c:read_stdout", "base/src/process.ext.c:read_stderr", "base/src/process.ext.c:exit_handler"]}
{"id": "C166", "title": "Signals reach the process of the actor and no other", "statement": "Process.signal, kill, terminate and stop deliver the signal asked for, once, to the process that the actor has started as long as it runs, and to no other process, even if its number is in use again; pid answers the number of that process while it runs.", "quantifier": "all sequences of starts and ends of processes, reuse of numbers, signals and timers", "why_tests_cant": "The reuse of a process number between the exit and a late kill cannot be provoked.", "anchors": ["base/src/process.act:stop", "base/src/process.ext.c:processQ_ProcessD_signalG_local", "base/src/process.ext.c:processQ_ProcessD_pidG_local", "base/src/process.ext.c:exit_handler"]}
{"id": "C167", "title": "What is written before done_writing reaches the process", "statement": "The process gets from its stdin all bytes of the calls of write before done_writing, in order and once, and nothing else.", "quantifier": "all sequences of writes, sizes of the pipe and speeds of the reader", "why_tests_cant": "Small inputs fit into the pipe of the kernel.", "anchors": ["base/src/process.ext.c:processQ_ProcessD_writeG_local", "base/src/process.ext.c:processQ_ProcessD_done_writingG_local"]}
{"id": "C168", "title": "The process sees the environment that it was given", "statement": "In the process every variable has the value given in env; PATH has that of the program if env has none; without env the environment is that of the program.", "quantifier": "all environments of the program and all dicts", "why_tests_cant": "Names and values are arbitrary strings.", "anchors": ["base/src/process.act:new_env", "base/src/process.ext.c:processQ_ProcessD__create_processG_local", "base/src/process.ext.c:processQ__get_env_path"]}
{"id": "C169", "title": "Witnesses in cycles can be created", "statement": "After tieDeclKnots the creation of a witness ends, whatever the cycles among the witness classes of the group: never more calls of __init__ are in progress in one another than there are classes; every object created has all its attributes.", "quantifier": "all finite graphs of witness classes that call one another", "why_tests_cant": "There are infinitely many shapes of cycles, also with common classes.", "anchors": ["compiler/lib/src/Acton/WitKnots.hs:tieDeclKnots", "compiler/lib/src/Acton/WitKnots.hs:witChains", "compiler/lib/src/Acton/WitKnots.hs:analyze", "compiler/lib/src/Acton/WitKnots.hs:tieCall"]}
{"id": "C17", "title": "Netstring framing round-trips and is safe on partial input", "statement": "Reading a framed message returns exactly the payload and leaves exactly the bytes that followed it; on every proper prefix of a framed message the reader reports 'too short' and consumes nothing; on arbitrary bytes the reader never accesses memory outside the given buffer.", "quantifier": "all payloads up to 999999999 bytes, all trailing data, all prefixes, all byte strings", "why_tests_cant": "A stream can be cut at any byte and can contain anything.", "anchors": ["base/rts/netstring.c:netstring_read", "base/rts/netstring.c:netstring_add_ex"]}
{"id": "C170", "title": "Witness cycles are tied to the object in creation", "statement": "An attribute that needs a witness of a class of which an object is being created gets that object; no two objects of one class are in creation in one another; every attribute has an object of its class.", "quantifier": "all finite graphs of witness classes, all attributes of all objects", "why_tests_cant": "There are infinitely many shapes of cycles.", "anchors": ["compiler/lib/src/Acton/WitKnots.hs:tieknots", "compiler/lib/src/Acton/WitKnots.hs:depKnot", "compiler/lib/src/Acton/WitKnots.hs:depsof"]}
{"id": "C171", "title": "build.zig.zon is read", "statement": "Every text of a ZON value (structs, arrays, strings, enums, numbers, true, false, null; quoted names; with or without a last comma) is read as exactly that value, with any spaces and line comments around and between its tokens, a comment that the end of the file ends, and byte order marks at the beginning; no text has two values.", "quantifier": "all values of any depth, all ways to write them (without multi-line strings and character literals)", "why_tests_cant": "There are infinitely many texts; comments and commas may stand between any two tokens.", "anchors": ["compiler/lib/src/Acton/Zon.hs:parseZon", "compiler/lib/src/Acton/Zon.hs:pStructOrArray", "compiler/lib/src/Acton/Zon.hs:pFieldHead", "compiler/lib/src/Acton/Zon.hs:sc"]}
{"id": "C172", "title": "Strings of build.zig.zon mean what they mean to Zig", "statement": "The string that a literal is read as has, in UTF-8, the bytes that Zig gives to the literal, where \\xNN is one byte.", "quantifier": "all string literals that Zig takes", "why_tests_cant": "There are infinitely many literals; only \\xNN of 80 and above differ.", "anchors": ["compiler/lib/src/Acton/Zon.hs:pStringRaw", "compiler/lib/src/Acton/Zon.hs:pEscape"]}
{"id": "C173", "title": "The dependencies of a Zig package are found", "statement": "From a manifest that gives every field once, exactly the entries of its field dependencies are found, in order, wherever the field stands; url, hash and path of an entry are those that its struct gives as strings, lazy is true iff the struct says so; a manifest without the field has none.", "quantifier": "all manifests, all orders of fields, all other fields", "why_tests_cant": "There are infinitely many manifests.", "anchors": ["compiler/lib/src/Acton/Zon.hs:zonDependencies", "compiler/lib/src/Acton/Zon.hs:toDep", "compiler/lib/src/Acton/Zon.hs:readZonDependencies"]}
{"id": "C174", "title": "The search for transitive Zig dependencies ends", "statement": "The walk over the manifests of Zig packages ends, also if packages depend on one another in circles; it reads exactly the packages that are reached over dependencies given as directories that are not lazy, each once; it downloads only archives that these packages need and that are not in the cache, none twice.", "quantifier": "all finite graphs of packages, all caches", "why_tests_cant": "There are infinitely many graphs, with cycles and shared packages.", "anchors": ["compiler/lib/src/Acton/Compile.hs:seedTransitiveZigDeps", "compiler/lib/src/Acton/Compile.hs:claimVisited"]}
{"id": "C175", "title": "Transitive Zig dependencies are in the cache before Zig runs", "statement": "After the walk every archive that a package needs and that one of its addresses serves is in the cache; what was in the cache stays; nothing else gets into it but what the needed addresses serve.", "quantifier": "all finite graphs of packages, all caches, all behaviours of servers", "why_tests_cant": "It fails only if two manifests give different addresses for one hash and the first does not serve it.", "anchors": ["compiler/lib/src/Acton/Compile.hs:seedTransitiveZigDeps", "compiler/lib/src/Acton/Compile.hs:fetchOne", "compiler/lib/src/Acton/Compile.hs:validateFetchOutput"]}
{"id": "C176", "title": "acton pkg show ends", "statement": "pkg show ends, whatever the dependencies of the project and of its dependencies are.", "quantifier": "all trees and graphs of projects", "why_tests_cant": "There are infinitely many graphs; it fails only for circles.", "anchors": ["compiler/acton/Main.hs:pkgShow", "compiler/acton/Main.hs:showTree"]}
{"id": "C177", "title": "acton pkg show shows the dependencies that count", "statement": "When pkg show ends without an error, every dependency that a project of the tree declares has a line, indented by the length of the way to it, with the dependency that counts (the one of the root, if the root has one of that name); every line is about such a dependency, is marked as overridden iff another one counts, and as not fetched iff it is an archive that is not there; the note that the tree is partial is given iff a line is marked so.", "quantifier": "all trees of projects, all pins of the root", "why_tests_cant": "There are infinitely many trees.", "anchors": ["compiler/acton/Main.hs:pkgShow", "compiler/acton/Main.hs:showTree", "compiler/acton/Main.hs:isHashDep"]}
{"id": "C178", "title": "Messages about proxies do not show passwords", "statement": "The lines about the proxy environment and about the proxy of a failed request do not depend on the users and passwords in the addresses of proxies.", "quantifier": "all pairs of environments that differ only in users and passwords", "why_tests_cant": "It compares the output of all pairs of environments.", "anchors": ["compiler/lib/src/Acton/HttpFetch.hs:maskProxyUrl", "compiler/lib/src/Acton/HttpFetch.hs:findSubstring", "compiler/lib/src/Acton/HttpFetch.hs:formatProxyEnvVar", "compiler/lib/src/Acton/HttpFetch.hs:proxyEnvReportLines", "compiler/lib/src/Acton/HttpFetch.hs:applicableProxy"]}
{"id": "C179", "title": "Requests are repeated ten times at most", "statement": "A request succeeds iff one of the first ten answers is good (2xx) and all before it are 403, 429 or 5xx and above; no request is made after any other answer; the pauses double from half a second and end at two minutes, in all at most 247.5 seconds.", "quantifier": "all sequences of answers and errors", "why_tests_cant": "There are infinitely many sequences of answers, and the pauses take minutes.", "anchors": ["compiler/lib/src/Acton/HttpFetch.hs:httpGetBytes", "compiler/lib/src/Acton/HttpFetch.hs:downloadToFile", "compiler/lib/src/Acton/HttpFetch.hs:retryableStatus"]}
{"id": "C18", "title": "An actor never runs on two workers at once and never loses a wake-up", "statement": "In every interleaving of worker threads, message sends and completions, each actor is executed by at most one worker at a time and is at most once in the ready queue; an actor with pending messages that is not executing and not blocked on an await or a not-yet-due timer is in the ready queue.", "quantifier": "all numbers of actors and workers, all interleavings of atomic queue operations", "why_tests_cant": "Schedules are unbounded; a race is visible only in rare interleavings.", "anchors": ["base/rts/rts.c:wt_work_cb", "base/rts/q.c:ENQ_ready", "base/rts/q.c:DEQ_ready", "base/rts/q.c:ENQ_msg", "base/rts/q.c:DEQ_msg", "base/rts/rts.c:FLUSH_outgoing_local"]}
{"id": "C180", "title": "The type of a download does not depend on how it is cut into chunks", "statement": "However the body of a response is cut into chunks, the file is the body, and the type found from the first bytes is that of the first magic number that the whole body has.", "quantifier": "all bodies, all ways to cut them", "why_tests_cant": "Chunks depend on the network; there are infinitely many ways.", "anchors": ["compiler/lib/src/Acton/HttpFetch.hs:streamBodyToFile", "compiler/lib/src/Acton/ArchiveDownload.hs:detectArchiveSuffixFromBytes"]}
{"id": "C181", "title": "Cached results of tests belong to the same test, code and context", "statement": "A result that acton test takes from its cache is that of an earlier run of the same test with the same version of the compiler, target, optimisation, mode and arguments, where the definition of the test and all that it uses had the same hashes; a result with output is taken only if the snapshot files allow it. Every other result is that of running the test now.", "quantifier": "all histories of runs and losses of the cache, all hashes of names, all selections of tests", "why_tests_cant": "It speaks about all histories of a project.", "anchors": ["compiler/lib/src/Acton/Testing.hs:buildTestHashInfo", "compiler/lib/src/Acton/Testing.hs:classifyCachedTests", "compiler/lib/src/Acton/Testing.hs:updateTestCacheEntry", "compiler/lib/src/Acton/Testing.hs:hashRun", "compiler/lib/src/Acton/Testing.hs:hashDeps", "compiler/lib/src/Acton/Testing.hs:mkTestKey", "compiler/lib/src/Acton/Testing.hs:testNameCandidates", "compiler/lib/src/Acton/Testing.hs:resolveTestImplDeps", "compiler/acton/TestRunner.hs:runProjectTests", "compiler/acton/TestRunner.hs:filterReusableCachedSnapshotResults"]}
{"id": "C182", "title": "Tests that nothing has changed for are not run again", "statement": "If the context, the definition of a test and the hashes of what it uses are those of the run before, the result of that run is shown without running the test (for a result with output: if the snapshot files allow it).", "quantifier": "all caches, all pairs of runs", "why_tests_cant": "It speaks about all projects and caches.", "anchors": ["compiler/lib/src/Acton/Testing.hs:classifyCachedTests", "compiler/lib/src/Acton/Testing.hs:updateTestCacheEntry", "compiler/acton/TestRunner.hs:runProjectTests"]}
{"id": "C183", "title": "Results of tests that did not complete are not used again", "statement": "A result that acton test takes from its cache is that of a test that completed.", "quantifier": "all histories of runs", "why_tests_cant": "It fails only after a test process is interrupted or dies.", "anchors": ["compiler/lib/src/Acton/Testing.hs:classifyCachedTests", "compiler/lib/src/Acton/Testing.hs:updateTestCacheEntry", "compiler/acton/TestRunner.hs:runModuleTestStreaming"]}
{"id": "C184", "title": "acton test exits with 0 iff every test is shown as passed", "statement": "acton test exits with 0 (and says that all tests passed) iff every test is shown as OK or SKIP, which is so iff every iteration of every test went well.", "quantifier": "all lists of test processes, all outcomes of iterations, all choices of which iterations are reported", "why_tests_cant": "It fails only for processes that die after a first report; there are endlessly many sequences of outcomes.", "anchors": ["compiler/acton/TestRunner.hs:testExitCode", "compiler/acton/TestRunner.hs:printTestSummary", "compiler/acton/TestRunner.hs:pickFinalTestInfo", "compiler/acton/TestRunner.hs:runModuleTestStreaming", "compiler/acton/TestFormat.hs:formatTestStatus", "base/src/testing.act:TestInfo", "base/src/testing.act:_report_result"]}
{"id": "C185", "title": "What is recorded of a test agrees with its iterations", "statement": "After any number of iterations, a test is recorded as failed iff one of them failed, as an error iff none failed and one was an error, as passed iff all went well, as skipped iff all went well and one was skipped, and as flaky iff not all went well, not all failed and not all were errors.", "quantifier": "all non-empty sequences of outcomes", "why_tests_cant": "It speaks about sequences of any length.", "anchors": ["base/src/testing.act:TestInfo", "base/src/testing.act:_report_result"]}
{"id": "C186", "title": "Lines cut to the terminal show the beginning of the line", "statement": "What a terminal shows of a line cut by termFitAnsiRight to a width is just the first that many characters of what it shows of the whole line, in the same colours, whatever escape sequences the line contains, finished or not; if anything is cut off, no colour is left on.", "quantifier": "all texts, all widths", "why_tests_cant": "There are endlessly many texts and ways to put escapes into them.", "anchors": ["compiler/acton/TerminalSize.hs:termFitAnsiRight", "compiler/acton/TerminalSize.hs:termVisibleLength", "compiler/acton/TerminalSize.hs:dropAnsi", "compiler/acton/TerminalSize.hs:spanAnsi"]}
{"id": "C187", "title": "Lines of tests fit the terminal and show the status", "statement": "The line that is shown for a test takes no more columns than the terminal has, with or without colours, and contains the whole status of the test whenever the terminal is at least as wide as the status. No colour is left on after it.", "quantifier": "all widths, statuses, names, widths of names and summaries without escapes", "why_tests_cant": "There are endlessly many combinations of widths and texts.", "anchors": ["compiler/acton/TestFormat.hs:formatTestLineFitted", "compiler/acton/TestFormat.hs:formatTestLineWith", "compiler/acton/TestFormat.hs:renderStatusField", "compiler/acton/TestFormat.hs:renderStatusToken", "compiler/acton/TestFormat.hs:fitTestDisplay", "compiler/acton/TestFormat.hs:testColorApply", "compiler/acton/TerminalSize.hs:termFitPlainRight"]}
{"id": "C188", "title": "The details of every result of a test can be shown", "statement": "formatTestDetailLines yields the details of every result that a test process can lead to, and shows the message of an exception with nothing left out.", "quantifier": "all test processes, all outcomes of iterations, all exit codes", "why_tests_cant": "It fails only for a test that is skipped and whose process then exits with a failure.", "anchors": ["compiler/acton/TestFormat.hs:formatTestDetailLines", "compiler/acton/TestRunner.hs:runModuleTestStreaming"]}
{"id": "C189", "title": "Output of tests is shown with the iterations it comes from", "statement": "The output that a test prints on stdout and stderr is taken apart at the markers of the iterations: each chunk is the trimmed output of one iteration, stdout and stderr of the same iteration are put together with every line of both, and equal ones are shown once, in order of first appearance, with the number of iterations they come from.", "quantifier": "all numbers of iterations, all outputs that contain no marker", "why_tests_cant": "It speaks about any number of iterations and any output.", "anchors": ["compiler/acton/TestRunner.hs:splitTestOutput", "compiler/acton/TestRunner.hs:renderIterationOutput", "compiler/acton/TestRunner.hs:dedupCombinedOutput", "compiler/acton/TestRunner.hs:trim", "compiler/acton/TestRunner.hs:stripAnsi", "compiler/acton/TestFormat.hs:formatTestDetailLines"]}
{"id": "C19", "title": "Messages between two actors are delivered exactly once in sending order", "statement": "For every pair of actors, the messages the sender has sent to the receiver by immediate asynchronous calls are executed by the receiver exactly once each and in the order they were sent.", "quantifier": "all executions, all schedules, any number of actors", "why_tests_cant": "Order and exactly-once delivery must hold for all interleavings and batch sizes.", "anchors": ["base/rts/rts.c:$ASYNC", "base/rts/rts.c:PUSH_outgoing", "base/rts/rts.c:FLUSH_outgoing_local", "base/rts/q.c:ENQ_msg", "base/rts/q.c:DEQ_msg"]}
{"id": "C190", "title": "No output of a test is left out", "statement": "All that a test process prints is shown (but for spaces at the ends and the markers of iterations).", "quantifier": "all outputs", "why_tests_cant": "It speaks about any output.", "anchors": ["compiler/acton/TestRunner.hs:splitTestOutput", "compiler/acton/TestRunner.hs:dedupCombinedOutput"]}
{"id": "C191", "title": "--min-iter is the minimum number of iterations", "statement": "A test that is not skipped is run for at least --min-iter iterations (3 if it is not given).", "quantifier": "all options, all tests (durations of iterations)", "why_tests_cant": "It depends on how long iterations take.", "anchors": ["compiler/acton/TestRunner.hs:effectiveTestTiming", "compiler/acton/TestRunner.hs:testCmdArgs", "base/src/testing.act:_report_result", "compiler/lib/src/Acton/CommandLineParser.hs:mkTestOptions"]}
{"id": "C192", "title": "--iter and --max-iter", "statement": "With --iter n a test is run for exactly n iterations, if none is skipped and they take no more than 1000 seconds, and in any case for at most n; with --max-iter x a test ends after at most x iterations, or --min-iter if that is more; a skipped iteration is the last one; with --min-time s and --max-iter x a test that is not skipped is run for longer than s milliseconds or for at least x iterations.", "quantifier": "all options, all tests (durations of iterations)", "why_tests_cant": "It depends on how long iterations take.", "anchors": ["compiler/acton/TestRunner.hs:effectiveTestTiming", "compiler/acton/TestRunner.hs:testCmdArgs", "base/src/testing.act:_report_result"]}
{"id": "C193", "title": "--name selects the tests that its pattern matches as a whole", "statement": "acton test selects a test iff no pattern is given with --name, or one of the patterns matches the whole of the name of the test, or of its name as shown (\"regex, anchored\").", "quantifier": "all lists of patterns, all names", "why_tests_cant": "It speaks about all regular expressions and names.", "anchors": ["compiler/acton/TestRunner.hs:filterTests", "compiler/acton/TestRunner.hs:compileTestNameRegexes", "compiler/acton/TestRunner.hs:regexMatches", "compiler/acton/TestRunner.hs:displayTestName"]}
{"id": "C194", "title": "--snapshot-update accepts the output of a test only if nothing else went wrong", "statement": "With acton test --snapshot-update, the output of a test is written as its expected output, and the test counted as passed, only if its iterations all printed that output and none of them failed in another way; any other failure is still reported.", "quantifier": "all lists of iterations, with all outcomes and outputs", "why_tests_cant": "It speaks about all sequences of outcomes and outputs of a test that is run many times.", "anchors": ["compiler/acton/TestRunner.hs:applySnapshotUpdate", "compiler/acton/TestRunner.hs:isSnapshotMismatch", "compiler/acton/TestRunner.hs:markSnapshotUpdated", "base/src/testing.act:update"]}
{"id": "C195", "title": "The cached result of a snapshot test is used only if its expected output is the same", "statement": "acton test uses the cached result of a test with an output again only if the expected output that the test would be compared with now is the one that it was compared with in the run that the result is from.", "quantifier": "all files, all times, all sequences of changes of the expected files", "why_tests_cant": "It speaks about all interleavings of changes of files with runs of tests.", "anchors": ["compiler/acton/TestRunner.hs:snapshotMetadataAllowsCacheHit", "compiler/acton/TestRunner.hs:readFirstExistingSnapshotMeta", "compiler/acton/TestRunner.hs:writeSnapshotOutputs", "base/src/testing.act:get_expected"]}
{"id": "C20", "title": "An awaiting actor is resumed exactly once, with the value of the awaited call", "statement": "An actor that awaits a message stays blocked until the message has completed and is then resumed exactly once, with the result (or exception) produced by that message, whether the completion happens before, during or after the await; several waiters on one message are all resumed.", "quantifier": "all schedules of the awaiting and completing workers, any number of waiters", "why_tests_cant": "The race between registering a waiter and freezing the message can only be settled for all interleavings by proof.", "anchors": ["base/rts/rts.c:ADD_waiting", "base/rts/rts.c:FREEZE_waiting", "base/rts/rts.c:$AWAIT", "base/rts/rts.c:wt_work_cb"]}
{"id": "C21", "title": "Delayed messages fire no earlier than due, in due order, and are never lost", "statement": "A message sent with `after dt` is put in its receiver's queue only when the clock has reached its due time; among delayed messages the order of delivery is the order of due times, ties in order of sending; every delayed message whose due time has passed is delivered once by the timer handling.", "quantifier": "all multisets of delays and all clock readings", "why_tests_cant": "Depends on all orders of insertion and of clock progress.", "anchors": ["base/rts/rts.c:ENQ_timed", "base/rts/rts.c:DEQ_timed", "base/rts/rts.c:handle_timeout", "base/rts/rts.c:$AFTER"]}
{"id": "C22", "title": "The ordered map used by the database behaves as a sorted finite map", "statement": "After any history of insert and delete, search returns the last value inserted for the key if not deleted since, search-higher returns the least key >= the argument, search-lower the greatest key < (or <=) it as documented, and traversal lists the live keys in strictly increasing order, for every outcome of the random level generator.", "quantifier": "all histories, all keys, all random level choices", "why_tests_cant": "Level choices and histories are unbounded.", "anchors": ["backend/skiplist.c:skiplist_insert", "backend/skiplist.c:skiplist_search", "backend/skiplist.c:skiplist_search_higher", "backend/skiplist.c:skiplist_delete"]}
{"id": "C23", "title": "Vector clock comparison decides causal order", "statement": "Comparing two vector clocks returns equal / before / after / concurrent in exact agreement with the component-wise order (absent component = never ticked); comparison is antisymmetric and transitive.", "quantifier": "all pairs/triples of well-formed clocks over any number of nodes and any 64-bit counters", "why_tests_cant": "Infinite domain; the merge-style loop has many tail cases.", "anchors": ["backend/failure_detector/vector_clock.c:compare_vc"]}
{"id": "C24", "title": "Vector clock merge is the least upper bound", "statement": "Updating clock a with clock b yields the component-wise maximum of both: an upper bound of both, below every other upper bound; merging is idempotent and, up to representation, commutative; ticking a component strictly increases the clock.", "quantifier": "all pairs of well-formed clocks", "why_tests_cant": "Infinite domain; counters of any magnitude.", "anchors": ["backend/failure_detector/vector_clock.c:update_vc", "backend/failure_detector/vector_clock.c:increment_vc", "backend/failure_detector/vector_clock.c:add_component_vc"]}
{"id": "C25", "title": "A queue consumer sees every entry once, in enqueue order", "statement": "For any history of enqueues, reads and consumes by one consumer, the concatenation of the entries returned by its successive reads is a prefix of the enqueued sequence: no gap, no duplicate, no reordering; a read reports 'complete' iff nothing remains unread; consuming past the read position is refused.", "quantifier": "all histories of enqueue/read/consume, all batch sizes", "why_tests_cant": "Off-by-one in heads appear only in particular interleavings of batch sizes and enqueues.", "anchors": ["backend/queue.c:enqueue", "backend/queue.c:read_queue", "backend/queue.c:consume_queue", "backend/queue.c:replay_queue"]}
{"id": "C26", "title": "Replay after a crash re-delivers exactly the read-but-not-consumed entries", "statement": "After a consumer reads entries and has consumed a prefix, replay returns exactly the entries between the consume position and the read position, in order.", "quantifier": "all queue histories and consume/read positions", "why_tests_cant": "Crash points are arbitrary.", "anchors": ["backend/queue.c:replay_queue", "backend/queue.c:consume_queue", "backend/queue.c:read_queue"]}
{"id": "C27", "title": "Two concurrently validated transactions never write the same key", "statement": "While a transaction is validated and not yet committed or aborted, validation of any other transaction writing an overlapping key path fails; so at each time the write sets of all validated open transactions are pairwise disjoint on rows.", "quantifier": "all histories of transaction operations on a server, any number of transactions", "why_tests_cant": "Interleavings of transactions are unbounded.", "anchors": ["backend/txns.c:validate_txn", "backend/txns.c:is_write_invalidated", "backend/txns.c:ww_conflict", "backend/txn_state.c:txn_write_cmp"]}
{"id": "C28", "title": "A transaction takes effect atomically, in issue order, and not at all if aborted", "statement": "Persisting a transaction applies the last write per key and all its enqueues in the order issued; aborting leaves the database unchanged; only a transaction that has been validated can take effect.", "quantifier": "all transactions (write sequences) and database states", "why_tests_cant": "All write sequences and all points of abort have to be covered.", "anchors": ["backend/txns.c:persist_txn", "backend/txns.c:abort_txn", "backend/txn_state.c:add_write_to_txn", "backend/actondb.c:handle_commit_txn"]}
{"id": "C29", "title": "Majority commits exclude conflicting commits", "statement": "If a client obtained a commit verdict for two conflicting transactions, they were not simultaneously validated at every server of some common majority: any two majorities of the replica set intersect, and a server grants at most one of two conflicting open transactions, so two clients can never both see 'validated' for conflicting writes that are open at the same time.", "quantifier": "all replication factors, all sets of responding servers, all message losses", "why_tests_cant": "Subsets of responding servers are exponentially many and the replication factor is arbitrary.", "anchors": ["backend/client_api.c:get_remote_db", "backend/client_api.c:remote_validate_txn", "backend/client_api.c:remote_commit_txn", "backend/txns.c:validate_txn"]}
{"id": "C30", "title": "Installed membership views never go backwards", "statement": "A node that has installed a membership view never afterwards holds an older one, whatever the order, duplication or loss of gossip and agreement messages.", "quantifier": "all sequences of received views with arbitrary vector clocks", "why_tests_cant": "Message orders are unbounded.", "anchors": ["backend/client_api.c:install_gossiped_view", "backend/actondb.c:install_agreed_view", "backend/failure_detector/vector_clock.c:compare_vc"]}
{"id": "C31", "title": "Object placement on the hash ring is the first live node clockwise", "statement": "The node chosen for a key is the live node with the least ring position at or after the key's hash, or the live node with least position if none; removing or killing a different node does not change the choice.", "quantifier": "all sets of nodes, all hash values, all liveness patterns", "why_tests_cant": "All configurations of 32-bit ring positions.", "anchors": ["backend/hash_ring.c:get_buckets_for_object", "backend/hash_ring.c:add_bucket"]}
{"id": "C32", "title": "Integer exponentiation, division and rounding follow their definitions", "statement": "For int: a ** n for n >= 0 equals the n-fold product reduced modulo 2^64; a // b and a % b satisfy a == (a // b) * b + a % b with a % b having the sign of b, raise ZeroDivisionError for b == 0; divmod agrees with // and %.", "quantifier": "all 64-bit a, b, n", "why_tests_cant": "2^128 argument pairs.", "anchors": ["base/builtin/int.c:int_pow", "base/builtin/int.c:B_IntegralD_intD___floordiv__", "base/builtin/int.c:B_IntegralD_intD___mod__", "base/builtin/int.c:B_IntegralD_intD___divmod__"]}
{"id": "C33", "title": "Percent-encoding round-trips", "statement": "uri.unquote(uri.quote(s, safe)) == s for every string provided '%' is not declared safe; the output of quote consists only of unreserved characters, members of safe, and well-formed %XX escapes; unquote raises ValueError on every incomplete or non-hex escape.", "quantifier": "all strings s and safe sets", "why_tests_cant": "All strings, all safe sets.", "anchors": ["base/src/uri.act:quote", "base/src/uri.act:unquote"]}
{"id": "C34", "title": "A diff transforms the old text into the new text", "statement": "The edit script computed for (old, new) is faithful: its kept and deleted lines in order are exactly the old lines and its kept and inserted lines in order are exactly the new lines, with matching line numbers.", "quantifier": "all pairs of line sequences", "why_tests_cant": "The divide-and-conquer with anchors misbehaves only on particular arrangements of unique lines.", "anchors": ["base/src/diff.act:myers_diff"]}
{"id": "C35", "title": "Instant and Duration arithmetic is exact", "statement": "(t + d) - d == t, t.since(u) added to u gives t, the order on instants agrees with the numeric order of their value, and results are normalised (0 <= attosecond < 10^18), for all normalised operands within range.", "quantifier": "all normalised instants and durations", "why_tests_cant": "All 2^64 x 10^18 values.", "anchors": ["base/src/time.act:Instant.add", "base/src/time.act:Instant.sub", "base/src/time.act:Instant.since", "base/src/time.act:extension Instant(Ord)"]}
{"id": "C36", "title": "String comparison is code point order", "statement": "a == b holds iff a and b are the same sequence of code points; a < b is the lexicographic order of the code point sequences; a <= b is their disjunction. In particular the comparison of the UTF-8 bytes agrees with the comparison of the code points.", "quantifier": "all pairs of valid strings", "why_tests_cant": "The order must agree for every pair of 1-4 byte characters at every position, and for strings containing NUL.", "anchors": ["base/builtin/str.c:B_OrdD_strD___eq__", "base/builtin/str.c:B_OrdD_strD___lt__", "base/builtin/str.c:B_OrdD_strD___le__"]}
{"id": "C37", "title": "A dict survives serialization", "statement": "Writing any dict with the serializer and reading it back yields a dict with the same bindings in the same order, on which all further operations behave as on the original.", "quantifier": "every dict reachable by any history of calls", "why_tests_cant": "Depends on tombstones, resizes and index contents left by the whole history before the snapshot is taken.", "anchors": ["base/builtin/dict.c:B_dictD___serialize__", "base/builtin/dict.c:B_dictD___deserialize__"]}
{"id": "C38", "title": "round of an int returns a nearest multiple of the power of ten", "statement": "For int n: round(n, p) with p >= 0 (or no p) is n, and round(n, -k) is a multiple of 10**k such that no other multiple of 10**k is closer to n.", "quantifier": "all 64-bit n and all p", "why_tests_cant": "2^64 numbers times all digit counts; the defects are at the least int and at powers of ten that do not fit into 64 bits.", "anchors": ["base/builtin/int.c:B_IntegralD_intD___round__", "base/builtin/int.c:int_pow"]}
{"id": "C39", "title": "A duration and its parts denote the same time", "statement": "Duration.from_parts gives the sum of its parts, and the numbers printed by Duration.str_human add up to the duration, each below the next larger unit.", "quantifier": "all normalised durations and all parts whose sum is in range", "why_tests_cant": "All 2^64 numbers of seconds, including negative ones, have to be covered.", "anchors": ["base/src/time.act:Duration.from_parts", "base/src/time.act:Duration.str_human"]}
{"id": "C40", "title": "The hunks of a diff can be applied", "statement": "Applying the hunks printed for an edit script of two texts to the old text, each at the line numbers of its header, gives the new text; the counts of the headers are those of the hunks.", "quantifier": "all pairs of texts, all edit scripts for them, all numbers of context lines", "why_tests_cant": "Scripts and context sizes are unbounded; the headers are wrong only for hunks with particular borders.", "anchors": ["base/src/diff.act:filter_operations_with_context", "base/src/diff.act:find_chunks", "base/src/diff.act:generate_chunk_header"]}
{"id": "C41", "title": "A database table is a map from key paths to columns", "statement": "After any sequence of row insertions and row deletions a search by key path answers exactly the columns of the last insertion under that path since the last deletion of its row, or nothing if there is none; no request crashes the server.", "quantifier": "all sequences of requests, all numbers of clustering keys, all keys and column values", "why_tests_cant": "The tree of cells can be shaped by any sequence of requests of any depth.", "anchors": ["backend/db.c:table_insert", "backend/db.c:create_db_row_schemaless", "backend/db.c:table_search_clustering", "backend/db.c:table_delete_row"]}
{"id": "C42", "title": "A range search answers exactly the rows in the range", "statement": "A range search over primary or clustering keys answers all rows whose key lies between the given bounds, in key order, and no others.", "quantifier": "all tables and all bounds", "why_tests_cant": "The answer at the borders depends on which keys are present around them.", "anchors": ["backend/db.c:table_range_search", "backend/db.c:table_range_search_clustering"]}
{"id": "C43", "title": "A server installs the view it proposed exactly when every peer has accepted it", "statement": "After a server has proposed a view of the membership, it installs a view as a result of the responses if and only if it has got a response from every peer of the proposal and all of them accept; the installed view carries the merge of the clocks of the responses. While responses are missing nothing is installed, and a proposal that a peer rejects is never installed.", "quantifier": "for all local states, all proposals and all sequences of responses, proposals and notifications in any order", "why_tests_cant": "the number of peers and the interleavings of responses and proposals is unbounded", "anchors": ["backend/actondb.c:handle_agreement_response_message", "backend/actondb.c:propose_local_membership", "backend/actondb.c:handle_server_message", "backend/actondb.c:install_agreed_view"]}
{"id": "C44", "title": "Iterator functions agree with the functions on sequences", "statement": "If an iterator gives the elements l and then stops, then enumerate, map, filter and zip of it give the numbered, mapped, filtered and paired elements; list, sum, all, any, max and min give the value that the sequence l has, max and min the first extremal element and the default only if there is no element.", "quantifier": "all iterators, all lengths, all functions, all orders", "why_tests_cant": "lengths and nestings of iterators are unbounded", "anchors": ["base/builtin/builtin_functions.c:B_IteratorD_enumerate_next", "base/builtin/builtin_functions.c:B_IteratorD_filter_next", "base/builtin/builtin_functions.c:B_IteratorD_map_next", "base/builtin/builtin_functions.c:B_IteratorD_zip_next", "base/builtin/builtin_functions.c:B_max", "base/builtin/builtin_functions.c:B_min", "base/builtin/builtin_functions.c:B_sum", "base/src/__builtin__.act:all"]}
{"id": "C45", "title": "Tuples are ordered lexicographically", "statement": "== of tuples holds exactly if all components are equal; < holds exactly if the first component that differs is less, which is a strict total order if the orders of the components are; <= is < or ==. The input to the hasher of two tuples is the same exactly if the digests of all components are.", "quantifier": "all numbers of components, all orders of components, all tuples", "why_tests_cant": "arity and component types are arbitrary", "anchors": ["base/builtin/builtin_functions.c:$tupleWitD___eq__", "base/builtin/builtin_functions.c:$tupleWitD_lex", "base/builtin/builtin_functions.c:$HashableTupleD_hash"]}
{"id": "C46", "title": "Packets are read as they were sent", "statement": "A receiver that reads packets (length and content) from a connection gets the packets in the order and with the content in which they were sent, whatever the pieces in which read delivers the bytes and whenever read fails, and never writes outside its buffer; a closed connection does not influence the packets of other connections.", "quantifier": "all sequences of packets, all ways in which read splits the bytes and fails", "why_tests_cant": "the ways to split a stream are unbounded, on a local machine packets practically always arrive whole", "anchors": ["backend/comm.c:read_full_packet", "backend/client_api.c:comm_thread_loop"]}
{"id": "C47", "title": "Peers are ordered by their address", "statement": "The comparison of socket addresses is a total order in which only equal addresses with equal ports compare as equal, so that a peer inserted in the lists of servers and clients is found again.", "quantifier": "all pairs and triples of IPv4 addresses and ports", "why_tests_cant": "there are 2^48 addresses and ports; the order fails only for addresses that are far apart", "anchors": ["backend/comm.c:sockaddr_cmp"]}
{"id": "C48", "title": "Shifts of bigint multiply and divide by powers of two", "statement": "For every bigint a and count b >= 0, a << b is a * 2^b and a >> b is floor(a / 2^b), in normal form, and no word outside the blocks of the numbers is read or written; negative counts raise ValueError.", "quantifier": "all bigints of any length in normal form, all counts", "why_tests_cant": "carries between words, the number of words of the result and negative operands depend on the exact bits; the sizes are unbounded", "anchors": ["base/builtin/bigint.c:B_IntegralD_bigintD___lshift__", "base/builtin/bigint.c:B_IntegralD_bigintD___rshift__"]}
{"id": "C49", "title": "Bitwise operations of bigint act on the two's complement", "statement": "Bit k of a & b, a | b and a ^ b is the conjunction, disjunction and exclusive disjunction of bit k of a and bit k of b in two's complement with infinitely many digits, for all k; the result is in normal form.", "quantifier": "all pairs of bigints of any length and sign, all bit positions", "why_tests_cant": "the wrong results need operands whose words are all zero or all one at particular places, e.g. a result that needs one word more than its operands", "anchors": ["base/builtin/bigint.c:B_LogicalD_IntegralD_bigintD___and__", "base/builtin/bigint.c:B_LogicalD_IntegralD_bigintD___or__", "base/builtin/bigint.c:B_LogicalD_IntegralD_bigintD___xor__"]}
{"id": "C50", "title": "Conversions between bigint and text are exact", "statement": "str of a bigint is its decimal representation without superfluous zeros; the constructor reads a text of blanks, a sign, an optional mark 0x, 0o or 0b and digits in a base from 2 to 36 as the number it denotes, and raises ValueError for every other text; str followed by reading gives the same number. No buffer is overrun.", "quantifier": "all bigints of any length, all texts, all bases", "why_tests_cant": "the numbers and texts are unbounded, and the errors depend on the number of digits and words (18 digits, 19 digits in one word)", "anchors": ["base/builtin/bigint.c:get_str", "base/builtin/bigint.c:get_str0", "base/builtin/bigint.c:set_str", "base/builtin/bigint.c:set_str0"]}
{"id": "C51", "title": "Conversions between int and bigint keep the value", "statement": "The conversion of an int to bigint yields a normal form with the same value; the conversion of a bigint to int yields the same value if it is representable and raises ValueError exactly if it is not.", "quantifier": "all 64-bit ints and all bigints in normal form", "why_tests_cant": "2^64 values and unboundedly many bigints; the boundary cases at -2^63 and 2^63 are single values", "anchors": ["base/builtin/bigint.c:toB_bigint", "base/builtin/bigint.c:B_IntegralD_bigintD___int__"]}
{"id": "C52", "title": "A ready actor is never forgotten by sleeping workers", "statement": "In every reachable state, if all worker threads sleep in their event loops and none was signalled, then all ready queues are empty; an actor in the queue of a sleeping worker, or in the shared queue while all workers that serve it sleep, implies that some thread is in the course of wake_wt.", "quantifier": "all numbers of workers (1 to 255), all interleavings of all threads, all behaviours of actors and callbacks", "why_tests_cant": "A lost wake-up depends on a window of a few instructions between unlocked reads of queue heads and worker states in different threads", "anchors": ["base/rts/q.c:ENQ_ready", "base/rts/q.c:_DEQ_ready", "base/rts/q.c:DEQ_ready", "base/rts/rts.c:wake_wt", "base/rts/rts.c:wt_work_cb"]}
{"id": "C53", "title": "A ready actor does not wait while a worker sleeps", "statement": "In every reachable state, if an actor is in the shared ready queue and no thread is in the course of wake_wt, then no worker that serves the shared queue sleeps without having been signalled.", "quantifier": "all numbers of workers, all interleavings of all threads", "why_tests_cant": "The effect is a loss of parallelism that depends on the order of steps of three threads; no output is wrong", "anchors": ["base/rts/rts.c:wake_wt", "base/rts/rts.c:wt_work_cb"]}
{"id": "C54", "title": "The reported length of a ready queue is its length", "statement": "In every reachable state the counter of the ready queue of a worker, which the statistics report as qlen, is the number of actors in the queue (modulo 2^64).", "quantifier": "all numbers of workers (up to 255), all interleavings of all threads", "why_tests_cant": "The counter is decremented also when nothing was taken, which needs a race between two threads", "anchors": ["base/rts/q.c:ENQ_ready", "base/rts/q.c:_DEQ_ready", "base/rts/rts.c:stats_to_json"]}
{"id": "C55", "title": "The owner of a sync pause runs alone", "statement": "From the return of 0 by acton_sync_pause_begin to the call of acton_sync_pause_end, unless the program ends, every other worker is parked in maybe_sync_pause. At most one worker owns or waits for a pause; further requests are refused; after the end parked workers leave; when all others are parked the request is granted.", "quantifier": "all numbers of workers, all sequences of pauses by any workers, all interleavings, the end of the program at any time", "why_tests_cant": "The flags of an earlier pause could be counted for a later one only for particular orders of wake-ups of several threads", "anchors": ["base/rts/rts.c:acton_sync_pause_begin", "base/rts/rts.c:acton_sync_pause_end", "base/rts/rts.c:maybe_sync_pause", "docs/acton-dev-guide/src/runtime/sync_pause.md"]}
{"id": "C56", "title": "The timer is armed for the first timed message", "statement": "In every reachable state in which the main thread is in its event loop and no signal for it is there or about to be sent, a non-empty timer queue implies that the timer is started for a time not after that of the first message (or a time already past), so that messages are taken out when due; no message is taken out before its time.", "quantifier": "all sequences of timed messages from any number of workers, all interleavings with the callbacks of the main thread", "why_tests_cant": "The message may be put in the queue between the reading of the head and the start of the timer", "anchors": ["base/rts/rts.c:ENQ_timed", "base/rts/rts.c:DEQ_timed", "base/rts/rts.c:arm_timer_ev", "base/rts/rts.c:main_wake_cb", "base/rts/rts.c:main_timer_cb", "base/rts/rts.c:handle_timeout", "base/rts/rts.c:next_timeout"]}
{"id": "C57", "title": "Conversions between integer types keep the value or raise ValueError", "statement": "For every integer type T and every integer value n (bigint or of another integer type), T(n) is n if T can hold n and raises ValueError otherwise; bigint(x) is x for every x of an integer type.", "quantifier": "all integer types, all values", "why_tests_cant": "Values at which the check and the cut to the width of the type differ are few among 2^64, and bigints are unbounded", "anchors": ["base/builtin/int.c:B_intG_new", "base/builtin/i8.c:B_i8G_new", "base/builtin/i16.c:B_i16G_new", "base/builtin/i32.c:B_i32G_new", "base/builtin/u8.c:B_u8G_new", "base/builtin/u64.c:B_u64G_new", "base/builtin/u1.c:B_u1G_new", "base/builtin/bigint.c:B_bigintG_new"]}
{"id": "C58", "title": "float to integer truncates exactly", "statement": "bigint(x) for a finite double x is x without its fraction, exactly; for infinities and NaN there is an exception.", "quantifier": "all doubles", "why_tests_cant": "Errors concern the last of 53 digits", "anchors": ["base/builtin/bigint.c:B_bigintG_new"]}
{"id": "C59", "title": "integer to float yields the nearest double", "statement": "float(n) is a double nearest to n, for every value of every integer type and every bigint, or raises ValueError if n is beyond the doubles.", "quantifier": "all integer values", "why_tests_cant": "Wrong roundings need particular digits beyond the 53rd", "anchors": ["base/builtin/float.c:B_floatG_new"]}
{"id": "C60", "title": "Equal values have equal hashes", "statement": "If a == b for values of a hashable builtin type, or tuples of them, then hash feeds the same bytes to the hasher for both, wherever they are stored.", "quantifier": "all values of hashable types, all addresses, all nestings of tuples", "why_tests_cant": "Whether two equal values are in the same box depends on the allocator", "anchors": ["base/builtin/int.c:B_HashableD_intD_hash", "base/builtin/i32.c:B_HashableD_i32D_hash", "base/builtin/float.c:B_HashableD_floatD_hash", "base/builtin/complex.c:B_HashableD_complexD_hash", "base/builtin/bigint.c:B_HashableD_bigintD_hash", "base/builtin/str.c:B_HashableD_strD_hash", "base/builtin/builtin_functions.c:$HashableTupleD_hash"]}
{"id": "C61", "title": "Search, splitting, joining and replacing in bytes", "statement": "For bytes values, find and rfind deliver the first and last occurrence within the bounds or -1; partition and rpartition cut there; split with a separator delivers the pieces between the leftmost occurrences, at most maxsplit; joining them gives back the value; count is the largest number of occurrences that do not overlap; replace is new.join(s.split(old, count)).", "quantifier": "all byte sequences, separators, bounds and limits", "why_tests_cant": "Zero bytes, bytes from 128, absent or repeated separators, separators at the ends and limits at their boundary combine in unboundedly many ways", "anchors": ["base/builtin/str.c:B_bytesD_find", "base/builtin/str.c:B_bytesD_rfind", "base/builtin/str.c:B_bytesD_partition", "base/builtin/str.c:B_bytesD_rpartition", "base/builtin/str.c:B_bytesD_split", "base/builtin/str.c:B_bytesD_join", "base/builtin/str.c:B_bytesD_count", "base/builtin/str.c:B_bytesD_replace"]}
{"id": "C62", "title": "Ends, order and membership of bytes", "statement": "startswith and endswith tell whether the value (or the part within the bounds) has the prefix or suffix; removeprefix, removesuffix and strip remove exactly that; the order is lexicographic; `in` and indexing agree with the sequence of bytes. No byte outside of the buffers is read.", "quantifier": "all byte sequences, prefixes, sets, bounds and numbers", "why_tests_cant": "Reads before a buffer and stops at a zero byte go unnoticed in tests with short texts", "anchors": ["base/builtin/str.c:B_bytesD_startswith", "base/builtin/str.c:B_bytesD_endswith", "base/builtin/str.c:B_bytesD_removeprefix", "base/builtin/str.c:B_bytesD_removesuffix", "base/builtin/str.c:B_bytesD_lstrip", "base/builtin/str.c:B_bytesD_rstrip", "base/builtin/str.c:B_bytesD_strip", "base/builtin/str.c:B_OrdD_bytesD___lt__", "base/builtin/str.c:B_ContainerD_bytesD___contains__", "base/builtin/str.c:B_SliceableD_bytesD___getitem__"]}
{"id": "C63", "title": "Words and lines of bytes", "statement": "split() without separator delivers the maximal stretches without white space, in order; splitlines delivers the lines, which with their ends make up the value.", "quantifier": "all byte sequences, all limits", "why_tests_cant": "The outcome depends on what follows the last word, and on a variable that is not always set", "anchors": ["base/builtin/str.c:B_bytesD_split", "base/builtin/str.c:B_bytesD_splitlines"]}
{"id": "C64", "title": "Padding, case and tabs of bytes", "statement": "ljust, rjust, center and zfill pad to the width; capitalize, lower and upper map each byte; expandtabs replaces each tab by spaces up to the next multiple of the tab size. The result depends on the arguments only and no memory outside of the buffers is accessed.", "quantifier": "all byte sequences, widths, fill bytes and tab sizes", "why_tests_cant": "Reading a block that has not been set gives any bytes, in a test often zeros or the right ones", "anchors": ["base/builtin/str.c:B_bytesD_ljust", "base/builtin/str.c:B_bytesD_rjust", "base/builtin/str.c:B_bytesD_center", "base/builtin/str.c:B_bytesD_zfill", "base/builtin/str.c:B_bytesD_capitalize", "base/builtin/str.c:B_bytesD_lower", "base/builtin/str.c:B_bytesD_upper", "base/builtin/str.c:B_bytesD_expandtabs"]}
{"id": "C65", "title": "HTTP messages are recognised", "statement": "If the input begins with a complete HTTP/1.x message, parse_message (parse_request, parse_response) delivers its start line, headers (names in lower case, the last line counting), and body (none, of given length, or in chunks), and exactly the bytes after the message as rest; if it is a proper prefix of one, nothing is delivered and all input is kept.", "quantifier": "all messages with any headers, bodies and chunk divisions, all bytes that follow, all prefixes", "why_tests_cant": "Each division of the bytes into messages, chunks and incomplete prefixes is a separate input; tests have a few", "anchors": ["base/src/http.act:parse_message", "base/src/http.act:parse_request", "base/src/http.act:parse_response"]}
{"id": "C66", "title": "The HTTP client delivers the responses in order", "statement": "However the bytes of a sequence of responses are cut into segments, the client calls the callbacks of its requests in the order of the requests, each with its response, as soon as the response is complete, and keeps the incomplete rest.", "quantifier": "all sequences of responses and all divisions into segments", "why_tests_cant": "The segmentation is chosen by the network", "anchors": ["base/src/http.act:Client", "base/src/http.act:parse_response"]}
{"id": "C67", "title": "The HTTP server hands over every request", "statement": "However the bytes of a sequence of requests are cut into segments, each request is handed to the callback, in order, once it has arrived.", "quantifier": "all sequences of requests, all divisions into segments, all times of installing the callback", "why_tests_cant": "Requests that arrive in one segment or before the callback is installed depend on timing", "anchors": ["base/src/http.act:Server", "base/src/http.act:TLSServer", "base/src/http.act:parse_request"]}
{"id": "C68", "title": "Every response of the application is sent", "statement": "Each answer of the application to a request is sent, in the order of the requests, and no more answers are sent than requests were handed over.", "quantifier": "all interleavings of arriving requests and answers", "why_tests_cant": "An answer that comes after the next request depends on timing", "anchors": ["base/src/http.act:Server", "base/src/http.act:TLSServer"]}
{"id": "C69", "title": "The connection is closed exactly when HTTP says so", "statement": "After a response the server closes the connection if and only if the connection does not persist: HTTP/1.1 persists unless the request has \"connection: close\", HTTP/1.0 persists only with \"connection: keep-alive\".", "quantifier": "all requests and states of the server", "why_tests_cant": "Version, header and state of earlier requests combine", "anchors": ["base/src/http.act:Server", "base/src/http.act:TLSServer"]}
{"id": "C70", "title": "HTTP messages that are built are read back", "statement": "parse_request delivers the method, path, version, headers and body given to build_request, and parse_response the version, status, headers and body given to build_response, whatever follows on the connection.", "quantifier": "all methods, paths, headers and bodies", "why_tests_cant": "Header names and values are arbitrary texts, also equal to the default headers in other case", "anchors": ["base/src/http.act:build_request", "base/src/http.act:build_response", "base/src/http.act:parse_request", "base/src/http.act:parse_response"]}
{"id": "C71", "title": "Recovery from the database restores the system", "statement": "If the process of the run-time system dies at any moment and is started again with the same database, the states of the actors and the messages they have not yet dealt with are those of the system without crash after some number of messages: no message is lost, none is dealt with twice, and a message is either dealt with completely or not at all.", "quantifier": "all programs, numbers of workers, executions, and moments at which the process dies, any number of times", "why_tests_cant": "The moment of the crash between the calls to the database cannot be chosen by a test, and a test needs a running database", "anchors": ["base/rts/rts.c:save_actor_state", "base/rts/rts.c:wt_work_cb", "base/rts/rts.c:deserialize_system", "base/rts/rts.c:read_queued_msg", "backend/queue.c:read_queue"]}
{"id": "C72", "title": "A commit consumes the message that was dealt with", "statement": "When the transaction of a message that has been dealt with is committed, the entry consumed in the message queue of the actor is the entry of this message, and no other entry is consumed anywhere.", "quantifier": "all programs, executions, and states of the queues, including timers, messages from the event loop, several workers and repeated commits", "why_tests_cant": "The order of commits and local flushes of several workers, and failing commits, depend on timing", "anchors": ["base/rts/rts.c:save_actor_state", "base/rts/rts.c:handle_timeout", "base/rts/rts.c:FLUSH_outgoing_db", "base/rts/rts.c:FLUSH_outgoing_local", "base/rts/rts.c:$ASYNC"]}
{"id": "C73", "title": "Glob patterns match what they stand for", "statement": "fs.glob(pattern, path) is True exactly if the path is in the set of paths that the pattern stands for: a star is any text without separator, two stars any text, two stars and a separator any number of directories, a question mark one character, a class one of (or, negated, none of) its characters and ranges, braces one of their options, a backslash the next character itself.", "quantifier": "all patterns, paths, and one-character separators", "why_tests_cant": "The sets of patterns and paths are infinite, and backtracking over stars, options and classes interacts in ways that a table of examples does not cover", "anchors": ["base/src/fs.act:glob", "base/src/fs.act:_glob_recursive"]}
{"id": "C74", "title": "Matching a glob pattern always answers", "statement": "fs.glob returns True or False: it never raises an exception (such as an index out of range at the end of pattern or path) and never recurses for ever, also for malformed patterns.", "quantifier": "all patterns, paths, and separators (also empty and longer ones)", "why_tests_cant": "Termination and absence of index errors are claims about all malformed patterns; replacing a brace expression restarts the matching with a new pattern", "anchors": ["base/src/fs.act:glob", "base/src/fs.act:_glob_recursive"]}
{"id": "C75", "title": "Random integers are in range and equally likely", "statement": "randint(min, max) raises ValueError exactly if min > max; otherwise it returns a number n with min <= n < max, with each of these numbers from the same number of values of rand(), and it returns as soon as rand() gives a value in its lower half.", "quantifier": "all 64-bit min and max and all sequences of values of rand()", "why_tests_cant": "The result depends on a random source; absence of skew and of endless rejection cannot be seen in samples", "anchors": ["base/src/random.ext.c:randlong", "base/src/random.ext.c:randomQ_randint"]}
{"id": "C76", "title": "Samples are elements at different positions", "statement": "choice(s) is an element of s, and raises ValueError exactly if s is empty. sample(p, k) is a list of k elements of p at pairwise different positions, in the order of p; every such choice of positions is possible; it raises ValueError exactly if k < 0 or k > len(p).", "quantifier": "all lists, all k, all sequences of values of rand()", "why_tests_cant": "The result depends on a random source, and the lists are arbitrary", "anchors": ["base/src/random.act:choice", "base/src/random.act:sample"]}
{"id": "C77", "title": "Encoding XML fills exactly its buffers", "statement": "xml.encode computes the size of every buffer in a first pass and writes in a second one: the number of bytes and of characters written is the number computed, and the result is the layout of the tree (tags, declarations, attributes, escaped texts, children, with or without indentation).", "quantifier": "all trees of nodes, with and without pretty printing", "why_tests_cant": "Sizes and writes are two separate computations that have to agree for every combination of prefixes, escapes, children and indentation; sizes are ints that may overflow", "anchors": ["base/src/xml.ext.c:count_xml_escape_extra", "base/src/xml.ext.c:copy_with_xml_escape", "base/src/xml.ext.c:xmlQ_node2str", "base/src/xml.ext.c:xmlQ_encode_nsdefs", "base/src/xml.ext.c:xmlQ_encode_attrs"]}
{"id": "C78", "title": "Encoded XML is read back as the same tree", "statement": "The text that encode returns for a tree is a well-formed document, and decoding it gives the same tree (an empty text is the same as none).", "quantifier": "all trees of nodes", "why_tests_cant": "Trees and texts are unbounded; all combinations of special characters, namespaces, texts and tails have to be right", "anchors": ["base/src/xml.ext.c:xmlQ_node2str", "base/src/xml.ext.c:$NodePtr2Node", "base/src/xml.ext.c:collect_text_cdata_nodes"]}
{"id": "C79", "title": "Decoding keeps elements, texts and attributes", "statement": "The tree that decode builds from the tree of the XML library has the same elements in the same order; character data (text and CDATA sections, comments left out) before the first child becomes the text of an element, and that after a child the child's tail; attributes keep names, prefixes and values; a node of another type anywhere raises XmlParseError.", "quantifier": "all trees of the XML library", "why_tests_cant": "Trees are unbounded, with any mixture of nodes", "anchors": ["base/src/xml.ext.c:$NodePtr2Node", "base/src/xml.ext.c:collect_text_cdata_nodes"]}
{"id": "C80", "title": "The resolution order is a linearisation", "statement": "mro merges the orders of the base classes: if it returns an order, then the order has every class once, keeps the order of every base class and the order in which the bases are listed, and has nothing else; it returns an order whenever one with these properties exists, and reports an error otherwise. The merge ends.", "quantifier": "all lists of base classes with their resolution orders", "why_tests_cant": "Inheritance graphs are unbounded; existence of an order is a statement about all orders", "anchors": ["compiler/lib/src/Acton/Env.hs:mro", "compiler/lib/src/Acton/Env.hs:merge"]}
{"id": "C81", "title": "The ancestors of a class are exactly the classes it reaches", "statement": "In an environment built by accepted declarations, the recorded ancestors of a class are exactly the classes reachable over bases, each once, with the substitution along a path of bases; and each carries a valid path as witness.", "quantifier": "all sequences of accepted class, protocol and actor declarations", "why_tests_cant": "Sequences of declarations and depths of inheritance are unbounded", "anchors": ["compiler/lib/src/Acton/Env.hs:mro", "compiler/lib/src/Acton/Env.hs:findCon", "compiler/lib/src/Acton/Env.hs:merge"]}
{"id": "C82", "title": "Attributes and layout follow the resolution order", "statement": "The attribute found for a name is that of the most derived class that declares it; the list of attributes of a class has each once and all of its ancestors, and the list of a class extends that of its first base class as a prefix (so methods keep their slots).", "quantifier": "all environments built by accepted declarations, all classes and names", "why_tests_cant": "Unbounded inheritance; the layout is relied on by generated C code for every pair of classes", "anchors": ["compiler/lib/src/Acton/Env.hs:findAttr", "compiler/lib/src/Acton/Env.hs:merge"]}
{"id": "C83", "title": "Unification is sound and keeps the substitution acyclic", "statement": "After a successful unification, applying the substitution gives the same type for both types (up to wildcards), applying it to any type ends, old bindings are kept, and only variables of the problem are bound.", "quantifier": "all acyclic substitutions and all types without type aliases", "why_tests_cant": "Types and substitutions are unbounded; a cycle would arise from a chain of bindings of any length", "anchors": ["compiler/lib/src/Acton/TypeEnv.hs:unify", "compiler/lib/src/Acton/TypeEnv.hs:unify'", "compiler/lib/src/Acton/TypeEnv.hs:usubst", "compiler/lib/src/Acton/TypeEnv.hs:usubstitute"]}
{"id": "C84", "title": "Unification ends and finds a most general unifier", "statement": "Unification ends for all types. If the two types have a common instance, it succeeds, and every common instance is an instance of the result.", "quantifier": "all acyclic substitutions, all types without type aliases, all instances", "why_tests_cant": "It quantifies over all instances of unbounded types; ending is about the whole recursion, where substituted types grow", "anchors": ["compiler/lib/src/Acton/TypeEnv.hs:unify", "compiler/lib/src/Acton/TypeEnv.hs:unify'", "compiler/lib/src/Acton/TypeEnv.hs:usubst"]}
{"id": "C85", "title": "Different names get different C identifiers", "statement": "The C identifiers generated for qualified names (primitives, builtins, names in modules, local names, derived and internal names) are different for different names.", "quantifier": "all pairs of qualified names", "why_tests_cant": "A clash needs a particular pair of names out of infinitely many, and shows only when the C code is compiled or linked", "anchors": ["compiler/lib/src/Acton/CodeGen.hs:genQName", "compiler/lib/src/Acton/CodeGen.hs:mkCident", "compiler/lib/src/Acton/CodeGen.hs:unCkeyword", "compiler/lib/src/Acton/Syntax.hs:nstr"]}
{"id": "C86", "title": "Generated identifiers are legal in C", "statement": "For every name the generated identifier is a C identifier (with the $ of the compilers used) and no keyword.", "quantifier": "all names with any characters, all modules", "why_tests_cant": "Names may have any character of Unicode and any length", "anchors": ["compiler/lib/src/Acton/CodeGen.hs:mkCident", "compiler/lib/src/Acton/CodeGen.hs:unCkeyword", "compiler/lib/src/Acton/Parser.hs:escname"]}
{"id": "C87", "title": "Reserved words are recognised", "statement": "isKeyword holds exactly for the words in the table of the language.", "quantifier": "all strings, all balanced search trees that fromDistinctAscList may build", "why_tests_cant": "fromDistinctAscList does not check its precondition; the outcome depends on the shape of the tree", "anchors": ["compiler/lib/src/Acton/Syntax.hs:isKeyword"]}
{"id": "C88", "title": "Kinds are unified soundly, and the bindings have no cycles", "statement": "Unification of kinds ends; if it succeeds, substitution gives the same kind for both, the bindings have no cycles, and the result is most general; if it fails, no values of the kind variables make the kinds equal.", "quantifier": "all acyclic bindings and all kinds that the checker compares (no argument of a constructor has a function kind)", "why_tests_cant": "Chains of bindings are unbounded; generality quantifies over all values of all variables", "anchors": ["compiler/lib/src/Acton/Kinds.hs:kunify", "compiler/lib/src/Acton/Kinds.hs:kunify'", "compiler/lib/src/Acton/Kinds.hs:ksubst", "compiler/lib/src/Acton/Kinds.hs:kfree"]}
{"id": "C89", "title": "Kind inference is sound and complete", "statement": "kinfer succeeds exactly on the types that have a kind in the declarative sense; its kind is the most general one; it ends; the type it returns has no wildcards, the right number of arguments everywhere and no option of an option.", "quantifier": "all types, all environments and states of the kind checker, all values of kind variables", "why_tests_cant": "Types are unbounded; completeness and generality quantify over all kindings", "anchors": ["compiler/lib/src/Acton/Kinds.hs:kinfer", "compiler/lib/src/Acton/Kinds.hs:kexp", "compiler/lib/src/Acton/Kinds.hs:kfx", "compiler/lib/src/Acton/Kinds.hs:instKWild"]}
{"id": "C90", "title": "Options are set as they are given", "statement": "A command line of well formed parts (--name, --name=v, --name v, -abc, -cv, -abc v) sets the options as given: the last value counts, flags are set, lists are collected in order, the others have their defaults; what is no number is rejected, --help gives the usage, and the getters return the values.", "quantifier": "all parsers built with the methods, all command lines of well formed parts and other words", "why_tests_cant": "Command lines and parsers are unbounded and spellings combine freely", "anchors": ["base/src/argparse.act:_parse_and_consume", "base/src/argparse.act:parse", "base/src/argparse.act:get_bool", "base/src/argparse.act:get_int", "base/src/argparse.act:get_str", "base/src/argparse.act:get_strlist"]}
{"id": "C91", "title": "Positional arguments take the words in order", "statement": "Words that are no options go to the positional arguments in order, one to each, all that are left over to the one with nargs '+'; it is an error if a required one gets none.", "quantifier": "all parsers with distinct names, all lines", "why_tests_cant": "Numbers of arguments and words are unbounded", "anchors": ["base/src/argparse.act:_parse_and_consume", "base/src/argparse.act:parse", "base/src/argparse.act:add_arg"]}
{"id": "C92", "title": "Malformed lines raise ArgumentError", "statement": "An unknown option, a missing value, a value in the middle of a group or a value for a flag raise ArgumentError, and parsing raises no other exception.", "quantifier": "all parsers, all lists of arguments", "why_tests_cant": "Quantifies over arbitrary lists of arguments", "anchors": ["base/src/argparse.act:_parse_and_consume", "base/src/argparse.act:parse"]}
{"id": "C93", "title": "After -- nothing is an option", "statement": "All arguments after -- are positional, whatever they look like.", "quantifier": "all parsers and lines, all arguments after --", "why_tests_cant": "Arguments after -- are arbitrary strings", "anchors": ["base/src/argparse.act:_parse_and_consume"]}
{"id": "C94", "title": "Commands get their own options", "statement": "With a command, options of the parser may come before and after it and those of the command after it; all are set as given, and the handler of the command is chosen.", "quantifier": "all parsers with commands, all interleavings of options", "why_tests_cant": "Interleavings are unbounded and depend on both sets of options", "anchors": ["base/src/argparse.act:_parse_and_consume", "base/src/argparse.act:add_cmd"]}
{"id": "C95", "title": "A parser can be used again", "statement": "Parsing does not change the parser or its defaults: the same arguments give the same result the next time.", "quantifier": "all parsers, all lists of arguments", "why_tests_cant": "Needs every parser state to be unchanged by every line", "anchors": ["base/src/argparse.act:parse", "base/src/argparse.act:_parse_and_consume"]}
{"id": "C96", "title": "Normalization keeps the meaning of loops and try", "statement": "The normalized body of a function ends as the body must (normally, by return with the same value, by an exception, or not at all), in the same state, for any nesting of if, while, for, try, except, else, finally, break, continue, return and raise.", "quantifier": "all suites, all states, all behaviours of their expressions", "why_tests_cant": "Programs are nested without bound, and each nesting of try, loop and finally has its own translation of break, continue and return", "anchors": ["compiler/lib/src/Acton/Normalizer.hs:norm'", "compiler/lib/src/Acton/Normalizer.hs:exitContext", "compiler/lib/src/Acton/Normalizer.hs:handle", "compiler/lib/src/Acton/Normalizer.hs:norm"]}
{"id": "C97", "title": "The stack of jump buffers is balanced", "statement": "On every way out of a function the stack of jump buffers is what it was on entry, PUSH, POP and DROP never meet an empty stack, RAISE never jumps to a suite that was left, and no control exception leaves the function.", "quantifier": "all suites, all executions", "why_tests_cant": "A buffer left behind shows only when a later exception jumps to it", "anchors": ["compiler/lib/src/Acton/Normalizer.hs:exitContext", "compiler/lib/src/Acton/Normalizer.hs:norm'", "base/rts/rts.c:$PUSH_BUF", "base/rts/rts.c:$POP", "base/rts/rts.c:$DROP", "base/rts/rts.c:$RAISE"]}
{"id": "C98", "title": "flows covers every way out", "statement": "Every way in which a suite can end, other than by an exception, is among its flows.", "quantifier": "all suites, all executions", "why_tests_cant": "Quantifies over all programs and what their expressions do", "anchors": ["compiler/lib/src/Acton/Env.hs:flows", "compiler/lib/src/Acton/Env.hs:brkseq", "compiler/lib/src/Acton/Env.hs:fallsthru"]}
{"id": "C99", "title": "Generated break and continue stand in loops", "statement": "If each break and continue of a function stands in a loop, so does each of its normalized code.", "quantifier": "all suites", "why_tests_cant": "Quantifies over all programs; a break outside a loop is rejected only by the C compiler", "anchors": ["compiler/lib/src/Acton/Normalizer.hs:norm'", "compiler/lib/src/Acton/Normalizer.hs:exitContext", "compiler/lib/src/Acton/Env.hs:brkseq"]}
