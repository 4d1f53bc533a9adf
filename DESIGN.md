# Formal model of CommonLibs: design

## Platform assumptions and trusted base

* Trusted: the Lean 4.33.0 kernel, and the axioms `propext`, `Classical.choice`, `Quot.sound` (no others;
  no `sorry`, `native_decide`, `bv_decide`, own axioms). Which of the three each theorem uses is
  listed in "Axioms" at the end.
* Trusted: my reading of the C++ text as the model definitions. Every definition cites file and lines in
  `/repo`; simplifications are listed in the same comment.
* Platform: LP64 Linux (32-bit `int`/`unsigned`, 64-bit `long`/`size_t`), `char` signed, C locale,
  `assert` enabled. Where the behaviour differs on a 32-bit build (the `unsigned` vs `std::string::npos`
  comparisons) the model takes the width of `size_t` as a parameter.
* Outcomes: a C++ call is modelled by a total function. Where it can fail, the result type distinguishes
  normal result, failed `assert`, undefined behaviour (out-of-bounds access, division by zero, signed
  overflow, oversized shift) and non-termination (explicit theorem "for every amount of fuel ...").
* Not modelled: logging output text, memory allocation failure, IEEE rounding of soft bits and averages (exact
  rationals; the float conversions of F16 are modelled with rounding, `Core/Float.lean`, exponents unbounded), SQLite itself (abstract table + arbitrary answers), `regexec`, the resolver, the kernel.
* Concurrency: a monitor is an interleaving transition system in which each lock acquisition, critical
  section, unlock, signal, sleep and wake-up (also spurious) is a separate step of an arbitrary number of
  threads. `pthread_cond_signal` wakes at least one waiter if there is one; the choice is adversarial.

## Source of truth layout

`lean/Verif/<Area>/Model.lean`   transliteration of the C++, cited.
`lean/Verif/<Area>/Spec.lean`    small independent specification (ideal deque, polynomial remainder, ...).
`lean/Verif/<Area>/Lemmas*.lean` helper lemmas.
`lean/Verif/<Area>/Props.lean`   property theorems, one section per property, with non-vacuity `example`s.

Theorems with suffix `_partial` prove a weakening of a property that is false of the code (or not yet fully
proved); the theorem refuting the full claim is named `*_refuted`/`*_counterexample` and lies beside it.

## Per property plan

| id | model | proof |
|----|-------|-------|
| C01 | `List UInt8`-like stored bytes (one per bit), loops of fillField/peekField on 64-bit values, Outcome | loop induction; bit-level spec via `Nat.testBit` |
| C02 | same for reversed variants | loop induction, mirror law by per-bit extensionality |
| C03 | cursor functions over C01/C02 | induction on list of fields using frame property |
| C04 | pack/unpack/packToString over peekField/fillField | per-bit extensionality |
| C05 | hex/unhex with a model of `sscanf("%1x")` | induction; full claim refuted for size mod 4 /= 0, `_partial` for multiples of 4 |
| C06 | Generator state as 64-bit word, shift steps | linear-recurrence lemma: encoder state = syndrome state advanced by len zeros |
| C07 | same | shift map is injective when constant term is 1 |
| C08 | same; spec is remainder in `Polynomial (ZMod 2)` (Mathlib) | invariant state = remainder of prefix |
| C09 | map/unmap loops | index extensionality |
| C10 | pointer loops with asserts, generic element type | invariant on positions |
| C11 | reverse8 by masks and shifts on bytes as in code | `decide` over 256 bytes lifted by lemma + per-octet induction |
| C12 | stored chars as 8-bit values; == compares stored chars | per index; == claim refuted after invert, `_partial` for normalised vectors |
| C13 | sum loop | induction |
| C14 | soft values as rationals | induction |
| C15-C18 | heap of blocks + vector handles (data,start,end) | invariant over operation histories; self-assignment claim refuted |
| C19,C20 | heap of nodes with next pointers, free list | representation invariant, refinement to ideal deque |
| C21 | same style with next pointers in the elements | representation invariant |
| C22,C23 | interleaving system, N threads | inductive invariants |
| C24 | timed reader loop against arbitrary clock readings | induction on loop iterations |
| C25 | same with holding-lock spin | divergence theorem; untimed variant `_partial` |
| C26 | interleaving system with several waiters | witness of lost wakeup; equal bounds `_partial` |
| C27 | interleaving system + ownership ledger | invariant |
| C28 | priority queue as a multiset with top contract | invariant |
| C29 | interleaving system | invariant |
| C30 | pthread recursive mutex + counter | invariant; timedlock claim refuted |
| C31,C32 | program counter model of `_lockAll`, N threads | invariant; deadlock witness when a later mutex is owned; `_partial` otherwise |
| C33 | two-queue system | witnesses |
| C34-C36 | integers with 32-bit wrap | omega; boundary refutation |
| C37-C39 | loops over bytes with tables | block induction |
| C40 | byte loop with the literal digit table | refutation + `_partial` |
| C41 | fuel recursion with truncating remainder | induction; divergence theorem for negative arguments |
| C42 | index loop with find/replace | strong induction on remaining text; divergence for empty search |
| C43,C44 | pointer loops | induction |
| C45 | length logic of the two-stage buffer | case analysis; refutation at 199 |
| C46 | heap of counted objects, handles | invariant over histories; 16-bit overflow witness |
| C47,C48 | direct | induction over history |
| C49 | hex print/scan | induction |
| C50,C51 | 32-bit two's complement with UB on overflow | integer arithmetic; saturation and assignment refuted |
| C52 | width computation and row printing | induction |
| C53,C54 | table + cache + clock | invariant over histories |
| C55,C56 | model of `strtol(.,.,0)` and printing | induction on digits |
| C57-C60 | validation functions | per type; refutations and `_partial` |
| C61 | command builder + small SQL lexer | lexer correctness for quote-free text; injection witness |
| C62 | loops | induction |
| C63 | hash on 64-bit words | injectivity for short/same-suffix names; collision witness |
| C64-C66 | direct | invariant |
| C67,C68 | batch map + database map; buffer length function | invariant; refutations |
| C69 | loop over an answer stream | induction |
| C70,C71 | file system model | race witness; invariant |
| C72 | handler lists | induction |
| C73,C74 | parsing and arithmetic | case analysis |
| C75 | energy and SNR loops over exact rationals | induction; bound of the clamp refuted at 1000 |
| C76 | `operator<`, `operator>` of `HashString` | order laws of numbers; refutation of `>` |
| C77 | count of `strdup` copies not freed | induction over the pairs; exact number of leaked copies |
| C78 | result of `getNonEmptyStrIfDefined` as a dangling pointer (`ub` when used) | case analysis |
| C79 | `remove` over the SQL lexer of C61 | lexer lemmas; refutation for absent keys |
| C80 | loop with 32-bit counter, `sprintf` lengths | induction on the remaining range; divergence theorem |
| C81-C85 | connection = tables + list of future refusals + number of open statements; statements compiled by a small SQL compiler | induction on attempts; lexer lemmas of C61; refutations |
| C86 | path text, file named by a path with repeated slashes | list lemmas |
| C87 | `mSaveFiles` as a variable that is unwritten unless the object has static storage | invariant over histories |
| C88-C90 | socket = family, descriptor (unset until opened), destination, last sender; kernel by contract | case analysis; refutations |
| C91 | `Sockets/Descriptors.lean`: the descriptor table of a program with sockets and other descriptors, any sequence of constructions (also failing), openings, closings, copies and destructions | `C91_descriptors_partial`, `C91_no_leak_partial` (invariant), four refutations by runs |
| C92,C93 | float as rational with round-to-nearest-even (`Core/Float.lean`), F16 as raw integer | error bounds of one rounding; parity analysis at the half step |
| C94 | `List Char`, stored chars | per index |
| C95 | the address list loop with `find`, `substr`, `inet_pton`, `strtol` models of C57-C60 | induction over entries |
| C96 | generated text, lexer and evaluator of the script | lexer lemmas per statement; induction over the schema |
| C97 | generated text, two passes of `replaceAll` (C42) | replacement of one character = map; permutation of sections |
| C98 | SQL query with LIKE matcher, lexer of C53 | matcher for `%text%` = occurrence ignoring case; lexer lemma |
| C99 | fold over the rows into a map | induction over the rows; invariant of C53 |
| C100 | Gregorian calendar by eras, printing with fixed widths | calendar arithmetic; order of fixed width digits |
| C101 | lock state, calls as atomic steps, history of calls | invariant between sections and lock state |
| C102 | objects, callers, blocks, threads, events | inductive invariants over all executions |
| C103 | one model for all integer types, with promotion, wrap-around and undefined overflow | induction over the operations, congruences |
| C104 | `Verif/Memory/Props.lean`: the counters, the map of labels, and the objects alive with class and label; copy and assignment as made by the compiler. | Invariant by induction over the history (`Inv`, `step_ok`): counters equal counts over the list of objects alive. Refutations are concrete histories; the overflow history is built by induction. |
| C105 | `Verif/Utils/Scanf.lean`: directives, `sscanf` as a function from text to pieces, `myscanf` with buffers of the length of the input plus one. | `Reads` says declaratively what a format reads; induction over the format shows that the pieces are those of a readable part after which the next directive is stuck. Pieces are parts of the input, hence fit. |
| C106 | `Verif/Utils/Timestr.lean` on `Verif/Timeval/Iso.lean`: the text, its end of the given width. | Fields of fixed width sort as numbers (`field_lt`), dates as instants (`dateLt_iff`); both from C100. |
| C107 | `Verif/Timeval/Seconds.lean`: double arithmetic by an arbitrary rounding that is monotone, accurate to 2^-53 and exact for integers. | Linear arithmetic on the error bounds; monotonicity by bounding the fraction by 1 after rounding. |
| C108 | `Verif/Logger/Record.lean`: the destructor as a list of atomic actions; threads with arbitrary interleaving and the lock. | Invariant over executions (`step_inv`): the file holds whole lines, plus what the owner of the lock has written so far; refutations by concrete schedules. |
| C109 | `Config/Builtin.lean`: the four keys with their valid values as in the source, map insertion, the name buffer as bytes, the hook pointer possibly unset | `C109_schema`, `C109_defaults`, `C109_level` (from C58 and the level table), `C109_range_partial` (from C60 and C55), `C109_name`, `C109_hook`, `C109_static_partial`; refutations `C109_alias_refuted`, `C109_octal_refuted`, `C109_open_refuted`, `C109_unknown_refuted` |
| C110 | `Config/Describe.lean`: names of types and levels, `printKey`, `printDescription` with its loops over positions held in 32-bit numbers | `C110_names`, `C110_read`, `C110_choice_partial`, `C110_range`, `C110_scope`, `C110_key_partial`; refutations `C110_plain_refuted`, `C110_scope_refuted`, `C110_key_refuted`, `C110_read_refuted` |
| C111 | `Logger/Init.lean`: both start functions on the configuration model of C53, with the file names opened so far and the levels kept per file; `groupNameToIndex`, `LogGroupInit` | `C111_once` (invariant over all call sequences), `C111_program` (with C109), `C111_level_partial` (with C53 and C66), `C111_groups`, `C111_group_init`; refutations `C111_unknown_refuted`, `C111_stale_refuted`, `C111_short_refuted`, `C111_no_level_refuted`, `C111_kept_refuted` |
| C112 | `Reporting/Committer.lean`: the thread as a program counter with a clock and the calls as events; the constructor | `C112_conserved`, `C112_delay`, `C112_ends`, `C112_stored_partial` (invariants over all executions), `C112_construct`; refutations `C112_commit_refuted`, `C112_early_refuted`, `C112_other_refuted` |
| C113 | `Logger/Locks.lean`: each function as a program of lock operations, with all its traces; threads with recursive mutexes | `C113_no_deadlock` (the locks are taken in a fixed order, checked on the programs; invariant over all executions); refutations `C113_hook_refuted`, `C113_signal_refuted` |
| C114 | `Config/FloatRange.lean`: reading of decimals by a string stream, the pattern, the comparison of floats | `C114_range`, `C114_inside` (`fl_mono`: rounding to float keeps the order), `C114_outside_partial`, `C114_reject`; refutations `C114_rounding_refuted`, `C114_garbage_refuted` |
| C115 | `Config/Record.lean`: end pointers of `strtol` and `strtof`, both functions with their flag | `C115_same`, `C115_once`, `C115_warn_integer`, `C115_float`, `C115_warn_float` |
| C116 | `Config/Threads.lean`: each call as its steps (lock, ageing of the cache, search, query, filling, command, unlock) between which other threads, the clock and other processes act; the ideal machine as inductive relation on traces | `C116_atomic_partial` (trace inclusion by forward simulation), `C116_values_partial` (composed with C53: trace of a map), `C116_steps`, `C116_progress`, `C116_race_partial`, `C116_schema_refuted` |
| C117 | `Sockets/Resolve.lean`: both forms step by step, with the one structure of the library; the resolver is any function | `C117_reentrant_partial`, `C117_apart_partial`, `C117_one_at_a_time`, `C117_threads_refuted` |
| C118 | `Threads/Console.lean`: each use as taking its lock, inserting its parts one by one, giving the lock back; the terminal shows what is written in order | `C118_text`, `C118_lines_partial`, `C118_quiet_partial` (invariant over executions), `C118_mixed_refuted` |
| C119 | `Config/Regex.lean`: heap of compiled expressions; the four cases of `isValidValue`; programs with `Regexp` objects | `C119_regex_partial`, `C119_regex_opt_partial`, `C119_string`, `C119_use`, `C119_objects_partial` (correspondence of objects and expressions), `C119_copy_refuted`, `C119_regfree_refuted`, `C119_empty_refuted` |
| C120 | `Process/ExitStatus.lean`: the message and the lowest eight bits | `C120_codes_partial`, `C120_distinct_partial`, `C120_success_refuted` |
| C121 | `Config/HashObject.lean`: objects as text and stored hash; programs as lists of operations | `C121_hash_partial`, `C121_equal_partial`, `C121_inherited_refuted` |
| C122 | `Process/SignalThreads.lean`: Register and the signal handler step by step, recursive mutex, disposition of the signal, delivery to any thread at any moment | `C122_all_called`, `C122_progress`, `C122_once_partial` (invariants over executions), `C122_twice_refuted`, `C122_again_refuted` |
| C123 | `Sockets/Readers.lean`: select, the look at the flags and recvfrom as separate steps of any number of threads; packets, clock and mode as events | `C123_each_once`, `C123_blocking`, `C123_nonblocking`, `C123_in_time_partial`, `C123_not_early_partial`, `C123_reply_partial` (invariants over executions and runs of one thread alone), four refutations |
| C124 | `Sockets/Ports.lean`: byte order, the kernel's table of bound sockets with the rule of Linux for SO_REUSEADDR, sockets of other programs | `C124_port`, `C124_throws` (both for all histories resp. states), `C124_exclusive_partial`, `C124_shared_refuted` |
| C125 | `Timeval/Model.lean`: seconds computed in `unsigned` | `C125_minutes_partial`, `C125_passed_partial` (induction over the calls), `C125_wrap_refuted` |
| C126 | `Macros/Statements.lean`: macro replacement on tokens, a parser of statements with the rule for `else`, execution of what was read | `C126_statement_partial` (parser against the tree as written, by mutual induction), `C126_evaluations`, `C126_else_refuted`, `C126_assert_refuted`, `C126_twice_refuted` |
| C127 | `Process/SignalObjects.lean`: any number of objects, their lists, the dispositions of the process | `C127_called_partial`, `C127_destroyed`, `C127_own`, `C127_dump` (invariants over histories), `C127_other_refuted`, `C127_destroy_refuted`, `C127_end_refuted` |
| C128 | `VectorHeap/Soft.lean`: the casts, constant segments and `dup` as sequences of the constructor calls of `VectorHeap/Model.lean`; whether the copy of the parameter is left out is a parameter | `C128_cast_const`, `C128_segment`, `C128_segment_partial`, `C128_segment_outside_partial`, `C128_head_tail`, `C128_dup_partial`, `C128_dup_owner` (from lemmas about writes through two objects), `C128_cast_shared_refuted`, `C128_cast_end_refuted`, `C128_segment_refuted`, `C128_dup_refuted` |
| C129 | `Threads/Report.lean`: `lock`, `trylock`, `unlock` and `mutext` with one step per access to `mLockCnt`, `mLockerFile`, `mLockerLine` and the recursive mutex; any number of threads and of calls of `mutext` | `C129_report_partial` (invariant: the entries below `mLockCnt` are those of the locks held), `C129_any_partial` (invariant about every value stored), `C129_torn_refuted`, `C129_timedlock_refuted`, `C129_long_refuted` |
| C130 | `Interthread/Sleep.lean`: one pass of the timed calls in the monitor of `Monitor/Model.lean`; `waitLimit` is the end of the sleep | `C130_read_partial`, `C130_readW_partial`, `C130_map_partial`, `C130_priority_partial`, `C130_either_partial` (exact case split of `timedWait`), `C130_limit`, `C130_refuted` |
| C131 | `Config/Dump.lean`: the loop over the schema with the lookups of `Config/Table.lean`; anything may be read before each lookup | `C131_dump_partial` (invariant of the cache from C53), `C131_default_level`, `C131_column_refuted`, `C131_corrupt_refuted`, `C131_ambiguous_refuted` |
| C132 | `Interthread/Iterate.lean`: nodes with identity, recursive mutex with owner and count, loops of the threads step by step; the calls are one step each by C22 | `C132_snapshot_partial` (invariant over executions), `C132_excludes`, `C132_assertion`, `C132_connected_refuted`, `C132_unlocked_refuted`, `C132_read_refuted` |
| C133 | `Memory/Threads.lean`: waiting calls, holder of the mutex, counters step by step, unlocked printing | `C133_exact_partial`, `C133_printed_partial`, `C133_safe_partial` (invariant), `C133_torn_refuted`, `C133_static_refuted`, `C133_label_refuted`, `C133_label_partial` |
| C134 | `Reporting/Arrays.lean`: the calls with an index on the table of `Reporting/Model.lean` | `C134_names`, `C134_counts_partial` (from C67 and C68), `C134_full_name_refuted` |
| C135 | `F16/Laws.lean`, on `F16/Model.lean`; values as rationals | `C135_commutative`, `C135_associative_sum`, `C135_inverse`, `C135_units`, `C135_monotone`, `C135_quotient`, `C135_distributive`, `C135_regroup`, `C135_signs`, `C135_exact_refuted`, `C135_monotone_refuted` |
| C136 | `Utils/Printf.lean`: overload resolution of C++ for these types, passing of arguments, `vsnprintf` reading the format; specification by parts of a format | `C136_format_partial`, `C136_long_refuted`, `C136_zero_refuted`, `C136_nul_refuted` |
| C137 | `Utils/RefThreads.lean`: any number of threads, lock, read, write, unlock and delete as single steps; any use of a deleted object undefined | `C137_counts_partial`, `C137_safe_partial`, `C137_progress_partial`, `C137_shared_refuted`; an invariant for each object: the count is the pointers plus the calls under way |
| C138 | `Interthread/Life.lean`: any number of threads and queues; calls as steps; all accesses to queues, mutexes and signals checked for their end | `C138_safe_partial`, `C138_items_partial`, `C138_reader_refuted`, `C138_order_refuted` |
| C139 | `Logger/Statics.lean`: construction in any order of the files, function statics constructed at first use, `main`, destruction in the opposite order; every use of a global object checked | `C139_safe_partial`, `C139_messages`, `C139_alarms`, `C139_constructor_refuted`, `C139_destructor_refuted` |
| C140 | `Config/Listing.lean`: rows with SQLite's numbers, a cursor, and any sequence of `set`, `remove` and fetching | `C140_untouched`, `C140_pairs_untouched`, `C140_origin`, `C140_sets_partial`, `C140_remove_refuted`, `C140_twice_refuted`; invariants over all sequences of events |
| C141 | `Interthread/SemaphoreLife.lean` over the model of C29 (`Interthread/Semaphore.lean`, `Monitor`): counts of the posts begun and of the successes, and which steps use the object | `C141_destroy_partial`, `C141_posts_left`, `C141_once`, `C141_two_posts_refuted` |
| C142 | `Encoding/Early.lean`: the decoders with the table as an argument (proved equal to those of C37-C39 for the filled tables), and the construction of static objects in any order | `C142_order`, `C142_roundtrip`, `C142_silent_refuted` |
| C143 | `Logger/FileOpen.lean`: threads that destroy records or call gLogInit, step by step; streams with their own positions in the file | `C143_file_partial`, `C143_apart_partial`, `C143_untouched`, `C143_split_refuted`, `C143_twice_refuted`, `C143_overwritten_refuted` |
| C144 | `Macros/Values.lean`: tokens and trees of C++ expressions, LP64 integer types with the usual conversions, streams with their base, and the tokens of each macro; `#` is an arbitrary function; LOGBV is left out | `C144_values_partial`, `C144_cond_refuted`, `C144_and_refuted`, `C144_shift_refuted`, `C144_compare_rejected`, `C144_hex_refuted`, `C144_byte_refuted`, `C144_opt_refuted`; a precedence parser shows that no token sequence has two readings |
| C145 | `Macros/Bound.lean`: the tokens of the macro over the expressions of `Macros/Values.lean`, and the evaluation with arguments that change | `C145_bound_partial`, `C145_nearest`, `C145_steady_partial`, `C145_unsigned_refuted`, `C145_changing_refuted` |
| C146 | `Reporting/Crash.lean`: steps of the calls and of any number of commits over a sorted batch, the file keeps what the statements did, a life ends after any step and the next starts on the file | `C146_life`, `C146_lives`, `C146_max`, `C146_create`, `C146_acknowledged_refuted`, `C146_torn_refuted`, `C146_callers_refuted`; by an invariant that cuts the names at the next entry to write |
| C147 | `Crc/Channel.lean`: `send` and `receive` composed of the modelled functions of `BitVector`, `Parity` and `SoftVector`; errors are bits on the other side of one half | `C147_sends`, `C147_check`, `C147_noise`, `C147_odd`, `C147_burst`, `C147_two`, `C147_neighbours_refuted`; linearity of the syndrome and polynomials over GF(2) |
| C148 | `Config/Crash.lean`: lives of the threads of `Config/Threads.lean` on one database, each cut off after any step; the specification is a map that survives, on which calls act at single moments | `C148_durable_partial`, `C148_kept_partial`; the database is at every moment that of the ideal machine of C116 |
| C149 | `Utils/StatText.lean`: `Statistic::text` with `%.3g` rounding halves to even, the ten-byte buffer and `strcpy` byte by byte; the specification reads the text back as a number | `C149_text_partial`, `C149_count_partial`, `C149_order_partial`; `C149_overlap_refuted` for every statistic of more than 999999 samples, two of them different |
| C150 | `Streams/Print.lean`: streams with base, notation, width and any other flags, how numbers look being a parameter; the insertions of each operator in order; an object's `text` is any function on streams | `C150_independent_partial` (values without `Timeval` and `hex`), `C150_flags` (the state after each value), `C150_fixed`, `C150_hex`, `C150_width_partial`; `C150_timeval_refuted`, `C150_hex_refuted`, `C150_width_refuted` |
| C151 | `Interthread/MapWalk.lean`: the map as nodes in the order of their keys, iterators as node numbers that dangle when the node is erased; a loop whose turns make any changes before and after the iterator moves on; the recursive lock and the events of any number of threads | `C151_walk` and `C151_later` (induction over the turns), `C151_ends` (the number of elements ahead decreases), `C151_alone` (the owner of the lock is alone); `C151_unlocked_refuted`, `C151_current_refuted`, `C151_grows_refuted` |
| C152 | `Logger/AlarmThreads.lean`: any number of threads, each step of `addAlarm` and `gGetLoggerAlarms` by itself, the recursive lock, the limit changed at any time | `C152_turns`, `C152_each` and `C152_newest_partial` (a limit that stays) by an invariant over all schedules; `C152_undefined_refuted` |
| C153 | `Config/Programs.lean`: any number of programs with their tables, one database, one clock; each call in steps at the accesses to the database and to the cache; the history of the database | `C153_recent_partial`, `C153_agree_partial` by an invariant over all schedules: each cached record comes from a moment after the last purge; `C153_order_refuted`, `C153_busy_refuted` |
| C154 | `Reporting/Programs.lean`: any number of programs with their batches and running commits, one table, programs that end at any point and start again | `C154_counts_partial` by taking each program apart on rows of its own and adding up (uses `C146_lives`); `C154_total_partial`, `C154_grows_partial`, `C154_max`; `C154_clear_refuted`, `C154_busy_refuted` |
| C155 | `Interthread/Holding.lean`: the queue, its recursive mutex with owner and count, calls in steps (lock, body, wait, woken), own lock and unlock of the threads, time | `C155_private`, `C155_until`, `C155_read_refuted` by the invariant that the count of the mutex is the number of own locks and running bodies of its owner |
| C156 | `Utils/Average.lean` over `Core/Double.lean`: `Statistic` with a sum and a quotient rounded to 53 bits, ties to even | `C156_bound` by induction on the error of the sum (at most n²·M/2^53), `C156_exact_partial`, `C156_small_partial`, `C156_lost_refuted`, `C156_range_refuted` by evaluation of the rounding |
| C157 | `Config/Checked.lean`: the checks of `Config/Valid.lean` and `FloatRange.lean`, the table and its readings, `resolveAddress`, together | `C157_boolean_partial`, `C157_range_partial`, `C157_port_partial`, `C157_float_partial`, `C157_address_partial` by comparing the parsers on the texts the patterns let through; `C157_octal_refuted`, `C157_overflow_refuted`, `C157_colon_refuted` |
| C158 | `Sockets/BitFrames.lean`: `pack`, `unpack`, `write` and `read` with a buffer that keeps what is not overwritten; the network as an arbitrary sequence of packets sent | `C158_whole_partial`, `C158_frame_partial` from the layout of C04; `C158_long_refuted`, `C158_mixed_refuted`, `C158_text_refuted` |
| C159 | `Interthread/ClockSet.lean`: real time and the clock as two numbers; looking (with `readTimed` of C24), sleeping until the clock shows the limit, waking, setting the clock | `C159_limit_partial` by an invariant on real time in each phase; `C159_goes_on_partial`; `C159_back_refuted`, `C159_forward_refuted` |
| C160 | `BitVector/Views.lean`: one memory, views of it, the calls of `BitVector/Model.lean` on a view | `C160_history`, `C160_last_write`, `C160_read`, `C160_segment`, `C160_misfit` by induction over the calls |
| C161 | `Config/Hook.lean`: `set` and `remove` of `Config/Table.lean` with the hook called once per changed row; the rule when SQLite calls the hook is an assumption from its documentation | `C161_set_partial`, `C161_remove_partial`, `C161_same_partial` from the invariants of C53: with the hook the cache holds less; `C161_other_refuted`, `C161_nothing_refuted` |
| C162 | `Interthread/Bounded.lean`: the queue of C26 as a monitor, with the callers' rule that each `write` comes directly after the thread's own `wait(N)` returned | `C162_bound_partial` by the invariant that items and outstanding permissions to write are together at most N plus the number of producers; `C162_awake_partial`, `C162_no_deadlock_partial` by the invariant that some producer is awake, the queue is over N or a read signal is about to be sent; `C162_tight_refuted`, `C162_asleep_refuted` |
| C163 | `Interthread/Chain.lean`: the queues of C22, each a monitor of its own, with the loops of the threads between them | `C163_order`, `C163_prefix`, `C163_one` by an invariant for each thread between two queues (taken from one = put into the next, and what it has in hand) with C22_fifo for each queue; `C163_complete` with C23_settled |
| C164 | `Utils/RefGraph.lean`: objects with pointer members, deleting them recursively, pointers named as `v` or `v->k` | `C164_safe`, `C164_counted` by an invariant that counts the references in variables and members plus those a call under way still holds or is about to give up, through the recursion of `decRefCnt`; `C164_complete_partial` by induction on the number of ancestors; `C164_cycle_refuted` two objects; `C164_depth_refuted` lists of every length |
| C165 | `Monitor/Steps.lean`: executions with their calls, wakeups out of turn and steps counted; `Interthread/Steps.lean`: the monitors of C22 and C25-C29 | `C165_queue` to `C165_map` by a potential: each thread has a number of steps it may still take, which every step of a thread lowers in total, a notification by one more than what the woken threads gain; `C165_settles` with the wakeup invariant of C23; `C165_comes_to_rest` from the bound |
| C166 | `Monitor/Programs.lean`: any family of monitors with descriptions of single calls, programs as steps, calls and continuations, executions with the real objects and with indivisible calls; `Interthread/Programs.lean`: the four classes with the descriptions of C22, C27, C28 and C29 | `C166_indivisible` by a step-by-step simulation: a call takes effect in the pass through the critical section that finishes it; `C166_no_new_deadlock` with the wakeup theorems of C23, C27, C28 and C29; `C166_exact` by running each indivisible call from lock to return without interruption; `C166_bounded` and `C166_comes_to_rest` (`Monitor/ProgramSteps.lean`, `Interthread/ProgramSteps.lean`) with the step bounds of C165 summed over the objects, and that an object in which a thread neither sleeps nor is done has a thread that gets on. Example: a client and a server over two queues, whose reply always arrives |
| C167 | `Interthread/Pool.lean`: producers, workers and collectors as a program in the sense of C166, over two queues; `Interthread/PoolEnds.lean`: the calls still to come | `C167_once` and `C167_complete` on indivisible calls, by the multiset of results collected, in the queues and in the hands of threads being constant, transferred with `C166_indivisible` and `C166_no_new_deadlock`; `C167_bounded` and `C167_finishes` with a measure, by `C166_bounded` and `C166_comes_to_rest`. Examples: two workers that change the order of two items; each order of these four threads ends with both results |
| C168 | `Interthread/Lock.lean`: what it means for a program in the sense of C166 to use a semaphore as a lock (`AsLock`), owning it (`Has`), and a program of threads going through a section | `C168_exclusive` and `C168_not_lost` on indivisible calls, by the place where the lock is: with one thread, or with nobody and the flag set; `C168_rounds` from these with `C166_comes_to_rest`. Examples: a second thread gets the lock; with two threads setting it up both get it |
| C169 | `Interthread/Answers.lean`: clients and servers as a program in the sense of C166, over a queue and a map | `C169_own` and `C169_complete` on indivisible calls: for each key nothing, one request or one answer is under way, whichever its client waits for; transferred with `C166_indivisible` and `C166_no_new_deadlock`; `C169_bounded` and `C169_finishes` with a measure. Examples: two clients and a server; two clients with the same key |
| C170 | `Interthread/PoolStop.lean`: producers, workers and collectors as a program in the sense of C166, over two queues | `C170_once` and `C170_complete` on indivisible calls: the multiset of items, results and stop items is kept, and the last item of the queue is a stop item unless some producer has items left; transferred with `C166_indivisible` and `C166_no_new_deadlock`; `C170_finishes` with a measure. Examples: two producers and two workers; a producer without stop item |
| C171 | `Monitor/Sections.lean`: code of sections as control points and steps, the class with single steps and with whole passes, data refinement between classes; `Interthread/Nodes.lean`: the sections of InterthreadQueueWithWait with put, get, allocate and release as trees of single accesses | `C171_indivisible` by a simulation in which the class with whole passes waits until a pass is complete; `C171_exact` the other way round; `C171_queue`, `C171_queue_exact` and `C171_safe` with the representation invariant of C19 and the determinism of the code; `C171_readers` as an application. Examples: a counter loaded and stored in separate steps, a section that reads the clock twice (where the condition fails), a `read` that comes in the middle of a `write` |
| C172 | `Monitor/Trees.lean`: code of sections as trees of calls on a container; `Interthread/Containers.lean`: queue, pair of queues, map and semaphore in this form; `Interthread/Heap.lean`: the priority queue | `C172_queue`, `C172_pair`, `C172_map`, `C172_semaphore` and their converses `..._exact` from C171 with evaluation of the trees (`whole_eq`); `C172_priority` by data refinement (the order in the heap up to permutation); `C172_queue_safe`, `C172_pair_safe`, `C172_map_safe`, `C172_priority_safe` from an invariant on trees (`Safe`, `C172_safe`). Examples: a thread interrupted between the test and the reset of the flag, a priority queue of three |
| C173 | `Monitor/HandOver.lean`: containers as places (`Box`), uses, locks and unlocks as events, happens-before, threads that use and hand over what they have; `Interthread/HandOver.lean`: the six classes as places | `C173_no_race` for any classes that do not double things (`Box.Fair`), with the invariant that whoever has a thing, or takes the lock of the container it is in, comes after all earlier uses of it; `C173_one_place`; `C173_not_lost`; `C173_classes`, `C173_alone` and `C173_not_lost_classes` for the six classes. Examples: an item used, written, read and used again; two uses after `front` that are not ordered |
| C174 | `Threads/Guarded.lean` on top of `Threads/Mutex.lean` and `Threads/RwLock.lean`: programs with guarded variables, the events that matter, happens-before | `C174_no_race`, with the invariant that whoever has the guard comes after all earlier uses that conflict; `C174_timedlock_race` shows the exception. Examples: nested locks of a mutex, readers side by side and writers of an RWLock |
| C175 | `Memory/Exhausted.lean`: code as functions of the pattern of failing allocations with exceptions, scoped and manual locks; on top of `Threads/Mutex.lean` for the consequence | `C175_queue_write`, `C175_map_write`, `C175_config_lock`, `C175_blocked`; `C175_manual_partial`, `C175_config_partial` with `C175_manual_refuted`, `C175_commit_refuted`, `C175_register_refuted`, `C175_config_value_refuted`, `C175_config_entry_refuted` |
| C176 | `Threads/Library.lean` on top of `Threads/Mutex.lean` and `Threads/Guarded.lean`: locks and accesses of each function along all paths, any number of threads making calls | `C176_no_race_partial`, `C176_one_table_partial`, `C176_memory_partial`, by a check that code uses variables under their locks, shown sound against the mutex model; `C176_races_refuted` with executions of two calls |
| C177 | `Threads/ForkJoin.lean` on top of `Threads/Start.lean`: the callers are themselves started threads; shares of each variable move with start and join; each step leaves the uses of memory it makes | `C177_no_race` by an invariant: everybody with a share knows of all writes, and of each read somebody with a share knows; `C177_polite` (the runs are polite runs of C102); `C177_early_races` for programs that do not wait for join |
| C178 | `Threads/Ownership.lean` on top of `Threads/Start.lean` and `Threads/Mutex.lean`: shares of each variable are with a thread or a mutex and move with start, join, unlock and lock; each step leaves the uses of memory it makes | `C178_no_race_partial` by an invariant: whoever has a share, thread or mutex, is ordered after all writes, and after each read somebody with a share is; `C178_polite`; `C178_covered` (no step of a mutex is left out); `C178_report_refuted` |
| C179 | `Interthread/Together.lean`: the steps of `Threads/Ownership.lean` (threads, joins, mutexes) and those inside of the objects (`Monitor/Model.lean` with the classes of `Interthread/HandOver.lean`) interleaved; the lock inside of an object takes over the things the object contains when it is released, and hands them to who takes it next | `C179_no_race` by an invariant: things in an object are with its lock or the thread that has it, things in a call are with the caller, and nothing is in two places; the order is that of C178. `C179_arrives`, `C179_away`; `C179_after_races` shows the race when a thread goes on using what it handed over |
| C180 | `Interthread/Values.lean`: which writes a read may give (`MaySee`, `MaySeeFirst`, `Possible`) on the executions of `Interthread/Together.lean` and `Threads/Guarded.lean`; `plain` is one memory for all threads | `C180_together` and `C180_guarded`: the values possible are exactly those of one memory for all threads, from the absence of data races (C179, C174); `C180_stale` shows an old value when a thread reads what it handed over |
| C181 | `Interthread/MapLife.lean` on top of `Interthread/Map.lean`, `WithWait.lean`, `PriorityQueue.lean`; which steps use the object is as in C141 | `C181_writer_left`: a thread inside the lock after its effect is the one whose effect was the last, but the receipt came later; calls begun are those with effect and those pending. `C181_destroy_map`: from then on no step uses the object; two executions refute it for the other classes |
| C182 | `Interthread/LockOrder.lean`: mutexes as in `Threads/Mutex.lean`, objects as in C173, one thread inside of at most one call at a time | `C182_goes_on`: the owner of a mutex has been told so or is inside of the call (`own_step`); if it waits for a mutex itself, that comes later in the order, and only finitely many threads wait; if it is inside of an object, the call does not wait (`waiting_only`) and the calls on the object go on |
| C183 | `Process/Restart.lean` on the processes and files of C70 | `C183_again_partial`: a file that was not there at the beginning belongs to a process that has not ended (`Backed.step`). `C183_stale`: a file that no living process would remove stays (`Left.step`) |
| C184 | `Threads/RwOrder.lean`: the calls of `Threads/RwLock.lean`, each made in one step and returning in a later one, with any rule by which locks hold readers back | `C184_goes_on`: `next` - a thread that waits can name one that has the lock and, if it waits too, wants a later one, or a writer that can go on; the calls under way are finitely many |
| C185 | `Interthread/AllLocks.lean`: the states and steps of C182 and C184 together; one order of all locks | `C185_goes_on`: `left_reach`, `right_reach` - each half follows the rule of C182 or C184; `cross` - what holds between the halves; `onward` - the thread waited for goes on or waits for a later lock; `C185_no_cycle` by the same order |
| C186 | `Utils/Backtrace.lean`: `rn_backtrace` with a choice for every statement whether it gets memory; `stringcat` | `loop_all` and induction over the callers; `cut` - texts with equally many blanks end where the next blank begins |
| C187 | `Interthread/JoinOrder.lean`: the program of C185 with threads that are in `join` or have ended | `quiet` - such threads are outside of all calls and have no locks, so nobody waits for them at a lock (`waited_active`); induction over the order of threads, with C185 for those that wait for locks |
| C188 | `Process/Interrupted.lean`: waiting in a system call that is restarted or not, with the delivery of signals of C71 and the reads of C90; assumed of the system: select and usleep are not restarted after a handler, recvfrom is, signals without handler that are ignored or stop the process disturb nothing; only signals delivered to the waiting thread count | induction over the signals: those without handler change nothing (`deliver_harmless`), the first with one ends the wait (`wait_once`); a restarted call waits to its end (`wait_restart`) |

## What is modelled, file by file

Everything not named here as modelled is not modelled. Line numbers are in the comments of the definitions.

| file of /repo | modelled | not modelled |
|---|---|---|
| BitVector.h, BitVector.cpp | fields, reversed fields, cursors, pack/unpack, hex, text, map/unmap, puncturing, LSB8MSB, invert, sum, equality, copies and segments; `Parity`, `Generator`; `SoftVector` slicing, energy, signal-to-noise (`Verif/BitVector`, `Crc`, `Soft`, `VectorHeap`) | allocation failure |
| Vector.h | ownership, aliasing, copying, segments, bounds, as a heap with addresses (`Verif/VectorHeap`) | element types with constructors (elements are plain data) |
| LinkedLists.h/.cpp | `PointerFIFO`, `SingleLinkList`, free list (`Verif/Lists`) | |
| Interthread.h | queues, queue with wait, priority queue, map, semaphore, deadlock of two queues, lengths of timed waits, iterators under the lock (`Verif/Interthread`, on `Verif/Monitor`) | real time other than by clock readings |
| Threads.h/.cpp | `Mutex`, `ScopedLock`, `ScopedLockMultiple`, `RWLock`, `Thread`, the report of a blocked mutex, `COUT` and `CERR` (`Verif/Threads`), `Signal` (`Verif/Monitor`) | see the per-property list |
| Timeval.h/.cpp | arithmetic, comparison, elapsed and remaining time, ISO text (`Verif/Timeval`) | the clock itself |
| F16.h | everything (`Verif/F16`) | float exponent range |
| URLEncode.cpp | `URLEncode` (`Verif/Url`) | |
| Utils.h/.cpp | string functions, base 64 and base 16 coders, gcd, reference counts, tables, small helpers (`Verif/Utils`, `Verif/Encoding`) | stream formatting beyond the cited lines |
| Configuration.h/.cpp | table, cache, SQL commands, validation, hashed names, key-value lists, generated script and manual, searching, several threads, list of changes at the start (`Verif/Config`) | what the regular expressions of the library match (any function, `Config/Regex.lean`) |
| Regexp.h | compiling, matching, copying and freeing (`Verif/Config/Regex.lean`) | the library |
| Logger.h/.cpp | levels, level cache, alarms, group levels, start, records to syslog, console and file, locks, macros as statements (`Verif/Logger`, `Verif/Macros`) | the syslog daemon, failing file operations after the opening |
| Reporting.h/.cpp | counters, batch, commands and buffer lengths, the committing thread (`Verif/Reporting`) | SQLite (see below) |
| sqlite3util.h/.cpp | retry loops, lookups, attributes (`Verif/Sqlite`) | SQLite (see below) |
| Sockets.h/.cpp | parsing, destinations, sending, timed reading, closing, resolving and reading by several threads, descriptors, ports (`Verif/Sockets`) | the kernel and the resolver (see below) |
| SelfDetect.*, UnixSignal.*, Exit.h | registration, pid files, handlers, several objects, signals at any moment, exit codes (`Verif/Process`) | what core dumps and `tar` contain |
| ScalarTypes.h | all initialised number types (`Verif/Scalar`) | |
| MemoryLeak.h | counters and labels (`Verif/Memory`) | calls from several threads |
| Variables.cpp, *Test.cpp, Makefile.am | nothing | test programs and globals |

## Assumptions about what is outside /repo

* SQLite: `Config/Sql.lean`, `Config/Script.lean` and `Sqlite/Model.lean` contain the part of its language that is used, written after its
  documentation (first statement only in `prepare`, double-quoted identifiers falling back to texts, conflict clauses). Answers such as busy are
  arbitrary streams.
* C library: `strtol`, `strtoul`, `sscanf("%1x")`, `sscanf("%2x")`, `snprintf` lengths, `inet_pton`, `isspace`, stream extraction, and the two
  regular expressions of the form `^[class]+$` behave as in the C locale (`Core/Number.lean`, `Config/Valid.lean` and beside their uses).
* pthreads: recursive mutexes, condition variables with spurious wake-ups, adversarial scheduling (`Verif/Monitor`, `Verif/Threads`).
* Resolver and kernel: contracts in `Sockets/Model.lean`; file system and signal delivery in `Process/Model.lean`.
* Floats: round to nearest, ties to even, unbounded exponent (`Core/Float.lean`).

## Disagreements between the code and the claims

Every `*_refuted` theorem is a machine-checked witness. Per property: what is false of the code and what is proved instead.

* **C05** (hex/unhex round trip): hex()/unhex() round trip fails for lengths not a multiple of 4 (the printed hex does not carry the length): C05_refuted and C05_hex_not_injective give witnesses; C05_hex_roundtrip_partial proves the round trip for whole nibbles.
* **C12** (Inversion complements every bit and equality follows the bits): operator== compares the raw chars, so two vectors with the same bits but different char values are unequal (C12_eq_refuted); C12_eq_iff_bits_partial proves the equivalence for normalised vectors.
* **C17** (Assignment makes the target equal to the source): Self-assignment of an owning vector frees the contents it is about to copy (C17_self_refuted) and assigning a vector from a segment of itself leaves a dangling source (C17_own_segment_refuted); C17_assign_partial proves assignment for every other pair.
* **C18** (Concatenation and segment contents): tail() beyond the end passes its assertion (C18_tail_refuted), a segment whose end wraps around passes too (C18_segment_wrap_refuted), and copying between overlapping segments is an undefined memcpy (C18_copyToSegment_overlap_refuted, C18_segmentCopyTo_overlap_refuted); contents of concat, segment, head and tail are proved for all in-range arguments and copies for non-overlapping ranges.
* **C19** (PointerFIFO is a FIFO queue with push-front): Order and results are proved for every history; size() is a 32-bit counter and is 0 with 2^32 elements (C19_size_refuted), exact below (C19_size_partial).
* **C24** (Timed read gives up only near the deadline and only when empty): Timeouts of about 24.9 days or more overflow the remaining-time computation and the call gives up at once (C24_long_timeout_refuted); the partials cover deadlines within 24 days of the clock.
* **C25** (Waiting on either of two queues respects the timeout): False: once the deadline has passed iqWaitForEither loops forever holding the lock (C25_timeout_refuted, quantified over every continuation). Proved: it returns only, and whenever it looks and finds, a non-empty queue; before the deadline no wakeup is lost for a single waiting thread (C33_wakeup_partial).
* **C26** (Low-water wait is released when the queue drains): False with several waiters: read signals once, so with two waiters, or with different bounds, one stays blocked although the size is at most its bound (C26_two_waiters_refuted, C26_bounds_refuted). Proved: wait returns only at or below its bound, readers lose no wakeup, and a single waiter is always released (C26_one_waiter_partial).
* **C27** (InterthreadMap behaves as an atomic map and manages its elements): The destructor of InterthreadMap drops the elements still stored without destroying them (C27_destructor_refuted); C27_ownership_partial proves the ownership account for every history while the map lives.
* **C30** (A successful lock operation means the lock is held): timedlock reports success on any error other than ETIMEDOUT, in particular EINVAL for a microsecond part out of range (C30_timedlock_refuted); lockcnt() is not advanced by timedlock (C30_lockcnt_refuted). The partials cover lock, trylock, unlock and timedlock with a valid deadline.
* **C32** (ScopedLockMultiple cannot deadlock): Proved when the mutexes owned at entry are a prefix of the argument list (none, first, first two, all) and nothing else is held. For every other combination of owner bits two threads deadlock (C32_deadlock_refuted, quantified over the combination).
* **C33** (Connected queues share one lock and one wakeup discipline): False in three ways: qGetLock hands out the wrong mutex after iqConnect, connecting the other queue elsewhere afterwards splits the lock, and one signal may wake the reader of the other queue (refutations). The partials cover unconnected queues and a single blocking thread.
* **C34** (Timeval::future yields the exact normalised instant): future() can leave tv_usec equal to 1000000 (test is > instead of >=): C34_refuted gives the witness; the instant is always exact (C34_future_exact) and normal in every other case (C34_future_normal_partial).
* **C35** (Timeval::delta is accurate and antisymmetric): delta() overflows int arithmetic inside its documented range of 2^31 milliseconds (C35_documented_range_refuted); within the range where the seconds difference times 1000 fits an int the result is exact (C35_delta_partial) and antisymmetric; monotonicity is proved.
* **C38** (Named encodings round trip): Documentation says encoding names are case-insensitive; code compares exactly (C38_case_refuted). Round trip for every name accepted is proved.
* **C39** (Decoders report every malformed input): hexDecode error conditions fully proved; base64Decode silently accepts truncated groups and misplaced padding (C39_base64_refuted); C39_base64_decode characterises its result for every text.
* **C40** (URLEncode is reversible): The digit table has a duplicated 0, so escapes with a nibble above 9 are wrong: C40_refuted shows two strings with the same encoding; C40_roundtrip_partial proves the round trip for exactly the strings for which it holds, C40_unchanged says which strings are not changed.
* **C41** (gcd terminates and is the greatest common divisor): Zero arguments divide by zero (C41_zero_refuted) and negative ones can recurse forever (C41_negative_diverges_refuted); C41_gcd_positive_partial proves termination and correctness for positive arguments.
* **C42** (replaceAll replaces every non-overlapping occurrence, left to right): replaceAll with an empty search string never terminates (C42_empty_search_refuted); with a non-empty search string and texts below 4 GB the result is exactly the left-to-right replacement (C42_replaceAll_partial). On LP64 an unfounded error is logged (C42_spurious_error_log).
* **C43** (String splitting): The header's claim that the last argv receives the rest of the text is false (C43_rest_refuted) and stringSplit silently drops words beyond the fortieth (C43_forty_refuted); C43_cstrSplit, C43_stringSplit and C43_cstrGetArg give the exact result for every text.
* **C45** (format returns the whole formatted text up to its documented limit): format() loses the last character of a result of exactly 199 characters (C45_refuted); every other length is exact (C45_format_partial).
* **C46** (Reference counting deletes exactly at the last release): The 16-bit reference count overflows at 32768 references and the object is freed while referenced (C46_overflow_refuted); with at most 32765 references the object lives exactly as long as it is referenced and is freed once (C46_counts_partial, C46_step_partial).
* **C47** (Statistic tracks minimum, maximum, count and sum): The unsigned sample count wraps at 2^32 and the statistic then claims to be empty (C47_wrap_refuted); C47_statistic_partial proves everything for 1 to 2^32-1 samples, with an exact sum in place of a double (C156 is about the double).
* **C50** (F16 fixed-point arithmetic is accurate): No saturation: results outside the range wrap or are undefined (C50_saturation_refuted); exact results proved whenever they are representable; multiplication modulo 2^32 (C50_mul_modulo_partial).
* **C51** (F16 assignment yields the assigned value): An assignment expression from int/float does not yield the assigned value (C51_refuted); C51_chain_partial proves what chained assignment does otherwise.
* **C53** (Configuration reads return the last value set): Under the assumptions on SQLite stated in Config/Sql.lean. False for values or keys with quotes, for keys that are column names, and after isValidValue was asked about an unknown key (C53_quotes_refuted, C53_column_refuted, C53_validation_refuted); the partials cover clean keys.
* **C54** (External configuration changes become visible within the cache lifetime): The cache lifetime timer is shared by all tables, so a second table may serve stale values, even forever (C54_two_tables_refuted, C54_two_tables_forever_refuted), and setting the clock back postpones the refresh (C54_clock_refuted); C54_visible_partial covers a single table and a clock that does not go back.
* **C55** (Numeric configuration values round trip): Number formats and the round trip of the text are proved for every 64-bit value; C55_set_get_partial carries it through the table and database under the clean-text hypotheses of C61 (without them set followed by a read can return another value, C53_column_refuted).
* **C56** (Vector-valued configuration parses every element): Words are proved for every value; for numbers a word separated by a tab is read twice (C56_tab_refuted), C56_numbers_partial covers values in which every space-separated word has a character that is not white space.
* **C57** (Scalar validation accepts exactly the legal values): Boolean keys exact. IP and path keys exact for values without NUL (C57_nul_refuted otherwise). Port keys exact on decimal numbers; a number followed by garbage is accepted (C57_garbage_refuted) and a blank value reads an uninitialised variable (C57_empty_refuted).
* **C58** (Choice validation accepts exactly the listed choices): Exact with descriptions, and without descriptions on 32 bits; on 64 bits a list without descriptions accepts exactly its own ends, commas included (C58_plain_64, C58_plain_refuted, C58_first_refuted).
* **C59** (Composite address validation requires both parts): Exact for values with the delimiter and a decimal second part; on 64 bits a value without the delimiter may be accepted (C59_missing_refuted, C59_no_port_refuted) and garbage after the number is accepted (C59_garbage_refuted). MIPADDRESS is C95, REGEX C119, floating point ranges C114.
* **C60** (Range validation accepts exactly the values inside the range): Exact for 32-bit integers; minus signs anywhere (C60_dash_refuted) and numbers beyond 32 bits (C60_overflow_refuted) are accepted wrongly.
* **C61** (Stored configuration text reaches the database unchanged): Under the assumptions on SQLite stated in Config/Sql.lean. Keys, values and schema descriptions are pasted into the command without quoting: five refutations, including injection that changes another key; the partials cover texts free of the quote characters.
* **C63** (Hashed string comparison never confuses different names): False: C63_collision_refuted gives two 13-letter names with the same hash, and every common ending preserves the collision (C63_common_ending, C63_file_names_refuted). C63_short_partial: names differing only in initial parts of at most nine ASCII characters are told apart.
* **C64** (Alarm list keeps exactly the newest alarms): C64_kept is exact for every sequence of alarms and limits (as unsigned numbers); a constant limit below 2^32 gives the newest alarms (C64_constant_partial). Limits are cut to 32 bits (C64_wrap_refuted); without a configured limit the exception leaves the list locked (C64_undefined_refuted); dropped alarms do not return when the limit grows (C64_raise_refuted).
* **C65** (Logging-level changes take effect after a bounded number of log calls): Proved for every sequence of undisturbed checks and every course of the configuration, up to names with equal hash (C65_own_level_partial without collisions); false with threads, because the answer is stored after the lock was released in between (C65_threads_refuted). With threads the age is at most 1000 checks plus those that come between a thread's asking and storing (C65_threads_partial), so that a change takes effect after that many (C65_change_partial).
* **C66** (Log level selection precedence): File and general level proved (C66_file, C66_default, C66_names); a file level that is not a level name gives the schema default instead of Log.Level and overwrites the configuration (C66_unknown, C66_unknown_refuted); the level check of a log statement after any history of log statements, with the level cache (C66_logged_partial, C66_group); a group level can only add messages (C66_group_refuted).
* **C67** (Statistics counters lose no increments): Every interleaving of the parts of all calls with a working database and no clear of that name (C67_counts_partial), undisturbed commit (C67_commit), maxima (C67_max). False for increments before a clear (C67_clear_refuted), for names not created (C67_uncreated_refuted), when a statement fails (C67_failure_refuted) and for 2^32 increments in one batch (C67_wrap_refuted).
* **C68** (Statistics commands never overrun their buffers): C68_exact gives the exact condition for each command; names of 137 characters (C68_long_name_refuted) and indices of nine digits (C68_index_refuted) overrun.
* **C70** (At most one instance registers): Any number of processes, interleavings, crashes; registrations must not overlap, pid files must not be registered as ordinary files, and no signal may clean up without ending the process. False otherwise (C70_race_refuted, C70_resize_refuted).
* **C71** (Exit removes every registered file and nothing else): Exact effect of exit and of a handled signal after any history (C71_exit); processes turned away change nothing; what is removed inside of RegisterProgram or before it: C71_registering. False in the moment before RegisterProgram returns, for signal 64, without registration; five signals remove the pid file of a process that goes on (C71_alive_refuted).
* **C72** (Signal handlers run once each in registration order): C72_history is exact for any history; the English claim holds for the first delivery. False for later ones, for 9 and 19, and for signal 64.
* **C73** (Host:port text resolves to that host and port): C73_exact for every text with a colon; ports beyond 65535 and texts that are not numbers are accepted (refutations).
* **C75** (Soft energy and SNR stay in range): The clamp in getSNR does not bound the result by 999 (C75_snr_clamp_refuted: exactly 1000 is possible); C75_snr_range_partial proves 0..1000 and no division by zero; the energy part is fully proved over exact rationals.
* **C76** (Comparison operators of hashed names agree with each other): operator> is written with < (C76_greater_refuted, C76_opposite_refuted); < is a strict order (C76_less_partial).
* **C77** (SimpleKeyValue keeps no memory it does not need): addItems frees a null pointer instead of its copy, addItem returns without freeing when there is no = (C77_leak_refuted gives the exact number).
* **C78** (Group log levels follow the configuration): getNonEmptyStrIfDefined returns a pointer into a local string, so any configured group level is undefined behaviour (C78_dangling_refuted).
* **C79** (remove reports whether anything was removed): true is returned for every key without single quote and NUL, stored or not (C79_nothing_refuted).
* **C80** (Creating an indexed parameter set creates exactly that range): Exact for indices below 10^8 and names up to 95 characters; larger indices overrun (C80_large_refuted), with the largest index as upper end the loop does not end (C80_endless_refuted).
* **C81** (Every prepared statement is finalised exactly once): For every engine behaviour with at least one attempt; with none an unwritten pointer is finalised (C81_zero_refuted).
* **C82** (Existence checks and lookups find exactly the row with that key): Missing: keys with quotes, keys equal to column names, long conditions, sqlQuery texts of 199 or more than 5000 characters (format shortens them), and more refusals than attempts; all refuted with witnesses.
* **C83** (Attributes read back as set): Missing: quotes, and names and values of together 40 characters or more; both refuted.
* **C84** (Going through a query visits each row once, in order): Missing: refused or failing steps, and queries of 199 or more than 5000 characters; refuted.
* **C86** (Each program has its own pid file): Names of at most 84 characters; longer ones share files (C86_long_refuted).
* **C87** (The crash handler uses only settings that have been given values): For every history of registrations, settings and delivered signals: these use gSigVec, whose storage is zeroed. False for Handler called by the program: with an object of its own (C87_settings_refuted), or a number out of range (C87_range_refuted).
* **C88** (Packets go to the destination named and replies to the sender): Missing: names that cannot be resolved (packets go on to the old destination), Unix destinations (family never set; paths over 253 characters overrun the field), replies before a packet was read.
* **C89** (A text that is sent arrives whole): Texts of at most 1499 characters; longer ones arrive without their end.
* **C90** (Timed reads work on any open socket): Descriptors below 1024.
* **C91** (Sockets close exactly what they opened): True for any program whose sockets are constructed with an address and destroyed, with failing constructors in between (C91_descriptors_partial, C91_no_leak_partial). False after close() by hand and for copies (the destructor closes a number that may belong to something else by then), for a UDDSocket without local path (closes an arbitrary number), for a socket opened twice (leaks one); long paths overrun the address.
* **C92** (Fixed point numbers and floats convert with known accuracy): Rounding of floats is modelled exactly (Core/Float.lean, exponents unbounded). C92_roundtrip_iff describes completely which F16 survive; false above 128 for odd raw values, and undefined for the largest (C92_roundtrip_max_refuted); nearest is false just below half a step (C92_nearest_refuted).
* **C93** (Fixed point arithmetic and comparison with floats): Values of at most 256; above, the float has fewer bits than the F16 (C93_one_refuted, C93_compare_refuted). A reported strict order is right for all values (C93_compare_sound).
* **C94** (Bit vectors and text): All texts and vectors; only the rejection of other characters is false (C94_other_refuted).
* **C95** (Lists of addresses are checked entry by entry): Lists without ports (equivalence) and lists whose first entry alone has a port (acceptance). False otherwise: legal lists are refused and illegal ones accepted.
* **C96** (The generated script creates the default table): Names and defaults without single quote, descriptions without one of the two quotes; all three restrictions are needed (refutations). SQLite's lexer is assumed as in Config/Script.lean.
* **C97** (The generated manual lists every parameter once): Text below 400 MB (the replacement loop has 32-bit indices); the other special characters of TeX are not escaped (C97_percent_refuted), and a key made by a lookup has no visibility (C97_unset_refuted).
* **C98** (Searching the configuration finds the keys that contain the text): Texts without wildcards, quotes and NUL (C98_find_partial); the search in the schema holds for all texts (C98_similar). False: an underscore matches any character, a quote makes the search fail silently, values are printed ambiguously, and the two searches differ on capitals.
* **C99** (The list of all parameters shows the table): C99_pairs for every table with unique keys; C99_history_partial for histories whose keys and values contain no quotes or NUL (see C53).
* **C100** (Time stamps as text name the instant and sort like it): Years 0 to 9999. False outside: texts no longer sort (C100_year10000_refuted), far instants print an unwritten structure (C100_far_refuted; C100_range gives them to the second), local texts are ambiguous when the clock is set back (C100_local_refuted). gmtime_r is assumed to follow the Gregorian calendar.
* **C101** (Reader/writer lock excludes): Callers that do not lock inside their own writing section, unlock only what they hold, and stay below the reader limit. False for nested writing, reading inside writing and too many readers, where an ignored error leaves the caller without the lock (refutations).
* **C102** (A started thread runs its task once with its argument and can be joined): Life of a thread and ownership of blocks in all executions (C102_life, C102_blocks); no thread lost if calls on one object do not overlap. False otherwise (C102_race_refuted); joining an unstarted object is undefined; the error number is lost.
* **C103** (Initialised numbers behave like numbers): Exact while all values are in range; outside, the value is right modulo 2^bits for all types but the signed 32-bit ones, where it is undefined. The width of a field is not enforced (C103_field_refuted).
* **C104** (Memory statistics): Partial: copies, assignments, relabelling and 2^31 creations are excluded in C104_counts_partial and refuted separately. The calls are sequential; threads are C133.
* **C105** (Scanning into strings): Partial: %c, and a single string with nothing stored, are excluded and refuted. The format is given as a list of directives; sscanf is modelled after the C standard.
* **C106** (Time stamps of messages): Partial: with date, years outside 0 to 9999 are excluded; without date, years whose offset from 1900 does not fit an int (C106_range_refuted gives the instants to the second). localtime_r is the model of C100 shifted by the zone's offset.
* **C107** (Times in seconds and sleeping): Partial: ranges as stated; outside them refuted. What usleep then does (signals) is not modelled.
* **C108** (Log records reach their destinations): The theorem on the file assumes that gLogToFile is open during the whole execution; C143 covers opening it meanwhile. Each output call is atomic.
* **C109** (The keys every configuration has, and the state after the constructor): Values with a leading zero are excluded and refuted (C109_octal_refuted); isStatic after validating an unknown key, and a database that cannot be opened, are refuted separately. The list of changed values at the end of the constructor is C131.
* **C110** (What printKey and printDescription tell about a key): Partial: lists of choices without descriptions are excluded and refuted for 64-bit size_t (C110_plain_refuted); printKey for names without spaces and values unlike the marks (C110_key_refuted); fields with line ends refuted (C110_read_refuted).
* **C111** (Starting the logger): The level theorem is partial: for names of levels, a configuration without a level for Mutex.cpp, and files whose level was not looked up before (levels are kept, C111_kept_refuted); other texts are refuted (C111_unknown_refuted), and configurations without Log.Level (C111_no_level_refuted). Not modelled: the first line of the file, openlog, gPid.
* **C112** (The committer of the reports): The stored theorem is partial (shutdown while the thread sleeps); the other cases are refuted (C112_commit_refuted, C112_early_refuted, C112_other_refuted). Time in whole seconds, the thread goes on at once when not asleep, writing succeeds (failures in C67).
* **C113** (Logging, configuration and reports do not deadlock): Only the five mutexes are modelled; every branch is possible and loops run any number of times. Refuted for update hooks and for signal handlers (C113_hook_refuted, C113_signal_refuted).
* **C114** (Decimal values are checked against decimal ranges): Floats as exact rationals with unbounded exponent. Refuted for values within the rounding of a limit and for texts such as 1.5.7 (C114_rounding_refuted, C114_garbage_refuted).
* **C116** (Threads share the configuration table as if they took turns): False for isValidValue with a key that is not in the schema: mSchema[name] then writes to the map without lock while another thread reads it (C116_schema_refuted). One table per program (the time of the last purge is shared by all tables but each has its own lock); sequentially consistent steps; find and getAllPairs, which use no shared variable but the connection, are C140; the generators, which only read mSchema, are not included.
* **C117** (Threads looking up host names at once each get their own answer): True with gethostbyname2_r. False with gethostbyname: the mutex covers the call but not the use of the structure it returns, so thread 0 can get the address of the host thread 1 asked for (C117_threads_refuted); proved there for calls that do not overlap.
* **C118** (Messages on the console come out whole): True among COUT and CERR, and among log records. False for both together: COUT and CERR take gStreamLock, the log takes gLogToLock, so a log record can come into the middle of a line (C118_mixed_refuted). The format of the streams (precision, width) and a COUT inside the arguments of another are left out.
* **C119** (Regular expressions in the configuration and in Regexp): regcomp and regexec are arbitrary functions. False for copied Regexp objects (freed twice, C119_copy_refuted), on systems where regfree after a failed regcomp is undefined (POSIX; C119_regfree_refuted), and for REGEX_OPT where the empty text is no expression (C119_empty_refuted).
* **C120** (Exit codes reach the parent process): True for 0 to 255. An unsupported status is printed but used anyway: 256 and all its multiples look like success (C120_success_refuted).
* **C121** (A hashed name always has the hash of its text): True for the operations of the class. The operations inherited from std::string change the text only (C121_inherited_refuted).
* **C122** (A signal at any moment finds the registered handlers): All called and no deadlock are proved. At most once is proved for a single interruption; false for two signals at nearly the same moment (C122_twice_refuted) and for one signal while another thread registers (C122_again_refuted). One signal number; the handlers return and register nothing; printf and malloc in a signal handler are not considered.
* **C123** (Several threads can read from one socket): The first two sentences and the nonblocking case are proved for any number of threads; the end in time, no early -1 and the reply for one reader. False with two readers: on a blocking socket the thread that loses the packet after select waits beyond its timeout until another packet arrives (C123_waits_refuted), on a nonblocking one it reports a timeout at once (C123_early_refuted); a reply goes to the sender of the packet read last by any thread (C123_reply_refuted); nonblocking() does not wake a waiting thread (C123_switch_refuted).
* **C124** (A UDP socket has the port it was made for, and has it alone): The first sentence is proved. The last is false: open sets SO_REUSEADDR, with which Linux lets any number of UDP sockets that all set it have one port, so two UDPSockets (or two instances of a program) get the same port without any error (C124_shared_refuted). Ports held without SO_REUSEADDR are never shared.
* **C125** (Adding minutes moves a time by that much): True up to 71582788 minutes in each call; from then on minutes*60 wraps in unsigned (C125_wrap_refuted).
* **C126** (Macros for logging and assertions act as single statements): False in three ways: LOG before else takes the else (C126_else_refuted), LOG_ASSERT in an if asserts even if the condition does not hold (C126_assert_refuted) and evaluates its argument twice (C126_twice_refuted). All other uses: compiles exactly if no macro stands before else, and then does what was meant.
* **C127** (Signal objects do not disturb each other): Holds for gSigVec until an object is destroyed; after that nothing is called. False for handlers of any other object, which are never called (C127_other_refuted); for gSigVec and the program's own settings when another object is destroyed (C127_destroy_refuted); and registering after the end of gSigVec makes the signal use destroyed lists (C127_end_refuted).
* **C128** (Soft vectors made from other vectors, and dup, are safe to use): Casts of constant vectors are copies and constant segments show the right elements. False for casts of other vectors, which share the elements and take them along when they end (C128_cast_shared_refuted, C128_cast_end_refuted); for constant segments where the compiler leaves out the copy (C128_segment_refuted); and for dup from an owner, which shows freed memory (C128_dup_refuted).
* **C129** (The report of a blocked mutex names the locks that are held): Exact when no thread is in the middle of lock, trylock or unlock; at any other moment every name and every line shown was used by some call. False for reports read meanwhile, which can join the name of one lock and the line of another (C129_torn_refuted; the comment in Threads.cpp warns of changes while printing), and for programs that call timedlock, which does not count (C129_timedlock_refuted), and for names of files so long that format cuts the piece: line 12 of a name of 195 characters is shown as line 1 (C129_long_refuted).
* **C130** (Calls with a time limit sleep with the lock released until the limit): For clock readings that are not whole milliseconds, with two milliseconds or more left (one for iqWaitForEither), deadlines within 24 days. False when the clock shows a whole number of milliseconds and the sleep would end on a whole second: Timeval::future then gives one million microseconds, pthread_cond_timedwait rejects the limit, and the call looks again without releasing the lock (C130_refuted).
* **C131** (The start of the configuration lists exactly the changed parameters): Names free of quotes and not equal to column names, as in C53 (C131_column_refuted otherwise). A key whose own name is not its place in the schema makes the log call the database corrupt, with any database (C131_corrupt_refuted); the lines are ambiguous (C131_ambiguous_refuted).
* **C132** (Going through an InterthreadQueue under its lock is safe and sees a fixed picture): False for a queue that was connected with iqConnect: qGetLock returns mLock, but the calls lock *mLockPointer, so readers go on removing items (C132_connected_refuted). The assertion asks whether any thread has the lock, not whether the caller has it (C132_unlocked_refuted). A body that reads is undefined (C132_read_refuted).
* **C133** (The memory statistics are exact with any number of threads): Proved for the classes. A listing can show more objects alive than ever made (C133_torn_refuted). False for labels, whose map is used without the mutex (C133_label_refuted; exact if the uses do not overlap), and for objects made before gMemStats is constructed, which make the number negative when destroyed (C133_static_refuted).
* **C134** (The elements of arrays of counters do not interfere): Bases up to 95 characters and indices below 10^8 (C68); no failing writes and no clear (C67). A call with the full name counts for the element (C134_full_name_refuted).
* **C135** (F16 arithmetic obeys the laws of arithmetic up to rounding): The bounds are proved; the exact laws fail for quotients, regrouped and distributed products and signs (C135_exact_refuted), and the order fails when a product does not fit (C135_monotone_refuted).
* **C136** (format prints its arguments as printf would): C136_format_partial says exactly which combinations of types are right. False for a long number or double in one of the eight orders, which is converted to int (C136_long_refuted), for the literal 0, which becomes string(NULL) (C136_zero_refuted: format("%d",0) is undefined), and for strings with zeros (C136_nul_refuted); results of 199 characters are C45.
* **C137** (RefCntPointer is safe with several threads): Proved for any number of threads (C137_counts_partial, C137_safe_partial, C137_progress_partial). Missing: copying a variable of another thread, which can use a deleted object (C137_shared_refuted); more than 32767 pointers (C46_overflow_refuted).
* **C138** (An InterthreadQueue can be destroyed when it is no longer needed): Proved for programs that destroy a queue when no call on it is under way and before the queues it is connected to (C138_safe_partial, C138_items_partial). False if the reader of the last item destroys the queue: the writer may still be about to signal (C138_reader_refuted). False for connected queues in the other order, with one thread and no items: the destructor locks the mutex of the queue destroyed before (C138_order_refuted).
* **C139** (Messages can be logged from constructors and destructors of static objects): Proved for programs that keep to rules about what objects before the configuration table or the logger may do (C139_safe_partial); what is logged is proved for every program that ends properly (C139_messages, C139_alarms). False otherwise: an object before the configuration table may not use LOG, and after the logger not even _LOG with an alarm, since sLoggerInited says nothing about the table that addAlarm asks (C139_constructor_refuted); its destructor may not either (C139_destructor_refuted). That destructors of later objects may log rests on the messages that the constructor of the table logs itself, which bring the cache of the levels into being before it.
* **C140** (A listing shows one state of the configuration, also when other threads change it): Both functions take no lock and fetch row by row. Proved: a key that nobody changes appears exactly once, with its value (C140_untouched, C140_pairs_untouched); every row shown was in the table during the call (C140_origin); while nobody removes keys, getAllPairs returns the table as it is when the call ends (C140_sets_partial: a replaced row gets a new number after the cursor). False: with a removal the result may hold a pair of values that were never there together (C140_remove_refuted); find prints a key that is set meanwhile twice (C140_twice_refuted). Assumes the order in which SQLite numbers and fetches rows, stated in the file.
* **C141** (The thread that got a semaphore can destroy it): Proved for as many successful gets as posts begun, whatever their order (C141_destroy_partial, C141_posts_left), which includes the single use (C141_once): post signals before it unlocks, unlike InterthreadQueue::write (C138). False if posts run together: two posts and one get (C141_two_posts_refuted). Assumes that a mutex may be destroyed as soon as pthread_mutex_unlock has released it, as POSIX demands.
* **C142** (Encoded texts decoded by constructors of static objects): False of the code (C142_silent_refuted): the tables of the decoders are zero until the static object sBaseNDecoderInit is constructed, so an earlier call returns zero bytes and finds no wrong character. C142_order says for every order of construction what each call returns: the calls after that object are right (C37-C39), those before return zeros, as many as the text has digits for, with an error only for an odd number of hex digits or data after '='. C142_roundtrip: an early decoding of an encoded text is right just if all bytes are zero.
* **C143** (The log file when it is opened while other threads log): Without two calls at the same time nothing is lost and the records of each thread are in order (C143_file_partial), but the first line can come after records and even between the text of a record and its line end (C143_split_refuted), since it is written without the lock; if no record is destroyed during the call, the first line comes first and every record is one line (C143_apart_partial). Two calls at the same time can lose records that were already written, or write over them (C143_twice_refuted, C143_overwritten_refuted). Until the file is opened its old contents stay (C143_untouched).
* **C144** (Names and values in messages): The grammar is proved unambiguous, so the reading is the compiler's. It holds for arguments that bind more tightly than << (as tightly as a cast for LOGHEX); LOGVAR2, LOGHEX2 and LOGVARRANGE take any argument (C144_values_partial). LOGVAR(a ? b : c) prints a (C144_cond_refuted), LOGVAR(a && b) and LOGVAR(a || b) print a (C144_and_refuted), LOGVAR(a << b) prints both (C144_shift_refuted), other operators do not compile (C144_compare_rejected); LOGHEX(a >> b) casts only a (C144_hex_refuted); numbers of 8 bits print as characters, a zero ends the record (C144_byte_refuted); RN_WRITE_OPT_TEXT writes the stream to itself (C144_opt_refuted).
* **C145** (RN_BOUND limits a value): It holds if all types are signed or all three values are at least zero (C145_bound_partial, C145_nearest), and if the arguments keep their values (C145_steady_partial). With an unsigned value and the bounds -1 and 10, 5 becomes 4294967295 (C145_unsigned_refuted); the value is evaluated up to three times, so if it changes meanwhile the result can be outside any bounds (C145_changing_refuted).
* **C146** (Statistics after a crash): Counters that are not cleared and whose statements succeed (C67 has the rest), fewer than 2^32 increments in each life. Increments that returned are lost if the process ends before the next commit (C146_acknowledged_refuted). A commit is not a transaction, so counters together can belong to no moment: a success without an attempt stays for ever (C146_torn_refuted). With two callers of commit one may return and what was counted before it began is lost (C146_callers_refuted).
* **C147** (A block with parity on its way through an interleaver and a noisy channel): Two errors pass exactly if the generator divides X^d+1, d their distance in the block (C147_two); errors near each other in the channel need not be found: with three parity bits two neighbouring wrong bits pass (C147_neighbours_refuted). Soft bits are exact rationals.
* **C148** (The configuration after a crash): Keys and values without quotes, as in C53; processes at the same time are C54. SQLite is assumed to do each statement wholly or not at all and to keep it when the process ends.
* **C149** (The text of a Statistic): By the C standard the short form is undefined: strcpy moves a text by one character within its buffer (C149_overlap_refuted). The theorems assume a strcpy that copies from front to back. How a double looks is a parameter; from 2^32 samples on see C47.
* **C150** (Values printed one after the other): False after a Timeval, which leaves the stream in fixed notation, after BitVector::hex, which leaves it in decimal, and for a width, which fills up only the first part of all values but objects and texts.
* **C151** (Going through an InterthreadMap): For turns that do not erase the element the iterator is at; otherwise, and without the lock, moving the iterator is undefined; turns that write ahead may keep the loop from ending.
* **C152** (Alarms of several threads): False without a limit in the configuration: the exception leaves the lock with the thread, and every other thread waits for ever.
* **C153** (Several programs use one configuration): For keys and values that mean themselves in SQL (C61) and one table per program (C54). Values of different keys need not belong to one moment (C153_order_refuted). A query that the busy database refuses five times reads as the default, which then stays in the cache (C153_busy_refuted).
* **C154** (Several programs count into one reporting database): Counters that are not cleared and whose statements succeed, one committing thread per program, fewer than 2^32 increments in each run. A clear does not clear what another program has not committed yet (C154_clear_refuted); a statement refused because another program keeps the database busy loses the increments although commit returns (C154_busy_refuted).
* **C155** (Calls of a queue by a thread that has locked it): The first two parts hold (C155_private). The last is false for read() on an empty queue: pthread_cond_wait gives a recursive mutex back only once, so the thread sleeps with the lock, and neither it nor any other call on the queue ever returns (C155_read_refuted, for all continuations). read(timeout) returns NULL at the limit and keeps everybody else out until then (C155_until).
* **C156** (The average of a Statistic is accurate): For whole samples whose partial sums stay within 2^53 (always the case for fewer than 2^32 samples of magnitude up to 2^21, C156_small_partial) the sum is exact, the average is the double nearest to the mean and lies between the samples (C156_exact_partial). Beyond that samples can be lost altogether (C156_lost_refuted), and with fractions the average can be above the largest sample (C156_range_refuted, three times 0.1). In all cases the error is at most the largest magnitude divided by 2^20 (C156_bound).
* **C157** (A value that passed the check is read as what was checked): True for BOOLEAN, for ranges with a decimal point, and for addresses with a colon; for integer ranges and ports, true for every accepted text (also such as 5-3) without leading zero and ranges within the int limits. False for a leading zero, which the check ignores and strtol takes as octal: 010 is accepted for 10:20 and read as 8, 08 is accepted as a port and read as 0 (C157_octal_refuted); for limits at the end of int (C157_overflow_refuted); for an address without colon on 64 bits (C157_colon_refuted). Keys and values clean as in C53.
* **C158** (Bit vectors sent as datagrams arrive whole or not at all): True for vectors of one size of at most 12000 bits (C158_whole_partial); a shorter receiving vector gets the beginning of the one sent (C158_frame_partial). False above 12000 bits, since read takes 1500 bytes (C158_long_refuted), for different sizes, where the rest of the buffer shows an earlier packet unless the caller looks at the length (C158_mixed_refuted), and for packToString with write(const char*), which stops at the first zero byte (C158_text_refuted).
* **C159** (Time limits are kept when the system clock is set): Both gettimeofday and pthread_cond_timedwait follow the clock of the system, so the property is false: setting it back by h makes the call last h longer, for every h (C159_back_refuted), setting it on by the limit ends the call at once (C159_forward_refuted). What remains: moved by at most J from its first difference to real time, the call returns at most J + 2 ms early and J + 1 ms plus three times the reaction time of the thread late, and does not stay longer (C159_limit_partial), and never gets stuck (C159_goes_on_partial).
* **C161** (With the update hook the configuration is never stale): SQLite tells the hook only about rows changed through the same connection. So a change by another program stays unseen for up to three seconds (C161_other_refuted), also over a remove that finds nothing (C161_nothing_refuted). What the hook achieves: each set, and each remove of a key that is there, makes all earlier changes by others visible at once in all keys (C161_set_partial, C161_remove_partial), and nothing changes for a program on its own (C161_same_partial).
* **C162** (InterthreadQueueWithWait as a bounded buffer): The check in wait and the write are two separate calls, so the bound is N plus the number of producers (C162_bound_partial), and for every N and every number of producers some schedule attains it (C162_tight_refuted). It never happens that all producers sleep in wait with at most N items in the queue (C162_awake_partial), so never all producers while a reader sleeps (C162_no_deadlock_partial). But with two producers one can sleep on over an empty queue for as long as the other does not write and nobody reads (C162_asleep_refuted).
* **C164** (Structures linked by RefCntPointers are freed safely, once, and completely): Objects that point to each other in a circle are never deleted (C164_cycle_refuted); without circles exactly what is reachable exists (C164_complete_partial). The other parts hold for all structures (C164_safe, C164_counted, C164_kept). The calls nest as deep as the structure: for every depth there is a list whose deletion needs more (C164_depth_refuted), so that C164_safe presumes stack enough. One thread.
* **C175** (Running out of memory inside a call leaves locks free and data intact): Partial: code with lock() and unlock() keeps the lock when thrown out of (refuted with witnesses, and shown exactly for all patterns); a failed strdup of a configuration value is taken for an absent row (refuted). How many allocations a node or string needs is a parameter; comparisons and destructors throw nothing.
* **C176** (The library's own shared variables are used without data races): Partial: eight variables have data races (two-call witnesses in C176_races_refuted). Kept of the functions are locks, unlocks and accesses along all paths; a container is one variable; callbacks of signals use none of the variables; the report of a blocked mutex is left out (C129).
* **C178** (Programs that start and join threads and lock mutexes have no data races if the right to use data moves with these calls): Partial: the report of a lock that takes longer than a second reads the record without the mutex (witness in C178_report_refuted); timedlock with a deadline at a full second is left out (C30).
* **C181** (The thread that got the last element can destroy the object it came from): True for InterthreadMap, which notifies before it unlocks, for elements stored once under their key (C181_destroy_map, C181_writer_left). False for InterthreadQueueWithWait and InterthreadPriorityQueue, which signal after the unlock: the writer may be about to use the signal of an object that its reader has destroyed (C181_queue_with_wait_refuted, C181_priority_refuted). InterthreadQueue is C138, Semaphore C141.
* **C183** (A program can be started again after it has ended): True if every process that wrote its pid file ended after RegisterProgram returned, with exit or by a signal with a handler (C183_again_partial), and these are exactly the ways to end that remove the file (C183_ends). False after a process was killed or ended while registering (C183_killed_refuted, C183_early_refuted): then no start succeeds ever, whatever other processes do (C183_stale), until someone deletes the file, which always suffices and is of no use for other programs (C183_delete).
* **C186** (The list of callers in a report, and joined texts): With enough memory proved (C186_report_partial; read back by C186_readable), and never a part of a list (C186_whole). False when memory runs out: the block of backtrace_symbols is kept (C186_kept says exactly when, C186_kept_refuted), and the copy of the text "backtrace failed" can throw (C186_throws_refuted).
* **C188** (Signals that leave the program running do not disturb a thread that waits for a packet or sleeps): True of read without a limit: C188_read; of read with a limit when the signals have no handler: C188_timed_partial. False in programs that have called RegisterProgram: C188_resize_refuted (signal 28: a timed read throws SocketError, a sleep of an hour ends after a second). Exactly when a timed read fails: C188_interrupted. How long a sleep takes: C188_sleep. Each signal disturbs one wait at most: C188_once.

Remarks on properties proved in full:

* **C21** (SingleLinkList order and size accounting): Pushing an element that is already in the list loses elements (example beside the theorem), hence the condition.
* **C62** (SimpleKeyValue parses every name=value pair): For every text. getNum never sets its validity flag to true, it only clears it (C62_getNum).
* **C69** (Database access retries are bounded and return the first decisive answer): For every engine behaviour and bound; with bound 0 no attempt is made and busy is returned.
* **C74** (Socket timeout conversion is exact): For every timeout.
* **C85** (Query texts fit the buffers they are built in): For all names and keys.
* **C115** (A record warns once and always gives the same number): strtol and strtof after the C standard; hexadecimal floats, infinity and NaN left open (any behaviour); floats with unbounded exponent.
* **C160** (Bits written through a vector and its segments, in any order): Calls that write given values are described by the last one covering a bit (C160_last_write, C160_read); invert and copyToSegment, which depend on the bits before, by a function on bits (C160_history). Copies whose ranges overlap are undefined and not among the calls that fit (C18).
* **C163** (Items passed along a chain of queues arrive complete and in order): With two threads between the same two queues the order is not kept: the claim has one. Nobody else writes into the later queues, reads from the earlier ones, or clears.
* **C165** (Calls on queues, maps and semaphores do not keep each other going): Looks at the data that change nothing for any thread are counted apart: a timed read just before its limit, waitEither after its limit (C25). Without time limits there are none (C165_no_spins). That a thread that can go on is given the processor is left to the operating system; C165_settles holds for whichever order it chooses.
* **C166** (Programs may regard calls on queues, maps and semaphores as indivisible): Writes of non-NULL pointers to queues, as in C22. A call with a time limit may, in the description, return empty-handed whenever its queue is empty; C166_no_new_deadlock counts threads in such calls as able to go on, C166_exact leaves them out, as well as the order in which clear of a priority queue deletes the items. A thread is inside one object at a time. Each object has its own reading of the clock. C166_bounded and C166_comes_to_rest take a number that falls with every step and call of the program with indivisible calls; the latter is for programs without time limits, and priority queues with a strict order; looks at the data on a wakeup that finds nothing are counted, the clock is not.
* **C167** (A pool of workers between two queues delivers every result once, and always finishes): Items and results are non-NULL pointers, the workers' function is any function of the item. The threads are scheduled in any order; that each thread that can go on eventually does is not assumed: the number of steps is bounded, and when no thread can go on everything has been collected.
* **C168** (A semaphore that one thread sets up works as a lock): A thread inside post or get is not counted as owning it. Nothing is said about the order in which threads get it. If two threads set it up both can own it at once, by an example in the file.
* **C169** (With requests over a queue and answers over a map, every client gets the answers to its own requests): Keys are different numbers. Two clients with the same key can get each other's answers, by an example in the file. That each thread that can go on eventually does is not assumed: the number of steps is bounded, and when no thread can go on every client has its answers.
* **C170** (A pool of workers is shut down by stop items without losing work): A stop item is any value the program has chosen; a NULL pointer cannot serve (read passes over it). Where a producer's last item is not a stop item, an item can stay unread, by an example in the file. That each thread that can go on eventually does is not assumed: the number of steps is bounded, and when no thread can go on the claim holds.
* **C171** (Sections under a lock are indivisible, down to single accesses to memory): In Timeval::remaining and Signal::wait the clock is read twice, once for the remaining time and once for the limit of the wait; the model uses the first reading for both, as in C24. Destructors of items (run by clear) do not call the queue.
* **C172** (Queues, maps, priority queues and semaphores work as described however their calls interrupt each other inside): Calls on the standard containers are single steps that do what the C++ standard says; the time is read once per pass (see C171). Destructors of items do not call the queue or map.
* **C173** (Things handed over through queues, maps and semaphores need no lock of their own): Happens-before consists of the order within each thread and of the order from each unlock of a mutex (including the one inside of pthread_cond_wait) to each later lock of it, which C++ and POSIX guarantee. An item that front or peek shows, or that a get leaves in the map, is not handed over.
* **C174** (Data guarded by a Mutex or an RWLock are used without data races): Happens-before consists of the order within each thread, and of the order from a release of a lock to later acquisitions of it (for RWLocks: unless both are for reading), which C++ and POSIX guarantee; of nested locks and unlocks only the outermost count. Clock readings are normalised.
* **C177** (What a thread is given at its start, and what join brings back, is used without data races): The order of uses is that of C++ and POSIX for pthread_create and pthread_join; mThread counts as written by pthread_create after the new thread has begun; freed blocks are not reused.
* **C179** (Programs that combine threads, mutexes, queues, maps and semaphores have no data races if the right to use data moves with the calls): The record a mutex keeps of its locks is left out here, see C178.
* **C180** (Data that move between threads are read as they were written last): The record a mutex keeps of its locks is left out here, see C178.
* **C182** (Mutexes locked in a fixed order, together with queues, maps and semaphores, do not deadlock): Proved: C182_goes_on, C182_no_cycle; and when nothing goes on any more, threads are left only waiting for elements (C182_rest). Both rules are needed: opposite orders (C182_order_needed), and a blocking read with a mutex locked (C182_no_lock_needed). The passes about to run must be defined (no overflow of the clock in calls with a time limit, comparisons that order); for calls without time limit on objects other than priority queues they always are (defined_plain).
* **C184** (Reader/writer locks taken in a fixed order do not deadlock): Proved: C184_goes_on. The order is needed (C184_order_needed), and nested reading needs locks that prefer readers (C184_nested_needed); going from reading to writing waits for oneself (C101_upgrade_waits). Unlocking what one does not have is undefined (C101).
* **C185** (Mutexes and reader/writer locks taken in one fixed order, together with queues, maps and semaphores, do not deadlock): Proved: C185_goes_on, C185_no_cycle. An order for each kind of lock is not enough (C185_order_needed). Passes inside of objects must be defined (as in C182), and unlocking what one does not have is undefined (C101).
* **C187** (Programs that lock in a fixed order and join only later threads, without locks, do not deadlock): Proved: C187_goes_on, C187_locks. Both parts of the rule are needed: C187_order_needed, C187_bare_needed. All threads are there from the beginning; what join says about a thread is in C102.

## Axioms

Output of `#print axioms` on every property theorem (names without the prefix `Verif.`), grouped.

* no axioms (26): VectorHeap.C17_own_segment_refuted, VectorHeap.C17_self_refuted, VectorHeap.C18_index_wrap_refuted, VectorHeap.C18_segment_wrap_refuted, VectorHeap.C18_tail_refuted, Interthread.C33_client_lock_refuted, Interthread.C33_reconnect_refuted, Timeval.C34_refuted, Timeval.C35_documented_range_refuted, Utils.C42_spurious_error_log, Utils.C43_forty_refuted, F16.C51_refuted, Config.C62_getNum, Logger.C64_undefined_refuted, Sockets.C88_silent_refuted, Scalar.C103_field_refuted, Scalar.C103_narrow_refuted, Scalar.C103_overflow_refuted, Memory.C104_copy_refuted, Memory.C104_unlabelled_refuted, Sockets.Ports.C124_shared_refuted, Timeval.C125_wrap_refuted, VectorHeap.C128_dup_refuted, F16.C135_exact_refuted, Memory.Exhausted.C175_manual_partial, Memory.Exhausted.C175_register_refuted

* `propext` (49): Interthread.C22_real_time, Interthread.C24_long_timeout_refuted, Interthread.C27_get_returns_own_key, Interthread.C27_real_time, Interthread.C28_real_time, Interthread.C29_linearizable, Interthread.C29_real_time, Interthread.C29_remembered, Threads.C30_lockcnt_refuted, Threads.C30_timedlock_refuted, F16.C50_saturation_refuted, Reporting.C67_max, Sockets.C73_no_colon, Sockets.C88_reply, Sockets.C88_reply_refuted, Sockets.C88_udp_partial, Sockets.C88_unix_refuted, Sockets.C89_text_partial, Sockets.C90_descriptor_refuted, Sockets.Descriptors.C91_leak_refuted, Config.C95_empty, Config.C95_optional, Threads.Start.C102_unstarted_refuted, Timeval.Seconds.C107_msleep_refuted, Config.Builtin.C109_static_partial, Config.Regex.C119_empty_refuted, Process.SignalThreads.C122_again_refuted, Process.SignalThreads.C122_twice_refuted, Macros.C126_else_refuted, Interthread.C130_refuted, Interthread.Iterate.C132_assertion, Interthread.Iterate.C132_connected_refuted, Interthread.Iterate.C132_excludes, Interthread.Iterate.C132_read_refuted, Interthread.Iterate.C132_unlocked_refuted, Memory.Threads.C133_label_refuted, Memory.Threads.C133_static_refuted, Memory.Threads.C133_torn_refuted, F16.C135_associative_sum, F16.C135_commutative, F16.C135_inverse, Utils.RefThreads.C137_shared_refuted, Interthread.Life.C138_order_refuted, Interthread.Life.C138_reader_refuted, Logger.AlarmThreads.C152_each, Interthread.ClockSet.C159_forward_refuted, Interthread.C165_no_spins, Monitor.C171_exact, Memory.Exhausted.C175_queue_write

* `Quot.sound, propext` (197): BitVector.C01_fillField_misfit, BitVector.C01_peekField, BitVector.C01_peekField_safe_iff, BitVector.C02_mirror_read, BitVector.C02_misfit, BitVector.C02_peekFieldReversed, BitVector.C04_packToString_eq_pack, BitVector.C05_unhex_whitespace_rereads, Crc.C07_constant_term_needed, BitVector.C09_map, BitVector.C09_map_unmap, BitVector.C09_unmap, BitVector.C09_unmap_map, BitVector.C11_LSB8MSB, BitVector.C11_involution, BitVector.C12_eq_refuted, BitVector.C12_eq_sound, BitVector.C12_invert_bit, BitVector.C13_sum, BitVector.C13_sum_append, VectorHeap.C16_destroy_total, VectorHeap.C18_copy_out_of_range_partial, VectorHeap.C18_out_of_range_partial, Lists.C19_null_iff_empty, Lists.C21_list, Interthread.C22_conservation, Interthread.C22_fifo, Interthread.C22_linearizable, Interthread.C23_nonnull_needed, Interthread.C24_takes_item, Interthread.C25_returns_only_nonempty, Interthread.C25_returns_when_nonempty_partial, Interthread.C26_bounds_refuted, Interthread.C26_one_waiter_partial, Interthread.C26_returns_only_low, Interthread.C26_two_waiters_refuted, Interthread.C27_destructor_refuted, Interthread.C27_no_lost_wakeup, Interthread.C29_at_most_one_success_per_post, Interthread.C33_client_lock_partial, Interthread.C33_group_partial, Interthread.C33_wakeup_partial, Interthread.C33_wakeup_refuted, Timeval.C34_future_exact, Timeval.C36_future_deadline, Timeval.C36_passed_iff, Timeval.C36_passed_monotone, Utils.C41_negative_diverges_refuted, Utils.C41_zero_refuted, Utils.C43_cstrGetArg, Utils.C43_words_are_runs, Utils.C45_format_partial, Utils.C45_osprintf, Utils.C45_refuted, Utils.C48_range, Utils.C49_reverse, Utils.C49_roundtrip, Utils.C49_shape, Utils.C49_uint32, Utils.C52_thirty_columns, Config.C55_decimal, Config.C55_hexadecimal, Config.C55_notations, Config.C55_octal, Config.C56_numbers_partial, Config.C56_strings, Logger.C65_threads_refuted, Logger.LevelThreads.C65_change_partial, Logger.LevelThreads.C65_threads_partial, Logger.C66_group_refuted, Reporting.C67_clear_rows, Reporting.C67_counts_partial, Reporting.C67_failure_refuted, Reporting.C67_uncreated_refuted, Reporting.C67_wrap_refuted, Process.C72_kill_refuted, Process.C72_last_refuted, Process.C72_out_of_range, Process.C72_second_refuted, Sockets.C73_exact, Config.C77_addItem_partial, Process.C87_delivered_partial, Process.C87_range_refuted, Process.C87_settings_refuted, Sockets.C88_path_refuted, Sockets.C88_text, Sockets.C88_text_cut, Sockets.C89_long_refuted, Sockets.C91_path_refuted, Sockets.Descriptors.C91_close_refuted, Sockets.Descriptors.C91_copy_refuted, Sockets.Descriptors.C91_unopened_closes_refuted, BitVector.C94_length, BitVector.C94_print, Config.C99_pairs, Threads.C101_exclusion_partial, Threads.C101_nested_refuted, Threads.C101_progress_partial, Threads.C101_read_in_write_refuted, Threads.C101_readers_refuted, Threads.C101_upgrade_waits, Threads.Start.C102_blocks, Threads.Start.C102_error_refuted, Threads.Start.C102_life, Threads.Start.C102_polite_partial, Threads.Start.C102_race_refuted, Scalar.C103_exact, Utils.Scanf.C105_scan_partial, Utils.Scanf.C105_unique, Reporting.Committer.C112_commit_refuted, Reporting.Committer.C112_construct, Reporting.Committer.C112_early_refuted, Reporting.Committer.C112_other_refuted, Sockets.Resolve.C117_apart_partial, Sockets.Resolve.C117_one_at_a_time, Sockets.Resolve.C117_reentrant_partial, Threads.Console.C118_lines_partial, Threads.Console.C118_quiet_partial, Config.Regex.C119_objects_partial, Config.Regex.C119_regex_opt_partial, Config.Regex.C119_regex_partial, Config.Regex.C119_string, Config.Regex.C119_use, Config.HashObject.C121_hash_partial, Process.SignalThreads.C122_all_called, Process.SignalThreads.C122_once_partial, Sockets.Readers.C123_early_refuted, Sockets.Readers.C123_reply_refuted, Sockets.Ports.C124_exclusive_partial, Sockets.Ports.C124_throws, Timeval.C125_minutes_partial, Timeval.C125_passed_partial, Macros.C126_assert_refuted, Process.Objects.C127_destroy_refuted, Process.Objects.C127_end_refuted, Process.Objects.C127_other_refuted, VectorHeap.C128_cast_end_refuted, VectorHeap.C128_dup_partial, VectorHeap.C128_segment_outside_partial, Memory.Threads.C133_label_partial, Utils.Printf.C136_width, Utils.Printf.C136_zero_refuted, Interthread.Life.C138_items_partial, Interthread.Life.C138_safe_partial, Logger.Statics.C139_alarms, Logger.Statics.C139_messages, Config.Listing.C140_origin, Interthread.C141_two_posts_refuted, Macros.Bound.C145_changing_refuted, Macros.Bound.C145_steady_partial, Macros.Bound.C145_unsigned_refuted, Reporting.Crash.C146_create, Reporting.Crash.C146_max, Interthread.Walk.C151_alone, Interthread.Walk.C151_current_refuted, Interthread.Walk.C151_grows_refuted, Interthread.Walk.C151_later, Interthread.Walk.C151_unlocked_refuted, Interthread.Walk.C151_walk, Logger.AlarmThreads.C152_newest_partial, Logger.AlarmThreads.C152_turns, Logger.AlarmThreads.C152_undefined_refuted, Reporting.Crash.Programs.C154_grows_partial, Reporting.Crash.Programs.C154_max, Sockets.Frames.C158_mixed_refuted, Interthread.ClockSet.C159_back_refuted, BitVector.Views.C160_misfit, BitVector.Views.C160_segment, Monitor.C171_indivisible, Interthread.Containers.C172_semaphore, Interthread.Containers.C172_semaphore_exact, Monitor.Tree.C172_safe, Threads.C174_timedlock_race, Memory.Exhausted.C175_blocked, Memory.Exhausted.C175_config_lock, Memory.Exhausted.C175_config_partial, Threads.Library.C176_races_refuted, Threads.Start.C177_early_races, Threads.Own.C178_report_refuted, Together.C179_after_races, Values.C180_stale, Interthread.MapLife.C181_priority_refuted, Interthread.MapLife.C181_queue_with_wait_refuted, LockOrder.C182_no_lock_needed, LockOrder.C182_order_needed, Threads.RwOrder.C184_nested_needed, Threads.RwOrder.C184_order_needed, AllLocks.C185_order_needed, JoinOrder.C187_bare_needed, JoinOrder.C187_join, JoinOrder.C187_order_needed, Process.Interrupted.C188_few, Process.Interrupted.C188_interrupted, Process.Interrupted.C188_once, Process.Interrupted.C188_read, Process.Interrupted.C188_sleep, Process.Interrupted.C188_timed_partial

* `Classical.choice, Quot.sound, propext` (687): BitVector.C01_bit_after_fill, BitVector.C01_fillField, BitVector.C01_roundtrip, BitVector.C02_fillFieldReversed, BitVector.C02_mirror_write, BitVector.C02_roundtrip, BitVector.C03_no_overrun, BitVector.C03_serialise, BitVector.C03_serialise_reversed, BitVector.C04_pack_layout, BitVector.C04_roundtrip, BitVector.C04_unpack_layout, BitVector.C05_hex_not_injective, BitVector.C05_hex_roundtrip_partial, BitVector.C05_refuted, BitVector.C05_unhex, Crc.C06_codeword_checks, Crc.C06_inverted_codeword, Crc.C06_target_frame, Crc.C07_burst_detected, Crc.C07_burst_syndrome_nonzero, Crc.C07_single_bit_detected, Crc.C08_lengths, Crc.C08_linear, Crc.C08_parity_is_remainder, Crc.C08_syndrome_is_remainder, Soft.C10_copyPunctured, Soft.C10_copyPunctured_rejects, Soft.C10_copyUnPunctured, Soft.C10_copyUnPunctured_rejects, Soft.C10_puncture_unpuncture, Soft.C10_unpuncture_puncture, BitVector.C12_eq_iff_bits_partial, BitVector.C12_invert_invert, BitVector.C13_sum_invert, Soft.C14_slice_of_bits, Soft.C14_slice_threshold, VectorHeap.C15_clone_independent, VectorHeap.C15_segment_aliases, VectorHeap.C16_no_leak, VectorHeap.C16_owned_once, VectorHeap.C17_assign_partial, VectorHeap.C18_concat, VectorHeap.C18_copyToSegment_overlap_refuted, VectorHeap.C18_copyToSegment_partial, VectorHeap.C18_fill_partial, VectorHeap.C18_head_tail, VectorHeap.C18_read_partial, VectorHeap.C18_segment, VectorHeap.C18_segmentCopyTo_overlap_refuted, VectorHeap.C18_segmentCopyTo_partial, VectorHeap.C18_write_partial, Lists.C19_ideal_deque, Lists.C19_size_partial, Lists.C19_size_refuted, Lists.C20_high_water, Lists.C20_recycling, Interthread.C23_covered, Interthread.C23_no_lost_wakeup, Interthread.C23_progress, Interthread.C23_settled, Interthread.C24_null_only_near_deadline_partial, Interthread.C24_returns_at_deadline_partial, Interthread.C25_timeout_refuted, Interthread.C26_readers_settled, Interthread.C27_linearizable, Interthread.C27_ownership_partial, Interthread.C28_conservation, Interthread.C28_linearizable, Interthread.C28_no_lost_wakeup, Interthread.C28_sorted, Interthread.C28_top_exists, Interthread.C29_no_lost_wakeup, Threads.C30_lockcnt_partial, Threads.C30_released_partial, Threads.C30_success_means_held_partial, Threads.C31_holds_all, Threads.C31_restored, Threads.C32_deadlock_refuted, Threads.C32_no_deadlock_partial, Threads.C32_not_all_blocked_partial, Timeval.C34_future_normal_partial, Timeval.C34_timespec, Timeval.C35_antisymmetric_partial, Timeval.C35_delta_partial, Timeval.C35_monotone, Timeval.C36_passed_remaining, Encoding.C37_encode_rfc, Encoding.C37_encode_shape, Encoding.C37_roundtrip, Encoding.C38_case_refuted, Encoding.C38_roundtrip, Encoding.C38_unknown, Encoding.C39_base64_decode, Encoding.C39_base64_depends_only, Encoding.C39_base64_message, Encoding.C39_base64_refuted, Encoding.C39_hex_error, Encoding.C39_hex_message, Encoding.C39_hex_result, Url.C40_output_alphabet_partial, Url.C40_refuted, Url.C40_roundtrip_partial, Url.C40_unchanged, Utils.C41_gcd_positive_partial, Utils.C42_empty_search_refuted, Utils.C42_no_occurrence, Utils.C42_replaceAll_partial, Utils.C43_cstrSplit, Utils.C43_rest_refuted, Utils.C43_stringSplit, Utils.C43_stringSplit_partial, Utils.C44_firstlines, Utils.C44_monotone, Utils.RefCnt.C46_counts_partial, Utils.RefCnt.C46_overflow_refuted, Utils.RefCnt.C46_self_assign, Utils.RefCnt.C46_step_partial, Utils.C47_statistic_partial, Utils.C47_wrap_refuted, Utils.C48_bitset, F16.C50_add, F16.C50_compare, F16.C50_div, F16.C50_mul, F16.C50_mul_modulo_partial, F16.C50_ofInt, F16.C50_sub, F16.C51_chain_partial, Utils.C52_aligned, Utils.C52_tabs, Config.C53_cache_invisible_partial, Config.C53_column_refuted, Config.C53_defines_partial, Config.C53_failed_set, Config.C53_getStr_partial, Config.C53_quotes_refuted, Config.C53_reports_partial, Config.C53_validation_refuted, Config.C54_clock_refuted, Config.C54_two_tables_forever_refuted, Config.C54_two_tables_refuted, Config.C54_visible_partial, Config.C55_round_trip, Config.C55_set_get_partial, Config.C56_tab_refuted, Config.C57_boolean, Config.C57_empty_refuted, Config.C57_garbage_refuted, Config.C57_ip_complete, Config.C57_ip_partial, Config.C57_nul_refuted, Config.C57_optional, Config.C57_path_partial, Config.C57_port_partial, Config.C58_described_partial, Config.C58_first_refuted, Config.C58_plain_32_partial, Config.C58_plain_64, Config.C58_plain_refuted, Config.C59_cidr_partial, Config.C59_garbage_refuted, Config.C59_hostport_partial, Config.C59_ipport_partial, Config.C59_missing_32_partial, Config.C59_missing_refuted, Config.C59_no_port_refuted, Config.C60_dash_refuted, Config.C60_overflow_refuted, Config.C60_range_partial, Config.C60_reject, Config.C61_column_refuted, Config.C61_description_refuted, Config.C61_injection_refuted, Config.C61_lookup_partial, Config.C61_other_key_refuted, Config.C61_quote_refuted, Config.C61_quotes_refuted, Config.C61_remove_partial, Config.C61_set_partial, Config.C62_addItems, Config.C62_pairs, Config.C63_collision_refuted, Config.C63_common_ending, Config.C63_equivalence, Config.C63_file_names_refuted, Config.C63_short_partial, Logger.C63_cache_refuted, Logger.C64_constant_partial, Logger.C64_kept, Logger.C64_raise_refuted, Logger.C64_wrap_refuted, Logger.C65_own_level_partial, Logger.C65_recent_partial, Logger.C66_default, Logger.C66_file, Logger.C66_group, Logger.C66_logged_partial, Logger.C66_names, Logger.C66_unknown, Logger.C66_unknown_refuted, Reporting.C67_clear, Reporting.C67_clear_refuted, Reporting.C67_commit, Reporting.C68_commands_partial, Reporting.C68_exact, Reporting.C68_index_partial, Reporting.C68_index_refuted, Reporting.C68_long_name_refuted, Sqlite.C69_first, Sqlite.C69_prepare, Sqlite.C69_run, Process.C70_one_instance_partial, Process.C70_race_refuted, Process.C70_resize_refuted, Process.C71_alive_refuted, Process.C71_early_refuted, Process.C71_exit, Process.C71_last_signal_refuted, Process.C71_not_created, Process.C71_registering, Process.C71_signals, Process.C71_turned_away, Process.C71_unregistered_refuted, Process.C72_first_partial, Process.C72_history, Process.C72_program, Sockets.C73_garbage_refuted, Sockets.C73_host_port_partial, Sockets.C73_wrap_refuted, Sockets.C74_limit, Soft.C75_energy, Soft.C75_snr_clamp_refuted, Soft.C75_snr_range_partial, Soft.C75_unknown, Config.C76_greater_refuted, Config.C76_less_partial, Config.C76_opposite_refuted, Config.C77_leak_refuted, Logger.C78_dangling_refuted, Logger.C78_unset_partial, Config.C79_nothing_refuted, Config.C79_removed_partial, Reporting.C80_endless_refuted, Reporting.C80_large_refuted, Reporting.C80_range_partial, Sqlite.C81_command, Sqlite.C81_lookup, Sqlite.C81_query, Sqlite.C81_zero_refuted, Sqlite.C82_199_refuted, Sqlite.C82_busy_refuted, Sqlite.C82_column_refuted, Sqlite.C82_contention_partial, Sqlite.C82_cut_refuted, Sqlite.C82_exists_partial, Sqlite.C82_long_refuted, Sqlite.C82_lookup_partial, Sqlite.C82_number, Sqlite.C82_quote_refuted, Sqlite.C82_text_partial, Sqlite.C82_unsigned_partial, Sqlite.C82_value_partial, Sqlite.C83_attributes_partial, Sqlite.C83_long_refuted, Sqlite.C83_quote_refuted, Sqlite.C84_again_refuted, Sqlite.C84_error_refuted, Sqlite.C84_rows_partial, Sqlite.C85_texts, Process.C86_file_partial, Process.C86_long_refuted, Process.C86_own_partial, Sockets.C90_timed_partial, Sockets.Descriptors.C91_descriptors_partial, Sockets.Descriptors.C91_no_leak_partial, F16.C92_nearest_refuted, F16.C92_ofDouble, F16.C92_ofFloat_error, F16.C92_ofFloat_exact_partial, F16.C92_roundtrip_iff, F16.C92_roundtrip_max_refuted, F16.C92_roundtrip_partial, F16.C92_roundtrip_refuted, F16.C92_toFloat_error, F16.C92_toFloat_exact, F16.C93_compare_partial, F16.C93_compare_refuted, F16.C93_compare_sound, F16.C93_divFloat_error, F16.C93_div_zero, F16.C93_mulFloat_error, F16.C93_one_partial, F16.C93_one_refuted, BitVector.C94_other_refuted, BitVector.C94_parse, BitVector.C94_parse_bit, BitVector.C94_soft_ofBits, BitVector.C94_soft_sliced, BitVector.C94_text_roundtrip, BitVector.C94_vector_roundtrip, Config.C95_first_port_partial, Config.C95_illegal_refuted, Config.C95_plain_partial, Config.C95_second_port_refuted, Config.C96_both_quotes_refuted, Config.C96_default_refuted, Config.C96_doubled_refuted, Config.C96_fresh_partial, Config.C96_injection_refuted, Config.C96_script_partial, Config.C96_twice_partial, Config.C97_percent_refuted, Config.C97_sections_partial, Config.C97_text_partial, Config.C97_unset_refuted, Config.C98_case_refuted, Config.C98_find_partial, Config.C98_quote_refuted, Config.C98_similar, Config.C98_value_refuted, Config.C98_wildcard_refuted, Config.C99_history_partial, Timeval.C100_far_refuted, Timeval.C100_iso_partial, Timeval.C100_local_refuted, Timeval.C100_order_partial, Timeval.C100_range, Timeval.C100_unique, Timeval.C100_year10000_refuted, Scalar.C103_wrap, Memory.C104_counts_partial, Memory.C104_overflow_refuted, Memory.C104_relabel_refuted, Utils.Scanf.C105_char_refuted, Utils.Scanf.C105_single_refuted, Utils.Scanf.C105_tail_refuted, Utils.Timestr.C106_date_partial, Utils.Timestr.C106_order_partial, Utils.Timestr.C106_range_refuted, Utils.Timestr.C106_time_partial, Utils.Timestr.C106_wrap_refuted, Timeval.Seconds.C107_accurate_partial, Timeval.Seconds.C107_long_sleep_refuted, Timeval.Seconds.C107_monotone_partial, Timeval.Seconds.C107_msleep_exact, Timeval.Seconds.C107_msleep_partial, Timeval.Seconds.C107_sleepf_partial, Logger.Record.C108_file, Logger.Record.C108_lines, Logger.Record.C108_stderr_refuted, Logger.Record.C108_sys, Logger.Record.C108_text, Logger.Record.C108_zero_refuted, Config.Builtin.C109_alias_refuted, Config.Builtin.C109_defaults, Config.Builtin.C109_hook, Config.Builtin.C109_level, Config.Builtin.C109_name, Config.Builtin.C109_octal_refuted, Config.Builtin.C109_open_refuted, Config.Builtin.C109_range_partial, Config.Builtin.C109_schema, Config.Builtin.C109_unknown_refuted, Config.Describe.C110_choice_partial, Config.Describe.C110_key_partial, Config.Describe.C110_key_refuted, Config.Describe.C110_names, Config.Describe.C110_other, Config.Describe.C110_plain_refuted, Config.Describe.C110_range, Config.Describe.C110_read, Config.Describe.C110_read_refuted, Config.Describe.C110_scope, Config.Describe.C110_scope_refuted, Logger.Init.C111_group_init, Logger.Init.C111_groups, Logger.Init.C111_kept_refuted, Logger.Init.C111_level_partial, Logger.Init.C111_no_level_refuted, Logger.Init.C111_once, Logger.Init.C111_program, Logger.Init.C111_short_refuted, Logger.Init.C111_stale_refuted, Logger.Init.C111_unknown_refuted, Reporting.Committer.C112_conserved, Reporting.Committer.C112_delay, Reporting.Committer.C112_ends, Reporting.Committer.C112_stored_partial, Logger.Locks.C113_hook_refuted, Logger.Locks.C113_no_deadlock, Logger.Locks.C113_signal_refuted, Config.C114_garbage_refuted, Config.C114_inside, Config.C114_outside_partial, Config.C114_range, Config.C114_reject, Config.C114_rounding_refuted, Config.C115_float, Config.C115_once, Config.C115_same, Config.C115_warn_float, Config.C115_warn_integer, Config.Conc.C116_accesses, Config.Conc.C116_atomic_partial, Config.Conc.C116_progress, Config.Conc.C116_race_partial, Config.Conc.C116_schema_refuted, Config.Conc.C116_steps, Config.Conc.C116_values_partial, Sockets.Resolve.C117_threads_refuted, Threads.Console.C118_mixed_refuted, Threads.Console.C118_text, Config.Regex.C119_copy_refuted, Config.Regex.C119_regfree_refuted, Process.ExitStatus.C120_codes_partial, Process.ExitStatus.C120_distinct_partial, Process.ExitStatus.C120_success_refuted, Config.HashObject.C121_equal_partial, Config.HashObject.C121_inherited_refuted, Process.SignalThreads.C122_progress, Sockets.Readers.C123_blocking, Sockets.Readers.C123_each_once, Sockets.Readers.C123_in_time_partial, Sockets.Readers.C123_nonblocking, Sockets.Readers.C123_not_early_partial, Sockets.Readers.C123_reply_partial, Sockets.Readers.C123_switch_refuted, Sockets.Readers.C123_waits_refuted, Sockets.Ports.C124_port, Macros.C126_evaluations, Macros.C126_statement_partial, Macros.C126_twice_refuted, Process.Objects.C127_called_partial, Process.Objects.C127_destroyed, Process.Objects.C127_dump, Process.Objects.C127_own, VectorHeap.C128_cast_const, VectorHeap.C128_cast_shared_refuted, VectorHeap.C128_dup_owner, VectorHeap.C128_head_tail, VectorHeap.C128_segment, VectorHeap.C128_segment_partial, VectorHeap.C128_segment_refuted, Threads.Report.C129_any_partial, Threads.Report.C129_long_refuted, Threads.Report.C129_report_partial, Threads.Report.C129_timedlock_refuted, Threads.Report.C129_torn_refuted, Interthread.C130_either_partial, Interthread.C130_limit, Interthread.C130_map_partial, Interthread.C130_priority_partial, Interthread.C130_readW_partial, Interthread.C130_read_partial, Config.C131_ambiguous_refuted, Config.C131_column_refuted, Config.C131_complete, Config.C131_corrupt_refuted, Config.C131_default_level, Config.C131_dump_partial, Interthread.Iterate.C132_snapshot_partial, Memory.Threads.C133_exact_partial, Memory.Threads.C133_printed_partial, Memory.Threads.C133_safe_partial, Reporting.Arrays.C134_counts_partial, Reporting.Arrays.C134_full_name_refuted, Reporting.Arrays.C134_names, F16.C135_distributive, F16.C135_monotone, F16.C135_monotone_refuted, F16.C135_quotient, F16.C135_regroup, F16.C135_signs, F16.C135_units, Utils.Printf.C136_format_partial, Utils.Printf.C136_long_refuted, Utils.Printf.C136_nul_refuted, Utils.RefThreads.C137_counts_partial, Utils.RefThreads.C137_progress_partial, Utils.RefThreads.C137_safe_partial, Logger.Statics.C139_constructor_refuted, Logger.Statics.C139_destructor_refuted, Logger.Statics.C139_safe_partial, Config.Listing.C140_pairs_untouched, Config.Listing.C140_remove_refuted, Config.Listing.C140_sets_partial, Config.Listing.C140_twice_refuted, Config.Listing.C140_untouched, Interthread.C141_destroy_partial, Interthread.C141_once, Interthread.C141_posts_left, Encoding.Early.C142_order, Encoding.Early.C142_roundtrip, Encoding.Early.C142_silent_refuted, Logger.FileOpen.C143_apart_partial, Logger.FileOpen.C143_file_partial, Logger.FileOpen.C143_overwritten_refuted, Logger.FileOpen.C143_split_refuted, Logger.FileOpen.C143_twice_refuted, Logger.FileOpen.C143_untouched, Macros.Values.C144_and_refuted, Macros.Values.C144_byte_refuted, Macros.Values.C144_compare_rejected, Macros.Values.C144_cond_refuted, Macros.Values.C144_hex_refuted, Macros.Values.C144_opt_refuted, Macros.Values.C144_shift_refuted, Macros.Values.C144_values_partial, Macros.Bound.C145_bound_partial, Macros.Bound.C145_nearest, Reporting.Crash.C146_acknowledged_refuted, Reporting.Crash.C146_callers_refuted, Reporting.Crash.C146_life, Reporting.Crash.C146_lives, Reporting.Crash.C146_torn_refuted, Crc.Channel.C147_burst, Crc.Channel.C147_check, Crc.Channel.C147_neighbours_refuted, Crc.Channel.C147_noise, Crc.Channel.C147_odd, Crc.Channel.C147_sends, Crc.Channel.C147_two, Config.Conc.C148_durable_partial, Config.Conc.C148_kept_partial, Utils.StatText.C149_count_partial, Utils.StatText.C149_order_partial, Utils.StatText.C149_overlap_refuted, Utils.StatText.C149_text_partial, Streams.C150_after_timeval, Streams.C150_fixed, Streams.C150_flags, Streams.C150_hex, Streams.C150_hex_refuted, Streams.C150_independent_partial, Streams.C150_timeval_refuted, Streams.C150_width_partial, Streams.C150_width_refuted, Interthread.Walk.C151_ends, Config.Programs.C153_agree_partial, Config.Programs.C153_busy_refuted, Config.Programs.C153_order_refuted, Config.Programs.C153_recent_partial, Reporting.Crash.Programs.C154_busy_refuted, Reporting.Crash.Programs.C154_clear_refuted, Reporting.Crash.Programs.C154_counts_partial, Reporting.Crash.Programs.C154_total_partial, Interthread.Holding.C155_private, Interthread.Holding.C155_read_refuted, Interthread.Holding.C155_until, Utils.Average.C156_bound, Utils.Average.C156_exact_partial, Utils.Average.C156_lost_refuted, Utils.Average.C156_range_refuted, Utils.Average.C156_small_partial, Config.Checked.C157_address_partial, Config.Checked.C157_boolean_partial, Config.Checked.C157_colon_refuted, Config.Checked.C157_float_partial, Config.Checked.C157_octal_refuted, Config.Checked.C157_overflow_refuted, Config.Checked.C157_port_partial, Config.Checked.C157_range_partial, Sockets.Frames.C158_frame_partial, Sockets.Frames.C158_long_refuted, Sockets.Frames.C158_text_refuted, Sockets.Frames.C158_whole_partial, Interthread.ClockSet.C159_goes_on_partial, Interthread.ClockSet.C159_limit_partial, BitVector.Views.C160_history, BitVector.Views.C160_last_write, BitVector.Views.C160_read, BitVector.Views.C160_views, Config.Hook.C161_nothing_refuted, Config.Hook.C161_other_refuted, Config.Hook.C161_remove_partial, Config.Hook.C161_same_partial, Config.Hook.C161_set_partial, Interthread.Bounded.C162_asleep_refuted, Interthread.Bounded.C162_awake_partial, Interthread.Bounded.C162_bound_partial, Interthread.Bounded.C162_no_deadlock_partial, Interthread.Bounded.C162_tight_refuted, Interthread.Chain.C163_complete, Interthread.Chain.C163_one, Interthread.Chain.C163_order, Interthread.Chain.C163_prefix, Utils.RefGraph.C164_complete_partial, Utils.RefGraph.C164_counted, Utils.RefGraph.C164_cycle_refuted, Utils.RefGraph.C164_depth_refuted, Utils.RefGraph.C164_kept, Utils.RefGraph.C164_nothing_left_partial, Utils.RefGraph.C164_safe, Interthread.C165_comes_to_rest, Interthread.C165_map, Interthread.C165_pair, Interthread.C165_priority, Interthread.C165_queue, Interthread.C165_semaphore, Interthread.C165_settles, Interthread.C165_under_way, Interthread.C165_under_way_map, Interthread.C165_with_wait, Interthread.C166_bounded, Interthread.C166_comes_to_rest, Interthread.C166_exact, Interthread.C166_indivisible, Interthread.C166_no_new_deadlock, Interthread.Pool.C167_bounded, Interthread.Pool.C167_complete, Interthread.Pool.C167_finishes, Interthread.Pool.C167_once, Interthread.Lock.C168_exclusive, Interthread.Lock.C168_not_lost, Interthread.Lock.C168_rounds, Interthread.Answers.C169_bounded, Interthread.Answers.C169_complete, Interthread.Answers.C169_finishes, Interthread.Answers.C169_own, Interthread.PoolStop.C170_complete, Interthread.PoolStop.C170_finishes, Interthread.PoolStop.C170_once, Interthread.Nodes.C171_queue, Interthread.Nodes.C171_queue_exact, Interthread.Nodes.C171_readers, Interthread.Nodes.C171_safe, Interthread.Containers.C172_map, Interthread.Containers.C172_map_exact, Interthread.Containers.C172_map_safe, Interthread.Containers.C172_pair, Interthread.Containers.C172_pair_exact, Interthread.Containers.C172_pair_safe, Interthread.Containers.C172_priority, Interthread.Containers.C172_priority_safe, Interthread.Containers.C172_queue, Interthread.Containers.C172_queue_exact, Interthread.Containers.C172_queue_safe, Interthread.HandOver.C173_alone, Interthread.HandOver.C173_classes, Interthread.HandOver.C173_not_lost_classes, Monitor.C173_no_race, Monitor.C173_not_lost, Monitor.C173_one_place, Threads.C174_no_race, Memory.Exhausted.C175_commit_refuted, Memory.Exhausted.C175_config_entry_refuted, Memory.Exhausted.C175_config_value_refuted, Memory.Exhausted.C175_manual_refuted, Memory.Exhausted.C175_map_write, Threads.Library.C176_memory_partial, Threads.Library.C176_no_race_partial, Threads.Library.C176_one_table_partial, Threads.Start.C177_no_race, Threads.Start.C177_polite, Threads.Own.C178_covered, Threads.Own.C178_no_race_partial, Threads.Own.C178_polite, Together.C179_arrives, Together.C179_away, Together.C179_no_race, Values.C180_guarded, Values.C180_together, Interthread.MapLife.C181_destroy_map, Interthread.MapLife.C181_writer_left, LockOrder.C182_goes_on, LockOrder.C182_no_cycle, LockOrder.C182_rest, Process.C183_again_partial, Process.C183_delete, Process.C183_early_refuted, Process.C183_ends, Process.C183_killed_refuted, Process.C183_stale, Threads.RwOrder.C184_goes_on, AllLocks.C185_goes_on, AllLocks.C185_no_cycle, Utils.Backtrace.C186_kept, Utils.Backtrace.C186_kept_refuted, Utils.Backtrace.C186_readable, Utils.Backtrace.C186_report_partial, Utils.Backtrace.C186_stringcat, Utils.Backtrace.C186_throws_refuted, Utils.Backtrace.C186_whole, JoinOrder.C187_goes_on, JoinOrder.C187_locks, Process.Interrupted.C188_resize_refuted
