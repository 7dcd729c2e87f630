# Formal model of reactor-c in Lean 4: design

The C sources in `/repo` were only read, never built or run. The model lives in
`lean/Verif/`; each definition cites the file and lines it models and says where
it simplifies. `properties.jsonl` has the properties in words, `MANIFEST.json`
the theorems for each, `seeded/LOG.jsonl` the wrong programs the theorems were
tried against.

## 1. Trusted base

* Lean 4.33.0's kernel. No axioms are added, no proof is left open, and nothing
  is evaluated by compiled code. Every theorem of the manifest depends on a
  subset of `propext`, `Classical.choice` and `Quot.sound`; which one depends on
  which is listed per theorem in `axioms.txt` (output of `#print axioms`).
* The reading of the C code: that a definition agrees with the lines it cites is
  established by inspection only. The seeded faults show that the theorems
  notice deviations of the model, not that the model is faithful.
* C semantics assumed: two's complement 64/32/16-bit integers. Where the code
  executes signed overflow (undefined in C) the model wraps and a separate
  predicate marks the inputs concerned, or the outcome is an explicit
  `ub`/`fault`/`failed` value, or the step relation leaves such executions out,
  which is then said in its comment and in the manifest.
* Memory: `malloc`/`calloc` succeed unless a model says otherwise; pointers are
  abstract identifiers (`Nat`) or list positions.
* Concurrency: what a thread does between two operations on a mutex or condition
  variable (or, without a mutex, between two accesses to shared variables) is one
  step of a transition system; all interleavings of these steps, for any number
  of threads and any length, are quantified over (sequential consistency). Weak
  memory is not modelled.
* Network: FIFO channels where TCP is used, any delay; connections may break
  where a model says so. Physical clocks are arbitrary inputs.
* The contract of the LF compiler (topological indices, levels, tables) is
  stated as explicit hypotheses (`WF`, `Ok`, ...), each met by an example.

Of the theorems in the manifest, 589 depend on Classical.choice, Quot.sound, propext; 160 depend on Quot.sound, propext; 57 depend on propext; 35 on none; 1 depend on Quot.sound.

## 2. Layout

For each area `X`: `Verif/X/Model.lean` (the code), `Verif/X/Spec.lean` or a
short section (the vocabulary of the property, independent of the helpers), helper
files (invariants and lemmas) and `Verif/X/Props.lean` (or `...Props.lean`: the
property theorems, named `Cnn_...`, with non-vacuity examples beside them).

| Area | Code |
|------|------|
| Tag | `core/tag.c`, `tag/` |
| PQueue | `core/utils/pqueue_base.c`, `pqueue.c`, `pqueue_tag.c` |
| Sched | `lib/schedule.c`, `_lf_schedule_at_tag`, `_lf_replace_token`, event recycling |
| Runtime | `core/reactor.c` (single-threaded), `core/reactor_common.c` |
| Port, Token | `core/port.c`, `include/core/port.h`, `core/lf_token.c` |
| Vector, HashSet, HashMap, Deque, MixedRadix | `core/utils/vector.c`, `core/utils/hashset`, `include/core/utils/impl/hashmap.h`, `util/deque.c`, `core/mixed_radix.c` |
| Clock, ClockSync | `core/clock.c`, `core/federated/clock-sync.c`; Udp: `listen_to_rti_UDP_thread` and `clock_synchronization_thread` of `rti_remote.c` with lossy datagrams |
| Semaphore, Watchdog | `core/utils/lf_semaphore.c`, `core/threaded/watchdog.c` |
| Misc | `include/core/utils/util.h` (index packing), `core/tag.c` (printing) |
| Np, Gedf | `core/threaded/scheduler_NP.c`, `scheduler_GEDF_NP.c`, `scheduler_sync_tag_advance.c`, the worker loop of `reactor_threaded.c` |
| Adaptive | `core/threaded/scheduler_adaptive.c`; its measurements apart (`Data.lean`) |
| Uni | how `core/reactor.c` chooses the reactions of a tag, with `schedule_output_reactions` |
| Det | bodies of reactions and memory on top of Np, Gedf, Adaptive and Uni: what a program computes |
| Barrier | tag barrier of `core/threaded/reactor_threaded.c` and its users |
| Modes | `core/modal_models/modes.c` and the parts of `reactor_common.c` under `MODAL_REACTORS` |
| Net | `core/federated/network/net_util.c`, message encoding and forwarding |
| Rti | `core/federated/RTI/rti_common.c`, the message handlers of `rti_remote.c` |
| Encl | `core/federated/RTI/rti_local.c` |
| Stop, Start, Join | the handshakes in `rti_remote.c` and `federate.c` |
| Fed | `lf_send_next_event_tag`, `get_next_event_tag`, `bounded_NET` in `federate.c`, `_lf_next_locked` |
| Fedn | a whole federation: the RTI of `Rti` with the federates of `federate.c` and `reactor_threaded.c` |
| Level | the wait for network inputs in `federate.c` (MLAA, STAA) |
| Platform | ThreadPool: creation of threads on Zephyr and the RP2040; Flexpret: `_lf_sleep_common` across epochs; ThreadSched: processors, priorities and policies of threads; Clock: `_lf_clock_gettime` of Arduino, nRF52 and Zephyr; Irq: critical sections by disabling interrupts, `lf_atomic_irq.c`; Misc: priorities, `timespec`, condition variables of the RP2040; Sleep: `_lf_interruptable_sleep_until_locked` and `_lf_single_threaded_notify_of_event` of Patmos, Arduino, Zephyr, RP2040, nRF52 and FlexPRET (all in `low_level_platform/impl/src`) |
| Decentral | a federate with decentralized coordination: reading and handling of messages (`handle_tagged_message`), the barrier, waits for STA and STAA, event queue and delivery (`federate.c`, `reactor_threaded.c`, `reactor_common.c`); ports as in Level |
| Tardiness | marking of reactions triggered by tardy messages, `schedule_output_reactions` with chains, handlers for tardiness and deadlines (`reactor_common.c`, `reactor_threaded.c`) |
| Join/P2p | `lf_handle_p2p_connections_from_federates` and `lf_connect_to_federate` of `core/federated/federate.c`, address queries of `rti_remote.c` |
| Auth | `authenticate_federate` of `core/federated/RTI/rti_remote.c`, `perform_hmac_authentication` of `core/federated/federate.c` |
| FedDet | programs (functions from what a federate has seen to what it sends and schedules) on top of `Fedn`; a sequential reference execution |
| DecFed | a federation with decentralized coordination: the federates of `Decentral`, each with a clock, execute a program of `FedDet` and send messages and notices to each other; bounds for clocks, latency and processing |
| Trace | `trace/impl/src/trace_impl.c`; File: the trace file byte by byte, `util/tracing/trace_util.c` |
| Args | `process_args`, `usage` in `core/reactor_common.c` |
| RtiAddr | `lf_parse_rti_addr`, the choice of host and port in `lf_connect_to_rti` (`federate.c`), `match_regex`, `validate_*`, `extract_*` in `net_util.c`; POSIX regular expressions |
| Memory | `lf_allocate`, `lf_new_reactor`, `lf_free*`, `termination`, `lf_get_new_event`, `lf_recycle_event` (`reactor_common.c`), `environment_init`, `environment_free` (`environment.c`), `pqueue_tag_free`, as far as memory goes |
| Async | `_lf_next_locked`, `wait_until`, `get_next_event_tag`, `lf_request_stop`, `lf_notify_of_event` (`reactor_threaded.c`), `scheduler_sync_tag_advance.c`, not federated, as interleaved critical sections |
| Leave | the reading loops `federate_info_thread_TCP` (`rti_remote.c`) and `listen_to_rti_TCP` (`federate.c`) over bytes that end anywhere; `wait_for_federates`, `termination` and the exit code of the RTI |
| Python | `python/lib/python_port.c`, `convert_C_port_to_py` and the reference counts of `py_schedule` (`pythontarget.c`); `python/lib/python_tag.c` and `python_capsule_extension.h` |
| Cycle | several federates that execute one tag, or all tags of an execution (files Run*), with provisional grants, each with the functions of Level (`federate.c`), the conditions of the RTI for grants (`rti_common.c:122-228`), and the generated reactions that send messages and notices of absence |
| RtiArgs | the command line of the RTI: the loop over options, the one over the arguments of clock synchronization, and the conversions of numbers | core/federated/RTI/main.c |
| TraceSum | the statistics that the trace-to-CSV tool collects from records and the tables that it prints | util/tracing/trace_to_csv.c, util/tracing/trace_util.c |
| Wave | reading of wave files, byte by byte, with the stack and the memory before the call | util/wave_file_reader.c |
| Audio | the notes, the buffers and the callbacks of the audio loop on macOS and Linux | util/audio_loop_mac.c, util/audio_loop_linux.c |
| Print | printing of messages: formats, prefixes, levels, the registered function, fatal errors | core/utils/util.c, logging/api/logging_macros.h |
| Sensor | the queue of messages in a heap of nodes, the thread that shows them, and the keys of the sensor simulator | util/sensor_simulator.c |
| Influx | formatting of lines for InfluxDB in a buffer that grows, requests, and the tool that uploads traces | util/tracing/influxdb.h, util/tracing/trace_to_influxdb.c |
| Http | posting a line over HTTP: the request, receiving in pieces, the automaton that reads the answer, the stages and their cleaning up | util/tracing/influxdb.h |
| Rust | generation of Rust code from the types of trace events | util/tracing/codegen/src/tracepoint_to_rs.c, trace/api/types/trace_types.h |
| Chrome | the text that the trace-to-Chrome tool writes for records and objects, its options and file names | util/tracing/trace_to_chrome.c, util/tracing/trace_util.c |
| Ports | the choice of ports by the RTI (`create_rti_server`, `start_rti_server`) and the search for the RTI in `lf_connect_to_rti` | core/federated/RTI/rti_remote.c, core/federated/federate.c |
| Threads | `determine_number_of_workers`, creating and joining of workers, numbers of workers, identifiers of threads, numbers of trace buffers | core/threaded/reactor_threaded.c, lf_platform_util.c, core/reactor_common.c, RTI/main.c |
| TraceArgs | `process_args`, `string_to_instant` and the beginning of `main` of the tool that writes tables; the arguments of the tool that uploads traces | util/tracing/trace_to_csv.c, trace_to_influxdb.c, trace_util.c |
| Windows | the clock, sleeping, and waiting for condition variables on Windows | low_level_platform/impl/src/lf_windows_support.c |

## 3. Plan per property

| Id | Modelled | Proof |
|----|----------|-------|
| C01 | `lf_tag_compare` on (Int,Nat) tags | case analysis; lexicographic order as spec |
| C02 | `lf_time_add` with 64-bit wrap | saturating-sum spec, omega |
| C03 | `lf_tag_add` | algebraic laws under explicit no-overflow guard |
| C04 | `lf_delay_tag` | laws; negation witness for microstep wrap |
| C05 | `lf_delay_strict` | law quantifying over all later send tags |
| C06 | `pqueue_base.c` on a 1-based array | heap invariant + multiset refinement over op lists |
| C07 | position map | invariant over op lists |
| C08 | recursive searches | completeness from heap invariant |
| C09 | `pqueue_tag.c` | corollaries of C06/C08 |
| C10-C12 | `lf_schedule_trigger`, `_lf_schedule_at_tag` | invariants of schedule over arbitrary queues; negations where code deviates |
| C13-C16, C18 | single-threaded main loop (`next`, `_lf_do_step`, `_lf_pop_events`, ...) with arbitrary reaction bodies | inductive invariant over all executions, trace of processed events |
| C17 | deadline test | decision logic |
| C19-C20 | sparse multiport record, iterator | sort/permutation facts; interleaving invariant |
| C21-C23, C57 | token heap with reference counts | invariant over token operations (references = holders) |
| C24-C27 | RTI common + remote, min-delay search, federates as nondeterministic protocol participants with FIFO channels | inductive invariants of a transition system; path semantics as spec of the search |
| C28-C30 | RTI stop, start and join handlers and the federate side | invariants of transition systems, decision tables |
| C31-C33 | codecs, socket loops, forwarding | round trips, induction over chunk sequences |
| C34-C38 | vector, hashset, hashmap, deque, mixed radix | refinement |
| C39-C40 | clock, clock sync | interleaving invariant, integer bounds |
| C41-C43 | NP and GEDF schedulers | interleaving invariants for any number of workers; termination measure for the absence of busy waiting |
| C44-C45 | tag barrier, MLAA | invariants |
| C46-C47, C59 | modes | invariants over mode trees |
| C48-C50 | semaphore, tracing, watchdog | interleaving invariants |
| C51, C58 | next event tags of a federate, waiting for grants | decision logic over arbitrary observations |
| C52-C54, C56 | index packing, event recycling, printing, arguments | decision logic, refinement |
| C60 | the tag-advancing and the receiving thread of every federate, put together with the RTI | inductive invariant; refinement into the transition system of C24-C26; failing runs as witnesses |
| C61 | adaptive scheduler, one step per access to a shared variable | interleaving invariant for any number of workers, refinement to an abstract scheduler; a measure for progress; failing runs as witnesses |
| C62 | reactions as sequences of accesses to cells, on top of any scheduler whose record is good | commuting accesses of independent reactions: every execution of a tag is sorted into the sequential one; the four schedulers are shown to have good records |
| C63 | bytes of the trace file, struct layouts, writer (`write_trace_header`, `flush_trace_locked`) and reader (`read_header`, `read_trace`) | round trip by induction over fields, records, chunks and entries; every cut of the file |
| C64 | hardware counters that wrap around, overflow interrupts, masking, readings instruction by instruction | invariants over all interleavings; concrete runs for the deviations |
| C65 | platforms as lists of instructions, stack of interrupted contexts, arbitrary balanced programs | one invariant for each platform, common theorem; concrete runs for the deviations |
| C66 | `map_priorities`, `convert_ns_to_timespec` | arithmetic |
| C67 | recursive mutex, binary semaphore for each core, waits in two steps | invariant over all interleavings |
| C68 | federate with network input ports: threads that read messages, clock, event queue, the steps of the execution | invariants over all interleavings of steps that meet the timing assumptions |
| C69 | the same system without the timing assumptions | invariants over all interleavings |
| C70 | marks, queue and invocations at a sequence of tags, workers in any order | invariant over steps with induction on the length of chains, against a least-fixed-point specification |
| C71 | the federation of C60, its federates executing a program, values travelling with messages; the sequential execution as specification | both are instances of one notion of execution (each event has a cause, each cause an event); well-founded induction on tag and rank shows that two such executions agree |
| C72 | the federation of C71 | an invariant says what the RTI knows about what each federate waits for; a lexicographic measure decreases with every step that is more than a wait; in every state other than the end such a step exists (the federate with the least next event is granted); counting events shows that none is made twice |
| C73 | threads that make the reads and writes of `lf_set`, `lf_set_token` and `_lf_done_using` one at a time | an invariant relates counts to the ports that hold counted references and to what each thread is about to do; for programs that do not forward, each token is at one port or with one thread, so threads are apart; failing interleavings are executed |
| C74 | the RTI, federates and a stranger who controls the network; codes are terms over the key and the bytes that the code puts into its buffers | invariants of the log: codes that were seen come from the RTI or from a federate that logged it; random numbers order events; attacks are executed |
| C75 | the bytes of a first message, the comparison of federation IDs with an array that is not terminated, the loop of the server, the ports known to the RTI, the loops of the client | case analysis of the message; induction over connections, histories of queries and attempts |
| C76 | `lf_send_tagged_message`, `lf_send_port_absent_to_federate`, the handlers, the waits for STA and STAA of several federates with connections in between, under bounds for clocks, latency and processing | invariant of each federate (`Loc`) and of each connection (`Chan`); the executions satisfy weaker rules than those of C71 (`Exec.Weak`) from which agreement follows by induction over tags and ranks; for the end, a measure of five numbers that some step makes smaller in each state (`Closer`); runs by evaluation in the kernel |
| C77 | `_lf_interruptable_sleep_until_locked` and `_lf_single_threaded_notify_of_event` of each platform as a program counter with interrupts, clock and timer between any two steps | an invariant of each platform, case by case; runs as counterexamples |
| C78 | the thread of the RTI, a thread of each federate and queues of datagrams that may be lost | an invariant of each federate and its datagrams; stuck states closed under steps; runs |
| C79 | syntax trees of the regular expressions, a matcher, the checks, the stored data, the first connection | the matcher is correct for the languages of the expressions and for the leftmost-longest rule; unique decomposition of addresses; negations |
| C80 | a heap of addresses, the pointers that reactors, records, environments and queues hold, the accesses of each function in order | ownership invariant over all proper histories (no memory has two owners); accesses ordered so that nothing is used after it is freed; exact set of what remains |
| C81 | environments with queue, stop tag and a worker that sleeps; a stop request as two loops of critical sections; other threads, time and spurious wake-ups as steps | invariants over all interleavings; a rank for the end after a stop request; concrete runs for the negations |
| C82 | both reading loops as functions of lists of bytes cut at any point; the threads of the RTI and its main thread as an interleaved transition system; the grants with the model of C27 | lemmas about framing; invariants and a decreasing measure; corollary of the invariant of C27; concrete runs and invariants for the negations |
| C83 | reference counts of values and port objects; every operation of a Python reaction on them as a function; the use of a freed object is a fault | invariant over all sequences of operations: the count is the number of references; induction over the width for iteration; concrete programs for the negations |
| C84 | storing and reading the fields of tags with the byte order and the size of `long` as parameters; comparison with the model of C01; decimal texts | arithmetic; injectivity of decimal texts by induction; concrete tags for the negations |
| C85 | federates as states of C45 plus program counter, inputs and state of the reactors; connections as queues; specification: the equations that the program states for a tag | invariant over all interleavings; agreement with every solution by induction over the execution; descent on the order of levels for the absence of deadlocks; a measure for termination |
| C86 | the federates of C85 at tag numbers of their own, connections with delay, inputs kept per tag; specification: the equations that the program states for the first N tags | invariant with, per connection, what has been sent, is on the way and has arrived for each tag; agreement with every solution by induction over the execution; for the absence of deadlocks the federate with the least tag and level in the order; for fair executions without end, induction over tags and, within a tag, over the order of the levels |
| C87 | the loop over words as a function on the list of words, with the width of long and the build as parameters; specification: a list of options, how each may be written, and what each sets | induction over the list of options; witnesses for what is accepted wrongly |
| C88 | the array of statistics with accesses outside of it as a fault, one step per record, and the five tables; specification: sublists of the records (executions, waits, values, calls) and the count, sum, average, maximum and minimum of a list | induction over the records for each kind of entry; witnesses for what is counted wrongly |
| C89 | the reader as a function from bytes, memory before the call and size of the stack to a waveform, NULL or undefined behaviour; specification: files as header, chunks and samples and their bytes | induction over chunks and samples; witnesses for files that are read wrongly |
| C90 | calls and callbacks as steps on eight notes and numbered samples, with a log of what was written where from which position; specification: the frames of a waveform on consecutive samples | invariant that ties the log of each call to its note and to the end of the current buffer; universal counterexamples for Linux and empty waveforms |
| C91 | `printf` as a function from formats and arguments to text or undefined behaviour, the buffer of the code with its size; specification: header, prefix, text, newline | the size of the buffer is proved to suffice, rendering of concatenations; counterexamples |
| C92 | posts and rounds of the thread as steps on linked lists in a heap; registrations as a function; specification: the texts posted before closing, the first registration of each key | invariant that ties both lists to what was posted and shown; induction over registrations; counterexamples |
| C93 | the buffer as bytes that may not be initialized, with overflow as an outcome; specification: a reader of the line protocol, written independently | what is written for lines is read back (induction over names, tags, fields, lines); acceptance as a grammar; counterexamples |
| C94 | macros of the reader as an automaton over bytes; the socket as pieces, errors and an end; specification: answers and a reader of requests | feeding the automaton (induction over pieces, headers, digits); an invariant on the last bytes for what never ends; reading back requests |
| C95 | camel case in place in memory; the printed lines; specification: words, and a reader of the generated code with what it does | loop invariant over what is written, left over and to be read; reading back every line; the table of the repository as an instance |
| C96 | every format string of the tool; specification: a reader of JSON, and the list of events that a user expects | composition lemmas for the reader (values, members, elements with any text behind them); induction over the records; membership of names in the document |
| C97 | both loops with their counters, the clock and the sleeps; whether `bind` succeeds and what comes of an attempt are functions of the call, the time and the port | closed form of the port and time of attempt k; induction over the rounds up to the first acknowledgment; bounds on times by induction |
| C98 | all calls that take an identifier, in any order; the loops of the main function; workers that begin and end as a transition system | positions in the list of calls; counting; invariant over steps; composition with C49 |
| C99 | functions on lists of arguments; grammar of command lines and their meaning as a specification; memory in front of an argument is arbitrary | induction over arguments and over derivations |
| C100 | `pqueue_dump`, `pqueue_print`, `pqueue_is_valid` on the queue of C06, with the positions in memory that the copy shares | induction over subtrees; the drain of C06; frame lemmas for positions |
| C101 | the clock of Windows with any rounding of `double` operations, `lf_sleep`, `_lf_cond_timedwait`, and `next` with one thread; the operating system as relations | bounds on relative errors; arithmetic; induction over repeated calls of `next` |
| C102 | the two calls of `process_args` in `lf_reactor_c_main`, `_lf_py_parse_argv_impl` and `py_main` | induction over the options of C56: each list of options is a fixed change of the settings |
| C103 | the functions that set processor, priority and policy of threads on Linux and Zephyr, on a model of what the operating system knows of threads | case analysis; C66 for the order of priorities |
| C104 | `_lf_sleep_common` and `lf_sleep` of FlexPRET, on a clock of which the waiting instructions compare the lower 32 bits | induction over the waits of the loop, arithmetic of epochs |
| C105 | `lf_thread_create` of Zephyr as steps of any number of callers; `lf_thread_create`, `core1_entry` and `lf_thread_join` of the RP2040 | invariants over all interleavings |
| C106 | the linked list of suspended events of modes.c, with pointers and the free list | representation by a list; induction over the walk and over histories |
| C55 | local RTI | the RTI invariants, with the steps of `rti_local.c` |

## 4. What is modelled and what is not

Modelled, with the functions named in the comments of the definitions: the areas
listed in section 2. Within the files listed there the following is left out:

* `core/tag.c`: `lf_time_logical` and the like (accessors).
* `core/reactor_common.c`: `_lf_free_all_tokens`, `lf_schedule_int` and `lf_schedule_copy` beyond their tokens.
* `core/threaded/reactor_threaded.c`: the physical-time wait is reduced to the
  fact that it may end early, late or never; worker threads appear in Np and Gedf,
  the rest of `_lf_next_locked` in Barrier and Fed.
* `scheduler_NP.c`, `scheduler_GEDF_NP.c`: the federated variants (the call of
  `lf_stall_advance_level_federation`) are modelled from the side of the wait
  (Level), not together with the worker loop.
* `scheduler_adaptive.c`: the federated variant, freeing of memory; how the times and
  random numbers lead to numbers of workers is a model of its own, and the scheduler is
  proved for all numbers in the range it yields.
* `rti_remote.c`: failures of the sockets in the RTI's clock-synchronization thread
  beyond its wait for the start time, UDP sockets, tracing, `main.c`, timeouts.
* `federate.c`: `accept` and its errors. Authentication is modelled with
  ideal codes and random numbers.
* `rti_local.c`: everything else is modelled.
* `trace_impl.c`: failures of writing the header.

What is modelled of tools and libraries around the runtime:

* The command line of the RTI (C87): all words and settings; not the text that is printed. strtol and strtoul are modelled on decimal
  numerals with optional sign and leading white space, for any width of long.
* The statistics of traces (C88): all tables of the summary; not percentages, the text of the files, or overflow of sums.
* Wave files (C89): the whole of `read_wave_file`; not the text of its warnings.
* The audio loop (C90): `lf_start_audio_loop`, `lf_play_audio_waveform`, the callbacks and the change of buffers; not the audio systems themselves, `lf_stop_audio_loop`, computation with `double`, or overflow of times.
* Printing (C91): all of util.c but `lf_vprint` variants, which only pass their arguments on; conversions of `printf` with flags, width or precision are not modelled.
* The sensor simulator (C92): the queue, showing, keys, and what starting and ending do to them; not the contents of windows, the welcome message, or the end of input.
* Uploading to InfluxDB (C93): formatting, `post_curl` up to the request, and the loop of the tool; not `send_udp` or the text of floating point numbers (for options see C99).
* Posting over HTTP (C94): `post_http_send_line`; not `send_udp`, the printing of the request to the error output, or signals.
* Generated Rust code (C95): all of tracepoint_to_rs.c; the Rust compiler only as far as names, numbers and cases of the generated code go.
* Files for the event viewer of Chrome (C96): all of trace_to_chrome.c; memory that it does not free, failures of files and overflow of times are left out. The reader of JSON of the specification does not read escapes, fractions, Booleans and null, which the tool does not write.
* Ports (C97): the loops in which the RTI binds its sockets and a federate looks for the RTI; creating sockets, setting their options and looking up hosts do not fail, and there is no authentication (for that see C74).
* Threads (C98): who takes identifiers of threads, the loops that create and join workers, and the numbers of trace buffers; creating a thread does not fail, and platforms are those of `lf_platform_util.c` (not Zephyr, FlexPRET and RP2040, which have identifiers of their own).
* Command lines of the tools for traces (C99): numbers are integers, so overflow in `atoll` and in units is left out; whether a file can be opened depends on its name only. Reading the trace is C49 and what follows.
* Printing and checking of queues (C100): what is printed of an element is the element; not the overflow of indices.
* Windows (C101): overflow and underflow of `double` are left out, reading the clock takes no time; not threads, mutexes, or atomic operations (of which Windows
  has the ones that the models assume), or clock synchronization.
* Arguments (C102): characters stand for their encodings; the generated function that sets the defaults is arbitrary; not the references to Python objects (the encoded
  strings are never released, so that the arguments remain valid).
* Scheduling of threads (C103): the operating system refuses priorities out of range, unknown threads and what is not permitted, and does the rest; not how it
  then schedules. Other platforms have no such functions (they return -1).
* FlexPRET (C104): `fp_delay_until` and `fp_wait_until` end the next time the lower 32 bits of the clock equal their argument, which `_lf_sleep_common` supposes and
  its comments say the processor does not do yet; no interrupts (C77 has these, in the first epoch).
* Limited threads (C105): steps of `lf_thread_create` are atomic between accesses to shared variables; the kernel starts a thread when told to, and `k_mutex` can be
  locked again by its owner. `lf_thread_join` of Zephyr is a call of the kernel (and never sets the result), and is not modelled.
* Suspended events (C106): `Modes/Suspended.lean` has the linked list that `Modes/Model.lean` replaces by a list; what is done with an event that is taken off does not use the list. The loops have a bound on
  the number of iterations, which the theorems show to suffice.
* Python: port objects (C83) and tags (C84); not actions, modes, start-up of the interpreter, and serializers.

Not modelled at all: the platform layers (`low_level_platform/impl`) but for what Platform in section 2 names (clocks of Arduino, nRF52 and
Zephyr, critical sections, priorities, condition variables of the RP2040, atomics); code generated by the LF compiler (only its contract);
`lf_print_snapshot` and other debugging output; memory allocation failure.

## 5. Disagreements between code and property

Each item is a theorem with a concrete witness unless marked (reading).

**Tags and times.**
`lf_time_add` evaluates an overflowing signed sum for some saturating inputs
(`C02_time_add_executes_undefined_overflow`). `lf_tag_add` is not monotone in its
left argument when the microstep overflows
(`C03_tag_add_not_mono_on_microstep_overflow`). `lf_delay_tag` with interval 0 wraps
the microstep at `UINT_MAX` and yields an earlier tag (`C04_delay_tag_wraps_backwards`).
`lf_delay_strict` is not strict for interval 0 and changes the tag for negative
intervals, against its documentation (`C05_strict_delay_zero_not_strict`,
`C05_strict_delay_negative_modifies`). `pqueue_tag_remove_up_to` keeps elements at
`FOREVER_TAG` (`C09_remove_up_to_keeps_forever`).

**Scheduling.**
A physical action can be scheduled at the current tag or in the past, in which case
the program later aborts (`C10_physical_action_at_current_tag`,
`C10_physical_action_in_past`, `C13_past_event_aborts`). Physical actions and network
events can be pending twice at one tag (`C12_physical_action_duplicate`,
`C12_schedule_at_tag_duplicate`). Three branches of the scheduling functions leak a
token (`C23_conflict_after_stop_leaks`, `C23_replace_by_same_token_leaks`,
`C23_schedule_at_tag_after_stop_leaks`). A request to stop at microstep `UINT_MAX`
wraps, and shutdown is skipped (`C16_request_stop_wraps`). A chained reaction whose
`last_enabling_reaction` does not meet the compiler's contract runs twice
(`C14_runs_twice_without_contract`).

**Ports and tokens.**
A channel of a sparse multiport set twice at a tag is visited twice
(`C19_channel_set_twice_is_visited_twice`). `_lf_free_token_copies` reads a freed token
when more than the recycling limit of copies are released
(`C21_copy_release_reads_freed_token`). `lf_schedule_value` twice at a tag, and `lf_set`
on a shared message, leak (`C57_second_scheduled_value_leaks`,
`C57_set_on_shared_message_leaks`). Reference counts are incremented and decremented
without a mutex: reactions that forward the same input in parallel lose a reference
(`C73_parallel_forwarding_loses_a_message`), and ports that release the same token in
parallel free its payload twice (`C73_parallel_release_frees_twice`). `_lf_free_token` returns `NOT_FREED` on every path,
so callers cannot tell (reading).

**Utilities.**
`vector_at` beyond the size does not fill with NULL
(`C34_unset_element_is_not_null`); a vector of capacity 0 faults
(`C34_capacity_zero_faults`). A hash set asked for the reserved item 1 matches
tombstones (`C35_reserved_item_matches_deleted`). An overfull hash map writes through
NULL, one of capacity 0 divides by zero (`C36_overfull_put_faults`).
`lf_comma_separated_time` is undefined for negative times
(`C54_comma_separated_negative_undefined`). Levels from 65536 on collide in the packed
index (`C52_level_limit`). `usage` lists options that are rejected
(`C56_usage_lists_options_that_are_rejected`).

**Tracing, watchdogs, clocks.**
Without an open trace file, or after the end of tracing, a full buffer is overrun
(`C49_overrun_without_file`); the test of thread identifiers is off by one
(`C49_thread_identifier_test_off_by_one`). The trace file is misread on machines with other
struct layouts or byte orders (`C63_other_layouts_are_garbled`,
`C63_big_endian_reads_nothing`) and after a long description
(`C63_long_descriptions_garble`); objects registered after the first flush are missing
(`C63_objects_registered_late_are_missing`); a negative length overruns the buffer of the
tools (`C63_negative_length_overruns`); a lookup without success gives index 0 instead of -1
(`C63_lookup_without_success_gives_the_first_index`). A watchdog started in its own handler is not
started (`C50_start_in_handler_is_lost`); a restart with an earlier expiration is served
late (`C50_shorter_restart_is_late`). Clock synchronization during the execution (C78): `read_from_socket` repeats a read that
times out, so the RTI waits for ever for the reply to a lost T1 or for a lost T3, and no clock is synchronized any
more; after a lost coded probe the federate takes the next T1 for it, with the same consequence. Messages carry no
number, so duplicated and reordered datagrams can be matched wrongly. By reading: a reply at the fifth attempt
does not count as a connected federate. A lost coded probe biases the clock offset
(`C40_lost_probe_biases`).

**Schedulers.**
NP: a level without reactions reads outside of an array
(`C41_level_without_reactions_reads_outside`). GEDF: independent reactions of different
levels are executed in the order of their deadlines
(`C43_deadlines_come_before_levels`); it tests `MODAL` where the macro is
`MODAL_REACTORS` (reading). The number of idle workers, a `size_t`, is incremented through
a pointer to `int` (reading). Adaptive: a condition variable that wakes up a worker
without a cause can end the tag while a reaction executes, with three or more workers
(`C61_wakeup_without_cause_ends_the_tag_early`); an assertion about a count that another
worker is about to correct can fail with two workers (`C61_two_workers_can_abort`), and the
one of `restrict_to_range` fails if a level has no reaction
(`C61_level_without_reactions_aborts`); two workers that look for reactions can keep each
other from finding that there are none, for ever
(`C61_two_workers_can_keep_each_other_busy`); with `-fast` a worker that is alone advances
the tag without the mutex (`C61_fast_advances_without_the_mutex`).

**Barrier and stop.**
With `-fast` a proposal of `FOREVER` ignores barriers (`C44_fast_ignores_barriers`). The
barrier is released without the mutex when the contents of a message cannot be read, and
one can be lost (`C44_unlocked_release_loses_a_barrier`). A federate that leaves between
being asked and answering blocks the stop
(`C28_leaving_without_an_answer_blocks_the_stop`). With several environments a
counteroffer uses the first one's tag (`C28_counteroffer_may_have_passed`). At the last
microstep the proposal wraps (`C28_last_microstep_wraps`). `lf_request_stop` signals the
condition variable of the first environment for all (reading).

**Start and join.**
A stop request can precede the start time (`C29_stop_request_may_precede_start_time`). The
clock-synchronization thread can read the start time before it is set
(`C29_clock_thread_may_read_no_start_time`). One missing federate blocks the start
(`C29_all_wait_for_everyone`). A prefix of the federation ID, even the empty one, is
accepted (`C30_prefix_is_accepted`). A federate that fails after its acknowledgement locks
its ID (`C30_failed_join_locks_the_id`). `lf_connect_to_rti` goes on after the time for
connecting is up although the RTI rejected the federate (`C30_rejected_federate_goes_on`).
Authentication: the key is sent in the clear afterwards (`C74_eavesdropper_is_accepted`);
the codes do not bind the ID of the federate to the random number of the RTI
(`C74_accepted_under_another_id`); a stranger who relays the authentication joins with the
empty federation ID (`C74_stranger_joins_with_empty_federation_id`); a wrong first byte or
a closed connection ends the RTI (`C74_anybody_can_end_the_rti`).
Cycles without delay: the bound `eimt_strict` for provisional grants leaves out all upstream federates that are on some
zero-delay cycle (`rti_common.c:130-132`), also those on another cycle, and also connections with a delay. So a federate on one cycle gets a
provisional grant for a tag while a federate on another cycle can still send a message with this tag over a connection with a delay, for
which the receiver does not wait (`C85_not_delayed_messages_between_cycles`). C71 and C72 leave these cycles out; C85 treats one tag of such a federation. It assumes what is generated
(`WF`: tables of ports, levels of the reactions for sending and for absence). That the levels of all federates together have an order
is the business of the code generator, nothing in the runtime checks it; without one the federates wait for each other
for ever (`C85_loops_never_complete`, `C85_not_without_order`). The reactions of a level are one step (C41-C43, C61 for one
process).
C86 does the same for all tags of an execution, without connections with a delay from one cycle to another (`C86_not_with_delays_between_cycles`).
Python: a port object does not count its reference to the value that it shows, and releases it when it is freed; this is
made up for by port objects never being freed (`C83_not_arguments_may_be_released`). So a port object that is kept shows a
freed object once the port has been set again (`C83_not_stored_port_objects_are_valid`,
`C83_not_second_port_object_is_up_to_date`), and `port[0]` of a port that is not a multiport frees the port object and its
value too early (`C83_not_index_of_a_single_port`). Indices of multiports are not checked (`C83_not_indices_are_checked`). The
value of an absent port is that of an earlier tag, not `None` (`C83_not_absent_ports_are_none`). Nested loops over the same
multiport never end (`C83_not_nested_loops_end`), loops over an empty one are errors
(`C83_not_empty_multiports_can_be_iterated`), and scheduled values are never freed (`C83_not_scheduled_values_are_freed`).
`Tag(time, microstep)` accepts microsteps out of range (`C84_not_microsteps_are_checked`,
`C84_not_negative_microsteps_are_rejected`), loses the microstep on big-endian machines
(`C84_not_microsteps_on_big_endian`), and with centralized coordination `physical_time_of_arrival` is read as an `int`
(`C84_not_arrival_times`). The code that calls the reactions is generated and not part of the repository.
By reading: `len()` of a port that is not a multiport is -2; the text of a tag leaks two objects; `py_schedule_copy` casts its first argument
to an action without a check.
Federates that crash: when the RTI finds the connection of a federate closed, it marks the federate as not
connected, but does not set its next event to the end of time and does not look at the federates downstream, as it does
for one that resigns or reports a failure. Federates downstream then wait for ever
(`C82_not_crashed_federates_block_nobody`). The exit code of the RTI is 0 (`C82_not_crashes_reach_the_exit_code`). If
the RTI has not noticed the crash and has to pass on a message to the crashed federate, it ends, and with it the
federation (`C82_not_messages_to_crashed_federates_are_dropped`). A federate whose RTI disappears between two messages
keeps waiting for a grant (`C82_not_federates_end_without_the_rti`).
Stop requests in programs with threads: the tag barrier that `lf_request_stop` raises is looked at in federated
programs only, so that a worker may begin a tag while the stop tag is computed; the program then ends after its
stop tag and without shutdown reactions (`C81_not_shutdown_when_another_thread_stops`,
`C81_not_shutdown_with_enclaves`). `lf_request_stop` signals the first environment each time, so that other
enclaves sleep on (`C81_not_all_enclaves_are_woken`). With `--fast`, `keepalive` has no effect once the queue is
empty (`C81_not_kept_alive_when_fast`).
The end of the program: a reactor with two watchdogs has one mutex, which `termination` frees once for each
watchdog (`C80_not_safe_with_two_watchdogs_in_a_reactor`; `_lf_initialize_watchdogs` also initializes it twice,
found by reading); events (`C80_not_events_are_freed`), arrays of watchdogs, and mutexes of reactors in
environments other than the first (`C80_not_watchdogs_are_freed`) are never freed.
The option `--rti`: the expression for addresses is searched, not matched against the whole text, so
what follows a character that occurs in no address is ignored (`C79_not_what_follows_is_ignored`;
`fed$@rti.example.org` connects to the host `fed`), so is what precedes the address
(`C79_not_what_precedes_is_ignored`), and ports are cut to five digits (`C79_not_long_ports_are_cut`); a port
above 32767 is replaced by 15045 (`C79_not_high_ports_are_used`); a host needs to begin with a small letter or
digit only (`C79_not_hosts_are_checked`).
Direct connections: a federation ID that begins with that of the federate is accepted
(`C75_longer_federation_id_is_accepted`), a shorter one is compared beyond its end
(`C75_shorter_federation_id_is_read_beyond_its_end`); the ID of the federate is used as an
index without a check (`C75_id_out_of_range_is_written_beyond_the_end`); a second connection
takes the place of another federate
(`C75_second_connection_takes_the_place_of_another_federate`); a rejected federate tries
again without end and without closing sockets (`C75_rejected_federate_tries_without_end`);
after the RTI has failed an unconnected socket is recorded
(`C75_unconnected_socket_is_recorded`).

**Wire.**
A payload of 2^32 bytes is announced as empty (`C31_long_message_announced_wrongly`). A
big-endian RTI sends the start time byte-swapped
(`C31_start_time_wrong_on_big_endian_rti`).

**RTI and enclaves.**
A federate without upstream federates can get a TAG earlier than a previous one
(`C24_without_upstream_not_monotone`). A message at `FOREVER_TAG` may follow a grant of
`FOREVER_TAG` (hypothesis of C25). An enclave's next event tag can be overtaken by a message
(`C55_race_breaks_the_promise`); an enclave that starves executes shutdown reactions after
having reported `FOREVER` (`C55_shutdown_of_a_starving_enclave_breaks_the_promise`); idle
enclaves in a cycle wait forever (`C55_idle_cycle_waits_forever`). The bound of a next event
tag by a physical action is one microstep too late in one case
(`C51_reported_microstep_can_be_too_late`).

**Federates and the RTI together.**
A message that comes in during the wait for the first grant makes a federate report its tag as
the next event although its reactions to startup have not been executed; a downstream federate
may be granted that tag and find the message of a startup reaction tardy
(`C60_fails_by_early_wakeup`; `federate.c:2450-2460` with `reactor_threaded.c:636`). The same
loop sends a next event tag without the bound by physical actions (reading). Reactions to
shutdown at a requested stop tag send although the federate has reported a later next event
(`C60_fails_by_requested_stop`). A next event tag with a microstep may be reported in the very
nanosecond in which a physical action can still occur at microstep 0 (`C60_fails_by_tie`). A
message that comes in at the stop tag for a later tag makes the handler close the socket with
index -1 (`C60_late_message_has_bad_index`; `federate.c:417`, `667`, `1575`). With `-fast` the
dummy event of a federate with physical actions may lie in the past, and a federate without a
timeout advances to the end of time (reading). When all upstream federates of a federate have resigned, it
is granted the end of time and does not report next event tags any more, and it confirms only
tags with messages, of which none come; so the federates downstream of it are not granted
anything until it resigns, although it goes on executing and sending
(`C72_starves_when_upstream_has_resigned`; `rti_common.c:157-183` with `federate.c:2398-2404`
and `2261-2277`).

**Waiting for inputs.**
With decentralized coordination a notice about an earlier tag counts for the current one
(`C45_late_notice_unblocks`); a notice and a timeout, or a message at the start tag, claim
knowledge of the next microstep (`C45_notice_and_timeout_claim_next_microstep`,
`C45_start_message_claims_next_microstep`); the microstep wraps
(`C45_last_microstep_goes_back`); the test of the level before a message is handled at once
has no effect (`C45_level_test_is_void`).

**Modes.**
A nested reactor entered through the history of its outer mode leaves its events suspended,
or loses them (`C47_nested_history_forgets_events`, `C47_nested_event_lost`), and its initial
mode never gets its startup (`C59_nested_history_skips_startup`). A reset transition from a
mode to itself keeps pending events (`C47_self_reset_keeps_events`). A one-shot timer fires
twice (`C47_one_shot_timer_fires_twice`). Resumed events can collide
(`C47_resumed_events_collide`). A timer whose next occurrence is beyond the stop tag is not
restarted (`C47_timer_beyond_stop_is_not_restarted`). Token references held by discarded
suspended events leak; a physical action scheduled while its mode is inactive is lost; the
list of suspended events is shared by all environments (reading).

Platforms: C64 and C65 list what the clocks and critical sections of microcontrollers do wrong, each with a theorem.
The sleep of programs without threads (C77): Arduino sleeps with interrupts disabled and forgets what is scheduled before it resets its flag;
FlexPRET resets its flag after it has enabled interrupts, and `fp_wait_until` does not notice an interrupt that came just before it; RP2040 rounds the time down to microseconds, so it can
advance past an event; Zephyr with a counter returns up to the runtime overhead and a microsecond early, so logical time can get ahead of the clock, and a physical action that is scheduled then is in the past (C10, C13);
nRF52 compares the timer with a value that it may have passed, and then sleeps until the timer has overflowed (71 minutes).
`_lf_cond_timedwait` of the RP2040 does not release the mutex (`C67_timed_wait_keeps_the_mutex`).
By reading: on Windows `lf_sleep` returns 1 for success and 0 for failure, and `_lf_cond_timedwait` returns 0 instead of
`LF_TIMEOUT` when the time has passed already; on FlexPRET `_lf_sleep_common` counts the epochs from the start of the clock
rather than those that remain (`C104_too_long_by_the_epochs_before`); on Zephyr `lf_thread_create` returns with its mutex locked when there are no threads left (`C105_calls_after_a_refusal_not_returning`).

Decentralized coordination: the wait for the safe-to-advance offset ends up to 10 microseconds early
(`C68_last_ten_microseconds`), a message for the start tag that is completed just before the start makes the next microstep
count as known (`C68_start_message_makes_the_next_one_late`), and a message whose tag is taken is moved on by one microstep
without a check whether that tag is free (`C69_message_overwritten`).
When the offsets are smaller than the bounds require, a federate skips a tag and gets its message later, at a tag that the
program does not have; the code does not relate offsets to clocks or latencies anywhere (`C76_fails_if_offsets_do_not_cover`).

Tardiness marks: a reaction enabled by a tardy message and one in time is told about it or not depending on the order in which
the receiving reactions are executed (`C70_second_message_hides_tardiness`, `C70_order_decides`); a chain passes on a mark that
was handled (`C70_chain_passes_on_what_is_handled`); a missed deadline leaves a mark that is found at a later tag
(`C70_missed_deadline_leaves_the_mark`).

The command line of the RTI (C87): the word that follows the arguments of `-c` is skipped, so `-c on -n 3` takes `3` for an option and
refuses the line, and `-c on -t` starts without tracing (`C87_not_options_after_clock_sync`, `C87_not_in_any_order`); numbers that
do not fit are truncated (`C87_not_large_numbers_are_refused`), and what follows a number is ignored (`C87_not_nonsense_is_refused`).
By reading: the usage text says that the period is 5 msec if none is given, and the code has 10 msec.

Deadlines and late handlers: `lf_check_deadline` says that the deadline has passed, and calls the handler that is asked for, for a
reaction without a deadline (`C17_not_without_deadline`), for one with deadline zero (`C17_not_with_deadline_zero`), and it finds
no executing reaction when it is called inside a handler (`C17_not_in_handlers`). Deadline handlers and STP handlers are executed without the mutex of
the reactor, unlike the reactions of a reactor with watchdogs; a watchdog handler may run at the same time
(`C50_not_excluding_late_handlers`), and starting or stopping a watchdog there may have no effect
(`C50_not_started_by_late_handlers`, `C50_not_stopped_by_late_handlers`).

The trace-to-CSV tool (C88): `scheduler_advancing_time_starts` and `_ends` are written with worker -1, for which the tool computes the index -1 and
writes `reactions[-1]`: with the layout of `summary_stats_t` on 64-bit machines that is the header of the memory block and the pointer to the name of the last
object.  The check "Too many workers" compares with the size of the wrong table (`object_table_size + index >= table_size`, where the table also has the types of events), and
`reactions` has 64 entries although the index of a worker goes to 127.

The usage text of the RTI says that the period of clock synchronization is 5 ms by default; it is 10 ms (`C87_period_not_as_documented`).

The reader of wave files (C89): the warning about an unsupported format is followed by reading the file as if it had the supported one; the comment says that NULL is returned.
The file is never closed, the header is not initialized (the result for an empty file depends on the stack), chunks are skipped with an array on the stack of a size that
the file determines, and the padding byte of chunks of odd size is taken for the next chunk.

The audio loop (C90): notes end when the position reaches `length - num_channels`, one frame too early.  On Linux the callback continues notes in the buffer that is being
delivered, in which they have begun, instead of the next one; so every note that crosses the end of a buffer is heard with a part of its rest before its beginning.

Printing (C91): the comment of `lf_print_error_and_exit` says that the prefix is `ERROR: `, but it is `FATAL ERROR: `; the comments say that the levels 0 to 2 are the same and that
only messages of the given level are redirected, neither of which is so; the name of the federate becomes a part of the format; `errno` is read after a message was printed.

The sensor simulator (C92): texts are used as formats, the list of arguments is used twice when there is a log file, ticks are not freed, `thread_created` is set to 0 just before it is
tested so that a second start is not ignored, and the function for `atexit` ends a simulator that has been ended.  `_lf_sensor_mutex` is never initialized by the simulator; and with the
level for debugging, `_lf_sensor_simulator_thread` prints while it holds it, which posts a message and locks it again (a deadlock, not modelled).

InfluxDB (C93): `_APPEND` enlarges the buffer but does not print again; `_escaped_append` doubles the buffer only once; `format_line` passes a pointer to an `int` as one to a `size_t`;
`post_curl` gives the URL as many bytes as the line has, does not check the result of formatting, and never frees the list of headers; the header has 120 bytes; backslashes are not escaped;
`reaction_name` has four bytes and is never freed; the number of records printed is that of the last chunk.

HTTP (C94): the loop around `snprintf` always ends after one round, so a header that did not fit is sent with the old text and bytes of the heap; `recv` returning 0 is not tested, so a closed connection is read for ever;
a status of 0 is success; `realloc` overwrites the only pointer to the buffer; names are not encoded in the query.

**Files for the event viewer of Chrome.** Descriptions are not escaped (`C96_descriptions_not_escaped`); of reaction numbers only three digits are shown
(`C96_reaction_numbers_cut`); the test for the name of the end of an advance of time tests for the begin, so that the two have different names
(`C96_advances_not_matched`); no thread -1 has a name (`C96_advances_not_named`); user events are said to be shown in physical time but are shown in
logical time (`C96_user_events_not_in_physical_time`); a trace file that is named `.json` in the working directory is emptied before it is read
(`C96_input_is_overwritten`).

**Ports.** The port for clock synchronization is that after the port for everything else, and no other is tried (`C97_udp_port_not_searched`); the RTI accepts
ports up to 65534, but federates only up to 32767 (`C97_high_port_not_found`); a federate that is given 15045, the default, does not search the other default
ports, on which an RTI without a given port may be (`C97_given_default_port_not_searched`).

**Threads.** The threads of watchdogs take identifiers but are not counted when trace buffers are allocated (`C98_watchdogs_not_counted`); with one watchdog,
because of the test that is off by one (C49), the last thread to begin uses memory behind the arrays (`C98_one_watchdog_not_noticed`), with more the program
exits with an error; the number of workers of the first environment is taken for all (`C98_other_environments_not_counted`). The main thread takes two
identifiers, the first of which is not used again. With a reaction graph of breadth 0 there is no worker and nothing is executed
(`C98_breadth_zero_not_executed`). The number of a worker is taken from a counter that goes down when workers end, so that numbers differ only because no worker
ends before all have begun (`C98_early_end_not_handled`).

**Command lines of the tools for traces.** `trace_to_csv` compares the four characters before the end of every argument with `.lft`, and so reads memory in front of
every argument that is shorter, among them every `-s` and `-e`. That makes no difference (`C99_memory_in_front_is_irrelevant`) unless the argument is a proper end of
`.lft` (`C99_end_of_lft_not_safe`). `--start` and `--end`, which the usage names, are not accepted (`C99_long_options_not_accepted`); a time of -1 ns is taken for an
error (`C99_minus_one_nanosecond_not_accepted`); without a trace file an uninitialized pointer is used (`C99_missing_file_not_handled`). `trace_to_influxdb` takes
options that do not exist for names of files, goes on with port 0 when the port is not a number, and reports the number of records of the last batch as that of
all of them (`C99_influx_unknown_option_not_rejected`, `C99_influx_invalid_port_not_rejected`, `C99_reported_number_not_total`).

**Printing queues.** `pqueue_print` takes the elements from a copy of the queue, but the elements, which store their positions, are not copied: afterwards all positions
are 1, and `pqueue_remove` removes the first element in place of the given one (`C100_print_positions_not_kept`, `C100_remove_after_print_not_safe`). In the
repository only a test prints queues; the runtime dumps them.

**Windows.** `_lf_cond_timedwait` cuts waits to 0xFFFFFFFF ms, which stands for an infinite wait (`C101_long_waits_not_ended`). `lf_sleep` returns 1 for success and 0 for
failure, the reverse of what its comment says and `next` expects: a completed sleep is taken for an interrupted one and the runtime looks again, and
a failed one for a completed one, so that the tag advances early (`C101_failed_timer_not_waited_for`). `_lf_clock_gettime` returns 0, success, if the counter
cannot be read (`C101_failed_reading_not_reported`), and overflows if there is no counter (`C101_clock_without_counter_not_usable`).

**Arguments of `start` in Python.** `py_main` does not look at whether its arguments could be parsed: with more than one, `argc` is not set and `argv` is `NULL`
(`C102_python_more_arguments_not_safe`); with an object that is not a list, the size -1 is taken for the number of arguments and the program runs without them
(`C102_python_other_objects_not_refused`).

**Scheduling policies.** On Linux `lf_thread_set_scheduling_policy` sets the policy with the most urgent priority before it checks the priority: a call that is refused
leaves the thread at the most urgent priority (`C103_refused_policy_not_without_effect`). On Zephyr a slice below a millisecond is rounded to 0, which ends
slicing (`C103_zephyr_short_slices_not_kept`).

**By reading only** (no theorem): `lf_set_stp_offset` ignores offsets that are not positive, so an offset cannot be set back to 0 (core/reactor_common.c:156-160);
the RTI tests `errno != EAGAIN || errno != EWOULDBLOCK` after a failed `accept`, which is always true where these have different values (core/federated/RTI/rti_remote.c:1551);
`lf_thread_join` on Windows stores the result of the wait, not that of the thread (lf_windows_support.c:190-199); `_lf_remove_suspended_event` reads `predecessor->next` before it
tests `predecessor` (core/modal_models/modes.c:117; `C106_removal_of_others_not_safe`).
