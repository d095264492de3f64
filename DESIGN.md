# Formal model of OSHMPI: design

Target: `pmodels/oshmpi` (C), read as text in `/repo`. Prover: Lean 4.33.0. Project: `/verif/lean`.

## Layout

Each area has a directory `lean/Verif/<Area>/` with

* `Model.lean`  – definitions that follow the C code, each with a `/repo` file and line citation;
* `Spec.lean`   – (where needed) the small independent specification the theorem statements use;
* `Lemmas.lean` and others – helper lemmas and invariants;
* `Props.lean` and others – the property theorems (named `Cxx_...`), with an `example` that meets their hypotheses.

`MANIFEST.json` names the theorems of each property. `AXIOMS.md` lists the axioms of each of them. `seeded/LOG.jsonl` records
the wrong models tried against the theorems.

Naming: `Cxx_..._partial` proves less than the full statement of property `Cxx`, because the code itself violates the full
statement in the cases the hypotheses exclude. Those cases have their own theorem (`Cxx_fails...` or a name that says what
happens), so that full statement, proved part and violated part are all in view.

## Trusted base

* Lean's kernel. Axioms: `propext`, `Classical.choice`, `Quot.sound` and no other (per theorem: `AXIOMS.md`). No `sorry`, no
  own axioms, no `native_decide`, no `bv_decide`.
* The reading of the C code into the model (cited per definition).
* The C implementation: LP64 (`int` 32 bit, `size_t`/`long`/pointers 64 bit), 16-byte `long double`, two's complement
  conversions to signed types as gcc defines them. Signed overflow, out-of-range array accesses, division by zero are the
  outcome `ub`, never a default value.
* The default error handler of MPI aborts: illegal MPI calls are the outcome `abort`.
* `OSHMPI_ASSERT` is modelled as *abort* (the default build); the model says so where `--enable-fast=ndebug` matters (C69).
* Behaviour of external calls, stated in the header of each model file:

| area | assumed |
|------|---------|
| Lock, P2p | accumulate-family operations of MPI on one word are atomic; `MPI_Win_flush` completes them |
| Am | messages of one thread to one destination on one communicator match receives in order; messages of different threads are unordered; acknowledgement sends are buffered |
| Rma, Amo | MPI datatypes have the type maps of the standard; a transfer pairs the bytes of the two type maps; a message longer than the posted receive is an error |
| Order, Vis | `MPI_Win_flush_all`, `MPI_Win_unlock_all` complete the caller's operations on that window; `MPI_Win_flush_local` completes a get or fetch; unified memory model; an accumulate and a handler are each one atomic access (a word is accessed by one of the two: the choice is made once, at start-up, for all PEs; concurrent accumulates use operations the `accumulate_ops` hint allows, see C49); when the result of an AMO is there, the access has been performed |
| Coll | one call per member; members making different calls hang; otherwise the result is the one of the MPI standard |
| Team | `MPI_Comm_split`, `MPI_Group_translate_ranks` as in the MPI standard |
| Space | the collective calls are made by all PEs; `malloc` returns fresh names |
| Symm | `msync` fails with `ENOMEM` exactly on unmapped pages; `mmap(MAP_FIXED)` maps the range or fails; `munmap` of a bad address has no effect |
| Joint | the n-th collective calls on a communicator belong together; in the call MPI reads a source byte before it is overwritten, may use the destination as scratch space, delivers a byte of the result once it is determined by what was read; a member may return when its destination is complete; the program leaves the sources alone until its own call returns |
| Setup | POSIX mutexes and condition variables (spurious wake-ups allowed); MPI calls after `MPI_Finalize` abort |
| Cs | accesses are atomic and sequentially consistent; MPI calls made inside a critical section return; a scheduler that lets runnable threads run |
| Serve | operations on MPI windows complete without the target's help; a collective may be left once all members called it, and the synchronising ones not before; a wait for an MPI request ends once it is complete. For C101 only: a PE that can go on from some time on does, and a PE that looks for packets again and again while one from a given PE is always there receives one |
| Gpu | the driver tells where a pointer points (`Driver.Good`); device allocators return device memory of their vendor |
| Sig | nothing beyond Vis; a wait reads its flag in one atomic access per round (p2p_impl.h L48-51); programs look at memory as in Bsp |
| Bsp | nothing beyond Vis; a program looks at its own memory only through `Prog.next`, between its calls |
| Crit, Mix | nothing beyond Lock and Vis; one thread per PE; programs are straight-line (loops unrolled) and look at their own memory between calls |
| Gpu/Ze | the loader gives the same drivers and devices at both calls; a device can be used with a context iff it belongs to the context's driver |
| Heap | critical sections exclude each other; memory obtained from the OS lies outside the heap; `MPI_Barrier` (C52) |

* Each access to a flag declared atomic, and each access inside a critical section, is one atomic step (sequential consistency
  inside a process).

## What is modelled

| code | module |
|------|--------|
| `lock_impl.h`, `shmem/lock.c` | `Lock` |
| `util/mem_pool.c` | `MemPool` |
| `oshmpi_impl.h` (handles, translation, lookup), `common.c`, `symm_mem.c` L177-206 | `Sobj`, `Base` |
| `space_impl.c`, `ctx_impl.c`, `shmemx/space.c` | `Space`, `Space/Ctx`, `Space/Alloc` |
| `util/utlist.h` (the operations in use) | `UtList` |
| `shmem/team.c`, `team_impl.c` | `Team` |
| `p2p_impl.h` | `P2p` |
| `amo_impl.h`, `amo_am_impl.{h,c}` (computation) | `Amo` |
| `setup_impl.c` (environment, hints, thread level), run-time choice of paths | `Env` |
| `rma_impl.h`, `rma_am_impl.{h,c}`, `strided_impl.{h,c}` | `Rma` |
| `am_impl.{h,c}`, `am_progress_impl.h`, message protocol of the AM operations | `Am` |
| `order_impl.h`, tracking macros, barriers | `Order`, `Order/Threads` |
| `coll_impl.{h,c}`, `coll_activeset_impl.h` | `Coll` |
| `symm_mem.c` L33-157 | `Symm` |
| `setup_impl.c` L734-925, L670-687, progress thread handshake; which resources every call uses | `Setup` |
| `mem_impl.c`, `dlmalloc.c` (as used) | `Heap`; with the bins: `Dl`; headers in memory: `Tag`; links of free lists in memory: `Lnk` |
| all PEs with the data of operations in flight (put, get, AMO, barrier, quiet, the reads of the wait and test routines, the accesses of lock calls) | `Vis` |
| type and size tables, generated wrappers (put, get, AMO, reductions), `shmem/setup.c` queries, C11 generic macros | `Api` |
| critical sections and accesses to shared structures in all calls (`oshmpi_impl.h` macros and queries, `space_impl.c`, `mem_impl.c`, `order_impl.h`, `am_impl.c`, `coll_activeset_impl.h`, `strided_impl.h`) | `Cs` |
| blocking points of all calls (`am_progress_impl.h`, `coll_*`, `lock_impl.h`, `p2p_impl.h`, `team_impl.c`, `space_impl.c`, `finalize_impl`) | `Serve` |
| `util/gpu/cuda.h`, `util/gpu/ze.h`, `oshmpi_util.h` L267-293, memory kinds of `space_impl.c`, what touches memory on each path | `Gpu` |
| `util/gpu/ze.c`, `space_impl.c` L113-132 | `Gpu/Ze` |
| calls by name in executions of all PEs (`rma_typed.c.tpl`, `amo_*_typed.c.tpl`, `p2p_typed.c.tpl`, `mem.c`) | `Flow`, `Mm` |
| collective calls in executions of all PEs | `Joint` |
| whole programs in executions of all PEs: phases between barriers, flags, locks, locks and barriers | `Bsp`, `Sig`, `Crit`, `Mix` |
| `signal*.c`, vector routines of `p2p_typed.c.tpl`, `context.c`, `shmem_team_sync` | `Stub` |

## Not modelled

Debug printing, verbose output, failure of the library's own `malloc`, MPI error codes (the default handler aborts), Fortran
bindings, `shmem_pcontrol` and profiling names, cache routines (`shmem/cache.c`, empty bodies), performance, weak-memory effects
inside one process, GPU drivers (their answers are a parameter of `Gpu`), memory that dlmalloc takes from the OS after the heap is exhausted (only that it lies
outside), `mspace_*` entry points the library never calls.

## Properties and proofs

| id | model | proof |
|----|-------|-------|
| C01 | `Lock`: N PEs, each call cut at every remote atomic; memory words `last` (root) and `next` (per PE) | inductive invariant describing the waiting queue; mutual exclusion follows |
| C02 | same, with a ghost log of arrivals and grants | grants are a prefix of arrivals |
| C03 | same | some non-poll step is enabled in each non-idle state; ranking function on queue position |
| C04 | same | step characterisation plus the invariant (word 0 iff queue empty) |
| C05 | lock model plus one data word with an outstanding put | negation with a witness; partial theorem with explicit quiet |
| C06–C10 | `MemPool`: `chunks_nused` array, the scan loop with C `int` counters, UB for out-of-bounds writes | block-list invariant by induction over histories; loop invariant for first fit |
| C11 | `Base`: rounding on 64-bit words | arithmetic for all powers of two |
| C12–C15 | `Sobj`: objects, per-PE bases, the two translation functions, lookup | bit lemmas, arithmetic, list induction |
| C16 | `Space`: create/attach/detach/destroy histories | counter invariant; registry as a function of the history |
| C17–C20 | `Rma`: memory as address→byte, MPI type maps, AM packets, datatype cache | functional equality, cache invariant |
| C21–C23, C25–C28 | `Am`: message-passing transition system with per-thread FIFO channels, handlers and blocking waits | inductive invariants over all schedules; progress by a ranking |
| C24 | `Amo`: handler computation on bytes | refinement to the abstract operation, all types and operations |
| C29–C31, C56, C57 | `Order`: windows with outstanding operations and tracking flags | invariants over histories |
| C32 | `Order/Threads`, `Am` | interleaving invariant; negation by executions |
| C33–C38 | `Coll`: communicator construction, cache, MPI collective semantics | list lemmas, cache invariant |
| C39–C41, C55 | `Team` | arithmetic on all sizes |
| C42 | `Space/Ctx` under compare-and-swap interleavings | invariant |
| C43 | `P2p` | case analysis over codes, induction over reads |
| C44–C46, C48, C49 | `Env` | string/list induction; decision tables over all masks |
| C47 | `Heap` | arithmetic on sizes; dlmalloc decision; witnesses |
| C50, C58 | `Symm` | loop invariant over retries, all PEs |
| C51, C59 | `Setup` | invariant over call histories; handshake invariant |
| C52 | `Heap/Barrier`: N PEs | invariant on barrier counts |
| C53 | `Space/Alloc` | theorems for all arguments |
| C54 | `UtList` | refinement to lists |
| C60–C62 | `Heap/Hist`: chunk sequence over call histories; which free chunk is used is left open (every choice) | invariant by induction; offsets as a function of the history |
| C61, C62, C70–C72 | `Dl`: the chunk sequence together with small bins, tree bins, bit maps and `dv`; every placement decision as in the code (GCC on x86-64, footers off, no further segment) | bins hold exactly the free chunks (invariant); trie lemmas for the tree search; simulation by `Heap` |
| C63, C64 | `Api` | table lookup composed with C17; case analysis |
| C65-C68 | `Vis` | invariant over all executions of all PEs (every access in flight belongs to an operation the order model lists); the fate of one byte (`Only`); for C67 the sum of the word and of what is in flight |
| C69 | `Stub` | all arguments; negation for the ndebug build |
| C73-C76 | `Vis` with the values AMOs return | the history of performed AMOs is a sequential execution (`Seq`); counting calls, performed and in-flight accesses; induction over the sequential execution |
| C77 | `Api/Reduce` | table lookup composed with C37; the fold over ranks meets an independent specification of each operator |
| C78, C79 | `Tag`: sizes and flags of chunks as bytes in the heap, between the users' data; links of the bins are arbitrary changes of free memory | simulation by `Dl` (headers describe the chunk sequence); frame lemmas for every call; induction over histories |
| C80, C81 | `Team.Agree`, `Api.Coll`: the routines of coll.c, coll_typed.c.tpl, coll_activeset.c on teams and active sets | agreement of the members by induction over splits; composition with C33–C38, C77 |
| C82 | `Lnk`: links of smallbins and tries (`fd`, `bk`, `child`, `parent`, `index`) as addresses in the bytes of free chunks, bin heads in `malloc_state`, every access and every check of the code | simulation by `Tag` up to changes of free bytes: rings and tries in memory represent the lists and trees of `Dl`, one lemma per list operation |
| C83 | `Serve`: every library call as the sequence of points where it may block, with or without progress; packets on their way; MPI collectives with any completion rule MPI allows | the library against an ideal in which packets are handled at any time: invariants by induction over steps, classification of stuck states, permanent hangs as invariants |
| C84 | `Cs`: every call as the list of its accesses to structures shared by threads, with the mutexes around them; any number of threads interleaved access by access | invariant over all interleavings (nesting order, protection, ownership of space objects); from every state each mutex can be obtained by steps of the process alone |
| C85 | `Setup.Use`: the resources each call, handler, creation and release uses | the log of every run is one of finitely many per build (invariant), checked against the uses; calls by case analysis |
| C86 | `Api.C11`: the `_Generic` macros, type tables with their C11 flags, typedef choices | case analysis over macros; finite check over the 27 typedef choices; congruence for the effects |
| C87 | `Api.Amo`: every routine of the AMO templates with what it passes on; lookup, path, target memory, result | case analysis over routines composed with C24 and C17's address resolution |
| C88 | `Api.RmaRt`: every routine of the RMA templates with what it passes on, strided routines with their stride order, the datatype table of the handlers | case analysis over routines composed with C63, C18, C20 |
| C89 | `Lock.Words`: any number of locks as bytes in the memories of the PEs, each access at the address MPI derives from the displacement the code computes | per-lock refinement to `Lock.Model`; concrete executions where it fails |
| C90 | `Lock.Multi`: infinite runs with several locks | projection of a run to each lock is fair, by induction on the lock number from the last |
| C91 | `Api.P2pRt`: the routines of p2p_typed.c.tpl and p2p.c with what they pass on, the lookup on the caller's PE, the loop of reads in memories others keep changing | induction over the reads; composition with C13, C43, C86 |
| C92 | `Team.Life`: team objects, communicators and groups in the memory of a PE, handles as addresses | refinement: the memory agrees with the program's book after every legal sequence of calls |
| C93 | `Flow`: a call of a named routine of `Api` as a step of `Vis` (its bytes are those of `Rma`), waits and tests of `Api.P2pRt` reading the memories of an execution | composition of C65-C68, C88 and C91 |
| C94 | `Vis`: continuations of an execution | well-founded induction: on the accesses in flight, then on the distance of the PEs to the N-th barrier |
| C95 | `Dl` + `Heap` + `Flow`: blocks of the allocator in executions of all PEs | composition of C61, C70, C47 with C93 and C94 |
| C96 | `Crit`: `Lock/Words` and `Vis` in the same memories | the lock part is an execution of C89, the data part of C65-C68; invariant: what is in flight to guarded bytes belongs to the holder |
| C97 | `Flow/Amo`: a named routine of `Api/Amo` as a step of `Vis`; executions as sequences of states and events | the event of a call from the template body (`body_api`) and the address (`symm_resolve`); then C67, C73-C75 |
| C98 | `Mm/Model`: the fifteen routines of mem.c and shmemx/space.c on the heap of `Dl` and the pools of `MemPool`; `Mm/Symm`: two PEs | invariant `Inv` (objects apart, blocks of the allocators = blocks held, up to the leak); C70, C06-C08; relation `Same` of two PEs |
| C99 | `Joint/Model`: `Vis` plus collective calls with separate entry and return; MPI reads and writes their buffers byte by byte | projection of a step to steps of `Vis`; per byte: read value = value at entry, result determined by what was read; C81, C65 |
| C100 | `Env/Init`: `initialize_env` with `atoi` and `strtof` | one variable at a time; C44–C46 |
| C101 | `Serve/Fair`, `Serve/Bulk`: infinite fair executions of the model of C83 | measure on queues and calls; C83's invariant |
| C102 | `Vis/Fair`, `Vis/FairProps`: infinite fair executions of the model of C65 | measure on what is to be performed; C56, C65, C66 |
| C103 | `Gpu/`: pointer query, memory kinds of spaces, what touches device memory on each path | cases; invariant over sequences of operations |
| C104 | `Bsp/*`: programs and their executions in the model of C65 | invariant: every byte has its value or exactly one operation in flight will write it; C65, C66 lemmas |
| C105 | `Bsp/Fair.lean`: infinite executions of programs | C102 (blocking calls, quiet, calls accepted, barriers) with C104's invariant; induction on the actions left in the phase |
| C106 | `Bsp/Named.lean`: programs of calls by name | simulation of the program of C104 (C93, C95); acceptance by C93_call, C94_issue; then C104, C105 |
| C107 | `Bsp/*` with `Act.add`, `Bsp/Exists.lean`, `Bsp/Count.lean` | the invariant of C104 with sums of additions done and in flight; executions constructed call by call, then C102's construction; a sum over all PEs as worked example |
| C108 | `Sig/*`, `Vis` with `Ev.poll` | invariant over executions with reads of the wait routines: who may rely on which byte, by induction on the rules of OpenSHMEM; termination by a rank of the calls; executions constructed; a chain of PEs as worked example |
| C109 | `Crit/Prog`: programs over `Crit.Step` | infinite executions whose lock accesses are `touch` events of `Vis`; lock calls return (C90) because holders go on, by induction on the number of the lock; counter: invariant on value, temporaries and who is in flight; executions constructed, one PE after the other |
| C110 | `Crit/Seq`: sequential executions, rules for programs without races | simulation: every step is one sequential step or none; per byte, the value is settled or one PE that may write it has the write in flight; exclusion from C89 |
| C111 | `Mix/Prog`, `Mix/Seq`: programs with locks and barriers, their sequential executions | simulation as in C110; the sequential execution passes a barrier when the first PE returns from it; everything is settled then |
| C112 | `Gpu/Ze`: Level Zero start-up as a search through the drivers, every call may fail | induction over the drivers; exact list of arrays that remain |
| C113 | `Mix/Fair`, `Mix/FairExists`, `Mix/Tally`: infinite fair executions of programs with locks and barriers | locks by downward induction on their number (increasing order), barriers by C102, then C111 for the result; a sequential invariant for the counter |
| C114 | `Mix/Settle`, `Mix/Settled`, `Mix/Announce` (and `Mix/Exists`, `Mix/Fair`, `Mix/FairExists`): the same programs, with operations pending at barriers | the invariant of C111, with what is pending split into what a quiet and what a barrier ends; at a barrier C65 shows nothing covered is in flight. C111 and C113 are the case in which nothing is covered |
| C115 | `Bsp/PutTest`: tests/int_put.c as a program of C106, for every SIZE and ITER | induction over the pieces gives the memory after each phase; C106 and C107 carry it to all executions |
| C116 | `Flow/FetchAdd`: calls as in C97 | the sum invariant of `Vis/Sum`; no fetching call is among the operations in flight, so what remains to be added is zero when nobody is inside a call |
| C117 | `Bsp/StridedTest`: tests/iput_quiet.c as a program of C106, with barriers for `shmem_sync_all` and both arrays on the symmetric heap | as C115; division with remainder by the stride tells which element a byte belongs to |
| C118 | `Flow/Register`: calls as in C97 | the effects on the object form a sequential history (C73); counting calls and effects shows that writes which are over have no effect later, so only `v` is written after them |
| C119 | `Flow/RegisterLive`: fair infinite executions as in C102 | the completing call returns (C102), so the write has been performed; from then on every effect on the word is a read or a write of `v`; a fetch that was called is performed |
| C120 | `Flow/WaitLive`: the loop of C43 on the values read in fair executions of C102 | the flag arrives (C119); a PE that stands at a read makes it (C102); that read ends the loop (C43) |

## Where the code violates a property

Each violation is proved as a theorem about the model (named in MANIFEST.json), the remainder is in the `_partial` theorem.

* **C01** Violated in builds with dynamic windows when the lock's object has different addresses on the PEs: the displacement of `next` is computed for the root and used with every PE. Otherwise proved for all interleavings and any number of PEs that fits a C int, and carried to locks in memory by C89.
* **C02** Violated in builds with dynamic windows when the lock's object has different addresses on the PEs: the displacement of `next` is computed for the root and used with every PE. Otherwise: refinement to an abstract FIFO lock, and grant order is a prefix of request order.
* **C03** Violated in builds with dynamic windows when the lock's object has different addresses on the PEs: the displacement of `next` is computed for the root and used with every PE. Otherwise, in fair runs every set/test/clear call returns; deadlock freedom as a state property too.
* **C04** Violated in builds with dynamic windows when the lock's object has different addresses on the PEs: the displacement of `next` is computed for the root and used with every PE. Otherwise proved.
* **C05** False of the code: clear_lock performs no quiet (witness proved). Partial: holds when the program calls quiet before clear_lock.
* **C08** free is exact for pointers returned by the allocator; pointers at least 2^32 chunks outside the pool are accepted because the index is cut to 32 bits (negation proved)
* **C10** false for size 0 and for sizes of at least 2^31 chunks (negations proved); safe for every other size
* **C100** The full claim is false: OSHMPI_AMO_OPS=all, documented as the default, selects no operation (C100_all_fails); SHMEM_DEBUG, SHMEM_VERSION and SHMEM_INFO stay off for words, which the OpenSHMEM standard allows (C100_word_fails); a text that is no size makes an empty heap and a negative one is undefined, without a message (C100_size_fails); the progress thread is on by default although the README says 0 (C100_async_fails). The rest is proved.
* **C102** Fairness is an assumption on MPI and the operating system (Inf.Fair); for active messages C101 derives it from their handling. Missing, because the code violates the claim there: quiet and fence with spaces that are not attached (C56_fails_*), barriers after operations they do not complete (C65_space_fails); and atomic additions that overflow in a handler are undefined behaviour (C24).
* **C103** Proved for puts and gets with automatic choice and for creation and destruction. The rest of the claim is false: atomics on device memory are computed by the target's CPU in the default configuration (C103_amo_fails); the feature acc is never looked at (C103_acc_fails, C103_wait_fails); calloc, locks and broadcast touch device memory with the CPU (C103_cpu_fails); a library built for both vendors does not recognise Level Zero pointers (C103_both_fails); forced direct RMA ignores the features (C103_forced_fails). The drivers' answers are a parameter.
* **C104** Missing, because the code violates the claim there: puts and non-blocking gets that a barrier does not complete (spaces and their contexts without dynamic windows, C65_space_fails). Additions are part of the programs (C107); other atomics, locks and waits may happen but not on the bytes the claim is about.
* **C105** Missing, as in C104, because the code violates the claim there: puts and non-blocking gets that a barrier does not complete (spaces and their contexts without dynamic windows). Programs of this kind use no spaces; the call's acceptance by the library is C93_call, C94_issue (and discharged for blocks of the heap in C106).
* **C106** Missing, because the code violates the claim there: blocks that end in the last part of the heap (C95_fails), calls beyond the routines' limits (C88), and, as in C104, puts to spaces and on their contexts, which a barrier does not complete without dynamic windows. Fairness is the assumption of C102.
* **C107** Missing for the same reasons as C104-C106 (blocks in the last part of the heap, puts to spaces). Executions are shown to exist for additions to signed words only where atomics are MPI operations: the handler's signed overflow is undefined behaviour (C24, C27). The counters are in the models and theorems of C104-C106, too; fetching atomics of the program may happen but not on the bytes the claim is about.
* **C108** Missing, because the code violates the claim there: blocks that end in the last part of the heap (C95_fails) and calls beyond the routines' limits (C88). On the level of bytes moved (C108_relied to C108_ends) nothing is missing. The programs are single-assignment on the bytes the claim is about, on the default context; barriers, atomics, locks and anything else may happen elsewhere. Fairness is the assumption of C102.
* **C109** Missing, because the code violates the claim there: windows with absolute displacements and different bases (`Uniform`; the one displacement for all PEs, C90), and in C109_job_partial blocks in the last part of the heap (C95_fails). Programs are straight-line (loops unrolled), one thread per PE, default context, locks in the heap or the global data. Fairness is the assumption of C102.
* **C110** Missing, because the code violates the claim there: windows with absolute displacements and different bases (`Uniform`, as in C109). That the quiet before shmem_clear_lock is needed shows C96_fails. Programs are straight-line (loops unrolled), one thread per PE, default context; barriers, flags, atomics and collectives are not part of these programs (see C104-C108). Fairness (C110_result_partial only) is the assumption of C102.
* **C111** Missing, because the code violates the claim there: windows with absolute displacements and different bases (`Uniform`, as in C109). That fair executions come to the end is C113; here an execution to the end is shown to exist. Programs are straight-line (loops unrolled), one thread per PE; a shmem_quiet has to come before a barrier if something is pending (shmem_barrier_all completes operations on the default context only, C30); flags, atomics and other collectives are not part of these programs.
* **C112** Missing, because the code violates the claim there (`C112_fails`): a space on a GPU of a second driver is refused, since the only context belongs to the first driver with a GPU; a driver without devices in front of it makes start-up abort where malloc(0) gives NULL; the device arrays of drivers that were passed over are never freed (`C112_arrays` says exactly which remain); with drivers but no GPU a NULL driver is handed to zeContextCreate.
* **C113** Missing, because the code violates the claim there: windows with absolute displacements and different bases (`Uniform`, as in C109). Programs are straight-line (loops unrolled), one thread per PE; a shmem_quiet has to come before a barrier if something is pending (as in C111). Fairness is the assumption of C102.
* **C114** Missing, because the code violates the claim there (C30, C65): operations on other contexts or on windows the barrier does not flush are not completed by it, so the theorems take which operations it completes as a hypothesis (`EvCov`, `Covers`); locks whose address as an MPI displacement differs between PEs (`Uniform`, C01, C05). Programs are straight-line (loops unrolled), one thread per PE. Fairness is that of C102.
* **C115** Missing, because the code violates the claim there (as C106): arrays that end in the last part of the heap (C95_fails) and pieces beyond the limits of a put (C88). The variant with the arrays on the heap is modelled (USE_SYMM_HEAP); the element-wise fill is a store per byte. Fairness is the assumption of C102.
* **C117** Missing, because the code violates the claim there (as C106): arrays that end in the last part of the heap (C95_fails), strides and counts beyond an int (C18). Not the tests to the letter: barriers are shmem_barrier_all, not shmem_sync_all, and the source is a block of the symmetric heap, not of malloc. tests/iput.c calls quiet once after several iputs of the same elements; only the form with a quiet after each is covered. Fairness is the assumption of C102.
* **C13** Violated by the lock calls: `next` of a PE is reached at the right address iff the window has relative displacements or the PE's object is at the root's address (C13_lock_exact). Proved for put, get, AMO and the lock's `last`.
* **C17** Exact byte-for-byte effect for every buffer, offset, element size and count below 2^31 on the direct path; on the active-message path the byte count must also be below 2^31, because the handler passes it as an int (C17_am_fails). C17_put_counts and C17_get_counts give the exact behaviour for every count. C17_get_am_fails: over active messages a get of 2^29 elements of 8 bytes returns and has got nothing, because the byte count wraps to 0.
* **C18** Both paths, every datatype any history of the cache can hand out, counts and strides below 2^31; larger strides are truncated to int (C18_large_stride_fails). C18_iput_counts and C18_iget_counts give the exact behaviour for every count and every stride (the stride at the receiving side not a multiple of 2^32).
* **C19** False of the code: exactly (int) n elements are moved, or the program aborts. The theorem gives the exact behaviour for every count and C19_fails the counterexamples (put and get; collect is under C35).
* **C24** Exact for all unsigned types and, for all signed types, exactly when the C addition does not overflow (C24_signed_iff); whenever a handler runs to its end it has done the right thing (C24_ok). False for overflowing signed additions: undefined behaviour in the handler (witness).
* **C26** Unique, different from the header tag and below the bound in every reachable state. Refuted for the whole life of the program: the counter is never reset, so after pkt_ptag_ub - 2003 operations the PE is aborted (C26_exhausted).
* **C28** Holds for programs that complete their active messages before finalize. The code violates the full claim: finalize does not flush, an AMO whose call returned may be dropped (both progress modes).
* **C30** Full for default-context operations with dynamic windows. The code violates the claim with static windows: the barrier does not flush the windows of spaces.
* **C31** Full when nothing uses active messages. The code violates the claim for AMOs sent as active messages on a space context.
* **C32** Window operations: proved for all interleavings without operation tracking, and with tracking up to THREAD_SERIALIZED; with tracking at THREAD_MULTIPLE another thread's flag reset makes a quiet skip the caller's own put. Active messages: holds if the other threads only put and post; a get/fetch of another thread resets the flag set by a completed put/AMO.
* **C34** Holds where the root's index in the set is its PE number (set starts at PE 0 and stride 1 or root 0) and counts below 2^31. The code uses the index as a PE number: C34_fails characterises the wrong result for all other roots that are PE numbers of members; C34_get_fails shows the path where the data of a PE outside the set is delivered.
* **C35** For counts and displacements below 2^31. Counts travel as int: C35_count_fails gives divergent algorithm choice (hang), C35_displ_fails signed overflow of displacements, C35_fcollect_fails a 2^32-element call that moves nothing. The …_counts theorems give the exact behaviour of both for every count.
* **C36** For counts and strides below 2^31, any strides >= 1, any state of the datatype cache. C36_count_fails: 2^32 elements per block move nothing. The …_counts theorems give the exact behaviour for every count (alltoall) and every count and stride (alltoalls).
* **C37** Integer types and operators: fold over all members in rank order, whatever order MPI uses. Floating/complex: some order and bracketing with every contribution once. Counts below 2^31; C37_count_fails for larger ones. The …_counts theorem gives the exact behaviour for every count.
* **C38** For counts below 2^31; C38_count_fails: with 2^32 elements the non-root members receive nothing. The …_counts theorem gives the exact behaviour for every count.
* **C39** Exact for every valid triplet and for every triplet with a first or last rank outside the parent. False in corner cases, with witnesses: size 0 with a negative stride creates a team; stride 0 divides by zero.
* **C41** For every team reachable by splits. Violated for a number that is not a rank of the source team: MPI aborts instead of -1 being returned.
* **C44** Full statement fails: entries are matched by prefix, a list starting with none declares nothing, and all is not recognised (C44_fails). Proved: exact characterisation of the parser, exactness for well-formed lists, round trip for all sets.
* **C46** Full statement fails: integers with more than 24 significant bits are rounded to single precision (C46_fails). Proved: exact up to 24 significant bits, error bound and rounding up for decimals.
* **C47** Fails: the range checks use the size without the allocator's share, so the last 960 bytes of shmem_malloc(S) are rejected and blocks beyond are never freed; when exhausted, memory outside the heap is returned.
* **C51** Holds except for the heap critical section in dynamic-window builds (C51_leak); a program that initialises MPI itself finds it finalised (C51_user_mpi_fails).
* **C52** Proved for malloc, calloc, align, free. shmem_realloc has no barrier on entry: a PE may give up the old block while another still uses it.
* **C53** false: calloc ignores count and writes through NULL on exhaustion, align does not align the address (negations proved); proved for count 1 and for alignments dividing page and base
* **C55** False: the shared team is the whole world. Holds on one node.
* **C56** Quiet is total when spaces are attached; three ways it faults or aborts with spaces that are not. The barrier is always total.
* **C57** Active messages to PEs outside the set are not flushed by the code.
* **C58** Fails when the fallback malloc returns equal addresses on all PEs (always with one PE): the pointer is then unmapped instead of freed.
* **C59** The thread is always stopped, but signals a condition variable after unlocking, when it may already be destroyed (C59_signal_fails).
* **C61** Fails for alignments above the page size when the heaps are at different addresses. The actual versions are about the allocator with its own bins, without assumptions on its choices.
* **C63** Every put, and every get except the sized ones over active messages, moves n elements of the size in its name (counts below 2^31). The sized gets over active messages pass the size in bits as bytes and abort: proved for every buffer and positive count.
* **C64** Exact for heap and global data. shmem_addr_accessible reports the memory of attached spaces inaccessible although puts, gets and AMOs to it work: proved.
* **C65** Proved for all executions of the system of all PEs, for heap and global data, for spaces with dynamic windows, and for everything sent as active messages. Without dynamic windows the barrier does not complete puts to a space: an execution in which the byte is still old after the barrier is given (C65_space_fails). Puts on user contexts are excluded (the standard leaves them to the quiet of the context).
* **C67** Proved for all executions, integer types of the AMO tables, modulo the word size. Same exclusion as C65 (counters in a space without dynamic windows, AMOs on user contexts). The value a fetching AMO returns is C22-C24.
* **C69** Default build: the unimplemented routines abort, contexts and team_sync report failure. False with --enable-fast=ndebug: wait_until_all/any/some return at once, test_all says true, put with signal does nothing (C69_ndebug_fails). team_sync synchronises no team but the world (C69_team_sync_fails; it says so by its return value).
* **C71** Proved for heaps up to 1 TiB (and for requests up to 232 bytes in any heap). Fails beyond: compute_tree_index keeps only 32 bits of the size, so a free chunk of 1 TiB is put into a bin where a request for 512 GiB does not look.
* **C72** Proved for heaps up to 1 TiB; fails beyond for the same reason as C71.
* **C73** Order, values and exactly-once of value-returning AMOs: proved for all executions. AMOs without result: at most once always; exactly once by the next barrier except for words in a space without dynamic windows and AMOs on user contexts (same exclusion as C65, which the code violates: C65_space_fails). Executions in which a handler overflows a signed addition (undefined behaviour, C24) have no step there.
* **C77** All generated routines except char, counts below 2^31. char: the routines pass MPI_CHAR, which the MPI standard excludes from reductions (5.9.2), so a conforming MPI reports an error and the program aborts (C77_char_fails). Larger counts: C37_count_fails.
* **C81** Missing: counts and strides of 2^31 and more, and active-set broadcast from roots whose index is not their PE number, where the code is wrong (C34_fails, C35_count_fails, C36_count_fails, C38_count_fails); char reductions (C77_char_fails). Floating-point reductions are in C77_fp_partial.
* **C83** Violated without the asynchronous thread: team split and destroy, space attach and detach and the first use of an active set block in plain MPI collectives (MPI_Comm_split, MPI_Comm_create_group, MPI_Allgather, MPI_Win_create, MPI_Win_free) during which the PE handles no active messages, so a PE that waits for an answer from a PE already inside and has not called the collective yet hangs for ever; shmem_test_lock makes no progress either, so a PE polling a lock never answers its holder. Proved: this is the only cause of a hang that is not the program's own; programs without those calls, with the asynchronous thread, or with all operations on the direct path do not hang. Deadlock freedom only: fairness between several ready steps is not modelled.
* **C84** Violated: OSHMPI_space_create appends the space to the list before it stores ctx_list, config and default_ictx, so a shmem_quiet or shmem_fence in another thread loops over an uninitialised number of contexts; OSHMPI_space_detach frees ctx_list without the list's mutex while a quiet may be walking it; and even with a single thread, quiet or fence between creation and attach of a space configured with contexts dereferences ctx_list = NULL. Proved without restriction: mutual exclusion, lifetime of space objects, lock discipline, no deadlock on mutexes. Proved for programs that keep quiet and fence apart from creation, attach and detach and attach every space that has contexts: no uninitialised or dangling member is used.
* **C85** Violated: if AMOs and RMA are both direct, OSHMPI_am_initialize returns early, but without the progress thread (the default then) OSHMPI_am_cb_progress still enters the critical section that was not initialised and calls MPI_Test on OSHMPI_am.cb_req, which no MPI call ever set; every wait does so, starting with the barrier inside shmem_init. Everything else is proved: this is the only resource ever used while it does not exist (C85_exact), creation and release are in an order that respects all dependencies, and handlers find all they need until the last packet. Also: the default of the progress thread is computed before amo_direct is known.
* **C86** Violated: the associations are TYPE* only, so shmem_g and shmem_atomic_fetch (and shmem_fetch) of a pointer to const do not compile although the routines take const TYPE *. Everything else is proved. The parse of C beyond the selection and the number of arguments (conversions of the other arguments) is not modelled. The effects of equal types are compared on Linux (LP64).
* **C87** Violated: over active messages an addition to a signed type whose sum is not representable is undefined behaviour in the handler (C24). Everything else is proved, from the routine's name to the bytes of all PEs.
* **C88** Violated: the sized gets abort over active messages (C63), and counts or strides that do not fit an int are cut (C17, C18). Within those limits proved for every routine, from its name to the bytes of all PEs.
* **C89** Violated in builds with dynamic windows when the lock's object has different addresses on the PEs: the displacement of `next` is computed for the root and used with every PE. There two PEs can hold the lock, and handing it over overwrites a byte of user data. Otherwise proved.
* **C90** Missing: the placements excluded in C89, where C03_violation has a PE waiting for ever.
* **C93** Only the barrier part is partial: as in C65 it does not hold for operations that OSHMPI_barrier_all does not flush: direct operations on a user context or, without dynamic windows, on a space (hypothesis BarCov). Fence, quiet, flags, polling and gets are proved without that restriction. The program must not itself race: nobody else writes the elements meanwhile.
* **C94** Possibility (the states are not stuck); that MPI makes progress is MPI's part. Quiet and fence: only for the states of spaces for which the code's quiet returns at all (C56; C56_fails_* show the others).
* **C95** Blocks that end within the heap's official size, heaps equal modulo the alignments asked for. The full statement is false of the code: C95_fails (a block from shmem_malloc whose last byte cannot be accessed remotely, C47) and C61_actual_fails (different offsets).
* **C96** Locks at the same address everywhere or in windows with relative displacements (elsewhere the locks themselves fail, C01_violation), locks in the heap or the global data, one thread per PE. The quiet is asked of the program: C96_fails shows an execution in which shmem_clear_lock without it hands on old data.
* **C97** After a barrier only: contexts and spaces a barrier completes (the others: C65_space_fails); all other parts are proved in full. Mixed use of different types on one object is not covered by tickets, winners and sums.
* **C98** The full claim is false: shmem_realloc of a block of a space aborts or misuses memory (C98_realloc_space_fails), shmem_realloc(p, 0) frees nothing (C98_realloc_zero_fails), blocks that start in the last part of the heap's memory are never freed (C98_free_leaks, C47), shmem_align beyond the placement of the heaps is not symmetric (C98_symmetric_fails), shmemx_space_calloc on an exhausted space is undefined (C53). All the rest is proved. Not covered, as in C70: histories in which dlmalloc adds a memory segment of the operating system to the heap.
* **C99** The general theorems (C99_as_if, C99_waits, C99_frame, C99_completes) are proved for any collective call. Missing are, as in C81, counts of 2^31 and more and active-set broadcasts whose root index is not its PE number, where the code violates the claim (C34_fails, C35_count_fails, C36_count_fails, C37_count_fails, C38_count_fails).
