import Mathlib.Data.List.Basic
import Mathlib.Logic.Function.Basic
/-!
# Critical sections: the threads of one PE inside the library

With `SHMEM_THREAD_MULTIPLE` the macros of `/repo/src/include/oshmpi_impl.h` L307-344 are pthread mutexes
(`/repo/src/internal/util/thread.h` L17-43, not recursive). Every routine that uses one is written below as the list of
its accesses to structures shared by the threads; the machine interleaves any number of threads, one access at a time.
Below that level the macros are no-ops and the user runs at most one thread inside the library; that case is not
modelled here. Space objects (`OSHMPI_space_t`) are numbered in order of creation; an address that `malloc` hands out
again counts as a new number. Threads are numbered; with the asynchronous progress thread (am_impl.c L49-83) that is
thread 0. MPI calls made inside a critical section (flushes, the answers of handlers) are assumed to return. What the calls compute, and the data they move, are in the other areas.
-/
namespace Verif.Cs

/-- the mutexes: `OSHMPI_am.cb_progress_cs` (am_pre.h L165), `space_list.cs` (oshmpi_impl.h L172), `space->mem_pool_cs`
(oshmpi_impl.h L159), `symm_heap_mspace_cs` (oshmpi_impl.h L217), `OSHMPI_coll_comm_cache.cs`
(coll_activeset_impl.h L21), `OSHMPI_strided_dtype_cache.cs` (strided_impl.h L24) -/
inductive Lk where
  | cb | spaces | pool (s : Nat) | heap | comms | dtypes
deriving DecidableEq, Repr

/-- members of a space object, oshmpi_impl.h L150-167: `sobj_attr`, `mem_pool`, `config`, `ctx_list`, `default_ictx`
(the last only without dynamic windows) -/
inductive Fld where
  | attr | pool | cfg | ctx | dict
deriving DecidableEq, Repr

/-- shared structures: the list of spaces, the symmetric heap's dlmalloc state, the pending receive `cb_req`/`cb_pkt`,
the two caches, the members of a space -/
inductive Obj where
  | list | heap | cb | comms | dtypes | fld (s : Nat) (f : Fld)
deriving DecidableEq, Repr

/-- what `space->ctx_list` points to: not yet stored; `NULL`; a block being filled; the finished block; a block that was
freed -/
inductive Cx where
  | garbage | null | raw | live | freed
deriving DecidableEq, Repr

/-- what a walk over the list of spaces is for -/
inductive Walk where
  /-- quiet and fence, order_impl.h L53-60, L84-91 -/
  | flush
  /-- the space containing an address, oshmpi_impl.h L705-715; `none`: the address is in no space -/
  | find (s : Option Nat)
  /-- `shmem_free` of an address in space `s`, mem_impl.c L41-46 -/
  | free (s : Nat)
  /-- the space with the handle of an incoming message, oshmpi_impl.h L736-741 -/
  | handle
deriving DecidableEq, Repr

/-- one access -/
inductive Act where
  /-- `OSHMPI_THREAD_ENTER_CS` -/
  | enter (l : Lk)
  /-- `OSHMPI_THREAD_EXIT_CS` -/
  | exit (l : Lk)
  /-- read or update a structure -/
  | touch (o : Obj)
  /-- store a member of a space -/
  | init (s : Nat) (f : Fld)
  /-- store `space->ctx_list` -/
  | setctx (s : Nat) (v : Cx)
  /-- `ctx_flush_impl(&space->ctx_list[i].ictx)`, order_impl.h L56, L87 -/
  | flushCtx (s : Nat) (i : Nat)
  /-- `LL_APPEND`, space_impl.c L201 -/
  | append (s : Nat)
  /-- `LL_DELETE`, space_impl.c L228 -/
  | remove (s : Nat)
  /-- `OSHMPIU_mempool_destroy` and `OSHMPI_THREAD_DESTROY_CS(&space->mem_pool_cs)`, space_impl.c L232-233 -/
  | drop (s : Nat)
  /-- `OSHMPIU_free(space)`, space_impl.c L248 -/
  | free (s : Nat)
  /-- `LL_FOREACH_SAFE` (utlist.h): load the head -/
  | first (w : Walk)
  /-- `LL_FOREACH_SAFE` at an element: load its `next`, then run the body -/
  | walk (w : Walk) (cur : Option Nat)
  /-- `MPI_Test(&OSHMPI_am.cb_req)`, and the handler if a packet has arrived (am_impl.c L105-117, L61-73) -/
  | poll
  /-- wait for MPI to complete something that involves another PE, polling for active messages meanwhile
  (am_progress_impl.h L16-23) -/
  | wait
deriving DecidableEq, Repr

/-- build and run parameters: `OSHMPI_ENABLE_DYNAMIC_WIN`, `OSHMPI_ENABLE_AM_ASYNC_THREAD_RUNTIME`, and
`config.num_contexts` of each space -/
structure Par where
  dyn : Bool
  async : Bool
  nctx : Nat → Nat

/-- library calls; flags are the outcomes of tests on data that is not modelled, so every value is possible -/
inductive Call where
  /-- `shmem_malloc`, `shmem_calloc`, `shmem_align`, `shmem_realloc` -/
  | malloc
  /-- `shmem_free` of an address in the symmetric heap -/
  | free
  /-- `shmem_free` of an address in a space -/
  | freeIn (s : Nat)
  /-- put, get, atomic, signal, lock call on the default context; address in a space or elsewhere -/
  | op (s : Option Nat)
  /-- strided put or get; is the datatype cached? -/
  | strided (s : Option Nat) (hit : Bool)
  /-- `shmem_quiet`, `shmem_fence` on the default context -/
  | quiet
  /-- `shmem_barrier_all`, `shmem_sync_all`, team collectives -/
  | barrier
  /-- active-set collective; is the communicator cached? -/
  | aset (hit : Bool)
  /-- `shmem_test`, one round of `shmem_wait_until` -/
  | test
  /-- `shmemx_space_create`; `s` is the object it allocates -/
  | create (s : Nat)
  | destroy (s : Nat)
  | attach (s : Nat)
  | detach (s : Nat)
  /-- `shmemx_space_malloc`, `_calloc`, `_align` -/
  | smalloc (s : Nat)
  /-- one turn of the asynchronous progress thread -/
  | serve
deriving DecidableEq, Repr

/-- `OSHMPI_sobj_query_attr_ictx` on the default context for an address outside heap and data, oshmpi_impl.h L702-716 -/
def query (s : Option Nat) : List Act := [.enter .spaces, .first (.find s), .exit .spaces]

/-- the object pointers returned by the query are used after the list is released (e.g. rma_impl.h L18-31) -/
def useSpace (P : Par) : Option Nat → List Act
  | none => []
  | some s => [.touch (.fld s .attr)] ++ (if P.dyn then [] else [.touch (.fld s .dict)])

/-- the handlers (am_impl.c L22, amo_am_impl.c, rma_am_impl.c): translate the displacement (oshmpi_impl.h L722-744),
looking at the list only for the handle of an attached space; for a strided transfer find or build the datatype
(rma_am_impl.c L50, L73; is it cached?); act on the memory, answer, post the next receive -/
def handler (space : Bool) (dtype : Option Bool) : List Act :=
  (if space then [.enter .spaces, .first .handle, .exit .spaces] else []) ++
  (match dtype with
    | none => []
    | some true => [.enter .dtypes, .touch .dtypes, .exit .dtypes]
    | some false => [.enter .dtypes, .touch .dtypes, .exit .dtypes, .enter .dtypes, .touch .dtypes, .exit .dtypes]) ++
  [.touch .cb]

/-- `OSHMPI_am_cb_progress` (am_impl.c L287-294) and `am_cb_manual_progress` (L87-121) -/
def progress (P : Par) : List Act :=
  if P.async then [] else [.enter .cb, .touch .cb, .poll, .exit .cb]

/-- bodies of the calls -/
def body (P : Par) : Call → List Act
  -- mem_impl.c L10-24, L51-95
  | .malloc => [.enter .heap, .touch .heap, .exit .heap, .wait]
  -- mem_impl.c L26-36
  | .free => [.wait, .enter .heap, .touch .heap, .exit .heap]
  -- mem_impl.c L26-49
  | .freeIn s => [.wait, .enter .spaces, .first (.free s), .exit .spaces]
  -- rma_impl.h, amo_impl.h: the query is skipped for addresses in heap or data, which `op none` covers as well since
  -- the walk may find nothing
  | .op s => query s ++ useSpace P s ++ [.wait]
  -- strided_impl.h L47-51, L64-74, L105-140; rma_impl.h L60-150
  | .strided s hit => [.enter .dtypes, .touch .dtypes, .exit .dtypes] ++
      (if hit then [] else [.enter .dtypes, .touch .dtypes, .exit .dtypes]) ++ query s ++ useSpace P s ++ [.wait]
  -- order_impl.h L36-96, am_impl.h L22-78
  | .quiet => [.enter .spaces, .first .flush, .exit .spaces, .wait]
  -- coll_impl.h L12-45
  | .barrier => [.wait]
  -- coll_activeset_impl.h L28-110: look up, create with MPI_Comm_create_group, insert, run
  | .aset hit => [.enter .comms, .touch .comms, .exit .comms] ++
      (if hit then [] else [.wait, .enter .comms, .touch .comms, .exit .comms]) ++ [.wait]
  -- p2p_impl.h L48-80
  | .test => progress P
  -- space_impl.c L166-220
  | .create s => [.init s .pool, .init s .attr, .enter .spaces, .append s, .exit .spaces, .setctx s .null, .init s .ctx,
      .init s .cfg] ++ (if P.dyn then [] else [.init s .dict])
  -- space_impl.c L223-249
  | .destroy s => [.enter .spaces, .remove s, .exit .spaces, .drop s, .touch (.fld s .cfg), .touch (.fld s .attr), .free s]
  -- space_impl.c L276-331
  | .attach s => [.touch (.fld s .ctx), .touch (.fld s .cfg), .wait, .init s .attr, .wait] ++
      (if P.dyn then [] else [.init s .dict]) ++
      (if P.nctx s = 0 then [] else [.setctx s .raw, .wait, .setctx s .live])
  -- space_impl.c L334-359
  | .detach s => [.wait] ++ (if P.dyn then [] else [.init s .dict]) ++
      [.touch (.fld s .cfg), .touch (.fld s .ctx), .wait, .setctx s .freed, .setctx s .null, .init s .attr]
  -- space_impl.c L362-374
  | .smalloc s => [.enter (.pool s), .touch (.fld s .pool), .exit (.pool s), .wait]
  -- am_impl.c L60-76
  | .serve => [.touch .cb, .poll]

/-- the space object a call was given by the user -/
def names : Option Call → Nat → Prop
  | some (.freeIn s), x => s = x
  | some (.op (some s)), x => s = x
  | some (.strided (some s) _), x => s = x
  | some (.create s), x => s = x
  | some (.destroy s), x => s = x
  | some (.attach s), x => s = x
  | some (.detach s), x => s = x
  | some (.smalloc s), x => s = x
  | some .malloc, _ => False
  | some .free, _ => False
  | some (.op none), _ => False
  | some (.strided none _), _ => False
  | some .quiet, _ => False
  | some .barrier, _ => False
  | some (.aset _), _ => False
  | some .test, _ => False
  | some .serve, _ => False
  | none, _ => False

/-- mutexes held, list of spaces, number of spaces created, freed objects, members stored, `ctx_list`, and for each
thread its remaining accesses and the call it is in; `known`: creation has returned, destruction not been called -/
structure St where
  held : Nat → List Lk
  list : List Nat
  next : Nat
  freed : Nat → Bool
  ini : Nat → Fld → Bool
  ctx : Nat → Cx
  code : Nat → List Act
  cur : Nat → Option Call
  known : Nat → Bool

/-- after `shmem_init`: setup_impl.c L734-850 -/
def init : St :=
  { held := fun _ => [], list := [], next := 0, freed := fun _ => false, ini := fun _ _ => false
    ctx := fun _ => .garbage, code := fun _ => [], cur := fun _ => none, known := fun _ => false }

/-- `next` of element `s` -/
def succ : List Nat → Nat → Option Nat
  | [], _ => none
  | x :: r, s => if x = s then r.head? else succ r s

/-- can thread `t` execute the access now? `pthread_mutex_lock` waits while anybody, itself included, holds the mutex -/
def ready (g : St) : Act → Prop
  | .enter l => ∀ t, l ∉ g.held t
  | .exit _ => True
  | .touch _ => True
  | .init _ _ => True
  | .setctx _ _ => True
  | .flushCtx _ _ => True
  | .append _ => True
  | .remove _ => True
  | .drop _ => True
  | .free _ => True
  | .first _ => True
  | .walk _ _ => True
  | .poll => True
  | .wait => True

/-- its effect on the shared state -/
def eff (g : St) (t : Nat) : Act → St
  | .enter l => { g with held := Function.update g.held t (l :: g.held t) }
  | .exit l => { g with held := Function.update g.held t ((g.held t).erase l) }
  | .touch _ => g
  | .init s f => { g with ini := Function.update g.ini s (Function.update (g.ini s) f true) }
  | .setctx s v => { g with ctx := Function.update g.ctx s v }
  | .flushCtx _ _ => g
  | .append s => { g with list := g.list ++ [s] }
  | .remove s => { g with list := g.list.erase s }
  | .drop _ => g
  | .free s => { g with freed := Function.update g.freed s true }
  | .first _ => g
  | .walk _ _ => g
  | .poll => g
  | .wait => g

/-- what the thread does next in its place: the possible continuations -/
def cont (P : Par) (g : St) : Act → List (List Act)
  | .first w => [[.walk w g.list.head?]]
  | .walk _ none => [[]]
  | .walk .flush (some s) => [[.touch (.fld s .cfg)] ++ (List.range (P.nctx s)).map (.flushCtx s) ++
      (if P.dyn then [] else [.touch (.fld s .dict)]) ++ [.walk .flush (succ g.list s)]]
  | .walk (.find x) (some s) =>
    if x = some s then [[.touch (.fld s .attr)]]
    else [[.touch (.fld s .attr), .walk (.find x) (succ g.list s)]]
  | .walk (.free x) (some s) =>
    if x = s then [[.touch (.fld s .attr), .enter (.pool s), .touch (.fld s .pool), .exit (.pool s)]]
    else [[.touch (.fld s .attr), .walk (.free x) (succ g.list s)]]
  | .walk .handle (some s) =>
    [[.touch (.fld s .attr)], [.touch (.fld s .attr), .walk .handle (succ g.list s)]]
  | .poll => [[], handler false none, handler true none, handler false (some true), handler true (some true),
      handler false (some false), handler true (some false)]
  | .wait => [[], progress P ++ [.wait]]
  | .enter _ => [[]]
  | .exit _ => [[]]
  | .touch _ => [[]]
  | .init _ _ => [[]]
  | .setctx _ _ => [[]]
  | .flushCtx _ _ => [[]]
  | .append _ => [[]]
  | .remove _ => [[]]
  | .drop _ => [[]]
  | .free _ => [[]]

/-- thread `t` executes its next access `a` -/
def Exec (P : Par) (g : St) (t : Nat) (a : Act) (g' : St) : Prop :=
  ∃ k c, g.code t = a :: k ∧ ready g a ∧ c ∈ cont P g a ∧
    g' = { eff g t a with code := Function.update g.code t (c ++ k) }

/-- What the user owes the library: a space is used between the return of its creation and the call of its destruction,
and is not destroyed while another call on it runs. With the progress thread, thread 0 is that thread. -/
def Legal (P : Par) (g : St) (t : Nat) (c : Call) : Prop :=
  ((P.async = true ∧ t = 0) ↔ c = .serve) ∧
  (∀ s, names (some c) s → c = .create s ∨ g.known s = true) ∧
  (∀ s, c = .create s → s = g.next) ∧
  (∀ s, c = .destroy s → ∀ t', ¬ names (g.cur t') s)

/-- thread `t` calls -/
def start (P : Par) (g : St) (t : Nat) (c : Call) : St :=
  { g with
    cur := Function.update g.cur t (some c)
    code := Function.update g.code t (body P c)
    next := match c with
      | .create _ => g.next + 1
      | .malloc => g.next
      | .free => g.next
      | .freeIn _ => g.next
      | .op _ => g.next
      | .strided _ _ => g.next
      | .quiet => g.next
      | .barrier => g.next
      | .aset _ => g.next
      | .test => g.next
      | .destroy _ => g.next
      | .attach _ => g.next
      | .detach _ => g.next
      | .smalloc _ => g.next
      | .serve => g.next
    known := fun s => g.known s && !decide (c = .destroy s) }

/-- thread `t` returns from its call -/
def finish (g : St) (t : Nat) : St :=
  { g with
    cur := Function.update g.cur t none
    known := fun s => g.known s || decide (g.cur t = some (.create s)) }

/-- One step of the process; `R` restricts the calls further. -/
inductive Step (P : Par) (R : St → Nat → Call → Prop) (g : St) : St → Prop
  | call (t : Nat) (c : Call) : g.cur t = none → Legal P g t c → R g t c → Step P R g (start P g t c)
  | exec (t : Nat) (a : Act) (g' : St) : Exec P g t a g' → Step P R g g'
  | ret (t : Nat) : g.code t = [] → g.cur t ≠ none → Step P R g (finish g t)

/-- states that occur -/
inductive Reach (P : Par) (R : St → Nat → Call → Prop) : St → Prop
  | init : Reach P R init
  | step (g g' : St) : Reach P R g → Step P R g g' → Reach P R g'

/-- Runs in which no thread waits for another PE, calls or returns: only library code between waits is executed. -/
inductive Inner (P : Par) : St → St → Prop
  | refl (g : St) : Inner P g g
  | step (g g' g'' : St) (t : Nat) (a : Act) : a ≠ .wait → Exec P g t a g' → Inner P g' g'' → Inner P g g''

/-- the structure an access reads or writes -/
def accesses : Act → Option Obj
  | .enter _ => none
  | .exit _ => none
  | .touch o => some o
  | .init s f => some (.fld s f)
  | .setctx s _ => some (.fld s .ctx)
  | .flushCtx s _ => some (.fld s .ctx)
  | .append _ => some .list
  | .remove _ => some .list
  | .drop s => some (.fld s .pool)
  | .free s => some (.fld s .pool)
  | .first _ => some .list
  | .walk _ _ => some .list
  | .poll => some .cb
  | .wait => none

/-- the space object an access goes to -/
def target : Act → Option Nat
  | .enter (.pool s) => some s
  | .exit (.pool s) => some s
  | .enter .cb => none
  | .enter .spaces => none
  | .enter .heap => none
  | .enter .comms => none
  | .enter .dtypes => none
  | .exit .cb => none
  | .exit .spaces => none
  | .exit .heap => none
  | .exit .comms => none
  | .exit .dtypes => none
  | .touch (.fld s _) => some s
  | .touch .list => none
  | .touch .heap => none
  | .touch .cb => none
  | .touch .comms => none
  | .touch .dtypes => none
  | .init s _ => some s
  | .setctx s _ => some s
  | .flushCtx s _ => some s
  | .append s => some s
  | .remove s => some s
  | .drop s => some s
  | .free s => some s
  | .first _ => none
  | .walk _ cur => cur
  | .poll => none
  | .wait => none

end Verif.Cs
