import Mathlib.Logic.Function.Basic
/-!
# Active messages

`/repo/src/internal/am_impl.{h,c}`, `rma_am_impl.{h,c}`, `amo_am_impl.{h,c}`, `am_progress_impl.h`: any number of PEs, any
number of threads per PE, every interleaving of calls, sends, message matching and handler executions.

What the handlers do to the memory is abstract here (`Iface`); `Am/Inst.lean` plugs in the put/get and AMO handlers. The
network is MPI point-to-point as in the MPI standard (trusted): messages of one thread to one destination on one communicator
match receives in the order sent (non-overtaking); messages of different threads are unordered, even those of one process.
Payload buffers are copied when the send starts; the calls return only after the sends completed, so the caller cannot change
them in between. A handler's access to the memory and its reply are one step: `env` steps and the system's other steps come
before or after it. Acknowledgement sends (blocking `MPI_Send` on `ack_comm`) are taken to be buffered; the receiving thread
posts the receive without waiting for anything in between. The early return of `OSHMPI_am_flush` (am_impl.h L33-34) is taken
only when no operation uses active messages (`Am/Props.lean`, `flush_skip`). Integer overflow of counts and the translation of addresses are in `Verif.Rma` and `Verif.Sobj`.
-/
namespace Verif.Am

/-- what a handler does with the memory of its PE. `write`: rma_am_impl.c L11-22, L40-60; `read`: rma_am_impl.c L25-36, L63-83,
amo_am_impl.c L85-113, L116-148 (new memory and value sent back); `upd`: amo_am_impl.c L151-177. -/
structure Iface where
  /-- memory of one PE -/
  σ : Type
  /-- where and how to store: `OSHMPI_am_put_pkt_t`, `OSHMPI_am_iput_pkt_t` without the tag -/
  D : Type
  /-- contents of a payload message -/
  P : Type
  /-- `OSHMPI_am_get_pkt_t`, `_iget_pkt_t`, `_fetch_pkt_t`, `_cswap_pkt_t` without the tag -/
  Q : Type
  /-- value sent back -/
  V : Type
  /-- `OSHMPI_am_post_pkt_t` -/
  U : Type
  write : D → P → σ → σ
  read : Q → σ → σ × V
  upd : U → σ → σ

variable (I : Iface)

/-- an operation as the caller sees it (`flush` and `term` are internal) -/
inductive Op where
  | put (d : I.D) (x : I.P)
  | rd (q : I.Q)
  | upd (u : I.U)
  | flush
  | term

/-- packet header, am_pre.h L74-145 (packet types and the union) -/
inductive Pkt where
  | put (d : I.D) (tag : Nat)
  | rd (q : I.Q) (tag : Nat)
  | post (u : I.U)
  | flush (tag : Nat)
  | term

/-- message on `OSHMPI_am.comm` -/
inductive Msg where
  | hdr (k : Pkt I)
  | pl (tag : Nat) (x : I.P)

/-- `OSHMPI_AM_PKT_TAG`, am_pre.h L176 -/
def pktTag : Nat := 2000

/-- `OSHMPI_AM_PKT_PTAG_START`, am_pre.h L178 -/
def ptagStart : Nat := 2003

/-- message tag: headers, including the terminate packet (am_impl.c L158-159), use the packet tag -/
def Msg.tag {I : Iface} : Msg I → Nat
  | .hdr _ => pktTag
  | .pl tag _ => tag

/-- message on `OSHMPI_am.ack_comm`; flush acknowledgements are empty (am_impl.c L22) -/
structure Ack where
  tag : Nat
  val : Option I.V

/-- where a user thread is. Each constructor is the point before the statement named. -/
inductive Pc where
  /-- outside the library -/
  | idle
  /-- `OSHMPI_rma_am_put`/`_iput`, rma_am_impl.h L32-33, L107-108: header send; the tag is taken (L26, L101) -/
  | putHdr (d : I.D) (x : I.P) (dst tag : Nat)
  /-- rma_am_impl.h L34-35, L115-116: payload send -/
  | putPl (x : I.P) (dst tag : Nat)
  /-- rma_am_impl.h L36, L117: waitall with progress -/
  | putWait (dst : Nat)
  /-- rma_am_impl.h L44, L125: set the outstanding flag -/
  | putFlag (dst : Nat)
  /-- `OSHMPI_rma_am_get`/`_iget`, rma_am_impl.h L67-70, L153-162, `OSHMPI_amo_am_cswap`/`_fetch`, amo_am_impl.h L35-38, L78-81:
  header send and receive of the reply posted -/
  | rdHdr (q : I.Q) (dst tag : Nat)
  /-- waitall with progress -/
  | rdWait (q : I.Q) (dst tag : Nat)
  /-- rma_am_impl.h L80, L172, amo_am_impl.h L48, L91: reset the outstanding flag -/
  | rdFlag (dst : Nat) (q : I.Q) (v : I.V)
  /-- `OSHMPI_amo_am_post`, amo_am_impl.h L117-118 -/
  | postSend (u : I.U) (dst : Nat)
  | postWait (dst : Nat)
  /-- amo_am_impl.h L124 -/
  | postFlag (dst : Nat)
  /-- `OSHMPI_am_flush` over the PEs `pes`, am_impl.h L36-40: PEs still to look at, whether a flag was seen -/
  | fCount (pes rest : List Nat) (found : Bool)
  /-- am_impl.h L54-65: PEs still to do, PEs already sent to -/
  | fSend (pes rest sent : List Nat) (tag : Nat)
  /-- am_impl.h L68: PEs whose acknowledgement has not been received -/
  | fWait (pes pend : List Nat) (tag : Nat)
  /-- am_impl.h L75-78: flags still to reset -/
  | fReset (pes rest : List Nat)
  /-- about to return from the flush -/
  | fRet (pes : List Nat)
  /-- `OSHMPI_am_progress_mpi_barrier` on the world, am_progress_impl.h L72-82 -/
  | bar
  /-- inside a polling loop such as `OSHMPI_WAIT_UNTIL` (p2p_impl.h), which calls `OSHMPI_progress_poll_mpi` -/
  | poll
  /-- `finalize_impl`, setup_impl.c L865: the barrier -/
  | finBar
  /-- `am_cb_progress_end`, am_impl.c L158: before the terminate packet is sent to itself -/
  | finTerm
  /-- am_impl.c L163-170 or L176 -/
  | finWait
  /-- after `OSHMPI_am_finalize` -/
  | finDone
  /-- `OSHMPI_am_get_pkt_ptag` ran out of tags, am_impl.h L18 -/
  | aborted

/-- the pending receive of headers and its handler, am_impl.c L49-148. `matched`: `OSHMPI_am.cb_req` has been matched by
message `m` of thread `t` of PE `s`; `handling`: a thread is inside the handler (`none`: the asynchronous progress thread,
`some o`: user thread `o`, holding `cb_progress_cs`). -/
inductive Cb where
  | posted (any : Bool)
  | matched (s t : Nat) (m : Msg I)
  | handling (o : Option Nat) (s t : Nat) (m : Msg I)
  | dead

/-- ghost: what happened to the memory of a PE -/
inductive Ev where
  /-- an operation of thread `t` of PE `s` was applied -/
  | am (s t : Nat) (o : Op I)
  /-- anything else: the PE's own stores, MPI RMA of other PEs -/
  | env (f : I.σ → I.σ)

/-- global state; `chan s t d`: messages on `comm` sent by thread `t` of `s` to `d` and not yet matched; `ack d s`: messages on
`ack_comm` from `d` to `s`; `flag p d`: `OSHMPI_am.outstanding_op_flags[d]` of PE `p`; `ctr p`: `OSHMPI_am.pkt_ptag_off`;
`ent p`: barriers entered. The last five components are ghosts: `own p tag` is the thread that took the tag, `infl s t d` the
operations sent but not yet applied, `issued s t d` all operations ever sent, `rets s t d` what the replying operations
returned; `bad` records a receive that took a message not meant for it. -/
structure St where
  mem : Nat → I.σ
  pc : Nat → Nat → Pc I
  ctr : Nat → Nat
  flag : Nat → Nat → Bool
  chan : Nat → Nat → Nat → List (Msg I)
  ack : Nat → Nat → List (Ack I)
  cb : Nat → Cb I
  ent : Nat → Nat
  bad : Bool
  own : Nat → Nat → Nat
  infl : Nat → Nat → Nat → List (Op I × Nat)
  issued : Nat → Nat → Nat → List (Op I)
  rets : Nat → Nat → Nat → List (I.Q × I.V)
  log : Nat → List (Ev I)

/-- configuration: number of PEs, which threads exist, whether the asynchronous progress thread runs
(`OSHMPI_ENABLE_AM_ASYNC_THREAD_RUNTIME`), `OSHMPI_am.pkt_ptag_ub`, initial memories -/
structure Cfg where
  n : Nat
  thr : Nat → Nat → Prop
  async : Bool
  ub : Nat
  mem₀ : Nat → I.σ

variable {I}

/-- function update at two arguments -/
def set2 {β : Type} (f : Nat → Nat → β) (a b : Nat) (v : β) : Nat → Nat → β :=
  fun x y => if x = a ∧ y = b then v else f x y

/-- function update at three arguments -/
def set3 {β : Type} (f : Nat → Nat → Nat → β) (a b c : Nat) (v : β) : Nat → Nat → Nat → β :=
  fun x y z => if x = a ∧ y = b ∧ z = c then v else f x y z

/-- state after `OSHMPI_am_initialize`, am_impl.c L189-263 (the first receive is posted with the packet tag, L128-130) -/
def init (c : Cfg I) : St I where
  mem := c.mem₀
  pc := fun _ _ => .idle
  ctr := fun _ => 0
  flag := fun _ _ => false
  chan := fun _ _ _ => []
  ack := fun _ _ => []
  cb := fun _ => .posted false
  ent := fun _ => 0
  bad := false
  own := fun _ _ => 0
  infl := fun _ _ _ => []
  issued := fun _ _ _ => []
  rets := fun _ _ _ => []
  log := fun _ => []

/-- program points at which a user thread runs the progress loop, am_progress_impl.h L16-23, L54-70 -/
def waiting : Pc I → Bool
  | .putWait _ => true
  | .rdWait _ _ _ => true
  | .postWait _ => true
  | .fWait _ _ _ => true
  | .bar => true
  | .poll => true
  | .finBar => true
  | .idle => false
  | .putHdr _ _ _ _ => false
  | .putPl _ _ _ => false
  | .putFlag _ => false
  | .rdHdr _ _ _ => false
  | .rdFlag _ _ _ => false
  | .postSend _ _ => false
  | .postFlag _ => false
  | .fCount _ _ _ => false
  | .fSend _ _ _ _ => false
  | .fReset _ _ => false
  | .fRet _ => false
  | .finTerm => false
  | .finWait => false
  | .finDone => false
  | .aborted => false

/-- thread `t` of PE `p` is inside the handler -/
def Owner (s : St I) (p t : Nat) : Prop := ∃ a b m, s.cb p = .handling (some t) a b m

/-- a message matches a receive with this tag or with `MPI_ANY_TAG` -/
def fits (any : Bool) (tag : Nat) (m : Msg I) : Bool := any || m.tag == tag

/-- the application may be told about this operation -/
def Op.app : Op I → Bool
  | .put _ _ => true
  | .rd _ => true
  | .upd _ => true
  | .flush => false
  | .term => false

/-- steps of thread `t` of PE `p` that touch nothing but its program counter and the flags of `p`: new program counter, new
flags. The entry points leave `idle`; arguments are arbitrary. -/
inductive Local (c : Cfg I) (s : St I) (p t : Nat) : Pc I → Pc I → (Nat → Bool) → Prop where
  /-- rma_am_impl.h L36, L117 returns -/
  | putDone (dst : Nat) (h : ¬ Owner s p t) : Local c s p t (.putWait dst) (.putFlag dst) (s.flag p)
  /-- rma_am_impl.h L44, L125 -/
  | putRet (dst : Nat) : Local c s p t (.putFlag dst) .idle (Function.update (s.flag p) dst true)
  /-- amo_am_impl.h L95 -/
  | callPost (u : I.U) (dst : Nat) (hd : dst < c.n) (ht : c.thr p t) : Local c s p t .idle (.postSend u dst) (s.flag p)
  /-- amo_am_impl.h L117 returns -/
  | postDone (dst : Nat) (h : ¬ Owner s p t) : Local c s p t (.postWait dst) (.postFlag dst) (s.flag p)
  /-- amo_am_impl.h L124 -/
  | postRet (dst : Nat) : Local c s p t (.postFlag dst) .idle (Function.update (s.flag p) dst true)
  /-- am_impl.h L22: the PEs `PE_start + i * 2^logPE_stride` are distinct -/
  | callFlush (pes : List Nat) (hd : ∀ d ∈ pes, d < c.n) (hn : pes.Nodup) (ht : c.thr p t) :
      Local c s p t .idle (.fCount pes pes false) (s.flag p)
  /-- am_impl.h L38-39 -/
  | count (pes : List Nat) (d : Nat) (r : List Nat) (f : Bool) :
      Local c s p t (.fCount pes (d :: r) f) (.fCount pes r (f || s.flag p d)) (s.flag p)
  /-- am_impl.h L43-44: nothing outstanding -/
  | countNone (pes : List Nat) : Local c s p t (.fCount pes [] false) (.fRet pes) (s.flag p)
  /-- am_impl.h L56 false -/
  | skip (pes : List Nat) (d : Nat) (r sent : List Nat) (tag : Nat) (h : s.flag p d = false) :
      Local c s p t (.fSend pes (d :: r) sent tag) (.fSend pes r sent tag) (s.flag p)
  /-- end of the loop am_impl.h L54 -/
  | sendEnd (pes sent : List Nat) (tag : Nat) : Local c s p t (.fSend pes [] sent tag) (.fWait pes sent tag) (s.flag p)
  /-- am_impl.h L68 returns -/
  | waitEnd (pes : List Nat) (tag : Nat) (h : ¬ Owner s p t) :
      Local c s p t (.fWait pes [] tag) (.fReset pes pes) (s.flag p)
  /-- am_impl.h L77 -/
  | reset (pes : List Nat) (d : Nat) (r : List Nat) :
      Local c s p t (.fReset pes (d :: r)) (.fReset pes r) (Function.update (s.flag p) d false)
  | resetEnd (pes : List Nat) : Local c s p t (.fReset pes []) (.fRet pes) (s.flag p)
  | flushRet (pes : List Nat) : Local c s p t (.fRet pes) .idle (s.flag p)
  /-- the barrier is complete when every PE has entered it as often -/
  | barDone (h : ¬ Owner s p t) (ha : ∀ q < c.n, s.ent p ≤ s.ent q) : Local c s p t .bar .idle (s.flag p)
  | pollEnter (ht : c.thr p t) : Local c s p t .idle .poll (s.flag p)
  | pollLeave (h : ¬ Owner s p t) : Local c s p t .poll .idle (s.flag p)
  /-- setup_impl.c L865 returns -/
  | finBarDone (h : ¬ Owner s p t) (ha : ∀ q < c.n, s.ent p ≤ s.ent q) : Local c s p t .finBar .finTerm (s.flag p)
  /-- am_impl.c L163-170: with the asynchronous thread, wait until it has stopped -/
  | finStopped (ha : c.async = true) (h : s.cb p = .dead) : Local c s p t .finWait .finDone (s.flag p)

/-- program points at which a tag is taken, `OSHMPI_am_get_pkt_ptag`: the program counter afterwards -/
inductive Alloc (c : Cfg I) (p t : Nat) : Pc I → (Nat → Pc I) → Prop where
  /-- rma_am_impl.h L26, L101 -/
  | put (d : I.D) (x : I.P) (dst : Nat) (hd : dst < c.n) (ht : c.thr p t) : Alloc c p t .idle (.putHdr d x dst)
  /-- rma_am_impl.h L61, L147, amo_am_impl.h L29, L69 -/
  | rd (q : I.Q) (dst : Nat) (hd : dst < c.n) (ht : c.thr p t) : Alloc c p t .idle (.rdHdr q dst)
  /-- am_impl.h L52 -/
  | flush (pes : List Nat) : Alloc c p t (.fCount pes [] true) (.fSend pes pes [])

/-- sends on `comm` by thread `t` of PE `p`: destination, message, operation that begins with it, program counter afterwards -/
inductive Send (s : St I) (p : Nat) : Pc I → Nat → Msg I → Option (Op I × Nat) → Pc I → Prop where
  /-- rma_am_impl.h L32, L107 -/
  | putHdr (d : I.D) (x : I.P) (dst tag : Nat) :
      Send s p (.putHdr d x dst tag) dst (.hdr (.put d tag)) (some (.put d x, tag)) (.putPl x dst tag)
  /-- rma_am_impl.h L34, L115 -/
  | putPl (x : I.P) (dst tag : Nat) : Send s p (.putPl x dst tag) dst (.pl tag x) none (.putWait dst)
  /-- rma_am_impl.h L67, L153, amo_am_impl.h L35, L78 -/
  | rd (q : I.Q) (dst tag : Nat) : Send s p (.rdHdr q dst tag) dst (.hdr (.rd q tag)) (some (.rd q, tag)) (.rdWait q dst tag)
  /-- amo_am_impl.h L117 -/
  | post (u : I.U) (dst : Nat) : Send s p (.postSend u dst) dst (.hdr (.post u)) (some (.upd u, 0)) (.postWait dst)
  /-- am_impl.h L56-61 -/
  | flush (pes : List Nat) (d : Nat) (r sent : List Nat) (tag : Nat) (h : s.flag p d = true) :
      Send s p (.fSend pes (d :: r) sent tag) d (.hdr (.flush tag)) (some (.flush, tag)) (.fSend pes r (d :: sent) tag)
  /-- am_impl.c L158 -/
  | term : Send s p .finTerm p (.hdr .term) (some (.term, 0)) .finWait

/-- labels: entry into the library or a step of the environment, completion of sends, everything else -/
inductive Lbl where
  | call
  | env
  | sent (p t dst : Nat)
  | prog
deriving DecidableEq

/-- label of a local step: entry points and the leaving of polling loops depend on the program; completion of sends on MPI -/
def locLbl (p t : Nat) : Pc I → Lbl
  | .idle => .call
  | .poll => .call
  | .putWait dst => .sent p t dst
  | .postWait dst => .sent p t dst
  | .putHdr _ _ _ _ => .prog
  | .putPl _ _ _ => .prog
  | .putFlag _ => .prog
  | .rdHdr _ _ _ => .prog
  | .rdWait _ _ _ => .prog
  | .rdFlag _ _ _ => .prog
  | .postSend _ _ => .prog
  | .postFlag _ => .prog
  | .fCount _ _ _ => .prog
  | .fSend _ _ _ _ => .prog
  | .fWait _ _ _ => .prog
  | .fReset _ _ => .prog
  | .fRet _ => .prog
  | .bar => .prog
  | .finBar => .prog
  | .finTerm => .prog
  | .finWait => .prog
  | .finDone => .prog
  | .aborted => .prog

/-- operation added to the in-flight list by a send -/
def optL {α : Type} : Option α → List α
  | none => []
  | some a => [a]

/-- re-posting the receive after a packet has been handled: am_impl.c L70-72 (any tag) or L114-116 (packet tag) -/
def repost (c : Cfg I) : Cb I := .posted c.async

/-- the handler has finished operation `o` of thread `t` of PE `src`: log it, drop it from the in-flight list and post the next
receive -/
def finish (c : Cfg I) (s : St I) (p src t : Nat) (o : Op I) (m : I.σ) : St I :=
  { s with
    mem := Function.update s.mem p m
    cb := Function.update s.cb p (repost c)
    infl := set3 s.infl src t p (s.infl src t p).tail
    log := Function.update s.log p (s.log p ++ if o.app then [.am src t o] else []) }

/-- one step of the system -/
inductive Step (c : Cfg I) (s : St I) : Lbl → St I → Prop where
  | loc (p t : Nat) (hp : p < c.n) (pc' : Pc I) (fl : Nat → Bool) (h : Local c s p t (s.pc p t) pc' fl) :
      Step c s (locLbl p t (s.pc p t)) { s with pc := set2 s.pc p t pc', flag := Function.update s.flag p fl }
  /-- am_impl.h L15-20; the counter and the tag are C ints, `ub` is an int, so the assertion fires before they overflow -/
  | alloc (p t : Nat) (hp : p < c.n) (f : Nat → Pc I) (h : Alloc c p t (s.pc p t) f) (hub : s.ctr p + ptagStart < c.ub) :
      Step c s (if s.pc p t matches .idle then .call else .prog)
        { s with pc := set2 s.pc p t (f (s.ctr p + ptagStart)), ctr := Function.update s.ctr p (s.ctr p + 1),
                 own := set2 s.own p (s.ctr p + ptagStart) t }
  /-- am_impl.h L18 fails -/
  | allocFail (p t : Nat) (hp : p < c.n) (f : Nat → Pc I) (h : Alloc c p t (s.pc p t) f) (hub : c.ub ≤ s.ctr p + ptagStart) :
      Step c s (if s.pc p t matches .idle then .call else .prog) { s with pc := set2 s.pc p t .aborted }
  | send (p t : Nat) (hp : p < c.n) (dst : Nat) (m : Msg I) (o : Option (Op I × Nat)) (pc' : Pc I)
      (h : Send s p (s.pc p t) dst m o pc') :
      Step c s .prog
        { s with pc := set2 s.pc p t pc'
                 chan := set3 s.chan p t dst (s.chan p t dst ++ [m])
                 infl := set3 s.infl p t dst (s.infl p t dst ++ optL o)
                 issued := set3 s.issued p t dst (s.issued p t dst ++ ((optL o).map (·.1)).filter Op.app) }
  /-- the reply is received: the first message on `ack_comm` from `dst` with the tag -/
  | reply (p t : Nat) (hp : p < c.n) (q : I.Q) (dst tag : Nat) (h : s.pc p t = .rdWait q dst tag) (ho : ¬ Owner s p t) (a : Ack I)
      (ha : (s.ack dst p).find? (fun a => a.tag == tag) = some a) (v : I.V) (hv : a.val = some v) :
      Step c s .prog
        { s with pc := set2 s.pc p t (.rdFlag dst q v),
                 ack := set2 s.ack dst p ((s.ack dst p).eraseP (fun a => a.tag == tag)) }
  /-- an empty message instead of a value -/
  | replyBad (p t : Nat) (hp : p < c.n) (q : I.Q) (dst tag : Nat) (h : s.pc p t = .rdWait q dst tag) (a : Ack I)
      (ha : (s.ack dst p).find? (fun a => a.tag == tag) = some a) (hv : a.val = none) :
      Step c s .prog { s with bad := true }
  /-- rma_am_impl.h L80, L172, amo_am_impl.h L48, L91: the call returns `v` -/
  | rdRet (p t : Nat) (hp : p < c.n) (dst : Nat) (q : I.Q) (v : I.V) (h : s.pc p t = .rdFlag dst q v) :
      Step c s .prog
        { s with pc := set2 s.pc p t .idle
                 flag := Function.update s.flag p (Function.update (s.flag p) dst false)
                 rets := set3 s.rets p t dst (s.rets p t dst ++ [(q, v)]) }
  /-- am_impl.h L68: an acknowledgement is received -/
  | flushAck (p t : Nat) (hp : p < c.n) (pes pend : List Nat) (tag d : Nat) (h : s.pc p t = .fWait pes pend tag) (hd : d ∈ pend)
      (ho : ¬ Owner s p t) (a : Ack I) (ha : (s.ack d p).find? (fun a => a.tag == tag) = some a) (hv : a.val = none) :
      Step c s .prog
        { s with pc := set2 s.pc p t (.fWait pes (pend.erase d) tag),
                 ack := set2 s.ack d p ((s.ack d p).eraseP (fun a => a.tag == tag)) }
  /-- a value instead of the empty message: truncation -/
  | flushBad (p t : Nat) (hp : p < c.n) (pes pend : List Nat) (tag d : Nat) (h : s.pc p t = .fWait pes pend tag) (hd : d ∈ pend)
      (a : Ack I) (ha : (s.ack d p).find? (fun a => a.tag == tag) = some a) (v : I.V) (hv : a.val = some v) :
      Step c s .prog { s with bad := true }
  /-- the pending receive is matched by the first fitting message of some thread of some PE -/
  | «match» (p : Nat) (hp : p < c.n) (any : Bool) (h : s.cb p = .posted any) (src t : Nat) (m : Msg I)
      (hm : (s.chan src t p).find? (fits any pktTag) = some m) :
      Step c s .prog
        { s with cb := Function.update s.cb p (.matched src t m)
                 chan := set3 s.chan src t p ((s.chan src t p).eraseP (fits any pktTag)) }
  /-- `MPI_Test` succeeds in the asynchronous thread (am_impl.c L61-62) or in a user thread in a progress loop (L105-106) -/
  | start (p : Nat) (hp : p < c.n) (o : Option Nat) (src t : Nat) (m : Msg I) (h : s.cb p = .matched src t m)
      (ho : if c.async then o = none else ∃ u, o = some u ∧ waiting (s.pc p u) = true) :
      Step c s .prog { s with cb := Function.update s.cb p (.handling o src t m) }
  /-- `OSHMPI_rma_am_put_pkt_cb`, `OSHMPI_rma_am_iput_pkt_cb`: receive the payload from the source with the tag (any thread of
  the source), store it -/
  | actPut (p : Nat) (hp : p < c.n) (o : Option Nat) (src t : Nat) (d : I.D) (tag : Nat) (h : s.cb p = .handling o src t (.hdr (.put d tag)))
      (t' : Nat) (tag' : Nat) (x : I.P) (hm : (s.chan src t' p).find? (fits false tag) = some (.pl tag' x)) :
      Step c s .prog
        { finish c s p src t (.put d x) (I.write d x (s.mem p)) with
          chan := set3 s.chan src t' p ((s.chan src t' p).eraseP (fits false tag)) }
  /-- the payload receive takes a header -/
  | actPutBad (p : Nat) (hp : p < c.n) (o : Option Nat) (src t : Nat) (d : I.D) (tag : Nat) (h : s.cb p = .handling o src t (.hdr (.put d tag)))
      (t' : Nat) (k : Pkt I) (hm : (s.chan src t' p).find? (fits false tag) = some (.hdr k)) :
      Step c s .prog { s with bad := true }
  /-- `OSHMPI_rma_am_get_pkt_cb`, `_iget_`, `OSHMPI_amo_am_cswap_pkt_cb`, `_fetch_`: access and send the value back -/
  | actRd (p : Nat) (hp : p < c.n) (o : Option Nat) (src t : Nat) (q : I.Q) (tag : Nat) (h : s.cb p = .handling o src t (.hdr (.rd q tag))) :
      Step c s .prog
        { finish c s p src t (.rd q) (I.read q (s.mem p)).1 with
          ack := set2 s.ack p src (s.ack p src ++ [⟨tag, some (I.read q (s.mem p)).2⟩]) }
  /-- `OSHMPI_amo_am_post_pkt_cb` -/
  | actPost (p : Nat) (hp : p < c.n) (o : Option Nat) (src t : Nat) (u : I.U) (h : s.cb p = .handling o src t (.hdr (.post u))) :
      Step c s .prog (finish c s p src t (.upd u) (I.upd u (s.mem p)))
  /-- `OSHMPI_am_flush_pkt_cb` -/
  | actFlush (p : Nat) (hp : p < c.n) (o : Option Nat) (src t : Nat) (tag : Nat) (h : s.cb p = .handling o src t (.hdr (.flush tag))) :
      Step c s .prog
        { finish c s p src t .flush (s.mem p) with ack := set2 s.ack p src (s.ack p src ++ [⟨tag, none⟩]) }
  /-- terminate packet: the asynchronous thread stops (am_impl.c L67), manual progress ignores it (L110-111) -/
  | actTerm (p : Nat) (hp : p < c.n) (o : Option Nat) (src t : Nat) (h : s.cb p = .handling o src t (.hdr .term)) :
      Step c s .prog
        { finish c s p src t .term (s.mem p) with
          cb := Function.update s.cb p (if c.async then .dead else repost c) }
  /-- the handler was given something that is not a header -/
  | actBad (p : Nat) (hp : p < c.n) (o : Option Nat) (src t : Nat) (tag : Nat) (x : I.P) (h : s.cb p = .handling o src t (.pl tag x)) :
      Step c s .prog { s with bad := true }
  /-- entering a barrier -/
  | bar (p t : Nat) (hp : p < c.n) (ht : c.thr p t) (h : s.pc p t = .idle) :
      Step c s .call { s with pc := set2 s.pc p t .bar, ent := Function.update s.ent p (s.ent p + 1) }
  /-- `finalize_impl`, setup_impl.c L852-865 -/
  | fin (p t : Nat) (hp : p < c.n) (ht : c.thr p t) (h : s.pc p t = .idle) :
      Step c s .call { s with pc := set2 s.pc p t .finBar, ent := Function.update s.ent p (s.ent p + 1) }
  /-- am_impl.c L176 without the asynchronous thread: the last receive is completed, whatever it was matched with -/
  | finDrop (p t : Nat) (hp : p < c.n) (hc : c.async = false) (h : s.pc p t = .finWait) (src t' : Nat) (m : Msg I)
      (hm : s.cb p = .matched src t' m) :
      Step c s .prog { s with pc := set2 s.pc p t .finDone, cb := Function.update s.cb p .dead }
  /-- the PE's own stores, MPI RMA by other PEs -/
  | env (p : Nat) (f : I.σ → I.σ) :
      Step c s .env
        { s with mem := Function.update s.mem p (f (s.mem p)), log := Function.update s.log p (s.log p ++ [.env f]) }

/-- reachable states -/
inductive Reach (c : Cfg I) : St I → Prop where
  | init : Reach c (init c)
  | step {s s' : St I} {l : Lbl} : Reach c s → Step c s l s' → Reach c s'

/-! ## Vocabulary of the properties -/

/-- effect of an operation -/
def applyOp : Op I → I.σ → I.σ
  | .put d x, m => I.write d x m
  | .rd q, m => (I.read q m).1
  | .upd u, m => I.upd u m
  | .flush, m => m
  | .term, m => m

/-- effect of an event -/
def applyEv : Ev I → I.σ → I.σ
  | .am _ _ o, m => applyOp o m
  | .env f, m => f m

/-- memory after executing the events one after the other -/
def replay (m : I.σ) (l : List (Ev I)) : I.σ := l.foldl (fun m e => applyEv e m) m

/-- the operations of thread `t` of PE `s` in a log -/
def opsOf (s t : Nat) : List (Ev I) → List (Op I)
  | [] => []
  | .am s' t' o :: l => if s' = s ∧ t' = t then o :: opsOf s t l else opsOf s t l
  | .env _ :: l => opsOf s t l

/-- the value a replying operation yields in memory `m` -/
def valOf : Op I → I.σ → List (I.Q × I.V)
  | .rd q, m => [(q, (I.read q m).2)]
  | .put _ _, _ => []
  | .upd _, _ => []
  | .flush, _ => []
  | .term, _ => []

/-- what the replying operations of thread `t` of PE `s` return when the events are executed one after the other from `m` -/
def seqRets (s t : Nat) : I.σ → List (Ev I) → List (I.Q × I.V)
  | _, [] => []
  | m, .am s' t' o :: l => (if s' = s ∧ t' = t then valOf o m else []) ++ seqRets s t (applyOp o m) l
  | m, .env f :: l => seqRets s t (f m) l

end Verif.Am
