import Verif.Joint.Lemmas
import Verif.Api.CollProps
import Verif.Vis.Props
/-!
# C99: collective routines in executions of all PEs
-/
namespace Verif.Joint
open Verif.Rma Verif.Vis Verif.Coll Verif.Api

/-! ## Any collective call -/

/-- PE `p`, which made call `i` in step `e` and returned from it in step `t`, finds in its memory what `R` says of memories before and after: as if
all members' calls had taken place together on a memory `m` that has every byte as it was when its PE entered the call (bytes that other calls
write meanwhile, or that PEs not yet in the call may still write, excepted). -/
def AsIf (N : Nat) (st : Nat → X) (ev : Nat → XEv) (i : Nat × Nat) (p e t : Nat) (R : Mems → Mems → Prop) : Prop :=
  ∃ m m', R m m' ∧ (∀ q e', e' < N → ev e' = .enter q i → ∀ b, Stable N st ev i q e' b → m q b = (st e').g.mem q b) ∧
    ∀ a, Stable N st ev i p e a → (∀ k, t < k → k < N → ¬ (ev k).writes (p, a)) → (st N).g.mem p a = m' p a

/-- **C99** Every collective call, as any member sees it after returning, whenever the members enter and leave and whatever other PEs do
meanwhile. -/
theorem C99_as_if {S : Sys} {prog : Nat → Nat → Op} {N : Nat} {st : Nat → X} {ev : Nat → XEv} (x : XExec S prog N st ev) {i : Nat × Nat}
    {p e t : Nat} (h : Span N ev i p e t) {R : Mems → Mems → Prop} (hR : ∀ m, ∃ m', prog i.1 i.2 p m = .ok m' ∧ R m m') :
    AsIf N st ev i p e t R := by
  have hN := h.le
  have hlt := h.lt
  obtain ⟨m', hm', hr⟩ := hR (fun q b => ((st N).cap i q b).getD ((st N).g.mem q b))
  have hread : ∀ q e', e' < N → ev e' = .enter q i → ∀ b, Stable N st ev i q e' b →
      ((st N).cap i q b).getD ((st N).g.mem q b) = (st e').g.mem q b := by
    intro q e' he' hev b hs
    rcases x.read he' hev hs he' le_rfl with hc | ⟨hc, -, hm, -⟩
    · rw [hc]; rfl
    · rw [hc]; exact hm
  refine ⟨_, m', hr, hread, ?_⟩
  intro a hs hw
  have w := x.written h hs hlt le_rfl
  have s := x.step t hN
  rw [h.leave] at s
  have hmem : (st N).g.mem p a = (st t).g.mem p a := by
    have r := x.run (k := t) (n := N - t) (by omega)
    rw [show t + (N - t) = N by omega] at r
    refine (noWriter_run r w.quiet ?_).2
    intro v hv
    obtain ⟨j, h1, h2, h3⟩ := mem_evs hv
    rcases Nat.lt_or_ge t j with h4 | h4
    · exact fun h5 => hw j h4 (by omega) ⟨v, h3, h5⟩
    · obtain rfl : j = t := by omega
      rw [h.leave] at h3
      cases h3
  rw [hmem]
  by_cases hc : Op.Changes (prog i.1 i.2) p a
  · have hf : (st t).fin p a := by
      generalize st (t + 1) = y at s
      cases s with
      | leave p i hl hr hw => exact hw a hc
    obtain ⟨m2, h2, h3⟩ := w.fin hf (fun q b => ((st N).cap i q b).getD ((st N).g.mem q b)) (by
      intro q b v hv
      simp only [x.cap_mono (by omega : t ≤ N) le_rfl hv]; rfl)
    rw [hm'] at h2
    cases h2
    exact h3.symm
  · rw [w.keep hc, ← hread p e (by omega) h.enter a hs]
    by_contra hne
    exact hc ⟨_, m', hm', fun heq => hne heq.symm⟩

/-! ## Who waits for whom -/

/-- a PE that has made the call -/
theorem XExec.entered {S : Sys} {prog : Nat → Nat → Op} {N : Nat} {st : Nat → X} {ev : Nat → XEv} (x : XExec S prog N st ev) {k : Nat}
    (hk : k ≤ N) {c n q : Nat} (h : n < (st k).cnt c q) : ∃ e < k, ev e = .enter q (c, n) := by
  induction k with
  | zero =>
    obtain ⟨m, e⟩ := x.init
    rw [e] at h
    cases h
  | succ k ih =>
    have s := x.step k (by omega)
    by_cases h1 : n < (st k).cnt c q
    · obtain ⟨e, he, hev⟩ := ih (by omega) h1
      exact ⟨e, by omega, hev⟩
    · refine ⟨k, by omega, ?_⟩
      generalize st (k + 1) = y at s h
      generalize st k = z at s h1
      generalize ev k = w at s
      cases s with
      | vis e g' h' hp => exact absurd h h1
      | enter p d hf hl =>
        simp only at h
        by_cases hc : c = d
        · subst hc
          rw [Function.update_self] at h
          by_cases hq : q = p
          · subst hq
            rw [Function.update_self] at h
            have : z.cnt c q = n := by omega
            rw [this]
          · rw [Function.update_of_ne hq] at h; exact absurd h h1
        · rw [Function.update_of_ne hc] at h; exact absurd h h1
      | read p i B hl => exact absurd h h1
      | scratch p i a v hl hw hr => exact absurd h h1
      | deliver p i a v hl hw hr hv => exact absurd h h1
      | leave p i hl hr hw => exact absurd h h1

/-- every byte of the result that is there is determined by what has been read -/
theorem XExec.fin {S : Sys} {prog : Nat → Nat → Op} {N : Nat} {st : Nat → X} {ev : Nat → XEv} (x : XExec S prog N st ev) {k : Nat}
    (hk : k ≤ N) {p : Nat} {i : Nat × Nat} {a : Int} (hl : (st k).loc p = some i) (hf : (st k).fin p a) :
    ∃ v, Result (prog i.1 i.2) p a ((st k).cap i) v := by
  induction k with
  | zero =>
    obtain ⟨m, e⟩ := x.init
    rw [e] at hl
    cases hl
  | succ k ih =>
    have s := x.step k (by omega)
    have ih' : (st k).loc p = some i → (st k).fin p a → ∃ v, Result (prog i.1 i.2) p a ((st (k + 1)).cap i) v := by
      intro h1 h2
      obtain ⟨v, hv⟩ := ih (by omega) h1 h2
      exact ⟨v, result_mono s hv⟩
    generalize st (k + 1) = y at s hl hf ih'
    generalize st k = z at s ih'
    generalize ev k = w at s
    cases s with
    | vis e g' h' hp => exact ih' hl hf
    | enter q d hf' hl' =>
      by_cases hq : p = q
      · subst hq
        simp only [Function.update_self] at hf
      · simp only [Function.update_of_ne hq] at hl hf
        exact ih' hl hf
    | read q j B hl' => exact ih' hl hf
    | scratch q j b v hl' hw hr =>
      by_cases hq : p = q
      · subst hq
        by_cases hb : a = b
        · subst hb; simp only [Function.update_self] at hf
        · simp only [Function.update_self, Function.update_of_ne hb] at hf
          exact ih' hl hf
      · simp only [Function.update_of_ne hq] at hf
        exact ih' hl hf
    | deliver q j b v hl' hw hr hv =>
      by_cases hq : p = q
      · subst hq
        by_cases hb : a = b
        · subst hb
          rw [hl'] at hl; cases hl
          exact ⟨v, hv⟩
        · simp only [Function.update_self, Function.update_of_ne hb] at hf
          exact ih' hl hf
      · simp only [Function.update_of_ne hq] at hf
        exact ih' hl hf
    | leave q j hl' hr hw =>
      by_cases hq : p = q
      · subst hq
        simp only [Function.update_self] at hl
        cases hl
      · simp only [Function.update_of_ne hq] at hl
        exact ih' hl hf

/-- byte `a` of PE `p`'s result is another one if byte `b` of PE `q` is another one -/
def Depends (o : Op) (p : Nat) (a : Int) (q : Nat) (b : Int) : Prop :=
  ∀ m, ∃ v m1 m2, o p m = .ok m1 ∧ o p (setByte m q b v) = .ok m2 ∧ m1 p a ≠ m2 p a

/-- **C99** A PE returns from a collective call only after every PE has called it on whose memory the result depends. -/
theorem C99_waits {S : Sys} {prog : Nat → Nat → Op} {N : Nat} {st : Nat → X} {ev : Nat → XEv} (x : XExec S prog N st ev) {i : Nat × Nat}
    {p e t : Nat} (h : Span N ev i p e t) {q : Nat} {a b : Int} (hd : Depends (prog i.1 i.2) p a q b) : ∃ e' < t, ev e' = .enter q i := by
  have hN := h.le
  by_contra hne
  have hcap : (st t).cap i q b = none := by
    by_contra hc
    exact hne (x.entered (by omega) ((x.inv (by omega)).cap i q b hc))
  have hag : ∀ v, Agrees ((st t).cap i) (setByte (fun q b => ((st t).cap i q b).getD 0) q b v) := by
    intro v q' b' v' hv
    rw [setByte_ne]
    · rw [hv]; rfl
    · rintro ⟨rfl, rfl⟩; rw [hcap] at hv; cases hv
  have hag0 : Agrees ((st t).cap i) (fun q b => ((st t).cap i q b).getD 0) := by
    intro q' b' v' hv
    simp only [hv]; rfl
  obtain ⟨v, m1, m2, h1, h2, h3⟩ := hd (fun q b => ((st t).cap i q b).getD 0)
  have hl := x.inside h h.lt le_rfl
  have hch : Op.Changes (prog i.1 i.2) p a := by
    by_contra hc
    have n1 : m1 p a = (fun q b => ((st t).cap i q b).getD 0) p a := by
      by_contra hh; exact hc ⟨_, _, h1, hh⟩
    have n2 : m2 p a = setByte (fun q b => ((st t).cap i q b).getD 0) q b v p a := by
      by_contra hh; exact hc ⟨_, _, h2, hh⟩
    by_cases hpq : p = q ∧ a = b
    · exact hne ⟨e, h.lt, hpq.1 ▸ h.enter⟩
    · rw [setByte_ne hpq] at n2
      exact h3 (n1.trans n2.symm)
  have s := x.step t hN
  rw [h.leave] at s
  have hf : (st t).fin p a := by
    generalize st (t + 1) = y at s
    cases s with
    | leave p i hl hr hw => exact hw a hch
  obtain ⟨w, hw⟩ := x.fin (by omega) hl hf
  obtain ⟨m1', e1, f1⟩ := hw _ hag0
  obtain ⟨m2', e2, f2⟩ := hw _ (hag v)
  rw [h1] at e1; cases e1
  rw [h2] at e2; cases e2
  exact h3 (f1.trans f2.symm)

/-! ## The routines on teams -/

/-- a member as seen by another one -/
theorem member {n me : Nat} (hme : me < n) {hs : List Team.Split} {o : Team.Obj} (h : Team.Holds n me hs o) {p : Nat} (hp : p ∈ o.comm) :
    p < n ∧ ∃ o', Team.Holds n p hs o' ∧ o'.comm = o.comm := by
  obtain ⟨o', h1, h2, -⟩ := Team.C80_agree hme h hp
  exact ⟨(Team.C80_self hme h).2.2 p hp, o', h1, h2⟩

/-- **C99** `shmem_TYPENAME_broadcast`, `shmem_broadcastmem` on any team: every member's destination is the root's source as it was when the root
entered the call. Missing: counts of 2^31 and more. -/
theorem C99_broadcast_partial {S : Sys} {prog : Nat → Nat → Op} {N : Nat} {st : Nat → X} {ev : Nat → XEv} (x : XExec S prog N st ev)
    {i : Nat × Nat} {p e t : Nat} (hsp : Span N ev i p e t) {fn : CFn} (hf : fn.Exists) {cts n me : Nat} (hme : me < n) {hs : List Team.Split}
    {hd : Nat → Team.Handle} {o : Team.Obj} (h : Team.Holds n me hs o) (ht : OnTeam cts n hs hd o.comm) {root rp : Nat}
    (hroot : o.comm[root]? = some rp) (src dst : Nat → Int) {len : Nat} (hc : len < 2 ^ 31)
    (ha : overlap (src rp) (dst rp) (len * fn.elem) = false) (hp : p ∈ o.comm)
    (hprog : prog i.1 i.2 = fun me => broadcastT fn cts n hd me root src dst len) :
    (∀ y < len * fn.elem, ∃ er < t, ev er = .enter rp i ∧ (Stable N st ev i rp er (src rp + (y : Int)) →
      Stable N st ev i p e (dst p + (y : Int)) → (∀ k, t < k → k < N → ¬ (ev k).writes (p, dst p + (y : Int))) →
      (st N).g.mem p (dst p + (y : Int)) = (st er).g.mem rp (src rp + (y : Int)))) ∧
    ∀ a, (a < dst p ∨ dst p + ((len * fn.elem : Nat) : Int) ≤ a) → Stable N st ev i p e a →
      (∀ k, t < k → k < N → ¬ (ev k).writes (p, a)) → (st N).g.mem p a = (st e).g.mem p a := by
  obtain ⟨hpn, o', hh', ho'⟩ := member hme h hp
  have spec : ∀ m, ∃ m', prog i.1 i.2 p m = .ok m' ∧
      ((∀ x < len * fn.elem, m' p (dst p + (x : Int)) = m rp (src rp + (x : Int))) ∧
      (∀ y, (y < dst p ∨ dst p + ((len * fn.elem : Nat) : Int) ≤ y) → m' p y = m p y)) := by
    intro m
    obtain ⟨m', h1, h2, h3, -⟩ := C81_broadcast_partial hf hpn hh' (by rw [ho']; exact ht) (by rw [ho']; exact hroot) src dst hc ha m
    rw [hprog]
    exact ⟨m', h1, fun x hx => h2 p (by rw [ho']; exact hp) x hx, fun y hy => h3 p (by rw [ho']; exact hp) y hy⟩
  obtain ⟨m, m', ⟨hr1, hr2⟩, hin, hout⟩ := C99_as_if x hsp spec
  have hN := hsp.le
  have hlt := hsp.lt
  refine ⟨fun y hy => ?_, fun a ha hs hw => ?_⟩
  · obtain ⟨er, her, hev⟩ := C99_waits x hsp (q := rp) (a := dst p + (y : Int)) (b := src rp + (y : Int)) (by
      intro m
      obtain ⟨m1, e1, f1, -⟩ := spec m
      obtain ⟨m2, e2, f2, -⟩ := spec (setByte m rp (src rp + (y : Int)) (m rp (src rp + (y : Int)) + 1))
      refine ⟨_, m1, m2, e1, e2, ?_⟩
      rw [f1 y hy, f2 y hy, setByte_self]
      exact fun h => by bv_omega)
    refine ⟨er, her, hev, fun s1 s2 hw => ?_⟩
    rw [hout _ s2 hw, hr1 y hy]
    exact hin rp er (by omega) hev _ s1
  · rw [hout a hs hw, hr2 a ha]
    exact hin p e (by omega) hsp.enter a hs

/-- **C99** `shmem_TYPENAME_collect`, `shmem_collectmem` on any team. Missing: counts of 2^31 and more, displacements of 2^31 elements and more. -/
theorem C99_collect_partial {S : Sys} {prog : Nat → Nat → Op} {N : Nat} {st : Nat → X} {ev : Nat → XEv} (x : XExec S prog N st ev)
    {i : Nat × Nat} {p e t : Nat} (hsp : Span N ev i p e t) {fn : CFn} (hf : fn.Exists) {cts n me : Nat} (hme : me < n) {hs : List Team.Split}
    {hd : Nat → Team.Handle} {o : Team.Obj} (h : Team.Holds n me hs o) (ht : OnTeam cts n hs hd o.comm) (ns : Nat → Nat)
    (hn : ∀ p ∈ o.comm, ns p < 2 ^ 31) (hd' : before (fun r => ns (o.comm.getD r 0)) (o.comm.length - 1) < 2 ^ 31) (src dst : Nat → Int)
    (ha : Apart fn.elem o.comm (fun r => ns (o.comm.getD r 0)) (fun _ => before (fun r => ns (o.comm.getD r 0)) o.comm.length)
      (fun r => src (o.comm.getD r 0)) (fun r => dst (o.comm.getD r 0))) (hp : p ∈ o.comm)
    (hprog : prog i.1 i.2 = fun me => collectT fn cts n hd me ns src dst) :
    AsIf N st ev i p e t (Concat fn.elem o.comm (fun r => ns (o.comm.getD r 0)) (fun r => src (o.comm.getD r 0)) (fun r => dst (o.comm.getD r 0))) := by
  obtain ⟨hpn, o', hh', ho'⟩ := member hme h hp
  apply C99_as_if x hsp
  intro m
  rw [hprog, ← ho']
  rw [← ho'] at ht hn hd' ha
  exact C81_collect_partial hf hpn hh' ht ns hn hd' src dst ha m

/-- **C99** `shmem_TYPENAME_fcollect`, `shmem_fcollectmem` on any team. Missing: counts of 2^31 and more. -/
theorem C99_fcollect_partial {S : Sys} {prog : Nat → Nat → Op} {N : Nat} {st : Nat → X} {ev : Nat → XEv} (x : XExec S prog N st ev)
    {i : Nat × Nat} {p e t : Nat} (hsp : Span N ev i p e t) {fn : CFn} (hf : fn.Exists) {cts n me : Nat} (hme : me < n) {hs : List Team.Split}
    {hd : Nat → Team.Handle} {o : Team.Obj} (h : Team.Holds n me hs o) (ht : OnTeam cts n hs hd o.comm) {len : Nat} (hc : len < 2 ^ 31)
    (src dst : Nat → Int)
    (ha : Apart fn.elem o.comm (fun _ => len) (fun _ => o.comm.length * len) (fun r => src (o.comm.getD r 0)) (fun r => dst (o.comm.getD r 0)))
    (hp : p ∈ o.comm) (hprog : prog i.1 i.2 = fun me => fcollectT fn cts n hd me len src dst) :
    AsIf N st ev i p e t (Concat fn.elem o.comm (fun _ => len) (fun r => src (o.comm.getD r 0)) (fun r => dst (o.comm.getD r 0))) := by
  obtain ⟨hpn, o', hh', ho'⟩ := member hme h hp
  apply C99_as_if x hsp
  intro m
  rw [hprog, ← ho']
  rw [← ho'] at ht ha
  exact C81_fcollect_partial hf hpn hh' ht hc src dst ha m

/-- **C99** `shmem_TYPENAME_alltoall`, `shmem_alltoallmem` on any team. Missing: counts of 2^31 and more. -/
theorem C99_alltoall_partial {S : Sys} {prog : Nat → Nat → Op} {N : Nat} {st : Nat → X} {ev : Nat → XEv} (x : XExec S prog N st ev)
    {i : Nat × Nat} {p e t : Nat} (hsp : Span N ev i p e t) {fn : CFn} (hf : fn.Exists) {cts n me : Nat} (hme : me < n) {hs : List Team.Split}
    {hd : Nat → Team.Handle} {o : Team.Obj} (h : Team.Holds n me hs o) (ht : OnTeam cts n hs hd o.comm) {len : Nat} (hc : len < 2 ^ 31)
    (src dst : Nat → Int)
    (ha : ApartStrided fn.elem o.comm len 1 1 (fun r => src (o.comm.getD r 0)) (fun r => dst (o.comm.getD r 0)))
    (hp : p ∈ o.comm) (hprog : prog i.1 i.2 = fun me => alltoallT fn cts n hd me len src dst) :
    AsIf N st ev i p e t (Transposed fn.elem o.comm len 1 1 (fun r => src (o.comm.getD r 0)) (fun r => dst (o.comm.getD r 0))) := by
  obtain ⟨hpn, o', hh', ho'⟩ := member hme h hp
  apply C99_as_if x hsp
  intro m
  rw [hprog, ← ho']
  rw [← ho'] at ht ha
  exact C81_alltoall_partial hf hpn hh' ht hc src dst ha m

/-- **C99** `shmem_TYPENAME_alltoalls`, `shmem_alltoallsmem` on any team, whatever strided datatypes each member's cache holds. Missing: counts and
strides of 2^31 and more. -/
theorem C99_alltoalls_partial {S : Sys} {prog : Nat → Nat → Op} {N : Nat} {st : Nat → X} {ev : Nat → XEv} (x : XExec S prog N st ev)
    {i : Nat × Nat} {p e t : Nat} (hsp : Span N ev i p e t) {fn : CFn} (hf : fn.Exists) {cts n me : Nat} (hme : me < n) {hs : List Team.Split}
    {hd : Nat → Team.Handle} {o : Team.Obj} (h : Team.Holds n me hs o) (ht : OnTeam cts n hs hd o.comm) {len : Nat} (hc : len < 2 ^ 31)
    {ss ds : Int} (hss : 1 ≤ ss ∧ ss < 2 ^ 31) (hds : 1 ≤ ds ∧ ds < 2 ^ 31) (hxs : (len : Int) * ss * fn.elem < 2 ^ 63)
    (hxd : (len : Int) * ds * fn.elem < 2 ^ 63) {c : Nat → Bool} {sz : Nat → Nat} {base : Nat} (hb : sz base = fn.kb)
    {sc rc : Nat → Nat} {sty rty : Nat → Ty}
    (ho : ∀ p ∈ o.comm, Obtained (c p) sz (stridedKey len ss base) (sc p) (sty p))
    (ho2 : ∀ p ∈ o.comm, Obtained (c p) sz (stridedKey len ds base) (rc p) (rty p)) (src dst : Nat → Int)
    (ha : ApartStrided fn.elem o.comm len ss ds (fun r => src (o.comm.getD r 0)) (fun r => dst (o.comm.getD r 0)))
    (hp : p ∈ o.comm) (hprog : prog i.1 i.2 = fun me => alltoallsT cts n hd me src dst sc sty rc rty) :
    AsIf N st ev i p e t (Transposed fn.elem o.comm len ss ds (fun r => src (o.comm.getD r 0)) (fun r => dst (o.comm.getD r 0))) := by
  obtain ⟨hpn, o', hh', ho'⟩ := member hme h hp
  apply C99_as_if x hsp
  intro m
  rw [hprog, ← ho']
  rw [← ho'] at ht ha ho ho2
  exact C81_alltoalls_partial hf hpn hh' ht hc hss hds hxs hxd hb ho ho2 src dst ha m

/-- what an integer reduction means for the memories before and after, at PE `p` -/
def Reduced (s : Bool) (b : Nat) (op : OpName) (ms : List Nat) (src dst : Nat → Int) (len p : Nat) (m m' : Mems) : Prop :=
  (∀ e < len, Means s b op (fun q => ld (m (ms.getD q 0)) (src (ms.getD q 0) + (e : Int) * b) b) ms.length (ld (m' p) (dst p + (e : Int) * b) b)) ∧
  ∀ y, (y < dst p ∨ dst p + ((len * b : Nat) : Int) ≤ y) → m' p y = m p y

/-- **C99** Integer reductions on any team, also in place. Missing: `char`, counts of 2^31 and more. -/
theorem C99_reduce_partial {S : Sys} {prog : Nat → Nat → Op} {N : Nat} {st : Nat → X} {ev : Nat → XEv} (x : XExec S prog N st ev)
    {i : Nat × Nat} {p e t : Nat} (hsp : Span N ev i p e t) {op : OpName} {r : RRow} (hr : r ∈ rows false op) {ct : CT} (hct : r.ty = .base ct)
    (hch : ct ≠ .char) {s : Bool} {b : Nat} (hb : ct.intTy = some (s, b)) (fl : Nat → ROp → Nat → Nat → Nat) (tr : Nat → Nat → Tree)
    {cts n me : Nat} (hme : me < n) {hs : List Team.Split} {hd : Nat → Team.Handle} {o : Team.Obj} (h : Team.Holds n me hs o)
    (ht : OnTeam cts n hs hd o.comm) (htr : ∀ q e, Complete o.comm.length (tr q e)) (src dst : Nat → Int) {len : Nat} (hc : len < 2 ^ 31)
    (ha : SameOrApart o.comm (len * b) (fun q => src (o.comm.getD q 0)) (fun q => dst (o.comm.getD q 0))) (hp : p ∈ o.comm)
    (hprog : prog i.1 i.2 = fun me => reduceT r op fl tr cts n hd me src dst len) :
    AsIf N st ev i p e t (Reduced s b op o.comm src dst len p) := by
  obtain ⟨hpn, o', hh', ho'⟩ := member hme h hp
  apply C99_as_if x hsp
  intro m
  rw [hprog, ← ho']
  rw [← ho'] at ht ha htr hp
  obtain ⟨m', h1, h2, h3, -⟩ := C81_reduce_partial hr hct hch hb fl tr hpn hh' ht htr src dst hc ha m
  exact ⟨m', h1, fun e he => h2 p hp e he, fun y hy => h3 p hp y hy⟩

/-! ## The routines on active sets -/

/-- **C99** `shmem_collect32/64` on any active set. -/
theorem C99_collect_aset_partial {S : Sys} {prog : Nat → Nat → Op} {N : Nat} {st : Nat → X} {ev : Nat → XEv} (x : XExec S prog N st ev)
    {i : Nat × Nat} {p e t : Nat} (hsp : Span N ev i p e t) (fn : AFn) {npes : Nat} (hN : npes ≤ 2 ^ 31) {c : Nat → Cache} {k : ASet}
    (hv : Valid npes k) (hc : ∀ p ∈ k.pes, ∃ ks made, Hist npes ks made (c p)) (ns : Nat → Nat) (hn : ∀ p ∈ k.pes, ns p < 2 ^ 31)
    (hd : before (fun r => ns (k.pes.getD r 0)) (k.pes.length - 1) < 2 ^ 31) (src dst : Nat → Int)
    (ha : Apart fn.elem k.pes (fun r => ns (k.pes.getD r 0)) (fun _ => before (fun r => ns (k.pes.getD r 0)) k.pes.length)
      (fun r => src (k.pes.getD r 0)) (fun r => dst (k.pes.getD r 0))) (hp : p ∈ k.pes)
    (hprog : prog i.1 i.2 = fun me => collectA fn npes c k me ns src dst) :
    AsIf N st ev i p e t (Concat fn.elem k.pes (fun r => ns (k.pes.getD r 0)) (fun r => src (k.pes.getD r 0)) (fun r => dst (k.pes.getD r 0))) := by
  apply C99_as_if x hsp
  intro m
  rw [hprog]
  exact C81_collect_aset_partial fn hN hv hp hc ns hn hd src dst ha m

/-- **C99** `shmem_fcollect32/64` on any active set. -/
theorem C99_fcollect_aset_partial {S : Sys} {prog : Nat → Nat → Op} {N : Nat} {st : Nat → X} {ev : Nat → XEv} (x : XExec S prog N st ev)
    {i : Nat × Nat} {p e t : Nat} (hsp : Span N ev i p e t) (fn : AFn) {npes : Nat} (hN : npes ≤ 2 ^ 31) {c : Nat → Cache} {k : ASet}
    (hv : Valid npes k) (hc : ∀ p ∈ k.pes, ∃ ks made, Hist npes ks made (c p)) {len : Nat} (hl : len < 2 ^ 31) (src dst : Nat → Int)
    (ha : Apart fn.elem k.pes (fun _ => len) (fun _ => k.pes.length * len) (fun r => src (k.pes.getD r 0)) (fun r => dst (k.pes.getD r 0)))
    (hp : p ∈ k.pes) (hprog : prog i.1 i.2 = fun me => fcollectA fn npes c k me len src dst) :
    AsIf N st ev i p e t (Concat fn.elem k.pes (fun _ => len) (fun r => src (k.pes.getD r 0)) (fun r => dst (k.pes.getD r 0))) := by
  apply C99_as_if x hsp
  intro m
  rw [hprog]
  exact C81_fcollect_aset_partial fn hN hv hp hc hl src dst ha m

/-- **C99** `shmem_alltoall32/64` on any active set. -/
theorem C99_alltoall_aset_partial {S : Sys} {prog : Nat → Nat → Op} {N : Nat} {st : Nat → X} {ev : Nat → XEv} (x : XExec S prog N st ev)
    {i : Nat × Nat} {p e t : Nat} (hsp : Span N ev i p e t) (fn : AFn) {npes : Nat} (hN : npes ≤ 2 ^ 31) {c : Nat → Cache} {k : ASet}
    (hv : Valid npes k) (hc : ∀ p ∈ k.pes, ∃ ks made, Hist npes ks made (c p)) {len : Nat} (hl : len < 2 ^ 31) (src dst : Nat → Int)
    (ha : ApartStrided fn.elem k.pes len 1 1 (fun r => src (k.pes.getD r 0)) (fun r => dst (k.pes.getD r 0)))
    (hp : p ∈ k.pes) (hprog : prog i.1 i.2 = fun me => alltoallA fn npes c k me len src dst) :
    AsIf N st ev i p e t (Transposed fn.elem k.pes len 1 1 (fun r => src (k.pes.getD r 0)) (fun r => dst (k.pes.getD r 0))) := by
  apply C99_as_if x hsp
  intro m
  rw [hprog]
  exact C81_alltoall_aset_partial fn hN hv hp hc hl src dst ha m

/-- **C99** Integer reductions on any active set, also in place. -/
theorem C99_reduce_aset_partial {S : Sys} {prog : Nat → Nat → Op} {N : Nat} {st : Nat → X} {ev : Nat → XEv} (x : XExec S prog N st ev)
    {i : Nat × Nat} {p e t : Nat} (hsp : Span N ev i p e t) {op : OpName} {r : RRow} (hr : r ∈ rows true op) {ct : CT} (hct : r.ty = .base ct)
    {s : Bool} {b : Nat} (hb : ct.intTy = some (s, b)) (fl : Nat → ROp → Nat → Nat → Nat) (tr : Nat → Nat → Tree) {npes : Nat}
    (hN : npes ≤ 2 ^ 31) {c : Nat → Cache} {k : ASet} (hv : Valid npes k) (hc : ∀ p ∈ k.pes, ∃ ks made, Hist npes ks made (c p))
    (htr : ∀ q e, Complete k.size (tr q e)) (src dst : Nat → Int) {len : Nat} (hl : len < 2 ^ 31)
    (ha : SameOrApart k.pes (len * b) (fun q => src (k.pes.getD q 0)) (fun q => dst (k.pes.getD q 0))) (hp : p ∈ k.pes)
    (hprog : prog i.1 i.2 = fun me => reduceA r op fl tr npes c k me src dst len) :
    AsIf N st ev i p e t (Reduced s b op k.pes src dst len p) := by
  apply C99_as_if x hsp
  intro m
  rw [hprog]
  obtain ⟨m', h1, h2, h3, -⟩ := C81_reduce_aset_partial hr hct hb fl tr hN hv hp hc htr src dst hl ha m
  refine ⟨m', h1, fun e he => ?_, fun y hy => h3 p hp y hy⟩
  rw [pes_length]
  exact means_congr (fun i hi => by rw [pes_getD hi]) (h2 p hp e he)

/-- **C99** `shmem_broadcast32/64` where the root's index in the set is its PE number. Missing: all other roots and sets (`C34_fails`,
`C34_get_fails`), counts of 2^31 and more. -/
theorem C99_broadcast_aset_partial {S : Sys} {prog : Nat → Nat → Op} {N : Nat} {st : Nat → X} {ev : Nat → XEv} (x : XExec S prog N st ev)
    {i : Nat × Nat} {p e t : Nat} (hsp : Span N ev i p e t) (fn : AFn) (procs : Nat → Sobj.Proc) (mode : Sobj.Mode) {npes : Nat}
    (hN : npes ≤ 2 ^ 31) {c : Nat → Cache} {k : ASet} (hv : Valid npes k) (hc : ∀ p ∈ k.pes, ∃ ks made, Hist npes ks made (c p)) {root : Nat}
    (hroot : root < k.size) (h0 : k.start = 0) (h1 : k.lg = 0 ∨ root = 0) (src dst : Nat → BitVec 64) {len : Nat} (hl : len < 2 ^ 31)
    (hp : p ∈ k.pes) (hprog : prog i.1 i.2 = fun me => broadcastA fn procs mode npes c k me root src dst len) :
    AsIf N st ev i p e t (fun m m' =>
      (p ≠ root → (∀ x < len * fn.elem, m' p ((dst p).toInt + (x : Int)) = m root ((src root).toInt + (x : Int))) ∧
        ∀ y, (y < (dst p).toInt ∨ (dst p).toInt + ((len * fn.elem : Nat) : Int) ≤ y) → m' p y = m p y) ∧
      (p = root → m' p = m p)) := by
  apply C99_as_if x hsp
  intro m
  rw [hprog]
  obtain ⟨m', e1, e2, e3, e4, -⟩ := C81_broadcast_aset_partial fn procs mode hN hv hp hc hroot h0 h1 src dst hl m
  exact ⟨m', e1, fun hne => ⟨e2 p hp hne, e3 p hp hne⟩, fun he => he ▸ e4⟩

/-! ## Waiting and frame -/

/-- the result of a concatenation depends on the first byte of every member's block -/
theorem concat_depends {o : Op} {p : Nat} {kb : Nat} {ms : List Nat} {ns : Nat → Nat} {src dst : Nat → Int}
    (hR : ∀ m, ∃ m', o p m = .ok m' ∧ Concat kb ms ns (fun r => src (ms.getD r 0)) (fun r => dst (ms.getD r 0)) m m') (hp : p ∈ ms) {q : Nat}
    {j : Nat} (hj : j < ms.length) (hq : ms.getD j 0 = q) (hpos : 0 < ns j * kb) :
    ∃ a b, Depends o p a q b := by
  obtain ⟨r, hr, rfl⟩ := mem_getD hp
  subst hq
  refine ⟨dst (ms.getD r 0) + ((before ns j * kb + 0 : Nat) : Int), src (ms.getD j 0) + ((0 : Nat) : Int), fun m => ?_⟩
  obtain ⟨m1, e1, f1, -⟩ := hR m
  obtain ⟨m2, e2, f2, -⟩ := hR (setByte m (ms.getD j 0) (src (ms.getD j 0) + ((0 : Nat) : Int))
    (m (ms.getD j 0) (src (ms.getD j 0) + ((0 : Nat) : Int)) + 1))
  refine ⟨_, m1, m2, e1, e2, ?_⟩
  rw [f1 r hr j hj 0 hpos, f2 r hr j hj 0 hpos, setByte_self]
  exact fun h => by bv_omega

/-- **C99** `shmem_TYPENAME_fcollect`, `shmem_fcollectmem` of at least one element: no member returns before all members have called it. Missing:
counts of 2^31 and more. -/
theorem C99_fcollect_waits_partial {S : Sys} {prog : Nat → Nat → Op} {N : Nat} {st : Nat → X} {ev : Nat → XEv} (x : XExec S prog N st ev)
    {i : Nat × Nat} {p e t : Nat} (hsp : Span N ev i p e t) {fn : CFn} (hf : fn.Exists) {cts n me : Nat} (hme : me < n) {hs : List Team.Split}
    {hd : Nat → Team.Handle} {o : Team.Obj} (h : Team.Holds n me hs o) (ht : OnTeam cts n hs hd o.comm) {len : Nat} (hc : len < 2 ^ 31)
    (h0 : 0 < len) (src dst : Nat → Int)
    (ha : Apart fn.elem o.comm (fun _ => len) (fun _ => o.comm.length * len) (fun r => src (o.comm.getD r 0)) (fun r => dst (o.comm.getD r 0)))
    (hp : p ∈ o.comm) (hprog : prog i.1 i.2 = fun me => fcollectT fn cts n hd me len src dst) :
    ∀ q ∈ o.comm, ∃ e' < t, ev e' = .enter q i := by
  intro q hq
  obtain ⟨hpn, o', hh', ho'⟩ := member hme h hp
  obtain ⟨j, hj, hjq⟩ := mem_getD hq
  have hpos : 0 < len * fn.elem := by
    refine Nat.mul_pos h0 ?_
    cases fn with
    | mem => decide
    | typed r =>
      have : ∀ r ∈ rmaRows, 0 < r.ty.sizeof := by decide
      exact this r hf
  obtain ⟨a, b, hdep⟩ := concat_depends (o := prog i.1 i.2) (p := p) (kb := fn.elem) (ms := o.comm) (ns := fun _ => len) (src := src) (dst := dst) (by
    intro m
    rw [hprog, ← ho']
    rw [← ho'] at ht ha
    exact C81_fcollect_partial hf hpn hh' ht hc src dst ha m) hp hj hjq hpos
  exact C99_waits x hsp hdep

/-- **C99** `shmem_TYPENAME_collect`, `shmem_collectmem`: no member returns before all members that contribute something have called it. Missing: counts
of 2^31 and more, displacements of 2^31 elements and more. -/
theorem C99_collect_waits_partial {S : Sys} {prog : Nat → Nat → Op} {N : Nat} {st : Nat → X} {ev : Nat → XEv} (x : XExec S prog N st ev)
    {i : Nat × Nat} {p e t : Nat} (hsp : Span N ev i p e t) {fn : CFn} (hf : fn.Exists) {cts n me : Nat} (hme : me < n) {hs : List Team.Split}
    {hd : Nat → Team.Handle} {o : Team.Obj} (h : Team.Holds n me hs o) (ht : OnTeam cts n hs hd o.comm) (ns : Nat → Nat)
    (hn : ∀ p ∈ o.comm, ns p < 2 ^ 31) (hd' : before (fun r => ns (o.comm.getD r 0)) (o.comm.length - 1) < 2 ^ 31) (src dst : Nat → Int)
    (ha : Apart fn.elem o.comm (fun r => ns (o.comm.getD r 0)) (fun _ => before (fun r => ns (o.comm.getD r 0)) o.comm.length)
      (fun r => src (o.comm.getD r 0)) (fun r => dst (o.comm.getD r 0))) (hp : p ∈ o.comm)
    (hprog : prog i.1 i.2 = fun me => collectT fn cts n hd me ns src dst) :
    ∀ q ∈ o.comm, 0 < ns q → ∃ e' < t, ev e' = .enter q i := by
  intro q hq h0
  obtain ⟨hpn, o', hh', ho'⟩ := member hme h hp
  obtain ⟨j, hj, hjq⟩ := mem_getD hq
  have hpos : 0 < ns (o.comm.getD j 0) * fn.elem := by
    rw [hjq]
    refine Nat.mul_pos h0 ?_
    cases fn with
    | mem => decide
    | typed r =>
      have : ∀ r ∈ rmaRows, 0 < r.ty.sizeof := by decide
      exact this r hf
  obtain ⟨a, b, hdep⟩ := concat_depends (o := prog i.1 i.2) (p := p) (kb := fn.elem) (ms := o.comm) (ns := fun r => ns (o.comm.getD r 0)) (src := src)
    (dst := dst) (by
    intro m
    rw [hprog, ← ho']
    rw [← ho'] at ht ha hn hd'
    exact C81_collect_partial hf hpn hh' ht ns hn hd' src dst ha m) hp hj hjq hpos
  exact C99_waits x hsp hdep

/-- **C99** Collective calls write nothing but the results of the PE that calls: a byte that none of the program's collective calls changes and that
no put, get, AMO or store writes keeps its value. -/
theorem C99_frame {S : Sys} {prog : Nat → Nat → Op} {N : Nat} {st : Nat → X} {ev : Nat → XEv} (x : XExec S prog N st ev) {p : Nat} {a : Int}
    (hc : ∀ c n, ¬ Op.Changes (prog c n) p a) (hw : ∀ k < N, ∀ w, ev k = .vis w → ¬ w.writes (p, a)) :
    (st N).g.mem p a = (st 0).g.mem p a := by
  obtain ⟨m, hm⟩ := x.init
  have r := x.run (k := 0) (n := N) (by omega)
  rw [Nat.zero_add] at r
  refine (noWriter_run r (by rw [hm]; exact noWriter_init m (p, a)) ?_).2
  intro v hv hvw
  obtain ⟨j, -, h2, h3⟩ := mem_evs hv
  have s := x.step j (by omega)
  have hj := hw j (by omega)
  generalize st (j + 1) = y at s
  generalize st j = z at s
  generalize ev j = w at s h3 hj
  cases s with
  | vis e g' h' hp =>
    rw [XEv.ev, List.mem_singleton] at h3
    subst h3
    exact hj _ rfl hvw
  | enter q c hf hl => cases h3
  | read q i B hl => cases h3
  | scratch q i b u hl hw' hr =>
    rw [XEv.ev, List.mem_singleton] at h3
    subst h3
    simp only [Ev.writes, Prod.mk.injEq] at hvw
    rw [hvw.1, hvw.2] at hc
    exact hc _ _ hw'
  | deliver q i b u hl hw' hr hv' =>
    rw [XEv.ev, List.mem_singleton] at h3
    subst h3
    simp only [Ev.writes, Prod.mk.injEq] at hvw
    rw [hvw.1, hvw.2] at hc
    exact hc _ _ hw'
  | leave q i hl hr hw' => cases h3

/-- an execution up to an earlier step, for what is in memory then -/
theorem XExec.take {S : Sys} {prog : Nat → Nat → Op} {N : Nat} {st : Nat → X} {ev : Nat → XEv} (x : XExec S prog N st ev) {k : Nat} (hk : k ≤ N) :
    XExec S prog k st ev := ⟨x.init, fun j hj => x.step j (by omega)⟩

/-! ## Together with puts and barriers -/

/-- **C99** PE `s` puts data into the source of the root, all PEs pass a barrier, the root broadcasts: every member that has returned from the
broadcast has the data PE `s` had when it called put. Missing: bytes of a space without dynamic windows, puts on contexts (`hc'`, `C65`); counts
of 2^31 and more. -/
theorem C99_put_broadcast_partial {S : Sys} {prog : Nat → Nat → Op} {N : Nat} {st : Nat → X} {ev : Nat → XEv} (x : XExec S prog N st ev)
    {i : Nat × Nat} {p e t : Nat} (hsp : Span N ev i p e t) {fn : CFn} (hf : fn.Exists) {cts n me : Nat} (hme : me < n) {hs : List Team.Split}
    {hd : Nat → Team.Handle} {o : Team.Obj} (h : Team.Holds n me hs o) (ht : OnTeam cts n hs hd o.comm) {root rp : Nat}
    (hroot : o.comm[root]? = some rp) (src dst : Nat → Int) {len : Nat} (hc : len < 2 ^ 31)
    (ha : overlap (src rp) (dst rp) (len * fn.elem) = false) (hp : p ∈ o.comm)
    (hprog : prog i.1 i.2 = fun me => broadcastT fn cts n hd me root src dst len)
    {s k0 : Nat} {nbi : Bool} {ctx : Option (Nat × Nat)} {addr : BitVec 64} {xs : List (Int × Int)} {ep er y : Nat} (hy : y < len * fn.elem)
    (hk0 : k0 < er) (hput : ev k0 = .vis (.put s rp nbi ctx addr xs ep)) (her : er < N) (hev : ev er = .enter rp i)
    (hrp : rp < S.npes) (hbar : ep < (st er).g.lv rp)
    {z : Int × Int} (hz : z ∈ xs) (hz1 : z.1 = src rp + (y : Int)) (hu : ∀ w ∈ xs, w.1 = z.1 → w = z) (hn : NoWriter (st k0).g (rp, z.1))
    (hk : ∀ k, k0 < k → k < N → (k < er ∨ (st k).loc rp = some i ∧ ∃ w, ev k = .vis w) → ¬ (ev k).writes (rp, z.1))
    (hs' : nbi = true → NoWriter (st k0).g (s, z.2) ∧ ∀ k, k0 ≤ k → k < er → ¬ (ev k).writes (s, z.2))
    (hc' : BarCov (S.cf s) ((S.cf s).rma == .am) ctx addr)
    (hd1 : Stable N st ev i p e (dst p + (y : Int))) (hd2 : ∀ k, t < k → k < N → ¬ (ev k).writes (p, dst p + (y : Int))) :
    (st N).g.mem p (dst p + (y : Int)) = (st k0).g.mem s z.2 := by
  have st0 := x.step k0 (by omega)
  rw [hput] at st0
  have hstep : Step S (st k0).g (.put s rp nbi ctx addr xs ep) (st (k0 + 1)).g := by
    generalize st (k0 + 1) = y at st0
    cases st0 with
    | vis e g' h hp => exact h
  have hrun := x.run (k := k0 + 1) (n := er - (k0 + 1)) (by omega)
  rw [show k0 + 1 + (er - (k0 + 1)) = er by omega] at hrun
  obtain ⟨hv, hq⟩ := C65_barrier_partial (x.reach (by omega : k0 ≤ N)) hstep hrun hz hu hn
    (by
      intro w hw hww
      obtain ⟨j, h1, h2, h3⟩ := mem_evs hw
      exact hk j (by omega) (by omega) (.inl (by omega)) ⟨w, h3, hww⟩)
    (by
      intro hb
      refine ⟨(hs' hb).1, fun w hw hww => ?_⟩
      rcases List.mem_cons.mp hw with rfl | hw
      · exact (hs' hb).2 k0 le_rfl hk0 ⟨_, by rw [hput]; exact List.mem_singleton.mpr rfl, hww⟩
      · obtain ⟨j, h1, h2, h3⟩ := mem_evs hw
        exact (hs' hb).2 j (by omega) (by omega) ⟨w, h3, hww⟩)
    hc' hrp hbar
  obtain ⟨er', her', hev', hres⟩ := (C99_broadcast_partial x hsp hf hme h ht hroot src dst hc ha hp hprog).1 y hy
  have hsame : er' = er := by
    have hN := hsp.le
    -- call `i` is entered once
    have once : ∀ {a b : Nat}, a < b → b < N → ev a = .enter rp i → ev b = .enter rp i → False := by
      intro a b hab hbN h1 h2
      have s1 := x.step a (by omega)
      rw [h1] at s1
      have hi1 := (inv_step s1 (x.inv (by omega))).num rp i (enter_step s1).2.2.2.2.1
      have s2 := x.step b hbN
      rw [h2] at s2
      have hi2 := (enter_step s2).1
      have hm := x.cnt_le (k := a + 1) (l := b) (by omega) (by omega) i.1 rp
      omega
    rcases Nat.lt_trichotomy er' er with h1 | h1 | h1
    · exact (once h1 her hev' hev).elim
    · exact h1
    · exact (once h1 (by omega) hev hev').elim
  subst hsame
  rw [hz1] at hv hq hk
  rw [hres ⟨hq, fun k w h1 h2 h3 h4 h5 => hk k (by omega) h2 (.inr ⟨h3, w, h4⟩) ⟨w, by rw [h4]; exact List.mem_singleton.mpr rfl, h5⟩⟩ hd1 hd2]
  exact hv

end Verif.Joint
