import Verif.Flow.RegisterLive
import Verif.P2p.Props
/-!
# C120: `shmem_wait_until` on a flag set by an atomic routine returns

tests/amo_set_wait_until.c L18-22: PE 0 calls `shmem_int_atomic_set` on a flag of PE 1 and goes on to `shmem_finalize`; PE 1 calls `shmem_int_wait_until`. The
loop of `OSHMPI_WAIT_UNTIL` (`P2p.waitUntil`, C43) reads the word as it is in the executions of C64-C119. Infinite fair executions as in C102.
-/
namespace Verif.Flow
open Verif.Sobj Verif.Rma Verif.Vis Verif.Api
open Verif.Order (St Pend Cfg Op)
open Verif.Amo (TyIdx)
open Verif.P2p (CTy Cmp)

/-! ## Specification -/

/-- the value of a read of `w` bytes at `a` in a wait routine of PE `t` (p2p_impl.h L47-51) -/
def pollVal (t : Nat) (a : Int) (w : Nat) : Ev → Option Nat
  | .poll p x n r => if p = t ∧ x = a ∧ n = w then some r else none
  | .put _ _ _ _ _ _ _ => none | .get _ _ _ _ _ _ _ => none | .amo _ _ _ _ _ _ _ _ => none | .store _ _ _ => none | .touch _ _ => none
  | .call _ _ => none | .enter _ => none | .leave _ => none | .done _ _ _ => none | .tau => none

/-- what PE `t` has read in the wait routine from instant `i` on, before instant `n` -/
def reads {S : Sys} (R : Inf S) (t : Nat) (a : Int) (w i n : Nat) : List Nat := (R.evs i (n - i)).filterMap (pollVal t a w)

/-- the loop of `OSHMPI_WAIT_UNTIL` (p2p_impl.h L47-56) on the values read so far: `some` if it has returned -/
def waited {S : Sys} (R : Inf S) (t : Nat) (a : Int) (w i : Nat) (T : CTy) (op : Int) (b : BitVec T.bits) (n : Nat) : Option (Nat × BitVec T.bits) :=
  P2p.waitUntil T (fun j => BitVec.ofNat _ ((reads R t a w i n).getD j 0)) op b (reads R t a w i n).length

/-- PE `t` has come to `shmem_wait_until` at instant `i`: as long as the loop has not returned, it is in no barrier and stands at the next read of its own
word, whose address the library accepts (p2p_impl.h L41-51) -/
def InWait {S : Sys} (R : Inf S) (t : Nat) (a : Int) (w i : Nat) (T : CTy) (op : Int) (b : BitVec T.bits) : Prop :=
  ∀ n, i ≤ n → waited R t a w i T op b n = none → (R.st n).arr t = (R.st n).lv t ∧ (R.want n t = fun e => ∃ r, e = .poll t a w r) ∧
    ∃ addr r mode, r.toInt = a ∧ (mode = .abs → (S.cf t).dyn = true) ∧ resolve (procs S (R.st n)) (.direct mode) none t t addr = .ok r

/-! ## Proof -/

theorem waitLoop_lt (T : CTy) (obs : Nat → BitVec T.bits) (op : Int) (b : BitVec T.bits) : ∀ fuel i ret k x,
    P2p.waitLoop T obs op b fuel i ret = some (k, x) → k < i + fuel := by
  intro fuel
  induction fuel with
  | zero => intro i ret k x h; cases h
  | succ n ih =>
    intro i ret k x h
    unfold P2p.waitLoop at h
    dsimp only at h
    split at h
    · cases h; omega
    · have := ih _ _ _ _ h
      omega

theorem poll_val {S : Sys} {g g' : G} {t w r : Nat} {a : Int} (h : Step S g (.poll t a w r) g') : r = (Vis.view (g.mem t) a).load 0 w := by
  cases h; rfl

theorem reads_mem {S : Sys} {R : Inf S} {t : Nat} {a : Int} {w i n r : Nat} (h : r ∈ reads R t a w i n) :
    ∃ k, i ≤ k ∧ k < n ∧ R.ev k = some (.poll t a w r) := by
  obtain ⟨e, he, hr⟩ := List.mem_filterMap.1 h
  obtain ⟨k, h1, h2, h3⟩ := R.mem_evs he
  refine ⟨k, h1, by omega, ?_⟩
  cases e with
  | poll p x m r' =>
    simp only [pollVal] at hr
    split at hr
    · rename_i hc
      obtain ⟨rfl, rfl, rfl⟩ := hc
      cases hr
      exact h3
    · cases hr
  | put _ _ _ _ _ _ _ => cases hr
  | get _ _ _ _ _ _ _ => cases hr
  | amo _ _ _ _ _ _ _ _ => cases hr
  | store _ _ _ => cases hr
  | touch _ _ => cases hr
  | call _ _ => cases hr
  | enter _ => cases hr
  | leave _ => cases hr
  | done _ _ _ => cases hr
  | tau => cases hr

theorem reads_succ {S : Sys} {R : Inf S} {t : Nat} {a : Int} {w i k r : Nat} (hk : i ≤ k) (he : R.ev k = some (.poll t a w r)) :
    reads R t a w i (k + 1) = reads R t a w i k ++ [r] := by
  unfold reads Inf.evs
  rw [show k + 1 - i = (k - i) + 1 by omega, List.range'_concat, List.filterMap_append, List.filterMap_append, Nat.one_mul,
    show i + (k - i) = k by omega]
  simp only [List.filterMap_cons, he, List.filterMap_nil, pollVal, and_self, if_true]

section
variable {S : Sys} {R : Inf S} {t : Nat} {a : Int} {ty : TyIdx} {v : Nat}

/-- **C120** (what wait returns with). If the wait has returned, the relation holds for the value read last; it is what the word held at first or `v`. -/
theorem C120_safe (hl : FlagOnly R t a ty v) {i n k : Nat} {T : CTy} (hT : T.bits = 8 * ty.bytes) {c : Cmp} {b x : BitVec T.bits}
    (h : waited R t a ty.bytes i T c.code b n = some (k, x)) : c.rel (T.val x) (T.val b) ∧
      (x = BitVec.ofNat _ v ∨ x = (Vis.wordAt (R.mem t) a ty).cast hT.symm) := by
  obtain ⟨h1, h2, _⟩ := P2p.C43_wait_safe h
  refine ⟨h2, ?_⟩
  have hk : k < (reads R t a ty.bytes i n).length := by
    have := waitLoop_lt _ _ _ _ _ _ _ _ _ h
    omega
  have hm : (reads R t a ty.bytes i n).getD k 0 ∈ reads R t a ty.bytes i n := by
    rw [List.getD_eq_getElem _ _ hk]
    exact List.getElem_mem hk
  obtain ⟨j, _, _, hj⟩ := reads_mem hm
  have hv := poll_val (R.step j _ hj)
  have hx : x.cast hT = Vis.wordAt ((R.st j).mem t) a ty := by
    rw [h1, hv]
    apply BitVec.eq_of_toNat_eq
    rw [BitVec.toNat_cast]
    unfold Vis.wordAt
    rw [BitVec.toNat_ofNat, BitVec.toNat_ofNat, hT]
    rfl
  have back : ∀ z : BitVec (8 * ty.bytes), x.cast hT = z → x = z.cast hT.symm := by
    intro z hz
    rw [← hz]
    apply BitVec.eq_of_toNat_eq
    simp
  rcases seq_from (flag_seq hl j) (fun c hc => (flag_acts hl j c hc).imp id (fun ⟨u, h, _⟩ => ⟨u, h⟩)) with h3 | ⟨c, hc, u, h3, h4⟩
  · exact Or.inr (back _ (hx.trans h3))
  · left
    rw [back _ (hx.trans h4)]
    rcases flag_acts hl j c hc with h5 | ⟨u', h5, h6⟩
    · rw [h5] at h3; cases h3
    · rw [h5] at h3
      cases h3
      rw [h6]
      apply BitVec.eq_of_toNat_eq
      rw [BitVec.toNat_cast, BitVec.toNat_ofNat, BitVec.toNat_ofNat, hT]

/-- **C120** (the wait returns). The word is touched only by atomic reads and atomic writes of `v`; PE `q` has written `v` and comes to a quiet, a fence or a
barrier; PE `t` comes to `shmem_wait_until` for a relation that holds for `v`. In every fair execution the wait returns, with a value for which the relation
holds. Not covered: as in C119. -/
theorem C120_wait_partial (F : R.Fair) (hs : R.Safe) (hl : FlagOnly R t a ty v) {q i i' : Nat} {ctx : Option (Nat × Nat)} {addr : BitVec 64}
    {api : Amo.Api} {ep : Nat} (he : R.ev i = some (.amo q t ctx addr a ty api ep)) (hapi : api = .set v ∨ api = .swap v) (hi : i < i')
    (hc : Completes R t a ty q i') (ht : t < S.npes) {i0 : Nat} {T : CTy} (hT : T.bits = 8 * ty.bytes) {c : Cmp} {b : BitVec T.bits}
    (hw : InWait R t a ty.bytes i0 T c.code b) (hv : c.rel (T.val (BitVec.ofNat _ v)) (T.val b)) :
    ∃ n k x, i0 ≤ n ∧ waited R t a ty.bytes i0 T c.code b n = some (k, x) ∧ c.rel (T.val x) (T.val b) := by
  obtain ⟨j, hj⟩ := C119_arrives_partial F hs hl he hapi hi hc
  by_contra hno
  have hnone : ∀ n, i0 ≤ n → waited R t a ty.bytes i0 T c.code b n = none := by
    intro n hn
    cases h : waited R t a ty.bytes i0 T c.code b n with
    | none => rfl
    | some y => exact absurd ⟨n, y.1, y.2, hn, h, (P2p.C43_wait_safe h).2.1⟩ hno
  obtain ⟨k, e, hk, hev, ho, hwant, _⟩ := C102_issue F hs ht (i := max j i0) (by
    intro m hm _
    obtain ⟨h1, h2, ad, r, mode, h3, h4, h5⟩ := hw m (by omega) (hnone m (by omega))
    refine ⟨.poll t a ty.bytes ((Vis.view ((R.st m).mem t) a).load 0 ty.bytes), (R.st m).clear t, by rw [h2]; exact ⟨_, rfl⟩, rfl, rfl, ?_⟩
    subst h3
    exact Step.poll (g := (R.st m).clear t) t ad r ty.bytes mode ⟨ht, h1, by simp only [G.clear, Function.update_self]⟩ h4 h5)
  have h2 := (hw (max j i0) (by omega) (hnone _ (by omega))).2.1
  rw [h2] at hwant
  obtain ⟨r, rfl⟩ := hwant
  have hr := poll_val (R.step k _ hev)
  have hread := reads_succ (i := i0) (by omega) hev
  have hrv : BitVec.ofNat T.bits r = BitVec.ofNat _ v := by
    have h3 := congrArg BitVec.toNat (hj k (by omega))
    unfold Vis.wordAt at h3
    rw [BitVec.toNat_ofNat, BitVec.toNat_ofNat] at h3
    apply BitVec.eq_of_toNat_eq
    rw [BitVec.toNat_ofNat, BitVec.toNat_ofNat, hT, hr]
    exact h3
  have hnn := hnone (k + 1) (by omega)
  unfold waited at hnn
  rw [hread] at hnn
  obtain ⟨y, _, h4⟩ := P2p.C43_wait_live (t := T) (c := c) (b := b) (n := (reads R t a ty.bytes i0 k).length)
    (obs := fun j => BitVec.ofNat _ ((reads R t a ty.bytes i0 k ++ [r]).getD j 0)) (by
      have : (reads R t a ty.bytes i0 k ++ [r]).getD (reads R t a ty.bytes i0 k).length 0 = r := by simp
      rw [this, hrv]
      exact hv) (fuel := (reads R t a ty.bytes i0 k ++ [r]).length) (by simp)
  rw [h4] at hnn
  cases hnn

end

/-! ## Non-vacuity -/

/-- the calls a PE stands at may be given differently for the beginning of a fair execution -/
theorem rewant {S : Sys} {R : Inf S} (F : R.Fair) (N p : Nat) (W : Ev → Prop)
    (h1 : ∀ i < N + 1, ∀ e, R.ev i = some e → e.own = some p → W e) (h2 : ∃ e, R.ev N = some e ∧ e.own = some p) :
    ∃ R' : Inf S, R'.Fair ∧ R'.mem = R.mem ∧ R'.st = R.st ∧ R'.ev = R.ev ∧ ∀ i q, R'.want i q = if q = p ∧ i < N + 1 then W else R.want i q := by
  refine ⟨⟨R.mem, R.st, R.ev, fun i q => if q = p ∧ i < N + 1 then W else R.want i q, R.start, R.step, R.idle, ?_, ?_⟩, ⟨?_, ?_, F.leave⟩,
    rfl, rfl, rfl, fun _ _ => rfl⟩
  · intro i e q he ho
    split
    · rename_i hc
      exact h1 i hc.2 e he (hc.1 ▸ ho)
    · exact R.does i e q he ho
  · intro i q hm
    by_cases hq : q = p
    · subst hq
      have hne : i ≠ N := by
        rintro rfl
        obtain ⟨e, h3, h4⟩ := h2
        exact hm e h3 h4
      by_cases hi : i < N + 1
      · rw [if_pos ⟨rfl, by omega⟩, if_pos ⟨rfl, hi⟩]
      · rw [if_neg (fun h => by omega), if_neg (fun h => hi h.2)]
        exact R.keeps i q hm
    · rw [if_neg (fun h => hq h.1), if_neg (fun h => hq h.1)]
      exact R.keeps i q hm
  · intro q hq i hb hn
    obtain ⟨j, a, r, hj, h⟩ := F.perf q hq (max i (N + 1)) (fun j hj => by
      have := hb j (by omega)
      dsimp only at this
      rw [if_neg (fun h => by omega)] at this
      exact this) (fun j hj => hn j (by omega))
    exact ⟨j, a, r, by omega, h⟩
  · intro q hq i hb
    obtain ⟨j, e, hj, h⟩ := F.pe q hq (max i (N + 1)) (fun j hj => by
      have := hb j (by omega)
      dsimp only at this
      rw [if_neg (fun h => by omega)] at this
      exact this)
    exact ⟨j, e, by omega, h⟩

namespace AEx

/-- the states -/
def wSt : Nat → G
  | 0 => ginit exM
  | 1 => ginit exM
  | 2 => fG1
  | 3 => fG2
  | _ + 4 => fG3

/-- what PE 1 reads -/
def wRd (m : Mems) : Nat := (Vis.view (m 1) 0x20018).load 0 8

/-- the events: PE 1 reads the flag, PE 0 sets it and calls quiet, PE 1 reads it again -/
def wL : List Ev :=
  [.poll 1 0x20018 8 (wRd exM), .amo 0 1 none 0x10018#64 0x20018 .long (.set 7) 0, .done 0 (exU (.set 7)) (exRes exM (.set 7)), .call 0 (.quiet none),
   .poll 1 0x20018 8 (wRd (exMem exM (.set 7)))]

theorem wProcs (i : Nat) : procs (exS true) (wSt i) = procs (exS true) (ginit exM) := by
  match i with
  | 0 => rfl
  | 1 => rfl
  | 2 =>
    funext q
    show (exCf true q).proc (Function.update (fun _ => Order.init) 0 exPd q) = (exCf true q).proc Order.init
    rw [upd_at]
    split <;> rfl
  | 3 =>
    funext q
    show (exCf true q).proc (Function.update (fun _ => Order.init) 0 exPd q) = (exCf true q).proc Order.init
    rw [upd_at]
    split <;> rfl
  | i + 4 =>
    show procs (exS true) fG3 = _
    funext q; unfold procs; rw [fPe]; rfl

theorem wRes (i : Nat) : resolve (procs (exS true) (wSt i)) (.direct .rel) none 1 1 0x20018#64 = .ok 0x20018#64 := by
  rw [wProcs]; decide +kernel

/-- PE 1 waits until its flag is 7, PE 0 sets it to 7 and calls quiet: the hypotheses of `C120_wait_partial` and `C120_safe` are met; the first read of the
wait gives 0, so it goes on. -/
example : ∃ R : Inf (exS true), R.Fair ∧ InWait R 1 0x20018 8 0 ⟨64, true⟩ Cmp.eq.code 7 ∧ waited R 1 0x20018 8 0 ⟨64, true⟩ Cmp.eq.code 7 1 = none ∧
    reads R 1 0x20018 8 0 1 = [0] ∧ ∃ n k x, waited R 1 0x20018 8 0 ⟨64, true⟩ Cmp.eq.code 7 n = some (k, x) ∧ x = 7 := by
  have hst : ∀ i e, wL[i]? = some e → Step (exS true) (wSt i) e (wSt (i + 1)) := by
    intro i e h
    match i, h with
    | 0, h =>
      cases h
      exact Step.poll (S := exS true) (g := ginit exM) 1 0x20018#64 0x20018#64 8 .rel ⟨by decide, rfl, rfl⟩ (fun h => by cases h) (wRes 0)
    | 1, h => cases h; exact fStep1
    | 2, h => cases h; exact fStep2
    | 3, h => cases h; exact fStep3
    | 4, h =>
      cases h
      exact Step.poll (S := exS true) (g := fG3) 1 0x20018#64 0x20018#64 8 .rel ⟨by decide, rfl, rfl⟩ (fun h => by cases h) (wRes 4)
    | i + 5, h => cases h
  have hend : ∀ i, wL.length ≤ i → wSt i = fG3 := by
    intro i h
    obtain ⟨d, rfl⟩ := Nat.exists_eq_add_of_le' (show 5 ≤ i from h)
    rfl
  have hfl : ∀ q, fG3.busy q = [] ∧ fG3.fly q = [] := by
    intro q
    by_cases h0 : q = 0
    · subst h0; exact ⟨rfl, rfl⟩
    · constructor
      · show Function.update (Function.update (fun _ => []) 0 []) 0 [] q = []
        simp only [upd_at, if_neg h0]
      · show Function.update (Function.update (Function.update (ginit exM).fly 0 _) 0 _) 0 _ q = []
        simp only [upd_at, if_neg h0]
        rfl
  have hset : Vis.Settled fG3 := by
    rintro a ⟨q, own, ⟨x, hx, _, ha⟩ | ⟨_, ha⟩⟩
    · rw [(hfl q).2] at hx; cases hx
    · rw [(hfl q).1] at ha; cases ha
  obtain ⟨R0, hF0, hm0, hev0, hwant0, hS0⟩ := states_fair (S := exS true) (m := exM) (l := wL) (st := wSt) (g := fG3) rfl hst hend hset (fun p _ => rfl)
  obtain ⟨R, hF, hm, hS, hev, hwant⟩ := rewant hF0 4 1 (fun e => ∃ r, e = .poll 1 0x20018 8 r) (by
    intro i hi e he ho
    rw [hev0] at he
    match i, he with
    | 0, he => cases he; exact ⟨_, rfl⟩
    | 1, he => cases he; cases ho
    | 2, he => cases he; cases ho
    | 3, he => cases he; cases ho
    | 4, he => cases he; exact ⟨_, rfl⟩
    | i + 5, he => cases he) ⟨_, by rw [hev0]; rfl, rfl⟩
  rw [hS0] at hS
  rw [hm0] at hm
  have hev : ∀ i, R.ev i = wL[i]? := fun i => by rw [hev, hev0]
  have hin : ∀ i e, R.ev i = some e → e ∈ wL := fun i e h => by rw [hev] at h; exact List.mem_of_getElem? h
  have hsafe : R.Safe := by
    intro i e he
    have := hin i e he
    simp only [wL, List.mem_cons, List.not_mem_nil, or_false] at this
    rcases this with rfl | rfl | rfl | rfl | rfl
    · trivial
    · exact Or.inl rfl
    · trivial
    · trivial
    · trivial
  have hl : FlagOnly R 1 0x20018 .long 7 := by
    intro j e he ht
    have := hin j e he
    simp only [wL, List.mem_cons, List.not_mem_nil, or_false] at this
    rcases this with rfl | rfl | rfl | rfl | rfl
    · obtain ⟨_, _, _, h⟩ := ht; exact absurd h (fun h => h)
    · exact ⟨_, _, _, _, _, rfl, Or.inr (Or.inl rfl)⟩
    · obtain ⟨_, _, _, h⟩ := ht; exact absurd h (fun h => h)
    · obtain ⟨_, _, _, h⟩ := ht; exact absurd h (fun h => h)
    · obtain ⟨_, _, _, h⟩ := ht; exact absurd h (fun h => h)
  have h1 : R.ev 1 = some (.amo 0 1 none 0x10018#64 0x20018 .long (.set 7) 0) := by rw [hev]; rfl
  have hc : Completes R 1 0x20018 .long 0 3 := by
    refine ⟨by rw [hS]; rfl, Or.inl ⟨.quiet none, ?_, Or.inl rfl, ?_⟩⟩
    · unfold AtCall
      rw [hwant, if_neg (fun h => absurd h.1 (by decide))]
      funext e
      apply propext
      rw [hwant0, show nextOwn (wL.drop 3) 0 = some (.call 0 (.quiet none)) from rfl]
      exact ⟨fun h => (Option.some.inj h).symm, fun h => congrArg some h.symm⟩
    · intro x hx
      rw [hS] at hx
      have hx : x ∈ (exPd).spaces := hx
      cases hx
  have hr0 : wRd exM = 0 := by decide +kernel
  have hr1 : wRd (exMem exM (.set 7)) = 7 := by decide +kernel
  have hread : ∀ n, 5 ≤ n → reads R 1 0x20018 8 0 n = [0, 7] := by
    intro n hn
    obtain ⟨d, rfl⟩ := Nat.exists_eq_add_of_le' hn
    unfold reads Inf.evs
    rw [Nat.sub_zero, Nat.add_comm d 5, ← List.range'_append_1 (s := 0) (m := 5) (n := d), List.filterMap_append, List.filterMap_append]
    have e2 : (List.range' (0 + 5) d).filterMap R.ev = [] := by
      rw [List.filterMap_eq_nil_iff]
      intro i hi
      have := (List.mem_range'_1.1 hi).1
      rw [hev, List.getElem?_eq_none_iff]
      exact this
    rw [e2]
    have e1 : (List.range' 0 5).filterMap R.ev = wL := by
      rw [show R.ev = fun i => wL[i]? from funext hev]; rfl
    rw [e1]
    unfold wL
    rw [hr0, hr1]
    rfl
  have hfin : ∀ n, 5 ≤ n → waited R 1 0x20018 8 0 ⟨64, true⟩ Cmp.eq.code 7 n = some (1, 7) := by
    intro n hn
    unfold waited
    rw [hread n hn]
    decide
  have hw : InWait R 1 0x20018 8 0 ⟨64, true⟩ Cmp.eq.code 7 := by
    intro n _ hno
    have hn : n < 5 := by
      by_contra h
      rw [hfin n (by omega)] at hno
      cases hno
    refine ⟨?_, by rw [hwant, if_pos ⟨rfl, hn⟩], 0x20018#64, 0x20018#64, .rel, by decide, fun h => (by cases h), by rw [hS]; exact wRes n⟩
    rw [hS]
    match n, hn with
    | 0, _ => rfl
    | 1, _ => rfl
    | 2, _ => rfl
    | 3, _ => rfl
    | 4, _ => rfl
    | n + 5, h => omega
  have hread1 : reads R 1 0x20018 8 0 1 = [0] := by
    have := reads_succ (R := R) (i := 0) (k := 0) (t := 1) (a := 0x20018) (w := 8) (r := 0) (Nat.le_refl _) (by rw [hev, ← hr0]; rfl)
    rw [this]; rfl
  refine ⟨R, hF, hw, by unfold waited; rw [hread1]; decide, hread1, ?_⟩
  obtain ⟨n, k, x, _, h2, _⟩ := C120_wait_partial hF hsafe hl h1 (Or.inl rfl) (by decide) hc (by decide) (T := ⟨64, true⟩) rfl (c := .eq) (b := 7) hw rfl
  obtain ⟨h3, h4⟩ := C120_safe hl (T := ⟨64, true⟩) rfl h2
  refine ⟨n, k, x, h2, ?_⟩
  rcases h4 with h4 | h4
  · exact h4
  · exfalso
    have hz : Vis.wordAt (R.mem 1) 0x20018 .long = 0 := by rw [hm]; decide +kernel
    rw [hz] at h4
    subst h4
    have h3 : (0 : BitVec 64).toInt = (7 : BitVec 64).toInt := h3
    exact absurd h3 (by decide)

end AEx

end Verif.Flow
