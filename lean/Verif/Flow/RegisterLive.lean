import Verif.Flow.Register
import Verif.Vis.FairProps
/-!
# C119: a flag set by an atomic routine is seen

tests/amo_set_fetch.c L18-22: PE 0 calls `shmem_int_atomic_set` on a flag of PE 1 and goes on to `shmem_finalize` (whose barrier it cannot leave before PE 1
comes); PE 1 calls `shmem_int_atomic_fetch` until the flag is set. Infinite fair executions as in C102.
-/
namespace Verif.Flow
open Verif.Sobj Verif.Rma Verif.Vis Verif.Api
open Verif.Order (St Pend Cfg Op)
open Verif.Amo (TyIdx)

/-! ## Specification -/

/-- the word of PE `t` at `a` is touched only by AMOs of its type that read it or write `v` -/
def FlagOnly {S : Sys} (R : Inf S) (t : Nat) (a : Int) (ty : TyIdx) (v : Nat) : Prop :=
  ∀ j e, R.ev j = some e → e.touches t a ty → ∃ p ctx addr api ep, e = .amo p t ctx addr a ty api ep ∧ (api = .fetch ∨ api = .set v ∨ api = .swap v)

/-- PE `q` comes, at instant `i`, to a call that completes what it has written: quiet or fence (with spaces in a state in which the code's quiet returns,
C56), or a barrier if its calls on the word so far are of the kind the code's barrier completes (C30, C65) -/
def Completes {S : Sys} (R : Inf S) (t : Nat) (a : Int) (ty : TyIdx) (q i : Nat) : Prop := (R.st i).arr q = (R.st i).lv q ∧
  ((∃ op, AtCall R i q op ∧ (op = .quiet none ∨ op = .fence none) ∧ ∀ x ∈ ((R.st i).pe q).spaces, x.att = true ∨
      (x.nctx = 0 ∧ ((S.cf q).dyn = true ∨ ((S.cf q).tracking = true ∧ x.dflt.flag = false)))) ∨
   (AtBarrier R i q ∧ ∀ j ctx addr api ep, R.ev j = some (.amo q t ctx addr a ty api ep) → BarCov (S.cf q) (!(S.cf q).amoDirect) ctx addr))

/-! ## Proof -/

theorem mem_acts {t : Nat} {a : Int} {ty : TyIdx} {l : List Ev} {q r : Nat} {api : Amo.Api} {am : Bool}
    (h : Ev.done q (.upd t a ty api am) r ∈ l) : (q, api, r) ∈ acts t a ty l := by
  obtain ⟨l1, l2, rfl⟩ := List.append_of_mem h
  rw [acts_append]
  refine List.mem_append_right _ ?_
  simp only [acts, and_self, if_true]
  exact List.mem_cons_self ..

/-- nothing of PE `q` writes the word -/
theorem inFlight_none {g : G} {q t : Nat} {a : Int} {ty : TyIdx} (P : Amo.Api → Bool) (h : ∀ b own, At g b q own → ¬ b.writes (t, a)) :
    inFlight q (fun i => decide (i.t = t ∧ i.a = a ∧ i.ty = ty) && P i.api) g = 0 := by
  have key : ∀ b own, At g b q own → b.is (fun i => decide (i.t = t ∧ i.a = a ∧ i.ty = ty) && P i.api) = false := by
    intro b own hb
    cases b with
    | set d a' v => rfl
    | mv s sa d a' => rfl
    | upd d a' ty' op am =>
      simp only [Atom.is, Bool.and_eq_false_iff, decide_eq_false_iff_not]
      left
      rintro ⟨rfl, rfl, rfl⟩
      have := bytes_pos ty'
      exact h _ own hb ⟨rfl, le_refl _, by dsimp only; omega⟩
  unfold inFlight
  rw [Nat.add_eq_zero_iff]
  constructor
  · refine List.sum_eq_zero fun c hc => ?_
    obtain ⟨x, hx, rfl⟩ := List.mem_map.1 hc
    rw [List.countP_eq_zero]
    intro b hb
    rw [key b _ (Or.inl ⟨x, hx, rfl, hb⟩)]
    exact Bool.false_ne_true
  · rw [List.countP_eq_zero]
    intro b hb
    rw [key b _ (Or.inr ⟨rfl, hb⟩)]
    exact Bool.false_ne_true

/-- what a PE called before its last barrier, of the kind a barrier completes, is not in flight -/
theorem own_settled {S : Sys} {m : Mems} {l : List Ev} {g : G} (h : Run S (ginit m) l g) {k : Nat × Int} {q : Nat}
    (hl : ∀ e ∈ l, e.writes k → ∀ ep, e.src = some (q, ep) → e.Settled S (g.arr q)) : ∀ b own, At g b q own → ¬ b.writes k := by
  have h0 := gi_init S m
  have hi := gi_run h0 h
  have ht : Traced S k l g := by
    have := traced_run (l := []) h0 (fun a r own ha hk => absurd hk (noWriter_init m k a ⟨r, own, ha⟩)) h
    simpa using this
  intro b own ha hk
  obtain ⟨e, he, hw, ep, hsrc, hL⟩ := ht b q own ha hk
  rcases hL _ (hl e he hw ep hsrc) with ⟨pd, ho, h1, h2⟩ | ⟨_, h1⟩
  · rcases ha with ⟨x, hx, ho', _⟩ | ⟨hn, _⟩
    · rw [ho'] at ho
      cases ho
      have := hi.cov q _ (hi.fly q x hx) h2
      omega
    · rw [ho] at hn; cases hn
  · omega

theorem amo_ep {S : Sys} {g g' : G} {p t : Nat} {ctx : Option (Nat × Nat)} {addr : BitVec 64} {a : Int} {ty : TyIdx} {op : Amo.Api} {ep : Nat}
    (h : Step S g (.amo p t ctx addr a ty op ep) g') : ep = g.arr p := by
  cases h with
  | amo p tgt ctx addr r' ty api gpu mode s' hf hm hty hk e hr' d => rfl
  | amoRet p tgt ctx addr r' ty api gpu mode s' hf hm hty hk e hr' d => rfl

section
variable {S : Sys} {R : Inf S} {t : Nat} {a : Int} {ty : TyIdx} {v : Nat}

theorem flag_only (hl : FlagOnly R t a ty v) (n : Nat) : OnlyBy t a ty (fun api => api = .fetch ∨ api = .set v ∨ api = .swap v) (R.evs 0 n) := by
  intro e he ht
  obtain ⟨j, _, _, h⟩ := R.mem_evs he
  exact hl j e h ht

theorem inf_run0 (n : Nat) : Run S (ginit R.mem) (R.evs 0 n) (R.st n) := by
  have := R.run 0 n
  rw [R.start, Nat.zero_add] at this
  exact this

theorem flag_seq (hl : FlagOnly R t a ty v) (n : Nat) :
    Seq (Vis.wordAt ((ginit R.mem).mem t) a ty) (acts t a ty (R.evs 0 n)) (Vis.wordAt ((R.st n).mem t) a ty) :=
  C73_linear (inf_run0 n) (fun y _ _ => noWriter_init _ _) (only_amo (flag_only hl n))

theorem flag_acts (hl : FlagOnly R t a ty v) (n : Nat) : ∀ c ∈ acts t a ty (R.evs 0 n), c.2.1 = .fetch ∨ ∃ u, wrOp c.2.1 = some u ∧
    BitVec.ofNat (8 * ty.bytes) u = BitVec.ofNat _ v := by
  intro c hc
  rcases only_acts (inf_run0 n) (fun y _ _ => noWriter_init _ _) (flag_only hl n) c hc with h | h | h
  · exact Or.inl h
  · exact Or.inr ⟨v, by rw [h]; rfl, rfl⟩
  · exact Or.inr ⟨v, by rw [h]; rfl, rfl⟩

/-- the call that completes returns; then nothing of the PE is left on the word -/
theorem completed (F : R.Fair) (hs : R.Safe) (hl : FlagOnly R t a ty v) {q i : Nat} (hq : q < S.npes) (hc : Completes R t a ty q i) :
    ∃ j, i ≤ j ∧ ∀ b own, At (R.st (j + 1)) b q own → ¬ b.writes (t, a) := by
  obtain ⟨hb, ⟨op, hw, hop, hsp⟩ | ⟨hw, hcov⟩⟩ := hc
  · obtain ⟨j, hj, he⟩ := C102_quiet_partial F hs hq hw hop hb hsp
    have hz := quiet_step (gi_reach (R.reach j)) hop (R.step j _ he)
    refine ⟨j, hj, fun b own hat => ?_⟩
    rcases hat with ⟨x, hx, _⟩ | ⟨_, hb⟩
    · rw [hz.1] at hx; cases hx
    · rw [hz.2] at hb; cases hb
  · obtain ⟨j, hj, he⟩ := C102_enter F hs hq hw hb
    refine ⟨j, hj, own_settled (inf_run0 (j + 1)) (fun e hin hw ep hsrc => ?_)⟩
    obtain ⟨m, _, m2, m3⟩ := R.mem_evs hin
    have hpos := bytes_pos ty
    obtain ⟨p, ctx, addr, api, ep', rfl, _⟩ := hl m e m3 ⟨a, le_refl _, by omega, hw⟩
    simp only [Ev.src, Option.some.injEq, Prod.mk.injEq] at hsrc
    obtain ⟨rfl, rfl⟩ := hsrc
    refine ⟨?_, hcov m _ _ _ _ m3⟩
    have h1 := amo_ep (R.step m _ m3)
    have h2 := enter_arr (R.step j _ he)
    have h3 : (R.st m).arr p ≤ (R.st j).arr p := R.arr_mono' (by omega)
    omega

/-- **C119** (the flag arrives). A word is touched only by atomic reads and atomic writes of `v`; PE `q` has written `v` and comes to a quiet, a fence or a
barrier. In every fair execution there is an instant from which on the word holds `v`, though nobody else enters the barrier. Not covered: spaces in a state in
which quiet does not return (C56), and for a barrier the calls the code's barrier does not complete (C30). -/
theorem C119_arrives_partial (F : R.Fair) (hs : R.Safe) (hl : FlagOnly R t a ty v) {q i i' : Nat} {ctx : Option (Nat × Nat)} {addr : BitVec 64}
    {api : Amo.Api} {ep : Nat} (he : R.ev i = some (.amo q t ctx addr a ty api ep)) (hapi : api = .set v ∨ api = .swap v) (hi : i < i')
    (hc : Completes R t a ty q i') : ∃ j, ∀ k, j ≤ k → Vis.wordAt ((R.st k).mem t) a ty = BitVec.ofNat _ v := by
  have hq : q < S.npes := (own_free (R.step i _ he) rfl).1
  obtain ⟨j, hj, hz⟩ := completed F hs hl hq hc
  refine ⟨j + 1, fun k hk => ?_⟩
  -- a write has been performed
  have hcr := count_run q (fun i => decide (i.t = t ∧ i.a = a ∧ i.ty = ty) && decide ((wrOp i.api).isSome)) (inf_run0 (R := R) (j + 1))
  rw [inFlight_none (fun o => decide ((wrOp o).isSome)) hz, inFlight_none (fun o => decide ((wrOp o).isSome)) (fun b own hat => noWriter_init _ _ b ⟨q, own, hat⟩)] at hcr
  have hpos : 0 < (R.evs 0 (j + 1)).countP (Ev.isCall q fun i => decide (i.t = t ∧ i.a = a ∧ i.ty = ty) && decide ((wrOp i.api).isSome)) := by
    rw [List.countP_pos_iff]
    refine ⟨_, R.evs_mem (i := 0) (Nat.zero_le i) (by omega) he, ?_⟩
    rcases hapi with rfl | rfl <;> simp [Ev.isCall, wrOp]
  have hpos' : 0 < (R.evs 0 (j + 1)).countP (Ev.isDone q fun i => decide (i.t = t ∧ i.a = a ∧ i.ty = ty) && decide ((wrOp i.api).isSome)) := by omega
  obtain ⟨e, hin, hd⟩ := List.countP_pos_iff.1 hpos'
  have hact : ∃ c ∈ acts t a ty (R.evs 0 k), (wrOp c.2.1).isSome := by
    obtain ⟨m, _, m2, m3⟩ := R.mem_evs hin
    cases e with
    | done q' b r =>
      cases b with
      | upd d a' ty' op am =>
        simp only [Ev.isDone, Atom.is, Bool.and_eq_true, decide_eq_true_eq] at hd
        obtain ⟨rfl, ⟨rfl, rfl, rfl⟩, hw⟩ := hd
        exact ⟨_, mem_acts (R.evs_mem (i := 0) (Nat.zero_le m) (by omega) m3), hw⟩
      | set _ _ _ => simp [Ev.isDone, Atom.is] at hd
      | mv _ _ _ _ => simp [Ev.isDone, Atom.is] at hd
    | amo _ _ _ _ _ _ _ _ => cases hd
    | put _ _ _ _ _ _ _ => cases hd
    | get _ _ _ _ _ _ _ => cases hd
    | store _ _ _ => cases hd
    | poll _ _ _ _ => cases hd
    | touch _ _ => cases hd
    | call _ _ => cases hd
    | enter _ => cases hd
    | leave _ => cases hd
    | tau => cases hd
  obtain ⟨c, c1, c2⟩ := hact
  refine seq_hit (flag_seq hl k) _ (flag_acts hl k) ⟨c, c1, ?_⟩
  rcases flag_acts hl k c c1 with h | h
  · rw [h] at c2; cases c2
  · exact h

/-- what a read returns is what the word holds -/
theorem flag_read (hl : FlagOnly R t a ty v) {k p r : Nat} {am : Bool} (he : R.ev k = some (.done p (.upd t a ty .fetch am) r)) :
    r = (Vis.wordAt ((R.st k).mem t) a ty).toNat := by
  have h1 := flag_seq hl (k + 1)
  have e : R.evs 0 (k + 1) = R.evs 0 k ++ [.done p (.upd t a ty .fetch am) r] := by
    unfold Inf.evs
    rw [List.range'_concat, List.filterMap_append, Nat.one_mul, Nat.zero_add]
    simp only [List.filterMap_cons, he, List.filterMap_nil]
  rw [e, acts_append] at h1
  obtain ⟨y, s1, s2⟩ := seq_split h1
  have hy := seq_det s1 (flag_seq hl k)
  subst hy
  simp only [acts, and_self, if_true] at s2
  cases s2 with
  | cons h _ =>
    obtain ⟨h2, h3⟩ := h _ rfl
    rw [← h2, BitVec.toNat_ofNat, Nat.mod_eq_of_lt h3]

/-- **C119** (reads see it): from some instant on every atomic fetch of the word, by any PE, returns `v` -/
theorem C119_fetch_partial (F : R.Fair) (hs : R.Safe) (hl : FlagOnly R t a ty v) {q i i' : Nat} {ctx : Option (Nat × Nat)} {addr : BitVec 64}
    {api : Amo.Api} {ep : Nat} (he : R.ev i = some (.amo q t ctx addr a ty api ep)) (hapi : api = .set v ∨ api = .swap v) (hi : i < i')
    (hc : Completes R t a ty q i') : ∃ j, ∀ k p am r, j ≤ k → R.ev k = some (.done p (.upd t a ty .fetch am) r) →
      r = (BitVec.ofNat (8 * ty.bytes) v).toNat := by
  obtain ⟨j, hj⟩ := C119_arrives_partial F hs hl he hapi hi hc
  exact ⟨j, fun k p am r hk h => by rw [flag_read hl h, hj k hk]⟩

/-- a fetch that was called is performed -/
theorem fetch_answered (F : R.Fair) (hs : R.Safe) {p k : Nat} {ctx : Option (Nat × Nat)} {addr : BitVec 64} {ep : Nat}
    (he : R.ev k = some (.amo p t ctx addr a ty .fetch ep)) : ∃ k' am r, k < k' ∧ R.ev k' = some (.done p (.upd t a ty .fetch am) r) := by
  have hp : p < S.npes := (own_free (R.step k _ he) rfl).1
  obtain ⟨⟨am, hb⟩, _⟩ := amo_busy (R.step k _ he) rfl
  obtain ⟨j, hj, hfree⟩ := C102_blocking F hs hp (k + 1)
  by_contra hno
  have : ∀ d, (R.st (k + 1 + d)).busy p = [.upd t a ty .fetch am] := by
    intro d
    induction d with
    | zero => exact hb
    | succ d ih =>
      cases hev : R.ev (k + 1 + d) with
      | none => rw [← Nat.add_assoc, R.idle _ hev]; exact ih
      | some e =>
        rcases busy_step ih (R.step _ e hev) with h1 | ⟨h1, _, _⟩
        · exact h1.1
        · exact absurd ⟨k + 1 + d, am, _, by omega, by rw [hev, h1]⟩ hno
  have h1 := this (j - (k + 1))
  rw [show k + 1 + (j - (k + 1)) = j by omega, hfree] at h1
  cases h1

/-- **C119** (the loop ends). PE `p` calls atomic fetch on the word as long as it has not got `v` (tests/amo_set_fetch.c L21: `while (fetch(...) != 1);`). In
every fair execution in which `q` writes `v` and comes to a completing call, `p` gets `v`. -/
theorem C119_loop_partial (F : R.Fair) (hs : R.Safe) (hl : FlagOnly R t a ty v) {q i i' : Nat} {ctx : Option (Nat × Nat)} {addr : BitVec 64}
    {api : Amo.Api} {ep : Nat} (he : R.ev i = some (.amo q t ctx addr a ty api ep)) (hapi : api = .set v ∨ api = .swap v) (hi : i < i')
    (hc : Completes R t a ty q i') {p : Nat} (hp : p < S.npes)
    (hloop : ∀ n, (R.st n).busy p = [] →
      (∀ k < n, ∀ am r, R.ev k = some (.done p (.upd t a ty .fetch am) r) → r ≠ (BitVec.ofNat (8 * ty.bytes) v).toNat) →
      ∃ k ctx addr ep, n ≤ k ∧ R.ev k = some (.amo p t ctx addr a ty .fetch ep)) :
    ∃ k am, R.ev k = some (.done p (.upd t a ty .fetch am) (BitVec.ofNat (8 * ty.bytes) v).toNat) := by
  by_contra hno
  obtain ⟨j, hj⟩ := C119_fetch_partial F hs hl he hapi hi hc
  obtain ⟨n, hn, hfree⟩ := C102_blocking F hs hp j
  obtain ⟨k, ctx, addr, ep, hk, hev⟩ := hloop n hfree (fun k _ am r h hr => hno ⟨k, am, by rw [h, hr]⟩)
  obtain ⟨k', am, r, hk', h⟩ := fetch_answered F hs hev
  exact hno ⟨k', am, by rw [h, hj k' p am r (by omega) h]⟩

end

/-! ## Non-vacuity -/

namespace AEx

/-- PE 0 has called `shmem_long_atomic_set(flag, 7, 1)` -/
def fG1 : G := after (ginit exM) 0 exPd [exU (.set 7)]
/-- it has been performed -/
def fG2 : G := { fG1 with mem := exMem exM (.set 7), fly := Function.update fG1.fly 0 ([] ++ ⟨⟨.win 1, 1, none, .heap, 0⟩, [] ++ []⟩ :: []) }
/-- PE 0 has called `shmem_quiet` -/
def fG3 : G := after fG2 0 Order.init []
/-- PE 1 has called `shmem_long_atomic_fetch(flag, 1)` -/
def fG4 : G := afterRet fG3 1 Order.init [exU .fetch]
/-- and it has returned -/
def fG5 : G := { fG4 with mem := exMem (exMem exM (.set 7)) .fetch, busy := Function.update fG4.busy 1 ([] ++ []) }

theorem fStep1 : Step (exS true) (ginit exM) (.amo 0 1 none 0x10018#64 0x20018 .long (.set 7) 0) fG1 :=
  Step.amo (S := exS true) (g := ginit exM) 0 1 none 0x10018#64 0x20018#64 .long (.set 7) true .rel exPd
    ⟨Nat.zero_lt_succ _, rfl, rfl⟩ (fun h => by cases h) (by decide : Amo.TyIdx.long ∈ Amo.extTypes) rfl rfl (by decide +kernel) (done_nil rfl)

theorem fStep2 : Step (exS true) fG1 (.done 0 (exU (.set 7)) (exRes exM (.set 7))) fG2 :=
  Step.perform (S := exS true) (g := fG1) 0 [] [] ⟨.win 1, 1, none, .heap, 0⟩ [] [] (exU (.set 7)) (exMem exM (.set 7)) (Nat.zero_lt_succ _) rfl rfl

theorem fStep3 : Step (exS true) fG2 (.call 0 (.quiet none)) fG3 :=
  Step.call (S := exS true) (g := fG2) 0 (.quiet none) Order.init ⟨Nat.zero_lt_succ _, rfl, rfl⟩ trivial (by rintro _ _ _ _ _ _ h; cases h) rfl
    (done_empty (fun x hx => by
      have hx : x ∈ [(⟨⟨.win 1, 1, none, .heap, 0⟩, []⟩ : Fly)] := hx
      rw [List.mem_singleton.1 hx]))

theorem fPe : fG3.pe = fun _ => Order.init := by
  funext q
  show Function.update (Function.update (fun _ => Order.init) 0 exPd) 0 Order.init q = _
  rw [upd_at]
  split
  · rfl
  · rename_i h; rw [upd_at, if_neg h]

theorem fStep4 : Step (exS true) fG3 (.amo 1 1 none 0x20018#64 0x20018 .long .fetch 0) fG4 :=
  Step.amoRet (S := exS true) (g := fG3) 1 1 none 0x20018#64 0x20018#64 .long .fetch true .rel Order.init
    ⟨by decide, rfl, rfl⟩ (fun h => by cases h) (by decide) rfl (by rw [fPe]; rfl)
    (by
      have : procs (exS true) fG3 = procs (exS true) (ginit exM) := by funext q; unfold procs; rw [fPe]; rfl
      rw [this, fPe]; decide +kernel) (done_nil rfl)

theorem fStep5 : Step (exS true) fG4 (.done 1 (exU .fetch) (exRes (exMem exM (.set 7)) .fetch)) fG5 :=
  Step.performBusy (S := exS true) (g := fG4) 1 [] [] (exU .fetch) (exMem (exMem exM (.set 7)) .fetch) (by decide) rfl rfl
/-- the states -/
def fSt : Nat → G
  | 0 => ginit exM
  | 1 => fG1
  | 2 => fG2
  | 3 => fG3
  | 4 => fG4
  | _ + 5 => fG5

/-- the events -/
def fL : List Ev :=
  [.amo 0 1 none 0x10018#64 0x20018 .long (.set 7) 0, .done 0 (exU (.set 7)) (exRes exM (.set 7)), .call 0 (.quiet none),
   .amo 1 1 none 0x20018#64 0x20018 .long .fetch 0, .done 1 (exU .fetch) (exRes (exMem exM (.set 7)) .fetch)]

theorem fFly : ∀ q, fG5.busy q = [] ∧ ∀ x ∈ fG5.fly q, x.todo = [] := by
  intro q
  constructor
  · show Function.update (Function.update (Function.update (Function.update (fun _ => []) 0 []) 0 []) 1 [exU .fetch]) 1 ([] ++ []) q = []
    simp only [upd_at]
    split
    · rfl
    · split <;> rfl
  · intro x hx
    by_cases h1 : q = 1
    · subst h1
      have hx : x ∈ ([] : List Fly) := hx
      cases hx
    · by_cases h0 : q = 0
      · subst h0
        have hx : x ∈ ([] : List Fly) := hx
        cases hx
      · have e : fG5.fly q = [] := by
          show Function.update (Function.update (Function.update (Function.update (ginit exM).fly 0 _) 0 _) 0 _) 1 _ q = []
          simp only [upd_at, if_neg h0, if_neg h1]
          rfl
        rw [e] at hx
        cases hx

/-- PE 0 sets the flag of PE 1 to 7 and calls quiet, PE 1 fetches the flag until it is 7: a fair execution; the flag is 7 in the end, and PE 1 has read 7.
The hypotheses of `C119_arrives_partial`, `C119_fetch_partial` and `C119_loop_partial` are met. -/
example : ∃ R : Inf (exS true), R.Fair ∧ Vis.wordAt ((R.st 0).mem 1) 0x20018 .long = 0 ∧
    (∃ j, ∀ k, j ≤ k → Vis.wordAt ((R.st k).mem 1) 0x20018 .long = 7) ∧
    ∃ k am, R.ev k = some (.done 1 (.upd 1 0x20018 .long .fetch am) 7) := by
  have hst : ∀ i e, fL[i]? = some e → Step (exS true) (fSt i) e (fSt (i + 1)) := by
    intro i e h
    match i, h with
    | 0, h => cases h; exact fStep1
    | 1, h => cases h; exact fStep2
    | 2, h => cases h; exact fStep3
    | 3, h => cases h; exact fStep4
    | 4, h => cases h; exact fStep5
    | i + 5, h => cases h
  have hend : ∀ i, fL.length ≤ i → fSt i = fG5 := by
    intro i h
    match i, h with
    | i + 5, _ => rfl
    | 0, h => cases h
    | 1, h => exact absurd h (by decide)
    | 2, h => exact absurd h (by decide)
    | 3, h => exact absurd h (by decide)
    | 4, h => exact absurd h (by decide)
  have hset : Vis.Settled fG5 := by
    rintro a ⟨q, own, ⟨x, hx, _, ha⟩ | ⟨_, ha⟩⟩
    · rw [(fFly q).2 x hx] at ha; cases ha
    · rw [(fFly q).1] at ha; cases ha
  obtain ⟨R, hF, hm, hev, hwant, hS⟩ := states_fair (S := exS true) (m := exM) (l := fL) (st := fSt) (g := fG5) rfl hst hend hset (fun p _ => rfl)
  have hin : ∀ i e, R.ev i = some e → e ∈ fL := fun i e h => by rw [hev] at h; exact List.mem_of_getElem? h
  have hsafe : R.Safe := by
    intro i e he
    have := hin i e he
    simp only [fL, List.mem_cons, List.not_mem_nil, or_false] at this
    rcases this with rfl | rfl | rfl | rfl | rfl
    · exact Or.inl rfl
    · trivial
    · trivial
    · exact Or.inl rfl
    · trivial
  have hl : FlagOnly R 1 0x20018 .long 7 := by
    intro j e he ht
    have := hin j e he
    simp only [fL, List.mem_cons, List.not_mem_nil, or_false] at this
    rcases this with rfl | rfl | rfl | rfl | rfl
    · exact ⟨_, _, _, _, _, rfl, Or.inr (Or.inl rfl)⟩
    · obtain ⟨_, _, _, h⟩ := ht; exact absurd h (fun h => h)
    · obtain ⟨_, _, _, h⟩ := ht; exact absurd h (fun h => h)
    · exact ⟨_, _, _, _, _, rfl, Or.inl rfl⟩
    · obtain ⟨_, _, _, h⟩ := ht; exact absurd h (fun h => h)
  have h0 : R.ev 0 = some (.amo 0 1 none 0x10018#64 0x20018 .long (.set 7) 0) := by rw [hev]; rfl
  have h3 : R.ev 3 = some (.amo 1 1 none 0x20018#64 0x20018 .long .fetch 0) := by rw [hev]; rfl
  have hr : exRes (exMem exM (.set 7)) .fetch = 7 := by decide +kernel
  have h4 : R.ev 4 = some (.done 1 (exU .fetch) 7) := by rw [hev, ← hr]; rfl
  have hc : Completes R 1 0x20018 .long 0 2 := by
    refine ⟨by rw [hS]; rfl, Or.inl ⟨.quiet none, ?_, Or.inl rfl, ?_⟩⟩
    · funext e
      apply propext
      rw [hwant, show nextOwn (fL.drop 2) 0 = some (.call 0 (.quiet none)) from rfl]
      exact ⟨fun h => (Option.some.inj h).symm, fun h => congrArg some h.symm⟩
    · intro x hx
      rw [hS] at hx
      have hx : x ∈ (exPd).spaces := hx
      cases hx
  refine ⟨R, hF, by rw [hS]; decide +kernel, C119_arrives_partial hF hsafe hl h0 (Or.inl rfl) (by decide) hc, ?_⟩
  refine C119_loop_partial hF hsafe hl h0 (Or.inl rfl) (by decide) hc (p := 1) (by decide) (fun n hb hno => ?_)
  by_cases hn : n ≤ 3
  · exact ⟨3, _, _, _, hn, h3⟩
  · exfalso
    by_cases hn4 : n = 4
    · subst hn4
      rw [hS] at hb
      have hb : [exU .fetch] = [] := hb
      cases hb
    · exact hno 4 (by omega) _ _ h4 (by decide)

/-! The same with a barrier (as in `shmem_finalize`) for the quiet: PE 0 waits in it while PE 1 still reads. -/

/-- PE 0 has entered the barrier -/
def bG3 : G := { after fG2 0 { Order.init with ep := 1 } [] with arr := Function.update fG2.arr 0 (fG2.arr 0 + 1) }
/-- PE 1 has called fetch -/
def bG4 : G := afterRet bG3 1 Order.init [exU .fetch]
/-- and it has returned -/
def bG5 : G := { bG4 with mem := exMem (exMem exM (.set 7)) .fetch, busy := Function.update bG4.busy 1 ([] ++ []) }
/-- PE 1 has entered the barrier -/
def bG6 : G := { after bG5 1 { Order.init with ep := 1 } [] with arr := Function.update bG5.arr 1 (bG5.arr 1 + 1) }
/-- PE 0 has left it -/
def bG7 : G := { bG6 with lv := Function.update bG6.lv 0 (bG6.lv 0 + 1) }
/-- PE 1 has left it -/
def bG8 : G := { bG7 with lv := Function.update bG7.lv 1 (bG7.lv 1 + 1) }

theorem bStep3 : Step (exS true) fG2 (.enter 0) bG3 :=
  Step.enter (S := exS true) (g := fG2) 0 { Order.init with ep := 1 } ⟨Nat.zero_lt_succ _, rfl, rfl⟩ rfl
    (done_empty (fun x hx => by
      have hx : x ∈ [(⟨⟨.win 1, 1, none, .heap, 0⟩, []⟩ : Fly)] := hx
      rw [List.mem_singleton.1 hx]))

theorem bStep4 : Step (exS true) bG3 (.amo 1 1 none 0x20018#64 0x20018 .long .fetch 0) bG4 :=
  Step.amoRet (S := exS true) (g := bG3) 1 1 none 0x20018#64 0x20018#64 .long .fetch true .rel Order.init
    ⟨by decide, rfl, rfl⟩ (fun h => by cases h) (by decide) rfl rfl
    (by
      have h1 : bG3.pe 1 = Order.init := rfl
      have : procs (exS true) bG3 = procs (exS true) (ginit exM) := by
        funext q
        show (exCf true q).proc (Function.update (Function.update (fun _ => Order.init) 0 exPd) 0 { Order.init with ep := 1 } q) = (exCf true q).proc Order.init
        rw [upd_at]
        split
        · rfl
        · rename_i h; rw [upd_at, if_neg h]
      rw [this, h1]; decide +kernel) (done_nil rfl)

theorem bStep5 : Step (exS true) bG4 (.done 1 (exU .fetch) (exRes (exMem exM (.set 7)) .fetch)) bG5 :=
  Step.performBusy (S := exS true) (g := bG4) 1 [] [] (exU .fetch) (exMem (exMem exM (.set 7)) .fetch) (by decide) rfl rfl

theorem bStep6 : Step (exS true) bG5 (.enter 1) bG6 :=
  Step.enter (S := exS true) (g := bG5) 1 { Order.init with ep := 1 } ⟨by decide, rfl, rfl⟩ rfl (done_nil rfl)

theorem bArr : ∀ q < 2, bG6.arr q = 1 := by
  intro q hq
  match q, hq with
  | 0, _ => rfl
  | 1, _ => rfl
  | q + 2, h => omega

theorem bStep7 : Step (exS true) bG6 (.leave 0) bG7 :=
  Step.leave (S := exS true) (g := bG6) 0 (by decide) (by decide) (fun q hq => by rw [bArr q hq]; decide)

theorem bStep8 : Step (exS true) bG7 (.leave 1) bG8 :=
  Step.leave (S := exS true) (g := bG7) 1 (by decide) (by decide) (fun q hq => by
    show bG7.lv 1 < bG6.arr q
    rw [bArr q hq]; decide)

/-- the states -/
def bSt : Nat → G
  | 0 => ginit exM
  | 1 => fG1
  | 2 => fG2
  | 3 => bG3
  | 4 => bG4
  | 5 => bG5
  | 6 => bG6
  | 7 => bG7
  | _ + 8 => bG8

/-- the events -/
def bL : List Ev :=
  [.amo 0 1 none 0x10018#64 0x20018 .long (.set 7) 0, .done 0 (exU (.set 7)) (exRes exM (.set 7)), .enter 0,
   .amo 1 1 none 0x20018#64 0x20018 .long .fetch 0, .done 1 (exU .fetch) (exRes (exMem exM (.set 7)) .fetch), .enter 1, .leave 0, .leave 1]

theorem bFly : ∀ q, bG8.busy q = [] ∧ bG8.fly q = [] := by
  intro q
  by_cases h0 : q = 0
  · subst h0; exact ⟨rfl, rfl⟩
  · by_cases h1 : q = 1
    · subst h1; exact ⟨rfl, rfl⟩
    · constructor
      · show Function.update (Function.update (Function.update (Function.update (Function.update (fun _ => []) 0 []) 0 []) 1 [exU .fetch]) 1 ([] ++ [])) 1 [] q = []
        simp only [upd_at, if_neg h0, if_neg h1]
      · show Function.update (Function.update (Function.update (Function.update (Function.update (ginit exM).fly 0 _) 0 _) 0 _) 1 _) 1 _ q = []
        simp only [upd_at, if_neg h0, if_neg h1]
        rfl

/-- PE 0 sets the flag of PE 1 to 7 and enters the barrier, PE 1 fetches the flag until it is 7 and then comes to the barrier (tests/amo_set_fetch.c with 7
for 1): the hypotheses with a barrier are met. -/
example : ∃ R : Inf (exS true), R.Fair ∧ R.ev 2 = some (.enter 0) ∧ (R.st 3).arr 1 = 0 ∧ ∃ k am, R.ev k = some (.done 1 (.upd 1 0x20018 .long .fetch am) 7) := by
  have hst : ∀ i e, bL[i]? = some e → Step (exS true) (bSt i) e (bSt (i + 1)) := by
    intro i e h
    match i, h with
    | 0, h => cases h; exact fStep1
    | 1, h => cases h; exact fStep2
    | 2, h => cases h; exact bStep3
    | 3, h => cases h; exact bStep4
    | 4, h => cases h; exact bStep5
    | 5, h => cases h; exact bStep6
    | 6, h => cases h; exact bStep7
    | 7, h => cases h; exact bStep8
    | i + 8, h => cases h
  have hend : ∀ i, bL.length ≤ i → bSt i = bG8 := by
    intro i h
    obtain ⟨d, rfl⟩ := Nat.exists_eq_add_of_le' (show 8 ≤ i from h)
    rfl
  have hset : Vis.Settled bG8 := by
    rintro a ⟨q, own, ⟨x, hx, _, ha⟩ | ⟨_, ha⟩⟩
    · rw [(bFly q).2] at hx; cases hx
    · rw [(bFly q).1] at ha; cases ha
  obtain ⟨R, hF, hm, hev, hwant, hS⟩ := states_fair (S := exS true) (m := exM) (l := bL) (st := bSt) (g := bG8) rfl hst hend hset (fun p hp => by
    match p, hp with
    | 0, _ => rfl
    | 1, _ => rfl
    | p + 2, h => exact absurd (show p + 2 < 2 from h) (by omega))
  have hin : ∀ i e, R.ev i = some e → e ∈ bL := fun i e h => by rw [hev] at h; exact List.mem_of_getElem? h
  have hsafe : R.Safe := by
    intro i e he
    have := hin i e he
    simp only [bL, List.mem_cons, List.not_mem_nil, or_false] at this
    rcases this with rfl | rfl | rfl | rfl | rfl | rfl | rfl | rfl
    · exact Or.inl rfl
    · trivial
    · trivial
    · exact Or.inl rfl
    · trivial
    · trivial
    · trivial
    · trivial
  have hl : FlagOnly R 1 0x20018 .long 7 := by
    intro j e he ht
    have := hin j e he
    simp only [bL, List.mem_cons, List.not_mem_nil, or_false] at this
    rcases this with rfl | rfl | rfl | rfl | rfl | rfl | rfl | rfl
    · exact ⟨_, _, _, _, _, rfl, Or.inr (Or.inl rfl)⟩
    · obtain ⟨_, _, _, h⟩ := ht; exact absurd h (fun h => h)
    · obtain ⟨_, _, _, h⟩ := ht; exact absurd h (fun h => h)
    · exact ⟨_, _, _, _, _, rfl, Or.inl rfl⟩
    · obtain ⟨_, _, _, h⟩ := ht; exact absurd h (fun h => h)
    · obtain ⟨_, _, _, h⟩ := ht; exact absurd h (fun h => h)
    · obtain ⟨_, _, _, h⟩ := ht; exact absurd h (fun h => h)
    · obtain ⟨_, _, _, h⟩ := ht; exact absurd h (fun h => h)
  have h0 : R.ev 0 = some (.amo 0 1 none 0x10018#64 0x20018 .long (.set 7) 0) := by rw [hev]; rfl
  have h3 : R.ev 3 = some (.amo 1 1 none 0x20018#64 0x20018 .long .fetch 0) := by rw [hev]; rfl
  have hr : exRes (exMem exM (.set 7)) .fetch = 7 := by decide +kernel
  have h4 : R.ev 4 = some (.done 1 (exU .fetch) 7) := by rw [hev, ← hr]; rfl
  have hc : Completes R 1 0x20018 .long 0 2 := by
    refine ⟨by rw [hS]; rfl, Or.inr ⟨?_, fun j ctx addr api ep he => ?_⟩⟩
    · funext e
      apply propext
      rw [hwant, show nextOwn (bL.drop 2) 0 = some (.enter 0) from rfl]
      exact ⟨fun h => (Option.some.inj h).symm, fun h => congrArg some h.symm⟩
    · have := hin j _ he
      simp only [bL, List.mem_cons, List.not_mem_nil, or_false] at this
      rcases this with h | h | h | h | h | h | h | h
      · cases h
        exact Or.inr ⟨rfl, Or.inr (Or.inl (by decide +kernel))⟩
      · cases h
      · cases h
      · cases h
      · cases h
      · cases h
      · cases h
      · cases h
  refine ⟨R, hF, by rw [hev]; rfl, by rw [hS]; rfl, ?_⟩
  refine C119_loop_partial hF hsafe hl h0 (Or.inl rfl) (by decide) hc (p := 1) (by decide) (fun n hb hno => ?_)
  by_cases hn : n ≤ 3
  · exact ⟨3, _, _, _, hn, h3⟩
  · exfalso
    by_cases hn4 : n = 4
    · subst hn4
      rw [hS] at hb
      have hb : [exU .fetch] = [] := hb
      cases hb
    · exact hno 4 (by omega) _ _ h4 (by decide)

end AEx

end Verif.Flow
