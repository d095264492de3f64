import Verif.Flow.Amo
import Verif.Flow.Props
import Verif.Vis.Spin
import Verif.Api.AmoProps
/-!
# C97: the atomic routines in executions
-/
namespace Verif.Flow
open Verif.Sobj Verif.Rma Verif.Vis Verif.Api
open Verif.Order (St)
open Verif.Amo (TyIdx Fp)

/-! ## Specification -/

/-- what a routine adds, by its name: 1 for `inc`, the parameter for `add`; the others do not add -/
def _root_.Verif.Api.ARt.operand (rt : ARt) (value : Nat) : Option Nat := match rt with
  | .inc => some 1 | .dInc => some 1 | .fetchInc => some 1 | .fetchIncNbi => some 1 | .dFinc => some 1
  | .add => some value | .dAdd => some value | .fetchAdd => some value | .fetchAddNbi => some value | .dFadd => some value
  | .cswap => none | .cswapNbi => none | .dCswap => none | .fetch => none | .set => none | .swap => none | .fetchNbi => none
  | .swapNbi => none | .dFetch => none | .dSet => none | .dSwap => none | .fetchAnd => none | .and => none | .fetchOr => none
  | .or => none | .fetchXor => none | .xor => none | .fetchAndNbi => none | .fetchOrNbi => none | .fetchXorNbi => none

/-- the compare-and-swap routines -/
def _root_.Verif.Api.ARt.isCswap : ARt → Bool
  | .cswap => true | .cswapNbi => true | .dCswap => true
  | .inc => false | .dInc => false | .fetchInc => false | .fetchIncNbi => false | .dFinc => false
  | .add => false | .dAdd => false | .fetchAdd => false | .fetchAddNbi => false | .dFadd => false
  | .fetch => false | .set => false | .swap => false | .fetchNbi => false
  | .swapNbi => false | .dFetch => false | .dSet => false | .dSwap => false | .fetchAnd => false | .and => false | .fetchOr => false
  | .or => false | .fetchXor => false | .xor => false | .fetchAndNbi => false | .fetchOrNbi => false | .fetchXorNbi => false

/-- In step `k` PE `p` calls the routine `n` of the type of `row` on the object at offset `off` of a symmetric object (heap, data segment, a
space, or the space of the context), for the copy of PE `t`; the copies lie at `bases` on the PEs. -/
def Aimed (S : Sys) (h : Nat → G) (ev : Nat → Ev) (k p : Nat) (n : AName) (t : Nat) (row : Row) (bases : Nat → BitVec 64)
    (off : BitVec 64) : Prop :=
  ∃ gpu mode, ACalls S gpu mode n p (h k) (ev k) (h (k + 1)) ∧ n.tgt = t ∧ n.row = row ∧ row ∈ n.rt.rows ∧ n.dest = bases p + off ∧
    SymAddr (procs S (h k)) S.npes p t (pathOf (S.cf p) (amoKind (n.rt.means n.cond n.value)) gpu mode)
      (ctxObj ((h k).pe p) (if n.isCtx then n.ctx else none)) bases off

/-- Nothing is in flight to the `k` bytes at `a` on PE `t`. -/
def Calm (g : G) (t : Nat) (a : Int) (k : Nat) : Prop := ∀ y, a ≤ y → y < a + k → NoWriter g (t, y)

/-- Does the event write one of the `k` bytes at `a` on PE `t`? -/
def Touch (e : Ev) (t : Nat) (a : Int) (k : Nat) : Prop := ∃ y : Int, a ≤ y ∧ y < a + k ∧ e.writes (t, y)

/-! ## The routines -/

theorem body_api {rt : ARt} {b : Bool} {c : ACall} (h : rt.body b = some c) (cond v : Nat) : api c cond v = some (rt.means cond v) := by
  cases rt <;> cases b <;> first | (cases h; rfl) | cases h

/-- `api` is what the internal routines do with their arguments -/
theorem api_link {c : ACall} {cond v : Nat} {op : Amo.Api} (h : api c cond v = some op) (fp : Fp) (junk m : Mem) (dest : Nat) (ty : TyIdx) :
    atDirect m dest ty.bytes c.via cond (c.src.val v) = .ok (Amo.direct m dest ty op) ∧
    atAm fp junk m dest ty ty.bytes c.via cond (c.src.val v) = Amo.am fp junk m dest ty op := by
  obtain ⟨x, via, src, out⟩ := c
  cases via with
  | cswap => cases src <;> first | (cases h; exact ⟨rfl, rfl⟩) | cases h
  | fetch op' idx => cases op' <;> cases idx <;> cases src <;> first | (cases h; exact ⟨rfl, rfl⟩) | cases h
  | post op' idx => cases op' <;> cases idx <;> cases src <;> first | (cases h; exact ⟨rfl, rfl⟩) | cases h

theorem means_void (rt : ARt) (cond v : Nat) : returns (rt.means cond v) = !rt.void := by cases rt <;> rfl

theorem means_add (rt : ARt) (cond v : Nat) : (rt.means cond v).addend = rt.operand v := by cases rt <;> rfl

theorem means_cswap {rt : ARt} (h : rt.isCswap = true) (cond v : Nat) : rt.means cond v = .cswap cond v := by
  cases rt <;> first | rfl | cases h

theorem row_bytes {rt : ARt} {r : Row} (h : r ∈ rt.rows) : r.mpi.bytes = r.ty.sizeof := (row_ok r (rows_ext rt r h)).1

/-- the event of a call -/
theorem aimed_ev {S : Sys} {h : Nat → G} {ev : Nat → Ev} {k p : Nat} {n : AName} {t : Nat} {row : Row} {bases : Nat → BitVec 64}
    {off : BitVec 64} (ha : Aimed S h ev k p n t row bases off) :
    ev k = .amo p t (if n.isCtx then n.ctx else none) n.dest (bases t + off).toInt row.mpi (n.rt.means n.cond n.value) ((h k).arr p) ∧
    Step S (h k) (ev k) (h (k + 1)) := by
  obtain ⟨gpu, mode, ⟨c, op, r, h1, h2, h3, h4, h5, h6⟩, rfl, rfl, _, hd, hs⟩ := ha
  rw [body_api h1] at h2
  cases h2
  rw [(body_out h1).1] at h4 h5
  rw [hd, symm_resolve hs] at h4
  cases h4
  exact ⟨h5, h6⟩

/-! ## Steps of a PE inside a call -/

theorem exec_run {S : Sys} {N : Nat} {h : Nat → G} {ev : Nat → Ev} (hs : ∀ k < N, Step S (h k) (ev k) (h (k + 1))) :
    Run S (h 0) ((List.range N).map ev) (h N) := by
  induction N with
  | zero => exact Run.nil _
  | succ N ih =>
    rw [List.range_succ, List.map_append]
    exact run_append (ih fun k hk => hs k (by omega)) (Run.cons (hs N (by omega)) (Run.nil _))

theorem amo_busy {S : Sys} {g g' : G} {p t : Nat} {ctx : Option (Nat × Nat)} {addr : BitVec 64} {a : Int} {ty : TyIdx} {op : Amo.Api} {ep : Nat}
    (h : Step S g (.amo p t ctx addr a ty op ep) g') (hr : returns op = true) :
    (∃ am, g'.busy p = [.upd t a ty op am]) ∧ ty ∈ op.types := by
  cases h with
  | amo p tgt ctx addr r' ty api gpu mode s' hf hm hty hk e hr' d => rw [hr] at hk; cases hk
  | amoRet p tgt ctx addr r' ty api gpu mode s' hf hm hty hk e hr' d =>
    exact ⟨⟨!(S.cf p).isDirect (amoKind op) gpu, by simp only [afterRet, upd_at, if_true]⟩, hty⟩

theorem amo_free {S : Sys} {g g' : G} {p t : Nat} {ctx : Option (Nat × Nat)} {addr : BitVec 64} {a : Int} {ty : TyIdx} {op : Amo.Api} {ep : Nat}
    (h : Step S g (.amo p t ctx addr a ty op ep) g') : g.busy p = [] := by
  cases h with
  | amo p tgt ctx addr r ty api gpu mode s' hf hm hty hk e hr d => exact hf.2.2
  | amoRet p tgt ctx addr r ty api gpu mode s' hf hm hty hk e hr d => exact hf.2.2

/-- while a PE waits for one access, either it still does, or the access is performed now -/
theorem busy_step {S : Sys} {g g' : G} {e : Ev} {p : Nat} {b : Atom} (hb : g.busy p = [b]) (h : Step S g e g') :
    (g'.busy p = [b] ∧ ∀ b' r, e = .done p b' r → ∃ x ∈ g.fly p, b' ∈ x.todo) ∨
    (e = .done p b (b.result S.fp S.junk g.mem) ∧ b.perform S.fp S.junk g.mem = .ok g'.mem ∧ g'.busy p = []) := by
  have nf : ∀ {q}, Free S g q → q ≠ p := by
    rintro q hf rfl
    rw [hf.2.2] at hb
    cases hb
  cases h with
  | put q tgt nbi ctx addr src n gpu mode oc tc oty tty xs s' hf hm e hx d =>
    exact Or.inl ⟨by simp only [after, upd_at, if_neg (nf hf).symm, hb], fun _ _ h => by cases h⟩
  | get q tgt nbi ctx addr src n gpu mode oc tc oty tty xs s' hf hm e hx d =>
    exact Or.inl ⟨by simp only [after, upd_at, if_neg (nf hf).symm, hb], fun _ _ h => by cases h⟩
  | amo q tgt ctx addr r ty' api gpu mode s' hf hm hty hk e hr d =>
    exact Or.inl ⟨by simp only [after, upd_at, if_neg (nf hf).symm, hb], fun _ _ h => by cases h⟩
  | amoRet q tgt ctx addr r ty' api gpu mode s' hf hm hty hk e hr d =>
    exact Or.inl ⟨by simp only [afterRet, upd_at, if_neg (nf hf).symm, hb], fun _ _ h => by cases h⟩
  | store q a' v hf => exact Or.inl ⟨hb, fun _ _ h => by cases h⟩
  | poll q addr r n mode hf hm hr => exact Or.inl ⟨hb, fun _ _ h => by cases h⟩
  | touch q ws hf => exact Or.inl ⟨hb, fun _ _ h => by cases h⟩
  | call q op s' hf l hop e d => exact Or.inl ⟨by simp only [after, upd_at, if_neg (nf hf).symm, hb], fun _ _ h => by cases h⟩
  | enter q s' hf e d => exact Or.inl ⟨by simp only [after, upd_at, if_neg (nf hf).symm, hb], fun _ _ h => by cases h⟩
  | leave q hp h0 ha' => exact Or.inl ⟨hb, fun _ _ h => by cases h⟩
  | perform q l1 l2 pd t1 t2 b' m' hq hl e =>
    refine Or.inl ⟨hb, fun b'' r h => ?_⟩
    cases h
    exact ⟨⟨pd, t1 ++ b' :: t2⟩, by rw [hl]; simp, by simp⟩
  | performBusy q t1 t2 b' m' hq hl e =>
    by_cases hqp : q = p
    · subst hqp
      rw [hb] at hl
      obtain ⟨rfl, rfl, rfl⟩ : t1 = [] ∧ b' = b ∧ t2 = [] := by
        cases t1 with
        | nil => simp only [List.nil_append, List.cons.injEq] at hl; exact ⟨rfl, hl.1.symm, hl.2.symm⟩
        | cons c t1 =>
          have := congrArg List.length hl
          simp at this
      exact Or.inr ⟨rfl, e, by simp⟩
    · refine Or.inl ⟨by simp only [upd_at, if_neg (Ne.symm hqp), hb], fun b'' r h => ?_⟩
      cases h
      exact absurd rfl hqp
  | fin q done hq d => exact Or.inl ⟨hb, fun _ _ h => by cases h⟩

theorem noRet_run {S : Sys} {g g' : G} {l : List Ev} (h : Run S g l g') (hn : NoRet g) : NoRet g' := by
  induction h with
  | nil g => exact hn
  | cons s r ih => exact ih (noRet_step hn s)

theorem Exec.noRet {S : Sys} {N : Nat} {h : Nat → G} {ev : Nat → Ev} (x : Exec S N h ev) {k : Nat} (hk : k ≤ N) : NoRet (h k) := by
  obtain ⟨m, l, r⟩ := x.reach
  exact noRet_run (exec_run fun j hj => x.step j (by omega)) (noRet_run r (by intro p x hx; cases hx))

/-! ## C97 -/

/-- **C97** (routines with a result). PE `p` calls in step `i` any atomic routine that fetches (also `_nbi`, `ctx_` or deprecated) of any type
of its table on a symmetric object; the call returns in step `j` of the execution, with `r`. Then `r` is what the object on the target PE holds
when the call takes effect, and the effect is what the name says, at once, and on no other byte of any PE; it takes effect exactly once between
call and return. -/
theorem C97_return {S : Sys} {N : Nat} {h : Nat → G} {ev : Nat → Ev} (x : Exec S N h ev) {p : Nat} {n : AName} {t : Nat} {row : Row}
    {bases : Nat → BitVec 64} {off : BitVec 64} {i j r : Nat} (ha : Aimed S h ev i p n t row bases off) (hv : n.rt.void = false)
    (hret : Returns h ev p i j r) (hj : j < N) :
    r = (Api.wordAt ((h j).mem t) (bases t + off).toInt row.ty.sizeof).toNat ∧
    Api.wordAt ((h (j + 1)).mem t) (bases t + off).toInt row.ty.sizeof =
      (Amo.spec (Api.wordAt ((h j).mem t) (bases t + off).toInt row.ty.sizeof) (n.rt.means n.cond n.value)).1 ∧
    (∀ q y, ¬ (q = t ∧ (bases t + off).toInt ≤ y ∧ y < (bases t + off).toInt + row.ty.sizeof) → (h (j + 1)).mem q y = (h j).mem q y) ∧
    (∃ am, ev j = .done p (.upd t (bases t + off).toInt row.mpi (n.rt.means n.cond n.value) am) r) ∧
    ∀ k, i < k → k < j → ∀ am r', ev k ≠ .done p (.upd t (bases t + off).toInt row.mpi (n.rt.means n.cond n.value) am) r' := by
  obtain ⟨he, hst⟩ := aimed_ev ha
  have hrow : row ∈ n.rt.rows := by obtain ⟨_, _, _, _, _, h4, _⟩ := ha; exact h4
  have hb := row_bytes hrow
  have hrt : returns (n.rt.means n.cond n.value) = true := by rw [means_void, hv]; rfl
  rw [he] at hst
  obtain ⟨⟨am, hbusy⟩, hty⟩ := amo_busy hst hrt
  obtain ⟨hij, hin, hout, b, hevj⟩ := hret
  have hall : ∀ d, i + 1 + d ≤ j → (h (i + 1 + d)).busy p = [.upd t (bases t + off).toInt row.mpi (n.rt.means n.cond n.value) am] := by
    intro d
    induction d with
    | zero => intro _; exact hbusy
    | succ d ih =>
      intro hd
      rcases busy_step (ih (by omega)) (x.step (i + 1 + d) (by omega)) with h1 | h1
      · exact h1.1
      · exact absurd h1.2.2 (hin _ (by omega) (by omega))
  have hbj := hall (j - (i + 1)) (by omega)
  rw [show i + 1 + (j - (i + 1)) = j by omega] at hbj
  rcases busy_step hbj (x.step j hj) with h1 | ⟨h1, h2, _⟩
  · rw [h1.1] at hout; cases hout
  · rw [h1] at hevj
    cases hevj
    obtain ⟨e1, e2⟩ := perform_upd hty h2
    have hsp : (Amo.spec (Vis.wordAt ((h j).mem t) (bases t + off).toInt row.mpi) (n.rt.means n.cond n.value)).2 =
        some (Vis.wordAt ((h j).mem t) (bases t + off).toInt row.mpi) := by
      generalize n.rt = rt at hv ⊢
      cases rt <;> first | rfl | cases hv
    obtain ⟨e3, e4⟩ := e2 _ hsp
    refine ⟨?_, ?_, ?_, ⟨am, h1⟩, ?_⟩
    · rw [← hb]
      have := congrArg BitVec.toNat e3
      rw [BitVec.toNat_ofNat, Nat.mod_eq_of_lt e4] at this
      exact this
    · rw [← hb]; exact e1
    · intro q y hq
      refine perform_frame (k := (q, y)) h2 ?_
      rintro ⟨h3, h4, h5⟩
      rw [hb] at h5
      exact hq ⟨h3, h4, h5⟩
    · intro k h3 h4 am' r' hk
      have hbk := hall (k - (i + 1)) (by omega)
      rw [show i + 1 + (k - (i + 1)) = k by omega] at hbk
      rcases busy_step hbk (x.step k (by omega)) with h5 | ⟨_, _, h6⟩
      · obtain ⟨z, hz, hz'⟩ := h5.2 _ _ hk
        have hn := x.noRet (k := k) (by omega) p z hz _ hz'
        simp only [Atom.inv] at hn
        rw [← returns_eq, hrt, if_pos rfl] at hn
        cases hn
      · exact absurd h6 (hin (k + 1) (by omega) (by omega))

/-- a call that is over -/
def Ended (S : Sys) (h : Nat → G) (ev : Nat → Ev) (N i p : Nat) (n : AName) (t : Nat) (row : Row) (bases : Nat → BitVec 64)
    (off : BitVec 64) (j r : Nat) : Prop :=
  Aimed S h ev i p n t row bases off ∧ n.rt.void = false ∧ Returns h ev p i j r ∧ j < N

/-- different calls return in different steps -/
theorem ended_ne {S : Sys} {N : Nat} {h : Nat → G} {ev : Nat → Ev} {t : Nat} {row : Row} {bases : Nat → BitVec 64}
    {off : BitVec 64} {i p : Nat} {n : AName} {j r : Nat} {i' p' : Nat} {n' : AName} {j' r' : Nat}
    (h1 : Ended S h ev N i p n t row bases off j r) (h2 : Ended S h ev N i' p' n' t row bases off j' r') (hi : i ≠ i') : j ≠ j' := by
  rintro rfl
  obtain ⟨a1, _, ⟨b1, b2, _, _, b3⟩, _⟩ := h1
  obtain ⟨a1', _, ⟨b1', b2', _, _, b3'⟩, _⟩ := h2
  rw [b3] at b3'
  cases b3'
  have s1 := aimed_ev a1
  have s2 := aimed_ev a1'
  have f1 : (h i).busy p = [] := amo_free (s1.1 ▸ s1.2)
  have f2 : (h i').busy p = [] := amo_free (s2.1 ▸ s2.2)
  rcases Nat.lt_or_gt_of_ne hi with hlt | hlt
  · exact b2 i' hlt (by omega) f2
  · exact b2' i hlt (by omega) f1

/-- where the effect of step `j` is in the list of effects -/
theorem acts_at {t : Nat} {a : Int} {ty : TyIdx} {ev : Nat → Ev} {N j q r : Nat} {op : Amo.Api} {am : Bool} (hj : j < N)
    (e : ev j = .done q (.upd t a ty op am) r) :
    (acts t a ty ((List.range N).map ev))[(acts t a ty ((List.range j).map ev)).length]? = some (q, op, r) := by
  obtain ⟨d, rfl⟩ : ∃ d, N = j + (d + 1) := ⟨N - j - 1, by omega⟩
  rw [List.range_add, List.map_append, acts_append, List.getElem?_append_right (Nat.le_refl _), Nat.sub_self, List.range_succ_eq_map]
  simp only [List.map_cons, List.map_map, Nat.add_zero, e, acts, and_self, if_true]
  rfl

theorem acts_lt {t : Nat} {a : Int} {ty : TyIdx} {ev : Nat → Ev} {j j' q r : Nat} {op : Amo.Api} {am : Bool} (hj : j < j')
    (e : ev j = .done q (.upd t a ty op am) r) :
    (acts t a ty ((List.range j).map ev)).length < (acts t a ty ((List.range j').map ev)).length := by
  have := acts_at hj e
  exact (List.getElem?_eq_some_iff.1 this).1

theorem acts_len (t : Nat) (a : Int) (ty : TyIdx) (l : List Ev) : (acts t a ty l).length ≤ l.length := by
  induction l with
  | nil => exact Nat.le_refl _
  | cons e l ih =>
    rw [show e :: l = [e] ++ l from rfl, acts_append, List.length_append, List.length_append]
    have : (acts t a ty [e]).length ≤ 1 := by
      cases e with
      | done q b r => cases b <;> simp only [acts] <;> first | (split <;> simp) | simp
      | put _ _ _ _ _ _ _ => simp [acts]
      | get _ _ _ _ _ _ _ => simp [acts]
      | amo _ _ _ _ _ _ _ _ => simp [acts]
      | store _ _ _ => simp [acts]
      | poll _ _ _ _ => simp [acts]
      | touch _ _ => simp [acts]
      | call _ _ => simp [acts]
      | enter _ => simp [acts]
      | leave _ => simp [acts]
      | tau => simp [acts]
    simp only [List.length_singleton]
    omega

theorem acts_mem {t : Nat} {a : Int} {ty : TyIdx} {l : List Ev} {c : Nat × Amo.Api × Nat} (hc : c ∈ acts t a ty l) :
    ∃ am, Ev.done c.1 (.upd t a ty c.2.1 am) c.2.2 ∈ l := by
  induction l with
  | nil => cases hc
  | cons e l ih =>
    rw [show e :: l = [e] ++ l from rfl, acts_append, List.mem_append] at hc
    rcases hc with hc | hc
    · cases e with
      | done q b r =>
        cases b with
        | upd d a' ty' api am =>
          simp only [acts] at hc
          split at hc
          · rename_i heq
            obtain ⟨rfl, rfl, rfl⟩ := heq
            rw [List.mem_singleton] at hc
            subst hc
            exact ⟨am, List.mem_cons_self ..⟩
          · cases hc
        | set _ _ _ => cases hc
        | mv _ _ _ _ => cases hc
      | put _ _ _ _ _ _ _ => cases hc
      | get _ _ _ _ _ _ _ => cases hc
      | amo _ _ _ _ _ _ _ _ => cases hc
      | store _ _ _ => cases hc
      | poll _ _ _ _ => cases hc
      | touch _ _ => cases hc
      | call _ _ => cases hc
      | enter _ => cases hc
      | leave _ => cases hc
      | tau => cases hc
    · obtain ⟨am, h⟩ := ih hc
      exact ⟨am, List.mem_cons_of_mem _ h⟩

theorem only_named {S : Sys} {N : Nat} {h : Nat → G} {ev : Nat → Ev} {t : Nat} {row : Row} {bases : Nat → BitVec 64} {off : BitVec 64}
    (hb : row.mpi.bytes = row.ty.sizeof) {Q : AName → Prop} {P : Amo.Api → Prop} (hQ : ∀ n, Q n → P (n.rt.means n.cond n.value))
    (hl : ∀ k < N, Touch (ev k) t (bases t + off).toInt row.ty.sizeof → ∃ p n, Aimed S h ev k p n t row bases off ∧ Q n) :
    OnlyBy t (bases t + off).toInt row.mpi P ((List.range N).map ev) := by
  intro e he ht
  obtain ⟨k, hk, rfl⟩ := List.mem_map.1 he
  unfold Ev.touches at ht
  rw [hb] at ht
  obtain ⟨p, n, h1, h2⟩ := hl k (List.mem_range.1 hk) ht
  exact ⟨p, _, _, _, _, (aimed_ev h1).1, hQ n h2⟩

/-- **C97** (tickets). An object that is changed only by atomic increments (`inc`, `fetch_inc`, adding 1, in any version, of its type) of any
PEs: of no more than 2^bits steps, no two calls return the same number. -/
theorem C97_tickets {S : Sys} {N : Nat} {h : Nat → G} {ev : Nat → Ev} (x : Exec S N h ev) {t : Nat} {row : Row} {bases : Nat → BitVec 64}
    {off : BitVec 64} (hn : Calm (h 0) t (bases t + off).toInt row.ty.sizeof)
    (hl : ∀ k < N, Touch (ev k) t (bases t + off).toInt row.ty.sizeof →
      ∃ p n, Aimed S h ev k p n t row bases off ∧ n.rt.operand n.value = some 1)
    (hN : N ≤ 2 ^ (8 * row.ty.sizeof)) {i p : Nat} {n : AName} {j r : Nat} {i' p' : Nat} {n' : AName} {j' r' : Nat}
    (h1 : Ended S h ev N i p n t row bases off j r) (h2 : Ended S h ev N i' p' n' t row bases off j' r') (hi : i ≠ i') : r ≠ r' := by
  have hb : row.mpi.bytes = row.ty.sizeof := by obtain ⟨⟨_, _, _, _, _, h4, _⟩, _⟩ := h1; exact row_bytes h4
  have hne := ended_ne h1 h2 hi
  obtain ⟨a1, a2, a3, a4⟩ := h1
  obtain ⟨b1, b2, b3, b4⟩ := h2
  obtain ⟨_, _, _, ⟨am, e1⟩, _⟩ := C97_return x a1 a2 a3 a4
  obtain ⟨_, _, _, ⟨am', e2⟩, _⟩ := C97_return x b1 b2 b3 b4
  have ho := only_named hb (P := fun op => op.addend = some 1) (fun n h => by rw [means_add]; exact h) hl
  have hn' : ∀ y, (bases t + off).toInt ≤ y → y < (bases t + off).toInt + row.mpi.bytes → NoWriter (h 0) (t, y) := by
    rw [hb]; exact hn
  have hk := (C74_tickets (exec_run x.step) hn' ho).2 (by
    refine Nat.le_trans (acts_len _ _ _ _) ?_
    rw [List.length_map, List.length_range, hb]
    exact hN) _ _ _ _ (acts_at a4 e1) (acts_at b4 e2) (by rw [← returns_eq, means_void, a2]; rfl) (by rw [← returns_eq, means_void, b2]; rfl)
  intro hr
  have := hk hr
  rcases Nat.lt_or_gt_of_ne hne with hlt | hlt
  · have := acts_lt hlt e1; omega
  · have := acts_lt hlt e2; omega

/-- **C97** (one winner). An object that holds `c` and is changed only by compare-and-swap routines of its type with `cond = c` and another
`value`: no two calls get `c` back. -/
theorem C97_winner {S : Sys} {N : Nat} {h : Nat → G} {ev : Nat → Ev} (x : Exec S N h ev) {t : Nat} {row : Row} {bases : Nat → BitVec 64}
    {off : BitVec 64} (hn : Calm (h 0) t (bases t + off).toInt row.ty.sizeof) {c : Nat}
    (h0 : Api.wordAt ((h 0).mem t) (bases t + off).toInt row.ty.sizeof = BitVec.ofNat _ c)
    (hl : ∀ k < N, Touch (ev k) t (bases t + off).toInt row.ty.sizeof → ∃ p n, Aimed S h ev k p n t row bases off ∧ n.rt.isCswap = true ∧
      n.cond = c ∧ BitVec.ofNat (8 * row.ty.sizeof) n.value ≠ BitVec.ofNat _ c)
    {i p : Nat} {n : AName} {j r : Nat} {i' p' : Nat} {n' : AName} {j' r' : Nat}
    (h1 : Ended S h ev N i p n t row bases off j r) (h2 : Ended S h ev N i' p' n' t row bases off j' r') (hi : i ≠ i')
    (hr : BitVec.ofNat (8 * row.ty.sizeof) r = BitVec.ofNat _ c) : BitVec.ofNat (8 * row.ty.sizeof) r' ≠ BitVec.ofNat _ c := by
  have hb : row.mpi.bytes = row.ty.sizeof := by obtain ⟨⟨_, _, _, _, _, h4, _⟩, _⟩ := h1; exact row_bytes h4
  have hne := ended_ne h1 h2 hi
  obtain ⟨a1, a2, a3, a4⟩ := h1
  obtain ⟨b1, b2, b3, b4⟩ := h2
  obtain ⟨_, _, _, ⟨am, e1⟩, _⟩ := C97_return x a1 a2 a3 a4
  obtain ⟨_, _, _, ⟨am', e2⟩, _⟩ := C97_return x b1 b2 b3 b4
  rw [← hb] at h0 hr ⊢
  have ho := only_named hb (P := Claims (8 * row.mpi.bytes) c) (Q := fun n => n.rt.isCswap = true ∧ n.cond = c ∧
      BitVec.ofNat (8 * row.ty.sizeof) n.value ≠ BitVec.ofNat _ c) (fun n h => by
    obtain ⟨q1, q2, q3⟩ := h
    refine ⟨n.value, ?_, by rw [hb]; exact q3⟩
    rw [means_cswap q1, q2]) hl
  have hn' : ∀ y, (bases t + off).toInt ≤ y → y < (bases t + off).toInt + row.mpi.bytes → NoWriter (h 0) (t, y) := by
    rw [hb]; exact hn
  have hw := C75_winner (exec_run x.step) hn' ho h0
  have w1 := (hw _ _ (acts_at a4 e1)).1 hr
  intro hr'
  have w2 := (hw _ _ (acts_at b4 e2)).1 hr'
  rcases Nat.lt_or_gt_of_ne hne with hlt | hlt
  · have := acts_lt hlt e1; omega
  · have := acts_lt hlt e2; omega

/-- **C97** (winner): and if a call has returned something else than `c`, another has got `c` before -/
theorem C97_beaten {S : Sys} {N : Nat} {h : Nat → G} {ev : Nat → Ev} (x : Exec S N h ev) {t : Nat} {row : Row} {bases : Nat → BitVec 64}
    {off : BitVec 64} (hn : Calm (h 0) t (bases t + off).toInt row.ty.sizeof) {c : Nat}
    (h0 : Api.wordAt ((h 0).mem t) (bases t + off).toInt row.ty.sizeof = BitVec.ofNat _ c)
    (hl : ∀ k < N, Touch (ev k) t (bases t + off).toInt row.ty.sizeof → ∃ p n, Aimed S h ev k p n t row bases off ∧ n.rt.isCswap = true ∧
      n.cond = c ∧ BitVec.ofNat (8 * row.ty.sizeof) n.value ≠ BitVec.ofNat _ c)
    {i p : Nat} {n : AName} {j r : Nat} (h1 : Ended S h ev N i p n t row bases off j r)
    (hr : BitVec.ofNat (8 * row.ty.sizeof) r ≠ BitVec.ofNat _ c) :
    ∃ q v am r', Ev.done q (.upd t (bases t + off).toInt row.mpi (.cswap c v) am) r' ∈ (List.range j).map ev ∧
      BitVec.ofNat (8 * row.ty.sizeof) r' = BitVec.ofNat _ c := by
  have hb : row.mpi.bytes = row.ty.sizeof := by obtain ⟨⟨_, _, _, _, _, h4, _⟩, _⟩ := h1; exact row_bytes h4
  obtain ⟨a1, a2, a3, a4⟩ := h1
  obtain ⟨_, _, _, ⟨am, e1⟩, _⟩ := C97_return x a1 a2 a3 a4
  rw [← hb] at h0 hr ⊢
  have ho := only_named hb (N := j) (P := Claims (8 * row.mpi.bytes) c) (Q := fun n => n.rt.isCswap = true ∧ n.cond = c ∧
      BitVec.ofNat (8 * row.ty.sizeof) n.value ≠ BitVec.ofNat _ c) (fun n h => by
    obtain ⟨q1, q2, q3⟩ := h
    refine ⟨n.value, ?_, by rw [hb]; exact q3⟩
    rw [means_cswap q1, q2]) (fun k hk => hl k (by omega))
  have ho' := only_named hb (N := N) (P := Claims (8 * row.mpi.bytes) c) (Q := fun n => n.rt.isCswap = true ∧ n.cond = c ∧
      BitVec.ofNat (8 * row.ty.sizeof) n.value ≠ BitVec.ofNat _ c) (fun n h => by
    obtain ⟨q1, q2, q3⟩ := h
    refine ⟨n.value, ?_, by rw [hb]; exact q3⟩
    rw [means_cswap q1, q2]) hl
  have hn' : ∀ y, (bases t + off).toInt ≤ y → y < (bases t + off).toInt + row.mpi.bytes → NoWriter (h 0) (t, y) := by
    rw [hb]; exact hn
  have hw := C75_winner (exec_run x.step) hn' ho' h0
  have hpos : 0 < (acts t (bases t + off).toInt row.mpi ((List.range j).map ev)).length := by
    rcases Nat.eq_zero_or_pos (acts t (bases t + off).toInt row.mpi ((List.range j).map ev)).length with hz | hz
    · exact absurd ((hw _ _ (acts_at a4 e1)).2 hz) hr
    · exact hz
  have hrun : Run S (h 0) ((List.range j).map ev) (h j) := exec_run fun k hk => x.step k (by omega)
  have hw' := C75_winner hrun hn' ho h0 0 _ (List.getElem?_eq_getElem hpos)
  have hmem := List.getElem_mem hpos
  obtain ⟨v, hv, _⟩ := only_acts hrun hn' ho _ hmem
  obtain ⟨am', hin⟩ := acts_mem hmem
  rw [hv] at hin
  exact ⟨_, v, am', _, hin, hw'.2 rfl⟩

/-! ## Sums, and routines without a result -/

/-- the calls on the object: `nm k` is the PE and the call made in step `k`, if one is made on the object -/
def Named (S : Sys) (h : Nat → G) (ev : Nat → Ev) (N t : Nat) (row : Row) (bases : Nat → BitVec 64) (off : BitVec 64)
    (nm : Nat → Option (Nat × AName)) : Prop :=
  (∀ k < N, ∀ p n, nm k = some (p, n) → Aimed S h ev k p n t row bases off) ∧
  ∀ k < N, nm k = none → ¬ Touch (ev k) t (bases t + off).toInt row.ty.sizeof

/-- the sum of the operands -/
def operands (nm : Nat → Option (Nat × AName)) (N : Nat) : Nat :=
  ((List.range N).map fun k => match nm k with
    | some (_, n) => (n.rt.operand n.value).getD 0
    | none => 0).sum

theorem added_named {S : Sys} {N : Nat} {h : Nat → G} {ev : Nat → Ev} {t : Nat} {row : Row} {bases : Nat → BitVec 64} {off : BitVec 64}
    (hb : row.mpi.bytes = row.ty.sizeof) {nm : Nat → Option (Nat × AName)} (hm : Named S h ev N t row bases off nm) :
    added t (bases t + off).toInt row.mpi ((List.range N).map ev) = BitVec.ofNat _ (operands nm N) := by
  induction N with
  | zero => rfl
  | succ N ih =>
    have ih := ih ⟨fun k hk => hm.1 k (by omega), fun k hk => hm.2 k (by omega)⟩
    unfold operands at ih ⊢
    rw [List.range_succ, List.map_append, added_append, ih, List.map_append, List.sum_append, BitVec.ofNat_add]
    congr 1
    simp only [List.map_cons, List.map_nil, List.sum_cons, List.sum_nil, Nat.add_zero]
    cases hk : nm N with
    | some y =>
      obtain ⟨p, n⟩ := y
      rw [(aimed_ev (hm.1 N (by omega) p n hk)).1]
      simp only [added, and_self, if_true, means_add, add_zero]
    | none =>
      have ht := hm.2 N (by omega) hk
      cases he : ev N with
      | amo p' t' ctx addr a' ty' op ep =>
        simp only [added, add_zero]
        rw [if_neg]
        · rfl
        · rintro ⟨rfl, rfl, rfl⟩
          have := bytes_pos row.mpi
          rw [he] at ht
          exact ht ⟨_, le_refl _, by rw [← hb]; omega, rfl, le_refl _, by dsimp only; omega⟩
      | put _ _ _ _ _ _ _ => rfl
      | get _ _ _ _ _ _ _ => rfl
      | store _ _ _ => rfl
      | poll _ _ _ _ => rfl
      | touch _ _ => rfl
      | call _ _ => rfl
      | enter _ => rfl
      | leave _ => rfl
      | done _ _ _ => rfl
      | tau => rfl

/-- **C97** (counters). An integer object that is changed only by atomic additions and increments of its type (`add`, `inc`, `fetch_add`,
`fetch_inc`, in any version) of any PEs. Once some PE `q` has left a barrier that every PE entered after its last call, the object has grown by
exactly the sum of the operands of all calls, modulo its size. Not covered: contexts and spaces a barrier does not complete (`BarCov`, see C65). -/
theorem C97_sum_partial {S : Sys} {N : Nat} {h : Nat → G} {ev : Nat → Ev} (x : Exec S N h ev) {t : Nat} {row : Row} {bases : Nat → BitVec 64}
    {off : BitVec 64} (hrow : row ∈ stdRows) (hn : Calm (h 0) t (bases t + off).toInt row.ty.sizeof) {nm : Nat → Option (Nat × AName)}
    (hm : Named S h ev N t row bases off nm) {q : Nat} (hq : q < S.npes)
    (hc : ∀ k < N, ∀ p n, nm k = some (p, n) → (n.rt.operand n.value).isSome ∧ (h k).arr p < (h N).lv q ∧
      BarCov (S.cf p) (!(S.cf p).amoDirect) (if n.isCtx then n.ctx else none) n.dest) :
    Api.wordAt ((h N).mem t) (bases t + off).toInt row.ty.sizeof =
      Api.wordAt ((h 0).mem t) (bases t + off).toInt row.ty.sizeof + BitVec.ofNat _ (operands nm N) := by
  have hb : row.mpi.bytes = row.ty.sizeof ∧ row.mpi ∈ Amo.stdTypes := by
    have : ∀ r ∈ stdRows, r.mpi.bytes = r.ty.sizeof ∧ r.mpi ∈ Amo.stdTypes := by decide
    exact this row hrow
  have hn' : ∀ y, (bases t + off).toInt ≤ y → y < (bases t + off).toInt + row.mpi.bytes → NoWriter (h 0) (t, y) := by
    rw [hb.1]; exact hn
  have hs := C67_sum_partial x.reach (exec_run x.step) hb.2 hn' hq (fun e he ht => by
    obtain ⟨k, hk, rfl⟩ := List.mem_map.1 he
    have hk := List.mem_range.1 hk
    unfold Ev.touches at ht
    rw [hb.1] at ht
    cases hnm : nm k with
    | none => exact absurd ht (hm.2 k hk hnm)
    | some y =>
      obtain ⟨p, n⟩ := y
      obtain ⟨c1, c2, c3⟩ := hc k hk p n hnm
      obtain ⟨v, hv⟩ := Option.isSome_iff_exists.1 c1
      have e := (aimed_ev (hm.1 k hk p n hnm)).1
      refine ⟨⟨p, _, _, _, _, v, e, by rw [means_add]; exact hv⟩, ?_⟩
      rw [e]
      exact ⟨c2, c3⟩)
  rw [added_named hb.1 hm] at hs
  rw [← hb.1]
  exact hs

/-- the calls of PE `p` on the object that ask for `op` -/
noncomputable def called (nm : Nat → Option (Nat × AName)) (N p : Nat) (op : Amo.Api) : Nat :=
  open Classical in (List.range N).countP fun k => decide (∃ n, nm k = some (p, n) ∧ n.rt.means n.cond n.value = op)

/-- the times such a call took effect -/
noncomputable def effects (ev : Nat → Ev) (N p t : Nat) (a : Int) (ty : TyIdx) (op : Amo.Api) : Nat :=
  open Classical in (List.range N).countP fun k => decide (∃ am r, ev k = .done p (.upd t a ty op am) r)

theorem called_eq {S : Sys} {N : Nat} {h : Nat → G} {ev : Nat → Ev} {t : Nat} {row : Row} {bases : Nat → BitVec 64} {off : BitVec 64}
    (hb : row.mpi.bytes = row.ty.sizeof) {nm : Nat → Option (Nat × AName)} (hm : Named S h ev N t row bases off nm) (p : Nat) (op : Amo.Api) :
    open Classical in ((List.range N).map ev).countP (Ev.isCall p fun i => decide (i.t = t ∧ i.a = (bases t + off).toInt ∧ i.ty = row.mpi) && decide (i.api = op)) =
      called nm N p op := by
  classical
  unfold called
  rw [List.countP_map]
  refine List.countP_congr (fun k hk => ?_)
  have hk := List.mem_range.1 hk
  simp only [Function.comp, decide_eq_true_eq]
  cases hnm : nm k with
  | some y =>
    obtain ⟨p', n⟩ := y
    rw [(aimed_ev (hm.1 k hk p' n hnm)).1]
    simp only [Ev.isCall, and_self, decide_true, Bool.true_and, Bool.and_eq_true, decide_eq_true_eq, Option.some.injEq, Prod.mk.injEq]
    constructor
    · rintro ⟨rfl, rfl⟩; exact ⟨n, ⟨rfl, rfl⟩, rfl⟩
    · rintro ⟨n', ⟨rfl, rfl⟩, rfl⟩; exact ⟨rfl, rfl⟩
  | none =>
    have ht := hm.2 k hk hnm
    constructor
    · intro hc
      exfalso
      cases he : ev k with
      | amo p' t' ctx addr a' ty' op' ep =>
        rw [he] at hc ht
        simp only [Ev.isCall, Bool.and_eq_true, decide_eq_true_eq] at hc
        obtain ⟨rfl, ⟨rfl, rfl, rfl⟩, rfl⟩ := hc
        have := bytes_pos row.mpi
        exact ht ⟨_, le_refl _, by rw [← hb]; omega, rfl, le_refl _, by dsimp only; omega⟩
      | put _ _ _ _ _ _ _ => rw [he] at hc; cases hc
      | get _ _ _ _ _ _ _ => rw [he] at hc; cases hc
      | store _ _ _ => rw [he] at hc; cases hc
      | poll _ _ _ _ => rw [he] at hc; cases hc
      | touch _ _ => rw [he] at hc; cases hc
      | call _ _ => rw [he] at hc; cases hc
      | enter _ => rw [he] at hc; cases hc
      | leave _ => rw [he] at hc; cases hc
      | done _ _ _ => rw [he] at hc; cases hc
      | tau => rw [he] at hc; cases hc
    · rintro ⟨n, hn, _⟩
      cases hn

theorem effects_eq (ev : Nat → Ev) (N p t : Nat) (a : Int) (ty : TyIdx) (op : Amo.Api) :
    open Classical in ((List.range N).map ev).countP (Ev.isDone p fun i => decide (i.t = t ∧ i.a = a ∧ i.ty = ty) && decide (i.api = op)) =
      effects ev N p t a ty op := by
  classical
  unfold effects
  rw [List.countP_map]
  refine List.countP_congr (fun k _ => ?_)
  simp only [Function.comp, decide_eq_true_eq]
  constructor
  · intro hc
    cases he : ev k with
    | done q b r =>
      rw [he] at hc
      cases b with
      | upd d a' ty' op' am =>
        simp only [Ev.isDone, Atom.is, Bool.and_eq_true, decide_eq_true_eq] at hc
        obtain ⟨rfl, ⟨rfl, rfl, rfl⟩, rfl⟩ := hc
        exact ⟨am, r, rfl⟩
      | set _ _ _ => simp [Ev.isDone, Atom.is] at hc
      | mv _ _ _ _ => simp [Ev.isDone, Atom.is] at hc
    | amo _ _ _ _ _ _ _ _ => rw [he] at hc; cases hc
    | put _ _ _ _ _ _ _ => rw [he] at hc; cases hc
    | get _ _ _ _ _ _ _ => rw [he] at hc; cases hc
    | store _ _ _ => rw [he] at hc; cases hc
    | poll _ _ _ _ => rw [he] at hc; cases hc
    | touch _ _ => rw [he] at hc; cases hc
    | call _ _ => rw [he] at hc; cases hc
    | enter _ => rw [he] at hc; cases hc
    | leave _ => rw [he] at hc; cases hc
    | tau => rw [he] at hc; cases hc
  · rintro ⟨am, r, he⟩
    rw [he]
    simp [Ev.isDone, Atom.is]

theorem calm_zero {g : G} {t : Nat} {a : Int} {ty : TyIdx} (hn : NoWriter g (t, a)) (p : Nat) (P : Amo.Api → Bool) :
    inFlight p (fun i => decide (i.t = t ∧ i.a = a ∧ i.ty = ty) && P i.api) g = 0 := by
  refine inFlight_zero (fun b hb => ?_)
  cases b with
  | set d a' v => rfl
  | mv s sa d a' => rfl
  | upd d a' ty' op am =>
    simp only [Atom.is, Bool.and_eq_false_iff, decide_eq_false_iff_not]
    left
    rintro ⟨rfl, rfl, rfl⟩
    have := bytes_pos ty'
    exact hn _ hb ⟨rfl, le_refl _, by dsimp only; omega⟩

/-- **C97** (no call takes effect twice): whatever PE `p` calls on the object, at any moment of any execution, no more effects than calls -/
theorem C97_at_most_once {S : Sys} {N : Nat} {h : Nat → G} {ev : Nat → Ev} (x : Exec S N h ev) {t : Nat} {row : Row} {bases : Nat → BitVec 64}
    {off : BitVec 64} (hb : row ∈ extRows) (hn : Calm (h 0) t (bases t + off).toInt row.ty.sizeof) {nm : Nat → Option (Nat × AName)}
    (hm : Named S h ev N t row bases off nm) (p : Nat) (op : Amo.Api) :
    effects ev N p t (bases t + off).toInt row.mpi op ≤ called nm N p op := by
  classical
  have hb := (row_ok row hb).1
  have hpos := bytes_pos row.mpi
  rw [← called_eq hb hm, ← effects_eq]
  exact C73_at_most_once (exec_run x.step) (hn _ (le_refl _) (by omega)) p (fun o => decide (o = op))

/-- **C97** (quiet). When `shmem_quiet` or `shmem_fence` of PE `p`, called in step `k`, returns, every call PE `p` has made on the object before has
taken effect exactly once, with or without result, on every context and object. -/
theorem C97_quiet {S : Sys} {N : Nat} {h : Nat → G} {ev : Nat → Ev} (x : Exec S N h ev) {t : Nat} {row : Row} {bases : Nat → BitVec 64}
    {off : BitVec 64} (hb : row ∈ extRows) (hn : Calm (h 0) t (bases t + off).toInt row.ty.sizeof) {nm : Nat → Option (Nat × AName)}
    (hm : Named S h ev N t row bases off nm) {p k : Nat} (hk : k < N) (hq : ev k = .call p (.quiet none) ∨ ev k = .call p (.fence none))
    (op : Amo.Api) : effects ev (k + 1) p t (bases t + off).toInt row.mpi op = called nm (k + 1) p op := by
  classical
  have hb := (row_ok row hb).1
  have hpos := bytes_pos row.mpi
  have hm' : Named S h ev (k + 1) t row bases off nm := ⟨fun j hj => hm.1 j (by omega), fun j hj => hm.2 j (by omega)⟩
  rw [← called_eq hb hm', ← effects_eq]
  have hrun : Run S (h 0) ((List.range (k + 1)).map ev) (h (k + 1)) := exec_run fun j hj => x.step j (by omega)
  have hgi : GI S (h k) := gi_run (gi_reach x.reach) (exec_run fun j hj => x.step j (by omega))
  have hst := x.step k hk
  have hz : (h (k + 1)).fly p = [] ∧ (h (k + 1)).busy p = [] := by
    rcases hq with hq | hq <;> rw [hq] at hst
    · exact quiet_step hgi (Or.inl rfl) hst
    · exact quiet_step hgi (Or.inr rfl) hst
  have hc := count_run p (fun i => decide (i.t = t ∧ i.a = (bases t + off).toInt ∧ i.ty = row.mpi) && decide (i.api = op)) hrun
  rw [calm_zero (hn _ (le_refl _) (by omega)) p (fun o => decide (o = op))] at hc
  have h0 : inFlight p (fun i => decide (i.t = t ∧ i.a = (bases t + off).toInt ∧ i.ty = row.mpi) && decide (i.api = op)) (h (k + 1)) = 0 := by
    unfold inFlight
    rw [hz.1, hz.2]
    rfl
  rw [h0] at hc
  omega

/-- **C97** (barrier). The same for all PEs once some PE `q` has left a barrier that every PE entered after its last call. Not covered: contexts
and spaces a barrier does not complete (`BarCov`, see C65). -/
theorem C97_barrier_partial {S : Sys} {N : Nat} {h : Nat → G} {ev : Nat → Ev} (x : Exec S N h ev) {t : Nat} {row : Row}
    {bases : Nat → BitVec 64} {off : BitVec 64} (hb : row ∈ extRows) (hn : Calm (h 0) t (bases t + off).toInt row.ty.sizeof)
    {nm : Nat → Option (Nat × AName)} (hm : Named S h ev N t row bases off nm) {q : Nat} (hq : q < S.npes)
    (hc : ∀ k < N, ∀ p n, nm k = some (p, n) → (h k).arr p < (h N).lv q ∧
      BarCov (S.cf p) (!(S.cf p).amoDirect) (if n.isCtx then n.ctx else none) n.dest) (p : Nat) (op : Amo.Api) :
    effects ev N p t (bases t + off).toInt row.mpi op = called nm N p op := by
  classical
  have hb := (row_ok row hb).1
  have hpos := bytes_pos row.mpi
  rw [← called_eq hb hm, ← effects_eq]
  refine C73_exactly_once_partial x.reach (exec_run x.step) (hn _ (le_refl _) (by omega)) hq (fun e he ht => ?_) p (fun o => decide (o = op))
  obtain ⟨k, hk, rfl⟩ := List.mem_map.1 he
  have hk := List.mem_range.1 hk
  unfold Ev.touches at ht
  rw [hb] at ht
  cases hnm : nm k with
  | none => exact absurd ht (hm.2 k hk hnm)
  | some y =>
    obtain ⟨p, n⟩ := y
    obtain ⟨c2, c3⟩ := hc k hk p n hnm
    rw [(aimed_ev (hm.1 k hk p n hnm)).1]
    exact ⟨c2, c3⟩

/-- **C97** (each effect is that of the name). Whenever an access of a call on the object is performed, the object on the target PE becomes what the
name of some routine called by that PE says, and nothing else changes. -/
theorem C97_effect {S : Sys} {N : Nat} {h : Nat → G} {ev : Nat → Ev} (x : Exec S N h ev) {t : Nat} {row : Row} {bases : Nat → BitVec 64}
    {off : BitVec 64} (hb : row ∈ extRows) (hn : Calm (h 0) t (bases t + off).toInt row.ty.sizeof) {nm : Nat → Option (Nat × AName)}
    (hm : Named S h ev N t row bases off nm) {j p r : Nat} {op : Amo.Api} {am : Bool} (hj : j < N)
    (he : ev j = .done p (.upd t (bases t + off).toInt row.mpi op am) r) :
    (∃ k < j, ∃ n, nm k = some (p, n) ∧ n.rt.means n.cond n.value = op) ∧
    Api.wordAt ((h (j + 1)).mem t) (bases t + off).toInt row.ty.sizeof =
      (Amo.spec (Api.wordAt ((h j).mem t) (bases t + off).toInt row.ty.sizeof) op).1 ∧
    ∀ q y, ¬ (q = t ∧ (bases t + off).toInt ≤ y ∧ y < (bases t + off).toInt + row.ty.sizeof) → (h (j + 1)).mem q y = (h j).mem q y := by
  classical
  have hb' := (row_ok row hb).1
  have h1 := C97_at_most_once (N := j + 1) ⟨x.reach, fun k hk => x.step k (by omega)⟩ hb hn
    (nm := nm) ⟨fun k hk => hm.1 k (by omega), fun k hk => hm.2 k (by omega)⟩ p op
  have hpos : 0 < effects ev (j + 1) p t (bases t + off).toInt row.mpi op := by
    unfold effects
    rw [List.countP_pos_iff]
    exact ⟨j, List.mem_range.2 (by omega), by simp only [decide_eq_true_eq]; exact ⟨am, r, he⟩⟩
  have h2 : 0 < called nm (j + 1) p op := by omega
  unfold called at h2
  rw [List.countP_pos_iff] at h2
  obtain ⟨k, hk, hk'⟩ := h2
  simp only [decide_eq_true_eq] at hk'
  obtain ⟨n, hn1, hn2⟩ := hk'
  have hkj := List.mem_range.1 hk
  have hne : k ≠ j := by
    rintro rfl
    have := (aimed_ev (hm.1 k hj p n hn1)).1
    rw [he] at this
    cases this
  have hrow : row ∈ n.rt.rows := by obtain ⟨_, _, _, _, _, h4, _⟩ := hm.1 k (by omega) p n hn1; exact h4
  have hty : row.mpi ∈ op.types := hn2 ▸ rows_types n.rt n.cond n.value hrow
  have hp : (Atom.upd t (bases t + off).toInt row.mpi op am).perform S.fp S.junk (h j).mem = .ok (h (j + 1)).mem := by
    have hst := x.step j hj
    rw [he] at hst
    generalize h (j + 1) = g' at hst
    cases hst with
    | perform q l1 l2 pd t1 t2 b m' hq hl e => exact e
    | performBusy q t1 t2 b m' hq hl e => exact e
  refine ⟨⟨k, by omega, n, hn1, hn2⟩, ?_, ?_⟩
  · rw [← hb']; exact (perform_upd hty hp).1
  · intro q y hq
    refine perform_frame (k := (q, y)) hp ?_
    rintro ⟨h3, h4, h5⟩
    rw [hb'] at h5
    exact hq ⟨h3, h4, h5⟩

end Verif.Flow
