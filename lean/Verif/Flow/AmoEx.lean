import Verif.Flow.AmoProps
import Verif.Flow.Ex
import Verif.Vis.LinEx
/-!
# C97: calls and executions exist

A call of an atomic routine on a symmetric address by a PE that is not in another call is a step, and it can return; concrete executions meet the
hypotheses of C97.
-/
namespace Verif.Flow
open Verif.Sobj Verif.Rma Verif.Vis Verif.Api
open Verif.Order (St Pend Cfg)

/-- **C97** (calls happen): a PE that is in no other call, on a symmetric address, with a type of the table of the routine: if the order model lets
the call proceed, it is a step; a call with a result then waits for its access -/
theorem C97_call {S : Sys} {gpu : Bool} {mode : Mode} {n : AName} (hx : n.isCtx = true → n.rt.deprecated = false) (hr : n.row ∈ n.rt.rows) {p : Nat}
    {g0 : G} (hfree : Free S g0 p) (hm : mode = .abs → (S.cf p).dyn = true) {bases : Nat → BitVec 64} {off : BitVec 64}
    (hs : SymAddr (procs S g0) S.npes p n.tgt (pathOf (S.cf p) (amoKind (n.rt.means n.cond n.value)) gpu mode)
      (ctxObj (g0.pe p) (if n.isCtx then n.ctx else none)) bases off)
    (ha : n.dest = bases p + off) {s' : St}
    (e : Order.step (S.cf p) (g0.pe p) (.issue (if n.isCtx then n.ctx else none) n.dest 1 n.tgt (amoKind (n.rt.means n.cond n.value)) gpu) = .ok s')
    (d : Done (g0.fly p) s') :
    ∃ ev g1, ACalls S gpu mode n p g0 ev g1 ∧
      (n.rt.void = false → ∃ am, g1.busy p = [.upd n.tgt (bases n.tgt + off).toInt n.row.mpi (n.rt.means n.cond n.value) am]) := by
  obtain ⟨c, hc⟩ := body_some n.rt n.isCtx hx
  have hctx : c.ctx = n.isCtx := by
    obtain ⟨rt, row, isCtx, _, _, _, _, _, _⟩ := n
    dsimp only at hc ⊢
    cases rt <;> cases isCtx <;> first | (cases hc; rfl) | cases hc
  have hres := symm_resolve hs
  rw [← ha] at hres
  have hty := rows_types n.rt n.cond n.value hr
  cases hv : n.rt.void with
  | true =>
    have hret : returns (n.rt.means n.cond n.value) = false := by rw [means_void, hv]; rfl
    have st := Step.amo (S := S) (g := g0) p n.tgt _ n.dest _ n.row.mpi _ gpu mode s' hfree hm hty hret e hres d
    exact ⟨_, _, ⟨c, _, _, hc, body_api hc _ _, hm, by rw [hctx]; exact hres, by rw [hctx], st⟩, fun h => by cases h⟩
  | false =>
    have hret : returns (n.rt.means n.cond n.value) = true := by rw [means_void, hv]; rfl
    have st := Step.amoRet (S := S) (g := g0) p n.tgt _ n.dest _ n.row.mpi _ gpu mode s' hfree hm hty hret e hres d
    refine ⟨_, _, ⟨c, _, _, hc, body_api hc _ _, hm, by rw [hctx]; exact hres, by rw [hctx], st⟩, fun _ => ?_⟩
    exact ⟨!(S.cf p).isDirect (amoKind (n.rt.means n.cond n.value)) gpu, by simp only [afterRet, upd_at, if_true]⟩

/-- **C97** (calls return): while a PE waits in a call for its access, the access can be performed at once, and the call returns; an addition to a
signed type by active message must not overflow (C87) -/
theorem C97_answer {S : Sys} {g : G} {p t : Nat} (hp : p < S.npes) {a : Int} {ty : Amo.TyIdx} {op : Amo.Api} {am : Bool}
    (hb : g.busy p = [.upd t a ty op am]) (ht : ty ∈ op.types)
    (hs : am = false ∨ ty.kind ≠ .sint ty.bytes ∨ op.addend = none) : ∃ r g', Step S g (.done p (.upd t a ty op am) r) g' ∧ g'.busy p = [] := by
  have : ∃ m', (Atom.upd t a ty op am).perform S.fp S.junk g.mem = .ok m' := by
    cases am with
    | false => exact ⟨_, rfl⟩
    | true =>
      have : ∃ r, Amo.am S.fp S.junk (Vis.view (g.mem t) a) 0 ty op = .ok r := by
        by_cases hf : ty = .float ∨ ty = .double
        · obtain ⟨r, e, _⟩ := Amo.C24_fp S.fp S.junk (Vis.view (g.mem t) a) 0 ht hf
          exact ⟨r, e⟩
        · obtain ⟨r, e, _⟩ := Amo.am_int S.fp S.junk (Vis.view (g.mem t) a) 0 ht ⟨fun e => hf (Or.inl e), fun e => hf (Or.inr e)⟩ (fun hk v hv => by
            rcases hs with h | h | h
            · cases h
            · exact absurd hk h
            · rw [h] at hv; cases hv)
          exact ⟨r, e⟩
      obtain ⟨r, e⟩ := this
      exact ⟨_, by unfold Atom.perform; dsimp only; rw [if_pos rfl, e, Res.bind_ok]⟩
  obtain ⟨m', e⟩ := this
  exact ⟨_, _, Step.performBusy (S := S) (g := g) p [] [] _ m' hp hb e, by simp⟩

/-! ## Concrete executions -/

namespace AEx

/-- an execution in index form -/
theorem run_exec {S : Sys} {g g' : G} {l : List Ev} (r : Run S g l g') :
    ∃ (h : Nat → G) (ev : Nat → Ev), h 0 = g ∧ h l.length = g' ∧ (List.range l.length).map ev = l ∧ ∀ k < l.length, Step S (h k) (ev k) (h (k + 1)) := by
  induction r with
  | nil g => exact ⟨fun _ => g, fun _ => .tau, rfl, rfl, rfl, fun k hk => by cases hk⟩
  | @cons g g1 g2 e l s r ih =>
    obtain ⟨h, ev, h0, h1, h2, h3⟩ := ih
    refine ⟨fun k => match k with | 0 => g | k + 1 => h k, fun k => match k with | 0 => e | k + 1 => ev k, rfl, h1, ?_, ?_⟩
    · rw [List.length_cons, List.range_succ_eq_map, List.map_cons, List.map_map]
      exact congrArg (e :: ·) h2
    · intro k hk
      cases k with
      | zero => show Step S g e (h 0); rw [h0]; exact s
      | succ k => exact h3 k (by simpa using hk)

/-- the row of `long` -/
def exRow : Row := ⟨.long, .long⟩

/-- `shmem_long_atomic_fetch_inc(dest, 1)` by PE 0 -/
def exA : AName := ⟨.fetchInc, exRow, false, none, 0x10018#64, 0, 0, 0, 1⟩
/-- `shmem_ctx_long_atomic_fetch_inc_nbi(SHMEM_CTX_DEFAULT, fetch, dest, 1)` by PE 1 -/
def exB : AName := ⟨.fetchIncNbi, exRow, true, none, 0x20018#64, 0x20800#64, 0, 0, 1⟩
/-- `shmem_long_atomic_compare_swap(dest, 0, 1, 1)` by PE 0 -/
def exC : AName := ⟨.cswap, exRow, false, none, 0x10018#64, 0, 0, 1, 1⟩
/-- `shmem_long_cswap(dest, 0, 2, 1)` by PE 1 -/
def exD : AName := ⟨.dCswap, exRow, false, none, 0x20018#64, 0, 0, 2, 1⟩

/-- the states of `exRun` in index form -/
def exH (op op' : Amo.Api) : Nat → G
  | 0 => ginit exM
  | 1 => exG1 op
  | 2 => exG2 op
  | 3 => exG3 op op'
  | _ + 4 => exG4 op op'

/-- its events -/
def exE (op op' : Amo.Api) : Nat → Ev
  | 0 => .amo 0 1 none 0x10018#64 0x20018 .long op 0
  | 1 => .done 0 (exU op) (exRes exM op)
  | 2 => .amo 1 1 none 0x20018#64 0x20018 .long op' 0
  | 3 => .done 1 (exU op') (exRes (exMem exM op) op')
  | _ + 4 => .tau

/-- the routines of the example -/
def ExOp (op : Amo.Api) : Prop := returns op = true ∧ Amo.TyIdx.long ∈ op.types ∧ (amoKind op = .fetch false ∨ amoKind op = .cswap)

theorem exExec {op op' : Amo.Api} (h : ExOp op) (h' : ExOp op') : Exec (exS true) 4 (exH op op') (exE op op') := by
  refine ⟨⟨exM, [], Run.nil _⟩, fun k hk => ?_⟩
  match k, hk with
  | 0, _ => exact exStep1 h.1 h.2.1 h.2.2
  | 1, _ => exact exStep2 op
  | 2, _ => exact exStep3 h'.1 h'.2.1 h'.2.2
  | 3, _ => exact exStep4 op op'

theorem exSpaces (op : Amo.Api) : ∀ q, ((exG2 op).pe q).spaces = [] := by
  intro q
  show (Function.update (fun _ => Order.init) 0 exPd q).spaces = []
  rw [upd_at]
  split <;> rfl

theorem exAim0 {op op' : Amo.Api} (h : ExOp op) {n : AName} (h1 : n.rt.means n.cond n.value = op) (h2 : n.row = exRow)
    (h3 : exRow ∈ n.rt.rows) (h4 : n.ctx = none) (h5 : n.dest = 0x10018#64) (h6 : n.tgt = 1) (h7 : n.isCtx = true → n.rt.deprecated = false) :
    Aimed (exS true) (exH op op') (exE op op') 0 0 n 1 exRow exBases 0x18#64 := by
  obtain ⟨c, hc⟩ := body_some n.rt n.isCtx h7
  have e1 : (if n.isCtx = true then n.ctx else none) = none := by rw [h4]; split <;> rfl
  have e2 : (if c.ctx = true then n.ctx else none) = none := by rw [h4]; split <;> rfl
  have hs : SymAddr (procs (exS true) (exH op op' 0)) (exS true).npes 0 1 (pathOf ((exS true).cf 0) (amoKind (n.rt.means n.cond n.value)) true .rel)
      (ctxObj ((exH op op' 0).pe 0) (if n.isCtx then n.ctx else none)) exBases 0x18#64 := by
    rw [e1, h1]
    exact ex_sym (fun _ => rfl) (by decide) _ (by rcases h.2.2 with hk | hk <;> rw [hk] <;> (intro h; cases h)) rfl (by decide) (by decide)
  refine ⟨true, .rel, ⟨c, op, 0x20018#64, hc, ?_, (fun h => by cases h), ?_, ?_, exStep1 h.1 h.2.1 h.2.2⟩, h6, h2, h3, h5, hs⟩
  · rw [body_api hc, h1]
  · have := symm_resolve hs
    rw [e1, h1] at this
    rw [e2, h6, h5]
    exact this
  · rw [e2, h5, h6, h2]; rfl

theorem exAim2 {op op' : Amo.Api} (h : ExOp op') {n : AName} (h1 : n.rt.means n.cond n.value = op') (h2 : n.row = exRow)
    (h3 : exRow ∈ n.rt.rows) (h4 : n.ctx = none) (h5 : n.dest = 0x20018#64) (h6 : n.tgt = 1) (h7 : n.isCtx = true → n.rt.deprecated = false) :
    Aimed (exS true) (exH op op') (exE op op') 2 1 n 1 exRow exBases 0x18#64 := by
  obtain ⟨c, hc⟩ := body_some n.rt n.isCtx h7
  have e1 : (if n.isCtx = true then n.ctx else none) = none := by rw [h4]; split <;> rfl
  have e2 : (if c.ctx = true then n.ctx else none) = none := by rw [h4]; split <;> rfl
  have hs : SymAddr (procs (exS true) (exH op op' 2)) (exS true).npes 1 1 (pathOf ((exS true).cf 1) (amoKind (n.rt.means n.cond n.value)) true .rel)
      (ctxObj ((exH op op' 2).pe 1) (if n.isCtx then n.ctx else none)) exBases 0x18#64 := by
    rw [e1, h1]
    exact ex_sym (exSpaces op) (by decide) _ (by rcases h.2.2 with hk | hk <;> rw [hk] <;> (intro h; cases h)) rfl (by decide) (by decide)
  refine ⟨true, .rel, ⟨c, op', 0x20018#64, hc, ?_, (fun h => by cases h), ?_, ?_, exStep3 h.1 h.2.1 h.2.2⟩, h6, h2, h3, h5, hs⟩
  · rw [body_api hc, h1]
  · have := symm_resolve hs
    rw [e1, h1] at this
    rw [e2, h6, h5]
    exact this
  · rw [e2, h5, h6, h2]; rfl

theorem exBusy (op op' : Amo.Api) : (exG2 op).busy 0 = [] ∧ (exG4 op op').busy 1 = [] := by
  constructor
  · show Function.update (exG1 op).busy 0 ([] ++ []) 0 = []
    rw [Function.update_self]; rfl
  · show Function.update (exG3 op op').busy 1 ([] ++ []) 1 = []
    rw [Function.update_self]; rfl

theorem exRet (op op' : Amo.Api) : Returns (exH op op') (exE op op') 0 0 1 (exRes exM op) ∧
    Returns (exH op op') (exE op op') 1 2 3 (exRes (exMem exM op) op') := by
  refine ⟨⟨by decide, fun k h1 h2 => ?_, (exBusy op op').1, _, rfl⟩, ⟨by decide, fun k h1 h2 => ?_, (exBusy op op').2, _, rfl⟩⟩
  · obtain rfl : k = 1 := by omega
    show Function.update (ginit exM).busy 0 [exU op] 0 ≠ []
    rw [Function.update_self]
    exact List.cons_ne_nil _ _
  · obtain rfl : k = 3 := by omega
    show Function.update (exG2 op).busy 1 [exU op'] 1 ≠ []
    rw [Function.update_self]
    exact List.cons_ne_nil _ _

theorem exTouch {op op' : Amo.Api} {P : Nat → Prop} (h0 : P 0) (h2 : P 2) :
    ∀ k < 4, Touch (exE op op' k) 1 (exBases 1 + 0x18#64).toInt exRow.ty.sizeof → P k := by
  intro k hk ht
  obtain ⟨y, _, _, hw⟩ := ht
  have : k = 0 ∨ k = 1 ∨ k = 2 ∨ k = 3 := by omega
  rcases this with rfl | rfl | rfl | rfl
  · exact h0
  · exact absurd hw (fun h => h)
  · exact h2
  · exact absurd hw (fun h => h)

theorem exCalm : Calm (ginit exM) 1 (exBases 1 + 0x18#64).toInt exRow.ty.sizeof := fun _ _ _ => noWriter_init _ _

theorem exOpF : ExOp .finc := ⟨rfl, by decide, Or.inl rfl⟩
theorem exOpC (v : Nat) : ExOp (.cswap 0 v) := ⟨rfl, (by decide : Amo.TyIdx.long ∈ Amo.stdTypes), Or.inr rfl⟩

/-- hypotheses of `C97_return` and `C97_tickets` met: both PEs draw tickets with different versions of the routine and get 0 and 1 -/
example : exRes exM .finc = 0 ∧ exRes (exMem exM .finc) .finc = 1 ∧ exRes exM .finc ≠ exRes (exMem exM .finc) .finc ∧
    exRes exM .finc = (Api.wordAt ((exG1 .finc).mem 1) 0x20018 8).toNat := by
  have a0 : Aimed (exS true) (exH .finc .finc) (exE .finc .finc) 0 0 exA 1 exRow exBases 0x18#64 :=
    exAim0 exOpF rfl rfl (by decide) rfl rfl rfl (fun h => by cases h)
  have a2 : Aimed (exS true) (exH .finc .finc) (exE .finc .finc) 2 1 exB 1 exRow exBases 0x18#64 :=
    exAim2 exOpF rfl rfl (by decide) rfl rfl rfl (fun _ => rfl)
  have x := exExec exOpF exOpF
  exact ⟨by decide +kernel, by decide +kernel,
    C97_tickets x exCalm (exTouch ⟨_, _, a0, rfl⟩ ⟨_, _, a2, rfl⟩) (by decide) ⟨a0, rfl, (exRet _ _).1, by decide⟩ ⟨a2, rfl, (exRet _ _).2, by decide⟩
      (by decide),
    (C97_return x a0 rfl (exRet _ _).1 (by decide)).1⟩

/-- hypotheses of `C97_winner` and `C97_beaten` met: PE 0 wins, PE 1 does not -/
example : exRes exM (.cswap 0 1) = 0 ∧ BitVec.ofNat 64 (exRes (exMem exM (.cswap 0 1)) (.cswap 0 2)) ≠ BitVec.ofNat 64 0 ∧
    ∃ q v am r', Ev.done q (.upd 1 0x20018 .long (.cswap 0 v) am) r' ∈ (List.range 3).map (exE (.cswap 0 1) (.cswap 0 2)) ∧
      BitVec.ofNat 64 r' = BitVec.ofNat _ 0 := by
  have a0 : Aimed (exS true) (exH (.cswap 0 1) (.cswap 0 2)) (exE (.cswap 0 1) (.cswap 0 2)) 0 0 exC 1 exRow exBases 0x18#64 :=
    exAim0 (exOpC 1) rfl rfl (by decide) rfl rfl rfl (fun h => by cases h)
  have a2 : Aimed (exS true) (exH (.cswap 0 1) (.cswap 0 2)) (exE (.cswap 0 1) (.cswap 0 2)) 2 1 exD 1 exRow exBases 0x18#64 :=
    exAim2 (exOpC 2) rfl rfl (by decide) rfl rfl rfl (fun h => by cases h)
  have x := exExec (exOpC 1) (exOpC 2)
  have hl : ∀ k < 4, Touch (exE (.cswap 0 1) (.cswap 0 2) k) 1 (exBases 1 + 0x18#64).toInt exRow.ty.sizeof →
      ∃ p n, Aimed (exS true) (exH (.cswap 0 1) (.cswap 0 2)) (exE (.cswap 0 1) (.cswap 0 2)) k p n 1 exRow exBases 0x18#64 ∧ n.rt.isCswap = true ∧
      n.cond = 0 ∧ BitVec.ofNat (8 * exRow.ty.sizeof) n.value ≠ BitVec.ofNat _ 0 :=
    exTouch ⟨_, _, a0, rfl, rfl, by decide⟩ ⟨_, _, a2, rfl, rfl, by decide⟩
  have r1 : exRes exM (.cswap 0 1) = 0 := by decide +kernel
  have w := C97_winner x exCalm (c := 0) (by decide +kernel) hl ⟨a0, rfl, (exRet _ _).1, by decide⟩ ⟨a2, rfl, (exRet _ _).2, by decide⟩ (by decide)
    (by rw [r1])
  exact ⟨r1, w, C97_beaten x exCalm (c := 0) (by decide +kernel) hl ⟨a2, rfl, (exRet _ _).2, by decide⟩ w⟩

theorem aimed_congr {S : Sys} {h h' : Nat → G} {ev ev' : Nat → Ev} {k p : Nat} {n : AName} {t : Nat} {row : Row} {bases : Nat → BitVec 64}
    {off : BitVec 64} (ha : Aimed S h ev k p n t row bases off) (e1 : h' k = h k) (e2 : ev' k = ev k) (e3 : h' (k + 1) = h (k + 1)) :
    Aimed S h' ev' k p n t row bases off := by
  unfold Aimed at ha ⊢
  rw [e1, e2, e3]
  exact ha

/-- the example goes on -/
theorem exMore {op op' : Amo.Api} (h : ExOp op) (h' : ExOp op') {l : List Ev} {g : G} (r : Run (exS true) (exG4 op op') l g) :
    ∃ (hh : Nat → G) (ev : Nat → Ev), Exec (exS true) (4 + l.length) hh ev ∧ (∀ k ≤ 4, hh k = exH op op' k) ∧ (∀ k < 4, ev k = exE op op' k) ∧
      hh (4 + l.length) = g ∧ (∀ k, 4 ≤ k → k < 4 + l.length → ev k ∈ l) ∧ ∀ i (hi : i < l.length), ev (4 + i) = l[i] := by
  obtain ⟨h1, e1, a1, a2, a3, a4⟩ := run_exec r
  refine ⟨fun k => if k < 4 then exH op op' k else h1 (k - 4), fun k => if k < 4 then exE op op' k else e1 (k - 4), ⟨⟨exM, [], Run.nil _⟩, ?_⟩,
    ?_, ?_, ?_, ?_, ?_⟩
  · intro k hk
    by_cases hk4 : k < 4
    · rw [if_pos hk4, if_pos hk4]
      have st := (exExec h h').step k hk4
      by_cases hk5 : k + 1 < 4
      · rw [if_pos hk5]; exact st
      · obtain rfl : k = 3 := by omega
        rw [if_neg hk5, a1]; exact st
    · rw [if_neg hk4, if_neg hk4, if_neg (by omega), show k + 1 - 4 = k - 4 + 1 by omega]
      exact a4 (k - 4) (by omega)
  · intro k hk
    dsimp only
    by_cases hk4 : k < 4
    · rw [if_pos hk4]
    · obtain rfl : k = 4 := by omega
      rw [if_neg hk4, a1]; rfl
  · intro k hk
    dsimp only
    rw [if_pos hk]
  · dsimp only
    rw [if_neg (by omega), show 4 + l.length - 4 = l.length by omega, a2]
  · intro k h4 hk
    dsimp only
    rw [if_neg (by omega)]
    have : e1 (k - 4) ∈ (List.range l.length).map e1 := List.mem_map.2 ⟨k - 4, List.mem_range.2 (by omega), rfl⟩
    rw [a3] at this
    exact this
  · intro i hi
    dsimp only
    rw [if_neg (by omega), show 4 + i - 4 = i by omega]
    have := congrArg (fun x => x[i]?) a3
    simp only [List.getElem?_map, List.getElem?_range hi, Option.map_some, List.getElem?_eq_getElem hi, Option.some.injEq] at this
    exact this

/-- the calls of the example -/
def exNm : Nat → Option (Nat × AName)
  | 0 => some (0, exA)
  | 1 => none
  | 2 => some (1, exB)
  | _ + 3 => none

theorem exNamed {l : List Ev} {hh : Nat → G} {ev : Nat → Ev} (hk : ∀ k ≤ 4, hh k = exH .finc .finc k)
    (he : ∀ k < 4, ev k = exE .finc .finc k) (hl : ∀ k, 4 ≤ k → k < 4 + l.length → ev k ∈ l) (hw : ∀ e ∈ l, ∀ k, ¬ e.writes k) :
    Named (exS true) hh ev (4 + l.length) 1 exRow exBases 0x18#64 exNm := by
  have c0 : Aimed (exS true) hh ev 0 0 exA 1 exRow exBases 0x18#64 :=
    aimed_congr (exAim0 (op := .finc) (op' := .finc) exOpF rfl rfl (by decide) rfl rfl rfl (fun h => by cases h)) (hk 0 (by decide))
      (he 0 (by decide)) (hk 1 (by decide))
  have c2 : Aimed (exS true) hh ev 2 1 exB 1 exRow exBases 0x18#64 :=
    aimed_congr (exAim2 (op := .finc) (op' := .finc) exOpF rfl rfl (by decide) rfl rfl rfl (fun _ => rfl)) (hk 2 (by decide))
      (he 2 (by decide)) (hk 3 (by decide))
  constructor
  · intro k _ p n e
    match k, e with
    | 0, e => cases e; exact c0
    | 2, e => cases e; exact c2
    | 1, e => cases e
    | k + 3, e => cases e
  · rintro k hkl e ⟨y, _, _, hy⟩
    by_cases h4 : k < 4
    · rw [he k h4] at hy
      have : k = 0 ∨ k = 1 ∨ k = 2 ∨ k = 3 := by omega
      rcases this with rfl | rfl | rfl | rfl
      · cases e
      · exact hy
      · cases e
      · exact hy
    · exact hw _ (hl k (by omega) hkl) _ hy

theorem exReach4 : Reach (exS true) (exG4 .finc .finc) ∧ NoFault (exS true) (exG4 .finc .finc) := by
  have r : Run (exS true) (ginit exM) (exL .finc .finc) (exG4 .finc .finc) := exRun rfl (by decide) (Or.inl rfl) rfl (by decide) (Or.inl rfl)
  refine ⟨⟨exM, _, r⟩, noFault_safe r ?_⟩
  intro e he
  simp only [exL, List.mem_cons, List.not_mem_nil, or_false] at he
  rcases he with rfl | rfl | rfl | rfl
  · exact Or.inl rfl
  · trivial
  · exact Or.inl rfl
  · trivial

/-- hypotheses of `C97_sum_partial`, `C97_at_most_once`, `C97_barrier_partial` and `C97_effect` met: after a barrier the object has grown by 2, and
each call has taken effect once -/
example : ∃ (N : Nat) (hh : Nat → G) (ev : Nat → Ev), Exec (exS true) N hh ev ∧
    Api.wordAt ((hh N).mem 1) (exBases 1 + 0x18#64).toInt exRow.ty.sizeof =
      Api.wordAt ((hh 0).mem 1) (exBases 1 + 0x18#64).toInt exRow.ty.sizeof + BitVec.ofNat _ (operands exNm N) ∧
    effects ev N 0 1 (exBases 1 + 0x18#64).toInt exRow.mpi .finc = called exNm N 0 .finc ∧
    0 < called exNm N 0 .finc ∧ ∃ k < 1, ∃ n, exNm k = some (0, n) ∧ n.rt.means n.cond n.value = .finc := by
  obtain ⟨l, g, r, h1, _, h3⟩ := C94_barrier exReach4.1 exReach4.2 (N := 1) (fun p _ => Nat.zero_le 1)
  obtain ⟨hh, ev, x, a1, a2, a3, a4, _⟩ := exMore exOpF exOpF r
  have hw : ∀ e ∈ l, ∀ k, ¬ e.writes k := by
    intro e he k
    have := h1 e he
    cases e <;> first | exact (fun h => h) | cases this
  have hm := exNamed a1 a2 a4 hw
  have hcalm : Calm (hh 0) 1 (exBases 1 + 0x18#64).toInt exRow.ty.sizeof := by rw [a1 0 (by decide)]; exact exCalm
  have hc : ∀ k < 4 + l.length, ∀ p n, exNm k = some (p, n) → (hh k).arr p < (hh (4 + l.length)).lv 0 ∧
      BarCov ((exS true).cf p) (!((exS true).cf p).amoDirect) (if n.isCtx then n.ctx else none) n.dest := by
    intro k hk p n e
    rw [a3, (h3 0 (by decide)).2]
    match k, e with
    | 0, e => cases e; rw [a1 0 (by decide)]; exact ⟨by decide, Or.inr ⟨rfl, Or.inr (Or.inl (by decide))⟩⟩
    | 2, e => cases e; rw [a1 2 (by decide)]; exact ⟨by decide, Or.inr ⟨rfl, Or.inr (Or.inl (by decide))⟩⟩
    | 1, e => cases e
    | k + 3, e => cases e
  refine ⟨4 + l.length, hh, ev, x, C97_sum_partial x (by decide) hcalm hm (q := 0) (by decide) (fun k hk p n e => ⟨?_, hc k hk p n e⟩),
    C97_barrier_partial x (by decide) hcalm hm (q := 0) (by decide) hc 0 .finc, ?_, ?_⟩
  · match k, e with
    | 0, e => cases e; rfl
    | 2, e => cases e; rfl
    | 1, e => cases e
    | k + 3, e => cases e
  · refine Nat.lt_of_lt_of_le ?_ (C97_at_most_once x (by decide) hcalm hm 0 .finc)
    unfold effects
    rw [List.countP_pos_iff]
    refine ⟨1, List.mem_range.2 (by omega), ?_⟩
    simp only [decide_eq_true_eq]
    exact ⟨_, _, a2 1 (by decide)⟩
  · exact (C97_effect x (by decide) hcalm hm (j := 1) (by omega) (a2 1 (by decide))).1

/-- hypotheses of `C97_quiet` met: PE 0 calls quiet afterwards -/
example : ∃ (k : Nat) (hh : Nat → G) (ev : Nat → Ev), Exec (exS true) (k + 1) hh ev ∧ ev k = .call 0 (.quiet none) ∧
    effects ev (k + 1) 0 1 (exBases 1 + 0x18#64).toInt exRow.mpi .finc = called exNm (k + 1) 0 .finc := by
  obtain ⟨l, g1, g2, r, h1, st, _⟩ := C94_quiet_partial exReach4.1 exReach4.2 (p := 0) (by decide) rfl
    (fun x hx => by cases hx) (Or.inl rfl)
  have r' : Run (exS true) (exG4 .finc .finc) (l ++ [.call 0 (.quiet none)]) g2 := run_append r (Run.cons st (Run.nil _))
  obtain ⟨hh, ev, x, a1, a2, a3, a4, a5⟩ := exMore exOpF exOpF r'
  have hw : ∀ e ∈ l ++ [.call 0 (.quiet none)], ∀ k, ¬ e.writes k := by
    intro e he k
    rcases List.mem_append.1 he with he | he
    · have := h1 e he
      cases e <;> first | exact (fun h => h) | cases this
    · rw [List.mem_singleton.1 he]; exact fun h => h
  have hm := exNamed a1 a2 a4 hw
  have hcalm : Calm (hh 0) 1 (exBases 1 + 0x18#64).toInt exRow.ty.sizeof := by rw [a1 0 (by decide)]; exact exCalm
  have hlen : 4 + (l ++ [Ev.call 0 (.quiet none)]).length = 4 + l.length + 1 := by rw [List.length_append]; rfl
  rw [hlen] at x hm
  have hq : ev (4 + l.length) = .call 0 (.quiet none) := by
    rw [a5 l.length (by rw [List.length_append]; exact Nat.lt_succ_self _)]
    simp
  exact ⟨4 + l.length, hh, ev, x, hq, C97_quiet x (by decide) hcalm hm (Nat.lt_succ_self _) (Or.inl hq) .finc⟩

/-- hypotheses of `C97_call` and `C97_answer` met -/
example : ∃ ev g1, ACalls (exS true) true .rel exA 0 (ginit exM) ev g1 ∧ ∃ am r g2,
    Step (exS true) g1 (.done 0 (.upd 1 (exBases 1 + 0x18#64).toInt .long .finc am) r) g2 ∧ g2.busy 0 = [] := by
  obtain ⟨ev, g1, h1, h2⟩ := C97_call (S := exS true) (gpu := true) (mode := .rel) (n := exA) (fun h => by cases h) (by decide) (p := 0)
    (g0 := ginit exM) ⟨Nat.zero_lt_succ _, rfl, rfl⟩ (fun h => by cases h) (bases := exBases) (off := 0x18#64)
    (ex_sym (fun _ => rfl) (by decide) _ (fun h => by cases h) rfl (by decide) (by decide)) rfl (s' := exPd) rfl (done_nil rfl)
  obtain ⟨am, hb⟩ := h2 rfl
  have hf : am = false := by
    obtain ⟨c, op, r, e1, e2, _, e4, rfl, e6⟩ := h1
    cases e1
    cases e2
    generalize r.toInt = z at e6
    cases e6 with
    | amo p tgt ctx addr r' ty api gpu mode s' hf hm hty hk e hr' d => cases hk
    | amoRet p tgt ctx addr r' ty api gpu mode s' hf hm hty hk e hr' d =>
      simp only [afterRet, upd_at, if_true, List.cons.injEq, Atom.upd.injEq, and_true] at hb
      exact hb.2.2.2.2.symm
  obtain ⟨r, g2, h3, h4⟩ := C97_answer (S := exS true) (p := 0) (by decide) hb (by decide) (Or.inl hf)
  exact ⟨ev, g1, h1, am, r, g2, h3, h4⟩

end AEx
end Verif.Flow
