import Verif.Am.Model
import Mathlib.Tactic.SplitIfs
/-!
# Invariant of the active-message system
-/
namespace Verif.Am
variable {I : Iface}

/-- messages of an operation on the wire -/
def enc : Op I × Nat → List (Msg I)
  | (.put d x, tag) => [.hdr (.put d tag), .pl tag x]
  | (.rd q, tag) => [.hdr (.rd q tag)]
  | (.upd u, _) => [.hdr (.post u)]
  | (.flush, tag) => [.hdr (.flush tag)]
  | (.term, _) => [.hdr .term]

/-- message of thread `t` of PE `s` that the pending receive has taken -/
def hdrAt (cb : Cb I) (s t : Nat) : List (Msg I) := match cb with
  | .posted _ => []
  | .matched s' t' m => if s' = s ∧ t' = t then [m] else []
  | .handling _ s' t' m => if s' = s ∧ t' = t then [m] else []
  | .dead => []

/-- payload still to be sent to `d` -/
def unsent (pc : Pc I) (d : Nat) : List (Msg I) := match pc with
  | .putPl x dst tag => if d = dst then [.pl tag x] else []
  | .idle => []
  | .putHdr _ _ _ _ => []
  | .putWait _ => []
  | .putFlag _ => []
  | .rdHdr _ _ _ => []
  | .rdWait _ _ _ => []
  | .rdFlag _ _ _ => []
  | .postSend _ _ => []
  | .postWait _ => []
  | .postFlag _ => []
  | .fCount _ _ _ => []
  | .fSend _ _ _ _ => []
  | .fWait _ _ _ => []
  | .fReset _ _ => []
  | .fRet _ => []
  | .bar => []
  | .poll => []
  | .finBar => []
  | .finTerm => []
  | .finWait => []
  | .finDone => []
  | .aborted => []

/-- operation whose reply from `d` the thread is waiting for -/
def await (pc : Pc I) (d : Nat) : Option (Op I × Nat) := match pc with
  | .rdWait q dst tag => if d = dst then some (.rd q, tag) else none
  | .fSend _ _ sent tag => if d ∈ sent then some (.flush, tag) else none
  | .fWait _ pend tag => if d ∈ pend then some (.flush, tag) else none
  | .idle => none
  | .putHdr _ _ _ _ => none
  | .putPl _ _ _ => none
  | .putWait _ => none
  | .putFlag _ => none
  | .rdHdr _ _ _ => none
  | .rdFlag _ _ _ => none
  | .postSend _ _ => none
  | .postWait _ => none
  | .postFlag _ => none
  | .fCount _ _ _ => none
  | .fReset _ _ => none
  | .fRet _ => none
  | .bar => none
  | .poll => none
  | .finBar => none
  | .finTerm => none
  | .finWait => none
  | .finDone => none
  | .aborted => none

/-- reply from `d` received but not yet returned -/
def got (pc : Pc I) (d : Nat) : List (I.Q × I.V) := match pc with
  | .rdFlag dst q v => if d = dst then [(q, v)] else []
  | .rdWait _ _ _ => []
  | .fSend _ _ _ _ => []
  | .fWait _ _ _ => []
  | .idle => []
  | .putHdr _ _ _ _ => []
  | .putPl _ _ _ => []
  | .putWait _ => []
  | .putFlag _ => []
  | .rdHdr _ _ _ => []
  | .postSend _ _ => []
  | .postWait _ => []
  | .postFlag _ => []
  | .fCount _ _ _ => []
  | .fReset _ _ => []
  | .fRet _ => []
  | .bar => []
  | .poll => []
  | .finBar => []
  | .finTerm => []
  | .finWait => []
  | .finDone => []
  | .aborted => []

/-- tag in use by the thread -/
def pcTag (pc : Pc I) : Option Nat := match pc with
  | .putHdr _ _ _ tag => some tag
  | .putPl _ _ tag => some tag
  | .rdHdr _ _ tag => some tag
  | .rdWait _ _ tag => some tag
  | .fSend _ _ _ tag => some tag
  | .fWait _ _ tag => some tag
  | .idle => none
  | .putWait _ => none
  | .putFlag _ => none
  | .rdFlag _ _ _ => none
  | .postSend _ _ => none
  | .postWait _ => none
  | .postFlag _ => none
  | .fCount _ _ _ => none
  | .fReset _ _ => none
  | .fRet _ => none
  | .bar => none
  | .poll => none
  | .finBar => none
  | .finTerm => none
  | .finWait => none
  | .finDone => none
  | .aborted => none

/-- PEs are visited once -/
def WfPc (pc : Pc I) : Prop := match pc with
  | .fCount pes _ _ => pes.Nodup
  | .fSend _ rest sent _ => (rest ++ sent).Nodup
  | .fWait _ pend _ => pend.Nodup
  | .putHdr _ _ _ _ => True
  | .putPl _ _ _ => True
  | .rdHdr _ _ _ => True
  | .rdWait _ _ _ => True
  | .idle => True
  | .putWait _ => True
  | .putFlag _ => True
  | .rdFlag _ _ _ => True
  | .postSend _ _ => True
  | .postWait _ => True
  | .postFlag _ => True
  | .fReset _ _ => True
  | .fRet _ => True
  | .bar => True
  | .poll => True
  | .finBar => True
  | .finTerm => True
  | .finWait => True
  | .finDone => True
  | .aborted => True

/-- operations answered by the target -/
def Op.replies : Op I → Bool
  | .rd _ => true
  | .flush => true
  | .put _ _ => false
  | .upd _ => false
  | .term => false

/-- operations with a private tag -/
def Op.tagged : Op I → Bool
  | .rd _ => true
  | .flush => true
  | .put _ _ => true
  | .upd _ => false
  | .term => false

/-- the tag was taken by thread `t` of PE `a` -/
def TagOk (s : St I) (a t τ : Nat) : Prop := ptagStart ≤ τ ∧ τ < s.ctr a + ptagStart ∧ s.own a τ = t

/-- acknowledgements from `d` for thread `t` of PE `a` -/
def acks (s : St I) (a t d : Nat) : List (Ack I) := (s.ack d a).filter (fun k => s.own a k.tag == t)

/-- in-flight operations and acknowledgements of one thread towards one PE; `pend` are the replies computed but not returned -/
def PendC (pc : Pc I) (infl : List (Op I × Nat)) (ks : List (Ack I)) (d : Nat) (pend : List (I.Q × I.V)) : Prop :=
  match await pc d with
  | none => (∀ e ∈ infl, e.1.replies = false) ∧ ks = [] ∧ pend = got pc d
  | some (o, tag) =>
    (∃ l, infl = l ++ [(o, tag)] ∧ (∀ e ∈ l, e.1.replies = false) ∧ ks = [] ∧ pend = []) ∨
    (infl = [] ∧ ((o = .flush ∧ ks = [⟨tag, none⟩] ∧ pend = []) ∨
      ∃ q v, o = .rd q ∧ ks = [⟨tag, some v⟩] ∧ pend = [(q, v)]))

structure Inv (c : Cfg I) (s : St I) : Prop where
  notbad : s.bad = false
  chan : ∀ a t d, s.cb d ≠ .dead →
    hdrAt (s.cb d) a t ++ s.chan a t d ++ unsent (s.pc a t) d = (s.infl a t d).flatMap enc
  iss : ∀ a t d, s.issued a t d = opsOf a t (s.log d) ++ ((s.infl a t d).map (·.1)).filter Op.app
  mem : ∀ d, s.mem d = replay (c.mem₀ d) (s.log d)
  tagI : ∀ a t d, ∀ e ∈ s.infl a t d, e.1.tagged = true → TagOk s a t e.2
  tagP : ∀ a t τ, pcTag (s.pc a t) = some τ → TagOk s a t τ
  tagA : ∀ d a, ∀ k ∈ s.ack d a, k.tag < s.ctr a + ptagStart
  wf : ∀ a t, WfPc (s.pc a t)
  pend : ∀ a t d, ∃ pend, seqRets a t (c.mem₀ d) (s.log d) = s.rets a t d ++ pend ∧
    PendC (s.pc a t) (s.infl a t d) (acks s a t d) d pend
  own : ∀ p t, Owner s p t → waiting (s.pc p t) = true

/-! ## Lemmas on logs and lists -/

theorem replay_append (m : I.σ) (l l' : List (Ev I)) : replay m (l ++ l') = replay (replay m l) l' := by
  unfold replay; rw [List.foldl_append]

theorem opsOf_append (s t : Nat) (l l' : List (Ev I)) : opsOf s t (l ++ l') = opsOf s t l ++ opsOf s t l' := by
  induction l with
  | nil => rfl
  | cons e l ih =>
    cases e with
    | am a b o =>
      simp only [List.cons_append, opsOf]
      split
      · rw [ih]; rfl
      · exact ih
    | env f => exact ih

theorem seqRets_append (s t : Nat) (m : I.σ) (l l' : List (Ev I)) :
    seqRets s t m (l ++ l') = seqRets s t m l ++ seqRets s t (replay m l) l' := by
  induction l generalizing m with
  | nil => rfl
  | cons e l ih =>
    cases e with
    | am a b o =>
      simp only [List.cons_append, seqRets, ih, List.append_assoc]
      rfl
    | env f =>
      simp only [List.cons_append, seqRets, ih]
      rfl

theorem erase_filter_one {α : Type} {P Q : α → Bool} (hQP : ∀ y, Q y = true → P y = true) {l : List α} {x y : α}
    (hf : l.filter P = [x]) (hq : l.find? Q = some y) : y = x ∧ (l.eraseP Q).filter P = [] := by
  induction l with
  | nil => cases hq
  | cons h l ih =>
    by_cases hQ : Q h = true
    · rw [List.find?_cons_of_pos hQ] at hq
      rw [List.eraseP_cons_of_pos hQ]
      rw [List.filter_cons_of_pos (hQP h hQ)] at hf
      cases hq
      exact ⟨(List.cons.inj hf).1, (List.cons.inj hf).2⟩
    · rw [List.find?_cons_of_neg hQ] at hq
      rw [List.eraseP_cons_of_neg hQ]
      by_cases hP : P h = true
      · rw [List.filter_cons_of_pos hP] at hf
        have h0 : l.filter P = [] := (List.cons.inj hf).2
        have : y ∈ l.filter P := List.mem_filter.2 ⟨List.mem_of_find?_eq_some hq, hQP y (List.find?_some hq)⟩
        rw [h0] at this
        cases this
      · rw [List.filter_cons_of_neg hP] at hf ⊢
        exact ih hf hq

theorem erase_filter_other {α : Type} {P Q : α → Bool} (hQP : ∀ y, Q y = true → P y = false) (l : List α) :
    (l.eraseP Q).filter P = l.filter P := by
  induction l with
  | nil => rfl
  | cons h l ih =>
    by_cases hQ : Q h = true
    · rw [List.eraseP_cons_of_pos hQ, List.filter_cons_of_neg (by rw [hQP h hQ]; decide)]
    · rw [List.eraseP_cons_of_neg hQ]
      by_cases hP : P h = true
      · rw [List.filter_cons_of_pos hP, List.filter_cons_of_pos hP, ih]
      · rw [List.filter_cons_of_neg hP, List.filter_cons_of_neg hP, ih]

theorem await_replies {pc : Pc I} {d : Nat} {o : Op I} {tag : Nat} (h : await pc d = some (o, tag)) : o.replies = true := by
  unfold await at h
  split at h <;> first | (split_ifs at h; cases h; rfl) | cases h

theorem await_tag {pc : Pc I} {d : Nat} {o : Op I} {tag : Nat} (h : await pc d = some (o, tag)) : pcTag pc = some tag := by
  unfold await at h
  split at h <;> first | (split_ifs at h; cases h; rfl) | cases h

theorem enc_cons (e : Op I × Nat) : ∃ k l, enc e = .hdr k :: l ∧ ∀ m ∈ l, ∃ x, m = .pl e.2 x := by
  obtain ⟨o, tag⟩ := e
  cases o with
  | put d x => exact ⟨_, _, rfl, fun m hm => ⟨x, List.mem_singleton.1 hm⟩⟩
  | rd q => exact ⟨_, _, rfl, fun m hm => by cases hm⟩
  | upd u => exact ⟨_, _, rfl, fun m hm => by cases hm⟩
  | flush => exact ⟨_, _, rfl, fun m hm => by cases hm⟩
  | term => exact ⟨_, _, rfl, fun m hm => by cases hm⟩

/-- a payload message in flight belongs to a put in flight with that tag -/
theorem mem_enc_pl {l : List (Op I × Nat)} {τ : Nat} {x : I.P} (h : Msg.pl τ x ∈ l.flatMap enc) :
    ∃ d, (Op.put d x, τ) ∈ l := by
  rw [List.mem_flatMap] at h
  obtain ⟨⟨o, tag⟩, he, h⟩ := h
  cases o with
  | put d y =>
    simp only [enc, List.mem_cons, List.not_mem_nil, or_false] at h
    rcases h with h | h
    · cases h
    · cases h; exact ⟨d, he⟩
  | rd q => simp only [enc, List.mem_cons, List.not_mem_nil, or_false] at h; cases h
  | upd u => simp only [enc, List.mem_cons, List.not_mem_nil, or_false] at h; cases h
  | flush => simp only [enc, List.mem_cons, List.not_mem_nil, or_false] at h; cases h
  | term => simp only [enc, List.mem_cons, List.not_mem_nil, or_false] at h; cases h

/-! ## Consequences of the invariant used in the steps -/

/-- a taken message is the header of the oldest operation in flight of its thread -/
theorem taken {c : Cfg I} {s : St I} (h : Inv c s) {p a t : Nat} {m : Msg I}
    (hc : (∃ o, s.cb p = .handling o a t m) ∨ s.cb p = .matched a t m) :
    ∃ e l k tl, s.infl a t p = e :: l ∧ enc e = .hdr k :: tl ∧ m = .hdr k ∧
      s.chan a t p ++ unsent (s.pc a t) p = tl ++ l.flatMap enc := by
  have hd : s.cb p ≠ .dead := by
    rcases hc with ⟨o, e⟩ | e <;> rw [e] <;> intro h <;> cases h
  have hh : hdrAt (s.cb p) a t = [m] := by
    rcases hc with ⟨o, e⟩ | e <;> rw [e] <;> simp [hdrAt]
  have hi := h.chan a t p hd
  rw [hh] at hi
  cases hl : s.infl a t p with
  | nil =>
    rw [hl] at hi
    simp at hi
  | cons e l =>
    obtain ⟨k, tl, he, _⟩ := enc_cons e
    rw [hl, List.flatMap_cons, he] at hi
    simp only [List.cons_append, List.nil_append, List.cons.injEq] at hi
    exact ⟨e, l, k, tl, rfl, he, hi.1, hi.2⟩

/-- what a pending receive can be matched with: a header, the oldest message of its thread -/
theorem matchable {c : Cfg I} {s : St I} (h : Inv c s) {p a t : Nat} {any : Bool} {m : Msg I} (hc : s.cb p = .posted any)
    (hm : (s.chan a t p).find? (fits any pktTag) = some m) :
    ∃ k, m = .hdr k ∧ s.chan a t p = m :: (s.chan a t p).eraseP (fits any pktTag) := by
  have hi := h.chan a t p (by rw [hc]; intro h; cases h)
  rw [hc] at hi
  simp only [hdrAt, List.nil_append] at hi
  cases hl : s.chan a t p with
  | nil => rw [hl] at hm; cases hm
  | cons m' l =>
    rw [hl] at hi hm
    cases hf : s.infl a t p with
    | nil => rw [hf] at hi; simp at hi
    | cons e r =>
      obtain ⟨k, tl, he, _⟩ := enc_cons e
      rw [hf, List.flatMap_cons, he] at hi
      simp only [List.cons_append, List.cons.injEq] at hi
      have hfit : fits any pktTag m' = true := by
        rw [hi.1]; simp [fits, Msg.tag]
      rw [List.find?_cons_of_pos hfit] at hm
      cases hm
      rw [List.eraseP_cons_of_pos hfit]
      exact ⟨k, hi.1, rfl⟩

/-- what the payload receive of a put can take: the payload of that put, next in its thread's order -/
theorem payload {c : Cfg I} {s : St I} (h : Inv c s) {p a t : Nat} {o : Option Nat} {d : I.D} {tag : Nat}
    (hc : s.cb p = .handling o a t (.hdr (.put d tag))) {t' : Nat} {m : Msg I}
    (hm : (s.chan a t' p).find? (fits false tag) = some m) :
    t' = t ∧ ∃ x l, s.infl a t p = (.put d x, tag) :: l ∧ m = .pl tag x ∧
      s.chan a t p = m :: (s.chan a t p).eraseP (fits false tag) ∧
      (s.chan a t p).eraseP (fits false tag) ++ unsent (s.pc a t) p = l.flatMap enc := by
  obtain ⟨e, l, k, tl, hl, he, hk, hch⟩ := taken h (Or.inl ⟨o, hc⟩)
  -- the operation is a put with this descriptor and tag
  obtain ⟨x, hx⟩ : ∃ x, e = (.put d x, tag) := by
    cases hk
    obtain ⟨op, τ⟩ := e
    cases op with
    | put d' x =>
      simp only [enc, List.cons.injEq, Msg.hdr.injEq, Pkt.put.injEq] at he
      obtain ⟨⟨rfl, rfl⟩, _⟩ := he
      exact ⟨x, rfl⟩
    | rd q => simp [enc] at he
    | upd u => simp [enc] at he
    | flush => simp [enc] at he
    | term => simp [enc] at he
  subst hx
  have htag : TagOk s a t tag := h.tagI a t p (.put d x, tag) (by rw [hl]; exact List.mem_cons_self) rfl
  have etl : tl = [.pl tag x] := by
    simp only [enc, List.cons.injEq] at he
    exact he.2.symm
  by_cases ht : t' = t
  · subst ht
    refine ⟨rfl, x, l, hl, ?_⟩
    cases hcl : s.chan a t' p with
    | nil => rw [hcl] at hm; cases hm
    | cons m' r =>
      rw [hcl, etl] at hch
      simp only [List.cons_append, List.nil_append, List.cons.injEq] at hch
      have hfit : fits false tag m' = true := by rw [hch.1]; simp [fits, Msg.tag]
      rw [hcl, List.find?_cons_of_pos hfit] at hm
      cases hm
      rw [List.eraseP_cons_of_pos hfit]
      exact ⟨hch.1, rfl, hch.2⟩
  · exfalso
    have hi := h.chan a t' p (by rw [hc]; intro h; cases h)
    rw [hc] at hi
    simp only [hdrAt] at hi
    rw [if_neg (by rintro ⟨_, e⟩; exact ht e.symm), List.nil_append] at hi
    have hmem := List.mem_of_find?_eq_some hm
    have hfit := List.find?_some hm
    have hin : m ∈ (s.infl a t' p).flatMap enc := by
      rw [← hi]; exact List.mem_append_left _ hmem
    cases m with
    | hdr k =>
      simp only [fits, Msg.tag, Bool.false_or, beq_iff_eq] at hfit
      have := htag.1
      rw [← hfit] at this
      exact absurd this (by decide)
    | pl τ y =>
      simp only [fits, Msg.tag, Bool.false_or, beq_iff_eq] at hfit
      subst hfit
      obtain ⟨d', hd'⟩ := mem_enc_pl hin
      have := h.tagI a t' p _ hd' rfl
      exact ht (this.2.2.symm.trans htag.2.2)

end Verif.Am
