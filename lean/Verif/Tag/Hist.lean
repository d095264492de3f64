import Verif.Tag.Align
import Verif.Dl.Ex
/-!
# Histories on memory
-/
namespace Verif.Tag
open Heap Dl

/-- the block a call names -/
def named : Call → Option Nat
  | .malloc _ => none
  | .calloc _ _ => none
  | .align _ _ => none
  | .realloc p _ => some p
  | .free p => some p

/-- a state on memory and one on lists that describe the same heap -/
structure Link (a0 cap : Nat) (s : Sys) (t : Dl.St) : Prop where
  ok : OK s.cs t.heap
  bins : t.bins = s.cs.bins
  live : t.live = s.live
  inv : Heap.Inv cap ⟨t.heap, t.live⟩

theorem Link.at {a0 cap : Nat} {s : Sys} {t : Dl.St} (k : Link a0 cap s t) {p r : Nat} : (p, r) ∈ s.live ↔ ∃ z, At 0 t.heap.chunks p z (.user r) := by
  rw [← k.live, ← at_users]
  exact k.inv.held.mem_iff

/-- what a call does to memory -/
structure Done (a0 cap : Nat) (s s' : Sys) (t t' : Dl.St) (os : Bool) (c : Call) (o : Option Nat) : Prop where
  run : step a0 s os c = some (s', o)
  runL : Dl.step a0 t os c = some (t', o)
  link : Link a0 cap s' t'
  cap : t'.heap.cap = t.heap.cap
  eff : Eff t.heap t'.heap (named c) s.cs.mem s'.cs.mem
  fail : ∀ p req, c = .realloc p req → o = none → (os && decide (req < maxRequest)) = false → Eff t.heap t'.heap none s.cs.mem s'.cs.mem
  move : ∀ p req q r, c = .realloc p req → (p, r) ∈ s.live → o = some q → ∀ k, k < min r req → s'.cs.mem (q + 16 + k) = s.cs.mem (p + 16 + k)
  zero : ∀ n sz q, c = .calloc n sz → o = some q → ∀ k, k < callocReq n sz → s'.cs.mem (q + 16 + k) = 0

theorem inv_step {a0 cap : Nat} {t t' : Dl.St} {os : Bool} {c : Call} {o : Option Nat} (ha : 16 ∣ a0) (hc : cap < 2 ^ 64) (i : Heap.Inv cap ⟨t.heap, t.live⟩)
    (ib : BInv (fmap 0 t.heap.chunks) t.bins) (e : Dl.step a0 t os c = some (t', o)) : Heap.Inv cap ⟨t'.heap, t'.live⟩ := by
  obtain ⟨s1, o1, ch, e1, e2, k⟩ := step_ok ha hc i ib os c (legal_of_step e)
  rw [e] at e1
  simp only [Option.some.injEq, Prod.mk.injEq] at e1
  obtain ⟨rfl, rfl⟩ := e1
  exact step_inv ha i e2

/-- one call -/
theorem link_step {a0 cap : Nat} {s : Sys} {t : Dl.St} (ha : 16 ∣ a0) (h64 : cap < 2 ^ 64) (k : Link a0 cap s t) (os : Bool) (c : Call)
    (hl : ∀ p, named c = some p → ∃ r, (p, r) ∈ s.live) : ∃ s' t' o, Done a0 cap s s' t t' os c o := by
  have hb : BInv (fmap 0 t.heap.chunks) t.bins := by rw [k.bins]; exact k.ok.inv.bins
  -- the invariant of the blocks comes from the model on lists
  have fin : ∀ (s' : Sys) (t' : Dl.St) (o : Option Nat), Dl.step a0 t os c = some (t', o) → (OK s'.cs t'.heap → t'.bins = s'.cs.bins → t'.live = s'.live → Link a0 cap s' t') :=
    fun s' t' o e h1 h2 h3 => ⟨h1, h2, h3, inv_step ha h64 k.inv hb e⟩
  cases c with
  | malloc req =>
    obtain ⟨h', e, ok', cap', ef, -⟩ := malloc_full k.ok req
    have hm : malloc s.cs req = ((malloc s.cs req).1, (malloc s.cs req).2) := rfl
    generalize hx : (malloc s.cs req).2 = o at *
    generalize hy : (malloc s.cs req).1 = c' at *
    cases o with
    | none =>
      have e1 : Dl.step a0 t os (.malloc req) = some (⟨h', c'.bins, t.live⟩, none) := by simp only [Dl.step, k.bins, e, Dl.St.grant]
      exact ⟨⟨c', s.live⟩, _, none, by simp only [step, hm, Sys.grant], e1, fin _ _ _ e1 ok' rfl k.live, cap', ef, by simp, by simp, by simp⟩
    | some q =>
      have e1 : Dl.step a0 t os (.malloc req) = some (⟨h', c'.bins, (q, req) :: t.live⟩, some q) := by simp only [Dl.step, k.bins, e, Dl.St.grant]
      exact ⟨⟨c', (q, req) :: s.live⟩, _, some q, by simp only [step, hm, Sys.grant], e1, fin _ _ _ e1 ok' rfl (by rw [k.live]), cap', ef, by simp, by simp, by simp⟩
  | calloc n sz =>
    obtain ⟨h', e, ok', cap', ef, hz⟩ := calloc_full k.ok n sz
    have hm : calloc s.cs n sz = ((calloc s.cs n sz).1, (calloc s.cs n sz).2) := rfl
    generalize hx : (calloc s.cs n sz).2 = o at *
    generalize hy : (calloc s.cs n sz).1 = c' at *
    cases o with
    | none =>
      have e1 : Dl.step a0 t os (.calloc n sz) = some (⟨h', c'.bins, t.live⟩, none) := by simp only [Dl.step, k.bins, e, Dl.St.grant]
      exact ⟨⟨c', s.live⟩, _, none, by simp only [step, hm, Sys.grant], e1, fin _ _ _ e1 ok' rfl k.live, cap', ef, by simp, by simp, by simp⟩
    | some q =>
      have e1 : Dl.step a0 t os (.calloc n sz) = some (⟨h', c'.bins, (q, callocReq n sz) :: t.live⟩, some q) := by simp only [Dl.step, k.bins, e, Dl.St.grant]
      refine ⟨⟨c', (q, callocReq n sz) :: s.live⟩, _, some q, by simp only [step, hm, Sys.grant], e1, fin _ _ _ e1 ok' rfl (by rw [k.live]), cap', ef, by simp, by simp, ?_⟩
      intro n' sz' q' h1 h2
      injection h1 with h3 h4
      injection h2 with h2
      subst h3; subst h4; subst h2
      exact hz q rfl
  | align al req =>
    by_cases hk : 2 ^ al ≤ 16
    · obtain ⟨h', e, ok', cap', ef, -⟩ := malloc_full k.ok req
      have hm : malloc s.cs req = ((malloc s.cs req).1, (malloc s.cs req).2) := rfl
      generalize hx : (malloc s.cs req).2 = o at *
      generalize hy : (malloc s.cs req).1 = c' at *
      cases o with
      | none =>
        have e1 : Dl.step a0 t os (.align al req) = some (⟨h', c'.bins, t.live⟩, none) := by simp only [Dl.step, if_pos hk, k.bins, e, Dl.St.grant]
        exact ⟨⟨c', s.live⟩, _, none, by simp only [step, if_pos hk, hm, Sys.grant], e1, fin _ _ _ e1 ok' rfl k.live, cap', ef, by simp, by simp, by simp⟩
      | some q =>
        have e1 : Dl.step a0 t os (.align al req) = some (⟨h', c'.bins, (q, req) :: t.live⟩, some q) := by simp only [Dl.step, if_pos hk, k.bins, e, Dl.St.grant]
        exact ⟨⟨c', (q, req) :: s.live⟩, _, some q, by simp only [step, if_pos hk, hm, Sys.grant], e1, fin _ _ _ e1 ok' rfl (by rw [k.live]), cap', ef, by simp, by simp, by simp⟩
    · obtain ⟨h1, h2⟩ := pow_16 hk
      obtain ⟨c', h', o, e0, e, ok', cap', ef⟩ := memalign_full ha h1 h2 k.ok req
      cases o with
      | none =>
        have e1 : Dl.step a0 t os (.align al req) = some (⟨h', c'.bins, t.live⟩, none) := by simp only [Dl.step, if_neg hk, k.bins, e, Dl.St.grant]
        exact ⟨⟨c', s.live⟩, _, none, by simp only [step, if_neg hk, e0, Option.map_some, Sys.grant], e1, fin _ _ _ e1 ok' rfl k.live, cap', ef, by simp, by simp, by simp⟩
      | some q =>
        have e1 : Dl.step a0 t os (.align al req) = some (⟨h', c'.bins, (q, req) :: t.live⟩, some q) := by simp only [Dl.step, if_neg hk, k.bins, e, Dl.St.grant]
        exact ⟨⟨c', (q, req) :: s.live⟩, _, some q, by simp only [step, if_neg hk, e0, Option.map_some, Sys.grant], e1, fin _ _ _ e1 ok' rfl (by rw [k.live]), cap', ef, by simp, by simp, by simp⟩
  | realloc p req =>
    obtain ⟨r0, hr0⟩ := hl p rfl
    obtain ⟨r, hr⟩ := mem_lookup hr0
    have hu : (p, r) ∈ users 0 t.heap.chunks := at_users.2 (k.at.1 (lookup_mem hr))
    have huniq : ∀ r', (p, r') ∈ s.live → r' = r := fun r' h => users_unique k.ok.inv.wf.good (at_users.2 (k.at.1 h)) hu
    obtain ⟨c', h', o, e0, e, ok', cap', ef, hfail, hmove⟩ := realloc_full k.ok hu req os
    cases o with
    | none =>
      have e1 : Dl.step a0 t os (.realloc p req) = some (⟨h', c'.bins, if os && decide (req < maxRequest) then t.live.erase (p, r) else t.live⟩, none) := by
        simp only [Dl.step, k.live, hr, k.bins, e]
      refine ⟨⟨c', if os && decide (req < maxRequest) then s.live.erase (p, r) else s.live⟩, _, none, by simp only [step, hr, e0], e1, fin _ _ _ e1 ok' rfl (by rw [k.live]), cap', ef,
        ?_, by simp, by simp⟩
      intro p' req' h1 _ h3
      injection h1 with h4 h5
      subst h4; subst h5
      exact hfail rfl h3
    | some q =>
      have e1 : Dl.step a0 t os (.realloc p req) = some (⟨h', c'.bins, (q, req) :: t.live.erase (p, r)⟩, some q) := by
        simp only [Dl.step, k.live, hr, k.bins, e]
      refine ⟨⟨c', (q, req) :: s.live.erase (p, r)⟩, _, some q, by simp only [step, hr, e0], e1, fin _ _ _ e1 ok' rfl (by rw [k.live]), cap', ef, by simp, ?_, by simp⟩
      intro p' req' q' r' h1 h2 h3
      injection h1 with h4 h5
      injection h3 with h3
      subst h4; subst h5; subst h3
      rw [huniq r' h2]
      exact hmove q rfl
  | free p =>
    obtain ⟨r0, hr0⟩ := hl p rfl
    obtain ⟨r, hr⟩ := mem_lookup hr0
    have hu : (p, r) ∈ users 0 t.heap.chunks := at_users.2 (k.at.1 (lookup_mem hr))
    obtain ⟨c', h', e0, e, ok', cap', ef⟩ := free_full k.ok hu
    have e1 : Dl.step a0 t os (.free p) = some (⟨h', c'.bins, t.live.erase (p, r)⟩, none) := by
      simp only [Dl.step, k.live, hr, k.bins, e, Option.map_some]
    exact ⟨⟨c', s.live.erase (p, r)⟩, _, none, by simp only [step, hr, e0, Option.map_some], e1, fin _ _ _ e1 ok' rfl (by rw [k.live]), cap', ef, by simp, by simp, by simp⟩

theorem named_of_step {a0 : Nat} {s s' : Sys} {os : Bool} {c : Call} {o : Option Nat} (e : step a0 s os c = some (s', o)) :
    ∀ p, named c = some p → ∃ r, (p, r) ∈ s.live := by
  intro p hp
  cases c with
  | malloc => cases hp
  | calloc => cases hp
  | align => cases hp
  | realloc q req =>
    injection hp with hp
    subst hp
    simp only [step] at e
    split at e
    · cases e
    · rename_i r hr; exact ⟨r, lookup_mem hr⟩
  | free q =>
    injection hp with hp
    subst hp
    simp only [step] at e
    split at e
    · cases e
    · rename_i r hr; exact ⟨r, lookup_mem hr⟩

/-! ## Changes of the payload -/

theorem fmap_of_bins {F : Nat → Option Nat} {b : Bins} (i : BInv F b) {p z : Nat} (h : InBins b p z) : F p = some z := by
  rcases h with ⟨h1, rfl⟩ | ⟨j, h1, rfl⟩ | ⟨j, h1⟩
  · exact i.dv _ h1
  · exact ((i.small_mem j p).1 h1).1
  · exact ((i.tree_mem j p z).1 h1).1

theorem scratch_soft {c : CS} {h : Heap} (ok : OK c h) {x : Nat} (hx : Scratch c x) : Soft h.chunks 0 x := by
  rcases hx with ⟨p, z, h1, h2, h3⟩ | ⟨h1, -⟩
  · obtain ⟨l, r, hf⟩ := find_of_fmap (WF.pos ok.inv.wf) (fmap_of_bins ok.inv.bins h1)
    obtain ⟨e1, e2⟩ := find_some hf
    exact .inl ⟨p, z, .free, ⟨l, r, e1, e2⟩, h2, by simp only [inUse]; omega⟩
  · right
    rw [ok.rep.top] at h1
    omega

/-- what is in blocks is not where the links of free chunks are -/
theorem scratch_apart {c : CS} {h : Heap} (ok : OK c h) {x q z u : Nat} (ha : At 0 h.chunks q z (.user u)) (h1 : q + 16 ≤ x) (h2 : x < q + z + 8) : ¬Scratch c x := by
  rintro (⟨p, n, k1, k2, k3⟩ | ⟨k1, -⟩)
  · obtain ⟨l, r, hf⟩ := find_of_fmap (WF.pos ok.inv.wf) (fmap_of_bins ok.inv.bins k1)
    obtain ⟨e1, e2⟩ := find_some hf
    have hp : At 0 h.chunks p n .free := ⟨l, r, e1, e2⟩
    rcases at_apart (WF.siz ok.inv.wf) ha hp with e | e | e
    · subst e
      have := (at_unique (WF.siz ok.inv.wf) ha hp).2
      cases this
    · omega
    · omega
  · rw [ok.rep.top] at k1
    have := at_bound ha
    omega

theorem scratch_ok {c : CS} {h : Heap} {m : Mem} (ok : OK c h) (e : ∀ x, ¬Scratch c x → m x = c.mem x) : OK { c with mem := m } h :=
  ⟨ok.inv, ⟨lay_soft (WF.siz ok.inv.wf) (fun x _ hx => e x (fun hs => hx (scratch_soft ok hs))) ok.rep.lay, ok.rep.top, ok.rep.size⟩, ok.big⟩

/-! ## Histories -/

/-- the calls of a history, and their results, latest first -/
def asked : List Ev → List (Call × Bool)
  | [] => []
  | .call c os _ :: es => (c, os) :: asked es
  | .scratch :: es => asked es
  | .write _ :: es => asked es

def answers : List Ev → List (Option Nat)
  | [] => []
  | .call _ _ o :: es => o :: answers es
  | .scratch :: es => answers es
  | .write _ :: es => answers es

theorem link_next {a0 cap : Nat} {s s' : Sys} {e : Ev} {t : Dl.St} (ha : 16 ∣ a0) (h64 : cap < 2 ^ 64) (k : Link a0 cap s t) (n : Next a0 s e s') :
    (∃ c os o t', e = .call c os o ∧ Done a0 cap s s' t t' os c o) ∨ ((e = .scratch ∨ ∃ p, e = .write p) ∧ Link a0 cap s' t ∧ s'.live = s.live) := by
  cases n with
  | @call c os o s' h =>
    left
    obtain ⟨s1, t1, o1, d⟩ := link_step ha h64 k os c (named_of_step h)
    have := d.run
    rw [h] at this
    simp only [Option.some.injEq, Prod.mk.injEq] at this
    obtain ⟨rfl, rfl⟩ := this
    exact ⟨c, os, o, t1, rfl, d⟩
  | @scratch m h => exact .inr ⟨.inl rfl, ⟨scratch_ok k.ok h, k.bins, k.live, k.inv⟩, rfl⟩
  | @write m p r h1 h2 =>
    obtain ⟨z, hz⟩ := k.at.1 h1
    have := k.ok.room hz
    exact .inr ⟨.inr ⟨p, rfl⟩, ⟨write_ok k.ok hz (fun x hx => h2 x (by omega)), k.bins, k.live, k.inv⟩, rfl⟩

theorem link_init {a0 cap : Nat} {m : Mem} {c : CS} (hc : 16 ∣ cap) (h64 : cap < 2 ^ 64) (e : create m cap = some c) : Link a0 cap ⟨c, []⟩ (Dl.new cap) := by
  unfold create at e
  split at e
  · rename_i hlt
    injection e with e
    subst e
    simp only [hdr, foot] at hlt ⊢
    have hi : Heap.Inv cap ⟨⟨[], some (cap - 1024)⟩, []⟩ := inv_reach (a0 := 0) (by omega) hc (.init (by
      unfold Heap.create
      rw [if_pos (by simp only [hdr, foot]; omega)]
      simp only [hdr, foot, Nat.sub_sub]))
    have e1 : cap - 944 - 80 = cap - 1024 := by omega
    refine ⟨⟨⟨hi.wf, BInv.empty, ?_⟩, ⟨?_, rfl, by simp [Dl.new, e1]⟩, ?_⟩, rfl, rfl, hi⟩
    · simp only [Dl.new, Heap.cap, total, Option.getD_some]; omega
    · show ld _ (0 + 8) = _
      rw [e1, ld_st_same, or_one (by omega)]
      rw [or_one (by omega)]; omega
    · simp only [Dl.new, Heap.cap, total, Option.getD_some]; omega
  · cases e

theorem run_link {a0 cap : Nat} {es : List Ev} {s : Sys} (ha : 16 ∣ a0) (hc : 16 ∣ cap) (h64 : cap < 2 ^ 64) (r : Run a0 cap es s) :
    ∃ t, Link a0 cap s t ∧ Dl.run a0 (Dl.new cap) (asked es).reverse = some (t, (answers es).reverse) := by
  induction r with
  | @init m c e => exact ⟨_, link_init hc h64 e, rfl⟩
  | @next es e s s' _ n ih =>
    obtain ⟨t, k, hr⟩ := ih
    rcases link_next ha h64 k n with ⟨c, os, o, t', rfl, d⟩ | ⟨rfl | ⟨p, rfl⟩, k', -⟩
    · refine ⟨t', d.link, ?_⟩
      simp only [asked, answers, List.reverse_cons]
      rw [run_snoc, hr]
      simp only [Option.bind_some]
      rw [d.runL]
      rfl
    · exact ⟨t, k', hr⟩
    · exact ⟨t, k', hr⟩

end Verif.Tag
