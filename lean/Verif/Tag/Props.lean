import Verif.Tag.Hist
/-!
# The symmetric heap in memory: what users rely on
-/
namespace Verif.Tag
open Heap Dl

/-! ## C78: the headers in memory -/

/-- every sequence of calls that the lists allow has a history on memory, from any initial contents -/
theorem run_of_lists {a0 cap : Nat} (ha : 16 ∣ a0) (hc : 16 ∣ cap) (h64 : cap < 2 ^ 64) (hm : 1024 < cap) (m : Mem) (cs : List (Call × Bool)) :
    ∀ {t : Dl.St} {os : List (Option Nat)}, Dl.run a0 (Dl.new cap) cs = some (t, os) →
      ∃ es s, Run a0 cap es s ∧ asked es = cs.reverse ∧ answers es = os.reverse ∧ s.live = t.live ∧ Link a0 cap s t := by
  induction cs using List.reverseRecOn with
  | nil =>
    intro t os e
    simp only [Dl.run, Option.some.injEq, Prod.mk.injEq] at e
    obtain ⟨rfl, rfl⟩ := e
    have : ∃ c, create m cap = some c := by
      unfold create
      rw [if_pos (by simp only [hdr, foot]; omega)]
      exact ⟨_, rfl⟩
    obtain ⟨c, e⟩ := this
    exact ⟨[], ⟨c, []⟩, .init e, rfl, rfl, rfl, link_init hc h64 e⟩
  | append_singleton cs c ih =>
    intro t os e
    obtain ⟨c, o'⟩ := c
    rw [run_snoc] at e
    cases hr : Dl.run a0 (Dl.new cap) cs with
    | none => rw [hr] at e; cases e
    | some x =>
      obtain ⟨t1, os1⟩ := x
      rw [hr] at e
      simp only [Option.bind_some] at e
      cases hs : Dl.step a0 t1 o' c with
      | none => rw [hs] at e; cases e
      | some y =>
        obtain ⟨t2, o⟩ := y
        rw [hs] at e
        simp only [Option.map_some, Option.some.injEq, Prod.mk.injEq] at e
        obtain ⟨rfl, rfl⟩ := e
        obtain ⟨es, s, r, e1, e2, -, k⟩ := ih hr
        have hl : ∀ p, named c = some p → ∃ r, (p, r) ∈ s.live := by
          intro p hp
          have := legal_of_step hs
          rw [← k.live]
          cases c with
          | malloc => cases hp
          | calloc => cases hp
          | align => cases hp
          | realloc q req => injection hp with hp; subst hp; exact this
          | free q => injection hp with hp; subst hp; exact this
        obtain ⟨s', t', o1, d⟩ := link_step ha h64 k o' c hl
        have hd := d.runL
        rw [hs] at hd
        simp only [Option.some.injEq, Prod.mk.injEq] at hd
        obtain ⟨rfl, rfl⟩ := hd
        exact ⟨.call c o' o :: es, s', .next r (.call d.run), by simp [asked, e1], by simp [answers, e2], d.link.live.symm, d.link⟩

/-- **C78.** The allocator finds every chunk through numbers that it keeps in the heap, between the users' data. After any history of
calls, of writes of the users to their blocks, and of changes of the links in free chunks, the numbers describe the same heap as the
list of chunks in the model `Verif.Dl` after the same calls, with the same results of all calls and the same blocks held. -/
theorem C78_refines {base cap : Nat} {es : List Ev} {s : Sys} (hb : 16 ∣ base) (hc : 16 ∣ cap) (h64 : cap < 2 ^ 64) (r : Run (base + 960) cap es s) :
    ∃ t, Dl.run (base + 960) (Dl.new cap) (asked es).reverse = some (t, (answers es).reverse) ∧ t.live = s.live ∧ t.bins = s.cs.bins ∧
      t.heap.top = some s.cs.topsize ∧ s.cs.top = total t.heap.chunks ∧ Lay s.cs.mem s.cs.topsize 0 1 t.heap.chunks := by
  obtain ⟨t, k, e⟩ := run_link (by omega) hc h64 r
  exact ⟨t, e, k.live, k.bins, k.ok.rep.size, k.ok.rep.top, k.ok.rep.lay⟩

/-- **C78.** Conversely, every sequence of calls that `Verif.Dl` allows happens on memory, whatever the heap contains initially. -/
theorem C78_realised {base cap : Nat} {cs : List (Call × Bool)} {t : Dl.St} {os : List (Option Nat)} (hb : 16 ∣ base) (hc : 16 ∣ cap) (h64 : cap < 2 ^ 64) (hm : 1024 < cap)
    (e : Dl.run (base + 960) (Dl.new cap) cs = some (t, os)) :
    ∃ es s, Run (base + 960) cap es s ∧ asked es = cs.reverse ∧ answers es = os.reverse ∧ s.live = t.live := by
  obtain ⟨es, s, r, e1, e2, e3, -⟩ := run_of_lists (by omega) hc h64 hm (fun _ => 0) cs e
  exact ⟨es, s, r, e1, e2, e3⟩

/-- **C78.** No call aborts on a legal use: after any history, every request for a new block and every call on a block that is held
returns. The checks in the code (L5685, L4388, L4423, L4868), which read the numbers in memory, never fire. -/
theorem C78_total {base cap : Nat} {es : List Ev} {s : Sys} (hb : 16 ∣ base) (hc : 16 ∣ cap) (h64 : cap < 2 ^ 64) (r : Run (base + 960) cap es s)
    (os : Bool) (c : Call) (hl : ∀ p, named c = some p → ∃ n, (p, n) ∈ s.live) : ∃ s' o, step (base + 960) s os c = some (s', o) := by
  obtain ⟨t, k, -⟩ := run_link (by omega) hc h64 r
  obtain ⟨s', t', o, d⟩ := link_step (by omega) h64 k os c hl
  exact ⟨s', o, d.run⟩

/-- **C78.** What users write to their blocks, what the heap contained initially, and what the links in free chunks are, has no
influence: two heaps with the same calls return the same offsets and hold the same blocks. With `C61`, also at bases that are equal
modulo the alignments asked for. -/
theorem C78_data_independent {b1 b2 cap : Nat} {es es' : List Ev} {s s' : Sys} (h1 : 16 ∣ b1) (h2 : 16 ∣ b2) (hc : 16 ∣ cap) (h64 : cap < 2 ^ 64)
    (r : Run (b1 + 960) cap es s) (r' : Run (b2 + 960) cap es' s') (e : asked es = asked es')
    (hk : ∀ k ∈ aligns ((asked es).reverse.map (·.1)), b1 % 2 ^ k = b2 % 2 ^ k) : answers es = answers es' ∧ s.live = s'.live := by
  obtain ⟨t, k, e1⟩ := run_link (by omega) hc h64 r
  obtain ⟨t', k', e2⟩ := run_link (by omega) hc h64 r'
  rw [C61_actual_partial _ _ hk, e, e2] at e1
  simp only [Option.some.injEq, Prod.mk.injEq, List.reverse_inj] at e1
  obtain ⟨e3, e4⟩ := e1
  exact ⟨e4.symm, by rw [← k.live, ← k'.live, e3]⟩

/-- **C78.** After any history, the header of every block that is held says so: both it and the chunk behind it have the flag for it
set, the size is a multiple of 16 and has room for the block and a header, and the chunk ends before `top`. -/
theorem C78_headers {base cap : Nat} {es : List Ev} {s : Sys} {p n : Nat} (hb : 16 ∣ base) (hc : 16 ∣ cap) (h64 : cap < 2 ^ 64) (r : Run (base + 960) cap es s)
    (h : (p, n) ∈ s.live) : cinuse s.cs.mem p = true ∧ pinuse s.cs.mem (p + chunksize s.cs.mem p) = true ∧ 16 ∣ chunksize s.cs.mem p ∧
      n + 8 ≤ chunksize s.cs.mem p ∧ p + chunksize s.cs.mem p ≤ s.cs.top := by
  obtain ⟨t, k, -⟩ := run_link (by omega) hc h64 r
  obtain ⟨z, hz⟩ := k.at.1 h
  have h1 := k.ok.room hz
  have h2 := k.ok.chunksize hz
  have h3 := at_bound hz
  rw [h2, k.ok.rep.top]
  have hs := WF.siz k.ok.inv.wf
  obtain ⟨l, x, e, e2⟩ := hz
  have hy := k.ok.rep.lay
  rw [e] at hy hs
  obtain ⟨hp, hl⟩ := (lay_append l _ 0 1).1 hy
  rw [e2] at hl
  have h16 := (siz_cons.1 (siz_append.1 hs).2).1.1
  have hb1 : lastUse 1 l < 2 := lastUse_lt (by omega) l
  obtain ⟨ha, -, ht⟩ := hl
  obtain ⟨-, c2, -, -⟩ := head_flags ha (by simp only at h16 ⊢; omega) hb1 (by simp [inUse])
  refine ⟨by rw [c2]; rfl, ?_, h16, h1.1, by omega⟩
  simp only [inUse] at ht
  cases x with
  | nil =>
    simp only [Lay] at ht
    obtain ⟨t1, -⟩ := k.ok.inv.wf.top _ k.ok.rep.size
    obtain ⟨c1, -⟩ := head_flags (u := 0) ht (by omega) (by omega) (by omega)
    rw [c1]; rfl
  | cons c x =>
    obtain ⟨ht, -⟩ := ht
    have h17 := (siz_cons.1 (siz_cons.1 (siz_append.1 hs).2).2).1.1
    obtain ⟨c1, -⟩ := head_flags ht (by omega) (by omega) (inUse_lt _)
    rw [c1]; rfl

/-! ## C79: the users' data -/

/-- an event that may change the block at `q`: a write to it, or a call that names it -/
def touches (q : Nat) : Ev → Prop
  | .call c _ _ => named c = some q
  | .scratch => False
  | .write p => p = q

/-- events from one state to another, latest first -/
inductive Path (a0 : Nat) (s : Sys) : List Ev → Sys → Prop
  | here : Path a0 s [] s
  | next {es : List Ev} {e : Ev} {s1 s2 : Sys} : Path a0 s es s1 → Next a0 s1 e s2 → Path a0 s (e :: es) s2

theorem keep_one {a0 cap : Nat} {s s' : Sys} {e : Ev} {t : Dl.St} (ha : 16 ∣ a0) (h64 : cap < 2 ^ 64) (k : Link a0 cap s t) (n : Next a0 s e s') {q r : Nat}
    (h : (q, r) ∈ s.live) (ht : ¬touches q e) : (q, r) ∈ s'.live ∧ ∀ i, i < r → s'.cs.mem (q + 16 + i) = s.cs.mem (q + 16 + i) := by
  obtain ⟨z, hz⟩ := k.at.1 h
  have hr := k.ok.room hz
  rcases link_next ha h64 k n with ⟨c, os, o, t', rfl, d⟩ | ⟨he, k', hl⟩
  · have hn : some q ≠ named c := fun e => ht e.symm
    exact ⟨d.link.at.2 ⟨z, d.eff.kept q z r hz hn⟩, fun i hi => d.eff.same q z r hz hn _ (by omega) (by omega)⟩
  · refine ⟨by rw [hl]; exact h, fun i hi => ?_⟩
    cases n with
    | call => rcases he with he | ⟨p, he⟩ <;> cases he
    | scratch hm => exact hm _ (scratch_apart k.ok hz (by omega) (by omega))
    | @write m p r' h1 h2 =>
      obtain ⟨z', hz'⟩ := k.at.1 h1
      have hr' := k.ok.room hz'
      have hne : p ≠ q := ht
      apply h2
      rcases at_apart (WF.siz k.ok.inv.wf) hz hz' with e | e | e
      · exact absurd e.symm hne
      · left; omega
      · right; omega

/-- **C79.** A block keeps its contents: from any state after any history, over any further events none of which writes to the block
or names it in a call (other blocks are allocated, resized, freed and written to, by anyone, and the allocator changes its links), the
block stays held and every byte of it stays as it was. -/
theorem C79_keep {base cap : Nat} {es es' : List Ev} {s s' : Sys} (hb : 16 ∣ base) (hc : 16 ∣ cap) (h64 : cap < 2 ^ 64) (r : Run (base + 960) cap es s)
    (p : Path (base + 960) s es' s') {q n : Nat} (h : (q, n) ∈ s.live) (ht : ∀ e ∈ es', ¬touches q e) :
    (q, n) ∈ s'.live ∧ ∀ i, i < n → s'.cs.mem (q + 16 + i) = s.cs.mem (q + 16 + i) := by
  have key : ∃ t, Link (base + 960) cap s' t ∧ (q, n) ∈ s'.live ∧ ∀ i, i < n → s'.cs.mem (q + 16 + i) = s.cs.mem (q + 16 + i) := by
    induction p with
    | here =>
      obtain ⟨t, k, -⟩ := run_link (by omega) hc h64 r
      exact ⟨t, k, h, fun _ _ => rfl⟩
    | @next es1 e s1 s2 _ nx ih =>
      obtain ⟨t, k, h1, h2⟩ := ih (fun e he => ht e (List.mem_cons_of_mem _ he))
      obtain ⟨h3, h4⟩ := keep_one (by omega) h64 k nx h1 (ht e List.mem_cons_self)
      have hk : ∃ t', Link (base + 960) cap s2 t' := by
        rcases link_next (by omega) h64 k nx with ⟨c, os, o, t', -, d⟩ | ⟨-, k', -⟩
        · exact ⟨t', d.link⟩
        · exact ⟨t, k'⟩
      obtain ⟨t', k'⟩ := hk
      exact ⟨t', k', h3, fun i hi => by rw [h4 i hi, h2 i hi]⟩
  exact ⟨key.choose_spec.2.1, key.choose_spec.2.2⟩

/-- **C79.** `shmem_realloc` to a new block: the new block has the contents of the old one, up to the smaller of the two sizes,
whether it moved, grew, or shrank. -/
theorem C79_realloc {base cap : Nat} {es : List Ev} {s s' : Sys} (hb : 16 ∣ base) (hc : 16 ∣ cap) (h64 : cap < 2 ^ 64) (r : Run (base + 960) cap es s)
    {p n req q : Nat} {os : Bool} (h : (p, n) ∈ s.live) (e : step (base + 960) s os (.realloc p req) = some (s', some q)) :
    (q, req) ∈ s'.live ∧ ∀ i, i < min n req → s'.cs.mem (q + 16 + i) = s.cs.mem (p + 16 + i) := by
  obtain ⟨t, k, -⟩ := run_link (by omega) hc h64 r
  obtain ⟨s1, t1, o1, d⟩ := link_step (by omega) h64 k os _ (named_of_step e)
  have hd := d.run
  rw [e] at hd
  simp only [Option.some.injEq, Prod.mk.injEq] at hd
  obtain ⟨rfl, rfl⟩ := hd
  refine ⟨?_, d.move p req q n rfl h rfl⟩
  simp only [step] at e
  split at e
  · cases e
  · split at e
    · simp only [Option.some.injEq, Prod.mk.injEq] at e
      obtain ⟨rfl, rfl⟩ := e
      exact List.mem_cons_self
    · simp at e
    · cases e

/-- **C79.** `shmem_realloc` that returns `NULL` (nothing in the heap, and nothing from the operating system, or a request that is too
large) leaves the block as it was. -/
theorem C79_realloc_null {base cap : Nat} {es : List Ev} {s s' : Sys} (hb : 16 ∣ base) (hc : 16 ∣ cap) (h64 : cap < 2 ^ 64) (r : Run (base + 960) cap es s)
    {p n req : Nat} {os : Bool} (h : (p, n) ∈ s.live) (e : step (base + 960) s os (.realloc p req) = some (s', none)) (ho : os = false ∨ maxRequest ≤ req) :
    (p, n) ∈ s'.live ∧ ∀ i, i < n → s'.cs.mem (p + 16 + i) = s.cs.mem (p + 16 + i) := by
  obtain ⟨t, k, -⟩ := run_link (by omega) hc h64 r
  obtain ⟨s1, t1, o1, d⟩ := link_step (by omega) h64 k os _ (named_of_step e)
  have hd := d.run
  rw [e] at hd
  simp only [Option.some.injEq, Prod.mk.injEq] at hd
  obtain ⟨rfl, rfl⟩ := hd
  have hg : (os && decide (req < maxRequest)) = false := by
    rcases ho with rfl | ho
    · rfl
    · rw [decide_eq_false (by omega), Bool.and_false]
  have hf := d.fail p req rfl rfl hg
  obtain ⟨z, hz⟩ := k.at.1 h
  have hr := k.ok.room hz
  exact ⟨d.link.at.2 ⟨z, hf.kept p z n hz (by simp)⟩, fun i hi => hf.same p z n hz (by simp) _ (by omega) (by omega)⟩

/-- **C79.** `shmem_calloc`: the new block contains zeros, whatever was there before. -/
theorem C79_calloc {base cap : Nat} {es : List Ev} {s s' : Sys} (hb : 16 ∣ base) (hc : 16 ∣ cap) (h64 : cap < 2 ^ 64) (r : Run (base + 960) cap es s)
    {n sz q : Nat} {os : Bool} (e : step (base + 960) s os (.calloc n sz) = some (s', some q)) :
    (q, callocReq n sz) ∈ s'.live ∧ ∀ i, i < callocReq n sz → s'.cs.mem (q + 16 + i) = 0 := by
  obtain ⟨t, k, -⟩ := run_link (by omega) hc h64 r
  obtain ⟨s1, t1, o1, d⟩ := link_step (by omega) h64 k os _ (named_of_step e)
  have hd := d.run
  rw [e] at hd
  simp only [Option.some.injEq, Prod.mk.injEq] at hd
  obtain ⟨rfl, rfl⟩ := hd
  refine ⟨?_, d.zero n sz q rfl rfl⟩
  simp only [step, Option.some.injEq] at e
  generalize calloc s.cs n sz = x at e
  obtain ⟨c', o⟩ := x
  cases o with
  | none => simp [Sys.grant] at e
  | some q' =>
    simp only [Sys.grant, Prod.mk.injEq, Option.some.injEq] at e
    obtain ⟨rfl, rfl⟩ := e
    exact List.mem_cons_self

/-- **C79.** No call changes a byte outside the heap, nor the allocator's state at its start (which `s.cs` holds), nor its last
80 bytes. -/
theorem C79_bounds {base cap : Nat} {es : List Ev} {s s' : Sys} (hb : 16 ∣ base) (hc : 16 ∣ cap) (h64 : cap < 2 ^ 64) (r : Run (base + 960) cap es s)
    {c : Call} {os : Bool} {o : Option Nat} (e : step (base + 960) s os c = some (s', o)) (x : Nat) (hx : x < 8 ∨ cap - 1024 ≤ x) : s'.cs.mem x = s.cs.mem x := by
  obtain ⟨t, k, -⟩ := run_link (by omega) hc h64 r
  obtain ⟨s1, t1, o1, d⟩ := link_step (by omega) h64 k os _ (named_of_step e)
  have hd := d.run
  rw [e] at hd
  simp only [Option.some.injEq, Prod.mk.injEq] at hd
  obtain ⟨rfl, rfl⟩ := hd
  apply d.eff.edge
  have := k.inv.size
  simp only [hdr, foot] at this
  omega

end Verif.Tag
