import Verif.Lnk.Hist
/-!
# The free lists of the symmetric heap in memory: what users rely on
-/
namespace Verif.Lnk
open Heap (Chunk Use Heap maxRequest callocReq Call aligns)
open Dl (Tree Bins BInv fmap isSmall treeIndex)
open Tag (Mem CS ld st st_of_ne Scratch At OK named at_users Link)

section
variable {base cap : Nat}

/-- the calls of a history, and their results, latest first -/
def asked : List Ev → List (Call × Bool)
  | [] => []
  | .call c os _ :: es => (c, os) :: asked es
  | .write _ :: es => asked es

def answers : List Ev → List (Option Nat)
  | [] => []
  | .call _ _ o :: es => o :: answers es
  | .write _ :: es => answers es

/-- an event that may change the block at `q`: a write to it, or a call that names it -/
def touches (q : Nat) : Ev → Prop
  | .call c _ _ => named c = some q
  | .write p => p = q

theorem asked_lift : ∀ es : List Ev, Tag.asked (lift es) = asked es
  | [] => rfl
  | .call c os o :: es => by simp only [lift, Ev.tag, Tag.asked, asked, asked_lift es]
  | .write p :: es => by simp only [lift, Ev.tag, Tag.asked, asked, asked_lift es]

theorem answers_lift : ∀ es : List Ev, Tag.answers (lift es) = answers es
  | [] => rfl
  | .call c os o :: es => by simp only [lift, Ev.tag, Tag.answers, answers, answers_lift es]
  | .write p :: es => by simp only [lift, Ev.tag, Tag.answers, answers, answers_lift es]

theorem touches_lift {q : Nat} : ∀ {es : List Ev}, (∀ e ∈ es, ¬touches q e) → ∀ e ∈ lift es, ¬Tag.touches q e
  | [], _ => by simp [lift]
  | e :: es, h => by
    intro e' he'
    rcases List.mem_cons.1 he' with rfl | he'
    · have := h e List.mem_cons_self
      cases e with
      | call => exact this
      | write => exact this
    · rcases List.mem_cons.1 he' with rfl | he'
      · exact id
      · exact touches_lift (fun e he => h e (List.mem_cons_of_mem _ he)) e' he'

/-! ## C82: the free lists -/

/-- **C82.** No call aborts and no loop runs forever on a legal use: after any history of calls, and of writes of the users to their
blocks, every request for a new block and every call on a block that is held returns. None of the code's checks of the links
(`ok_address`, `F->bk == P`, ...) fires. -/
theorem C82_total (hb : 16 ∣ base) (hc : 16 ∣ cap) (h64 : base + cap < 2 ^ 64) {es : List Ev} {s : Sys} (r : Run base cap es s) (os : Bool) (c : Call)
    (hl : ∀ p, named c = some p → ∃ n, (p, n) ∈ s.live) : ∃ s' o, step base s os c = some (s', o) := by
  obtain ⟨u, t, -, k⟩ := run_both hb hc h64 r
  obtain ⟨-, s', -, o, -, h, -⟩ := call_both hb h64 k os c hl
  exact ⟨s', o, h⟩

/-- **C82.** The links are an implementation detail: all results and all blocks held are those of the model on lists and trees
(`Verif.Dl`) after the same calls, whatever users write to their blocks and whatever the heap contained initially. -/
theorem C82_refines (hb : 16 ∣ base) (hc : 16 ∣ cap) (h64 : base + cap < 2 ^ 64) {es : List Ev} {s : Sys} (r : Run base cap es s) :
    ∃ t, Dl.run (base + 960) (Dl.new cap) (asked es).reverse = some (t, (answers es).reverse) ∧ t.live = s.live := by
  obtain ⟨u, t0, h1, k⟩ := run_both hb hc h64 r
  obtain ⟨t, h2, h3, -⟩ := Tag.C78_refines (base := base) hb hc (by omega) h1
  rw [asked_lift, answers_lift] at h2
  exact ⟨t, h2, h3.trans k.live.symm⟩

/-- every heap can be created -/
theorem create_some (hm : 1024 < cap) (m : Mem) : ∃ c, create base cap m = some c := by
  unfold create
  rw [if_pos (by simp only [Heap.hdr, Heap.foot]; omega)]
  exact ⟨_, rfl⟩

/-- **C82.** Conversely, every sequence of calls that `Verif.Dl` allows happens with links, whatever the heap contains initially. -/
theorem C82_realised (hb : 16 ∣ base) (hc : 16 ∣ cap) (h64 : base + cap < 2 ^ 64) (hm : 1024 < cap) (m : Mem) (cs : List (Call × Bool)) :
    ∀ {t : Dl.St} {os : List (Option Nat)}, Dl.run (base + 960) (Dl.new cap) cs = some (t, os) →
      ∃ es s, Run base cap es s ∧ asked es = cs.reverse ∧ answers es = os.reverse ∧ s.live = t.live := by
  induction cs using List.reverseRecOn with
  | nil =>
    intro t os e
    simp only [Dl.run, Option.some.injEq, Prod.mk.injEq] at e
    obtain ⟨rfl, rfl⟩ := e
    obtain ⟨c, e⟩ := create_some (base := base) hm m
    exact ⟨[], ⟨c, []⟩, .init e, rfl, rfl, rfl⟩
  | append_singleton cs c ih =>
    intro t os e
    obtain ⟨c, o'⟩ := c
    have e0 := e
    rw [Dl.run_snoc] at e
    cases hr : Dl.run (base + 960) (Dl.new cap) cs with
    | none => rw [hr] at e; cases e
    | some x =>
      obtain ⟨t1, os1⟩ := x
      rw [hr] at e
      simp only [Option.bind_some] at e
      cases hs : Dl.step (base + 960) t1 o' c with
      | none => rw [hs] at e; cases e
      | some y =>
        obtain ⟨es, s, r, e1, e2, e3⟩ := ih hr
        have hl : ∀ p, named c = some p → ∃ r, (p, r) ∈ s.live := by
          intro p hp
          have := Dl.legal_of_step hs
          rw [e3]
          cases c with
          | malloc => cases hp
          | calloc => cases hp
          | align => cases hp
          | realloc q req => injection hp with hp; subst hp; exact this
          | free q => injection hp with hp; subst hp; exact this
        obtain ⟨s', o, h⟩ := C82_total hb hc h64 r o' c hl
        have r' : Run base cap (.call c o' o :: es) s' := .next r (.call h)
        have ha : asked (.call c o' o :: es) = (cs ++ [(c, o')]).reverse := by simp [asked, e1]
        obtain ⟨t', h1, h2⟩ := C82_refines hb hc h64 r'
        rw [ha, List.reverse_reverse, e0] at h1
        simp only [Option.some.injEq, Prod.mk.injEq] at h1
        obtain ⟨rfl, h1⟩ := h1
        exact ⟨_, s', r', ha, by rw [h1, List.reverse_reverse], h2.symm⟩

/-- **C82.** Two heaps with the same calls return the same offsets and hold the same blocks, whatever is written to them, at bases
that are equal modulo the alignments asked for. -/
theorem C82_data_independent {b1 b2 : Nat} (h1 : 16 ∣ b1) (h2 : 16 ∣ b2) (hc : 16 ∣ cap) (h64 : b1 + cap < 2 ^ 64) (h64' : b2 + cap < 2 ^ 64) {es es' : List Ev} {s s' : Sys}
    (r : Run b1 cap es s) (r' : Run b2 cap es' s') (e : asked es = asked es')
    (hk : ∀ k ∈ aligns ((asked es).reverse.map (·.1)), b1 % 2 ^ k = b2 % 2 ^ k) : answers es = answers es' ∧ s.live = s'.live := by
  obtain ⟨u, t, a1, k⟩ := run_both h1 hc h64 r
  obtain ⟨u', t', a2, k'⟩ := run_both h2 hc h64' r'
  have := Tag.C78_data_independent (b1 := b1) (b2 := b2) h1 h2 hc (by omega) a1 a2 (by rw [asked_lift, asked_lift, e]) (by rw [asked_lift]; exact hk)
  rw [answers_lift, answers_lift] at this
  exact ⟨this.1, by rw [k.live, k'.live]; exact this.2⟩

/-- **C82.** Links never go into a block: over any events none of which writes to the block or names it in a call, the block stays held
and every byte of it stays as it was. -/
theorem C82_keep (hb : 16 ∣ base) (hc : 16 ∣ cap) (h64 : base + cap < 2 ^ 64) {es es' : List Ev} {s s' : Sys} (r : Run base cap es s) (p : Path base s es' s')
    {q n : Nat} (h : (q, n) ∈ s.live) (ht : ∀ e ∈ es', ¬touches q e) :
    (q, n) ∈ s'.live ∧ ∀ i, i < n → s'.cs.mem (first base + q + 16 + i) = s.cs.mem (first base + q + 16 + i) := by
  obtain ⟨u, t, a1, k⟩ := run_both hb hc h64 r
  obtain ⟨u', t', a2, k'⟩ := path_both hb h64 k p
  have hq := h
  rw [k.live] at hq
  obtain ⟨b1, b2⟩ := Tag.C79_keep (base := base) hb hc (by omega) a1 a2 hq (touches_lift ht)
  have hq' : (q, n) ∈ s'.live := by rw [k'.live]; exact b1
  exact ⟨hq', fun i hi => by rw [k'.data hq' hi, k.data h hi]; exact b2 i hi⟩

/-- a call in both models, where the blocks held have their contents in both -/
theorem call_lift (hb : 16 ∣ base) (hc : 16 ∣ cap) (h64 : base + cap < 2 ^ 64) {es : List Ev} {s s' : Sys} (r : Run base cap es s) {os : Bool} {c : Call} {o : Option Nat}
    (e : step base s os c = some (s', o)) : ∃ es1 u u' t t', Tag.Run (base + 960) cap es1 u ∧ Both base cap s u t ∧ Tag.step (base + 960) u os c = some (u', o) ∧ Both base cap s' u' t' := by
  obtain ⟨u, t, a1, k⟩ := run_both hb hc h64 r
  obtain ⟨u1, u2, t', n1, n2, k'⟩ := next_both hb h64 k (.call e)
  have hu1 : ∃ m, (∀ x, ¬Scratch u.cs x → m x = u.cs.mem x) ∧ u1 = ⟨{ u.cs with mem := m }, u.live⟩ := by
    cases n1 with
    | @scratch m h => exact ⟨m, h, rfl⟩
  obtain ⟨m, hm, rfl⟩ := hu1
  have k1 : Both base cap s ⟨{ u.cs with mem := m }, u.live⟩ t := by
    refine ⟨⟨Tag.scratch_ok k.link.ok hm, k.link.bins, k.link.live, k.link.inv⟩, k.live, ?_⟩
    obtain ⟨s1, s2, s3, s4, s5, s6, s7, s8, s9⟩ := k.sim
    exact ⟨s1, s2, s3, s4, s5, s6, s7, s8, fun x hx => (s9 x hx).trans (hm x hx).symm⟩
  refine ⟨_, _, u2, t, t', .next a1 n1, k1, ?_, k'⟩
  cases n2 with
  | call h => exact h

/-- **C82.** `shmem_realloc` to a new block: the new block has the contents of the old one, up to the smaller of the two sizes. -/
theorem C82_realloc (hb : 16 ∣ base) (hc : 16 ∣ cap) (h64 : base + cap < 2 ^ 64) {es : List Ev} {s s' : Sys} (r : Run base cap es s) {p n req q : Nat} {os : Bool}
    (h : (p, n) ∈ s.live) (e : step base s os (.realloc p req) = some (s', some q)) :
    (q, req) ∈ s'.live ∧ ∀ i, i < min n req → s'.cs.mem (first base + q + 16 + i) = s.cs.mem (first base + p + 16 + i) := by
  obtain ⟨es1, u, u', t, t', a1, k, a2, k'⟩ := call_lift hb hc h64 r e
  have hp := h
  rw [k.live] at hp
  obtain ⟨b1, b2⟩ := Tag.C79_realloc (base := base) hb hc (by omega) a1 hp a2
  have hq' : (q, req) ∈ s'.live := by rw [k'.live]; exact b1
  exact ⟨hq', fun i hi => by rw [k'.data hq' (by omega), k.data h (by omega)]; exact b2 i hi⟩

/-- **C82.** `shmem_realloc` that returns `NULL` leaves the block as it was. -/
theorem C82_realloc_null (hb : 16 ∣ base) (hc : 16 ∣ cap) (h64 : base + cap < 2 ^ 64) {es : List Ev} {s s' : Sys} (r : Run base cap es s) {p n req : Nat} {os : Bool}
    (h : (p, n) ∈ s.live) (e : step base s os (.realloc p req) = some (s', none)) (ho : os = false ∨ maxRequest ≤ req) :
    (p, n) ∈ s'.live ∧ ∀ i, i < n → s'.cs.mem (first base + p + 16 + i) = s.cs.mem (first base + p + 16 + i) := by
  obtain ⟨es1, u, u', t, t', a1, k, a2, k'⟩ := call_lift hb hc h64 r e
  have hp := h
  rw [k.live] at hp
  obtain ⟨b1, b2⟩ := Tag.C79_realloc_null (base := base) hb hc (by omega) a1 hp a2 ho
  have hq' : (p, n) ∈ s'.live := by rw [k'.live]; exact b1
  exact ⟨hq', fun i hi => by rw [k'.data hq' hi, k.data h hi]; exact b2 i hi⟩

/-- **C82.** `shmem_calloc`: the new block contains zeros, whatever was there before; in particular no link. -/
theorem C82_calloc (hb : 16 ∣ base) (hc : 16 ∣ cap) (h64 : base + cap < 2 ^ 64) {es : List Ev} {s s' : Sys} (r : Run base cap es s) {n sz q : Nat} {os : Bool}
    (e : step base s os (.calloc n sz) = some (s', some q)) :
    (q, callocReq n sz) ∈ s'.live ∧ ∀ i, i < callocReq n sz → s'.cs.mem (first base + q + 16 + i) = 0 := by
  obtain ⟨es1, u, u', t, t', a1, k, a2, k'⟩ := call_lift hb hc h64 r e
  obtain ⟨b1, b2⟩ := Tag.C79_calloc (base := base) hb hc (by omega) a1 a2
  have hq' : (q, callocReq n sz) ∈ s'.live := by rw [k'.live]; exact b1
  exact ⟨hq', fun i hi => by rw [k'.data hq' hi]; exact b2 i hi⟩

/-- **C82.** No call writes outside the heap, whatever links it follows: in memory that starts with the heap at `base` and has anything
else around it, the bytes below `base` and those from the trailing header of the segment on stay. -/
theorem C82_bounds (hb : 16 ∣ base) (hc : 16 ∣ cap) (h64 : base + cap < 2 ^ 64) {es : List Ev} {s s' : Sys} (r : Run base cap es s) {os : Bool} {c : Call} {o : Option Nat}
    (e : step base s os c = some (s', o)) (y : Nat) (hy : y < base ∨ base + cap - 80 ≤ y) : s'.cs.mem y = s.cs.mem y := by
  obtain ⟨u, t, a1, k⟩ := run_both hb hc h64 r
  obtain ⟨m0, L', u', o', b1, b2, b3, b4, b5⟩ := call_both hb h64 k os c (named_of_step e)
  rw [e] at b2
  simp only [Option.some.injEq, Prod.mk.injEq] at b2
  obtain ⟨rfl, rfl⟩ := b2
  rcases hy with hy | hy
  · exact b5.low y hy
  have k1 : Link (first base + 16) cap ⟨{ u.cs with mem := m0 }, u.live⟩ t := ⟨Tag.scratch_ok k.link.ok b1, k.link.bins, k.link.live, k.link.inv⟩
  rcases Tag.link_next (by unfold first; omega) (by omega) k1 (.call b3) with ⟨c', os', o', t', he, d⟩ | ⟨he, -⟩
  · have hsz := k.link.inv.size
    simp only [Heap.hdr, Heap.foot] at hsz
    obtain ⟨x, rfl⟩ : ∃ x, y = first base + x := ⟨y - first base, by unfold first; omega⟩
    have hx : t.heap.cap ≤ x := by unfold first at hy; omega
    have out : ∀ {v : Tag.Sys} {w : Dl.St}, Link (first base + 16) cap v w → w.heap.cap ≤ x → ¬Scratch v.cs x := by
      intro v w kv hw hs
      have hcap : v.cs.top + v.cs.topsize = w.heap.cap := by
        unfold Heap.Heap.cap
        rw [kv.ok.rep.size, ← kv.ok.rep.top]; rfl
      rcases hs with ⟨p, z, h1, h2, h3⟩ | ⟨h1, h2⟩
      · have := Dl.fmap_bound (Tag.fmap_of_bins kv.ok.inv.bins h1)
        rw [← kv.ok.rep.top] at this
        omega
      · omega
    have h1 := b5.mem x (out d.link (by rw [d.cap]; exact hx))
    have h2 := d.eff.edge x (.inr hx)
    have h3 := b1 x (out k.link hx)
    have h4 := k.sim.mem x (out k.link hx)
    unfold view at h1 h4
    rw [h1, h2, h4]
    exact h3
  · rcases he with he | ⟨_, he⟩ <;> cases he

/-- **C82.** Nor does the creation of the heap. -/
theorem C82_create_bounds {m : Mem} {c : State} (e : create base cap m = some c) (y : Nat) (hy : y < base ∨ base + cap ≤ y) : c.mem y = m y := by
  unfold create at e
  split at e
  · rename_i hlt
    injection e with e
    subst e
    have e1 : Heap.hdr = 944 := rfl
    have e2 : Heap.foot = 80 := rfl
    show (st (st _ _ _) _ _) y = _
    rw [st_of_ne (by unfold first; omega), st_of_ne (by unfold first; omega), initBins_ne _ (by simp) _ (by omega), st_of_ne (by omega)]
    exact if_neg (by omega)
  · cases e

/-- the free chunks that are not `dv`, from the list of chunks: `p` is counted from the first chunk -/
def Free (base : Nat) (c : State) (h : Heap) (p s : Nat) : Prop := At 0 h.chunks p s .free ∧ first base + p ≠ c.dv

theorem free_iff {L : Sys} {s : Tag.Sys} {t : Dl.St} (k : Both base cap L s t) {p z : Nat} : Free base L.cs t.heap p z ↔ fmap 0 t.heap.chunks p = some z ∧ s.cs.bins.dv ≠ some p := by
  unfold Free
  rw [fmap_iff (siz_pos (Tag.WF.siz k.link.ok.inv.wf)), k.sim.dv]
  have : first base + p ≠ encDv base s.cs.bins.dv ↔ s.cs.bins.dv ≠ some p := by
    cases s.cs.bins.dv with
    | none => simp only [encDv, ne_eq, reduceCtorEq, not_false_iff, iff_true]; unfold first; omega
    | some d => simp only [encDv, ne_eq, Option.some.injEq]; omega
  rw [this]

/-- **C82.** The lists of small chunks, after any history: list `i` (chunks of `8 * i` bytes) is marked as used exactly if there is a
free chunk of this size that is not `dv`. Then from its head, along `fd`, one meets every such chunk once and comes back, and along
`bk` the other way round. -/
theorem C82_lists (hb : 16 ∣ base) (hc : 16 ∣ cap) (h64 : base + cap < 2 ^ 64) {es : List Ev} {s : Sys} (r : Run base cap es s) :
    ∃ t os, Dl.run (base + 960) (Dl.new cap) (asked es).reverse = some (t, os) ∧ ∀ i < 32,
      (s.cs.smallmap.getLsbD i = true ↔ ∃ p, Free base s.cs t.heap p (8 * i)) ∧
      (s.cs.smallmap.getLsbD i = true → ∃ l : List Nat, l.Nodup ∧ (∀ p, p ∈ l ↔ Free base s.cs t.heap p (8 * i)) ∧ Seg s.cs.mem (sbin base i) (l.map (first base + ·)) (sbin base i)) := by
  obtain ⟨u, t0, a1, k⟩ := run_both hb hc h64 r
  obtain ⟨t, k2, a2⟩ := Tag.run_link (by unfold first; omega) hc (by omega) a1
  rw [asked_lift] at a2
  have k : Both base cap s u t := ⟨k2, k.live, k.sim⟩
  refine ⟨t, _, a2, fun i hi => ?_⟩
  have v := k.link.ok.inv.bins
  have hmem : ∀ p, p ∈ u.cs.bins.small i ↔ Free base s.cs t.heap p (8 * i) := fun p => by
    rw [free_iff k, v.small_mem]
    simp only [hi, true_and]
  rw [k.sim.smallmap]
  refine ⟨?_, fun h => ⟨_, v.small_nodup i, hmem, k.sim.links.small i hi ((v.smallmap i hi).1 h)⟩⟩
  rw [v.smallmap i hi]
  constructor
  · intro h
    obtain ⟨p, hp⟩ := List.exists_mem_of_ne_nil _ h
    exact ⟨p, (hmem p).1 hp⟩
  · rintro ⟨p, hp⟩ h
    have := (hmem p).2 hp
    rw [h] at this
    cases this

/-- what one finds from `r` along `child[0]`, `child[1]` and `fd` -/
inductive Found (m : Mem) (r : Nat) : Nat → Prop
  | root : r ≠ 0 → Found m r r
  | child {x : Nat} (d : Bool) : Found m r x → ld m (childAt x d) ≠ 0 → Found m r (ld m (childAt x d))
  | next {x : Nat} : Found m r x → Found m r (fd m x)

theorem Found.trans {m : Mem} {r x y : Nat} (h : Found m r x) (h' : Found m x y) : Found m r y := by
  induction h' with
  | root _ => exact h
  | child d _ h2 ih => exact .child d ih h2
  | next _ ih => exact .next ih

theorem seg_next {m : Mem} : ∀ {l : List Nat} {x z y : Nat}, Seg m x l z → y ∈ x :: l → fd m y ∈ l ∨ fd m y = z
  | [], x, z, y, h, hy => by
    simp only [List.mem_singleton] at hy
    subst hy
    exact .inr h.1
  | a :: l, x, z, y, h, hy => by
    obtain ⟨h1, -, h3⟩ := h
    rcases List.mem_cons.1 hy with rfl | hy
    · left; rw [h1]; exact List.mem_cons_self
    · rcases seg_next h3 hy with h | h
      · exact .inl (List.mem_cons_of_mem _ h)
      · exact .inr h

theorem seg_reach {m : Mem} {r : Nat} : ∀ {l : List Nat} {x z : Nat}, Seg m x l z → Found m r x → ∀ y ∈ l, Found m r y
  | [], _, _, _, _, y, hy => by cases hy
  | a :: l, x, z, h, hr, y, hy => by
    obtain ⟨h1, -, h3⟩ := h
    have ha : Found m r a := by rw [← h1]; exact .next hr
    rcases List.mem_cons.1 hy with rfl | hy
    · exact ha
    · exact seg_reach h3 ha y hy

theorem trep_closed {A i : Nat} {m : Mem} : ∀ {T : Tree} {par : Nat}, TRep A m i par T → ∀ {p s : Nat}, T.mem p s →
    (∀ d, ld m (childAt (A + p) d) ≠ 0 → ∃ p' s', T.mem p' s' ∧ ld m (childAt (A + p) d) = A + p') ∧ ∃ p' s', T.mem p' s' ∧ fd m (A + p) = A + p'
  | .leaf, _, _, _, _, h => by cases h
  | .node s0 p0 q l r, par, ⟨h1, h2, h3⟩, p, s, h => by
    have up : ∀ {T' : Tree}, (∀ {p s : Nat}, T'.mem p s → (Tree.node s0 p0 q l r).mem p s) →
        ((∀ d, ld m (childAt (A + p) d) ≠ 0 → ∃ p' s', T'.mem p' s' ∧ ld m (childAt (A + p) d) = A + p') ∧ ∃ p' s', T'.mem p' s' ∧ fd m (A + p) = A + p') →
        ((∀ d, ld m (childAt (A + p) d) ≠ 0 → ∃ p' s', (Tree.node s0 p0 q l r).mem p' s' ∧ ld m (childAt (A + p) d) = A + p') ∧
          ∃ p' s', (Tree.node s0 p0 q l r).mem p' s' ∧ fd m (A + p) = A + p') := by
      rintro T' hT ⟨a1, p', s', a2, a3⟩
      refine ⟨fun d hd => ?_, p', s', hT a2, a3⟩
      obtain ⟨p2, s2, b1, b2⟩ := a1 d hd
      exact ⟨p2, s2, hT b1, b2⟩
    rcases h with ⟨hs, hp⟩ | h | h
    · rw [List.mem_cons] at hp
      refine ⟨fun d hd => ?_, ?_⟩
      · rcases hp with rfl | hp
        · rw [h1.child d] at hd ⊢
          have hne : kid l r d ≠ .leaf := by rintro e; rw [e] at hd; exact hd rfl
          obtain ⟨p', s', e1, e2⟩ := ptr_mem (A := A) hne
          refine ⟨p', s', ?_, e1⟩
          cases d with
          | false => exact .inr (.inl e2)
          | true => exact .inr (.inr e2)
        · exact absurd ((h1.chain p hp).2 d) hd
      · have hy : A + p ∈ (A + p0) :: q.map (A + ·) := by
          rcases hp with rfl | hp
          · exact List.mem_cons_self
          · exact List.mem_cons_of_mem _ (List.mem_map.2 ⟨p, hp, rfl⟩)
        rcases seg_next h1.ring hy with h | h
        · obtain ⟨p', hp', e⟩ := List.mem_map.1 h
          exact ⟨p', s0, .inl ⟨rfl, List.mem_cons_of_mem _ hp'⟩, e.symm⟩
        · exact ⟨p0, s0, .inl ⟨rfl, List.mem_cons_self⟩, h⟩
    · exact up (fun h => .inr (.inl h)) (trep_closed h2 h)
    · exact up (fun h => .inr (.inr h)) (trep_closed h3 h)

theorem trep_reach {A i : Nat} {m : Mem} (hA : 0 < A) : ∀ {T : Tree} {par : Nat}, TRep A m i par T → ∀ {p s : Nat}, T.mem p s → Found m (ptr A T) (A + p)
  | .leaf, _, _, _, _, h => by cases h
  | .node s0 p0 q l r, par, ⟨h1, h2, h3⟩, p, s, h => by
    have h0 : Found m (ptr A (Tree.node s0 p0 q l r)) (A + p0) := .root (by simp only [ptr]; omega)
    have hkid : ∀ d, TRep A m i (A + p0) (kid l r d) → (kid l r d).mem p s → Found m (ptr A (kid l r d)) (A + p) → Found m (ptr A (Tree.node s0 p0 q l r)) (A + p) := by
      intro d _ hd hr
      have hc := h1.child d
      have hne : ptr A (kid l r d) ≠ 0 := by
        rw [Ne, ptr_zero hA]
        rintro e; rw [e] at hd; cases hd
      have := Found.child d h0 (by rw [hc]; exact hne)
      rw [hc] at this
      exact this.trans hr
    rcases h with ⟨-, hp⟩ | h | h
    · rcases List.mem_cons.1 hp with rfl | hp
      · exact h0
      exact seg_reach h1.ring h0 _ (List.mem_map.2 ⟨p, hp, rfl⟩)
    · exact hkid false h2 h (trep_reach hA h2 h)
    · exact hkid true h3 h (trep_reach hA h3 h)

/-- **C82.** The tries of larger chunks, after any history: from root `i`, along the links to children and to chunks of the same size,
one finds exactly the free chunks, other than `dv`, whose size belongs to this trie. Trie `i` is marked as used exactly if there are
any. -/
theorem C82_tries (hb : 16 ∣ base) (hc : 16 ∣ cap) (h64 : base + cap < 2 ^ 64) {es : List Ev} {s : Sys} (r : Run base cap es s) :
    ∃ t os, Dl.run (base + 960) (Dl.new cap) (asked es).reverse = some (t, os) ∧ ∀ i < 32,
      (∀ y, Found s.cs.mem (ld s.cs.mem (tbin base i)) y ↔ ∃ p z, y = first base + p ∧ Free base s.cs t.heap p z ∧ 256 ≤ z ∧ treeIndex z = i) ∧
      (s.cs.treemap.getLsbD i = true ↔ ∃ p z, Free base s.cs t.heap p z ∧ 256 ≤ z ∧ treeIndex z = i) := by
  obtain ⟨u, t0, a1, k⟩ := run_both hb hc h64 r
  obtain ⟨t, k2, a2⟩ := Tag.run_link (by unfold first; omega) hc (by omega) a1
  rw [asked_lift] at a2
  have k : Both base cap s u t := ⟨k2, k.live, k.sim⟩
  refine ⟨t, _, a2, fun i hi => ?_⟩
  have v := k.link.ok.inv.bins
  have hA : 0 < first base := by unfold first; omega
  have hmem : ∀ p z, (u.cs.bins.tree i).mem p z ↔ Free base s.cs t.heap p z ∧ 256 ≤ z ∧ treeIndex z = i := fun p z => by
    rw [free_iff k, v.tree_mem]
    constructor
    · rintro ⟨b1, b2, b3, b4⟩; exact ⟨⟨b1, b4⟩, large_size b2, b3⟩
    · rintro ⟨⟨b1, b4⟩, b2, b3⟩
      refine ⟨b1, ?_, b3, b4⟩
      simp only [isSmall, decide_eq_false_iff_not]
      omega
  have hrep := k.sim.links.tree i hi
  rw [k.sim.links.slot i hi]
  refine ⟨fun y => ⟨fun h => ?_, ?_⟩, ?_⟩
  · have key : ∃ p z, y = first base + p ∧ (u.cs.bins.tree i).mem p z := by
      induction h with
      | root h =>
        obtain ⟨p, z, e1, e2⟩ := ptr_mem (A := first base) (fun e => h ((ptr_zero hA).2 e))
        exact ⟨p, z, e1, e2⟩
      | child d _ h2 ih =>
        obtain ⟨p, z, rfl, e2⟩ := ih
        obtain ⟨p', z', e3, e4⟩ := (trep_closed hrep e2).1 d h2
        exact ⟨p', z', e4, e3⟩
      | next _ ih =>
        obtain ⟨p, z, rfl, e2⟩ := ih
        obtain ⟨p', z', e3, e4⟩ := (trep_closed hrep e2).2
        exact ⟨p', z', e4, e3⟩
    obtain ⟨p, z, e1, e2⟩ := key
    exact ⟨p, z, e1, (hmem p z).1 e2⟩
  · rintro ⟨p, z, rfl, h⟩
    exact trep_reach hA hrep ((hmem p z).2 h)
  · rw [k.sim.treemap, v.treemap i hi]
    constructor
    · intro h
      obtain ⟨p, z, -, e⟩ := ptr_mem (A := first base) h
      exact ⟨p, z, (hmem p z).1 e⟩
    · rintro ⟨p, z, h⟩ e
      have := (hmem p z).2 h
      rw [e] at this
      cases this

end
end Verif.Lnk
