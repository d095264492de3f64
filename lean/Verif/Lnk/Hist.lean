import Verif.Lnk.Calls
/-!
# Histories, with links
-/
namespace Verif.Lnk
open Heap (Chunk Use Heap need maxRequest hdr foot lead callocReq Call users lookup_mem)
open Dl (Tree Bins BInv fmap mem_lookup)
open Tag (Mem CS ld st ld_st_ne st_of_ne Scratch At OK named at_users Link)

section
variable {base cap : Nat} {G : Mem}

/-- the states of both models agree -/
structure Both (base cap : Nat) (L : Sys) (s : Tag.Sys) (t : Dl.St) : Prop where
  link : Link (first base + 16) cap s t
  live : L.live = s.live
  sim : Sim base L.cs.mem (Scratch s.cs) L.cs s.cs

theorem Both.lt {L : Sys} {s : Tag.Sys} {t : Dl.St} (h64 : base + cap < 2 ^ 64) (k : Both base cap L s t) : first base + t.heap.cap < 2 ^ 64 := by
  have := k.link.inv.size
  simp only [hdr, foot] at this
  unfold first
  omega

theorem grant_map (L : Sys) (s : Tag.Sys) (hl : L.live = s.live) (req : Nat) (L' : State) (t' : CS) (o : Option Nat) :
    (L.grant base req (L', o.map (first base + ·))).2 = o ∧ (s.grant req (t', o)).2 = o ∧ (L.grant base req (L', o.map (first base + ·))).1.live = (s.grant req (t', o)).1.live ∧
      (L.grant base req (L', o.map (first base + ·))).1.cs = L' ∧ (s.grant req (t', o)).1.cs = t' := by
  cases o with
  | none => exact ⟨rfl, rfl, hl, rfl, rfl⟩
  | some q =>
    simp only [Sys.grant, Option.map_some, Nat.add_sub_cancel_left, Tag.Sys.grant]
    exact ⟨trivial, trivial, by rw [hl], trivial, trivial⟩

/-- a call that may return a new block -/
theorem new_step {L : Sys} {s : Tag.Sys} (hl : L.live = s.live) {r : Option (State × Option Nat)} {f : CS → Option (CS × Option Nat)} (h : CallLnk base G s.cs r f) (req : Nat) :
    ∃ m0 L' s' o, (∀ x, ¬Scratch s.cs x → m0 x = s.cs.mem x) ∧ r.map (L.grant base req) = some (L', o) ∧
      (f { s.cs with mem := m0 }).map ((⟨{ s.cs with mem := m0 }, s.live⟩ : Tag.Sys).grant req) = some (s', o) ∧ L'.live = s'.live ∧ Sim base G (Scratch s'.cs) L'.cs s'.cs := by
  obtain ⟨m0, L', t', o, e1, e2, e3, e4⟩ := h
  obtain ⟨g1, g2, g3, g4, g5⟩ := grant_map (base := base) L ⟨{ s.cs with mem := m0 }, s.live⟩ hl req L' t' o
  refine ⟨m0, (L.grant base req (L', o.map (first base + ·))).1, ((⟨{ s.cs with mem := m0 }, s.live⟩ : Tag.Sys).grant req (t', o)).1, o, e1, ?_, ?_, g3, ?_⟩
  · rw [e2, Option.map_some]
    exact congrArg some (Prod.ext rfl g1)
  · rw [e3, Option.map_some]
    exact congrArg some (Prod.ext rfl g2)
  · rw [g4, g5]; exact e4

/-- one call -/
theorem call_both (hb : 16 ∣ base) (h64 : base + cap < 2 ^ 64) {L : Sys} {s : Tag.Sys} {t : Dl.St} (k : Both base cap L s t) (os : Bool) (c : Call)
    (hl : ∀ p, named c = some p → ∃ r, (p, r) ∈ L.live) :
    ∃ m0 L' s' o, (∀ x, ¬Scratch s.cs x → m0 x = s.cs.mem x) ∧ step base L os c = some (L', o) ∧
      Tag.step (first base + 16) ⟨{ s.cs with mem := m0 }, s.live⟩ os c = some (s', o) ∧ L'.live = s'.live ∧ Sim base L.cs.mem (Scratch s'.cs) L'.cs s'.cs := by
  have hlt := k.lt h64
  have hblk : ∀ p, (∃ r, (p, r) ∈ L.live) → ∃ r, L.live.lookup p = some r ∧ (p, r) ∈ users 0 t.heap.chunks := by
    rintro p ⟨r0, hr0⟩
    obtain ⟨r, hr⟩ := mem_lookup hr0
    refine ⟨r, hr, at_users.2 (k.link.at.1 ?_)⟩
    rw [← k.live]
    exact lookup_mem hr
  cases c with
  | malloc req =>
    obtain ⟨m0, L', s', o, a1, a2, a3, a4⟩ := new_step k.live (malloc_call k.link.ok hlt k.sim req) req
    exact ⟨m0, L', s', o, a1, a2, a3, a4⟩
  | calloc n sz =>
    obtain ⟨m0, L', s', o, a1, a2, a3, a4⟩ := new_step k.live (calloc_call k.link.ok hlt k.sim n sz) (callocReq n sz)
    exact ⟨m0, L', s', o, a1, a2, a3, a4⟩
  | align al req =>
    by_cases hk : 2 ^ al ≤ 16
    · obtain ⟨m0, L', s', o, a1, a2, a3, a4⟩ := new_step k.live (malloc_call k.link.ok hlt k.sim req) req
      refine ⟨m0, L', s', o, a1, ?_, ?_, a4⟩
      · simp only [step]; rw [if_pos hk]; exact a2
      · simp only [Tag.step]; rw [if_pos hk]; exact a3
    · obtain ⟨h1, h2⟩ := Heap.pow_16 hk
      obtain ⟨m0, L', s', o, a1, a2, a3, a4⟩ := new_step k.live (memalign_call hb k.link.ok hlt k.sim h1 h2 req) req
      refine ⟨m0, L', s', o, a1, ?_, ?_, a4⟩
      · simp only [step]; rw [if_neg hk]; exact a2
      · simp only [Tag.step]; rw [if_neg hk]; exact a3
  | realloc p req =>
    obtain ⟨r, hr, hu⟩ := hblk p (hl p rfl)
    have hr' := hr
    rw [k.live] at hr'
    obtain ⟨m0, L', t', o, a1, a2, a3, a4⟩ := realloc_call k.link.ok hlt k.sim hu req os
    simp only [step, Tag.step]
    rw [hr, hr', a2]
    refine ⟨m0, ?_⟩
    simp only at a3 ⊢
    rw [a3]
    cases o with
    | none =>
      refine ⟨⟨L', if os && decide (req < maxRequest) then L.live.erase (p, r) else L.live⟩, ⟨t', if os && decide (req < maxRequest) then s.live.erase (p, r) else s.live⟩, none, a1, rfl, rfl, ?_, a4⟩
      simp only [k.live]
    | some q =>
      refine ⟨⟨L', (q, req) :: L.live.erase (p, r)⟩, ⟨t', (q, req) :: s.live.erase (p, r)⟩, some q, a1, ?_, rfl, ?_, a4⟩
      · simp only [Option.map_some, Nat.add_sub_cancel_left]
      · simp only [k.live]
  | free p =>
    obtain ⟨r, hr, hu⟩ := hblk p (hl p rfl)
    have hr' := hr
    rw [k.live] at hr'
    obtain ⟨L', t', a2, a3, a4⟩ := free_lnk k.link.ok hlt k.sim hu
    simp only [step, Tag.step]
    rw [hr, hr', a2]
    refine ⟨s.cs.mem, ?_⟩
    refine ⟨⟨L', L.live.erase (p, r)⟩, ⟨t', s.live.erase (p, r)⟩, none, fun _ _ => rfl, rfl, ?_, ?_, a4⟩
    · show Option.map _ (Tag.free s.cs p) = _
      rw [a3]; rfl
    · simp only [k.live]

theorem named_of_step {L L' : Sys} {os : Bool} {c : Call} {o : Option Nat} (e : step base L os c = some (L', o)) : ∀ p, named c = some p → ∃ r, (p, r) ∈ L.live := by
  intro p hp
  cases c with
  | malloc => cases hp
  | calloc => cases hp
  | align => cases hp
  | realloc q req =>
    injection hp with hp
    subst hp
    simp only [step] at e
    split at e
    · cases e
    · rename_i r hr; exact ⟨r, lookup_mem hr⟩
  | free q =>
    injection hp with hp
    subst hp
    simp only [step] at e
    split at e
    · cases e
    · rename_i r hr; exact ⟨r, lookup_mem hr⟩

/-- an event in the model with headers only, where the links in free chunks change on their own -/
def Ev.tag : Ev → Tag.Ev
  | .call c os o => .call c os o
  | .write p => .write p

/-- the same history there: a change of links, then the event -/
def lift : List Ev → List Tag.Ev
  | [] => []
  | e :: es => e.tag :: .scratch :: lift es

/-- one event -/
theorem next_both (hb : 16 ∣ base) (h64 : base + cap < 2 ^ 64) {L L' : Sys} {s : Tag.Sys} {t : Dl.St} (k : Both base cap L s t) {e : Ev} (n : Next base L e L') :
    ∃ s1 s2 t', Tag.Next (first base + 16) s .scratch s1 ∧ Tag.Next (first base + 16) s1 e.tag s2 ∧ Both base cap L' s2 t' := by
  have ha : 16 ∣ first base + 16 := by unfold first; omega
  cases n with
  | @call c os o L' h =>
    obtain ⟨m0, L1, s2, o1, a1, a2, a3, a4, a5⟩ := call_both hb h64 k os c (named_of_step h)
    rw [h] at a2
    simp only [Option.some.injEq, Prod.mk.injEq] at a2
    obtain ⟨rfl, rfl⟩ := a2
    have n1 : Tag.Next (first base + 16) s .scratch ⟨{ s.cs with mem := m0 }, s.live⟩ := .scratch a1
    have n2 : Tag.Next (first base + 16) ⟨{ s.cs with mem := m0 }, s.live⟩ (.call c os o) s2 := .call a3
    have k1 : Link (first base + 16) cap ⟨{ s.cs with mem := m0 }, s.live⟩ t := ⟨Tag.scratch_ok k.link.ok a1, k.link.bins, k.link.live, k.link.inv⟩
    rcases Tag.link_next ha (by omega) k1 n2 with ⟨c', os', o', t', he, d⟩ | ⟨he, -⟩
    · exact ⟨_, s2, t', n1, n2, d.link, a4, a5.rebase⟩
    · rcases he with he | ⟨_, he⟩ <;> cases he
  | @write m p r h1 h2 =>
    have hp : (p, r) ∈ s.live := by rw [← k.live]; exact h1
    obtain ⟨z, hz⟩ := k.link.at.1 hp
    have hroom := k.link.ok.room hz
    let m' : Mem := fun x => if p + 16 ≤ x ∧ x < p + 16 + r then view base m x else s.cs.mem x
    have n1 : Tag.Next (first base + 16) s .scratch s := .scratch (m := s.cs.mem) (fun _ _ => rfl)
    have hm' : ∀ x, x < p + 16 ∨ p + 16 + r ≤ x → m' x = s.cs.mem x := fun x hx => if_neg (by omega)
    have n2 : Tag.Next (first base + 16) s (.write p) ⟨{ s.cs with mem := m' }, s.live⟩ := .write hp hm'
    refine ⟨s, _, t, n1, n2, ⟨Tag.write_ok k.link.ok hz (fun x hx => hm' x (by omega)), k.link.bins, k.link.live, k.link.inv⟩, k.live, ?_⟩
    refine Sim.rebase (write_sim k.link.ok k.sim hz (fun y hy => h2 y (by omega)) ?_ (fun x hx => hm' x (by omega)))
    intro x k1 k2
    by_cases h3 : x < p + 16 + r
    · exact if_pos ⟨k1, h3⟩
    · rw [hm' x (by omega), ← k.sim.mem x (Tag.scratch_apart k.link.ok hz k1 k2)]
      exact (h2 (first base + x) (by omega)).symm

theorem ld_zero {m : Mem} {a : Nat} (h : ∀ x, a ≤ x → x < a + 8 → m x = 0) : ld m a = 0 := by
  have : ld m a = ld (fun _ => 0) a := Tag.ld_congr (fun x h1 h2 => h x h1 h2)
  rw [this]
  simp [ld]

theorem initBins_ne (l : List Nat) (hl : ∀ i ∈ l, i < 32) : ∀ (m : Mem) {x : Nat}, (x < base + 104 ∨ base + 616 ≤ x) → (l.foldl (initBin base) m) x = m x := by
  induction l with
  | nil => intro m x _; rfl
  | cons i l ih =>
    intro m x hx
    have hi := hl i List.mem_cons_self
    rw [List.foldl_cons, ih (fun j hj => hl j (List.mem_cons_of_mem _ hj)) _ hx]
    unfold initBin setFd setBk
    rw [st_of_ne (by unfold sbin; omega), st_of_ne (by unfold sbin; omega)]

theorem create_both (hc : 16 ∣ cap) (h64 : base + cap < 2 ^ 64) {m : Mem} {L : State} (e : create base cap m = some L) :
    ∃ m' s, Tag.create m' cap = some s ∧ Both base cap ⟨L, []⟩ ⟨s, []⟩ (Dl.new cap) := by
  unfold create at e
  split at e
  · rename_i hlt
    injection e with e
    generalize hm1 : st (fun x => if base + 16 ≤ x ∧ x < base + 16 + hdr then 0 else m x) (base + 8) (hdr ||| 3) = m1 at e
    generalize hm2 : (List.range 32).foldl (initBin base) m1 = m2 at e
    have hcr : Tag.create (st (view base m2) (cap - hdr - foot + 8) foot) cap =
        some ⟨st (st (view base m2) (cap - hdr - foot + 8) foot) 8 ((cap - hdr - foot) ||| 1), Bins.init, 0, cap - hdr - foot⟩ := by
      unfold Tag.create
      rw [if_pos hlt]
    refine ⟨_, _, hcr, ?_⟩
    have hl := Tag.link_init (a0 := first base + 16) hc (by omega) hcr
    refine ⟨hl, rfl, ?_⟩
    subst e
    simp only [hdr, foot] at hlt ⊢
    have hz : ∀ x, base + 616 ≤ x → x < base + 944 → m2 x = 0 := by
      intro x h1 h2
      rw [← hm2, initBins_ne _ (by simp) _ (by omega), ← hm1, st_of_ne (by omega)]
      exact if_pos (by simp only [hdr]; omega)
    refine ⟨rfl, rfl, rfl, rfl, rfl, rfl, fun _ _ => rfl, ⟨fun i _ h => absurd rfl h, fun i hi => ?_, fun i _ => ?_⟩, ?_⟩
    · show ld _ (tbin base i) = 0
      refine ld_zero (fun x h1 h2 => ?_)
      unfold tbin at h1 h2
      simp only
      rw [st_of_ne (by unfold first; omega), st_of_ne (by unfold first; omega)]
      exact hz x (by omega) (by omega)
    · exact trivial
    · intro x _
      simp only
      rw [Nat.add_assoc (first base), view_st, view_st]
      by_cases h8 : x < 16
      · rw [st_of_ne (by omega)]
        unfold st
        split
        · rfl
        · rw [if_neg (by omega)]
      · rw [st_of_ne (a := 8) (by omega)]
        unfold st
        split
        · rfl
        · rw [if_neg (by omega)]
  · cases e

/-- every history with links is one with headers only, where the links change on their own -/
theorem run_both (hb : 16 ∣ base) (hc : 16 ∣ cap) (h64 : base + cap < 2 ^ 64) {es : List Ev} {L : Sys} (r : Run base cap es L) :
    ∃ s t, Tag.Run (first base + 16) cap (lift es) s ∧ Both base cap L s t := by
  induction r with
  | @init m c e =>
    obtain ⟨m', s, h1, h2⟩ := create_both hc h64 e
    exact ⟨_, _, .init h1, h2⟩
  | @next es e L L' _ n ih =>
    obtain ⟨s, t, h1, h2⟩ := ih
    obtain ⟨s1, s2, t', n1, n2, k⟩ := next_both hb h64 h2 n
    exact ⟨s2, t', .next (.next h1 n1) n2, k⟩

/-- events from one state to another, latest first -/
inductive Path (base : Nat) (s : Sys) : List Ev → Sys → Prop
  | here : Path base s [] s
  | next {es : List Ev} {e : Ev} {s1 s2 : Sys} : Path base s es s1 → Next base s1 e s2 → Path base s (e :: es) s2

theorem path_both (hb : 16 ∣ base) (h64 : base + cap < 2 ^ 64) {es : List Ev} {L L' : Sys} {s : Tag.Sys} {t : Dl.St} (k : Both base cap L s t) (p : Path base L es L') :
    ∃ s' t', Tag.Path (first base + 16) s (lift es) s' ∧ Both base cap L' s' t' := by
  induction p with
  | here => exact ⟨s, t, .here, k⟩
  | @next es e L1 L2 _ n ih =>
    obtain ⟨s1, t1, h1, h2⟩ := ih
    obtain ⟨s2, s3, t', n1, n2, k⟩ := next_both hb h64 h2 n
    exact ⟨s3, t', .next (.next h1 n1) n2, k⟩

/-- the contents of blocks -/
theorem Both.data {L : Sys} {s : Tag.Sys} {t : Dl.St} (k : Both base cap L s t) {q n i : Nat} (h : (q, n) ∈ L.live) (hi : i < n) :
    L.cs.mem (first base + q + 16 + i) = s.cs.mem (q + 16 + i) := by
  rw [k.live] at h
  obtain ⟨z, hz⟩ := k.link.at.1 h
  have := k.link.ok.room hz
  rw [← k.sim.mem (q + 16 + i) (Tag.scratch_apart k.link.ok hz (by omega) (by omega))]
  unfold view
  congr 1
  omega

end
end Verif.Lnk
