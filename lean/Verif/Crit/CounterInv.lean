import Verif.Crit.Counter
/-!
# C109: the value of the counter
-/
namespace Verif.Crit
open Verif.Rma Verif.Lock
open Verif.Vis (NoWriter Only)

/-- the number of increments that have been put, for `n` PEs -/
def made (pos : Nat → Nat) : Nat → Nat
  | 0 => 0
  | n + 1 => made pos n + (pos n + 2) / 13

theorem made_same {pos pos' : Nat → Nat} {n : Nat} (h : ∀ q < n, (pos' q + 2) / 13 = (pos q + 2) / 13) : made pos' n = made pos n := by
  induction n with
  | zero => rfl
  | succ n ih =>
    unfold made
    rw [ih fun q hq => h q (by omega), h n (by omega)]

theorem made_upd {pos : Nat → Nat} {n p : Nat} (h : (pos p + 3) / 13 = (pos p + 2) / 13) : made (Function.update pos p (pos p + 1)) n = made pos n := by
  refine made_same fun q _ => ?_
  by_cases hq : q = p
  · subst hq; rw [Function.update_self]; omega
  · rw [Function.update_of_ne hq]

theorem made_put {pos : Nat → Nat} {n p : Nat} (hp : p < n) (h : (pos p + 3) / 13 = (pos p + 2) / 13 + 1) :
    made (Function.update pos p (pos p + 1)) n = made pos n + 1 := by
  induction n with
  | zero => omega
  | succ n ih =>
    unfold made
    by_cases hq : p = n
    · subst hq
      rw [made_same (pos := pos) (fun q hq => by rw [Function.update_of_ne (by omega)]), Function.update_self]
      omega
    · rw [ih (by omega), Function.update_of_ne (fun h => hq h.symm)]
      omega

theorem made_end {pos : Nat → Nat} {n K : Nat} (h : ∀ p < n, pos p = 13 * K) : made pos n = n * K := by
  induction n with
  | zero => simp [made]
  | succ n ih =>
    unfold made
    have h1 := ih fun p hp => h p (by omega)
    have h2 : (pos n + 2) / 13 = K := by rw [h n (by omega)]; omega
    rw [h1, h2]
    exact (Nat.succ_mul n K).symm

/-- nothing in flight writes the byte, and it has this value -/
def Quiet (g : Vis.G) (k : Nat × Int) (v : BitVec 8) : Prop := NoWriter g k ∧ g.mem k.1 k.2 = v

section
variable {T : Sys} {h : Nat} {c : Int} {tm nw : Nat → Int} {K v0 : Nat}

/-- What is true of the counter `c` of PE `h` and the local variables of the PEs; `made`: the increments that have been put. -/
structure CInv (T : Sys) (h : Nat) (c : Int) (tm nw : Nat → Int) (v0 : Nat) (x : PX) : Prop where
  ctr : ∀ b < 8, Quiet x.x.g (h, c + (b : Nat)) (byteOf (v0 + made x.pos T.lk.n) b) ∨
    ∃ q < T.lk.n, x.pos q % 13 = 11 ∧ ∃ pd, Only x.x.g q (some pd) none (h, c + (b : Nat)) (byteOf (v0 + made x.pos T.lk.n) b)
  tmp : ∀ p < T.lk.n, ∀ b < 8,
    (NoWriter x.x.g (p, tm p + (b : Nat)) ∧ (2 ≤ x.pos p % 13 → x.pos p % 13 ≤ 10 → x.x.g.mem p (tm p + (b : Nat)) = byteOf (v0 + made x.pos T.lk.n) b)) ∨
    (x.pos p % 13 = 2 ∧ Only x.x.g p none (some (h, c + (b : Nat))) (p, tm p + (b : Nat)) (byteOf (v0 + made x.pos T.lk.n) b))
  new : ∀ p < T.lk.n, ∀ b < 8, NoWriter x.x.g (p, nw p + (b : Nat)) ∧
    (x.pos p % 13 ≤ 10 → b + 2 < x.pos p % 13 → x.x.g.mem p (nw p + (b : Nat)) = byteOf (v0 + made x.pos T.lk.n + 1) b)

theorem word8_byte (m : IMem) (a : Int) {b : Nat} (hb : b < 8) : byteOf (word8 m a) b = m (a + (b : Nat)) := by
  apply BitVec.eq_of_toNat_eq
  rw [byte_digit]
  unfold word8
  have h0 := (m a).isLt
  have h1 := (m (a + 1)).isLt
  have h2 := (m (a + 2)).isLt
  have h3 := (m (a + 3)).isLt
  have h4 := (m (a + 4)).isLt
  have h5 := (m (a + 5)).isLt
  have h6 := (m (a + 6)).isLt
  have h7 := (m (a + 7)).isLt
  interval_cases b <;> simp only [Nat.cast_zero, Int.add_zero, Nat.cast_one, Nat.cast_ofNat] <;> norm_num <;> omega

theorem cinv_init {x : PX} (hs : ∃ m, x.x.g = Vis.ginit m) (hp : x.pos = fun _ => 0) (hv : v0 = word8 (x.x.g.mem h) c) : CInv T h c tm nw v0 x := by
  obtain ⟨m, hm⟩ := hs
  have hp0 : ∀ p, x.pos p = 0 := fun p => by rw [hp]
  have hw : made x.pos T.lk.n = 0 := by
    rw [hp]
    induction T.lk.n with
    | zero => rfl
    | succ n ih => unfold made; rw [ih]
  have hn : ∀ k, NoWriter x.x.g k := fun k => by rw [hm]; exact Vis.noWriter_init m k
  refine ⟨?_, ?_, ?_⟩
  · intro b hb
    refine Or.inl ⟨hn _, ?_⟩
    rw [hw, Nat.add_zero, hv, word8_byte _ _ hb]
  · intro p _ b hb
    exact Or.inl ⟨hn _, fun h2 => by rw [hp0] at h2; omega⟩
  · intro p _ b hb
    exact ⟨hn _, fun _ h2 => by rw [hp0] at h2; omega⟩

/-- a byte through a step that does not write it -/
theorem quiet_keep (wf : T.lk.WF) (un : T.lk.Uniform) {x y : X} {wtr : List (Nat × Lock.Ev)} (hw : WExec T.lk x.words wtr) {ev : Ev}
    (s : Step T x ev y) {k : Nat × Int} (hk : ∀ b, T.lk.InLock k.1 b → b.toInt ≠ k.2) (he : ∀ e, ev = .rma e → ¬ e.writes k)
    (hn : NoWriter x.g k) : NoWriter y.g k ∧ y.g.mem k.1 k.2 = x.g.mem k.1 k.2 := by
  cases s with
  | rma hs hc => exact Vis.noWriter_step hs hn (he _ rfl)
  | lock l p a hl hf hs => exact ⟨hn, lock_frame wf un hw hl hf hs hk⟩

theorem only_keep (wf : T.lk.WF) (un : T.lk.Uniform) {x y : X} {wtr : List (Nat × Lock.Ev)} (hw : WExec T.lk x.words wtr) {ev : Ev}
    (s : Step T x ev y) {q : Nat} {own : Option Order.Pend} {src : Option (Nat × Int)} {k : Nat × Int} {v : BitVec 8}
    (hk : ∀ b, T.lk.InLock k.1 b → b.toInt ≠ k.2) (hks : ∀ k', src = some k' → ∀ b, T.lk.InLock k'.1 b → b.toInt ≠ k'.2)
    (he : ∀ e, ev = .rma e → ¬ e.writes k) (hes : ∀ k', src = some k' → ∀ e, ev = .rma e → ¬ e.writes k')
    (ho : Only x.g q own src k v) : Only y.g q own src k v := by
  cases s with
  | rma hs hc => exact Vis.only_step ho hs (he _ rfl) (fun k' hk' => hes k' hk' _ rfl)
  | lock l p a hl hf hs =>
    refine ⟨ho.only, fun k' hk' => ⟨(ho.src k' hk').1, ?_⟩, ?_⟩
    · exact (lock_frame wf un hw hl hf hs (hks k' hk')).trans (ho.src k' hk').2
    · rcases ho.val with h | h
      · exact Or.inl ((lock_frame wf un hw hl hf hs hk).trans h)
      · exact Or.inr h

/-- the places between which a step that concerns none of these bytes leads -/
theorem phase_facts {a b : Nat} (h : b % 13 = a % 13 ∨ (a % 13 = 0 ∧ b % 13 = 1) ∨ (a % 13 = 12 ∧ b % 13 = 0)) :
    (a % 13 = 11 → b % 13 = 11) ∧ (a % 13 = 2 → b % 13 = 2) ∧ (2 ≤ b % 13 → 2 ≤ a % 13) ∧ (2 ≤ b % 13 → b % 13 ≤ 10 → a % 13 ≤ 10) ∧
      (∀ j, j + 2 < b % 13 → j + 2 < a % 13) := by
  refine ⟨?_, ?_, ?_, ?_, fun j => ?_⟩ <;> omega

/-- a step that concerns none of these bytes -/
theorem cinv_neutral (wf : T.lk.WF) (un : T.lk.Uniform) (sp : Spot T h c tm nw) {x : PX} {y : X} {pos' : Nat → Nat} {wtr : List (Nat × Lock.Ev)}
    (hw : WExec T.lk x.x.words wtr) {ev : Ev} (s : Step T x.x ev y) (he : ∀ e, ev = .rma e → ∀ k, ¬ e.writes k)
    (hpos : ∀ q < T.lk.n, pos' q % 13 = x.pos q % 13 ∨ (x.pos q % 13 = 0 ∧ pos' q % 13 = 1) ∨ (x.pos q % 13 = 12 ∧ pos' q % 13 = 0))
    (hm : made pos' T.lk.n = made x.pos T.lk.n) (inv : CInv T h c tm nw v0 x) : CInv T h c tm nw v0 ⟨y, pos'⟩ := by
  refine ⟨?_, ?_, ?_⟩
  · intro b hb
    show Quiet y.g _ (byteOf (v0 + made pos' T.lk.n) b) ∨ ∃ q < T.lk.n, pos' q % 13 = 11 ∧ ∃ pd, Only y.g q (some pd) none (h, c + (b : Nat)) (byteOf (v0 + made pos' T.lk.n) b)
    rw [hm]
    rcases inv.ctr b hb with ⟨a1, a2⟩ | ⟨q, hq, hph, pd, ho⟩
    · obtain ⟨b1, b2⟩ := quiet_keep wf un hw s (k := (h, c + (b : Nat))) (sp.cl b hb) (fun e h => he e h _) a1
      exact Or.inl ⟨b1, b2.trans a2⟩
    · exact Or.inr ⟨q, hq, (phase_facts (hpos q hq)).1 hph, pd, only_keep wf un hw s (k := (h, c + (b : Nat))) (src := none) (sp.cl b hb)
        (fun k' hk' => by cases hk') (fun e h => he e h _) (fun k' hk' => by cases hk') ho⟩
  · intro p hp b hb
    obtain ⟨_, p2, p3, p4, _⟩ := phase_facts (hpos p hp)
    show (NoWriter y.g (p, tm p + (b : Nat)) ∧ (2 ≤ pos' p % 13 → pos' p % 13 ≤ 10 → y.g.mem p (tm p + (b : Nat)) = byteOf (v0 + made pos' T.lk.n) b)) ∨
      (pos' p % 13 = 2 ∧ Only y.g p none (some (h, c + (b : Nat))) (p, tm p + (b : Nat)) (byteOf (v0 + made pos' T.lk.n) b))
    rw [hm]
    rcases inv.tmp p hp b hb with ⟨a1, a2⟩ | ⟨hph, ho⟩
    · obtain ⟨b1, b2⟩ := quiet_keep wf un hw s (k := (p, tm p + (b : Nat))) (sp.tl p hp b hb) (fun e h => he e h _) a1
      exact Or.inl ⟨b1, fun h1 h2 => b2.trans (a2 (p3 h1) (p4 h1 h2))⟩
    · have hks : ∀ k', some (h, c + (b : Nat)) = some k' → ∀ b, T.lk.InLock k'.1 b → b.toInt ≠ k'.2 := by
        intro k' hk'
        obtain rfl := Option.some.inj hk'
        exact sp.cl b hb
      exact Or.inr ⟨p2 hph, only_keep wf un hw s (k := (p, tm p + (b : Nat))) (src := some (h, c + (b : Nat))) (sp.tl p hp b hb) hks
        (fun e h => he e h _) (fun k' hk' e h => he e h _) ho⟩
  · intro p hp b hb
    obtain ⟨_, _, p3, p4, p5⟩ := phase_facts (hpos p hp)
    show NoWriter y.g (p, nw p + (b : Nat)) ∧
      (pos' p % 13 ≤ 10 → b + 2 < pos' p % 13 → y.g.mem p (nw p + (b : Nat)) = byteOf (v0 + made pos' T.lk.n + 1) b)
    rw [hm]
    obtain ⟨a1, a2⟩ := inv.new p hp b hb
    obtain ⟨b1, b2⟩ := quiet_keep wf un hw s (k := (p, nw p + (b : Nat))) (sp.nl p hp b hb) (fun e h => he e h _) a1
    exact ⟨b1, fun h1 h2 => b2.trans (a2 (p4 (by omega) h1) (p5 b h2))⟩

/-- a PE inside a round holds the lock -/
theorem inside_held {x : PX} (sp : Spot T h c tm nw) (hi : PcInv T (counter h c tm nw K) x) {p : Nat} (hp : p < T.lk.n)
    (h2 : 2 ≤ x.pos p % 13) : x.x.pc 0 p = .held := by
  have hlen : x.pos p ≤ 13 * K := by have := hi.len p hp; rwa [counter_len] at this
  cases hr : (x.x.pc 0 p).rest with
  | true => exact (hi.rest p hp 0 sp.one hr).2 ((counter_holds hlen).2 ⟨rfl, by omega⟩)
  | false =>
    exfalso
    obtain ⟨k, hk, ⟨h3, _⟩ | ⟨h3, _⟩⟩ := hi.call p hp 0 sp.one hr
    · have := (act_set (counter_get' h3).2).1
      omega
    · have := (act_clear (by omega) (counter_get' h3).2).1
      omega

/-- what is needed of a reachable state -/
structure Base (T : Sys) (x : X) : Prop where
  gi : Vis.GI T.vis x.g
  wexec : ∃ wtr, WExec T.lk x.words wtr
  excl : ∀ p q, x.pc 0 p = .held → x.pc 0 q = .held → p = q

/-- the get of a round -/
theorem cinv_get (wf : T.lk.WF) (un : T.lk.Uniform) (sp : Spot T h c tm nw) {x : PX} {g' : Vis.G} (hb : Base T x.x) {p : Nat} (hp : p < T.lk.n)
    (hh : ∀ q < T.lk.n, 2 ≤ x.pos q % 13 → q = p) (hph : x.pos p % 13 = 1) {ctx : Option (Nat × Nat)} {addr : BitVec 64} {ep : Nat}
    (s : Vis.Step T.vis x.x.g (.get p h false ctx addr (eight (tm p) c) ep) g') (inv : CInv T h c tm nw v0 x) :
    CInv T h c tm nw v0 ⟨⟨g', x.x.pc⟩, Function.update x.pos p (x.pos p + 1)⟩ := by
  have hm : made (Function.update x.pos p (x.pos p + 1)) T.lk.n = made x.pos T.lk.n := made_upd (by omega)
  have hw : ∀ k, (Vis.Ev.get p h false ctx addr (eight (tm p) c) ep).writes k → k.1 = p ∧ ∃ b < 8, k.2 = tm p + (b : Nat) := by
    rintro k ⟨h1, y, hy, h2⟩
    obtain ⟨b, hb, rfl⟩ := eight_mem hy
    exact ⟨h1, b, hb, h2.symm⟩
  have hctr : ∀ b < 8, Quiet x.x.g (h, c + (b : Nat)) (byteOf (v0 + made x.pos T.lk.n) b) := by
    intro b hb
    rcases inv.ctr b hb with h1 | ⟨q, hq, h1, _⟩
    · exact h1
    · have := hh q hq (by omega)
      subst this
      omega
  have hcw : ∀ b < 8, ¬ (Vis.Ev.get p h false ctx addr (eight (tm p) c) ep).writes (h, c + (b : Nat)) := by
    intro b hb hwr
    obtain ⟨h1, b', hb', h2⟩ := hw _ hwr
    dsimp only at h1 h2
    subst h1
    exact sp.ctm b hb b' hb' h2
  refine ⟨?_, ?_, ?_⟩
  · intro b hb
    dsimp only
    rw [hm]
    obtain ⟨a1, a2⟩ := hctr b hb
    obtain ⟨b1, b2⟩ := Vis.noWriter_step s a1 (hcw b hb)
    exact Or.inl ⟨b1, b2.trans a2⟩
  · intro q hq b hb
    dsimp only
    rw [hm]
    by_cases hqp : q = p
    · subst hqp
      right
      rw [Function.update_self]
      refine ⟨by omega, ?_⟩
      have htn : NoWriter x.x.g (q, tm q + (b : Nat)) := by
        rcases inv.tmp q hq b hb with ⟨a1, _⟩ | ⟨a1, _⟩
        · exact a1
        · omega
      obtain ⟨own, ho, hon⟩ := Vis.get_only s (mem_eight (tm q) c hb) eight_inj htn (hctr b hb).1 (hcw b hb)
      rw [ho rfl] at hon
      have e := (hctr b hb).2
      dsimp only at hon e
      rwa [e] at hon
    · rw [Function.update_of_ne hqp]
      rcases inv.tmp q hq b hb with ⟨a1, a2⟩ | ⟨a1, _⟩
      · obtain ⟨b1, b2⟩ := Vis.noWriter_step s a1 (fun hwr => hqp (hw _ hwr).1)
        exact Or.inl ⟨b1, fun h1 _ => absurd (hh q hq h1) hqp⟩
      · exact absurd (hh q hq (by omega)) hqp
  · intro q hq b hb
    dsimp only
    rw [hm]
    obtain ⟨a1, a2⟩ := inv.new q hq b hb
    obtain ⟨b1, b2⟩ := Vis.noWriter_step s a1 (fun hwr => by
      obtain ⟨h1, b', hb', h2⟩ := hw _ hwr
      dsimp only at h1 h2
      subst h1
      exact sp.tnw q hq b' hb' b hb h2.symm)
    refine ⟨b1, ?_⟩
    by_cases hqp : q = p
    · subst hqp
      rw [Function.update_self]
      intro _ h; omega
    · rw [Function.update_of_ne hqp]
      exact fun h1 h2 => absurd (hh q hq (by omega)) hqp

/-- in a PE outside blocking calls the value got is there -/
theorem tmp_there {x : PX} (inv : CInv T h c tm nw v0 x) {p : Nat} (hp : p < T.lk.n) (hbz : x.x.g.busy p = []) {b : Nat} (hb : b < 8) :
    NoWriter x.x.g (p, tm p + (b : Nat)) ∧
      (2 ≤ x.pos p % 13 → x.pos p % 13 ≤ 10 → x.x.g.mem p (tm p + (b : Nat)) = byteOf (v0 + made x.pos T.lk.n) b) := by
  rcases inv.tmp p hp b hb with a | ⟨_, ho⟩
  · exact a
  · obtain ⟨h1, h2⟩ := Vis.only_done ho (by
      rintro a (⟨_, _, ho, _⟩ | ⟨_, hb⟩)
      · cases ho
      · rw [hbz] at hb; cases hb)
    exact ⟨h2, fun _ _ => h1⟩

/-- a store of a round -/
theorem cinv_store (wf : T.lk.WF) (un : T.lk.Uniform) (sp : Spot T h c tm nw) {x : PX} {g' : Vis.G} (hb : Base T x.x) {p j : Nat} (hp : p < T.lk.n)
    (hh : ∀ q < T.lk.n, 2 ≤ x.pos q % 13 → q = p) (hj : j < 8) (hph : x.pos p % 13 = j + 2)
    (s : Vis.Step T.vis x.x.g (.store p (nw p + (j : Nat)) (byteOf (word8 (x.x.g.mem p) (tm p) + 1) j)) g') (inv : CInv T h c tm nw v0 x) :
    CInv T h c tm nw v0 ⟨⟨g', x.x.pc⟩, Function.update x.pos p (x.pos p + 1)⟩ := by
  have hm : made (Function.update x.pos p (x.pos p + 1)) T.lk.n = made x.pos T.lk.n := made_upd (by omega)
  have hbz : x.x.g.busy p = [] := (Vis.own_free s rfl).2.2
  have hval : byteOf (word8 (x.x.g.mem p) (tm p) + 1) j = byteOf (v0 + made x.pos T.lk.n + 1) j := by
    rw [word8_bytes (v := v0 + made x.pos T.lk.n) (fun b hb => (tmp_there inv hp hbz hb).2 (by omega) (by omega)), byte_mod hj]
  rw [hval] at s
  have hw : ∀ k, (Vis.Ev.store p (nw p + (j : Nat)) (byteOf (v0 + made x.pos T.lk.n + 1) j)).writes k → k = (p, nw p + (j : Nat)) := fun k h => h
  refine ⟨?_, ?_, ?_⟩
  · intro b hb
    dsimp only
    rw [hm]
    rcases inv.ctr b hb with ⟨a1, a2⟩ | ⟨q, hq, h1, _⟩
    · obtain ⟨b1, b2⟩ := Vis.noWriter_step s a1 (fun hwr => by
        have := hw _ hwr
        have h1 := congrArg Prod.fst this
        have h2 := congrArg Prod.snd this
        dsimp only at h1 h2
        subst h1
        exact sp.cnw b hb j hj h2)
      exact Or.inl ⟨b1, b2.trans a2⟩
    · have := hh q hq (by omega)
      subst this
      omega
  · intro q hq b hb
    dsimp only
    rw [hm]
    by_cases hqp : q = p
    · subst hqp
      left
      obtain ⟨a1, a2⟩ := tmp_there inv hq hbz hb
      obtain ⟨b1, b2⟩ := Vis.noWriter_step s a1 (fun hwr => by
        have h2 := congrArg Prod.snd (hw _ hwr)
        exact sp.tnw q hq b hb j hj h2)
      exact ⟨b1, fun _ _ => b2.trans (a2 (by omega) (by omega))⟩
    · rw [Function.update_of_ne hqp]
      rcases inv.tmp q hq b hb with ⟨a1, a2⟩ | ⟨a1, _⟩
      · obtain ⟨b1, b2⟩ := Vis.noWriter_step s a1 (fun hwr => hqp (congrArg Prod.fst (hw _ hwr)))
        exact Or.inl ⟨b1, fun h1 _ => absurd (hh q hq h1) hqp⟩
      · exact absurd (hh q hq (by omega)) hqp
  · intro q hq b hb
    dsimp only
    rw [hm]
    obtain ⟨a1, a2⟩ := inv.new q hq b hb
    by_cases hqp : q = p
    · subst hqp
      rw [Function.update_self]
      by_cases hbj : b = j
      · subst hbj
        cases s with
        | store _ _ _ hf =>
          refine ⟨a1, fun _ _ => ?_⟩
          simp
      · obtain ⟨b1, b2⟩ := Vis.noWriter_step s a1 (fun hwr => by
          have h2 := congrArg Prod.snd (hw _ hwr)
          dsimp only at h2
          omega)
        exact ⟨b1, fun h1 h2 => b2.trans (a2 (by omega) (by omega))⟩
    · obtain ⟨b1, b2⟩ := Vis.noWriter_step s a1 (fun hwr => hqp (congrArg Prod.fst (hw _ hwr)))
      rw [Function.update_of_ne hqp]
      exact ⟨b1, fun h1 h2 => absurd (hh q hq (by omega)) hqp⟩

/-- the put of a round -/
theorem cinv_put (wf : T.lk.WF) (un : T.lk.Uniform) (sp : Spot T h c tm nw) {x : PX} {g' : Vis.G} (hb : Base T x.x) {p : Nat} (hp : p < T.lk.n)
    (hh : ∀ q < T.lk.n, 2 ≤ x.pos q % 13 → q = p) (hph : x.pos p % 13 = 10) {ctx : Option (Nat × Nat)} {addr : BitVec 64} {ep : Nat}
    (s : Vis.Step T.vis x.x.g (.put p h false ctx addr (eight c (nw p)) ep) g') (inv : CInv T h c tm nw v0 x) :
    CInv T h c tm nw v0 ⟨⟨g', x.x.pc⟩, Function.update x.pos p (x.pos p + 1)⟩ := by
  have hm : made (Function.update x.pos p (x.pos p + 1)) T.lk.n = made x.pos T.lk.n + 1 := made_put hp (by omega)
  have hbz : x.x.g.busy p = [] := (Vis.own_free s rfl).2.2
  have hw : ∀ k, (Vis.Ev.put p h false ctx addr (eight c (nw p)) ep).writes k → k.1 = h ∧ ∃ b < 8, k.2 = c + (b : Nat) := by
    rintro k ⟨h1, y, hy, h2⟩
    obtain ⟨b, hb, rfl⟩ := eight_mem hy
    exact ⟨h1, b, hb, h2.symm⟩
  refine ⟨?_, ?_, ?_⟩
  · intro b hb'
    dsimp only
    rw [hm]
    right
    rcases inv.ctr b hb' with ⟨a1, a2⟩ | ⟨q, hq, h1, _⟩
    · obtain ⟨_, _, _, pd, _, _, ho, _⟩ := Vis.put_only hb.gi s (mem_eight c (nw p) hb') eight_inj a1 (fun h => by cases h)
      refine ⟨p, hp, by rw [Function.update_self]; omega, pd, ?_⟩
      have e := (inv.new p hp b hb').2 (by omega) (by omega)
      dsimp only at ho
      rw [e] at ho
      exact ho
    · have := hh q hq (by omega)
      subst this
      omega
  · intro q hq b hb
    dsimp only
    rw [hm]
    left
    by_cases hqp : q = p
    · subst hqp
      obtain ⟨a1, a2⟩ := tmp_there inv hq hbz hb
      obtain ⟨b1, b2⟩ := Vis.noWriter_step s a1 (fun hwr => by
        obtain ⟨h1, b', hb', h2⟩ := hw _ hwr
        dsimp only at h1 h2
        subst h1
        exact sp.ctm b' hb' b hb h2.symm)
      rw [Function.update_self]
      exact ⟨b1, fun _ _ => by omega⟩
    · rw [Function.update_of_ne hqp]
      rcases inv.tmp q hq b hb with ⟨a1, a2⟩ | ⟨a1, _⟩
      · obtain ⟨b1, b2⟩ := Vis.noWriter_step s a1 (fun hwr => by
          obtain ⟨h1, b', hb', h2⟩ := hw _ hwr
          dsimp only at h1 h2
          subst h1
          exact sp.ctm b' hb' b hb h2.symm)
        exact ⟨b1, fun h1 _ => absurd (hh q hq h1) hqp⟩
      · exact absurd (hh q hq (by omega)) hqp
  · intro q hq b hb
    dsimp only
    rw [hm]
    obtain ⟨a1, a2⟩ := inv.new q hq b hb
    obtain ⟨b1, b2⟩ := Vis.noWriter_step s a1 (fun hwr => by
      obtain ⟨h1, b', hb', h2⟩ := hw _ hwr
      dsimp only at h1 h2
      subst h1
      exact sp.cnw b' hb' b hb h2.symm)
    refine ⟨b1, ?_⟩
    by_cases hqp : q = p
    · subst hqp
      rw [Function.update_self]
      intro h1 h2; omega
    · rw [Function.update_of_ne hqp]
      exact fun h1 h2 => absurd (hh q hq (by omega)) hqp

/-- the quiet of a round -/
theorem cinv_quiet (wf : T.lk.WF) (un : T.lk.Uniform) (sp : Spot T h c tm nw) {x : PX} {g' : Vis.G} (hb : Base T x.x) {p : Nat} (hp : p < T.lk.n)
    (hh : ∀ q < T.lk.n, 2 ≤ x.pos q % 13 → q = p) (hph : x.pos p % 13 = 11) {op : Order.Op} (hop : op = .quiet none ∨ op = .fence none)
    (s : Vis.Step T.vis x.x.g (.call p op) g') (inv : CInv T h c tm nw v0 x) :
    CInv T h c tm nw v0 ⟨⟨g', x.x.pc⟩, Function.update x.pos p (x.pos p + 1)⟩ := by
  have hm : made (Function.update x.pos p (x.pos p + 1)) T.lk.n = made x.pos T.lk.n := made_upd (by omega)
  obtain ⟨hfl, hbu⟩ := Vis.quiet_step hb.gi hop s
  have hnw : ∀ k, ¬ (Vis.Ev.call p op).writes k := fun k h => h
  refine ⟨?_, ?_, ?_⟩
  · intro b hb
    dsimp only
    rw [hm]
    left
    rcases inv.ctr b hb with ⟨a1, a2⟩ | ⟨q, hq, h1, pd, ho⟩
    · obtain ⟨b1, b2⟩ := Vis.noWriter_step s a1 (hnw _)
      exact ⟨b1, b2.trans a2⟩
    · have := hh q hq (by omega)
      subst this
      have ho' := Vis.only_step ho s (hnw _) (fun k' h => by cases h)
      obtain ⟨h1, h2⟩ := Vis.only_done ho' (by
        rintro a (⟨y, hy, _⟩ | ⟨h, _⟩)
        · rw [hfl] at hy; cases hy
        · cases h)
      exact ⟨h2, h1⟩
  · intro q hq b hb
    dsimp only
    rw [hm]
    left
    rcases inv.tmp q hq b hb with ⟨a1, a2⟩ | ⟨a1, _⟩
    · obtain ⟨b1, b2⟩ := Vis.noWriter_step s a1 (hnw _)
      refine ⟨b1, ?_⟩
      by_cases hqp : q = p
      · subst hqp
        rw [Function.update_self]
        intro h1 h2; omega
      · rw [Function.update_of_ne hqp]
        exact fun h1 _ => absurd (hh q hq h1) hqp
    · have := hh q hq (by omega)
      subst this
      omega
  · intro q hq b hb
    dsimp only
    rw [hm]
    obtain ⟨a1, a2⟩ := inv.new q hq b hb
    obtain ⟨b1, b2⟩ := Vis.noWriter_step s a1 (hnw _)
    refine ⟨b1, ?_⟩
    by_cases hqp : q = p
    · subst hqp
      rw [Function.update_self]
      intro h1 h2; omega
    · rw [Function.update_of_ne hqp]
      exact fun h1 h2 => absurd (hh q hq (by omega)) hqp

theorem cinv_step (wf : T.lk.WF) (un : T.lk.Uniform) (sp : Spot T h c tm nw) {x y : PX} {ev : Ev} (hb : Base T x.x)
    (hi : PcInv T (counter h c tm nw K) x) (s : PStep T (counter h c tm nw K) x ev y) (inv : CInv T h c tm nw v0 x) : CInv T h c tm nw v0 y := by
  obtain ⟨wtr, hwe⟩ := hb.wexec
  -- a holder is the only one inside a round
  have alone : ∀ p < T.lk.n, x.x.pc 0 p = .held → ∀ q < T.lk.n, 2 ≤ x.pos q % 13 → q = p :=
    fun p hp hh q hq h2 => hb.excl q p (inside_held sp hi hq h2) hh
  -- a PE that makes a call in a round holds the lock
  have holder : ∀ p < T.lk.n, T.lk.free x.x.words p = true → x.pos p % 13 ≠ 0 → x.x.pc 0 p = .held := by
    intro p hp hf h0
    have hlen : x.pos p ≤ 13 * K := by have := hi.len p hp; rwa [counter_len] at this
    exact (hi.rest p hp 0 sp.one (free_iff.1 hf 0 sp.one)).2 ((counter_holds hlen).2 ⟨rfl, h0⟩)
  cases s with
  | @lib x y pos e ho s =>
    refine cinv_neutral wf un sp hwe s ?_ (fun q _ => Or.inl rfl) rfl inv
    intro e' he' k hk
    cases he'
    cases e <;> first | exact hk | cases ho
  | @run x y pos ev p l s => exact cinv_neutral wf un sp hwe s (fun e h => by cases h) (fun q _ => Or.inl rfl) rfl inv
  | @set x y pos ev p l ha s =>
    have h0 := (act_set (counter_get' ha).2).1
    refine cinv_neutral wf un sp hwe s (fun e h => by cases h) (fun q _ => ?_) (made_upd (by omega)) inv
    by_cases hqp : q = p
    · subst hqp; rw [Function.update_self]; dsimp only; omega
    · rw [Function.update_of_ne hqp]; exact Or.inl rfl
  | @clear x y pos ev p l ha s =>
    have h0 := (act_clear (by omega) (counter_get' ha).2).1
    refine cinv_neutral wf un sp hwe s (fun e h => by cases h) (fun q _ => ?_) (made_upd (by omega)) inv
    by_cases hqp : q = p
    · subst hqp; rw [Function.update_self]; dsimp only; omega
    · rw [Function.update_of_ne hqp]; exact Or.inl rfl
  | @quiet x y pos p op ha ho s =>
    have h0 := act_quiet (counter_get' ha).2
    cases s with
    | @rma e g' hs hc =>
      have hp : p < T.lk.n := by rw [T.hn]; exact (Vis.own_free hs rfl).1
      have hh := holder p hp (hc p rfl) (by dsimp only; omega)
      exact cinv_quiet wf un sp hb hp (alone p hp hh) h0 ho hs inv
  | @data x y pos e p f ha hd s =>
    cases s with
    | @rma e g' hs hc =>
      have hp : p < T.lk.n := by rw [T.hn]; exact (Vis.own_free hs (does_own hd)).1
      have hfree := hc p (own_caller (does_own hd))
      rcases act_data (counter_get' ha).2 with ⟨h0, rfl⟩ | ⟨j, hj, h0, rfl⟩ | ⟨h0, rfl⟩
      · obtain ⟨ctx, addr, ep, rfl⟩ := hd
        exact cinv_get wf un sp hb hp (alone p hp (holder p hp hfree (by dsimp only; omega))) h0 hs inv
      · have hd : e = .store p (nw p + (j : Nat)) (byteOf (word8 (x.g.mem p) (tm p) + 1) j) := hd
        subst hd
        exact cinv_store wf un sp hb hp (alone p hp (holder p hp hfree (by dsimp only; omega))) hj h0 hs inv
      · obtain ⟨ctx, addr, ep, rfl⟩ := hd
        exact cinv_put wf un sp hb hp (alone p hp (holder p hp hfree (by dsimp only; omega))) h0 hs inv

/-- in every state of an execution of a proper program -/
theorem base_run {P : Prog} (wf : T.lk.WF) (un : T.lk.Uniform) (hm : 0 < T.lk.m) (hP : Proper T P) {x y : PX} {l : List Ev} (h0 : Start T x.x)
    (r : PRun T P x l y) : Base T y.x := by
  obtain ⟨tr, hr, hre⟩ := r.run hP
  obtain ⟨h1, _, h3⟩ := proj h0 hr hre
  exact ⟨h3, h1, fun p q => exclusion wf un h0 hr hre hm⟩

theorem cinv_run (wf : T.lk.WF) (un : T.lk.Uniform) (sp : Spot T h c tm nw) {x y : PX} {l : List Ev} (h0 : Start T x.x) (hp : x.pos = fun _ => 0)
    (r : PRun T (counter h c tm nw K) x l y) : CInv T h c tm nw (word8 (x.x.g.mem h) c) y := by
  have hi : PcInv T (counter h c tm nw K) x := pcInv_init h0 hp
  induction r with
  | nil => exact cinv_init h0.1 hp rfl
  | snoc r s ih => exact cinv_step wf un sp (base_run wf un sp.one (counter_proper sp K) h0 r) (pcInv_run r hi) s ih

/-- **Where the counter stands.** In every execution of the program, at an instant at which no PE is between the put and the return of the quiet
    that follows it, the counter of PE `h` has its first value plus the number of increments made; and nothing in flight changes it. -/
theorem C109_count_partial (wf : T.lk.WF) (un : T.lk.Uniform) (sp : Spot T h c tm nw) {x y : PX} {l : List Ev} (h0 : Start T x.x)
    (hp : x.pos = fun _ => 0) (r : PRun T (counter h c tm nw K) x l y) (hq : ∀ p < T.lk.n, y.pos p % 13 ≠ 11) :
    word8 (y.x.g.mem h) c = (word8 (x.x.g.mem h) c + made y.pos T.lk.n) % 2 ^ 64 ∧ ∀ b < 8, NoWriter y.x.g (h, c + (b : Nat)) := by
  have hi := cinv_run wf un sp h0 hp r
  have hb : ∀ b < 8, Quiet y.x.g (h, c + (b : Nat)) (byteOf (word8 (x.x.g.mem h) c + made y.pos T.lk.n) b) := by
    intro b hb
    rcases hi.ctr b hb with h1 | ⟨q, hq', h1, _⟩
    · exact h1
    · exact absurd h1 (hq q hq')
  exact ⟨word8_bytes fun b h => (hb b h).2, fun b h => (hb b h).1⟩

/-- **What an increment reads.** A PE that is in the middle of a round and in no call reads in its local variable the value of the counter: the
    first value plus the increments made so far, by all PEs. -/
theorem C109_reads_partial (wf : T.lk.WF) (un : T.lk.Uniform) (sp : Spot T h c tm nw) {x y : PX} {l : List Ev} (h0 : Start T x.x)
    (hp : x.pos = fun _ => 0) (r : PRun T (counter h c tm nw K) x l y) {p : Nat} (hpn : p < T.lk.n) (h1 : 2 ≤ y.pos p % 13) (h2 : y.pos p % 13 ≤ 10)
    (hb : y.x.g.busy p = []) : word8 (y.x.g.mem p) (tm p) = (word8 (x.x.g.mem h) c + made y.pos T.lk.n) % 2 ^ 64 :=
  word8_bytes fun _ hlt => (tmp_there (cinv_run wf un sp h0 hp r) hpn hb hlt).2 h1 h2

/-- **A counter behind a lock counts.** In every fair execution of the program in which each of the `n` PEs adds one to the counter of PE `h` `K`
    times, each time behind the lock, there is an instant from which on the counter is its first value plus `n * K`: the program ends, and no
    increment is lost. -/
theorem C109_counter_partial (wf : T.lk.WF) (un : T.lk.Uniform) (sp : Spot T h c tm nw) (R : LInf T (counter h c tm nw K)) (F : R.vis.Fair) :
    ∃ i, ∀ j, i ≤ j → word8 ((R.vis.st j).mem h) c = (word8 (R.vis.mem h) c + T.lk.n * K) % 2 ^ 64 := by
  obtain ⟨i, hi⟩ := C109_ends_partial R wf un (counter_proper sp K) F
  refine ⟨i, fun j hj => ?_⟩
  have hend : ∀ p < T.lk.n, R.pos j p = 13 * K := fun p hp => by rw [(hi j hj p hp).1, counter_len]
  obtain ⟨l, r⟩ := R.run j
  have hc := (C109_count_partial wf un sp R.start R.pos0 r (fun p hp => by
    show R.pos j p % 13 ≠ 11
    rw [hend p hp]; omega)).1
  have e1 : made (R.at_ j).pos T.lk.n = T.lk.n * K := made_end hend
  have e2 : (R.at_ 0).x.g.mem h = R.vis.mem h := by
    show (R.vis.st 0).mem h = _
    rw [R.vis.start]; rfl
  rw [e1, e2] at hc
  exact hc

end

end Verif.Crit
