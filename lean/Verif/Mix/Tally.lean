import Verif.Mix.FairExists
/-!
# C113: what the PEs get after the barrier
-/
namespace Verif.Crit.Mix
open Verif.Rma Verif.Lock

section
variable {T : Sys} {h : Nat} {c : Int} {tm nw : Nat → Int} {K v0 : Nat}

/-- the program of C111 uses one lock -/
theorem tally_ascending (n : Nat) : Ascending n (tally h c tm nw K) := by
  intro p _ i l hs k hk
  exfalso
  obtain ⟨h1, h2⟩ := tally_set hs
  obtain ⟨_, he⟩ := counter_get' h2
  exact ((counter_holds (by omega)).1 ((tally_holds (by omega)).1 hk)).2 (act_set he).1

/-! ## Proof: sequential executions -/

/-- What is true of a sequential execution of the program. -/
structure SInv (n h : Nat) (c : Int) (tm nw : Nat → Int) (K v0 : Nat) (s : SX) : Prop where
  excl : ∀ q < n, ∀ q' < n, s.pos q < 13 * K → s.pos q % 13 ≠ 0 → s.pos q' < 13 * K → s.pos q' % 13 ≠ 0 → q = q'
  late : ∀ q < n, 13 * K < s.pos q → ∀ q' < n, 13 * K ≤ s.pos q'
  ctr : ∀ b < 8, s.mem h (c + (b : Nat)) = byteOf (v0 + made s.pos n) b
  tmp : ∀ q < n, ∀ b < 8, (s.pos q < 13 * K ∧ 2 ≤ s.pos q % 13 ∧ s.pos q % 13 ≤ 10) ∨ s.pos q = 13 * K + 2 →
    s.mem q (tm q + (b : Nat)) = byteOf (v0 + made s.pos n) b
  new : ∀ q < n, ∀ b < 8, s.pos q < 13 * K → s.pos q % 13 ≤ 10 → b + 2 < s.pos q % 13 → s.mem q (nw q + (b : Nat)) = byteOf (v0 + made s.pos n + 1) b

theorem sinv_init (n : Nat) (m : Nat → IMem) : SInv n h c tm nw K (word8 (m h) c) ⟨m, fun _ => 0⟩ := by
  have e : made (fun _ => 0) n = 0 := by
    induction n with
    | zero => rfl
    | succ n ih => unfold made; rw [ih]
  refine ⟨?_, ?_, ?_, ?_, ?_⟩
  · intro q _ q' _ _ h1; exact absurd rfl h1
  · intro q _ h1; exact absurd h1 (Nat.not_lt_zero _)
  · intro b hb
    show m h (c + (b : Nat)) = byteOf (word8 (m h) c + made (fun _ => 0) n) b
    rw [e, Nat.add_zero, word8_byte _ _ hb]
  · intro q _ b _ h1
    dsimp only at h1
    omega
  · intro q _ b _ _ _ h1
    dsimp only at h1
    omega

/-- a step of one PE that does not change the counter -/
theorem sinv_move {n : Nat} {m m' : Nat → IMem} {pos : Nat → Nat} (inv : SInv n h c tm nw K v0 ⟨m, pos⟩) {p : Nat} (hlt : pos p < 13 * K)
    (hne : pos p % 13 ≠ 0 ∨ ∀ q < n, pos q < 13 * K → pos q % 13 = 0) (h10 : pos p % 13 ≠ 10) (ho : ∀ q, q ≠ p → m' q = m q)
    (hc : ∀ b < 8, m' h (c + (b : Nat)) = m h (c + (b : Nat)))
    (ht : ∀ b < 8, 2 ≤ (pos p + 1) % 13 → (pos p + 1) % 13 ≤ 10 → m' p (tm p + (b : Nat)) = byteOf (v0 + made pos n) b)
    (hw : ∀ b < 8, (pos p + 1) % 13 ≤ 10 → b + 2 < (pos p + 1) % 13 → m' p (nw p + (b : Nat)) = byteOf (v0 + made pos n + 1) b) (hp : p < n) :
    SInv n h c tm nw K v0 ⟨m', Function.update pos p (pos p + 1)⟩ := by
  have em : made (Function.update pos p (pos p + 1)) n = made pos n := made_upd (by omega)
  have up : ∀ q, (q = p ∧ Function.update pos p (pos p + 1) q = pos p + 1) ∨ (q ≠ p ∧ Function.update pos p (pos p + 1) q = pos q) := by
    intro q
    by_cases hq : q = p
    · subst hq; exact Or.inl ⟨rfl, Function.update_self ..⟩
    · exact Or.inr ⟨hq, Function.update_of_ne hq _ _⟩
  refine ⟨?_, ?_, ?_, ?_, ?_⟩
  · intro q hq q' hq' h1 h2 h3 h4
    dsimp only at h1 h2 h3 h4
    rcases up q with ⟨e1, e2⟩ | ⟨e1, e2⟩ <;> rcases up q' with ⟨e3, e4⟩ | ⟨e3, e4⟩ <;> rw [e2] at h1 h2 <;> rw [e4] at h3 h4
    · rw [e1, e3]
    · rcases hne with h5 | h5
      · exact e1.trans (inv.excl p hp q' hq' hlt h5 h3 h4)
      · exact absurd (h5 q' hq' h3) h4
    · rcases hne with h5 | h5
      · exact (inv.excl q hq p hp h1 h2 hlt h5).trans e3.symm
      · exact absurd (h5 q hq h1) h2
    · exact inv.excl q hq q' hq' h1 h2 h3 h4
  · intro q hq h1 q' hq'
    dsimp only at h1 ⊢
    rcases up q with ⟨e1, e2⟩ | ⟨e1, e2⟩ <;> rw [e2] at h1
    · omega
    · have := inv.late q hq h1 p hp
      dsimp only at this
      omega
  · intro b hb
    dsimp only
    rw [em, hc b hb]
    exact inv.ctr b hb
  · intro q hq b hb h1
    dsimp only at h1 ⊢
    rw [em]
    rcases up q with ⟨e1, e2⟩ | ⟨e1, e2⟩ <;> rw [e2] at h1
    · subst e1
      exact ht b hb (by omega) (by omega)
    · rw [ho q e1]
      exact inv.tmp q hq b hb h1
  · intro q hq b hb h1 h2 h3
    dsimp only at h1 h2 h3 ⊢
    rw [em]
    rcases up q with ⟨e1, e2⟩ | ⟨e1, e2⟩ <;> rw [e2] at h1 h2 h3
    · subst e1
      exact hw b hb h2 h3
    · rw [ho q e1]
      exact inv.new q hq b hb h1 h2 h3

theorem get_exec {p : Nat} {a b : Int} {m : Nat → IMem} {i : Nat} (hi : i < 8) :
    (Call.get h false (eight a b)).exec p m p (a + (i : Nat)) = m h (b + (i : Nat)) := by
  show Function.update m p _ p _ = _
  rw [Function.update_self]
  exact copy_at (x := (a + (i : Nat), b + (i : Nat))) (fun x hx y hy e => by
    obtain ⟨j, hj, rfl⟩ := eight_mem hx
    obtain ⟨k, hk, rfl⟩ := eight_mem hy
    dsimp only at e
    have : k = j := by omega
    rw [this]) _ (mem_eight a b hi)

theorem put_exec {p : Nat} {a b : Int} {m : Nat → IMem} {i : Nat} (hi : i < 8) :
    (Call.put h false (eight a b)).exec p m h (a + (i : Nat)) = m p (b + (i : Nat)) := by
  show Function.update m h _ h _ = _
  rw [Function.update_self]
  exact copy_at (x := (a + (i : Nat), b + (i : Nat))) (fun x hx y hy e => by
    obtain ⟨j, hj, rfl⟩ := eight_mem hx
    obtain ⟨k, hk, rfl⟩ := eight_mem hy
    dsimp only at e
    have : k = j := by omega
    rw [this]) _ (mem_eight a b hi)

theorem get_other {p : Nat} {xs : List (Int × Int)} {m : Nat → IMem} {q : Nat} (hq : q ≠ p) : (Call.get h false xs).exec p m q = m q :=
  Function.update_of_ne hq _ _

theorem get_off {p : Nat} {a b z : Int} {m : Nat → IMem} (hz : ∀ i < 8, a + (i : Nat) ≠ z) :
    (Call.get h false (eight a b)).exec p m p z = m p z := by
  show Function.update m p _ p _ = _
  rw [Function.update_self]
  refine copy_off fun x hx => ?_
  obtain ⟨j, hj, rfl⟩ := eight_mem hx
  exact hz j hj

theorem put_other {p : Nat} {xs : List (Int × Int)} {m : Nat → IMem} {q : Nat} (hq : q ≠ h) : (Call.put h false xs).exec p m q = m q :=
  Function.update_of_ne hq _ _

theorem put_off {p : Nat} {a b z : Int} {m : Nat → IMem} (hz : ∀ i < 8, a + (i : Nat) ≠ z) :
    (Call.put h false (eight a b)).exec p m h z = m h z := by
  show Function.update m h _ h _ = _
  rw [Function.update_self]
  refine copy_off fun x hx => ?_
  obtain ⟨j, hj, rfl⟩ := eight_mem hx
  exact hz j hj

/-- the get at the end -/
theorem sinv_last (sp : Spot T h c tm nw) {m : Nat → IMem} {pos : Nat → Nat} (inv : SInv T.lk.n h c tm nw K v0 ⟨m, pos⟩) {p : Nat} (hp : p < T.lk.n)
    (hpos : pos p = 13 * K + 1) : SInv T.lk.n h c tm nw K v0 ⟨(Call.get h false (eight (tm p) c)).exec p m, Function.update pos p (pos p + 1)⟩ := by
  have em : made (Function.update pos p (pos p + 1)) T.lk.n = made pos T.lk.n := made_upd (by omega)
  have hall : ∀ q < T.lk.n, 13 * K ≤ pos q := inv.late p hp (by dsimp only; omega)
  have hall' : ∀ q < T.lk.n, 13 * K ≤ Function.update pos p (pos p + 1) q := by
    intro q hq
    by_cases e : q = p
    · subst e; rw [Function.update_self]; omega
    · rw [Function.update_of_ne e]; exact hall q hq
  refine ⟨?_, ?_, ?_, ?_, ?_⟩
  · intro q hq q' hq' h1
    have := hall' q hq
    dsimp only at h1
    omega
  · intro q hq h1 q' hq'; exact hall' q' hq'
  · intro b hb
    dsimp only
    rw [em]
    by_cases e : h = p
    · subst e
      rw [get_off fun i hi h' => sp.ctm b hb i hi h'.symm]
      exact inv.ctr b hb
    · rw [get_other e]; exact inv.ctr b hb
  · intro q hq b hb h1
    dsimp only at h1 ⊢
    rw [em]
    by_cases e : q = p
    · subst e
      rw [get_exec hb]
      exact inv.ctr b hb
    · rw [get_other e]
      rw [Function.update_of_ne e] at h1
      exact inv.tmp q hq b hb h1
  · intro q hq b hb h1
    have := hall' q hq
    dsimp only at h1
    omega

/-- the put -/
theorem sinv_put (sp : Spot T h c tm nw) {m : Nat → IMem} {pos : Nat → Nat} (inv : SInv T.lk.n h c tm nw K v0 ⟨m, pos⟩) {p : Nat} (hp : p < T.lk.n)
    (hlt : pos p < 13 * K) (h10 : pos p % 13 = 10) :
    SInv T.lk.n h c tm nw K v0 ⟨(Call.put h false (eight c (nw p))).exec p m, Function.update pos p (pos p + 1)⟩ := by
  have em : made (Function.update pos p (pos p + 1)) T.lk.n = made pos T.lk.n + 1 := made_put hp (by omega)
  -- nobody else is in a round, nobody is behind the barrier
  have others : ∀ q < T.lk.n, q ≠ p → pos q < 13 * K → pos q % 13 = 0 := by
    intro q hq hqp h1
    by_contra h2
    exact hqp (inv.excl q hq p hp h1 h2 hlt (by dsimp only; omega))
  have before : ∀ q < T.lk.n, pos q ≤ 13 * K := by
    intro q hq
    by_contra h1
    have := inv.late q hq (by dsimp only; omega) p hp
    dsimp only at this
    omega
  have up : ∀ q, (q = p ∧ Function.update pos p (pos p + 1) q = pos p + 1) ∨ (q ≠ p ∧ Function.update pos p (pos p + 1) q = pos q) := by
    intro q
    by_cases hq : q = p
    · subst hq; exact Or.inl ⟨rfl, Function.update_self ..⟩
    · exact Or.inr ⟨hq, Function.update_of_ne hq _ _⟩
  refine ⟨?_, ?_, ?_, ?_, ?_⟩
  · intro q hq q' hq' h1 h2 h3 h4
    dsimp only at h1 h2 h3 h4
    rcases up q with ⟨e1, e2⟩ | ⟨e1, e2⟩ <;> rcases up q' with ⟨e3, e4⟩ | ⟨e3, e4⟩ <;> rw [e2] at h1 h2 <;> rw [e4] at h3 h4
    · rw [e1, e3]
    · exact absurd (others q' hq' e3 h3) h4
    · exact absurd (others q hq e1 h1) h2
    · exact absurd (others q hq e1 h1) h2
  · intro q hq h1
    dsimp only at h1
    have := before q hq
    rcases up q with ⟨e1, e2⟩ | ⟨e1, e2⟩ <;> rw [e2] at h1 <;> omega
  · intro b hb
    dsimp only
    rw [em, put_exec hb]
    exact inv.new p hp b hb hlt (by dsimp only; omega) (by dsimp only; omega)
  · intro q hq b hb h1
    exfalso
    dsimp only at h1
    have h2 := before q hq
    rcases up q with ⟨e1, e2⟩ | ⟨e1, e2⟩ <;> rw [e2] at h1
    · omega
    · have h3 := others q hq e1
      rcases h1 with ⟨h1, h4, _⟩ | h1
      · have := h3 h1; omega
      · omega
  · intro q hq b hb h1 h2 h3
    exfalso
    dsimp only at h1 h2 h3
    rcases up q with ⟨e1, e2⟩ | ⟨e1, e2⟩ <;> rw [e2] at h1 h2 h3
    · omega
    · have := others q hq e1 h1; omega

theorem sinv_step (sp : Spot T h c tm nw) {s t : SX} (inv : SInv T.lk.n h c tm nw K v0 s) (st : SStep T.lk.n (tally h c tm nw K) s t) :
    SInv T.lk.n h c tm nw K v0 t := by
  cases st with
  | @set m pos p l hp ha hl =>
    obtain ⟨h1, h2⟩ := tally_set ha
    obtain ⟨_, he⟩ := counter_get' h2
    obtain ⟨h0, rfl⟩ := act_set he
    refine sinv_move inv h1 (Or.inr fun q hq hlt => ?_) (by omega) (fun _ _ => rfl) (fun _ _ => rfl) (fun b hb h3 => by omega) (fun b hb _ h3 => by omega) hp
    by_contra hne
    exact hl q hq ((tally_holds (by omega)).2 ((counter_holds (by omega)).2 ⟨rfl, hne⟩))
  | @clear m pos p l hp ha =>
    obtain ⟨h1, h2⟩ := tally_clear ha
    obtain ⟨_, he⟩ := counter_get' h2
    obtain ⟨h0, rfl⟩ := act_clear (by omega) he
    exact sinv_move inv h1 (Or.inl (by omega)) (by omega) (fun _ _ => rfl) (fun _ _ => rfl) (fun b hb h3 => by omega) (fun b hb _ h3 => by omega) hp
  | @quiet m pos p hp ha =>
    rcases tally_some ha with ⟨h1, a', h2, h3⟩ | ⟨_, h3⟩ | ⟨_, h3⟩
    · rw [emb_quiet h3] at h2
      obtain ⟨_, he⟩ := counter_get' h2
      have h0 := act_quiet he
      exact sinv_move inv h1 (Or.inl (by omega)) (by omega) (fun _ _ => rfl) (fun _ _ => rfl) (fun b hb _ h3 => by omega) (fun b hb h3 => by omega) hp
    · cases h3
    · cases h3
  | @data m pos p f hp ha =>
    rcases tally_data ha with ⟨h1, h2⟩ | ⟨h1, rfl⟩
    · obtain ⟨_, he⟩ := counter_get' h2
      rcases act_data he with ⟨h0, rfl⟩ | ⟨j, hj, h0, rfl⟩ | ⟨h0, rfl⟩
      · refine sinv_move inv h1 (Or.inl (by omega)) (by omega) (fun q hq => get_other hq) (fun b hb => ?_) (fun b hb _ _ => ?_)
          (fun b hb _ h3 => by omega) hp
        · by_cases e : h = p
          · subst e
            exact get_off fun i hi h' => sp.ctm b hb i hi h'.symm
          · rw [get_other e]
        · dsimp only
          rw [get_exec hb]
          exact inv.ctr b hb
      · have hw : word8 (m p) (tm p) = (v0 + made pos T.lk.n) % 2 ^ 64 := word8_bytes fun b hb =>
          inv.tmp p hp b hb (Or.inl ⟨h1, by dsimp only; omega, by dsimp only; omega⟩)
        dsimp only
        rw [hw, byte_mod hj]
        refine sinv_move inv h1 (Or.inl (by omega)) (by omega) (fun q hq => Function.update_of_ne hq _ _) (fun b hb => ?_) (fun b hb _ _ => ?_)
          (fun b hb h3 h4 => ?_) hp
        · show Function.update m p _ h _ = _
          by_cases e : h = p
          · subst e
            rw [Function.update_self, Function.update_of_ne (sp.cnw b hb j hj)]
          · rw [Function.update_of_ne e]
        · show Function.update m p _ p _ = _
          rw [Function.update_self, Function.update_of_ne (sp.tnw p hp b hb j hj)]
          exact inv.tmp p hp b hb (Or.inl ⟨h1, by dsimp only; omega, by dsimp only; omega⟩)
        · show Function.update m p _ p _ = _
          rw [Function.update_self]
          by_cases e : b = j
          · subst e; rw [Function.update_self]
          · rw [Function.update_of_ne (by omega)]
            exact inv.new p hp b hb h1 (by dsimp only; omega) (by dsimp only; omega)
      · exact sinv_put sp inv hp h1 h0
    · exact sinv_last sp inv hp h1
  | @bar m pos ha =>
    have h13 : ∀ q < T.lk.n, pos q = 13 * K := fun q hq => tally_isbar (ha q hq)
    have em : made (fun q => pos q + 1) T.lk.n = made pos T.lk.n := made_same fun q hq => by
      rw [h13 q hq]; omega
    refine ⟨?_, ?_, ?_, ?_, ?_⟩
    · intro q hq q' _ h1
      have := h13 q hq
      dsimp only at h1; omega
    · intro q _ _ q' hq'
      have := h13 q' hq'
      dsimp only; omega
    · intro b hb
      dsimp only
      rw [em]; exact inv.ctr b hb
    · intro q hq b _ h1
      have := h13 q hq
      dsimp only at h1; omega
    · intro q hq b _ h1
      have := h13 q hq
      dsimp only at h1; omega

theorem sinv_run (sp : Spot T h c tm nw) {s t : SX} (r : SRun T.lk.n (tally h c tm nw K) s t) (h0 : SInv T.lk.n h c tm nw K v0 s) :
    SInv T.lk.n h c tm nw K v0 t := by
  induction r with
  | nil => exact h0
  | snoc r st ih => exact sinv_step sp ih st

theorem made_done {pos : Nat → Nat} {n : Nat} (hp : ∀ p < n, pos p = 13 * K + 2) : made pos n = n * K := by
  rw [← made_end (pos := fun _ => 13 * K) (n := n) (K := K) fun _ _ => rfl]
  refine made_same fun q hq => ?_
  rw [hp q hq]
  omega

/-- **Everybody gets the total.** In every fair execution of the program in which each of the `n` PEs adds one to the counter of PE `h` `K` times
    behind the lock, passes a barrier and gets the counter, there is an instant from which on every PE has finished, and has got the first value of
    the counter plus `n * K`. -/
theorem C113_tally_partial (wf : T.lk.WF) (un : T.lk.Uniform) (sp : Spot T h c tm nw) (R : MInf T (tally h c tm nw K)) (F : R.vis.Fair) :
    ∃ i, ∀ j, i ≤ j → ∀ p < T.lk.n, R.pos j p = 13 * K + 2 ∧
      word8 ((R.vis.st j).mem p) (tm p) = (word8 (R.vis.mem h) c + T.lk.n * K) % 2 ^ 64 := by
  obtain ⟨i, hi⟩ := C113_result_partial R wf un (tally_proper sp) (tally_ascending _) (tally_balanced _) (tally_drf sp) F
  refine ⟨i, fun j hj p hp => ?_⟩
  obtain ⟨h1, s, h2, h3, h4⟩ := hi j hj
  refine ⟨(h1 p hp).trans (tally_len p), ?_⟩
  have hpos : ∀ q < T.lk.n, s.pos q = 13 * K + 2 := fun q hq => (h3 q hq).trans (tally_len q)
  have inv := sinv_run sp h2 (sinv_init _ _)
  refine word8_bytes fun b hb => ?_
  have := h4 (p, tm p + (b : Nat)) hp (by
    rw [counter_own_tm sp hp (by omega) (by omega)]
    exact fun h => by cases h) (fun q hq => tally_clean q _ _ (by rw [tally_len]; omega))
  refine Eq.trans this ?_
  rw [← made_done hpos]
  exact inv.tmp p hp b hb (Or.inr (hpos p hp))

end

open Verif.Sobj Verif.Rma Verif.Lock Verif.Api Verif.Flow
open Verif.Heap (heapSize)

/-- The hypotheses of the theorems of C113 are met: two PEs increment a counter a thousand times each behind a lock, pass a barrier and get the
counter. There is a fair execution, in it both PEs get to the end of their programs, and both have got 2000. -/
example : ∃ R : MInf jT (tally 1 (adr exB 1 (0, 40) 0 : Nat) (fun p => (adr exB p (0, 40) 8 : Nat)) (fun p => (adr exB p (0, 40) 16 : Nat)) 1000),
    R.vis.Fair ∧ ∃ i, ∀ j, i ≤ j → ∀ p < 2, R.pos j p = 13002 ∧ word8 ((R.vis.st j).mem p) (adr exB p (0, 40) 8 : Nat) = 2000 := by
  obtain ⟨st, _, hlive⟩ := ex_made
  have hx : ((0, 40) : Nat × Nat) ∈ st.live := by rw [hlive]; decide
  have hin : 960 + 0 + 40 ≤ heapSize 12 4096 := by decide
  have sp := block_spot (T := jT) (x := (0, 40)) (h := 1) ex_job hin (by decide) (by decide) (by decide) jLk_apart
  have hM : jT.lk.Init (X.words ⟨Vis.ginit jM, fun _ _ => .idle⟩) := ⟨fun _ _ => rfl, fun _ _ _ _ => rfl⟩
  obtain ⟨R, F, hR⟩ := C113_exists_partial (T := jT) jLk_wf jLk_uniform (tally_proper (K := 1000) sp)
    (tally_accepts (T := jT) (h := 1) ex_job hx hin (by decide) (by decide)) (tally_balanced _) jM hM
  obtain ⟨i, hi⟩ := C113_tally_partial jLk_wf jLk_uniform sp R F
  refine ⟨R, F, i, fun j hj p hp => ⟨(hi j hj p hp).1, ?_⟩⟩
  rw [(hi j hj p hp).2, hR]
  rfl

end Verif.Crit.Mix
