import Verif.Flow.FetchAdd
/-!
# C118: objects written by atomic set and swap, and read by atomic fetch

tests/amo_set_fetch.c L18-22, tests/amo_set_wait_until.c: a PE sets a flag of another PE with `shmem_int_atomic_set`, the other reads it with
`shmem_int_atomic_fetch` until it changes. Any number of PEs, writers, values and calls.
-/
namespace Verif.Flow
open Verif.Sobj Verif.Rma Verif.Vis Verif.Api
open Verif.Amo (TyIdx)

/-! ## Specification -/

/-- routines that write their operand (src/shmem/amo_ext_typed.c.tpl L30-56, L70-82, L92-105: set, swap, swap_nbi and the deprecated forms) -/
def wrRts : List ARt := [.set, .dSet, .swap, .swapNbi, .dSwap]
/-- routines that only read (the same file, L14-28, L58-68, L84-90: fetch, fetch_nbi and the deprecated form) -/
def rdRts : List ARt := [.fetch, .fetchNbi, .dFetch]

/-- all calls on the object are writes or reads -/
def Register (nm : Nat → Option (Nat × AName)) (N : Nat) : Prop := ∀ k < N, ∀ p n, nm k = some (p, n) → n.rt ∈ wrRts ∨ n.rt ∈ rdRts

/-- PE `p` writes `v` to the object, in step `i` -/
def Writes (nm : Nat → Option (Nat × AName)) (i p v : Nat) : Prop := ∃ n, nm i = some (p, n) ∧ n.rt ∈ wrRts ∧ n.value = v

/-- what PE `p` wrote in step `i` is complete before step `b`: it has called `shmem_quiet` or `shmem_fence` after it, or the call was a swap and has returned -/
def Over (h : Nat → G) (ev : Nat → Ev) (nm : Nat → Option (Nat × AName)) (i p b : Nat) : Prop := ∃ k, i < k ∧ k < b ∧
  ((ev k = .call p (.quiet none) ∨ ev k = .call p (.fence none)) ∨ ∃ n r, nm i = some (p, n) ∧ n.rt.void = false ∧ Returns h ev p i k r)

/-! ## Proof -/

/-- the operand of a write -/
def wrOp : Amo.Api → Option Nat
  | .set v => some v
  | .swap v => some v
  | .cswap _ _ => none | .finc => none | .inc => none | .fadd _ => none | .add _ => none | .fetch => none
  | .fand _ => none | .and _ => none | .for _ => none | .or _ => none | .fxor _ => none | .xor _ => none

theorem means_wr {rt : ARt} (h : rt ∈ wrRts) (c v : Nat) : wrOp (rt.means c v) = some v := by
  cases rt <;> first | rfl | exact absurd h (by decide)

theorem means_rd {rt : ARt} (h : rt ∈ rdRts) (c v : Nat) : rt.means c v = .fetch := by
  cases rt <;> first | rfl | exact absurd h (by decide)

theorem spec_wr {w : Nat} (x : BitVec w) {op : Amo.Api} {v : Nat} (h : wrOp op = some v) : (Amo.spec x op).1 = BitVec.ofNat w v := by
  cases op <;> first | (cases h; rfl) | cases h

theorem seq_det {w : Nat} {x y z : BitVec w} {l : List (Nat × Amo.Api × Nat)} (h1 : Seq x l y) (h2 : Seq x l z) : y = z := by
  induction h1 with
  | nil x => cases h2; rfl
  | cons h s ih => cases h2 with | cons h' s' => exact ih s'

/-- a value that stays -/
theorem seq_stay {w : Nat} {x z : BitVec w} {l : List (Nat × Amo.Api × Nat)} (h : Seq x l z) (v : BitVec w)
    (hl : ∀ c ∈ l, c.2.1 = .fetch ∨ ∃ u, wrOp c.2.1 = some u ∧ BitVec.ofNat w u = v) (hx : x = v) : z = v := by
  induction h with
  | nil x => exact hx
  | @cons x z q r api l h s ih =>
    refine ih (fun c hc => hl c (List.mem_cons_of_mem _ hc)) ?_
    rcases hl _ (List.mem_cons_self ..) with he | ⟨u, he, hu⟩
    · dsimp only at he
      subst he
      exact hx
    · rw [spec_wr _ he, hu]

/-- a value that arrives -/
theorem seq_hit {w : Nat} {x z : BitVec w} {l : List (Nat × Amo.Api × Nat)} (h : Seq x l z) (v : BitVec w)
    (hl : ∀ c ∈ l, c.2.1 = .fetch ∨ ∃ u, wrOp c.2.1 = some u ∧ BitVec.ofNat w u = v)
    (hx : ∃ c ∈ l, ∃ u, wrOp c.2.1 = some u ∧ BitVec.ofNat w u = v) : z = v := by
  obtain ⟨c, hc, u, h1, h2⟩ := hx
  obtain ⟨l1, l2, rfl⟩ := List.append_of_mem hc
  obtain ⟨y, _, s2⟩ := seq_split h
  cases s2 with
  | cons _ s =>
    exact seq_stay s v (fun c hc => hl c (List.mem_append_right _ (List.mem_cons_of_mem _ hc))) (by rw [spec_wr _ h1, h2])

/-- where a value comes from -/
theorem seq_from {w : Nat} {x z : BitVec w} {l : List (Nat × Amo.Api × Nat)} (h : Seq x l z)
    (hl : ∀ c ∈ l, c.2.1 = .fetch ∨ ∃ u, wrOp c.2.1 = some u) : z = x ∨ ∃ c ∈ l, ∃ u, wrOp c.2.1 = some u ∧ z = BitVec.ofNat w u := by
  induction h with
  | nil x => exact Or.inl rfl
  | @cons x z q r api l h s ih =>
    rcases ih (fun c hc => hl c (List.mem_cons_of_mem _ hc)) with h1 | ⟨c, hc, u, h1, h2⟩
    · rcases hl _ (List.mem_cons_self ..) with he | ⟨u, he⟩
      · dsimp only at he
        subst he
        exact Or.inl h1
      · rw [spec_wr _ he] at h1
        exact Or.inr ⟨_, List.mem_cons_self .., u, he, h1⟩
    · exact Or.inr ⟨c, List.mem_cons_of_mem _ hc, u, h1, h2⟩

section
variable {S : Sys} {N : Nat} {h : Nat → G} {ev : Nat → Ev} {t : Nat} {row : Row} {bases : Nat → BitVec 64} {off : BitVec 64}
  {nm : Nat → Option (Nat × AName)}

theorem Exec.take (x : Exec S N h ev) {k : Nat} (hk : k ≤ N) : Exec S k h ev := ⟨x.reach, fun j hj => x.step j (by omega)⟩

theorem named_take (hm : Named S h ev N t row bases off nm) {k : Nat} (hk : k ≤ N) : Named S h ev k t row bases off nm :=
  ⟨fun j hj => hm.1 j (by omega), fun j hj => hm.2 j (by omega)⟩

theorem reg_only (hb : row.mpi.bytes = row.ty.sizeof) (hm : Named S h ev N t row bases off nm) :
    ∀ e ∈ (List.range N).map ev, e.touches t (bases t + off).toInt row.mpi → e.IsAmo t (bases t + off).toInt row.mpi := by
  intro e he ht
  obtain ⟨i, hi, rfl⟩ := List.mem_map.1 he
  have hi := List.mem_range.1 hi
  cases hi' : nm i with
  | none =>
    unfold Ev.touches at ht
    rw [hb] at ht
    exact absurd ht (hm.2 i hi hi')
  | some y =>
    obtain ⟨p, n⟩ := y
    exact ⟨p, _, _, _, _, (aimed_ev (hm.1 i hi p n hi')).1⟩

/-- the object from one moment to another: what was performed between -/
theorem word_seq (x : Exec S N h ev) (hb : row.mpi.bytes = row.ty.sizeof) (hn : Calm (h 0) t (bases t + off).toInt row.ty.sizeof)
    (hm : Named S h ev N t row bases off nm) {a d : Nat} (hd : a + d ≤ N) :
    Seq (Vis.wordAt ((h a).mem t) (bases t + off).toInt row.mpi) (acts t (bases t + off).toInt row.mpi ((List.range d).map fun i => ev (a + i)))
      (Vis.wordAt ((h (a + d)).mem t) (bases t + off).toInt row.mpi) := by
  have hn' : ∀ y, (bases t + off).toInt ≤ y → y < (bases t + off).toInt + row.mpi.bytes → NoWriter (h 0) (t, y) := by
    rw [hb]; exact hn
  have h1 := C73_linear (exec_run (x.take (k := a) (by omega)).step) hn' (reg_only hb (named_take hm (by omega)))
  have h2 := C73_linear (exec_run (x.take hd).step) hn' (reg_only hb (named_take hm hd))
  rw [List.range_add, List.map_append, acts_append, List.map_map] at h2
  obtain ⟨y, h3, h4⟩ := seq_split h2
  rw [seq_det h1 h3]
  exact h4

/-- what is performed was called -/
theorem act_called (x : Exec S N h ev) (hrow : row ∈ extRows) (hn : Calm (h 0) t (bases t + off).toInt row.ty.sizeof)
    (hm : Named S h ev N t row bases off nm) {a d : Nat} (hd : a + d ≤ N) {c : Nat × Amo.Api × Nat}
    (hc : c ∈ acts t (bases t + off).toInt row.mpi ((List.range d).map fun i => ev (a + i))) :
    ∃ j, a ≤ j ∧ j < a + d ∧ (∃ am r, ev j = .done c.1 (.upd t (bases t + off).toInt row.mpi c.2.1 am) r) ∧
      ∃ k < j, ∃ n, nm k = some (c.1, n) ∧ n.rt.means n.cond n.value = c.2.1 := by
  obtain ⟨am, hin⟩ := acts_mem hc
  obtain ⟨i, hi, he⟩ := List.mem_map.1 hin
  have hi := List.mem_range.1 hi
  exact ⟨a + i, by omega, by omega, ⟨am, _, he⟩, (C97_effect x hrow hn hm (j := a + i) (by omega) he).1⟩

theorem effects_mono (ev : Nat → Ev) {N M p t : Nat} {a : Int} {ty : TyIdx} {op : Amo.Api} (hk : N ≤ M) :
    effects ev N p t a ty op ≤ effects ev M p t a ty op := by
  unfold effects
  exact List.Sublist.countP_le (List.range_sublist.2 hk)

theorem called_mono (nm : Nat → Option (Nat × AName)) {N M p : Nat} {op : Amo.Api} (hk : N ≤ M) : called nm N p op ≤ called nm M p op := by
  unfold called
  exact List.Sublist.countP_le (List.range_sublist.2 hk)

theorem effects_succ (ev : Nat → Ev) {N p t : Nat} {a : Int} {ty : TyIdx} {op : Amo.Api} (h : ∃ am r, ev N = .done p (.upd t a ty op am) r) :
    effects ev (N + 1) p t a ty op = effects ev N p t a ty op + 1 := by
  classical
  unfold effects
  rw [List.range_succ, List.countP_append, List.countP_singleton, if_pos (by simpa using h)]

theorem called_succ (nm : Nat → Option (Nat × AName)) {N p : Nat} {op : Amo.Api} (h : ∃ n, nm N = some (p, n) ∧ n.rt.means n.cond n.value = op) :
    called nm (N + 1) p op = called nm N p op + 1 := by
  classical
  unfold called
  rw [List.range_succ, List.countP_append, List.countP_singleton, if_pos (by simpa using h)]

theorem called_same (nm : Nat → Option (Nat × AName)) {N p : Nat} {op : Amo.Api} (h : ¬ ∃ n, nm N = some (p, n) ∧ n.rt.means n.cond n.value = op) :
    called nm (N + 1) p op = called nm N p op := by
  classical
  unfold called
  rw [List.range_succ, List.countP_append, List.countP_singleton, if_neg (by simpa using h), Nat.add_zero]

theorem called_gap (nm : Nat → Option (Nat × AName)) {a b p : Nat} {op : Amo.Api} (hab : a ≤ b)
    (h : ∀ i, a ≤ i → i < b → ¬ ∃ n, nm i = some (p, n) ∧ n.rt.means n.cond n.value = op) : called nm b p op = called nm a p op := by
  induction b with
  | zero => obtain rfl : a = 0 := by omega
            rfl
  | succ b ih =>
    by_cases hb : a = b + 1
    · rw [hb]
    · rw [called_same nm (h b (by omega) (by omega)), ih (by omega) (fun i h1 h2 => h i h1 (by omega))]

/-- a write that is over: at that moment all calls of its PE for the same have taken effect -/
theorem over_count (x : Exec S N h ev) (hrow : row ∈ extRows) (hn : Calm (h 0) t (bases t + off).toInt row.ty.sizeof)
    (hm : Named S h ev N t row bases off nm) {i p b : Nat} (hb : b ≤ N) {n : AName} (hi : nm i = some (p, n)) (ho : Over h ev nm i p b) :
    ∃ k, i < k ∧ k < b ∧ effects ev (k + 1) p t (bases t + off).toInt row.mpi (n.rt.means n.cond n.value) =
      called nm (k + 1) p (n.rt.means n.cond n.value) := by
  classical
  obtain ⟨k, h1, h2, h3⟩ := ho
  refine ⟨k, h1, h2, ?_⟩
  rcases h3 with hq | ⟨n', r, hi', hv, hret⟩
  · exact C97_quiet x hrow hn hm (by omega) hq _
  · rw [hi] at hi'
    cases hi'
    have hbt := (row_ok row hrow).1
    have hpos := bytes_pos row.mpi
    rw [← called_eq hbt (named_take hm (by omega)), ← effects_eq]
    have hrun : Run S (h 0) ((List.range (k + 1)).map ev) (h (k + 1)) := exec_run fun j hj => x.step j (by omega)
    have hc := count_run p (fun i => decide (i.t = t ∧ i.a = (bases t + off).toInt ∧ i.ty = row.mpi) && decide (i.api = n.rt.means n.cond n.value)) hrun
    rw [calm_zero (hn _ (le_refl _) (by omega)) p (fun o => decide (o = n.rt.means n.cond n.value))] at hc
    have h0 : inFlight p (fun i => decide (i.t = t ∧ i.a = (bases t + off).toInt ∧ i.ty = row.mpi) && decide (i.api = n.rt.means n.cond n.value)) (h (k + 1)) = 0 := by
      unfold inFlight
      rw [hret.2.2.1, List.countP_nil, Nat.add_zero]
      refine List.sum_eq_zero fun c hc' => ?_
      obtain ⟨y, hy, rfl⟩ := List.mem_map.1 hc'
      rw [List.countP_eq_zero]
      intro b' hb' hb2
      have h2 := x.noRet (k := k + 1) (by omega) p y hy b' hb'
      cases b' with
      | set d a' v => simp [Atom.is] at hb2
      | mv s sa d a' => simp [Atom.is] at hb2
      | upd d a' ty' api am =>
        simp only [Atom.is, Bool.and_eq_true, decide_eq_true_eq] at hb2
        obtain ⟨_, rfl⟩ := hb2
        simp only [Atom.inv] at h2
        rw [← returns_eq, means_void, hv] at h2
        cases h2
    rw [h0] at hc
    omega

/-- writes that are over leave nothing behind -/
theorem over_all (x : Exec S N h ev) (hrow : row ∈ extRows) (hn : Calm (h 0) t (bases t + off).toInt row.ty.sizeof)
    (hm : Named S h ev N t row bases off nm) {a : Nat} (ha : a ≤ N) {q : Nat} {op : Amo.Api}
    (hq : ∀ i < a, ∀ n, nm i = some (q, n) → n.rt.means n.cond n.value = op → Over h ev nm i q a) :
    called nm a q op ≤ effects ev a q t (bases t + off).toInt row.mpi op := by
  have : ∀ a' ≤ a, called nm a' q op ≤ effects ev a q t (bases t + off).toInt row.mpi op := by
    intro a'
    induction a' with
    | zero => intro _; unfold called; simp
    | succ a' ih =>
      intro h1
      by_cases hc : ∃ n, nm a' = some (q, n) ∧ n.rt.means n.cond n.value = op
      · obtain ⟨n, h2, rfl⟩ := hc
        obtain ⟨k, h3, h4, h5⟩ := over_count x hrow hn hm ha h2 (hq a' (by omega) n h2 rfl)
        refine Nat.le_trans (called_mono nm (by omega : a' + 1 ≤ k + 1)) ?_
        rw [← h5]
        exact effects_mono ev (by omega)
      · rw [called_same nm hc]
        exact ih (by omega)
  exact this a (le_refl _)

/-- **C118** (no value out of thin air). An object on which only atomic writes (set, swap) and reads (fetch) of its type are called, by any PEs, in any version
and number: at every moment of every execution it holds its first value or one that has been written, by a call made before. -/
theorem C118_value (x : Exec S N h ev) (hrow : row ∈ extRows) (hn : Calm (h 0) t (bases t + off).toInt row.ty.sizeof)
    (hm : Named S h ev N t row bases off nm) (hr : Register nm N) {k : Nat} (hk : k ≤ N) :
    Api.wordAt ((h k).mem t) (bases t + off).toInt row.ty.sizeof = Api.wordAt ((h 0).mem t) (bases t + off).toInt row.ty.sizeof ∨
    ∃ i < k, ∃ p v, Writes nm i p v ∧ Api.wordAt ((h k).mem t) (bases t + off).toInt row.ty.sizeof = BitVec.ofNat _ v := by
  have hb := (row_ok row hrow).1
  have hs := word_seq x hb hn hm (a := 0) (d := k) (by omega)
  rw [Nat.zero_add] at hs
  have key : ∀ c ∈ acts t (bases t + off).toInt row.mpi ((List.range k).map fun i => ev (0 + i)), c.2.1 = .fetch ∨ ∃ u, wrOp c.2.1 = some u := by
    intro c hc
    obtain ⟨j, _, h2, _, i, h3, n, h4, h5⟩ := act_called x hrow hn hm (by omega) hc
    rcases hr i (by omega) _ _ h4 with h6 | h6
    · exact Or.inr ⟨_, by rw [← h5]; exact means_wr h6 _ _⟩
    · exact Or.inl (by rw [← h5]; exact means_rd h6 _ _)
  rw [← hb]
  rcases seq_from hs key with h1 | ⟨c, hc, u, h1, h2⟩
  · exact Or.inl h1
  · obtain ⟨j, _, h3, _, i, h4, n, h5, h6⟩ := act_called x hrow hn hm (by omega) hc
    refine Or.inr ⟨i, by omega, c.1, u, ⟨n, h5, ?_⟩, h2⟩
    rcases hr i (by omega) _ _ h5 with h7 | h7
    · rw [← h6, means_wr h7] at h1
      exact ⟨h7, Option.some.inj h1⟩
    · rw [← h6, means_rd h7] at h1
      cases h1

/-- **C118** (reads). What such a read (or swap) returns is the first value or one written by a call made before the read returns. -/
theorem C118_fetch (x : Exec S N h ev) (hrow : row ∈ extRows) (hn : Calm (h 0) t (bases t + off).toInt row.ty.sizeof)
    (hm : Named S h ev N t row bases off nm) (hr : Register nm N) {i j p r : Nat} {n : AName} (he : Ended S h ev N i p n t row bases off j r) :
    r = (Api.wordAt ((h 0).mem t) (bases t + off).toInt row.ty.sizeof).toNat ∨
    ∃ i < j, ∃ q v, Writes nm i q v ∧ r = (BitVec.ofNat (8 * row.ty.sizeof) v).toNat := by
  obtain ⟨a1, a2, a3, a4⟩ := he
  have h1 := (C97_return x a1 a2 a3 a4).1
  rcases C118_value x hrow hn hm hr (k := j) (by omega) with h2 | ⟨i, hi, q, v, h2, h3⟩
  · exact Or.inl (by rw [h1, h2])
  · exact Or.inr ⟨i, hi, q, v, h2, by rw [h1, h3]⟩

/-- all that is performed from step `a` on writes `v` or nothing -/
theorem reg_acts (x : Exec S N h ev) (hrow : row ∈ extRows) (hn : Calm (h 0) t (bases t + off).toInt row.ty.sizeof)
    (hm : Named S h ev N t row bases off nm) (hr : Register nm N) {a d v : Nat} (hd : a + d ≤ N)
    (h0 : ∀ i < a, ∀ q u, Writes nm i q u → Over h ev nm i q a) (hv : ∀ i, a ≤ i → i < a + d → ∀ q u, Writes nm i q u → u = v) :
    ∀ c ∈ acts t (bases t + off).toInt row.mpi ((List.range d).map fun i => ev (a + i)), c.2.1 = .fetch ∨ ∃ u, wrOp c.2.1 = some u ∧ u = v := by
  intro c hc
  obtain ⟨j, j1, j2, hev, i, h3, n, h4, h5⟩ := act_called x hrow hn hm hd hc
  rcases hr i (by omega) _ _ h4 with h6 | h6
  · refine Or.inr ⟨n.value, by rw [← h5]; exact means_wr h6 _ _, ?_⟩
    have hwr : ∀ i' n', nm i' = some (c.1, n') → n'.rt.means n'.cond n'.value = c.2.1 → i' < N → Writes nm i' c.1 n.value := by
      intro i' n' e1 e2 e3
      refine ⟨n', e1, ?_⟩
      have hw : wrOp c.2.1 = some n.value := by rw [← h5]; exact means_wr h6 _ _
      rcases hr i' e3 _ _ e1 with h7 | h7
      · rw [← e2, means_wr h7] at hw
        exact ⟨h7, Option.some.inj hw⟩
      · rw [← e2, means_rd h7] at hw
        cases hw
    by_contra hne
    have hgap := called_gap nm (a := a) (b := a + d) (p := c.1) (op := c.2.1) (by omega) (fun i' e1 e2 ⟨n', e3, e4⟩ =>
      hne (hv i' e1 e2 _ _ (hwr i' n' e3 e4 (by omega))))
    have h8 := over_all x hrow hn hm (a := a) (by omega) (q := c.1) (op := c.2.1) (fun i' e1 n' e2 e3 =>
      h0 i' e1 _ _ (hwr i' n' e2 e3 (by omega)))
    have h9 := C97_at_most_once (x.take hd) hrow hn (named_take hm hd) c.1 c.2.1
    have h10 := effects_succ ev hev
    have h11 := effects_mono ev (p := c.1) (t := t) (a := (bases t + off).toInt) (ty := row.mpi) (op := c.2.1) (by omega : j + 1 ≤ a + d)
    have h12 := effects_mono ev (p := c.1) (t := t) (a := (bases t + off).toInt) (ty := row.mpi) (op := c.2.1) j1
    omega
  · exact Or.inl (by rw [← h5]; exact means_rd h6 _ _)

/-- **C118** (the last write). At step `a` all earlier writes are over; since then every write wrote `v`, and one of them is over before step `b`. Then the object
holds `v` at step `b`, whatever PEs wrote and read. -/
theorem C118_last (x : Exec S N h ev) (hrow : row ∈ extRows) (hn : Calm (h 0) t (bases t + off).toInt row.ty.sizeof)
    (hm : Named S h ev N t row bases off nm) (hr : Register nm N) {a b v : Nat} (hb : b ≤ N)
    (h0 : ∀ i < a, ∀ q u, Writes nm i q u → Over h ev nm i q a) (hv : ∀ i, a ≤ i → i < b → ∀ q u, Writes nm i q u → u = v)
    {i p : Nat} (hi : a ≤ i) (hw : Writes nm i p v) (ho : Over h ev nm i p b) :
    Api.wordAt ((h b).mem t) (bases t + off).toInt row.ty.sizeof = BitVec.ofNat _ v := by
  have hbt := (row_ok row hrow).1
  obtain ⟨n, n1, n2, rfl⟩ := hw
  obtain ⟨k, k1, k2, k3⟩ := over_count x hrow hn hm hb n1 ho
  obtain ⟨d, rfl⟩ : ∃ d, b = a + d := ⟨b - a, by omega⟩
  have hs := word_seq x hbt hn hm hb
  have hacts := reg_acts x hrow hn hm hr hb h0 hv
  rw [← hbt]
  refine seq_hit hs _ (fun c hc => ?_) ?_
  · rcases hacts c hc with h1 | ⟨u, h1, rfl⟩
    · exact Or.inl h1
    · exact Or.inr ⟨_, h1, rfl⟩
  · -- one of the writes takes effect in between
    have c1 := called_succ nm (N := i) (p := p) (op := n.rt.means n.cond n.value) ⟨n, n1, rfl⟩
    have c2 := called_mono nm (p := p) (op := n.rt.means n.cond n.value) (by omega : i + 1 ≤ k + 1)
    have c3 := called_mono nm (p := p) (op := n.rt.means n.cond n.value) hi
    have c4 := C97_at_most_once (x.take (k := a) (by omega)) hrow hn (named_take hm (by omega)) p (n.rt.means n.cond n.value)
    have c5 : ∃ j, a ≤ j ∧ j < k + 1 ∧ ∃ am r, ev j = .done p (.upd t (bases t + off).toInt row.mpi (n.rt.means n.cond n.value) am) r := by
      by_contra hno
      have : ∀ e, a + e ≤ k + 1 → effects ev (a + e) p t (bases t + off).toInt row.mpi (n.rt.means n.cond n.value) =
          effects ev a p t (bases t + off).toInt row.mpi (n.rt.means n.cond n.value) := by
        intro e
        induction e with
        | zero => intro _; rfl
        | succ e ih =>
          intro he
          rw [← ih (by omega)]
          classical
          show effects ev (a + e + 1) _ _ _ _ _ = _
          unfold effects
          rw [List.range_succ, List.countP_append, List.countP_singleton, if_neg, Nat.add_zero]
          intro hc
          exact hno ⟨a + e, by omega, by omega, by simpa using hc⟩
      have h1 := this (k + 1 - a) (by omega)
      rw [show a + (k + 1 - a) = k + 1 by omega] at h1
      omega
    obtain ⟨j, j1, j2, am, r, j3⟩ := c5
    obtain ⟨e, rfl⟩ : ∃ e, j = a + e := ⟨j - a, by omega⟩
    have hin := acts_at (N := d) (j := e) (ev := fun i => ev (a + i)) (by omega) j3
    exact ⟨_, List.mem_of_getElem? hin, n.value, means_wr n2 _ _, rfl⟩

/-- **C118** (reads after it): a read under these conditions returns `v` -/
theorem C118_read (x : Exec S N h ev) (hrow : row ∈ extRows) (hn : Calm (h 0) t (bases t + off).toInt row.ty.sizeof)
    (hm : Named S h ev N t row bases off nm) (hr : Register nm N) {i' j q r : Nat} {n : AName} (he : Ended S h ev N i' q n t row bases off j r)
    {a v : Nat} (h0 : ∀ i < a, ∀ q u, Writes nm i q u → Over h ev nm i q a) (hv : ∀ i, a ≤ i → i < j → ∀ q u, Writes nm i q u → u = v)
    {i p : Nat} (hi : a ≤ i) (hw : Writes nm i p v) (ho : Over h ev nm i p j) : r = (BitVec.ofNat (8 * row.ty.sizeof) v).toNat := by
  obtain ⟨a1, a2, a3, a4⟩ := he
  rw [(C97_return x a1 a2 a3 a4).1, C118_last x hrow hn hm hr (by omega) h0 hv hi hw ho]

/-- **C118** (flags). If all writes write `v`, then the object, once it holds `v`, holds it ever after. -/
theorem C118_flag (x : Exec S N h ev) (hrow : row ∈ extRows) (hn : Calm (h 0) t (bases t + off).toInt row.ty.sizeof)
    (hm : Named S h ev N t row bases off nm) (hr : Register nm N) {a b v : Nat} (hab : a ≤ b) (hb : b ≤ N)
    (hv : ∀ i < b, ∀ q u, Writes nm i q u → u = v) (ha : Api.wordAt ((h a).mem t) (bases t + off).toInt row.ty.sizeof = BitVec.ofNat _ v) :
    Api.wordAt ((h b).mem t) (bases t + off).toInt row.ty.sizeof = BitVec.ofNat _ v := by
  have hbt := (row_ok row hrow).1
  obtain ⟨d, rfl⟩ : ∃ d, b = a + d := ⟨b - a, by omega⟩
  rw [← hbt] at ha ⊢
  refine seq_stay (word_seq x hbt hn hm hb) _ (fun c hc => ?_) ha
  obtain ⟨j, _, j2, _, i, i1, n, i2, i3⟩ := act_called x hrow hn hm hb hc
  rcases hr i (by omega) _ _ i2 with h6 | h6
  · have := hv i (by omega) _ _ ⟨n, i2, h6, rfl⟩
    subst this
    exact Or.inr ⟨_, by rw [← i3]; exact means_wr h6 _ _, rfl⟩
  · exact Or.inl (by rw [← i3]; exact means_rd h6 _ _)

/-- **C118** (a flag that has been seen). If all writes write `v` and a read has returned `v`, every read that returns later returns `v`, on every PE. -/
theorem C118_seen (x : Exec S N h ev) (hrow : row ∈ extRows) (hn : Calm (h 0) t (bases t + off).toInt row.ty.sizeof)
    (hm : Named S h ev N t row bases off nm) (hr : Register nm N) {v : Nat} {i j p r i' j' p' r' : Nat} {n n' : AName}
    (h1 : Ended S h ev N i p n t row bases off j r) (h2 : Ended S h ev N i' p' n' t row bases off j' r') (hj : j < j')
    (hv : ∀ i < j', ∀ q u, Writes nm i q u → u = v) (hs : r = (BitVec.ofNat (8 * row.ty.sizeof) v).toNat) :
    r' = (BitVec.ofNat (8 * row.ty.sizeof) v).toNat := by
  obtain ⟨a1, a2, a3, a4⟩ := h1
  obtain ⟨b1, b2, b3, b4⟩ := h2
  have e1 := (C97_return x a1 a2 a3 a4).1
  rw [(C97_return x b1 b2 b3 b4).1, C118_flag x hrow hn hm hr (a := j) (b := j') (by omega) (by omega) hv]
  rw [hs] at e1
  exact (BitVec.eq_of_toNat_eq e1).symm

end

/-! ## Non-vacuity -/

namespace AEx

/-- `shmem_long_atomic_swap(dest, v, 1)` by PE 0 -/
def exW (v : Nat) : AName := ⟨.swap, exRow, false, none, 0x10018#64, 0, 0, v, 1⟩
/-- `shmem_long_swap(dest, v, 1)` by PE 1 -/
def exR (v : Nat) : AName := ⟨.dSwap, exRow, false, none, 0x20018#64, 0, 0, v, 1⟩

/-- the calls -/
def exNmW (v : Nat) : Nat → Option (Nat × AName)
  | 0 => some (0, exW v)
  | 1 => none
  | 2 => some (1, exR v)
  | _ + 3 => none

theorem exOpW (v : Nat) : ExOp (.swap v) := ⟨rfl, (by decide : Amo.TyIdx.long ∈ Amo.extTypes), Or.inl rfl⟩

theorem exAimW (v : Nat) : Aimed (exS true) (exH (.swap v) (.swap v)) (exE (.swap v) (.swap v)) 0 0 (exW v) 1 exRow exBases 0x18#64 :=
  exAim0 (exOpW v) rfl rfl (by decide : exRow ∈ ARt.swap.rows) rfl rfl rfl (fun h => by cases h)
theorem exAimR (v : Nat) : Aimed (exS true) (exH (.swap v) (.swap v)) (exE (.swap v) (.swap v)) 2 1 (exR v) 1 exRow exBases 0x18#64 :=
  exAim2 (exOpW v) rfl rfl (by decide : exRow ∈ ARt.dSwap.rows) rfl rfl rfl (fun h => by cases h)

theorem exNamedW (v : Nat) : Named (exS true) (exH (.swap v) (.swap v)) (exE (.swap v) (.swap v)) 4 1 exRow exBases 0x18#64 (exNmW v) := by
  constructor
  · intro k _ p n e
    match k, e with
    | 0, e => cases e; exact exAimW v
    | 2, e => cases e; exact exAimR v
    | 1, e => cases e
    | k + 3, e => cases e
  · rintro k hk e ⟨y, _, _, hy⟩
    have : k = 0 ∨ k = 1 ∨ k = 2 ∨ k = 3 := by omega
    rcases this with rfl | rfl | rfl | rfl
    · cases e
    · exact hy
    · cases e
    · exact hy

theorem exRegW (v : Nat) : Register (exNmW v) 4 := by
  intro k _ p n e
  match k, e with
  | 0, e => cases e; exact Or.inl (by decide : ARt.swap ∈ wrRts)
  | 2, e => cases e; exact Or.inl (by decide : ARt.dSwap ∈ wrRts)
  | 1, e => cases e
  | k + 3, e => cases e

theorem exWritesW {v i q u : Nat} (h : Writes (exNmW v) i q u) : u = v := by
  obtain ⟨n, e, _, h2⟩ := h
  match i, e with
  | 0, e => cases e; exact h2.symm
  | 2, e => cases e; exact h2.symm
  | 1, e => cases e
  | i + 3, e => cases e

/-- Both PEs swap 7 into an object of PE 1 that holds 0, one after the other: PE 0 gets 0, PE 1 gets 7, and the object holds 7 in the end
(`C118_fetch`, `C118_read`, `C118_last`). -/
example : exRes exM (.swap 7) = 0 ∧ exRes (exMem exM (.swap 7)) (.swap 7) = 7 ∧
    Api.wordAt ((exH (.swap 7) (.swap 7) 4).mem 1) (exBases 1 + 0x18#64).toInt exRow.ty.sizeof = 7 := by
  have x := exExec (exOpW 7) (exOpW 7)
  have hw : Writes (exNmW 7) 0 0 7 := ⟨exW 7, rfl, by decide, rfl⟩
  have ho : ∀ b, 1 < b → Over (exH (.swap 7) (.swap 7)) (exE (.swap 7) (.swap 7)) (exNmW 7) 0 0 b := fun b hb =>
    ⟨1, by decide, hb, Or.inr ⟨exW 7, _, rfl, rfl, (exRet _ _).1⟩⟩
  have e1 := C118_read x (by decide) exCalm (exNamedW 7) (exRegW 7) ⟨exAimR 7, rfl, (exRet _ _).2, by decide⟩ (a := 0) (v := 7) (fun i hi => by cases hi)
    (fun i _ _ q u h => exWritesW h) (le_refl 0) hw (ho 3 (by decide))
  have e2 := C118_last x (by decide) exCalm (exNamedW 7) (exRegW 7) (le_refl 4) (a := 0) (v := 7) (fun i hi => by cases hi)
    (fun i _ _ q u h => exWritesW h) (le_refl 0) hw (ho 4 (by decide))
  have e3 := C118_fetch x (by decide) exCalm (exNamedW 7) (exRegW 7) ⟨exAimW 7, rfl, (exRet _ _).1, by decide⟩
  refine ⟨?_, e1, e2⟩
  rcases e3 with h1 | ⟨i, hi, q, v, ⟨n, h2, _⟩, h3⟩
  · exact h1.trans (by decide +kernel)
  · exact (by decide +kernel)

/-- `C118_last` with an earlier write that is over, and `C118_flag`: from step 2 on, after the first swap has returned -/
example : Api.wordAt ((exH (.swap 7) (.swap 7) 4).mem 1) (exBases 1 + 0x18#64).toInt exRow.ty.sizeof = 7 ∧
    Api.wordAt ((exH (.swap 7) (.swap 7) 4).mem 1) (exBases 1 + 0x18#64).toInt exRow.ty.sizeof = 7 := by
  have x := exExec (exOpW 7) (exOpW 7)
  have e1 := C118_value x (by decide) exCalm (exNamedW 7) (exRegW 7) (k := 2) (by decide)
  constructor
  · refine C118_flag x (by decide) exCalm (exNamedW 7) (exRegW 7) (a := 2) (by decide) (le_refl 4) (v := 7) (fun i _ q u h => exWritesW h) ?_
    rcases e1 with h1 | ⟨i, _, q, v, h1, h2⟩
    · exact (by decide +kernel)
    · rw [h2, exWritesW h1]
  · refine C118_last x (by decide) exCalm (exNamedW 7) (exRegW 7) (le_refl 4) (a := 2) (v := 7) (fun i hi q u h => ?_)
      (fun i _ _ q u h => exWritesW h) (le_refl 2) ⟨exR 7, rfl, by decide, rfl⟩ ⟨3, by decide, by decide, Or.inr ⟨exR 7, _, rfl, rfl, (exRet _ _).2⟩⟩
    obtain ⟨n, e, _, _⟩ := h
    match i, e with
    | 0, e => cases e; exact ⟨1, by decide, by decide, Or.inr ⟨exW 7, _, rfl, rfl, (exRet _ _).1⟩⟩
    | 1, e => cases e

/-- `C118_seen`: all writes write 0, the first has read 0, so does the second -/
example : exRes (exMem exM (.swap 0)) (.swap 0) = 0 :=
  C118_seen (exExec (exOpW 0) (exOpW 0)) (by decide) exCalm (exNamedW 0) (exRegW 0) (v := 0) ⟨exAimW 0, rfl, (exRet _ _).1, by decide⟩
    ⟨exAimR 0, rfl, (exRet _ _).2, by decide⟩ (by decide) (fun i _ q u h => exWritesW h) (by decide +kernel)

end AEx

end Verif.Flow
