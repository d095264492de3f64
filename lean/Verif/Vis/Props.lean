import Verif.Vis.Trace
import Verif.Rma.Props
/-!
# Properties C65, C66, C68: when data written by put is in memory; what get returns
-/
namespace Verif.Vis
open Verif.Sobj Verif.Rma
open Verif.Order (St Pend Cfg Op)

/-! ## C65 -/

/-- C65. A put (blocking or not, contiguous or strided; `x` is any of its bytes) of PE `q` to PE `t`, made when nothing in
flight writes the byte: once any PE `p` has left the next `shmem_barrier_all` that `q` enters, the byte holds what the source
held when the put was called, in every execution without another write to that byte (for a non-blocking put also none to the
source). Missing: the bytes of a space without dynamic windows, and puts on contexts (`hc`), which the code's barrier does not
complete (`C65_space_fails`). -/
theorem C65_barrier_partial {S : Sys} {g0 g1 g : G} (hr : Reach S g0) {q t : Nat} {nbi : Bool} {ctx : Option (Nat × Nat)}
    {addr : BitVec 64} {xs : List (Int × Int)} {ep : Nat} (h1 : Step S g0 (.put q t nbi ctx addr xs ep) g1) {l : List Ev}
    (h2 : Run S g1 l g) {x : Int × Int} (hx : x ∈ xs) (hu : ∀ y ∈ xs, y.1 = x.1 → y = x)
    (hn : NoWriter g0 (t, x.1)) (hk : ∀ e ∈ l, ¬ e.writes (t, x.1))
    (hs : nbi = true → NoWriter g0 (q, x.2) ∧ ∀ e ∈ Ev.put q t nbi ctx addr xs ep :: l, ¬ e.writes (q, x.2))
    (hc : BarCov (S.cf q) ((S.cf q).rma == .am) ctx addr) {p : Nat} (hp : p < S.npes) (hb : ep < g.lv p) :
    g.mem t x.1 = g0.mem q x.2 ∧ NoWriter g (t, x.1) := by
  have hi := gi_reach hr
  obtain ⟨hq, _, _, pd, _, hpe, ho, hcov⟩ := put_only hi h1 hx hu hn
    (fun h => ⟨(hs h).1, (hs h).2 _ (List.mem_cons_self ..)⟩)
  have hig := gi_run (gi_step hi h1) h2
  have ho2 := only_run ho h2 hk (fun k' hk' e he => by
    cases nbi
    · cases hk'
    · cases hk'; exact (hs rfl).2 e (List.mem_cons_of_mem _ he))
  refine only_done ho2 ?_
  rintro a (⟨y, hy, hyo, _⟩ | ⟨hn, _⟩)
  · cases hyo
    have h3 := hig.cov q _ (hig.fly q y hy) (hcov hc)
    have h4 := hig.lv p hp q hq
    omega
  · cases hn

/-- The same in terms of calls only, for programs that separate conflicting accesses by barriers: `hk1` says that the earlier
calls that write the byte were made in an earlier phase (their PE had entered fewer barriers), by calls a barrier completes. -/
theorem C65_phases_partial {S : Sys} {m : Mems} {g0 g1 g : G} {l1 l2 : List Ev} (h0 : Run S (ginit m) l1 g0) {q t : Nat}
    {nbi : Bool} {ctx : Option (Nat × Nat)} {addr : BitVec 64} {xs : List (Int × Int)} {ep : Nat}
    (h1 : Step S g0 (.put q t nbi ctx addr xs ep) g1) (h2 : Run S g1 l2 g) {x : Int × Int} (hx : x ∈ xs)
    (hu : ∀ y ∈ xs, y.1 = x.1 → y = x) (hk1 : ∀ e ∈ l1, e.writes (t, x.1) → e.Settled S ep)
    (hk2 : ∀ e ∈ l2, ¬ e.writes (t, x.1))
    (hs : nbi = true → (∀ e ∈ l1, e.writes (q, x.2) → e.Settled S ep) ∧
      ∀ e ∈ Ev.put q t nbi ctx addr xs ep :: l2, ¬ e.writes (q, x.2))
    (hc : BarCov (S.cf q) ((S.cf q).rma == .am) ctx addr) {p : Nat} (hp : p < S.npes) (hb : ep < g.lv p) :
    g.mem t x.1 = g0.mem q x.2 := by
  obtain ⟨hq, hlv⟩ : q < S.npes ∧ g0.lv q = ep := by
    cases h1 with
    | put p tgt nbi ctx addr src n gpu mode oc tc oty tty xs s' hf hm e hx d => exact ⟨hf.1, hf.2.1.symm⟩
  have hn : ∀ k, (∀ e ∈ l1, e.writes k → e.Settled S ep) → NoWriter g0 k := fun k h =>
    noWriter_settled (gi_init S m) (noWriter_init m k) h0 hq (fun e he hw => by rw [hlv]; exact h e he hw)
  exact (C65_barrier_partial ⟨m, l1, h0⟩ h1 h2 hx hu (hn _ hk1) hk2
    (fun h => ⟨hn _ (hs h).1, (hs h).2⟩) hc hp hb).1

/-! ## C66 -/

/-- C66. After a fence (or quiet) of the putting PE on the default context, the data of all its earlier puts are in memory: on
any object, on any context, direct or by active message. -/
theorem C66_fence {S : Sys} {g0 g1 g : G} (hr : Reach S g0) {q t : Nat} {nbi : Bool} {ctx : Option (Nat × Nat)}
    {addr : BitVec 64} {xs : List (Int × Int)} {ep : Nat} (h1 : Step S g0 (.put q t nbi ctx addr xs ep) g1) {l : List Ev}
    (h2 : Run S g1 l g) {x : Int × Int} (hx : x ∈ xs) (hu : ∀ y ∈ xs, y.1 = x.1 → y = x)
    (hn : NoWriter g0 (t, x.1)) (hk : ∀ e ∈ l, ¬ e.writes (t, x.1))
    (hs : nbi = true → NoWriter g0 (q, x.2) ∧ ∀ e ∈ Ev.put q t nbi ctx addr xs ep :: l, ¬ e.writes (q, x.2))
    (hf : Ev.call q (.fence none) ∈ l ∨ Ev.call q (.quiet none) ∈ l) :
    g.mem t x.1 = g0.mem q x.2 := by
  have hi := gi_reach hr
  obtain ⟨op, hop, hm⟩ : ∃ op : Op, (op = .quiet none ∨ op = .fence none) ∧ Ev.call q op ∈ l := by
    rcases hf with h | h
    · exact ⟨_, Or.inr rfl, h⟩
    · exact ⟨_, Or.inl rfl, h⟩
  obtain ⟨l1, l2, rfl⟩ := List.append_of_mem hm
  obtain ⟨_, _, _, pd, _, _, ho, _⟩ := put_only hi h1 hx hu hn
    (fun h => ⟨(hs h).1, (hs h).2 _ (List.mem_cons_self ..)⟩)
  obtain ⟨ga, ha, hrest⟩ := run_split h2
  cases hrest with
  | cons s r =>
    rename_i gb
    have hia := gi_run (gi_step hi h1) ha
    have hob := only_run ho (run_append ha (Run.cons s (Run.nil gb)))
      (fun e he => hk e (by
        rcases List.mem_append.mp he with h | h
        · exact List.mem_append.mpr (Or.inl h)
        · rw [List.mem_singleton] at h; subst h; exact hm))
      (fun k' hk' e he => by
        cases nbi
        · cases hk'
        · cases hk'
          refine (hs rfl).2 e (List.mem_cons_of_mem _ ?_)
          rcases List.mem_append.mp he with h | h
          · exact List.mem_append.mpr (Or.inl h)
          · rw [List.mem_singleton] at h; subst h; exact hm)
    obtain ⟨e1, _⟩ := quiet_step hia hop s
    obtain ⟨hv, hnw⟩ := only_done hob (by
      rintro a (⟨y, hy, _⟩ | ⟨hn, _⟩)
      · rw [e1] at hy; cases hy
      · cases hn)
    rw [← hv]
    exact (noWriter_run r hnw (fun e he => hk e (List.mem_append.mpr (Or.inr (List.mem_cons_of_mem _ he))))).2

/-- C66. Message passing: PE `q` puts data, fences, and only then anybody writes the flag byte `f` (put, AMO or store, on
whatever PE). In every execution and at every moment at which the flag has changed, the data are in memory. -/
theorem C66_message {S : Sys} {g0 g1 g : G} (hr : Reach S g0) {q t : Nat} {nbi : Bool} {ctx : Option (Nat × Nat)}
    {addr : BitVec 64} {xs : List (Int × Int)} {ep : Nat} (h1 : Step S g0 (.put q t nbi ctx addr xs ep) g1) {l : List Ev}
    (h2 : Run S g1 l g) {x : Int × Int} (hx : x ∈ xs) (hu : ∀ y ∈ xs, y.1 = x.1 → y = x)
    (hn : NoWriter g0 (t, x.1)) (hk : ∀ e ∈ l, ¬ e.writes (t, x.1))
    (hs : nbi = true → NoWriter g0 (q, x.2) ∧ ∀ e ∈ Ev.put q t nbi ctx addr xs ep :: l, ¬ e.writes (q, x.2))
    {f : Nat × Int} (hf0 : NoWriter g0 f) (hf1 : ¬ (Ev.put q t nbi ctx addr xs ep).writes f)
    (hf2 : ∀ l1 e l2, l = l1 ++ e :: l2 → e.writes f → Ev.call q (.fence none) ∈ l1 ∨ Ev.call q (.quiet none) ∈ l1)
    (hobs : g.mem f.1 f.2 ≠ g0.mem f.1 f.2) : g.mem t x.1 = g0.mem q x.2 := by
  by_cases hf : Ev.call q (.fence none) ∈ l ∨ Ev.call q (.quiet none) ∈ l
  · exact C66_fence hr h1 h2 hx hu hn hk hs hf
  · exfalso
    apply hobs
    have hw : ∀ e ∈ l, ¬ e.writes f := by
      intro e he hw
      obtain ⟨l1, l2, rfl⟩ := List.append_of_mem he
      apply hf
      rcases hf2 l1 e l2 rfl hw with h | h
      · exact Or.inl (List.mem_append.mpr (Or.inl h))
      · exact Or.inr (List.mem_append.mpr (Or.inl h))
    obtain ⟨a1, a2⟩ := noWriter_step h1 hf0 hf1
    exact (noWriter_run h2 a1 hw).2.trans a2

/-! ## C68 -/

/-- what a get leaves to be done -/
theorem get_only {S : Sys} {g g' : G} {q t : Nat} {nbi : Bool} {ctx : Option (Nat × Nat)} {addr : BitVec 64}
    {xs : List (Int × Int)} {ep : Nat} (h : Step S g (.get q t nbi ctx addr xs ep) g') {x : Int × Int} (hx : x ∈ xs)
    (hu : ∀ y ∈ xs, y.1 = x.1 → y = x) (hn : NoWriter g (q, x.1)) (hs : NoWriter g (t, x.2))
    (hs2 : ¬ (Ev.get q t nbi ctx addr xs ep).writes (t, x.2)) :
    ∃ own, (nbi = false → own = none) ∧ Only g' q own (some (t, x.2)) (q, x.1) (g.mem t x.2) := by
  have h' := h
  cases h with
  | get p tgt nbi ctx addr src n gpu mode oc tc oty tty xs s' hf hm e hxs d =>
    refine ⟨pushed (g.pe q) s', ?_, ⟨?_, ?_, ?_⟩⟩
    · rintro rfl
      rcases pushed_issue e with ⟨h, _⟩ | ⟨_, _, _, _, _, _, _, _, h⟩
      · exact h
      · rcases h with h | h <;> cases h
    · intro a r o ha hw
      rcases at_after ha with h | ⟨rfl, ho, h⟩
      · exact absurd hw (hn a ⟨r, o, h⟩)
      · refine ⟨rfl, ho, ?_⟩
        obtain ⟨y, hy, rfl⟩ := List.mem_map.mp h
        simp only [Atom.writes, Prod.mk.injEq] at hw
        obtain rfl := hu y hy hw.2.symm
        exact Or.inr ⟨_, rfl, rfl⟩
    · intro k' hk'
      cases hk'
      exact noWriter_step h' hs hs2
    · right
      refine ⟨.mv t x.2 q x.1, ?_, rfl⟩
      cases hp : pushed (g.pe q) s' with
      | none =>
        refine Or.inr ⟨rfl, ?_⟩
        simp only [after, upd_at, if_true, hp]
        exact List.mem_map.mpr ⟨x, hx, rfl⟩
      | some pd =>
        refine Or.inl ⟨⟨pd, xs.map fun x => .mv t x.2 q x.1⟩, ?_, rfl, List.mem_map.mpr ⟨x, hx, rfl⟩⟩
        simp only [after, upd_at, if_true, hp]
        exact List.mem_append.mpr (Or.inr (List.mem_singleton.mpr rfl))

/-- C68. Blocking get (contiguous or strided): when the call has returned (`g.busy q = []`), each byte of the destination holds
what the source held when the call was made, if nothing else writes either of them meanwhile. -/
theorem C68_get {S : Sys} {g0 g1 g : G} {q t : Nat} {ctx : Option (Nat × Nat)} {addr : BitVec 64} {xs : List (Int × Int)}
    {ep : Nat} (h1 : Step S g0 (.get q t false ctx addr xs ep) g1) {l : List Ev} (h2 : Run S g1 l g) {x : Int × Int}
    (hx : x ∈ xs) (hu : ∀ y ∈ xs, y.1 = x.1 → y = x) (hn : NoWriter g0 (q, x.1)) (hs : NoWriter g0 (t, x.2))
    (hs2 : ∀ e ∈ Ev.get q t false ctx addr xs ep :: l, ¬ e.writes (t, x.2)) (hk : ∀ e ∈ l, ¬ e.writes (q, x.1))
    (hret : g.busy q = []) : g.mem q x.1 = g0.mem t x.2 := by
  obtain ⟨own, ho, hO⟩ := get_only h1 hx hu hn hs (hs2 _ (List.mem_cons_self ..))
  obtain rfl := ho rfl
  refine (only_done (only_run hO h2 hk (fun k' hk' e he => ?_)) ?_).1
  · cases hk'
    exact hs2 e (List.mem_cons_of_mem _ he)
  · rintro a (⟨y, _, hy, _⟩ | ⟨_, hb⟩)
    · cases hy
    · rw [hret] at hb; cases hb

/-- C68. Non-blocking get: the same after the next quiet (or fence) of the PE on the default context. -/
theorem C68_get_nbi {S : Sys} {g0 g1 g : G} (hr : Reach S g0) {q t : Nat} {nbi : Bool} {ctx : Option (Nat × Nat)} {addr : BitVec 64}
    {xs : List (Int × Int)} {ep : Nat} (h1 : Step S g0 (.get q t nbi ctx addr xs ep) g1) {l : List Ev} (h2 : Run S g1 l g)
    {x : Int × Int} (hx : x ∈ xs) (hu : ∀ y ∈ xs, y.1 = x.1 → y = x) (hn : NoWriter g0 (q, x.1)) (hs : NoWriter g0 (t, x.2))
    (hs2 : ∀ e ∈ Ev.get q t nbi ctx addr xs ep :: l, ¬ e.writes (t, x.2)) (hk : ∀ e ∈ l, ¬ e.writes (q, x.1))
    (hf : Ev.call q (.quiet none) ∈ l ∨ Ev.call q (.fence none) ∈ l) : g.mem q x.1 = g0.mem t x.2 := by
  have hi := gi_reach hr
  obtain ⟨op, hop, hm⟩ : ∃ op : Op, (op = .quiet none ∨ op = .fence none) ∧ Ev.call q op ∈ l := by
    rcases hf with h | h
    · exact ⟨_, Or.inl rfl, h⟩
    · exact ⟨_, Or.inr rfl, h⟩
  obtain ⟨l1, l2, rfl⟩ := List.append_of_mem hm
  obtain ⟨own, _, hO⟩ := get_only h1 hx hu hn hs (hs2 _ (List.mem_cons_self ..))
  obtain ⟨ga, ha, hrest⟩ := run_split h2
  cases hrest with
  | cons s r =>
    rename_i gb
    have hia := gi_run (gi_step hi h1) ha
    have hin : ∀ e ∈ l1 ++ [Ev.call q op], e ∈ l1 ++ Ev.call q op :: l2 := by
      intro e he
      rcases List.mem_append.mp he with h | h
      · exact List.mem_append.mpr (Or.inl h)
      · rw [List.mem_singleton] at h; subst h; exact hm
    have hob := only_run hO (run_append ha (Run.cons s (Run.nil gb))) (fun e he => hk e (hin e he)) (fun k' hk' e he => by
      cases hk'
      exact hs2 e (List.mem_cons_of_mem _ (hin e he)))
    obtain ⟨e1, e2⟩ := quiet_step hia hop s
    obtain ⟨hv, hnw⟩ := only_done hob (by
      rintro a (⟨y, hy, _⟩ | ⟨_, hb⟩)
      · rw [e1] at hy; cases hy
      · rw [e2] at hb; cases hb)
    rw [← hv]
    exact (noWriter_run r hnw (fun e he => hk e (List.mem_append.mpr (Or.inr (List.mem_cons_of_mem _ he))))).2

end Verif.Vis
