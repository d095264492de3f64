import Verif.Crit.Lemmas
import Verif.Vis.Props
/-!
# C96: critical sections protect data

A byte is guarded by a lock if only holders of the lock write it (by any routine) and a holder calls quiet or fence between its last
write and `shmem_clear_lock` (`Guarded`). All executions of any number of PEs, locks and routines; accesses in flight are performed in any
order.

Partial: the lock must be at the same address on all PEs or in a window with relative displacements (`Uniform`; without it the locks
themselves fail, C90), and the quiet is asked of the program (`shmem_clear_lock` makes none, `C96_fails` in `Crit/Ex.lean`).
-/
namespace Verif.Crit
open Verif.Rma Verif.Lock
open Verif.Vis (GI At Flies NoWriter)

/-- C96. Two PEs never hold the lock at the same time, whatever puts, gets, AMOs and stores go on, as long as these do not write to locks.
Missing: see the head of the file. -/
theorem C96_exclusion_partial {T : Sys} (wf : T.lk.WF) (un : T.lk.Uniform) {x y : X} {tr : List Ent} (h0 : Start T x) (h : Run T x tr y)
    (hr : Respected T tr) {l p r : Nat} (hl : l < T.lk.m) (hp : y.pc l p = .held) (hq : y.pc l r = .held) : p = r :=
  exclusion wf un h0 h hr hl hp hq

/-- C96. Handover: from the call of `shmem_clear_lock` by `q` to the next return of `shmem_set_lock` (or of a successful `shmem_test_lock`)
by `p`, a guarded byte does not change; and then nothing in flight will change it. Missing: see the head of the file. -/
theorem C96_handover_partial {T : Sys} (wf : T.lk.WF) (un : T.lk.Uniform) {x y : X} {t1 t2 t3 : List Ent} {c s : Ent} {l q p : Nat}
    {k : Nat × Int} (hl : l < T.lk.m) (h0 : Start T x) (h : Run T x (t1 ++ c :: (t2 ++ s :: t3)) y)
    (hr : Respected T (t1 ++ c :: (t2 ++ s :: t3))) (hg : Guarded l k (t1 ++ c :: (t2 ++ s :: t3)))
    (hk : ∀ b, T.lk.InLock k.1 b → b.toInt ≠ k.2) (hc : Clears l q c) (hs : Acquires l p s) (hno : ∀ u ∈ t2, ∀ r, ¬ Acquires l r u) :
    s.post.g.mem k.1 k.2 = c.pre.g.mem k.1 k.2 ∧ NoWriter s.post.g k := by
  obtain ⟨n1, n2, n3, n4⟩ := clear_settled wf un hl h0 h hr hg hc
  obtain ⟨r1, st, r2⟩ := run_mid h
  obtain ⟨r3, st2, _⟩ := run_mid r2
  have e : t1 ++ c :: (t2 ++ s :: t3) = (t1 ++ [c]) ++ t2 ++ s :: t3 := by simp
  rw [e] at hr hg
  have rc : Run T x (t1 ++ [c]) c.post := Run.snoc r1 st
  obtain ⟨j1, j2, j3⟩ := idle_run wf un h0 rc r3 hr.left hg.left hk n2 n3 hno
  have hc0 : c.post.g.mem k.1 k.2 = c.pre.g.mem k.1 k.2 := by
    obtain ⟨ev, he⟩ := hc
    obtain ⟨⟨wtr, hw⟩, _, _⟩ := proj h0 r1 hr.left.left.left
    obtain ⟨pre, e0, post⟩ := c
    simp only at he st
    subst he
    cases st with
    | @lock _ _ _ w _ hl' hf hstep => exact lock_frame wf un hw hl' hf hstep hk
  obtain ⟨a, ev, he, _⟩ := hs
  obtain ⟨⟨wtr, hw⟩, _, _⟩ := proj h0 (run_append rc r3) hr.left
  obtain ⟨pre, e0, post⟩ := s
  simp only at he st2 j1 j3
  subst he
  cases st2 with
  | @lock _ _ _ w _ hl' hf hstep => exact ⟨(lock_frame wf un hw hl' hf hstep hk).trans (j3.trans hc0), j1⟩

/-- C96. The first PE that gets the lock finds the initial contents. Missing: see the head of the file. -/
theorem C96_first_partial {T : Sys} (wf : T.lk.WF) (un : T.lk.Uniform) {x y : X} {t2 t3 : List Ent} {s : Ent} {l p : Nat}
    {k : Nat × Int} (h0 : Start T x) (h : Run T x (t2 ++ s :: t3) y)
    (hr : Respected T (t2 ++ s :: t3)) (hg : Guarded l k (t2 ++ s :: t3))
    (hk : ∀ b, T.lk.InLock k.1 b → b.toInt ≠ k.2) (hs : Acquires l p s) (hno : ∀ u ∈ t2, ∀ r, ¬ Acquires l r u) :
    s.post.g.mem k.1 k.2 = x.g.mem k.1 k.2 ∧ NoWriter s.post.g k := by
  obtain ⟨r1, st, _⟩ := run_mid h
  have n1 : NoWriter x.g k := by
    obtain ⟨⟨m, hm⟩, _⟩ := h0
    rw [hm]; exact Vis.noWriter_init m k
  have n2 : ∀ r, x.pc l r ≠ .held := by
    intro r hrh
    have := h0.2.1 l r
    rw [show x.pc l r = .idle from this] at hrh
    cases hrh
  obtain ⟨j1, j2, j3⟩ := idle_run (t1 := []) wf un h0 (Run.nil x) r1 hr.left hg.left hk n1 n2 hno
  obtain ⟨a, ev, he, _⟩ := hs
  obtain ⟨⟨wtr, hw⟩, _, _⟩ := proj h0 r1 hr.left
  obtain ⟨pre, e0, post⟩ := s
  simp only at he st j1 j3
  subst he
  cases st with
  | @lock _ _ _ w _ hl' hf hstep => exact ⟨(lock_frame wf un hw hl' hf hstep hk).trans j3, j1⟩

/-- after an acquiring entry the PE holds the lock -/
theorem acquires_held {T : Sys} {l p : Nat} {s : Ent} (st : Step T s.pre s.ev s.post) (hs : Acquires l p s) : s.post.pc l p = .held := by
  obtain ⟨a, ev, he, hm⟩ := hs
  obtain ⟨pre, e0, post⟩ := s
  simp only at he st ⊢
  subst he
  cases st with
  | @lock _ _ _ w _ hl' hf hstep => exact ((wstep_pc hstep).2.2.2 p hm).2

/-- C96. Inside: after `p` got the lock, and as long as `p` neither clears it nor writes a guarded byte itself, the byte does not change,
whatever the others do. Missing: see the head of the file. -/
theorem C96_steady_partial {T : Sys} (wf : T.lk.WF) (un : T.lk.Uniform) {x y : X} {t1 t2 : List Ent} {s : Ent} {l p : Nat}
    {k : Nat × Int} (hl : l < T.lk.m) (h0 : Start T x) (h : Run T x (t1 ++ s :: t2) y)
    (hr : Respected T (t1 ++ s :: t2)) (hg : Guarded l k (t1 ++ s :: t2))
    (hk : ∀ b, T.lk.InLock k.1 b → b.toInt ≠ k.2) (hs : Acquires l p s) (hc : ∀ u ∈ t2, ¬ Clears l p u)
    (hw : ∀ u ∈ t2, ∀ e, u.ev = .rma e → caller e = some p → ¬ e.writes k) :
    y.g.mem k.1 k.2 = s.post.g.mem k.1 k.2 ∧ NoWriter y.g k := by
  obtain ⟨r1, st, r2⟩ := run_mid h
  have hh := acquires_held st hs
  have rc : Run T x (t1 ++ [s]) s.post := Run.snoc r1 st
  rw [show t1 ++ s :: t2 = (t1 ++ [s]) ++ t2 by simp] at hr hg
  have own := writes_own wf un hl h0 rc r2 hr hg hh hc
  have nos : NoWriter s.post.g k := by
    -- everything in flight that writes the byte belongs to a holder, and that is `p`, which was in the lock call
    rintro a ⟨r, o, ha⟩ hwr
    obtain ⟨a', ev, he, hm⟩ := hs
    have ow := owned h0 r1 hr.left.left hg.left.left
    obtain ⟨⟨wtr, hwx⟩, _, _⟩ := proj h0 r1 hr.left.left
    obtain ⟨⟨wtr', hwy⟩, _, _⟩ := proj h0 rc hr.left
    obtain ⟨pre, e0, post⟩ := s
    simp only at he st hh ha
    subst he
    cases st with
    | @lock _ _ _ w _ hl' hf hstep =>
      obtain ⟨q1, q2, q3, q4⟩ := wstep_pc hstep
      have hrh := (ow a r o ha hwr).1
      by_cases e : r = p
      · subst e
        exact (q3 hh).1 hrh
      · have : w.pc l r = .held := by rw [q1 l r (fun hc => e hc.2)]; exact hrh
        exact e (exclusion wf un h0 rc hr.left hl this hh)
  obtain ⟨a, b⟩ := quiet_run wf un h0 rc r2 hr hk nos (fun u hu e he hwr => hw u hu e he (own u hu e he hwr) hwr)
  exact ⟨b, a⟩

/-- C96. Reading: a blocking get of a guarded byte, made by `p` while it holds the lock and before it wrote the byte, delivers the value the
byte had when `p` got the lock. Missing: see the head of the file. -/
theorem C96_read_partial {T : Sys} (wf : T.lk.WF) (un : T.lk.Uniform) {x y : X} {t1 t2 t3 : List Ent} {s c : Ent} {l p t : Nat}
    {ctx : Option (Nat × Nat)} {addr : BitVec 64} {xs : List (Int × Int)} {ep : Nat} {b : Int × Int}
    (hl : l < T.lk.m) (h0 : Start T x) (h : Run T x (t1 ++ s :: (t2 ++ c :: t3)) y)
    (hr : Respected T (t1 ++ s :: (t2 ++ c :: t3))) (hg : Guarded l (t, b.2) (t1 ++ s :: (t2 ++ c :: t3)))
    (hk : ∀ a, T.lk.InLock t a → a.toInt ≠ b.2) (hs : Acquires l p s) (hcl : ∀ u ∈ t2 ++ c :: t3, ¬ Clears l p u)
    (hw : ∀ u ∈ t2 ++ c :: t3, ∀ e, u.ev = .rma e → caller e = some p → ¬ e.writes (t, b.2))
    (he : c.ev = .rma (.get p t false ctx addr xs ep)) (hb : b ∈ xs) (hu : ∀ z ∈ xs, z.1 = b.1 → z = b)
    (hd : ∀ a, T.lk.InLock p a → a.toInt ≠ b.1) (hd1 : NoWriter c.pre.g (p, b.1))
    (hd2 : ∀ u ∈ t3, ∀ e, u.ev = .rma e → ¬ e.writes (p, b.1)) (hret : y.g.busy p = []) :
    y.g.mem p b.1 = s.post.g.mem t b.2 := by
  obtain ⟨r1, st, r2⟩ := run_mid h
  obtain ⟨r3, stc, r4⟩ := run_mid r2
  have e2 : t1 ++ s :: (t2 ++ c :: t3) = (t1 ++ s :: t2) ++ c :: t3 := by simp
  have hh := acquires_held st hs
  have own := writes_own wf un hl h0 (Run.snoc r1 st) r2 (by simpa using hr) (by simpa using hg) hh hcl
  rw [e2] at hr hg h
  obtain ⟨v1, n1⟩ := C96_steady_partial wf un hl h0 (run_mid h).1 hr.left hg.left hk hs (fun u hu => hcl u (List.mem_append.2 (Or.inl hu)))
    (fun u hu => hw u (List.mem_append.2 (Or.inl hu)))
  have nw : ∀ u ∈ t2 ++ c :: t3, ∀ e, u.ev = .rma e → ¬ e.writes (t, b.2) := fun u hu e hue hwr => hw u hu e hue (own u hu e hue hwr) hwr
  rw [← v1]
  have rc : Run T x ((t1 ++ s :: t2) ++ [c]) c.post := Run.snoc (run_mid h).1 stc
  have hcm : c ∈ t2 ++ c :: t3 := by simp
  rw [show (t1 ++ s :: t2) ++ c :: t3 = ((t1 ++ s :: t2) ++ [c]) ++ t3 by simp] at hr
  have stc' := stc
  obtain ⟨own', ho, hO⟩ : ∃ own, ((false : Bool) = false → own = none) ∧ Vis.Only c.post.g p own (some (t, b.2)) (p, b.1) (c.pre.g.mem t b.2) := by
    have hnw := nw c hcm _ he
    obtain ⟨pre, e0, post⟩ := c
    simp only at he stc n1 hd1
    subst he
    cases stc with
    | @rma e g' hstep hcall => exact Vis.get_only hstep hb hu hd1 n1 hnw
  obtain rfl := ho rfl
  have hO2 := only_run wf un h0 rc r4 hr hd (fun k' hk' => by cases hk'; exact hk) hO hd2
    (fun k' hk' u hu => by cases hk'; exact nw u (List.mem_append.2 (Or.inr (List.mem_cons_of_mem _ hu))))
  exact (Vis.only_done hO2 (by
    rintro a (⟨y, _, hy, _⟩ | ⟨_, hb⟩)
    · cases hy
    · rw [hret] at hb; cases hb)).1

/-- C96. Writing: a put of a guarded byte, blocking or not, made by `p` while it holds the lock, is what the byte holds when `p` clears the
lock, if `p` does not write the byte again (and, for a non-blocking put, nobody writes the source before the quiet). Nothing else is asked
of the other PEs: they cannot interfere. Missing: see the head of the file. -/
theorem C96_write_partial {T : Sys} (wf : T.lk.WF) (un : T.lk.Uniform) {x y : X} {t1 t2 t3 : List Ent} {s c : Ent} {l p t : Nat}
    {nbi : Bool} {ctx : Option (Nat × Nat)} {addr : BitVec 64} {xs : List (Int × Int)} {ep : Nat} {b : Int × Int}
    (hl : l < T.lk.m) (h0 : Start T x) (h : Run T x (t1 ++ s :: (t2 ++ c :: t3)) y)
    (hr : Respected T (t1 ++ s :: (t2 ++ c :: t3))) (hg : Guarded l (t, b.1) (t1 ++ s :: (t2 ++ c :: t3)))
    (hk : ∀ a, T.lk.InLock t a → a.toInt ≠ b.1)
    (he : s.ev = .rma (.put p t nbi ctx addr xs ep)) (hb : b ∈ xs) (hu : ∀ z ∈ xs, z.1 = b.1 → z = b)
    (hn : NoWriter s.pre.g (t, b.1)) (hc : Clears l p c) (hcl : ∀ u ∈ t2, ¬ Clears l p u)
    (hw : ∀ u ∈ t2, ∀ e, u.ev = .rma e → caller e = some p → ¬ e.writes (t, b.1))
    (hsrc : nbi = true → NoWriter s.pre.g (p, b.2) ∧ (∀ a, T.lk.InLock p a → a.toInt ≠ b.2) ∧
      ∀ u ∈ s :: t2, ∀ e, u.ev = .rma e → ¬ e.writes (p, b.2)) :
    c.pre.g.mem t b.1 = s.pre.g.mem p b.2 := by
  have hset := (clear_settled (t1 := t1 ++ s :: t2) (t2 := t3) wf un hl h0 (by simpa using h) (by simpa using hr) (by simpa using hg) hc).1
  obtain ⟨r1, st, r2⟩ := run_mid h
  obtain ⟨r3, stc, r4⟩ := run_mid r2
  have e2 : t1 ++ s :: (t2 ++ c :: t3) = (t1 ++ [s]) ++ t2 ++ c :: t3 := by simp
  have hheld : s.pre.pc l p = .held := by
    obtain ⟨p', h1, h2⟩ := hg.held s (by simp) _ he ⟨rfl, b, hb, rfl⟩
    cases h1
    exact h2
  rw [e2] at hr hg
  have rc : Run T x (t1 ++ [s]) s.post := Run.snoc r1 st
  have hheld' : s.post.pc l p = .held := by
    obtain ⟨pre, e0, post⟩ := s
    simp only at he st hheld ⊢
    subst he
    cases st with
    | @rma e g' hstep hcall => exact hheld
  have own := writes_own wf un hl h0 rc r3 hr.left hg.left hheld' hcl
  obtain ⟨_, _, hgi⟩ := proj h0 r1 hr.left.left.left
  obtain ⟨pd, hO⟩ : ∃ pd, Vis.Only s.post.g p (some pd) (if nbi then some (p, b.2) else none) (t, b.1) (s.pre.g.mem p b.2) := by
    have hsw : nbi = true → NoWriter s.pre.g (p, b.2) ∧ ¬ (Vis.Ev.put p t nbi ctx addr xs ep).writes (p, b.2) :=
      fun hnb => ⟨(hsrc hnb).1, (hsrc hnb).2.2 s (by simp) _ he⟩
    obtain ⟨pre, e0, post⟩ := s
    simp only at he st hn hsw hgi
    subst he
    cases st with
    | @rma e g' hstep hcall =>
      obtain ⟨_, _, _, pd, _, _, hO, _⟩ := Vis.put_only hgi hstep hb hu hn hsw
      exact ⟨pd, hO⟩
  have hO2 := only_run wf un h0 rc r3 hr.left hk
    (fun k' hk' => by
      cases nbi with
      | false => cases hk'
      | true => cases hk'; exact (hsrc rfl).2.1)
    hO (fun u hu e hue hwr => hw u hu e hue (own u hu e hue hwr) hwr)
    (fun k' hk' u hu => by
      cases nbi with
      | false => cases hk'
      | true => cases hk'; exact (hsrc rfl).2.2 u (List.mem_cons_of_mem _ hu))
  rcases hO2.val with hv | ⟨a, ha, hwr⟩
  · exact hv
  · exact absurd hwr (hset a ⟨_, _, ha⟩)

/-- a byte that nobody writes in the history, and which is in no lock, is not being written -/
theorem unwritten {T : Sys} (wf : T.lk.WF) (un : T.lk.Uniform) {x y : X} {tr : List Ent} {k : Nat × Int} (h0 : Start T x) (h : Run T x tr y)
    (hr : Respected T tr) (hk : ∀ b, T.lk.InLock k.1 b → b.toInt ≠ k.2) (hw : ∀ s ∈ tr, ∀ e, s.ev = .rma e → ¬ e.writes k) : NoWriter y.g k :=
  (quiet_run (t1 := []) wf un h0 (Run.nil x) h hr hk (by
    obtain ⟨⟨m, hm⟩, _⟩ := h0
    rw [hm]; exact Vis.noWriter_init m k) hw).1

/-- C96. A message through a critical section, in terms of what programs do: `q` gets the lock, puts a guarded byte once (blocking or not,
any routine) and clears the lock; `p` is the next to get the lock and gets the byte with a blocking get. Then `p` receives what `q` put.
Missing: see the head of the file. -/
theorem C96_message_partial {T : Sys} (wf : T.lk.WF) (un : T.lk.Uniform) {x y : X} {t1 t2 t3 t4 t5 t6 tr : List Ent} {a0 pu c0 a1 ge : Ent}
    {l q p t : Nat} {nbi : Bool} {cx1 cx2 : Option (Nat × Nat)} {ad1 ad2 : BitVec 64} {xs ys : List (Int × Int)} {ep1 ep2 : Nat}
    {src mid dst : Int} (htr : tr = t1 ++ a0 :: (t2 ++ pu :: (t3 ++ c0 :: (t4 ++ a1 :: (t5 ++ ge :: t6))))) (hl : l < T.lk.m)
    (h0 : Start T x) (h : Run T x tr y) (hr : Respected T tr) (hg : Guarded l (t, mid) tr)
    (hk : ∀ b, T.lk.InLock t b → b.toInt ≠ mid)
    -- the section of `q`
    (ha0 : Acquires l q a0) (hc0 : Clears l q c0) (hcl0 : ∀ u ∈ t2 ++ pu :: t3, ¬ Clears l q u)
    (hpu : pu.ev = .rma (.put q t nbi cx1 ad1 xs ep1)) (hb1 : (mid, src) ∈ xs) (hu1 : ∀ z ∈ xs, z.1 = mid → z = (mid, src))
    (hw0 : ∀ u ∈ t2 ++ t3, ∀ e, u.ev = .rma e → caller e = some q → ¬ e.writes (t, mid))
    (hsrc : nbi = true → (∀ b, T.lk.InLock q b → b.toInt ≠ src) ∧ ∀ u ∈ tr, ∀ e, u.ev = .rma e → ¬ e.writes (q, src))
    -- `p` is next
    (ha1 : Acquires l p a1) (hnext : ∀ u ∈ t4, ∀ r, ¬ Acquires l r u) (hcl1 : ∀ u ∈ t5 ++ ge :: t6, ¬ Clears l p u)
    (hge : ge.ev = .rma (.get p t false cx2 ad2 ys ep2)) (hb2 : (dst, mid) ∈ ys) (hu2 : ∀ z ∈ ys, z.1 = dst → z = (dst, mid))
    (hw1 : ∀ u ∈ t5 ++ ge :: t6, ∀ e, u.ev = .rma e → caller e = some p → ¬ e.writes (t, mid))
    (hd : ∀ b, T.lk.InLock p b → b.toInt ≠ dst)
    (hd1 : ∀ u ∈ t1 ++ a0 :: (t2 ++ pu :: (t3 ++ c0 :: (t4 ++ a1 :: t5))), ∀ e, u.ev = .rma e → ¬ e.writes (p, dst))
    (hd2 : ∀ u ∈ t6, ∀ e, u.ev = .rma e → ¬ e.writes (p, dst)) (hret : y.g.busy p = []) :
    y.g.mem p dst = pu.pre.g.mem q src := by
  subst htr
  -- the put
  have hsteady : NoWriter pu.pre.g (t, mid) := by
    have e : t1 ++ a0 :: (t2 ++ pu :: (t3 ++ c0 :: (t4 ++ a1 :: (t5 ++ ge :: t6)))) =
        (t1 ++ a0 :: t2) ++ pu :: (t3 ++ c0 :: (t4 ++ a1 :: (t5 ++ ge :: t6))) := by simp
    rw [e] at h hr hg
    exact (C96_steady_partial wf un hl h0 (run_mid h).1 hr.left hg.left hk ha0 (fun u hu => hcl0 u (List.mem_append.2 (Or.inl hu)))
      (fun u hu => hw0 u (List.mem_append.2 (Or.inl hu)))).2
  have v1 : c0.pre.g.mem t mid = pu.pre.g.mem q src := by
    have e : t1 ++ a0 :: (t2 ++ pu :: (t3 ++ c0 :: (t4 ++ a1 :: (t5 ++ ge :: t6)))) =
        (t1 ++ a0 :: t2) ++ pu :: (t3 ++ c0 :: (t4 ++ a1 :: (t5 ++ ge :: t6))) := by simp
    have hsrc' := hsrc
    rw [e] at h hr hg hsrc'
    refine C96_write_partial (b := (mid, src)) wf un hl h0 h hr hg hk hpu hb1 hu1 hsteady hc0
      (fun u hu => hcl0 u (List.mem_append.2 (Or.inr (List.mem_cons_of_mem _ hu)))) (fun u hu => hw0 u (List.mem_append.2 (Or.inr hu))) ?_
    intro hn
    refine ⟨unwritten wf un h0 (run_mid h).1 hr.left (hsrc' hn).1 (fun u hu => (hsrc' hn).2 u (List.mem_append.2 (Or.inl hu))), (hsrc' hn).1, ?_⟩
    intro u hu
    refine (hsrc' hn).2 u (List.mem_append.2 (Or.inr ?_))
    rcases List.mem_cons.1 hu with hu | hu
    · exact List.mem_cons.2 (Or.inl hu)
    · exact List.mem_cons_of_mem _ (List.mem_append.2 (Or.inl hu))
  -- the handover
  have v2 : a1.post.g.mem t mid = c0.pre.g.mem t mid := by
    have e : t1 ++ a0 :: (t2 ++ pu :: (t3 ++ c0 :: (t4 ++ a1 :: (t5 ++ ge :: t6)))) =
        (t1 ++ a0 :: (t2 ++ pu :: t3)) ++ c0 :: (t4 ++ a1 :: (t5 ++ ge :: t6)) := by simp
    rw [e] at h hr hg
    exact (C96_handover_partial wf un hl h0 h hr hg hk hc0 ha1 hnext).1
  -- the get
  rw [← v1, ← v2]
  have e : t1 ++ a0 :: (t2 ++ pu :: (t3 ++ c0 :: (t4 ++ a1 :: (t5 ++ ge :: t6)))) =
      (t1 ++ a0 :: (t2 ++ pu :: (t3 ++ c0 :: t4))) ++ a1 :: (t5 ++ ge :: t6) := by simp
  rw [e] at h hr hg
  have e2 : (t1 ++ a0 :: (t2 ++ pu :: (t3 ++ c0 :: t4))) ++ a1 :: (t5 ++ ge :: t6) =
      (t1 ++ a0 :: (t2 ++ pu :: (t3 ++ c0 :: (t4 ++ a1 :: t5)))) ++ ge :: t6 := by simp
  have hdw : NoWriter ge.pre.g (p, dst) := by
    have h' := h
    have hr' := hr
    rw [e2] at h' hr'
    exact unwritten wf un h0 (run_mid h').1 hr'.left hd hd1
  exact C96_read_partial (b := (dst, mid)) wf un hl h0 h hr hg hk ha1 hcl1 hw1 hge hb2 hu2 hd hdw hd2 hret

/-! ## Serial behaviour -/

/-- the PE that calls `shmem_clear_lock` on lock `l` in this event -/
def clearer (l : Nat) : Ev → Option Nat
  | .rma _ => none
  | .lock l' p a _ => if l' = l ∧ a = .callClear then some p else none

/-- the PEs that clear lock `l`, in order -/
def sections (l : Nat) (tr : List Ent) : List Nat := tr.filterMap (fun s => clearer l s.ev)

theorem sections_snoc_none {l : Nat} {tr : List Ent} {s : Ent} (h : clearer l s.ev = none) : sections l (tr ++ [s]) = sections l tr := by
  simp [sections, h]

theorem sections_snoc {l p : Nat} {tr : List Ent} {s : Ent} (h : clearer l s.ev = some p) : sections l (tr ++ [s]) = sections l tr ++ [p] := by
  simp [sections, h]

/-- C96. Critical sections run as if one after the other: let `V` be anything that depends on guarded bytes only, and let a critical section
of PE `p` (from getting the lock to the call of clear) take the value `v` of `V` it finds to `A p v`. Then when nobody holds the lock, `V` is
what the sections in the order of the calls of `shmem_clear_lock` make of the initial value: no section is lost, none sees a state
in between. Missing: see the head of the file. -/
theorem C96_serial_partial {T : Sys} (wf : T.lk.WF) (un : T.lk.Uniform) {x y : X} {tr : List Ent} {l : Nat}
    (hl : l < T.lk.m) (h0 : Start T x) (h : Run T x tr y) (hr : Respected T tr) {α : Type} {K : Nat × Int → Prop} {V : Mems → α}
    (hV : ∀ m m' : Mems, (∀ k, K k → m k.1 k.2 = m' k.1 k.2) → V m = V m') (hg : ∀ k, K k → Guarded l k tr)
    (hk : ∀ k, K k → ∀ b, T.lk.InLock k.1 b → b.toInt ≠ k.2) {A : Nat → α → α}
    (hA : ∀ t1 s t2 c t3 p, tr = t1 ++ s :: (t2 ++ c :: t3) → Acquires l p s → Clears l p c → (∀ u ∈ t2, ¬ Clears l p u) →
      V c.pre.g.mem = A p (V s.post.g.mem))
    (hno : ∀ r, y.pc l r ≠ .held) : V y.g.mem = (sections l tr).foldl (fun v p => A p v) (V x.g.mem) := by
  suffices hsuff : ((∀ r, y.pc l r ≠ .held) → V y.g.mem = (sections l tr).foldl (fun v p => A p v) (V x.g.mem)) ∧
      ∀ p, y.pc l p = .held → ∃ t1 s t2, tr = t1 ++ s :: t2 ∧ Acquires l p s ∧ (∀ u ∈ t2, ¬ Clears l p u) ∧
        V s.post.g.mem = (sections l tr).foldl (fun v p => A p v) (V x.g.mem) from hsuff.1 hno
  clear hno
  induction h with
  | nil =>
    refine ⟨fun _ => rfl, fun p hp => ?_⟩
    have := h0.2.1 l p
    rw [show x.pc l p = .idle from this] at hp
    cases hp
  | @snoc y z tr ev rr s ih =>
    obtain ⟨i1, i2⟩ := ih hr.left (fun k hK => (hg k hK).left)
      (fun t1 s t2 c t3 p he => hA t1 s t2 c (t3 ++ [⟨y, ev, z⟩]) p (by rw [he]; simp))
    have hlast : (⟨y, ev, z⟩ : Ent) ∈ tr ++ [⟨y, ev, z⟩] := List.mem_append.2 (Or.inr (List.mem_singleton.2 rfl))
    obtain ⟨⟨wtr, hw⟩, _, _⟩ := proj h0 rr hr.left
    cases s with
    | @rma e g' hs hc =>
      rw [sections_snoc_none (by rfl)]
      refine ⟨fun hn => ?_, fun p hp => ?_⟩
      · rw [← i1 hn]
        refine hV _ _ (fun k hK => ?_)
        have nw : NoWriter y.g k := by
          rintro a ⟨r, o, ha⟩ hwr
          exact hn r (owned h0 rr hr.left (hg k hK).left a r o ha hwr).1
        refine (Vis.noWriter_step hs nw (fun hwr => ?_)).2
        obtain ⟨q, _, hq⟩ := (hg k hK).held _ hlast e rfl hwr
        exact hn q hq
      · obtain ⟨t1, s, t2, rfl, a1, a2, a3⟩ := i2 p hp
        refine ⟨t1, s, t2 ++ [_], by rw [List.append_assoc, List.cons_append], a1, ?_, a3⟩
        intro u hu
        rcases List.mem_append.1 hu with hu | hu
        · exact a2 u hu
        · rw [List.mem_singleton] at hu; subst hu
          rintro ⟨_, h⟩
          cases h
    | @lock l' p' act w ev hl' hf hs =>
      have hmem : V (back y.g.mem w.mem) = V y.g.mem := hV _ _ (fun k hK => lock_frame wf un hw hl' hf hs (hk k hK))
      obtain ⟨q1, q2, q3, q4⟩ := wstep_pc hs
      have hclr : ∀ p, clearer l (Ev.lock l' p' act ev) = some p → l' = l ∧ p' = p ∧ act = .callClear ∧ y.pc l p = .held := by
        intro p hp
        simp only [clearer] at hp
        split at hp
        · rename_i hc
          cases hp
          obtain ⟨rfl, rfl⟩ := hc
          refine ⟨rfl, rfl, rfl, ?_⟩
          simp only [wstep] at hs
          split at hs
          · rename_i hc; exact hc.1
          · cases hs
        · cases hp
      by_cases hfree : ∀ r, y.pc l r ≠ .held
      · have hsec : clearer l (Ev.lock l' p' act ev) = none := by
          cases hcl : clearer l (Ev.lock l' p' act ev) with
          | none => rfl
          | some p => exact absurd (hclr p hcl).2.2.2 (hfree p)
        rw [sections_snoc_none hsec]
        refine ⟨fun hn => hmem.trans (i1 hfree), fun p hp => ?_⟩
        have hlp : l = l' ∧ p = p' := by
          by_contra hn
          exact hfree p ((q1 l p hn).symm.trans hp)
        obtain ⟨rfl, rfl⟩ := hlp
        exact ⟨tr, _, [], rfl, ⟨act, ev, rfl, (q3 hp).2⟩, fun u hu => (by cases hu), hmem.trans (i1 hfree)⟩
      · obtain ⟨r, hrh⟩ : ∃ r, y.pc l r = .held := by
          by_contra hn
          exact hfree (fun r hr' => hn ⟨r, hr'⟩)
        obtain ⟨t1, s, t2, rfl, a1, a2, a3⟩ := i2 r hrh
        by_cases hlp : l = l' ∧ r = p'
        · obtain ⟨rfl, rfl⟩ := hlp
          obtain rfl := q2 hrh
          have hsec : clearer l (Ev.lock l r .callClear ev) = some r := if_pos ⟨rfl, rfl⟩
          rw [sections_snoc hsec, List.foldl_append, ← a3]
          refine ⟨fun _ => ?_, fun p hp => ?_⟩
          · refine hmem.trans ?_
            exact hA t1 s t2 ⟨y, .lock l r .callClear ev, ⟨{ y.g with mem := back y.g.mem w.mem }, w.pc⟩⟩ [] r (by simp) a1 ⟨ev, rfl⟩ a2
          · exfalso
            by_cases e : p = r
            · subst e
              exact (q3 hp).1 hrh
            · exact e (exclusion wf un h0 rr hr.left hl ((q1 l p (fun h => e h.2)).symm.trans hp) hrh)
        · have hz : w.pc l r = .held := (q1 l r hlp).trans hrh
          have hsec : clearer l (Ev.lock l' p' act ev) = none := by
            cases hcl : clearer l (Ev.lock l' p' act ev) with
            | none => rfl
            | some p =>
              obtain ⟨e1, e2, _, e4⟩ := hclr p hcl
              have := exclusion wf un h0 rr hr.left hl e4 hrh
              exact absurd ⟨e1.symm, by rw [e2, this]⟩ hlp
          rw [sections_snoc_none hsec]
          refine ⟨fun hn => absurd hz (hn r), fun p hp => ?_⟩
          have hpr : p = r := by
            by_cases e : l = l' ∧ p = p'
            · obtain ⟨rfl, rfl⟩ := e
              obtain ⟨⟨wtr', hw'⟩, _, _⟩ := proj h0 (Run.snoc rr (Step.lock l p act hl' hf hs)) hr
              rw [lock_words] at hw'
              exact (C89_locks_partial wf un hw' hl).1 p r hp hz
            · exact exclusion wf un h0 rr hr.left hl ((q1 l p e).symm.trans hp) hrh
          subst hpr
          refine ⟨t1, s, t2 ++ [_], by rw [List.append_assoc, List.cons_append], a1, ?_, a3⟩
          intro u hu
          rcases List.mem_append.1 hu with hu | hu
          · exact a2 u hu
          · rw [List.mem_singleton] at hu; subst hu
            rintro ⟨_, h⟩
            cases h
            exact hlp ⟨rfl, rfl⟩

/-- the `n` bytes at `a` -/
def bytes (m : IMem) (a : Int) (n : Nat) : List (BitVec 8) := (List.range n).map (fun i : Nat => m (a + i))

/-- C96. A counter in guarded memory that every critical section increments has been incremented exactly as often as the lock has been
cleared. Missing: see the head of the file. -/
theorem C96_counter_partial {T : Sys} (wf : T.lk.WF) (un : T.lk.Uniform) {x y : X} {tr : List Ent} {l : Nat}
    (hl : l < T.lk.m) (h0 : Start T x) (h : Run T x tr y) (hr : Respected T tr) {t : Nat} {a : Int} {n : Nat}
    (hg : ∀ i, i < n → Guarded l (t, a + i) tr) (hk : ∀ i, i < n → ∀ b, T.lk.InLock t b → b.toInt ≠ a + (i : Nat))
    (word : List (BitVec 8) → BitVec 64)
    (hA : ∀ t1 s t2 c t3 p, tr = t1 ++ s :: (t2 ++ c :: t3) → Acquires l p s → Clears l p c → (∀ u ∈ t2, ¬ Clears l p u) →
      word (bytes (c.pre.g.mem t) a n) = word (bytes (s.post.g.mem t) a n) + 1)
    (hno : ∀ r, y.pc l r ≠ .held) : word (bytes (y.g.mem t) a n) =
      word (bytes (x.g.mem t) a n) + BitVec.ofNat 64 (sections l tr).length := by
  have key := C96_serial_partial wf un hl h0 h hr (K := fun k => ∃ i : Nat, i < n ∧ k = (t, a + i))
    (V := fun m => word (bytes (m t) a n)) (A := fun _ v => v + 1)
    (by
      intro m m' hm
      refine congrArg word (List.map_congr_left (fun i hi => ?_))
      exact hm (t, a + (i : Nat)) ⟨i, List.mem_range.1 hi, rfl⟩)
    (by rintro k ⟨i, hi, rfl⟩; exact hg i hi) (by rintro k ⟨i, hi, rfl⟩; exact hk i hi) hA hno
  refine key.trans ?_
  generalize sections l tr = L
  generalize word (bytes (x.g.mem t) a n) = v
  induction L generalizing v with
  | nil => simp
  | cons q L ih =>
    rw [List.foldl_cons, ih, List.length_cons]
    rw [BitVec.add_assoc, Nat.add_comm, BitVec.ofNat_add]
    rfl

end Verif.Crit
