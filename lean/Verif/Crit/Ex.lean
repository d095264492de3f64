import Verif.Crit.Props
import Verif.Vis.Ex
/-!
# C96: concrete executions

Two PEs with heaps at 0x10000 and 0x20000 (static windows), a lock at offset 0x80, a guarded byte at offset 0x18 of the heap of PE 1.
-/
namespace Verif.Crit
open Verif.Sobj Verif.Rma Verif.Lock
open Verif.Vis (NoWriter exS exM upd_at done_nil done_empty noWriter_init)

/-- one lock in the heaps of `Vis.exS` -/
def exLk : Lock.Cfg where
  n := 2
  m := 1
  loc := fun _ => { dyn := false, kind := .heap, idx := 0, bases := fun i => BitVec.ofNat 64 (0x10000 * (i + 1)), size := 4096,
                    off := 0x80#64, mode := .rel }

def exT : Sys := ⟨exS true, exLk, rfl, fun _ _ _ _ => Or.inl rfl⟩

theorem exLk_wf : exLk.WF where
  pos := by decide
  max := by decide
  idx := by intro l _; exact (by decide : (0 : Nat) < 2 ^ 29)
  mode := by intro l _ h; cases h
  off := by intro l _; exact (by decide : 0 ≤ (0x80#64).toInt)
  addr := by
    intro l hl t ht
    have : t = 0 ∨ t = 1 := by have : t < 2 := ht; omega
    rcases this with rfl | rfl
    · exact (by decide : 0 ≤ (0x10080#64).toInt)
    · exact (by decide : 0 ≤ (0x20080#64).toInt)
  disj := by
    intro l k hl hk h
    have h1 : l < 1 := hl
    have h2 : k < 1 := hk
    omega

theorem exLk_uniform : exLk.Uniform := fun _ _ => Or.inl rfl

/-- memories at the start: one at 0x10020 of PE 0, otherwise zero -/
def exMem : Mems := fun p a => if p = 0 ∧ a = 0x10020 then 1 else 0

def x0 : X := ⟨Vis.ginit exMem, fun _ _ => .idle⟩

theorem x0_start : Start exT x0 := by
  refine ⟨⟨exMem, rfl⟩, fun _ _ => rfl, ?_⟩
  rintro t ht x ⟨l, hl, i, hi, rfl⟩
  have h1 : ∀ i, i < 8 → ∀ t, t < 2 → exMem t (exLk.lockp 0 t + BitVec.ofNat 64 i).toInt = 0#8 := by decide +kernel
  exact h1 i hi t ht

/-- the lock state after an access -/
def lw (x : X) (p : Nat) (a : Act) : WState × List Lock.Ev := (wstep exLk x.words 0 p a).getD (x.words, [])

/-- the state after an access of a lock call -/
def lk (x : X) (p : Nat) (a : Act) : X := ⟨{ x.g with mem := back x.g.mem (lw x p a).1.mem }, (lw x p a).1.pc⟩

theorem lk_step {x : X} {p : Nat} {a : Act} {ev : List Lock.Ev} (hs : (wstep exLk x.words 0 p a).map Prod.snd = some ev)
    (hf : Vis.Free exT.vis x.g p) : Step exT x (.lock 0 p a ev) (lk x p a) := by
  refine Step.lock 0 p a Nat.zero_lt_one hf ?_
  unfold lw
  show wstep exLk x.words 0 p a = _
  cases h : wstep exLk x.words 0 p a with
  | none => rw [h] at hs; cases hs
  | some r => rw [h] at hs; cases hs; rfl

/-- `shmem_set_lock` by `p`, lock free -/
def x1 : X := lk x0 0 .callSet
def x2 : X := lk x1 0 .run
def x3 : X := lk x2 0 .run

/-- the record of the put -/
def exP : Order.Pend := ⟨.win 1, 1, none, .heap, 0⟩

/-- PE 0 puts its byte at 0x10020 into the guarded byte of PE 1 -/
def putEv : Ev := .rma (.put 0 1 false none 0x10018#64 [(0x20018, 0x10020)] 0)
def x4 : X := ⟨Vis.after x3.g 0 (Order.init.push exP) [.set 1 0x20018 (x3.g.mem 0 0x10020)], x3.pc⟩

theorem s1 : Step exT x0 (.lock 0 0 .callSet []) x1 := lk_step (by decide +kernel) ⟨by decide, rfl, rfl⟩
theorem s2 : Step exT x1 (.lock 0 0 .run []) x2 := lk_step (by decide +kernel) ⟨by decide, rfl, rfl⟩
theorem s3 : Step exT x2 (.lock 0 0 .run [.request 0, .acquire 0]) x3 := lk_step (by decide +kernel) ⟨by decide, rfl, rfl⟩

theorem s4 : Step exT x3 putEv x4 := by
  refine Step.rma (Vis.Step.put 0 1 false none 0x10018#64 0x10020#64 1 true .rel 1 1 (Ty.basic 1) (Ty.basic 1) _
    (Order.init.push exP) ⟨by decide, rfl, rfl⟩ (fun h => by cases h) rfl ?_ (done_nil rfl)) ?_
  · rw [if_neg (by decide)]
    exact ⟨0x20018#64, by decide +kernel, by decide +kernel⟩
  · intro p hp
    cases hp
    decide +kernel

/-! ## With quiet -/

/-- the put is performed -/
def x5 : X := ⟨{ x4.g with mem := Function.update x4.g.mem 1 (Function.update (x4.g.mem 1) 0x20018 (x3.g.mem 0 0x10020)),
                            fly := Function.update x4.g.fly 0 [⟨exP, []⟩] }, x4.pc⟩
/-- quiet -/
def x6 : X := ⟨Vis.after x5.g 0 Order.init [], x5.pc⟩
def x7 : X := lk x6 0 .callClear
def x8 : X := lk x7 0 .run
def x9 : X := lk x8 1 .callSet
def x10 : X := lk x9 1 .run
def x11 : X := lk x10 1 .run
/-- PE 1 gets the byte into 0x20040 -/
def x12 : X := ⟨Vis.after x11.g 1 Order.init [.mv 1 0x20018 1 0x20040], x11.pc⟩
def x13 : X := ⟨{ x12.g with mem := Function.update x12.g.mem 1 (Function.update (x12.g.mem 1) 0x20040 (x12.g.mem 1 0x20018)),
                              busy := Function.update x12.g.busy 1 [] }, x12.pc⟩
/-- PE 1 stores 2 -/
def x14 : X := ⟨{ x13.g with mem := Function.update x13.g.mem 1 (Function.update (x13.g.mem 1) 0x20018 2) }, x13.pc⟩
def x15 : X := lk x14 1 .callClear
def x16 : X := lk x15 1 .run

theorem s5 : Step exT x4 (.rma (.done 0 (.set 1 0x20018 (x3.g.mem 0 0x10020)) 0)) x5 := by
  refine Step.rma (Vis.Step.perform 0 [] [] exP [] [] (.set 1 0x20018 (x3.g.mem 0 0x10020)) _ (by decide) rfl rfl) ?_
  intro p hp; cases hp

theorem s6 : Step exT x5 (.rma (.call 0 (.quiet none))) x6 := by
  refine Step.rma (Vis.Step.call 0 (.quiet none) Order.init ⟨by decide, rfl, rfl⟩ (by exact trivial) (by intros; simp) rfl ?_) ?_
  · refine done_empty (fun x hx => ?_)
    have : x = ⟨exP, []⟩ := List.mem_singleton.1 hx
    rw [this]
  · intro p hp
    cases hp
    decide +kernel

theorem s7 : Step exT x6 (.lock 0 0 .callClear [.release 0]) x7 := lk_step (by decide +kernel) ⟨by decide, rfl, rfl⟩
theorem s8 : Step exT x7 (.lock 0 0 .run [.cleared 0]) x8 := lk_step (by decide +kernel) ⟨by decide, rfl, rfl⟩
theorem s9 : Step exT x8 (.lock 0 1 .callSet []) x9 := lk_step (by decide +kernel) ⟨by decide, rfl, rfl⟩
theorem s10 : Step exT x9 (.lock 0 1 .run []) x10 := lk_step (by decide +kernel) ⟨by decide, rfl, rfl⟩
theorem s11 : Step exT x10 (.lock 0 1 .run [.request 1, .acquire 1]) x11 := lk_step (by decide +kernel) ⟨by decide, rfl, rfl⟩

theorem s12 : Step exT x11 (.rma (.get 1 1 false none 0x20018#64 [(0x20040, 0x20018)] 0)) x12 := by
  refine Step.rma (Vis.Step.get 1 1 false none 0x20018#64 0x20040#64 1 true .rel 1 1 (Ty.basic 1) (Ty.basic 1) _
    Order.init ⟨by decide, rfl, rfl⟩ (fun h => by cases h) rfl ?_ (done_nil rfl)) ?_
  · rw [if_neg (by decide)]
    exact ⟨0x20018#64, by decide +kernel, by decide +kernel⟩
  · intro p hp
    cases hp
    decide +kernel

theorem s13 : Step exT x12 (.rma (.done 1 (.mv 1 0x20018 1 0x20040) 0)) x13 := by
  refine Step.rma (Vis.Step.performBusy 1 [] [] (.mv 1 0x20018 1 0x20040) _ (by decide) rfl rfl) ?_
  intro p hp; cases hp

theorem s14 : Step exT x13 (.rma (.store 1 0x20018 2)) x14 := by
  refine Step.rma (Vis.Step.store 1 0x20018 2 ⟨by decide, rfl, rfl⟩) ?_
  intro p hp
  cases hp
  decide +kernel

theorem s15 : Step exT x14 (.lock 0 1 .callClear [.release 1]) x15 := lk_step (by decide +kernel) ⟨by decide, rfl, rfl⟩
theorem s16 : Step exT x15 (.lock 0 1 .run [.cleared 1]) x16 := lk_step (by decide +kernel) ⟨by decide, rfl, rfl⟩

/-- the whole history -/
def exA : List Ent := [⟨x0, .lock 0 0 .callSet [], x1⟩, ⟨x1, .lock 0 0 .run [], x2⟩]
def exAcq0 : Ent := ⟨x2, .lock 0 0 .run [.request 0, .acquire 0], x3⟩
def exPutE : Ent := ⟨x3, putEv, x4⟩
def exDone : Ent := ⟨x4, .rma (.done 0 (.set 1 0x20018 (x3.g.mem 0 0x10020)) 0), x5⟩
def exQuiet : Ent := ⟨x5, .rma (.call 0 (.quiet none)), x6⟩
def exClr0 : Ent := ⟨x6, .lock 0 0 .callClear [.release 0], x7⟩
def exB : List Ent := [⟨x7, .lock 0 0 .run [.cleared 0], x8⟩, ⟨x8, .lock 0 1 .callSet [], x9⟩, ⟨x9, .lock 0 1 .run [], x10⟩]
def exAcq1 : Ent := ⟨x10, .lock 0 1 .run [.request 1, .acquire 1], x11⟩
def exGet : Ent := ⟨x11, .rma (.get 1 1 false none 0x20018#64 [(0x20040, 0x20018)] 0), x12⟩
def exGetDone : Ent := ⟨x12, .rma (.done 1 (.mv 1 0x20018 1 0x20040) 0), x13⟩
def exStore : Ent := ⟨x13, .rma (.store 1 0x20018 2), x14⟩
def exClr1 : Ent := ⟨x14, .lock 0 1 .callClear [.release 1], x15⟩
def exEnd : Ent := ⟨x15, .lock 0 1 .run [.cleared 1], x16⟩

def exTr : List Ent := exA ++ [exAcq0, exPutE, exDone, exQuiet, exClr0] ++ exB ++ [exAcq1, exGet, exGetDone, exStore, exClr1, exEnd]

theorem cons_run {T : Sys} {x y z : X} {ev : Ev} {tr : List Ent} (s : Step T x ev y) (r : Run T y tr z) : Run T x (⟨x, ev, y⟩ :: tr) z :=
  run_append (Run.snoc (Run.nil x) s) r

theorem ex_run : Run exT x0 exTr x16 :=
  cons_run s1 (cons_run s2 (cons_run s3 (cons_run s4 (cons_run s5 (cons_run s6 (cons_run s7 (cons_run s8 (cons_run s9 (cons_run s10
    (cons_run s11 (cons_run s12 (cons_run s13 (cons_run s14 (cons_run s15 (cons_run s16 (Run.nil _))))))))))))))))

theorem inLock1 {b : BitVec 64} (h : exLk.InLock 1 b) : b.toInt ≠ 0x20018 ∧ b.toInt ≠ 0x20040 := by
  obtain ⟨l, hl, i, hi, rfl⟩ := h
  have : ∀ i, i < 8 → (exLk.lockp 0 1 + BitVec.ofNat 64 i).toInt ≠ 0x20018 ∧ (exLk.lockp 0 1 + BitVec.ofNat 64 i).toInt ≠ 0x20040 := by
    decide +kernel
  exact this i hi

/-- the entries that write anything: the put, the get, the store -/
theorem ex_writers {s : Ent} (hs : s ∈ exTr) {e : Vis.Ev} (he : s.ev = .rma e) {k : Nat × Int} (hw : e.writes k) :
    (s = exPutE ∧ k = (1, 0x20018)) ∨ (s = exGet ∧ k = (1, 0x20040)) ∨ (s = exStore ∧ k = (1, 0x20018)) := by
  have hs : s ∈ [⟨x0, .lock 0 0 .callSet [], x1⟩, ⟨x1, .lock 0 0 .run [], x2⟩, exAcq0, exPutE, exDone, exQuiet, exClr0,
    ⟨x7, .lock 0 0 .run [.cleared 0], x8⟩, ⟨x8, .lock 0 1 .callSet [], x9⟩, ⟨x9, .lock 0 1 .run [], x10⟩,
    exAcq1, exGet, exGetDone, exStore, exClr1, exEnd] := hs
  simp only [List.mem_cons, List.not_mem_nil, or_false] at hs
  rcases hs with rfl | rfl | rfl | rfl | rfl | rfl | rfl | rfl | rfl | rfl | rfl | rfl | rfl | rfl | rfl | rfl
  · cases he
  · cases he
  · cases he
  · cases he
    obtain ⟨h1, z, hz, h2⟩ := hw
    rw [List.mem_singleton] at hz
    subst hz
    exact Or.inl ⟨rfl, Prod.ext h1 h2.symm⟩
  · cases he; cases hw
  · cases he; cases hw
  · cases he
  · cases he
  · cases he
  · cases he
  · cases he
  · cases he
    obtain ⟨h1, z, hz, h2⟩ := hw
    rw [List.mem_singleton] at hz
    subst hz
    exact Or.inr (Or.inl ⟨rfl, Prod.ext h1 h2.symm⟩)
  · cases he; cases hw
  · cases he; exact Or.inr (Or.inr ⟨rfl, hw⟩)
  · cases he
  · cases he

theorem ex_respected : Respected exT exTr := by
  intro s hs e he t ht b hb hw
  rcases ex_writers hs he hw with ⟨_, h⟩ | ⟨_, h⟩ | ⟨_, h⟩
  all_goals
    obtain ⟨rfl, h'⟩ := Prod.mk.inj h
    first
      | exact (inLock1 hb).1 h'
      | exact (inLock1 hb).2 h'

/-- A history with a quiet after the last write that leaves something outstanding, and no clear before it. -/
theorem quiet_between {l p : Nat} {k : Nat × Int} {A B : List Ent} {u : Ent} (hu : Quiets p u.ev)
    (hA : ∀ s ∈ A, ∀ q, ¬ Clears l q s) (hp : ∀ s ∈ A ++ u :: B, ∀ e q, s.ev = .rma e → e.writes k → posts e = true → caller e = some q →
      s ∈ A ∧ q = p) (hB : ∀ s ∈ u :: B, ∀ e, s.ev = .rma e → e.writes k → posts e = false) :
    ∀ t1 s t2 c t3 e q ev, A ++ u :: B = t1 ++ s :: (t2 ++ c :: t3) → s.ev = .rma e → e.writes k → posts e = true → caller e = some q →
      c.ev = .lock l q .callClear ev → ∃ u ∈ t2, Quiets q u.ev := by
  intro t1 s t2 c t3 e q ev h he hw hpo hc hcl
  obtain ⟨_, rfl⟩ := hp s (by rw [h]; simp) e q he hw hpo hc
  rcases List.append_eq_append_iff.1 h with ⟨a', e1, e2⟩ | ⟨c', e1, e2⟩
  · exfalso
    have : s ∈ u :: B := by rw [e2]; simp
    rw [hB s this e he hw] at hpo
    cases hpo
  · -- A = t1 ++ c', c' ++ u :: B = s :: (t2 ++ c :: t3)
    cases c' with
    | nil =>
      exfalso
      have : s ∈ u :: B := by rw [List.nil_append] at e2; rw [← e2]; simp
      rw [hB s this e he hw] at hpo
      cases hpo
    | cons d c' =>
      rw [List.cons_append, List.cons.injEq] at e2
      obtain ⟨rfl, e2⟩ := e2
      rcases List.append_eq_append_iff.1 e2 with ⟨a', e3, e4⟩ | ⟨a', e3, e4⟩
      · -- t2 ends in c'
        exfalso
        cases a' with
        | nil =>
          rw [List.nil_append, List.cons.injEq] at e4
          rw [← e4.1] at hu
          rcases hu with hu | hu
          · rw [hcl] at hu; cases hu
          · rw [hcl] at hu; cases hu
        | cons d a' =>
          rw [List.cons_append, List.cons.injEq] at e4
          exact hA c (by rw [e1, e3, e4.1]; simp) q ⟨ev, hcl⟩
      · cases a' with
        | nil =>
          exfalso
          rw [List.nil_append, List.cons.injEq] at e4
          rw [e4.1] at hu
          rcases hu with hu | hu
          · rw [hcl] at hu; cases hu
          · rw [hcl] at hu; cases hu
        | cons d a' =>
          rw [List.cons_append, List.cons.injEq] at e4
          refine ⟨u, ?_, hu⟩
          rw [e3, e4.1]
          simp

/-- the guarded byte -/
def exK : Nat × Int := (1, 0x20018)

theorem ex_guarded : Guarded 0 exK exTr := by
  have hsp : exTr = (exA ++ [exAcq0, exPutE, exDone]) ++ exQuiet :: ([exClr0] ++ exB ++ [exAcq1, exGet, exGetDone, exStore, exClr1, exEnd]) := rfl
  refine ⟨?_, ?_⟩
  · intro s hs e he hw
    rcases ex_writers hs he hw with ⟨rfl, _⟩ | ⟨_, h⟩ | ⟨rfl, _⟩
    · cases he; exact ⟨0, rfl, by decide +kernel⟩
    · exact absurd h (by decide)
    · cases he; exact ⟨1, rfl, by decide +kernel⟩
  · rw [hsp]
    refine quiet_between (p := 0) (Or.inl rfl) ?_ ?_ ?_
    · intro s hs q hc
      obtain ⟨ev, hc⟩ := hc
      have hs : s ∈ [⟨x0, .lock 0 0 .callSet [], x1⟩, ⟨x1, .lock 0 0 .run [], x2⟩, exAcq0, exPutE, exDone] := hs
      simp only [List.mem_cons, List.not_mem_nil, or_false] at hs
      rcases hs with rfl | rfl | rfl | rfl | rfl <;> cases hc
    · intro s hs e q he hw hpo hq
      rcases ex_writers (by rw [hsp]; exact hs) he hw with ⟨rfl, _⟩ | ⟨_, h⟩ | ⟨rfl, _⟩
      · cases he; cases hq
        refine ⟨?_, rfl⟩
        rw [List.mem_append]
        exact Or.inr (List.mem_cons_of_mem _ (List.mem_cons_self ..))
      · exact absurd h (by decide)
      · cases he; cases hpo
    · intro s hs e he hw
      rcases ex_writers (by rw [hsp]; exact List.mem_append.2 (Or.inr hs)) he hw with ⟨rfl, _⟩ | ⟨_, h⟩ | ⟨rfl, _⟩
      · exfalso
        have hs : exPutE.ev ∈ (exQuiet :: ([exClr0] ++ exB ++ [exAcq1, exGet, exGetDone, exStore, exClr1, exEnd])).map Ent.ev :=
          List.mem_map_of_mem hs
        have hs : putEv ∈ [.rma (.call 0 (.quiet none)), .lock 0 0 .callClear [.release 0], .lock 0 0 .run [.cleared 0], .lock 0 1 .callSet [],
          .lock 0 1 .run [], .lock 0 1 .run [.request 1, .acquire 1], .rma (.get 1 1 false none 0x20018#64 [(0x20040, 0x20018)] 0),
          .rma (.done 1 (.mv 1 0x20018 1 0x20040) 0), .rma (.store 1 0x20018 2), .lock 0 1 .callClear [.release 1],
          .lock 0 1 .run [.cleared 1]] := hs
        simp [putEv] at hs
      · exact absurd h (by decide)
      · cases he; rfl

theorem exK_lock : ∀ b, exT.lk.InLock exK.1 b → b.toInt ≠ exK.2 := fun _ h => (inLock1 h).1

theorem acq0 : Acquires 0 0 exAcq0 := ⟨_, _, rfl, by simp⟩
theorem acq1 : Acquires 0 1 exAcq1 := ⟨_, _, rfl, by simp⟩
theorem clr0 : Clears 0 0 exClr0 := ⟨_, rfl⟩
theorem clr1 : Clears 0 1 exClr1 := ⟨_, rfl⟩

/-- hypotheses of `C96_exclusion_partial` met: PE 1 holds the lock in `x11` -/
example : ∃ tr, Start exT x0 ∧ Run exT x0 tr x11 ∧ Respected exT tr ∧ x11.pc 0 1 = .held :=
  ⟨_, x0_start, (run_mid (t1 := exA ++ [exAcq0, exPutE, exDone, exQuiet, exClr0] ++ exB ++ [exAcq1]) (s := exGet) ex_run).1,
    Respected.left (t2 := [exGet, exGetDone, exStore, exClr1, exEnd]) ex_respected, by decide +kernel⟩

/-- hypotheses of `C96_handover_partial` met: PE 1 finds what PE 0 left -/
example : x11.g.mem 1 0x20018 = x6.g.mem 1 0x20018 ∧ NoWriter x11.g exK :=
  C96_handover_partial (T := exT) (t1 := exA ++ [exAcq0, exPutE, exDone, exQuiet]) (c := exClr0) (t2 := exB) (s := exAcq1)
    (t3 := [exGet, exGetDone, exStore, exClr1, exEnd]) exLk_wf exLk_uniform Nat.zero_lt_one x0_start ex_run ex_respected ex_guarded exK_lock
    clr0 acq1 (by
      intro u hu r
      have hu : u ∈ [⟨x7, .lock 0 0 .run [.cleared 0], x8⟩, ⟨x8, .lock 0 1 .callSet [], x9⟩, ⟨x9, .lock 0 1 .run [], x10⟩] := hu
      simp only [List.mem_cons, List.not_mem_nil, or_false] at hu
      rcases hu with rfl | rfl | rfl <;> (rintro ⟨_, _, h, hm⟩; cases h; simp at hm))

/-- hypotheses of `C96_first_partial` met -/
example : x3.g.mem 1 0x20018 = 0 :=
  (C96_first_partial (T := exT) (k := exK) (t2 := exA) (s := exAcq0)
    (t3 := [exPutE, exDone, exQuiet, exClr0] ++ exB ++ [exAcq1, exGet, exGetDone, exStore, exClr1, exEnd]) exLk_wf exLk_uniform
    x0_start ex_run ex_respected ex_guarded exK_lock acq0 (by
      intro u hu r
      have hu : u ∈ [⟨x0, .lock 0 0 .callSet [], x1⟩, ⟨x1, .lock 0 0 .run [], x2⟩] := hu
      simp only [List.mem_cons, List.not_mem_nil, or_false] at hu
      rcases hu with rfl | rfl <;> (rintro ⟨_, _, h, hm⟩; cases h; simp at hm))).1

/-- the part of the history up to the return of the get -/
theorem ex_run13 : Run exT x0 ((exA ++ [exAcq0, exPutE, exDone, exQuiet, exClr0] ++ exB) ++ exAcq1 :: ([] ++ exGet :: [exGetDone])) x13 :=
  (run_mid (t1 := exA ++ [exAcq0, exPutE, exDone, exQuiet, exClr0] ++ exB ++ [exAcq1, exGet, exGetDone]) (s := exStore) ex_run).1

/-- hypotheses of `C96_read_partial` and `C96_steady_partial` met: the get of PE 1 delivers the byte -/
example : x13.g.mem 1 0x20040 = x11.g.mem 1 0x20018 :=
  C96_read_partial (T := exT) (p := 1) (t := 1) (b := (0x20040, 0x20018)) exLk_wf exLk_uniform Nat.zero_lt_one x0_start ex_run13
    (Respected.left (t2 := [exStore, exClr1, exEnd]) ex_respected) (Guarded.left (t2 := [exStore, exClr1, exEnd]) ex_guarded) exK_lock
    acq1 (by
      intro u hu
      have hu : u ∈ [exGet, exGetDone] := hu
      simp only [List.mem_cons, List.not_mem_nil, or_false] at hu
      rcases hu with rfl | rfl <;> (rintro ⟨_, h⟩; cases h)) (by
      intro u hu e he _
      have hu : u ∈ [exGet, exGetDone] := hu
      simp only [List.mem_cons, List.not_mem_nil, or_false] at hu
      rcases hu with rfl | rfl
      · cases he; rintro ⟨_, z, hz, hz'⟩; rw [List.mem_singleton] at hz; subst hz; cases hz'
      · cases he; exact fun h => h)
    rfl (List.mem_singleton.2 rfl) (fun z hz _ => List.mem_singleton.1 hz) (fun _ h => (inLock1 h).2)
    (by
      rintro a ⟨r, own, ha⟩
      rcases ha with ⟨y, hy, _, h⟩ | ⟨_, h⟩
      · exfalso
        have : x11.g.fly r = [] := by
          show Function.update (Function.update (Function.update (fun _ => []) 0 _) 0 _) 0 _ r = []
          rw [upd_at, upd_at, upd_at]
          split <;> rfl
        have hy : y ∈ x11.g.fly r := hy
        rw [this] at hy; cases hy
      · exfalso
        have : x11.g.busy r = [] := by
          show Function.update (Function.update (fun _ => []) 0 _) 0 _ r = []
          rw [upd_at, upd_at]
          split
          · rfl
          · rfl
        have h : a ∈ x11.g.busy r := h
        rw [this] at h; cases h)
    (by
      intro u hu e he
      rw [List.mem_singleton] at hu
      subst hu
      cases he; exact fun h => h) rfl

/-- hypotheses of `C96_write_partial` met: when PE 0 clears the lock its put has arrived -/
example : x6.g.mem 1 0x20018 = x3.g.mem 0 0x10020 :=
  C96_write_partial (T := exT) (l := 0) (t1 := exA ++ [exAcq0]) (s := exPutE) (t2 := [exDone, exQuiet]) (c := exClr0) (p := 0) (t := 1)
    (b := (0x20018, 0x10020)) (t3 := exB ++ [exAcq1, exGet, exGetDone, exStore, exClr1, exEnd]) exLk_wf exLk_uniform Nat.zero_lt_one x0_start ex_run
    ex_respected ex_guarded exK_lock rfl (List.mem_singleton.2 rfl) (fun z hz _ => List.mem_singleton.1 hz) (noWriter_init _ _) clr0 (by
      intro u hu
      simp only [List.mem_cons, List.not_mem_nil, or_false] at hu
      rcases hu with rfl | rfl <;> (rintro ⟨_, h⟩; cases h)) (by
      intro u hu e he _
      simp only [List.mem_cons, List.not_mem_nil, or_false] at hu
      rcases hu with rfl | rfl <;> (cases he; exact fun h => h)) (fun h => by cases h)

/-- hypotheses of `C96_message_partial` met: PE 1 receives the byte of PE 0 -/
example : x13.g.mem 1 0x20040 = x3.g.mem 0 0x10020 := by
  have rest : ∀ u ∈ [exGet, exGetDone], ∀ e, u.ev = .rma e → ¬ e.writes (1, 0x20018) := by
    intro u hu e he
    simp only [List.mem_cons, List.not_mem_nil, or_false] at hu
    rcases hu with rfl | rfl
    · cases he; rintro ⟨_, z, hz, hz'⟩; rw [List.mem_singleton] at hz; subst hz; cases hz'
    · cases he; exact fun h => h
  refine C96_message_partial (T := exT) (l := 0) (q := 0) (p := 1) (t := 1) (nbi := false) (t1 := exA) (a0 := exAcq0) (t2 := []) (pu := exPutE)
    (t3 := [exDone, exQuiet]) (c0 := exClr0) (t4 := exB) (a1 := exAcq1) (t5 := []) (ge := exGet) (t6 := [exGetDone]) (mid := 0x20018)
    exLk_wf exLk_uniform rfl Nat.zero_lt_one x0_start ex_run13
    (Respected.left (t2 := [exStore, exClr1, exEnd]) ex_respected) (Guarded.left (t2 := [exStore, exClr1, exEnd]) ex_guarded) exK_lock
    acq0 clr0 ?_ rfl (List.mem_singleton.2 rfl) (fun z hz _ => List.mem_singleton.1 hz) ?_ (fun h => by cases h) acq1 ?_ ?_ rfl
    (List.mem_singleton.2 rfl) (fun z hz _ => List.mem_singleton.1 hz) (fun u hu e he _ => rest u hu e he) (fun _ h => (inLock1 h).2) ?_ ?_ rfl
  · intro u hu
    have hu : u ∈ [exPutE, exDone, exQuiet] := hu
    simp only [List.mem_cons, List.not_mem_nil, or_false] at hu
    rcases hu with rfl | rfl | rfl <;> (rintro ⟨_, h⟩; cases h)
  · intro u hu e he _
    have hu : u ∈ [exDone, exQuiet] := hu
    simp only [List.mem_cons, List.not_mem_nil, or_false] at hu
    rcases hu with rfl | rfl <;> (cases he; exact fun h => h)
  · intro u hu r
    have hu : u ∈ [⟨x7, .lock 0 0 .run [.cleared 0], x8⟩, ⟨x8, .lock 0 1 .callSet [], x9⟩, ⟨x9, .lock 0 1 .run [], x10⟩] := hu
    simp only [List.mem_cons, List.not_mem_nil, or_false] at hu
    rcases hu with rfl | rfl | rfl <;> (rintro ⟨_, _, h, hm⟩; cases h; simp at hm)
  · intro u hu
    have hu : u ∈ [exGet, exGetDone] := hu
    simp only [List.mem_cons, List.not_mem_nil, or_false] at hu
    rcases hu with rfl | rfl <;> (rintro ⟨_, h⟩; cases h)
  · intro u hu e he hw
    have hu : u ∈ [⟨x0, .lock 0 0 .callSet [], x1⟩, ⟨x1, .lock 0 0 .run [], x2⟩, exAcq0, exPutE, exDone, exQuiet, exClr0,
      ⟨x7, .lock 0 0 .run [.cleared 0], x8⟩, ⟨x8, .lock 0 1 .callSet [], x9⟩, ⟨x9, .lock 0 1 .run [], x10⟩, exAcq1] := hu
    simp only [List.mem_cons, List.not_mem_nil, or_false] at hu
    rcases hu with rfl | rfl | rfl | rfl | rfl | rfl | rfl | rfl | rfl | rfl | rfl
    all_goals first
      | (cases he; done)
      | (cases he; obtain ⟨_, z, hz, hz'⟩ := hw; rw [List.mem_singleton] at hz; subst hz; cases hz'; done)
      | (cases he; cases hw; done)
  · intro u hu e he
    rw [List.mem_singleton] at hu
    subst hu
    cases he; exact fun h => h

/-- the one byte as a number -/
def exWord (l : List (BitVec 8)) : BitVec 64 := (l.headD 0).setWidth 64

theorem ex_mem {s : Ent} (hs : s ∈ exTr) : s ∈ [⟨x0, .lock 0 0 .callSet [], x1⟩, ⟨x1, .lock 0 0 .run [], x2⟩, exAcq0, exPutE, exDone, exQuiet, exClr0,
    ⟨x7, .lock 0 0 .run [.cleared 0], x8⟩, ⟨x8, .lock 0 1 .callSet [], x9⟩, ⟨x9, .lock 0 1 .run [], x10⟩,
    exAcq1, exGet, exGetDone, exStore, exClr1, exEnd] := hs

theorem pc_out {T : Sys} {x y : X} {tr : List Ent} (h0 : Start T x) (h : Run T x tr y) {l p : Nat} (hp : T.vis.npes ≤ p) : y.pc l p = .idle := by
  induction h with
  | nil => exact h0.2.1 l p
  | @snoc y z tr ev rr s ih =>
    cases s with
    | @rma e g' hs hc => exact ih
    | @lock l' p' act w ev hl hf hs =>
      refine ((wstep_pc hs).1 l p ?_).trans ih
      rintro ⟨_, rfl⟩
      have := hf.1
      omega

/-- hypotheses of `C96_serial_partial` and `C96_counter_partial` met: both sections increment the byte, in the end it holds 2 -/
example : exWord (bytes (x16.g.mem 1) 0x20018 1) = exWord (bytes (x0.g.mem 1) 0x20018 1) + BitVec.ofNat 64 2 := by
  refine C96_counter_partial (T := exT) (l := 0) (tr := exTr) exLk_wf exLk_uniform Nat.zero_lt_one x0_start ex_run ex_respected ?_ ?_ exWord ?_ ?_
  · intro i hi
    obtain rfl : i = 0 := by omega
    exact ex_guarded
  · intro i hi
    obtain rfl : i = 0 := by omega
    exact exK_lock
  · intro t1 s t2 c t3 p he hs hc _
    have hs1 := ex_mem (s := s) (by rw [he]; simp)
    have hc1 := ex_mem (s := c) (by rw [he]; simp)
    have hs2 : (s = exAcq0 ∧ p = 0) ∨ (s = exAcq1 ∧ p = 1) := by
      obtain ⟨a, ev, h, hm⟩ := hs
      simp only [List.mem_cons, List.not_mem_nil, or_false] at hs1
      rcases hs1 with rfl | rfl | rfl | rfl | rfl | rfl | rfl | rfl | rfl | rfl | rfl | rfl | rfl | rfl | rfl | rfl
      all_goals first
        | (cases h; done)
        | (cases h; simp at hm; done)
        | (cases h; exact Or.inl ⟨rfl, rfl⟩)
        | (cases h; exact Or.inr ⟨rfl, rfl⟩)
    have hc2 : (c = exClr0 ∧ p = 0) ∨ (c = exClr1 ∧ p = 1) := by
      obtain ⟨ev, h⟩ := hc
      simp only [List.mem_cons, List.not_mem_nil, or_false] at hc1
      rcases hc1 with rfl | rfl | rfl | rfl | rfl | rfl | rfl | rfl | rfl | rfl | rfl | rfl | rfl | rfl | rfl | rfl
      all_goals first
        | (cases h; done)
        | (cases h; exact Or.inl ⟨rfl, rfl⟩)
        | (cases h; exact Or.inr ⟨rfl, rfl⟩)
    rcases hs2 with ⟨rfl, rfl⟩ | ⟨rfl, rfl⟩
    · rcases hc2 with ⟨rfl, h⟩ | ⟨rfl, h⟩
      · decide +kernel
      · cases h
    · rcases hc2 with ⟨rfl, h⟩ | ⟨rfl, h⟩
      · cases h
      · decide +kernel
  · intro r
    have h0 : x16.pc 0 0 ≠ .held ∧ x16.pc 0 1 ≠ .held := by decide +kernel
    by_cases e0 : r = 0
    · rw [e0]; exact h0.1
    · by_cases e1 : r = 1
      · rw [e1]; exact h0.2
      · rw [pc_out x0_start ex_run (l := 0) (p := r) (by show 2 ≤ r; omega)]
        decide

/-! ## Without quiet -/

def z5 : X := lk x4 0 .callClear
def z6 : X := lk z5 0 .run
def z7 : X := lk z6 1 .callSet
def z8 : X := lk z7 1 .run
def z9 : X := lk z8 1 .run
def z10 : X := ⟨Vis.after z9.g 1 Order.init [.mv 1 0x20018 1 0x20040], z9.pc⟩
def z11 : X := ⟨{ z10.g with mem := Function.update z10.g.mem 1 (Function.update (z10.g.mem 1) 0x20040 (z10.g.mem 1 0x20018)),
                              busy := Function.update z10.g.busy 1 [] }, z10.pc⟩

theorem u5 : Step exT x4 (.lock 0 0 .callClear [.release 0]) z5 := lk_step (by decide +kernel) ⟨by decide, rfl, rfl⟩
theorem u6 : Step exT z5 (.lock 0 0 .run [.cleared 0]) z6 := lk_step (by decide +kernel) ⟨by decide, rfl, rfl⟩
theorem u7 : Step exT z6 (.lock 0 1 .callSet []) z7 := lk_step (by decide +kernel) ⟨by decide, rfl, rfl⟩
theorem u8 : Step exT z7 (.lock 0 1 .run []) z8 := lk_step (by decide +kernel) ⟨by decide, rfl, rfl⟩
theorem u9 : Step exT z8 (.lock 0 1 .run [.request 1, .acquire 1]) z9 := lk_step (by decide +kernel) ⟨by decide, rfl, rfl⟩

theorem u10 : Step exT z9 (.rma (.get 1 1 false none 0x20018#64 [(0x20040, 0x20018)] 0)) z10 := by
  refine Step.rma (Vis.Step.get 1 1 false none 0x20018#64 0x20040#64 1 true .rel 1 1 (Ty.basic 1) (Ty.basic 1) _
    Order.init ⟨by decide, rfl, rfl⟩ (fun h => by cases h) rfl ?_ (done_nil rfl)) ?_
  · rw [if_neg (by decide)]
    exact ⟨0x20018#64, by decide +kernel, by decide +kernel⟩
  · intro p hp
    cases hp
    decide +kernel

theorem u11 : Step exT z10 (.rma (.done 1 (.mv 1 0x20018 1 0x20040) 0)) z11 := by
  refine Step.rma (Vis.Step.performBusy 1 [] [] (.mv 1 0x20018 1 0x20040) _ (by decide) rfl rfl) ?_
  intro p hp; cases hp

/-- C96 is FALSE of the code without the quiet (OpenSHMEM wants `shmem_clear_lock` to make the stores of the critical section visible;
lock_impl.h L83-136 completes nothing): PE 0 gets the lock, makes a blocking put of one byte with value 1, and clears the lock; then PE 1
gets it, gets the byte with a blocking get, and receives 0. -/
theorem C96_fails : ∃ (T : Sys) (x y : X) (a0 pu c0 a1 ge : Ent) (t1 t2 t3 : List Ent), T.lk.WF ∧ T.lk.Uniform ∧ Start T x ∧
    Run T x (t1 ++ [a0, pu, c0] ++ t2 ++ [a1, ge] ++ t3) y ∧ Acquires 0 0 a0 ∧
    pu.ev = .rma (.put 0 1 false none 0x10018#64 [(0x20018, 0x10020)] 0) ∧ pu.pre.g.mem 0 0x10020 = 1 ∧ Clears 0 0 c0 ∧
    Acquires 0 1 a1 ∧ ge.ev = .rma (.get 1 1 false none 0x20018#64 [(0x20040, 0x20018)] 0) ∧ y.g.busy 1 = [] ∧ y.pc 0 1 = .held ∧
    y.g.mem 1 0x20040 = 0 := by
  refine ⟨exT, x0, z11, exAcq0, exPutE, ⟨x4, .lock 0 0 .callClear [.release 0], z5⟩,
    ⟨z8, .lock 0 1 .run [.request 1, .acquire 1], z9⟩, ⟨z9, .rma (.get 1 1 false none 0x20018#64 [(0x20040, 0x20018)] 0), z10⟩, exA,
    [⟨z5, .lock 0 0 .run [.cleared 0], z6⟩, ⟨z6, .lock 0 1 .callSet [], z7⟩, ⟨z7, .lock 0 1 .run [], z8⟩],
    [⟨z10, .rma (.done 1 (.mv 1 0x20018 1 0x20040) 0), z11⟩], exLk_wf, exLk_uniform, x0_start, ?_, acq0, rfl, by decide +kernel, ⟨_, rfl⟩,
    ⟨_, _, rfl, by simp⟩, rfl, rfl, by decide +kernel, by decide +kernel⟩
  exact cons_run s1 (cons_run s2 (cons_run s3 (cons_run s4 (cons_run u5 (cons_run u6 (cons_run u7 (cons_run u8 (cons_run u9 (cons_run u10
    (cons_run u11 (Run.nil _)))))))))))

end Verif.Crit
