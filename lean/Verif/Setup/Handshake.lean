import Verif.Base.CInt
/-!
# Stopping the asynchronous progress thread

`am_cb_async_progress` (`/repo/src/internal/am_impl.c` L49-84) and `am_cb_progress_end` (L150-177) with the asynchronous thread
enabled: the main thread sends a terminate packet to itself, waits on a condition variable for `async_thread_done`, and
destroys condition variable and mutex. Every pthread call is one atomic step; condition waits may wake up spuriously (POSIX).
-/
namespace Verif.Setup.Hs

/-- where the progress thread is: in its loop L60-75 (uses MPI and the library's state); L78; L79; L80; L81; finished -/
inductive A where
  | loop | lock | set | unlock | signal | ended
deriving DecidableEq, Repr

/-- where the main thread is: L158 send; L164 lock; L165 test; L166 call `pthread_cond_wait`; blocked in it; awake, about to
take the mutex again; L168 unlock; L169 destroy the condition variable; L170 destroy the mutex; returned -/
inductive M where
  | send | lock | test | wait | blocked | relock | unlock | dcond | dmutex | ret
deriving DecidableEq, Repr

/-- who -/
inductive Who where
  | async | main
deriving DecidableEq, Repr

/-- packet sent; `async_thread_done`; owner of the mutex; objects still exist; `bad`: a destroyed object was used -/
structure St where
  a : A
  m : M
  sent : Bool
  done : Bool
  own : Option Who
  cond : Bool
  mutex : Bool
  bad : Bool
deriving DecidableEq, Repr

/-- after am_impl.c L132-146 -/
def init : St := ⟨.loop, .send, false, false, none, true, true, false⟩

/-- a step of one of the threads -/
inductive Step : St → St → Prop where
  /-- L61-75: handles other packets; stays in the loop -/
  | poll {s : St} (h : s.a = .loop) : Step s s
  /-- L61-67: the terminate packet -/
  | term {s : St} (h : s.a = .loop) (hs : s.sent = true) : Step s { s with a := .lock }
  /-- L78 -/
  | aLock {s : St} (h : s.a = .lock) (ho : s.own = none) : Step s { s with a := .set, own := some .async, bad := s.bad || !s.mutex }
  /-- L79 -/
  | aSet {s : St} (h : s.a = .set) : Step s { s with a := .unlock, done := true }
  /-- L80 -/
  | aUnlock {s : St} (h : s.a = .unlock) : Step s { s with a := .signal, own := none, bad := s.bad || !s.mutex }
  /-- L81 `pthread_cond_signal`, wakes the main thread if it waits -/
  | aSignal {s : St} (h : s.a = .signal) :
      Step s { s with a := .ended, m := if s.m = .blocked then .relock else s.m, bad := s.bad || !s.cond }
  /-- L158 -/
  | mSend {s : St} (h : s.m = .send) : Step s { s with m := .lock, sent := true }
  /-- L164 -/
  | mLock {s : St} (h : s.m = .lock) (ho : s.own = none) : Step s { s with m := .test, own := some .main, bad := s.bad || !s.mutex }
  /-- L165 -/
  | mTest {s : St} (h : s.m = .test) : Step s { s with m := if s.done then .unlock else .wait }
  /-- L166, first half: give up the mutex and block -/
  | mWait {s : St} (h : s.m = .wait) : Step s { s with m := .blocked, own := none, bad := s.bad || !(s.mutex && s.cond) }
  /-- spurious wake-up -/
  | mSpurious {s : St} (h : s.m = .blocked) : Step s { s with m := .relock }
  /-- L166, second half -/
  | mRelock {s : St} (h : s.m = .relock) (ho : s.own = none) : Step s { s with m := .test, own := some .main, bad := s.bad || !s.mutex }
  /-- L168 -/
  | mUnlock {s : St} (h : s.m = .unlock) : Step s { s with m := .dcond, own := none, bad := s.bad || !s.mutex }
  /-- L169 -/
  | mDcond {s : St} (h : s.m = .dcond) : Step s { s with m := .dmutex, cond := false }
  /-- L170 -/
  | mDmutex {s : St} (h : s.m = .dmutex) : Step s { s with m := .ret, mutex := false }

/-- executions -/
inductive Reach : St → Prop where
  | init : Reach init
  | step {s s' : St} (h : Reach s) (e : Step s s') : Reach s'

/-- main has seen `async_thread_done` -/
def M.past : M → Bool
  | .unlock => true
  | .dcond => true
  | .dmutex => true
  | .ret => true
  | .send => false
  | .lock => false
  | .test => false
  | .wait => false
  | .blocked => false
  | .relock => false

/-- the progress thread is past the store -/
def A.past : A → Bool
  | .unlock => true
  | .signal => true
  | .ended => true
  | .loop => false
  | .lock => false
  | .set => false

/-- the main thread holds the mutex -/
def M.holds : M → Bool
  | .test => true
  | .wait => true
  | .unlock => true
  | .send => false
  | .lock => false
  | .blocked => false
  | .relock => false
  | .dcond => false
  | .dmutex => false
  | .ret => false

/-- the progress thread holds the mutex -/
def A.holds : A → Bool
  | .set => true
  | .unlock => true
  | .loop => false
  | .lock => false
  | .signal => false
  | .ended => false

/-- invariant -/
structure Inv (s : St) : Prop where
  done : s.done = s.a.past
  mpast : s.m.past = true → s.a = .signal ∨ s.a = .ended
  own : s.own = if s.a.holds then some .async else if s.m.holds then some .main else none
  excl : ¬(s.a.holds = true ∧ s.m.holds = true)
  sent : s.sent = decide (s.m ≠ .send)
  loop : s.sent = false → s.a = .loop
  cond : s.cond = !(decide (s.m = .dmutex) || decide (s.m = .ret))
  mutex : s.mutex = !decide (s.m = .ret)
  bad : s.a ≠ .ended → s.bad = false
  wait : s.m = .blocked → s.a ≠ .ended
  waitm : s.m = .wait → s.a ≠ .ended ∧ s.a ≠ .signal

theorem inv_init : Inv init := by
  constructor <;> simp [init, A.past, M.past, A.holds, M.holds]

theorem inv_step {s s' : St} (h : Inv s) (e : Step s s') : Inv s' := by
  obtain ⟨h1, h2, h3, h4, h5, h6, h7, h8, h9, h10, h11⟩ := h
  obtain ⟨a, m, sent, done, own, cond, mutex, bad⟩ := s
  dsimp only at h1 h2 h3 h4 h5 h6 h7 h8 h9 h10 h11
  cases e with
  | poll h => exact ⟨h1, h2, h3, h4, h5, h6, h7, h8, h9, h10, h11⟩
  | term h hs => subst h; cases m <;> constructor <;> simp_all [A.past, M.past, A.holds, M.holds]
  | aLock h ho => subst h; cases m <;> constructor <;> simp_all [A.past, M.past, A.holds, M.holds]
  | aSet h => subst h; cases m <;> constructor <;> simp_all [A.past, M.past, A.holds, M.holds]
  | aUnlock h => subst h; cases m <;> constructor <;> simp_all [A.past, M.past, A.holds, M.holds]
  | aSignal h => subst h; cases m <;> constructor <;> simp_all [A.past, M.past, A.holds, M.holds]
  | mSend h => subst h; cases a <;> constructor <;> simp_all [A.past, M.past, A.holds, M.holds]
  | mLock h ho => subst h; cases a <;> constructor <;> simp_all [A.past, M.past, A.holds, M.holds]
  | mTest h => subst h; cases a <;> constructor <;> simp_all [A.past, M.past, A.holds, M.holds]
  | mWait h => subst h; cases a <;> constructor <;> simp_all [A.past, M.past, A.holds, M.holds]
  | mSpurious h => subst h; cases a <;> constructor <;> simp_all [A.past, M.past, A.holds, M.holds]
  | mRelock h ho => subst h; cases a <;> constructor <;> simp_all [A.past, M.past, A.holds, M.holds]
  | mUnlock h => subst h; cases a <;> constructor <;> simp_all [A.past, M.past, A.holds, M.holds]
  | mDcond h => subst h; cases a <;> constructor <;> simp_all [A.past, M.past, A.holds, M.holds]
  | mDmutex h => subst h; cases a <;> constructor <;> simp_all [A.past, M.past, A.holds, M.holds]

theorem inv_reach {s : St} (h : Reach s) : Inv s := by
  induction h with
  | init => exact inv_init
  | step _ e ih => exact inv_step ih e

/-- **C59, safety.** When the part of finalize that stops the progress thread has returned, and already when it starts to
destroy anything, the progress thread has left its loop for good: it will not call MPI or a packet handler any more, nor touch
the mutex; the only thing it may still do is the signal of L81. -/
theorem C59_stopped {s : St} (h : Reach s) (hm : s.m = .dcond ∨ s.m = .dmutex ∨ s.m = .ret) :
    s.done = true ∧ (s.a = .signal ∨ s.a = .ended) := by
  have hI := inv_reach h
  have : s.a = .signal ∨ s.a = .ended := by
    apply hI.mpast
    rcases hm with hm | hm | hm <;> rw [hm] <;> rfl
  refine ⟨?_, this⟩
  rw [hI.done]
  rcases this with k | k <;> rw [k] <;> rfl

/-- **C59, use after destruction (partial).** No destroyed object is used as long as the progress thread has not executed its
final signal. Missing: the signal itself, see `C59_signal_fails`. -/
theorem C59_objects_partial {s : St} (h : Reach s) (ha : s.a ≠ .ended) : s.bad = false := (inv_reach h).bad ha

/-- execution from a state -/
inductive Steps : St → St → Prop where
  | refl {s : St} : Steps s s
  | tail {s t u : St} (h : Steps s t) (e : Step t u) : Steps s u

theorem Steps.head {s t u : St} (e : Step s t) (h : Steps t u) : Steps s u := by
  induction h with
  | refl => exact .tail .refl e
  | tail _ e' ih => exact .tail ih e'

/-- distance to the end -/
def A.rank : A → Nat
  | .loop => 50 | .lock => 40 | .set => 30 | .unlock => 20 | .signal => 10 | .ended => 0
/-- distance to the end -/
def M.rank : M → Nat
  | .send => 9 | .lock => 8 | .relock => 8 | .test => 7 | .wait => 6 | .blocked => 5 | .unlock => 4 | .dcond => 3 | .dmutex => 2
  | .ret => 0
/-- distance to the end -/
def St.rank (s : St) : Nat := s.a.rank + s.m.rank

/-- Never stuck, and no step but idle polling and spurious wake-ups leads away from the end: finalize returns under any fair
scheduling. -/
theorem C59_progress {s : St} (h : Reach s) (hm : s.m ≠ .ret) : ∃ s', Step s s' ∧ s'.rank < s.rank := by
  have hI := inv_reach h
  obtain ⟨h1, h2, h3, h4, h5, h6, h7, h8, h9, h10, h11⟩ := hI
  obtain ⟨a, m, sent, done, own, cond, mutex, bad⟩ := s
  dsimp only at *
  cases a with
  | set => exact ⟨_, .aSet rfl, by simp [St.rank, A.rank]⟩
  | unlock => exact ⟨_, .aUnlock rfl, by simp [St.rank, A.rank]⟩
  | signal => exact ⟨_, .aSignal rfl, by cases m <;> simp [St.rank, A.rank, M.rank]⟩
  | loop =>
    cases m with
    | send => exact ⟨_, .mSend rfl, by simp [St.rank, A.rank, M.rank]⟩
    | lock => exact ⟨_, .term rfl (by simp_all), by simp [St.rank, A.rank, M.rank]⟩
    | test => exact ⟨_, .term rfl (by simp_all), by simp [St.rank, A.rank, M.rank]⟩
    | wait => exact ⟨_, .term rfl (by simp_all), by simp [St.rank, A.rank, M.rank]⟩
    | blocked => exact ⟨_, .term rfl (by simp_all), by simp [St.rank, A.rank, M.rank]⟩
    | relock => exact ⟨_, .term rfl (by simp_all), by simp [St.rank, A.rank, M.rank]⟩
    | unlock => simp_all [M.past]
    | dcond => simp_all [M.past]
    | dmutex => simp_all [M.past]
    | ret => exact absurd rfl hm
  | lock =>
    cases m with
    | test => exact ⟨_, .mTest rfl, by simp_all [St.rank, M.rank, A.past]⟩
    | wait => exact ⟨_, .mWait rfl, by simp [St.rank, M.rank]⟩
    | send => exact ⟨_, .mSend rfl, by simp [St.rank, A.rank, M.rank]⟩
    | lock => exact ⟨_, .aLock rfl (by simp_all [A.holds, M.holds]), by simp [St.rank, A.rank]⟩
    | blocked => exact ⟨_, .aLock rfl (by simp_all [A.holds, M.holds]), by simp [St.rank, A.rank]⟩
    | relock => exact ⟨_, .aLock rfl (by simp_all [A.holds, M.holds]), by simp [St.rank, A.rank]⟩
    | unlock => simp_all [M.past]
    | dcond => simp_all [M.past]
    | dmutex => simp_all [M.past]
    | ret => exact absurd rfl hm
  | ended =>
    cases m with
    | send => simp_all
    | lock => exact ⟨_, .mLock rfl (by simp_all [A.holds, M.holds]), by simp [St.rank, M.rank]⟩
    | test => exact ⟨_, .mTest rfl, by simp_all [St.rank, M.rank, A.past]⟩
    | wait => simp_all
    | blocked => simp_all
    | relock => exact ⟨_, .mRelock rfl (by simp_all [A.holds, M.holds]), by simp [St.rank, M.rank]⟩
    | unlock => exact ⟨_, .mUnlock rfl, by simp [St.rank, M.rank]⟩
    | dcond => exact ⟨_, .mDcond rfl, by simp [St.rank, M.rank]⟩
    | dmutex => exact ⟨_, .mDmutex rfl, by simp [St.rank, M.rank]⟩
    | ret => exact absurd rfl hm

/-- **C59, termination.** From every reachable state finalize can still return. -/
theorem C59_return {s : St} (h : Reach s) : ∃ s', Steps s s' ∧ s'.m = .ret := by
  generalize hr : s.rank = r
  induction r using Nat.strongRecOn generalizing s with
  | _ r ih =>
    by_cases hm : s.m = .ret
    · exact ⟨s, .refl, hm⟩
    · obtain ⟨t, e, hlt⟩ := C59_progress h hm
      obtain ⟨u, hs, hu⟩ := ih t.rank (hr ▸ hlt) (.step h e) rfl
      exact ⟨u, .head e hs, hu⟩

/-- the main thread waits, the progress thread ends: the normal course -/
example : Reach ⟨.ended, .ret, true, true, none, false, false, false⟩ := by
  refine .step (.step (.step (.step (.step (.step (.step (.step (.step (.step (.step (.step (.step (.step .init
    (.mSend rfl)) (.mLock rfl rfl)) (.mTest rfl)) (.mWait rfl)) (.term rfl rfl)) (.aLock rfl rfl)) (.aSet rfl)) (.aUnlock rfl))
    (.aSignal rfl)) (.mRelock rfl rfl)) (.mTest rfl)) (.mUnlock rfl)) (.mDcond rfl)) (.mDmutex rfl)

/-- **C59 fails.** The progress thread unlocks the mutex (L80) before it signals (L81). If the main thread gets to L164 in
between, it sees `async_thread_done`, does not wait, and destroys the condition variable, which the progress thread then
signals. -/
theorem C59_signal_fails : ∃ s, Reach s ∧ s.bad = true :=
  ⟨_, .step (.step (.step (.step (.step (.step (.step (.step (.step (.step .init
    (.mSend rfl)) (.term rfl rfl)) (.aLock rfl rfl)) (.aSet rfl)) (.aUnlock rfl)) (.mLock rfl rfl)) (.mTest rfl)) (.mUnlock rfl))
    (.mDcond rfl)) (.aSignal rfl), rfl⟩

end Verif.Setup.Hs
