import Verif.Serve.Props

/-!
# C101: calls return in fair executions

`C83` says in which states the job is stuck.  Here: infinite executions in which no PE and no
packet is neglected for ever.  A PE that could make a step of its own is given one (the operating
system runs it, MPI completes what it may complete), and a packet for a PE that looks for packets
again and again arrives there some time.  Both are assumptions on the environment, not on the
library.

The loops that wait (am_progress_impl.h L16-L23, L61-L66, p2p_impl.h L46-L56, lock_impl.h L70-L80) look
for packets only after they found their condition false, and `shmem_test` only if it returns false (p2p_impl.h L77-L79).  So a
blocking call is counted as looking for packets only if the PE stays in it for ever.  The call
`test` of the model stands for a `shmem_test` that returns false; one that returns true is a
`local'`.
-/

namespace Verif.Serve

variable {M : Type}

/-- An infinite execution: at each instant nothing happens or one step (not code: the runs of
the model). -/
structure Exec (S : Cfg) (prog : Nat → Nat → M → Call M) (free : Bool) (m : M) where
  st : Nat → Job M
  start : st 0 = Job.init m
  next : ∀ i, st (i + 1) = st i ∨ Step S prog free (st i) (st (i + 1))

/-- PE `p` can make a step of its own: it is not waiting for an answer, not inside a collective
that MPI does not complete yet, not in a wait loop whose condition is false, and not through
`shmem_finalize`. -/
def Ready (S : Cfg) (g : Job M) (p : Nat) : Prop :=
  match (g.pe p).rem with
  | [] => True
  | .act _ :: _ => True
  | .poll :: _ => True
  | .send _ _ _ :: _ => (g.pe p).waiting = false
  | .coll c k :: _ =>
    (g.pe p).inside = false ∨ S.ready k (S.members c) (entered g c p) p = true
  | .wait b :: _ => b g.mem = true
  | .stop :: _ => False

/-- The step from `g` to `g'` is PE `t` handling the packet `x`. -/
def Handles (g g' : Job M) (t : Nat) (x : Msg M) : Prop :=
  ∃ a b, g.fly t = a ++ x :: b ∧ (∀ y ∈ a, y.src ≠ x.src) ∧
    g' = ⟨x.f g.mem, if x.reply then upd g.pe x.src (g.pe x.src).answered else g.pe,
      upd g.fly t (a ++ b), g.cnt⟩

/-- PE `t` is at the call of `OSHMPI_am_cb_progress` in an unsuccessful `shmem_test`
(p2p_impl.h L79). -/
def AtPoll (g : Job M) (t : Nat) : Prop := ∃ l, (g.pe t).rem = .poll :: l

/-- PE `t` looks for packets again and again: it makes infinitely many unsuccessful tests, or is
blocked for ever in one loop that looks for packets. -/
def Exec.Polls {S : Cfg} {prog : Nat → Nat → M → Call M} {free : Bool} {m : M}
    (R : Exec S prog free m) (t : Nat) : Prop :=
  (∀ i, ∃ j, i ≤ j ∧ AtPoll (R.st j) t) ∨
    ((∃ k, ∀ j, k ≤ j → (R.st j).pe t = (R.st k).pe t) ∧ ∀ i, ∃ j, i ≤ j ∧ Serving (R.st j) t)

/-- Fairness of the environment.  `pe`: a PE that can go on from some time on does.  `packet`:
if there is always a packet of `s` for `t`, and `t` (or its asynchronous thread) looks for
packets again and again, it handles one.  PEs through `shmem_finalize` need handle nothing. -/
structure Exec.Fair {S : Cfg} {prog : Nat → Nat → M → Call M} {free : Bool} {m : M}
    (R : Exec S prog free m) : Prop where
  pe : ∀ p, p < S.n → ∀ i, (∀ j, i ≤ j → Ready S (R.st j) p) →
    ∃ j, i ≤ j ∧ (R.st (j + 1)).pe p ≠ (R.st j).pe p
  packet : ∀ t, t < S.n → ∀ s i,
    (∀ j, i ≤ j → (∃ x ∈ (R.st j).fly t, x.src = s) ∧ ((R.st j).pe t).rem ≠ [.stop]) →
    (free = true ∨ S.async = true ∨ R.Polls t) →
    ∃ j x, i ≤ j ∧ x.src = s ∧ Handles (R.st j) (R.st (j + 1)) t x

/-! ## What a step does to one PE -/

/-- What a step does to PE `p`; `fl` are the packets under way afterwards. -/
inductive Moved (S : Cfg) (prog : Nat → Nat → M → Call M) (g : Job M) (p : Nat) (q : Pe M)
    (fl : Nat → List (Msg M)) : Prop
  | same (h : q = g.pe p)
  | start (h : (g.pe p).rem = []) (e : q = begin' S (g.pe p) (prog p (g.pe p).calls g.mem))
  | act (f : M → M) (l : List (Prim M)) (h : (g.pe p).rem = .act f :: l)
      (e : q = { g.pe p with rem := l })
  | poll (l : List (Prim M)) (h : (g.pe p).rem = .poll :: l) (e : q = { g.pe p with rem := l })
  | send (t : Nat) (f : M → M) (r : Bool) (l : List (Prim M))
      (h : (g.pe p).rem = .send t f r :: l) (hw : (g.pe p).waiting = false)
      (e : q = if r then { g.pe p with waiting := true } else { g.pe p with rem := l })
      (hf : ⟨p, f, r⟩ ∈ fl t)
  | answer (t : Nat) (f : M → M) (l : List (Prim M)) (h : (g.pe p).rem = .send t f true :: l)
      (hw : (g.pe p).waiting = true) (e : q = { g.pe p with waiting := false, rem := l })
  | enter (c : Comm) (k : Mpi) (l : List (Prim M)) (h : (g.pe p).rem = .coll c k :: l)
      (hi : (g.pe p).inside = false) (e : q = { g.pe p with inside := true })
  | leave (c : Comm) (k : Mpi) (l : List (Prim M)) (h : (g.pe p).rem = .coll c k :: l)
      (hi : (g.pe p).inside = true) (e : q = { g.pe p with inside := false, rem := l })
  | pass (b : M → Bool) (l : List (Prim M)) (h : (g.pe p).rem = .wait b :: l)
      (hb : b g.mem = true) (e : q = { g.pe p with rem := l })

theorem moved {S : Cfg} {prog : Nat → Nat → M → Call M} {free : Bool} {g g' : Job M}
    (I : Inv S g) (h : Step S prog free g g') (p : Nat) : Moved S prog g p (g'.pe p) g'.fly := by
  have go : ∀ (r : Nat) (q : Pe M) (fl : Nat → List (Msg M)), (r = p → Moved S prog g p q fl) →
      Moved S prog g p (upd g.pe r q p) fl := by
    intro r q fl hq
    by_cases e : p = r
    · subst e; rw [upd_same]; exact hq rfl
    · rw [upd_ne _ _ e]; exact .same rfl
  cases h with
  | start r hr h => exact go r _ _ (fun e => by subst e; exact .start h rfl)
  | act r hr f l h => exact go r _ _ (fun e => by subst e; exact .act f l h rfl)
  | poll r hr l h => exact go r _ _ (fun e => by subst e; exact .poll l h rfl)
  | send r hr t f b l h hw => exact go r _ _ (fun e => by subst e; exact .send t f b l h hw rfl (by
      show _ ∈ upd g.fly t _ t
      rw [upd_same]
      exact List.mem_append_right _ List.mem_cons_self))
  | handle t ht a b x h hf hs =>
    cases hx : x.reply with
    | false => rw [if_neg nofun]; exact .same rfl
    | true =>
      rw [if_pos rfl]
      refine go x.src _ _ (fun e => ?_)
      subst e
      obtain ⟨h1, l, h2⟩ := I.req t x (h ▸ List.mem_append_right _ List.mem_cons_self) hx
      exact .answer t x.f l h2 h1 (by unfold Pe.answered; rw [h2]; rfl)
  | enter r hr c k l h hi => exact go r _ _ (fun e => by subst e; exact .enter c k l h hi rfl)
  | leave r hr c k l h hi _ => exact go r _ _ (fun e => by subst e; exact .leave c k l h hi rfl)
  | pass r hr b l h hb => exact go r _ _ (fun e => by subst e; exact .pass b l h hb rfl)

section
variable {S : Cfg} {prog : Nat → Nat → M → Call M} {free : Bool} {m : M} (R : Exec S prog free m)

theorem Exec.run (i : Nat) : Run S prog free (.init m) (R.st i) := by
  induction i with
  | zero => rw [R.start]; exact .refl _
  | succ i ih =>
    rcases R.next i with h | h
    · rw [h]; exact ih
    · exact .step _ _ _ ih h

theorem Exec.inv (L : S.Mpi) (i : Nat) : Inv S (R.st i) := inv_run L (R.run i)

theorem Exec.moved (L : S.Mpi) (i p : Nat) : Moved S prog (R.st i) p ((R.st (i + 1)).pe p) (R.st (i + 1)).fly := by
  rcases R.next i with h | h
  · rw [h]; exact .same rfl
  · exact Serve.moved (R.inv L i) h p

/-- A PE that does not stay as it is has a first change. -/
theorem Exec.change {p i : Nat} (h : ∃ j, i ≤ j ∧ (R.st j).pe p ≠ (R.st i).pe p) :
    ∃ j, i ≤ j ∧ (∀ j', i ≤ j' → j' ≤ j → (R.st j').pe p = (R.st i).pe p) ∧
      (R.st (j + 1)).pe p ≠ (R.st i).pe p := by
  obtain ⟨j, hj, hne⟩ := h
  have key : ∀ d, (∀ j', i ≤ j' → j' ≤ i + d → (R.st j').pe p = (R.st i).pe p) ∨
      ∃ j, i ≤ j ∧ (∀ j', i ≤ j' → j' ≤ j → (R.st j').pe p = (R.st i).pe p) ∧
        (R.st (j + 1)).pe p ≠ (R.st i).pe p := by
    intro d
    induction d with
    | zero => exact .inl fun j' h1 h2 => by rw [show j' = i by omega]
    | succ d ih =>
      rcases ih with ih | ih
      · by_cases e : (R.st (i + d + 1)).pe p = (R.st i).pe p
        · refine .inl fun j' h1 h2 => ?_
          by_cases e' : j' = i + d + 1
          · rw [e']; exact e
          · exact ih j' h1 (by omega)
        · exact .inr ⟨i + d, by omega, ih, e⟩
      · exact .inr ih
  obtain ⟨d, rfl⟩ := Nat.exists_eq_add_of_le hj
  exact (key d).resolve_left fun h => hne (h _ hj (Nat.le_refl _))

/-- A PE that can go on as long as it stays as it is goes on. -/
theorem Exec.goes {R : Exec S prog free m} (F : R.Fair) {p i : Nat} (hp : p < S.n)
    (h : ∀ j, i ≤ j → (R.st j).pe p = (R.st i).pe p → Ready S (R.st j) p) :
    ∃ j, i ≤ j ∧ (∀ j', i ≤ j' → j' ≤ j → (R.st j').pe p = (R.st i).pe p) ∧
      (R.st (j + 1)).pe p ≠ (R.st i).pe p := by
  by_cases hc : ∃ j, i ≤ j ∧ (R.st j).pe p ≠ (R.st i).pe p
  · exact R.change hc
  · have same : ∀ j, i ≤ j → (R.st j).pe p = (R.st i).pe p := fun j hj =>
      Classical.byContradiction fun e => hc ⟨j, hj, e⟩
    obtain ⟨j, hj, hne⟩ := F.pe p hp i (fun j hj => h j hj (same j hj))
    rw [same j hj] at hne
    exact ⟨j, hj, fun j' h _ => same j' h, hne⟩

/-! ## A PE that has not finished looks for packets again and again -/

/-- Calls after which the PE does not make infinitely many further calls without looking for packets: an unsuccessful test, and
the call that ends the program. -/
def Call.Loud : Call M → Prop
  | .test _ => True
  | .finalize => True
  | .local' _ => False
  | .putAm _ _ => False
  | .getAm _ _ => False
  | .amoPostAm _ _ => False
  | .amoFetchAm _ _ => False
  | .quiet => False
  | .barrierAll => False
  | .syncAll => False
  | .alloc _ => False
  | .free _ => False
  | .waitUntil _ => False
  | .setLock _ _ => False
  | .clearLock _ _ _ => False
  | .testLock _ => False
  | .teamColl _ _ => False
  | .teamSplit _ => False
  | .teamSplit2d _ => False
  | .teamDestroy _ => False
  | .asetBarrier _ _ _ => False
  | .asetColl _ _ _ _ => False
  | .asetBcastOut _ _ _ _ => False
  | .spaceAttach _ => False
  | .spaceDetach _ => False

/-- On every path through the program PE `p` finalizes or makes infinitely many unsuccessful tests.  In
particular every program that makes finitely many calls on each path does so. -/
def Loudly (prog : Nat → Nat → M → Call M) (p : Nat) : Prop :=
  ∀ (v : Nat → M) (k : Nat), ∃ k', k ≤ k' ∧ (prog p k' (v k')).Loud

/-- Every call of the program is one during which the PE handles packets while it is blocked. -/
def Serves (S : Cfg) (prog : Nat → Nat → M → Call M) (m : M) : Prop :=
  ∀ h p, Run S prog false (.init m) h → p < S.n → (h.pe p).rem = [] →
    (prog p (h.pe p).calls h.mem).Serves S (h.pe p).known

/-- The two ways in which packets are handled: the asynchronous thread, or calls that handle
packets while they block, by PEs that do not make silent calls for ever. -/
def Live (S : Cfg) (prog : Nat → Nat → M → Call M) (m : M) : Prop :=
  S.async = true ∨ (Serves S prog m ∧ ∀ p, p < S.n → Loudly prog p)

/-- primitives at which a PE looks for packets in any case, or ends -/
def Prim.loud : Prim M → Prop
  | .act _ => False
  | .poll => True
  | .send _ _ _ => False
  | .coll _ _ => False
  | .wait _ => False
  | .stop => True

theorem expand_loud (S : Cfg) (kn : List (Nat × Nat × Nat)) (out : Nat → Bool) (c : Call M)
    (h : c.Loud) : ∃ x ∈ expand S kn out c, x.loud := by
  cases c with
  | test f => exact ⟨_, List.mem_cons_of_mem _ List.mem_cons_self, trivial⟩
  | finalize => exact ⟨_, List.mem_cons_of_mem _ List.mem_cons_self, trivial⟩
  | local' _ => exact h.elim
  | putAm _ _ => exact h.elim
  | getAm _ _ => exact h.elim
  | amoPostAm _ _ => exact h.elim
  | amoFetchAm _ _ => exact h.elim
  | quiet => exact h.elim
  | barrierAll => exact h.elim
  | syncAll => exact h.elim
  | alloc _ => exact h.elim
  | free _ => exact h.elim
  | waitUntil _ => exact h.elim
  | setLock _ _ => exact h.elim
  | clearLock _ _ _ => exact h.elim
  | testLock _ => exact h.elim
  | teamColl _ _ => exact h.elim
  | teamSplit _ => exact h.elim
  | teamSplit2d _ => exact h.elim
  | teamDestroy _ => exact h.elim
  | asetBarrier _ _ _ => exact h.elim
  | asetColl _ _ _ _ => exact h.elim
  | asetBcastOut _ _ _ _ => exact h.elim
  | spaceAttach _ => exact h.elim
  | spaceDetach _ => exact h.elim

/-- A PE that neither looks for packets nor has finished can go on. -/
theorem ready_of {g : Job M} {p : Nat} (I : Inv S g) (ho : ∀ x ∈ (g.pe p).rem, x.open')
    (hs : ¬ Serving g p) (hd : (g.pe p).rem ≠ [.stop]) : Ready S g p := by
  cases hrem : (g.pe p).rem with
  | nil => unfold Ready; rw [hrem]; trivial
  | cons y l =>
    unfold Ready; rw [hrem]
    unfold Serving at hs; rw [hrem] at hs
    cases y with
    | act f => trivial
    | poll => trivial
    | send u f r =>
      dsimp only
      cases hw : (g.pe p).waiting with
      | false => rfl
      | true => exact absurd hw hs
    | coll c k =>
      cases hi : (g.pe p).inside with
      | false => exact .inl rfl
      | true => exact absurd ⟨hi, ho (.coll c k) (hrem ▸ List.mem_cons_self)⟩ hs
    | wait b =>
      cases hv : b g.mem with
      | true => exact hv
      | false => exact absurd hv hs
    | stop =>
      rcases I.tail p with e | e | e
      · rw [hrem, List.cons.injEq] at e; exact absurd e.1 nofun
      · exact absurd e hd
      · rw [hrem] at e; exact (e _ List.mem_cons_self).elim

/-- how much is left of a call -/
def left (q : Pe M) : Nat :=
  3 * q.rem.length + (if q.inside then 0 else 1) + if q.waiting then 0 else 1

/-- A PE that goes on for ever starts a further call. -/
theorem next_call {R : Exec S prog free m} (L : S.Mpi) {p : Nat}
    (hg : ∀ i, ∃ j, i ≤ j ∧ (R.st j).pe p ≠ (R.st i).pe p) (w j : Nat)
    (hw : left ((R.st j).pe p) ≤ w) :
    ∃ j', j ≤ j' ∧ ((R.st j').pe p).rem = [] ∧ ((R.st j').pe p).calls = ((R.st j).pe p).calls ∧
      (R.st (j' + 1)).pe p =
        begin' S ((R.st j').pe p) (prog p ((R.st j').pe p).calls (R.st j').mem) := by
  induction w generalizing j with
  | zero =>
    exfalso
    have hr : ((R.st j).pe p).rem = [] := by
      unfold left at hw
      exact List.length_eq_zero_iff.mp (by omega)
    have hi : ((R.st j).pe p).inside = true := by
      unfold left at hw
      cases h : ((R.st j).pe p).inside with
      | true => rfl
      | false => rw [h] at hw; simp at hw
    obtain ⟨c, k, l, e⟩ := (R.inv L j).one p hi
    rw [hr] at e; cases e
  | succ w ih =>
    obtain ⟨k, hk, e0, e2⟩ := R.change (hg j)
    have e1 := e0 k hk (Nat.le_refl _)
    have again : ∀ q : Pe M, (R.st (k + 1)).pe p = q → q.calls = ((R.st j).pe p).calls →
        left q < left ((R.st j).pe p) →
        ∃ j', j ≤ j' ∧ ((R.st j').pe p).rem = [] ∧
          ((R.st j').pe p).calls = ((R.st j).pe p).calls ∧
          (R.st (j' + 1)).pe p =
            begin' S ((R.st j').pe p) (prog p ((R.st j').pe p).calls (R.st j').mem) := by
      intro q hq hc hl
      obtain ⟨j', h1, h2, h3, h4⟩ := ih (k + 1) (by rw [hq]; omega)
      exact ⟨j', by omega, h2, by rw [h3, hq, hc], h4⟩
    have mv := R.moved L k p
    rw [← e1] at again ⊢
    cases mv with
    | same h => rw [e1] at h; exact absurd h e2
    | start h e => exact ⟨k, hk, h, rfl, e⟩
    | act f l h e =>
      refine again _ e rfl ?_
      simp only [left, h, List.length_cons]; omega
    | poll l h e =>
      refine again _ e rfl ?_
      simp only [left, h, List.length_cons]; omega
    | send t f r l h hw e hf =>
      cases r with
      | false =>
        refine again _ e rfl ?_
        simp only [left, h, List.length_cons, Bool.false_eq_true, if_false]; omega
      | true =>
        refine again _ e rfl ?_
        simp only [left, hw, if_true, Bool.false_eq_true, if_false]; omega
    | answer t f l h hw e =>
      refine again _ e rfl ?_
      simp only [left, h, hw, List.length_cons, if_true, Bool.false_eq_true, if_false]; omega
    | enter c d l h hi e =>
      refine again _ e rfl ?_
      simp only [left, hi, if_true, Bool.false_eq_true, if_false]; omega
    | leave c d l h hi e =>
      refine again _ e rfl ?_
      simp only [left, h, hi, List.length_cons, if_true, Bool.false_eq_true, if_false]; omega
    | pass b l h hb e =>
      refine again _ e rfl ?_
      simp only [left, h, List.length_cons]; omega

/-- A PE in the middle of a call that has a point to look for packets ahead keeps it ahead until
it looks for packets. -/
theorem loud_stays {R : Exec S prog free m} (L : S.Mpi) {p i : Nat}
    (hs : ∀ j, i ≤ j → ¬ AtPoll (R.st j) p) (d : Nat)
    (h : ∃ x ∈ ((R.st i).pe p).rem, x.loud) : ∃ x ∈ ((R.st (i + d)).pe p).rem, x.loud := by
  induction d with
  | zero => exact h
  | succ d ih =>
    obtain ⟨x, hx, hl⟩ := ih
    have nos := hs (i + d) (Nat.le_add_right _ _)
    have mv := R.moved L (i + d) p
    rw [show i + (d + 1) = i + d + 1 from rfl]
    have drop : ∀ y l, ((R.st (i + d)).pe p).rem = y :: l → ¬ y.loud → x ∈ l := by
      intro y l e hy
      rw [e] at hx
      rcases List.mem_cons.mp hx with rfl | hx
      · exact absurd hl hy
      · exact hx
    cases mv with
    | same h => rw [h]; exact ⟨x, hx, hl⟩
    | start h e => rw [h] at hx; cases hx
    | act f l h e => rw [e]; exact ⟨x, drop _ l h id, hl⟩
    | poll l h e => exact absurd ⟨l, h⟩ nos
    | send t f r l h hw e hf =>
      rw [e]
      cases r with
      | false => exact ⟨x, drop _ l h id, hl⟩
      | true => exact ⟨x, hx, hl⟩
    | answer t f l h hw e => rw [e]; exact ⟨x, drop _ l h id, hl⟩
    | enter c k l h hi e => rw [e]; exact ⟨x, hx, hl⟩
    | leave c k l h hi e => rw [e]; exact ⟨x, drop _ l h id, hl⟩
    | pass b l h hb e => rw [e]; exact ⟨x, drop _ l h id, hl⟩

/-- A PE that makes no further unsuccessful test is blocked or through with everything at some time. -/
theorem settles {R : Exec S prog free m} (L : S.Mpi) {p i : Nat} (hl : Loudly prog p)
    (hs : ∀ j, i ≤ j → ¬ AtPoll (R.st j) p) :
    ∃ k, i ≤ k ∧ ∀ j, k ≤ j → (R.st j).pe p = (R.st k).pe p := by
  refine Classical.byContradiction fun hc => ?_
  have hg : ∀ j, ∃ j', j ≤ j' ∧ (R.st j').pe p ≠ (R.st j).pe p := by
    intro j
    refine Classical.byContradiction fun hn => hc ⟨i + j, by omega, fun k hk => ?_⟩
    have e : ∀ k, j ≤ k → (R.st k).pe p = (R.st j).pe p := fun k hk =>
      Classical.byContradiction fun e => hn ⟨k, hk, e⟩
    rw [e k (by omega), e (i + j) (by omega)]
  have step := fun j => next_call L hg _ j (Nat.le_refl _)
  have all : ∀ d, ∃ j, i ≤ j ∧ ((R.st j).pe p).calls = ((R.st i).pe p).calls + d ∧
      (R.st (j + 1)).pe p =
        begin' S ((R.st j).pe p) (prog p ((R.st j).pe p).calls (R.st j).mem) := by
    intro d
    induction d with
    | zero =>
      obtain ⟨j, h1, -, h3, h4⟩ := step i
      exact ⟨j, h1, h3, h4⟩
    | succ d ih =>
      obtain ⟨j, h1, h2, h3⟩ := ih
      obtain ⟨j', g1, -, g3, g4⟩ := step (j + 1)
      refine ⟨j', by omega, ?_, g4⟩
      rw [g3, h3]
      show ((R.st j).pe p).calls + 1 = _
      rw [h2]; omega
  let v : Nat → M := fun k => (R.st (Classical.choose (all (k - ((R.st i).pe p).calls)))).mem
  obtain ⟨k, hk, hloud⟩ := hl v ((R.st i).pe p).calls
  obtain ⟨h1, h2, h3⟩ := Classical.choose_spec (all (k - ((R.st i).pe p).calls))
  have hv : v k = (R.st (Classical.choose (all (k - ((R.st i).pe p).calls)))).mem := rfl
  revert hv h1 h2 h3
  generalize Classical.choose (all (k - ((R.st i).pe p).calls)) = j
  intro h1 h2 h3 hv
  have hcall : ((R.st j).pe p).calls = k := by rw [h2]; omega
  rw [hcall, ← hv] at h3
  have hx : ∃ x ∈ ((R.st (j + 1)).pe p).rem, x.loud := by
    rw [h3]
    exact expand_loud _ _ _ _ hloud
  obtain ⟨j', g1, g2, -, -⟩ := step (j + 1)
  obtain ⟨d, rfl⟩ := Nat.exists_eq_add_of_le g1
  obtain ⟨x, hx, -⟩ := loud_stays L (fun j' hj' => hs j' (by omega)) d hx
  rw [g2] at hx
  cases hx

/-- A PE that is not through `shmem_finalize` looks for packets again and again. -/
theorem polls {R : Exec S prog free m} (L : S.Mpi) (F : R.Fair) {p i : Nat} (hp : p < S.n)
    (ho : ∀ j, ∀ x ∈ ((R.st j).pe p).rem, x.open') (hl : Loudly prog p)
    (hd : ∀ j, i ≤ j → ((R.st j).pe p).rem ≠ [.stop]) : R.Polls p := by
  by_cases ha : ∀ i, ∃ j, i ≤ j ∧ AtPoll (R.st j) p
  · exact .inl ha
  · obtain ⟨a, ha⟩ := Classical.not_forall.mp ha
    obtain ⟨k, hk, hc⟩ := settles L hl (i := a) (fun j hj e => ha ⟨j, hj, e⟩)
    refine .inr ⟨⟨k, hc⟩, fun b => Classical.byContradiction fun hb => ?_⟩
    obtain ⟨j, hj, hne⟩ := F.pe p hp (i + k + b) (fun j hj =>
      ready_of (R.inv L j) (ho j) (fun e => hb ⟨j, by omega, e⟩) (hd j (by omega)))
    rw [hc j (by omega), hc (j + 1) (by omega)] at hne
    exact hne rfl

theorem Exec.opens (R : Exec S prog false m) (h : Serves S prog m) (p j : Nat) :
    ∀ x ∈ ((R.st j).pe p).rem, x.open' := open_run (R.run j) h p

theorem live {R : Exec S prog free m} (L : S.Mpi) (F : R.Fair)
    (hl : free = true ∨ Live S prog m) {p i : Nat} (hp : p < S.n)
    (hd : ∀ j, i ≤ j → ((R.st j).pe p).rem ≠ [.stop]) :
    free = true ∨ S.async = true ∨ R.Polls p := by
  cases free with
  | true => exact .inl rfl
  | false =>
    rcases hl with h | h | ⟨h1, h2⟩
    · cases h
    · exact .inr (.inl h)
    · exact .inr (.inr (polls L F hp (R.opens h1 p) (h2 p hp) hd))

/-! ## Packets are handled -/

/-- the packets of PE `s` for PE `t`, in order -/
def queue (g : Job M) (t s : Nat) : List (Msg M) := (g.fly t).filter (fun x => decide (x.src = s))

theorem queue_step {g g' : Job M} (h : Step S prog free g g') (t s : Nat) :
    (∃ b, queue g' t s = queue g t s ++ b) ∨
      ∃ x, x.src = s ∧ Handles g g' t x ∧ queue g t s = x :: queue g' t s := by
  have same : g'.fly t = g.fly t → ∃ b, queue g' t s = queue g t s ++ b := fun e =>
    ⟨[], by unfold queue; rw [e, List.append_nil]⟩
  cases h with
  | start r hr h => exact .inl (same rfl)
  | act r hr f l h => exact .inl (same rfl)
  | poll r hr l h => exact .inl (same rfl)
  | send r hr u f b l h hw =>
    by_cases e : t = u
    · subst e
      refine .inl ⟨[⟨r, f, b⟩].filter (fun x => decide (x.src = s)), ?_⟩
      unfold queue
      show List.filter _ (upd g.fly t _ t) = _
      rw [upd_same, List.filter_append]
    · exact .inl (same (upd_ne _ _ e))
  | handle u hu a b x h hf hs =>
    by_cases e : t = u
    · subst e
      by_cases hx : x.src = s
      · refine .inr ⟨x, hx, ⟨a, b, h, hf, rfl⟩, ?_⟩
        unfold queue
        show _ = x :: List.filter _ (upd g.fly t _ t)
        rw [upd_same, h, List.filter_append, List.filter_append, List.filter_cons_of_pos (by simpa using hx)]
        have : List.filter (fun x : Msg M => decide (x.src = s)) a = [] := by
          rw [List.filter_eq_nil_iff]
          intro y hy
          simpa [← hx] using hf y hy
        rw [this]; rfl
      · refine .inl ⟨[], ?_⟩
        unfold queue
        show List.filter _ (upd g.fly t _ t) = _
        rw [upd_same, h, List.append_nil, List.filter_append, List.filter_append, List.filter_cons_of_neg (by simpa using hx)]
    · exact .inl (same (upd_ne _ _ e))
  | enter r hr c k l h hi => exact .inl (same rfl)
  | leave r hr c k l h hi _ => exact .inl (same rfl)
  | pass r hr b l h hb => exact .inl (same rfl)

/-- A packet in a queue stays there until one of its queue is handled. -/
theorem queue_stays (R : Exec S prog free m) {t s i : Nat} {u v : List (Msg M)} {x : Msg M}
    (h : queue (R.st i) t s = u ++ x :: v) (d : Nat) :
    (∃ v', queue (R.st (i + d)) t s = u ++ x :: v') ∨
      ∃ j y v', i ≤ j ∧ y.src = s ∧ Handles (R.st j) (R.st (j + 1)) t y ∧
        u ++ x :: v' = y :: queue (R.st (j + 1)) t s := by
  induction d with
  | zero => exact .inl ⟨v, h⟩
  | succ d ih =>
    rcases ih with ⟨v', h'⟩ | h'
    · rcases R.next (i + d) with e | e
      · exact .inl ⟨v', by rw [show i + (d + 1) = i + d + 1 from rfl, e, h']⟩
      · rcases queue_step e t s with ⟨b, hb⟩ | ⟨y, h1, h2, h3⟩
        · exact .inl ⟨v' ++ b, by
            rw [show i + (d + 1) = i + d + 1 from rfl, hb, h', List.append_assoc, List.cons_append]⟩
        · exact .inr ⟨i + d, y, v', by omega, h1, h2, by rw [← h', h3]⟩
    · exact .inr h'

/-- A packet is handled, unless its target is through `shmem_finalize`. -/
theorem handled_queue {R : Exec S prog free m} (L : S.Mpi) (F : R.Fair)
    (hl : free = true ∨ Live S prog m) {t s : Nat} {x : Msg M} (ht : t < S.n) (u : List (Msg M)) (i : Nat) (v : List (Msg M))
    (hd : ∀ j, i ≤ j → ((R.st j).pe t).rem ≠ [.stop])
    (h : queue (R.st i) t s = u ++ x :: v) :
    ∃ j, i ≤ j ∧ Handles (R.st j) (R.st (j + 1)) t x := by
  induction u generalizing i v with
  | nil =>
    have key : ∃ j y v', i ≤ j ∧ y.src = s ∧ Handles (R.st j) (R.st (j + 1)) t y ∧
        [] ++ x :: v' = y :: queue (R.st (j + 1)) t s := by
      refine Classical.byContradiction fun hn => ?_
      have st : ∀ d, ∃ v', queue (R.st (i + d)) t s = [] ++ x :: v' := fun d =>
        (queue_stays R h d).resolve_right hn
      obtain ⟨j, y, hj, hy, hh⟩ := F.packet t ht s i (fun j hj => by
        obtain ⟨d, rfl⟩ := Nat.exists_eq_add_of_le hj
        obtain ⟨v', e⟩ := st d
        have : x ∈ queue (R.st (i + d)) t s := e ▸ List.mem_append_right _ List.mem_cons_self
        unfold queue at this
        rw [List.mem_filter] at this
        exact ⟨⟨x, this.1, by simpa using this.2⟩, hd _ hj⟩)
        (live L F hl ht hd)
      obtain ⟨d, rfl⟩ := Nat.exists_eq_add_of_le hj
      obtain ⟨v', e⟩ := st d
      refine hn ⟨i + d, y, v', hj, hy, hh, ?_⟩
      obtain ⟨a, b, h1, h2, h3⟩ := hh
      rw [← e, h3]
      unfold queue
      show _ = y :: List.filter _ (upd _ t _ t)
      rw [upd_same, h1, List.filter_append, List.filter_append, List.filter_cons_of_pos (by simpa using hy)]
      have : List.filter (fun x : Msg M => decide (x.src = s)) a = [] := by
        rw [List.filter_eq_nil_iff]
        intro z hz
        simpa [← hy] using h2 z hz
      rw [this]; rfl
    obtain ⟨j, y, v', hj, -, hh, e⟩ := key
    rw [List.nil_append, List.cons.injEq] at e
    rw [e.1]
    exact ⟨j, hj, hh⟩
  | cons z u ih =>
    have key : ∃ j y v', i ≤ j ∧ y.src = s ∧ Handles (R.st j) (R.st (j + 1)) t y ∧
        z :: u ++ x :: v' = y :: queue (R.st (j + 1)) t s := by
      refine Classical.byContradiction fun hn => ?_
      have st : ∀ d, ∃ v', queue (R.st (i + d)) t s = z :: u ++ x :: v' := fun d =>
        (queue_stays R h d).resolve_right hn
      obtain ⟨j, y, hj, hy, hh⟩ := F.packet t ht s i (fun j hj => by
        obtain ⟨d, rfl⟩ := Nat.exists_eq_add_of_le hj
        obtain ⟨v', e⟩ := st d
        have : x ∈ queue (R.st (i + d)) t s := e ▸ List.mem_append_right _ List.mem_cons_self
        unfold queue at this
        rw [List.mem_filter] at this
        exact ⟨⟨x, this.1, by simpa using this.2⟩, hd _ hj⟩)
        (live L F hl ht hd)
      obtain ⟨d, rfl⟩ := Nat.exists_eq_add_of_le hj
      obtain ⟨v', e⟩ := st d
      refine hn ⟨i + d, y, v', hj, hy, hh, ?_⟩
      obtain ⟨a, b, h1, h2, h3⟩ := hh
      rw [← e, h3]
      unfold queue
      show _ = y :: List.filter _ (upd _ t _ t)
      rw [upd_same, h1, List.filter_append, List.filter_append, List.filter_cons_of_pos (by simpa using hy)]
      have : List.filter (fun x : Msg M => decide (x.src = s)) a = [] := by
        rw [List.filter_eq_nil_iff]
        intro z hz
        simpa [← hy] using h2 z hz
      rw [this]; rfl
    obtain ⟨j, y, v', hj, -, hh, e⟩ := key
    rw [List.cons_append, List.cons.injEq] at e
    obtain ⟨k, hk, h'⟩ := ih (j + 1) v' (fun k hk => hd k (by omega)) e.2.symm
    exact ⟨k, by omega, h'⟩

end

/-! ## The property -/

/-- for executions of the library and of the specification -/
theorem handled_any {S : Cfg} {prog : Nat → Nat → M → Call M} {free : Bool} {m : M} (R : Exec S prog free m)
    (L : S.Mpi) (F : R.Fair) (hl : free = true ∨ Live S prog m) (t i : Nat) (ht : t < S.n) (x : Msg M)
    (hx : x ∈ (R.st i).fly t) :
    (∃ j, i ≤ j ∧ Handles (R.st j) (R.st (j + 1)) t x) ∨
      ∃ j, i ≤ j ∧ ((R.st j).pe t).rem = [.stop] := by
  by_cases hd : ∃ j, i ≤ j ∧ ((R.st j).pe t).rem = [.stop]
  · exact .inr hd
  · have hq : x ∈ queue (R.st i) t x.src := List.mem_filter.mpr ⟨hx, by simp⟩
    obtain ⟨u, v, e⟩ := List.append_of_mem hq
    exact .inl (handled_queue L F hl ht u i v (fun j hj h => hd ⟨j, hj, h⟩) e)

/-- Every put, get and atomic operation that goes over active messages is carried out at its
target, unless the target is through `shmem_finalize`. -/
theorem C101_handled {S : Cfg} {prog : Nat → Nat → M → Call M} {m : M} (R : Exec S prog false m)
    (L : S.Mpi) (F : R.Fair) (hl : Live S prog m) (t i : Nat) (ht : t < S.n) (x : Msg M)
    (hx : x ∈ (R.st i).fly t) :
    (∃ j, i ≤ j ∧ Handles (R.st j) (R.st (j + 1)) t x) ∨
      ∃ j, i ≤ j ∧ ((R.st j).pe t).rem = [.stop] :=
  handled_any R L F (.inr hl) t i ht x hx

section
variable {S : Cfg} {prog : Nat → Nat → M → Call M} {free : Bool} {m : M}

/-- The packet of a PE that waits for an answer is on its way. -/
def Pend (g : Job M) : Prop := ∀ p t f l, (g.pe p).waiting = true →
  (g.pe p).rem = .send t f true :: l → ∃ x ∈ g.fly t, x.src = p ∧ x.reply = true

theorem pend_step {g g' : Job M} (I : Inv S g) (h : Step S prog free g g') (P : Pend g) :
    Pend g' := by
  intro p t f l hw hr
  have no : ∀ y l', (g.pe p).waiting = true → (g.pe p).rem = y :: l' →
      (∀ t f, y ≠ .send t f true) → False := by
    intro y l' h1 h2 h3
    obtain ⟨t, f, l, e⟩ := I.wait p h1
    rw [h2, List.cons.injEq] at e
    exact h3 t f e.1
  cases moved I h p with
  | same e =>
    rw [e] at hw hr
    obtain ⟨x, hx, h1, h2⟩ := P p t f l hw hr
    have hq : x ∈ queue g t p := List.mem_filter.mpr ⟨hx, by simpa using h1⟩
    suffices hq' : x ∈ queue g' t p from ⟨x, (List.mem_filter.mp hq').1, h1, h2⟩
    rcases queue_step h t p with ⟨b, e'⟩ | ⟨y, g1, ⟨a, b, g2, g3, g4⟩, g5⟩
    · rw [e']; exact List.mem_append_left _ hq
    · rw [g5] at hq
      rcases List.mem_cons.mp hq with rfl | hq
      · exfalso
        rw [← e, g4] at hw
        simp only [h2, if_true] at hw
        rw [g1, upd_same] at hw
        exact absurd hw nofun
      · exact hq
  | start h e => rw [e] at hw; exact absurd hw nofun
  | act f' l' h' e => rw [e] at hw; exact (no _ _ hw h' nofun).elim
  | poll l' h' e => rw [e] at hw; exact (no _ _ hw h' nofun).elim
  | send t' f' r l' h' hw' e hf =>
    cases r with
    | false =>
      rw [e] at hw
      exact absurd (hw'.symm.trans hw) nofun
    | true =>
      rw [e] at hr
      simp only [if_true] at hr
      rw [h', List.cons.injEq, Prim.send.injEq] at hr
      rw [← hr.1.1]
      exact ⟨_, hf, rfl, rfl⟩
  | answer t' f' l' h' hw' e => rw [e] at hw; exact absurd hw nofun
  | enter c k l' h' hi e => rw [e] at hw; exact (no _ _ hw h' nofun).elim
  | leave c k l' h' hi e => rw [e] at hw; exact (no _ _ hw h' nofun).elim
  | pass b l' h' hb e => rw [e] at hw; exact (no _ _ hw h' nofun).elim

theorem Exec.pend (R : Exec S prog free m) (L : S.Mpi) (i : Nat) : Pend (R.st i) := by
  induction i with
  | zero => rw [R.start]; intro p t f l h; exact absurd h nofun
  | succ i ih =>
    rcases R.next i with h | h
    · rw [h]; exact ih
    · exact pend_step (R.inv L i) h ih

/-- While a PE waits for an answer nobody is through `shmem_finalize`. -/
theorem none_done {g : Job M} (I : Inv S g) {p t : Nat} {f : M → M} {l : List (Prim M)} (hp : p < S.n)
    (hr : (g.pe p).rem = .send t f true :: l) (q : Nat) : (g.pe q).rem ≠ [.stop] := by
  intro h
  rcases I.fin p (I.stop q h p hp) with ⟨e, -⟩ | e
  · rw [hr] at e; cases e
  · rw [hr] at e; cases e

/-- Only the handling of its packet wakes a PE up. -/
theorem woken {g g' : Job M} (I : Inv S g) (h : Step S prog free g g') {p t : Nat} {f : M → M}
    {l : List (Prim M)} (hw : (g.pe p).waiting = true) (hr : (g.pe p).rem = .send t f true :: l)
    (hne : g'.pe p ≠ g.pe p) : Handles g g' t ⟨p, f, true⟩ := by
  have no : ∀ (r : Nat) (q : Pe M), (r = p → False) → upd g.pe r q p ≠ g.pe p → False := by
    intro r q h1 h2
    by_cases e : p = r
    · exact h1 e.symm
    · rw [upd_ne _ _ e] at h2; exact h2 rfl
  cases h with
  | start r _ h => exact (no r _ (fun e => by subst e; rw [hr] at h; cases h) hne).elim
  | act r _ f l h => exact (no r _ (fun e => by subst e; rw [hr] at h; cases h) hne).elim
  | poll r _ l h => exact (no r _ (fun e => by subst e; rw [hr] at h; cases h) hne).elim
  | send r _ t f b l h hw' =>
    exact (no r _ (fun e => by subst e; rw [hw] at hw'; cases hw') hne).elim
  | handle u hu a b x hx hf hs =>
    cases e : x.reply with
    | false =>
      rw [e] at hne
      exact absurd rfl hne
    | true =>
      have hsrc : x.src = p := by
        rw [e] at hne
        exact Classical.byContradiction fun h => no x.src _ h hne
      obtain ⟨-, l', e'⟩ := I.req u x (hx ▸ List.mem_append_right _ List.mem_cons_self) e
      rw [hsrc, hr, List.cons.injEq, Prim.send.injEq] at e'
      have ex : x = ⟨p, f, true⟩ := by
        cases x
        simp only at hsrc e e'
        rw [hsrc, e, e'.1.2.1]
      subst ex
      rw [e'.1.1]
      exact ⟨a, b, hx, hf, rfl⟩
  | enter r _ c k l h hi => exact (no r _ (fun e => by subst e; rw [hr] at h; cases h) hne).elim
  | leave r _ c k l h hi _ => exact (no r _ (fun e => by subst e; rw [hr] at h; cases h) hne).elim
  | pass r _ b l h hb => exact (no r _ (fun e => by subst e; rw [hr] at h; cases h) hne).elim

end

/-- how often a PE entered a collective only grows -/
theorem cnt_step {S : Cfg} {prog : Nat → Nat → M → Call M} {free : Bool} {g g' : Job M}
    (h : Step S prog free g g') (c : Comm) (q : Nat) : g.cnt c q ≤ g'.cnt c q := by
  cases h with
  | start r _ h => exact Nat.le_refl _
  | act r _ f l h => exact Nat.le_refl _
  | poll r _ l h => exact Nat.le_refl _
  | send r _ t f b l h hw' => exact Nat.le_refl _
  | handle u hu a b x hx hf hs => exact Nat.le_refl _
  | enter r _ d k l h hi =>
    show _ ≤ (if c = d then upd (g.cnt c) r (g.cnt c r + 1) else g.cnt c) q
    by_cases e : c = d
    · rw [if_pos e]
      by_cases e' : q = r
      · rw [e', upd_same]; omega
      · rw [upd_ne _ _ e']; exact Nat.le_refl _
    · rw [if_neg e]; exact Nat.le_refl _
  | leave r _ c k l h hi _ => exact Nat.le_refl _
  | pass r _ b l h hb => exact Nat.le_refl _

/-- the count of a PE changes only when it enters -/
theorem cnt_own {S : Cfg} {prog : Nat → Nat → M → Call M} {free : Bool} {g g' : Job M}
    (h : Step S prog free g g') (q : Nat)
    (hi : ∀ c k l, (g.pe q).rem = .coll c k :: l → (g.pe q).inside = true) (c : Comm) :
    g'.cnt c q = g.cnt c q := by
  cases h with
  | start r _ h => rfl
  | act r _ f l h => rfl
  | poll r _ l h => rfl
  | send r _ t f b l h hw' => rfl
  | handle u hu a b x hx hf hs => rfl
  | enter r _ d k l h hi' =>
    show (if c = d then upd (g.cnt c) r (g.cnt c r + 1) else g.cnt c) q = _
    by_cases e : c = d
    · rw [if_pos e]
      by_cases e' : q = r
      · rw [e', hi'] at hi; exact absurd (hi d k l (e' ▸ h)) nofun
      · rw [upd_ne _ _ e']
    · rw [if_neg e]
  | leave r _ c k l h hi _ => rfl
  | pass r _ b l h hb => rfl

/-- While a PE is not about to enter a collective its counts stay. -/
theorem Exec.cnt_const {S : Cfg} {prog : Nat → Nat → M → Call M} {free : Bool} {m : M}
    (R : Exec S prog free m) {p i j : Nat} (hj : i ≤ j)
    (h0 : ∀ j', i ≤ j' → j' ≤ j → (R.st j').pe p = (R.st i).pe p)
    (hi : ∀ c k l, ((R.st i).pe p).rem = .coll c k :: l → ((R.st i).pe p).inside = true) :
    ∀ c, (R.st (j + 1)).cnt c p = (R.st i).cnt c p := by
  intro c
  obtain ⟨d, rfl⟩ := Nat.exists_eq_add_of_le hj
  clear hj
  have step : ∀ k, i ≤ k → k ≤ i + d → (R.st (k + 1)).cnt c p = (R.st k).cnt c p := by
    intro k h1 h2
    rcases R.next k with e | e
    · rw [e]
    · exact cnt_own e p (by rw [h0 k h1 h2]; exact hi) c
  clear h0
  induction d with
  | zero => exact step i (Nat.le_refl _) (Nat.le_refl _)
  | succ d ih =>
    rw [step (i + (d + 1)) (by omega) (Nat.le_refl _)]
    exact ih (fun k h1 h2 => step k h1 (by omega))

/-- for executions of the library and of the specification -/
theorem answer_any {S : Cfg} {prog : Nat → Nat → M → Call M} {free : Bool} {m : M} (R : Exec S prog free m)
    (L : S.Mpi) (F : R.Fair) (hl : free = true ∨ Live S prog m) (p t i : Nat) (hp : p < S.n) (ht : t < S.n)
    (f : M → M) (l : List (Prim M)) (hw : ((R.st i).pe p).waiting = true)
    (hr : ((R.st i).pe p).rem = .send t f true :: l) :
    ∃ j, i ≤ j ∧ (R.st j).pe p = (R.st i).pe p ∧ (R.st (j + 1)).mem = f (R.st j).mem ∧
      (R.st (j + 1)).pe p = { (R.st i).pe p with waiting := false, rem := l } ∧
      ∀ c, (R.st (j + 1)).cnt c p = (R.st i).cnt c p := by
  have hc : ∃ j, i ≤ j ∧ (R.st j).pe p ≠ (R.st i).pe p := by
    refine Classical.byContradiction fun hn => ?_
    have same : ∀ j, i ≤ j → (R.st j).pe p = (R.st i).pe p := fun j hj =>
      Classical.byContradiction fun e => hn ⟨j, hj, e⟩
    obtain ⟨x, hx, h1, h2⟩ := R.pend L i p t f l hw hr
    rcases handled_any R L F hl t i ht x hx with ⟨j, hj, a, b, -, -, e⟩ | ⟨j, hj, e⟩
    · have e' : (R.st (j + 1)).pe p = ((R.st j).pe p).answered := by
        rw [e]
        simp only [h2, if_true]
        rw [h1, upd_same]
      rw [same (j + 1) (by omega)] at e'
      rw [e'] at hw
      exact absurd hw nofun
    · exact none_done (R.inv L j) hp (by rw [same j hj]; exact hr) t e
  obtain ⟨j, hj, e0, e2⟩ := R.change hc
  have e1 := e0 j hj (Nat.le_refl _)
  have hs : Step S prog free (R.st j) (R.st (j + 1)) := by
    rcases R.next j with h | h
    · rw [h, e1] at e2; exact absurd rfl e2
    · exact h
  obtain ⟨a, b, -, -, e⟩ := woken (R.inv L j) hs (by rw [e1]; exact hw) (by rw [e1]; exact hr) (by rw [e1]; exact e2)
  refine ⟨j, hj, e1, by rw [e], ?_, R.cnt_const hj e0 (fun c k l' e => by rw [hr] at e; cases e)⟩
  rw [e]
  simp only [if_true]
  rw [upd_same, e1]
  unfold Pe.answered
  rw [hr]; rfl

/-- A PE that waits for an answer (get, fetching or swapping atomic, flush) gets it: the target
carries out the operation and the PE goes on. -/
theorem C101_answer {S : Cfg} {prog : Nat → Nat → M → Call M} {m : M} (R : Exec S prog false m)
    (L : S.Mpi) (F : R.Fair) (hl : Live S prog m) (p t i : Nat) (hp : p < S.n) (ht : t < S.n)
    (f : M → M) (l : List (Prim M)) (hw : ((R.st i).pe p).waiting = true)
    (hr : ((R.st i).pe p).rem = .send t f true :: l) :
    ∃ j, i ≤ j ∧ (R.st j).pe p = (R.st i).pe p ∧ (R.st (j + 1)).mem = f (R.st j).mem ∧
      (R.st (j + 1)).pe p = { (R.st i).pe p with waiting := false, rem := l } ∧
      ∀ c, (R.st (j + 1)).cnt c p = (R.st i).cnt c p :=
  answer_any R L F (.inr hl) p t i hp ht f l hw hr

/-- Calls that need no other PE's call: local ones, tests, and over active messages put, get,
atomics and quiet (fence is the same), to existing PEs. -/
def Call.Alone (n : Nat) : Call M → Prop
  | .local' _ => True
  | .putAm t _ => t < n
  | .getAm t _ => t < n
  | .amoPostAm t _ => t < n
  | .amoFetchAm t _ => t < n
  | .quiet => True
  | .test _ => True
  | .testLock _ => True
  | .barrierAll => False
  | .syncAll => False
  | .alloc _ => False
  | .free _ => False
  | .waitUntil _ => False
  | .setLock _ _ => False
  | .clearLock _ _ _ => False
  | .teamColl _ _ => False
  | .teamSplit _ => False
  | .teamSplit2d _ => False
  | .teamDestroy _ => False
  | .asetBarrier _ _ _ => False
  | .asetColl _ _ _ _ => False
  | .asetBcastOut _ _ _ _ => False
  | .spaceAttach _ => False
  | .spaceDetach _ => False
  | .finalize => False

/-- primitives that need no other PE's call -/
def Prim.alone (n : Nat) : Prim M → Prop
  | .act _ => True
  | .poll => True
  | .send t _ _ => t < n
  | .coll _ _ => False
  | .wait _ => False
  | .stop => False

theorem expand_alone (S : Cfg) (kn : List (Nat × Nat × Nat)) (out : Nat → Bool) (c : Call M)
    (h : c.Alone S.n) : ∀ x ∈ expand S kn out c, x.alone S.n := by
  intro x hx
  cases c with
  | local' _ => rw [List.mem_singleton.mp hx]; trivial
  | putAm t _ => rw [List.mem_singleton.mp hx]; exact h
  | getAm t _ => rw [List.mem_singleton.mp hx]; exact h
  | amoPostAm t _ => rw [List.mem_singleton.mp hx]; exact h
  | amoFetchAm t _ => rw [List.mem_singleton.mp hx]; exact h
  | quiet =>
    obtain ⟨t, ht, rfl⟩ := List.mem_map.mp hx
    exact List.mem_range.mp (List.mem_filter.mp ht).1
  | test f =>
    rcases List.mem_cons.mp hx with rfl | hx
    · trivial
    · rw [List.mem_singleton.mp hx]; trivial
  | testLock _ => rw [List.mem_singleton.mp hx]; trivial
  | barrierAll => exact h.elim
  | syncAll => exact h.elim
  | alloc _ => exact h.elim
  | free _ => exact h.elim
  | waitUntil _ => exact h.elim
  | setLock _ _ => exact h.elim
  | clearLock _ _ _ => exact h.elim
  | teamColl _ _ => exact h.elim
  | teamSplit _ => exact h.elim
  | teamSplit2d _ => exact h.elim
  | teamDestroy _ => exact h.elim
  | asetBarrier _ _ _ => exact h.elim
  | asetColl _ _ _ _ => exact h.elim
  | asetBcastOut _ _ _ _ => exact h.elim
  | spaceAttach _ => exact h.elim
  | spaceDetach _ => exact h.elim
  | finalize => exact h.elim

/-- primitives that need no other PE's call come to their end -/
theorem alone_ends {S : Cfg} {prog : Nat → Nat → M → Call M} {m : M} (R : Exec S prog false m)
    (L : S.Mpi) (F : R.Fair) (hl : Live S prog m) (p : Nat) (hp : p < S.n) (l : List (Prim M))
    (rest : List (Prim M)) (ha : ∀ x ∈ l, x.alone S.n) (i : Nat)
    (hr : ((R.st i).pe p).rem = l ++ rest) (hw : ((R.st i).pe p).waiting = false) :
    ∃ j, i ≤ j ∧ (R.st j).pe p = { (R.st i).pe p with rem := rest } ∧
      ∀ c, (R.st j).cnt c p = (R.st i).cnt c p := by
  induction l generalizing i with
  | nil => exact ⟨i, Nat.le_refl _, by rw [← show _ = rest from hr], fun _ => rfl⟩
  | cons x l ih =>
    have tl := ih (fun y hy => ha y (List.mem_cons_of_mem _ hy))
    rw [List.cons_append] at hr
    have onward : ∀ j, i ≤ j → (R.st j).pe p = { (R.st i).pe p with rem := l ++ rest } →
        (∀ c, (R.st j).cnt c p = (R.st i).cnt c p) →
        ∃ j, i ≤ j ∧ (R.st j).pe p = { (R.st i).pe p with rem := rest } ∧
          ∀ c, (R.st j).cnt c p = (R.st i).cnt c p := by
      intro j hj e hc
      obtain ⟨k, hk, e', hc'⟩ := tl j (by rw [e]) (by rw [e]; exact hw)
      exact ⟨k, by omega, by rw [e', e], fun c => by rw [hc', hc]⟩
    have ready : (∀ c k, x ≠ .coll c k) → (∀ b, x ≠ .wait b) → x ≠ .stop → ∀ j, i ≤ j →
        (R.st j).pe p = (R.st i).pe p → Ready S (R.st j) p := by
      intro h1 h2 h3 j hj e
      unfold Ready
      rw [e, hr]
      cases x with
      | act _ => trivial
      | poll => trivial
      | send _ _ _ => exact hw
      | coll c k => exact absurd rfl (h1 c k)
      | wait b => exact absurd rfl (h2 b)
      | stop => exact absurd rfl h3
    have hx := ha x List.mem_cons_self
    cases x with
    | coll c k => exact hx.elim
    | wait b => exact hx.elim
    | stop => exact hx.elim
    | act f =>
      obtain ⟨j, hj, e0, e2⟩ := Exec.goes F hp (ready nofun nofun nofun)
      have e1 := e0 j hj (Nat.le_refl _)
      have kc := R.cnt_const hj e0 (fun c k l' e => by rw [hr] at e; cases e)
      refine onward (j + 1) (by omega) ?_ kc
      have mv := R.moved L j p
      rw [← e1] at hr e2 ⊢
      cases mv with
      | same h => exact absurd h e2
      | act f' l' h e => rw [hr] at h; rw [e, (List.cons.inj h).2]
      | start h e => rw [hr] at h; cases h
      | poll l' h e => rw [hr] at h; cases h
      | send t f' r l' h hw e hf => rw [hr] at h; cases h
      | answer t f' l' h hw e => rw [hr] at h; cases h
      | enter c k l' h hi e => rw [hr] at h; cases h
      | leave c k l' h hi e => rw [hr] at h; cases h
      | pass b l' h hb e => rw [hr] at h; cases h
    | poll =>
      obtain ⟨j, hj, e0, e2⟩ := Exec.goes F hp (ready nofun nofun nofun)
      have e1 := e0 j hj (Nat.le_refl _)
      have kc := R.cnt_const hj e0 (fun c k l' e => by rw [hr] at e; cases e)
      refine onward (j + 1) (by omega) ?_ kc
      have mv := R.moved L j p
      rw [← e1] at hr e2 ⊢
      cases mv with
      | same h => exact absurd h e2
      | poll l' h e => rw [hr] at h; rw [e, (List.cons.inj h).2]
      | start h e => rw [hr] at h; cases h
      | act f' l' h e => rw [hr] at h; cases h
      | send t f' r l' h hw e hf => rw [hr] at h; cases h
      | answer t f' l' h hw e => rw [hr] at h; cases h
      | enter c k l' h hi e => rw [hr] at h; cases h
      | leave c k l' h hi e => rw [hr] at h; cases h
      | pass b l' h hb e => rw [hr] at h; cases h
    | send t f r =>
      obtain ⟨j, hj, e0, e2⟩ := Exec.goes F hp (ready nofun nofun nofun)
      have e1 := e0 j hj (Nat.le_refl _)
      have kc := R.cnt_const hj e0 (fun c k l' e => by rw [hr] at e; cases e)
      have mv := R.moved L j p
      have key : (R.st (j + 1)).pe p =
          if r then { (R.st i).pe p with waiting := true }
          else { (R.st i).pe p with rem := l ++ rest } := by
        rw [← e1] at hr hw e2 ⊢
        cases mv with
        | same h => exact absurd h e2
        | send t' f' r' l' h hw e hf =>
          rw [hr, List.cons.injEq, Prim.send.injEq] at h
          rw [e, h.1.2.2, h.2]
        | answer t' f' l' h hw' e => rw [hw] at hw'; cases hw'
        | start h e => rw [hr] at h; cases h
        | act f' l' h e => rw [hr] at h; cases h
        | poll l' h e => rw [hr] at h; cases h
        | enter c k l' h hi e => rw [hr] at h; cases h
        | leave c k l' h hi e => rw [hr] at h; cases h
        | pass b l' h hb e => rw [hr] at h; cases h
      cases r with
      | false => exact onward (j + 1) (by omega) key kc
      | true =>
        rw [if_pos rfl] at key
        obtain ⟨k, hk, -, -, e, ec⟩ := C101_answer R L F hl p t (j + 1) hp hx f (l ++ rest)
          (by rw [key]) (by rw [key]; exact hr)
        refine onward (k + 1) (by omega) ?_ (fun c => by rw [ec, kc])
        rw [e, key]
        show Pe.mk _ false _ _ _ _ = Pe.mk _ ((R.st i).pe p).waiting _ _ _ _
        rw [hw]

/-- Such a call returns. -/
theorem C101_returns {S : Cfg} {prog : Nat → Nat → M → Call M} {m : M} (R : Exec S prog false m)
    (L : S.Mpi) (F : R.Fair) (hl : Live S prog m) (p i : Nat) (hp : p < S.n)
    (hr : ((R.st i).pe p).rem = [])
    (hc : ∀ m', (prog p ((R.st i).pe p).calls m').Alone S.n) :
    ∃ j, i ≤ j ∧ ((R.st j).pe p).rem = [] ∧
      ((R.st j).pe p).calls = ((R.st i).pe p).calls + 1 := by
  obtain ⟨j, hj, e0, e2⟩ := Exec.goes F hp (i := i)
    (fun j _ e => by unfold Ready; rw [e, hr]; trivial)
  have e1 := e0 j hj (Nat.le_refl _)
  have kc := R.cnt_const hj e0 (fun c k l' e => by rw [hr] at e; cases e)
  have key : (R.st (j + 1)).pe p =
      begin' S ((R.st i).pe p) (prog p ((R.st i).pe p).calls (R.st j).mem) := by
    have mv := R.moved L j p
    rw [← e1] at hr e2 ⊢
    cases mv with
    | same h => exact absurd h e2
    | start h e => exact e
    | act f' l' h e => rw [hr] at h; cases h
    | poll l' h e => rw [hr] at h; cases h
    | send t' f' r' l' h hw e hf => rw [hr] at h; cases h
    | answer t' f' l' h hw' e => rw [hr] at h; cases h
    | enter c k l' h hi e => rw [hr] at h; cases h
    | leave c k l' h hi e => rw [hr] at h; cases h
    | pass b l' h hb e => rw [hr] at h; cases h
  obtain ⟨k, hk, e, -⟩ := alone_ends R L F hl p hp _ [] (expand_alone S _ _ _ (hc (R.st j).mem)) (j + 1)
    (by rw [key, List.append_nil]; rfl) (by rw [key]; rfl)
  exact ⟨k, by omega, by rw [e], by rw [e, key]; rfl⟩

/-- A collective that all members call returns: PE `p` is inside an MPI collective, and every
member enters it, that is its next one on this communicator, some time. -/
theorem C101_collective {S : Cfg} {prog : Nat → Nat → M → Call M} {free : Bool} {m : M}
    (R : Exec S prog free m) (L : S.Mpi) (F : R.Fair) (p i : Nat) (hp : p < S.n) (c : Comm) (k : Mpi)
    (l : List (Prim M)) (hr : ((R.st i).pe p).rem = .coll c k :: l)
    (hi : ((R.st i).pe p).inside = true)
    (hm : ∀ q ∈ S.members c, ∃ j, (R.st i).cnt c p ≤ (R.st j).cnt c q) :
    ∃ j, i ≤ j ∧ (R.st j).pe p = { (R.st i).pe p with inside := false, rem := l } ∧
      ∀ d, (R.st j).cnt d p = (R.st i).cnt d p := by
  have mono : ∀ q j d, (R.st j).cnt c q ≤ (R.st (j + d)).cnt c q := by
    intro q j d
    induction d with
    | zero => exact Nat.le_refl _
    | succ d ih =>
      refine Nat.le_trans ih ?_
      rcases R.next (j + d) with e | e
      · rw [show j + (d + 1) = j + d + 1 from rfl, e]; exact Nat.le_refl _
      · exact cnt_step e c q
  -- a time at which all members are there
  have all : ∀ ms : List Nat, (∀ q ∈ ms, ∃ j, (R.st i).cnt c p ≤ (R.st j).cnt c q) →
      ∃ K, ∀ q ∈ ms, ∀ j, K ≤ j → (R.st i).cnt c p ≤ (R.st j).cnt c q := by
    intro ms
    induction ms with
    | nil => exact fun _ => ⟨0, nofun⟩
    | cons a ms ih =>
      intro h
      obtain ⟨K, hK⟩ := ih (fun q hq => h q (List.mem_cons_of_mem _ hq))
      obtain ⟨j, hj⟩ := h a List.mem_cons_self
      refine ⟨K + j, fun q hq j' hj' => ?_⟩
      rcases List.mem_cons.mp hq with rfl | hq
      · obtain ⟨d, rfl⟩ := Nat.exists_eq_add_of_le (show j ≤ j' by omega)
        exact Nat.le_trans hj (mono q j d)
      · exact hK q hq j' (by omega)
  obtain ⟨K, hK⟩ := all _ hm
  have hc : ∃ j, i ≤ j ∧ (R.st j).pe p ≠ (R.st i).pe p := by
    refine Classical.byContradiction fun hn => ?_
    have same : ∀ j, i ≤ j → (R.st j).pe p = (R.st i).pe p := fun j hj =>
      Classical.byContradiction fun e => hn ⟨j, hj, e⟩
    have own : ∀ d, (R.st (i + d)).cnt c p = (R.st i).cnt c p := by
      intro d
      induction d with
      | zero => rfl
      | succ d ih =>
        rw [← ih]
        rcases R.next (i + d) with e | e
        · rw [show i + (d + 1) = i + d + 1 from rfl, e]
        · exact cnt_own e p (by rw [same _ (Nat.le_add_right _ _)]; exact fun _ _ _ _ => hi) c
    obtain ⟨j, hj, hne⟩ := F.pe p hp (i + K) (fun j hj => by
      unfold Ready
      rw [same j (by omega), hr]
      refine .inr (L.all _ _ _ _ fun q hq => decide_eq_true ?_)
      obtain ⟨d, rfl⟩ := Nat.exists_eq_add_of_le (show i ≤ j by omega)
      rw [own d]
      exact hK q hq _ (by omega))
    rw [same j (by omega), same (j + 1) (by omega)] at hne
    exact hne rfl
  obtain ⟨j, hj, e0, e2⟩ := R.change hc
  have e1 := e0 j hj (Nat.le_refl _)
  refine ⟨j + 1, by omega, ?_, R.cnt_const hj e0 (fun _ _ _ _ => hi)⟩
  have mv := R.moved L j p
  rw [← e1] at hr hi e2 ⊢
  cases mv with
  | same h => exact absurd h e2
  | leave c' k' l' h hi e => rw [hr] at h; rw [e, (List.cons.inj h).2]
  | enter c' k' l' h hi' e => rw [hi] at hi'; cases hi'
  | start h e => rw [hr] at h; cases h
  | act f' l' h e => rw [hr] at h; cases h
  | poll l' h e => rw [hr] at h; cases h
  | send t' f' r' l' h hw e hf => rw [hr] at h; cases h
  | answer t' f' l' h hw' e => rw [hr] at h; cases h
  | pass b l' h hb e => rw [hr] at h; cases h

/-- A wait (`shmem_wait_until`, a lock) returns if its condition is true from some time on. -/
theorem C101_wait {S : Cfg} {prog : Nat → Nat → M → Call M} {free : Bool} {m : M}
    (R : Exec S prog free m) (L : S.Mpi) (F : R.Fair) (p i : Nat) (hp : p < S.n) (b : M → Bool)
    (l : List (Prim M)) (hr : ((R.st i).pe p).rem = .wait b :: l) (K : Nat)
    (hb : ∀ j, K ≤ j → b (R.st j).mem = true) :
    ∃ j, i ≤ j ∧ (R.st j).pe p = { (R.st i).pe p with rem := l } := by
  have hc : ∃ j, i ≤ j ∧ (R.st j).pe p ≠ (R.st i).pe p := by
    refine Classical.byContradiction fun hn => ?_
    have same : ∀ j, i ≤ j → (R.st j).pe p = (R.st i).pe p := fun j hj =>
      Classical.byContradiction fun e => hn ⟨j, hj, e⟩
    obtain ⟨j, hj, hne⟩ := F.pe p hp (i + K) (fun j hj => by
      unfold Ready
      rw [same j (by omega), hr]
      exact hb j (by omega))
    rw [same j (by omega), same (j + 1) (by omega)] at hne
    exact hne rfl
  obtain ⟨j, hj, e0, e2⟩ := R.change hc
  have e1 := e0 j hj (Nat.le_refl _)
  refine ⟨j + 1, by omega, ?_⟩
  have mv := R.moved L j p
  rw [← e1] at hr e2 ⊢
  cases mv with
  | same h => exact absurd h e2
  | pass b l' h hb e => rw [hr] at h; rw [e, (List.cons.inj h).2]
  | leave c' k' l' h hi e => rw [hr] at h; cases h
  | enter c' k' l' h hi' e => rw [hr] at h; cases h
  | start h e => rw [hr] at h; cases h
  | act f' l' h e => rw [hr] at h; cases h
  | poll l' h e => rw [hr] at h; cases h
  | send t' f' r' l' h hw e hf => rw [hr] at h; cases h
  | answer t' f' l' h hw' e => rw [hr] at h; cases h

/-- The same execution with packets handled at any time, as the specification has it. -/
def Exec.ideal {S : Cfg} {prog : Nat → Nat → M → Call M} {m : M} (R : Exec S prog false m) :
    Exec S prog true m :=
  ⟨R.st, R.start, fun i => (R.next i).imp id (C83_sound S prog _ _)⟩

/-- A fair execution of the library is a fair execution as the specification has it: there a
packet for a PE that is not through `shmem_finalize` is handled whatever this PE does. -/
theorem C101_fair {S : Cfg} {prog : Nat → Nat → M → Call M} {m : M} (R : Exec S prog false m)
    (L : S.Mpi) (F : R.Fair) (hl : Live S prog m) : R.ideal.Fair := by
  refine ⟨F.pe, fun t ht s i h _ => ?_⟩
  exact F.packet t ht s i h (live L F (.inr hl) ht (fun j hj => (h j hj).2))

/-- So whatever every fair execution reaches according to the specification, every fair
execution of the library reaches; for instance the end of the program. -/
theorem C101_ends {S : Cfg} {prog : Nat → Nat → M → Call M} {m : M} (L : S.Mpi)
    (hl : Live S prog m) (G : Job M → Prop)
    (hi : ∀ R : Exec S prog true m, R.Fair → ∃ i, G (R.st i)) (R : Exec S prog false m)
    (F : R.Fair) : ∃ i, G (R.st i) :=
  hi R.ideal (C101_fair R L F hl)

end Verif.Serve
