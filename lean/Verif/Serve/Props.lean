import Verif.Serve.Model

/-!
# C83: blocked PEs keep handling active messages

`Step … true` is the ideal: packets are handled whatever the target PE does.  `Step … false`
is the library.  Every step of the library is a step of the ideal (`C83_sound`), so results
are never wrong; the question is whether the library can hang where the ideal would go on.
-/

namespace Verif.Serve

variable {M : Type}

/-- A PE inside an MPI collective during which it handles no active messages. -/
def Blind (S : Cfg) (g : Job M) (t : Nat) : Prop :=
  S.async = false ∧ (g.pe t).inside = true ∧
    ∃ c k l, (g.pe t).rem = .coll c k :: l ∧ k.serves = false

theorem upd_same {α : Type} (f : Nat → α) (p : Nat) (a : α) : upd f p a p = a := if_pos rfl

theorem upd_ne {α : Type} (f : Nat → α) {p x : Nat} (a : α) (h : x ≠ p) : upd f p a x = f x :=
  if_neg h

/-! ## Every execution of the library is one the specification allows -/

/-- C83: a step of the library is a step of the ideal. -/
theorem C83_sound (S : Cfg) (prog : Nat → Nat → M → Call M) (g g' : Job M)
    (h : Step S prog false g g') : Step S prog true g g' := by
  cases h with
  | start p hp h => exact .start g p hp h
  | act p hp f l h => exact .act g p hp f l h
  | poll p hp l h => exact .poll g p hp l h
  | send p hp t f r l h hw => exact .send g p hp t f r l h hw
  | handle t ht a b m h hf hs => exact .handle g t ht a b m h hf (.inl rfl)
  | enter p hp c k l h hi => exact .enter g p hp c k l h hi
  | leave p hp c k l h hi hr => exact .leave g p hp c k l h hi hr
  | pass p hp b l h hb => exact .pass g p hp b l h hb

theorem run_sound (S : Cfg) (prog : Nat → Nat → M → Call M) (g g' : Job M)
    (h : Run S prog false g g') : Run S prog true g g' := by
  induction h with
  | refl => exact .refl _
  | step h k _ hs ih => exact .step _ _ _ ih (C83_sound S prog h k hs)

/-! ## Finalize -/

/-- A primitive that belongs to no finalize. -/
def Prim.plain : Prim M → Prop
  | .act _ => True
  | .poll => True
  | .send _ _ _ => True
  | .coll c _ => c ≠ .finalize
  | .wait _ => True
  | .stop => False

/-- What can be left of a call. -/
def Tail (l : List (Prim M)) : Prop :=
  l = [.coll .finalize .barrier, .stop] ∨ l = [.stop] ∨ ∀ x ∈ l, x.plain

theorem flush_plain (out : Nat → Bool) (ts : List Nat) :
    ∀ x ∈ (flush out ts : List (Prim M)), x.plain := by
  intro x hx
  unfold flush at hx
  rw [List.mem_map] at hx
  obtain ⟨t, -, rfl⟩ := hx
  exact trivial

theorem barrierAll_plain (S : Cfg) (out : Nat → Bool) :
    ∀ x ∈ (barrierAll S out : List (Prim M)), x.plain := by
  intro x hx
  unfold barrierAll at hx
  rw [List.mem_append] at hx
  cases hx with
  | inl h => exact flush_plain _ _ x h
  | inr h => rw [List.mem_singleton] at h; subst h; exact nofun

theorem acquire_plain (S : Cfg) (kn : List (Nat × Nat × Nat)) (a b c : Nat) :
    ∀ x ∈ (acquire S kn a b c : List (Prim M)), x.plain := by
  intro x hx
  unfold acquire at hx
  split at hx
  · cases hx
  · split at hx
    · cases hx
    · rw [List.mem_singleton] at hx; subst hx; exact nofun

theorem asetComm_ne (S : Cfg) (a b c : Nat) : asetComm S a b c ≠ .finalize := by
  unfold asetComm
  split <;> exact nofun

theorem coll_plain (c : Comm) (hc : c ≠ .finalize) (ks : List Mpi) :
    ∀ x ∈ (ks.map (.coll c) : List (Prim M)), x.plain := by
  intro x hx
  rw [List.mem_map] at hx
  obtain ⟨k, -, rfl⟩ := hx
  exact hc

theorem plain_append {l r : List (Prim M)} (hl : ∀ x ∈ l, x.plain) (hr : ∀ x ∈ r, x.plain) :
    ∀ x ∈ l ++ r, x.plain := by
  intro x hx
  rw [List.mem_append] at hx
  exact hx.elim (hl x) (hr x)

theorem plain_cons {a : Prim M} {r : List (Prim M)} (ha : a.plain) (hr : ∀ x ∈ r, x.plain) :
    ∀ x ∈ a :: r, x.plain := by
  intro x hx
  rw [List.mem_cons] at hx
  exact hx.elim (fun h => h ▸ ha) (hr x)

theorem plain_nil : ∀ x ∈ ([] : List (Prim M)), x.plain := nofun

theorem expand_tail (S : Cfg) (kn : List (Nat × Nat × Nat)) (out : Nat → Bool) (c : Call M) :
    expand S kn out c = [.coll .finalize .barrier, .stop] ∨ ∀ x ∈ expand S kn out c, x.plain := by
  have rep : ∀ (k : Nat) (m : Mpi),
      ∀ x ∈ (List.replicate k (.coll .world m) : List (Prim M)), x.plain := by
    intro k m x hx
    rw [(List.mem_replicate.mp hx).2]
    exact nofun
  cases c with
  | local' f => exact .inr ((plain_cons trivial plain_nil))
  | putAm t f => exact .inr ((plain_cons trivial plain_nil))
  | getAm t f => exact .inr ((plain_cons trivial plain_nil))
  | amoPostAm t f => exact .inr ((plain_cons trivial plain_nil))
  | amoFetchAm t f => exact .inr ((plain_cons trivial plain_nil))
  | quiet => exact .inr ((flush_plain _ _))
  | barrierAll => exact .inr ((barrierAll_plain _ _))
  | syncAll => exact .inr ((plain_cons nofun plain_nil))
  | alloc f => exact .inr ((plain_cons trivial (barrierAll_plain _ _)))
  | free f => exact .inr ((plain_append (barrierAll_plain _ _) (plain_cons trivial plain_nil)))
  | waitUntil b => exact .inr ((plain_cons trivial plain_nil))
  | test f => exact .inr ((plain_cons trivial (plain_cons trivial plain_nil)))
  | setLock f b => exact .inr ((plain_cons trivial (plain_cons trivial plain_nil)))
  | clearLock f b g =>
    exact .inr ((plain_cons trivial (plain_cons trivial (plain_cons trivial plain_nil))))
  | testLock f => exact .inr ((plain_cons trivial plain_nil))
  | teamColl i op => exact .inr (coll_plain (.team i) nofun _)
  | teamSplit i => exact .inr ((plain_cons nofun plain_nil))
  | teamSplit2d i => exact .inr ((plain_cons nofun (plain_cons nofun plain_nil)))
  | teamDestroy i => exact .inr ((plain_cons nofun plain_nil))
  | asetBarrier a b c =>
    exact .inr ((plain_append (flush_plain _ _) (plain_append (acquire_plain _ _ _ _ _)
      (plain_cons (asetComm_ne _ _ _ _) plain_nil))))
  | asetColl a b c op =>
    exact .inr ((plain_append (acquire_plain _ _ _ _ _)
      (coll_plain _ (asetComm_ne _ _ _ _) _)))
  | asetBcastOut a b c f =>
    exact .inr ((plain_append (acquire_plain _ _ _ _ _) (plain_cons trivial plain_nil)))
  | spaceAttach k =>
    refine .inr ((plain_cons nofun (plain_cons ?_ (rep _ _))))
    split <;> exact nofun
  | spaceDetach k =>
    refine .inr ((plain_cons ?_ (rep _ _)))
    split <;> exact nofun
  | finalize => exact .inl rfl

/-- A PE that called finalize. -/
def InFin (q : Pe M) : Prop :=
  (q.rem = [.coll .finalize .barrier, .stop] ∧ q.inside = true) ∨ q.rem = [.stop]

/-- Two packets are not both requests of the same PE. -/
def Apart (x y : Msg M) : Prop := ¬ (x.reply = true ∧ y.reply = true ∧ x.src = y.src)

/-- Invariant of the library and of the ideal. -/
structure Inv (S : Cfg) (g : Job M) : Prop where
  tail : ∀ p, Tail (g.pe p).rem
  fin : ∀ p, 1 ≤ g.cnt .finalize p → InFin (g.pe p)
  stop : ∀ p, (g.pe p).rem = [.stop] → ∀ q, q < S.n → 1 ≤ g.cnt .finalize q
  ent : ∀ p, InFin (g.pe p) → 1 ≤ g.cnt .finalize p
  le : ∀ p, g.cnt .finalize p ≤ 1
  wait : ∀ p, (g.pe p).waiting = true → ∃ t f l, (g.pe p).rem = .send t f true :: l
  req : ∀ t, ∀ m ∈ g.fly t, m.reply = true →
    (g.pe m.src).waiting = true ∧ ∃ l, (g.pe m.src).rem = .send t m.f true :: l
  pair : ∀ t, (g.fly t).Pairwise Apart
  one : ∀ p, (g.pe p).inside = true → ∃ c k l, (g.pe p).rem = .coll c k :: l

theorem inv_init (S : Cfg) (m : M) : Inv S (Job.init m) := by
  refine ⟨fun p => .inr (.inr nofun), fun p h => absurd h (by simp [Job.init]), nofun,
    ?_, fun p => Nat.zero_le _, nofun, nofun, fun t => List.Pairwise.nil, nofun⟩
  rintro p (⟨h, -⟩ | h) <;> cases h

theorem Tail.tail {x : Prim M} {l : List (Prim M)} (h : Tail (x :: l)) (hx : x.plain) :
    ∀ y ∈ l, y.plain := by
  rcases h with h | h | h
  · rw [List.cons.injEq] at h
    rw [h.1] at hx
    exact absurd rfl hx
  · rw [List.cons.injEq] at h
    rw [h.1] at hx
    exact hx.elim
  · exact fun y hy => h y (List.mem_cons_of_mem _ hy)

theorem not_stop {l : List (Prim M)} (h : ∀ y ∈ l, y.plain) : l ≠ [.stop] := by
  intro e
  rw [e] at h
  exact h .stop (List.mem_singleton.mpr rfl)

/-- A PE that just goes on within plain primitives keeps the invariant. -/
theorem inv_next {S : Cfg} {g : Job M} (I : Inv S g) (p : Nat) (q : Pe M) (m : M)
    (hn : ¬ InFin (g.pe p)) (hq : Tail q.rem) (hs : ¬ q.rem = [.stop]) (hw : q.waiting = false)
    (hi : q.inside = false) (hr : ∀ t, ∀ x ∈ g.fly t, x.reply = true → x.src ≠ p) :
    Inv S ⟨m, upd g.pe p q, g.fly, g.cnt⟩ := by
  refine ⟨?_, ?_, ?_, ?_, I.le, ?_, ?_, I.pair, ?_⟩
  · intro x
    by_cases h : x = p
    · subst h; rw [show (Job.pe ⟨m, upd g.pe x q, g.fly, g.cnt⟩) x = q from upd_same _ _ _]; exact hq
    · rw [show (Job.pe ⟨m, upd g.pe p q, g.fly, g.cnt⟩) x = g.pe x from upd_ne _ _ h]
      exact I.tail x
  · intro x hx
    by_cases h : x = p
    · subst h; exact absurd (I.fin x hx) hn
    · rw [show (Job.pe ⟨m, upd g.pe p q, g.fly, g.cnt⟩) x = g.pe x from upd_ne _ _ h]
      exact I.fin x hx
  · intro x hx
    by_cases h : x = p
    · subst h
      rw [show (Job.pe ⟨m, upd g.pe x q, g.fly, g.cnt⟩) x = q from upd_same _ _ _] at hx
      exact absurd hx hs
    · rw [show (Job.pe ⟨m, upd g.pe p q, g.fly, g.cnt⟩) x = g.pe x from upd_ne _ _ h] at hx
      exact I.stop x hx
  · intro x hx
    by_cases h : x = p
    · subst h
      rw [show (Job.pe ⟨m, upd g.pe x q, g.fly, g.cnt⟩) x = q from upd_same _ _ _] at hx
      rcases hx with ⟨-, h2⟩ | h2
      · rw [hi] at h2; cases h2
      · exact absurd h2 hs
    · rw [show (Job.pe ⟨m, upd g.pe p q, g.fly, g.cnt⟩) x = g.pe x from upd_ne _ _ h] at hx
      exact I.ent x hx
  · intro x hx
    by_cases h : x = p
    · subst h
      rw [show (Job.pe ⟨m, upd g.pe x q, g.fly, g.cnt⟩) x = q from upd_same _ _ _, hw] at hx
      cases hx
    · rw [show (Job.pe ⟨m, upd g.pe p q, g.fly, g.cnt⟩) x = g.pe x from upd_ne _ _ h] at hx ⊢
      exact I.wait x hx
  · intro t x hx hxr
    rw [show (Job.pe ⟨m, upd g.pe p q, g.fly, g.cnt⟩) x.src = g.pe x.src from
      upd_ne _ _ (hr t x hx hxr)]
    exact I.req t x hx hxr
  · intro x hx
    by_cases h : x = p
    · subst h
      rw [show (Job.pe ⟨m, upd g.pe x q, g.fly, g.cnt⟩) x = q from upd_same _ _ _, hi] at hx
      cases hx
    · rw [show (Job.pe ⟨m, upd g.pe p q, g.fly, g.cnt⟩) x = g.pe x from upd_ne _ _ h] at hx ⊢
      exact I.one x hx

theorem notFin_of_head {q : Pe M} {x : Prim M} {l : List (Prim M)} (h : q.rem = x :: l)
    (hx : x.plain) : ¬ InFin q := by
  rintro (⟨h', -⟩ | h') <;> rw [h, List.cons.injEq] at h' <;> rw [h'.1] at hx
  · exact hx rfl
  · exact hx

theorem notFin_nil {q : Pe M} (h : q.rem = []) : ¬ InFin q := by
  rintro (⟨h', -⟩ | h') <;> rw [h] at h' <;> cases h'

/-- A PE whose head is no request has no request on the way. -/
theorem no_req {S : Cfg} {g : Job M} (I : Inv S g) {p : Nat} (hw : (g.pe p).waiting = false) :
    ∀ t, ∀ x ∈ g.fly t, x.reply = true → x.src ≠ p := by
  intro t x hx hxr e
  have := (I.req t x hx hxr).1
  rw [e, hw] at this
  cases this

theorem not_waiting {S : Cfg} {g : Job M} (I : Inv S g) {p : Nat}
    (h : ∀ t f l, (g.pe p).rem ≠ .send t f true :: l) : (g.pe p).waiting = false := by
  cases hw : (g.pe p).waiting with
  | false => rfl
  | true =>
    obtain ⟨t, f, l, e⟩ := I.wait p hw
    exact absurd e (h t f l)

theorem not_inside {S : Cfg} {g : Job M} (I : Inv S g) {p : Nat}
    (h : ∀ c k l, (g.pe p).rem ≠ .coll c k :: l) : (g.pe p).inside = false := by
  cases hw : (g.pe p).inside with
  | false => rfl
  | true =>
    obtain ⟨t, f, l, e⟩ := I.one p hw
    exact absurd e (h t f l)

/-- The PE goes on to the rest `l` of its call. -/
theorem inv_rest {S : Cfg} {g : Job M} (I : Inv S g) (p : Nat) (x : Prim M) (l : List (Prim M))
    (m : M) (h : (g.pe p).rem = x :: l) (hx : x.plain) (hs : ∀ t f, x ≠ .send t f true) :
    Inv S ⟨m, upd g.pe p { g.pe p with inside := false, rem := l }, g.fly, g.cnt⟩ := by
  have hp : ∀ y ∈ l, y.plain := Tail.tail (h ▸ I.tail p) hx
  have hw : (g.pe p).waiting = false := not_waiting I (by
    intro t f l' e; rw [h, List.cons.injEq] at e; exact hs t f e.1)
  exact inv_next I p _ m (notFin_of_head h hx) (.inr (.inr hp)) (not_stop hp) hw rfl (no_req I hw)

/-- The same when the PE is inside no collective. -/
theorem inv_rest' {S : Cfg} {g : Job M} (I : Inv S g) (p : Nat) (x : Prim M) (l : List (Prim M))
    (m : M) (h : (g.pe p).rem = x :: l) (hx : x.plain) (hs : ∀ t f, x ≠ .send t f true)
    (hc : ∀ c k, x ≠ .coll c k) :
    Inv S ⟨m, upd g.pe p { g.pe p with rem := l }, g.fly, g.cnt⟩ := by
  have hi : (g.pe p).inside = false := not_inside I (by
    intro c k l' e; rw [h, List.cons.injEq] at e; exact hc c k e.1)
  have := inv_rest I p x l m h hx hs
  rw [← hi] at this
  exact this

/-- A packet nobody waits for. -/
theorem inv_post {S : Cfg} {g : Job M} (I : Inv S g) (t : Nat) (x : Msg M)
    (hx : x.reply = false) : Inv S ⟨g.mem, g.pe, upd g.fly t (g.fly t ++ [x]), g.cnt⟩ := by
  refine ⟨I.tail, I.fin, I.stop, I.ent, I.le, I.wait, ?_, ?_, I.one⟩
  · intro u y hy hyr
    by_cases h : u = t
    · subst h
      rw [show (Job.fly ⟨g.mem, g.pe, upd g.fly u (g.fly u ++ [x]), g.cnt⟩) u = g.fly u ++ [x] from
        upd_same _ _ _, List.mem_append, List.mem_singleton] at hy
      rcases hy with hy | rfl
      · exact I.req u y hy hyr
      · rw [hx] at hyr; cases hyr
    · rw [show (Job.fly ⟨g.mem, g.pe, upd g.fly t (g.fly t ++ [x]), g.cnt⟩) u = g.fly u from
        upd_ne _ _ h] at hy
      exact I.req u y hy hyr
  · intro u
    by_cases h : u = t
    · subst h
      rw [show (Job.fly ⟨g.mem, g.pe, upd g.fly u (g.fly u ++ [x]), g.cnt⟩) u = g.fly u ++ [x] from
        upd_same _ _ _, List.pairwise_append]
      refine ⟨I.pair u, List.pairwise_singleton _ _, ?_⟩
      intro y _ z hz hyz
      rw [List.mem_singleton] at hz
      rw [hz, hx] at hyz
      cases hyz.2.1
    · rw [show (Job.fly ⟨g.mem, g.pe, upd g.fly t (g.fly t ++ [x]), g.cnt⟩) u = g.fly u from
        upd_ne _ _ h]
      exact I.pair u

/-- A packet taken out. -/
theorem inv_take {S : Cfg} {g : Job M} (I : Inv S g) (t : Nat) (a b : List (Msg M)) (x : Msg M)
    (m : M) (h : g.fly t = a ++ x :: b) : Inv S ⟨m, g.pe, upd g.fly t (a ++ b), g.cnt⟩ := by
  have sub : ∀ y, y ∈ a ++ b → y ∈ g.fly t := by
    intro y hy
    rw [h, List.mem_append, List.mem_cons]
    rw [List.mem_append] at hy
    exact hy.imp_right .inr
  refine ⟨I.tail, I.fin, I.stop, I.ent, I.le, I.wait, ?_, ?_, I.one⟩
  · intro u y hy hyr
    by_cases e : u = t
    · subst e
      rw [show (Job.fly ⟨m, g.pe, upd g.fly u (a ++ b), g.cnt⟩) u = a ++ b from
        upd_same _ _ _] at hy
      exact I.req u y (sub y hy) hyr
    · rw [show (Job.fly ⟨m, g.pe, upd g.fly t (a ++ b), g.cnt⟩) u = g.fly u from
        upd_ne _ _ e] at hy
      exact I.req u y hy hyr
  · intro u
    by_cases e : u = t
    · subst e
      rw [show (Job.fly ⟨m, g.pe, upd g.fly u (a ++ b), g.cnt⟩) u = a ++ b from upd_same _ _ _]
      have := I.pair u
      rw [h] at this
      exact this.sublist (List.Sublist.append_left (List.sublist_cons_self x b) a)
    · rw [show (Job.fly ⟨m, g.pe, upd g.fly t (a ++ b), g.cnt⟩) u = g.fly u from upd_ne _ _ e]
      exact I.pair u

/-- Everybody called finalize once somebody is through. -/
theorem inv_step {S : Cfg} (L : S.Mpi) {prog : Nat → Nat → M → Call M} {free : Bool} {g g' : Job M}
    (I : Inv S g) (h : Step S prog free g g') : Inv S g' := by
  cases h with
  | start p hp h =>
    have hw : (g.pe p).waiting = false := not_waiting I (by intro t f l e; rw [h] at e; cases e)
    refine inv_next I p _ _ (notFin_nil h) ?_ ?_ rfl rfl (no_req I hw)
    · exact (expand_tail S (g.pe p).known (g.pe p).out (prog p (g.pe p).calls g.mem)).imp_right .inr
    · rcases expand_tail S (g.pe p).known (g.pe p).out (prog p (g.pe p).calls g.mem) with t | t
      · intro e; exact absurd (t.symm.trans e) nofun
      · exact not_stop t
  | act p hp f l h => exact inv_rest' I p _ l _ h trivial nofun nofun
  | poll p hp l h => exact inv_rest' I p _ l _ h trivial nofun nofun
  | send p hp t f r l h hw =>
    cases r with
    | false => exact inv_post (inv_rest' I p _ l g.mem h trivial nofun nofun) t _ rfl
    | true =>
      refine ⟨?_, ?_, ?_, ?_, I.le, ?_, ?_, ?_, ?_⟩
      · intro x
        by_cases e : x = p
        · subst e; (dsimp only; rw [upd_same _ _ _]); exact I.tail x
        · (dsimp only; rw [upd_ne _ _ e]); exact I.tail x
      · intro x hx
        by_cases e : x = p
        · subst e; exact absurd (I.fin x hx) (notFin_of_head h trivial)
        · (dsimp only; rw [upd_ne _ _ e]); exact I.fin x hx
      · intro x hx
        by_cases e : x = p
        · subst e
          (dsimp only at hx; rw [upd_same _ _ _] at hx)
          exact absurd (h.symm.trans hx) nofun
        · (dsimp only at hx; rw [upd_ne _ _ e] at hx); exact I.stop x hx
      · intro x hx
        by_cases e : x = p
        · subst e
          (dsimp only at hx; rw [upd_same _ _ _] at hx)
          exact absurd hx (notFin_of_head (x := .send t f true) (l := l) h trivial)
        · (dsimp only at hx; rw [upd_ne _ _ e] at hx); exact I.ent x hx
      · intro x hx
        by_cases e : x = p
        · subst e; (dsimp only; rw [upd_same _ _ _]); exact ⟨t, f, l, h⟩
        · (dsimp only at hx ⊢; rw [upd_ne _ _ e] at hx ⊢); exact I.wait x hx
      · intro u y hy hyr
        have old : y ∈ g.fly u → _ := fun hy => by
          have ne := no_req I hw u y hy hyr
          have := I.req u y hy hyr
          rw [← upd_ne g.pe { g.pe p with waiting := true } ne] at this
          exact this
        by_cases e : u = t
        · subst e
          (dsimp only at hy; rw [upd_same _ _ _, List.mem_append, List.mem_singleton] at hy)
          rcases hy with hy | rfl
          · exact old hy
          · refine ⟨?_, l, ?_⟩ <;> (dsimp only; rw [upd_same _ _ _])
            · exact rfl
            · exact h
        · (dsimp only at hy; rw [upd_ne _ _ e] at hy)
          exact old hy
      · intro u
        by_cases e : u = t
        · subst e
          (dsimp only; rw [upd_same _ _ _, List.pairwise_append])
          refine ⟨I.pair u, List.pairwise_singleton _ _, ?_⟩
          intro y hy z hz hyz
          rw [List.mem_singleton] at hz
          rw [hz] at hyz
          exact no_req I hw u y hy hyz.1 hyz.2.2
        · (dsimp only; rw [upd_ne _ _ e]); exact I.pair u
      · intro x hx
        by_cases e : x = p
        · subst e
          (dsimp only at hx ⊢; rw [upd_same _ _ _] at hx ⊢)
          exact I.one x hx
        · (dsimp only at hx ⊢; rw [upd_ne _ _ e] at hx ⊢); exact I.one x hx
  | handle t ht a b m h hf hs =>
    have T := inv_take I t a b m (m.f g.mem) h
    cases hr : m.reply with
    | false => rw [if_neg (by exact nofun)]; exact T
    | true =>
      rw [if_pos rfl]
      have mem : m ∈ g.fly t := by rw [h, List.mem_append]; exact .inr List.mem_cons_self
      obtain ⟨hw, l, hl⟩ := I.req t m mem hr
      have hp : ∀ y ∈ l, y.plain := Tail.tail (x := .send t m.f true) (hl ▸ I.tail m.src) trivial
      have hi : (g.pe m.src).inside = false := not_inside I (by
        intro c k l' e; rw [hl, List.cons.injEq] at e; exact absurd e.1 nofun)
      have hrem : (g.pe m.src).answered.rem = l := by
        show (g.pe m.src).rem.tail = l
        rw [hl]; rfl
      refine inv_next T m.src _ _ (notFin_of_head hl trivial) ?_ ?_ rfl hi ?_
      · rw [hrem]; exact .inr (.inr hp)
      · rw [hrem]; exact not_stop hp
      · intro u x hx hxr e
        by_cases hu : u = t
        · subst hu
          (dsimp only at hx; rw [upd_same _ _ _, List.mem_append] at hx)
          have P := I.pair u
          rw [h, List.pairwise_append] at P
          rcases hx with hx | hx
          · exact P.2.2 x hx m List.mem_cons_self ⟨hxr, hr, e⟩
          · exact (List.pairwise_cons.mp P.2.1).1 x hx ⟨hr, hxr, e.symm⟩
        · (dsimp only at hx; rw [upd_ne _ _ hu] at hx)
          obtain ⟨-, l', hl'⟩ := I.req u x hx hxr
          rw [e, hl, List.cons.injEq, Prim.send.injEq] at hl'
          exact hu hl'.1.1.symm
  | enter p hp c k l h hi =>
    have hw : (g.pe p).waiting = false := not_waiting I (by
      intro t f l e; rw [h, List.cons.injEq] at e; exact absurd e.1 nofun)
    have np : ¬ 1 ≤ g.cnt .finalize p := by
      intro e
      rcases I.fin p e with ⟨-, h2⟩ | h2
      · rw [hi] at h2; cases h2
      · rw [h, List.cons.injEq] at h2; exact absurd h2.1 nofun
    have mono : ∀ x, g.cnt .finalize x ≤
        (if Comm.finalize = c then upd (g.cnt .finalize) p (g.cnt .finalize p + 1)
          else g.cnt .finalize) x := by
      intro x
      split
      · by_cases e : x = p
        · subst e; rw [upd_same]; exact Nat.le_succ _
        · rw [upd_ne _ _ e]; exact Nat.le_refl _
      · exact Nat.le_refl _
    refine ⟨?_, ?_, ?_, ?_, ?_, ?_, ?_, I.pair, ?_⟩
    · intro x
      by_cases e : x = p
      · subst e; (dsimp only; rw [upd_same _ _ _]); exact I.tail x
      · (dsimp only; rw [upd_ne _ _ e]); exact I.tail x
    · intro x hx
      by_cases e : x = p
      · subst e
        (dsimp only; rw [upd_same _ _ _])
        by_cases hc : Comm.finalize = c
        · refine .inl ⟨?_, rfl⟩
          rcases I.tail x with t | t | t
          · exact t
          · rw [h, List.cons.injEq] at t; exact absurd t.1 nofun
          · rw [h] at t; exact absurd hc.symm (t _ List.mem_cons_self)
        · exact absurd (show 1 ≤ g.cnt .finalize x from by
            dsimp only at hx; rw [if_neg hc] at hx; exact hx) np
      · (dsimp only; rw [upd_ne _ _ e])
        refine I.fin x ?_
        by_cases hc : Comm.finalize = c
        · (dsimp only at hx; rw [if_pos hc, upd_ne _ _ e] at hx); exact hx
        · (dsimp only at hx; rw [if_neg hc] at hx); exact hx
    · intro x hx q hq
      refine Nat.le_trans ?_ (mono q)
      by_cases e : x = p
      · subst e
        (dsimp only at hx; rw [upd_same _ _ _] at hx)
        exact absurd (h.symm.trans hx) (by intro e; rw [List.cons.injEq] at e; exact absurd e.1 nofun)
      · (dsimp only at hx; rw [upd_ne _ _ e] at hx); exact I.stop x hx q hq
    · intro x hx
      by_cases e : x = p
      · subst e
        (dsimp only at hx; rw [upd_same _ _ _] at hx)
        have hc : Comm.finalize = c := by
          rcases hx with ⟨h1, -⟩ | h1
          · have := h.symm.trans h1
            rw [List.cons.injEq, Prim.coll.injEq] at this; exact this.1.1.symm
          · have := h.symm.trans h1
            rw [List.cons.injEq] at this; exact absurd this.1 nofun
        dsimp only
        rw [if_pos hc, upd_same]
        exact Nat.le_add_left 1 _
      · (dsimp only at hx; rw [upd_ne _ _ e] at hx)
        exact Nat.le_trans (I.ent x hx) (mono x)
    · intro x
      dsimp only
      by_cases hc : Comm.finalize = c
      · rw [if_pos hc]
        by_cases e : x = p
        · subst e; rw [upd_same]; omega
        · rw [upd_ne _ _ e]; exact I.le x
      · rw [if_neg hc]; exact I.le x
    · intro x hx
      by_cases e : x = p
      · subst e; (dsimp only at hx; rw [upd_same _ _ _] at hx); exact absurd (hw.symm.trans hx) nofun
      · (dsimp only at hx ⊢; rw [upd_ne _ _ e] at hx ⊢); exact I.wait x hx
    · intro u y hy hyr
      (dsimp only; rw [upd_ne _ _ (no_req I hw u y hy hyr)])
      exact I.req u y hy hyr
    · intro x hx
      by_cases e : x = p
      · subst e; (dsimp only; rw [upd_same _ _ _]); exact ⟨c, k, l, h⟩
      · (dsimp only at hx ⊢; rw [upd_ne _ _ e] at hx ⊢); exact I.one x hx
  | leave p hp c k l h hi hr =>
    by_cases hc : c = .finalize
    · have hw : (g.pe p).waiting = false := not_waiting I (by
        intro t f l e; rw [h, List.cons.injEq] at e; exact absurd e.1 nofun)
      have hl : k = .barrier ∧ l = [.stop] := by
        rcases I.tail p with t | t | t
        · rw [h, List.cons.injEq, Prim.coll.injEq] at t; exact ⟨t.1.2, t.2⟩
        · rw [h, List.cons.injEq] at t; exact absurd t.1 nofun
        · rw [h] at t; exact absurd hc (t _ List.mem_cons_self)
      obtain ⟨rfl, rfl⟩ := hl
      subst hc
      have all : ∀ q, q < S.n → 1 ≤ g.cnt .finalize q := by
        intro q hq
        have := L.sync .barrier _ _ _ rfl hr q (List.mem_range.mpr hq)
        have h1 : 1 ≤ g.cnt .finalize p := I.ent p (.inl ⟨h, hi⟩)
        exact Nat.le_trans h1 (of_decide_eq_true this)
      refine ⟨?_, ?_, ?_, ?_, I.le, ?_, ?_, I.pair, ?_⟩
      · intro x
        by_cases e : x = p
        · subst e; (dsimp only; rw [upd_same _ _ _]); exact .inr (.inl rfl)
        · (dsimp only; rw [upd_ne _ _ e]); exact I.tail x
      · intro x hx
        by_cases e : x = p
        · subst e; (dsimp only; rw [upd_same _ _ _]); exact .inr rfl
        · (dsimp only; rw [upd_ne _ _ e]); exact I.fin x hx
      · intro x hx q hq; exact all q hq
      · intro x hx
        by_cases e : x = p
        · subst e; exact all x hp
        · (dsimp only at hx; rw [upd_ne _ _ e] at hx); exact I.ent x hx
      · intro x hx
        by_cases e : x = p
        · subst e; (dsimp only at hx; rw [upd_same _ _ _] at hx); exact absurd (hw.symm.trans hx) nofun
        · (dsimp only at hx ⊢; rw [upd_ne _ _ e] at hx ⊢); exact I.wait x hx
      · intro u y hy hyr
        (dsimp only; rw [upd_ne _ _ (no_req I hw u y hy hyr)])
        exact I.req u y hy hyr
      · intro x hx
        by_cases e : x = p
        · subst e; (dsimp only at hx; rw [upd_same _ _ _] at hx); cases hx
        · (dsimp only at hx ⊢; rw [upd_ne _ _ e] at hx ⊢); exact I.one x hx
    · exact inv_rest I p _ l _ h hc nofun
  | pass p hp b l h hb => exact inv_rest' I p _ l _ h trivial nofun nofun

theorem inv_run {S : Cfg} (L : S.Mpi) {prog : Nat → Nat → M → Call M} {free : Bool} {m : M}
    {g : Job M} (h : Run S prog free (.init m) g) : Inv S g := by
  generalize he : Job.init m = g0 at h
  induction h with
  | refl => subst he; exact inv_init S m
  | step a b _ hs ih => exact inv_step L ih hs

/-! ## When the library hangs and the specification would not -/

/-- C83: the only way for the library to hang where the specification lets the job go on: a PE
waits in an MPI collective during which it handles no active messages, and there is an active
message for it. -/
theorem C83_cause (S : Cfg) (L : S.Mpi) (prog : Nat → Nat → M → Call M) (m : M) (g : Job M)
    (hr : Run S prog false (.init m) g) (hs : Stuck S prog false g) :
    Done S g ∨ Stuck S prog true g ∨ ∃ t, t < S.n ∧ Blind S g t ∧ g.fly t ≠ [] := by
  have I := inv_run L hr
  -- somebody is through finalize: then everybody is
  by_cases hd : ∃ t, t < S.n ∧ (g.pe t).rem = [.stop]
  · obtain ⟨t, ht, hst⟩ := hd
    refine .inl (fun p hp => ?_)
    rcases I.fin p (I.stop t hst p hp) with ⟨h1, h2⟩ | h1
    · refine absurd (Step.leave g p hp _ _ _ h1 h2 (L.all _ _ _ _ ?_)) (hs _)
      intro q hq
      have hq' : q < S.n := List.mem_range.mp hq
      exact decide_eq_true (Nat.le_trans (I.le p) (I.stop t hst q hq'))
    · exact h1
  refine .inr ?_
  by_cases hb : ∃ t, t < S.n ∧ Blind S g t ∧ g.fly t ≠ []
  · exact .inr hb
  refine .inl (fun g' h => ?_)
  cases h with
  | start p hp h => exact hs _ (.start g p hp h)
  | act p hp f l h => exact hs _ (.act g p hp f l h)
  | poll p hp l h => exact hs _ (.poll g p hp l h)
  | send p hp t f r l h hw => exact hs _ (.send g p hp t f r l h hw)
  | enter p hp c k l h hi => exact hs _ (.enter g p hp c k l h hi)
  | leave p hp c k l h hi hr => exact hs _ (.leave g p hp c k l h hi hr)
  | pass p hp b l h hb => exact hs _ (.pass g p hp b l h hb)
  | handle t ht a b x h hf _ =>
    cases ha : S.async with
    | true => exact hs _ (.handle g t ht a b x h hf (.inr (.inl ha)))
    | false =>
      have no : ¬ Serving g t := fun e => hs _ (.handle g t ht a b x h hf (.inr (.inr e)))
      cases hrem : (g.pe t).rem with
      | nil => exact hs _ (.start g t ht hrem)
      | cons y l =>
        cases y with
        | act f => exact hs _ (.act g t ht f l hrem)
        | poll => exact hs _ (.poll g t ht l hrem)
        | send u f r =>
          cases hw : (g.pe t).waiting with
          | false => exact hs _ (.send g t ht u f r l hrem hw)
          | true => exact no (by unfold Serving; rw [hrem]; exact hw)
        | coll c k =>
          cases hi : (g.pe t).inside with
          | false => exact hs _ (.enter g t ht c k l hrem hi)
          | true =>
            cases hk : k.serves with
            | true => exact no (by unfold Serving; rw [hrem]; exact ⟨hi, hk⟩)
            | false =>
              refine hb ⟨t, ht, ⟨ha, hi, c, k, l, hrem, hk⟩, ?_⟩
              rw [h]
              exact fun e => absurd (List.append_eq_nil_iff.mp e).2 nofun
        | wait b =>
          cases hv : b g.mem with
          | true => exact hs _ (.pass g t ht b l hrem hv)
          | false => exact no (by unfold Serving; rw [hrem]; exact hv)
        | stop =>
          refine hd ⟨t, ht, ?_⟩
          rcases I.tail t with e | e | e
          · rw [hrem, List.cons.injEq] at e; exact absurd e.1 nofun
          · exact e
          · rw [hrem] at e; exact (e _ List.mem_cons_self).elim

/-- The library calls during which a PE handles active messages whenever it is blocked:
everything except team split and destroy, space attach and detach, and the first use of an
active set other than the world. -/
def Call.Serves (S : Cfg) (known : List (Nat × Nat × Nat)) : Call M → Prop
  | .teamSplit _ => False
  | .teamSplit2d _ => False
  | .teamDestroy _ => False
  | .spaceAttach _ => False
  | .spaceDetach k => S.dynWin = true ∧ k = 0
  | .asetBarrier a b c => (a = 0 ∧ b = 0 ∧ c = S.n) ∨ (a, b, c) ∈ known
  | .asetColl a b c _ => (a = 0 ∧ b = 0 ∧ c = S.n) ∨ (a, b, c) ∈ known
  | .asetBcastOut a b c _ => (a = 0 ∧ b = 0 ∧ c = S.n) ∨ (a, b, c) ∈ known
  | .local' _ => True
  | .putAm _ _ => True
  | .getAm _ _ => True
  | .amoPostAm _ _ => True
  | .amoFetchAm _ _ => True
  | .quiet => True
  | .barrierAll => True
  | .syncAll => True
  | .alloc _ => True
  | .free _ => True
  | .waitUntil _ => True
  | .test _ => True
  | .setLock _ _ => True
  | .clearLock _ _ _ => True
  | .testLock _ => True
  | .teamColl _ _ => True
  | .finalize => True

/-- A primitive that is no collective without progress. -/
def Prim.open' : Prim M → Prop
  | .coll _ k => k.serves = true
  | .act _ => True
  | .poll => True
  | .send _ _ _ => True
  | .wait _ => True
  | .stop => True

theorem flush_open (out : Nat → Bool) (ts : List Nat) :
    ∀ x ∈ (flush out ts : List (Prim M)), x.open' := by
  intro x hx
  unfold flush at hx
  rw [List.mem_map] at hx
  obtain ⟨t, -, rfl⟩ := hx
  exact trivial

theorem op_open (c : Comm) (op : CollOp) :
    ∀ x ∈ (op.mpi.map (.coll c) : List (Prim M)), x.open' := by
  intro x hx
  rw [List.mem_map] at hx
  obtain ⟨k, hk, rfl⟩ := hx
  show k.serves = true
  cases op with
  | sync => rw [List.mem_singleton.mp hk]; rfl
  | broadcast => rw [List.mem_singleton.mp hk]; rfl
  | fcollect => rw [List.mem_singleton.mp hk]; rfl
  | alltoall => rw [List.mem_singleton.mp hk]; rfl
  | alltoalls => rw [List.mem_singleton.mp hk]; rfl
  | reduce => rw [List.mem_singleton.mp hk]; rfl
  | collect same =>
    cases same
    · rcases List.mem_cons.mp hk with e | e
      · rw [e]; rfl
      · rw [List.mem_singleton.mp e]; rfl
    · rcases List.mem_cons.mp hk with e | e
      · rw [e]; rfl
      · rw [List.mem_singleton.mp e]; rfl

theorem acquire_open (S : Cfg) (kn : List (Nat × Nat × Nat)) (a b c : Nat)
    (h : (a = 0 ∧ b = 0 ∧ c = S.n) ∨ (a, b, c) ∈ kn) :
    (acquire S kn a b c : List (Prim M)) = [] := by
  unfold acquire
  rcases h with ⟨rfl, rfl, rfl⟩ | h
  · rw [if_pos (by simp [isWorld])]
  · split <;> rfl

theorem open_append {l r : List (Prim M)} (hl : ∀ x ∈ l, x.open') (hr : ∀ x ∈ r, x.open') :
    ∀ x ∈ l ++ r, x.open' := by
  intro x hx
  rw [List.mem_append] at hx
  exact hx.elim (hl x) (hr x)

theorem open_cons {a : Prim M} {r : List (Prim M)} (ha : a.open') (hr : ∀ x ∈ r, x.open') :
    ∀ x ∈ a :: r, x.open' := by
  intro x hx
  rw [List.mem_cons] at hx
  exact hx.elim (fun h => h ▸ ha) (hr x)

theorem open_nil : ∀ x ∈ ([] : List (Prim M)), x.open' := nofun

theorem expand_open (S : Cfg) (kn : List (Nat × Nat × Nat)) (out : Nat → Bool) (c : Call M)
    (h : c.Serves S kn) : ∀ x ∈ expand S kn out c, x.open' := by
  have bar : ∀ x ∈ (barrierAll S out : List (Prim M)), x.open' :=
    open_append (flush_open _ _) (open_cons rfl open_nil)
  cases c with
  | local' f => exact open_cons trivial open_nil
  | putAm t f => exact open_cons trivial open_nil
  | getAm t f => exact open_cons trivial open_nil
  | amoPostAm t f => exact open_cons trivial open_nil
  | amoFetchAm t f => exact open_cons trivial open_nil
  | quiet => exact flush_open _ _
  | barrierAll => exact bar
  | syncAll => exact open_cons rfl open_nil
  | alloc f => exact open_cons trivial bar
  | free f => exact open_append bar (open_cons trivial open_nil)
  | waitUntil b => exact open_cons trivial open_nil
  | test f => exact open_cons trivial (open_cons trivial open_nil)
  | setLock f b => exact open_cons trivial (open_cons trivial open_nil)
  | clearLock f b g => exact open_cons trivial (open_cons trivial (open_cons trivial open_nil))
  | testLock f => exact open_cons trivial open_nil
  | teamColl i op => exact op_open _ _
  | teamSplit i => exact h.elim
  | teamSplit2d i => exact h.elim
  | teamDestroy i => exact h.elim
  | asetBarrier a b c =>
    refine open_append (flush_open _ _) ?_
    rw [acquire_open S kn a b c h]
    exact open_cons rfl open_nil
  | asetColl a b c op =>
    show ∀ x ∈ acquire S kn a b c ++ _, _
    rw [acquire_open S kn a b c h]
    exact op_open _ _
  | asetBcastOut a b c f =>
    show ∀ x ∈ acquire S kn a b c ++ _, _
    rw [acquire_open S kn a b c h]
    exact open_cons trivial open_nil
  | spaceAttach k => exact h.elim
  | spaceDetach k =>
    refine open_cons ?_ ?_
    · rw [if_pos h.1]; rfl
    · rw [h.2]; exact open_nil
  | finalize => exact open_cons rfl (open_cons trivial open_nil)

/-- If every call a PE makes in an execution is one of the calls above, no PE is ever inside a
collective without progress. -/
theorem open_run {S : Cfg} {prog : Nat → Nat → M → Call M} {m : M} {g : Job M}
    (hr : Run S prog false (.init m) g)
    (hc : ∀ h p, Run S prog false (.init m) h → p < S.n → (h.pe p).rem = [] →
      (prog p (h.pe p).calls h.mem).Serves S (h.pe p).known) :
    ∀ p, ∀ x ∈ (g.pe p).rem, x.open' := by
  generalize he : Job.init m = g0 at hr
  induction hr with
  | refl => subst he; exact fun p => open_nil
  | step a b hab hs ih =>
    subst he
    have go : ∀ (p : Nat) (q : Pe M), (∀ x ∈ q.rem, x.open') →
        ∀ r, ∀ x ∈ (upd a.pe p q r).rem, x.open' := by
      intro p q hq r
      by_cases e : r = p
      · subst e; rw [upd_same]; exact hq
      · rw [upd_ne _ _ e]; exact ih r
    have sub : ∀ p y l, (a.pe p).rem = y :: l → ∀ x ∈ l, x.open' := by
      intro p y l e x hx
      exact ih p x (e ▸ List.mem_cons_of_mem _ hx)
    cases hs with
    | start p hp h => exact go p _ (expand_open _ _ _ _ (hc a p hab hp h))
    | act p hp f l h => exact go p _ (sub p _ l h)
    | poll p hp l h => exact go p _ (sub p _ l h)
    | send p hp t f r l h hw =>
      refine go p _ ?_
      cases r
      · exact sub p _ l h
      · exact ih p
    | handle t ht x y k h hf hs =>
      cases hk : k.reply
      · rw [if_neg nofun]; exact ih
      · rw [if_pos rfl]
        refine go k.src _ ?_
        intro z hz
        exact ih k.src z (List.mem_of_mem_tail hz)
    | enter p hp c k l h hi => exact go p _ (ih p)
    | leave p hp c k l h hi hr => exact go p _ (sub p _ l h)
    | pass p hp b l h hb => exact go p _ (sub p _ l h)

/-- C83 (partial: excludes the calls of `C83_fails`): with the asynchronous thread, or if the
program only makes calls of `Call.Serves`, the library hangs only if all PEs are through
finalize or if the job would hang although every active message were handled at once. -/
theorem C83_progress_partial (S : Cfg) (L : S.Mpi) (prog : Nat → Nat → M → Call M) (m : M)
    (g : Job M)
    (hc : S.async = true ∨ ∀ h p, Run S prog false (.init m) h → p < S.n → (h.pe p).rem = [] →
      (prog p (h.pe p).calls h.mem).Serves S (h.pe p).known)
    (hr : Run S prog false (.init m) g) (hs : Stuck S prog false g) :
    Done S g ∨ Stuck S prog true g := by
  rcases C83_cause S L prog m g hr hs with h | h | ⟨t, -, ⟨ha, -, c, k, l, hrem, hk⟩, -⟩
  · exact .inl h
  · exact .inr h
  · rcases hc with hc | hc
    · rw [ha] at hc; cases hc
    · have := open_run hr hc t (.coll c k) (hrem ▸ List.mem_cons_self)
      rw [show (Prim.coll c k : Prim M).open' = (k.serves = true) from rfl, hk] at this
      cases this

/-- C83 (partial, as before): such a program ends on every schedule with the library if it does
whenever every active message is handled at once. -/
theorem C83_ends_partial (S : Cfg) (L : S.Mpi) (prog : Nat → Nat → M → Call M) (m : M)
    (hc : S.async = true ∨ ∀ h p, Run S prog false (.init m) h → p < S.n → (h.pe p).rem = [] →
      (prog p (h.pe p).calls h.mem).Serves S (h.pe p).known)
    (hi : ∀ g, Run S prog true (.init m) g → Stuck S prog true g → Done S g) :
    ∀ g, Run S prog false (.init m) g → Stuck S prog false g → Done S g := by
  intro g hr hs
  rcases C83_progress_partial S L prog m g hc hr hs with h | h
  · exact h
  · exact hi g (run_sound S prog _ g hr) h

/-- The calls that send active messages. -/
def Call.direct : Call M → Prop
  | .putAm _ _ => False
  | .getAm _ _ => False
  | .amoPostAm _ _ => False
  | .amoFetchAm _ _ => False
  | .local' _ => True
  | .quiet => True
  | .barrierAll => True
  | .syncAll => True
  | .alloc _ => True
  | .free _ => True
  | .waitUntil _ => True
  | .test _ => True
  | .setLock _ _ => True
  | .clearLock _ _ _ => True
  | .testLock _ => True
  | .teamColl _ _ => True
  | .teamSplit _ => True
  | .teamSplit2d _ => True
  | .teamDestroy _ => True
  | .asetBarrier _ _ _ => True
  | .asetColl _ _ _ _ => True
  | .asetBcastOut _ _ _ _ => True
  | .spaceAttach _ => True
  | .spaceDetach _ => True
  | .finalize => True

/-- A primitive that sends nothing. -/
def Prim.mute : Prim M → Prop
  | .send _ _ _ => False
  | .coll _ _ => True
  | .act _ => True
  | .poll => True
  | .wait _ => True
  | .stop => True

theorem expand_mute (S : Cfg) (kn : List (Nat × Nat × Nat)) (c : Call M) (h : c.direct) :
    ∀ x ∈ expand S kn (fun _ => false) c, x.mute := by
  have fl : ∀ ts, (flush (fun _ => false) ts : List (Prim M)) = [] := by
    intro ts
    unfold flush
    have e : ts.filter (fun _ => false) = [] := List.filter_eq_nil_iff.mpr (fun _ _ => nofun)
    rw [e]
    rfl
  have ac : ∀ a b d, ∀ x ∈ (acquire S kn a b d : List (Prim M)), x.mute := by
    intro a b d x hx
    unfold acquire at hx
    split at hx
    · cases hx
    · split at hx
      · cases hx
      · rw [List.mem_singleton.mp hx]; exact trivial
  have mp : ∀ d (ks : List Mpi), ∀ x ∈ (ks.map (.coll d) : List (Prim M)), x.mute := by
    intro d ks x hx
    obtain ⟨k, -, rfl⟩ := List.mem_map.mp hx
    exact trivial
  intro x hx
  cases c with
  | local' f => rw [List.mem_singleton.mp hx]; exact trivial
  | putAm t f => exact h.elim
  | getAm t f => exact h.elim
  | amoPostAm t f => exact h.elim
  | amoFetchAm t f => exact h.elim
  | quiet => rw [expand, fl] at hx; cases hx
  | barrierAll =>
    rw [expand, barrierAll, fl] at hx
    rw [List.mem_singleton.mp hx]; exact trivial
  | syncAll => rw [List.mem_singleton.mp hx]; exact trivial
  | alloc f =>
    rw [expand, barrierAll, fl] at hx
    rcases List.mem_cons.mp hx with e | e
    · rw [e]; exact trivial
    · rw [List.mem_singleton.mp e]; exact trivial
  | free f =>
    rw [expand, barrierAll, fl] at hx
    rcases List.mem_cons.mp hx with e | e
    · rw [e]; exact trivial
    · rw [List.mem_singleton.mp e]; exact trivial
  | waitUntil b => rw [List.mem_singleton.mp hx]; exact trivial
  | test f =>
    rcases List.mem_cons.mp hx with e | e
    · rw [e]; exact trivial
    · rw [List.mem_singleton.mp e]; exact trivial
  | setLock f b =>
    rcases List.mem_cons.mp hx with e | e
    · rw [e]; exact trivial
    · rw [List.mem_singleton.mp e]; exact trivial
  | clearLock f b g =>
    rcases List.mem_cons.mp hx with e | e
    · rw [e]; exact trivial
    · rcases List.mem_cons.mp e with e | e
      · rw [e]; exact trivial
      · rw [List.mem_singleton.mp e]; exact trivial
  | testLock f => rw [List.mem_singleton.mp hx]; exact trivial
  | teamColl i op => exact mp _ _ x hx
  | teamSplit i => rw [List.mem_singleton.mp hx]; exact trivial
  | teamSplit2d i =>
    rcases List.mem_cons.mp hx with e | e
    · rw [e]; exact trivial
    · rw [List.mem_singleton.mp e]; exact trivial
  | teamDestroy i => rw [List.mem_singleton.mp hx]; exact trivial
  | asetBarrier a b c =>
    rw [expand, fl] at hx
    rcases List.mem_append.mp hx with e | e
    · cases e
    · rcases List.mem_append.mp e with e | e
      · exact ac _ _ _ x e
      · rw [List.mem_singleton.mp e]; exact trivial
  | asetColl a b c op =>
    rcases List.mem_append.mp hx with e | e
    · exact ac _ _ _ x e
    · exact mp _ _ x e
  | asetBcastOut a b c f =>
    rcases List.mem_append.mp hx with e | e
    · exact ac _ _ _ x e
    · rw [List.mem_singleton.mp e]; exact trivial
  | spaceAttach k =>
    rcases List.mem_cons.mp hx with e | e
    · rw [e]; exact trivial
    · rcases List.mem_cons.mp e with e | e
      · rw [e]; split <;> exact trivial
      · rw [(List.mem_replicate.mp e).2]; exact trivial
  | spaceDetach k =>
    rcases List.mem_cons.mp hx with e | e
    · rw [e]; split <;> exact trivial
    · rw [(List.mem_replicate.mp e).2]; exact trivial
  | finalize =>
    rcases List.mem_cons.mp hx with e | e
    · rw [e]; exact trivial
    · rw [List.mem_singleton.mp e]; exact trivial

theorem outAfter_false (S : Cfg) (c : Call M) (h : c.direct) :
    outAfter S (fun _ => false) c = fun _ => false := by
  funext x
  cases c with
  | putAm t f => exact h.elim
  | getAm t f => exact h.elim
  | amoPostAm t f => exact h.elim
  | amoFetchAm t f => exact h.elim
  | quiet => exact ite_self _
  | barrierAll => exact ite_self _
  | alloc f => exact ite_self _
  | free f => exact ite_self _
  | asetBarrier a b c => exact ite_self _
  | local' f => rfl
  | syncAll => rfl
  | waitUntil b => rfl
  | test f => rfl
  | setLock f b => rfl
  | clearLock f b g => rfl
  | testLock f => rfl
  | teamColl i op => rfl
  | teamSplit i => rfl
  | teamSplit2d i => rfl
  | teamDestroy i => rfl
  | asetColl a b c op => rfl
  | asetBcastOut a b c f => rfl
  | spaceAttach k => rfl
  | spaceDetach k => rfl
  | finalize => rfl

/-- Without calls that send active messages nothing is ever sent, not even a flush. -/
theorem mute_run {S : Cfg} {prog : Nat → Nat → M → Call M} {m : M} {g : Job M} {free : Bool}
    (hr : Run S prog free (.init m) g) (hc : ∀ p n m, (prog p n m).direct) :
    (∀ p, ∀ x ∈ (g.pe p).rem, x.mute) ∧ (∀ p, (g.pe p).out = fun _ => false) ∧
      ∀ t, g.fly t = [] := by
  generalize he : Job.init m = g0 at hr
  induction hr with
  | refl => subst he; exact ⟨fun _ => nofun, fun _ => rfl, fun _ => rfl⟩
  | step a b hab hs ih =>
    obtain ⟨i1, i2, i3⟩ := ih
    have go : ∀ (p : Nat) (q : Pe M), (∀ x ∈ q.rem, x.mute) → (q.out = fun _ => false) →
        (∀ r, ∀ x ∈ (upd a.pe p q r).rem, x.mute) ∧
          ∀ r, (upd a.pe p q r).out = fun _ => false := by
      intro p q h1 h2
      constructor <;> intro r <;> by_cases e : r = p
      · subst e; rw [upd_same]; exact h1
      · rw [upd_ne _ _ e]; exact i1 r
      · subst e; rw [upd_same]; exact h2
      · rw [upd_ne _ _ e]; exact i2 r
    have sub : ∀ p y l, (a.pe p).rem = y :: l → ∀ x ∈ l, x.mute := by
      intro p y l e x hx
      exact i1 p x (e ▸ List.mem_cons_of_mem _ hx)
    cases hs with
    | start p hp h =>
      have := go p (begin' S (a.pe p) (prog p (a.pe p).calls a.mem)) ?_ ?_
      · exact ⟨this.1, this.2, i3⟩
      · unfold begin'; rw [i2 p]; exact expand_mute _ _ _ (hc _ _ _)
      · unfold begin'; rw [i2 p]; exact outAfter_false _ _ (hc _ _ _)
    | act p hp f l h =>
      have := go p { a.pe p with rem := l } (sub p _ l h) (i2 p); exact ⟨this.1, this.2, i3⟩
    | poll p hp l h =>
      have := go p { a.pe p with rem := l } (sub p _ l h) (i2 p); exact ⟨this.1, this.2, i3⟩
    | send p hp t f r l h hw => exact (i1 p (.send t f r) (h ▸ List.mem_cons_self)).elim
    | handle t ht x y k h hf hs =>
      rw [i3 t] at h
      exact absurd (List.append_eq_nil_iff.mp h.symm).2 nofun
    | enter p hp c k l h hi =>
      have := go p { a.pe p with inside := true } (i1 p) (i2 p); exact ⟨this.1, this.2, i3⟩
    | leave p hp c k l h hi hr =>
      have := go p { a.pe p with inside := false, rem := l } (sub p _ l h) (i2 p)
      exact ⟨this.1, this.2, i3⟩
    | pass p hp b l h hb =>
      have := go p { a.pe p with rem := l } (sub p _ l h) (i2 p); exact ⟨this.1, this.2, i3⟩

/-- C83 for programs all of whose operations take the direct path: whatever collectives they
use, the library does not hang unless the job itself does. -/
theorem C83_direct_partial (S : Cfg) (L : S.Mpi) (prog : Nat → Nat → M → Call M) (m : M)
    (g : Job M) (hc : ∀ p n m, (prog p n m).direct)
    (hr : Run S prog false (.init m) g) (hs : Stuck S prog false g) :
    Done S g ∨ Stuck S prog true g := by
  rcases C83_cause S L prog m g hr hs with h | h | ⟨t, -, -, h⟩
  · exact .inl h
  · exact .inr h
  · exact absurd ((mute_run hr hc).2.2 t) h

/-! ## The hang is permanent -/

/-- PE `t` is inside a synchronising collective without progress that member `q` has not called
yet, and `q` waits for an answer from `t`. -/
structure Locked (S : Cfg) (g : Job M) (t q : Nat) (c : Comm) (k : Mpi) (l r : List (Prim M))
    (f : M → M) : Prop where
  ins : (g.pe t).inside = true
  rem : (g.pe t).rem = .coll c k :: l
  blind : k.serves = false
  sync : k.sync = true
  mem : q ∈ S.members c
  lt : g.cnt c q < g.cnt c t
  wait : (g.pe q).waiting = true
  head : (g.pe q).rem = .send t f true :: r

theorem locked_step {S : Cfg} (L : S.Mpi) {prog : Nat → Nat → M → Call M} {g g' : Job M}
    (I : Inv S g) (ha : S.async = false) {t q : Nat} {c : Comm} {k : Mpi} {l r : List (Prim M)}
    {f : M → M} (K : Locked S g t q c k l r f) (h : Step S prog false g g') :
    Locked S g' t q c k l r f := by
  have keep : ∀ (p : Nat) (x : Pe M) (m : M) (fl : Nat → List (Msg M)), p ≠ t → p ≠ q →
      Locked S ⟨m, upd g.pe p x, fl, g.cnt⟩ t q c k l r f := by
    intro p x m fl h1 h2
    refine ⟨?_, ?_, K.blind, K.sync, K.mem, K.lt, ?_, ?_⟩ <;> dsimp only
    · rw [upd_ne _ _ h1.symm]; exact K.ins
    · rw [upd_ne _ _ h1.symm]; exact K.rem
    · rw [upd_ne _ _ h2.symm]; exact K.wait
    · rw [upd_ne _ _ h2.symm]; exact K.head
  have hd : ∀ p y l', (g.pe p).rem = y :: l' → (∀ c k, y ≠ .coll c k) →
      (∀ t f, y ≠ .send t f true) → p ≠ t ∧ p ≠ q := by
    intro p y l' e h1 h2
    constructor
    · rintro rfl
      rw [K.rem, List.cons.injEq] at e
      exact h1 c k e.1.symm
    · rintro rfl
      rw [K.head, List.cons.injEq] at e
      exact h2 t f e.1.symm
  cases h with
  | start p hp h =>
    refine keep p _ _ _ ?_ ?_
    · rintro rfl; rw [K.rem] at h; cases h
    · rintro rfl; rw [K.head] at h; cases h
  | act p hp f' l' h => obtain ⟨h1, h2⟩ := hd p _ _ h nofun nofun; exact keep p _ _ _ h1 h2
  | poll p hp l' h => obtain ⟨h1, h2⟩ := hd p _ _ h nofun nofun; exact keep p _ _ _ h1 h2
  | send p hp u f' r' l' h hw =>
    refine keep p _ _ _ ?_ ?_
    · rintro rfl; rw [K.rem, List.cons.injEq] at h; exact absurd h.1 nofun
    · rintro rfl; rw [K.wait] at hw; cases hw
  | handle u hu a b m h hf hs =>
    cases hm : m.reply with
    | false =>
      rw [if_neg nofun]
      exact ⟨K.ins, K.rem, K.blind, K.sync, K.mem, K.lt, K.wait, K.head⟩
    | true =>
      rw [if_pos rfl]
      have mem : m ∈ g.fly u := by rw [h, List.mem_append]; exact .inr List.mem_cons_self
      obtain ⟨-, l', hl⟩ := I.req u m mem hm
      refine keep _ _ _ _ ?_ ?_
      · intro e; rw [e, K.rem, List.cons.injEq] at hl; exact absurd hl.1 nofun
      · intro e
        rw [e, K.head, List.cons.injEq, Prim.send.injEq] at hl
        have e2 : t = u := hl.1.1
        subst e2
        rcases hs with hs | hs | hs
        · cases hs
        · rw [ha] at hs; cases hs
        · unfold Serving at hs
          rw [K.rem] at hs
          exact absurd (K.blind.symm.trans hs.2) nofun
  | enter p hp c' k' l' h hi =>
    have h1 : p ≠ t := by rintro rfl; rw [K.ins] at hi; cases hi
    have h2 : p ≠ q := by rintro rfl; rw [K.head, List.cons.injEq] at h; exact absurd h.1 nofun
    have T := keep p { g.pe p with inside := true } g.mem g.fly h1 h2
    refine ⟨T.ins, T.rem, T.blind, T.sync, T.mem, ?_, T.wait, T.head⟩
    dsimp only
    split
    · rw [upd_ne _ _ h1.symm, upd_ne _ _ h2.symm]; exact K.lt
    · exact K.lt
  | leave p hp c' k' l' h hi hr =>
    refine keep p _ _ _ ?_ ?_
    · rintro rfl
      rw [K.rem, List.cons.injEq, Prim.coll.injEq] at h
      obtain ⟨⟨rfl, rfl⟩, -⟩ := h
      have := of_decide_eq_true (L.sync _ _ _ _ K.sync hr q K.mem)
      exact absurd K.lt (Nat.not_lt.mpr this)
    · rintro rfl; rw [K.head, List.cons.injEq] at h; exact absurd h.1 nofun
  | pass p hp b l' h hb => obtain ⟨h1, h2⟩ := hd p _ _ h nofun nofun; exact keep p _ _ _ h1 h2

/-- C83: such a pair of PEs never gets on, whatever the other PEs do; the specification lets
the job go on at every moment. -/
theorem C83_hangs (S : Cfg) (L : S.Mpi) (prog : Nat → Nat → M → Call M) (m : M) (g : Job M)
    (ha : S.async = false) (hr : Run S prog false (.init m) g) (t q : Nat) (c : Comm) (k : Mpi)
    (l r : List (Prim M)) (f : M → M) (K : Locked S g t q c k l r f) (g' : Job M)
    (h : Run S prog false g g') :
    (g'.pe t).rem = .coll c k :: l ∧ (g'.pe q).rem = .send t f true :: r := by
  have : Inv S g' ∧ Locked S g' t q c k l r f := by
    induction h with
    | refl => exact ⟨inv_run L hr, K⟩
    | step a b _ hs ih =>
      exact ⟨inv_step L ih.1 hs, locked_step L ih.1 ha ih.2 hs⟩
  exact ⟨this.2.rem, this.2.head⟩

/-! ## Polling -/

/-- Calls during which a PE neither blocks nor handles active messages: computation, routines
on the direct path, and `shmem_test_lock`. -/
def Call.Silent : Call M → Prop
  | .local' _ => True
  | .testLock _ => True
  | .putAm _ _ => False
  | .getAm _ _ => False
  | .amoPostAm _ _ => False
  | .amoFetchAm _ _ => False
  | .quiet => False
  | .barrierAll => False
  | .syncAll => False
  | .alloc _ => False
  | .free _ => False
  | .waitUntil _ => False
  | .test _ => False
  | .setLock _ _ => False
  | .clearLock _ _ _ => False
  | .teamColl _ _ => False
  | .teamSplit _ => False
  | .teamSplit2d _ => False
  | .teamDestroy _ => False
  | .asetBarrier _ _ _ => False
  | .asetColl _ _ _ _ => False
  | .asetBcastOut _ _ _ _ => False
  | .spaceAttach _ => False
  | .spaceDetach _ => False
  | .finalize => False

/-- PE `t` runs silent calls only, and PE `q` waits for an answer from `t`. -/
structure Deaf (g : Job M) (t q : Nat) (r : List (Prim M)) (f : M → M) : Prop where
  rem : ∀ x ∈ (g.pe t).rem, ∃ h, x = .act h
  wait : (g.pe q).waiting = true
  head : (g.pe q).rem = .send t f true :: r

theorem deaf_step {S : Cfg} {prog : Nat → Nat → M → Call M} {g g' : Job M} (I : Inv S g)
    (ha : S.async = false) {t q : Nat} {r : List (Prim M)} {f : M → M}
    (hp : ∀ n m, (prog t n m).Silent) (K : Deaf g t q r f) (h : Step S prog false g g') :
    Deaf g' t q r f := by
  have ne : q ≠ t := by
    rintro rfl
    obtain ⟨h, e⟩ := K.rem _ (K.head ▸ List.mem_cons_self)
    cases e
  have keep : ∀ (p : Nat) (x : Pe M) (m : M) (fl : Nat → List (Msg M)) (cn), p ≠ q →
      (p = t → ∀ y ∈ x.rem, ∃ h, y = .act h) → Deaf ⟨m, upd g.pe p x, fl, cn⟩ t q r f := by
    intro p x m fl cn h1 h2
    refine ⟨?_, ?_, ?_⟩ <;> dsimp only
    · by_cases e : t = p
      · subst e; rw [upd_same]; exact h2 rfl
      · rw [upd_ne _ _ e]; exact K.rem
    · rw [upd_ne _ _ h1.symm]; exact K.wait
    · rw [upd_ne _ _ h1.symm]; exact K.head
  have nq : ∀ p y l', (g.pe p).rem = y :: l' → (∀ t f, y ≠ .send t f true) → p ≠ q := by
    intro p y l' e h2
    rintro rfl
    rw [K.head, List.cons.injEq] at e
    exact h2 t f e.1.symm
  have nt : ∀ p y l', (g.pe p).rem = y :: l' → (∀ f, y ≠ .act f) → p ≠ t := by
    intro p y l' e h2
    rintro rfl
    obtain ⟨h, e'⟩ := K.rem y (e ▸ List.mem_cons_self)
    exact h2 h e'
  cases h with
  | start p hp' h =>
    refine keep p _ _ _ _ ?_ ?_
    · rintro rfl; rw [K.head] at h; cases h
    · rintro rfl
      have := hp (g.pe p).calls g.mem
      intro y hy
      cases hc : prog p (g.pe p).calls g.mem with
      | local' f => rw [hc] at hy; exact ⟨f, List.mem_singleton.mp hy⟩
      | testLock f => rw [hc] at hy; exact ⟨f, List.mem_singleton.mp hy⟩
      | _ => rw [hc] at this; exact this.elim
  | act p hp' f' l' h =>
    refine keep p _ _ _ _ (nq p _ _ h nofun) ?_
    rintro rfl y hy
    exact K.rem y (h ▸ List.mem_cons_of_mem _ hy)
  | poll p hp' l' h =>
    exact keep p _ _ _ _ (nq p _ _ h nofun) (fun e => absurd e (nt p _ _ h nofun))
  | send p hp' u f' r' l' h hw =>
    refine keep p _ _ _ _ ?_ (fun e => absurd e (nt p _ _ h nofun))
    rintro rfl; rw [K.wait] at hw; cases hw
  | handle u hu a b m h hf hs =>
    cases hm : m.reply with
    | false =>
      rw [if_neg nofun]
      exact ⟨K.rem, K.wait, K.head⟩
    | true =>
      rw [if_pos rfl]
      have mem : m ∈ g.fly u := by rw [h, List.mem_append]; exact .inr List.mem_cons_self
      obtain ⟨-, l', hl⟩ := I.req u m mem hm
      refine keep _ _ _ _ _ ?_ (fun e => absurd e (nt m.src _ _ hl nofun))
      intro e
      rw [e, K.head, List.cons.injEq, Prim.send.injEq] at hl
      have e2 : t = u := hl.1.1
      subst e2
      rcases hs with hs | hs | hs
      · cases hs
      · rw [ha] at hs; cases hs
      · unfold Serving at hs
        cases hr : (g.pe t).rem with
        | nil => rw [hr] at hs; exact hs
        | cons y l =>
          obtain ⟨h, rfl⟩ := K.rem y (hr ▸ List.mem_cons_self)
          rw [hr] at hs
          exact hs
  | enter p hp' c' k' l' h hi =>
    exact keep p _ _ _ _ (nq p _ _ h nofun) (fun e => absurd e (nt p _ _ h nofun))
  | leave p hp' c' k' l' h hi hr =>
    exact keep p _ _ _ _ (nq p _ _ h nofun) (fun e => absurd e (nt p _ _ h nofun))
  | pass p hp' b l' h hb =>
    exact keep p _ _ _ _ (nq p _ _ h nofun) (fun e => absurd e (nt p _ _ h nofun))

/-- C83: a PE that polls a lock with `shmem_test_lock` (or memory with direct-path routines)
and makes no other call never answers: PE `q` waits for it for ever. -/
theorem C83_poll_fails (S : Cfg) (L : S.Mpi) (prog : Nat → Nat → M → Call M) (m : M) (g : Job M)
    (ha : S.async = false) (hr : Run S prog false (.init m) g) (t q : Nat)
    (hp : ∀ n m, (prog t n m).Silent) (r : List (Prim M)) (f : M → M) (K : Deaf g t q r f)
    (g' : Job M) (h : Run S prog false g g') :
    (g'.pe q).waiting = true ∧ (g'.pe q).rem = .send t f true :: r := by
  have : Inv S g' ∧ Deaf g' t q r f := by
    induction h with
    | refl => exact ⟨inv_run L hr, K⟩
    | step a b _ hs ih => exact ⟨inv_step L ih.1 hs, deaf_step ih.1 ha hp ih.2 hs⟩
  exact ⟨this.2.wait, this.2.head⟩

/-- C83: `shmem_test` answers: from any state in which PE `t` is about to call it, steps of `t`
alone lead to a state in which a packet for `t` is handled. -/
theorem C83_test (S : Cfg) (prog : Nat → Nat → M → Call M) (g : Job M) (t : Nat) (ht : t < S.n)
    (hr : (g.pe t).rem = []) (f : M → M) (hc : prog t (g.pe t).calls g.mem = .test f)
    (x : Msg M) (b : List (Msg M)) (hx : g.fly t = x :: b) :
    ∃ g' g'', Run S prog false g g' ∧ g'.fly t = x :: b ∧ Step S prog false g' g'' ∧
      g''.fly t = b ∧ g''.mem = x.f (f g.mem) := by
  have s1 := Step.start (S := S) (prog := prog) (free := false) g t ht hr
  have e1 : (upd g.pe t (begin' S (g.pe t) (prog t (g.pe t).calls g.mem)) t).rem =
      [.act f, .poll] := by
    rw [upd_same, hc]; rfl
  have s2 := Step.act (S := S) (prog := prog) (free := false)
    ⟨g.mem, upd g.pe t (begin' S (g.pe t) (prog t (g.pe t).calls g.mem)), g.fly, g.cnt⟩
    t ht f [.poll] e1
  have r2 := Run.step _ _ _ (Run.step _ _ _ (Run.refl g) s1) s2
  refine ⟨_, _, r2, hx, Step.handle _ t ht [] b x hx nofun (.inr (.inr ?_)), ?_, rfl⟩
  · unfold Serving
    dsimp only
    rw [upd_same]
    exact trivial
  · exact upd_same _ _ _
