import Verif.Cs.Live
/-!
# Critical sections: what the threads of a PE can rely on (C84)
-/
namespace Verif.Cs

/-- structures that only one thread at a time may access: the list of spaces, the heap's allocator state, the pending
receive, the two caches, a space's memory pool -/
def Serial : Obj → Prop
  | .list => True
  | .heap => True
  | .cb => True
  | .comms => True
  | .dtypes => True
  | .fld _ .pool => True
  | .fld _ .attr => False
  | .fld _ .cfg => False
  | .fld _ .ctx => False
  | .fld _ .dict => False

/-- every access ahead of a thread goes to a space in the list or to one its caller named -/
theorem good_mem {L : List Nat} {c : Option Call} {b : Bool} {k : List Act} (h : Good L c b k) {x : Act} (hx : x ∈ k)
    {s : Nat} (hs : target x = some s) : (b = true ∧ s ∈ L) ∨ names c s := by
  induction k generalizing b with
  | nil => simp at hx
  | cons a k ih =>
    obtain ⟨h1, -, h3⟩ := h
    rcases List.mem_cons.1 hx with rfl | hx
    · exact h1 s hs
    · rcases ih h3 hx with ⟨e, e'⟩ | e
      · left; refine ⟨?_, e'⟩
        cases b <;> simp_all
      · exact .inr e

/-- the next access to a memory pool is made holding its mutex, or by the creator before the space is in the list, or
by the destroyer after it left -/
theorem pool_access {P : Par} {g : St} (h : Inv2 P g) {t : Nat} {a : Act} {k : List Act} (hk : g.code t = a :: k) {s : Nat}
    (ho : accesses a = some (.fld s .pool)) :
    target a = some s ∧ (.pool s ∈ g.held t ∨ ((g.cur t = some (.create s) ∨ g.cur t = some (.destroy s)) ∧ s ∉ g.list)) := by
  have hW := h.wf t
  have hG := h.good t
  rw [hk] at hW hG
  have hS := hG.2.1
  cases a with
  | touch o =>
    simp only [accesses, Option.some.injEq] at ho
    subst ho
    refine ⟨rfl, .inl ?_⟩
    rcases hW.1 with ⟨-, e⟩ | e
    · simp at e
    · exact e _ rfl
  | init x f =>
    simp only [accesses, Option.some.injEq, Obj.fld.injEq] at ho
    obtain ⟨rfl, rfl⟩ := ho
    obtain ⟨e1, e2⟩ := hS rfl
    exact ⟨rfl, .inr ⟨.inl e1, h.unpub t _ e1 (by rw [hk]; exact List.mem_cons_of_mem _ e2)⟩⟩
  | drop x =>
    simp only [accesses, Option.some.injEq, Obj.fld.injEq, and_true] at ho
    subst ho
    refine ⟨rfl, .inr ⟨.inr hS.1, (h.rem t _ hS.1).resolve_left ?_⟩⟩
    rw [hk]; simpa using hS.2
  | free x =>
    simp only [accesses, Option.some.injEq, Obj.fld.injEq, and_true] at ho
    subst ho
    refine ⟨rfl, .inr ⟨.inr hS.1, (h.rem t _ hS.1).resolve_left ?_⟩⟩
    rw [hk]
    simp only [List.mem_cons, reduceCtorEq, false_or]
    intro e
    exact hS.2 _ e rfl
  | setctx => simp [accesses] at ho
  | flushCtx => simp [accesses] at ho
  | _ => simp [accesses] at ho

/-- **C84.** No two threads are about to access the same serial structure. -/
theorem C84_exclusive {P : Par} {R : St → Nat → Call → Prop} {g : St} (hg : Reach P R g) {t t' : Nat} {a a' : Act}
    {k k' : List Act} {o : Obj} (hk : g.code t = a :: k) (hk' : g.code t' = a' :: k') (ho : Serial o)
    (ha : accesses a = some o) (ha' : accesses a' = some o) : t = t' := by
  have h := inv2_reach hg
  have key : ∀ (l : Lk), guard o = some l → o ≠ .cb → (∀ s, o ≠ .fld s .pool) → ∀ t a k, g.code t = a :: k →
      accesses a = some o → l ∈ g.held t := by
    intro l hl hc hp t a k hk ha
    have hW := h.wf t
    rw [hk] at hW
    cases a with
    | touch x =>
      simp only [accesses, Option.some.injEq] at ha; subst ha
      rcases hW.1 with ⟨-, e⟩ | e
      · exact (hc e).elim
      · exact e _ hl
    | append x =>
      simp only [accesses, Option.some.injEq] at ha; subst ha
      simp only [guard, Option.some.injEq] at hl; subst hl
      obtain ⟨⟨H', e⟩, -⟩ := hW; rw [e]; simp
    | remove x =>
      simp only [accesses, Option.some.injEq] at ha; subst ha
      simp only [guard, Option.some.injEq] at hl; subst hl
      obtain ⟨⟨H', e⟩, -⟩ := hW; rw [e]; simp
    | first x =>
      simp only [accesses, Option.some.injEq] at ha; subst ha
      simp only [guard, Option.some.injEq] at hl; subst hl
      obtain ⟨⟨H', e⟩, -⟩ := hW; rw [e]; simp
    | walk x y =>
      simp only [accesses, Option.some.injEq] at ha; subst ha
      simp only [guard, Option.some.injEq] at hl; subst hl
      obtain ⟨⟨H', e⟩, -⟩ := hW; rw [e]; simp
    | init s f =>
      simp only [accesses, Option.some.injEq] at ha; subst ha
      cases f <;> first | (simp [guard] at hl; done) | exact (hp s rfl).elim
    | setctx s v => simp only [accesses, Option.some.injEq] at ha; subst ha; simp [guard] at hl
    | flushCtx s v => simp only [accesses, Option.some.injEq] at ha; subst ha; simp [guard] at hl
    | drop s => simp only [accesses, Option.some.injEq] at ha; exact (hp s ha.symm).elim
    | free s => simp only [accesses, Option.some.injEq] at ha; exact (hp s ha.symm).elim
    | poll => simp only [accesses, Option.some.injEq] at ha; exact (hc ha.symm).elim
    | _ => simp [accesses] at ha
  cases o with
  | list => exact h.excl t t' _ (key _ rfl (by simp) (by simp) _ _ _ hk ha) (key _ rfl (by simp) (by simp) _ _ _ hk' ha')
  | heap => exact h.excl t t' _ (key _ rfl (by simp) (by simp) _ _ _ hk ha) (key _ rfl (by simp) (by simp) _ _ _ hk' ha')
  | comms => exact h.excl t t' _ (key _ rfl (by simp) (by simp) _ _ _ hk ha) (key _ rfl (by simp) (by simp) _ _ _ hk' ha')
  | dtypes => exact h.excl t t' _ (key _ rfl (by simp) (by simp) _ _ _ hk ha) (key _ rfl (by simp) (by simp) _ _ _ hk' ha')
  | cb =>
    have cbk : ∀ t a k, g.code t = a :: k → accesses a = some .cb → (P.async = true ∧ t = 0) ∨ .cb ∈ g.held t := by
      intro t a k hk ha
      have hW := h.wf t
      rw [hk] at hW
      cases a with
      | touch x =>
        simp only [accesses, Option.some.injEq] at ha; subst ha
        rcases hW.1 with ⟨e, -⟩ | e
        · simp only [Bool.and_eq_true, decide_eq_true_eq] at e; exact .inl e
        · exact .inr (e _ rfl)
      | poll =>
        rcases hW.1 with ⟨e, -⟩ | e
        · simp only [Bool.and_eq_true, decide_eq_true_eq] at e; exact .inl e
        · right; rw [e]; simp
      | _ => simp [accesses] at ha
    by_cases hp : P.async = true
    · have n := h.nocb hp
      rcases cbk _ _ _ hk ha with ⟨-, rfl⟩ | e
      · rcases cbk _ _ _ hk' ha' with ⟨-, rfl⟩ | e
        · rfl
        · exact ((n _).1 e).elim
      · exact ((n _).1 e).elim
    · exact h.excl t t' _ ((cbk _ _ _ hk ha).resolve_left (by simp [hp])) ((cbk _ _ _ hk' ha').resolve_left (by simp [hp]))
  | fld s f =>
    cases f <;> try exact ho.elim
    obtain ⟨x, y⟩ := pool_access h hk ha
    obtain ⟨x', y'⟩ := pool_access h hk' ha'
    have hg1 := h.good t
    have hg2 := h.good t'
    rw [hk] at hg1
    rw [hk'] at hg2
    rcases y with y | ⟨y, z⟩
    · rcases y' with y' | ⟨y', z'⟩
      · exact h.excl t t' _ y y'
      · rcases hg1.1 s x with ⟨-, e⟩ | e
        · exact (z' e).elim
        · exact h.uniq _ _ _ y' e
    · rcases hg2.1 s x' with ⟨-, e⟩ | e
      · exact (z e).elim
      · exact (h.uniq _ _ _ y e).symm

/-- **C84.** No thread is about to access a space object that was freed. -/
theorem C84_alive {P : Par} {R : St → Nat → Call → Prop} {g : St} (hg : Reach P R g) {t : Nat} {a : Act} {k : List Act}
    {s : Nat} (hk : g.code t = a :: k) (hs : target a = some s) : s < g.next ∧ g.freed s = false := by
  have h := inv2_reach hg
  have hG := h.good t
  rw [hk] at hG
  rcases hG.1 s hs with ⟨-, e⟩ | e
  · exact h.lst s e
  · refine ⟨h.nam t s e, ?_⟩
    by_contra hf
    have := (h.dead t s e (by simpa using hf)).2 a (by rw [hk]; simp)
    exact this hs

/-- a held mutex is going to be released -/
theorem wf_exit {p : Bool} {l : Lk} : ∀ (k : List Act) {H : List Lk}, Wf p H k → l ∈ H → .exit l ∈ k := by
  intro k
  induction k with
  | nil => intro H h hl; have h : H = [] := h; subst h; simp at hl
  | cons a k ih =>
    intro H h hl
    cases a with
    | enter x => exact List.mem_cons_of_mem _ (ih h.2 (List.mem_cons_of_mem _ hl))
    | exit x =>
      obtain ⟨H', rfl, h⟩ := h
      rcases List.mem_cons.1 hl with rfl | hl
      · simp
      · exact List.mem_cons_of_mem _ (ih h hl)
    | touch => exact List.mem_cons_of_mem _ (ih h.2 hl)
    | init => exact List.mem_cons_of_mem _ (ih h hl)
    | setctx => exact List.mem_cons_of_mem _ (ih h hl)
    | flushCtx => exact List.mem_cons_of_mem _ (ih h hl)
    | append => exact List.mem_cons_of_mem _ (ih h.2.2 hl)
    | remove => exact List.mem_cons_of_mem _ (ih h.2.2 hl)
    | drop => exact List.mem_cons_of_mem _ (ih h hl)
    | free => exact List.mem_cons_of_mem _ (ih h hl)
    | first => exact List.mem_cons_of_mem _ (ih h.2.2 hl)
    | walk => exact List.mem_cons_of_mem _ (ih h.2.2 hl)
    | poll => exact List.mem_cons_of_mem _ (ih h.2 hl)
    | wait => exact List.mem_cons_of_mem _ (ih h.2 hl)

/-- **C84.** Once `shmemx_space_destroy` has taken the space off the list, no other thread has an access to it ahead, and
none holds its mutex. -/
theorem C84_destroy_alone {P : Par} {R : St → Nat → Call → Prop} {g : St} (hg : Reach P R g) {t t' : Nat} {s : Nat}
    (hc : g.cur t = some (.destroy s)) (hr : .remove s ∉ g.code t) (ht : t' ≠ t) :
    (∀ x ∈ g.code t', target x ≠ some s) ∧ .pool s ∉ g.held t' := by
  have h := inv2_reach hg
  have hn : s ∉ g.list := (h.rem t s hc).resolve_left hr
  have key : ∀ x ∈ g.code t', target x ≠ some s := by
    intro x hx hs
    rcases good_mem (h.good t') hx hs with ⟨-, e⟩ | e
    · exact hn e
    · exact ht (h.uniq _ _ _ (.inr hc) e)
  exact ⟨key, fun hl => key _ (wf_exit _ (h.wf t') hl) rfl⟩

/-- **C84.** A call that returns holds no mutex. -/
theorem C84_released {P : Par} {R : St → Nat → Call → Prop} {g : St} (hg : Reach P R g) {t : Nat} (hk : g.code t = []) :
    g.held t = [] := by
  have := (inv2_reach hg).wf t
  rw [hk] at this
  exact this

/-- **C84.** A mutex is unlocked by the thread that holds it. -/
theorem C84_unlock {P : Par} {R : St → Nat → Call → Prop} {g : St} (hg : Reach P R g) {t : Nat} {l : Lk} {k : List Act}
    (hk : g.code t = .exit l :: k) : l ∈ g.held t := by
  have := (inv2_reach hg).wf t
  rw [hk] at this
  obtain ⟨H', e, -⟩ := this
  rw [e]; simp

/-- **C84.** A thread does not lock a mutex it holds. -/
theorem C84_relock {P : Par} {R : St → Nat → Call → Prop} {g : St} (hg : Reach P R g) {t : Nat} {l : Lk} {k : List Act}
    (hk : g.code t = .enter l :: k) : l ∉ g.held t := by
  have := (inv2_reach hg).wf t
  rw [hk] at this
  intro hl
  have := this.1 l hl
  simp at this

/-- **C84.** A thread that waits for other PEs holds no mutex. -/
theorem C84_wait {P : Par} {R : St → Nat → Call → Prop} {g : St} (hg : Reach P R g) {t : Nat} {k : List Act}
    (hk : g.code t = .wait :: k) : g.held t = [] := by
  have := (inv2_reach hg).wf t
  rw [hk] at this
  exact this.1

/-- **C84.** No deadlock on mutexes: from every state, a thread about to lock a mutex obtains it by steps of the threads
of this process in which nobody waits for another PE. -/
theorem C84_lock_granted {P : Par} {R : St → Nat → Call → Prop} {g : St} (hg : Reach P R g) {t : Nat} {l : Lk}
    {k : List Act} (hk : g.code t = .enter l :: k) : ∃ g', Inner P g g' ∧ g'.code t = k ∧ l ∈ g'.held t :=
  granted (inv2_reach hg) hk

/-- a read of a member nobody stored, or a use of `ctx_list` that is not the finished block -/
def Faulty (g : St) : Act → Prop
  | .touch (.fld s f) => g.ini s f = false
  | .flushCtx s _ => g.ctx s ≠ .live
  | .touch .list => False
  | .touch .heap => False
  | .touch .cb => False
  | .touch .comms => False
  | .touch .dtypes => False
  | .enter _ => False
  | .exit _ => False
  | .init _ _ => False
  | .setctx _ _ => False
  | .append _ => False
  | .remove _ => False
  | .drop _ => False
  | .free _ => False
  | .first _ => False
  | .walk _ _ => False
  | .poll => False
  | .wait => False

/-- the call stores to members that quiet reads without a common mutex -/
def Writes : Option Call → Prop
  | some (.create _) => True
  | some (.attach _) => True
  | some (.detach _) => True
  | some .malloc => False
  | some .free => False
  | some (.freeIn _) => False
  | some (.op _) => False
  | some (.strided _ _) => False
  | some .quiet => False
  | some .barrier => False
  | some (.aset _) => False
  | some .test => False
  | some (.destroy _) => False
  | some (.smalloc _) => False
  | some .serve => False
  | none => False

/-- `shmem_quiet` and `shmem_fence` are called only while every space with contexts is attached, and never overlap
creation, attach or detach of any space -/
def Apart (P : Par) (g : St) (_ : Nat) (c : Call) : Prop :=
  (c = .quiet → (∀ t', ¬ Writes (g.cur t')) ∧ ∀ s ∈ g.list, 0 < P.nctx s → g.ctx s = .live) ∧
  (Writes (some c) → ∀ t', g.cur t' ≠ some .quiet)

/-- what an access ahead of a thread in call `c` may be; auxiliary to the proof -/
def Loc (P : Par) (c : Option Call) : Act → Prop
  | .touch (.fld s f) => (f = .dict → P.dyn = false) ∧
      ((names c s ∧ c ≠ some (.create s)) ∨ f = .attr ∨ f = .pool ∨ c = some .quiet)
  | .flushCtx s _ => c = some .quiet ∧ 0 < P.nctx s
  | .setctx _ _ => Writes c
  | .append s => c = some (.create s)
  | .first .flush => c = some .quiet
  | .walk .flush _ => c = some .quiet
  | .first (.find _) => True
  | .first (.free _) => True
  | .first .handle => True
  | .walk (.find _) _ => True
  | .walk (.free _) _ => True
  | .walk .handle _ => True
  | .touch .list => True
  | .touch .heap => True
  | .touch .cb => True
  | .touch .comms => True
  | .touch .dtypes => True
  | .enter _ => True
  | .exit _ => True
  | .init _ _ => True
  | .remove _ => True
  | .drop _ => True
  | .free _ => True
  | .poll => True
  | .wait => True

theorem body_loc (P : Par) (c : Call) : ∀ x ∈ body P c, Loc P (some c) x := by
  intro x hx
  cases c with
  | op s =>
    cases s <;> cases h : P.dyn <;> simp [body, query, useSpace, h] at hx <;> (try casesm* _ ∨ _) <;> subst_vars <;>
      simp [Loc, names, h]
  | strided s hit =>
    cases s <;> cases hit <;> cases h : P.dyn <;> simp [body, query, useSpace, h] at hx <;> (try casesm* _ ∨ _) <;>
      subst_vars <;> simp [Loc, names, h]
  | aset hit => cases hit <;> simp [body] at hx <;> (try casesm* _ ∨ _) <;> subst_vars <;> trivial
  | test => cases h : P.async <;> simp [body, progress, h] at hx <;> (try casesm* _ ∨ _) <;> subst_vars <;> trivial
  | create s =>
    cases h : P.dyn <;> simp [body, h] at hx <;> (try casesm* _ ∨ _) <;> subst_vars <;> simp [Loc, Writes]
  | attach s =>
    cases h : P.dyn <;> by_cases h0 : P.nctx s = 0 <;> simp [body, h, h0] at hx <;> (try casesm* _ ∨ _) <;> subst_vars <;>
      simp [Loc, Writes, names]
  | detach s =>
    cases h : P.dyn <;> simp [body, h] at hx <;> (try casesm* _ ∨ _) <;> subst_vars <;> simp [Loc, Writes, names]
  | malloc => simp [body] at hx; (try casesm* _ ∨ _) <;> subst_vars <;> trivial
  | free => simp [body] at hx; (try casesm* _ ∨ _) <;> subst_vars <;> trivial
  | freeIn s => simp [body] at hx; (try casesm* _ ∨ _) <;> subst_vars <;> trivial
  | quiet => simp [body] at hx; (try casesm* _ ∨ _) <;> subst_vars <;> simp [Loc]
  | barrier => simp [body] at hx; subst_vars; trivial
  | destroy s => simp [body] at hx; (try casesm* _ ∨ _) <;> subst_vars <;> simp [Loc, names]
  | smalloc s => simp [body] at hx; (try casesm* _ ∨ _) <;> subst_vars <;> simp [Loc]
  | serve => simp [body] at hx; (try casesm* _ ∨ _) <;> subst_vars <;> trivial

theorem cont_loc {P : Par} {g : St} {a : Act} {d : List Act} {c : Option Call} (hd : d ∈ cont P g a) (ha : Loc P c a) :
    ∀ x ∈ d, Loc P c x := by
  intro x hx
  cases a with
  | walk w cur =>
    cases cur with
    | none => simp only [cont, List.mem_singleton] at hd; subst hd; simp at hx
    | some s =>
      cases w with
      | flush =>
        simp only [cont, List.mem_singleton] at hd
        subst hd
        simp only [List.mem_append, List.mem_map, List.mem_cons, List.not_mem_nil, or_false, List.mem_range] at hx
        rcases hx with ((rfl | ⟨i, hi, rfl⟩) | hx) | rfl
        · exact ⟨by simp, .inr (.inr (.inr ha))⟩
        · exact ⟨ha, by omega⟩
        · split at hx
          · simp at hx
          · rename_i hn
            simp only [List.mem_singleton] at hx
            subst hx
            exact ⟨fun _ => by simpa using hn, .inr (.inr (.inr ha))⟩
        · exact ha
      | find y =>
        simp only [cont] at hd
        split at hd <;> simp only [List.mem_singleton] at hd <;> subst hd <;> simp at hx <;> (try casesm* _ ∨ _) <;>
          subst_vars <;> simp [Loc]
      | free y =>
        simp only [cont] at hd
        split at hd <;> simp only [List.mem_singleton] at hd <;> subst hd <;> simp at hx <;> (try casesm* _ ∨ _) <;>
          subst_vars <;> simp [Loc]
      | handle =>
        simp only [cont, List.mem_cons, List.not_mem_nil, or_false] at hd
        rcases hd with rfl | rfl <;> simp at hx <;> (try casesm* _ ∨ _) <;> subst_vars <;> simp [Loc]
  | first w =>
    simp only [cont, List.mem_singleton] at hd
    subst hd
    simp only [List.mem_singleton] at hx
    subst hx
    cases w <;> exact ha
  | poll =>
    simp only [cont, List.mem_cons, List.not_mem_nil, or_false] at hd
    rcases hd with rfl | rfl | rfl | rfl | rfl | rfl | rfl <;> simp [handler] at hx <;> (try casesm* _ ∨ _) <;> subst_vars <;> trivial
  | wait =>
    simp only [cont, List.mem_cons, List.not_mem_nil, or_false] at hd
    rcases hd with rfl | rfl
    · simp at hx
    · simp only [progress] at hx
      split at hx <;> simp at hx <;> (try casesm* _ ∨ _) <;> subst_vars <;> trivial
  | _ =>
    simp only [cont, List.mem_singleton] at hd
    subst hd
    simp at hx

/-- `init s f` is done when needed: for each creation that is running, what it has not stored is still ahead, and ahead
of the append for the pool and the attributes -/
structure Inv3 (P : Par) (g : St) : Prop where
  loc : ∀ t, ∀ x ∈ g.code t, Loc P (g.cur t) x
  pub : ∀ t s, g.cur t = some (.create s) → ∃ n, g.code t = (body P (.create s)).drop n ∧
    ∀ f, .init s f ∈ (body P (.create s)).take n → g.ini s f = true
  full : ∀ s, s < g.next → (∃ t, g.cur t = some (.create s)) ∨ ∀ f, (f = .dict → P.dyn = false) → g.ini s f = true
  lst : ∀ s ∈ g.list, g.ini s .attr = true ∧ g.ini s .pool = true
  quiet : ∀ t, g.cur t = some .quiet → (∀ t', ¬ Writes (g.cur t')) ∧ ∀ s ∈ g.list, 0 < P.nctx s → g.ctx s = .live

theorem inv3_init (P : Par) : Inv3 P init := by
  constructor <;> simp [init]

theorem inv3_call {P : Par} {g : St} (h : Inv3 P g) {t : Nat} {c : Call} (hi : g.cur t = none) (hl : Legal P g t c)
    (hr : Apart P g t c) : Inv3 P (start P g t c) := by
  refine ⟨?_, ?_, ?_, h.lst, ?_⟩
  · intro t'
    by_cases e : t' = t
    · subst e; simpa [start] using body_loc P c
    · simpa [start, e] using h.loc t'
  · intro t' s hs
    by_cases e : t' = t
    · subst e
      simp only [start, Function.update_self, Option.some.injEq] at hs
      subst hs
      exact ⟨0, by simp [start], by simp⟩
    · simpa [start, e] using h.pub t' s (by simpa [start, e] using hs)
  · intro s hs
    have old : s < g.next → (∃ t', (start P g t c).cur t' = some (.create s)) ∨
        ∀ f, (f = .dict → P.dyn = false) → g.ini s f = true := by
      intro hs
      rcases h.full s hs with ⟨t', ht'⟩ | e
      · have : t' ≠ t := by rintro rfl; rw [hi] at ht'; simp at ht'
        exact .inl ⟨t', by simpa [start, this] using ht'⟩
      · exact .inr e
    cases c with
    | create x =>
      have hx := hl.2.2.1 x rfl
      simp only [start] at hs
      by_cases e : s = x
      · subst e; exact .inl ⟨t, by simp [start]⟩
      · exact old (by omega)
    | _ => exact old hs
  · intro t' ht'
    by_cases e : t' = t
    · subst e
      simp only [start, Function.update_self, Option.some.injEq] at ht'
      obtain ⟨r1, r2⟩ := hr.1 ht'
      subst ht'
      refine ⟨fun u => ?_, r2⟩
      by_cases e : u = t'
      · subst e; simp [start, Writes]
      · simpa [start, e] using r1 u
    · have ho : g.cur t' = some .quiet := by simpa [start, e] using ht'
      obtain ⟨r1, r2⟩ := h.quiet t' ho
      refine ⟨fun u => ?_, r2⟩
      by_cases e : u = t
      · subst e
        simp only [start, Function.update_self]
        exact fun w => hr.2 w t' ho
      · simpa [start, e] using r1 u

theorem init_mem {P : Par} {s : Nat} {f : Fld} (hf : f = .dict → P.dyn = false) : .init s f ∈ body P (.create s) := by
  cases f <;> simp_all [body]

theorem inv3_ret {P : Par} {g : St} (h : Inv3 P g) {t : Nat} (hk : g.code t = []) : Inv3 P (finish g t) := by
  refine ⟨?_, ?_, ?_, h.lst, ?_⟩
  · intro t'
    by_cases e : t' = t
    · subst e; simp [finish, hk]
    · simpa [finish, e] using h.loc t'
  · intro t' s hs
    by_cases e : t' = t
    · subst e; simp [finish] at hs
    · simpa [finish, e] using h.pub t' s (by simpa [finish, e] using hs)
  · intro s hs
    rcases h.full s hs with ⟨t', ht'⟩ | e
    · by_cases e : t' = t
      · subst e
        right
        intro f hf
        obtain ⟨n, h1, h2⟩ := h.pub _ s ht'
        rw [hk] at h1
        have hn : (body P (.create s)).length ≤ n := List.drop_eq_nil_iff.1 h1.symm
        refine h2 f ?_
        rw [List.take_of_length_le hn]
        exact init_mem hf
      · exact .inl ⟨t', by simpa [finish, e] using ht'⟩
    · exact .inr e
  · intro t' ht'
    by_cases e : t' = t
    · subst e; simp [finish] at ht'
    · obtain ⟨r1, r2⟩ := h.quiet t' (by simpa [finish, e] using ht')
      refine ⟨fun u => ?_, r2⟩
      by_cases e : u = t
      · subst e; simp [finish, Writes]
      · simpa [finish, e] using r1 u

theorem ini_mono {g : St} {t : Nat} {a : Act} {s : Nat} {f : Fld} (h : g.ini s f = true) : (eff g t a).ini s f = true := by
  cases a with
  | init x y =>
    simp only [eff]
    by_cases e : s = x
    · subst e
      rw [Function.update_self]
      by_cases e : f = y
      · subst e; simp
      · rw [Function.update_of_ne e]; exact h
    · rw [Function.update_of_ne e]; exact h
  | _ => exact h

theorem eff_cur {g : St} {t : Nat} {a : Act} : (eff g t a).cur = g.cur ∧ (eff g t a).next = g.next := by
  cases a <;> exact ⟨rfl, rfl⟩

theorem create_cont {P : Par} {g : St} {s : Nat} {a : Act} {c : List Act} (ha : a ∈ body P (.create s))
    (hc : c ∈ cont P g a) : c = [] := by
  simp only [body, List.mem_append, List.mem_cons, List.not_mem_nil, or_false] at ha
  rcases ha with (rfl | rfl | rfl | rfl | rfl | rfl | rfl | rfl) | ha
  case inr =>
    split at ha
    · simp at ha
    · simp only [List.mem_singleton] at ha
      subst ha
      simpa [cont] using hc
  all_goals simpa [cont] using hc

/-- the pool and the attributes are stored before the append -/
theorem append_pos {P : Par} {s n : Nat} {k : List Act} (h : (body P (.create s)).drop n = .append s :: k) :
    .init s .attr ∈ (body P (.create s)).take n ∧ .init s .pool ∈ (body P (.create s)).take n := by
  have hn : n < 9 := by
    by_contra hn
    rw [List.drop_eq_nil_of_le (by cases hd : P.dyn <;> simp [body, hd] <;> omega)] at h
    simp at h
  rcases n with _ | _ | _ | _ | _ | _ | _ | _ | _ | n
  all_goals first | omega | (cases hd : P.dyn <;> simp [body, hd] at h ⊢)

theorem inv3_exec {P : Par} {g g' : St} (h : Inv3 P g) {t : Nat} {a : Act} (he : Exec P g t a g') : Inv3 P g' := by
  obtain ⟨k, c, hk, -, hc, rfl⟩ := he
  have hL := h.loc t
  rw [hk] at hL
  have ha := hL a (by simp)
  refine ⟨?_, ?_, ?_, ?_, ?_⟩
  · intro t'
    dsimp only
    rw [eff_cur.1]
    by_cases e : t' = t
    · subst e
      rw [Function.update_self]
      intro x hx
      rcases List.mem_append.1 hx with hx | hx
      · exact cont_loc hc ha x hx
      · exact hL x (by simp [hx])
    · rw [Function.update_of_ne e]; exact h.loc t'
  · intro t' s hs
    dsimp only at hs ⊢
    rw [eff_cur.1] at hs
    obtain ⟨n, h1, h2⟩ := h.pub t' s hs
    by_cases e : t' = t
    · subst e
      rw [Function.update_self]
      rw [hk] at h1
      have hm : a ∈ body P (.create s) := List.mem_of_mem_drop (i := n) (by rw [← h1]; simp)
      obtain rfl := create_cont hm hc
      have hd : (body P (.create s)).drop (n + 1) = k := by
        rw [← List.tail_drop, ← h1]; rfl
      refine ⟨n + 1, by simp [hd], ?_⟩
      intro f hf
      have ht : (body P (.create s)).take (n + 1) = (body P (.create s)).take n ++ [a] := by
        rw [List.take_add_one, ← List.head?_drop, ← h1]; rfl
      rw [ht] at hf
      rcases List.mem_append.1 hf with hf | hf
      · exact ini_mono (h2 f hf)
      · simp only [List.mem_singleton] at hf
        subst hf
        simp [eff]
    · rw [Function.update_of_ne e]
      exact ⟨n, h1, fun f hf => ini_mono (h2 f hf)⟩
  · intro s hs
    dsimp only at hs ⊢
    rw [eff_cur.2] at hs
    rw [eff_cur.1]
    rcases h.full s hs with e | e
    · exact .inl e
    · exact .inr fun f hf => ini_mono (e f hf)
  · intro s hs
    dsimp only at hs ⊢
    have : s ∈ g.list → (eff g t a).ini s .attr = true ∧ (eff g t a).ini s .pool = true :=
      fun hs => ⟨ini_mono (h.lst s hs).1, ini_mono (h.lst s hs).2⟩
    cases a with
    | append x =>
      simp only [eff, List.mem_append, List.mem_singleton] at hs
      rcases hs with hs | rfl
      · exact this hs
      · obtain ⟨n, h1, h2⟩ := h.pub t s ha
        rw [hk] at h1
        obtain ⟨p1, p2⟩ := append_pos h1.symm
        exact ⟨h2 _ p1, h2 _ p2⟩
    | remove x => exact this (List.mem_of_mem_erase hs)
    | _ => exact this hs
  · intro t' ht'
    dsimp only at ht' ⊢
    rw [eff_cur.1] at ht' ⊢
    obtain ⟨r1, r2⟩ := h.quiet t' ht'
    refine ⟨r1, ?_⟩
    intro s hs hn
    cases a with
    | append x =>
      have ha : g.cur t = some (.create x) := ha
      have := r1 t
      rw [ha] at this
      exact (this trivial).elim
    | setctx x v => exact (r1 t ha).elim
    | remove x => exact r2 s (List.mem_of_mem_erase hs) hn
    | _ => exact r2 s hs hn

theorem inv3_reach {P : Par} {g : St} (h : Reach P (Apart P) g) : Inv3 P g := by
  induction h with
  | init => exact inv3_init P
  | step g g' _ hs ih =>
    cases hs with
    | call t c h1 h2 h3 => exact inv3_call ih h1 h2 h3
    | exec t a g' he => exact inv3_exec ih he
    | ret t h1 h2 => exact inv3_ret ih h1

/-- **C84, partial.** If quiet and fence never overlap creation, attach or detach of a space, and are called only while
every space that has contexts is attached, no thread reads a member that was not stored and none uses a `ctx_list` that
is not there. Missing: without the restriction the claim is false, `C84_violation_publish`, `C84_violation_detach`,
`C84_violation_unattached`. -/
theorem C84_safe_partial {P : Par} {g : St} (hg : Reach P (Apart P) g) {t : Nat} {a : Act} {k : List Act}
    (hk : g.code t = a :: k) : ¬ Faulty g a := by
  have h := inv2_reach hg
  have h3 := inv3_reach hg
  have hL := h3.loc t a (by rw [hk]; simp)
  have hG := h.good t
  rw [hk] at hG
  intro hf
  cases a with
  | touch o =>
    cases o with
    | fld s f =>
      obtain ⟨l1, l2⟩ := hL
      have hs := hG.1 s rfl
      have hf : g.ini s f = false := hf
      have full : (∀ t', g.cur t' ≠ some (.create s)) → s < g.next → False := by
        intro hn hlt
        rcases h3.full s hlt with ⟨t', e⟩ | e
        · exact hn t' e
        · rw [e f l1] at hf; simp at hf
      by_cases hn : names (g.cur t) s
      · by_cases hc : g.cur t = some (.create s)
        · -- the creator reads nothing
          obtain ⟨n, h1, -⟩ := h3.pub t s hc
          have : Act.touch (.fld s f) ∈ body P (.create s) := List.mem_of_mem_drop (i := n) (by rw [← h1, hk]; simp)
          cases hd : P.dyn <;> simp [body, hd] at this
        · refine full (fun t' e => ?_) (h.nam t s hn)
          have := h.uniq t' t s (.inl e) hn
          subst this
          exact hc e
      · have hin := (hs.resolve_right hn).2
        rcases l2 with ⟨e, -⟩ | rfl | rfl | e
        · exact hn e
        · rw [(h3.lst s hin).1] at hf; simp at hf
        · rw [(h3.lst s hin).2] at hf; simp at hf
        · refine full (fun t' e' => ?_) (h.lst s hin).1
          have := (h3.quiet t e).1 t'
          rw [e'] at this
          exact this trivial
    | _ => exact hf
  | flushCtx s i =>
    obtain ⟨e, e'⟩ := hL
    have hs := (hG.1 s rfl).resolve_right (by rw [e]; simp [names])
    exact hf ((h3.quiet t e).2 s hs.2 e')
  | _ => exact hf

end Verif.Cs
