import Verif.Coll.CacheProps
/-!
# The communicator cache used by several threads of a PE

coll_activeset_impl.h L73-116: the search (L55-69) and the insertion (L44-48) are critical sections; the creation of the
communicator in between is outside.
-/
namespace Verif.Coll

/-- where a thread is inside `coll_acquire_comm` -/
inductive CPc where
  | idle
  /-- about to search the cache, L87 -/
  | find (k : ASet)
  /-- inside `MPI_Group_incl` / `MPI_Comm_create_group`, L96-110 -/
  | create (k : ASet)
  /-- about to enter the communicator, L113 -/
  | insert (k : ASet) (comm : List Nat)
  /-- returned, the collective uses the communicator -/
  | use (k : ASet) (comm : List Nat)
deriving DecidableEq, Repr

/-- one PE: its cache and its threads -/
structure CSt where
  cache : Cache
  pc : Nat → CPc

/-- after `OSHMPI_coll_initialize`, coll_impl.c L10-19 -/
def CSt.init : CSt := ⟨Cache.init, fun _ => .idle⟩

/-- one step of a thread; critical sections are atomic -/
inductive CStep (npes : Nat) : CSt → CSt → Prop
  /-- L79-84: the set of all PEs -/
  | world (s : CSt) (t : Nat) (k : ASet) (h : s.pc t = .idle) (hw : k.start = 0 ∧ k.lg = 0 ∧ k.size = npes) :
      CStep npes s { s with pc := Function.update s.pc t (.use k (List.range npes)) }
  | call (s : CSt) (t : Nat) (k : ASet) (h : s.pc t = .idle) (hw : ¬ (k.start = 0 ∧ k.lg = 0 ∧ k.size = npes)) :
      CStep npes s { s with pc := Function.update s.pc t (.find k) }
  /-- L87-91 -/
  | hit (s : CSt) (t : Nat) (k : ASet) (comm : List Nat) (h : s.pc t = .find k) (hf : s.cache.find k = some comm) :
      CStep npes s { s with pc := Function.update s.pc t (.use k comm) }
  | miss (s : CSt) (t : Nat) (k : ASet) (h : s.pc t = .find k) (hf : s.cache.find k = none) :
      CStep npes s { s with pc := Function.update s.pc t (.create k) }
  /-- L96-111 -/
  | make (s : CSt) (t : Nat) (k : ASet) (comm : List Nat) (h : s.pc t = .create k) (hn : newComm npes k = .ok comm) :
      CStep npes s { s with pc := Function.update s.pc t (.insert k comm) }
  /-- L113, L29-49 -/
  | insert (s : CSt) (t : Nat) (k : ASet) (comm : List Nat) (h : s.pc t = .insert k comm) :
      CStep npes s { cache := s.cache.set k comm, pc := Function.update s.pc t (.use k comm) }
  /-- the collective has returned -/
  | done (s : CSt) (t : Nat) (k : ASet) (comm : List Nat) (h : s.pc t = .use k comm) :
      CStep npes s { s with pc := Function.update s.pc t .idle }

/-- executions of any number of threads -/
inductive CReach (npes : Nat) : CSt → Prop
  | init : CReach npes CSt.init
  | step {s s' : CSt} (h : CReach npes s) (e : CStep npes s s') : CReach npes s'

structure TInv (npes : Nat) (s : CSt) : Prop where
  good : ∀ e ∈ s.cache.objs, e.comm = e.key.pes
  count : s.cache.nobjs = s.cache.objs.length
  ins : ∀ t k comm, s.pc t = .insert k comm → comm = k.pes
  use : ∀ t k comm, s.pc t = .use k comm → comm = k.pes

theorem cpc_cases {pc : Nat → CPc} {t u : Nat} {p q : CPc} (h : Function.update pc t p u = q) :
    (u = t ∧ p = q) ∨ (u ≠ t ∧ pc u = q) := by
  by_cases e : u = t
  · subst e; rw [Function.update_self] at h; exact Or.inl ⟨rfl, h⟩
  · rw [Function.update_of_ne e] at h; exact Or.inr ⟨e, h⟩

theorem tinv_reach {npes : Nat} {s : CSt} (h : CReach npes s) : TInv npes s := by
  induction h with
  | init =>
    refine ⟨?_, rfl, ?_, ?_⟩
    · intro e he; cases he
    · intro t k c h; cases h
    · intro t k c h; cases h
  | @step s s' _ e ih =>
    have pcOnly : ∀ (t : Nat) (p : CPc), (∀ k c, p = .insert k c → c = k.pes) → (∀ k c, p = .use k c → c = k.pes) →
        TInv npes { s with pc := Function.update s.pc t p } := by
      intro t p h1 h2
      refine ⟨ih.good, ih.count, ?_, ?_⟩
      · intro u k c h
        rcases cpc_cases h with ⟨_, h⟩ | ⟨_, h⟩
        · exact h1 k c h
        · exact ih.ins u k c h
      · intro u k c h
        rcases cpc_cases h with ⟨_, h⟩ | ⟨_, h⟩
        · exact h2 k c h
        · exact ih.use u k c h
    cases e with
    | world t k h hw =>
      apply pcOnly
      · intro k c h; cases h
      · intro k c h
        cases h
        obtain ⟨h1, h2, h3⟩ := hw
        unfold ASet.pes
        rw [h1, h2, h3]
        simp
    | call t k h hw =>
      apply pcOnly
      · intro k c h; cases h
      · intro k c h; cases h
    | hit t k comm h hf =>
      apply pcOnly
      · intro k c h; cases h
      · intro k' c h; cases h; exact ih.good _ (find_some hf)
    | miss t k h hf =>
      apply pcOnly
      · intro k c h; cases h
      · intro k c h; cases h
    | make t k comm h hn =>
      apply pcOnly
      · intro k c h; cases h; exact newComm_ok hn
      · intro k c h; cases h
    | insert t k comm h =>
      have hg := ih.ins t k comm h
      refine ⟨?_, ?_, ?_, ?_⟩
      · intro e he
        rcases List.mem_cons.1 he with rfl | he
        · exact hg
        · exact ih.good e he
      · show s.cache.nobjs + 1 = ((_ :: s.cache.objs).length : Int)
        rw [ih.count]; simp
      · intro u k' c h'
        rcases cpc_cases h' with ⟨_, h'⟩ | ⟨_, h'⟩
        · cases h'
        · exact ih.ins u k' c h'
      · intro u k' c h'
        rcases cpc_cases h' with ⟨_, h'⟩ | ⟨_, h'⟩
        · cases h'; exact hg
        · exact ih.use u k' c h'
    | done t k comm h =>
      apply pcOnly
      · intro k c h; cases h
      · intro k c h; cases h

/-- **C33**, any number of threads: in every interleaving, the communicator with which a thread's collective on a set is done
contains exactly the set's PEs in order; finalization (no call in progress) passes its assertion. -/
theorem C33_threads {npes : Nat} {s : CSt} (h : CReach npes s) :
    (∀ t k comm, s.pc t = .use k comm →
      comm.length = k.size ∧ ∀ i < k.size, comm[i]? = some (k.start + i * 2 ^ k.lg)) ∧
    ∃ l, s.cache.finalize = .ok l := by
  have hi := tinv_reach h
  constructor
  · intro t k comm e
    have := hi.use t k comm e
    subst this
    unfold ASet.pes
    refine ⟨by simp, ?_⟩
    intro i hi
    simp [hi]
  · unfold Cache.finalize
    rw [if_pos (by rw [hi.count]; omega)]
    exact ⟨_, rfl⟩

/-- coll_activeset_impl.h L108-109: the tag given to `MPI_Comm_create_group` -/
def createTag (k : ASet) : Nat := k.start

/-- C33 negation under threads: the calls of `MPI_Comm_create_group` of two threads must have different tags when they run at
the same time on overlapping groups (MPI standard, section on `MPI_Comm_create_group`). The tag is the first PE only: two
threads of PE 0 that use the sets {0, 1} and {0, 2} for the first time call it at the same time with the same tag. -/
theorem C33_tag_fails : ∃ s, CReach 4 s ∧ ∃ t u k k', t ≠ u ∧ s.pc t = .create k ∧ s.pc u = .create k' ∧ k ≠ k' ∧
    createTag k = createTag k' ∧ ∃ p, p ∈ k.pes ∧ p ∈ k'.pes :=
  ⟨_, .step (.step (.step (.step .init (.call _ 0 ⟨0, 0, 2⟩ rfl (by decide))) (.call _ 1 ⟨0, 1, 2⟩ rfl (by decide)))
    (.miss _ 0 ⟨0, 0, 2⟩ rfl rfl)) (.miss _ 1 ⟨0, 1, 2⟩ rfl rfl),
    0, 1, ⟨0, 0, 2⟩, ⟨0, 1, 2⟩, by decide, by decide, by decide, by decide, by decide, 0, by decide, by decide⟩

/-- non-trivial case: two threads that miss the same set at the same time both enter their communicator -/
example : ∃ s, CReach 4 s ∧ s.pc 0 = .use ⟨0, 1, 2⟩ [0, 2] ∧ s.pc 1 = .use ⟨0, 1, 2⟩ [0, 2] ∧ s.cache.objs.length = 2 :=
  ⟨_, .step (.step (.step (.step (.step (.step (.step (.step .init
    (.call _ 0 ⟨0, 1, 2⟩ rfl (by decide))) (.call _ 1 ⟨0, 1, 2⟩ rfl (by decide)))
    (.miss _ 0 ⟨0, 1, 2⟩ rfl rfl)) (.miss _ 1 ⟨0, 1, 2⟩ rfl rfl))
    (.make _ 0 ⟨0, 1, 2⟩ [0, 2] rfl rfl)) (.make _ 1 ⟨0, 1, 2⟩ [0, 2] rfl rfl))
    (.insert _ 0 ⟨0, 1, 2⟩ [0, 2] rfl)) (.insert _ 1 ⟨0, 1, 2⟩ [0, 2] rfl), by decide, by decide, by decide⟩

end Verif.Coll
