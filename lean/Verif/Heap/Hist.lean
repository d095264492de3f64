import Verif.Heap.Steps
/-!
# Histories of heap calls (C60, C61, C62)

Calls as in `/repo/src/internal/mem_impl.c` L10-95 (each `mspace_*` call is in a critical section, so calls of all threads of a
PE form one sequence). Blocks are named by the offset of their chunk; the pointer is `base + 960 + offset`
(`hdr` plus the two words of `chunk2mem`, dlmalloc.c L2215).
-/
namespace Verif.Heap

/-- calls with legal arguments; `p` is the offset of a block obtained before -/
inductive Call where
  | malloc (req : Nat)
  | calloc (n sz : Nat)
  | align (k : Nat) (req : Nat)
  | realloc (p req : Nat)
  | free (p : Nat)
deriving DecidableEq, Repr

/-- the heap of one PE, and the blocks the user holds: what was returned and requested -/
structure Sys where
  heap : Heap
  live : List (Nat × Nat)
deriving DecidableEq, Repr

/-- blocks after a call that may return a new one -/
def Sys.grant (s : Sys) (req : Nat) : Option (Heap × Option Nat) → Option (Sys × Option Nat)
  | some (h, some q) => some (⟨h, (q, req) :: s.live⟩, some q)
  | some (h, none) => some (⟨h, s.live⟩, none)
  | none => none

/-- `a0`: address of the pointer of the block at offset 0. `ch`, `moved`: what the allocator does (see `Choice`, `realloc`).
`none`: not possible, or illegal use (a block that is not held). `mspace_malloc` L5485; `mspace_calloc` L5693-5711;
`mspace_memalign` L5789-5799 with alignment `2^k`; `mspace_realloc` L5713-5755; `mspace_free` L5598. -/
def step (a0 : Nat) (s : Sys) (ch : Choice) (moved : Bool) : Call → Option (Sys × Option Nat)
  | .malloc req => s.grant req (malloc s.heap req ch)
  | .calloc n sz => s.grant (callocReq n sz) (malloc s.heap (callocReq n sz) ch)
  | .align k req => if 2 ^ k ≤ 16 then s.grant req (malloc s.heap req ch) else s.grant req (memalign a0 s.heap (2 ^ k) req ch)
  | .realloc p req => match s.live.lookup p with
      | none => none
      | some r => match realloc s.heap p req ch moved with
        | some (h, some q) => some (⟨h, (q, req) :: s.live.erase (p, r)⟩, some q)
        | some (h, none) => some (⟨h, if moved && decide (req < maxRequest) then s.live.erase (p, r) else s.live⟩, none)
        | none => none
  | .free p => match s.live.lookup p with
      | none => none
      | some r => (free s.heap p).map (fun h => (⟨h, s.live.erase (p, r)⟩, none))

/-- histories of a heap of `cap` bytes -/
inductive Reach (a0 cap : Nat) : Sys → Prop
  | init {h : Heap} : create cap = some h → Reach a0 cap ⟨h, []⟩
  | step {s s' : Sys} {o : Option Nat} {c : Call} {ch : Choice} {moved : Bool} : Reach a0 cap s → step a0 s ch moved c = some (s', o) →
      Reach a0 cap s'

theorem lookup_mem {l : List (Nat × Nat)} {p r : Nat} (h : l.lookup p = some r) : (p, r) ∈ l := by
  induction l with
  | nil => simp at h
  | cons x l ih =>
    obtain ⟨a, b⟩ := x
    rw [List.lookup_cons] at h
    split at h
    · rename_i hx
      have : p = a := by simpa using hx
      injection h with h
      subst h; subst this
      simp
    · exact List.mem_cons_of_mem _ (ih h)

/-- invariant -/
structure Inv (cap : Nat) (s : Sys) : Prop where
  wf : WF s.heap
  size : hdr + foot + s.heap.cap = cap
  held : s.live.Perm (users 0 s.heap.chunks)

theorem grant_inv {cap : Nat} {s s' : Sys} {req : Nat} {x : Option (Heap × Option Nat)} {o : Option Nat} (i : Inv cap s)
    (e : s.grant req x = some (s', o))
    (h : ∀ h' q, x = some (h', q) → WF h' ∧ h'.cap = s.heap.cap ∧ (users 0 h'.chunks).Perm (added q req (users 0 s.heap.chunks))) :
    Inv cap s' := by
  cases x with
  | none => simp [Sys.grant] at e
  | some y =>
    obtain ⟨h', q⟩ := y
    obtain ⟨a, b, c⟩ := h h' q rfl
    cases q with
    | some q =>
      simp only [Sys.grant, Option.some.injEq, Prod.mk.injEq] at e
      obtain ⟨rfl, rfl⟩ := e
      exact ⟨a, by rw [b]; exact i.size, (i.held.cons _).trans c.symm⟩
    | none =>
      simp only [Sys.grant, Option.some.injEq, Prod.mk.injEq] at e
      obtain ⟨rfl, rfl⟩ := e
      exact ⟨a, by rw [b]; exact i.size, i.held.trans c.symm⟩

theorem pow_16 {k : Nat} (h : ¬2 ^ k ≤ 16) : 16 ∣ 2 ^ k ∧ 32 ≤ 2 ^ k := by
  have hk : 5 ≤ k := by
    by_contra hc
    have : 2 ^ k ≤ 2 ^ 4 := Nat.pow_le_pow_right (by omega) (by omega)
    omega
  obtain ⟨m, rfl⟩ := Nat.exists_eq_add_of_le hk
  have hp : 0 < 2 ^ m := Nat.two_pow_pos m
  rw [Nat.pow_add]
  omega

theorem step_inv {a0 cap : Nat} {s s' : Sys} {o : Option Nat} {c : Call} {ch : Choice} {moved : Bool} (ha : 16 ∣ a0) (i : Inv cap s)
    (e : step a0 s ch moved c = some (s', o)) : Inv cap s' := by
  cases c with
  | malloc req => exact grant_inv i e (fun h' q hx => malloc_spec i.wf hx)
  | calloc n sz => exact grant_inv i e (fun h' q hx => malloc_spec i.wf hx)
  | align k req =>
    simp only [step] at e
    by_cases hk : 2 ^ k ≤ 16
    · rw [if_pos hk] at e
      exact grant_inv i e (fun h' q hx => malloc_spec i.wf hx)
    · rw [if_neg hk] at e
      obtain ⟨h1, h2⟩ := pow_16 hk
      exact grant_inv i e (fun h' q hx => by
        obtain ⟨x, y, z, _⟩ := memalign_spec ha h1 h2 i.wf hx
        exact ⟨x, y, z⟩)
  | realloc p req =>
    simp only [step] at e
    split at e
    · cases e
    · rename_i q hl
      have hm := i.held.mem_iff.1 (lookup_mem hl)
      split at e
      · rename_i h x hr
        simp only [Option.some.injEq, Prod.mk.injEq] at e
        obtain ⟨rfl, rfl⟩ := e
        obtain ⟨a, b, c⟩ := realloc_spec i.wf hm hr
        exact ⟨a, by rw [b]; exact i.size, ((i.held.erase _).cons _).trans c.symm⟩
      · rename_i h hr
        simp only [Option.some.injEq, Prod.mk.injEq] at e
        obtain ⟨rfl, rfl⟩ := e
        obtain ⟨a, b, c⟩ := realloc_spec i.wf hm hr
        refine ⟨a, by rw [b]; exact i.size, ?_⟩
        simp only [replaced] at c
        simp only
        split
        · rename_i hg; rw [if_pos hg] at c; exact (i.held.erase _).trans c.symm
        · rename_i hg; rw [if_neg hg] at c; exact i.held.trans c.symm
      · cases e
  | free p =>
    simp only [step] at e
    split at e
    · cases e
    · rename_i q hl
      have hm := i.held.mem_iff.1 (lookup_mem hl)
      obtain ⟨h', f, a, b, c⟩ := free_spec i.wf hm
      simp only [f, Option.map_some, Option.some.injEq, Prod.mk.injEq] at e
      obtain ⟨rfl, rfl⟩ := e
      exact ⟨a, by rw [b]; exact i.size, (i.held.erase _).trans c.symm⟩

theorem inv_reach {a0 cap : Nat} {s : Sys} (ha : 16 ∣ a0) (hc : 16 ∣ cap) (r : Reach a0 cap s) : Inv cap s := by
  induction r with
  | @init h e =>
    unfold create at e
    split at e
    · rename_i hlt
      injection e with e
      subst e
      simp only [hdr, foot] at *
      refine ⟨⟨by simp, ⟨by simp, by simp⟩, ?_⟩, ?_, by simp [users]⟩
      · intro t ht
        simp only [Option.some.injEq] at ht
        omega
      · simp only [Heap.cap, total, Option.getD_some, hdr, foot]; omega
    · cases e
  | step _ e i => exact step_inv ha i e

/-! ## C60: blocks -/

/-- bytes `[a, a + n)` and `[b, b + m)` are disjoint -/
def Disjoint (a n b m : Nat) : Prop := a + n ≤ b ∨ b + m ≤ a

/-- **C60.** After any history, the blocks the user holds are disjoint, each at a multiple of 16, and inside the memory of the
heap (after the allocator's state, at most its last `foot` bytes excluded). -/
theorem C60_blocks {base cap : Nat} {s : Sys} (hb : 16 ∣ base) (hc : 16 ∣ cap) (r : Reach (base + 960) cap s) :
    s.live.Pairwise (fun x y => Disjoint (base + 960 + x.1) x.2 (base + 960 + y.1) y.2) ∧
    ∀ x ∈ s.live, 16 ∣ base + 960 + x.1 ∧ base + 944 ≤ base + 960 + x.1 ∧ base + 960 + x.1 + x.2 ≤ base + cap - 72 := by
  have i := inv_reach (by omega) hc r
  constructor
  · have hp := users_sorted i.wf.good 0
    have hq : (users 0 s.heap.chunks).Pairwise (fun x y => Disjoint (base + 960 + x.1) x.2 (base + 960 + y.1) y.2) := by
      refine hp.imp ?_
      intro x y h
      have := need_fits x.2
      have h16 := need_dvd x.2
      unfold Disjoint
      left
      have hn : x.2 ≤ need x.2 := by omega
      omega
    refine (List.Perm.pairwise_iff ?_ i.held).2 hq
    intro x y h
    unfold Disjoint at *
    omega
  · intro x hx
    have hm := i.held.mem_iff.1 hx
    have h1 := users_bound i.wf.good hm
    have h2 := need_fits x.2
    have h3 := i.size
    simp only [Heap.cap, hdr, foot] at h3
    obtain ⟨l, z, r', hf⟩ := find_user i.wf.good (show (x.1, x.2) ∈ users 0 s.heap.chunks from hm)
    obtain ⟨hc', hp'⟩ := find_some hf
    have : ∀ l : List Chunk, (∀ c ∈ l, Good c) → 16 ∣ total l := by
      intro l
      induction l with
      | nil => simp [total]
      | cons c l ih =>
        intro hl
        have h1 := (hl c (by simp)).1
        have h2 := ih (fun c hc => hl c (by simp [hc]))
        simp only [total]; omega
    have h4 := this l (fun c hc => i.wf.good c (by rw [hc']; simp [hc]))
    omega

/-- the parts of the segment that belong to the allocator: the head word of every chunk; all of a free or unusable chunk from
its head word up to the head word of the next chunk (links, `prev_foot` of the next chunk); the same for `top` -/
def own : Nat → List Chunk → List (Nat × Nat)
  | _, [] => []
  | o, ⟨s, .user _⟩ :: cs => (o + 8, 8) :: own (o + s) cs
  | o, ⟨s, .free⟩ :: cs => (o + 8, s) :: own (o + s) cs
  | o, ⟨s, .dead⟩ :: cs => (o + 8, s) :: own (o + s) cs

theorem own_ge {cs : List Chunk} : ∀ {o : Nat} {m : Nat × Nat}, m ∈ own o cs → o + 8 ≤ m.1 := by
  induction cs with
  | nil => intro o m h; simp [own] at h
  | cons c cs ih =>
    intro o m h
    obtain ⟨s, u⟩ := c
    cases u <;>
    · simp only [own, List.mem_cons] at h
      rcases h with rfl | h
      · simp
      · have := @ih _ _ h
        omega

theorem own_le {cs : List Chunk} (hg : ∀ c ∈ cs, Good c) : ∀ {o : Nat} {m : Nat × Nat}, m ∈ own o cs → m.1 + m.2 ≤ o + total cs + 8 := by
  induction cs with
  | nil => intro o m h; simp [own] at h
  | cons c cs ih =>
    intro o m h
    have ih := @ih (fun c hc => hg c (by simp [hc]))
    have hc := hg c (by simp)
    obtain ⟨s, u⟩ := c
    obtain ⟨h1, h2, -⟩ := hc
    simp only at h1 h2
    cases u <;>
    · simp only [own, List.mem_cons] at h
      simp only [total]
      rcases h with rfl | h
      · simp only; omega
      · have := ih h
        omega

theorem own_disjoint {cs : List Chunk} (hg : ∀ c ∈ cs, Good c) : ∀ {o : Nat} {m x : Nat × Nat}, m ∈ own o cs → x ∈ users o cs →
    Disjoint m.1 m.2 (x.1 + 16) x.2 := by
  induction cs with
  | nil => intro o m x h; simp [own] at h
  | cons c cs ih =>
    intro o m x hm hx
    have hg' : ∀ c ∈ cs, Good c := fun c hc => hg c (by simp [hc])
    have ih := @ih hg'
    have hc := hg c (by simp)
    obtain ⟨s, u⟩ := c
    obtain ⟨h1, h2, h3⟩ := hc
    simp only at h1 h2 h3
    cases u with
    | free =>
      simp only [own, users, List.mem_cons] at hm hx
      rcases hm with rfl | hm
      · have := users_bound hg' hx
        left; simp only; omega
      · exact ih hm hx
    | dead =>
      simp only [own, users, List.mem_cons] at hm hx
      rcases hm with rfl | hm
      · have := users_bound hg' hx
        left; simp only; omega
      · exact ih hm hx
    | user q =>
      have hn := h3 q rfl
      have hf := need_fits q
      simp only [own, users, List.mem_cons] at hm hx
      rcases hm with rfl | hm
      · rcases hx with rfl | hx
        · left; simp only; omega
        · have := users_bound hg' hx
          left; simp only; omega
      · rcases hx with rfl | hx
        · have := own_ge hm
          right; simp only; omega
        · exact ih hm hx

/-- **C60.** No byte of a block the user holds is used by the allocator for its own data, neither in the chunks nor in `top`
and what follows; so the user's stores never damage the heap and the allocator never damages the user's data. -/
theorem C60_metadata {base cap : Nat} {s : Sys} (hb : 16 ∣ base) (hc : 16 ∣ cap) (r : Reach (base + 960) cap s) {x : Nat × Nat}
    (hx : x ∈ s.live) : (∀ m ∈ own 0 s.heap.chunks, Disjoint (base + 944 + m.1) m.2 (base + 960 + x.1) x.2) ∧
    base + 960 + x.1 + x.2 ≤ base + 944 + total s.heap.chunks + 8 := by
  have i := inv_reach (by omega) hc r
  have hm := i.held.mem_iff.1 hx
  constructor
  · intro m hmm
    have := own_disjoint i.wf.good hmm hm
    unfold Disjoint at *
    omega
  · have := users_bound i.wf.good hm
    have := need_fits x.2
    omega

/-- **C60.** Freeing or reallocating a block the user holds never fails as a usage error. -/
theorem C60_free_ok {base cap : Nat} {s : Sys} (hb : 16 ∣ base) (hc : 16 ∣ cap) (r : Reach (base + 960) cap s) {x : Nat × Nat}
    (hx : x ∈ s.live) : ∃ s', step (base + 960) s .top false (.free x.1) = some (s', none) ∧ s'.live.Perm (s.live.erase x) := by
  have i := inv_reach (a0 := base + 960) (by omega) hc r
  have hm := i.held.mem_iff.1 hx
  obtain ⟨h', f, a, b, c⟩ := free_spec i.wf (show (x.1, x.2) ∈ _ from hm)
  have hl : s.live.lookup x.1 = some x.2 := by
    have : ∃ y, s.live.lookup x.1 = some y := by
      have : ∀ l : List (Nat × Nat), x ∈ l → ∃ y, l.lookup x.1 = some y := by
        intro l
        induction l with
        | nil => intro h; simp at h
        | cons z l ih =>
          intro h
          rw [List.lookup_cons]
          by_cases hz : x.1 == z.1
          · exact ⟨z.2, by simp [hz]⟩
          · rcases List.mem_cons.1 h with rfl | h
            · simp at hz
            · obtain ⟨y, hy⟩ := ih h
              exact ⟨y, by simp [hz, hy]⟩
      exact this _ hx
    obtain ⟨y, hy⟩ := this
    have := users_unique i.wf.good (i.held.mem_iff.1 (lookup_mem hy)) (show (x.1, x.2) ∈ _ from hm)
    rw [hy, this]
  refine ⟨⟨h', s.live.erase x⟩, by simp [step, hl, f], List.Perm.refl _⟩

/-- **C60.** A block returned by the aligned allocation is aligned as asked. -/
theorem C60_align {base cap : Nat} {s s' : Sys} {k req q : Nat} {ch : Choice} {moved : Bool} (hb : 16 ∣ base) (hc : 16 ∣ cap)
    (r : Reach (base + 960) cap s) (e : step (base + 960) s ch moved (.align k req) = some (s', some q)) :
    2 ^ k ∣ base + 960 + q ∧ (q, req) ∈ s'.live := by
  have i := inv_reach (a0 := base + 960) (by omega) hc r
  have hin : (q, req) ∈ s'.live := by
    simp only [step] at e
    have : ∀ x, s.grant req x = some (s', some q) → (q, req) ∈ s'.live := by
      intro x hx
      cases x with
      | none => simp [Sys.grant] at hx
      | some y =>
        obtain ⟨h', z⟩ := y
        cases z with
        | none => simp [Sys.grant] at hx
        | some z =>
          simp only [Sys.grant, Option.some.injEq, Prod.mk.injEq] at hx
          obtain ⟨rfl, rfl⟩ := hx
          simp
    split at e <;> exact this _ e
  refine ⟨?_, hin⟩
  by_cases hk : 2 ^ k ≤ 16
  · have h16 := (C60_blocks hb hc (Reach.step r e)).2 _ hin
    have : 2 ^ k ∣ 16 := by
      have : k ≤ 4 := by
        by_contra hk'
        have : 2 ^ 5 ≤ 2 ^ k := Nat.pow_le_pow_right (by omega) (by omega)
        omega
      exact Nat.pow_dvd_pow 2 this
    exact this.trans h16.1
  · obtain ⟨h1, h2⟩ := pow_16 hk
    simp only [step, if_neg hk] at e
    cases hx : memalign (base + 960) s.heap (2 ^ k) req ch with
    | none => rw [hx] at e; simp [Sys.grant] at e
    | some y =>
      obtain ⟨h', z⟩ := y
      obtain ⟨_, _, _, hal⟩ := memalign_spec (by omega) h1 h2 i.wf hx
      rw [hx] at e
      cases z with
      | none => simp [Sys.grant] at e
      | some z =>
        simp only [Sys.grant, Option.some.injEq, Prod.mk.injEq] at e
        obtain ⟨_, rfl⟩ := e
        exact Nat.dvd_of_mod_eq_zero (hal _ rfl)

/-- the request of `mspace_calloc` is the product, or too large to be served -/
theorem C60_calloc {n sz : Nat} (hn : n < 2 ^ 64) (hz : sz < 2 ^ 64) :
    callocReq n sz = n * sz ∨ (maxRequest ≤ callocReq n sz ∧ 2 ^ 64 ≤ n * sz) := by
  unfold callocReq
  by_cases h0 : n = 0
  · left; simp [h0]
  · rw [if_neg h0]
    dsimp only
    by_cases hlt : n * sz < 2 ^ 64
    · left
      rw [Nat.mod_eq_of_lt hlt, Nat.mul_div_cancel_left _ (by omega)]
      simp
    · right
      have h1 : n * sz % 2 ^ 64 / n ≠ sz := by
        intro he
        have h2 := Nat.div_mul_le_self (n * sz % 2 ^ 64) n
        rw [he, Nat.mul_comm] at h2
        have h3 := Nat.mod_lt (n * sz) (show 2 ^ 64 > 0 by omega)
        omega
      have h2 : 2 ^ 16 ≤ n ∨ 2 ^ 16 ≤ sz := by
        by_contra hc
        have : n * sz ≤ 2 ^ 16 * 2 ^ 16 := Nat.mul_le_mul (by omega) (by omega)
        omega
      rw [if_pos ⟨h2, h1⟩]
      unfold maxRequest
      omega

/-! ## C62: everything freed -/

theorem back_mem {l : List Chunk} {s : Nat} {c : Chunk} (h : c ∈ (back l s).1) : c ∈ l := by
  induction l with
  | nil => simp [back] at h
  | cons d l ih =>
    cases l with
    | nil => obtain ⟨n, u⟩ := d; cases u <;> simp [back] at h ⊢ <;> exact h
    | cons e l =>
      simp only [back, List.mem_cons] at h
      rcases h with rfl | h
      · simp
      · exact List.mem_cons_of_mem _ (ih h)

theorem dispose_mem {l r : List Chunk} {s : Nat} {t : Option Nat} {c : Chunk} (h : c ∈ (dispose l s r t).chunks) :
    c ∈ l ∨ c ∈ r ∨ c.use = .free := by
  unfold dispose at h
  dsimp only at h
  cases r with
  | nil =>
    cases t with
    | some t => simp only [fwd] at h; exact Or.inl (back_mem h)
    | none =>
      simp only [fwd, List.mem_append, List.mem_singleton] at h
      rcases h with h | rfl
      · exact Or.inl (back_mem h)
      · exact Or.inr (Or.inr rfl)
  | cons d r =>
    obtain ⟨n, u⟩ := d
    cases u <;>
    · simp only [fwd, List.mem_append, List.mem_cons] at h ⊢
      rcases h with h | rfl | h
      · exact Or.inl (back_mem h)
      · exact Or.inr (Or.inr rfl)
      · first
        | exact Or.inr (Or.inl h)
        | exact Or.inr (Or.inl (Or.inr h))

/-- unusable chunks appear only once `top` has left the heap -/
def NoDead (h : Heap) : Prop := h.top.isSome = true → ∀ c ∈ h.chunks, c.use ≠ .dead

theorem dispose_nodead {l r : List Chunk} {s : Nat} {t : Option Nat} (h : t.isSome = true → (∀ c ∈ l, c.use ≠ .dead) ∧ ∀ c ∈ r, c.use ≠ .dead) :
    NoDead (dispose l s r t) := by
  intro ht c hc
  have : t.isSome = true := by rw [← (fwd_top (back l s).1 (back l s).2 r t).1]; exact ht
  rcases dispose_mem hc with h1 | h1 | h1
  · exact (h this).1 c h1
  · exact (h this).2 c h1
  · rw [h1]; simp

theorem carve_nodead {s nb q : Nat} : ∀ c ∈ carve s nb q, c.use ≠ .dead := by
  intro c hc
  unfold carve at hc
  split at hc
  · simp at hc; subst hc; simp
  · simp at hc; rcases hc with rfl | rfl <;> simp

theorem malloc_nodead {h h' : Heap} {req : Nat} {ch : Choice} {o : Option Nat} (n : NoDead h) (e : malloc h req ch = some (h', o)) : NoDead h' := by
  cases ch with
  | chunk p =>
    simp only [malloc] at e
    split at e
    · split at e
      · rename_i l s r hf
        obtain ⟨hc, hp⟩ := find_some hf
        split at e
        · simp only [Option.some.injEq, Prod.mk.injEq] at e
          obtain ⟨rfl, rfl⟩ := e
          intro ht
          have n := n ht
          rw [hc] at n
          obtain ⟨n1, _, n2⟩ := forall_split n
          exact forall_mid n1 carve_nodead n2
        · cases e
      · cases e
      · cases e
      · cases e
    · cases e
  | top =>
    simp only [malloc] at e
    split at e
    · split at e
      · rename_i t ht
        split at e
        · simp only [Option.some.injEq, Prod.mk.injEq] at e
          obtain ⟨rfl, rfl⟩ := e
          intro _ c hc
          rcases List.mem_append.1 hc with hc | hc
          · exact n (by simp [ht]) c hc
          · simp at hc; subst hc; simp
        · cases e
      · cases e
    · cases e
  | outside seg =>
    cases seg with
    | false =>
      simp only [malloc, Option.some.injEq, Prod.mk.injEq] at e
      obtain ⟨rfl, rfl⟩ := e
      exact n
    | true =>
      simp only [malloc] at e
      split at e <;> (simp only [Option.some.injEq, Prod.mk.injEq] at e; obtain ⟨rfl, rfl⟩ := e)
      · intro h; simp at h
      · exact n

theorem free_nodead {h h' : Heap} {p : Nat} (n : NoDead h) (e : free h p = some h') : NoDead h' := by
  unfold free at e
  split at e
  · rename_i l s q r hf
    obtain ⟨hc, _⟩ := find_some hf
    injection e with e
    subst e
    apply dispose_nodead
    intro ht
    have n := n ht
    rw [hc] at n
    obtain ⟨n1, _, n2⟩ := forall_split n
    exact ⟨n1, n2⟩
  · cases e
  · cases e
  · cases e

theorem shrink_nodead {l r : List Chunk} {s nb req : Nat} {t : Option Nat} (h : t.isSome = true → (∀ c ∈ l, c.use ≠ .dead) ∧ ∀ c ∈ r, c.use ≠ .dead) :
    NoDead ⟨l ++ ⟨s, .user req⟩ :: r, t⟩ ∧ NoDead (dispose (l ++ [⟨nb, .user req⟩]) (s - nb) r t) := by
  constructor
  · intro ht c hc
    have h := h ht
    rcases List.mem_append.1 hc with hc | hc
    · exact h.1 c hc
    · rcases List.mem_cons.1 hc with rfl | hc
      · simp
      · exact h.2 c hc
  · apply dispose_nodead
    intro ht
    refine ⟨?_, (h ht).2⟩
    intro c hc
    rcases List.mem_append.1 hc with hc | hc
    · exact (h ht).1 c hc
    · simp at hc; subst hc; simp

theorem tryRealloc_nodead {l r : List Chunk} {s nb req : Nat} {t : Option Nat} {h' : Heap}
    (h : t.isSome = true → (∀ c ∈ l, c.use ≠ .dead) ∧ ∀ c ∈ r, c.use ≠ .dead) (e : tryRealloc l s nb req r t = some h') : NoDead h' := by
  unfold tryRealloc at e
  split at e
  · injection e with e
    subst e
    unfold shrink
    split
    · exact (shrink_nodead (nb := 0) h).1
    · exact (shrink_nodead h).2
  · cases r with
    | nil =>
      cases t with
      | none => cases e
      | some t =>
        simp only at e
        split at e
        · injection e with e
          subst e
          intro _ c hc
          rcases List.mem_append.1 hc with hc | hc
          · exact (h rfl).1 c hc
          · simp at hc; subst hc; simp
        · cases e
    | cons d r =>
      obtain ⟨n, u⟩ := d
      cases u with
      | free =>
        simp only at e
        split at e
        · injection e with e
          subst e
          intro ht
          exact forall_mid (h ht).1 carve_nodead (fun c hc => (h ht).2 c (by simp [hc]))
        · cases e
      | user q => cases e
      | dead => cases e

theorem realloc_nodead {h h' : Heap} {p req : Nat} {ch : Choice} {moved : Bool} {o : Option Nat} (n : NoDead h)
    (e : realloc h p req ch moved = some (h', o)) : NoDead h' := by
  unfold realloc at e
  split at e
  · split at e
    · rename_i l s q r hf
      obtain ⟨hc, _⟩ := find_some hf
      have n' : h.top.isSome = true → (∀ c ∈ l, c.use ≠ .dead) ∧ ∀ c ∈ r, c.use ≠ .dead := by
        intro ht
        have n := n ht
        rw [hc] at n
        obtain ⟨n1, _, n2⟩ := forall_split n
        exact ⟨n1, n2⟩
      split at e
      · rename_i h1 ht
        simp only [Option.some.injEq, Prod.mk.injEq] at e
        obtain ⟨rfl, rfl⟩ := e
        exact tryRealloc_nodead n' ht
      · split at e
        · rename_i h1 x hm
          cases hfr : free h1 p with
          | none => rw [hfr] at e; cases e
          | some h2 =>
            rw [hfr] at e
            simp only [Option.map_some, Option.some.injEq, Prod.mk.injEq] at e
            obtain ⟨rfl, rfl⟩ := e
            exact free_nodead (malloc_nodead n hm) hfr
        · rename_i h1 hm
          split at e
          · cases hfr : free h1 p with
            | none => rw [hfr] at e; cases e
            | some h2 =>
              rw [hfr] at e
              simp only [Option.map_some, Option.some.injEq, Prod.mk.injEq] at e
              obtain ⟨rfl, rfl⟩ := e
              exact free_nodead (malloc_nodead n hm) hfr
          · simp only [Option.some.injEq, Prod.mk.injEq] at e
            obtain ⟨rfl, rfl⟩ := e
            exact malloc_nodead n hm
        · cases e
    · cases e
    · cases e
    · cases e
  · simp only [Option.some.injEq, Prod.mk.injEq] at e
    obtain ⟨rfl, rfl⟩ := e
    exact n

theorem memalign_nodead {a0 : Nat} {h h' : Heap} {al req : Nat} {ch : Choice} {o : Option Nat} (n : NoDead h)
    (e : memalign a0 h al req ch = some (h', o)) : NoDead h' := by
  unfold memalign at e
  split at e
  · split at e
    · rename_i h1 p hm
      have n1 := malloc_nodead n hm
      split at e
      · rename_i l s q r hf
        obtain ⟨hc, _⟩ := find_some hf
        have n' : h1.top.isSome = true → (∀ c ∈ l, c.use ≠ .dead) ∧ ∀ c ∈ r, c.use ≠ .dead := by
          intro ht
          have n := n1 ht
          rw [hc] at n
          obtain ⟨n1, _, n2⟩ := forall_split n
          exact ⟨n1, n2⟩
        have n2 : NoDead (giveLead l s (lead al (a0 + p)) req r h1.top) := by
          unfold giveLead
          split
          · exact (shrink_nodead (nb := 0) n').1
          · apply dispose_nodead
            intro ht
            refine ⟨(n' ht).1, ?_⟩
            intro c hc
            rcases List.mem_cons.1 hc with rfl | hc
            · simp
            · exact (n' ht).2 c hc
        dsimp only at e
        generalize giveLead l s (lead al (a0 + p)) req r h1.top = h2 at *
        split at e
        · rename_i l2 s2 q2 r2 hf2
          obtain ⟨hc2, _⟩ := find_some hf2
          simp only [Option.some.injEq, Prod.mk.injEq] at e
          obtain ⟨rfl, rfl⟩ := e
          have n3 : h2.top.isSome = true → (∀ c ∈ l2, c.use ≠ .dead) ∧ ∀ c ∈ r2, c.use ≠ .dead := by
            intro ht
            have n := n2 ht
            rw [hc2] at n
            obtain ⟨n1, _, n2⟩ := forall_split n
            exact ⟨n1, n2⟩
          unfold trimEnd
          split
          · exact (shrink_nodead n3).2
          · exact (shrink_nodead (nb := 0) n3).1
        · cases e
        · cases e
        · cases e
      · cases e
      · cases e
      · cases e
    · rename_i h1 hm
      simp only [Option.some.injEq, Prod.mk.injEq] at e
      obtain ⟨rfl, rfl⟩ := e
      exact malloc_nodead n hm
    · cases e
  · simp only [Option.some.injEq, Prod.mk.injEq] at e
    obtain ⟨rfl, rfl⟩ := e
    exact n

theorem grant_nodead {s s' : Sys} {req : Nat} {x : Option (Heap × Option Nat)} {o : Option Nat} (e : s.grant req x = some (s', o))
    (h : ∀ h' q, x = some (h', q) → NoDead h') : NoDead s'.heap := by
  cases x with
  | none => simp [Sys.grant] at e
  | some y =>
    obtain ⟨h', q⟩ := y
    have := h h' q rfl
    cases q <;>
    · simp only [Sys.grant, Option.some.injEq, Prod.mk.injEq] at e
      obtain ⟨rfl, rfl⟩ := e
      exact this

theorem nodead_reach {a0 cap : Nat} {s : Sys} (r : Reach a0 cap s) : NoDead s.heap := by
  induction r with
  | @init h e =>
    unfold create at e
    split at e
    · injection e with e
      subst e
      intro _ c hc
      simp at hc
    · cases e
  | @step s s' o c ch moved _ e n =>
    cases c with
    | malloc req => exact grant_nodead e (fun _ _ hx => malloc_nodead n hx)
    | calloc a b => exact grant_nodead e (fun _ _ hx => malloc_nodead n hx)
    | align k req =>
      simp only [step] at e
      split at e
      · exact grant_nodead e (fun _ _ hx => malloc_nodead n hx)
      · exact grant_nodead e (fun _ _ hx => memalign_nodead n hx)
    | realloc p req =>
      simp only [step] at e
      split at e
      · cases e
      · split at e
        · rename_i hr
          simp only [Option.some.injEq, Prod.mk.injEq] at e
          obtain ⟨rfl, rfl⟩ := e
          exact realloc_nodead n hr
        · rename_i hr
          simp only [Option.some.injEq, Prod.mk.injEq] at e
          obtain ⟨rfl, rfl⟩ := e
          exact realloc_nodead n hr
        · cases e
    | free p =>
      simp only [step] at e
      split at e
      · cases e
      · cases hf : free s.heap p with
        | none => rw [hf] at e; cases e
        | some h2 =>
          rw [hf] at e
          simp only [Option.map_some, Option.some.injEq, Prod.mk.injEq] at e
          obtain ⟨rfl, rfl⟩ := e
          exact free_nodead n hf

theorem users_nil_free : ∀ (cs : List Chunk) (o : Nat), users o cs = [] → (∀ c ∈ cs, c.use ≠ .dead) → ∀ c ∈ cs, c.use = .free := by
  intro cs
  induction cs with
  | nil => simp
  | cons c cs ih =>
    intro o hu hdd d hdm
    obtain ⟨z, u⟩ := c
    cases u with
    | user q => simp [users] at hu
    | dead => exact absurd rfl (hdd _ (List.mem_cons_self))
    | free =>
      simp only [users] at hu
      rcases List.mem_cons.1 hdm with rfl | hdm
      · rfl
      · exact ih _ hu (fun c hc => hdd c (List.mem_cons_of_mem _ hc)) d hdm

/-- **C62.** When the user has freed all blocks, and the heap was never extended by a segment from the system (`top` is still
in it), the heap is as it was at the start: one free area of the full size. -/
theorem C62_empty {base cap : Nat} {s : Sys} (hb : 16 ∣ base) (hc : 16 ∣ cap) (r : Reach (base + 960) cap s) (hl : s.live = [])
    (hd : s.heap.top.isSome = true) : create cap = some s.heap := by
  have i := inv_reach (by omega) hc r
  have hu : users 0 s.heap.chunks = [] := by
    have := i.held
    rw [hl] at this
    exact List.Perm.nil_eq this |>.symm
  have hf := users_nil_free _ _ hu (nodead_reach r hd)
  have hnil : s.heap.chunks = [] := by
    cases hcs : s.heap.chunks.getLast? with
    | none => exact List.getLast?_eq_none_iff.1 hcs
    | some c =>
      have := i.wf.merged.2 hd c hcs
      exact absurd (hf c (List.mem_of_getLast? hcs)) this
  obtain ⟨t, ht⟩ := Option.isSome_iff_exists.1 hd
  have hsz := i.size
  simp only [Heap.cap, hnil, ht, total, Option.getD_some] at hsz
  have htp := (i.wf.top t ht).2
  have : s.heap = ⟨[], some t⟩ := by
    cases hh : s.heap with
    | mk cs tp => rw [hh] at hnil ht; simp only at hnil ht; rw [hnil, ht]
  rw [this]
  unfold create
  rw [if_pos (by omega), show cap - hdr - foot = t by omega]

theorem reach_cap {a0 cap : Nat} {s : Sys} (r : Reach a0 cap s) : hdr + foot < cap := by
  induction r with
  | init e => unfold create at e; split at e; assumption; cases e
  | step _ _ ih => exact ih

/-- **C62.** If `top` has moved to a new segment, leaving a usable rest, then after freeing everything the heap's memory is one
free area of the full size again. -/
theorem C62_extended {base cap : Nat} {s : Sys} (hb : 16 ∣ base) (hc : 16 ∣ cap) (r : Reach (base + 960) cap s) (hl : s.live = [])
    (hd : s.heap.top = none) (hdead : ∀ c ∈ s.heap.chunks, c.use ≠ .dead) :
    s.heap.chunks = [⟨cap - hdr - foot, .free⟩] := by
  have i := inv_reach (by omega) hc r
  have hu : users 0 s.heap.chunks = [] := by
    have := i.held
    rw [hl] at this
    exact List.Perm.nil_eq this |>.symm
  have hf := users_nil_free _ _ hu hdead
  have hm := i.wf.merged.1
  have hsz := i.size
  cases hcs : s.heap.chunks with
  | nil => have := reach_cap r; simp only [Heap.cap, hcs, hd, total, Option.getD_none] at hsz; omega
  | cons c cs =>
    rw [hcs] at hm hf
    cases cs with
    | nil =>
      obtain ⟨z, u⟩ := c
      have := hf ⟨z, u⟩ (by simp)
      simp only at this
      subst this
      simp only [Heap.cap, hcs, hd, total, Option.getD_none] at hsz
      rw [show cap - hdr - foot = z by omega]
    | cons d cs =>
      rw [List.isChain_cons_cons] at hm
      exact absurd ⟨hf c (by simp), hf d (by simp)⟩ hm.1

end Verif.Heap
