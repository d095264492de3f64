import Verif.Api.Model
import Verif.Rma.TypeSize
/-!
# C63: every named put/get moves what its name says. C64: accessibility queries.
-/
namespace Verif.Api
open Verif.Sobj Verif.Rma
open Verif.Amo (TyIdx)

/-- bytes per element promised by the name of the routine: `sizeof(TYPE)`, SIZE bits, one byte -/
def Fn.elem : Fn → Nat
  | .typed r => r.ty.sizeof
  | .sized r => r.size / 8
  | .mem => 1

/-- the routines that exist: one per row of the tables -/
def Fn.Exists : Fn → Prop
  | .typed r => r ∈ rmaRows
  | .sized r => r ∈ sizedRows
  | .mem => True

/-- the MPI type of every routine has the size its name promises (complete tables) -/
theorem mpi_size {fn : Fn} (h : fn.Exists) : fn.args.1 = fn.elem := by
  cases fn with
  | typed r =>
    have : ∀ r ∈ rmaRows, r.mpi.bytes = r.ty.sizeof := by decide
    exact this r h
  | sized r =>
    have : ∀ r ∈ sizedRows, r.mpi.bytes = r.size / 8 := by decide
    exact this r h
  | mem => rfl

/-- what a routine passes as `typesz`: the element size, except for the sized routines, which pass bits -/
theorem typesz {fn : Fn} (h : fn.Exists) :
    fn.args.2 = match fn with | .typed _ => fn.elem | .sized _ => 8 * fn.elem | .mem => fn.elem := by
  cases fn with
  | typed r => rfl
  | sized r =>
    have : ∀ r ∈ sizedRows, r.size = 8 * (r.size / 8) := by decide
    exact this r h
  | mem => rfl

theorem elem_pos {fn : Fn} (h : fn.Exists) : 0 < fn.elem := by
  cases fn with
  | typed r =>
    have : ∀ r ∈ rmaRows, 0 < r.ty.sizeof := by decide
    exact this r h
  | sized r =>
    have : ∀ r ∈ sizedRows, 0 < r.size / 8 := by decide
    exact this r h
  | mem => exact Nat.one_pos

/-- C63. Every typed, sized and untyped put that exists moves `n` elements of the size its name promises to the place
its target resolves to, on both paths, and changes nothing else. (On the active-message path the byte count must fit an
`int`; the sized routines have an eighth of that range because they pass bits.) -/
theorem C63_put_partial {fn : Fn} (hf : fn.Exists) (procs : Nat → Proc) (path : Path) (ctx : Option (Obj × Attr)) (me pe : Nat)
    (dest source r : BitVec 64) (n : Nat) (m : Mems) (hr : resolve procs path ctx me pe dest = .ok r)
    (hn : n < 2 ^ 31) (ham : path = .am → fn.args.2 * n < 2 ^ 31) :
    ∃ m', put fn procs path ctx me pe dest source n m = .ok m' ∧
      Copied (m me) (m pe) (m' pe) source.toInt r.toInt (n * fn.elem) ∧ ∀ q, q ≠ pe → m' q = m q := by
  unfold put
  rw [← mpi_size hf]
  by_cases h0 : n = 0
  · subst h0
    unfold ctxPut
    rw [if_pos rfl]
    exact ⟨m, rfl, copied_zero _ _ _ _ _, fun _ _ => rfl⟩
  cases path with
  | direct mode =>
    exact C17_put_partial procs (.direct mode) ctx fn.args.1 me pe source dest r n m hr hn (fun h => nomatch h)
  | am =>
    have hb := ham rfl
    have hle : fn.args.1 ≤ fn.args.2 := by
      rw [mpi_size hf]
      have := typesz hf
      cases fn with
      | typed r => rw [this]
      | sized r => rw [this]; simp only; omega
      | mem => rw [this]
    exact put_am_longer procs ctx _ _ me pe source dest r n m hr hn hb hle

/-- C63. The same for gets, except the sized gets over active messages. -/
theorem C63_get_partial {fn : Fn} (hf : fn.Exists) (procs : Nat → Proc) (path : Path) (ctx : Option (Obj × Attr)) (me pe : Nat)
    (dest source r : BitVec 64) (n : Nat) (m : Mems) (hr : resolve procs path ctx me pe source = .ok r)
    (hn : n < 2 ^ 31) (ham : path = .am → (∀ s, fn ≠ .sized s) ∧ fn.elem * n < 2 ^ 31) :
    ∃ m', get fn procs path ctx me pe dest source n m = .ok m' ∧
      Copied (m pe) (m me) (m' me) r.toInt dest.toInt (n * fn.elem) ∧ ∀ q, q ≠ me → m' q = m q := by
  unfold get
  by_cases h0 : n = 0
  · subst h0
    unfold ctxGet
    rw [if_pos rfl]
    exact ⟨m, rfl, copied_zero _ _ _ _ _, fun _ _ => rfl⟩
  cases path with
  | direct mode =>
    rw [← mpi_size hf]
    exact C17_get_partial procs (.direct mode) ctx fn.args.1 me pe dest source r n m hr hn (fun h => nomatch h)
  | am =>
    obtain ⟨hs, hb⟩ := ham rfl
    have h1 : fn.args.1 = fn.elem := mpi_size hf
    have h2 : fn.args.2 = fn.elem := by
      have := typesz hf
      cases fn with
      | typed r => exact this
      | sized r => exact absurd rfl (hs r)
      | mem => exact this
    rw [h1, h2]
    exact C17_get_partial procs .am ctx fn.elem me pe dest source r n m hr hn (fun _ => hb)

/-- C63 fails: `shmem_get8`, `get16`, `get32`, `get64`, `get128` over active messages ask the target for eight times the
bytes the receive was posted for; MPI reports truncation and the program aborts, whatever the buffers, for every
positive number of elements (as far as the byte count fits an `int`). -/
theorem C63_sized_get_fails {s : SRow} (hs : s ∈ sizedRows) (procs : Nat → Proc) (ctx : Option (Obj × Attr)) (me pe : Nat)
    (dest source r : BitVec 64) (n : Nat) (m : Mems) (hr : resolve procs .am ctx me pe source = .ok r)
    (h0 : 0 < n) (hb : s.size * n < 2 ^ 31) :
    get (.sized s) procs .am ctx me pe dest source n m = .abort := by
  have h1 : s.mpi.bytes = s.size / 8 := mpi_size (fn := .sized s) hs
  have h2 : s.size = 8 * (s.size / 8) := typesz (fn := .sized s) hs
  have hp : 0 < s.size / 8 := elem_pos (fn := .sized s) hs
  have h3 : s.mpi.bytes < s.size := by omega
  exact get_am_longer procs ctx _ _ me pe dest source r n m hr h0 hb h3

/-! ## C64 -/

/-- C64. `shmem_pe_accessible` is 1 exactly for the PE numbers of the program, else 0. -/
theorem C64_pe (npes : Nat) (pe : Int) :
    (peAccessible npes pe = 1 ↔ ∃ p : Nat, p < npes ∧ pe = p) ∧ (peAccessible npes pe = 0 ∨ peAccessible npes pe = 1) := by
  unfold peAccessible
  constructor
  · split
    · rename_i h
      exact ⟨fun _ => ⟨pe.toNat, by omega, by omega⟩, fun _ => rfl⟩
    · rename_i h
      constructor
      · intro c; exact absurd c (by decide)
      · rintro ⟨p, hp, rfl⟩; omega
  · split
    · exact Or.inr rfl
    · exact Or.inl rfl

/-- C64. An address reported accessible is one the put/get/AMO routines accept: the lookup finds it, in the heap or the
global data. -/
theorem C64_accessible_found (g : Proc) (npes : Nat) (addr : BitVec 64) (pe : Int) (h : addrAccessible g npes addr pe = 1) :
    (query g addr = some (.heap, g.heap) ∨ query g addr = some (.data, g.data)) ∧ ∃ p : Nat, p < npes ∧ pe = p := by
  unfold addrAccessible at h
  split at h
  · rename_i hc
    obtain ⟨hr, h1, h2⟩ := hc
    refine ⟨?_, pe.toNat, by omega, by omega⟩
    unfold query
    by_cases hh : inRange g.heap addr
    · rw [if_pos hh]; exact Or.inl rfl
    · rcases hr with hr | hr
      · exact absurd hr hh
      · rw [if_neg hh, if_pos hr]; exact Or.inr rfl
  · exact absurd h (by decide)

/-- C64, exact: the converse direction holds for everything but the memory of spaces: on a PE of the program the answer
is 1 iff the routines would accept the address as heap or global data. -/
theorem C64_accessible_iff_partial (g : Proc) (npes : Nat) (addr : BitVec 64) (p : Nat) (hp : p < npes) :
    addrAccessible g npes addr p = 1 ↔ ∃ o a, query g addr = some (o, a) ∧ ∀ nm, o ≠ .space nm := by
  constructor
  · intro h
    rcases (C64_accessible_found g npes addr p h).1 with e | e
    · exact ⟨_, _, e, by simp⟩
    · exact ⟨_, _, e, by simp⟩
  · rintro ⟨o, a, e, hn⟩
    unfold addrAccessible
    rw [if_pos]
    refine ⟨?_, by omega, by omega⟩
    unfold query at e
    split at e
    · rename_i h; exact Or.inl h
    · split at e
      · rename_i h; exact Or.inr h
      · split at e
        · simp only [Option.some.injEq, Prod.mk.injEq] at e
          exact absurd e.1.symm (hn _)
        · exact absurd e (by simp)

/-- C64 fails: memory of an attached space is reported inaccessible on every PE although every put, get and AMO on it
resolves. -/
theorem C64_space_fails (g : Proc) (npes : Nat) (addr : BitVec 64) (pe : Int) {nm : Nat} {a : Attr}
    (h : query g addr = some (.space nm, a)) : addrAccessible g npes addr pe = 0 := by
  unfold addrAccessible
  unfold query at h
  rw [if_neg]
  rintro ⟨hr, _⟩
  split at h
  · simp at h
  · split at h
    · simp at h
    · rename_i h1 h2
      rcases hr with hr | hr
      · exact h1 hr
      · exact h2 hr

/-- C64. `shmem_ptr` never returns a pointer for another PE; for the caller it is the argument. -/
theorem C64_ptr (me : Nat) (dest : BitVec 64) (pe : Int) :
    (∀ q, ptr me dest pe = some q → pe = me ∧ q = dest) ∧ ptr me dest me = some dest := by
  unfold ptr
  constructor
  · intro q h
    split at h
    · rename_i e; exact ⟨e, by simpa using h.symm⟩
    · simp at h
  · rw [if_pos rfl]

/-! ## Non-vacuity -/

/-- `shmem_long_put` of 3 elements from PE 0 to the heap of PE 1 on both paths; `shmem_put32` of 3 elements -/
example : (Fn.typed ⟨.long, .long⟩).Exists ∧ (Fn.sized ⟨32, .uint32⟩).Exists ∧
    resolve (exProcs false) (.direct .rel) none 0 1 0x10018#64 = .ok 0x20018#64 ∧
    resolve (exProcs false) .am none 0 1 0x10018#64 = .ok 0x20018#64 ∧
    (Fn.sized ⟨32, .uint32⟩).args.2 * 3 < 2 ^ 31 ∧ (Fn.typed ⟨.long, .long⟩).elem * 3 = 24 := by
  refine ⟨by show _ ∈ rmaRows; decide, by show _ ∈ sizedRows; decide, by decide +kernel, by decide +kernel, by decide, by decide⟩

/-- an address in the heap of PE 0 is accessible on PE 1, not on PE 2 of 2, not beyond the heap -/
example : addrAccessible (exProcs false 0) 2 0x10018#64 1 = 1 ∧ addrAccessible (exProcs false 0) 2 0x10018#64 2 = 0 ∧
    addrAccessible (exProcs false 0) 2 0x11000#64 1 = 0 := by decide +kernel

/-- a space at 0x50000: found by the lookup, hence reported inaccessible by `C64_space_fails` -/
example : (query { exProcs false 0 with spaces := [(3, setupAttr false .attached 0 2 (fun _ => 0x50000#64) 4096 0)] }
    0x50010#64).map (·.1) = some (.space 3) := by decide +kernel

end Verif.Api
