import Verif.Base.CInt
/-!
# Collective allocation of the symmetric heap region

`/repo/src/internal/util/symm_mem.c` L33-157 (with `OSHMPI_ENABLE_SYMM_ALLOC`), and what `attach_symm_heap` and `finalize_impl`
do with it (`/repo/src/internal/setup_impl.c` L163-204, L887-890).

Addresses are natural numbers. The operating system's view of a process is the set of pages in use. `msync` fails with
`ENOMEM` exactly on unmapped pages (trusted); `mmap` with `MAP_FIXED` may fail for its own reasons (parameter) and otherwise
maps the pages of the range, replacing what was there; `munmap` of an address that is not page-aligned (`MAP_FAILED`) fails
without effect.
-/
namespace Verif.Symm

/-- which pages of a process are in use -/
abbrev Pages := Nat → Bool

/-- `check_maprange_ok`, symm_mem.c L37-57: every page of the range is unused; `pg` = page size -/
def rangeOk (pg : Nat) (s : Pages) (start size : Nat) : Bool :=
  (List.range (size / pg)).all (fun i => !s (start / pg + i))

/-- `__MAP_POINTER`, symm_mem.c L64-65 -/
def mapPointer (pg rnd : BitVec 64) : BitVec 64 :=
  rnd &&& ((0x00006FFFFFFFFFFF#64 &&& ~~~(pg - 1#64)) ||| 0x0000600000000000#64)

/-- the retry loop of `generate_random_addr`, symm_mem.c L84-96, with the random numbers as a stream; `none` stands for the
address -1 -/
def genLoop (pg : BitVec 64) (s : Pages) (size : Nat) (rnd : Nat → BitVec 64) : Nat → Nat → Option Nat
  | _, 0 => none
  | i, n + 1 =>
    let a := (mapPointer pg (rnd i)).toNat
    if rangeOk pg.toNat s a size then some a else genLoop pg s size rnd (i + 1) n

/-- `generate_random_addr`, symm_mem.c L59-99: 100 addresses are tried (L71, L86-96: after the
100th failure the next address is generated but replaced by -1) -/
def genAddr (pg : BitVec 64) (s : Pages) (size : Nat) (rnd : Nat → BitVec 64) : Option Nat := genLoop pg s size rnd 0 100

/-- pages of a range -/
def inRange (pg start size q : Nat) : Bool := decide (start / pg ≤ q) && decide (q < start / pg + (size + pg - 1) / pg)

/-- effect of a successful `mmap` -/
def mapAt (pg : Nat) (s : Pages) (start size : Nat) : Pages := fun q => inRange pg start size q || s q

/-- effect of `munmap` -/
def unmapAt (pg : Nat) (s : Pages) (start size : Nat) : Pages := fun q => !inRange pg start size q && s q

/-- a process in one round: symm_mem.c L133-139; `none` = `MAP_FAILED`. `fail` = the operating system refuses the mapping. -/
def tryMap (pg size : Nat) (fail : Bool) (a : Nat) (s : Pages) : Option Nat × Pages :=
  if rangeOk pg s a size then
    if fail then (none, s) else (some a, mapAt pg s a size)
  else (none, s)

/-- cleanup after a failed round: symm_mem.c L146-147 -/
def cleanup (pg size : Nat) (r : Option Nat × Pages) : Pages := match r with
  | (some a, s) => unmapAt pg s a size
  | (none, s) => s

/-- what the processes do by themselves does not depend on each other; randomness and refusals of round `i` -/
structure Env where
  rnd : Nat → Nat → BitVec 64
  fail : Nat → Nat → Bool

/-- `OSHMPIU_allocate_symm_mem` on `n` processes, symm_mem.c L110-157: rounds until nobody fails, at most 100. Result: for
each process the returned flag and, on success, the address; and its pages. -/
def allocLoop (n : Nat) (pg : BitVec 64) (size : Nat) (env : Env) : Nat → Nat → (Nat → Pages) →
    (Nat → Option Nat) × (Nat → Pages)
  | _, 0, s => (fun _ => none, s)
  | i, fuel + 1, s =>
    match genAddr pg (s 0) size (env.rnd i) with
    | none => (fun _ => none, s)
    | some a =>
      let r := fun p => tryMap pg.toNat size (env.fail i p) a (s p)
      if (List.range n).any (fun p => (r p).1.isNone) then
        allocLoop n pg size env (i + 1) fuel (fun p => cleanup pg.toNat size (r p))
      else (fun p => (r p).1, fun p => (r p).2)

/-- the whole function -/
def alloc (n : Nat) (pg : BitVec 64) (size : Nat) (env : Env) (s : Nat → Pages) : (Nat → Option Nat) × (Nat → Pages) :=
  allocLoop n pg size env 0 100 s

/-! ## Release -/

/-- how a heap region was obtained, setup_impl.c L178-179 -/
inductive Origin where
  | mapped
  | malloced
deriving DecidableEq, Repr

/-- with which function it is released, setup_impl.c L887-890 -/
inductive Release where
  | munmap
  | free
deriving DecidableEq, Repr

/-- the region of a process: `OSHMPIU_allocate_symm_mem`, or `malloc` (address `mal p`) if it fails -/
def heapRegion (al : Nat → Option Nat) (mal : Nat → Nat) (p : Nat) : Nat × Origin := match al p with
  | some a => (a, .mapped)
  | none => (mal p, .malloced)

/-- `OSHMPIU_check_symm_mem`, symm_mem.c L177-206: the symmetric flag -/
def symmFlag (n : Nat) (base : Nat → Nat) (p : Nat) : Bool := (List.range n).all (fun q => base q == base p)

/-- setup_impl.c L887-890 -/
def releaseOf (symm : Bool) : Release := if symm then .munmap else .free

end Verif.Symm
