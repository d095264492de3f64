import Verif.Base.CInt
import Mathlib.Logic.Function.Basic
/-!
# MPI datatypes and the strided datatype cache

`/repo/src/internal/strided_impl.h`, `/repo/src/internal/strided_impl.c`. MPI datatypes are modelled by their type map
(MPI standard, trusted): the displacements of the bytes in the order of the type signature, and the extent.
-/
namespace Verif.Rma

/-- an MPI datatype: byte displacements in signature order, extent -/
structure Ty where
  map : List Int
  extent : Int
deriving DecidableEq, Repr

/-- predefined datatype of `k` bytes -/
def Ty.basic (k : Nat) : Ty := ⟨(List.range k).map (fun (b : Nat) => (b : Int)), k⟩

/-- `MPI_Type_vector(n, 1, stride, t)` for a `t` with lower bound 0; for `n ≥ 1` the extent spans from the first to the
last block (only its use after `MPI_Type_create_resized` or with count 1 occurs) -/
def Ty.vector (n : Nat) (stride : Int) (t : Ty) : Ty :=
  ⟨(List.range n).flatMap (fun (i : Nat) => t.map.map (fun d => d + (i : Int) * stride * t.extent)),
    if n = 0 then 0 else (((n : Int) - 1) * (stride.natAbs : Int) + 1) * t.extent⟩

/-- `MPI_Type_create_resized(t, 0, e)` -/
def Ty.resized (t : Ty) (e : Int) : Ty := ⟨t.map, e⟩

/-- byte displacements of a buffer of `count` items of type `t` -/
def Ty.flat (count : Nat) (t : Ty) : List Int :=
  (List.range count).flatMap (fun (j : Nat) => t.map.map (fun d => d + (j : Int) * t.extent))

/-- `(int) x` for a signed 64-bit `x` -/
def toI32s (x : Int) : Int := x.bmod (2 ^ 32)

/-- value of a `size_t` expression converted to `MPI_Aint` -/
def toAint (x : Nat) : Int := (x : Int).bmod (2 ^ 64)

/-- what a strided datatype is made for: the arguments of `OSHMPI_create_strided_dtype`. The predefined element type is
identified by a number; `sz` is its size. -/
structure Key where
  nelems : Nat
  stride : Int
  base : Nat
  ext : Nat
deriving DecidableEq, Repr

/-- a datatype handle: predefined or derived -/
inductive DT where
  | base (id : Nat)
  | derived (h : Nat)
deriving DecidableEq, Repr

/-- the datatype created in the slow path, strided_impl.h L140-170; `none` when `(int) nelems` is negative
(`MPI_Type_vector` fails; MPI errors abort). `elem_bytes` (L151-162) is the size of the predefined type in all branches. -/
def newType (sz : Nat → Nat) (k : Key) : Option Ty :=
  if toI32 k.nelems < 0 then none
  else
    let v := Ty.vector (toI32 k.nelems).toNat (toI32s k.stride) (Ty.basic (sz k.base))
    some (if k.ext > 0 then v.resized (toAint (k.ext * sz k.base % 2 ^ 64)) else v)

/-- entry of `OSHMPI_strided_dtype_cache`, strided_impl.h L12-19 -/
structure Entry where
  key : Key
  h : Nat
deriving DecidableEq, Repr

/-- where a thread is inside `OSHMPI_create_strided_dtype` ... use ... `OSHMPI_free_strided_dtype` -/
inductive Pc where
  | idle
  /-- about to search the cache, strided_impl.h L132 -/
  | find (k : Key)
  /-- about to create the datatype, L140 -/
  | create (k : Key)
  /-- about to enter it into the cache, L174 -/
  | enter (k : Key) (h : Nat)
  /-- the call has returned count and datatype; the caller uses them until it calls `OSHMPI_free_strided_dtype` -/
  | use (k : Key) (cnt : Nat) (dt : DT)
  /-- MPI reported an error: the program is aborted -/
  | aborted
deriving DecidableEq, Repr

/-- state: the live derived datatypes of MPI, the cache list (head first), the threads -/
structure DSt where
  live : Nat → Option Ty
  cache : List Entry
  pc : Nat → Pc

/-- initial state (`OSHMPI_strided_initialize`, strided_impl.c L11-20) -/
def DSt.init : DSt := ⟨fun _ => none, [], fun _ => .idle⟩

/-- `strided_find_dtype_cache`, strided_impl.h L55-76 (a critical section: one step); without the cache: not found (L94) -/
def findCache (cacheOn : Bool) (c : List Entry) (k : Key) : Option Nat :=
  if cacheOn then (c.find? (fun e => e.key = k)).map (·.h) else none

/-- `strided_free_dtype`, strided_impl.h L78-82 (with the cache: nothing) and L102-107 (without: free a derived type) -/
def freeType (cacheOn : Bool) (dt : DT) (live : Nat → Option Ty) : Nat → Option Ty := match cacheOn, dt with
  | false, .derived hd => Function.update live hd none
  | false, .base _ => live
  | true, .derived _ => live
  | true, .base _ => live

/-- steps of thread `t`. Creating a datatype is inside MPI, which may return any handle that is not in use; the two
critical sections are single steps. -/
inductive DStep (cacheOn : Bool) (sz : Nat → Nat) : DSt → DSt → Prop
  /-- call with stride 1: returns immediately (L122-130) -/
  | contig (s : DSt) (t : Nat) (k : Key) (h : s.pc t = .idle) (h1 : k.stride = 1) :
      DStep cacheOn sz s { s with pc := Function.update s.pc t (.use k k.nelems (.base k.base)) }
  | call (s : DSt) (t : Nat) (k : Key) (h : s.pc t = .idle) (h1 : k.stride ≠ 1) :
      DStep cacheOn sz s { s with pc := Function.update s.pc t (.find k) }
  /-- L132-138 -/
  | hit (s : DSt) (t : Nat) (k : Key) (hd : Nat) (h : s.pc t = .find k) (h1 : findCache cacheOn s.cache k = some hd) :
      DStep cacheOn sz s { s with pc := Function.update s.pc t (.use k 1 (.derived hd)) }
  | miss (s : DSt) (t : Nat) (k : Key) (h : s.pc t = .find k) (h1 : findCache cacheOn s.cache k = none) :
      DStep cacheOn sz s { s with pc := Function.update s.pc t (.create k) }
  /-- L140-172 -/
  | make (s : DSt) (t : Nat) (k : Key) (hd : Nat) (ty : Ty) (h : s.pc t = .create k) (h1 : newType sz k = some ty)
      (h2 : s.live hd = none) :
      DStep cacheOn sz s
        { s with live := Function.update s.live hd (some ty), pc := Function.update s.pc t (.enter k hd) }
  | fail (s : DSt) (t : Nat) (k : Key) (h : s.pc t = .create k) (h1 : newType sz k = none) :
      DStep cacheOn sz s { s with pc := Function.update s.pc t .aborted }
  /-- `strided_set_dtype_cache`, L30-52 (nothing without the cache, L86) and return with count 1 (L172-174) -/
  | enter (s : DSt) (t : Nat) (k : Key) (hd : Nat) (h : s.pc t = .enter k hd) :
      DStep cacheOn sz s
        { s with cache := if cacheOn then ⟨k, hd⟩ :: s.cache else s.cache,
                 pc := Function.update s.pc t (.use k 1 (.derived hd)) }
  /-- the caller is done: `OSHMPI_free_strided_dtype`, L181-185 -/
  | done (s : DSt) (t : Nat) (k : Key) (cnt : Nat) (dt : DT) (h : s.pc t = .use k cnt dt) :
      DStep cacheOn sz s
        { s with live := freeType cacheOn dt s.live,
                 pc := Function.update s.pc t .idle }

/-- reachable by any interleaving of any number of threads -/
inductive DReach (cacheOn : Bool) (sz : Nat → Nat) : DSt → Prop
  | init : DReach cacheOn sz DSt.init
  | step {s s'} (h : DReach cacheOn sz s) (hs : DStep cacheOn sz s s') : DReach cacheOn sz s'

/-- the layout a datatype handle has in MPI at this moment -/
def layoutOf (sz : Nat → Nat) (s : DSt) : DT → Option Ty
  | .base id => some (Ty.basic (sz id))
  | .derived h => s.live h

/-- the call for `k` returned count `cnt` and a datatype of layout `ty`, in some execution -/
def Obtained (cacheOn : Bool) (sz : Nat → Nat) (k : Key) (cnt : Nat) (ty : Ty) : Prop :=
  ∃ s t dt, DReach cacheOn sz s ∧ s.pc t = .use k cnt dt ∧ layoutOf sz s dt = some ty

end Verif.Rma
