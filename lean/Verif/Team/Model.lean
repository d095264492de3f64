import Verif.Base.CInt
import Mathlib.Data.List.Sort
/-!
# Teams, `/repo/src/shmem/team.c` and `/repo/src/internal/team_impl.c`

A communicator is the list of its members' world ranks in rank order. MPI calls are modelled by their specification
(trusted): `MPI_Comm_split`, `MPI_Group_translate_ranks`. Signed overflow and division by zero are `ub`, MPI errors
are `abort` (the default error handler).
-/
namespace Verif.Team

/-- a team object on one PE (`OSHMPI_team_t`, oshmpi_impl.h L177-183; the group has the same members as the
communicator, the config is left out) -/
structure Obj where
  comm : List Nat
  my_pe : Int
  n_pes : Int
deriving DecidableEq, Repr

/-- `MPI_Comm_split` on the member with rank `r`: everybody of the same colour, ordered by key, ties by old rank;
`none` = `MPI_UNDEFINED` / `MPI_COMM_NULL`. Also returns the new rank. -/
def commSplit (comm : List Nat) (color : Nat → Option Int) (key : Nat → Int) (r : Nat) : Option (List Nat × Nat) :=
  match color r with
  | none => none
  | some c =>
    let ranks := ((List.range comm.length).filter (fun q => color q == some c)).insertionSort (fun a b => key a ≤ key b)
    some (ranks.map (fun q => comm.getD q 0), ranks.idxOf r)

/-- `OSHMPI_team_split`, team_impl.c L43-64, on the member with rank `r`, when every member `q` passes `color q`; the
key is the member's rank in the parent (L50). `none` = `SHMEM_TEAM_INVALID`. -/
def teamSplit (comm : List Nat) (color : Nat → Option Int) (r : Nat) : Option Obj :=
  (commSplit comm color (fun q => (q : Int)) r).map fun x =>
    { comm := x.1, my_pe := (x.2 : Nat), n_pes := (x.1.length : Nat) }

/-- is an `int` -/
def fitsInt (x : Int) : Bool := decide (-(2 ^ 31) ≤ x) && decide (x < 2 ^ 31)

/-- `end_pe`, team.c L129: every intermediate result must be an `int`. -/
def endPe (start stride size : Int) : Res Int :=
  if fitsInt (size - 1) ∧ fitsInt (stride * (size - 1)) ∧ fitsInt (start + stride * (size - 1)) then
    .ok (start + stride * (size - 1))
  else .ub

/-- the sanity checks, team.c L125-132: `none` = `fn_fail` -/
def stridedCheck (n start stride size : Int) : Res (Option Int) :=
  if start < 0 ∨ start ≥ n then .ok none
  else (endPe start stride size).bind fun e => if e < 0 ∨ e ≥ n then .ok none else .ok (some e)

/-- `rank_selected`, team.c L138-139, on parent rank `me`; `%` truncates, by zero it is UB -/
def selected (me start stride e : Int) : Res Bool :=
  if me ≥ start ∧ me ≤ e then
    if stride = 0 then .ub else .ok (decide ((me - start).tmod stride = 0))
  else .ok false

/-- result of a split on one PE: return code (SHMEM_SUCCESS 0, SHMEM_OTHER_ERR -2) and the new team -/
structure SplitRes where
  rc : Int
  team : Option Obj
deriving DecidableEq, Repr

/-- run `f` on every rank below `n`; the first outcome that is not `ok` wins -/
def collect {α : Type} (f : Nat → Res α) : Nat → Res (List α)
  | 0 => .ok []
  | n + 1 => (collect f n).bind fun l => (f n).bind fun a => .ok (l ++ [a])

/-- `shmem_team_split_strided`, team.c L102-158, called by every member of the parent with the same arguments; result
on the member with rank `r`. If one member runs into undefined behaviour, so does the program. -/
def splitStrided (parent : List Nat) (start stride size : Int) (r : Nat) : Res SplitRes :=
  (stridedCheck parent.length start stride size).bind fun chk =>
    match chk with
    | none => .ok ⟨-2, none⟩
    | some e =>
      (collect (fun q => selected (q : Nat) start stride e) parent.length).bind fun sel =>
        .ok ⟨0, teamSplit parent (fun q => if sel.getD q false then some 1 else none) r⟩

/-- `shmem_team_split_2d`, team.c L160-212, on parent rank `r`: (x-axis team, y-axis team). Division by zero is UB, a
negative colour is an MPI error. -/
def split2d (parent : List Nat) (xrange : Int) (r : Nat) : Res (Option Obj × Option Obj) :=
  if xrange = 0 then .ub
  else
    let x (q : Nat) : Int := (q : Int).tmod xrange
    let y (q : Nat) : Int := (q : Int).tdiv xrange
    if ∃ q ∈ List.range parent.length, y q < 0 ∨ x q < 0 then .abort
    else .ok (teamSplit parent (fun q => some (y q)) r, teamSplit parent (fun q => some (x q)) r)

/-- a team handle: the three constants (shmem.h.in.tpl L91-93) or an object -/
inductive Handle where
  | invalid | world | shared | obj (o : Obj)
deriving DecidableEq, Repr

/-- the predefined teams of PE `me` of `n`: setup_impl.c L798-807 and L810-822. The shared team is made by
`MPI_Comm_split` (not `MPI_Comm_split_type`) with the constant `MPI_COMM_TYPE_SHARED` as colour: `cts`, not negative. -/
def worldObj (n me : Nat) : Obj := ⟨List.range n, (me : Nat), (n : Nat)⟩

/-- see `worldObj` -/
def sharedObj (cts : Nat) (n me : Nat) : Option Obj := teamSplit (List.range n) (fun _ => some (cts : Nat)) me

/-- `OSHMPI_TEAM_GET_OBJ`, oshmpi_impl.h L349-358, and the same code in team.c -/
def getObj (cts n me : Nat) : Handle → Option Obj
  | .invalid => none
  | .world => some (worldObj n me)
  | .shared => sharedObj cts n me
  | .obj o => some o

/-- `shmem_team_my_pe`, team.c L11-27 -/
def myPe (cts n me : Nat) (h : Handle) : Int := match getObj cts n me h with
  | none => -1
  | some o => o.my_pe

/-- `shmem_team_n_pes`, team.c L29-45 -/
def nPes (cts n me : Nat) (h : Handle) : Int := match getObj cts n me h with
  | none => -1
  | some o => o.n_pes

/-- `shmem_team_translate_pe`, team.c L67-100: `MPI_Group_translate_ranks` maps `MPI_PROC_NULL` (`pnull`, a negative
constant of the MPI library) to itself; another rank that is not in the source group is an MPI error. -/
def translatePe (cts n me : Nat) (pnull : Int) (src : Handle) (pe : Int) (dst : Handle) : Res Int :=
  match getObj cts n me src, getObj cts n me dst with
  | some a, some b =>
    if 0 ≤ pe ∧ pe < a.comm.length then
      let w := a.comm.getD pe.toNat 0
      if w ∈ b.comm then .ok (b.comm.idxOf w : Nat) else .ok (-1)
    else if pe = pnull then .ok pnull
    else .abort
  | none, _ => .ok (-1)
  | some _, none => .ok (-1)

end Verif.Team
