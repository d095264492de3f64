import Verif.Team.Agree
/-!
# Team handles: from the split to the destruction

What one PE has in memory for its teams: the objects `OSHMPI_team_t`, each with a communicator and a group of MPI, and
the two pointers in `OSHMPI_global`. Which PEs a split selects is the model of `Team.Model`; here it is what the calls
allocate, look up and release. A pointer or MPI handle that is not live is undefined behaviour. MPI numbers its
communicators and groups and does not use a number again (simplification: a real library may, once it is freed).
The address that `OSHMPIU_malloc` returns is an argument of the call; it may be one that was freed before.
Allocation failure (team_impl.c L16-19) is left out.
-/
namespace Verif.Team.Life

/-- `OSHMPI_team_t`, oshmpi_impl.h L177-183; `shmem_team_config_t` has one member (shmem.h.in.tpl L88-90) -/
structure TObj where
  comm : Nat
  group : Nat
  my_pe : Int
  n_pes : Int
  cfg : Int
deriving DecidableEq, Repr

/-- the memory of a PE: live team objects by address, live communicators and groups by number with their members, the
number that MPI gives next, and `OSHMPI_global.team_world` / `team_shared` (oshmpi_impl.h L185-203) -/
structure St where
  objs : Nat → Option TObj
  comms : Nat → Option (List Nat)
  groups : Nat → Option (List Nat)
  next : Nat
  world : Nat
  shared : Nat

/-- assignment to one place -/
def put {α : Type} (f : Nat → α) (a : Nat) (v : α) : Nat → α := fun x => if x = a then v else f x

/-- `SHMEM_TEAM_WORLD`, shmem.h.in.tpl L91 -/
def hWorld : Nat := 0x90000
/-- `SHMEM_TEAM_SHARED`, shmem.h.in.tpl L92 -/
def hShared : Nat := 0x90001
/-- `SHMEM_TEAM_INVALID`, shmem.h.in.tpl L93; also the null pointer that team_impl.c L61 stores -/
def hInvalid : Nat := 0

/-- reading the object at an address -/
def ptr (s : St) (a : Nat) : Res (Option TObj) := match s.objs a with
  | none => .ub
  | some t => .ok (some t)

/-- the object of a handle: team.c L111-121, L51-62, L168-178 and `OSHMPI_TEAM_GET_OBJ`, oshmpi_impl.h L349-358;
`none` = `SHMEM_TEAM_INVALID` -/
def deref (s : St) (h : Nat) : Res (Option TObj) :=
  if h = hInvalid then .ok none
  else if h = hWorld then ptr s s.world
  else if h = hShared then ptr s s.shared
  else ptr s h

/-- a new communicator with its group, and a team object for it at address `a`: `OSHMPI_team_create`, team_impl.c
L9-33, with L50-60 of `OSHMPI_team_split` (or setup_impl.c L798-807, L810-822). The config is zero. -/
def install (s : St) (a : Nat) (o : Obj) : St :=
  { s with
    objs := put s.objs a (some ⟨s.next, s.next, o.my_pe, o.n_pes, 0⟩)
    comms := put s.comms s.next (some o.comm)
    groups := put s.groups s.next (some o.comm)
    next := s.next + 1 }

/-- `if (config && config_mask != 0) _new_team->config = *config`, team.c L143-148 and L191-200; `cfg` is `none` for a
null pointer -/
def setCfg (s : St) (a : Nat) (cfg : Option Int) (mask : Int) : St := match cfg, s.objs a with
  | some c, some t => if mask = 0 then s else { s with objs := put s.objs a (some { t with cfg := c }) }
  | some _, none => s
  | none, some _ => s
  | none, none => s

/-- the split of one team into at most one new team, which gets the object at `a`: `OSHMPI_team_split`, team_impl.c
L43-64, and the copy of the config; the new handle and the memory -/
def splitTo (s : St) (a : Nat) (o : Option Obj) (cfg : Option Int) (mask : Int) : Nat × St := match o with
  | none => (hInvalid, s)
  | some o => (a, setCfg (install s a o) a cfg mask)

/-- `shmem_team_split_strided`, team.c L102-158: return code, new handle, memory; `a` = what `OSHMPIU_malloc` returns.
The communicator of the parent must be live. -/
def splitStridedM (s : St) (parent : Nat) (start stride size : Int) (cfg : Option Int) (mask : Int) (a : Nat) :
    Res (Int × Nat × St) :=
  (deref s parent).bind fun p => match p with
    | none => .ok (-2, hInvalid, s)
    | some t => match s.comms t.comm with
      | none => .ub
      | some ms => (splitStrided ms start stride size t.my_pe.toNat).bind fun r =>
          .ok (r.rc, (splitTo s a r.team cfg mask).1, (splitTo s a r.team cfg mask).2)

/-- `shmem_team_split_2d`, team.c L160-212: return code, the x- and the y-axis handle, memory. First both splits, then
the configs: the order does not matter to the memory. -/
def split2dM (s : St) (parent : Nat) (xrange : Int) (xcfg : Option Int) (xmask : Int) (ycfg : Option Int)
    (ymask : Int) (a b : Nat) : Res (Int × Nat × Nat × St) :=
  (deref s parent).bind fun p => match p with
    | none => .ok (-2, hInvalid, hInvalid, s)
    | some t => match s.comms t.comm with
      | none => .ub
      | some ms => (split2d ms xrange t.my_pe.toNat).bind fun r =>
          let x := splitTo s a r.1 xcfg xmask
          let y := splitTo x.2 b r.2 ycfg ymask
          .ok (0, x.1, y.1, y.2)

/-- `OSHMPI_team_destroy`, team_impl.c L35-41, for the object at address `a`: `MPI_Group_free`, `MPI_Comm_free`,
`OSHMPIU_free` -/
def destroyAt (s : St) (a : Nat) : Res St := match s.objs a with
  | none => .ub
  | some t => match s.groups t.group, s.comms t.comm with
    | some _, some _ => .ok { s with
        objs := put s.objs a none, groups := put s.groups t.group none, comms := put s.comms t.comm none }
    | some _, none => .ub
    | none, some _ => .ub
    | none, none => .ub

/-- `shmem_team_destroy`, team.c L214-222 -/
def destroyM (s : St) (h : Nat) : Res St :=
  if h = hInvalid ∨ h = hWorld ∨ h = hShared then .ok s else destroyAt s h

/-- `shmem_team_get_config`, team.c L47-65: `none` = -1 and nothing stored, otherwise what is stored -/
def getConfigM (s : St) (h : Nat) : Res (Option Int) := (deref s h).bind fun p => match p with
  | none => .ok none
  | some t => .ok (some t.cfg)

/-- `shmem_team_my_pe`, team.c L11-27 -/
def myPeM (s : St) (h : Nat) : Res Int := (deref s h).bind fun p => match p with
  | none => .ok (-1)
  | some t => .ok t.my_pe

/-- `shmem_team_n_pes`, team.c L29-45 -/
def nPesM (s : St) (h : Nat) : Res Int := (deref s h).bind fun p => match p with
  | none => .ok (-1)
  | some t => .ok t.n_pes

/-- what a collective, a point-to-point or a translation gets from a handle: the members of its group (team.c L84-97)
and of its communicator (coll_impl.h via `team_obj->comm`) -/
def groupOf (s : St) (h : Nat) : Res (Option (List Nat × List Nat)) := (deref s h).bind fun p => match p with
  | none => .ok none
  | some t => match s.groups t.group, s.comms t.comm with
    | some g, some c => .ok (some (g, c))
    | some _, none => .ub
    | none, some _ => .ub
    | none, none => .ub

/-- nothing live yet -/
def empty : St := ⟨fun _ => none, fun _ => none, fun _ => none, 0, 0, 0⟩

/-- setup_impl.c L798-822 on PE `me` of `n`; `a`, `b` = what `OSHMPIU_malloc` returns. `sharedObj` is always there,
since all PEs pass the same colour (see C55). -/
def initTeams (cts n me a b : Nat) : St :=
  let s1 := { install empty a (worldObj n me) with world := a }
  match sharedObj cts n me with
  | none => s1
  | some o => { install s1 b o with shared := b }

/-- setup_impl.c L902-903 -/
def finalTeams (s : St) : Res St := (destroyAt s s.shared).bind fun s1 =>
  (destroyAt { s1 with shared := 0 } s1.world).bind fun s2 => .ok { s2 with world := 0 }

/-- a call that creates or destroys teams, with the addresses that `OSHMPIU_malloc` returns in it -/
inductive Call where
  | strided (parent : Nat) (start stride size : Int) (cfg : Option Int) (mask : Int) (a : Nat)
  | grid (parent : Nat) (xrange : Int) (xcfg : Option Int) (xmask : Int) (ycfg : Option Int) (ymask : Int) (a b : Nat)
  | destroy (h : Nat)
deriving DecidableEq, Repr

/-- the memory after a call: team.c L102-222 -/
def Call.run (s : St) : Call → Res St
  | .strided p st sd sz c m a => (splitStridedM s p st sd sz c m a).bind fun r => .ok r.2.2
  | .grid p x xc xm yc ym a b => (split2dM s p x xc xm yc ym a b).bind fun r => .ok r.2.2.2
  | .destroy h => destroyM s h

/-- the memory after a sequence of calls: team.c L102-222 -/
def runs (s : St) : List Call → Res St
  | [] => .ok s
  | c :: cs => (c.run s).bind fun s' => runs s' cs

end Verif.Team.Life
