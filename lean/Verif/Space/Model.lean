import Verif.Sobj.Model
/-!
# Life cycle of spaces on one PE, `/repo/src/internal/space_impl.c`

Simplifications: the memory pool is in `MemPool`, the contexts' used flags are in `Space/Ctx.lean`, the linked list is
a list (justified in `UtList`). `create` is given a name that is not in use (the pointer returned by `malloc`).
-/
namespace Verif.Space
open Verif.Sobj

/-- one space: `OSHMPI_space_t`, oshmpi_impl.h L156-167. `win` = the default window exists, `ctxs` = `ctx_list` is not
NULL. -/
structure Sp where
  name : Nat
  attr : Attr
  nctx : Nat
  win : Bool
  ctxs : Bool

/-- one PE's space state: `OSHMPI_global.space_list` and `space_attach_idx` (space_impl.c L273). -/
structure St where
  spaces : List Sp
  idx : Nat

/-- start: no spaces, counter 0 (space_impl.c L273) -/
def St.empty : St := ⟨[], 0⟩

/-- Calls. `attach` carries the start addresses of the space on all PEs, exchanged by the collective. -/
inductive Op where
  | create (name : Nat) (base : BitVec 64) (size : Int) (nctx : Nat)
  | attach (name : Nat) (bases : Nat → BitVec 64)
  | detach (name : Nat)
  | destroy (name : Nat)

/-- replace the space called `name` -/
def setSp (l : List Sp) (name : Nat) (f : Sp → Sp) : List Sp := l.map (fun s => if s.name = name then f s else s)

/-- One call on PE `me` of `n`; returns the new state and the handle handed out, if any.
`abort` = failed assertion. Calls on unknown names are not part of a valid program (`ub`). -/
def step (dyn : Bool) (n me : Nat) (s : St) : Op → Res (St × Option (BitVec 32 × Nat))
  -- OSHMPI_space_create, space_impl.c L166-222
  | .create name base size nctx =>
    if (s.spaces.find? (fun x => x.name == name)).isSome then .ub
    else if size ≤ 0 then .abort
    else .ok ({ s with spaces := s.spaces ++
      [{ name := name, nctx := nctx, win := false, ctxs := false,
         attr := { handle := mkHandle Kind.space.val 0#32 0#32, base := base, size := size, offs := none } }] }, none)
  -- OSHMPI_space_attach, space_impl.c L276-331
  | .attach name bases =>
    match s.spaces.find? (fun x => x.name == name) with
    | none => .ub
    | some x =>
      if x.ctxs then .abort
      else
        let a := setupAttr dyn .attached s.idx n bases x.attr.size me
        .ok ({ spaces := setSp s.spaces name (fun y =>
                 { y with attr := { a with base := y.attr.base }, win := true, ctxs := decide (0 < y.nctx) })
               idx := s.idx + 1 }, some (a.handle, name))
  -- OSHMPI_space_detach, space_impl.c L334-359
  | .detach name =>
    match s.spaces.find? (fun x => x.name == name) with
    | none => .ub
    | some x =>
      if x.win = false then .abort
      else if ¬ (x.nctx = 0 ∨ x.ctxs = true) then .abort
      else .ok ({ s with spaces := setSp s.spaces name (fun y =>
             { y with win := false, ctxs := false,
                      attr := { y.attr with handle := mkHandle Kind.space.val 0#32 0#32, offs := none } }) }, none)
  -- OSHMPI_space_destroy, space_impl.c L225-249
  | .destroy name =>
    match s.spaces.find? (fun x => x.name == name) with
    | none => .ub
    | some _ => .ok ({ s with spaces := s.spaces.filter (fun x => x.name != name) }, none)

/-- A whole history on one PE, with the log of (handle, space name) handed out by the attaches, oldest first. -/
def run (dyn : Bool) (n me : Nat) (s : St) (log : List (BitVec 32 × Nat)) : List Op → Res (St × List (BitVec 32 × Nat))
  | [] => .ok (s, log)
  | op :: t => (step dyn n me s op).bind fun r => run dyn n me r.1 (log ++ r.2.toList) t

/-- The spaces as the lookup functions see them. -/
def St.view (s : St) : List (Nat × Attr) := s.spaces.map (fun x => (x.name, x.attr))

/-- the collective attach calls in a history -/
def attachSeq (ops : List Op) : List (Nat × (Nat → BitVec 64)) :=
  ops.filterMap (fun o => match o with
    | .attach name bases => some (name, bases)
    | .create _ _ _ _ => none
    | .detach _ => none
    | .destroy _ => none)

end Verif.Space
