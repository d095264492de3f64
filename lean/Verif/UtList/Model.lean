import Mathlib.Logic.Function.Basic
import Verif.Base.CInt
/-!
# Intrusive singly linked lists, `/repo/src/internal/util/utlist.h` L314-423

Memory is the `next` field of every node, indexed by node address; address 0 is NULL. Loops carry fuel; running out of
it is the outcome `hang`, following NULL is `ub`.
-/
namespace Verif.UtList

/-- the `next` fields -/
abbrev Mem := Nat → Nat

/-- `LL_PREPEND`, utlist.h L317-321: new memory and new head -/
def prepend (m : Mem) (head add : Nat) : Mem × Nat := (Function.update m add head, add)

/-- `while (_tmp->next) _tmp = _tmp->next`, utlist.h L347 -/
def walkEnd (m : Mem) : Nat → Nat → Res Nat
  | 0, _ => .hang
  | f + 1, tmp => if m tmp = 0 then .ok tmp else walkEnd m f (m tmp)

/-- `LL_APPEND`, utlist.h L341-352 -/
def append (fuel : Nat) (m : Mem) (head add : Nat) : Res (Mem × Nat) :=
  let m1 := Function.update m add 0
  if head ≠ 0 then (walkEnd m1 fuel head).bind fun t => .ok (Function.update m1 t add, head)
  else .ok (m1, add)

/-- `while (_tmp->next && _tmp->next != del) _tmp = _tmp->next`, utlist.h L395-397 -/
def walkTo (m : Mem) (del : Nat) : Nat → Nat → Res Nat
  | 0, _ => .hang
  | f + 1, tmp => if m tmp = 0 ∨ m tmp = del then .ok tmp else walkTo m del f (m tmp)

/-- `LL_DELETE`, utlist.h L388-403 -/
def delete (fuel : Nat) (m : Mem) (head del : Nat) : Res (Mem × Nat) :=
  if head = del then (if head = 0 then .ub else .ok (m, m head))
  else if head = 0 then .ub
  else (walkTo m del fuel head).bind fun t =>
    if m t ≠ 0 then .ok (Function.update m t (m del), head) else .ok (m, head)

/-- `LL_FOREACH` without a body, utlist.h L416-417: the nodes visited, in order -/
def foreach (m : Mem) : Nat → Nat → Res (List Nat)
  | 0, el => if el = 0 then .ok [] else .hang
  | f + 1, el => if el = 0 then .ok [] else (foreach m f (m el)).bind fun l => .ok (el :: l)

/-- `LL_FOREACH` with `if (p(el)) break`: the searches in strided_impl.h L66-73 and coll_activeset_impl.h L60-68;
returns the node, NULL if none -/
def search (m : Mem) (p : Nat → Bool) : Nat → Nat → Res Nat
  | 0, el => if el = 0 then .ok 0 else .hang
  | f + 1, el => if el = 0 then .ok 0 else if p el then .ok el else search m p f (m el)

/-- the finalize loops: `LL_FOREACH_SAFE(head, el, tmp) { LL_DELETE(head, el); ...; free(el); }`, strided_impl.c L28-32
and coll_impl.c L26-30. `g el` is whatever `free` leaves in the node. Returns the final memory, head and the nodes
visited. -/
def deleteAll (g : Mem) (dfuel : Nat) : Nat → Mem → Nat → Nat → Res (Mem × Nat × List Nat)
  | 0, m, head, el => if el = 0 then .ok (m, head, []) else .hang
  | f + 1, m, head, el =>
    if el = 0 then .ok (m, head, [])
    else
      let tmp := m el
      (delete dfuel m head el).bind fun r =>
        (deleteAll g dfuel f (Function.update r.1 el (g el)) r.2 tmp).bind fun q =>
          .ok (q.1, q.2.1, el :: q.2.2)

/-- calls on the space list: creating a space appends its (freshly allocated) node (space_impl.c L201), destroying
it deletes the node and frees it, leaving garbage (space_impl.c L228, L248) -/
inductive Op where
  | create (node : Nat)
  | destroy (node : Nat) (garbage : Nat)
deriving Repr

/-- a history on the list at the level of memory -/
def run (fuel : Nat) (m : Mem) (head : Nat) : List Op → Res (Mem × Nat)
  | [] => .ok (m, head)
  | .create a :: t => (append fuel m head a).bind fun r => run fuel r.1 r.2 t
  | .destroy a g :: t => (delete fuel m head a).bind fun r => run fuel (Function.update r.1 a g) r.2 t

end Verif.UtList
