import Verif.Vis.Model
/-!
# The accesses of a call are those of the put/get model

`Step.put` and `Step.get` take the (destination, source) pairs from `PutPairs`/`GetPairs`. Performing them one after the other is
exactly the effect of `ctxPut`, `ctxIput`, `ctxGet`, `ctxIget` (`Rma/Model.lean`).
-/
namespace Verif.Vis
open Verif.Sobj Verif.Rma

/-- accesses performed one after the other -/
def performs (fp : Amo.Fp) (junk : Mem) : Mems → List Atom → Res Mems
  | m, [] => .ok m
  | m, a :: l => (a.perform fp junk m).bind fun m' => performs fp junk m' l

theorem performs_set (fp : Amo.Fp) (junk : Mem) (pe : Nat) (f : Int → BitVec 8) (xs : List (Int × Int)) (m : Mems) :
    performs fp junk m (xs.map fun x => .set pe x.1 (f x.2)) =
      .ok (Function.update m pe (writes (m pe) (xs.map fun x => (x.1, f x.2)))) := by
  induction xs generalizing m with
  | nil => simp [performs, writes]
  | cons x l ih =>
    simp only [List.map_cons, performs, Atom.perform, Res.bind, ih, writes]
    simp

theorem performs_mv (fp : Amo.Fp) (junk : Mem) {me pe : Nat} (hne : pe ≠ me) (xs : List (Int × Int)) (m : Mems) :
    performs fp junk m (xs.map fun x => .mv pe x.2 me x.1) =
      .ok (Function.update m me (writes (m me) (xs.map fun x => (x.1, m pe x.2)))) := by
  induction xs generalizing m with
  | nil => simp [performs, writes]
  | cons x l ih =>
    simp only [List.map_cons, performs, Atom.perform, Res.bind, ih, writes]
    simp [Function.update_of_ne hne]

theorem zip_map_right (da sa : List Int) (f : Int → BitVec 8) :
    da.zip (sa.map f) = (da.zip sa).map fun x => (x.1, f x.2) := by
  rw [List.zip_map_right]
  rfl

theorem xfer_ok {src dst r : IMem} {sa sc : Int} {sty : Ty} {da dc : Int} {dty : Ty}
    (h : mpiXfer src dst sa sc sty da dc dty = .ok r) :
    r = writes dst (((addrs da dc.toNat dty).zip (addrs sa sc.toNat sty)).map fun x => (x.1, src x.2)) := by
  unfold mpiXfer at h
  split at h
  · cases h
  · dsimp only at h
    split at h
    · cases h
    · cases h
      rw [zip_map_right]

theorem msg_ok {src dst r : IMem} {sa sc : Int} {sty : Ty} {da dc : Int} {dty : Ty}
    (h : mpiMsg src dst sa sc sty da dc dty = .ok r) :
    r = writes dst (((addrs da dc.toNat dty).zip (addrs sa sc.toNat sty)).map fun x => (x.1, src x.2)) := by
  unfold mpiMsg at h
  split at h
  · cases h
  · dsimp only at h
    split at h
    · cases h
    · cases h
      rw [zip_map_right]

theorem bind_inv {α β : Type} {x : Res α} {f : α → Res β} {b : β} (h : x.bind f = .ok b) : ∃ a, x = .ok a ∧ f a = .ok b := by
  cases x with
  | ok a => exact ⟨a, rfl, h⟩
  | abort => cases h
  | ub => cases h
  | hang => cases h

/-- `ctxPut`: the accesses of a blocking put -/
theorem put_link {procs : Nat → Proc} {path : Path} {c : Option (Obj × Attr)} {k ts me pe : Nat} {origin target : BitVec 64} {n : Nat}
    {m m' : Mems} (h : ctxPut procs path c k ts me pe origin target n m = .ok m') (hn : n ≠ 0) (fp : Amo.Fp) (junk : Mem) :
    ∃ oc tc oty tty xs, PutPairs procs path c me pe target origin oc tc oty tty xs ∧
      performs fp junk m (xs.map fun x => .set pe x.1 (m me x.2)) = .ok m' := by
  unfold ctxPut at h
  rw [if_neg hn] at h
  obtain ⟨r, hr, h⟩ := bind_inv h
  obtain ⟨y, hy, h⟩ := bind_inv h
  cases h
  cases path with
  | direct mode =>
    exact ⟨_, _, _, _, _, ⟨r, hr, rfl⟩, by rw [performs_set, xfer_ok hy]⟩
  | am => exact ⟨_, _, _, _, _, ⟨r, hr, rfl⟩, by rw [performs_set, msg_ok hy]⟩

/-- `ctxIput` -/
theorem iput_link {procs : Nat → Proc} {path : Path} {c : Option (Obj × Attr)} {me pe : Nat} {origin target : BitVec 64} {n oc tc : Nat}
    {oty tty : Ty} {m m' : Mems} (h : ctxIput procs path c me pe origin target n oc oty tc tty m = .ok m') (hn : n ≠ 0) (fp : Amo.Fp)
    (junk : Mem) : ∃ xs, PutPairs procs path c me pe target origin (toI32 oc).toNat (toI32 tc).toNat oty tty xs ∧
      performs fp junk m (xs.map fun x => .set pe x.1 (m me x.2)) = .ok m' := by
  unfold ctxIput at h
  rw [if_neg hn] at h
  obtain ⟨r, hr, h⟩ := bind_inv h
  obtain ⟨y, hy, h⟩ := bind_inv h
  cases h
  cases path with
  | direct mode => exact ⟨_, ⟨r, hr, rfl⟩, by rw [performs_set, xfer_ok hy]⟩
  | am => exact ⟨_, ⟨r, hr, rfl⟩, by rw [performs_set, msg_ok hy]⟩

/-- `ctxGet` from another PE -/
theorem get_link {procs : Nat → Proc} {path : Path} {c : Option (Obj × Attr)} {k ts me pe : Nat} {origin target : BitVec 64} {n : Nat}
    {m m' : Mems} (h : ctxGet procs path c k ts me pe origin target n m = .ok m') (hn : n ≠ 0) (hne : pe ≠ me) (fp : Amo.Fp)
    (junk : Mem) : ∃ oc tc oty tty xs, GetPairs procs path c me pe target origin oc tc oty tty xs ∧
      performs fp junk m (xs.map fun x => .mv pe x.2 me x.1) = .ok m' := by
  unfold ctxGet at h
  rw [if_neg hn] at h
  obtain ⟨r, hr, h⟩ := bind_inv h
  obtain ⟨y, hy, h⟩ := bind_inv h
  cases h
  cases path with
  | direct mode =>
    exact ⟨_, _, _, _, _, ⟨r, hr, rfl⟩, by rw [performs_mv _ _ hne, xfer_ok hy]⟩
  | am => exact ⟨_, _, _, _, _, ⟨r, hr, rfl⟩, by rw [performs_mv _ _ hne, msg_ok hy]⟩

/-- `ctxIget` from another PE -/
theorem iget_link {procs : Nat → Proc} {path : Path} {c : Option (Obj × Attr)} {me pe : Nat} {origin target : BitVec 64} {n oc tc : Nat}
    {oty tty : Ty} {m m' : Mems} (h : ctxIget procs path c me pe origin target n oc oty tc tty m = .ok m') (hn : n ≠ 0) (hne : pe ≠ me)
    (fp : Amo.Fp) (junk : Mem) : ∃ xs, GetPairs procs path c me pe target origin (toI32 oc).toNat (toI32 tc).toNat oty tty xs ∧
      performs fp junk m (xs.map fun x => .mv pe x.2 me x.1) = .ok m' := by
  unfold ctxIget at h
  rw [if_neg hn] at h
  obtain ⟨r, hr, h⟩ := bind_inv h
  obtain ⟨y, hy, h⟩ := bind_inv h
  cases h
  cases path with
  | direct mode => exact ⟨_, ⟨r, hr, rfl⟩, by rw [performs_mv _ _ hne, xfer_ok hy]⟩
  | am => exact ⟨_, ⟨r, hr, rfl⟩, by rw [performs_mv _ _ hne, msg_ok hy]⟩

end Verif.Vis
