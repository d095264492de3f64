import Verif.Rma.Props
/-!
# Active-message put and get when `typesz` is not the size of the MPI type
-/
namespace Verif.Rma
open Verif.Sobj

theorem zip_take {α β : Type} : ∀ (l : List α) (l' : List β), l.zip l' = (l.take l'.length).zip l'
  | [], l' => by simp
  | a :: l, [] => by simp
  | a :: l, b :: l' => by
    simp only [List.zip_cons_cons, List.length_cons, List.take_succ_cons]
    rw [zip_take l l']

/-- a receive into a longer byte buffer stores the message and nothing else -/
theorem msg_longer (src dst : IMem) (sa da : Int) (n k c : Nat) (hn : n < 2 ^ 31) (hc : c < 2 ^ 31) (hk : k * n ≤ c) :
    ∃ r, mpiMsg src dst sa (toI32 n) (Ty.basic k) da (toI32 c) (Ty.basic 1) = .ok r ∧
      Copied src dst r sa da (n * k) := by
  have hnn : ¬ toI32 n < 0 := by rw [toI32_lt hn]; omega
  have hnc : ¬ toI32 c < 0 := by rw [toI32_lt hc]; omega
  have hkn : k * n < 2 ^ 31 := by omega
  have e64 : toSize (k * n) = k * n := toSize_lt hkn
  obtain ⟨⟨r, hr, hcop⟩, _⟩ := (contig_xfer src dst sa da n k hn).2 hkn
  have hnb : ¬ toI32 (toSize (k * n)) < 0 := by rw [e64, toI32_lt hkn]; omega
  have f1 : ∀ d : Nat, d < 2 ^ 31 → (Ty.basic 1).flat (toI32 d).toNat = (List.range d).map (fun (x : Nat) => (x : Int)) := by
    intro d hd
    rw [toI32_lt hd, Int.toNat_natCast, flat_basic, idx_range, Nat.mul_one]
  have fs : (Ty.basic k).flat (toI32 n).toNat = (List.range (n * k)).map (fun (x : Nat) => (x : Int)) := by
    rw [toI32_lt hn, Int.toNat_natCast, flat_basic, idx_range]
  refine ⟨r, ?_, hcop⟩
  unfold mpiMsg at hr ⊢
  rw [if_neg (fun h => h.elim hnn hnb)] at hr
  rw [if_neg (fun h => h.elim hnn hnc)]
  simp only [addrs, fs, f1 c hc] at hr ⊢
  rw [e64, f1 _ hkn] at hr
  have hcomm : k * n = n * k := Nat.mul_comm k n
  have hl : ∀ d : Nat, ((List.map (fun d => da + d) ((List.range d).map (fun (x : Nat) => (x : Int))))).length = d := by
    intro d; simp
  have hs : (List.map (fun d => sa + d) ((List.range (n * k)).map (fun (x : Nat) => (x : Int)))).length = n * k := by simp
  rw [hl, hs] at hr ⊢
  rw [if_neg (by omega)] at hr ⊢
  rw [← hr]
  refine congrArg (fun z => Res.ok (writes dst z)) ?_
  rw [zip_take (List.map _ (List.map _ (List.range c)))]
  refine congrArg (fun z => List.zip z _) ?_
  rw [List.length_map, hs, ← List.map_take, ← List.map_take, List.take_range, hcomm, Nat.min_eq_left (by omega)]

theorem ctxPut_am (procs : Nat → Proc) (path : Path) (hp : path = .am) (ctx : Option (Obj × Attr)) (k ts me pe : Nat)
    (origin target r : BitVec 64) (n : Nat) (m : Mems) (hr : resolve procs path ctx me pe target = .ok r) (h0 : n ≠ 0) :
    ctxPut procs path ctx k ts me pe origin target n m
      = (mpiMsg (m me) (m pe) origin.toInt (toI32 n) (Ty.basic k) r.toInt (toI32 (toSize (ts * n)))
          (Ty.basic 1)).bind fun x => .ok (Function.update m pe x) := by
  unfold ctxPut
  rw [if_neg h0, hr]
  simp only [Res.bind_ok]
  cases hp
  simp only

theorem ctxGet_am (procs : Nat → Proc) (path : Path) (hp : path = .am) (ctx : Option (Obj × Attr)) (k ts me pe : Nat)
    (origin target r : BitVec 64) (n : Nat) (m : Mems) (hr : resolve procs path ctx me pe target = .ok r) (h0 : n ≠ 0) :
    ctxGet procs path ctx k ts me pe origin target n m
      = (mpiMsg (m pe) (m me) r.toInt (toI32 (toSize (ts * n))) (Ty.basic 1) origin.toInt (toI32 n)
          (Ty.basic k)).bind fun x => .ok (Function.update m me x) := by
  unfold ctxGet
  rw [if_neg h0, hr]
  simp only [Res.bind_ok]
  cases hp
  simp only

/-- a put over active messages with `typesz` at least the size of the MPI type moves the elements -/
theorem put_am_longer (procs : Nat → Proc) (ctx : Option (Obj × Attr)) (k ts me pe : Nat)
    (origin target r : BitVec 64) (n : Nat) (m : Mems) (hr : resolve procs .am ctx me pe target = .ok r)
    (hn : n < 2 ^ 31) (hb : ts * n < 2 ^ 31) (hle : k ≤ ts) :
    ∃ m', ctxPut procs .am ctx k ts me pe origin target n m = .ok m' ∧
      Copied (m me) (m pe) (m' pe) origin.toInt r.toInt (n * k) ∧ ∀ q, q ≠ pe → m' q = m q := by
  by_cases h0 : n = 0
  · subst h0
    exact ⟨m, (C17_zero procs .am ctx k ts me pe origin target m).1, copied_zero _ _ _ _ _, fun _ _ => rfl⟩
  rw [ctxPut_am procs .am rfl ctx k ts me pe origin target r n m hr h0]
  have hb2 : ts * n < 2147483648 := by omega
  have e64 := toSize_lt hb2
  obtain ⟨x, e, hc⟩ := msg_longer (m me) (m pe) origin.toInt r.toInt n k (ts * n) hn hb (Nat.mul_le_mul_right n hle)
  have e' : mpiMsg (m me) (m pe) origin.toInt (toI32 n) (Ty.basic k) r.toInt (toI32 (toSize (ts * n))) (Ty.basic 1)
      = .ok x := by rw [e64]; exact e
  rw [e']
  refine ⟨_, rfl, ?_, ?_⟩
  · rw [Function.update_self]; exact hc
  · intro q hq; exact Function.update_of_ne hq _ _

/-- a get over active messages with `typesz` above the size of the MPI type aborts -/
theorem get_am_longer (procs : Nat → Proc) (ctx : Option (Obj × Attr)) (k ts me pe : Nat)
    (origin target r : BitVec 64) (n : Nat) (m : Mems) (hr : resolve procs .am ctx me pe target = .ok r)
    (h0 : 0 < n) (hb : ts * n < 2 ^ 31) (hlt : k < ts) :
    ctxGet procs .am ctx k ts me pe origin target n m = .abort := by
  have hn : n < 2 ^ 31 := by
    have : 1 * n ≤ ts * n := Nat.mul_le_mul_right n (by omega)
    omega
  rw [ctxGet_am procs .am rfl ctx k ts me pe origin target r n m hr (by omega)]
  have hb2 : ts * n < 2147483648 := by omega
  have e64 := toSize_lt hb2
  have key : mpiMsg (m pe) (m me) r.toInt (toI32 (toSize (ts * n))) (Ty.basic 1) origin.toInt (toI32 n) (Ty.basic k)
      = .abort := by
    rw [e64]
    unfold mpiMsg
    rw [if_neg (by rw [toI32_lt hn, toI32_lt hb]; omega)]
    simp only [addrs, toI32_lt hn, toI32_lt hb, Int.toNat_natCast, flat_basic, idx_range, List.length_map, List.length_range,
      Nat.mul_one]
    rw [if_pos]
    rw [Nat.mul_comm n k]
    exact Nat.mul_lt_mul_of_pos_right hlt h0
  rw [key]
  rfl

end Verif.Rma
