import Verif.Rma.Model
import Verif.Rma.DtypeProps
import Verif.Sobj.Props
import Mathlib.Data.List.ProdSigma
import Mathlib.Tactic.Ring
import Mathlib.Tactic.Linarith
/-!
# Lemmas about data movement
-/
namespace Verif.Rma
open Verif.Sobj

theorem writes_not_mem (l : List (Int × BitVec 8)) : ∀ (m : IMem) (a : Int), (∀ e ∈ l, e.1 ≠ a) → writes m l a = m a := by
  induction l with
  | nil => intro m a _; rfl
  | cons e l ih =>
    intro m a h
    obtain ⟨b, v⟩ := e
    unfold writes
    rw [ih _ a (fun e he => h e (List.mem_cons_of_mem _ he))]
    exact Function.update_of_ne (Ne.symm (h (b, v) (by simp))) _ _

theorem writes_mem (l : List (Int × BitVec 8)) : ∀ (m : IMem) (a : Int) (v : BitVec 8), (∃ e ∈ l, e.1 = a) →
    (∀ e ∈ l, e.1 = a → e.2 = v) → writes m l a = v := by
  induction l with
  | nil => rintro m a v ⟨e, he, _⟩; cases he
  | cons e l ih =>
    intro m a v hex hall
    obtain ⟨b, w⟩ := e
    unfold writes
    by_cases h : ∃ e ∈ l, e.1 = a
    · exact ih _ a v h (fun e he => hall e (List.mem_cons_of_mem _ he))
    · have hn : ∀ e ∈ l, e.1 ≠ a := fun e he c => h ⟨e, he, c⟩
      rw [writes_not_mem l _ a hn]
      obtain ⟨e, he, rfl⟩ := hex
      rcases List.mem_cons.1 he with rfl | he
      · rw [Function.update_self]; exact hall (b, w) (by simp) rfl
      · exact absurd rfl (hn e he)

/-- element number and byte number, in signature order -/
def idx (n k : Nat) : List (Nat × Nat) := List.product (List.range n) (List.range k)

theorem mem_idx {n k : Nat} {p : Nat × Nat} : p ∈ idx n k ↔ p.1 < n ∧ p.2 < k := by
  obtain ⟨i, b⟩ := p
  unfold idx
  show (i, b) ∈ (List.range n) ×ˢ (List.range k) ↔ _
  rw [List.mem_product]; simp

theorem idx_length (n k : Nat) : (idx n k).length = n * k := by
  unfold idx
  show ((List.range n) ×ˢ (List.range k)).length = _
  rw [List.length_product]; simp

theorem map_idx {α : Type} (n k : Nat) (f : Nat × Nat → α) :
    (idx n k).map f = (List.range n).flatMap (fun i => (List.range k).map (fun b => f (i, b))) := by
  unfold idx List.product
  rw [List.map_flatMap]
  congr 1
  funext i
  rw [List.map_map]; rfl

theorem basic_map (k : Nat) (c : Int) :
    (Ty.basic k).map.map (fun d => d + c) = (List.range k).map (fun (b : Nat) => (b : Int) + c) := by
  unfold Ty.basic
  rw [List.map_map]; rfl

theorem flat_basic (n k : Nat) : (Ty.basic k).flat n = (idx n k).map (fun p => (p.2 : Int) + (p.1 : Int) * k) := by
  rw [map_idx]
  unfold Ty.flat
  congr 1
  funext i
  rw [basic_map]; rfl

theorem vector_map (n : Nat) (st : Int) (k : Nat) :
    (Ty.vector n st (Ty.basic k)).map = (idx n k).map (fun p => (p.2 : Int) + (p.1 : Int) * st * k) := by
  rw [map_idx]
  unfold Ty.vector
  simp only
  congr 1
  funext i
  rw [basic_map]; rfl

theorem flat_one (t : Ty) : t.flat 1 = t.map := by
  unfold Ty.flat
  simp

theorem toI32s_small {x : Int} (h0 : -(2 ^ 31) ≤ x) (h1 : x < 2 ^ 31) : toI32s x = x := by
  unfold toI32s
  apply Int.bmod_eq_of_le <;> omega

theorem toI32_lt {n : Nat} (h : n < 2 ^ 31) : toI32 n = n := toI32_small (by unfold IntMax; omega)

/-- what an obtained strided datatype covers -/
theorem fresh_flat {sz : Nat → Nat} {n : Nat} {st : Int} {base cnt : Nat} {ty : Ty}
    (h : Fresh sz ⟨n, st, base, 0⟩ cnt ty) (hn : n < 2 ^ 31) (h0 : -(2 ^ 31) ≤ st) (h1 : st < 2 ^ 31) :
    ¬ toI32 cnt < 0 ∧
    ty.flat (toI32 cnt).toNat = (idx n (sz base)).map (fun p => (p.2 : Int) + (p.1 : Int) * st * (sz base : Nat)) := by
  unfold Fresh at h
  simp only at h
  split at h
  · rename_i hs
    obtain ⟨rfl, rfl⟩ := h
    rw [toI32_lt hn]
    refine ⟨by omega, ?_⟩
    rw [Int.toNat_natCast, flat_basic, hs]
    congr 1
    funext p
    rw [Int.mul_one]
  · obtain ⟨rfl, h⟩ := h
    have : toI32 1 = 1 := by decide
    rw [this]
    refine ⟨by omega, ?_⟩
    unfold newType at h
    simp only [toI32_lt hn, toI32s_small h0 h1] at h
    rw [if_neg (by omega)] at h
    simp only [gt_iff_lt, Nat.lt_irrefl, if_false, Option.some.injEq, Int.toNat_natCast] at h
    rw [← h]
    show (Ty.vector n st (Ty.basic (sz base))).flat 1 = _
    rw [flat_one, vector_map]

/-- distinct elements of a strided array with stride at least 1 do not overlap -/
theorem elem_inj {st : Int} (hs : 1 ≤ st) {k : Nat} {i i' b b' : Nat} (hb : b < k) (hb' : b' < k)
    (h : (b : Int) + (i : Int) * st * k = (b' : Int) + (i' : Int) * st * k) : i = i' ∧ b = b' := by
  have hk : (0 : Int) < k := by omega
  have key : ∀ (j : Int), 1 ≤ j → (k : Int) ≤ j * st * k := by
    intro j hj
    have : 1 ≤ j * st := by nlinarith
    nlinarith
  rcases Nat.lt_trichotomy i i' with hlt | he | hgt
  · exfalso
    have h2 := key ((i' : Int) - i) (by omega)
    have h3 : ((i' : Int) - i) * st * k = (i' : Int) * st * k - (i : Int) * st * k := by ring
    omega
  · subst he; exact ⟨rfl, by omega⟩
  · exfalso
    have h2 := key ((i : Int) - i') (by omega)
    have h3 : ((i : Int) - i') * st * k = (i : Int) * st * k - (i' : Int) * st * k := by ring
    omega

/-- the result of moving the bytes indexed by `idx`: every destination byte gets its source byte, the rest is unchanged -/
theorem writes_idx (src dst : IMem) (sa da : Int) (n k : Nat) (fs fd : Nat × Nat → Int)
    (hinj : ∀ p ∈ idx n k, ∀ q ∈ idx n k, fd p = fd q → p = q) :
    let r := writes dst ((((idx n k).map fd).map (fun d => da + d)).zip
      ((((idx n k).map fs).map (fun d => sa + d)).map src))
    (∀ p ∈ idx n k, r (da + fd p) = src (sa + fs p)) ∧
    (∀ x, (∀ p ∈ idx n k, x ≠ da + fd p) → r x = dst x) := by
  intro r
  have e : (((idx n k).map fd).map (fun d => da + d)).zip ((((idx n k).map fs).map (fun d => sa + d)).map src)
      = (idx n k).map (fun p => (da + fd p, src (sa + fs p))) := by
    rw [List.map_map, List.map_map, List.map_map, List.zip_map']
    rfl
  have hr : r = writes dst ((idx n k).map (fun p => (da + fd p, src (sa + fs p)))) := by
    show writes _ _ = _
    rw [e]
  constructor
  · intro p hp
    rw [hr]
    apply writes_mem
    · exact ⟨(da + fd p, src (sa + fs p)), List.mem_map.2 ⟨p, hp, rfl⟩, rfl⟩
    · intro e he h
      obtain ⟨q, hq, rfl⟩ := List.mem_map.1 he
      have : q = p := hinj q hq p hp (by simp only at h; omega)
      rw [this]
  · intro x hx
    rw [hr]
    apply writes_not_mem
    intro e he
    obtain ⟨q, hq, rfl⟩ := List.mem_map.1 he
    exact Ne.symm (hx q hq)

/-- both kinds of data movement between buffers that cover the same number of bytes -/
theorem xfer_eq (src dst : IMem) (saddr scount : Int) (sty : Ty) (daddr dcount : Int) (dty : Ty)
    (n k : Nat) (fs fd : Nat × Nat → Int) (hs : ¬ scount < 0) (hd : ¬ dcount < 0)
    (es : sty.flat scount.toNat = (idx n k).map fs) (ed : dty.flat dcount.toNat = (idx n k).map fd) :
    mpiXfer src dst saddr scount sty daddr dcount dty = .ok (writes dst ((((idx n k).map fd).map (fun d => daddr + d)).zip
      ((((idx n k).map fs).map (fun d => saddr + d)).map src))) ∧
    mpiMsg src dst saddr scount sty daddr dcount dty = .ok (writes dst ((((idx n k).map fd).map (fun d => daddr + d)).zip
      ((((idx n k).map fs).map (fun d => saddr + d)).map src))) := by
  have hc : ¬ (scount < 0 ∨ dcount < 0) := by
    rintro (h | h)
    · exact hs h
    · exact hd h
  unfold mpiXfer mpiMsg addrs
  rw [if_neg hc, if_neg hc, es, ed]
  simp

/-! ## Address resolution -/

/-- The objects named `o` are one symmetric object of kind `kind`, handle index `i`, at `bases p` on PE `p`. -/
def SymObj (procs : Nat → Proc) (npes : Nat) (o : Obj) (dyn : Bool) (kind : Sobj.Kind) (i : Nat)
    (bases : Nat → BitVec 64) (size : Int) : Prop :=
  ∀ p, p < npes → objAttr (procs p) o = some (setupAttr dyn kind i npes bases size p)

theorem resolve_direct {procs : Nat → Proc} {npes : Nat} {o : Obj} {dyn : Bool} {kind : Sobj.Kind} {i : Nat}
    {bases : Nat → BitVec 64} {size : Int} (hsym : SymObj procs npes o dyn kind i bases size) (hi : i < 2 ^ 29)
    {me pe : Nat} (hpe : pe < npes) {ctx : Option (Obj × Attr)} {off : BitVec 64}
    (hq : lookup (procs me) ctx (bases me + off) = some (o, setupAttr dyn kind i npes bases size me))
    (mode : Mode) (hm : mode = .abs → dyn = true) (ho : 0 ≤ off.toInt) (ha : 0 ≤ (bases pe + off).toInt) :
    resolve procs (.direct mode) ctx me pe (bases me + off) = .ok (bases pe + off) := by
  unfold resolve
  rw [hq]
  simp only
  obtain ⟨d, hd, e⟩ := C13_reaches_counterpart dyn kind hi bases size hpe off mode hm (me := me)
  have hnn := C13_disp_nonneg dyn kind hi bases size hpe off mode hm ho ha hd
  rw [hd]
  simp only [Res.bind_ok]
  rw [if_neg (by omega), hsym pe hpe]
  simp only
  congr 1

/-- the handler on the target finds its counterpart: what C14 proves for every history -/
def AmResolves (procs : Nat → Proc) (handle : BitVec 32) (me pe : Nat) (bases : Nat → BitVec 64) : Prop :=
  ∀ off : BitVec 64, dispToVaddr (procs pe) handle (bases me + off - bases me) = .ok (bases pe + off)

theorem resolve_am {procs : Nat → Proc} {npes : Nat} {o : Obj} {dyn : Bool} {kind : Sobj.Kind} {i : Nat}
    {bases : Nat → BitVec 64} {size : Int}
    {me pe : Nat} {ctx : Option (Obj × Attr)} {off : BitVec 64}
    (hq : lookup (procs me) ctx (bases me + off) = some (o, setupAttr dyn kind i npes bases size me))
    (hr : AmResolves procs (setupAttr dyn kind i npes bases size me).handle me pe bases)
    (ho : 0 ≤ off.toInt) (ha : bases pe + off ≠ 0#64) :
    resolve procs .am ctx me pe (bases me + off) = .ok (bases pe + off) := by
  unfold resolve
  rw [hq]
  simp only
  have hd : vaddrToDisp (setupAttr dyn kind i npes bases size me) (bases me + off) pe .rel
      = .ok (bases me + off - bases me) := rfl
  rw [hd]
  simp only [Res.bind_ok]
  have e : bases me + off - bases me = off := by rw [BitVec.add_comm, BitVec.add_sub_cancel]
  rw [hr off, e, if_neg (by omega)]
  simp only [Res.bind_ok]
  rw [if_neg ha]

end Verif.Rma
