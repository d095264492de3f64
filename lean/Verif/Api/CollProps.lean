import Verif.Api.Coll
import Verif.Coll.Props
import Verif.Api.ReduceProps
import Verif.Coll.CacheProps
import Verif.Team.Agree
/-!
# C81: the collective routines, from the team or active set to the bytes
-/
namespace Verif.Api
open Verif.Rma Verif.Coll

/-! ## Specification -/

/-- the size of the elements a routine promises to move: of its C type, or bytes -/
def CFn.elem : CFn → Nat
  | .typed r => r.ty.sizeof
  | .mem => 1

/-- a routine the library has -/
def CFn.Exists : CFn → Prop
  | .typed r => r ∈ rmaRows
  | .mem => True

/-- the size in the name of the routine, in bytes -/
def AFn.elem : AFn → Nat
  | .b32 => 32 / 8
  | .b64 => 64 / 8

/-- the members `ms` hold, each PE under its handle `hd p`, the team that the splits `hs` of the world team made -/
def OnTeam (cts n : Nat) (hs : List Team.Split) (hd : Nat → Team.Handle) (ms : List Nat) : Prop :=
  ∀ p ∈ ms, ∃ o, Team.getObj cts n p (hd p) = some o ∧ Team.Holds n p hs o

/-! ## Lemmas -/

theorem kb_elem {fn : CFn} (h : fn.Exists) : fn.kb = fn.elem := by
  cases fn with
  | mem => rfl
  | typed r =>
    have : ∀ r ∈ rmaRows, r.mpi.bytes = r.ty.sizeof := by decide
    exact this r h

theorem akb_elem (fn : AFn) : fn.kb = fn.elem := by cases fn <;> rfl

theorem joint_ok {f : Nat → Res (List Nat)} {me : Nat} {ms : List Nat} (hme : f me = .ok ms) (h : ∀ p ∈ ms, f p = .ok ms) :
    joint f me = .ok ms := by
  unfold joint; rw [hme, Res.bind_ok, if_pos h]

theorem holds_unique {n me : Nat} {hs : List Team.Split} {o o' : Team.Obj} (h : Team.Holds n me hs o) (h' : Team.Holds n me hs o') :
    o = o' := by
  induction h generalizing o' with
  | world => cases h'; rfl
  | split _ e ih =>
    cases h' with
    | split hp e' =>
      have := ih hp
      subst this
      rw [e] at e'
      cases e'; rfl

theorem team_comm {cts n me : Nat} (hme : me < n) {hs : List Team.Split} {hd : Nat → Team.Handle} {o : Team.Obj} (h : Team.Holds n me hs o)
    (ht : OnTeam cts n hs hd o.comm) : joint (commOf cts n hd) me = .ok o.comm := by
  have : ∀ p ∈ o.comm, commOf cts n hd p = .ok o.comm := by
    intro p hp
    obtain ⟨o1, e1, h1⟩ := ht p hp
    obtain ⟨o2, h2, e2, -, -⟩ := Team.C80_agree hme h hp
    unfold commOf
    rw [e1, holds_unique h1 h2]
    simp only [e2]
  exact joint_ok (this me (Team.C80_self hme h).1) this

theorem pes_eq {npes : Nat} {ks : List ASet} {made : List (List Nat)} {c c' : Cache} {k : ASet} {comm : List Nat} {b : Bool}
    (h : Hist npes ks made c) (e : acquire npes c k = .ok (comm, c', b)) : comm = k.pes := by
  obtain ⟨hl, hg⟩ := C33_comm h e
  apply List.ext_getElem?
  intro i
  by_cases hi : i < k.size
  · rw [hg i hi]; unfold ASet.pes; simp [hi]
  · rw [List.getElem?_eq_none (by omega), List.getElem?_eq_none (by rw [pes_length]; omega)]

theorem aset_comm {npes : Nat} (hN : npes ≤ 2 ^ 31) {c : Nat → Cache} {k : ASet} (hv : Valid npes k) {me : Nat} (hme : me ∈ k.pes)
    (hc : ∀ p ∈ k.pes, ∃ ks made, Hist npes ks made (c p)) : joint (asetOf npes c k) me = .ok k.pes := by
  have : ∀ p ∈ k.pes, asetOf npes c k p = .ok k.pes := by
    intro p hp
    obtain ⟨ks, made, h⟩ := hc p hp
    obtain ⟨comm, c', b, e⟩ := C33_total hN (c p) hv
    unfold asetOf
    rw [e, Res.bind_ok, pes_eq h e]
  exact joint_ok (this me hme) this

/-! ## Teams -/

/-- **C81** `shmem_TYPENAME_broadcast`, `shmem_broadcastmem`: on any team, made by any splits, every member's destination gets the
elements at the source of the member whose number is `root`, and nothing else changes. Missing: counts of 2^31 and more
(`C38_count_fails`). -/
theorem C81_broadcast_partial {fn : CFn} (hf : fn.Exists) {cts n me : Nat} (hme : me < n) {hs : List Team.Split} {hd : Nat → Team.Handle}
    {o : Team.Obj} (h : Team.Holds n me hs o) (ht : OnTeam cts n hs hd o.comm) {root rp : Nat} (hroot : o.comm[root]? = some rp)
    (src dst : Nat → Int) {len : Nat} (hc : len < 2 ^ 31)
    (ha : overlap (src rp) (dst rp) (len * fn.elem) = false) (m : Mems) :
    ∃ m', broadcastT fn cts n hd me root src dst len m = .ok m' ∧
      (∀ p ∈ o.comm, ∀ x < len * fn.elem, m' p (dst p + (x : Int)) = m rp (src rp + (x : Int))) ∧
      (∀ p ∈ o.comm, ∀ y, (y < dst p ∨ dst p + ((len * fn.elem : Nat) : Int) ≤ y) → m' p y = m p y) ∧
      ∀ p, p ∉ o.comm → m' p = m p := by
  have hl : root < o.comm.length := by
    by_contra hc
    rw [List.getElem?_eq_none (by omega)] at hroot; cases hroot
  have hg : o.comm.getD root 0 = rp := by rw [List.getD_eq_getElem?_getD, hroot]; rfl
  have he : fn.elem ≤ 16 := by
    cases fn with
    | mem => decide
    | typed r =>
      have : ∀ r ∈ rmaRows, r.ty.sizeof ≤ 16 := by decide
      exact this r hf
  have := C38_partial fn.kb (Team.C80_self hme h).2.1 hl src dst hc (by
    rw [kb_elem hf]
    have : len * fn.elem ≤ 2 ^ 31 * 16 := Nat.mul_le_mul (by omega) he
    omega) (by rw [kb_elem hf, hg]; exact ha) m
  rw [kb_elem hf, hg] at this
  unfold broadcastT
  rw [team_comm hme h ht, Res.bind_ok, kb_elem hf]
  exact this

/-- **C81** `shmem_TYPENAME_collect`, `shmem_collectmem`: on any team, every member's destination gets the members' blocks, which may
differ in size, in the order of their numbers in the team. Missing: counts of 2^31 and more, displacements of 2^31 elements and more
(`C35_count_fails`, `C35_displ_fails`). -/
theorem C81_collect_partial {fn : CFn} (hf : fn.Exists) {cts n me : Nat} (hme : me < n) {hs : List Team.Split} {hd : Nat → Team.Handle}
    {o : Team.Obj} (h : Team.Holds n me hs o) (ht : OnTeam cts n hs hd o.comm) (ns : Nat → Nat) (hn : ∀ p ∈ o.comm, ns p < 2 ^ 31)
    (hd' : before (fun r => ns (o.comm.getD r 0)) (o.comm.length - 1) < 2 ^ 31) (src dst : Nat → Int)
    (ha : Apart fn.elem o.comm (fun r => ns (o.comm.getD r 0)) (fun _ => before (fun r => ns (o.comm.getD r 0)) o.comm.length)
      (fun r => src (o.comm.getD r 0)) (fun r => dst (o.comm.getD r 0))) (m : Mems) :
    ∃ m', collectT fn cts n hd me ns src dst m = .ok m' ∧
      Concat fn.elem o.comm (fun r => ns (o.comm.getD r 0)) (fun r => src (o.comm.getD r 0)) (fun r => dst (o.comm.getD r 0)) m m' := by
  obtain ⟨hm, hnd, -⟩ := Team.C80_self hme h
  unfold collectT
  rw [team_comm hme h ht, Res.bind_ok, kb_elem hf]
  exact C35_collect_partial fn.elem hnd (List.ne_nil_of_mem hm) _ (fun r hr => hn _ (getD_mem hr)) hd' _ _ ha m

/-- **C81** `shmem_TYPENAME_fcollect`, `shmem_fcollectmem`. Missing: counts of 2^31 and more (`C35_fcollect_fails`). -/
theorem C81_fcollect_partial {fn : CFn} (hf : fn.Exists) {cts n me : Nat} (hme : me < n) {hs : List Team.Split} {hd : Nat → Team.Handle}
    {o : Team.Obj} (h : Team.Holds n me hs o) (ht : OnTeam cts n hs hd o.comm) {len : Nat} (hc : len < 2 ^ 31) (src dst : Nat → Int)
    (ha : Apart fn.elem o.comm (fun _ => len) (fun _ => o.comm.length * len) (fun r => src (o.comm.getD r 0)) (fun r => dst (o.comm.getD r 0)))
    (m : Mems) :
    ∃ m', fcollectT fn cts n hd me len src dst m = .ok m' ∧
      Concat fn.elem o.comm (fun _ => len) (fun r => src (o.comm.getD r 0)) (fun r => dst (o.comm.getD r 0)) m m' := by
  unfold fcollectT
  rw [team_comm hme h ht, Res.bind_ok, kb_elem hf]
  exact C35_fcollect_partial fn.elem (Team.C80_self hme h).2.1 len hc _ _ ha m

/-- **C81** `shmem_TYPENAME_alltoall`, `shmem_alltoallmem`. Missing: counts of 2^31 and more (`C36_count_fails`). -/
theorem C81_alltoall_partial {fn : CFn} (hf : fn.Exists) {cts n me : Nat} (hme : me < n) {hs : List Team.Split} {hd : Nat → Team.Handle}
    {o : Team.Obj} (h : Team.Holds n me hs o) (ht : OnTeam cts n hs hd o.comm) {len : Nat} (hc : len < 2 ^ 31) (src dst : Nat → Int)
    (ha : ApartStrided fn.elem o.comm len 1 1 (fun r => src (o.comm.getD r 0)) (fun r => dst (o.comm.getD r 0))) (m : Mems) :
    ∃ m', alltoallT fn cts n hd me len src dst m = .ok m' ∧
      Transposed fn.elem o.comm len 1 1 (fun r => src (o.comm.getD r 0)) (fun r => dst (o.comm.getD r 0)) m m' := by
  unfold alltoallT
  rw [team_comm hme h ht, Res.bind_ok, kb_elem hf]
  exact C36_alltoall_partial fn.elem (Team.C80_self hme h).2.1 len hc _ _ ha m

/-- **C81** `shmem_TYPENAME_alltoalls`, `shmem_alltoallsmem`, whatever strided datatypes each member's cache holds; `base` stands for
the routine's MPI type. Missing: counts and strides of 2^31 and more. -/
theorem C81_alltoalls_partial {fn : CFn} (hf : fn.Exists) {cts n me : Nat} (hme : me < n) {hs : List Team.Split} {hd : Nat → Team.Handle}
    {o : Team.Obj} (h : Team.Holds n me hs o) (ht : OnTeam cts n hs hd o.comm) {len : Nat} (hc : len < 2 ^ 31) {ss ds : Int}
    (hss : 1 ≤ ss ∧ ss < 2 ^ 31) (hds : 1 ≤ ds ∧ ds < 2 ^ 31) (hxs : (len : Int) * ss * fn.elem < 2 ^ 63)
    (hxd : (len : Int) * ds * fn.elem < 2 ^ 63) {c : Nat → Bool} {sz : Nat → Nat} {base : Nat} (hb : sz base = fn.kb)
    {sc rc : Nat → Nat} {sty rty : Nat → Ty}
    (ho : ∀ p ∈ o.comm, Obtained (c p) sz (stridedKey len ss base) (sc p) (sty p))
    (ho' : ∀ p ∈ o.comm, Obtained (c p) sz (stridedKey len ds base) (rc p) (rty p)) (src dst : Nat → Int)
    (ha : ApartStrided fn.elem o.comm len ss ds (fun r => src (o.comm.getD r 0)) (fun r => dst (o.comm.getD r 0))) (m : Mems) :
    ∃ m', alltoallsT cts n hd me src dst sc sty rc rty m = .ok m' ∧
      Transposed fn.elem o.comm len ss ds (fun r => src (o.comm.getD r 0)) (fun r => dst (o.comm.getD r 0)) m m' := by
  have hb' : sz base = fn.elem := hb.trans (kb_elem hf)
  unfold alltoallsT
  rw [team_comm hme h ht, Res.bind_ok]
  have := C36_alltoalls_partial (c := fun r => c (o.comm.getD r 0)) (sz := sz) (Team.C80_self hme h).2.1 hc hss hds (by rw [hb']; exact hxs)
    (by rw [hb']; exact hxd) (fun r hr => ho _ (getD_mem hr)) (fun r hr => ho' _ (getD_mem hr)) (fun r => src (o.comm.getD r 0))
    (fun r => dst (o.comm.getD r 0)) (by rw [hb']; exact ha) m
  rw [hb'] at this
  exact this

/-! ## Active sets -/

/-- **C81** `shmem_collect32/64` on any active set, after any collectives that used the members' caches. Missing: as for teams. -/
theorem C81_collect_aset_partial (fn : AFn) {npes : Nat} (hN : npes ≤ 2 ^ 31) {c : Nat → Cache} {k : ASet} (hv : Valid npes k) {me : Nat}
    (hme : me ∈ k.pes) (hc : ∀ p ∈ k.pes, ∃ ks made, Hist npes ks made (c p)) (ns : Nat → Nat) (hn : ∀ p ∈ k.pes, ns p < 2 ^ 31)
    (hd : before (fun r => ns (k.pes.getD r 0)) (k.pes.length - 1) < 2 ^ 31) (src dst : Nat → Int)
    (ha : Apart fn.elem k.pes (fun r => ns (k.pes.getD r 0)) (fun _ => before (fun r => ns (k.pes.getD r 0)) k.pes.length)
      (fun r => src (k.pes.getD r 0)) (fun r => dst (k.pes.getD r 0))) (m : Mems) :
    ∃ m', collectA fn npes c k me ns src dst m = .ok m' ∧
      Concat fn.elem k.pes (fun r => ns (k.pes.getD r 0)) (fun r => src (k.pes.getD r 0)) (fun r => dst (k.pes.getD r 0)) m m' := by
  unfold collectA
  rw [aset_comm hN hv hme hc, Res.bind_ok, akb_elem]
  exact C35_collect_partial fn.elem (pes_nodup k) (List.ne_nil_of_mem hme) _ (fun r hr => hn _ (getD_mem hr)) hd _ _ ha m

/-- **C81** `shmem_fcollect32/64` on any active set. Missing: counts of 2^31 and more. -/
theorem C81_fcollect_aset_partial (fn : AFn) {npes : Nat} (hN : npes ≤ 2 ^ 31) {c : Nat → Cache} {k : ASet} (hv : Valid npes k) {me : Nat}
    (hme : me ∈ k.pes) (hc : ∀ p ∈ k.pes, ∃ ks made, Hist npes ks made (c p)) {len : Nat} (hl : len < 2 ^ 31) (src dst : Nat → Int)
    (ha : Apart fn.elem k.pes (fun _ => len) (fun _ => k.pes.length * len) (fun r => src (k.pes.getD r 0)) (fun r => dst (k.pes.getD r 0)))
    (m : Mems) :
    ∃ m', fcollectA fn npes c k me len src dst m = .ok m' ∧
      Concat fn.elem k.pes (fun _ => len) (fun r => src (k.pes.getD r 0)) (fun r => dst (k.pes.getD r 0)) m m' := by
  unfold fcollectA
  rw [aset_comm hN hv hme hc, Res.bind_ok, akb_elem]
  exact C35_fcollect_partial fn.elem (pes_nodup k) len hl _ _ ha m

/-- **C81** `shmem_alltoall32/64` on any active set. Missing: counts of 2^31 and more. -/
theorem C81_alltoall_aset_partial (fn : AFn) {npes : Nat} (hN : npes ≤ 2 ^ 31) {c : Nat → Cache} {k : ASet} (hv : Valid npes k) {me : Nat}
    (hme : me ∈ k.pes) (hc : ∀ p ∈ k.pes, ∃ ks made, Hist npes ks made (c p)) {len : Nat} (hl : len < 2 ^ 31) (src dst : Nat → Int)
    (ha : ApartStrided fn.elem k.pes len 1 1 (fun r => src (k.pes.getD r 0)) (fun r => dst (k.pes.getD r 0))) (m : Mems) :
    ∃ m', alltoallA fn npes c k me len src dst m = .ok m' ∧
      Transposed fn.elem k.pes len 1 1 (fun r => src (k.pes.getD r 0)) (fun r => dst (k.pes.getD r 0)) m m' := by
  unfold alltoallA
  rw [aset_comm hN hv hme hc, Res.bind_ok, akb_elem]
  exact C36_alltoall_partial fn.elem (pes_nodup k) len hl _ _ ha m

/-- **C81** `shmem_alltoalls32/64` on any active set. Missing: counts and strides of 2^31 and more. -/
theorem C81_alltoalls_aset_partial (fn : AFn) {npes : Nat} (hN : npes ≤ 2 ^ 31) {c : Nat → Cache} {k : ASet} (hv : Valid npes k) {me : Nat}
    (hme : me ∈ k.pes) (hc : ∀ p ∈ k.pes, ∃ ks made, Hist npes ks made (c p)) {len : Nat} (hl : len < 2 ^ 31) {ss ds : Int}
    (hss : 1 ≤ ss ∧ ss < 2 ^ 31) (hds : 1 ≤ ds ∧ ds < 2 ^ 31) (hxs : (len : Int) * ss * fn.elem < 2 ^ 63)
    (hxd : (len : Int) * ds * fn.elem < 2 ^ 63) {cc : Nat → Bool} {sz : Nat → Nat} {base : Nat} (hb : sz base = fn.kb)
    {sc rc : Nat → Nat} {sty rty : Nat → Ty}
    (ho : ∀ p ∈ k.pes, Obtained (cc p) sz (stridedKey len ss base) (sc p) (sty p))
    (ho' : ∀ p ∈ k.pes, Obtained (cc p) sz (stridedKey len ds base) (rc p) (rty p)) (src dst : Nat → Int)
    (ha : ApartStrided fn.elem k.pes len ss ds (fun r => src (k.pes.getD r 0)) (fun r => dst (k.pes.getD r 0))) (m : Mems) :
    ∃ m', alltoallsA npes c k me src dst sc sty rc rty m = .ok m' ∧
      Transposed fn.elem k.pes len ss ds (fun r => src (k.pes.getD r 0)) (fun r => dst (k.pes.getD r 0)) m m' := by
  have hb' : sz base = fn.elem := hb.trans (akb_elem fn)
  unfold alltoallsA
  rw [aset_comm hN hv hme hc, Res.bind_ok]
  have := C36_alltoalls_partial (c := fun r => cc (k.pes.getD r 0)) (sz := sz) (pes_nodup k) hl hss hds (by rw [hb']; exact hxs)
    (by rw [hb']; exact hxd) (fun r hr => ho _ (getD_mem hr)) (fun r hr => ho' _ (getD_mem hr)) (fun r => src (k.pes.getD r 0))
    (fun r => dst (k.pes.getD r 0)) (by rw [hb']; exact ha) m
  rw [hb'] at this
  exact this

/-- **C81** `shmem_broadcast32/64` where the root's index in the set is its PE number. Missing: all other roots and sets (`C34_fails`,
`C34_get_fails`), counts of 2^31 and more. -/
theorem C81_broadcast_aset_partial (fn : AFn) (procs : Nat → Sobj.Proc) (mode : Sobj.Mode) {npes : Nat} (hN : npes ≤ 2 ^ 31)
    {c : Nat → Cache} {k : ASet} (hv : Valid npes k) {me : Nat} (hme : me ∈ k.pes)
    (hc : ∀ p ∈ k.pes, ∃ ks made, Hist npes ks made (c p)) {root : Nat} (hroot : root < k.size) (h0 : k.start = 0) (h1 : k.lg = 0 ∨ root = 0)
    (src dst : Nat → BitVec 64) {len : Nat} (hl : len < 2 ^ 31) (m : Mems) :
    ∃ m', broadcastA fn procs mode npes c k me root src dst len m = .ok m' ∧
      (∀ p ∈ k.pes, p ≠ root → ∀ x < len * fn.elem, m' p ((dst p).toInt + (x : Int)) = m root ((src root).toInt + (x : Int))) ∧
      (∀ p ∈ k.pes, p ≠ root → ∀ y, (y < (dst p).toInt ∨ (dst p).toInt + ((len * fn.elem : Nat) : Int) ≤ y) → m' p y = m p y) ∧
      m' root = m root ∧ ∀ p, p ∉ k.pes → m' p = m p := by
  unfold broadcastA
  rw [aset_comm hN hv hme hc, Res.bind_ok, akb_elem]
  exact C34_partial procs mode fn.elem k hroot h0 h1 src dst hl m

/-! ## Reductions -/

theorem means_congr {s : Bool} {b : Nat} {op : OpName} {v w : Nat → Nat} {n r : Nat} (h : ∀ i < n, v i = w i) (hm : Means s b op v n r) :
    Means s b op w n r := by
  have hl : (List.range n).map v = (List.range n).map w := List.map_congr_left (fun i hi => h i (List.mem_range.1 hi))
  cases op with
  | sum => simp only [Means] at hm ⊢; rw [← hl]; exact hm
  | prod => simp only [Means] at hm ⊢; rw [← hl]; exact hm
  | min =>
    obtain ⟨⟨q, hq, e⟩, h2⟩ := hm
    exact ⟨⟨q, hq, by rw [← h q hq]; exact e⟩, fun i hi => by rw [← h i hi]; exact h2 i hi⟩
  | max =>
    obtain ⟨⟨q, hq, e⟩, h2⟩ := hm
    exact ⟨⟨q, hq, by rw [← h q hq]; exact e⟩, fun i hi => by rw [← h i hi]; exact h2 i hi⟩
  | and => exact fun i => (hm i).trans ⟨fun g q hq => by rw [← h q hq]; exact g q hq, fun g q hq => by rw [h q hq]; exact g q hq⟩
  | or =>
    exact fun i => (hm i).trans ⟨fun ⟨q, hq, g⟩ => ⟨q, hq, by rw [← h q hq]; exact g⟩, fun ⟨q, hq, g⟩ => ⟨q, hq, by rw [h q hq]; exact g⟩⟩
  | xor =>
    intro i
    have : (List.range n).countP (fun q => (v q).testBit i) = (List.range n).countP (fun q => (w q).testBit i) :=
      List.countP_congr (fun q hq => by simp only [h q (List.mem_range.1 hq)])
    rw [← this]; exact hm i

/-- **C81** integer reductions on any team: element `e` of every member's destination is the sum (product, minimum, …) over the members
of their elements `e`. Missing: `char` (`C77_char_fails`), counts of 2^31 and more. -/
theorem C81_reduce_partial {op : OpName} {r : RRow} (hr : r ∈ rows false op) {ct : CT} (hct : r.ty = .base ct) (h : ct ≠ .char) {s : Bool}
    {b : Nat} (hb : ct.intTy = some (s, b)) (fl : Nat → ROp → Nat → Nat → Nat) (tr : Nat → Nat → Tree) {cts n me : Nat} (hme : me < n)
    {hs : List Team.Split} {hd : Nat → Team.Handle} {o : Team.Obj} (hh : Team.Holds n me hs o) (ht : OnTeam cts n hs hd o.comm)
    (htr : ∀ q e, Complete o.comm.length (tr q e)) (src dst : Nat → Int) {len : Nat} (hc : len < 2 ^ 31)
    (ha : SameOrApart o.comm (len * b) (fun q => src (o.comm.getD q 0)) (fun q => dst (o.comm.getD q 0))) (m : Mems) :
    ∃ m', reduceT r op fl tr cts n hd me src dst len m = .ok m' ∧
      (∀ p ∈ o.comm, ∀ e < len, Means s b op (fun q => ld (m (o.comm.getD q 0)) (src (o.comm.getD q 0) + (e : Int) * b) b) o.comm.length
        (ld (m' p) (dst p + (e : Int) * b) b)) ∧
      (∀ p ∈ o.comm, ∀ y, (y < dst p ∨ dst p + ((len * b : Nat) : Int) ≤ y) → m' p y = m p y) ∧
      ∀ p, p ∉ o.comm → m' p = m p := by
  obtain ⟨m', h1, h2, h3, h4⟩ := C77_int_partial hr hct h hb fl tr (Team.C80_self hme hh).2.1 _ _ hc ha htr m
  unfold reduceT
  rw [team_comm hme hh ht, Res.bind_ok]
  refine ⟨m', h1, ?_, ?_, h4⟩
  · intro p hp e he
    obtain ⟨q, hq, rfl⟩ := mem_getD hp
    exact h2 q hq e he
  · intro p hp y hy
    obtain ⟨q, hq, rfl⟩ := mem_getD hp
    exact h3 q hq y hy

/-- **C81** integer reductions on any active set. Missing: counts of 2^31 and more. -/
theorem C81_reduce_aset_partial {op : OpName} {r : RRow} (hr : r ∈ rows true op) {ct : CT} (hct : r.ty = .base ct) {s : Bool}
    {b : Nat} (hb : ct.intTy = some (s, b)) (fl : Nat → ROp → Nat → Nat → Nat) (tr : Nat → Nat → Tree) {npes : Nat} (hN : npes ≤ 2 ^ 31)
    {c : Nat → Cache} {k : ASet} (hv : Valid npes k) {me : Nat} (hme : me ∈ k.pes) (hc : ∀ p ∈ k.pes, ∃ ks made, Hist npes ks made (c p))
    (htr : ∀ q e, Complete k.size (tr q e)) (src dst : Nat → Int) {len : Nat} (hl : len < 2 ^ 31)
    (ha : SameOrApart k.pes (len * b) (fun q => src (k.pes.getD q 0)) (fun q => dst (k.pes.getD q 0))) (m : Mems) :
    ∃ m', reduceA r op fl tr npes c k me src dst len m = .ok m' ∧
      (∀ p ∈ k.pes, ∀ e < len, Means s b op (fun q => ld (m (k.start + q * 2 ^ k.lg)) (src (k.start + q * 2 ^ k.lg) + (e : Int) * b) b) k.size
        (ld (m' p) (dst p + (e : Int) * b) b)) ∧
      (∀ p ∈ k.pes, ∀ y, (y < dst p ∨ dst p + ((len * b : Nat) : Int) ≤ y) → m' p y = m p y) ∧
      ∀ p, p ∉ k.pes → m' p = m p := by
  have hch : ct ≠ .char := by
    rintro rfl
    obtain ⟨ty, mpi⟩ := r
    simp only at hct
    subst hct
    revert hr
    cases op <;> cases mpi <;> simp [rows, minmaxAset, sumprodAset, bitwsAset]
  rw [← pes_length k] at htr
  obtain ⟨m', h1, h2, h3, h4⟩ := C77_int_partial hr hct hch hb fl tr (pes_nodup k) _ _ hl ha htr m
  unfold reduceA
  rw [aset_comm hN hv hme hc, Res.bind_ok]
  refine ⟨m', h1, ?_, ?_, h4⟩
  · intro p hp e he
    obtain ⟨q, hq, rfl⟩ := mem_getD hp
    have := h2 q hq e he
    rw [pes_length] at this
    exact means_congr (fun i hi => by rw [pes_getD hi]) this
  · intro p hp y hy
    obtain ⟨q, hq, rfl⟩ := mem_getD hp
    exact h3 q hq y hy

/-! ## Examples -/

/-- the odd PEs of 6, PE 3 has number 1 in their team -/
theorem exOdd : Team.Holds 6 3 [.strided 1 2 3] ⟨[1, 3, 5], 1, 3⟩ := .split .world (by decide +kernel)

/-- the members' handles -/
def exHd (p : Nat) : Team.Handle := .obj ⟨[1, 3, 5], if p = 1 then 0 else if p = 3 then 1 else 2, 3⟩

theorem exOn : OnTeam 1 6 [.strided 1 2 3] exHd [1, 3, 5] := by
  intro p hp
  have h : p = 1 ∨ p = 3 ∨ p = 5 := by simpa using hp
  rcases h with rfl | rfl | rfl
  · exact ⟨⟨[1, 3, 5], 0, 3⟩, rfl, .split .world (by decide +kernel)⟩
  · exact ⟨⟨[1, 3, 5], 1, 3⟩, rfl, .split .world (by decide +kernel)⟩
  · exact ⟨⟨[1, 3, 5], 2, 3⟩, rfl, .split .world (by decide +kernel)⟩

/-- broadcast of ten `long double`s from PE 5 (number 2) of that team -/
example (m : Mems) : ∃ m', broadcastT (.typed ⟨.longdouble, .longdouble⟩) 1 6 exHd 3 2 (fun _ => 0x1000) (fun _ => 0x2000) 10 m = .ok m' ∧
    m' 1 (0x2000 + (159 : Nat)) = m 5 (0x1000 + (159 : Nat)) := by
  obtain ⟨m', e, h, -⟩ := C81_broadcast_partial (fn := .typed ⟨.longdouble, .longdouble⟩) (by decide : _ ∈ rmaRows) (by decide) exOdd exOn
    (root := 2) (rp := 5) rfl (fun _ => 0x1000) (fun _ => 0x2000) (len := 10) (by decide) (by decide) m
  exact ⟨m', e, h 1 (by decide) 159 (by decide)⟩

/-- `shmem_uint16_xor_reduce` in place on that team -/
example (m : Mems) : ∃ m', reduceT ⟨.base .uint16, .base .uint16⟩ .xor (fun _ _ a _ => a) (fun _ _ => .node (.leaf 0) (.node (.leaf 2) (.leaf 1)))
      1 6 exHd 5 (fun _ => 0x1000) (fun _ => 0x1000) 7 m = .ok m' ∧ m' 0 = m 0 := by
  obtain ⟨m', e, -, -, h⟩ := C81_reduce_partial (op := .xor) (r := ⟨.base .uint16, .base .uint16⟩) (by decide) rfl (by decide) rfl
    (fun _ _ a _ => a) (fun _ _ => .node (.leaf 0) (.node (.leaf 2) (.leaf 1))) (me := 5) (by decide : 5 < 6)
    (hs := [.strided 1 2 3]) (o := ⟨[1, 3, 5], 2, 3⟩) (.split .world (by decide +kernel)) exOn (fun _ _ => by unfold Complete; decide) (fun _ => 0x1000) (fun _ => 0x1000)
    (len := 7) (by decide) (Or.inl (fun _ _ => rfl)) m
  exact ⟨m', e, h 0 (by decide)⟩

/-- `shmem_fcollect64` of five elements on the set 1, 3, 5 -/
example (m : Mems) : ∃ m', fcollectA .b64 6 (fun _ => Cache.init) ⟨1, 1, 3⟩ 3 5 (fun _ => 0x1000) (fun _ => 0x2000) m = .ok m' ∧
    m' 1 (0x2000 + (80 : Nat)) = m 5 (0x1000 + (0 : Nat)) := by
  obtain ⟨m', e, h, -⟩ := C81_fcollect_aset_partial .b64 (npes := 6) (by decide) (c := fun _ => Cache.init) (k := ⟨1, 1, 3⟩)
    (by unfold Valid; decide) (me := 3) (by decide) (fun _ _ => ⟨[], [], .nil⟩) (len := 5) (by decide) (fun _ => 0x1000) (fun _ => 0x2000)
    (by
      intro r _ x hx y hy
      have : x < 40 := hx
      simp only
      omega) m
  exact ⟨m', e, h 0 (by decide) 2 (by decide) 0 (by decide)⟩

end Verif.Api
