import Verif.Crit.Exists
import Verif.Bsp.NamedEx
/-!
# C109: the counter in a block of the symmetric heap

The counter and the local variables are in a block from `shmem_malloc`, the calls are `shmem_long_get` and `shmem_long_put` by name; a concrete job.
-/
namespace Verif.Crit
open Verif.Sobj Verif.Rma Verif.Lock Verif.Api Verif.Flow
open Verif.Heap (heapSize)
open Verif.Bsp (NAct)

/-- arguments of `shmem_long_get(tm, counter, 1, h)` by PE `p`: bytes 8 and 0 of its block `x` -/
def getArgs (B : Nat → Nat) (x : Nat × Nat) (p : Nat) : RArgs :=
  ⟨BitVec.ofNat 64 (adr B p x 8), BitVec.ofNat 64 (adr B p x 0), 0, fun _ => 0, 1, 1, 1⟩

/-- arguments of `shmem_long_put(counter, nw, 1, h)` by PE `p`: bytes 0 and 16 of its block `x` -/
def putArgs (B : Nat → Nat) (x : Nat × Nat) (p : Nat) : RArgs :=
  ⟨BitVec.ofNat 64 (adr B p x 0), BitVec.ofNat 64 (adr B p x 16), 0, fun _ => 0, 1, 1, 1⟩

/-- the program on a block: the counter at its start on PE `h`, then `tm` and `nw` of each PE -/
def blockCounter (B : Nat → Nat) (x : Nat × Nat) (h K : Nat) : Prog :=
  counter h (adr B h x 0 : Nat) (fun p => (adr B p x 8 : Nat)) (fun p => (adr B p x 16 : Nat)) K

/-! ## Proof -/

theorem pairs_eight (a b : Int) : pairs a b 1 8 1 1 = eight a b := by
  unfold pairs eight
  have h : idx 1 8 = (List.range 8).map fun i => (0, i) := rfl
  rw [h, List.map_map]
  refine List.map_congr_left fun i _ => ?_
  simp [Flow.byteOf]

section
variable {T : Sys} {k Z : Nat} {B : Nat → Nat} {s : Dl.St} {x : Nat × Nat}

theorem block_int {S : Vis.Sys} (J : Job S k Z B) (hin : 960 + x.1 + x.2 ≤ heapSize k Z) {d : Nat} (hd : d ≤ x.2) {p : Nat} (hp : p < S.npes) :
    (BitVec.ofNat 64 (adr B p x d)).toInt = (adr B p x d : Nat) :=
  ofNat_int (by have := job_space J hp; unfold adr; omega)

theorem block_get_ok {S : Vis.Sys} (hx : x ∈ s.live) (hin : 960 + x.1 + x.2 ≤ heapSize k Z) (hx2 : 24 ≤ x.2) {p h : Nat} (hp : p < S.npes)
    (hh : h < S.npes) : (NAct.rma .get (.typed ⟨.long, .long⟩) false (getArgs B x p) h).Ok S k Z B s p := by
  refine ⟨rfl, x, 0, fun gpu mode hmode => ⟨(by show _ ∈ rmaRows; decide), hp, hh, hx, hin, by omega, ?_, rfl, fun _ => rfl, ?_⟩⟩
  · intro i hi b hb
    have hi : i < 1 := hi
    have hb : b < 8 := hb
    show 0 ≤ Flow.byteOf (0 : Nat) 8 1 i b ∧ Flow.byteOf (0 : Nat) 8 1 i b < x.2
    unfold Flow.byteOf
    omega
  · exact ⟨(by show 1 < 2 ^ 31; omega), fun _ => ⟨(fun _ h => by cases h), (by show 8 * 1 < 2 ^ 31; omega)⟩⟩

theorem block_put_ok {S : Vis.Sys} (hx : x ∈ s.live) (hin : 960 + x.1 + x.2 ≤ heapSize k Z) (hx2 : 24 ≤ x.2) {p h : Nat} (hp : p < S.npes)
    (hh : h < S.npes) : (NAct.rma .put (.typed ⟨.long, .long⟩) false (putArgs B x p) h).Ok S k Z B s p := by
  refine ⟨rfl, x, 0, fun gpu mode hmode => ⟨(by show _ ∈ rmaRows; decide), hp, hh, hx, hin, by omega, ?_, rfl, fun _ => rfl,
    ⟨(by show 1 < 2 ^ 31; omega), fun _ => (by show 8 * 1 < 2 ^ 31; omega)⟩⟩⟩
  intro i hi b hb
  have hi : i < 1 := hi
  have hb : b < 8 := hb
  show 0 ≤ Flow.byteOf (0 : Nat) 8 1 i b ∧ Flow.byteOf (0 : Nat) 8 1 i b < x.2
  unfold Flow.byteOf
  omega

/-! ## Theorems -/

/-- **The routines called by name do what the program says.** `shmem_long_get` and `shmem_long_put` with the addresses of the block, on whatever path,
    are the get and the put of the program. -/
theorem C109_named {S : Vis.Sys} (J : Job S k Z B) (hx : x ∈ s.live) (hin : 960 + x.1 + x.2 ≤ heapSize k Z) (hx2 : 24 ≤ x.2) {p h : Nat} (hp : p < S.npes)
    (hh : h < S.npes) {g g' : Vis.G} {e : Vis.Ev} :
    ((NAct.rma .get (.typed ⟨.long, .long⟩) false (getArgs B x p) h).Does S p g e g' →
      (Call.get h false (eight (adr B p x 8 : Nat) (adr B h x 0 : Nat))).Does p e ∧ Vis.Step S g e g') ∧
    ((NAct.rma .put (.typed ⟨.long, .long⟩) false (putArgs B x p) h).Does S p g e g' →
      (Call.put h false (eight (adr B h x 0 : Nat) (adr B p x 16 : Nat))).Does p e ∧ Vis.Step S g e g') := by
  have a0 := block_int J hin (d := 0) (by omega) hp
  have a8 := block_int J hin (d := 8) (by omega) hp
  have a16 := block_int J hin (d := 16) (by omega) hp
  have e0 : ((adr B p x 0 : Nat) : Int) - B p + B h = (adr B h x 0 : Nat) := by unfold adr; omega
  constructor
  · intro hd
    obtain ⟨h1, _, h2⟩ := Bsp.named_rma J (block_get_ok hx hin hx2 hp hh) hd
    refine ⟨?_, h1⟩
    have h2 : e = .get p h false none (BitVec.ofNat 64 (adr B p x 0))
      (pairs (BitVec.ofNat 64 (adr B p x 8)).toInt ((BitVec.ofNat 64 (adr B p x 0)).toInt - B p + B h) 1 8 1 1) (g.arr p) := h2
    rw [a0, a8, e0, pairs_eight] at h2
    exact ⟨_, _, _, h2⟩
  · intro hd
    obtain ⟨h1, _, h2⟩ := Bsp.named_rma J (block_put_ok hx hin hx2 hp hh) hd
    refine ⟨?_, h1⟩
    have h2 : e = .put p h false none (BitVec.ofNat 64 (adr B p x 0))
      (pairs ((BitVec.ofNat 64 (adr B p x 0)).toInt - B p + B h) (BitVec.ofNat 64 (adr B p x 16)).toInt 1 8 1 1) (g.arr p) := h2
    rw [a0, a16, e0, pairs_eight] at h2
    exact ⟨_, _, _, h2⟩

/-- the library accepts the calls of the program -/
theorem C109_accepted (J : Job T.vis k Z B) (hx : x ∈ s.live) (hin : 960 + x.1 + x.2 ≤ heapSize k Z) (hx2 : 24 ≤ x.2) {h K : Nat} (hh : h < T.lk.n) :
    Accepts T (blockCounter B x h K) := by
  intro p hp f hf m g hr hsp hfr
  have hp' : p < T.vis.npes := by rw [← T.hn]; exact hp
  have hh' : h < T.vis.npes := by rw [← T.hn]; exact hh
  obtain ⟨i, hi⟩ := List.getElem?_of_mem hf
  obtain ⟨_, e⟩ := counter_get' hi
  have hn := fun {g g' e} => C109_named (s := s) (g := g) (g' := g') (e := e) J hx hin hx2 hp' hh'
  unfold roundAct at e
  split at e
  · cases e
  · split at e
    · cases e
      obtain ⟨e, g', hd⟩ := Bsp.C106_accepted J (block_get_ok hx hin hx2 hp' hh') hr hfr
      exact ⟨e, g', hn.1 hd⟩
    · split at e
      · cases e
        exact ⟨_, _, rfl, Vis.Step.store p _ _ ⟨hfr.1, hfr.2.1, Function.update_self ..⟩⟩
      · split at e
        · cases e
          obtain ⟨e, g', hd⟩ := Bsp.C106_accepted J (block_put_ok hx hin hx2 hp' hh') hr hfr
          exact ⟨e, g', hn.2 hd⟩
        · split at e <;> cases e

theorem block_spot (J : Job T.vis k Z B) (hin : 960 + x.1 + x.2 ≤ heapSize k Z) (hx2 : 24 ≤ x.2) {h : Nat} (hh : h < T.lk.n) (hm : 0 < T.lk.m)
    (hl : ∀ p < T.lk.n, ∀ b < 24, ∀ z, T.lk.InLock p z → z.toInt ≠ (adr B p x b : Nat)) :
    Spot T h (adr B h x 0 : Nat) (fun p => (adr B p x 8 : Nat)) (fun p => (adr B p x 16 : Nat)) := by
  refine ⟨hh, hm, ?_, ?_, ?_, ?_, ?_, ?_⟩
  · intro b hb b' hb'; unfold adr; omega
  · intro b hb b' hb'; unfold adr; omega
  · intro p _ b hb b' hb'; unfold adr; omega
  · intro b hb z hz e
    refine hl h hh b (by omega) z hz (e.trans ?_)
    unfold adr; omega
  · intro p hp b hb z hz e
    refine hl p hp (8 + b) (by omega) z hz (e.trans ?_)
    unfold adr; omega
  · intro p hp b hb z hz e
    refine hl p hp (16 + b) (by omega) z hz (e.trans ?_)
    unfold adr; omega

/-- **A counter in the symmetric heap behind a lock.** In every job whose PEs hold a block of at least 24 bytes, with a lock elsewhere in symmetric
    memory: every fair execution of the program in which each PE adds one to the counter of PE `h` `K` times leaves there the first value plus
    `n * K`, for good; and for all first contents of memory in which the locks are zero there are such executions. -/
theorem C109_job_partial (J : Job T.vis k Z B) (wf : T.lk.WF) (un : T.lk.Uniform) (hx : x ∈ s.live) (hin : 960 + x.1 + x.2 ≤ heapSize k Z) (hx2 : 24 ≤ x.2)
    {h K : Nat} (hh : h < T.lk.n) (hm : 0 < T.lk.m) (hl : ∀ p < T.lk.n, ∀ b < 24, ∀ z, T.lk.InLock p z → z.toInt ≠ (adr B p x b : Nat)) :
    (∀ R : LInf T (blockCounter B x h K), R.vis.Fair →
      ∃ i, ∀ j, i ≤ j → word8 ((R.vis.st j).mem h) (adr B h x 0 : Nat) = (word8 (R.vis.mem h) (adr B h x 0 : Nat) + T.lk.n * K) % 2 ^ 64) ∧
    ∀ M, T.lk.Init (X.words ⟨Vis.ginit M, fun _ _ => .idle⟩) → ∃ R : LInf T (blockCounter B x h K), R.vis.Fair ∧ R.vis.mem = M := by
  have sp := block_spot J hin hx2 hh hm hl
  exact ⟨fun R F => C109_counter_partial wf un sp R F,
    fun M hM => C109_exists_partial wf un (counter_proper sp K) (C109_accepted J hx hin hx2 hh) M hM⟩

end

/-! ## A concrete job -/

/-- the lock in the last 8 bytes of the first block (40 bytes) of `Flow/BlocksEx.lean` -/
def jLk : Lock.Cfg where
  n := 2
  m := 1
  loc := fun _ => { dyn := false, kind := .heap, idx := 0, bases := fun i => BitVec.ofNat 64 (0x10000 * (i + 1)), size := 4096,
                    off := 992#64, mode := .rel }

def jT : Sys := ⟨Vis.exS true, jLk, rfl, fun _ _ _ _ => Or.inl rfl⟩

theorem jLk_wf : jLk.WF where
  pos := by decide
  max := by decide
  idx := by intro l _; exact (by decide : (0 : Nat) < 2 ^ 29)
  mode := by intro l _ h; cases h
  off := by intro l _; exact (by decide : 0 ≤ (992#64).toInt)
  addr := by
    intro l hl t ht
    have : t = 0 ∨ t = 1 := by have : t < 2 := ht; omega
    rcases this with rfl | rfl
    · exact (by decide : 0 ≤ (0x103E0#64).toInt)
    · exact (by decide : 0 ≤ (0x203E0#64).toInt)
  disj := by
    intro l k hl hk h
    have h1 : l < 1 := hl
    have h2 : k < 1 := hk
    omega

theorem jLk_uniform : jLk.Uniform := fun _ _ => Or.inl rfl

theorem jLk_apart : ∀ p < jT.lk.n, ∀ b < 24, ∀ z, jT.lk.InLock p z → z.toInt ≠ (adr exB p (0, 40) b : Nat) := by
  rintro p hp b hb z ⟨l, hl, i, hi, rfl⟩
  have h1 : ∀ p < 2, ∀ i < 8, (jLk.lockp 0 p + BitVec.ofNat 64 i).toInt = ((0x10000 * (p + 1) + 992 + i : Nat) : Int) := by decide +kernel
  have h2 := h1 p hp i hi
  have h3 : (jT.lk.lockp l p + BitVec.ofNat 64 i).toInt = ((0x10000 * (p + 1) + 992 + i : Nat) : Int) := h2
  rw [h3]
  unfold adr exB
  omega

/-- memories at the start: zero -/
def jM : Mems := fun _ _ => 0

/-- Two PEs, each increments the counter of PE 1 a thousand times: there is a fair execution, and in each that starts with zeros the counter is 2000
in the end. The hypotheses of all theorems of C109 are met by this job and (for finite executions) the beginnings of this execution. -/
example : (∃ R : LInf jT (blockCounter exB (0, 40) 1 1000), R.vis.Fair ∧ R.vis.mem = jM ∧ (∀ i, ∃ l, PRun jT (blockCounter exB (0, 40) 1 1000) (R.at_ 0) l (R.at_ i)) ∧
      Start jT (R.at_ 0).x ∧ (R.at_ 0).pos = (fun _ => 0) ∧ ∃ i, ∀ p < 2, R.pos i p = 13000) ∧
    ∀ R : LInf jT (blockCounter exB (0, 40) 1 1000), R.vis.Fair → R.vis.mem = jM →
      ∃ i, ∀ j, i ≤ j → word8 ((R.vis.st j).mem 1) (adr exB 1 (0, 40) 0 : Nat) = 2000 := by
  obtain ⟨s, _, hlive⟩ := ex_made
  have hx : ((0, 40) : Nat × Nat) ∈ s.live := by rw [hlive]; decide
  have hin : 960 + 0 + 40 ≤ heapSize 12 4096 := by decide
  obtain ⟨h1, h2⟩ := C109_job_partial (T := jT) (h := 1) (K := 1000) ex_job jLk_wf jLk_uniform hx hin (by decide) (by decide) (by decide) jLk_apart
  constructor
  · obtain ⟨R, F, hM⟩ := h2 jM ⟨fun _ _ => rfl, fun _ _ _ _ => rfl⟩
    obtain ⟨i, hi⟩ := C109_ends_partial R jLk_wf jLk_uniform (counter_proper (block_spot ex_job hin (by decide) (by decide) (by decide) jLk_apart) 1000) F
    refine ⟨R, F, hM, R.run, R.start, R.pos0, i, fun p hp => ?_⟩
    rw [(hi i (Nat.le_refl _) p hp).1]
    exact (counter_len ..).trans rfl
  · intro R F hM
    obtain ⟨i, hi⟩ := h1 R F
    refine ⟨i, fun j hj => (hi j hj).trans ?_⟩
    rw [hM]
    show (word8 (fun _ => 0) _ + 2 * 1000) % 2 ^ 64 = 2000
    unfold word8
    rfl

end Verif.Crit
