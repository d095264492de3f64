import Verif.Bsp.PutTest
/-!
# C117: the repository's test `iput_quiet` passes in every execution

tests/iput_quiet.c, for every SIZE, every ITER, every number of elements, every number of PEs and any two strides (the test has one; its check is that of
tests/iput.c L38-46, which says what is expected for two). Simplified: `shmem_barrier_all` in place of `shmem_sync_all`, and `loc_buf` is a block of the
symmetric heap, not of the C library's.
-/
namespace Verif.Bsp
open Verif.Sobj Verif.Rma Verif.Vis Verif.Api Verif.Flow
open Verif.Amo (TyIdx)
open Verif.Heap (heapSize trueSize Call)

/-! ## The program -/

/-- arguments of `shmem_int_iput(remote_buf, loc_buf, ds, ss, n, 1)` (tests/iput_quiet.c L51) -/
def uArgs (B : Nat → Nat) (x y : Nat × Nat) (ds ss n : Nat) : RArgs :=
  ⟨BitVec.ofNat 64 (adr B 0 x 0), BitVec.ofNat 64 (adr B 0 y 0), 0, fun _ => 0, ds, ss, n⟩

/-- tests/iput_quiet.c L49-54: `K` times iput and quiet -/
def uSend (B : Nat → Nat) (x y : Nat × Nat) (ds ss n K : Nat) : List NAct :=
  (List.range (2 * K)).map fun i => if i % 2 = 0 then .rma .iput (.typed ⟨.int, .int⟩) false (uArgs B x y ds ss n) 1 else .quiet

/-- what PE `p` of `np` does before the first barrier (`loc_buf[i] = mype * npes + i; remote_buf[i] = 0`, SIZE = `T`), between the two (PE 0 only), and
afterwards: tests/iput_quiet.c L40-57 -/
def uActs (np : Nat) (B : Nat → Nat) (x y : Nat × Nat) (T ds ss n K : Nat) : Nat → Nat → List NAct
  | 0, p => tFill (fun p => p * np) B x y T p
  | 1, p => if p = 0 then uSend B x y ds ss n K else []
  | _ + 2, _ => []

/-- the program; its check after the second barrier (tests/iput_quiet.c L59-64, tests/iput.c L38-46) is what the theorems are about -/
def uProg (np : Nat) (B : Nat → Nat) (x y : Nat × Nat) (T ds ss n K : Nat) : NProg where
  next p k i _ := (uActs np B x y T ds ss n K k p)[i]?
  looks _ _ _ _ := False
  dep _ _ _ _ _ _ := rfl

/-- what the test expects in element `i` (tests/iput.c L41-45): the elements at multiples of the destination's stride, up to `n` of them, have come, the
others are 0 -/
def expected (ds ss n i : Nat) : Nat := if i % ds = 0 ∧ i / ds < n then i / ds * ss else 0

/-! ## Proof -/

/-- with one stride, what tests/iput_quiet.c L61-63 computes -/
theorem expected_same {d n i : Nat} (hd : 0 < d) : expected d d n i = if i % d = 0 ∧ i < n * d then i else 0 := by
  unfold expected
  have e : i / d < n ↔ i < n * d := Nat.div_lt_iff_lt_mul hd
  by_cases h : i % d = 0 ∧ i < n * d
  · rw [if_pos h, if_pos ⟨h.1, e.2 h.2⟩]
    exact Nat.div_mul_cancel (Nat.dvd_of_mod_eq_zero h.1)
  · rw [if_neg h, if_neg (fun h' => h ⟨h'.1, e.1 h'.2⟩)]

/-- address `a` of PE 1 is one the iput writes -/
def Hit (B : Nat → Nat) (x : Nat × Nat) (ds n : Nat) (a : Int) : Prop :=
  (adr B 1 x 0 : Int) ≤ a ∧ (a - (adr B 1 x 0 : Nat)).toNat % (4 * ds) < 4 ∧ (a - (adr B 1 x 0 : Nat)).toNat / (4 * ds) < n

instance (B : Nat → Nat) (x : Nat × Nat) (ds n : Nat) (a : Int) : Decidable (Hit B x ds n a) := by unfold Hit; infer_instance

/-- where the byte for address `a` comes from -/
def uFrom (B : Nat → Nat) (x y : Nat × Nat) (ds ss : Nat) (a : Int) : Int :=
  (adr B 0 y ((a - (adr B 1 x 0 : Nat)).toNat / (4 * ds) * (4 * ss) + (a - (adr B 1 x 0 : Nat)).toNat % (4 * ds)) : Nat)

/-- the memory after the second barrier, from that after the first -/
def uM2 (B : Nat → Nat) (x y : Nat × Nat) (ds ss n : Nat) (m : Mems) : Mems :=
  fun q a => if q = 1 ∧ Hit B x ds n a then m 0 (uFrom B x y ds ss a) else m q a

/-- the memory at the barriers -/
def uM (np : Nat) (B : Nat → Nat) (x y : Nat × Nat) (T ds ss n : Nat) (m : Mems) : Nat → Mems
  | 0 => m
  | 1 => tM1 (fun p => p * np) B x y T m
  | _ + 2 => uM2 B x y ds ss n (tM1 (fun p => p * np) B x y T m)

/-- the bytes of the iput -/
def uXs (B : Nat → Nat) (x y : Nat × Nat) (ds ss n : Nat) : List (Int × Int) := pairs (adr B 1 x 0 : Nat) (adr B 0 y 0 : Nat) n 4 ds ss

section
variable {S : Sys} {k Z : Nat} {B : Nat → Nat} {s : Dl.St} {x y : Nat × Nat} {T ds ss n K : Nat} {m : Mems}

theorem mem_uXs {z : Int × Int} : z ∈ uXs B x y ds ss n ↔ ∃ i < n, ∃ b < 4, z = (((adr B 1 x (4 * ds * i + b) : Nat) : Int), ((adr B 0 y (i * (4 * ss) + b) : Nat) : Int)) := by
  have e : ∀ (q : Nat) (v : Nat × Nat) (st i b : Nat), byteOf (adr B q v 0 : Nat) 4 st i b = (adr B q v (i * (4 * st) + b) : Nat) := by
    intro q v st i b
    unfold byteOf adr
    push_cast
    ring
  have e' : ∀ i, i * (4 * ds) = 4 * ds * i := fun i => Nat.mul_comm _ _
  unfold uXs pairs
  constructor
  · intro h
    obtain ⟨⟨i, b⟩, hi, rfl⟩ := List.mem_map.1 h
    obtain ⟨h1, h2⟩ := mem_idx.1 hi
    refine ⟨i, h1, b, h2, Prod.ext ?_ (e 0 y ss i b)⟩
    rw [← e']
    exact e 1 x ds i b
  · rintro ⟨i, hi, b, hb, rfl⟩
    refine List.mem_map.2 ⟨(i, b), mem_idx.2 ⟨hi, hb⟩, Prod.ext ?_ (e 0 y ss i b)⟩
    rw [← e']
    exact e 1 x ds i b

theorem off_adr {j : Nat} : ((adr B 1 x j : Nat) - (adr B 1 x 0 : Nat) : Int).toNat = j := by unfold adr; omega

theorem div_mod {i b : Nat} (hd : 0 < ds) (hb : b < 4) : (4 * ds * i + b) / (4 * ds) = i ∧ (4 * ds * i + b) % (4 * ds) = b := by
  have h : b < 4 * ds := by omega
  exact ⟨by rw [Nat.mul_add_div (by omega), Nat.div_eq_of_lt h, Nat.add_zero], by rw [Nat.mul_add_mod, Nat.mod_eq_of_lt h]⟩

theorem uXs_from (hd : 0 < ds) {z : Int × Int} (h : z ∈ uXs B x y ds ss n) : z.2 = uFrom B x y ds ss z.1 ∧ Hit B x ds n z.1 := by
  obtain ⟨i, hi, b, hb, rfl⟩ := mem_uXs.1 h
  obtain ⟨h1, h2⟩ := div_mod (i := i) hd hb
  constructor
  · unfold uFrom
    dsimp only
    rw [off_adr, h1, h2]
  · refine ⟨?_, ?_, ?_⟩
    · dsimp only
      unfold adr
      omega
    · dsimp only
      rw [off_adr, h2]
      exact hb
    · dsimp only
      rw [off_adr, h1]
      exact hi

theorem hit_mem {a : Int} (h : Hit B x ds n a) : ∃ z ∈ uXs B x y ds ss n, z.1 = a := by
  obtain ⟨h1, h2, h3⟩ := h
  refine ⟨_, mem_uXs.2 ⟨_, h3, _, h2, rfl⟩, ?_⟩
  show ((adr B 1 x (4 * ds * ((a - (adr B 1 x 0 : Nat)).toNat / (4 * ds)) + (a - (adr B 1 x 0 : Nat)).toNat % (4 * ds)) : Nat) : Int) = a
  rw [Nat.div_add_mod]
  unfold adr at *
  omega

theorem uXs_in (hx : ∀ i < n, i * ds < T) (hy : ∀ i < n, i * ss < T) {z : Int × Int} (h : z ∈ uXs B x y ds ss n) :
    InArr B x T 1 z.1 ∧ InArr B y T 0 z.2 := by
  obtain ⟨i, hi, b, hb, rfl⟩ := mem_uXs.1 h
  have h1 := hx i hi
  have h2 := hy i hi
  have e1 : 4 * ds * i = 4 * (i * ds) := by ring
  have e2 : i * (4 * ss) = 4 * (i * ss) := by ring
  rw [e1, e2]
  unfold InArr adr
  generalize i * ds = c at *
  generalize i * ss = c' at *
  dsimp only
  omega

/-- the calls of PE 0 between the barriers -/
def uSent (B : Nat → Nat) (x y : Nat × Nat) (ds ss n K : Nat) : List Act :=
  (List.range (2 * K)).map fun i => if i % 2 = 0 then .put 1 false (uXs B x y ds ss n) else .quiet

theorem uSend_act (J : Job S k Z B) (hp : 0 < S.npes) (hix : 960 + x.1 + x.2 ≤ heapSize k Z) (hiy : 960 + y.1 + y.2 ≤ heapSize k Z)
    (hx : 0 < x.2) (hy : 0 < y.2) : (uSend B x y ds ss n K).map (NAct.act B 0) = uSent B x y ds ss n K := by
  unfold uSend uSent
  rw [List.map_map]
  refine List.map_congr_left fun i _ => ?_
  show NAct.act B 0 (if i % 2 = 0 then _ else _) = _
  split
  · have e : (BitVec.ofNat 64 (adr B 0 x 0)).toInt - B 0 + B 1 = (adr B 1 x 0 : Nat) := by
      rw [adr_int J hix (by omega) hp]
      unfold adr
      omega
    show Act.put 1 false (pairs ((BitVec.ofNat 64 (adr B 0 x 0)).toInt - B 0 + B 1) (BitVec.ofNat 64 (adr B 0 y 0)).toInt n 4 ds ss) = _
    rw [e, adr_int J hiy (by omega) hp]
    rfl
  · rfl

theorem uSent_mem {a : Act} (h : a ∈ uSent B x y ds ss n K) : a = .quiet ∨ a = .put 1 false (uXs B x y ds ss n) := by
  obtain ⟨i, _, rfl⟩ := List.mem_map.1 h
  split
  · exact Or.inr rfl
  · exact Or.inl rfl

theorem uSent_has (hK : 0 < K) : .put 1 false (uXs B x y ds ss n) ∈ uSent B x y ds ss n K :=
  List.mem_map.2 ⟨0, List.mem_range.2 (by omega), rfl⟩

/-- the phase of the iputs -/
theorem u_phase1 {np : Nat} {P : Prog} {acts : Nat → List Act} (hK : 0 < K) (hd : 0 < ds) (hnp : 1 < np) (hx : ∀ i < n, i * ds < T) (hy : ∀ i < n, i * ss < T)
    (ha : ∀ p, acts p = if p = 0 then uSent B x y ds ss n K else [])
    (hf : ∀ p i y, P.next p 1 i y = (acts p)[i]?) (hl : ∀ p k i a, ¬ P.looks p k i a) :
    Phase np (tD np B x y T) P 1 m acts (uM2 B x y ds ss n m) := by
  have hmem : ∀ p a, a ∈ acts p → p = 0 ∧ (a = .quiet ∨ a = .put 1 false (uXs B x y ds ss n)) := by
    intro p a h
    rw [ha p] at h
    split at h
    · exact ⟨by assumption, uSent_mem h⟩
    · cases h
  have hwr : ∀ p a, a ∈ acts p → ∀ b, a.writes p b → p = 0 ∧ b.1 = 1 ∧ a = .put 1 false (uXs B x y ds ss n) ∧ ∃ z ∈ uXs B x y ds ss n, z.1 = b.2 := by
    intro p a h b hb
    obtain ⟨rfl, rfl | rfl⟩ := hmem p a h
    · exact absurd hb id
    · obtain ⟨h1, z, hz, h2⟩ := hb
      exact ⟨rfl, h1, rfl, z, hz, h2⟩
  refine Phase.plain ?_ ?_ ?_ ?_ ?_ ?_ ?_ ?_ ?_
  · intro p _ a h
    obtain ⟨_, rfl | rfl⟩ := hmem p a h <;> rfl
  · intro p _ i _
    rw [hf]
  · rintro p _ b ⟨a, h, hb⟩
    obtain ⟨rfl, h1, rfl, z, hz, h3⟩ := hwr p a h b hb
    unfold alone
    rw [List.take_length, h1]
    refine Eq.trans ?_ ((fold_puts (g := uFrom B x y ds ss) ?_).2 b.2 ⟨_, h, z, hz, h3⟩).symm
    · exact if_pos ⟨rfl, by rw [← h3]; exact (uXs_from hd hz).2⟩
    · intro a ha
      obtain ⟨_, rfl | rfl⟩ := hmem 0 a ha
      · exact Or.inl rfl
      · exact Or.inr ⟨_, rfl, fun z hz => (uXs_from hd hz).1⟩
  · intro b hD hno
    unfold uM2
    rw [if_neg]
    rintro ⟨h1, h2⟩
    obtain ⟨z, hz, h3⟩ := hit_mem (y := y) (ss := ss) h2
    exact hno 0 (by omega) (.put 1 false (uXs B x y ds ss n)) (by rw [ha 0, if_pos rfl]; exact uSent_has hK) ⟨h1, z, hz, h3⟩
  · intro p hp a h b hb
    rcases hb with hb | hb
    · obtain ⟨_, h1, _, z, hz, h2⟩ := hwr p a h b hb
      have := (uXs_in hx hy hz).1
      rw [h2] at this
      exact ⟨by omega, Or.inl (by rw [h1]; exact this)⟩
    · obtain ⟨rfl, rfl | rfl⟩ := hmem p a h
      · exact absurd hb id
      · obtain ⟨h1, z, hz, h2⟩ := hb
        have := (uXs_in hx hy hz).2
        rw [h2] at this
        exact ⟨by omega, Or.inr (by rw [h1]; exact this)⟩
  · intro p _ i _ a h
    exact absurd h (hl _ _ _ _)
  · intro p _ q _ hpq a h b hb
    obtain ⟨rfl, _⟩ := hmem p a h
    refine ⟨fun c hc => ?_, fun _ _ _ => hl _ _ _ _⟩
    exact absurd (hmem q c hc).1 (fun e => hpq e.symm)
  · intro p _ i j hij hj hq a h
    obtain ⟨rfl, _⟩ := hmem p a (List.mem_of_getElem? h)
    have hget : ∀ i : Nat, (acts 0)[i]? = if i < 2 * K then some (if i % 2 = 0 then .put 1 false (uXs B x y ds ss n) else .quiet) else none := by
      intro i
      rw [ha 0, if_pos rfl]
      unfold uSent
      rw [List.getElem?_map]
      split
      · rename_i h; rw [List.getElem?_range h]; rfl
      · rename_i h; rw [List.getElem?_eq_none (by rw [List.length_range]; omega)]; rfl
    rw [hget i] at h
    split at h
    swap
    · cases h
    rename_i hi
    cases h
    split
    · rename_i he
      have hq1 : (acts 0)[i + 1]? = some .quiet := by
        rw [hget, if_pos (by omega), if_neg (by omega)]
      refine ⟨fun b _ hb => ⟨fun c hc => ?_, fun _ => hl _ _ _ _⟩, fun b h => by cases h⟩
      by_cases hji : j = i + 1
      · subst hji
        rw [hq1] at hc
        cases hc
        exact ⟨fun h => h, fun h => h⟩
      · exact absurd ⟨i + 1, by omega, by omega, hq1⟩ hq
    · exact ⟨fun b h => absurd h id, fun b h => absurd h id⟩
  · intro p _ a h
    obtain ⟨rfl, rfl | rfl⟩ := hmem p a h
    · exact ⟨fun b _ h => h, trivial⟩
    · refine ⟨fun b h1 h2 => ?_, fun z hz u hu e => ?_⟩
      · have h1 := h1.1
        have h2 := h2.1
        omega
      · exact Prod.ext e (by rw [(uXs_from hd hz).1, (uXs_from hd hu).1, e])

/-- what the program needs: two different blocks of the heap with room for SIZE = `T` ints; two PEs or more; all elements lie in the arrays; positive
strides, within the limits of an iput; ITER positive -/
structure UOk (S : Sys) (k Z : Nat) (B : Nat → Nat) (s : Dl.St) (x y : Nat × Nat) (T ds ss n K : Nat) : Prop where
  job : Job S k Z B
  made : ∃ q cs os, q < S.npes ∧ Made k Z B q cs s os
  liveX : x ∈ s.live
  liveY : y ∈ s.live
  ne : x ≠ y
  inX : 960 + x.1 + x.2 ≤ heapSize k Z
  inY : 960 + y.1 + y.2 ≤ heapSize k Z
  roomX : 4 * T ≤ x.2
  roomY : 4 * T ≤ y.2
  pes : 2 ≤ S.npes
  posT : 0 < T
  posK : 0 < K
  elemX : ∀ i < n, i * ds < T
  elemY : ∀ i < n, i * ss < T
  limit : n < 2 ^ 31
  limitD : 1 ≤ ds ∧ ds < 2 ^ 31
  limitS : 1 ≤ ss ∧ ss < 2 ^ 31

theorem UOk.means (h : UOk S k Z B s x y T ds ss n K) (m : Mems) :
    NMeans S k Z B s (tD S.npes B x y T) (uProg S.npes B x y T ds ss n K) (uM S.npes B x y T ds ss n m) (uActs S.npes B x y T ds ss n K) := by
  have hfol : ∀ j p i u, ((uProg S.npes B x y T ds ss n K).prog B).next p j i u = ((uActs S.npes B x y T ds ss n K j p).map (NAct.act B p))[i]? := by
    intro j p i u
    show Option.map _ (uActs S.npes B x y T ds ss n K j p)[i]? = _
    rw [List.getElem?_map]
  have hl : ∀ p k i a, ¬ ((uProg S.npes B x y T ds ss n K).prog B).looks p k i a := fun p k i a h => h
  have hpes := h.pes
  have hrx := h.roomX
  have hry := h.roomY
  have hT := h.posT
  refine ⟨fun j => ?_, fun j p _ i _ => rfl, ?_⟩
  · match j with
    | 0 =>
      obtain ⟨q, cs, os, hq, hm⟩ := h.made
      exact t_phase0 (t_apart h.job hq hm h.liveX h.liveY h.ne h.roomX h.roomY) (fun p => rfl) (hfol 0) hl
    | 1 =>
      refine u_phase1 h.posK h.limitD.1 (by omega) h.elemX h.elemY (fun p => ?_) (hfol 1) hl
      show (if p = 0 then _ else _ : List NAct).map _ = _
      split
      · rename_i hp
        subst hp
        exact uSend_act h.job (by omega) h.inX h.inY (by omega) (by omega)
      · rfl
    | j + 2 => exact idle_phase (fun p => rfl) (hfol (j + 2)) hl
  · intro j p hp a ha
    match j with
    | 0 =>
      obtain ⟨i, _, hi⟩ := List.mem_flatMap.1 ha
      rcases List.mem_cons.1 hi with rfl | hi
      · trivial
      · cases List.mem_singleton.1 hi
        trivial
    | 1 =>
      have ha : a ∈ (if p = 0 then uSend B x y ds ss n K else []) := ha
      split at ha
      swap
      · cases ha
      rename_i hp0
      subst hp0
      obtain ⟨i, hi, rfl⟩ := List.mem_map.1 ha
      split
      swap
      · trivial
      have h1 := h.limitD
      have h2 := h.limitS
      refine ⟨rfl, x, 0, fun gpu mode hmode => ⟨(by show _ ∈ rmaRows; decide), hp, by omega, h.liveX, h.inX, by omega, ?_, rfl, fun _ => rfl,
        ⟨h.limit, ⟨by show (1 : Int) ≤ (ds : Nat); omega, by show ((ds : Nat) : Int) < 2 ^ 31; omega⟩, by show (1 : Int) ≤ (ss : Nat); omega,
          by show ((ss : Nat) : Int) < 2 ^ 31; omega⟩⟩⟩
      intro e he b hb
      have he := h.elemX e he
      have hb : b < 4 := hb
      show 0 ≤ byteOf (0 : Nat) 4 (ds : Nat) e b ∧ byteOf (0 : Nat) 4 (ds : Nat) e b < x.2
      unfold byteOf
      have e1 : (e : Int) * (ds : Nat) = (e * ds : Nat) := by push_cast; rfl
      rw [e1]
      generalize e * ds = c at *
      omega

/-- the array in the memory after the second barrier -/
theorem u_word {np : Nat} (hd : 0 < ds) (hy : ∀ i < n, i * ss < T) (h : Apart B x y T) {m mem : Mems}
    (hm : ∀ a, InArr B x T 1 a → mem 1 a = uM np B x y T ds ss n m 2 1 a) {i : Nat} (hi : i < T) :
    wordAt (mem 1) (adr B 1 x (4 * i) : Nat) .int = BitVec.ofNat 32 (expected ds ss n i) := by
  refine word_cell fun b hb => ?_
  have h1 : InArr B x T 1 (adr B 1 x (4 * i + b) : Nat) := by unfold InArr adr; omega
  have e : ((adr B 1 x (4 * i) : Nat) + (b : Int)) = (adr B 1 x (4 * i + b) : Nat) := by unfold adr; omega
  rw [e, hm _ h1]
  show uM2 B x y ds ss n (tM1 (fun p => p * np) B x y T m) 1 _ = _
  unfold uM2 expected
  by_cases hc : i % ds = 0 ∧ i / ds < n
  · have hi' : 4 * i + b = 4 * ds * (i / ds) + b := by
      have := Nat.div_add_mod i ds
      rw [hc.1, Nat.add_zero] at this
      rw [Nat.mul_assoc, this]
    obtain ⟨d1, d2⟩ := div_mod (i := i / ds) hd hb
    have hit : Hit B x ds n (adr B 1 x (4 * i + b) : Nat) := by
      refine ⟨by unfold adr; omega, ?_, ?_⟩
      · rw [off_adr, hi', d2]; exact hb
      · rw [off_adr, hi', d1]; exact hc.2
    have hlt := hy _ hc.2
    have ef : uFrom B x y ds ss (adr B 1 x (4 * i + b) : Nat) = (adr B 0 y (4 * (i / ds * ss) + b) : Nat) := by
      unfold uFrom
      rw [off_adr, hi', d1, d2]
      congr 2
      ring
    have h2 : InArr B y T 0 (adr B 0 y (4 * (i / ds * ss) + b) : Nat) := by
      unfold InArr adr
      generalize i / ds * ss = c at *
      omega
    rw [if_pos ⟨rfl, hit⟩, if_pos hc, ef]
    unfold tM1
    rw [if_neg (fun h' => h _ _ h' h2), if_pos h2]
    generalize i / ds * ss = c at *
    have e2 : ((adr B 0 y (4 * c + b) : Nat) - (adr B 0 y 0 : Nat) : Int).toNat = 4 * c + b := by unfold adr; omega
    rw [e2]
    have e3 : (4 * c + b) / 4 = c := by omega
    have e4 : (4 * c + b) % 4 = b % 4 := by omega
    unfold cell
    rw [e3, e4]
    dsimp only
    rw [Nat.zero_mul, Nat.zero_add]
  · have hit : ¬ Hit B x ds n (adr B 1 x (4 * i + b) : Nat) := by
      rintro ⟨_, g1, g2⟩
      rw [off_adr] at g1 g2
      have g3 := Nat.div_add_mod (4 * i + b) (4 * ds)
      rw [Nat.mul_assoc] at g3
      have g4 : i = ds * ((4 * i + b) / (4 * ds)) := by
        generalize ds * ((4 * i + b) / (4 * ds)) = c at *
        omega
      refine hc ⟨?_, ?_⟩
      · rw [g4]; exact Nat.mul_mod_right _ _
      · have g5 : i / ds = (4 * i + b) / (4 * ds) := by
          conv_lhs => rw [g4]
          exact Nat.mul_div_cancel_left _ hd
        rw [g5]
        exact g2
    rw [if_neg (fun h' => hit h'.2), if_neg hc]
    unfold tM1
    rw [if_pos h1]
    unfold cell
    simp

/-- **C117 (partial)** The check of the test: in every execution, when PE 1 has come out of the second barrier, every element of its array is the one the
test expects: what was sent, at multiples of the destination's stride, and 0 elsewhere. -/
theorem C117_check_partial (h : UOk S k Z B s x y T ds ss n K) {m : Mems} {l : List Ev} {X : X}
    (r : NRun S (tD S.npes B x y T) (uProg S.npes B x y T ds ss n K) (start m) l X) (hf : Free S X.g 1) (h2 : X.g.arr 1 = 2) (h0 : X.pos 1 = 0) {i : Nat}
    (hi : i < T) : wordAt (X.g.mem 1) (adr B 1 x (4 * i) : Nat) .int = BitVec.ofNat 32 (expected ds ss n i) := by
  obtain ⟨q, cs, os, hq, hm⟩ := h.made
  have hpes := h.pes
  refine u_word (np := S.npes) (m := m) h.limitD.1 h.elemY (t_apart h.job hq hm h.liveX h.liveY h.ne h.roomX h.roomY) (fun a ha => ?_) hi
  have := C106_barrier_partial h.job (h.means m) r hf h0 (b := (1, a)) ⟨by show 1 < S.npes; omega, Or.inl ha⟩ (by
    rw [h2]
    intro q _ _ a ha
    cases ha)
  rw [h2] at this
  exact this

/-- **C117 (partial)** In every fair execution all PEs get through both barriers, and from some time on for good PE 1 has what the test expects. -/
theorem C117_passes_partial (h : UOk S k Z B s x y T ds ss n K) {R : Inf S} {pos : Nat → Nat → Nat} (F : R.Fair)
    (E : NExec (tD S.npes B x y T) (uProg S.npes B x y T ds ss n K) 2 R pos) :
    (∃ i, ∀ p < S.npes, 2 ≤ (R.st i).lv p) ∧
    ∃ i, ∀ j, i ≤ j → ∀ e < T, wordAt ((R.st j).mem 1) (adr B 1 x (4 * e) : Nat) .int = BitVec.ofNat 32 (expected ds ss n e) := by
  obtain ⟨q, cs, os, hq, hm⟩ := h.made
  have hpes := h.pes
  refine ⟨C106_completes_partial h.job (h.means R.mem) rfl F E, ?_⟩
  obtain ⟨i, hi⟩ := C106_result_partial h.job (h.means R.mem) (by omega) rfl F E (by
    intro j hj p _ a ha
    obtain ⟨j, rfl⟩ := Nat.exists_eq_add_of_le' hj
    cases ha)
  refine ⟨i, fun j hj e he => ?_⟩
  exact u_word (np := S.npes) (m := R.mem) h.limitD.1 h.elemY (t_apart h.job hq hm h.liveX h.liveY h.ne h.roomX h.roomY)
    (fun a ha => (hi j hj (1, a) ⟨by show 1 < S.npes; omega, Or.inl ha⟩).2) he

/-- **C117** Such executions exist, from every memory. -/
theorem C117_exists (h : UOk S k Z B s x y T ds ss n K) (m : Mems) :
    ∃ (R : Inf S) (pos : Nat → Nat → Nat), R.Fair ∧ R.mem = m ∧ NExec (tD S.npes B x y T) (uProg S.npes B x y T ds ss n K) 2 R pos := by
  refine C107_exists_partial h.job (h.means m) ?_ 2
  intro j p _ c hc
  match j with
  | 0 =>
    obtain ⟨i, _, hi⟩ := List.mem_flatMap.1 hc
    rcases List.mem_cons.1 hi with hi | hi
    · cases hi
    · cases List.mem_singleton.1 hi
  | 1 =>
    have hc : NAct.add c ∈ (if p = 0 then uSend B x y ds ss n K else []) := hc
    split at hc
    swap
    · cases hc
    obtain ⟨i, _, hi⟩ := List.mem_map.1 hc
    split at hi <;> cases hi
  | j + 2 => cases hc

end

/-! ## Non-vacuity -/

/-- two PEs, SIZE 6, strides 2 and 1, three elements, ITER 5: the test's conditions hold, it has a fair execution, and in the end `remote_buf[4]` of PE 1
is 2 and `remote_buf[3]` is 0 -/
example : ∃ s, UOk (exS true) 12 4096 exB s (0, 24) (32, 24) 6 2 1 3 5 ∧ ∃ (R : Inf (exS true)) (pos : Nat → Nat → Nat), R.Fair ∧
    NExec (tD 2 exB (0, 24) (32, 24) 6) (uProg 2 exB (0, 24) (32, 24) 6 2 1 3 5) 2 R pos ∧
    ∃ i, ∀ j, i ≤ j → wordAt ((R.st j).mem 1) (adr exB 1 (0, 24) 16 : Nat) .int = 2 ∧ wordAt ((R.st j).mem 1) (adr exB 1 (0, 24) 12 : Nat) .int = 0 := by
  obtain ⟨s, hm, hl⟩ := t_made
  have h : UOk (exS true) 12 4096 exB s (0, 24) (32, 24) 6 2 1 3 5 := ⟨ex_job, ⟨0, _, _, by decide, hm⟩, by rw [hl]; decide, by rw [hl]; decide, by decide, by decide,
    by decide, by decide, by decide, by decide, by decide, by decide, by decide, by decide, by decide, by decide, by decide⟩
  obtain ⟨R, pos, F, _, E⟩ := C117_exists h fun _ _ => 0
  obtain ⟨_, i, hi⟩ := C117_passes_partial h F E
  exact ⟨s, h, R, pos, F, E, i, fun j hj => ⟨hi j hj 4 (by decide), hi j hj 3 (by decide)⟩⟩

end Verif.Bsp
