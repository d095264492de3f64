import Verif.Sig.Exists
/-!
# C108: a message handed on from PE to PE

Every PE waits for its flag, puts the data to the next PE, calls `shmem_fence`, puts the flag of the next PE, calls `shmem_quiet`. For every
number of PEs, every amount of data, every interleaving.
-/
namespace Verif.Sig
open Verif.Sobj Verif.Rma Verif.Vis Verif.Api Verif.Flow
open Verif.Heap (heapSize trueSize Call)

/-! ## Specification -/

/-- `shmem_long_put(x + 2, x + 2, m, p + 1)`: the data (rma_typed.c.tpl L11-15) -/
def dataPut (B : Nat → Nat) (x : Nat × Nat) (m p : Nat) : RArgs :=
  ⟨BitVec.ofNat 64 (adr B p x 16), BitVec.ofNat 64 (adr B p x 16), 0, fun _ => 0, 1, 1, m⟩

/-- `shmem_long_put(x, x + 1, 1, p + 1)`: the flag (rma_typed.c.tpl L11-15) -/
def flagPut (B : Nat → Nat) (x : Nat × Nat) (p : Nat) : RArgs :=
  ⟨BitVec.ofNat 64 (adr B p x 0), BitVec.ofNat 64 (adr B p x 8), 0, fun _ => 0, 1, 1, 1⟩

/-- the calls of PE `p` of `n`: `shmem_long_wait_until(x, SHMEM_CMP_NE, 0)`, and unless it is the last PE data, fence, flag, quiet. The block `x` of
each PE: a flag, a word to send as flag, and `m` words of data. -/
def chainActs (n : Nat) (B : Nat → Nat) (x : Nat × Nat) (m p : Nat) : List NAct :=
  .wait .waitUntil ⟨.long, .long⟩ (BitVec.ofNat 64 (adr B p x 0)) 0x100002 0 ::
    if p + 1 < n then [.rma .put (.typed ⟨.long, .long⟩) false (dataPut B x m p) (p + 1), .fence,
      .rma .put (.typed ⟨.long, .long⟩) false (flagPut B x p) (p + 1), .quiet] else []

/-- the program -/
def chainN (n : Nat) (B : Nat → Nat) (x : Nat × Nat) (m : Nat) : NProg where
  next p i _ := (chainActs n B x m p)[i]?
  looks _ _ _ := False
  dep _ _ _ _ _ := rfl

/-- the bytes it works on: the block of every PE -/
def chainD (n : Nat) (B : Nat → Nat) (x : Nat × Nat) (m : Nat) (b : Nat × Int) : Prop :=
  b.1 < n ∧ (adr B b.1 x 0 : Int) ≤ b.2 ∧ b.2 < (adr B b.1 x (16 + 8 * m) : Nat)

/-- at the start the flag of PE 0 is set and no other; the words to send are not 0 -/
structure ChainStart (n : Nat) (B : Nat → Nat) (x : Nat × Nat) (M : Mems) : Prop where
  first : word (M 0) (adr B 0 x 0 : Nat) ⟨64, true⟩ ≠ 0
  flags : ∀ p, 0 < p → p < n → word (M p) (adr B p x 0 : Nat) ⟨64, true⟩ = 0
  ones : ∀ p < n, word (M p) (adr B p x 8 : Nat) ⟨64, true⟩ ≠ 0

/-! ## Proof -/

/-- the final values -/
def chainF (B : Nat → Nat) (x : Nat × Nat) (M : Mems) : Mems := fun p y =>
  if p = 0 then M 0 y
  else if y < (adr B p x 8 : Nat) then M (p - 1) (y - (adr B p x 0 : Nat) + (adr B (p - 1) x 8 : Nat))
  else if y < (adr B p x 16 : Nat) then M p y
  else M 0 (y - (adr B p x 0 : Nat) + (adr B 0 x 0 : Nat))

/-- the calls as actions -/
def chainA (n : Nat) (B : Nat → Nat) (x : Nat × Nat) (m p : Nat) : List Act :=
  .wait (adr B p x 0 : Nat) ⟨64, true⟩ 0x100002 0 ::
    if p + 1 < n then [.put (p + 1) false (pairs (adr B (p + 1) x 16 : Nat) (adr B p x 16 : Nat) m 8 1 1), .quiet,
      .put (p + 1) false (pairs (adr B (p + 1) x 0 : Nat) (adr B p x 8 : Nat) 1 8 1 1), .quiet] else []

theorem mem_pairs {d s : Int} {n : Nat} {y : Int × Int} : y ∈ pairs d s n 8 1 1 ↔ d ≤ y.1 ∧ y.1 < d + (8 * n : Nat) ∧ y.2 = y.1 - d + s := by
  unfold pairs byteOf
  constructor
  · intro h
    obtain ⟨z, hz, rfl⟩ := List.mem_map.1 h
    obtain ⟨h1, h2⟩ := mem_idx.1 hz
    dsimp only
    omega
  · rintro ⟨h1, h2, h3⟩
    refine List.mem_map.2 ⟨((y.1 - d).toNat / 8, (y.1 - d).toNat % 8), mem_idx.2 ⟨?_, ?_⟩, Prod.ext ?_ ?_⟩
    all_goals
      dsimp only
      omega

theorem passes_ne {w : Nat} (hw : w < 2 ^ 64) : Passes ⟨64, true⟩ 0x100002 0 w ↔ w ≠ 0 := by
  unfold Passes
  have e : P2p.comp ⟨64, true⟩ (BitVec.ofNat 64 w) 0x100002 (BitVec.ofNat 64 0) 0 =
      if (BitVec.ofNat 64 w).toInt ≠ (BitVec.ofNat 64 0).toInt then 1 else 0 := rfl
  show P2p.comp ⟨64, true⟩ (BitVec.ofNat 64 w) 0x100002 (BitVec.ofNat 64 0) 0 ≠ 0 ↔ _
  rw [e]
  have h0 : (BitVec.ofNat 64 w).toInt = (BitVec.ofNat 64 0).toInt ↔ w = 0 := by
    rw [BitVec.toInt_inj]
    constructor
    · intro h
      have := congrArg BitVec.toNat h
      rw [BitVec.toNat_ofNat, BitVec.toNat_ofNat, Nat.mod_eq_of_lt hw] at this
      exact this
    · rintro rfl; rfl
  split
  · rename_i h
    exact ⟨fun _ h' => h (h0.2 h'), fun _ => by decide⟩
  · rename_i h
    exact ⟨fun h' => absurd rfl h', fun h' => absurd (fun h'' => h' (h0.1 h'')) h⟩

theorem word_lt (m : IMem) (a : Int) : word m a ⟨64, true⟩ < 2 ^ 64 := by
  have := Mem.load_lt (Vis.view m a) 0 8
  exact this

theorem word_move {m m' : IMem} {a a' : Int} (h : ∀ i : Nat, i < 8 → m (a + i) = m' (a' + i)) :
    word m a ⟨64, true⟩ = word m' a' ⟨64, true⟩ := by
  unfold word
  refine Mem.load_congr fun i _ h2 => ?_
  have h2 : i < 0 + 8 := h2
  exact h i (by omega)

/-- only the actions of the PEs count -/
theorem Known.congr {n : Nat} {D : Nat × Int → Prop} {M : Mems} {acts acts' : Nat → List Act} (h : ∀ p < n, acts p = acts' p) {p i : Nat}
    {b : Nat × Int} (hk : Known n D M acts p i b) : p < n → Known n D M acts' p i b := by
  induction hk with
  | init hD hw => intro _; exact .init hD fun q hq a ha => hw q hq a (h q hq ▸ ha)
  | own k a hk ha hw hl => intro hp; exact .own k a hk (h _ hp ▸ ha) hw hl
  | quiet k a ha hw hq => intro hp; exact .quiet k a (h _ hp ▸ ha) hw (h _ hp ▸ hq)
  | wait k a t op v hk ha h0 hb ih =>
    intro hp
    exact .wait k a t op v hk (h _ hp ▸ ha) h0 fun q j c y hq hc h1 h2 hw => ih q j c y hq ((h q hq).symm ▸ hc) h1 h2 hw hq

theorem Means.congr {n : Nat} {D : Nat × Int → Prop} {P : Prog} {M : Mems} {acts acts' : Nat → List Act} {F : Mems}
    (h : ∀ p < n, acts p = acts' p) (hm : Means n D P M acts F) : Means n D P M acts' F := by
  refine ⟨?_, ?_, ?_, ?_, ?_, ?_, ?_, ?_⟩
  · intro p hp i hi; rw [← h p hp] at hi ⊢; exact hm.follows p hp i hi
  · intro p hp a ha; rw [← h p hp] at ha; exact hm.gives p hp a ha
  · intro b hb hn; exact hm.rest b hb fun p hp a ha => hn p hp a (h p hp ▸ ha)
  · intro p hp a ha; rw [← h p hp] at ha; exact hm.inside p hp a ha
  · intro p hp q hq i j a c b ha hc; rw [← h p hp] at ha; rw [← h q hq] at hc; exact hm.single p hp q hq i j a c b ha hc
  · intro p hp i a ha b hb
    rw [← h p hp] at ha
    obtain ⟨h1, h2⟩ := hm.reads p hp i a ha b hb
    exact ⟨h1, h2.congr h hp⟩
  · intro p hp i hi y hy
    rw [← h p hp] at hi
    obtain ⟨h1, h2⟩ := hm.looks p hp i hi y hy
    exact ⟨h1, h2.congr h hp⟩
  · intro p hp a ha; rw [← h p hp] at ha; exact hm.clean p hp a ha

theorem Ordered.congr {n : Nat} {acts acts' : Nat → List Act} {F : Mems} {rank : Nat → Nat → Nat} (h : ∀ p < n, acts p = acts' p)
    (ho : Ordered n acts F rank) : Ordered n acts' F rank := by
  refine ⟨ho.up, ?_, ?_⟩
  · intro p hp k a t op v hk; rw [← h p hp] at hk; exact ho.comes p hp k a t op v hk
  · intro p hp k a t op v hk q hq j c y hc
    rw [← h p hp] at hk
    rw [← h q hq] at hc ⊢
    exact ho.before p hp k a t op v hk q hq j c y hc

section
variable {n : Nat} {B : Nat → Nat} {x : Nat × Nat} {m : Nat} {M : Mems}

theorem chain_get {p i : Nat} {a : Act} (h : (chainA n B x m p)[i]? = some a) :
    (i = 0 ∧ a = .wait (adr B p x 0 : Nat) ⟨64, true⟩ 0x100002 0) ∨ (p + 1 < n ∧
      ((i = 1 ∧ a = .put (p + 1) false (pairs (adr B (p + 1) x 16 : Nat) (adr B p x 16 : Nat) m 8 1 1)) ∨ (i = 2 ∧ a = .quiet) ∨
        (i = 3 ∧ a = .put (p + 1) false (pairs (adr B (p + 1) x 0 : Nat) (adr B p x 8 : Nat) 1 8 1 1)) ∨ (i = 4 ∧ a = .quiet))) := by
  unfold chainA at h
  rcases i with _ | i
  · left
    exact ⟨rfl, (Option.some.inj h).symm⟩
  · right
    rw [List.getElem?_cons_succ] at h
    split at h
    · rename_i hn
      refine ⟨hn, ?_⟩
      rcases i with _ | _ | _ | _ | i
      · exact Or.inl ⟨rfl, (Option.some.inj h).symm⟩
      · exact Or.inr (Or.inl ⟨rfl, (Option.some.inj h).symm⟩)
      · exact Or.inr (Or.inr (Or.inl ⟨rfl, (Option.some.inj h).symm⟩))
      · exact Or.inr (Or.inr (Or.inr ⟨rfl, (Option.some.inj h).symm⟩))
      · rw [List.getElem?_eq_none (by simp)] at h
        cases h
    · cases h

/-- what is written, by whom -/
theorem chain_writes {p i : Nat} {a : Act} (h : (chainA n B x m p)[i]? = some a) {b : Nat × Int} (hw : a.writes p b) :
    p + 1 < n ∧ b.1 = p + 1 ∧ ((i = 1 ∧ (adr B b.1 x 16 : Int) ≤ b.2 ∧ b.2 < (adr B b.1 x 16 : Nat) + (8 * m : Nat)) ∨
      (i = 3 ∧ (adr B b.1 x 0 : Int) ≤ b.2 ∧ b.2 < (adr B b.1 x 8 : Nat))) := by
  rcases chain_get h with ⟨_, rfl⟩ | ⟨hn, ⟨hi, rfl⟩ | ⟨_, rfl⟩ | ⟨hi, rfl⟩ | ⟨_, rfl⟩⟩
  · exact hw.elim
  · obtain ⟨h1, y, hy, h2⟩ := hw
    have := mem_pairs.1 hy
    refine ⟨hn, h1, Or.inl ⟨hi, ?_⟩⟩
    rw [h1]
    omega
  · exact hw.elim
  · obtain ⟨h1, y, hy, h2⟩ := hw
    have := mem_pairs.1 hy
    refine ⟨hn, h1, Or.inr ⟨hi, ?_⟩⟩
    rw [h1]
    unfold adr at this ⊢
    omega
  · exact hw.elim

theorem chain_at {p : Nat} (hp : p + 1 < n) :
    (chainA n B x m p)[1]? = some (.put (p + 1) false (pairs (adr B (p + 1) x 16 : Nat) (adr B p x 16 : Nat) m 8 1 1)) ∧
    (chainA n B x m p)[2]? = some .quiet ∧
    (chainA n B x m p)[3]? = some (.put (p + 1) false (pairs (adr B (p + 1) x 0 : Nat) (adr B p x 8 : Nat) 1 8 1 1)) ∧
    (chainA n B x m p)[4]? = some .quiet := by
  unfold chainA
  rw [if_pos hp]
  exact ⟨rfl, rfl, rfl, rfl⟩

theorem not_written {b : Nat × Int} (h : ∀ (p i : Nat) (a : Act), p < n → (chainA n B x m p)[i]? = some a → ¬ a.writes p b) :
    ∀ p < n, ∀ a ∈ chainA n B x m p, ¬ a.writes p b := by
  intro p hp a ha
  obtain ⟨i, hi⟩ := List.getElem?_of_mem ha
  exact h p i a hp hi

/-- a PE that has waited may rely on the data -/
theorem chain_known (hs : ChainStart n B x M) {p i : Nat} (hp : p < n) (hi : 0 < i) {y : Int}
    (h1 : (adr B p x 16 : Int) ≤ y) (h2 : y < (adr B p x 16 : Nat) + (8 * m : Nat)) :
    Known n (chainD n B x m) M (chainA n B x m) p i (p, y) := by
  rcases Nat.eq_zero_or_pos p with rfl | hp0
  · refine .init ⟨hp, ?_, ?_⟩ (not_written fun q j a hq hj hw => ?_)
    · unfold adr at *; dsimp only; omega
    · unfold adr at *; dsimp only; omega
    · have := (chain_writes hj hw).2.1
      dsimp only at this
      omega
  · refine .wait 0 (adr B p x 0 : Nat) ⟨64, true⟩ 0x100002 0 hi rfl ?_ ?_
    · intro h
      exact (passes_ne (word_lt _ _)).1 h (hs.flags p hp0 hp)
    · intro q j c z hq hc hz1 hz2 hw
      obtain ⟨hn, e1, h⟩ := chain_writes hc hw
      dsimp only at e1 h
      have hz2 : z < (adr B p x 0 : Nat) + (8 : Nat) := hz2
      subst e1
      rcases h with ⟨_, h, _⟩ | ⟨rfl, _⟩
      · unfold adr at *; omega
      · refine .quiet 1 _ (chain_at hn).1 ⟨rfl, (y, y - (adr B (q + 1) x 16 : Nat) + (adr B q x 16 : Nat)), mem_pairs.2 ⟨h1, h2, rfl⟩, rfl⟩ ?_
        exact ⟨2, by omega, by omega, (chain_at hn).2.1⟩

theorem chain_means (hs : ChainStart n B x M) {P : Prog} (hf : ∀ p < n, ∀ i y, P.next p i y = (chainA n B x m p)[i]?)
    (hl : ∀ p i a, ¬ P.looks p i a) : Means n (chainD n B x m) P M (chainA n B x m) (chainF B x M) := by
  refine ⟨?_, ?_, ?_, ?_, ?_, ?_, ?_, ?_⟩
  · intro p hp i _
    exact hf p hp i _
  · intro p hp a ha
    obtain ⟨i, hi⟩ := List.getElem?_of_mem ha
    rcases chain_get hi with ⟨_, rfl⟩ | ⟨hn, ⟨hi, rfl⟩ | ⟨_, rfl⟩ | ⟨hi, rfl⟩ | ⟨_, rfl⟩⟩
    · trivial
    · intro z hz
      obtain ⟨h1, h2, h3⟩ := mem_pairs.1 hz
      rw [h3]
      unfold chainF
      rw [if_neg (by omega), if_neg (by unfold adr at *; omega), if_neg (by omega)]
      by_cases h0 : p = 0
      · subst h0
        rw [if_pos rfl]
        congr 1
        unfold adr
        omega
      · rw [if_neg h0, if_neg (by unfold adr at *; omega), if_neg (by omega)]
        congr 1
        unfold adr
        omega
    · trivial
    · intro z hz
      obtain ⟨h1, h2, h3⟩ := mem_pairs.1 hz
      rw [h3]
      unfold chainF
      rw [if_neg (by omega), if_pos (by unfold adr at *; omega)]
      have e : p + 1 - 1 = p := by omega
      rw [e]
      by_cases h0 : p = 0
      · subst h0
        rw [if_pos rfl]
      · rw [if_neg h0, if_neg (by omega), if_pos (by unfold adr at *; omega)]
    · trivial
  · intro b hb hno
    unfold chainF
    by_cases h0 : b.1 = 0
    · rw [if_pos h0, h0]
    · obtain ⟨hbn, hb1, hb2⟩ := hb
      have hq : b.1 - 1 + 1 < n := by omega
      have e : b.1 - 1 + 1 = b.1 := by omega
      obtain ⟨g1, _, g3, _⟩ := chain_at (n := n) (B := B) (x := x) (m := m) hq
      rw [if_neg h0]
      by_cases c1 : b.2 < (adr B b.1 x 8 : Nat)
      · exfalso
        refine hno (b.1 - 1) (by omega) _ (List.mem_of_getElem? g3) ?_
        refine ⟨e.symm, (b.2, b.2 - _ + _), mem_pairs.2 ⟨?_, ?_, rfl⟩, rfl⟩ <;> rw [e] <;> unfold adr at * <;> dsimp only <;> omega
      · rw [if_neg c1]
        by_cases c2 : b.2 < (adr B b.1 x 16 : Nat)
        · rw [if_pos c2]
        · exfalso
          refine hno (b.1 - 1) (by omega) _ (List.mem_of_getElem? g1) ?_
          refine ⟨e.symm, (b.2, b.2 - _ + _), mem_pairs.2 ⟨?_, ?_, rfl⟩, rfl⟩ <;> rw [e] <;> unfold adr at * <;> dsimp only <;> omega
  · intro p hp a ha b hb
    obtain ⟨i, hi⟩ := List.getElem?_of_mem ha
    rcases hb with hb | hb
    · obtain ⟨hn, e1, h⟩ := chain_writes hi hb
      refine ⟨by omega, ?_⟩
      unfold adr at *
      omega
    · rcases chain_get hi with ⟨_, rfl⟩ | ⟨hn, ⟨hi, rfl⟩ | ⟨_, rfl⟩ | ⟨hi, rfl⟩ | ⟨_, rfl⟩⟩
      · obtain ⟨e1, h1, h2⟩ := hb
        have h2 : b.2 < (adr B p x 0 : Nat) + (8 : Nat) := h2
        refine ⟨by omega, ?_⟩
        rw [e1]
        unfold adr at *
        omega
      all_goals exact hb.elim
  · intro p hp q hq i j a c b ha hc h1 h2
    obtain ⟨_, e1, c1⟩ := chain_writes ha h1
    obtain ⟨_, e2, c2⟩ := chain_writes hc h2
    refine ⟨by omega, ?_⟩
    unfold adr at *
    omega
  · intro p hp i a ha b hb
    rcases chain_get ha with ⟨_, rfl⟩ | ⟨hn, ⟨rfl, rfl⟩ | ⟨_, rfl⟩ | ⟨rfl, rfl⟩ | ⟨_, rfl⟩⟩
    · exact hb.elim
    · obtain ⟨e1, z, hz, e2⟩ := hb
      obtain ⟨h1, h2, h3⟩ := mem_pairs.1 hz
      obtain ⟨b1, b2⟩ := b
      dsimp only at e1 e2
      subst e1
      have k1 : (adr B b1 x 16 : Int) ≤ b2 := by omega
      have k2 : b2 < (adr B b1 x 16 : Nat) + (8 * m : Nat) := by omega
      refine ⟨⟨hp, ?_, ?_⟩, chain_known hs hp (by omega) k1 k2⟩ <;> unfold adr at * <;> dsimp only <;> omega
    · exact hb.elim
    · obtain ⟨e1, z, hz, e2⟩ := hb
      obtain ⟨h1, h2, h3⟩ := mem_pairs.1 hz
      obtain ⟨b1, b2⟩ := b
      dsimp only at e1 e2
      subst e1
      have k1 : (adr B b1 x 8 : Int) ≤ b2 := by omega
      have k2 : b2 < (adr B b1 x 16 : Nat) := by unfold adr at *; omega
      have hD : chainD n B x m (b1, b2) := by
        refine ⟨hp, ?_, ?_⟩ <;> unfold adr at * <;> dsimp only <;> omega
      refine ⟨hD, .init hD (not_written fun q j a hq hj hw => ?_)⟩
      obtain ⟨_, e1, c1⟩ := chain_writes hj hw
      unfold adr at *
      dsimp only at *
      omega
    · exact hb.elim
  · intro p _ i _ y h
    exact absurd h (hl p i y)
  · intro p hp a ha
    obtain ⟨i, hi⟩ := List.getElem?_of_mem ha
    rcases chain_get hi with ⟨_, rfl⟩ | ⟨hn, ⟨hi, rfl⟩ | ⟨_, rfl⟩ | ⟨hi, rfl⟩ | ⟨_, rfl⟩⟩
    · exact ⟨fun _ h => h.elim, trivial⟩
    · refine ⟨fun b h1 h2 => ?_, fun y hy z hz e => ?_⟩
      · have := h1.1
        have := h2.1
        omega
      · have h1 := mem_pairs.1 hy
        have h2 := mem_pairs.1 hz
        exact Prod.ext e (by omega)
    · exact ⟨fun _ h => h.elim, trivial⟩
    · refine ⟨fun b h1 h2 => ?_, fun y hy z hz e => ?_⟩
      · have := h1.1
        have := h2.1
        omega
      · have h1 := mem_pairs.1 hy
        have h2 := mem_pairs.1 hz
        exact Prod.ext e (by omega)
    · exact ⟨fun _ h => h.elim, trivial⟩

theorem chain_ordered (hs : ChainStart n B x M) : Ordered n (chainA n B x m) (chainF B x M) (fun p i => 5 * p + i) := by
  refine ⟨fun p _ i => by omega, ?_, ?_⟩
  · intro p hp k a t op v h
    rcases chain_get h with ⟨_, e⟩ | ⟨hn, ⟨hi, e⟩ | ⟨_, e⟩ | ⟨hi, e⟩ | ⟨_, e⟩⟩ <;> cases e
    refine (passes_ne (word_lt _ _)).2 ?_
    by_cases h0 : p = 0
    · subst h0
      have : chainF B x M 0 = M 0 := by
        funext y
        exact if_pos rfl
      rw [this]
      exact hs.first
    · rw [word_move (m' := M (p - 1)) (a' := (adr B (p - 1) x 8 : Nat)) fun i hi => ?_]
      · exact hs.ones (p - 1) (by omega)
      · unfold chainF
        rw [if_neg h0, if_pos (by unfold adr; omega)]
        congr 1
        omega
  · intro p hp k a t op v h q hq j c y hc h1 h2 hw
    rcases chain_get h with ⟨rfl, e⟩ | ⟨hn, ⟨hi, e⟩ | ⟨_, e⟩ | ⟨hi, e⟩ | ⟨_, e⟩⟩ <;> cases e
    obtain ⟨hn, e1, c1⟩ := chain_writes hc hw
    have h2 : y < (adr B p x 0 : Nat) + (8 : Nat) := h2
    dsimp only at e1 c1
    refine ⟨4, ?_, (chain_at hn).2.2.2, ?_⟩
    · omega
    · omega

end

section
variable {S : Sys} {k Z : Nat} {B : Nat → Nat} {s : Dl.St} {x : Nat × Nat} {m : Nat} {M : Mems}

theorem adr_int (J : Job S k Z B) (hin : 960 + x.1 + x.2 ≤ heapSize k Z) {d : Nat} (hd : d < x.2) {p : Nat} (hp : p < S.npes) :
    (BitVec.ofNat 64 (adr B p x d)).toInt = (adr B p x d : Nat) := by
  have := job_space J hp
  exact ofNat_int (by unfold adr; omega)

theorem chain_acts (J : Job S k Z B) (hin : 960 + x.1 + x.2 ≤ heapSize k Z) (hx : 16 + 8 * m ≤ x.2) (hm0 : 0 < m) {p : Nat} (hp : p < S.npes) :
    (chainActs S.npes B x m p).map (NAct.act B p) = chainA S.npes B x m p := by
  have a0 := adr_int J hin (d := 0) (by omega) hp
  have a8 := adr_int J hin (d := 8) (by omega) hp
  have a16 := adr_int J hin (d := 16) (by omega) hp
  have e0 : (NAct.wait .waitUntil ⟨.long, .long⟩ (BitVec.ofNat 64 (adr B p x 0)) 0x100002 0).act B p =
      .wait (adr B p x 0 : Nat) ⟨64, true⟩ 0x100002 0 := by
    show Act.wait (BitVec.ofNat 64 (adr B p x 0)).toInt ⟨64, true⟩ 0x100002 0 = _
    rw [a0]
  unfold chainActs chainA
  rw [List.map_cons, e0]
  congr 1
  split
  · have e1 : (NAct.rma .put (.typed ⟨.long, .long⟩) false (dataPut B x m p) (p + 1)).act B p =
        .put (p + 1) false (pairs (adr B (p + 1) x 16 : Nat) (adr B p x 16 : Nat) m 8 1 1) := by
      show Act.put (p + 1) false (pairs ((BitVec.ofNat 64 (adr B p x 16)).toInt - B p + B (p + 1)) (BitVec.ofNat 64 (adr B p x 16)).toInt m 8 1 1) = _
      rw [a16]
      have : ((adr B p x 16 : Nat) : Int) - B p + B (p + 1) = (adr B (p + 1) x 16 : Nat) := by unfold adr; omega
      rw [this]
    have e2 : (NAct.rma .put (.typed ⟨.long, .long⟩) false (flagPut B x p) (p + 1)).act B p =
        .put (p + 1) false (pairs (adr B (p + 1) x 0 : Nat) (adr B p x 8 : Nat) 1 8 1 1) := by
      show Act.put (p + 1) false (pairs ((BitVec.ofNat 64 (adr B p x 0)).toInt - B p + B (p + 1)) (BitVec.ofNat 64 (adr B p x 8)).toInt 1 8 1 1) = _
      rw [a0, a8]
      have : ((adr B p x 0 : Nat) : Int) - B p + B (p + 1) = (adr B (p + 1) x 0 : Nat) := by unfold adr; omega
      rw [this]
    simp only [List.map_cons, List.map_nil, e1, e2]
    rfl
  · rfl

/-- the program has a meaning, all calls have right arguments -/
theorem chainMeans (J : Job S k Z B) (hx : x ∈ s.live) (hin : 960 + x.1 + x.2 ≤ heapSize k Z) (hx2 : 16 + 8 * m ≤ x.2) (hm0 : 0 < m)
    (hm1 : 8 * m < 2 ^ 31) (hs : ChainStart S.npes B x M) :
    NMeans S k Z B s (chainD S.npes B x m) (chainN S.npes B x m) M (chainActs S.npes B x m) (chainF B x M) := by
  have hA := fun p (hp : p < S.npes) => chain_acts J hin hx2 hm0 hp
  have hmeans : Means S.npes (chainD S.npes B x m) ((chainN S.npes B x m).prog B) M (chainA S.npes B x m) (chainF B x M) := by
    refine chain_means hs (fun p hp i y => ?_) (fun p i a h => h)
    rw [← hA p hp]
    exact (List.getElem?_map ..).symm
  refine ⟨?_, fun p _ i _ => rfl, ?_⟩
  · exact hmeans.congr fun p hp => (hA p hp).symm
  · intro p hp a ha
    unfold chainActs at ha
    rcases List.mem_cons.1 ha with rfl | ha
    · refine ⟨rfl, by decide, x, hx, 0, hin, ?_, rfl⟩
      show 0 + 8 ≤ x.2
      omega
    · split at ha
      · rename_i hn
        have hd : ∀ (dd ss : BitVec 64) (mm d : Nat), 0 < mm → d + 8 * mm ≤ x.2 → 8 * mm < 2 ^ 31 → dd = BitVec.ofNat 64 (adr B p x d) →
            (NAct.rma .put (.typed ⟨.long, .long⟩) false ⟨dd, ss, 0, fun _ => 0, 1, 1, mm⟩ (p + 1)).Ok S k Z B s p := by
          intro dd ss mm d h1 h2 h3 h4
          refine ⟨rfl, x, d, fun gpu mode hmode => ⟨(by show _ ∈ rmaRows; decide), hp, hn, hx, hin, by omega, ?_, h4, fun _ => rfl,
            ⟨(by show mm < 2 ^ 31; omega), fun _ => (by show 8 * mm < 2 ^ 31; omega)⟩⟩⟩
          intro i hi b hb
          have hi : i < mm := hi
          have hb : b < 8 := hb
          show 0 ≤ byteOf (d : Nat) 8 1 i b ∧ byteOf (d : Nat) 8 1 i b < x.2
          unfold byteOf
          omega
        simp only [List.mem_cons, List.not_mem_nil, or_false] at ha
        rcases ha with rfl | rfl | rfl | rfl
        · exact hd _ _ m 16 hm0 hx2 hm1 rfl
        · trivial
        · exact hd _ _ 1 0 (by omega) (by omega) (by omega) rfl
        · trivial
      · cases ha

theorem chainOrdered (J : Job S k Z B) (hin : 960 + x.1 + x.2 ≤ heapSize k Z) (hx2 : 16 + 8 * m ≤ x.2) (hm0 : 0 < m)
    (hs : ChainStart S.npes B x M) :
    Ordered S.npes (fun p => (chainActs S.npes B x m p).map (NAct.act B p)) (chainF B x M) (fun p i => 5 * p + i) :=
  (chain_ordered (m := m) hs).congr fun p hp => (chain_acts J hin hx2 hm0 hp).symm

theorem chainF_data {p y : Nat} (hy : y < 8 * m) : chainF B x M p (adr B p x (16 + y) : Nat) = M 0 (adr B 0 x (16 + y) : Nat) := by
  unfold chainF
  split
  · rename_i h; subst h; rfl
  · rw [if_neg (by unfold adr; omega), if_neg (by unfold adr; omega)]
    congr 1
    unfold adr
    omega

/-- **C108** (worked example): in every execution, for every number of PEs, every amount of data and every interleaving: a PE that has waited for its
flag has the data of PE 0, for good. -/
theorem C108_chain_partial (J : Job S k Z B) (hx : x ∈ s.live) (hin : 960 + x.1 + x.2 ≤ heapSize k Z) (hx2 : 16 + 8 * m ≤ x.2) (hm0 : 0 < m)
    (hm1 : 8 * m < 2 ^ 31) (hs : ChainStart S.npes B x M) {l : List Ev} {z : X}
    (r : NRun S (chainD S.npes B x m) (chainN S.npes B x m) (start M) l z) {p : Nat} (hp : p < S.npes) (hw : 1 ≤ z.pos p) {y : Nat} (hy : y < 8 * m) :
    z.g.mem p (adr B p x (16 + y) : Nat) = M 0 (adr B 0 x (16 + y) : Nat) := by
  have hm := chainMeans J hx hin hx2 hm0 hm1 hs
  have r' := C108_moves_partial J hm r
  have hA : ∀ p < S.npes, (chainActs S.npes B x m p).map (NAct.act B p) = chainA S.npes B x m p := fun p hp => chain_acts J hin hx2 hm0 hp
  refine Eq.trans ?_ (chainF_data (B := B) (x := x) (M := M) (p := p) hy)
  rcases Nat.eq_zero_or_pos p with rfl | hp0
  · refine (C108_relied (b := (0, ((adr B 0 x (16 + y) : Nat) : Int))) hm.means r' hp (i := 0) (Or.inl (by omega)) (.init ⟨hp, ?_, ?_⟩ ?_)).1
    · unfold adr; dsimp only; omega
    · unfold adr; dsimp only; omega
    · intro q hq a ha hw
      rw [hA q hq] at ha
      obtain ⟨j, hj⟩ := List.getElem?_of_mem ha
      have := (chain_writes hj hw).2.1
      dsimp only at this
      omega
  · have e : p - 1 + 1 = p := by omega
    obtain ⟨g1, g2, g3, _⟩ := chain_at (n := S.npes) (B := B) (x := x) (m := m) (p := p - 1) (by omega)
    refine (C108_message (b := (p, ((adr B p x (16 + y) : Nat) : Int))) hm.means r' hp (q := p - 1) (by omega) (i := 1) (j := 3) (k := 0)
      (by rw [hA _ (by omega)]; exact g1) ?_ ⟨2, by omega, by omega, by rw [hA _ (by omega)]; exact g2⟩ (by rw [hA p hp]; rfl) ?_
      (by rw [hA _ (by omega)]; exact g3) ?_ (by omega)).1
    · refine ⟨e.symm, (((adr B p x (16 + y) : Nat) : Int), ((adr B p x (16 + y) : Nat) : Int) - _ + _), mem_pairs.2 ⟨?_, ?_, rfl⟩, rfl⟩ <;> rw [e] <;> unfold adr <;> dsimp only <;> omega
    · intro h
      exact (passes_ne (word_lt _ _)).1 h (hs.flags p hp0 hp)
    · intro z h1 h2
      have h2 : z < (adr B p x 0 : Nat) + (8 : Nat) := h2
      refine ⟨e.symm, (z, z - _ + _), mem_pairs.2 ⟨?_, ?_, rfl⟩, rfl⟩ <;> rw [e] <;> dsimp only <;> omega

/-- **C108** (worked example): in every fair execution all PEs have the data of PE 0 in the end, for good, and have returned from all calls. -/
theorem C108_chain_ends_partial (J : Job S k Z B) (hx : x ∈ s.live) (hin : 960 + x.1 + x.2 ≤ heapSize k Z) (hx2 : 16 + 8 * m ≤ x.2) (hm0 : 0 < m)
    (hm1 : 8 * m < 2 ^ 31) {R : Inf S} {pos : Nat → Nat → Nat} (hs : ChainStart S.npes B x R.mem) (F : R.Fair)
    (E : NExec (chainD S.npes B x m) (chainN S.npes B x m) R pos) :
    ∃ i, ∀ j, i ≤ j → ∀ p < S.npes, pos j p = (chainActs S.npes B x m p).length ∧ (R.st j).busy p = [] ∧
      ∀ y < 8 * m, (R.st j).mem p (adr B p x (16 + y) : Nat) = R.mem 0 (adr B 0 x (16 + y) : Nat) := by
  have hm := chainMeans J hx hin hx2 hm0 hm1 hs
  obtain ⟨i, hi⟩ := C108_named_partial J hm rfl F E (chainOrdered J hin hx2 hm0 hs)
  refine ⟨i, fun j hj p hp => ?_⟩
  obtain ⟨h1, h2⟩ := hi j hj
  refine ⟨(h1 p hp).1, (h1 p hp).2, fun y hy => ?_⟩
  refine (h2 ?_ (p, ((adr B p x (16 + y) : Nat) : Int)) ⟨hp, ?_, ?_⟩).trans (chainF_data hy)
  · intro q hq c a hc hl
    unfold chainActs at hc ⊢
    by_cases hn : q + 1 < S.npes
    · rw [if_pos hn] at hc ⊢
      rcases c with _ | _ | _ | _ | _ | c
      · cases hc; exact hl.elim
      · exact ⟨4, by omega, Or.inl rfl⟩
      · exact ⟨4, by omega, Or.inl rfl⟩
      · exact ⟨4, by omega, Or.inl rfl⟩
      · cases hc; exact hl.elim
      · rw [List.getElem?_eq_none (by simp)] at hc
        cases hc
    · rw [if_neg hn] at hc
      rcases c with _ | c
      · cases hc; exact hl.elim
      · cases hc
  · unfold adr; dsimp only; omega
  · unfold adr; dsimp only; omega

/-- such executions exist, for every number of PEs, from every such start -/
theorem C108_chain_exists (J : Job S k Z B) (hx : x ∈ s.live) (hin : 960 + x.1 + x.2 ≤ heapSize k Z) (hx2 : 16 + 8 * m ≤ x.2) (hm0 : 0 < m)
    (hm1 : 8 * m < 2 ^ 31) (hs : ChainStart S.npes B x M) :
    ∃ (R : Inf S) (pos : Nat → Nat → Nat), R.Fair ∧ R.mem = M ∧ NExec (chainD S.npes B x m) (chainN S.npes B x m) R pos :=
  C108_exists_partial J (chainMeans J hx hin hx2 hm0 hm1 hs) (chainOrdered J hin hx2 hm0 hs)

end

/-! ## Non-vacuity -/

/-- The job of `Flow/BlocksEx.lean`: two PEs, both have allocated 40 and 4 bytes; the flag of PE 0 is 1, both words to send are 1, the data of PE 0 are
three words all of whose bytes are 7. There is a fair execution, and in it PE 1 has the data in the end; up to any time it is an execution as in
`C108_chain_partial`. With it the hypotheses of all theorems of C108 are met. -/
def exChainM : Mems := fun p y => if (p = 0 ∧ y = 0x103C0) ∨ (p = 0 ∧ y = 0x103C8) ∨ (p = 1 ∧ y = 0x203C8) then 1 else if p = 0 ∧ 0x103D0 ≤ y then 7 else 0

example : ∃ (R : Inf (exS true)) (pos : Nat → Nat → Nat), R.Fair ∧ R.mem = exChainM ∧ NExec (chainD 2 exB (0, 40) 3) (chainN 2 exB (0, 40) 3) R pos ∧
    (∀ i, ∃ l, NRun (exS true) (chainD 2 exB (0, 40) 3) (chainN 2 exB (0, 40) 3) (start exChainM) l ⟨R.st i, pos i⟩) ∧
    (∃ i, 1 ≤ pos i 1) ∧ ∃ i, ∀ j, i ≤ j → ∀ y < 24, (R.st j).mem 1 (adr exB 1 (0, 40) (16 + y) : Nat) = 7 := by
  obtain ⟨s, _, hl⟩ := ex_made
  have hx : ((0, 40) : Nat × Nat) ∈ s.live := by rw [hl]; decide
  have hin : 960 + 0 + 40 ≤ heapSize 12 4096 := by decide
  have hs : ChainStart (exS true).npes exB (0, 40) exChainM := by
    refine ⟨by decide, fun p h1 h2 => ?_, fun p hp => ?_⟩
    · have h2 : p < 2 := h2
      have : p = 1 := by omega
      subst this
      decide
    · have hp : p < 2 := hp
      have : p = 0 ∨ p = 1 := by omega
      rcases this with rfl | rfl <;> decide
  obtain ⟨R, pos, F, hm, E⟩ := C108_chain_exists (m := 3) ex_job hx hin (by decide) (by decide) (by decide) hs
  obtain ⟨i, hi⟩ := C108_chain_ends_partial (m := 3) ex_job hx hin (by decide) (by decide) (by decide) (by rw [hm]; exact hs) F E
  refine ⟨R, pos, F, hm, E, fun i => hm ▸ E.named i, ⟨i, ?_⟩, i, fun j hj y hy => ?_⟩
  · rw [(hi i (Nat.le_refl _) 1 (by decide)).1]
    exact Nat.succ_le_succ (Nat.zero_le _)
  · rw [(hi j hj 1 (by decide)).2.2 y hy, hm]
    unfold exChainM adr exB
    rw [if_neg (by omega), if_pos (by omega)]

end Verif.Sig
