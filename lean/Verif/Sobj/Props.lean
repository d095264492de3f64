import Verif.Sobj.Model
/-!
# Properties C12, C13, C15: handles, address translation, lookup
-/
namespace Verif.Sobj

/-! ## C12 -/

theorem maskIdx_bit {i : Nat} (h : i < 32) : (0x1FFFFFFF#32).getLsbD i = decide (i < 29) := by
  revert i; decide
theorem maskSymm_bit {i : Nat} (h : i < 32) : (0x20000000#32).getLsbD i = decide (i = 29) := by
  revert i; decide
theorem maskKind_bit {i : Nat} (h : i < 32) : (0xc0000000#32).getLsbD i = decide (30 ≤ i) := by
  revert i; decide

theorem idx_high {idx : BitVec 32} (h : idx.toNat < 2 ^ 29) {i : Nat} (hi : 29 ≤ i) : idx.getLsbD i = false := by
  rw [BitVec.getLsbD]
  apply Nat.testBit_lt_two_pow
  exact Nat.lt_of_lt_of_le h (Nat.pow_le_pow_right (by omega) hi)

/-- small words: kinds 0..3, flags 0..1 -/
theorem small_high {x : BitVec 32} {w : Nat} (h : x.toNat < 2 ^ w) {i : Nat} (hi : w ≤ i) : x.getLsbD i = false := by
  rw [BitVec.getLsbD]
  apply Nat.testBit_lt_two_pow
  exact Nat.lt_of_lt_of_le h (Nat.pow_le_pow_right (by omega) hi)

theorem mk_bit (kind symm idx : BitVec 32) {i : Nat} (hi : i < 32) :
    (mkHandle kind symm idx).getLsbD i =
      ((decide (30 ≤ i) && kind.getLsbD (i - 30)) || (decide (29 ≤ i) && symm.getLsbD (i - 29)) || idx.getLsbD i) := by
  unfold mkHandle
  simp only [BitVec.getLsbD_or, BitVec.getLsbD_shiftLeft, hi, decide_true, Bool.true_and]
  have e1 : decide (30 ≤ i) = !decide (i < 30) := by
    by_cases h : i < 30
    · simp [h]
    · simp [h, Nat.le_of_not_lt h]
  have e2 : decide (29 ≤ i) = !decide (i < 29) := by
    by_cases h : i < 29
    · simp [h]
    · simp [h, Nat.le_of_not_lt h]
  rw [e1, e2]

/-- C12. Kind, flag and index come back out of a handle when the index has at most 29 bits. -/
theorem C12_round_trip (k : Kind) {symm idx : BitVec 32} (hs : symm.toNat < 2) (hi : idx.toNat < 2 ^ 29) :
    getKind (mkHandle k.val symm idx) = k.val ∧ getSymm (mkHandle k.val symm idx) = symm ∧
    getIdx (mkHandle k.val symm idx) = idx ∧ checkSymm (mkHandle k.val symm idx) = (symm != 0#32) := by
  have hk : k.val.toNat < 2 ^ 2 := by cases k <;> decide
  have hsy : getSymm (mkHandle k.val symm idx) = symm := by
    apply BitVec.eq_of_getLsbD_eq
    intro i h
    unfold getSymm
    rw [BitVec.getLsbD_ushiftRight, BitVec.getLsbD_and]
    by_cases h0 : i = 0
    · subst h0
      rw [mk_bit _ _ _ (by omega), maskSymm_bit (by omega), idx_high hi (by omega)]
      simp
    · rw [small_high (w := 1) (by simpa using hs) (by omega : 1 ≤ i)]
      by_cases h2 : 29 + i < 32
      · rw [maskSymm_bit h2]; simp; omega
      · rw [BitVec.getLsbD_of_ge _ _ (by omega)]; simp
  refine ⟨?_, hsy, ?_, ?_⟩
  · apply BitVec.eq_of_getLsbD_eq
    intro i h
    unfold getKind
    rw [BitVec.getLsbD_ushiftRight, BitVec.getLsbD_and]
    by_cases h2 : i < 2
    · rw [mk_bit _ _ _ (by omega), maskKind_bit (by omega), idx_high hi (by omega),
        small_high (w := 1) (x := symm) (by simpa using hs) (by omega)]
      have : 30 + i - 30 = i := by omega
      simp [this]
    · rw [small_high (w := 2) hk (by omega), BitVec.getLsbD_of_ge _ _ (by omega)]; simp
  · apply BitVec.eq_of_getLsbD_eq
    intro i h
    unfold getIdx
    rw [BitVec.getLsbD_and, mk_bit _ _ _ h, maskIdx_bit h]
    by_cases h2 : i < 29
    · simp [h2, show ¬ 30 ≤ i by omega, show ¬ 29 ≤ i by omega]
    · rw [idx_high hi (by omega)]; simp [h2]
  · have e : symm = 0#32 ∨ symm = 1#32 := by
      have : symm.toNat = 0 ∨ symm.toNat = 1 := by omega
      rcases this with h | h
      · left; exact BitVec.eq_of_toNat_eq (by simpa using h)
      · right; exact BitVec.eq_of_toNat_eq (by simpa using h)
    unfold getSymm at hsy
    unfold checkSymm
    rcases e with h | h
    · -- the masked word is zero
      have hz : (mkHandle k.val symm idx &&& 0x20000000#32) = 0#32 := by
        apply BitVec.eq_of_getLsbD_eq
        intro i hi'
        rw [BitVec.getLsbD_and, maskSymm_bit hi']
        by_cases h3 : i = 29
        · subst h3
          rw [mk_bit _ _ _ (by omega), idx_high hi (by omega), h]; simp
        · simp [h3]
      rw [hz, h]
    · have hz : (mkHandle k.val symm idx &&& 0x20000000#32) ≠ 0#32 := by
        intro h0
        rw [h0, h] at hsy
        have := congrArg BitVec.toNat hsy
        simp at this
      have e2 : (1#32 != 0#32) = true := by decide
      rw [h] at hz
      rw [h, e2, bne_iff_ne]; exact hz

/-- C12. Distinct (kind, flag, index) give distinct handles. -/
theorem C12_injective (k k' : Kind) {symm idx symm' idx' : BitVec 32} (hs : symm.toNat < 2) (hi : idx.toNat < 2 ^ 29)
    (hs' : symm'.toNat < 2) (hi' : idx'.toNat < 2 ^ 29)
    (h : mkHandle k.val symm idx = mkHandle k'.val symm' idx') : k = k' ∧ symm = symm' ∧ idx = idx' := by
  obtain ⟨a1, a2, a3, _⟩ := C12_round_trip k hs hi
  obtain ⟨b1, b2, b3, _⟩ := C12_round_trip k' hs' hi'
  rw [h] at a1 a2 a3
  refine ⟨?_, a2.symm.trans b2, a3.symm.trans b3⟩
  have : k.val = k'.val := a1.symm.trans b1
  revert this; cases k <;> cases k' <;> decide

/-- C12, the boundary: an index that needs bit 29 is confused with the flag, one that needs bit 30 with the kind
(a plain space handle becomes an attached one). -/
theorem C12_large_index_breaks :
    (∃ idx : BitVec 32, idx.toNat = 2 ^ 29 ∧ checkSymm (mkHandle Kind.attached.val 0#32 idx) = true) ∧
    (∃ idx : BitVec 32, idx.toNat = 2 ^ 30 ∧ getKind (mkHandle Kind.space.val 0#32 idx) = Kind.attached.val) :=
  ⟨⟨0x20000000#32, by decide, by decide⟩, ⟨0x40000000#32, by decide, by decide⟩⟩

/-! ## C13 -/

theorem setup_checkSymm (dyn : Bool) (k : Kind) {idx n : Nat} (bases : Nat → BitVec 64) (size : Int) (me : Nat)
    (hi : idx < 2 ^ 29) :
    checkSymm (setupAttr dyn k idx n bases size me).handle = (dyn && (checkSymmMem n bases me).1) := by
  have h1 : (BitVec.ofNat 32 idx).toNat < 2 ^ 29 := by
    rw [BitVec.toNat_ofNat, Nat.mod_eq_of_lt (by omega)]; exact hi
  unfold setupAttr
  simp only
  cases dyn with
  | false =>
    simp only [Bool.false_eq_true, if_false, Bool.false_and]
    rw [(C12_round_trip k (by decide) h1).2.2.2]; rfl
  | true =>
    simp only [Bool.true_and, if_true]
    cases (checkSymmMem n bases me).1 with
    | true => simp only [if_true]; rw [(C12_round_trip k (by decide) h1).2.2.2]; rfl
    | false => simp only [Bool.false_eq_true, if_false]; rw [(C12_round_trip k (by decide) h1).2.2.2]; rfl

/-- C13. For every object, offset, target PE and set of base addresses: the displacement computed on PE `me` for the
local address `bases me + off` makes MPI access `bases t + off` on PE `t`; in relative windows and, in a build with
dynamic windows, in absolute mode with equal or different bases. The translation is never undefined. -/
theorem C13_reaches_counterpart (dyn : Bool) (k : Kind) {idx n : Nat} (hi : idx < 2 ^ 29) (bases : Nat → BitVec 64)
    (size : Int) {me t : Nat} (ht : t < n) (off : BitVec 64) (mode : Mode) (hm : mode = .abs → dyn = true) :
    ∃ d, vaddrToDisp (setupAttr dyn k idx n bases size me) (bases me + off) t mode = .ok d ∧
      mpiAddr (bases t) d mode = bases t + off := by
  cases mode with
  | rel =>
    refine ⟨bases me + off - bases me, rfl, ?_⟩
    unfold mpiAddr
    rw [BitVec.add_comm (bases me) off, BitVec.add_sub_cancel]
  | abs =>
    have hd : dyn = true := hm rfl
    subst hd
    have hc := setup_checkSymm true k bases size me hi (n := n)
    rw [Bool.true_and] at hc
    cases hf : (checkSymmMem n bases me).1 with
    | true =>
      refine ⟨bases me + off, ?_, ?_⟩
      · unfold vaddrToDisp
        simp only
        rw [if_pos (by rw [hc, hf])]
      · unfold mpiAddr
        simp only [checkSymmMem, List.all_eq_true, List.mem_range, beq_iff_eq] at hf
        rw [hf t ht]
    | false =>
      have ho : (setupAttr true k idx n bases size me).offs = some (fun i => bases i - bases me) := by
        unfold checkSymmMem at hf
        unfold setupAttr checkSymmMem
        simp only at hf ⊢
        simp [hf]
      refine ⟨bases me + off + (bases t - bases me), ?_, ?_⟩
      · unfold vaddrToDisp
        simp only
        rw [if_neg (by rw [hc, hf]; simp), ho]
      · unfold mpiAddr
        simp only
        rw [BitVec.add_comm (bases me) off, BitVec.add_assoc, BitVec.add_comm (bases me),
          BitVec.sub_add_cancel, BitVec.add_comm]

/-- C13. All PEs agree on the "same base everywhere" flag of an object. -/
theorem C13_flag_agrees {n : Nat} (bases : Nat → BitVec 64) {p q : Nat} (hp : p < n) (hq : q < n) :
    (checkSymmMem n bases p).1 = (checkSymmMem n bases q).1 := by
  have key : ∀ a b, a < n → b < n → (checkSymmMem n bases a).1 = true → (checkSymmMem n bases b).1 = true := by
    intro a b ha hb h
    simp only [checkSymmMem, List.all_eq_true, List.mem_range, beq_iff_eq] at h ⊢
    intro i hi
    rw [h i hi, h b hb]
  cases h1 : (checkSymmMem n bases p).1 <;> cases h2 : (checkSymmMem n bases q).1
  · rfl
  · rw [key q p hq hp h2] at h1; simp at h1
  · rw [key p q hp hq h1] at h2; simp at h2
  · rfl

/-- C13. The assertions `target_disp >= 0` (rma_impl.h L25, L45) hold for addresses inside the object, in relative mode,
and in absolute mode when the target's address is a user-space (below 2^63) address. -/
theorem C13_disp_nonneg (dyn : Bool) (k : Kind) {idx n : Nat} (hi : idx < 2 ^ 29) (bases : Nat → BitVec 64)
    (size : Int) {me t : Nat} (ht : t < n) (off : BitVec 64) (mode : Mode) (hm : mode = .abs → dyn = true)
    (hoff : 0 ≤ off.toInt) (haddr : 0 ≤ (bases t + off).toInt) {d : BitVec 64}
    (h : vaddrToDisp (setupAttr dyn k idx n bases size me) (bases me + off) t mode = .ok d) : 0 ≤ d.toInt := by
  obtain ⟨d', h', e⟩ := C13_reaches_counterpart dyn k hi bases size ht off mode hm (me := me)
  rw [h] at h'; cases h'
  cases mode with
  | abs => unfold mpiAddr at e; simp only at e; rw [e]; exact haddr
  | rel =>
    unfold mpiAddr at e; simp only at e
    have : d = off := by
      have := congrArg (fun x => x - bases t) e
      simpa [BitVec.add_comm (bases t), BitVec.add_sub_cancel] using this
    rw [this]; exact hoff

/-! ## C15 -/

/-- the objects of a PE in lookup order -/
def objects (g : Proc) : List (Obj × Attr) :=
  (.heap, g.heap) :: (.data, g.data) :: g.spaces.map (fun s => (.space s.1, s.2))

/-- address `x` lies in the half-open range of `a` -/
def Contains (a : Attr) (x : BitVec 64) : Prop := a.base.toInt ≤ x.toInt ∧ x.toInt < a.base.toInt + a.size

theorem inRange_iff (a : Attr) (x : BitVec 64) : inRange a x = true ↔ Contains a x := by
  unfold inRange Contains; simp

/-- C15. The lookup succeeds iff some object contains the address; what it returns is an object that contains it; if
the objects' ranges are disjoint it is the only one. -/
theorem C15_lookup (g : Proc) (x : BitVec 64) :
    ((query g x).isSome = true ↔ ∃ o ∈ objects g, Contains o.2 x) ∧
    (∀ o, query g x = some o → o ∈ objects g ∧ Contains o.2 x) ∧
    ((∀ o ∈ objects g, ∀ o' ∈ objects g, Contains o.2 x → Contains o'.2 x → o = o') →
      ∀ o ∈ objects g, Contains o.2 x → query g x = some o) := by
  have hsome : ∀ o, query g x = some o → o ∈ objects g ∧ Contains o.2 x := by
    intro o h
    unfold query at h
    split at h
    · rename_i h1; cases h; exact ⟨by simp [objects], (inRange_iff _ _).1 h1⟩
    · split at h
      · rename_i h1; cases h; exact ⟨by simp [objects], (inRange_iff _ _).1 h1⟩
      · split at h
        · rename_i s h1
          cases h
          refine ⟨?_, (inRange_iff _ _).1 (by simpa using List.find?_some h1)⟩
          simp only [objects, List.mem_cons, List.mem_map]
          exact Or.inr (Or.inr ⟨s, List.mem_of_find?_eq_some h1, rfl⟩)
        · simp at h
  have hnone : query g x = none → ∀ o ∈ objects g, ¬ Contains o.2 x := by
    intro h o ho hc
    unfold query at h
    split at h
    · simp at h
    · rename_i h1
      split at h
      · simp at h
      · rename_i h2
        split at h
        · simp at h
        · rename_i h3
          simp only [objects, List.mem_cons, List.mem_map] at ho
          rcases ho with rfl | rfl | ⟨s, hs, rfl⟩
          · exact h1 ((inRange_iff _ _).2 hc)
          · exact h2 ((inRange_iff _ _).2 hc)
          · rw [List.find?_eq_none] at h3
            exact h3 s hs ((inRange_iff _ _).2 hc)
  refine ⟨?_, hsome, ?_⟩
  · constructor
    · intro h
      obtain ⟨o, ho⟩ := Option.isSome_iff_exists.1 h
      exact ⟨o, hsome o ho⟩
    · rintro ⟨o, ho, hc⟩
      cases hq : query g x with
      | none => exact absurd hc (hnone hq o ho)
      | some o' => rfl
  · intro hdis o ho hc
    cases hq : query g x with
    | none => exact absurd hc (hnone hq o ho)
    | some o' =>
      obtain ⟨h1, h2⟩ := hsome o' hq
      rw [hdis o ho o' h1 hc h2]

/-! ## Non-vacuity -/

/-- three PEs with different bases; PE 1 accesses offset 24 on PE 2 in absolute mode -/
example :
    let bases : Nat → BitVec 64 := fun i => BitVec.ofNat 64 (0x10000 * (i + 1))
    vaddrToDisp (setupAttr true .attached 7 3 bases 4096 1) (bases 1 + 24#64) 2 .abs = .ok 0x30018#64 ∧
    (checkSymmMem 3 bases 1).1 = false := by decide +kernel

/-- same bases: flag set, address used as it is -/
example :
    let bases : Nat → BitVec 64 := fun _ => 0x10000#64
    vaddrToDisp (setupAttr true .heap 0 3 bases 4096 1) (bases 1 + 24#64) 2 .abs = .ok 0x10018#64 ∧
    (checkSymmMem 3 bases 1).1 = true := by decide +kernel

/-- lookup with two spaces and disjoint ranges -/
example :
    let a (b : Nat) : Attr := { handle := 0#32, base := BitVec.ofNat 64 b, size := 4096, offs := none }
    let g : Proc := { heap := a 0x10000, data := a 0x20000, spaces := [(1, a 0x30000), (2, a 0x40000)] }
    (query g 0x40010#64).map Prod.fst = some (.space 2) ∧ (query g 0x50000#64).map Prod.fst = none := by
  decide +kernel

end Verif.Sobj
